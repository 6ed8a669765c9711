import Verif.Core.TypedFields
import Verif.Core.BitBufferProps
/-! # Lemmas about optional elements -/
namespace Verif.TypedFields
open Verif.Bits Verif.Codec

/-- The element `id` is not what comes next: either the optional part ends here (m-bit zero) or an
element with another identifier follows. -/
def Absent (id : Nat) (bs : List Bool) : Prop :=
  (∃ r, bs = false :: r) ∨ ∃ r, bs = true :: r ∧ 4 ≤ r.length ∧ ofBits (r.take 4) ≠ id

theorem absent_end (id : Nat) (r : List Bool) : Absent id (false :: r) := Or.inl ⟨r, rfl⟩

theorem absent_header {id id' : Nat} (h : id' < 16) (hne : id' ≠ id) (r : List Bool) :
    Absent id (true :: (toBits 4 id' ++ r)) := by
  refine Or.inr ⟨_, rfl, by simp, ?_⟩
  have : (toBits 4 id' ++ r).take 4 = toBits 4 id' := by
    rw [List.take_append_of_le_length (by simp)]; exact List.take_of_length_le (by simp)
  rw [this, ofBits_toBits (by simpa using h)]
  exact hne

theorem peekId_absent {id : Nat} {bs : List Bool} (h : Absent id bs) : (peekId id).run bs = .ok (false, bs) := by
  rcases h with ⟨r, rfl⟩ | ⟨r, rfl, h4, hne⟩
  · rfl
  · unfold peekId
    simp only [Rd.run_bind, Rd.run_look, Out.bind_ok, Rd.run_ite, Rd.run_fail, Rd.run_pure]
    rw [if_neg (by omega)]
    simp [hne]

theorem peekId_present {id : Nat} (h : id < 16) (r : List Bool) :
    (peekId id).run (true :: (toBits 4 id ++ r)) = .ok (true, true :: (toBits 4 id ++ r)) := by
  unfold peekId
  have : (toBits 4 id ++ r).take 4 = toBits 4 id := by
    rw [List.take_append_of_le_length (by simp)]; exact List.take_of_length_le (by simp)
  simp only [Rd.run_bind, Rd.run_look, Out.bind_ok, Rd.run_ite, Rd.run_fail, Rd.run_pure, this]
  rw [if_neg (by simp), ofBits_toBits (by simpa using h)]
  simp

/-- How an optional type 3/4 element with identifier `id` behaves when the o-bit is one: the writer gives
some bits; the reader takes exactly them when the same element does not follow again; and readers of
other identifiers see through an absent element and stop at a present one. -/
structure Fits {α : Type} (id : Nat) (w : Option α → Out (List Bool)) (p : Rd (Option α)) (v : Option α) (bs : List Bool) : Prop where
  wrote : w v = .ok bs
  read : ∀ rest, Absent id rest → p.run (bs ++ rest) = .ok (v, rest)
  other : ∀ id' rest, id ≠ id' → Absent id' rest → Absent id' (bs ++ rest)

theorem skip_header (id : Nat) (r : List Bool) : (Rd.skip 5).run (true :: (toBits 4 id ++ r)) = .ok ((), r) := by
  have := Rd.run_skip_append (true :: toBits 4 id) r (n := 5) (by simp)
  simpa using this

theorem exactly_append {α : Type} {p : Rd α} {bs : List Bool} {x : α} (rest : List Bool)
    (h : p.run (bs ++ rest) = .ok (x, rest)) : (exactly bs.length p).run (bs ++ rest) = .ok (x, rest) := by
  unfold exactly
  simp only [Rd.run_bind, Rd.run_look, Out.bind_ok, h, Rd.run_ite, Rd.run_pure, Rd.run_fail]
  rw [if_pos (by simp; omega)]

theorem fits_type3 {α : Type} {id : Nat} {w : α → Out (List Bool)} {p : Rd α} (hid : id < 16) (v : Option α)
    (h : ∀ x, v = some x → ∃ bs, w x = .ok bs ∧ bs.length < 2048 ∧ ∀ rest, p.run (bs ++ rest) = .ok (x, rest)) :
    ∃ bs, Fits id (wType3 true id w) (rdType3 true id p) v bs := by
  cases v with
  | none =>
    refine ⟨[], rfl, ?_, fun id' rest _ h => h⟩
    intro rest hr
    simp [rdType3, peekId_absent hr]
  | some x =>
    obtain ⟨bs, hw, hl, hr⟩ := h x rfl
    refine ⟨true :: toBits 4 id ++ (toBits 11 bs.length ++ bs), ?_, ?_, ?_⟩
    · simp [wType3, wHeader, hw, wBits_ok (show 4 ≤ 64 by omega) (show id < 2 ^ 4 by simpa using hid),
        wBits_ok (show 11 ≤ 64 by omega) (show bs.length < 2 ^ 11 by simpa using hl)]
    · intro rest _
      have e : true :: toBits 4 id ++ (toBits 11 bs.length ++ bs) ++ rest
          = true :: (toBits 4 id ++ (toBits 11 bs.length ++ (bs ++ rest))) := by simp
      rw [e]
      simp only [rdType3, if_true, Rd.run_bind, peekId_present hid, Out.bind_ok, skip_header, Rd.run_map,
        Rd.run_bits_append (show 11 ≤ 64 by omega) (show bs.length < 2 ^ 11 by simpa using hl),
        exactly_append rest (hr rest)]
    · intro id' rest hne _
      have e : true :: toBits 4 id ++ (toBits 11 bs.length ++ bs) ++ rest
          = true :: (toBits 4 id ++ (toBits 11 bs.length ++ (bs ++ rest))) := by simp
      rw [e]
      exact absent_header hid hne _

theorem fits_type3Generic {id : Nat} (hid : id < 16) (v : Option Type3Generic)
    (h : ∀ x, v = some x → x.fieldId = id ∧ x.len ≤ 64 ∧ x.data < 2 ^ x.len) :
    ∃ bs, Fits id (wType3Generic true id) (rdType3Generic true id) v bs := by
  cases v with
  | none =>
    refine ⟨[], rfl, ?_, fun id' rest _ h => h⟩
    intro rest hr
    simp [rdType3Generic, peekId_absent hr]
  | some x =>
    obtain ⟨hx, hl, hd⟩ := h x rfl
    have hl11 : x.len < 2 ^ 11 := by omega
    refine ⟨true :: toBits 4 id ++ (toBits 11 x.len ++ toBits x.len x.data), ?_, ?_, ?_⟩
    · simp [wType3Generic, wHeader, wBits_ok (show 4 ≤ 64 by omega) (show id < 2 ^ 4 by simpa using hid),
        wBits_ok (show 11 ≤ 64 by omega) hl11, wBits_ok hl hd]
    · intro rest _
      have e : true :: toBits 4 id ++ (toBits 11 x.len ++ toBits x.len x.data) ++ rest
          = true :: (toBits 4 id ++ (toBits 11 x.len ++ (toBits x.len x.data ++ rest))) := by simp
      rw [e]
      simp only [rdType3Generic, if_true, Rd.run_bind, peekId_present hid, Out.bind_ok, skip_header, Rd.run_ite,
        Rd.run_bits_append (show 11 ≤ 64 by omega) hl11, Rd.run_pure]
      rw [Nat.min_eq_left hl, Rd.run_bits_append hl hd]
      simp only [Out.bind_ok]
      rw [if_neg (by omega)]
      simp [← hx]
    · intro id' rest hne _
      have e : true :: toBits 4 id ++ (toBits 11 x.len ++ toBits x.len x.data) ++ rest
          = true :: (toBits 4 id ++ (toBits 11 x.len ++ (toBits x.len x.data ++ rest))) := by simp
      rw [e]
      exact absent_header hid hne _

theorem rdMany_append {α : Type} {w : α → Out (List Bool)} {p : Rd α} (xs : List α)
    (h : ∀ x ∈ xs, RoundTrip w p x) :
    ∃ bs, cat (xs.map w) = .ok bs ∧ ∀ rest, (rdMany p xs.length).run (bs ++ rest) = .ok (xs, rest) := by
  induction xs with
  | nil => exact ⟨[], rfl, fun rest => rfl⟩
  | cons x xs ih =>
    obtain ⟨b1, hw1, hr1⟩ := h x (by simp)
    obtain ⟨b2, hw2, hr2⟩ := ih (fun y hy => h y (by simp [hy]))
    refine ⟨b1 ++ b2, by simp [hw1, hw2], ?_⟩
    intro rest
    simp [rdMany, List.append_assoc, hr1, hr2]

theorem fits_type4 {α : Type} {id : Nat} {w : α → Out (List Bool)} {p : Rd α} (hid : id < 16) (v : Option (List α))
    (h : ∀ xs, v = some xs → xs.length < 64 ∧ (∀ x ∈ xs, RoundTrip w p x) ∧
      ∀ bs, cat (xs.map w) = .ok bs → 6 + bs.length < 2048) :
    ∃ bs, Fits id (wType4 true id w) (rdType4 true id p) v bs := by
  cases v with
  | none =>
    refine ⟨[], rfl, ?_, fun id' rest _ h => h⟩
    intro rest hr
    simp [rdType4, rdType4Header, peekId_absent hr]
  | some xs =>
    obtain ⟨hn, hrt, hlen⟩ := h xs rfl
    obtain ⟨bs, hw, hr⟩ := rdMany_append xs hrt
    have hl := hlen bs hw
    have hl11 : 6 + bs.length < 2 ^ 11 := by simpa using hl
    have hn6 : xs.length < 2 ^ 6 := by simpa using hn
    refine ⟨true :: toBits 4 id ++ (toBits 11 (6 + bs.length) ++ (toBits 6 xs.length ++ bs)), ?_, ?_, ?_⟩
    · simp [wType4, wHeader, hw, wBits_ok (show 4 ≤ 64 by omega) (show id < 2 ^ 4 by simpa using hid),
        wBits_ok (show 11 ≤ 64 by omega) hl11, wBits_ok (show 6 ≤ 64 by omega) hn6]
    · intro rest _
      have e : true :: toBits 4 id ++ (toBits 11 (6 + bs.length) ++ (toBits 6 xs.length ++ bs)) ++ rest
          = true :: (toBits 4 id ++ (toBits 11 (6 + bs.length) ++ (toBits 6 xs.length ++ (bs ++ rest)))) := by simp
      rw [e]
      simp only [rdType4, rdType4Header, if_true, Rd.run_bind, peekId_present hid, Out.bind_ok, skip_header, Rd.run_ite,
        Rd.run_bits_append (show 11 ≤ 64 by omega) hl11, Rd.run_bits_append (show 6 ≤ 64 by omega) hn6, Rd.run_pure]
      rw [if_neg (by omega)]
      simp only [Out.bind_ok, Rd.run_map, Nat.add_sub_cancel_left, exactly_append rest (hr rest)]
    · intro id' rest hne _
      have e : true :: toBits 4 id ++ (toBits 11 (6 + bs.length) ++ (toBits 6 xs.length ++ bs)) ++ rest
          = true :: (toBits 4 id ++ (toBits 11 (6 + bs.length) ++ (toBits 6 xs.length ++ (bs ++ rest)))) := by simp
      rw [e]
      exact absent_header hid hne _

theorem type2_roundTrip {α : Type} {w : α → Out (List Bool)} {p : Rd α} (v : Option α)
    (h : ∀ x, v = some x → RoundTrip w p x) :
    ∃ bs, wType2 true w v = .ok bs ∧ ∀ rest, (rdType2 true p).run (bs ++ rest) = .ok (v, rest) := by
  cases v with
  | none => exact ⟨[false], rfl, fun rest => by simp [rdType2]⟩
  | some x =>
    obtain ⟨bs, hw, hr⟩ := h x rfl
    exact ⟨true :: bs, by simp [wType2, hw], fun rest => by simp [rdType2, hr]⟩

theorem roundTrip_bits {n : Nat} (hn : n ≤ 64) {v : Nat} (hv : v < 2 ^ n) : RoundTrip (wBits · n) (Rd.bits n) v :=
  ⟨_, wBits_ok hn hv, fun rest => Rd.run_bits_append hn hv rest⟩

/-! ## Absence of aborts -/

theorem safe_peekId (id : Nat) : Rd.Safe (peekId id) := by
  intro bs
  unfold peekId
  simp only [Rd.run_bind, Rd.run_look, Out.bind_ok]
  match bs with
  | [] => simp
  | false :: _ => simp
  | true :: r => simp only [Rd.run_ite]; split <;> simp

theorem safe_type2 {α : Type} (obit : Bool) {p : Rd α} (hp : Rd.Safe p) : Rd.Safe (rdType2 obit p) := by
  unfold rdType2; safe_rd

theorem safe_exactly {α : Type} (n : Nat) {p : Rd α} (hp : Rd.Safe p) : Rd.Safe (exactly n p) := by
  unfold exactly; safe_rd

/-- After a successful look at the header there are five bits to skip. -/
theorem peekId_true {id : Nat} {bs r : List Bool} (h : (peekId id).run bs = .ok (true, r)) : r = bs ∧ 5 ≤ bs.length := by
  unfold peekId at h
  simp only [Rd.run_bind, Rd.run_look, Out.bind_ok] at h
  match bs, h with
  | [], h => simp at h
  | false :: _, h => simp at h
  | true :: t, h =>
    simp only [Rd.run_ite] at h
    split at h
    · simp at h
    · simp at h; refine ⟨h.2.symm, ?_⟩; simp; omega

theorem safe_header {β : Type} (id : Nat) {q : Rd β} {z : Rd β} (hq : Rd.Safe q) (hz : Rd.Safe z) :
    Rd.Safe (peekId id >>= fun present => if present then (Rd.skip 5 >>= fun _ => q) else z) := by
  intro bs h
  rw [Rd.run_bind, Out.bind_eq_panic] at h
  rcases h with h | ⟨⟨b, r⟩, h1, h2⟩
  · exact safe_peekId id bs h
  · cases b
    · exact hz _ (by simpa using h2)
    · obtain ⟨rfl, h5⟩ := peekId_true h1
      simp only [if_true, Rd.run_bind, Rd.skip] at h2
      rw [if_pos h5] at h2
      exact hq _ (by simpa using h2)

theorem safe_type3 {α : Type} (obit : Bool) (id : Nat) {p : Rd α} (hp : Rd.Safe p) : Rd.Safe (rdType3 obit id p) := by
  unfold rdType3
  apply Rd.safe_ite
  · intro _
    apply safe_header
    · exact Rd.safe_bind (Rd.safe_bits _) fun n => Rd.safe_map (safe_exactly n hp)
    · exact Rd.safe_pure _
  · intro _; exact Rd.safe_pure _

theorem safe_many {α : Type} {p : Rd α} (hp : Rd.Safe p) (n : Nat) : Rd.Safe (rdMany p n) := by
  induction n with
  | zero => exact Rd.safe_pure _
  | succ n ih => unfold rdMany; safe_rd

theorem eats_peekId (id : Nat) : Rd.Eats (peekId id) := by
  unfold peekId
  refine Rd.eats_bind Rd.eats_look fun bs => ?_
  split <;> eats_rd

theorem eats_type2 {α : Type} (obit : Bool) {p : Rd α} (hp : Rd.Eats p) : Rd.Eats (rdType2 obit p) := by
  unfold rdType2; eats_rd

theorem eats_exactly {α : Type} (n : Nat) {p : Rd α} (hp : Rd.Eats p) : Rd.Eats (exactly n p) := by
  unfold exactly; eats_rd

theorem eats_type3 {α : Type} (obit : Bool) (id : Nat) {p : Rd α} (hp : Rd.Eats p) : Rd.Eats (rdType3 obit id p) := by
  have := eats_peekId id
  have := fun n => eats_exactly n hp
  unfold rdType3
  apply Rd.eats_ite
  · intro _
    refine Rd.eats_bind (eats_peekId id) fun b => ?_
    apply Rd.eats_ite <;> intro _
    · exact Rd.eats_bind (Rd.eats_skip 5) fun _ => Rd.eats_bind (Rd.eats_bits 11) fun n => Rd.eats_map (eats_exactly n hp)
    · exact Rd.eats_pure _
  · intro _; exact Rd.eats_pure _

theorem eats_many {α : Type} {p : Rd α} (hp : Rd.Eats p) (n : Nat) : Rd.Eats (rdMany p n) := by
  induction n with
  | zero => exact Rd.eats_pure _
  | succ n ih => unfold rdMany; eats_rd

theorem rdEnd_true (rest : List Bool) : (rdEnd true).run (false :: rest) = .ok ((), rest) := by simp [rdEnd]
theorem rdEnd_false (rest : List Bool) : (rdEnd false).run rest = .ok ((), rest) := by simp [rdEnd]
theorem safe_end (o : Bool) : Rd.Safe (rdEnd o) := by unfold rdEnd; safe_rd

theorem rdType2_false {α : Type} (p : Rd α) : rdType2 false p = pure none := rfl
theorem rdType3_false {α : Type} (id : Nat) (p : Rd α) : rdType3 false id p = pure none := rfl
theorem rdType4_false {α : Type} (id : Nat) (p : Rd α) : rdType4 false id p = pure none := rfl
theorem rdType3Generic_false (id : Nat) : rdType3Generic false id = pure none := rfl
theorem rdType4Generic_false (id : Nat) : rdType4Generic false id = pure none := rfl

end Verif.TypedFields
