import Verif.Core.TypedFieldsProps
/-!
# The form shared by the PDUs of the upper layers

A PDU of MM, CMCE or MLE is a PDU type of fixed width, mandatory elements, and the optional part of
`Verif.TypedFields`. The pieces used by every PDU model.
-/
namespace Verif.TypedFields
open Verif.Bits Verif.Codec

/-- crates/tetra-core/src/pdu_parse_error.rs `expect_pdu_type!` after `read_field(n, "pdu_type")?`: `Err` unless the PDU type
is the expected one. -/
def expectType (n t : Nat) : Rd Unit := do
  let v ← Rd.bits n
  if v = t then pure () else Rd.fail

/-- `if let Some(v) = x { buffer.write_bits(v, n) }`. -/
def wOpt (v : Option Nat) (n : Nat) : Out (List Bool) :=
  match v with
  | some x => wBits x n
  | none => .ok []

/-- `if c { Some(read()?) } else { None }`. -/
def rdIf {α : Type} (c : Bool) (p : Rd α) : Rd (Option α) := if c then some <$> p else pure none

/-- A type 2 element of `n` bits (`parse_type2_generic`, `write_type2_generic`). -/
abbrev num2 (n : Nat) : Field := .type2 (wBits · n) (Rd.bits n)

theorem run_expectType {n t : Nat} (hn : n ≤ 64) (ht : t < 2 ^ n) (rest : List Bool) :
    (expectType n t).run (toBits n t ++ rest) = .ok ((), rest) := by
  simp [expectType, Rd.run_bits_append hn ht]

theorem safe_expectType (n t : Nat) : (expectType n t).Safe := by unfold expectType; safe_rd

theorem safe_rdIf {α : Type} (c : Bool) {p : Rd α} (hp : p.Safe) : (rdIf c p).Safe := by unfold rdIf; safe_rd

@[simp] theorem wOpt_none (n : Nat) : wOpt none n = .ok [] := rfl
@[simp] theorem wOpt_some (x n : Nat) : wOpt (some x) n = wBits x n := rfl
@[simp] theorem rdIf_true {α : Type} (p : Rd α) : rdIf true p = (some <$> p) := rfl
@[simp] theorem rdIf_false {α : Type} (p : Rd α) : rdIf false p = pure none := rfl

/-! ## Which received bits make a reader abort -/

/-- At this place of a PDU stands the header of a type 3/4 element with a length which cannot be: below the six bits of the
repetition count, or more than 64 bits and beyond the end of what was received. -/
def BadElement (bs : List Bool) : Prop :=
  ∃ id len rest, id < 16 ∧ len < 2048 ∧ bs = true :: (toBits 4 id ++ (toBits 11 len ++ rest)) ∧
    (len < 6 ∨ 64 < len ∧ rest.length < len)

/-- The reader aborts only when it finds such an element somewhere in the bits. -/
def AbortsOnBadElement {α : Type} (p : Rd α) : Prop := ∀ bs, p.run bs = .panic → ∃ pre s, bs = pre ++ s ∧ BadElement s

theorem aborts_of_safe {α : Type} {p : Rd α} (h : p.Safe) : AbortsOnBadElement p := fun bs hb => (h bs hb).elim

theorem aborts_bind {α β : Type} {p : Rd α} {f : α → Rd β} (he : p.Eats) (hp : AbortsOnBadElement p)
    (hf : ∀ a, AbortsOnBadElement (f a)) : AbortsOnBadElement (p >>= f) := by
  intro bs h
  rw [Rd.run_bind, Out.bind_eq_panic] at h
  rcases h with h | ⟨⟨a, r⟩, h1, h2⟩
  · exact hp bs h
  · obtain ⟨l, rfl⟩ := he _ _ _ h1
    obtain ⟨pre, s, hr, hs⟩ := hf a r h2
    exact ⟨l ++ pre, s, by rw [hr, List.append_assoc], hs⟩

theorem aborts_map {α β : Type} {p : Rd α} {f : α → β} (hp : AbortsOnBadElement p) : AbortsOnBadElement (f <$> p) := by
  intro bs h
  rw [Rd.run_map, Out.bind_eq_panic] at h
  rcases h with h | ⟨a, _, h⟩
  · exact hp bs h
  · simp at h

theorem aborts_ite {α : Type} {c : Prop} [Decidable c] {p q : Rd α} (hp : c → AbortsOnBadElement p)
    (hq : ¬ c → AbortsOnBadElement q) : AbortsOnBadElement (if c then p else q) := by
  split
  · exact hp ‹_›
  · exact hq ‹_›

theorem aborts_many {α : Type} {p : Rd α} (he : p.Eats) (hp : AbortsOnBadElement p) (n : Nat) : AbortsOnBadElement (rdMany p n) := by
  induction n with
  | zero => exact aborts_of_safe (Rd.safe_pure _)
  | succ n ih =>
    exact aborts_bind he hp fun x => aborts_bind (eats_many he n) ih fun xs => aborts_of_safe (Rd.safe_pure _)

theorem aborts_exactly {α : Type} {p : Rd α} (he : p.Eats) (hp : AbortsOnBadElement p) (n : Nat) : AbortsOnBadElement (exactly n p) := by
  unfold exactly
  refine aborts_bind Rd.eats_look (aborts_of_safe Rd.safe_look) fun b => aborts_bind he hp fun x => ?_
  exact aborts_of_safe (by safe_rd)

theorem toBits_ofBits' {l : List Bool} {n : Nat} (h : l.length = n) : toBits n (ofBits l) = l := by
  subst h; exact toBits_ofBits l

/-- What a successful look at a header tells about the bits. -/
theorem peekId_shape {id : Nat} {bs r : List Bool} (h : (peekId id).run bs = .ok (true, r)) :
    r = bs ∧ id < 16 ∧ ∃ t, bs = true :: (toBits 4 id ++ t) := by
  unfold peekId at h
  simp only [Rd.run_bind, Rd.run_look, Out.bind_ok] at h
  match bs, h with
  | [], h => simp at h
  | false :: _, h => simp at h
  | true :: t, h =>
    simp only [Rd.run_ite] at h
    split at h
    · simp at h
    · rename_i hl
      simp only [Rd.run_pure, Out.ok.injEq, Prod.mk.injEq, beq_iff_eq] at h
      have h4 : (t.take 4).length = 4 := by simp; omega
      refine ⟨h.2.symm, ?_, t.drop 4, ?_⟩
      · rw [← h.1]; have := ofBits_lt (t.take 4); rw [h4] at this; simpa using this
      · rw [← h.1, toBits_ofBits' h4, List.take_append_drop]

theorem run_bits_ok {n : Nat} {bs : List Bool} {v : Nat} {r : List Bool} (h : (Rd.bits n).run bs = .ok (v, r)) :
    v < 2 ^ n ∧ bs = toBits n v ++ r ∧ n ≤ 64 := by
  simp only [Rd.bits] at h
  split at h
  · rename_i hn
    simp only [Out.ok.injEq, Prod.mk.injEq] at h
    obtain ⟨rfl, rfl⟩ := h
    have hl : (bs.take n).length = n := by simp; omega
    refine ⟨?_, ?_, hn.1⟩
    · have := ofBits_lt (bs.take n); rwa [hl] at this
    · rw [toBits_ofBits' hl, List.take_append_drop]
  · simp at h

theorem aborts_generic3 (obit : Bool) (id : Nat) : AbortsOnBadElement (rdType3Generic obit id) := by
  intro bs h
  unfold rdType3Generic at h
  cases obit with
  | false => simp at h
  | true =>
    simp only [if_true, Rd.run_bind, Out.bind_eq_panic] at h
    rcases h with h | ⟨⟨b, r⟩, h1, h⟩
    · exact (safe_peekId id bs h).elim
    cases b with
    | false => simp at h
    | true =>
      obtain ⟨rfl, hid, t, rfl⟩ := peekId_shape h1
      simp only [if_true, Rd.run_bind, skip_header, Out.bind_ok, Out.bind_eq_panic] at h
      rcases h with h | ⟨⟨len, r2⟩, h2, h⟩
      · exact (Rd.safe_bits _ _ h).elim
      rcases h with h | ⟨⟨d, r3⟩, h3, h⟩
      · exact (Rd.safe_bits _ _ h).elim
      obtain ⟨hl, rfl, _⟩ := run_bits_ok h2
      obtain ⟨_, e3, _⟩ := run_bits_ok h3
      simp only [Rd.run_ite] at h
      split at h
      · rename_i h64
        simp only [Rd.run_bind, Out.bind_eq_panic] at h
        rcases h with h | ⟨_, _, h⟩
        · simp only [Rd.skip] at h
          split at h
          · simp at h
          · rename_i hs
            refine ⟨[], _, rfl, id, len, r2, hid, by simpa using hl, rfl, Or.inr ⟨h64, ?_⟩⟩
            have := congrArg List.length e3
            simp only [List.length_append, length_toBits] at this
            rw [Nat.min_eq_right (by omega)] at this
            omega
        · simp at h
      · simp at h

theorem aborts_header4 {id : Nat} : AbortsOnBadElement (rdType4Header id) := by
  intro bs h
  unfold rdType4Header at h
  simp only [Rd.run_bind, Out.bind_eq_panic] at h
  rcases h with h | ⟨⟨b, r⟩, h1, h⟩
  · exact (safe_peekId id bs h).elim
  cases b with
  | false => simp at h
  | true =>
    obtain ⟨rfl, hid, t, rfl⟩ := peekId_shape h1
    simp only [if_true, Rd.run_bind, skip_header, Out.bind_ok, Out.bind_eq_panic] at h
    rcases h with h | ⟨⟨len, r2⟩, h2, h⟩
    · exact (Rd.safe_bits _ _ h).elim
    rcases h with h | ⟨⟨n, r3⟩, h3, h⟩
    · exact (Rd.safe_bits _ _ h).elim
    obtain ⟨hl, rfl, _⟩ := run_bits_ok h2
    simp only [Rd.run_ite] at h
    split at h
    · rename_i h6
      exact ⟨[], _, rfl, id, len, r2, hid, by simpa using hl, rfl, Or.inl h6⟩
    · simp at h

theorem eats_header4 {id : Nat} : (rdType4Header id).Eats := by
  unfold rdType4Header
  refine Rd.eats_bind (eats_peekId id) fun b => ?_
  apply Rd.eats_ite <;> intro _
  · eats_rd
  · exact Rd.eats_pure _

theorem aborts_type4 {α : Type} {p : Rd α} (obit : Bool) (id : Nat) (he : p.Eats) (hp : AbortsOnBadElement p) :
    AbortsOnBadElement (rdType4 obit id p) := by
  unfold rdType4
  refine aborts_ite (fun _ => ?_) fun _ => aborts_of_safe (Rd.safe_pure _)
  refine aborts_bind eats_header4 aborts_header4 fun a => ?_
  match a with
  | none => exact aborts_of_safe (Rd.safe_pure _)
  | some (n, len) => exact aborts_map (aborts_exactly (eats_many he n) (aborts_many he hp n) len)

theorem eats_type4 {α : Type} {p : Rd α} (obit : Bool) (id : Nat) (he : p.Eats) : (rdType4 obit id p).Eats := by
  unfold rdType4
  refine Rd.eats_ite (fun _ => ?_) fun _ => Rd.eats_pure _
  refine Rd.eats_bind eats_header4 fun a => ?_
  match a with
  | none => exact Rd.eats_pure _
  | some (n, len) => exact Rd.eats_map (eats_exactly len (eats_many he n))

theorem aborts_todo4 (obit : Bool) (id : Nat) : AbortsOnBadElement (rdType4Generic obit id) := by
  intro bs h
  unfold rdType4Generic at h
  cases obit with
  | false => simp at h
  | true =>
    simp only [if_true, Rd.run_bind, Out.bind_eq_panic] at h
    rcases h with h | ⟨⟨a, r⟩, h1, h⟩
    · exact aborts_header4 bs h
    unfold rdType4Header at h1
    rw [Rd.run_bind, Out.bind_eq_ok] at h1
    obtain ⟨⟨b, r1⟩, h0, h1⟩ := h1
    cases b with
    | false => simp only [Bool.false_eq_true, if_false, Rd.run_pure, Out.ok.injEq, Prod.mk.injEq] at h1; obtain ⟨rfl, rfl⟩ := h1; simp at h
    | true =>
      obtain ⟨rfl, hid, t, rfl⟩ := peekId_shape h0
      simp only [if_true, Rd.run_bind, skip_header, Out.bind_ok, Out.bind_eq_ok] at h1
      obtain ⟨⟨len, r2⟩, h2, ⟨n, r3⟩, h3, h1⟩ := h1
      obtain ⟨hl, rfl, _⟩ := run_bits_ok h2
      obtain ⟨_, e3, _⟩ := run_bits_ok h3
      simp only [Rd.run_ite] at h1
      split at h1
      · simp at h1
      simp only [Rd.run_pure, Out.ok.injEq, Prod.mk.injEq] at h1
      obtain ⟨rfl, rfl⟩ := h1
      simp only [Rd.run_bind, Out.bind_eq_panic] at h
      rcases h with h | ⟨⟨d, r4⟩, h4, h⟩
      · exact (Rd.safe_bits _ _ h).elim
      obtain ⟨_, e4, _⟩ := run_bits_ok h4
      simp only [Rd.run_ite] at h
      split at h
      · rename_i h64
        simp only [Rd.run_bind, Out.bind_eq_panic] at h
        rcases h with h | ⟨_, _, h⟩
        · simp only [Rd.skip] at h
          split at h
          · simp at h
          · rename_i hs
            refine ⟨[], _, rfl, id, len, r2, hid, by simpa using hl, rfl, Or.inr ⟨by omega, ?_⟩⟩
            have q3 := congrArg List.length e3
            have q4 := congrArg List.length e4
            simp only [List.length_append, length_toBits] at q3 q4
            rw [Nat.min_eq_right (by omega)] at q4
            omega
        · simp at h
      · simp at h

theorem aborts_type3 {α : Type} {p : Rd α} (obit : Bool) (id : Nat) (he : p.Eats) (hp : AbortsOnBadElement p) :
    AbortsOnBadElement (rdType3 obit id p) := by
  intro bs h
  unfold rdType3 at h
  cases obit with
  | false => simp at h
  | true =>
    simp only [if_true, Rd.run_bind, Out.bind_eq_panic] at h
    rcases h with h | ⟨⟨b, r⟩, h1, h⟩
    · exact (safe_peekId id bs h).elim
    cases b with
    | false => simp at h
    | true =>
      obtain ⟨rfl, hid, t, rfl⟩ := peekId_shape h1
      simp only [if_true, Rd.run_bind, skip_header, Out.bind_ok, Out.bind_eq_panic] at h
      rcases h with h | ⟨⟨len, r2⟩, h2, h⟩
      · exact (Rd.safe_bits _ _ h).elim
      obtain ⟨pre, s, e, hs⟩ := aborts_map (aborts_exactly he hp len) r2 h
      obtain ⟨_, rfl, _⟩ := run_bits_ok h2
      subst e
      exact ⟨true :: (toBits 4 id ++ (toBits 11 len ++ pre)), s, by simp, hs⟩

theorem aborts_type2 {α : Type} {p : Rd α} (obit : Bool) (hp : AbortsOnBadElement p) : AbortsOnBadElement (rdType2 obit p) := by
  unfold rdType2
  refine aborts_ite (fun _ => ?_) fun _ => aborts_of_safe (Rd.safe_pure _)
  refine aborts_bind Rd.eats_flag (aborts_of_safe Rd.safe_flag) fun b => ?_
  exact aborts_ite (fun _ => aborts_map hp) fun _ => aborts_of_safe (Rd.safe_pure _)

theorem eats_generic3 (obit : Bool) (id : Nat) : (rdType3Generic obit id).Eats := by
  unfold rdType3Generic
  refine Rd.eats_ite (fun _ => ?_) fun _ => Rd.eats_pure _
  refine Rd.eats_bind (eats_peekId id) fun b => ?_
  apply Rd.eats_ite <;> intro _
  · eats_rd
  · exact Rd.eats_pure _

theorem eats_todo4 (obit : Bool) (id : Nat) : (rdType4Generic obit id).Eats := by
  unfold rdType4Generic
  refine Rd.eats_ite (fun _ => ?_) fun _ => Rd.eats_pure _
  refine Rd.eats_bind eats_header4 fun a => ?_
  match a with
  | none => exact Rd.eats_pure _
  | some (n, len) => simp only; eats_rd

/-- The reader of the contents consumes a prefix and aborts only on bad elements. -/
def Field.Tame : Field → Prop
  | .type2 _ p => p.Eats ∧ AbortsOnBadElement p
  | .type3 _ _ p => p.Eats ∧ AbortsOnBadElement p
  | .type4 _ _ p => p.Eats ∧ AbortsOnBadElement p
  | .generic3 _ => True
  | .todo4 _ => True

theorem tame_num2 {n : Nat} : (num2 n).Tame := ⟨Rd.eats_bits n, aborts_of_safe (Rd.safe_bits n)⟩

theorem Field.Tame.read {f : Field} (h : f.Tame) (obit : Bool) : (f.read obit).Eats ∧ AbortsOnBadElement (f.read obit) := by
  cases f with
  | type2 w p => exact ⟨eats_type2 obit h.1, aborts_type2 obit h.2⟩
  | type3 id w p => exact ⟨eats_type3 obit id h.1, aborts_type3 obit id h.1 h.2⟩
  | type4 id w p => exact ⟨eats_type4 obit id h.1, aborts_type4 obit id h.1 h.2⟩
  | generic3 id => exact ⟨eats_generic3 obit id, aborts_generic3 obit id⟩
  | todo4 id => exact ⟨eats_todo4 obit id, aborts_todo4 obit id⟩

theorem readAll_tame (obit : Bool) (fs : List Field) (h : ∀ f ∈ fs, f.Tame) :
    (readAll obit fs).Eats ∧ AbortsOnBadElement (readAll obit fs) := by
  induction fs with
  | nil => exact ⟨Rd.eats_pure _, aborts_of_safe (Rd.safe_pure _)⟩
  | cons f fs ih =>
    obtain ⟨e1, a1⟩ := (h f (by simp)).read obit
    obtain ⟨e2, a2⟩ := ih fun g hg => h g (by simp [hg])
    exact ⟨Rd.eats_bind e1 fun v => Rd.eats_bind e2 fun vs => Rd.eats_pure _,
      aborts_bind e1 a1 fun v => aborts_bind e2 a2 fun vs => aborts_of_safe (Rd.safe_pure _)⟩

theorem eats_end (o : Bool) : (rdEnd o).Eats := by unfold rdEnd; eats_rd

theorem rdOptional_tame (fs : List Field) (h : ∀ f ∈ fs, f.Tame) :
    (rdOptional fs).Eats ∧ AbortsOnBadElement (rdOptional fs) := by
  refine ⟨?_, ?_⟩
  · exact Rd.eats_bind Rd.eats_flag fun b => Rd.eats_bind (readAll_tame b fs h).1 fun v => Rd.eats_bind (eats_end b) fun _ => Rd.eats_pure _
  · refine aborts_bind Rd.eats_flag (aborts_of_safe Rd.safe_flag) fun b => ?_
    exact aborts_bind (readAll_tame b fs h).1 (readAll_tame b fs h).2 fun v => aborts_of_safe (Rd.safe_bind (safe_end b) fun _ => Rd.safe_pure _)

/-- The reader consumes a prefix and aborts only on bad elements. -/
def _root_.Verif.Codec.Rd.Tame {α : Type} (p : Rd α) : Prop := p.Eats ∧ AbortsOnBadElement p

theorem tame_bind {α β : Type} {p : Rd α} {f : α → Rd β} (hp : Rd.Tame p) (hf : ∀ a, Rd.Tame (f a)) : Rd.Tame (p >>= f) :=
  ⟨Rd.eats_bind hp.1 fun a => (hf a).1, aborts_bind hp.1 hp.2 fun a => (hf a).2⟩

theorem tame_of_safe {α : Type} {p : Rd α} (he : p.Eats) (hs : p.Safe) : Rd.Tame p := ⟨he, aborts_of_safe hs⟩

theorem tame_pure {α : Type} (a : α) : Rd.Tame (pure a : Rd α) := tame_of_safe (Rd.eats_pure a) (Rd.safe_pure a)

theorem tame_bits (n : Nat) : Rd.Tame (Rd.bits n) := tame_of_safe (Rd.eats_bits n) (Rd.safe_bits n)

theorem tame_flag : Rd.Tame Rd.flag := tame_of_safe Rd.eats_flag Rd.safe_flag

theorem eats_expectType (n t : Nat) : (expectType n t).Eats := by unfold expectType; eats_rd

theorem tame_expectType (n t : Nat) : Rd.Tame (expectType n t) := tame_of_safe (eats_expectType n t) (safe_expectType n t)

theorem eats_rdIf {α : Type} (c : Bool) {p : Rd α} (hp : p.Eats) : (rdIf c p).Eats := by unfold rdIf; eats_rd

theorem tame_optional_nil : Rd.Tame (rdOptional []) := rdOptional_tame [] fun f hf => by cases hf

/-- Every element of the list is tame, element by element. -/
def AllTame : List Field → Prop
  | [] => True
  | f :: fs => f.Tame ∧ AllTame fs

theorem tame_optional {fs : List Field} (h : AllTame fs) : Rd.Tame (rdOptional fs) := by
  refine rdOptional_tame fs ?_
  induction fs with
  | nil => intro f hf; cases hf
  | cons g fs ih =>
    intro f hf
    rcases List.mem_cons.1 hf with rfl | hf
    · exact h.1
    · exact ih h.2 f hf

/-! ## Values which can be carried -/

/-- An element kept as raw bits: at most 64 of them. -/
def RawOk (id : Nat) (x : Option Type3Generic) : Prop := ∀ g, x = some g → g.fieldId = id ∧ g.len ≤ 64 ∧ g.data < 2 ^ g.len

def NumOk (n : Nat) (x : Option Nat) : Prop := ∀ v, x = some v → v < 2 ^ n

theorem NumOk.carries {n : Nat} {x : Option Nat} (h : NumOk n x) (hn : n ≤ 64) (v : (num2 n).Val) (hv : x = some v) :
    (num2 n).Carries v := roundTrip_bits hn (h v hv)

/-- The writer gives `n` bits on `x`, and the reader takes exactly them and gives `x` back. -/
def Sized {α : Type} (w : α → Out (List Bool)) (p : Rd α) (x : α) (n : Nat) : Prop :=
  ∃ bs, w x = .ok bs ∧ bs.length = n ∧ ∀ rest, p.run (bs ++ rest) = .ok (x, rest)

theorem sized_of {α : Type} {w : α → Out (List Bool)} {p : Rd α} {x : α} {n : Nat}
    (h : match w x with | .ok bs => bs.length = n ∧ ∀ rest, p.run (bs ++ rest) = .ok (x, rest) | _ => False) : Sized w p x n := by
  unfold Sized
  revert h
  cases w x with
  | ok bs => intro h; exact ⟨bs, rfl, h⟩
  | err => intro h; exact h.elim
  | panic => intro h; exact h.elim

theorem Sized.roundTrip {α : Type} {w : α → Out (List Bool)} {p : Rd α} {x : α} {n : Nat} (h : Sized w p x n) : RoundTrip w p x := by
  obtain ⟨bs, h1, _, h2⟩ := h
  exact ⟨bs, h1, h2⟩

end Verif.TypedFields
