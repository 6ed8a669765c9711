import Verif.Umac.Defrag
/-!
# C20 — reassembly never mixes stations or slots

The specification below follows one timeslot and one subscriber through the history and ignores everything
which is not about them. The theorems say that, for every history, what the base station delivers at a last
fragment is what the specification of that timeslot and subscriber says, and spell out what that is.
-/
namespace Verif.Umac
open Verif.Tdma

/-- What happens to the reassembly component. -/
inductive BsEv where
  | first (bits : List Bool) (t : Time) (addr : Addr)
  | next (bits : List Bool) (ssi : Nat) (t : Time)
  | last (bits : List Bool) (ssi : Nat) (t : Time)
  | age (t : Time)
  deriving DecidableEq, Repr

/-- One event, and what is delivered at it. -/
def BsDefrag.step (d : BsDefrag) : BsEv → Res (BsDefrag × Option DefragBuf)
  | .first bits t addr => do return (← d.insertFirst bits t addr, none)
  | .next bits ssi t => do return (← d.insertNext bits ssi t, none)
  | .last bits ssi t => d.insertLast bits ssi t
  | .age t => .ok (d.age t, none)

/-- A history, from the start. -/
def BsDefrag.run (d : BsDefrag) : List BsEv → Res (BsDefrag × List (Option DefragBuf))
  | [] => .ok (d, [])
  | e :: es => do
    let r ← d.step e
    let q ← BsDefrag.run r.1 es
    .ok (q.1, r.2 :: q.2)

/-! ## Specification -/

/-- A reassembly in progress: address given with the first fragment, the fragments in order of arrival, the time
of the latest. -/
structure Track where
  addr : Addr
  parts : List (List Bool)
  latest : Time
  deriving DecidableEq, Repr

/-- The reassembly in progress for timeslot `ts` and subscriber `ssi`, if any, after one more event. -/
def track (ts ssi : Nat) (s : Option Track) : BsEv → Option Track
  | .first bits t addr => if t.t = ts ∧ addr.ssi = ssi then some ⟨addr, [bits], t⟩ else s
  | .next bits ssi' t =>
    if t.t = ts ∧ ssi' = ssi then
      match s with
      | some a => if (a.parts.flatten ++ bits).length ≤ 4096 then some ⟨a.addr, a.parts ++ [bits], t⟩ else none
      | none => none
    else s
  | .last _ ssi' t => if t.t = ts ∧ ssi' = ssi then none else s
  | .age t =>
    match s with
    | some a => if t.diff a.latest > 40 then none else some a
    | none => none

/-- After a history. -/
def tracked (ts ssi : Nat) (log : List BsEv) : Option Track := log.foldl (track ts ssi) none

/-! ## The code follows the specification -/

/-- What an entry of the map stands for. -/
def Stands (b : Option DefragBuf) (s : Option Track) : Prop :=
  match b with
  | none => s = none
  | some b => (b.state = .active ∧ ∃ parts, s = some ⟨b.addr, parts, b.tLast⟩ ∧ parts.flatten = b.bits) ∨
      (b = DefragBuf.new ∧ s = none)

theorem get_map (m : Assoc Nat DefragBuf) (f : DefragBuf → DefragBuf) (k : Nat) :
    Assoc.get (m.map fun e => (e.1, f e.2)) k = (Assoc.get m k).map f := by
  induction m with
  | nil => rfl
  | cons e r ih =>
    obtain ⟨a, v⟩ := e
    simp only [List.map_cons, Assoc.get_cons, ih]
    split <;> rfl

/-- Each entry stands for the tracked reassembly of its timeslot and subscriber. -/
def Follows (d : BsDefrag) (log : List BsEv) : Prop :=
  ∀ (i : Fin 4) (ssi : Nat), Stands ((d i).get ssi) (tracked (i.val + 1) ssi log)

theorem tracked_snoc (ts ssi : Nat) (log : List BsEv) (e : BsEv) :
    tracked ts ssi (log ++ [e]) = track ts ssi (tracked ts ssi log) e := by
  simp [tracked, List.foldl_append]

theorem stands_add {b : DefragBuf} {s : Option Track} (h : Stands (some b) s) (bits : List Bool) (t : Time)
    (ts ssi : Nat) (ht : t.t = ts) :
    Stands (some (b.add t bits)) (track ts ssi s (.next bits ssi t)) := by
  subst ht
  simp only [Stands] at h
  rcases h with ⟨ha, parts, hs, hp⟩ | ⟨hb, hs⟩
  · subst hs
    have hl : b.bits.length + bits.length = (parts.flatten ++ bits).length := by rw [hp]; simp
    simp only [track, and_self, if_true, DefragBuf.add, ha, ne_eq, not_true_eq_false, if_false, defragMaxLen]
    by_cases ho : b.bits.length + bits.length > 4096
    · rw [if_pos ho, if_neg (by omega)]
      exact .inr ⟨rfl, rfl⟩
    · rw [if_neg ho, if_pos (by omega)]
      exact .inl ⟨rfl, parts ++ [bits], rfl, by simp [hp]⟩
  · subst hb hs
    exact .inr ⟨rfl, by simp [track]⟩

theorem follows_upd {d : BsDefrag} {log : List BsEv} {e : BsEv} (h : Follows d log) (i : Fin 4) (ssi : Nat)
    (m : Assoc Nat DefragBuf)
    (hm : ∀ k, k ≠ ssi → m.get k = (d i).get k)
    (hother : ∀ (j : Fin 4) k, ¬ (j = i ∧ k = ssi) → track (j.val + 1) k (tracked (j.val + 1) k log) e = tracked (j.val + 1) k log)
    (hkey : Stands (m.get ssi) (track (i.val + 1) ssi (tracked (i.val + 1) ssi log) e)) :
    Follows (d.upd i m) (log ++ [e]) := by
  intro j k
  rw [tracked_snoc, Slots.upd_apply]
  by_cases hj : j = i
  · subst hj
    rw [if_pos rfl]
    by_cases hk : k = ssi
    · subst hk; exact hkey
    · rw [hother j k (fun hh => hk hh.2), hm k hk]; exact h j k
  · rw [if_neg hj, hother j k (fun hh => hj hh.1)]
    exact h j k

theorem follows_step {d : BsDefrag} {log : List BsEv} (h : Follows d log) (e : BsEv) {d' : BsDefrag} {o : Option DefragBuf}
    (he : d.step e = .ok (d', o)) : Follows d' (log ++ [e]) := by
  cases e with
  | first bits t addr =>
    simp only [BsDefrag.step, BsDefrag.insertFirst, Res.bind_eq_ok] at he
    obtain ⟨_, ⟨i, hi, he1⟩, he⟩ := he
    cases he1; cases he
    rw [Slots.idx_ok] at hi
    refine follows_upd h i addr.ssi _ (fun k hk => Assoc.get_insert_ne _ (Ne.symm hk) _) ?_ ?_
    · intro j k hjk
      have hne : ¬ (t.t = j.val + 1 ∧ addr.ssi = k) := by
        rintro ⟨h1, h2⟩; exact hjk ⟨Fin.ext (by omega), h2.symm⟩
      simp [track, hne]
    · simp only [Assoc.get_insert_self, track, hi, and_self, if_true]
      exact .inl ⟨rfl, [bits], rfl, by simp [DefragBuf.begin]⟩
  | next bits ssi t =>
    simp only [BsDefrag.step, BsDefrag.insertNext, Res.bind_eq_ok] at he
    obtain ⟨_, ⟨i, hi, he1⟩, he⟩ := he
    cases he
    rw [Slots.idx_ok] at hi
    have hother : ∀ (j : Fin 4) k, ¬ (j = i ∧ k = ssi) →
        track (j.val + 1) k (tracked (j.val + 1) k log) (.next bits ssi t) = tracked (j.val + 1) k log := by
      intro j k hjk
      have hne : ¬ (t.t = j.val + 1 ∧ ssi = k) := by
        rintro ⟨h1, h2⟩; exact hjk ⟨Fin.ext (by omega), h2.symm⟩
      simp [track, hne]
    have hs := h i ssi
    cases hg : (d i).get ssi with
    | none =>
      rw [hg] at he1 hs; cases he1
      have := follows_upd (e := .next bits ssi t) h i ssi (d i) (fun _ _ => rfl) hother (by
        simp only [Stands] at hs
        rw [hg, hs]; simp [track, Stands])
      simpa using this
    | some b =>
      rw [hg] at he1 hs; cases he1
      refine follows_upd h i ssi _ (fun k hk => Assoc.get_insert_ne _ (Ne.symm hk) _) hother ?_
      rw [Assoc.get_insert_self]
      exact stands_add hs bits t _ ssi hi
  | last bits ssi t =>
    simp only [BsDefrag.step, BsDefrag.insertLast, BsDefrag.insertNext, Res.bind_eq_ok] at he
    obtain ⟨d1, ⟨i, hi, he1⟩, i2, hi2, he⟩ := he
    rw [hi] at hi2; cases hi2
    rw [Slots.idx_ok] at hi
    have hother : ∀ (j : Fin 4) k, ¬ (j = i ∧ k = ssi) →
        track (j.val + 1) k (tracked (j.val + 1) k log) (.last bits ssi t) = tracked (j.val + 1) k log := by
      intro j k hjk
      have hne : ¬ (t.t = j.val + 1 ∧ ssi = k) := by
        rintro ⟨h1, h2⟩; exact hjk ⟨Fin.ext (by omega), h2.symm⟩
      simp [track, hne]
    have hend : track (i.val + 1) ssi (tracked (i.val + 1) ssi log) (.last bits ssi t) = none := by simp [track, hi]
    have hs := h i ssi
    cases hg : (d i).get ssi with
    | none =>
      rw [hg] at he1 hs; cases he1
      rw [hg] at he; cases he
      have := follows_upd (e := .last bits ssi t) h i ssi (d i) (fun _ _ => rfl) hother (by rw [hg, hend]; rfl)
      simpa using this
    | some b =>
      rw [hg] at he1; cases he1
      simp only [Slots.upd_self, Assoc.get_insert_self, Res.ok.injEq, Prod.mk.injEq] at he
      obtain ⟨rfl, _⟩ := he
      rw [Slots.upd_upd]
      refine follows_upd h i ssi _ (fun k hk => ?_) hother ?_
      · rw [Assoc.get_erase_ne _ (Ne.symm hk), Assoc.get_insert_ne _ (Ne.symm hk)]
      · rw [Assoc.get_erase_self, hend]; rfl
  | age t =>
    simp only [BsDefrag.step] at he
    cases he
    intro i ssi
    rw [tracked_snoc]
    have hm : Assoc.get (BsDefrag.age d t i) ssi = ((d i).get ssi).map (·.aged t) := get_map (d i) (·.aged t) ssi
    rw [hm]
    have hs := h i ssi
    cases hg : (d i).get ssi with
    | none => rw [hg] at hs; simp only [Stands] at hs; simp [Stands, hs, track]
    | some b =>
      rw [hg] at hs
      simp only [Stands] at hs
      rcases hs with ⟨ha, parts, hs, hp⟩ | ⟨hb, hs⟩
      · rw [hs]
        simp only [Option.map_some, DefragBuf.aged, ha, ne_eq, reduceCtorEq, not_false_eq_true, true_and, track, defragTimeout]
        by_cases hd : t.diff b.tLast > 40
        · rw [if_pos hd, if_pos hd]; exact .inr ⟨rfl, rfl⟩
        · rw [if_neg hd, if_neg hd]; exact .inl ⟨ha, parts, rfl, hp⟩
      · subst hb; rw [hs]
        show Stands (some _) none
        exact .inr ⟨by simp [DefragBuf.aged, DefragBuf.new], rfl⟩

theorem follows_run {d : BsDefrag} {pre log : List BsEv} (h : Follows d pre) {d' : BsDefrag} {os : List (Option DefragBuf)}
    (he : d.run log = .ok (d', os)) : Follows d' (pre ++ log) := by
  induction log generalizing d pre os with
  | nil => simp [BsDefrag.run] at he; obtain ⟨rfl, _⟩ := he; simpa using h
  | cons e es ih =>
    simp only [BsDefrag.run, Res.bind_eq_ok] at he
    obtain ⟨⟨d1, o⟩, h1, ⟨d2, os'⟩, h2, h3⟩ := he
    cases h3
    have := ih (follows_step h e h1) h2
    simpa using this

theorem follows_new : Follows BsDefrag.new [] := by intro i ssi; simp [BsDefrag.new, Stands, tracked]

theorem last_delivers {log : List BsEv} {d : BsDefrag} (hf : Follows d log) (bits : List Bool) (ssi : Nat) (t : Time)
    (ht : 1 ≤ t.t ∧ t.t ≤ 4) :
    ∃ d' o, d.step (.last bits ssi t) = .ok (d', o) ∧
      (∀ a, tracked t.t ssi log = some a → (a.parts.flatten ++ bits).length ≤ 4096 →
        ∃ b, o = some b ∧ b.addr = a.addr ∧ b.bits = a.parts.flatten ++ bits) ∧
      ((∀ a, tracked t.t ssi log = some a → ¬ (a.parts.flatten ++ bits).length ≤ 4096) →
        o = none ∨ ∃ b, o = some b ∧ b.bits = [] ∧ b.addr = ⟨0, .unknown, false⟩) := by
  obtain ⟨i, hi⟩ : ∃ i : Fin 4, t.t = i.val + 1 := ⟨⟨t.t - 1, by omega⟩, by simp; omega⟩
  have hs := hf i ssi
  rw [← hi] at hs
  simp only [BsDefrag.step, BsDefrag.insertLast, BsDefrag.insertNext, hi, Slots.idx_succ, Res.bind_ok]
  rw [hi] at hs
  cases hg : (d i).get ssi with
  | none =>
    rw [hg] at hs
    simp only [Stands] at hs
    simp only [Res.bind_ok, hg, hs]
    exact ⟨_, _, rfl, by simp, fun _ => .inl rfl⟩
  | some b =>
    rw [hg] at hs
    have hadd := stands_add hs bits t t.t ssi rfl
    simp only [Res.bind_ok, Slots.upd_self, Assoc.get_insert_self]
    refine ⟨_, _, rfl, ?_, ?_⟩
    · intro a ha hl
      rw [ha] at hadd
      simp only [track, and_self, if_true, hl, Stands] at hadd
      rcases hadd with ⟨h1, parts, h2, h3⟩ | ⟨_, h2⟩
      · simp only [Option.some.injEq, Track.mk.injEq] at h2
        obtain ⟨h2, h4, _⟩ := h2
        refine ⟨_, rfl, h2.symm, ?_⟩
        simp only [← h3, ← h4]
        simp
      · cases h2
    · intro hno
      right
      refine ⟨_, rfl, ?_⟩
      simp only [Stands] at hs
      rcases hs with ⟨h1, parts, h2, h3⟩ | ⟨h1, _⟩
      · have := hno _ h2
        have ho : b.bits.length + bits.length > 4096 := by
          simp only [h3, List.length_append] at this; omega
        simp [DefragBuf.add, h1, defragMaxLen, ho, DefragBuf.new]
      · subst h1; simp [DefragBuf.add, DefragBuf.new]

/-- **C20, nothing is mixed.** After any history, at a last fragment of a subscriber on a timeslot: if a
reassembly of that subscriber on that timeslot is in progress and stays within 4096 bits, what is delivered is
its fragments in order of arrival followed by the last one, under the address it was started with. Otherwise
nothing is delivered, or (the missing part of the property, see `c20_empty_delivered`) an empty SDU under no
address. -/
theorem c20_delivery_partial (log : List BsEv) (d : BsDefrag) (os : List (Option DefragBuf))
    (h : BsDefrag.new.run log = .ok (d, os)) (bits : List Bool) (ssi : Nat) (t : Time) (ht : 1 ≤ t.t ∧ t.t ≤ 4) :
    ∃ d' o, d.step (.last bits ssi t) = .ok (d', o) ∧
      (∀ a, tracked t.t ssi log = some a → (a.parts.flatten ++ bits).length ≤ 4096 →
        ∃ b, o = some b ∧ b.addr = a.addr ∧ b.bits = a.parts.flatten ++ bits) ∧
      ((∀ a, tracked t.t ssi log = some a → ¬ (a.parts.flatten ++ bits).length ≤ 4096) →
        o = none ∨ ∃ b, o = some b ∧ b.bits = [] ∧ b.addr = ⟨0, .unknown, false⟩) := by
  have hf := follows_run follows_new h
  simp only [List.nil_append] at hf
  exact last_delivers hf bits ssi t ht

/-- **C20, only at the end.** Nothing is delivered at any other event. -/
theorem c20_only_at_last (d d' : BsDefrag) (e : BsEv) (o : Option DefragBuf) (h : d.step e = .ok (d', o))
    (he : ∀ bits ssi t, e ≠ .last bits ssi t) : o = none := by
  cases e with
  | last bits ssi t => exact absurd rfl (he _ _ _)
  | age t => simp [BsDefrag.step] at h; exact h.2.symm
  | first bits t addr =>
    simp only [BsDefrag.step, Res.bind_eq_ok] at h
    obtain ⟨_, _, h⟩ := h; cases h; rfl
  | next bits ssi t =>
    simp only [BsDefrag.step, Res.bind_eq_ok] at h
    obtain ⟨_, _, h⟩ := h; cases h; rfl

/-- **C20, no abort.** Fragments on timeslots 1 to 4 are always processed. -/
theorem c20_total (log : List BsEv)
    (h : ∀ e ∈ log, match e with
      | .first _ t _ => 1 ≤ t.t ∧ t.t ≤ 4 | .next _ _ t => 1 ≤ t.t ∧ t.t ≤ 4 | .last _ _ t => 1 ≤ t.t ∧ t.t ≤ 4
      | .age _ => True) (d : BsDefrag) :
    ∃ r, d.run log = .ok r := by
  induction log generalizing d with
  | nil => exact ⟨_, rfl⟩
  | cons e es ih =>
    have h1 : ∃ r, d.step e = .ok r := by
      have he := h e (by simp)
      have hidx : ∀ t : Time, 1 ≤ t.t ∧ t.t ≤ 4 → ∃ i, Slots.idx t.t = .ok i := by
        intro t ht; exact ⟨⟨t.t - 1, by omega⟩, by rw [Slots.idx_ok]; simp; omega⟩
      cases e with
      | first bits t addr =>
        obtain ⟨i, hi⟩ := hidx t he
        exact ⟨_, by simp [BsDefrag.step, BsDefrag.insertFirst, hi]; rfl⟩
      | next bits ssi t =>
        obtain ⟨i, hi⟩ := hidx t he
        simp only [BsDefrag.step, BsDefrag.insertNext, hi, Res.bind_ok]
        split <;> exact ⟨_, rfl⟩
      | last bits ssi t =>
        obtain ⟨i, hi⟩ := hidx t he
        simp only [BsDefrag.step, BsDefrag.insertLast, BsDefrag.insertNext, hi, Res.bind_ok]
        split
        · simp only [Res.bind_ok]; split <;> exact ⟨_, rfl⟩
        · simp only [Res.bind_ok]; split <;> exact ⟨_, rfl⟩
      | age t => exact ⟨_, rfl⟩
    obtain ⟨r, hr⟩ := h1
    obtain ⟨q, hq⟩ := ih (fun e' h' => h e' (by simp [h'])) r.1
    exact ⟨_, by simp only [BsDefrag.run, hr, Res.bind_ok, hq]; rfl⟩

/-! ## What the specification says -/

/-- The event is a first or last fragment of this subscriber on this timeslot. -/
def Bounds (ts ssi : Nat) : BsEv → Prop
  | .first _ t addr => t.t = ts ∧ addr.ssi = ssi
  | .last _ ssi' t => t.t = ts ∧ ssi' = ssi
  | _ => False

/-- The bits of a next fragment of this subscriber on this timeslot. -/
def nextBits (ts ssi : Nat) : BsEv → Option (List Bool)
  | .next bits ssi' t => if t.t = ts ∧ ssi' = ssi then some bits else none
  | _ => none

/-- The time of a first or next fragment of this subscriber on this timeslot. -/
def fragTime (ts ssi : Nat) : BsEv → Option Time
  | .first _ t addr => if t.t = ts ∧ addr.ssi = ssi then some t else none
  | .next _ ssi' t => if t.t = ts ∧ ssi' = ssi then some t else none
  | _ => none

/-- `a` consists of exactly the fragments of that subscriber on that timeslot since the latest first fragment, in
order of arrival; no last fragment has been received since; it is within the length bound; every ageing
since has found its latest fragment at most 40 timeslots old; and its time is that of its latest fragment. -/
def ExactlyFrom (ts ssi : Nat) (log : List BsEv) (a : Track) : Prop :=
    ∃ pre bits t addr mid, log = pre ++ .first bits t addr :: mid ∧ t.t = ts ∧ addr.ssi = ssi ∧
      (∀ e ∈ mid, ¬ Bounds ts ssi e) ∧ a.addr = addr ∧ a.parts = bits :: mid.filterMap (nextBits ts ssi) ∧
      (a.parts.flatten.length ≤ 4096 ∨ a.parts = [bits]) ∧
      (∀ m1 m2 t' u, mid = m1 ++ .age t' :: m2 →
        ((BsEv.first bits t addr :: m1).filterMap (fragTime ts ssi)).getLast? = some u → t'.diff u ≤ 40) ∧
      ((BsEv.first bits t addr :: mid).filterMap (fragTime ts ssi)).getLast? = some a.latest

/-- **C20, in full.** A reassembly in progress consists of exactly the fragments it should. -/
theorem c20_exact (ts ssi : Nat) (log : List BsEv) (a : Track) (h : tracked ts ssi log = some a) :
    ExactlyFrom ts ssi log a := by
  obtain ⟨n, hn⟩ : ∃ n, n = log.length := ⟨_, rfl⟩
  induction n generalizing log a with
  | zero =>
    have : log = [] := List.eq_nil_of_length_eq_zero hn.symm
    subst this; simp [tracked] at h
  | succ n ih =>
    rcases List.eq_nil_or_concat log with h0 | ⟨log', e, h0⟩
    · subst h0; simp at hn
    · rw [List.concat_eq_append] at h0
      subst h0
      rw [tracked_snoc] at h
      simp only [List.length_append, List.length_cons, List.length_nil] at hn
      -- an event which leaves the reassembly alone
      have keep : tracked ts ssi log' = some a → ¬ Bounds ts ssi e → nextBits ts ssi e = none → fragTime ts ssi e = none →
          (∀ t', e = .age t' → t'.diff a.latest ≤ 40) → ExactlyFrom ts ssi (log' ++ [e]) a := by
        intro ha hb hnb hft hage
        obtain ⟨pre, bits, t, addr, mid, g1, g2, g3, g4, g5, g6, g7, g8, g9⟩ := ih log' a ha (by omega)
        refine ⟨pre, bits, t, addr, mid ++ [e], by rw [g1]; simp, g2, g3, ?_, g5, by simp [g6, hnb], g7, ?_, ?_⟩
        · intro e' he'
          rcases List.mem_append.1 he' with h | h
          · exact g4 e' h
          · simp at h; rw [h]; exact hb
        · intro m1 m2 t' u hm hu
          rcases List.eq_nil_or_concat m2 with h2 | ⟨m2', e2, h2⟩
          · subst h2
            have := List.append_inj' hm rfl
            simp only [List.cons.injEq, and_true] at this
            rw [← this.1] at hu
            rw [g9] at hu; cases hu
            exact hage t' this.2
          · rw [List.concat_eq_append] at h2; subst h2
            have hm' : mid ++ [e] = (m1 ++ .age t' :: m2') ++ [e2] := by rw [hm]; simp
            have := List.append_inj' hm' rfl
            exact g8 m1 m2' t' u this.1 hu
        · have : (BsEv.first bits t addr :: (mid ++ [e])).filterMap (fragTime ts ssi) =
              (BsEv.first bits t addr :: mid).filterMap (fragTime ts ssi) := by
            rw [← List.cons_append, List.filterMap_append]; simp [hft]
          rw [this]; exact g9
      cases e with
      | first bits t addr =>
        simp only [track] at h
        split at h
        · rename_i hk
          cases h
          refine ⟨log', bits, t, addr, [], rfl, hk.1, hk.2, by simp, rfl, by simp, .inr rfl, by simp, by simp [fragTime, hk]⟩
        · rename_i hk
          exact keep h (by simpa [Bounds] using hk) rfl (by simp [fragTime, hk]) (by simp)
      | next bits ssi' t =>
        simp only [track] at h
        split at h
        · rename_i hk
          split at h
          · rename_i a' ha'
            split at h
            · rename_i hl
              cases h
              obtain ⟨pre, b0, t0, addr, mid, g1, g2, g3, g4, g5, g6, g7, g8, g9⟩ := ih log' a' ha' (by omega)
              refine ⟨pre, b0, t0, addr, mid ++ [.next bits ssi' t], by rw [g1]; simp, g2, g3, ?_, g5,
                by simp [g6, nextBits, hk], .inl (by simpa using hl), ?_, ?_⟩
              · intro e' he'
                rcases List.mem_append.1 he' with h | h
                · exact g4 e' h
                · simp at h; rw [h]; simp [Bounds]
              · intro m1 m2 t' u hm hu
                rcases List.eq_nil_or_concat m2 with h2 | ⟨m2', e2, h2⟩
                · subst h2
                  have := List.append_inj' hm rfl
                  simp at this
                · rw [List.concat_eq_append] at h2; subst h2
                  have hm' : mid ++ [.next bits ssi' t] = (m1 ++ .age t' :: m2') ++ [e2] := by rw [hm]; simp
                  have := List.append_inj' hm' rfl
                  exact g8 m1 m2' t' u this.1 hu
              · rw [← List.cons_append, List.filterMap_append]
                simp [fragTime, hk]
            · cases h
          · cases h
        · rename_i hk
          exact keep h (by simp [Bounds]) (by simp [nextBits, hk]) (by simp [fragTime, hk]) (by simp)
      | last bits ssi' t =>
        simp only [track] at h
        split at h
        · cases h
        · rename_i hk
          exact keep h (by simpa [Bounds] using hk) rfl rfl (by simp)
      | age t =>
        simp only [track] at h
        split at h
        · rename_i a' ha'
          split at h
          · cases h
          · rename_i hd
            cases h
            exact keep ha' (by simp [Bounds]) rfl rfl (by intro t' e; cases e; omega)
        · cases h

/-- **C20, and nothing is forgotten.** Fragments of a subscriber on a timeslot which follow a first fragment, with no
ageing in between and within the length bound, are all in the reassembly, whatever else happens in between. -/
theorem c20_complete (ts ssi : Nat) (pre mid : List BsEv) (bits : List Bool) (t : Time) (addr : Addr) (ht : t.t = ts)
    (ha : addr.ssi = ssi) (hb : ∀ e ∈ mid, ¬ Bounds ts ssi e) (hage : ∀ e ∈ mid, ∀ t', e ≠ .age t')
    (hl : (bits :: mid.filterMap (nextBits ts ssi)).flatten.length ≤ 4096) :
    ∃ a, tracked ts ssi (pre ++ .first bits t addr :: mid) = some a ∧ a.addr = addr ∧
      a.parts = bits :: mid.filterMap (nextBits ts ssi) := by
  have hstart : tracked ts ssi (pre ++ [.first bits t addr]) = some ⟨addr, [bits], t⟩ := by
    rw [tracked_snoc]; simp [track, ht, ha]
  have key : ∀ (mid : List BsEv) (a : Track), (∀ e ∈ mid, ¬ Bounds ts ssi e) → (∀ e ∈ mid, ∀ t', e ≠ .age t') →
      (a.parts ++ mid.filterMap (nextBits ts ssi)).flatten.length ≤ 4096 →
      ∃ a', mid.foldl (track ts ssi) (some a) = some a' ∧ a'.addr = a.addr ∧
        a'.parts = a.parts ++ mid.filterMap (nextBits ts ssi) := by
    intro mid
    induction mid with
    | nil => intro a _ _ _; exact ⟨a, rfl, rfl, by simp⟩
    | cons e mid ih =>
      intro a h1 h2 h3
      have same : track ts ssi (some a) e = some a → nextBits ts ssi e = none →
          ∃ a', (e :: mid).foldl (track ts ssi) (some a) = some a' ∧ a'.addr = a.addr ∧
            a'.parts = a.parts ++ (e :: mid).filterMap (nextBits ts ssi) := by
        intro he hn
        have := ih a (fun e' h => h1 e' (by simp [h])) (fun e' h => h2 e' (by simp [h])) (by simpa [hn] using h3)
        simpa [he, hn] using this
      have hbe := h1 e (by simp)
      cases e with
      | first b' t' a' => exact same (by simp only [Bounds] at hbe; simp [track, hbe]) rfl
      | last b' s' t' => exact same (by simp [Bounds] at hbe; simpa [track] using hbe) rfl
      | age t' => exact absurd rfl (h2 (.age t') (by simp) t')
      | next b' s' t' =>
        by_cases hk : t'.t = ts ∧ s' = ssi
        · have hn : nextBits ts ssi (.next b' s' t') = some b' := by simp [nextBits, hk]
          simp only [List.filterMap_cons, hn] at h3 ⊢
          have hfit : (a.parts.flatten ++ b').length ≤ 4096 := by
            simp only [List.flatten_append, List.flatten_cons, List.length_append] at h3 ⊢; omega
          have hst : track ts ssi (some a) (.next b' s' t') = some ⟨a.addr, a.parts ++ [b'], t'⟩ := by
            simp only [track, hk, and_self, if_true, hfit]
          obtain ⟨a', g1, g2, g3⟩ := ih ⟨a.addr, a.parts ++ [b'], t'⟩ (fun e' h => h1 e' (by simp [h]))
            (fun e' h => h2 e' (by simp [h])) (by simpa using h3)
          exact ⟨a', by rw [List.foldl_cons, hst]; exact g1, g2, by simpa using g3⟩
        · exact same (by simp [track, hk]) (by simp [nextBits, hk])
  obtain ⟨a', g1, g2, g3⟩ := key mid ⟨addr, [bits], t⟩ hb hage (by simpa using hl)
  refine ⟨a', ?_, g2, by simpa using g3⟩
  have : pre ++ BsEv.first bits t addr :: mid = (pre ++ [.first bits t addr]) ++ mid := by simp
  rw [this, tracked, List.foldl_append]
  have h0 : List.foldl (track ts ssi) none (pre ++ [BsEv.first bits t addr]) = some ⟨addr, [bits], t⟩ := hstart
  rw [h0]; exact g1

/-! ## Findings -/

/-- **Finding.** When a reassembly has grown over the length bound (or has timed out) and the last fragment
comes, an empty SDU is delivered under subscriber 0, instead of nothing. -/
theorem c20_empty_delivered (addr : Addr) (t : Time) (ht : t.t = 1) (big bits : List Bool) (hb : big.length > 4096) :
    ∃ d b, BsDefrag.new.run [.first [true] t addr, .next big addr.ssi t, .last bits addr.ssi t] =
      .ok (d, [none, none, some b]) ∧ b.bits = [] ∧ b.addr.ssi = 0 := by
  have hi : Slots.idx t.t = .ok (0 : Fin 4) := by rw [Slots.idx_ok, ht]; rfl
  have ho : 1 + big.length > 4096 := by omega
  suffices h : ∃ d, BsDefrag.new.run [.first [true] t addr, .next big addr.ssi t, .last bits addr.ssi t] =
      .ok (d, [none, none, some { DefragBuf.new with state := .complete }]) from
    h.imp fun d hd => ⟨_, hd, rfl, rfl⟩
  simp [BsDefrag.run, BsDefrag.step, BsDefrag.insertFirst, BsDefrag.insertNext, BsDefrag.insertLast, hi, DefragBuf.begin,
    DefragBuf.add, defragMaxLen, ho, DefragBuf.new]

/-- **Finding.** Nothing in the base station ever ages its reassemblies (no caller of `age_buffers` exists), so a
reassembly is resumed however much later the next fragment comes: for any two times, on the same timeslot. -/
theorem c20_stale_resumed (addr : Addr) (t u : Time) (ht : t.t = 1) (hu : u.t = 1) :
    ∃ d b, BsDefrag.new.run [.first [true] t addr, .last [false] addr.ssi u] = .ok (d, [none, some b]) ∧
      b.bits = [true, false] ∧ b.addr = addr := by
  have hi : Slots.idx t.t = .ok (0 : Fin 4) := by rw [Slots.idx_ok, ht]; rfl
  have hj : Slots.idx u.t = .ok (0 : Fin 4) := by rw [Slots.idx_ok, hu]; rfl
  suffices h : ∃ d, BsDefrag.new.run [.first [true] t addr, .last [false] addr.ssi u] =
      .ok (d, [none, some ⟨.complete, addr, t, u, 2, [true, false]⟩]) from
    h.imp fun d hd => ⟨_, hd, rfl, rfl⟩
  simp [BsDefrag.run, BsDefrag.step, BsDefrag.insertFirst, BsDefrag.insertNext, BsDefrag.insertLast, hi, hj, DefragBuf.begin,
    DefragBuf.add, defragMaxLen]

/-! ## Example -/

/-- Two stations interleaved on one timeslot, and the second again on another one. -/
example : (match BsDefrag.new.run [.first [true] ⟨1, 1, 1, 0⟩ ⟨5, .ssi, false⟩, .first [false] ⟨1, 1, 1, 0⟩ ⟨6, .ssi, false⟩,
      .first [false, true] ⟨2, 1, 1, 0⟩ ⟨6, .ssi, false⟩, .next [true, true] 5 ⟨1, 2, 1, 0⟩, .last [false] 6 ⟨1, 2, 1, 0⟩,
      .age ⟨1, 3, 1, 0⟩, .last [false, false] 5 ⟨1, 3, 1, 0⟩, .last [true] 6 ⟨2, 3, 1, 0⟩, .last [true] 5 ⟨1, 4, 1, 0⟩] with
    | .ok (_, os) => os.map (·.map fun b => (b.addr.ssi, b.bits))
    | .panic => []) =
    [none, none, none, none, some (6, [false, false]), none, some (5, [true, true, true, false, false]),
      some (6, [false, true, true]), none] := by
  simp [BsDefrag.run, BsDefrag.step, BsDefrag.insertFirst, BsDefrag.insertNext, BsDefrag.insertLast, Slots.idx, DefragBuf.begin,
    DefragBuf.add, defragMaxLen, BsDefrag.new, Slots.upd, Assoc.insert, Assoc.erase, Assoc.get, BsDefrag.age, DefragBuf.aged,
    defragTimeout, Time.diff, timeIntDiff_eq, Time.toInt, wrap]

end Verif.Umac
