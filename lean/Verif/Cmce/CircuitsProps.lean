import Verif.Cmce.Circuits
/-!
# C25 — Call identifiers and usage markers of concurrent circuits are distinct
# C41 — Circuit expiry and late entry announcements

The histories below contain every public call on the manager. `log` is the list of the circuits it made, in
order, so that positions in it count allocations.
-/
namespace Verif.Cmce
open Tdma

/-- The calls on the manager. The timeslot allocator a call gets is arbitrary. -/
inductive Op where
  | allocate (dir : Dir) (comm : Nat)
  | allocateWith (dir : Dir) (comm : Nat) (a : TsAlloc.Alloc) (o : TsAlloc.Owner)
  | close (dir : Dir) (ts : Nat)
  | put (ts : Nat) (b : List Nat)
  | take (ts : Nat)
  | tick (now : Time)

/-- One call; the second component is the circuit made by it, if it got as far as making one. -/
def Mgr.step (m : Mgr) : Op → Res (Mgr × List CmceCircuit)
  | .allocate dir comm => do
    let r ← m.allocate dir comm
    .ok (r.1, match m.getFreeTs dir with
      | .ok ts => [(m.draw dir comm ts).2]
      | .error _ => [])
  | .allocateWith dir comm a o => do
    let r ← m.allocateWith dir comm a o
    .ok (r.1, match (a.allocateAny o).2 with
      | some ts => [(m.draw dir comm ts).2]
      | none => [])
  | .close dir ts => do let r ← m.close dir ts; .ok (r.1, [])
  | .put ts b => do let r ← m.putBlock ts b; .ok (r.1, [])
  | .take ts => do let r ← m.takeBlock ts; .ok (r.1, [])
  | .tick now => do let r ← m.tick now; .ok (r.1, [])

/-- A manager after some history, with the log of the circuits made. -/
inductive Reached : Mgr → List CmceCircuit → Prop where
  | init : Reached Mgr.init []
  | step {m m' : Mgr} {log new : List CmceCircuit} {op : Op} :
      Reached m log → m.step op = .ok (m', new) → Reached m' (log ++ new)

/-- The circuits a manager holds. -/
def Mgr.Active (m : Mgr) (c : CmceCircuit) : Prop := ∃ i, m.dl i = some c ∨ m.ulOnly i = some c

/-- The `k`-th identifier drawn. -/
def callIdOf (k : Nat) : Nat := (k + 3) % 1023 + 1
def usageOf (k : Nat) : Nat := k % 60 + 4

theorem callIdOf_succ (k : Nat) : nextCallIdAfter (callIdOf k) = callIdOf (k + 1) := by
  unfold nextCallIdAfter callIdOf; split <;> omega

theorem usageOf_succ (k : Nat) : nextUsageAfter (usageOf k) = usageOf (k + 1) := by
  unfold nextUsageAfter usageOf; split <;> omega

/-- What every reachable manager satisfies. -/
structure Inv (m : Mgr) (log : List CmceCircuit) : Prop where
  callId : m.nextCallId = callIdOf log.length
  usage : m.nextUsage = usageOf log.length
  ids : ∀ k c, log[k]? = some c → c.callId = callIdOf k ∧ c.usage = usageOf k
  dl : ∀ i c, m.dl i = some c → c.ts = i.val + 1 ∧ (c.direction = .dl ∨ c.direction = .both) ∧ c ∈ log
  ul : ∀ i c, m.ulOnly i = some c → c.ts = i.val + 1 ∧ c.direction = .ul ∧ c ∈ log
  both : ∀ i, isBoth (m.dl i) = true → m.ulOnly i = none

theorem inv_init : Inv Mgr.init [] :=
  ⟨rfl, rfl, by simp, by simp [Mgr.init], by simp [Mgr.init], by simp [Mgr.init]⟩

theorem inv_open {m m' : Mgr} {log : List CmceCircuit} (h : Inv m log) {dir : Dir} {comm ts : Nat} {r}
    (ho : (m.draw dir comm ts).1.openCircuit dir (m.draw dir comm ts).2 = .ok (m', r)) :
    Inv m' (log ++ [(m.draw dir comm ts).2]) := by
  have hids : ∀ k c, (log ++ [(m.draw dir comm ts).2])[k]? = some c → c.callId = callIdOf k ∧ c.usage = usageOf k := by
    intro k c hk
    rw [List.getElem?_append] at hk
    split at hk
    · exact h.ids k c hk
    · have : k = log.length := by
        rw [List.getElem?_singleton] at hk
        split at hk
        · omega
        · simp at hk
      subst this
      simp only [Nat.sub_self, List.getElem?_cons_zero, Option.some.injEq] at hk
      subst hk
      exact ⟨h.callId, h.usage⟩
  have hc : nextCallIdAfter m.nextCallId = callIdOf (log ++ [(m.draw dir comm ts).2]).length := by
    rw [h.callId, callIdOf_succ]; simp
  have hu : nextUsageAfter m.nextUsage = usageOf (log ++ [(m.draw dir comm ts).2]).length := by
    rw [h.usage, usageOf_succ]; simp
  unfold Mgr.openCircuit at ho
  rw [Res.bind_eq_ok] at ho
  obtain ⟨i, hi, ho⟩ := ho
  have hts : ts = i.val + 1 := Slots.idx_ok.1 hi
  have hdl : ∀ j c, m.dl j = some c → c.ts = j.val + 1 ∧ (c.direction = .dl ∨ c.direction = .both) ∧
      c ∈ log ++ [(m.draw dir comm ts).2] := by
    intro j c e; obtain ⟨a, b, d⟩ := h.dl j c e; exact ⟨a, b, List.mem_append_left _ d⟩
  have hul : ∀ j c, m.ulOnly j = some c → c.ts = j.val + 1 ∧ c.direction = .ul ∧
      c ∈ log ++ [(m.draw dir comm ts).2] := by
    intro j c e; obtain ⟨a, b, d⟩ := h.ul j c e; exact ⟨a, b, List.mem_append_left _ d⟩
  split at ho
  · simp only [Res.ok.injEq, Prod.mk.injEq] at ho
    obtain ⟨rfl, _⟩ := ho
    exact ⟨hc, hu, hids, hdl, hul, h.both⟩
  · rename_i ha
    split at ho
    · simp only [Res.ok.injEq, Prod.mk.injEq] at ho
      obtain ⟨rfl, _⟩ := ho
      exact ⟨hc, hu, hids, hdl, hul, h.both⟩
    · rename_i hb
      cases dir with
      | none => simp at ho
      | dl =>
        simp only [Res.ok.injEq, Prod.mk.injEq] at ho
        obtain ⟨rfl, _⟩ := ho
        refine ⟨hc, hu, hids, ?_, hul, ?_⟩
        · intro j c e
          simp only [Slots.upd_apply] at e
          split at e
          · rename_i hj; subst hj; cases e; exact ⟨hts, Or.inl rfl, by simp⟩
          · exact hdl j c e
        · intro j e
          simp only [Slots.upd_apply] at e ⊢
          split at e
          · simp [isBoth, Mgr.draw] at e
          · exact h.both j e
      | both =>
        simp only [Res.ok.injEq, Prod.mk.injEq] at ho
        obtain ⟨rfl, _⟩ := ho
        refine ⟨hc, hu, hids, ?_, hul, ?_⟩
        · intro j c e
          simp only [Slots.upd_apply] at e
          split at e
          · rename_i hj; subst hj; cases e; exact ⟨hts, Or.inr rfl, by simp⟩
          · exact hdl j c e
        · intro j e
          simp only [Slots.upd_apply] at e ⊢
          split at e
          · rename_i hj; subst hj
            simp only [Dir.includesUl, Bool.true_and, Mgr.isActive, Bool.or_eq_true, not_or] at hb
            have := hb.2
            simpa [Mgr.draw] using this
          · exact h.both j e
      | ul =>
        simp only [Res.ok.injEq, Prod.mk.injEq] at ho
        obtain ⟨rfl, _⟩ := ho
        refine ⟨hc, hu, hids, hdl, ?_, ?_⟩
        · intro j c e
          simp only [Slots.upd_apply] at e
          split at e
          · rename_i hj; subst hj; cases e; exact ⟨hts, rfl, by simp⟩
          · exact hul j c e
        · intro j e
          simp only [Slots.upd_apply] at e ⊢
          split
          · rename_i hj; subst hj
            simp only [Dir.includesUl, Bool.true_and, Mgr.isActive, Bool.or_eq_true, not_or] at hb
            exact absurd e hb.1
          · exact h.both j e

theorem inv_close {m m' : Mgr} {log : List CmceCircuit} (h : Inv m log) {dir : Dir} {ts : Nat} {r}
    (hc : m.close dir ts = .ok (m', r)) : Inv m' log := by
  unfold Mgr.close at hc
  rw [Res.bind_eq_ok] at hc
  obtain ⟨i, hi, hc⟩ := hc
  cases dir with
  | none => simp at hc
  | ul =>
    simp only [Res.ok.injEq, Prod.mk.injEq] at hc
    obtain ⟨rfl, _⟩ := hc
    refine ⟨h.callId, h.usage, h.ids, h.dl, ?_, ?_⟩
    · intro j c e
      simp only [Slots.upd_apply] at e
      split at e
      · simp at e
      · exact h.ul j c e
    · intro j e
      simp only [Slots.upd_apply]
      split
      · rfl
      · exact h.both j e
  | dl =>
    simp only [Res.ok.injEq, Prod.mk.injEq] at hc
    obtain ⟨rfl, _⟩ := hc
    refine ⟨h.callId, h.usage, h.ids, ?_, h.ul, ?_⟩
    · intro j c e
      simp only [Slots.upd_apply] at e
      split at e
      · simp at e
      · exact h.dl j c e
    · intro j e
      simp only [Slots.upd_apply] at e
      split at e
      · simp [isBoth] at e
      · exact h.both j e
  | both =>
    simp only [Res.ok.injEq, Prod.mk.injEq] at hc
    obtain ⟨rfl, _⟩ := hc
    refine ⟨h.callId, h.usage, h.ids, ?_, h.ul, ?_⟩
    · intro j c e
      simp only [Slots.upd_apply] at e
      split at e
      · simp at e
      · exact h.dl j c e
    · intro j e
      simp only [Slots.upd_apply] at e
      split at e
      · simp [isBoth] at e
      · exact h.both j e

theorem inv_closeAll {log : List CmceCircuit} (cs : List CmceCircuit) {m m' : Mgr} (h : Inv m log) {cmds}
    (hc : closeAll m cs = .ok (m', cmds)) : Inv m' log := by
  induction cs generalizing m cmds with
  | nil => simp only [closeAll, Res.ok.injEq, Prod.mk.injEq] at hc; rw [← hc.1]; exact h
  | cons c cs ih =>
    simp only [closeAll, Res.bind_eq_ok] at hc
    obtain ⟨⟨m1, r⟩, h1, hc⟩ := hc
    have := inv_close h h1
    cases r with
    | error e => simp at hc
    | ok x =>
      simp only [Res.bind_eq_ok] at hc
      obtain ⟨⟨m2, q⟩, h2, hc⟩ := hc
      simp only [Res.ok.injEq, Prod.mk.injEq] at hc
      obtain ⟨rfl, _⟩ := hc
      exact ih this h2

theorem inv_tick {m m' : Mgr} {log : List CmceCircuit} (h : Inv m log) {now : Time} {cmds}
    (hc : m.tick now = .ok (m', cmds)) : Inv m' log := by
  unfold Mgr.tick at hc
  have h' : Inv { m with dltime := now } log := ⟨h.callId, h.usage, h.ids, h.dl, h.ul, h.both⟩
  dsimp only at hc
  split at hc
  · rw [Res.bind_eq_ok] at hc
    obtain ⟨⟨m1, q⟩, h1, hc⟩ := hc
    simp only [Res.ok.injEq, Prod.mk.injEq] at hc
    rw [← hc.1]
    exact inv_closeAll _ h' h1
  · simp only [Res.ok.injEq, Prod.mk.injEq] at hc
    rw [← hc.1]; exact h'

theorem inv_step {m m' : Mgr} {log new : List CmceCircuit} (h : Inv m log) {op : Op}
    (hs : m.step op = .ok (m', new)) : Inv m' (log ++ new) := by
  cases op with
  | allocate dir comm =>
    simp only [Mgr.step, Mgr.allocate] at hs
    cases hf : m.getFreeTs dir with
    | error e =>
      simp only [hf, Res.bind_ok, Res.ok.injEq, Prod.mk.injEq] at hs
      obtain ⟨rfl, rfl⟩ := hs
      simpa using h
    | ok ts =>
      simp only [hf, Res.bind_eq_ok] at hs
      obtain ⟨⟨m1, r⟩, h1, hs⟩ := hs
      simp only [Res.ok.injEq, Prod.mk.injEq] at hs
      obtain ⟨rfl, rfl⟩ := hs
      exact inv_open h h1
  | allocateWith dir comm a o =>
    simp only [Mgr.step, Mgr.allocateWith] at hs
    cases hf : a.allocateAny o with
    | mk a' x =>
    cases x with
    | none =>
      simp only [hf, Res.bind_ok, Res.ok.injEq, Prod.mk.injEq] at hs
      obtain ⟨rfl, rfl⟩ := hs
      simpa using h
    | some ts =>
      simp only [hf, Res.bind_eq_ok] at hs
      obtain ⟨_, ⟨⟨m1, r⟩, h1, h2⟩, hs⟩ := hs
      simp only [Res.ok.injEq] at h2
      subst h2
      simp only [Res.ok.injEq, Prod.mk.injEq] at hs
      obtain ⟨rfl, rfl⟩ := hs
      exact inv_open h h1
  | close dir ts =>
    simp only [Mgr.step, Res.bind_eq_ok] at hs
    obtain ⟨⟨m1, r⟩, h1, hs⟩ := hs
    simp only [Res.ok.injEq, Prod.mk.injEq] at hs
    obtain ⟨rfl, rfl⟩ := hs
    simpa using inv_close h h1
  | put ts b =>
    simp only [Mgr.step, Mgr.putBlock, Res.bind_eq_ok] at hs
    obtain ⟨⟨m1, r⟩, ⟨i, hi, h1⟩, hs⟩ := hs
    simp only [Res.ok.injEq, Prod.mk.injEq] at hs
    obtain ⟨rfl, rfl⟩ := hs
    rw [List.append_nil]
    split at h1 <;> simp only [Res.ok.injEq, Prod.mk.injEq] at h1 <;> rw [← h1.1]
    · exact ⟨h.callId, h.usage, h.ids, h.dl, h.ul, h.both⟩
    · exact h
  | take ts =>
    simp only [Mgr.step, Mgr.takeBlock, Res.bind_eq_ok] at hs
    obtain ⟨⟨m1, r⟩, ⟨i, hi, h1⟩, hs⟩ := hs
    simp only [Res.ok.injEq, Prod.mk.injEq] at hs
    obtain ⟨rfl, rfl⟩ := hs
    rw [List.append_nil]
    split at h1 <;> simp only [Res.ok.injEq, Prod.mk.injEq] at h1 <;> rw [← h1.1]
    · exact ⟨h.callId, h.usage, h.ids, h.dl, h.ul, h.both⟩
    · exact h
  | tick now =>
    simp only [Mgr.step, Res.bind_eq_ok] at hs
    obtain ⟨⟨m1, r⟩, h1, hs⟩ := hs
    simp only [Res.ok.injEq, Prod.mk.injEq] at hs
    obtain ⟨rfl, rfl⟩ := hs
    simpa using inv_tick h h1

theorem reached_inv {m : Mgr} {log : List CmceCircuit} (h : Reached m log) : Inv m log := by
  induction h with
  | init => exact inv_init
  | step _ hs ih => exact inv_step ih hs

theorem active_mem {m : Mgr} {log : List CmceCircuit} (h : Inv m log) {c : CmceCircuit} (ha : m.Active c) : c ∈ log := by
  obtain ⟨i, h1 | h1⟩ := ha
  · exact (h.dl i c h1).2.2
  · exact (h.ul i c h1).2.2

/-- **C25, ranges.** Every circuit has a ten-bit call identifier other than 0, a six-bit usage number
outside the reserved 0 to 3, and a timeslot 1 to 4. -/
theorem c25_ranges {m : Mgr} {log : List CmceCircuit} (h : Reached m log) {c : CmceCircuit} (ha : m.Active c) :
    1 ≤ c.callId ∧ c.callId ≤ 0x3FF ∧ 4 ≤ c.usage ∧ c.usage ≤ 63 ∧ 1 ≤ c.ts ∧ c.ts ≤ 4 := by
  have hi := reached_inv h
  obtain ⟨k, hk, e⟩ := List.mem_iff_getElem.1 (active_mem hi ha)
  obtain ⟨h1, h2⟩ := hi.ids k c (by rw [List.getElem?_eq_getElem hk, e])
  have h3 : 1 ≤ c.ts ∧ c.ts ≤ 4 := by
    obtain ⟨i, h1 | h1⟩ := ha
    · have := (hi.dl i c h1).1; omega
    · have := (hi.ul i c h1).1; omega
  rw [h1, h2]
  unfold callIdOf usageOf
  omega

/-- **C25, timeslots.** Two circuits share a timeslot only if one is downlink only and the other uplink
only. -/
theorem c25_timeslots {m : Mgr} {log : List CmceCircuit} (h : Reached m log) {c d : CmceCircuit} (hc : m.Active c)
    (hd : m.Active d) (hne : c ≠ d) (hts : c.ts = d.ts) :
    (c.direction = .dl ∧ d.direction = .ul) ∨ (c.direction = .ul ∧ d.direction = .dl) := by
  have hi := reached_inv h
  obtain ⟨i, h1 | h1⟩ := hc <;> obtain ⟨j, h2 | h2⟩ := hd
  · have a := (hi.dl i c h1).1; have b := (hi.dl j d h2).1
    have : i = j := Fin.ext (by omega)
    subst this; rw [h1] at h2; cases h2; exact absurd rfl hne
  · have a := hi.dl i c h1; have b := hi.ul j d h2
    have : i = j := Fin.ext (by omega)
    subst this
    refine Or.inl ⟨?_, b.2.1⟩
    rcases a.2.1 with e | e
    · exact e
    · have := hi.both i (by rw [h1]; simp [isBoth, e]); rw [this] at h2; cases h2
  · have a := hi.ul i c h1; have b := hi.dl j d h2
    have : i = j := Fin.ext (by omega)
    subst this
    refine Or.inr ⟨a.2.1, ?_⟩
    rcases b.2.1 with e | e
    · exact e
    · have := hi.both i (by rw [h2]; simp [isBoth, e]); rw [this] at h1; cases h1
  · have a := (hi.ul i c h1).1; have b := (hi.ul j d h2).1
    have : i = j := Fin.ext (by omega)
    subst this; rw [h1] at h2; cases h2; exact absurd rfl hne

/-- **C25, identifiers, as far as the code goes.** Two different circuits held at the same time have the same
usage number only if at least 60 circuits were made from the one to the other, and the same call identifier
only after at least 1023. What is missing: nothing stops a circuit from living that long, see the findings
below. -/
theorem c25_distinct_partial {m : Mgr} {log : List CmceCircuit} (h : Reached m log) {c d : CmceCircuit}
    (hc : m.Active c) (hd : m.Active d) (hne : c ≠ d) :
    ∃ j k, log[j]? = some c ∧ log[k]? = some d ∧
      (c.usage = d.usage → j + 60 ≤ k ∨ k + 60 ≤ j) ∧
      (c.callId = d.callId → j + 1023 ≤ k ∨ k + 1023 ≤ j) := by
  have hi := reached_inv h
  obtain ⟨j, hj, ej⟩ := List.mem_iff_getElem.1 (active_mem hi hc)
  obtain ⟨k, hk, ek⟩ := List.mem_iff_getElem.1 (active_mem hi hd)
  have gj : log[j]? = some c := by rw [List.getElem?_eq_getElem hj, ej]
  have gk : log[k]? = some d := by rw [List.getElem?_eq_getElem hk, ek]
  have hjk : j ≠ k := by intro e; subst e; rw [gj] at gk; cases gk; exact hne rfl
  obtain ⟨a1, a2⟩ := hi.ids j c gj
  obtain ⟨b1, b2⟩ := hi.ids k d gk
  refine ⟨j, k, gj, gk, ?_, ?_⟩
  · rw [a2, b2]; unfold usageOf; omega
  · rw [a1, b1]; unfold callIdOf; omega

/-- As long as at most 60 circuits have been made, the circuits held are all distinguishable. -/
theorem c25_distinct_first_60 {m : Mgr} {log : List CmceCircuit} (h : Reached m log) (hl : log.length ≤ 60)
    {c d : CmceCircuit} (hc : m.Active c) (hd : m.Active d) (hne : c ≠ d) :
    c.usage ≠ d.usage ∧ c.callId ≠ d.callId := by
  obtain ⟨j, k, h1, h2, h3, h4⟩ := c25_distinct_partial h hc hd hne
  have hj := (List.getElem?_eq_some_iff.1 h1).1
  have hk := (List.getElem?_eq_some_iff.1 h2).1
  exact ⟨fun e => by have := h3 e; omega, fun e => by have := h4 e; omega⟩

/-- A manager with one circuit held on timeslot 2 and timeslots 3 and 4 free, about to give out the numbers
`callIdOf n`, `usageOf n`. -/
def held (n : Nat) (c : CmceCircuit) : Mgr :=
  ⟨Time.default, fun i => if i = 1 then some c else none, fun _ => none, fun _ => [], callIdOf n, usageOf n⟩

/-- The circuit made as number `n`, on timeslot 3. -/
def shortCall (n : Nat) : CmceCircuit := ⟨Time.default, .both, 3, callIdOf n, usageOf n, 0⟩

theorem short_call (n : Nat) (c : CmceCircuit) :
    ∃ m, (held n c).step (.allocate .both 0) = .ok (m, [shortCall n]) ∧ m.dl 2 = some (shortCall n) ∧
      m.dl 1 = some c ∧ m.step (.close .both 3) = .ok (held (n + 1) c, []) := by
  have hf : (held n c).getFreeTs .both = .ok 3 := by
    simp [Mgr.getFreeTs, Mgr.slotFreeFor, Mgr.isActive, held, isBoth]
  have hi : Slots.idx 3 = .ok 2 := rfl
  simp only [Mgr.step, Mgr.allocate, hf, Mgr.openCircuit, Mgr.draw, hi, Res.bind_ok]
  simp only [Mgr.isActive, held, isBoth]
  refine ⟨_, rfl, rfl, rfl, ?_⟩
  simp only [Mgr.close, hi, Res.bind_ok, ← callIdOf_succ, ← usageOf_succ]
  congr 3
  · funext i
    simp only [Slots.upd_apply]
    split
    · rename_i e; subst e; rfl
    · rfl
  · funext i; simp only [Slots.upd_apply]; split
    · rfl
    · rfl

/-- The first circuit ever made. -/
def firstCall : CmceCircuit := ⟨Time.default, .both, 2, 4, 4, 0⟩

theorem held_reached (n : Nat) : ∃ log, log.length = n + 1 ∧ Reached (held (n + 1) firstCall) log := by
  induction n with
  | zero =>
    refine ⟨[firstCall], rfl, ?_⟩
    have h : Mgr.init.step (.allocate .both 0) = .ok (held 1 firstCall, [firstCall]) := by
      have hf : Mgr.init.getFreeTs .both = .ok 2 := by
        simp [Mgr.getFreeTs, Mgr.slotFreeFor, Mgr.isActive, Mgr.init, isBoth]
      have hi : Slots.idx 2 = .ok 1 := rfl
      simp only [Mgr.step, Mgr.allocate, hf, Mgr.openCircuit, Mgr.draw, hi, Res.bind_ok]
      simp only [Mgr.isActive, Mgr.init, isBoth]
      have e1 : (Slots.upd (fun _ => none) 1 (some firstCall) : Slots (Option CmceCircuit)) = fun i => if i = 1 then some firstCall else none := rfl
      have e2 : (Slots.upd (fun _ => []) 1 [] : Slots (List (List Nat))) = fun _ => [] := by
        funext i; simp only [Slots.upd_apply]; split <;> rfl
      simp only [e2]
      rfl
    exact Reached.step (log := []) Reached.init h
  | succ n ih =>
    obtain ⟨log, hl, hr⟩ := ih
    obtain ⟨m, h1, _, _, h2⟩ := short_call (n + 1) firstCall
    exact ⟨log ++ [shortCall (n + 1)] ++ [], by simp [hl], (hr.step h1).step h2⟩

/-- **Finding.** A usage number is given out although a circuit still uses it: one circuit is held while sixty
others come and go. -/
theorem c25_usage_given_twice : ∃ m log c d, Reached m log ∧ m.Active c ∧ m.Active d ∧ c.ts ≠ d.ts ∧ c.usage = d.usage := by
  obtain ⟨log, _, hr⟩ := held_reached 59
  obtain ⟨m, h1, h2, h3, _⟩ := short_call 60 firstCall
  exact ⟨m, _, firstCall, shortCall 60, hr.step h1, ⟨1, Or.inl h3⟩, ⟨2, Or.inl h2⟩, by decide, by decide⟩

/-- **Finding.** The same for call identifiers, after 1023 circuits. -/
theorem c25_call_id_given_twice : ∃ m log c d, Reached m log ∧ m.Active c ∧ m.Active d ∧ c.ts ≠ d.ts ∧ c.callId = d.callId := by
  obtain ⟨log, _, hr⟩ := held_reached 1022
  obtain ⟨m, h1, h2, h3, _⟩ := short_call 1023 firstCall
  exact ⟨m, _, firstCall, shortCall 1023, hr.step h1, ⟨1, Or.inl h3⟩, ⟨2, Or.inl h2⟩, by decide, by decide⟩

/-- **Finding.** With a downlink-only and an uplink-only circuit on one timeslot, asking whether the uplink is
active aborts. -/
theorem c25_is_active_dir_aborts : ∃ m log, Reached m log ∧ m.isActiveDir 1 .ul = .panic := by
  have h1 : ∃ m1, Mgr.init.step (.allocate .dl 0) = .ok (m1, [⟨Time.default, .dl, 2, 4, 4, 0⟩]) ∧
      ∃ m2 l, m1.step (.allocate .ul 0) = .ok (m2, l) ∧ m2.isActiveDir 1 .ul = .panic := by
    have hf : Mgr.init.getFreeTs .dl = .ok 2 := by
      simp [Mgr.getFreeTs, Mgr.slotFreeFor, Mgr.isActive, Mgr.init]
    have hi : Slots.idx 2 = .ok 1 := rfl
    simp only [Mgr.step, Mgr.allocate, hf, Mgr.openCircuit, Mgr.draw, hi, Res.bind_ok]
    refine ⟨_, rfl, ?_⟩
    refine ⟨_, _, rfl, ?_⟩
    rfl
  obtain ⟨m1, h1, m2, l, h2, h3⟩ := h1
  exact ⟨m2, _, (Reached.init.step h1).step h2, h3⟩

/-! ## C41 -/

theorem mem_entries {s : Slots (Option CmceCircuit)} {c : CmceCircuit} : c ∈ entries s ↔ ∃ i, s i = some c := by
  unfold entries
  simp only [List.mem_filterMap]
  constructor
  · rintro ⟨i, _, h⟩; exact ⟨i, h⟩
  · rintro ⟨i, h⟩
    refine ⟨i, ?_, h⟩
    match i with
    | 0 => simp
    | 1 => simp
    | 2 => simp
    | 3 => simp

theorem entries_nodup {s : Slots (Option CmceCircuit)} (h : ∀ i c, s i = some c → c.ts = i.val + 1) : (entries s).Nodup := by
  unfold entries List.Nodup
  rw [List.pairwise_filterMap]
  have : ([0, 1, 2, 3] : List (Fin 4)).Pairwise (· ≠ ·) := by decide
  refine this.imp ?_
  intro i j hij a ha b hb e
  subst e
  have h1 := h i a ha; have h2 := h j a hb
  exact hij (Fin.ext (by omega))

theorem close_one {m : Mgr} {log : List CmceCircuit} (h : Inv m log) {c : CmceCircuit} (ha : m.Active c) :
    ∃ m1, m.close c.direction c.ts = .ok (m1, .ok c) ∧ ∀ d, m1.Active d ↔ m.Active d ∧ d ≠ c := by
  obtain ⟨i, hi | hi⟩ := ha
  · obtain ⟨hts, hdir, _⟩ := h.dl i c hi
    have key : ∃ m1, m.close c.direction c.ts = .ok (m1, .ok c) ∧ m1.dl = m.dl.upd i none ∧ m1.ulOnly = m.ulOnly := by
      unfold Mgr.close
      rcases hdir with e | e <;> rw [e, hts] <;> simp [hi]
    obtain ⟨m1, h1, h2, h3⟩ := key
    refine ⟨m1, h1, ?_⟩
    intro d
    unfold Mgr.Active
    rw [h2, h3]
    constructor
    · rintro ⟨j, hj | hj⟩
      · simp only [Slots.upd_apply] at hj
        split at hj
        · cases hj
        · rename_i hne
          refine ⟨⟨j, Or.inl hj⟩, ?_⟩
          intro e; subst e
          have := (h.dl j d hj).1
          exact hne (Fin.ext (by omega))
      · refine ⟨⟨j, Or.inr hj⟩, ?_⟩
        intro e; subst e
        have := (h.ul j d hj).2.1
        rw [this] at hdir; simp at hdir
    · rintro ⟨⟨j, hj | hj⟩, hne⟩
      · refine ⟨j, Or.inl ?_⟩
        rw [Slots.upd_ne]
        · exact hj
        · intro e; subst e; rw [hi] at hj; cases hj; exact hne rfl
      · exact ⟨j, Or.inr hj⟩
  · obtain ⟨hts, hdir, _⟩ := h.ul i c hi
    have key : ∃ m1, m.close c.direction c.ts = .ok (m1, .ok c) ∧ m1.dl = m.dl ∧ m1.ulOnly = m.ulOnly.upd i none := by
      unfold Mgr.close
      rw [hdir, hts]; simp [hi]
    obtain ⟨m1, h1, h2, h3⟩ := key
    refine ⟨m1, h1, ?_⟩
    intro d
    unfold Mgr.Active
    rw [h2, h3]
    constructor
    · rintro ⟨j, hj | hj⟩
      · refine ⟨⟨j, Or.inl hj⟩, ?_⟩
        intro e; subst e
        have := (h.dl j d hj).2.1
        rw [hdir] at this; simp at this
      · simp only [Slots.upd_apply] at hj
        split at hj
        · cases hj
        · rename_i hne
          refine ⟨⟨j, Or.inr hj⟩, ?_⟩
          intro e; subst e
          have := (h.ul j d hj).1
          exact hne (Fin.ext (by omega))
    · rintro ⟨⟨j, hj | hj⟩, hne⟩
      · exact ⟨j, Or.inl hj⟩
      · refine ⟨j, Or.inr ?_⟩
        rw [Slots.upd_ne]
        · exact hj
        · intro e; subst e; rw [hi] at hj; cases hj; exact hne rfl

theorem closeAll_spec {log : List CmceCircuit} (cs : List CmceCircuit) {m : Mgr} (h : Inv m log) (hn : cs.Nodup)
    (ha : ∀ c ∈ cs, m.Active c) :
    ∃ m', closeAll m cs = .ok (m', cs.map fun c => .sendClose c.callId c) ∧
      ∀ d, m'.Active d ↔ m.Active d ∧ d ∉ cs := by
  induction cs generalizing m with
  | nil => exact ⟨m, rfl, by simp⟩
  | cons c cs ih =>
    obtain ⟨m1, h1, h2⟩ := close_one h (ha c (by simp))
    rw [List.nodup_cons] at hn
    obtain ⟨m', h3, h4⟩ := ih (inv_close h h1) hn.2 (fun d hd => (h2 d).2 ⟨ha d (by simp [hd]), by
      intro e; subst e; exact hn.1 hd⟩)
    refine ⟨m', by simp [closeAll, h1, h3], ?_⟩
    intro d
    rw [h4, h2]
    simp only [List.mem_cons, not_or]
    constructor
    · rintro ⟨⟨a, b⟩, c⟩; exact ⟨a, b, c⟩
    · rintro ⟨a, b, c⟩; exact ⟨⟨a, b⟩, c⟩

/-- Age of a circuit in timeslots. -/
def CmceCircuit.age (c : CmceCircuit) (now : Time) : Int := c.tsCreated.age now

/-- The circuits past the limit, downlink ones first, each in order of timeslot. -/
def Mgr.overdue (m : Mgr) (now : Time) : List CmceCircuit :=
  (entries m.dl ++ entries m.ulOnly).filter fun c => decide (c.age now > 25920)

theorem overdue_nodup {m : Mgr} {log : List CmceCircuit} (h : Inv m log) (now : Time) : (m.overdue now).Nodup := by
  apply List.Pairwise.filter
  rw [← List.Nodup, List.nodup_append]
  refine ⟨entries_nodup fun i c e => (h.dl i c e).1, entries_nodup fun i c e => (h.ul i c e).1, ?_⟩
  intro a ha b hb e
  subst e
  obtain ⟨i, hi⟩ := mem_entries.1 ha
  obtain ⟨j, hj⟩ := mem_entries.1 hb
  have h1 := (h.dl i a hi).2.1
  rw [(h.ul j a hj).2.1] at h1; simp at h1

theorem mem_overdue {m : Mgr} {now : Time} {c : CmceCircuit} : c ∈ m.overdue now ↔ m.Active c ∧ c.age now > 25920 := by
  simp only [Mgr.overdue, List.mem_filter, List.mem_append, mem_entries, decide_eq_true_eq, Mgr.Active]
  constructor
  · rintro ⟨⟨i, hi⟩ | ⟨i, hi⟩, a⟩
    · exact ⟨⟨i, Or.inl hi⟩, a⟩
    · exact ⟨⟨i, Or.inr hi⟩, a⟩
  · rintro ⟨⟨i, hi | hi⟩, a⟩
    · exact ⟨Or.inl ⟨i, hi⟩, a⟩
    · exact ⟨Or.inr ⟨i, hi⟩, a⟩

theorem tick_spec {m : Mgr} {log : List CmceCircuit} (h : Inv m log) {now : Time} (ht : now.t = 1) :
    ∃ m', m.tick now = .ok (m', (m.overdue now).map (fun c => .sendClose c.callId c) ++
        ((entries m'.dl).filter (setupDue now)).map fun c => .sendDSetup c.callId c.usage c.ts) ∧
      (∀ d, m'.Active d ↔ m.Active d ∧ ¬ d.age now > 25920) ∧ Inv m' log := by
  have h' : Inv { m with dltime := now } log := ⟨h.callId, h.usage, h.ids, h.dl, h.ul, h.both⟩
  have hov : (entries m.dl).filter (expired now) ++ (entries m.ulOnly).filter (expired now) = m.overdue now := by
    unfold Mgr.overdue; rw [List.filter_append]; rfl
  obtain ⟨m', h1, h2⟩ := closeAll_spec (m.overdue now) h' (overdue_nodup h now) (fun c hc => (mem_overdue.1 hc).1)
  refine ⟨m', ?_, ?_, inv_closeAll _ h' h1⟩
  · unfold Mgr.tick Mgr.closeExpired
    dsimp only
    rw [if_pos ht, hov, h1]
    rfl
  · intro d
    rw [h2, mem_overdue]
    have e : Mgr.Active { m with dltime := now } d ↔ m.Active d := Iff.rfl
    rw [e]
    constructor
    · rintro ⟨a, b⟩; exact ⟨a, fun c => b ⟨a, c⟩⟩
    · rintro ⟨a, b⟩; exact ⟨a, fun c => b c.2⟩

/-- The circuits reported closed by a list of commands, with the call identifier of the report. -/
def closings (cmds : List Cmd) : List (Nat × CmceCircuit) :=
  cmds.filterMap fun c => match c with
    | .sendClose id c => some (id, c)
    | .sendDSetup .. => none

/-- The calls announced by a list of commands: call identifier, usage number, timeslot. -/
def announcements (cmds : List Cmd) : List (Nat × Nat × Nat) :=
  cmds.filterMap fun c => match c with
    | .sendClose .. => none
    | .sendDSetup id u ts => some (id, u, ts)

theorem closings_tick (a b : List CmceCircuit) :
    closings (a.map (fun c => .sendClose c.callId c) ++ b.map fun c => .sendDSetup c.callId c.usage c.ts) =
      a.map fun c => (c.callId, c) := by
  unfold closings
  rw [List.filterMap_append, List.filterMap_map, List.filterMap_map]
  have e1 : List.filterMap ((fun c => match c with | Cmd.sendClose id c => some (id, c) | .sendDSetup .. => none) ∘
      fun c : CmceCircuit => .sendClose c.callId c) a = a.map fun c => (c.callId, c) := by
    rw [← List.filterMap_eq_map]; rfl
  rw [e1]
  have e2 : List.filterMap ((fun c => match c with | Cmd.sendClose id c => some (id, c) | .sendDSetup .. => none) ∘
      fun c : CmceCircuit => .sendDSetup c.callId c.usage c.ts) b = [] := by
    rw [List.filterMap_eq_nil_iff]; intro x _; rfl
  rw [e2, List.append_nil]

theorem announcements_tick (a b : List CmceCircuit) :
    announcements (a.map (fun c => .sendClose c.callId c) ++ b.map fun c => .sendDSetup c.callId c.usage c.ts) =
      b.map fun c => (c.callId, c.usage, c.ts) := by
  unfold announcements
  rw [List.filterMap_append, List.filterMap_map, List.filterMap_map]
  have e1 : List.filterMap ((fun c => match c with | Cmd.sendClose _ _ => none | .sendDSetup id u ts => some (id, u, ts)) ∘
      fun c : CmceCircuit => .sendClose c.callId c) a = [] := by
    rw [List.filterMap_eq_nil_iff]; intro x _; rfl
  rw [e1]
  have e2 : List.filterMap ((fun c => match c with | Cmd.sendClose _ _ => none | .sendDSetup id u ts => some (id, u, ts)) ∘
      fun c : CmceCircuit => .sendDSetup c.callId c.usage c.ts) b = b.map fun c => (c.callId, c.usage, c.ts) := by
    rw [← List.filterMap_eq_map]; rfl
  rw [e2, List.nil_append]

/-- **C41, expiry.** On the first timeslot of a frame every circuit older than six minutes (25920 timeslots)
is closed and reported, each once, and no other circuit is touched. The tick never aborts. -/
theorem c41_expiry {m : Mgr} {log : List CmceCircuit} (h : Reached m log) {now : Time} (ht : now.t = 1) :
    ∃ m' cmds, m.tick now = .ok (m', cmds) ∧
      (∀ d, m'.Active d ↔ m.Active d ∧ ¬ d.age now > 25920) ∧
      (∀ id c, (id, c) ∈ closings cmds ↔ m.Active c ∧ c.age now > 25920 ∧ id = c.callId) ∧
      (closings cmds).Nodup := by
  have hi := reached_inv h
  obtain ⟨m', h1, h2, h3⟩ := tick_spec hi ht
  refine ⟨m', _, h1, h2, ?_, ?_⟩
  · intro id c
    rw [closings_tick]
    simp only [List.mem_map, mem_overdue, Prod.mk.injEq]
    constructor
    · rintro ⟨d, ⟨a, b⟩, rfl, rfl⟩; exact ⟨a, b, rfl⟩
    · rintro ⟨a, b, rfl⟩; exact ⟨c, ⟨a, b⟩, rfl, rfl⟩
  · rw [closings_tick]
    refine List.Pairwise.map _ ?_ (overdue_nodup hi now)
    intro a b hab e
    exact hab (Prod.mk.inj e).2

/-- **C41, announcements.** On the first timeslot of a frame a call set-up is announced, once, for exactly those
circuits with a downlink, among those left, which are younger than one frame or whose age in whole frames is
a multiple of 90 (five multiframes). -/
theorem c41_announcements {m : Mgr} {log : List CmceCircuit} (h : Reached m log) {now : Time} (ht : now.t = 1) :
    ∃ m' cmds, m.tick now = .ok (m', cmds) ∧
      (∀ x, x ∈ announcements cmds ↔ ∃ c, m'.Active c ∧ c.direction.includesDl = true ∧
        (c.age now < 4 ∨ ((c.age now) / 4) % 90 = 0) ∧ x = (c.callId, c.usage, c.ts)) ∧
      (announcements cmds).Nodup := by
  have hi := reached_inv h
  obtain ⟨m', h1, h2, h3⟩ := tick_spec hi ht
  have hdue : ∀ c, setupDue now c = true ↔ (c.age now < 4 ∨ ((c.age now) / 4) % 90 = 0) := by
    intro c
    unfold setupDue CmceCircuit.age
    have e1 : frames 1 = 4 := by decide
    have e2 : lateEntry.tdiv 4 = 90 := by decide
    simp only [e1, e2]
    split
    · simp [*]
    · rename_i hlt
      rw [Int.tdiv_eq_ediv_of_nonneg (by omega), Int.tmod_eq_emod_of_nonneg (by omega)]
      simp only [beq_iff_eq]
      omega
  refine ⟨m', _, h1, ?_, ?_⟩
  · intro x
    rw [announcements_tick]
    simp only [List.mem_map, List.mem_filter, mem_entries, hdue]
    constructor
    · rintro ⟨c, ⟨⟨i, hc⟩, hd⟩, rfl⟩
      refine ⟨c, ⟨i, Or.inl hc⟩, ?_, hd, rfl⟩
      rcases (h3.dl i c hc).2.1 with e | e <;> rw [e] <;> rfl
    · rintro ⟨c, ⟨i, hc | hc⟩, hdir, hd, rfl⟩
      · exact ⟨c, ⟨⟨i, hc⟩, hd⟩, rfl⟩
      · rw [(h3.ul i c hc).2.1] at hdir; simp [Dir.includesDl] at hdir
  · rw [announcements_tick]
    refine List.Pairwise.map (R := fun a b : CmceCircuit => a.ts ≠ b.ts) _ ?_ ?_
    · intro a b hab e
      exact hab (Prod.mk.inj (Prod.mk.inj e).2).2
    · apply List.Pairwise.filter
      unfold entries
      rw [List.pairwise_filterMap]
      have : ([0, 1, 2, 3] : List (Fin 4)).Pairwise (· ≠ ·) := by decide
      refine this.imp ?_
      intro i j hij a ha b hb e
      have h1 := (h3.dl i a ha).1; have h2 := (h3.dl j b hb).1
      exact hij (Fin.ext (by omega))

/-- On the other timeslots nothing happens. -/
theorem c41_other_timeslots (m : Mgr) {now : Time} (ht : now.t ≠ 1) :
    m.tick now = .ok ({ m with dltime := now }, []) := by
  unfold Mgr.tick; simp [ht]

/-- A circuit is announced in the frame it was made in, and closed after six minutes. -/
example : setupDue Time.default firstCall = true ∧ setupDue (fromInt 360) firstCall = true ∧
    setupDue (fromInt 364) firstCall = false ∧ expired (fromInt 25920) firstCall = false ∧
    expired (fromInt 25924) firstCall = true := by
  simp only [setupDue, expired, Time.age, Time.diff, timeIntDiff_eq]
  decide +kernel

end Verif.Cmce
