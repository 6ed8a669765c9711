import Verif.Cmce.CircuitsProps
/-!
# Asking the circuit manager

C25: what the circuit manager says about timeslots agrees with the circuits it holds.
-/
namespace Verif.Cmce

/-- A circuit occupies a direction of a timeslot. -/
def Occupied (m : Mgr) (ts : Nat) (up : Bool) (c : CmceCircuit) : Prop :=
  m.Active c ∧ c.ts = ts ∧ (if up then c.direction = .ul ∨ c.direction = .both else c.direction = .dl ∨ c.direction = .both)

theorem occupied_dl {m : Mgr} {log : List CmceCircuit} (h : Inv m log) (i : Fin 4) (c : CmceCircuit) :
    Occupied m (i.val + 1) false c ↔ m.dl i = some c := by
  constructor
  · rintro ⟨⟨j, hj | hj⟩, ht, hd⟩
    · have : j = i := Fin.ext (by have := (h.dl j c hj).1; omega)
      rw [← this]; exact hj
    · have := (h.ul j c hj).2.1
      simp [this] at hd
  · intro hi
    obtain ⟨h1, h2, _⟩ := h.dl i c hi
    exact ⟨⟨i, .inl hi⟩, h1, by simpa using h2⟩

theorem occupied_ul {m : Mgr} {log : List CmceCircuit} (h : Inv m log) (i : Fin 4) (c : CmceCircuit) :
    Occupied m (i.val + 1) true c ↔ m.ulOnly i = some c ∨ (m.dl i = some c ∧ isBoth (m.dl i) = true) := by
  constructor
  · rintro ⟨⟨j, hj | hj⟩, ht, hd⟩
    · have e : j = i := Fin.ext (by have := (h.dl j c hj).1; omega)
      subst e
      have h2 := (h.dl j c hj).2.1
      have h3 : c.direction = .both := by
        rcases h2 with h2 | h2
        · simp [h2] at hd
        · exact h2
      exact .inr ⟨hj, by simp [hj, isBoth, h3]⟩
    · have e : j = i := Fin.ext (by have := (h.ul j c hj).1; omega)
      subst e; exact .inl hj
  · rintro (hi | ⟨hi, hb⟩)
    · obtain ⟨h1, h2, _⟩ := h.ul i c hi
      exact ⟨⟨i, .inr hi⟩, h1, by simp [h2]⟩
    · obtain ⟨h1, _, _⟩ := h.dl i c hi
      have : c.direction = .both := by simpa [hi, isBoth] using hb
      exact ⟨⟨i, .inl hi⟩, h1, by simp [this]⟩

/-- A direction of a timeslot is in use exactly when a circuit occupies it. -/
theorem isActive_iff {m : Mgr} {log : List CmceCircuit} (h : Inv m log) (i : Fin 4) :
    ((m.isActive i).1 = true ↔ ∃ c, Occupied m (i.val + 1) false c) ∧ ((m.isActive i).2 = true ↔ ∃ c, Occupied m (i.val + 1) true c) := by
  constructor
  · simp only [Mgr.isActive, Option.isSome_iff_exists]
    exact ⟨fun ⟨c, hc⟩ => ⟨c, (occupied_dl h i c).2 hc⟩, fun ⟨c, hc⟩ => ⟨c, (occupied_dl h i c).1 hc⟩⟩
  · simp only [Mgr.isActive, Bool.or_eq_true, Option.isSome_iff_exists]
    constructor
    · rintro (hb | ⟨c, hc⟩)
      · cases hd : m.dl i with
        | none => simp [hd, isBoth] at hb
        | some c => exact ⟨c, (occupied_ul h i c).2 (.inr ⟨hd, hb⟩)⟩
      · exact ⟨c, (occupied_ul h i c).2 (.inl hc)⟩
    · rintro ⟨c, hc⟩
      rcases (occupied_ul h i c).1 hc with hc | hc
      · exact .inr ⟨c, hc⟩
      · exact .inl hc.2

/-- **C25, in use.** In every state reached: the downlink and the uplink of a timeslot are said to be in use exactly when a circuit occupies
them, in both ways of asking, where asking for the uplink aborts exactly when two circuits share the timeslot (see the finding); the usage
numbers told are those of the circuits which occupy the two directions, and asking for them never aborts. -/
theorem c25_in_use {m : Mgr} {log : List CmceCircuit} (h : Reached m log) (i : Fin 4) :
    ((m.isActive i).1 = true ↔ ∃ c, Occupied m (i.val + 1) false c) ∧ ((m.isActive i).2 = true ↔ ∃ c, Occupied m (i.val + 1) true c) ∧
    m.isActiveDir i .dl = .ok (m.isActive i).1 ∧
    (m.isActiveDir i .ul = .panic ↔ ∃ c d, c ≠ d ∧ Occupied m (i.val + 1) false c ∧ Occupied m (i.val + 1) true d) ∧
    (∀ b, m.isActiveDir i .ul = .ok b → b = (m.isActive i).2) ∧
    ∃ dl ul, m.getUsage i = .ok (dl, ul) ∧
      (∀ u, dl = some u ↔ ∃ c, Occupied m (i.val + 1) false c ∧ c.usage = u) ∧
      (∀ u, ul = some u ↔ ∃ c, Occupied m (i.val + 1) true c ∧ c.usage = u) := by
  have hi := reached_inv h
  refine ⟨(isActive_iff hi i).1, (isActive_iff hi i).2, rfl, ?_, ?_, ?_⟩
  · simp only [occupied_dl hi, occupied_ul hi, Mgr.isActiveDir]
    cases hd : m.dl i with
    | none => simp [isBoth]
    | some c =>
      cases hu : m.ulOnly i with
      | none => simp; intro a b hab; rintro rfl; exact fun h => absurd h hab
      | some d =>
        have hne : c ≠ d := by
          rintro rfl
          have h1 := (hi.dl i c hd).2.1
          have h2 := (hi.ul i c hu).2.1
          rw [h2] at h1; rcases h1 with h1 | h1 <;> cases h1
        simp only [Option.isSome_some, Bool.and_self, if_true, true_iff]
        exact ⟨c, d, hne, rfl, .inl rfl⟩
  · intro b hb
    simp only [Mgr.isActiveDir] at hb
    split at hb
    · cases hb
    · cases hb; simp [Mgr.isActive, Bool.or_comm]
  · simp only [occupied_dl hi, occupied_ul hi, Mgr.getUsage]
    by_cases hb : isBoth (m.dl i) = true
    · have hn := hi.both i hb
      simp only [hb, hn, if_true, Option.isSome_none, Bool.false_eq_true, if_false]
      exact ⟨_, _, rfl, by simp, by simp⟩
    · simp only [hb, if_false]
      exact ⟨_, _, rfl, by simp, by simp⟩

/-- What a circuit in a direction needs of a timeslot. -/
def Blocks (m : Mgr) (dir : Dir) (ts : Nat) : Prop :=
  (dir ≠ .ul ∧ ∃ c, Occupied m ts false c) ∨ (dir ≠ .dl ∧ ∃ c, Occupied m ts true c)

theorem slotFree_iff {m : Mgr} {log : List CmceCircuit} (h : Inv m log) (i : Fin 4) {dir : Dir} (hd : dir ≠ .none) :
    m.slotFreeFor dir i = true ↔ ¬ Blocks m dir (i.val + 1) := by
  obtain ⟨h1, h2⟩ := isActive_iff h i
  unfold Blocks
  rw [← h1, ← h2]
  have key : (m.isActive i).2 = false → isBoth (m.dl i) = false := by simp [Mgr.isActive]; intro h _; exact h
  unfold Mgr.slotFreeFor
  generalize hq : m.isActive i = q
  rw [hq] at key
  obtain ⟨a, b⟩ := q
  cases dir <;> cases a <;> cases b <;> simp_all

/-- **C25, a free timeslot.** In every state reached, a circuit asked for gets the first of timeslots 2 to 4 on which no circuit occupies a
direction it needs, whatever occupies the others; it is refused only when there is none, and then nothing changes. -/
theorem c25_allocate {m : Mgr} {log : List CmceCircuit} (h : Reached m log) {dir : Dir} (hd : dir ≠ .none) (comm : Nat) :
    (∃ m' c, m.allocate dir comm = .ok (m', .ok c) ∧ m'.Active c ∧ 2 ≤ c.ts ∧ c.ts ≤ 4 ∧ c.direction = dir ∧ c.commType = comm ∧
      ¬ Blocks m dir c.ts ∧ (∀ ts, 2 ≤ ts → ts < c.ts → Blocks m dir ts) ∧ ∀ d, m.Active d → m'.Active d) ∨
    (m.allocate dir comm = .ok (m, .error .noCircuitFree) ∧ ∀ ts, 2 ≤ ts → ts ≤ 4 → Blocks m dir ts) := by
  have hi := reached_inv h
  have hb : ∀ i : Fin 4, m.slotFreeFor dir i = false → Blocks m dir (i.val + 1) := fun i hf =>
    Classical.not_not.1 fun hn => by rw [(slotFree_iff hi i hd).2 hn] at hf; cases hf
  have opened : ∀ i : Fin 4, m.slotFreeFor dir i = true → m.getFreeTs dir = .ok (i.val + 1) →
      ∃ m' c, m.allocate dir comm = .ok (m', .ok c) ∧ m'.Active c ∧ c.ts = i.val + 1 ∧ c.direction = dir ∧ c.commType = comm ∧
        ∀ d, m.Active d → m'.Active d := by
    intro i hf hg
    have hn := (slotFree_iff hi i hd).1 hf
    obtain ⟨h1, h2⟩ := isActive_iff hi i
    unfold Blocks at hn
    rw [← h1, ← h2] at hn
    have hdraw1 : (m.draw dir comm (i.val + 1)).1.isActive i = m.isActive i := rfl
    simp only [Mgr.allocate, hg, Mgr.openCircuit]
    rw [show Slots.idx (m.draw dir comm (i.val + 1)).2.ts = .ok i from Slots.idx_succ i]
    simp only [Res.bind_ok, hdraw1]
    have keep : ∀ (s : Slots (Option CmceCircuit)) c d j, s i = none → s j = some d → (s.upd i (some c)) j = some d := by
      intro s c d j hs hj
      rw [Slots.upd_apply]
      split
      · rename_i e; subst e; rw [hs] at hj; cases hj
      · exact hj
    cases dir with
    | none => exact absurd rfl hd
    | dl =>
      have a : (m.isActive i).1 = false := by simpa using hn
      have a' : m.dl i = none := by simpa [Mgr.isActive] using a
      simp only [Dir.includesDl, Dir.includesUl, a, Bool.and_false, Bool.false_and, Bool.false_eq_true, if_false]
      refine ⟨_, _, rfl, ⟨i, .inl (by simp)⟩, rfl, rfl, rfl, ?_⟩
      rintro d ⟨j, hj | hj⟩
      · exact ⟨j, .inl (keep _ _ _ _ a' hj)⟩
      · exact ⟨j, .inr hj⟩
    | ul =>
      have a : (m.isActive i).2 = false := by simpa using hn
      have a' : m.ulOnly i = none := by simp [Mgr.isActive] at a; exact a.2
      simp only [Dir.includesDl, Dir.includesUl, a, Bool.and_false, Bool.false_and, Bool.false_eq_true, if_false]
      refine ⟨_, _, rfl, ⟨i, .inr (by simp)⟩, rfl, rfl, rfl, ?_⟩
      rintro d ⟨j, hj | hj⟩
      · exact ⟨j, .inl hj⟩
      · exact ⟨j, .inr (keep _ _ _ _ a' hj)⟩
    | both =>
      have a : (m.isActive i).1 = false ∧ (m.isActive i).2 = false := by simpa using hn
      have a' : m.dl i = none := by have := a.1; simpa [Mgr.isActive] using this
      simp only [Dir.includesDl, Dir.includesUl, a.1, a.2, Bool.and_false, Bool.false_and, Bool.false_eq_true, if_false]
      refine ⟨_, _, rfl, ⟨i, .inl (by simp)⟩, rfl, rfl, rfl, ?_⟩
      rintro d ⟨j, hj | hj⟩
      · exact ⟨j, .inl (keep _ _ _ _ a' hj)⟩
      · exact ⟨j, .inr hj⟩
  cases f1 : m.slotFreeFor dir 1 with
  | true =>
    obtain ⟨m', c, k1, k2, k3, k4, k5, k6⟩ := opened 1 f1 (by simp [Mgr.getFreeTs, f1])
    have k3 : c.ts = 2 := k3
    refine .inl ⟨m', c, k1, k2, by omega, by omega, k4, k5, ?_, fun ts _ _ => by omega, k6⟩
    rw [k3]; exact (slotFree_iff hi 1 hd).1 f1
  | false =>
    have b1 := hb 1 f1
    cases f2 : m.slotFreeFor dir 2 with
    | true =>
      obtain ⟨m', c, k1, k2, k3, k4, k5, k6⟩ := opened 2 f2 (by simp [Mgr.getFreeTs, f1, f2])
      have k3 : c.ts = 3 := k3
      refine .inl ⟨m', c, k1, k2, by omega, by omega, k4, k5, ?_, fun ts _ _ => ?_, k6⟩
      · rw [k3]; exact (slotFree_iff hi 2 hd).1 f2
      · have : ts = 2 := by omega
        subst this; exact b1
    | false =>
      have b2 := hb 2 f2
      cases f3 : m.slotFreeFor dir 3 with
      | true =>
        obtain ⟨m', c, k1, k2, k3, k4, k5, k6⟩ := opened 3 f3 (by simp [Mgr.getFreeTs, f1, f2, f3])
        have k3 : c.ts = 4 := k3
        refine .inl ⟨m', c, k1, k2, by omega, by omega, k4, k5, ?_, fun ts _ _ => ?_, k6⟩
        · rw [k3]; exact (slotFree_iff hi 3 hd).1 f3
        · have : ts = 2 ∨ ts = 3 := by omega
          rcases this with rfl | rfl
          · exact b1
          · exact b2
      | false =>
        have b3 := hb 3 f3
        refine .inr ⟨by simp [Mgr.allocate, Mgr.getFreeTs, f1, f2, f3], fun ts _ _ => ?_⟩
        have : ts = 2 ∨ ts = 3 ∨ ts = 4 := by omega
        rcases this with rfl | rfl | rfl
        · exact b1
        · exact b2
        · exact b3

/-- Neither is empty: with one circuit in both directions on timeslot 2, the next one gets timeslot 3. -/
example : ∃ m log, Reached m log ∧ Occupied m 2 true firstCall ∧ Occupied m 2 false firstCall ∧ Blocks m .both 2 ∧ ¬ Blocks m .both 3 := by
  obtain ⟨log, _, hr⟩ := held_reached 0
  have hi := reached_inv hr
  have h1 : Occupied (held (0 + 1) firstCall) 2 false firstCall := (occupied_dl hi 1 _).2 rfl
  refine ⟨_, _, hr, (occupied_ul hi 1 _).2 (.inr ⟨rfl, rfl⟩), h1, .inl ⟨by decide, _, h1⟩, ?_⟩
  exact (slotFree_iff hi 2 (dir := .both) (by decide)).1 rfl

end Verif.Cmce
