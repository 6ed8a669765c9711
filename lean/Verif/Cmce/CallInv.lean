import Verif.Cmce.CallSteps
/-!
# The invariant of call control: lemmas

Elementary steps keep `CcInv`; every event is a sequence of elementary steps.
-/
namespace Verif.Cmce
open Tdma

/-! ## Elementary steps keep the invariant -/

theorem MgrOk.closed {m : Mgr} (h : MgrOk m) {i : Fin 4} : MgrOk (m.closed i) := by
  obtain ⟨log, hi⟩ := h.inv
  refine ⟨⟨log, ?_⟩, h.ul, ?_, ?_⟩
  · refine inv_close hi (dir := .both) (ts := i.val + 1) (r := match m.dl i with | some c => .ok c | none => .error .circuitNotActive) ?_
    simp only [Mgr.close, Slots.idx_succ, Res.bind_ok, Mgr.closed]
    cases m.dl i <;> rfl
  · intro j k e
    simp only [Mgr.closed, Slots.upd_apply] at e
    split at e
    · cases e
    · exact h.both j k e
  · simp only [Mgr.closed, Slots.upd_apply]
    split
    · rfl
    · exact h.zero

theorem MgrOk.opened {m : Mgr} (h : MgrOk m) {i : Fin 4} (hi0 : i ≠ 0) (hn : m.dl i = none) (comm : Nat) :
    MgrOk (m.opened i ⟨m.dltime, .both, i.val + 1, m.nextCallId, m.nextUsage, comm⟩) := by
  obtain ⟨log, hi⟩ := h.inv
  refine ⟨⟨log ++ [(m.draw .both comm (i.val + 1)).2], ?_⟩, h.ul, ?_, ?_⟩
  · refine inv_open hi (dir := .both) (comm := comm) (ts := i.val + 1) (r := .ok (m.draw .both comm (i.val + 1)).2) ?_
    simp [Mgr.openCircuit, Mgr.draw, Mgr.isActive, hn, isBoth, h.ul i, Mgr.opened, Dir.includesDl, Dir.includesUl]
  · intro j k e
    simp only [Mgr.opened, Slots.upd_apply] at e
    split at e
    · cases e; rfl
    · exact h.both j k e
  · simp only [Mgr.opened, Slots.upd_apply]
    split
    · rename_i e; exact absurd e.symm hi0
    · exact h.zero

/-- A change of an entry which leaves group, timeslot and usage marker alone. -/
theorem CcInv.change {s : Cc} (h : CcInv s) {id : Nat} {c c' : Call} (hc : s.calls.get id = some c) (h1 : c'.gssi = c.gssi)
    (h2 : c'.ts = c.ts) (h3 : c'.usage = c.usage) (h4 : c'.tx = c'.hang.isNone) :
    CcInv { s with calls := s.calls.insert id c' } := by
  refine ⟨Assoc.ok_insert h.ok _ _, ?_, ?_, ?_, ?_, h.mgr, h.alloc⟩
  · intro j d e
    simp only [Assoc.get_insert] at e
    split at e
    · rename_i e2; subst e2; cases e; obtain ⟨p, a, b, g⟩ := h.setup id c hc; exact ⟨p, a, b, by rw [g, h1]⟩
    · exact h.setup j d e
  · intro j e
    simp only [Assoc.get_insert] at e
    split at e
    · cases e
    · exact h.noSetup j e
  · intro j d e
    simp only [Assoc.get_insert] at e
    split at e
    · rename_i e2; subst e2; cases e; obtain ⟨i, k, a, b, g, u⟩ := h.circuit id c hc; exact ⟨i, k, a, by rw [h2, b], g, by rw [h3, u]⟩
    · exact h.circuit j d e
  · intro j d e
    simp only [Assoc.get_insert] at e
    split at e
    · cases e; exact h4
    · exact h.floor j d e

/-- Closing a circuit and forgetting the call of its number. -/
theorem CcInv.close {s : Cc} (h : CcInv s) {i : Fin 4} {k : CmceCircuit} (hk : s.mgr.dl i = some k) :
    CcInv { s with mgr := s.mgr.closed i, alloc := (s.alloc.release .cmce (i.val + 1)).1,
                   setups := s.setups.erase k.callId, calls := s.calls.erase k.callId } := by
  refine ⟨Assoc.ok_erase h.ok _, ?_, ?_, ?_, ?_, h.mgr.closed, ?_⟩
  · intro j d e
    simp only [Assoc.get_erase] at e ⊢
    split at e
    · cases e
    · rename_i hne; simp only [hne, if_false]; exact h.setup j d e
  · intro j e
    simp only [Assoc.get_erase] at e ⊢
    split
    · rfl
    · rename_i hne; simp only [hne, if_false] at e; exact h.noSetup j e
  · intro j d e
    simp only [Assoc.get_erase] at e
    split at e
    · cases e
    · rename_i hne
      obtain ⟨i', k', a, b, g, u⟩ := h.circuit j d e
      refine ⟨i', k', ?_, b, g, u⟩
      simp only [Mgr.closed]
      rw [Slots.upd_ne]
      · exact a
      · rintro rfl; rw [hk] at a; cases a; exact hne g
  · intro j d e
    simp only [Assoc.get_erase] at e
    split at e
    · cases e
    · exact h.floor j d e
  · exact allocIs_release h.alloc (by rw [hk]; rfl) (h.mgr.ne_zero hk)

theorem CcInv.circuit_at {s : Cc} (h : CcInv s) {id : Nat} {c : Call} (hc : s.calls.get id = some c) {i : Fin 4}
    (hi : c.ts = i.val + 1) : ∃ k, s.mgr.dl i = some k ∧ k.callId = id ∧ k.usage = c.usage := by
  obtain ⟨j, k, a, b, d, e⟩ := h.circuit id c hc
  have : j = i := Fin.ext (by omega)
  subst this
  exact ⟨k, a, d, e⟩

theorem CcInv.clock {s : Cc} (h : CcInv s) (now : Time) : CcInv (s.clock now) :=
  ⟨h.ok, h.setup, h.noSetup, h.circuit, h.floor, h.mgr, h.alloc⟩

theorem CcInv.mgrClock {s : Cc} (h : CcInv s) (now : Time) : CcInv (s.mgrClock now) := by
  refine ⟨h.ok, h.setup, h.noSetup, h.circuit, h.floor, ?_, h.alloc⟩
  obtain ⟨log, hi⟩ := h.mgr.inv
  exact ⟨⟨log, hi.callId, hi.usage, hi.ids, hi.dl, hi.ul, hi.both⟩, h.mgr.ul, h.mgr.both, h.mgr.zero⟩

theorem CcInv.prim {m : Bool} {s s' : Cc} {o : List CcOut} (h : CcInv s) (hp : Prim s m o s') : CcInv s' := by
  cases hp with
  | aside => exact h
  | members => exact ⟨h.ok, h.setup, h.noSetup, h.circuit, h.floor, h.mgr, h.alloc⟩
  | start a i comm k c p ha hi0 hn hk hl hts hu htx hh ho hp =>
    have hkid : k.callId = s.mgr.nextCallId := by rw [hk]
    refine ⟨Assoc.ok_insert h.ok _ _, ?_, ?_, ?_, ?_, ?_, ?_⟩
    · intro j d e
      simp only [Assoc.get_insert] at e ⊢
      split at e
      · rename_i e2; subst e2; cases e; exact ⟨p, by simp, by rw [hp], by rw [hp]⟩
      · rename_i hne; simp only [hne, if_false]; exact h.setup j d e
    · intro j e
      simp only [Assoc.get_insert] at e ⊢
      split at e
      · cases e
      · rename_i hne; simp only [hne, if_false]; exact h.noSetup j e
    · intro j d e
      simp only [Assoc.get_insert] at e
      split at e
      · rename_i e2; subst e2; cases e; exact ⟨i, k, by simp [Mgr.opened], hts, rfl, hu.symm⟩
      · obtain ⟨i', k', a1, b, g, u⟩ := h.circuit j d e
        refine ⟨i', k', ?_, b, g, u⟩
        simp only [Mgr.opened]
        rw [Slots.upd_ne]
        · exact a1
        · rintro rfl; rw [hn] at a1; cases a1
    · intro j d e
      simp only [Assoc.get_insert] at e
      split at e
      · cases e; rw [htx, hh]; rfl
      · exact h.floor j d e
    · rw [hk]; exact h.mgr.opened hi0 hn comm
    · obtain ⟨i', e1, _, _, h4⟩ := allocIs_any h.alloc ha
      have : i' = i := Fin.ext (by omega)
      subst this
      exact h4 k
  | stop id c i cause hc hi =>
    obtain ⟨k, h1, h2, _⟩ := h.circuit_at hc hi
    subst h2
    exact h.close h1
  | expire i k hk ha => exact h.close hk
  | cease id c brew net hc htx hb => exact h.change hc rfl rfl rfl rfl
  | grant id c ssi hc htx => exact h.change hc rfl rfl rfl rfl
  | netGrant id c uuid speaker hc htx => exact h.change hc rfl rfl rfl rfl
  | announce i k c p hk hc htx hp =>
    refine ⟨h.ok, ?_, ?_, h.circuit, h.floor, h.mgr, h.alloc⟩
    · intro j d e
      simp only [Assoc.get_insert]
      split
      · rename_i e2; subst e2
        obtain ⟨q, a, b, g⟩ := h.setup _ d e
        rw [hp] at a; cases a
        exact ⟨_, rfl, b, g⟩
      · exact h.setup j d e
    · intro j e
      simp only [Assoc.get_insert]
      split
      · rename_i e2; subst e2; rw [hc] at e; cases e
      · exact h.noSetup j e

theorem CcInv.prims {m : Bool} {s s' : Cc} {o : List CcOut} (h : CcInv s) (hp : Prims m s o s') : CcInv s' := by
  induction hp with
  | nil => exact h
  | cons hp _ ih => exact ih (h.prim hp)

theorem CcInv.shape {s s' : Cc} {e : CcEv} {o : List CcOut} (h : CcInv s) (hp : Shape s e o s') : CcInv s' := by
  cases hp with
  | tick _ h1 h2 => exact (((h.clock _).prims h1).mgrClock _).prims h2
  | update h1 => exact h.prims h1
  | other _ _ h1 => exact h.prims h1

/-! ## Reordering -/

theorem get_perm {κ ν : Type} [DecidableEq κ] {a b : Assoc κ ν} (hp : a.Perm b) (hb : b.Ok) (k : κ) : a.get k = b.get k := by
  have ha : a.Ok := by
    unfold Assoc.Ok at *
    exact (hp.map Prod.fst).nodup_iff.2 hb
  cases h : b.get k with
  | none =>
    cases h2 : a.get k with
    | none => rfl
    | some v =>
      have := Assoc.get_of_mem hb (hp.mem_iff.1 (Assoc.mem_of_get h2))
      rw [h] at this; cases this
  | some v => exact Assoc.get_of_mem ha (hp.mem_iff.2 (Assoc.mem_of_get h))

theorem CcInv.reordered {s s' : Cc} (h : CcInv s) (hr : s.Reordered s') : CcInv s' := by
  obtain ⟨calls', f, hp, hf, rfl⟩ := hr
  have hg := get_perm hp h.ok
  have hok : calls'.Ok := by
    have := h.ok
    unfold Assoc.Ok at *
    exact (hp.map Prod.fst).nodup_iff.2 this
  refine ⟨hok, ?_, ?_, ?_, ?_, h.mgr, h.alloc⟩
  · intro id c e; exact h.setup id c (by rw [← hg]; exact e)
  · intro id e; exact h.noSetup id (by rw [← hg]; exact e)
  · intro id c e; exact h.circuit id c (by rw [← hg]; exact e)
  · intro id c e; exact h.floor id c (by rw [← hg]; exact e)

end Verif.Cmce
