import Verif.Cmce.CallMembersProps
/-!
# C56: why calls end
-/
namespace Verif.Cmce
open Tdma

/-- The reasons for which event `e` may end call `id`, which was `c`: somebody releases it; the station it belongs to disconnects;
the network ends it while nobody talks; its hang time of 360 timeslots is over or its circuit is more than 25920 timeslots (six
minutes) old; nobody listens to its group any more after a subscriber update. -/
inductive EndReason (s s' : Cc) (id : Nat) (c : Call) : CcEv → Prop where
  | released (ssi : Nat) : EndReason s s' id c (.uRelease ssi id)
  | disconnected (ssi : Nat) : c.origin = .ms ssi → EndReason s s' id c (.uDisconnect ssi id)
  | netEnded (uuid : Nat) : c.brew = some uuid → c.tx = false → EndReason s s' id c (.netEnd uuid)
  | hangOver (now t : Time) : c.hang = some t → t.age now > 360 → EndReason s s' id c (.tick now)
  | tooLong (now : Time) (i : Fin 4) (k : CmceCircuit) : s.mgr.dl i = some k → k.callId = id → k.tsCreated.age now > 25920 →
      EndReason s s' id c (.tick now)
  | unheard (u : SubUpdate) : s'.hasListener c.gssi = false → EndReason s s' id c (.update u)

theorem ccRun_parts {r : Nat → Bool} {h : List (CcEv × List CcOut)} {s : Cc} (hr : CcRun r h s) :
    CcInv s ∧ MemInv s ∧ s.Listened :=
  ⟨ccRun_inv hr, (ccRun_members hr).1, (ccRun_members hr).2.1⟩

/-! ## Ticks -/

theorem closeAll_ids (cs : List CmceCircuit) {m m' : Mgr} {cmds : List Cmd} (h : closeAll m cs = .ok (m', cmds)) {id : Nat} {k : CmceCircuit}
    (hm : .sendClose id k ∈ cmds) : ∃ c ∈ cs, c.callId = id := by
  induction cs generalizing m m' cmds with
  | nil => simp only [closeAll, Res.ok.injEq, Prod.mk.injEq] at h; obtain ⟨_, rfl⟩ := h; cases hm
  | cons c cs ih =>
    simp only [closeAll, Res.bind_eq_ok] at h
    obtain ⟨r, _, h⟩ := h
    split at h
    · cases h
    · simp only [Res.bind_eq_ok] at h
      obtain ⟨q, hq, h⟩ := h
      cases h
      rcases List.mem_cons.1 hm with e | hm
      · cases e; exact ⟨c, by simp, rfl⟩
      · obtain ⟨c', h1, h2⟩ := ih hq hm
        exact ⟨c', by simp [h1], h2⟩

theorem mgrTick_ids {m m' : Mgr} {now : Time} {cmds : List Cmd} (hu : ∀ i, m.ulOnly i = none) (h : m.tick now = .ok (m', cmds)) {id : Nat}
    {k : CmceCircuit} (hm : .sendClose id k ∈ cmds) : ∃ i c, m.dl i = some c ∧ c.callId = id ∧ c.tsCreated.age now > 25920 := by
  unfold Mgr.tick at h
  simp only at h
  split at h
  · simp only [Res.bind_eq_ok] at h
    obtain ⟨r, h1, h⟩ := h
    cases h
    rcases List.mem_append.1 hm with hm | hm
    · obtain ⟨c, hc, e⟩ := closeAll_ids _ h1 hm
      simp only [List.mem_append, List.mem_filter, mem_entries] at hc
      rcases hc with ⟨⟨i, hi⟩, ha⟩ | ⟨⟨i, hi⟩, _⟩
      · exact ⟨i, c, hi, e, of_decide_eq_true ha⟩
      · rw [hu] at hi; cases hi
    · simp at hm
  · cases h; cases hm

theorem announce_calls {s s' : Cc} {id u ts : Nat} {o : List CcOut} (h : s.announce id u ts = .ok (s', o)) : s'.calls = s.calls := by
  cases hc : s.calls.get id <;> cases hp : s.setups.get id <;> simp only [Cc.announce, hc, hp] at h
  all_goals repeat' split at h
  all_goals first
    | (cases h; rfl)
    | (simp only [Res.bind_eq_ok] at h; obtain ⟨_, _, h⟩ := h; cases h; rfl)

theorem tasks_calls (cmds : List Cmd) {s s' : Cc} {o : List CcOut} (h : s.tasks cmds = .ok (s', o)) {id : Nat}
    (hid : ∀ k, .sendClose id k ∉ cmds) : s'.calls.get id = s.calls.get id := by
  induction cmds generalizing s s' o with
  | nil => cases h; rfl
  | cons cmd cmds ih =>
    have hid' : ∀ k, .sendClose id k ∉ cmds := fun k hk => hid k (by simp [hk])
    cases cmd with
    | sendDSetup j u ts =>
      simp only [Cc.tasks, Res.bind_eq_ok] at h
      obtain ⟨r, h1, q, h2, h⟩ := h
      cases h
      rw [ih h2 hid', announce_calls h1]
    | sendClose j k =>
      simp only [Cc.tasks, Res.bind_eq_ok] at h
      obtain ⟨q, h2, h⟩ := h
      cases h
      rw [ih h2 hid']
      have hne : j ≠ id := fun e => hid k (by simp [e])
      simp only [Cc.expire, Assoc.get_erase_ne _ hne]

theorem tick_ends {s s' : Cc} {now : Time} {o : List CcOut} (hi : CcInv s) (h : s.tick now = .ok (s', o)) {id : Nat} {c : Call}
    (hc : s.calls.get id = some c) (hn : s'.calls.get id = none) : EndReason s s' id c (.tick now) := by
  unfold Cc.tick at h
  simp only [Res.bind_eq_ok] at h
  obtain ⟨r, h1, m, h2, q, h3, h⟩ := h
  cases h
  obtain ⟨s1, o1, e1, p1, c1, _, _, _, _, d1⟩ := releaseAll_prims (cause := .expiryOfTimer) (Cc.hangExpired { s with now := now }) (hi.clock now)
  have : Res.ok r = .ok (s1, o1) := by rw [← h1]; exact e1
  cases this
  by_cases hx : id ∈ Cc.hangExpired { s with now := now }
  · simp only [Cc.hangExpired, List.mem_map, List.mem_filter] at hx
    obtain ⟨⟨j, c'⟩, ⟨hm, ht⟩, rfl⟩ := hx
    have := Assoc.get_of_mem hi.ok hm
    rw [hc] at this; cases this
    simp only at ht
    split at ht
    · rename_i t hh
      exact .hangOver now t hh (by simpa [hangLimit] using ht)
    · cases ht
  · have hget : s1.calls.get id = some c := by rw [c1, if_neg hx]; exact hc
    have : ¬ ∀ k, .sendClose id k ∉ m.2 := by
      intro hk
      have := tasks_calls _ h3 hk
      rw [hn] at this
      have e : s1.calls.get id = none := this.symm
      rw [hget] at e; cases e
    have : ∃ k, .sendClose id k ∈ m.2 := Classical.byContradiction fun hne => this fun k hk => hne ⟨k, hk⟩
    obtain ⟨k, hk⟩ := this
    have hi1 : CcInv s1 := (hi.clock now).prims p1
    obtain ⟨i, k', h4, h5, h6⟩ := mgrTick_ids hi1.mgr.ul (show s1.mgr.tick now = .ok (m.1, m.2) from h2) hk
    exact .tooLong now i k' (d1 i k' h4) h5 h6

/-! ## The theorem -/

theorem step_ends {s s' : Cc} {e : CcEv} {o : List CcOut} (hi : CcInv s) (hm : MemInv s) (hl : s.Listened) (h : s.step e = .ok (s', o)) {id : Nat} {c : Call}
    (hc : s.calls.get id = some c) (hn : s'.calls.get id = none) : EndReason s s' id c e := by
  have rel : ∀ {j cause}, s.release j cause = .ok (s', o) → id = j := by
    intro j cause hj
    obtain ⟨s1, o1, e1, _, c1, _⟩ := release_prims hi j cause
    rw [hj] at e1; cases e1
    rw [c1, Assoc.get_erase] at hn
    split at hn
    · rename_i e; exact e.symm
    · rw [hc] at hn; cases hn
  have same : s'.calls.get id = s.calls.get id → False := fun h => by rw [hn, hc] at h; cases h
  have put : ∀ {j c'}, s'.calls = s.calls.insert j c' → False := by
    intro j c' hj
    rw [hj, Assoc.get_insert] at hn
    split at hn
    · cases hn
    · rw [hc] at hn; cases hn
  cases e with
  | tick now => exact tick_ends hi h hc hn
  | update u =>
    obtain ⟨_, _, h3⟩ := update_members hi hm hl h
    refine .unheard u ?_
    have := h3 id
    rw [hn, hc] at this
    simp only at this
    split at this
    · assumption
    · cases this
  | uSetup caller sup called comm =>
    exfalso
    simp only [Cc.step, Cc.setup] at h
    split at h
    · split at h
      · cases h; exact same rfl
      · split at h
        · simp only [Res.bind_eq_ok] at h
          obtain ⟨r, _, h⟩ := h
          split at h
          · cases h; exact same rfl
          · simp only [Cc.openLocal, Res.bind_eq_ok] at h
            obtain ⟨_, _, h⟩ := h
            cases h; exact put rfl
        · cases h; exact same rfl
    · cases h; exact same rfl
  | uTxCeased ssi j =>
    exfalso
    simp only [Cc.step, Cc.ceased] at h
    split at h
    · cases h; exact same rfl
    split at h
    · cases h; exact same rfl
    split at h
    · cases h; exact put rfl
    · simp only [Res.bind_eq_ok] at h
      obtain ⟨_, _, h⟩ := h
      cases h; exact put rfl
  | uTxDemand ssi j =>
    exfalso
    simp only [Cc.step, Cc.demand] at h
    split at h
    · cases h; exact same rfl
    split at h
    · cases h; exact same rfl
    split at h
    · cases h; exact put rfl
    · simp only [Res.bind_eq_ok] at h
      obtain ⟨_, _, h⟩ := h
      cases h; exact put rfl
  | uRelease ssi j => cases rel h; exact .released ssi
  | uDisconnect ssi j =>
    simp only [Cc.step, Cc.disconnect] at h
    split at h
    · cases h; exact (same rfl).elim
    split at h
    · rename_i c' hc' ho
      cases rel h
      rw [hc] at hc'; cases hc'
      exact .disconnected ssi ho
    · cases h; exact (same rfl).elim
  | netStart uuid speaker g =>
    exfalso
    simp only [Cc.step, Cc.netStart] at h
    split at h
    · split at h
      · split at h
        · split at h
          · cases h; exact same rfl
          · simp only [Res.bind_eq_ok] at h
            obtain ⟨_, _, h⟩ := h
            cases h; exact put rfl
        · simp only [Res.bind_eq_ok] at h
          obtain ⟨r, _, h⟩ := h
          split at h
          · cases h; exact same rfl
          · simp only [Cc.openNet, Res.bind_eq_ok] at h
            obtain ⟨_, _, h⟩ := h
            cases h; exact put rfl
      · rename_i hnl
        simp only [Res.bind_eq_ok] at h
        obtain ⟨r, h1, h⟩ := h
        obtain ⟨s1, o1, e1, _, c1, _⟩ := dropUnlistened_prims hi g
        rw [h1] at e1; cases e1
        cases h
        have hh := c1 id
        rw [hn, hc] at hh
        simp only at hh
        split at hh
        · rename_i hg
          have := hl id c hc
          rw [hg.1] at this
          exact hnl this
        · cases hh
    · cases h
  | netEnd uuid =>
    simp only [Cc.step, Cc.netEnd] at h
    split at h
    · cases h; exact (same rfl).elim
    · rename_i j c' hf
      obtain ⟨hc', hb⟩ := find_get hi hf
      split at h
      · simp only [Res.bind_eq_ok] at h
        obtain ⟨_, _, h⟩ := h
        cases h; exact (put rfl).elim
      · cases rel h
        rw [hc] at hc'; cases hc'
        exact .netEnded uuid (by simpa using hb) (by simpa using ‹¬ c.tx = true›)
  | inactive ts =>
    exfalso
    simp only [Cc.step, Cc.inactive] at h
    split at h
    · cases h; exact same rfl
    · simp only [Res.bind_eq_ok] at h
      obtain ⟨_, _, h⟩ := h
      cases h; exact put rfl

/-- **C56.** Whatever happens, a call ends only for one of the reasons of `EndReason`. -/
theorem c56_reason {r : Nat → Bool} {h : List (CcEv × List CcOut)} {s s' : Cc} (hr : CcRun r h s) {e : CcEv} {o : List CcOut}
    (hs : s.step e = .ok (s', o)) {id : Nat} {c : Call} (hc : s.calls.get id = some c) (hn : s'.calls.get id = none) :
    EndReason s s' id c e := by
  obtain ⟨h1, h2, h3⟩ := ccRun_parts hr
  exact step_ends h1 h2 h3 hs hc hn

/-- **C56.** The station a call belongs to may disconnect it: the call ends and the group is told; another station is refused and
nothing changes. -/
theorem c56_disconnect {r : Nat → Bool} {h : List (CcEv × List CcOut)} {s : Cc} (hr : CcRun r h s) {id ssi : Nat} {c : Call}
    (hc : s.calls.get id = some c) :
    (c.origin = .ms ssi → ∃ s' o, s.step (.uDisconnect ssi id) = .ok (s', o) ∧ s'.calls.get id = none ∧
      (∀ j, j ≠ id → s'.calls.get j = s.calls.get j) ∧ .dRelease (.group c.gssi) id .userRequested ∈ o) ∧
    (c.origin ≠ .ms ssi → s.step (.uDisconnect ssi id) = .ok (s, [.dRelease (.station ssi) id .notAvailable])) := by
  refine ⟨fun ho => ?_, fun ho => ?_⟩
  · obtain ⟨s', h1, _, h3, _⟩ := release_known (ccRun_inv hr) hc .userRequested
    refine ⟨s', endOut s.routable id c .userRequested, ?_, ?_, fun j hj => ?_, ?_⟩
    · simp only [Cc.step, Cc.disconnect, hc, ho, if_true]; exact h1
    · rw [h3, Assoc.get_erase_self]
    · rw [h3, Assoc.get_erase_ne _ (Ne.symm hj)]
    · simp [endOut]
  · simp only [Cc.step, Cc.disconnect, hc, ho, if_false]

/-- **C56.** When the network ends its call: if nobody carries the identifier nothing happens; else one call which carries it loses
the floor and starts its hang time, or ends if nobody talks. No other call changes. -/
theorem c56_network_end {r : Nat → Bool} {h : List (CcEv × List CcOut)} {s : Cc} (hr : CcRun r h s) (uuid : Nat) :
    ∃ s' o, s.step (.netEnd uuid) = .ok (s', o) ∧
      ((∀ id c, s.calls.get id = some c → c.brew ≠ some uuid) → s' = s ∧ o = []) ∧
      (∀ id c, s.calls.get id = some c → c.brew = some uuid → (∀ j d, s.calls.get j = some d → d.brew = some uuid → j = id) →
        (∀ j, j ≠ id → s'.calls.get j = s.calls.get j) ∧
        (c.tx = true → s'.calls.get id = some { c with tx := false, hang := some s.now, brew := none } ∧
          o = [.dTxCeased (.group c.gssi) id c.ts, .macReleased id c.ts]) ∧
        (c.tx = false → s'.calls.get id = none ∧ .dRelease (.group c.gssi) id .swmiRequested ∈ o)) := by
  have hi := ccRun_inv hr
  cases hf : s.calls.find? (fun e => e.2.brew = some uuid) with
  | none =>
    refine ⟨s, [], by simp [Cc.step, Cc.netEnd, hf], fun _ => ⟨rfl, rfl⟩, fun id c hc hb => ?_⟩
    have := List.find?_eq_none.1 hf _ (Assoc.mem_of_get hc)
    simp [hb] at this
  | some e =>
    obtain ⟨id, c⟩ := e
    obtain ⟨hc, hb⟩ := find_get hi hf
    have hb : c.brew = some uuid := by simpa using hb
    obtain ⟨i, hidx⟩ := hi.idx hc
    cases htx : c.tx with
    | true =>
      refine ⟨s.toHang id { c with brew := none }, [.dTxCeased (.group c.gssi) id c.ts, .macReleased id c.ts], ?_, fun hno => (hno id c hc hb).elim, fun id' c' hc' hb' hu => ?_⟩
      · simp only [Cc.step, Cc.netEnd, hf, htx, if_true, hidx, Res.bind_ok]
      · have e := hu id c hc hb
        subst e
        rw [hc] at hc'; cases hc'
        refine ⟨fun j hj => by simp only [Cc.toHang, Assoc.get_insert_ne _ (Ne.symm hj)], fun _ => ⟨?_, rfl⟩, fun hf => ?_⟩
        · simp only [Cc.toHang, Assoc.get_insert_self]
        · rw [htx] at hf; cases hf
    | false =>
      obtain ⟨s', h1, _, h3, _⟩ := release_known hi hc .swmiRequested
      refine ⟨s', endOut s.routable id c .swmiRequested, ?_, fun hno => (hno id c hc hb).elim, fun id' c' hc' hb' hu => ?_⟩
      · simp only [Cc.step, Cc.netEnd, hf, htx]; exact h1
      · have e := hu id c hc hb
        subst e
        rw [hc] at hc'; cases hc'
        refine ⟨fun j hj => by rw [h3, Assoc.get_erase_ne _ (Ne.symm hj)], fun hf => ?_, fun _ => ⟨by rw [h3, Assoc.get_erase_self], ?_⟩⟩
        · rw [htx] at hf; cases hf
        · simp [endOut]

end Verif.Cmce
