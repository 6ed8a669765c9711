import Verif.Cmce.CallInv
/-!
# Every event of call control is a sequence of elementary steps: lemmas
-/
namespace Verif.Cmce
open Tdma

theorem Mgr.close_eq {m : Mgr} {i : Fin 4} {k : CmceCircuit} (hk : m.dl i = some k) :
    m.close .both (i.val + 1) = .ok (m.closed i, .ok k) := by
  simp [Mgr.close, hk, Mgr.closed]

theorem release_unknown {s : Cc} (h : CcInv s) {id : Nat} (hc : s.calls.get id = none) (cause : Cause) :
    s.release id cause = .ok (s, []) := by
  simp [Cc.release, h.noSetup id hc]

/-- Releasing a call. -/
theorem release_known {s : Cc} (h : CcInv s) {id : Nat} {c : Call} (hc : s.calls.get id = some c) (cause : Cause) :
    ∃ s', s.release id cause = .ok (s', endOut s.routable id c cause) ∧ Prim s false (endOut s.routable id c cause) s' ∧
      s'.calls = s.calls.erase id ∧ s'.groups = s.groups ∧ s'.listeners = s.listeners ∧ s'.routable = s.routable ∧ s'.now = s.now ∧
      ∀ j x, s'.mgr.dl j = some x → s.mgr.dl j = some x := by
  obtain ⟨p, hp, hpid, hg⟩ := h.setup id c hc
  obtain ⟨i, k, hk, hts, hkid, hu⟩ := h.circuit id c hc
  refine ⟨_, ?_, .stop s id c i cause hc hts, rfl, rfl, rfl, rfl, rfl, ?_⟩
  rotate_left
  · intro j x hj
    simp only [Mgr.closed, Slots.upd_apply] at hj
    split at hj
    · cases hj
    · exact hj
  simp only [Cc.release, hp, hc, Cc.freeCall, hts, Mgr.close_eq hk, Res.bind_ok]
  simp only [endOut, hg, hpid, hts, h.mgr.both i k hk, h.mgr.ts hk]
  rfl

/-- What a release does, whether the call exists or not. -/
theorem release_prims {s : Cc} (h : CcInv s) (id : Nat) (cause : Cause) :
    ∃ s' out, s.release id cause = .ok (s', out) ∧ Prims false s out s' ∧ s'.calls = s.calls.erase id ∧ s'.groups = s.groups ∧
      s'.listeners = s.listeners ∧ s'.routable = s.routable ∧ s'.now = s.now ∧ ∀ j x, s'.mgr.dl j = some x → s.mgr.dl j = some x := by
  cases hc : s.calls.get id with
  | none =>
    refine ⟨s, [], release_unknown h hc cause, .nil s, ?_, rfl, rfl, rfl, rfl, fun _ _ e => e⟩
    unfold Assoc.erase
    symm
    rw [List.filter_eq_self]
    intro e he
    simp only [decide_eq_true_eq]
    rintro rfl
    have := Assoc.get_of_mem h.ok (k := e.1) (v := e.2) he
    rw [hc] at this; cases this
  | some c =>
    obtain ⟨s', h1, h2, h3⟩ := release_known h hc cause
    exact ⟨s', _, h1, h2.one, h3⟩

theorem releaseAll_prims {cause : Cause} (ids : List Nat) {s : Cc} (h : CcInv s) :
    ∃ s' out, s.releaseAll cause ids = .ok (s', out) ∧ Prims false s out s' ∧
      (∀ id, s'.calls.get id = if id ∈ ids then none else s.calls.get id) ∧ s'.groups = s.groups ∧
      s'.listeners = s.listeners ∧ s'.routable = s.routable ∧ s'.now = s.now ∧ ∀ j x, s'.mgr.dl j = some x → s.mgr.dl j = some x := by
  induction ids generalizing s with
  | nil => exact ⟨s, [], rfl, .nil s, by simp, rfl, rfl, rfl, rfl, fun _ _ e => e⟩
  | cons id ids ih =>
    obtain ⟨s1, o1, h1, p1, c1, g1, l1, r1, n1, d1⟩ := release_prims h id cause
    obtain ⟨s2, o2, h2, p2, c2, g2, l2, r2, n2, d2⟩ := ih (h.prims p1)
    refine ⟨s2, o1 ++ o2, ?_, p1.trans p2, ?_, by rw [g2, g1], by rw [l2, l1], by rw [r2, r1], by rw [n2, n1], fun j x e => d1 j x (d2 j x e)⟩
    · simp only [Cc.releaseAll, h1, Res.bind_ok, h2]
    · intro j
      rw [c2, c1, Assoc.get_erase]
      simp only [List.mem_cons]
      by_cases e1 : j ∈ ids
      · simp [e1]
      · by_cases e2 : id = j
        · simp [e1, e2]
        · have : ¬ j = id := fun e => e2 e.symm
          simp [e1, e2, this]

theorem dropLoop_prims {g : Nat} (es : List (Nat × Call)) {s : Cc} (h : CcInv s) :
    ∃ s' out, s.dropLoop g es = .ok (s', out) ∧ Prims false s out s' ∧
      (∀ id, s'.calls.get id = if id ∈ es.map Prod.fst then none else s.calls.get id) ∧ s'.groups = s.groups ∧
      s'.listeners = s.listeners ∧ s'.routable = s.routable ∧ s'.now = s.now := by
  induction es generalizing s with
  | nil => exact ⟨s, [], rfl, .nil s, by simp, rfl, rfl, rfl, rfl⟩
  | cons e es ih =>
    obtain ⟨id, c⟩ := e
    obtain ⟨s1, o1, h1, p1, c1, g1, l1, r1, n1, _⟩ := release_prims h id .swmiRequested
    obtain ⟨s2, o2, h2, p2, c2, g2, l2, r2, n2⟩ := ih (h.prims p1)
    have hn : Prims false s (match c.origin with
      | .net u => if s.routable g then [.netCallEnd u] else []
      | .ms _ => []) s := by
      split
      · split
        · exact (Prim.aside (m := false) s _ (by trivial)).one
        · exact .nil s
      · exact .nil s
    refine ⟨s2, _, ?_, (hn.trans p1).trans p2, ?_, by rw [g2, g1], by rw [l2, l1], by rw [r2, r1], by rw [n2, n1]⟩
    · simp only [Cc.dropLoop, h1, Res.bind_ok, h2]
      rfl
    · intro j
      rw [c2, c1, Assoc.get_erase]
      simp only [List.map_cons, List.mem_cons]
      by_cases e1 : j ∈ es.map Prod.fst
      · simp [e1]
      · by_cases e2 : id = j
        · simp [e1, e2]
        · have : ¬ j = id := fun e => e2 e.symm
          simp [e1, e2, this]

/-- Dropping the calls to a group: they are all gone, if nobody listens; others are not touched. -/
theorem dropUnlistened_prims {s : Cc} (h : CcInv s) (g : Nat) :
    ∃ s' out, s.dropUnlistened g = .ok (s', out) ∧ Prims false s out s' ∧
      (∀ id, s'.calls.get id = match s.calls.get id with
        | some c => if c.gssi = g ∧ s.hasListener g = false then none else some c
        | none => none) ∧ s'.groups = s.groups ∧
      s'.listeners = s.listeners ∧ s'.routable = s.routable ∧ s'.now = s.now := by
  unfold Cc.dropUnlistened
  split
  · rename_i hl
    refine ⟨s, [], rfl, .nil s, ?_, rfl, rfl, rfl, rfl⟩
    intro id
    cases s.calls.get id <;> simp [hl]
  · rename_i hl
    obtain ⟨s', o, h1, p1, c1, rest⟩ := dropLoop_prims (g := g) (s.calls.filter (·.2.gssi = g)) h
    refine ⟨s', o, h1, p1, ?_, rest⟩
    intro id
    rw [c1]
    have hl' : s.hasListener g = false := by simpa using hl
    have hmem : id ∈ (s.calls.filter (·.2.gssi = g)).map Prod.fst ↔ ∃ c, s.calls.get id = some c ∧ c.gssi = g := by
      simp only [List.mem_map, List.mem_filter, decide_eq_true_eq]
      constructor
      · rintro ⟨⟨j, c⟩, ⟨hm, hg⟩, rfl⟩; exact ⟨c, Assoc.get_of_mem h.ok hm, hg⟩
      · rintro ⟨c, hm, hg⟩; exact ⟨(id, c), ⟨Assoc.mem_of_get hm, hg⟩, rfl⟩
    cases hc : s.calls.get id with
    | none => simp
    | some c =>
      simp only [hmem, hc, Option.some.injEq, exists_eq_left', hl', and_true]

/-! ## Subscriber updates -/

theorem leaveLoop_prims (gs : List Nat) {s : Cc} (h : CcInv s) :
    ∃ s' out, s.leaveLoop gs = .ok (s', out) ∧ Prims true s out s' := by
  induction gs generalizing s with
  | nil => exact ⟨s, [], rfl, .nil s⟩
  | cons g gs ih =>
    have p0 := Prim.members s s.groups (decListener s.listeners g)
    obtain ⟨s1, o1, h1, p1, _⟩ := dropUnlistened_prims (h.prim p0) g
    obtain ⟨s2, o2, h2, p2⟩ := ih ((h.prim p0).prims p1)
    refine ⟨s2, o1 ++ o2, ?_, p0.one.trans (p1.mono.trans p2)⟩
    simp only [Cc.leaveLoop, h1, Res.bind_ok, h2]

theorem dropAll_prims (gs : List Nat) {s : Cc} (h : CcInv s) :
    ∃ s' out, s.dropAllUnlistened gs = .ok (s', out) ∧ Prims false s out s' := by
  induction gs generalizing s with
  | nil => exact ⟨s, [], rfl, .nil s⟩
  | cons g gs ih =>
    obtain ⟨s1, o1, h1, p1, _⟩ := dropUnlistened_prims h g
    obtain ⟨s2, o2, h2, p2⟩ := ih (h.prims p1)
    refine ⟨s2, o1 ++ o2, ?_, p1.trans p2⟩
    simp only [Cc.dropAllUnlistened, h1, Res.bind_ok, h2]

theorem update_prims {s : Cc} (h : CcInv s) (u : SubUpdate) : ∃ s' out, s.update u = .ok (s', out) ∧ Prims true s out s' := by
  cases u with
  | register issi => exact ⟨_, _, rfl, (Prim.members s _ s.listeners).one⟩
  | deregister issi =>
    simp only [Cc.update]
    split
    · rename_i gs hg
      have p0 := Prim.members s (s.groups.erase issi) s.listeners
      obtain ⟨s', o, h1, h2⟩ := leaveLoop_prims gs (h.prim p0)
      exact ⟨s', o, h1, p0.one.trans h2⟩
    · exact ⟨s, [], rfl, .nil s⟩
  | affiliate issi gs => exact ⟨_, _, rfl, (Prim.members s _ _).one⟩
  | deaffiliate issi gs =>
    simp only [Cc.update]
    split
    · rename_i set hg
      have p0 := Prim.members s (s.groups.insert issi (removeGroups set gs).1) ((removeGroups set gs).2.foldl decListener s.listeners)
      obtain ⟨s', o, h1, h2⟩ := dropAll_prims (removeGroups set gs).2 (h.prim p0)
      exact ⟨s', o, h1, p0.one.trans h2.mono⟩
    · obtain ⟨s', o, h1, h2⟩ := dropAll_prims gs h
      exact ⟨s', o, h1, h2.mono⟩

/-! ## Starting a call -/

/-- Asking for a circuit: all timeslots are taken and nothing changes, or one is given. -/
theorem allocateWith_cases {s : Cc} (h : CcInv s) (comm : Nat) :
    (s.mgr.allocateWith .both comm s.alloc .cmce = .ok (s.mgr, s.alloc, .error .noCircuitFree) ∧
      ∀ i : Fin 4, i ≠ 0 → (s.mgr.dl i).isSome) ∨
    ∃ a i k, s.alloc.allocateAny .cmce = (a, some (i.val + 1)) ∧ i ≠ 0 ∧ s.mgr.dl i = none ∧
      k = ⟨s.mgr.dltime, .both, i.val + 1, s.mgr.nextCallId, s.mgr.nextUsage, comm⟩ ∧
      s.mgr.allocateWith .both comm s.alloc .cmce = .ok (s.mgr.opened i k, a, .ok k) := by
  cases ha : s.alloc.allocateAny .cmce with
  | mk a r =>
  cases r with
  | none =>
    obtain ⟨rfl, h2⟩ := allocIs_full h.alloc ha
    exact .inl ⟨by simp [Mgr.allocateWith, ha], h2⟩
  | some ts =>
    obtain ⟨i, rfl, hi0, hn, _⟩ := allocIs_any h.alloc ha
    refine .inr ⟨a, i, _, rfl, hi0, hn, rfl, ?_⟩
    simp [Mgr.allocateWith, ha, Mgr.openCircuit, Mgr.draw, Mgr.isActive, hn, isBoth, h.mgr.ul i, Mgr.opened, Dir.includesDl, Dir.includesUl]

theorem setup_prims {s : Cc} (h : CcInv s) (caller : Nat) (sup : Bool) (called : Option Nat) (comm : Nat) :
    ∃ s' out, s.setup caller sup called comm = .ok (s', out) ∧ Prims false s out s' ∧ (s' = s ∨ Prim s false out s') := by
  have hnil : Prims false s [] s := .nil s
  unfold Cc.setup
  split
  · split
    · exact ⟨s, [], rfl, hnil, .inl rfl⟩
    · rename_i gssi
      split
      · rename_i hl
        rcases allocateWith_cases h comm with ⟨h1, _⟩ | ⟨a, i, k, h1, h2, h3, h4, h5⟩
        · exact ⟨s, [], by simp [h1], hnil, .inl rfl⟩
        · have p := Prim.start (m := false) s a i comm k ⟨.ms caller, gssi, caller, k.ts, k.usage, true, none, none⟩
            ⟨k.callId, .grantedToOther, caller, gssi, none⟩ h1 h2 h3 h4 hl (by rw [h4]) rfl rfl rfl (.inl ⟨caller, rfl, rfl, rfl⟩) rfl
          refine ⟨_, _, ?_, p.one, .inr p⟩
          simp only [h5, Res.bind_ok, Cc.openLocal]
          have : k.ts = i.val + 1 := by rw [h4]
          simp only [startOut, this, Slots.idx_succ, Res.bind_ok]
      · exact ⟨s, [], rfl, hnil, .inl rfl⟩
  · exact ⟨s, [], rfl, hnil, .inl rfl⟩

theorem find_get {s : Cc} (h : CcInv s) {p : Nat × Call → Bool} {id : Nat} {c : Call} (hf : s.calls.find? p = some (id, c)) :
    s.calls.get id = some c ∧ p (id, c) = true :=
  ⟨Assoc.get_of_mem h.ok (List.mem_of_find?_eq_some hf), List.find?_some hf⟩

theorem CcInv.idx {s : Cc} (h : CcInv s) {id : Nat} {c : Call} (hc : s.calls.get id = some c) : ∃ i, Slots.idx c.ts = .ok i := by
  obtain ⟨i, _, _, e, _⟩ := h.circuit id c hc
  exact ⟨i, by rw [e, Slots.idx_succ]⟩

theorem netStart_prims {s : Cc} (h : CcInv s) {uuid speaker gssi : Nat} (hr : s.routable gssi = true) :
    ∃ s' out, s.netStart uuid speaker gssi = .ok (s', out) ∧ Prims false s out s' := by
  unfold Cc.netStart
  rw [if_pos hr]
  split
  · rename_i hl
    split
    · rename_i id c hf
      obtain ⟨hc, hg⟩ := find_get h hf
      simp only [decide_eq_true_eq] at hg
      split
      · exact ⟨s, _, rfl, (Prim.aside (m := false) s _ (by trivial)).one⟩
      · rename_i htx
        obtain ⟨i, hi⟩ := h.idx hc
        have p := Prim.netGrant (m := false) s id c uuid speaker hc (by simpa using htx)
        refine ⟨_, _, ?_, p.one⟩
        simp only [hi, Res.bind_ok, hg]
    · rcases allocateWith_cases h 1 with ⟨h1, _⟩ | ⟨a, i, k, h1, h2, h3, h4, h5⟩
      · exact ⟨s, [], by simp [h1], .nil s⟩
      · have p := Prim.start (m := false) s a i 1 k ⟨.net uuid, gssi, speaker, k.ts, k.usage, true, none, some uuid⟩
          ⟨k.callId, .grantedToOther, speaker, gssi, none⟩ h1 h2 h3 h4 hl (by rw [h4]) rfl rfl rfl (.inr ⟨uuid, rfl, rfl⟩) rfl
        refine ⟨_, _, ?_, p.one⟩
        simp only [h5, Res.bind_ok, Cc.openNet]
        have : k.ts = i.val + 1 := by rw [h4]
        simp only [startOut, this, Slots.idx_succ, Res.bind_ok]
  · obtain ⟨s1, o1, h1, p1, _⟩ := dropUnlistened_prims h gssi
    refine ⟨s1, o1 ++ [.netCallEnd uuid], by simp only [h1, Res.bind_ok], p1.trans (Prim.aside s1 _ (by trivial)).one⟩

/-! ## The floor -/

theorem ceased_prims {s : Cc} (h : CcInv s) (id : Nat) : ∃ s' out, s.ceased id = .ok (s', out) ∧ Prims false s out s' := by
  unfold Cc.ceased
  split
  · exact ⟨s, [], rfl, .nil s⟩
  · rename_i c hc
    have hfl := h.floor id c hc
    split
    · exact ⟨s, [], rfl, .nil s⟩
    · rename_i hn
      have htx : c.tx = true := by
        cases e : c.tx with
        | true => rfl
        | false =>
          rw [e] at hfl
          cases e2 : c.hang with
          | none => rw [e2] at hfl; cases hfl
          | some x => simp [e, e2] at hn
      obtain ⟨p, hp, _, hg⟩ := h.setup id c hc
      obtain ⟨i, hi⟩ := h.idx hc
      refine ⟨_, _, ?_, (Prim.cease (m := false) s id c c.brew _ hc htx (.inl ⟨rfl, rfl⟩)).one⟩
      simp only [hp, hi, Res.bind_ok, Cc.toHang, hg]

theorem demand_prims {s : Cc} (h : CcInv s) (ssi id : Nat) : ∃ s' out, s.demand ssi id = .ok (s', out) ∧ Prims false s out s' := by
  unfold Cc.demand
  split
  · exact ⟨s, [], rfl, .nil s⟩
  · rename_i c hc
    split
    · exact ⟨s, [], rfl, .nil s⟩
    · rename_i htx
      obtain ⟨p, hp, _, hg⟩ := h.setup id c hc
      obtain ⟨i, hi⟩ := h.idx hc
      refine ⟨_, _, ?_, (Prim.grant (m := false) s id c ssi hc (by simpa using htx)).one⟩
      simp only [hp, hi, Res.bind_ok, hg]

theorem disconnect_prims {s : Cc} (h : CcInv s) (ssi id : Nat) : ∃ s' out, s.disconnect ssi id = .ok (s', out) ∧ Prims false s out s' := by
  unfold Cc.disconnect
  split
  · exact ⟨s, [], rfl, .nil s⟩
  · split
    · obtain ⟨s', o, h1, h2, _⟩ := release_prims h id .userRequested
      exact ⟨s', o, h1, h2⟩
    · exact ⟨s, _, rfl, (Prim.aside (m := false) s _ (by trivial)).one⟩

theorem netEnd_prims {s : Cc} (h : CcInv s) (uuid : Nat) : ∃ s' out, s.netEnd uuid = .ok (s', out) ∧ Prims false s out s' := by
  unfold Cc.netEnd
  split
  · exact ⟨s, [], rfl, .nil s⟩
  · rename_i id c hf
    obtain ⟨hc, hu⟩ := find_get h hf
    split
    · rename_i htx
      obtain ⟨i, hi⟩ := h.idx hc
      have p := (Prim.cease (m := false) s id c none [] hc htx (.inr ⟨rfl, rfl⟩)).one
      refine ⟨_, _, ?_, p⟩
      simp only [hi, Res.bind_ok, Cc.toHang, List.append_nil]
    · obtain ⟨s', o, h1, h2, _⟩ := release_prims h id .swmiRequested
      exact ⟨s', o, h1, h2⟩

theorem inactive_prims {s : Cc} (h : CcInv s) (ts : Nat) : ∃ s' out, s.inactive ts = .ok (s', out) ∧ Prims false s out s' := by
  unfold Cc.inactive
  split
  · exact ⟨s, [], rfl, .nil s⟩
  · rename_i id c hf
    obtain ⟨hc, hu⟩ := find_get h hf
    simp only [decide_eq_true_eq] at hu
    obtain ⟨rfl, htx⟩ := hu
    obtain ⟨i, hi⟩ := h.idx hc
    refine ⟨_, _, ?_, (Prim.cease (m := false) s id c c.brew _ hc htx (.inl ⟨rfl, rfl⟩)).one⟩
    simp only [hi, Res.bind_ok, Cc.toHang]

/-! ## Ticks -/

/-- The circuits of the manager in a list, at the moment of a tick, each at most once. -/
theorem expire_prims (cs : List CmceCircuit) {s : Cc} (h : CcInv s) (hn : (cs.map CmceCircuit.ts).Nodup)
    (ha : ∀ c ∈ cs, (∃ i, s.mgr.dl i = some c) ∧ c.age s.now > 25920) (rest : List Cmd) :
    ∃ s1 o1 m' cmds, closeAll s.mgr cs = .ok (m', cmds) ∧ Prims false s o1 s1 ∧ s1.mgr = m' ∧ s1.now = s.now ∧
      s1.groups = s.groups ∧ s1.listeners = s.listeners ∧
      (∀ id, s1.calls.get id = if id ∈ cs.map CmceCircuit.callId then none else s.calls.get id) ∧
      ({ s with mgr := m' } : Cc).tasks (cmds ++ rest) = (do
        let q ← s1.tasks rest
        .ok (q.1, o1 ++ q.2)) := by
  induction cs generalizing s with
  | nil =>
    refine ⟨s, [], s.mgr, [], rfl, .nil s, rfl, rfl, rfl, rfl, by simp, ?_⟩
    simp only [List.nil_append]
    cases s.tasks rest <;> rfl
  | cons c cs ih =>
    obtain ⟨⟨i, hi⟩, hage⟩ := ha c (by simp)
    have p := Prim.expire (m := false) s i c hi hage
    simp only [List.map_cons, List.nodup_cons] at hn
    have hts := h.mgr.ts hi
    have hdir := h.mgr.both i c hi
    generalize hs2 : ({ s with mgr := s.mgr.closed i, alloc := (s.alloc.release .cmce (i.val + 1)).1, setups := s.setups.erase c.callId, calls := s.calls.erase c.callId } : Cc) = s2 at p
    have h2 := h.prim p
    obtain ⟨s1, o1, m', cmds, e1, e2, e3, e4, e5, e6, e7, e8⟩ := ih h2 hn.2 (by
      intro d hd
      obtain ⟨⟨j, hj⟩, hd2⟩ := ha d (by simp [hd])
      subst hs2
      refine ⟨⟨j, ?_⟩, hd2⟩
      simp only [Mgr.closed]
      rw [Slots.upd_ne]
      · exact hj
      · rintro rfl
        rw [hi] at hj; cases hj
        exact hn.1 (List.mem_map_of_mem (f := CmceCircuit.ts) hd))
    refine ⟨s1, _, m', .sendClose c.callId c :: cmds, ?_, p.one.trans e2, e3, ?_, ?_, ?_, ?_, ?_⟩
    · subst hs2
      simp only [closeAll, hdir, hts, Mgr.close_eq hi, Res.bind_ok]
      simp only at e1
      rw [e1]; rfl
    · rw [e4, ← hs2]
    · rw [e5, ← hs2]
    · rw [e6, ← hs2]
    · intro id
      rw [e7, ← hs2]
      simp only [Assoc.get_erase, List.map_cons, List.mem_cons]
      by_cases e1 : id ∈ cs.map CmceCircuit.callId
      · simp [e1]
      · by_cases e2 : c.callId = id
        · simp [e1, e2]
        · have : ¬ id = c.callId := fun e => e2 e.symm
          simp [e1, e2, this]
    · have e9 : (({ s with mgr := m' } : Cc).expire c.callId c).1 = { s2 with mgr := m' } := by
        subst hs2; simp only [Cc.expire, hts]
      simp only [List.cons_append, Cc.tasks, e9, e8]
      cases s1.tasks rest with
      | panic => rfl
      | ok q =>
        simp only [Res.bind_ok, Cc.expire, hdir, hts, List.append_assoc]
        rfl

theorem announce_prims {s : Cc} (h : CcInv s) {i : Fin 4} {k : CmceCircuit} (hk : s.mgr.dl i = some k) :
    ∃ s' out, s.announce k.callId k.usage k.ts = .ok (s', out) ∧ Prims false s out s' ∧ s'.calls = s.calls ∧ s'.mgr = s.mgr ∧
      s'.groups = s.groups ∧ s'.listeners = s.listeners ∧ s'.now = s.now := by
  unfold Cc.announce
  cases hc : s.calls.get k.callId with
  | none =>
    simp only [h.noSetup _ hc]
    exact ⟨s, [], rfl, .nil s, rfl, rfl, rfl, rfl, rfl⟩
  | some c =>
    have hfl := h.floor _ c hc
    obtain ⟨p, hp, hpid, hg⟩ := h.setup _ c hc
    simp only [hp]
    cases hh : c.hang with
    | some x => exact ⟨s, [], rfl, .nil s, rfl, rfl, rfl, rfl, rfl⟩
    | none =>
      rw [hh] at hfl
      simp only [Option.isNone_none] at hfl
      simp only [Option.isSome_none, Bool.false_eq_true, if_false]
      split
      · exact ⟨s, [], rfl, .nil s, rfl, rfl, rfl, rfl, rfl⟩
      · simp only [h.mgr.ts hk, Slots.idx_succ, Res.bind_ok, hfl]
        refine ⟨_, _, rfl, ?_, rfl, rfl, rfl, rfl, rfl⟩
        have := (Prim.announce (m := false) s i k c p hk hc hfl hp).one
        rw [h.mgr.ts hk] at this
        simpa [hpid, hg] using this

theorem announceAll_prims (cs : List CmceCircuit) {s : Cc} (h : CcInv s) (hk : ∀ c ∈ cs, ∃ i, s.mgr.dl i = some c) :
    ∃ s' out, s.tasks (cs.map fun c => .sendDSetup c.callId c.usage c.ts) = .ok (s', out) ∧ Prims false s out s' ∧
      s'.calls = s.calls ∧ s'.mgr = s.mgr ∧ s'.groups = s.groups ∧ s'.listeners = s.listeners ∧ s'.now = s.now := by
  induction cs generalizing s with
  | nil => exact ⟨s, [], rfl, .nil s, rfl, rfl, rfl, rfl, rfl⟩
  | cons c cs ih =>
    obtain ⟨i, hi⟩ := hk c (by simp)
    obtain ⟨s1, o1, h1, p1, c1, m1, g1, l1, n1⟩ := announce_prims h hi
    obtain ⟨s2, o2, h2, p2, c2, m2, g2, l2, n2⟩ := ih (h.prims p1) (by intro d hd; rw [m1]; exact hk d (by simp [hd]))
    refine ⟨s2, o1 ++ o2, ?_, p1.trans p2, by rw [c2, c1], by rw [m2, m1], by rw [g2, g1], by rw [l2, l1], by rw [n2, n1]⟩
    simp only [List.map_cons, Cc.tasks, h1, Res.bind_ok, h2]

/-- The circuits past their limit. -/
theorem overdue_ts {m : Mgr} (h : MgrOk m) (now : Time) : ((m.overdue now).map CmceCircuit.ts).Nodup := by
  obtain ⟨log, hi⟩ := h.inv
  have aux : ∀ x, x ∈ m.overdue now → ∃ i, m.dl i = some x := by
    intro x hx
    obtain ⟨⟨i, h1 | h1⟩, _⟩ := mem_overdue.1 hx
    · exact ⟨i, h1⟩
    · rw [h.ul i] at h1; cases h1
  unfold List.Nodup
  rw [List.pairwise_map]
  refine List.Pairwise.imp_of_mem ?_ (overdue_nodup hi now)
  intro a b ha hb hne e
  obtain ⟨i, hi⟩ := aux a ha
  obtain ⟨j, hj⟩ := aux b hb
  have h1 := h.ts hi
  have h2 := h.ts hj
  have : i = j := Fin.ext (by omega)
  subst this
  rw [hi] at hj; exact hne (Option.some.inj hj)

theorem started_append (a b : List CcOut) : started (a ++ b) = started a ++ started b := List.filterMap_append

theorem release_started {s s' : Cc} {id : Nat} {cause : Cause} {o : List CcOut} (h : s.release id cause = .ok (s', o)) : started o = [] := by
  unfold Cc.release at h
  split at h
  · cases h; rfl
  · split at h
    · cases h; rfl
    · unfold Cc.freeCall at h
      rw [Res.bind_eq_ok] at h
      obtain ⟨r, hr, h⟩ := h
      rw [Res.bind_eq_ok] at hr
      obtain ⟨q, _, hr⟩ := hr
      cases hr
      cases h
      simp only [started, List.filterMap_cons, List.filterMap_append, List.append_eq_nil_iff]
      refine ⟨⟨?_, rfl⟩, ?_⟩
      · split <;> rfl
      · split
        · split <;> rfl
        · rfl

theorem releaseAll_started {cause : Cause} (ids : List Nat) {s s' : Cc} {o : List CcOut} (h : s.releaseAll cause ids = .ok (s', o)) : started o = [] := by
  induction ids generalizing s o with
  | nil => cases h; rfl
  | cons id ids ih =>
    unfold Cc.releaseAll at h
    rw [Res.bind_eq_ok] at h
    obtain ⟨r, hr, h⟩ := h
    rw [Res.bind_eq_ok] at h
    obtain ⟨q, hq, h⟩ := h
    cases h
    rw [started_append, release_started hr, ih hq]; rfl

/-- A tick: calls whose hang time is over are gone, then calls whose circuit is too old. -/
theorem tick_prims {s : Cc} (h : CcInv s) (now : Time) :
    ∃ s' out, s.tick now = .ok (s', out) ∧ Shape s (.tick now) out s' ∧ s'.groups = s.groups ∧ s'.listeners = s.listeners ∧ s'.now = now ∧
      (∀ id, s'.calls.get id = s.calls.get id ∨ s'.calls.get id = none) ∧
      (∀ id ∈ (s.clock now).hangExpired, s'.calls.get id = none) ∧
      (∀ id c, s.calls.get id = some c → s'.calls.get id = none → id ∈ (s.clock now).hangExpired ∨
        (now.t = 1 ∧ ∃ i k, s.mgr.dl i = some k ∧ k.callId = id ∧ k.age now > 25920)) ∧
      (∀ i k, s'.mgr.dl i = some k → s.mgr.dl i = some k ∧ (now.t = 1 → ¬ k.age now > 25920)) := by
  obtain ⟨s1, o1, h1, p1, c1, g1, l1, r1, n1, d1⟩ := releaseAll_prims (cause := .expiryOfTimer)
    (s.clock now).hangExpired (h.clock now)
  have hi1 := (h.clock now).prims p1
  have hi2 := hi1.mgrClock now
  by_cases ht : now.t = 1
  · have hov : ∀ c ∈ s1.mgr.overdue now, ∃ i, s1.mgr.dl i = some c := by
      intro c hc
      obtain ⟨⟨i, h1 | h1⟩, _⟩ := mem_overdue.1 hc
      · exact ⟨i, h1⟩
      · rw [hi1.mgr.ul i] at h1; cases h1
    obtain ⟨log, hlog⟩ := hi1.mgr.inv
    obtain ⟨m', e1, e2, e3⟩ := tick_spec hlog ht
    obtain ⟨s2, o2, m2, cmds, f1, f2, f3, f4, f5, f6, f7, f8⟩ := expire_prims (s1.mgr.overdue now) hi2
      (overdue_ts (m := s1.mgr) hi1.mgr now) (by
        intro c hc
        refine ⟨hov c hc, ?_⟩
        have := (mem_overdue.1 hc).2
        simp only [Cc.mgrClock, n1]
        exact this) (((entries m'.dl).filter (setupDue now)).map fun c => .sendDSetup c.callId c.usage c.ts)
    have hov2 : (entries s1.mgr.dl).filter (expired now) ++ (entries s1.mgr.ulOnly).filter (expired now) = s1.mgr.overdue now := by
      unfold Mgr.overdue; rw [List.filter_append]; rfl
    have em : m2 = m' ∧ s1.mgr.tick now = .ok (m', cmds ++ ((entries m'.dl).filter (setupDue now)).map fun c => .sendDSetup c.callId c.usage c.ts) := by
      have e1' := e1
      unfold Mgr.tick Mgr.closeExpired at e1
      dsimp only at e1
      rw [if_pos ht, hov2] at e1
      simp only [Cc.mgrClock] at f1
      rw [f1, Res.bind_ok] at e1
      simp only [Res.ok.injEq, Prod.mk.injEq] at e1
      obtain ⟨rfl, e1⟩ := e1
      refine ⟨rfl, ?_⟩
      rw [e1', ← e1]
    obtain ⟨rfl, em⟩ := em
    have hi3 := hi2.prims f2
    have hact : ∀ i k, m2.dl i = some k → s1.mgr.dl i = some k ∧ ¬ k.age now > 25920 := by
      intro i k hk
      obtain ⟨⟨j, hj | hj⟩, ha⟩ := (e2 k).1 ⟨i, .inl hk⟩
      · have t1 := hi1.mgr.ts hj
        have t2 := (e3.dl i k hk).1
        have : j = i := Fin.ext (by omega)
        subst this; exact ⟨hj, ha⟩
      · rw [hi1.mgr.ul] at hj; cases hj
    obtain ⟨s3, o3, k1, k2, k3, k4, k5, k6, k7⟩ := announceAll_prims ((entries m2.dl).filter (setupDue now)) hi3 (by
      intro c hc
      rw [f3]
      exact mem_entries.1 (List.mem_filter.1 hc).1)
    refine ⟨s3, o1 ++ (o2 ++ o3), ?_, ?_, ?_, ?_, ?_, ?_, ?_, ?_, ?_⟩
    · unfold Cc.tick
      have h1' : Cc.releaseAll { s with now := now } .expiryOfTimer (Cc.hangExpired { s with now := now }) = .ok (s1, o1) := h1
      simp only [h1', Res.bind_ok, em]
      simp only [Cc.mgrClock] at f8
      rw [f8, k1]
      simp only [Res.bind_ok]
    · exact .tick (releaseAll_started _ h1) p1 (f2.trans k2)
    · exact (k5.trans f5).trans g1
    · exact (k6.trans f6).trans l1
    · exact (k7.trans f4).trans n1
    · intro id
      rw [k3, f7]
      split
      · exact .inr rfl
      · simp only [Cc.mgrClock, c1]
        split
        · exact .inr rfl
        · exact .inl rfl
    · intro id hid
      rw [k3, f7]
      split
      · rfl
      · simp only [Cc.mgrClock, c1]; rw [if_pos hid]
    · intro id c hc hnone
      rw [k3, f7] at hnone
      split at hnone
      · rename_i hm
        refine .inr ⟨ht, ?_⟩
        obtain ⟨k, hk, rfl⟩ := List.mem_map.1 hm
        obtain ⟨i, hi⟩ := hov k hk
        exact ⟨i, k, d1 i k hi, rfl, (mem_overdue.1 hk).2⟩
      · simp only [Cc.mgrClock, c1] at hnone
        split at hnone
        · rename_i hm; exact .inl hm
        · have : s.calls.get id = none := hnone
          rw [hc] at this; cases this
    · intro i k hk
      rw [k4, f3] at hk
      obtain ⟨a, b⟩ := hact i k hk
      exact ⟨d1 i k a, fun _ => b⟩
  · refine ⟨{ s1 with mgr := { s1.mgr with dltime := now } }, o1, ?_, ?_, g1, l1, n1, ?_, ?_, ?_, ?_⟩
    · unfold Cc.tick Mgr.tick
      have h1' : Cc.releaseAll { s with now := now } .expiryOfTimer (Cc.hangExpired { s with now := now }) = .ok (s1, o1) := h1
      simp only [h1', Res.bind_ok, if_neg ht, Cc.tasks, List.append_nil]
    · have := Shape.tick (s := s) (now := now) (releaseAll_started _ h1) p1 (.nil _)
      rwa [List.append_nil] at this
    · intro id
      simp only [c1]
      split
      · exact .inr rfl
      · exact .inl rfl
    · intro id hid
      simp only [c1]; rw [if_pos hid]
    · intro id c hc hnone
      simp only [c1] at hnone
      split at hnone
      · rename_i hm; exact .inl hm
      · have : s.calls.get id = none := hnone
        rw [hc] at this; cases this
    · intro i k hk
      exact ⟨d1 i k hk, fun e => absurd e ht⟩

/-! ## All events -/

/-- An event call control is prepared for: network calls only to groups that go over the network. -/
def CcEv.Expected (routable : Nat → Bool) : CcEv → Prop
  | .netStart _ _ gssi => routable gssi = true
  | _ => True

theorem step_shape {s : Cc} (h : CcInv s) {e : CcEv} (he : e.Expected s.routable) :
    ∃ s' out, s.step e = .ok (s', out) ∧ Shape s e out s' := by
  have aux : (∀ now, e ≠ .tick now) → (∀ u, e ≠ .update u) → (∃ s' out, s.step e = .ok (s', out) ∧ Prims false s out s') → ∃ s' out, s.step e = .ok (s', out) ∧ Shape s e out s' := by
    rintro hne hnu ⟨s', out, h1, h2⟩
    exact ⟨s', out, h1, .other hne hnu h2⟩
  cases e with
  | tick now => obtain ⟨s', o, h1, h2, _⟩ := tick_prims h now; exact ⟨s', o, h1, h2⟩
  | update u => obtain ⟨s', o, h1, h2⟩ := update_prims h u; exact ⟨s', o, h1, .update h2⟩
  | uSetup caller sup called comm => obtain ⟨s', o, h1, h2, _⟩ := setup_prims h caller sup called comm; exact aux (by simp) (by simp) ⟨s', o, h1, h2⟩
  | uTxCeased ssi id => exact aux (by simp) (by simp) (ceased_prims h id)
  | uTxDemand ssi id => exact aux (by simp) (by simp) (demand_prims h ssi id)
  | uRelease ssi id => obtain ⟨s', o, h1, h2, _⟩ := release_prims h id .userRequested; exact aux (by simp) (by simp) ⟨s', o, h1, h2⟩
  | uDisconnect ssi id => exact aux (by simp) (by simp) (disconnect_prims h ssi id)
  | netStart uuid speaker gssi => exact aux (by simp) (by simp) (netStart_prims h he)
  | netEnd uuid => exact aux (by simp) (by simp) (netEnd_prims h uuid)
  | inactive ts => exact aux (by simp) (by simp) (inactive_prims h ts)

/-- An event it is not prepared for aborts. -/
theorem step_unexpected {s : Cc} {e : CcEv} (he : ¬ e.Expected s.routable) : s.step e = .panic := by
  cases e with
  | netStart uuid speaker gssi =>
    simp only [CcEv.Expected, Bool.not_eq_true] at he
    simp [Cc.step, Cc.netStart, he]
  | _ => exact absurd trivial he

theorem step_ok {s s' : Cc} {e : CcEv} {o : List CcOut} (h : CcInv s) (hs : s.step e = .ok (s', o)) : e.Expected s.routable ∧ Shape s e o s' := by
  by_cases he : e.Expected s.routable
  · obtain ⟨s1, o1, h1, h2⟩ := step_shape h he
    rw [hs] at h1; cases h1; exact ⟨he, h2⟩
  · rw [step_unexpected he] at hs; cases hs

theorem ccRun_inv {r : Nat → Bool} {h : List (CcEv × List CcOut)} {s : Cc} (hr : CcRun r h s) : CcInv s := by
  induction hr with
  | init => exact ccInv_init r
  | step _ hs ih => exact ih.shape (step_ok ih hs).2
  | reorder _ hre ih => exact ih.reordered hre

/-- All messages of a history, in order. -/
def messages (h : List (CcEv × List CcOut)) : List CcOut := h.flatMap Prod.snd

theorem messages_append (a b : List (CcEv × List CcOut)) : messages (a ++ b) = messages a ++ messages b := by
  simp [messages]

/-- What holds at the beginning and is kept by elementary steps and clocks, holds always. -/
theorem run_induct {r : Nat → Bool} {P : List CcOut → Cc → Prop} (h0 : P [] (.init r))
    (hclock : ∀ l s now, P l s → P l (s.clock now)) (hmgr : ∀ l s now, P l s → P l (s.mgrClock now))
    (hprim : ∀ l s o s', CcInv s → P l s → Prim s true o s' → P (l ++ o) s')
    (hre : ∀ l s s', CcInv s → P l s → s.Reordered s' → P l s')
    {h : List (CcEv × List CcOut)} {s : Cc} (hr : CcRun r h s) : P (messages h) s := by
  have hprims : ∀ s o s', Prims true s o s' → ∀ l, CcInv s → P l s → P (l ++ o) s' := by
    intro s o s' hp
    induction hp with
    | nil => intro l _ h; rw [List.append_nil]; exact h
    | cons hp _ ih =>
      intro l hi h
      rw [← List.append_assoc]
      exact ih _ (hi.prim hp) (hprim _ _ _ _ hi h hp)
  induction hr with
  | init => exact h0
  | step hr hs ih =>
    have hi := ccRun_inv hr
    rw [messages_append]
    have e : ∀ (e : CcEv) (o : List CcOut), messages [(e, o)] = o := by simp [messages]
    rw [e]
    cases (step_ok hi hs).2 with
    | tick _ p1 p2 =>
      rw [← List.append_assoc]
      exact hprims _ _ _ p2.mono _ (((hi.clock _).prims p1).mgrClock _) (hmgr _ _ _ (hprims _ _ _ p1.mono _ (hi.clock _) (hclock _ _ _ ih)))
    | update p => exact hprims _ _ _ p _ hi ih
    | other _ _ p => exact hprims _ _ _ p.mono _ hi ih
  | reorder hr hreo ih => exact hre _ _ _ (ccRun_inv hr) ih hreo

end Verif.Cmce
