import Verif.Cmce.CallEnds
import Verif.Cmce.CallFindings
/-!
# What call control tells the backhaul: lemmas for C61

A local station which gets the floor in a group of the network is reported (`netGranted`); the end of its turn is reported by
`netReleased` or `netEnded`, with the exceptions of `Gap`.
-/
namespace Verif.Cmce
open Tdma

/-! ## Specification -/

/-- The ends of a turn which are not reported: the network ends a session which still belongs to the call; the call was
started by the network and is released; the call's circuit is more than 25920 timeslots old. -/
inductive Gap (s s' : Cc) (id : Nat) (c : Call) : CcEv → Prop where
  | netEnd (uuid : Nat) : c.brew = some uuid → Gap s s' id c (.netEnd uuid)
  | fromNetwork (uuid : Nat) (e : CcEv) : c.origin = .net uuid → s'.calls.get id = none → Gap s s' id c e
  | tooLong (now : Time) (i : Fin 4) (k : CmceCircuit) : s.mgr.dl i = some k → k.callId = id → k.tsCreated.age now > 25920 →
      s'.calls.get id = none → Gap s s' id c (.tick now)

/-- Reports the end of a turn, or of a call, in timeslot `ts`. -/
def CcOut.Tells (ts : Nat) : CcOut → Prop
  | .netReleased _ ts' => ts' = ts
  | .netEnded _ ts' => ts' = ts
  | _ => False

/-- The floor of call `id` was reported as granted, and nothing was reported for its timeslot since. -/
def Owed (l : List CcOut) (id speaker gssi ts : Nat) : Prop :=
  ∃ a b, l = a ++ .netGranted id speaker gssi ts :: b ∧ ∀ y ∈ b, ¬ y.Tells ts

/-- Some turn in this call on this timeslot ended in one of the ways which are not reported. -/
def GapIn (r : Nat → Bool) (h : List (CcEv × List CcOut)) (id ts : Nat) : Prop :=
  ∃ h1 e o h2 s s' c, h = h1 ++ (e, o) :: h2 ∧ CcRun r h1 s ∧ s.step e = .ok (s', o) ∧ s.calls.get id = some c ∧ c.tx = true ∧
    c.ts = ts ∧ Gap s s' id c e

/-! ## Calls which disappear -/

theorem endOut_told {r : Nat → Bool} {id : Nat} {c : Call} {cause : Cause} (ho : ∃ n, c.origin = .ms n) (hr : r c.gssi = true) :
    .netEnded id c.ts ∈ endOut r id c cause := by
  obtain ⟨n, ho⟩ := ho
  simp [endOut, ho, hr]

theorem dropLoop_told {g : Nat} (es : List (Nat × Call)) {s s' : Cc} {o : List CcOut} (hi : CcInv s) (h : s.dropLoop g es = .ok (s', o))
    {id : Nat} {c : Call} (hc : s.calls.get id = some c) (ho : ∃ n, c.origin = .ms n) (hr : s.routable c.gssi = true)
    (hn : s'.calls.get id = none) : .netEnded id c.ts ∈ o := by
  induction es generalizing s o with
  | nil => cases h; rw [hc] at hn; cases hn
  | cons e es ih =>
    obtain ⟨j, cj⟩ := e
    simp only [Cc.dropLoop, Res.bind_eq_ok] at h
    obtain ⟨r, h1, q, h2, h⟩ := h
    cases h
    by_cases e : j = id
    · subst e
      obtain ⟨s1, e1, _⟩ := release_known hi hc .swmiRequested
      rw [h1] at e1
      cases e1
      simp only [List.mem_append]
      exact .inl (.inr (endOut_told ho hr))
    · obtain ⟨s1, o1, e1, p1, c1, _, _, r1, _⟩ := release_prims hi j .swmiRequested
      rw [h1] at e1
      cases e1
      have hget : s1.calls.get id = some c := by rw [c1, Assoc.get_erase_ne _ e]; exact hc
      exact List.mem_append_right _ (ih (hi.prims p1) h2 hget (by rw [r1]; exact hr))

theorem dropUnlistened_told {g : Nat} {s s' : Cc} {o : List CcOut} (hi : CcInv s) (h : s.dropUnlistened g = .ok (s', o))
    {id : Nat} {c : Call} (hc : s.calls.get id = some c) (ho : ∃ n, c.origin = .ms n) (hr : s.routable c.gssi = true)
    (hn : s'.calls.get id = none) : .netEnded id c.ts ∈ o := by
  unfold Cc.dropUnlistened at h
  split at h
  · cases h; rw [hc] at hn; cases hn
  · exact dropLoop_told _ hi h hc ho hr hn

theorem leaveLoop_told (gs : List Nat) {s s' : Cc} {o : List CcOut} (hi : CcInv s) (h : s.leaveLoop gs = .ok (s', o))
    {id : Nat} {c : Call} (hc : s.calls.get id = some c) (ho : ∃ n, c.origin = .ms n) (hr : s.routable c.gssi = true)
    (hn : s'.calls.get id = none) : .netEnded id c.ts ∈ o := by
  induction gs generalizing s o with
  | nil => cases h; rw [hc] at hn; cases hn
  | cons g gs ih =>
    simp only [Cc.leaveLoop, Res.bind_eq_ok] at h
    obtain ⟨r, h1, q, h2, h⟩ := h
    cases h
    have hi0 := hi.prim (Prim.members s s.groups (decListener s.listeners g))
    obtain ⟨s1, o1, e1, p1, c1, _, _, r1, _⟩ := dropUnlistened_prims hi0 g
    rw [h1] at e1
    cases e1
    cases hg : s1.calls.get id with
    | none => exact List.mem_append_left _ (dropUnlistened_told hi0 h1 hc ho hr hg)
    | some c' =>
      have := c1 id
      rw [hg, hc] at this
      simp only at this
      split at this
      · cases this
      · cases this
        exact List.mem_append_right _ (ih (hi0.prims p1) h2 hg (by rw [r1]; exact hr))

theorem dropAll_told (gs : List Nat) {s s' : Cc} {o : List CcOut} (hi : CcInv s) (h : s.dropAllUnlistened gs = .ok (s', o))
    {id : Nat} {c : Call} (hc : s.calls.get id = some c) (ho : ∃ n, c.origin = .ms n) (hr : s.routable c.gssi = true)
    (hn : s'.calls.get id = none) : .netEnded id c.ts ∈ o := by
  induction gs generalizing s o with
  | nil => cases h; rw [hc] at hn; cases hn
  | cons g gs ih =>
    simp only [Cc.dropAllUnlistened, Res.bind_eq_ok] at h
    obtain ⟨r, h1, q, h2, h⟩ := h
    cases h
    obtain ⟨s1, o1, e1, p1, c1, _, _, r1, _⟩ := dropUnlistened_prims hi g
    rw [h1] at e1
    cases e1
    cases hg : s1.calls.get id with
    | none => exact List.mem_append_left _ (dropUnlistened_told hi h1 hc ho hr hg)
    | some c' =>
      have := c1 id
      rw [hg, hc] at this
      simp only at this
      split at this
      · cases this
      · cases this
        exact List.mem_append_right _ (ih (hi.prims p1) h2 hg (by rw [r1]; exact hr))

theorem update_told {s s' : Cc} {u : SubUpdate} {o : List CcOut} (hi : CcInv s) (h : s.update u = .ok (s', o))
    {id : Nat} {c : Call} (hc : s.calls.get id = some c) (ho : ∃ n, c.origin = .ms n) (hr : s.routable c.gssi = true)
    (hn : s'.calls.get id = none) : .netEnded id c.ts ∈ o := by
  have same : ∀ {s1 : Cc}, s1.calls = s.calls → s1 = s' → False := by
    intro s1 h1 h2
    rw [← h2, h1, hc] at hn; cases hn
  cases u with
  | register n => simp only [Cc.update, Res.ok.injEq, Prod.mk.injEq] at h; rw [← h.1] at hn; exact absurd hc (by rw [show s.calls.get id = none from hn]; simp)
  | deregister n =>
    simp only [Cc.update] at h
    split at h
    · exact leaveLoop_told _ (hi.prim (Prim.members s (s.groups.erase n) s.listeners)) h hc ho hr hn
    · cases h; exact (same rfl rfl).elim
  | affiliate n gs => simp only [Cc.update, Res.ok.injEq, Prod.mk.injEq] at h; rw [← h.1] at hn; exact absurd hc (by rw [show s.calls.get id = none from hn]; simp)
  | deaffiliate n gs =>
    simp only [Cc.update] at h
    split at h
    · exact dropAll_told _ (hi.prim (Prim.members s _ _)) h hc ho hr hn
    · exact dropAll_told _ hi h hc ho hr hn

/-! ## One event -/

/-- What can happen to a call in which somebody talks, other than its end: a mobile says that the talk is over, the timeslot
falls silent, or the network ends the session. -/
theorem step_keeps {s s' : Cc} {e : CcEv} {o l : List CcOut} (hi : CcInv s) (hm : MemInv s) (hl : s.Listened)
    (hcn : ∀ id, connected l id = (s.calls.get id).isSome) (hn : NoReuse (l ++ o)) (h : s.step e = .ok (s', o)) {id : Nat} {c c' : Call}
    (hc : s.calls.get id = some c) (htx : c.tx = true) (hg : s'.calls.get id = some c') :
    c' = c ∨ (∃ ssi, e = .uTxCeased ssi id ∧ (s.routable c.gssi = true → .netReleased id c.ts ∈ o)) ∨
      (e = .inactive c.ts ∧ (s.routable c.gssi = true → .netReleased id c.ts ∈ o)) ∨
      ∃ u, e = .netEnd u ∧ c.brew = some u := by
  have same : s'.calls.get id = s.calls.get id → c' = c := fun h => by rw [hg, hc] at h; exact Option.some.inj h
  cases e with
  | tick now =>
    left
    obtain ⟨s1, o1, e1, _, _, _, _, c1, _⟩ := tick_prims hi now
    rw [show s.tick now = .ok (s', o) from h] at e1
    cases e1
    rcases c1 id with h1 | h1
    · exact same h1
    · rw [hg] at h1; cases h1
  | update u =>
    left
    obtain ⟨_, _, h3⟩ := update_members hi hm hl h
    have := h3 id
    rw [hg, hc] at this
    simp only at this
    split at this
    · cases this
    · exact Option.some.inj this
  | uSetup caller sup called comm =>
    left
    obtain ⟨s1, o1, e1, _, p1⟩ := setup_prims hi caller sup called comm
    rw [show s.setup caller sup called comm = .ok (s', o) from h] at e1
    cases e1
    rcases p1 with rfl | p1
    · exact same rfl
    · have hst : s.setup caller sup called comm = .ok (s', o) := h
      unfold Cc.setup at hst
      split at hst
      · split at hst
        · cases hst; exact same rfl
        · split at hst
          · simp only [Res.bind_eq_ok] at hst
            obtain ⟨r, ha, hst⟩ := hst
            split at hst
            · cases hst; exact same rfl
            · rename_i k hk
              simp only [Cc.openLocal, Res.bind_eq_ok] at hst
              obtain ⟨_, _, hst⟩ := hst
              cases hst
              apply same
              simp only [Assoc.get_insert]
              split
              · rename_i hid
                exfalso
                have := hn (l ++ [.open k.mac, .dCallProceeding (.station caller) k.callId]) _ (.station caller) k.callId
                  .granted true (some (k.usage, k.ts)) (by simp; rfl)
                rw [connected_append] at this
                have : connected l k.callId = false := this
                rw [hcn, hid, hc] at this
                cases this
              · rfl
          · cases hst; exact same rfl
      · cases hst; exact same rfl
  | uTxCeased ssi j =>
    simp only [Cc.step, Cc.ceased] at h
    by_cases e : j = id
    · subst e
      obtain ⟨p, hp, _⟩ := hi.setup j c hc
      simp only [hc, htx, Bool.not_true, Bool.false_and, Bool.false_eq_true, if_false, hp, Res.bind_eq_ok] at h
      obtain ⟨_, _, h⟩ := h
      cases h
      exact .inr (.inl ⟨ssi, rfl, fun hr => by simp [hr]⟩)
    · left
      apply same
      split at h
      · cases h; rfl
      split at h
      · cases h; rfl
      split at h
      · cases h
        simp only [Cc.toHang, Assoc.get_insert_ne _ e]
      · simp only [Res.bind_eq_ok] at h
        obtain ⟨_, _, h⟩ := h
        cases h
        simp only [Cc.toHang, Assoc.get_insert_ne _ e]
  | uTxDemand ssi j =>
    left
    apply same
    simp only [Cc.step, Cc.demand] at h
    split at h
    · cases h; rfl
    rename_i cj hcj
    split at h
    · cases h; rfl
    rename_i hntx
    have e : j ≠ id := by
      rintro rfl
      rw [hc] at hcj; cases hcj
      exact hntx htx
    split at h
    · cases h
      simp only [Assoc.get_insert_ne _ e]
    · simp only [Res.bind_eq_ok] at h
      obtain ⟨_, _, h⟩ := h
      cases h
      simp only [Assoc.get_insert_ne _ e]
  | uRelease ssi j =>
    left
    apply same
    obtain ⟨s1, o1, e1, _, c1, _⟩ := release_prims hi j .userRequested
    rw [show s.release j .userRequested = .ok (s', o) from h] at e1
    cases e1
    rw [c1, Assoc.get_erase] at hg ⊢
    split
    · rename_i e; rw [if_pos e] at hg; cases hg
    · rfl
  | uDisconnect ssi j =>
    left
    apply same
    simp only [Cc.step, Cc.disconnect] at h
    split at h
    · cases h; rfl
    split at h
    · obtain ⟨s1, o1, e1, _, c1, _⟩ := release_prims hi j .userRequested
      rw [h] at e1
      cases e1
      rw [c1, Assoc.get_erase] at hg ⊢
      split
      · rename_i e; rw [if_pos e] at hg; cases hg
      · rfl
    · cases h; rfl
  | netStart uuid speaker g =>
    left
    apply same
    simp only [Cc.step, Cc.netStart] at h
    split at h
    · split at h
      · split at h
        · rename_i j cj hf
          split at h
          · cases h; rfl
          · rename_i hntx
            obtain ⟨hcj, _⟩ := find_get hi hf
            have e : j ≠ id := by
              rintro rfl
              rw [hc] at hcj; cases hcj
              exact hntx htx
            simp only [Res.bind_eq_ok] at h
            obtain ⟨_, _, h⟩ := h
            cases h
            simp only [Assoc.get_insert_ne _ e]
        · simp only [Res.bind_eq_ok] at h
          obtain ⟨r, ha, h⟩ := h
          split at h
          · cases h; rfl
          · rename_i k hk
            simp only [Cc.openNet, Res.bind_eq_ok] at h
            obtain ⟨_, _, h⟩ := h
            cases h
            simp only [Assoc.get_insert]
            split
            · rename_i hid
              exfalso
              have := hn (l ++ [.open k.mac, .dSetup (.group g) k.callId .grantedToOther speaker (k.usage, k.ts)]) _ (.group g) k.callId
                .grantedToOther false none (by simp; rfl)
              rw [connected_append] at this
              have : connected l k.callId = false := this
              rw [hcn, hid, hc] at this
              cases this
            · rfl
      · simp only [Res.bind_eq_ok] at h
        obtain ⟨r, h1, h⟩ := h
        obtain ⟨s1, o1, e1, _, c1, _⟩ := dropUnlistened_prims hi g
        rw [h1] at e1; cases e1
        cases h
        have := c1 id
        rw [hc] at this ⊢
        simp only at this
        rw [this] at hg
        split at hg
        · cases hg
        · rename_i hne; rw [this, if_neg hne]
    · cases h
  | netEnd uuid =>
    simp only [Cc.step, Cc.netEnd] at h
    split at h
    · cases h; exact .inl (same rfl)
    · rename_i j cj hf
      obtain ⟨hcj, hb⟩ := find_get hi hf
      by_cases e : j = id
      · subst e
        rw [hc] at hcj; cases hcj
        exact .inr (.inr (.inr ⟨uuid, rfl, by simpa using hb⟩))
      · left
        apply same
        split at h
        · simp only [Res.bind_eq_ok] at h
          obtain ⟨_, _, h⟩ := h
          cases h
          simp only [Cc.toHang, Assoc.get_insert_ne _ e]
        · obtain ⟨s1, o1, e1, _, c1, _⟩ := release_prims hi j .swmiRequested
          rw [h] at e1
          cases e1
          rw [c1, Assoc.get_erase_ne _ e]
  | inactive ts =>
    simp only [Cc.step, Cc.inactive] at h
    split at h
    · cases h; exact .inl (same rfl)
    · rename_i j cj hf
      obtain ⟨hcj, hb⟩ := find_get hi hf
      simp only [Res.bind_eq_ok] at h
      obtain ⟨_, _, h⟩ := h
      cases h
      by_cases e : j = id
      · subst e
        rw [hc] at hcj; cases hcj
        have : c.ts = ts := by simp at hb; exact hb.1
        exact .inr (.inr (.inl ⟨by rw [this], fun hr => by simp [hr, this]⟩))
      · left
        apply same
        simp only [Cc.toHang, Assoc.get_insert_ne _ e]

/-- The end of a turn, or what it is, is reported or is one of the exceptions. -/
theorem step_told {s s' : Cc} {e : CcEv} {o l : List CcOut} (hi : CcInv s) (hm : MemInv s) (hl : s.Listened)
    (hcn : ∀ id, connected l id = (s.calls.get id).isSome) (hn : NoReuse (l ++ o)) (h : s.step e = .ok (s', o)) {id : Nat} {c : Call}
    (hc : s.calls.get id = some c) (htx : c.tx = true) (hr : s.routable c.gssi = true) :
    s'.calls.get id = some c ∨ .netReleased id c.ts ∈ o ∨ .netEnded id c.ts ∈ o ∨ Gap s s' id c e := by
  have hhang : c.hang = none := by
    have := hi.floor id c hc
    rw [htx] at this
    cases hh : c.hang with
    | none => rfl
    | some t => rw [hh] at this; cases this
  cases hg : s'.calls.get id with
  | none =>
    cases ho : c.origin with
    | net u => exact .inr (.inr (.inr (.fromNetwork u e ho hg)))
    | ms n =>
      right; right
      have hrs := step_ends hi hm hl h hc hg
      have rel : ∀ {cause}, s.release id cause = .ok (s', o) → .netEnded id c.ts ∈ o := by
        intro cause hrel
        obtain ⟨s1, e1, _⟩ := release_known hi hc cause
        rw [hrel] at e1; cases e1
        exact endOut_told ⟨n, ho⟩ hr
      cases hrs with
      | released ssi => exact .inl (rel h)
      | disconnected ssi hs =>
        left
        simp only [Cc.step, Cc.disconnect, hc, if_pos hs] at h
        exact rel h
      | netEnded u h1 h2 => rw [htx] at h2; cases h2
      | hangOver now t h1 h2 => rw [hhang] at h1; cases h1
      | tooLong now i k h1 h2 h3 => exact .inr (.tooLong now i k h1 h2 h3 hg)
      | unheard u h1 => exact .inl (update_told hi h hc ⟨n, ho⟩ hr hg)
  | some c' =>
    rcases step_keeps hi hm hl hcn hn h hc htx hg with rfl | ⟨ssi, _, k⟩ | ⟨_, k⟩ | ⟨u, rfl, k⟩
    · exact .inl rfl
    · exact .inr (.inl (k hr))
    · exact .inr (.inl (k hr))
    · exact .inr (.inr (.inr (.netEnd u k)))

/-! ## Reports of grants -/

/-- Reports of a grant, and answers to the network. -/
def CcOut.gives : CcOut → Bool
  | .netGranted _ _ _ _ => true
  | .netReady _ _ _ _ => true
  | _ => false

def NoGrant (o : List CcOut) : Prop := ∀ m ∈ o, m.gives = false

theorem NoGrant.nil : NoGrant [] := by simp [NoGrant]
theorem NoGrant.append {a b : List CcOut} (ha : NoGrant a) (hb : NoGrant b) : NoGrant (a ++ b) := by
  intro m h
  rcases List.mem_append.mp h with h | h
  · exact ha m h
  · exact hb m h

theorem endOut_noGrant (r : Nat → Bool) (id : Nat) (c : Call) (cause : Cause) : NoGrant (endOut r id c cause) := by
  unfold endOut NoGrant
  split
  · split <;> simp [CcOut.gives]
  · simp [CcOut.gives]

theorem release_noGrant {s s' : Cc} {id : Nat} {cause : Cause} {o : List CcOut} (hi : CcInv s) (h : s.release id cause = .ok (s', o)) :
    NoGrant o := by
  cases hc : s.calls.get id with
  | none => rw [release_unknown hi hc] at h; cases h; exact .nil
  | some c =>
    obtain ⟨s1, e1, _⟩ := release_known hi hc cause
    rw [h] at e1; cases e1
    exact endOut_noGrant _ _ _ _

theorem releaseAll_noGrant {cause : Cause} (ids : List Nat) {s s' : Cc} {o : List CcOut} (hi : CcInv s)
    (h : s.releaseAll cause ids = .ok (s', o)) : NoGrant o := by
  induction ids generalizing s o with
  | nil => cases h; exact .nil
  | cons id ids ih =>
    simp only [Cc.releaseAll, Res.bind_eq_ok] at h
    obtain ⟨r, h1, q, h2, h⟩ := h
    cases h
    obtain ⟨s1, o1, e1, p1, _⟩ := release_prims hi id cause
    rw [h1] at e1; cases e1
    exact (release_noGrant hi h1).append (ih (hi.prims p1) h2)

theorem dropLoop_noGrant {g : Nat} (es : List (Nat × Call)) {s s' : Cc} {o : List CcOut} (hi : CcInv s)
    (h : s.dropLoop g es = .ok (s', o)) : NoGrant o := by
  induction es generalizing s o with
  | nil => cases h; exact .nil
  | cons e es ih =>
    obtain ⟨j, cj⟩ := e
    simp only [Cc.dropLoop, Res.bind_eq_ok] at h
    obtain ⟨r, h1, q, h2, h⟩ := h
    cases h
    obtain ⟨s1, o1, e1, p1, _⟩ := release_prims hi j .swmiRequested
    rw [h1] at e1; cases e1
    refine .append (.append ?_ (release_noGrant hi h1)) (ih (hi.prims p1) h2)
    unfold NoGrant
    split
    · split <;> simp [CcOut.gives]
    · simp

theorem dropUnlistened_noGrant {g : Nat} {s s' : Cc} {o : List CcOut} (hi : CcInv s) (h : s.dropUnlistened g = .ok (s', o)) :
    NoGrant o := by
  unfold Cc.dropUnlistened at h
  split at h
  · cases h; exact .nil
  · exact dropLoop_noGrant _ hi h

theorem leaveLoop_noGrant (gs : List Nat) {s s' : Cc} {o : List CcOut} (hi : CcInv s) (h : s.leaveLoop gs = .ok (s', o)) :
    NoGrant o := by
  induction gs generalizing s o with
  | nil => cases h; exact .nil
  | cons g gs ih =>
    simp only [Cc.leaveLoop, Res.bind_eq_ok] at h
    obtain ⟨r, h1, q, h2, h⟩ := h
    cases h
    have hi0 := hi.prim (Prim.members s s.groups (decListener s.listeners g))
    obtain ⟨s1, o1, e1, p1, _⟩ := dropUnlistened_prims hi0 g
    rw [h1] at e1; cases e1
    exact (dropUnlistened_noGrant hi0 h1).append (ih (hi0.prims p1) h2)

theorem dropAll_noGrant (gs : List Nat) {s s' : Cc} {o : List CcOut} (hi : CcInv s) (h : s.dropAllUnlistened gs = .ok (s', o)) :
    NoGrant o := by
  induction gs generalizing s o with
  | nil => cases h; exact .nil
  | cons g gs ih =>
    simp only [Cc.dropAllUnlistened, Res.bind_eq_ok] at h
    obtain ⟨r, h1, q, h2, h⟩ := h
    cases h
    obtain ⟨s1, o1, e1, p1, _⟩ := dropUnlistened_prims hi g
    rw [h1] at e1; cases e1
    exact (dropUnlistened_noGrant hi h1).append (ih (hi.prims p1) h2)

theorem update_noGrant {s s' : Cc} {u : SubUpdate} {o : List CcOut} (hi : CcInv s) (h : s.update u = .ok (s', o)) : NoGrant o := by
  cases u with
  | register n => simp only [Cc.update, Res.ok.injEq, Prod.mk.injEq] at h; rw [← h.2]; exact .nil
  | deregister n =>
    simp only [Cc.update] at h
    split at h
    · exact leaveLoop_noGrant _ (hi.prim (Prim.members s (s.groups.erase n) s.listeners)) h
    · cases h; exact .nil
  | affiliate n gs => simp only [Cc.update, Res.ok.injEq, Prod.mk.injEq] at h; rw [← h.2]; exact .nil
  | deaffiliate n gs =>
    simp only [Cc.update] at h
    split at h
    · exact dropAll_noGrant _ (hi.prim (Prim.members s _ _)) h
    · exact dropAll_noGrant _ hi h

theorem announce_noGrant {s s' : Cc} {id u ts : Nat} {o : List CcOut} (h : s.announce id u ts = .ok (s', o)) : NoGrant o := by
  cases hc : s.calls.get id <;> cases hp : s.setups.get id <;> simp only [Cc.announce, hc, hp] at h
  all_goals repeat' split at h
  all_goals first
    | (cases h; exact .nil)
    | (simp only [Res.bind_eq_ok] at h; obtain ⟨_, _, h⟩ := h; cases h; simp [NoGrant, CcOut.gives])

theorem tasks_noGrant (cmds : List Cmd) {s s' : Cc} {o : List CcOut} (h : s.tasks cmds = .ok (s', o)) : NoGrant o := by
  induction cmds generalizing s s' o with
  | nil => cases h; exact .nil
  | cons cmd cmds ih =>
    cases cmd with
    | sendDSetup j u ts =>
      simp only [Cc.tasks, Res.bind_eq_ok] at h
      obtain ⟨r, h1, q, h2, h⟩ := h
      cases h
      exact (announce_noGrant h1).append (ih h2)
    | sendClose j k =>
      simp only [Cc.tasks, Res.bind_eq_ok] at h
      obtain ⟨q, h2, h⟩ := h
      cases h
      refine .append ?_ (ih h2)
      unfold NoGrant Cc.expire
      simp only
      split <;> simp [CcOut.gives]

theorem tick_noGrant {s s' : Cc} {now : Time} {o : List CcOut} (hi : CcInv s) (h : s.tick now = .ok (s', o)) : NoGrant o := by
  unfold Cc.tick at h
  simp only [Res.bind_eq_ok] at h
  obtain ⟨r, h1, m, h2, q, h3, h⟩ := h
  cases h
  exact (releaseAll_noGrant _ (hi.clock now) h1).append (tasks_noGrant _ h3)

/-- A grant which is reported is in force after the event, in a group of the network. -/
theorem step_granted {s s' : Cc} {e : CcEv} {o : List CcOut} (hi : CcInv s) (h : s.step e = .ok (s', o)) {id speaker gssi ts : Nat}
    (hg : .netGranted id speaker gssi ts ∈ o) :
    s.routable gssi = true ∧
      ∃ c, s'.calls.get id = some c ∧ c.tx = true ∧ c.speaker = speaker ∧ c.gssi = gssi ∧ c.ts = ts := by
  have no : NoGrant o → False := fun h => absurd (h _ hg) (by simp [CcOut.gives])
  cases e with
  | tick now => exact (no (tick_noGrant hi h)).elim
  | update u => exact (no (update_noGrant hi h)).elim
  | uSetup caller sup called comm =>
    simp only [Cc.step, Cc.setup] at h
    split at h
    · split at h
      · cases h; cases hg
      · split at h
        · simp only [Res.bind_eq_ok] at h
          obtain ⟨r, _, h⟩ := h
          split at h
          · cases h; cases hg
          · simp only [Cc.openLocal, Res.bind_eq_ok] at h
            obtain ⟨_, _, h⟩ := h
            cases h
            split at hg
            · rename_i hr
              simp only [List.mem_append, List.mem_cons, List.not_mem_nil, or_false, reduceCtorEq, false_or,
                CcOut.netGranted.injEq] at hg
              obtain ⟨rfl, rfl, rfl, rfl⟩ := hg
              exact ⟨hr, _, Assoc.get_insert_self _ _ _, rfl, rfl, rfl, rfl⟩
            · simp at hg
        · cases h; cases hg
    · cases h; cases hg
  | uTxCeased ssi j =>
    simp only [Cc.step, Cc.ceased] at h
    split at h
    · cases h; cases hg
    split at h
    · cases h; cases hg
    split at h
    · cases h; cases hg
    · simp only [Res.bind_eq_ok] at h
      obtain ⟨_, _, h⟩ := h
      cases h
      split at hg <;> simp at hg
  | uTxDemand ssi j =>
    simp only [Cc.step, Cc.demand] at h
    split at h
    · cases h; cases hg
    rename_i cj hcj
    split at h
    · cases h; cases hg
    split at h
    · cases h; cases hg
    · rename_i p hp
      obtain ⟨p', hp', _, hpg⟩ := hi.setup j cj hcj
      rw [hp] at hp'; cases hp'
      simp only [Res.bind_eq_ok] at h
      obtain ⟨_, _, h⟩ := h
      cases h
      split at hg
      · rename_i hr
        simp only [List.mem_append, List.mem_cons, List.not_mem_nil, or_false, reduceCtorEq, false_or, CcOut.netGranted.injEq] at hg
        obtain ⟨rfl, rfl, rfl, rfl⟩ := hg
        exact ⟨hr, _, Assoc.get_insert_self _ _ _, rfl, rfl, hpg.symm, rfl⟩
      · simp at hg
  | uRelease ssi j => exact (no (release_noGrant hi h)).elim
  | uDisconnect ssi j =>
    simp only [Cc.step, Cc.disconnect] at h
    split at h
    · cases h; cases hg
    split at h
    · exact (no (release_noGrant hi h)).elim
    · cases h; simp at hg
  | netStart uuid sp g =>
    simp only [Cc.step, Cc.netStart] at h
    split at h
    · split at h
      · split at h
        · split at h
          · cases h; simp at hg
          · simp only [Res.bind_eq_ok] at h
            obtain ⟨_, _, h⟩ := h
            cases h; simp at hg
        · simp only [Res.bind_eq_ok] at h
          obtain ⟨r, _, h⟩ := h
          split at h
          · cases h; cases hg
          · simp only [Cc.openNet, Res.bind_eq_ok] at h
            obtain ⟨_, _, h⟩ := h
            cases h; simp at hg
      · simp only [Res.bind_eq_ok] at h
        obtain ⟨r, h1, h⟩ := h
        cases h
        exact (no ((dropUnlistened_noGrant hi h1).append (by simp [NoGrant, CcOut.gives]))).elim
    · cases h
  | netEnd uuid =>
    simp only [Cc.step, Cc.netEnd] at h
    split at h
    · cases h; cases hg
    · split at h
      · simp only [Res.bind_eq_ok] at h
        obtain ⟨_, _, h⟩ := h
        cases h; simp at hg
      · exact (no (release_noGrant hi h)).elim
  | inactive ts =>
    simp only [Cc.step, Cc.inactive] at h
    split at h
    · cases h; cases hg
    · simp only [Res.bind_eq_ok] at h
      obtain ⟨_, _, h⟩ := h
      cases h
      split at hg <;> simp at hg

theorem GapIn.snoc {r : Nat → Bool} {h : List (CcEv × List CcOut)} {id ts : Nat} (hg : GapIn r h id ts) (x : CcEv × List CcOut) :
    GapIn r (h ++ [x]) id ts := by
  obtain ⟨h1, e, o, h2, s, s', c, rfl, rest⟩ := hg
  exact ⟨h1, e, o, h2 ++ [x], s, s', c, by simp, rest⟩

/-- Reports of grants are to groups of the network. -/
theorem ccRun_granted {r : Nat → Bool} {h : List (CcEv × List CcOut)} {s : Cc} (hr : CcRun r h s) {id speaker gssi ts : Nat}
    (hg : .netGranted id speaker gssi ts ∈ messages h) : r gssi = true := by
  induction hr with
  | init => cases hg
  | reorder _ _ ih => exact ih hg
  | @step h s s' e o hr hs ih =>
    have hm : messages (h ++ [(e, o)]) = messages h ++ o := by simp [messages]
    rw [hm, List.mem_append] at hg
    rcases hg with hg | hg
    · exact ih hg
    · have := (step_granted (ccRun_inv hr) hs hg).1
      rwa [ccRun_routable hr] at this

/-- While nothing else is reported, the station reported as having the floor has it, but for the exceptions. -/
theorem owed_run {r : Nat → Bool} {h : List (CcEv × List CcOut)} {s : Cc} (hr : CcRun r h s) (hn : NoReuse (messages h))
    {id speaker gssi ts : Nat} (ho : Owed (messages h) id speaker gssi ts) :
    (∃ c, s.calls.get id = some c ∧ c.tx = true ∧ c.speaker = speaker ∧ c.gssi = gssi ∧ c.ts = ts) ∨ GapIn r h id ts := by
  induction hr with
  | init => obtain ⟨a, b, h, _⟩ := ho; simp [messages] at h
  | reorder hr hreo ih =>
    obtain ⟨calls', f, hp, hf, rfl⟩ := hreo
    rcases ih hn ho with h1 | h1
    · left
      simp only [get_perm hp (ccRun_inv hr).ok]
      exact h1
    · exact .inr h1
  | @step h s s' e o hr hs ih =>
    have hi := ccRun_inv hr
    have hm : messages (h ++ [(e, o)]) = messages h ++ o := by simp [messages]
    rw [hm] at hn ho
    obtain ⟨a, b, hab, hb⟩ := ho
    rw [List.append_eq_append_iff] at hab
    rcases hab with ⟨a', rfl, ho⟩ | ⟨c', hc1, hc2⟩
    · -- the grant is part of this event
      left
      exact (step_granted hi hs (by rw [ho]; simp)).2
    · cases c' with
      | nil =>
        left
        simp only [List.nil_append] at hc2
        exact (step_granted hi hs (by rw [← hc2]; simp)).2
      | cons x c' =>
        rw [List.cons_append] at hc2
        have hx : x = .netGranted id speaker gssi ts := by
          have := congrArg List.head? hc2; simpa using this.symm
        have hbo : b = c' ++ o := by
          have := congrArg List.tail hc2; simpa using this
        subst hx
        rcases ih hn.left ⟨a, c', hc1, fun y hy => hb y (by rw [hbo]; simp [hy])⟩ with ⟨c, k1, k2, k3, k4, k5⟩ | hgap
        · have hrt : s.routable c.gssi = true := by
            rw [ccRun_routable hr, k4]
            exact ccRun_granted (id := id) (speaker := speaker) (ts := ts) hr (by rw [hc1]; simp)
          obtain ⟨h1, h2, h3⟩ := ccRun_parts hr
          rcases step_told h1 h2 h3 (ccRun_connected hr) hn hs k1 k2 hrt with t | t | t | t
          · exact .inl ⟨c, t, k2, k3, k4, k5⟩
          · exact (hb (.netReleased id c.ts) (by rw [hbo]; exact List.mem_append_right _ t) k5).elim
          · exact (hb (.netEnded id c.ts) (by rw [hbo]; exact List.mem_append_right _ t) k5).elim
          · exact .inr ⟨h, e, o, [], s, s', c, rfl, hr, hs, k1, k2, k5, t⟩
        · exact .inr (hgap.snoc _)

end Verif.Cmce
