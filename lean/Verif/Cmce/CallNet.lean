import Verif.Cmce.CallTold
/-!
# Calls of the network in call control: lemmas for C62
-/
namespace Verif.Cmce
open Tdma

/-! ## Specification -/

/-- Call `id` is in the hands of session `u` of the network: its speaker talks in this group on this timeslot. -/
def Held (s : Cc) (u id speaker gssi ts : Nat) : Prop :=
  s.routable gssi = true ∧ ∃ c, s.calls.get id = some c ∧ c.tx = true ∧ c.brew = some u ∧ c.speaker = speaker ∧ c.gssi = gssi ∧ c.ts = ts

/-- The ends of the turn of session `u` which the backhaul is not told about: a mobile, any mobile, says that the talk is over;
no voice comes; a mobile, any mobile, releases the call; the mobile which started the call disconnects it; the call's circuit is
more than 25920 timeslots old; nobody listens any more and the call was not started by the network. -/
inductive Silent (s s' : Cc) (u id : Nat) (c : Call) : CcEv → Prop where
  | ceased (ssi : Nat) : Silent s s' u id c (.uTxCeased ssi id)
  | inactive : Silent s s' u id c (.inactive c.ts)
  | released (ssi : Nat) : Silent s s' u id c (.uRelease ssi id)
  | disconnected (ssi : Nat) : c.origin = .ms ssi → Silent s s' u id c (.uDisconnect ssi id)
  | tooLong (now : Time) (i : Fin 4) (k : CmceCircuit) : s.mgr.dl i = some k → k.callId = id → k.tsCreated.age now > 25920 →
      s'.calls.get id = none → Silent s s' u id c (.tick now)
  | unheard (upd : SubUpdate) (caller : Nat) : c.origin = .ms caller → s'.hasListener c.gssi = false → Silent s s' u id c (.update upd)

/-- Some turn of session `u` in this call ended in one of these ways. -/
def SilentIn (r : Nat → Bool) (h : List (CcEv × List CcOut)) (u id speaker gssi ts : Nat) : Prop :=
  ∃ h1 e o h2 s s' c, h = h1 ++ (e, o) :: h2 ∧ CcRun r h1 s ∧ s.step e = .ok (s', o) ∧ s.calls.get id = some c ∧ c.tx = true ∧
    c.brew = some u ∧ c.speaker = speaker ∧ c.gssi = gssi ∧ c.ts = ts ∧ Silent s s' u id c e

/-! ## The network's call is the session's -/

/-- A call of the network in the hands of a session is the call of this session. -/
theorem ccRun_session {r : Nat → Bool} {h : List (CcEv × List CcOut)} {s : Cc} (hr : CcRun r h s) :
    ∀ id c u v, s.calls.get id = some c → c.brew = some u → c.origin = .net v → v = u := by
  refine run_induct (P := fun _ s => ∀ id c u v, s.calls.get id = some c → c.brew = some u → c.origin = .net v → v = u)
    (by simp [Cc.init]) (fun _ _ _ h => h) (fun _ _ _ h => h) ?_ ?_ hr
  · intro _ s o s' _ ih hp
    have keep : ∀ {id : Nat} {c c' : Call} {a : Assoc Nat Call}, a = s.calls.insert id c' →
        (∀ u v, c'.brew = some u → c'.origin = .net v → v = u) →
        ∀ j d u v, a.get j = some d → d.brew = some u → d.origin = .net v → v = u := by
      rintro id c c' a rfl hc j d u v hd
      rw [Assoc.get_insert] at hd
      split at hd
      · cases hd; exact hc u v
      · exact ih j d u v hd
    have gone : ∀ (id : Nat) j d u v, (s.calls.erase id).get j = some d → d.brew = some u → d.origin = .net v → v = u := by
      intro id j d u v hd
      rw [Assoc.get_erase] at hd
      split at hd
      · cases hd
      · exact ih j d u v hd
    cases hp with
    | aside => exact ih
    | members => exact ih
    | start a i comm k c p ha hi0 hn hk hl hts hu htx hh ho hp =>
      refine keep (c := c) rfl ?_
      intro u v h1 h2
      rcases ho with ⟨_, ho, _⟩ | ⟨w, ho, hb⟩
      · rw [ho] at h2; cases h2
      · rw [ho] at h2; rw [hb] at h1; cases h1; cases h2; rfl
    | stop id c i cause hc hi => exact gone id
    | expire i k hk ha => exact gone _
    | cease id c brew net hc htx hb =>
      refine keep (c := c) rfl ?_
      intro u v h1 h2
      rcases hb with ⟨rfl, _⟩ | ⟨rfl, _⟩
      · exact ih id c u v hc h1 h2
      · cases h1
    | grant id c ssi hc htx =>
      refine keep (c := c) rfl ?_
      intro u v h1 h2
      refine ih id c u v hc h1 ?_
      cases ho : c.origin with
      | ms x => simp [ho, Origin.demanded] at h2
      | net w => simpa [ho, Origin.demanded] using h2
    | netGrant id c uuid speaker hc htx =>
      refine keep (c := c) rfl ?_
      intro u v h1 h2
      cases h1
      cases ho : c.origin with
      | ms x => simp [ho, Origin.speak] at h2
      | net w => simp [ho, Origin.speak] at h2; exact h2.symm
    | announce i k c p hk hc htx hp => exact ih
  · rintro _ s s' hi ih ⟨calls', f, hp, hf, rfl⟩ id c u v hc
    exact ih id c u v (by rw [← get_perm hp hi.ok]; exact hc)

/-! ## Groups without listeners -/

theorem dropLoop_net {g u : Nat} (es : List (Nat × Call)) {s s' : Cc} {o : List CcOut} (hi : CcInv s) (h : s.dropLoop g es = .ok (s', o))
    (hes : ∀ x ∈ es, s.calls.get x.1 = some x.2 ∨ s.calls.get x.1 = none) (hgs : ∀ x ∈ es, x.2.gssi = g)
    {id : Nat} {c : Call} (hc : s.calls.get id = some c) (ho : c.origin = .net u) (hr : s.routable c.gssi = true)
    (hn : s'.calls.get id = none) : .netCallEnd u ∈ o := by
  induction es generalizing s o with
  | nil => cases h; rw [hc] at hn; cases hn
  | cons e es ih =>
    obtain ⟨j, cj⟩ := e
    simp only [Cc.dropLoop, Res.bind_eq_ok] at h
    obtain ⟨r, h1, q, h2, h⟩ := h
    cases h
    by_cases e : j = id
    · subst e
      have hcj : cj = c := by
        rcases hes (j, cj) (by simp) with h | h
        · rw [hc] at h; exact (Option.some.inj h).symm
        · rw [hc] at h; cases h
      subst hcj
      have hg : cj.gssi = g := hgs (j, cj) (by simp)
      rw [hg] at hr
      simp [ho, hr]
    · obtain ⟨s1, o1, e1, p1, c1, _, _, r1, _⟩ := release_prims hi j .swmiRequested
      rw [h1] at e1
      cases e1
      have hget : s1.calls.get id = some c := by rw [c1, Assoc.get_erase_ne _ e]; exact hc
      refine List.mem_append_right _ (ih (hi.prims p1) h2 ?_ (fun x hx => hgs x (by simp [hx])) hget (by rw [r1]; exact hr))
      intro x hx
      rw [c1, Assoc.get_erase]
      split
      · exact .inr rfl
      · exact hes x (by simp [hx])

theorem dropUnlistened_net {g u : Nat} {s s' : Cc} {o : List CcOut} (hi : CcInv s) (h : s.dropUnlistened g = .ok (s', o))
    {id : Nat} {c : Call} (hc : s.calls.get id = some c) (ho : c.origin = .net u) (hr : s.routable c.gssi = true)
    (hn : s'.calls.get id = none) : .netCallEnd u ∈ o := by
  unfold Cc.dropUnlistened at h
  split at h
  · cases h; rw [hc] at hn; cases hn
  · refine dropLoop_net _ hi h ?_ ?_ hc ho hr hn
    · intro x hx
      exact .inl (Assoc.get_of_mem hi.ok (List.mem_filter.mp hx).1)
    · intro x hx
      simpa using (List.mem_filter.mp hx).2

theorem leaveLoop_net {u : Nat} (gs : List Nat) {s s' : Cc} {o : List CcOut} (hi : CcInv s) (h : s.leaveLoop gs = .ok (s', o))
    {id : Nat} {c : Call} (hc : s.calls.get id = some c) (ho : c.origin = .net u) (hr : s.routable c.gssi = true)
    (hn : s'.calls.get id = none) : .netCallEnd u ∈ o := by
  induction gs generalizing s o with
  | nil => cases h; rw [hc] at hn; cases hn
  | cons g gs ih =>
    simp only [Cc.leaveLoop, Res.bind_eq_ok] at h
    obtain ⟨r, h1, q, h2, h⟩ := h
    cases h
    have hi0 := hi.prim (Prim.members s s.groups (decListener s.listeners g))
    obtain ⟨s1, o1, e1, p1, c1, _, _, r1, _⟩ := dropUnlistened_prims hi0 g
    rw [h1] at e1
    cases e1
    cases hg : s1.calls.get id with
    | none => exact List.mem_append_left _ (dropUnlistened_net hi0 h1 hc ho hr hg)
    | some c' =>
      have := c1 id
      rw [hg, hc] at this
      simp only at this
      split at this
      · cases this
      · cases this
        exact List.mem_append_right _ (ih (hi0.prims p1) h2 hg (by rw [r1]; exact hr))

theorem dropAll_net {u : Nat} (gs : List Nat) {s s' : Cc} {o : List CcOut} (hi : CcInv s) (h : s.dropAllUnlistened gs = .ok (s', o))
    {id : Nat} {c : Call} (hc : s.calls.get id = some c) (ho : c.origin = .net u) (hr : s.routable c.gssi = true)
    (hn : s'.calls.get id = none) : .netCallEnd u ∈ o := by
  induction gs generalizing s o with
  | nil => cases h; rw [hc] at hn; cases hn
  | cons g gs ih =>
    simp only [Cc.dropAllUnlistened, Res.bind_eq_ok] at h
    obtain ⟨r, h1, q, h2, h⟩ := h
    cases h
    obtain ⟨s1, o1, e1, p1, c1, _, _, r1, _⟩ := dropUnlistened_prims hi g
    rw [h1] at e1
    cases e1
    cases hg : s1.calls.get id with
    | none => exact List.mem_append_left _ (dropUnlistened_net hi h1 hc ho hr hg)
    | some c' =>
      have := c1 id
      rw [hg, hc] at this
      simp only at this
      split at this
      · cases this
      · cases this
        exact List.mem_append_right _ (ih (hi.prims p1) h2 hg (by rw [r1]; exact hr))

theorem update_net {s s' : Cc} {upd : SubUpdate} {u : Nat} {o : List CcOut} (hi : CcInv s) (h : s.update upd = .ok (s', o))
    {id : Nat} {c : Call} (hc : s.calls.get id = some c) (ho : c.origin = .net u) (hr : s.routable c.gssi = true)
    (hn : s'.calls.get id = none) : .netCallEnd u ∈ o := by
  have same : ∀ {s1 : Cc}, s1.calls = s.calls → s1 = s' → False := by
    intro s1 h1 h2
    rw [← h2, h1, hc] at hn; cases hn
  cases upd with
  | register n => simp only [Cc.update, Res.ok.injEq, Prod.mk.injEq] at h; rw [← h.1] at hn; exact absurd hc (by rw [show s.calls.get id = none from hn]; simp)
  | deregister n =>
    simp only [Cc.update] at h
    split at h
    · exact leaveLoop_net _ (hi.prim (Prim.members s (s.groups.erase n) s.listeners)) h hc ho hr hn
    · cases h; exact (same rfl rfl).elim
  | affiliate n gs => simp only [Cc.update, Res.ok.injEq, Prod.mk.injEq] at h; rw [← h.1] at hn; exact absurd hc (by rw [show s.calls.get id = none from hn]; simp)
  | deaffiliate n gs =>
    simp only [Cc.update] at h
    split at h
    · exact dropAll_net _ (hi.prim (Prim.members s _ _)) h hc ho hr hn
    · exact dropAll_net _ hi h hc ho hr hn

/-! ## One event -/

theorem step_routable {s s' : Cc} {e : CcEv} {o : List CcOut} {r : Nat → Bool} {h : List (CcEv × List CcOut)} (hr : CcRun r h s)
    (hs : s.step e = .ok (s', o)) : s'.routable = s.routable := by
  rw [ccRun_routable hr, ccRun_routable (.step hr hs)]

/-- A call in the hands of a session stays there, unless the network ends the session, the backhaul is told, or it is one of the
exceptions. -/
theorem step_held {s s' : Cc} {e : CcEv} {o : List CcOut} {r : Nat → Bool} {h : List (CcEv × List CcOut)} (hr : CcRun r h s)
    (hn : NoReuse (messages h ++ o)) (hs : s.step e = .ok (s', o)) {u id speaker gssi ts : Nat} (hh : Held s u id speaker gssi ts)
    (he : e ≠ .netEnd u) :
    Held s' u id speaker gssi ts ∨ .netCallEnd u ∈ o ∨
      ∃ c, s.calls.get id = some c ∧ c.tx = true ∧ c.brew = some u ∧ c.speaker = speaker ∧ c.gssi = gssi ∧ c.ts = ts ∧ Silent s s' u id c e := by
  obtain ⟨hi, hm, hl⟩ := ccRun_parts hr
  obtain ⟨hrt, c, hc, k1, k2, k3, k4, k5⟩ := hh
  have hhang : c.hang = none := by
    have := hi.floor id c hc
    rw [k1] at this
    cases hh : c.hang with
    | none => rfl
    | some t => rw [hh] at this; cases this
  have gap : Silent s s' u id c e → Held s' u id speaker gssi ts ∨ .netCallEnd u ∈ o ∨
      ∃ c, s.calls.get id = some c ∧ c.tx = true ∧ c.brew = some u ∧ c.speaker = speaker ∧ c.gssi = gssi ∧ c.ts = ts ∧ Silent s s' u id c e :=
    fun hg => .inr (.inr ⟨c, hc, k1, k2, k3, k4, k5, hg⟩)
  cases hg : s'.calls.get id with
  | none =>
    have hrs := step_ends hi hm hl hs hc hg
    cases hrs with
    | released ssi => exact gap (.released ssi)
    | disconnected ssi h1 => exact gap (.disconnected ssi h1)
    | netEnded v h1 h2 => rw [k1] at h2; cases h2
    | hangOver now t h1 h2 => rw [hhang] at h1; cases h1
    | tooLong now i k h1 h2 h3 => exact gap (.tooLong now i k h1 h2 h3 hg)
    | unheard upd h1 =>
      cases ho : c.origin with
      | net v =>
        rw [ccRun_session hr id c u v hc k2 ho] at ho
        exact .inr (.inl (update_net hi hs hc ho (by rw [k4]; exact hrt) hg))
      | ms caller => exact gap (.unheard upd caller ho h1)
  | some c' =>
    rcases step_keeps hi hm hl (ccRun_connected hr) hn hs hc k1 hg with rfl | ⟨ssi, rfl, _⟩ | ⟨rfl, _⟩ | ⟨v, rfl, hv⟩
    · exact .inl ⟨by rw [step_routable hr hs]; exact hrt, c', hg, k1, k2, k3, k4, k5⟩
    · exact gap (.ceased ssi)
    · exact gap .inactive
    · rw [k2] at hv; cases hv; exact absurd rfl he

/-- An answer to the network that a call is ready is given to its announcement, and the call is in its hands. -/
theorem step_ready {s s' : Cc} {e : CcEv} {o : List CcOut} {r : Nat → Bool} {h : List (CcEv × List CcOut)} (hr : CcRun r h s)
    (hs : s.step e = .ok (s', o)) {u id ts usage : Nat} (hg : .netReady u id ts usage ∈ o) :
    ∃ speaker gssi, e = .netStart u speaker gssi ∧ Held s' u id speaker gssi ts := by
  have hi := ccRun_inv hr
  have no : NoGrant o → False := fun h => absurd (h _ hg) (by simp [CcOut.gives])
  have hrt := step_routable hr hs
  have h := hs
  cases e with
  | tick now => exact (no (tick_noGrant hi h)).elim
  | update u => exact (no (update_noGrant hi h)).elim
  | uSetup caller sup called comm =>
    simp only [Cc.step, Cc.setup] at h
    split at h
    · split at h
      · cases h; cases hg
      · split at h
        · simp only [Res.bind_eq_ok] at h
          obtain ⟨r, _, h⟩ := h
          split at h
          · cases h; cases hg
          · simp only [Cc.openLocal, Res.bind_eq_ok] at h
            obtain ⟨_, _, h⟩ := h
            cases h
            split at hg <;> simp at hg
        · cases h; cases hg
    · cases h; cases hg
  | uTxCeased ssi j =>
    simp only [Cc.step, Cc.ceased] at h
    split at h
    · cases h; cases hg
    split at h
    · cases h; cases hg
    split at h
    · cases h; cases hg
    · simp only [Res.bind_eq_ok] at h
      obtain ⟨_, _, h⟩ := h
      cases h
      split at hg <;> simp at hg
  | uTxDemand ssi j =>
    simp only [Cc.step, Cc.demand] at h
    split at h
    · cases h; cases hg
    split at h
    · cases h; cases hg
    split at h
    · cases h; cases hg
    · simp only [Res.bind_eq_ok] at h
      obtain ⟨_, _, h⟩ := h
      cases h
      split at hg <;> simp at hg
  | uRelease ssi j => exact (no (release_noGrant hi h)).elim
  | uDisconnect ssi j =>
    simp only [Cc.step, Cc.disconnect] at h
    split at h
    · cases h; cases hg
    split at h
    · exact (no (release_noGrant hi h)).elim
    · cases h; simp at hg
  | netStart v sp g =>
    simp only [Cc.step, Cc.netStart] at h
    split at h
    · rename_i hroute
      split at h
      · split at h
        · rename_i j c hf
          obtain ⟨_, hb⟩ := find_get hi hf
          split at h
          · cases h; simp at hg
          · simp only [Res.bind_eq_ok] at h
            obtain ⟨_, _, h⟩ := h
            cases h
            simp at hg
            obtain ⟨rfl, rfl, rfl, rfl⟩ := hg
            exact ⟨sp, g, rfl, hroute, _, Assoc.get_insert_self _ _ _, rfl, rfl, rfl, by simpa using hb, rfl⟩
        · simp only [Res.bind_eq_ok] at h
          obtain ⟨r, _, h⟩ := h
          split at h
          · cases h; cases hg
          · simp only [Cc.openNet, Res.bind_eq_ok] at h
            obtain ⟨_, _, h⟩ := h
            cases h
            simp at hg
            obtain ⟨rfl, rfl, rfl, rfl⟩ := hg
            exact ⟨sp, g, rfl, hroute, _, Assoc.get_insert_self _ _ _, rfl, rfl, rfl, rfl, rfl⟩
      · simp only [Res.bind_eq_ok] at h
        obtain ⟨r, h1, h⟩ := h
        cases h
        exact (no ((dropUnlistened_noGrant hi h1).append (by simp [NoGrant, CcOut.gives]))).elim
    · cases h
  | netEnd v =>
    simp only [Cc.step, Cc.netEnd] at h
    split at h
    · cases h; cases hg
    · split at h
      · simp only [Res.bind_eq_ok] at h
        obtain ⟨_, _, h⟩ := h
        cases h; simp at hg
      · exact (no (release_noGrant hi h)).elim
  | inactive ts =>
    simp only [Cc.step, Cc.inactive] at h
    split at h
    · cases h; cases hg
    · simp only [Res.bind_eq_ok] at h
      obtain ⟨_, _, h⟩ := h
      cases h
      split at hg <;> simp at hg

theorem SilentIn.snoc {r : Nat → Bool} {h : List (CcEv × List CcOut)} {u id sp g ts : Nat} (hg : SilentIn r h u id sp g ts)
    (x : CcEv × List CcOut) : SilentIn r (h ++ [x]) u id sp g ts := by
  obtain ⟨h1, e, o, h2, s, s', c, rfl, rest⟩ := hg
  exact ⟨h1, e, o, h2 ++ [x], s, s', c, by simp, rest⟩

end Verif.Cmce
