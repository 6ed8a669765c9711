import Verif.Cmce.CallEvents
/-!
# Numbers in the messages of call control fit their fields: lemmas
-/
namespace Verif.Cmce
open Tdma

/-- The numbers in a message fit the fields of its PDU. -/
def CcOut.Fits : CcOut → Prop
  | .dCallProceeding _ id => id < 2 ^ 14
  | .dConnect _ id _ _ _ => id < 2 ^ 14
  | .dSetup _ id _ caller _ => id < 2 ^ 14 ∧ caller < 2 ^ 24
  | .dRelease _ id _ => id < 2 ^ 14
  | .dTxCeased _ id _ => id < 2 ^ 14
  | .dTxGranted _ id _ speaker _ => id < 2 ^ 14 ∧ speaker < 2 ^ 24
  | _ => True

/-- The same for what is kept. -/
structure CcFit (s : Cc) : Prop where
  setups : ∀ e ∈ s.setups, e.2.callId < 2 ^ 14 ∧ e.2.caller < 2 ^ 24
  calls : ∀ e ∈ s.calls, e.1 < 2 ^ 14

theorem CcFit.setup {s : Cc} (h : CcFit s) {id : Nat} {p : Setup} (hp : s.setups.get id = some p) :
    p.callId < 2 ^ 14 ∧ p.caller < 2 ^ 24 := h.setups (id, p) (Assoc.mem_of_get hp)

theorem CcFit.call {s : Cc} (h : CcFit s) {id : Nat} {c : Call} (hc : s.calls.get id = some c) : id < 2 ^ 14 :=
  h.calls (id, c) (Assoc.mem_of_get hc)

theorem mem_insert_cases {κ ν : Type} [DecidableEq κ] {m : Assoc κ ν} {k : κ} {v : ν} {e : κ × ν} (h : e ∈ m.insert k v) :
    e = (k, v) ∨ e ∈ m := by
  rcases List.mem_cons.1 h with h | h
  · exact Or.inl h
  · exact Or.inr (Assoc.mem_erase.1 h).1

theorem CcFit.setCall {s : Cc} (h : CcFit s) {id : Nat} (hid : id < 2 ^ 14) (c : Call) :
    CcFit { s with calls := s.calls.insert id c } :=
  ⟨h.setups, fun e he => (mem_insert_cases he).elim (fun q => q ▸ hid) (h.calls e)⟩

theorem CcFit.congr {s s' : Cc} (h : CcFit s) (h1 : s'.setups = s.setups) (h2 : s'.calls = s.calls) : CcFit s' :=
  ⟨by rw [h1]; exact h.setups, by rw [h2]; exact h.calls⟩

/-- A step keeps the state fit and sends fitting messages. -/
def FitStep (r : Res (Cc × List CcOut)) : Prop := ∀ s' o, r = .ok (s', o) → CcFit s' ∧ ∀ x ∈ o, x.Fits

theorem FitStep.nil {s : Cc} (h : CcFit s) : FitStep (.ok (s, [])) := by
  rintro _ _ ⟨⟩
  exact ⟨h, by simp⟩

theorem FitStep.panic : FitStep .panic := by rintro _ _ ⟨⟩

theorem FitStep.ok {s : Cc} {o : List CcOut} (h : CcFit s) (ho : ∀ x ∈ o, x.Fits) : FitStep (.ok (s, o)) := by
  rintro _ _ ⟨⟩
  exact ⟨h, ho⟩

theorem FitStep.seq {r : Res (Cc × List CcOut)} {f : Cc → Res (Cc × List CcOut)} {g : List CcOut → List CcOut → List CcOut}
    (hr : FitStep r) (hf : ∀ s, CcFit s → FitStep (f s)) (hg : ∀ a b, (∀ x ∈ a, x.Fits) → (∀ x ∈ b, x.Fits) → ∀ x ∈ g a b, x.Fits) :
    FitStep (r >>= fun p => f p.1 >>= fun q => .ok (q.1, g p.2 q.2)) := by
  intro s' o h
  obtain ⟨p, hp, h⟩ := Res.bind_eq_ok.1 h
  obtain ⟨q, hq, h⟩ := Res.bind_eq_ok.1 h
  cases h
  obtain ⟨a, b⟩ := hr _ _ hp
  obtain ⟨c, d⟩ := hf _ a _ _ hq
  exact ⟨c, hg _ _ b d⟩

theorem fits_append (a b : List CcOut) (ha : ∀ x ∈ a, x.Fits) (hb : ∀ x ∈ b, x.Fits) : ∀ x ∈ a ++ b, x.Fits := by
  intro x hx
  rcases List.mem_append.1 hx with h | h
  · exact ha x h
  · exact hb x h

theorem idx_fit {ts : Nat} {r : Res (Cc × List CcOut)} (h : FitStep r) : FitStep (Slots.idx ts >>= fun _ => r) := by
  intro s' o e
  obtain ⟨_, _, e⟩ := Res.bind_eq_ok.1 e
  exact h _ _ e

/-- Messages to the MAC and the network have nothing to fit. -/
theorem freeCall_fit {s s' : Cc} {id : Nat} {c : Call} {o : List CcOut} (h : s.freeCall id c = .ok (s', o)) :
    s'.setups = s.setups ∧ s'.calls = s.calls ∧ ∀ x ∈ o, x.Fits := by
  obtain ⟨r, _, e⟩ := Res.bind_eq_ok.1 h
  cases e
  refine ⟨rfl, rfl, ?_⟩
  intro x hx
  simp only [List.mem_append, List.mem_singleton] at hx
  rcases hx with (hx | rfl) | hx
  · split at hx <;> simp at hx
    subst hx; trivial
  · trivial
  · split at hx
    · split at hx <;> simp at hx
      subst hx; trivial
    · simp at hx

theorem release_fit {s : Cc} (h : CcFit s) (id : Nat) (cause : Cause) : FitStep (s.release id cause) := by
  unfold Cc.release
  cases hp : s.setups.get id with
  | none => exact FitStep.nil h
  | some p =>
    have hr : (CcOut.dRelease (.group p.gssi) p.callId cause).Fits := (h.setup hp).1
    cases hc : s.calls.get id with
    | none =>
      refine FitStep.ok ⟨fun e he => h.setups e (Assoc.mem_erase.1 he).1, h.calls⟩ ?_
      simpa using hr
    | some c =>
      intro s' o e
      obtain ⟨r, hf, e⟩ := Res.bind_eq_ok.1 e
      cases e
      obtain ⟨h1, h2, h3⟩ := freeCall_fit hf
      refine ⟨⟨fun e he => h.setups e (h1 ▸ (Assoc.mem_erase.1 he).1), fun e he => h.calls e (h2 ▸ (Assoc.mem_erase.1 he).1)⟩, ?_⟩
      intro x hx
      rcases List.mem_cons.1 hx with rfl | hx
      · exact hr
      · exact h3 x hx

theorem releaseAll_fit (cause : Cause) : ∀ (ids : List Nat) {s : Cc}, CcFit s → FitStep (s.releaseAll cause ids)
  | [], _, h => FitStep.nil h
  | id :: ids, _, h => FitStep.seq (release_fit h id cause) (fun _ hs => releaseAll_fit cause ids hs) fits_append

theorem dropLoop_fit (g : Nat) : ∀ (l : List (Nat × Call)) {s : Cc}, CcFit s → FitStep (s.dropLoop g l)
  | [], _, h => FitStep.nil h
  | (id, c) :: rest, s, h => by
    refine FitStep.seq (g := fun a b => (match c.origin with
      | .net u => if s.routable g then [.netCallEnd u] else []
      | .ms _ => []) ++ a ++ b) (release_fit h id .swmiRequested) (fun _ hs => dropLoop_fit g rest hs) ?_
    intro a b ha hb
    refine fits_append _ _ (fits_append _ _ ?_ ha) hb
    intro x hx
    split at hx
    · split at hx <;> simp at hx
      subst hx; trivial
    · simp at hx

theorem dropUnlistened_fit {s : Cc} (h : CcFit s) (g : Nat) : FitStep (s.dropUnlistened g) := by
  unfold Cc.dropUnlistened
  split
  · exact FitStep.nil h
  · exact dropLoop_fit g _ h

theorem leaveLoop_fit : ∀ (gs : List Nat) {s : Cc}, CcFit s → FitStep (s.leaveLoop gs)
  | [], _, h => FitStep.nil h
  | g :: gs, s, h => by
    have h' : CcFit { s with listeners := decListener s.listeners g } := h.congr rfl rfl
    exact FitStep.seq (dropUnlistened_fit h' g) (fun _ hs => leaveLoop_fit gs hs) fits_append

theorem dropAllUnlistened_fit : ∀ (gs : List Nat) {s : Cc}, CcFit s → FitStep (s.dropAllUnlistened gs)
  | [], _, h => FitStep.nil h
  | g :: gs, _, h => FitStep.seq (dropUnlistened_fit h g) (fun _ hs => dropAllUnlistened_fit gs hs) fits_append

theorem update_fit {s : Cc} (h : CcFit s) (u : SubUpdate) : FitStep (s.update u) := by
  cases u with
  | register i => exact FitStep.ok (h.congr rfl rfl) (by simp)
  | deregister i =>
    cases hg : s.groups.get i with
    | none => simp only [Cc.update, hg]; exact FitStep.nil h
    | some gs =>
      simp only [Cc.update, hg]
      exact leaveLoop_fit gs (h.congr rfl rfl)
  | affiliate i gs => exact FitStep.ok (h.congr rfl rfl) (by simp)
  | deaffiliate i gs =>
    cases hg : s.groups.get i with
    | none => simp only [Cc.update, hg]; exact dropAllUnlistened_fit gs h
    | some set =>
      simp only [Cc.update, hg]
      exact dropAllUnlistened_fit _ (h.congr rfl rfl)

theorem openLocal_fit {s : Cc} (h : CcFit s) {caller gssi : Nat} {k : CmceCircuit} (hc : caller < 2 ^ 24) (hk : k.callId < 2 ^ 14) :
    FitStep (s.openLocal caller gssi k) := by
  refine idx_fit (FitStep.ok ⟨?_, ?_⟩ ?_)
  · intro e he
    rcases mem_insert_cases he with rfl | he
    · exact ⟨hk, hc⟩
    · exact h.setups e he
  · intro e he
    rcases mem_insert_cases he with rfl | he
    · exact hk
    · exact h.calls e he
  · refine fits_append _ _ ?_ ?_
    · intro x hx
      simp only [List.mem_cons, List.not_mem_nil, or_false] at hx
      rcases hx with rfl | rfl | rfl | rfl
      · trivial
      · exact hk
      · exact hk
      · exact ⟨hk, hc⟩
    · intro x hx
      split at hx <;> simp at hx
      subst hx; trivial

theorem openNet_fit {s : Cc} (h : CcFit s) {uuid speaker gssi : Nat} {k : CmceCircuit} (hc : speaker < 2 ^ 24) (hk : k.callId < 2 ^ 14) :
    FitStep (s.openNet uuid speaker gssi k) := by
  refine idx_fit (FitStep.ok ⟨?_, ?_⟩ ?_)
  · intro e he
    rcases mem_insert_cases he with rfl | he
    · exact ⟨hk, hc⟩
    · exact h.setups e he
  · intro e he
    rcases mem_insert_cases he with rfl | he
    · exact hk
    · exact h.calls e he
  · intro x hx
    simp only [List.mem_cons, List.not_mem_nil, or_false] at hx
    rcases hx with rfl | rfl | rfl | rfl
    · trivial
    · exact ⟨hk, hc⟩
    · exact hk
    · trivial

theorem MgrOk.nextCallId_lt {m : Mgr} (h : MgrOk m) : m.nextCallId < 2 ^ 14 := by
  obtain ⟨log, hi⟩ := h.inv
  rw [hi.callId]
  unfold callIdOf
  omega

theorem setup_fit {s : Cc} (hi : CcInv s) (h : CcFit s) {caller : Nat} (hc : caller < 2 ^ 24) (ok : Bool) (called : Option Nat)
    (comm : Nat) : FitStep (s.setup caller ok called comm) := by
  unfold Cc.setup
  cases ok with
  | false => exact FitStep.nil h
  | true =>
    cases called with
    | none => exact FitStep.nil h
    | some gssi =>
      simp only [if_true]
      split
      · rcases allocateWith_cases hi comm with ⟨h1, _⟩ | ⟨a, i, k, h1, h2, h3, h4, h5⟩
        · simp only [h1, Res.bind_ok]
          exact FitStep.nil (h.congr rfl rfl)
        · simp only [h5, Res.bind_ok]
          refine openLocal_fit (s := { s with mgr := s.mgr.opened i k, alloc := a }) (h.congr rfl rfl) hc ?_
          rw [h4]; exact hi.mgr.nextCallId_lt
      · exact FitStep.nil h

theorem netStart_fit {s : Cc} (hi : CcInv s) (h : CcFit s) {speaker : Nat} (hc : speaker < 2 ^ 24) (uuid gssi : Nat) :
    FitStep (s.netStart uuid speaker gssi) := by
  unfold Cc.netStart
  split
  · split
    · split
      · rename_i id c hf
        have hid : id < 2 ^ 14 := h.calls (id, c) (List.mem_of_find?_eq_some hf)
        split
        · exact FitStep.ok h (by simp [CcOut.Fits])
        · refine idx_fit (FitStep.ok (h.setCall hid _) ?_)
          intro x hx
          simp only [List.mem_cons, List.not_mem_nil, or_false] at hx
          rcases hx with rfl | rfl | rfl
          · exact ⟨hid, hc⟩
          · trivial
          · trivial
      · rcases allocateWith_cases hi 1 with ⟨h1, _⟩ | ⟨a, i, k, h1, h2, h3, h4, h5⟩
        · simp only [h1, Res.bind_ok]
          exact FitStep.nil (h.congr rfl rfl)
        · simp only [h5, Res.bind_ok]
          refine openNet_fit (s := { s with mgr := s.mgr.opened i k, alloc := a }) (h.congr rfl rfl) hc ?_
          rw [h4]; exact hi.mgr.nextCallId_lt
    · intro s' o e
      obtain ⟨r, hr, e⟩ := Res.bind_eq_ok.1 e
      cases e
      obtain ⟨a, b⟩ := dropUnlistened_fit h gssi _ _ hr
      exact ⟨a, fits_append _ _ b (by simp [CcOut.Fits])⟩
  · exact FitStep.panic

/-- The messages when the floor becomes free. -/
theorem floorFree_fits {g id ts : Nat} (hid : id < 2 ^ 14) (b : Bool) :
    ∀ x ∈ [CcOut.dTxCeased (.group g) id ts, .macReleased id ts] ++ (if b then [.netReleased id ts] else []), x.Fits := by
  intro x hx
  cases b <;> simp at hx
  · rcases hx with rfl | rfl
    · exact hid
    · trivial
  · rcases hx with rfl | rfl | rfl
    · exact hid
    · trivial
    · trivial

theorem ceased_fit {s : Cc} (h : CcFit s) (id : Nat) : FitStep (s.ceased id) := by
  unfold Cc.ceased
  cases hc : s.calls.get id with
  | none => exact FitStep.nil h
  | some c =>
    simp only
    split
    · exact FitStep.nil h
    · cases hp : s.setups.get id with
      | none => exact FitStep.nil (h.setCall (h.call hc) _)
      | some p => exact idx_fit (FitStep.ok (h.setCall (h.call hc) _) (floorFree_fits (h.call hc) _))

theorem demand_fit {s : Cc} (h : CcFit s) {ssi : Nat} (hs : ssi < 2 ^ 24) (id : Nat) : FitStep (s.demand ssi id) := by
  unfold Cc.demand
  cases hc : s.calls.get id with
  | none => exact FitStep.nil h
  | some c =>
    simp only
    have hid := h.call hc
    split
    · exact FitStep.nil h
    · cases hp : s.setups.get id with
      | none => exact FitStep.nil (h.setCall hid _)
      | some p =>
        refine idx_fit (FitStep.ok (h.setCall hid _) (fits_append _ _ ?_ ?_))
        · intro x hx
          simp only [List.mem_cons, List.not_mem_nil, or_false] at hx
          rcases hx with rfl | rfl | rfl
          · exact ⟨hid, hs⟩
          · exact ⟨hid, hs⟩
          · trivial
        · intro x hx
          split at hx <;> simp at hx
          subst hx; trivial

theorem disconnect_fit {s : Cc} (h : CcFit s) (ssi id : Nat) : FitStep (s.disconnect ssi id) := by
  unfold Cc.disconnect
  cases hc : s.calls.get id with
  | none => exact FitStep.nil h
  | some c =>
    simp only
    split
    · exact release_fit h id _
    · refine FitStep.ok h ?_
      intro x hx
      rw [List.mem_singleton.1 hx]
      exact h.call hc

theorem netEnd_fit {s : Cc} (h : CcFit s) (uuid : Nat) : FitStep (s.netEnd uuid) := by
  unfold Cc.netEnd
  split
  · exact FitStep.nil h
  · rename_i id c hf
    have hid : id < 2 ^ 14 := h.calls (id, c) (List.mem_of_find?_eq_some hf)
    split
    · exact idx_fit (FitStep.ok (h.setCall hid _) (floorFree_fits hid false))
    · exact release_fit h id _

theorem inactive_fit {s : Cc} (h : CcFit s) (ts : Nat) : FitStep (s.inactive ts) := by
  unfold Cc.inactive
  split
  · exact FitStep.nil h
  · rename_i id c hf
    have hid : id < 2 ^ 14 := h.calls (id, c) (List.mem_of_find?_eq_some hf)
    exact idx_fit (FitStep.ok (h.setCall hid _) (floorFree_fits hid _))

theorem announce_fit {s : Cc} (h : CcFit s) (id usage ts : Nat) : FitStep (s.announce id usage ts) := by
  have key : ∀ g : Setup → TxGrant, FitStep (match s.setups.get id with
      | none => .ok (s, [])
      | some p =>
        if p.receipt = some false then .ok (s, [])
        else do
          let _ ← Slots.idx ts
          .ok ({ s with setups := s.setups.insert id { p with grant := g p } },
            [.dSetup (.group p.gssi) p.callId (g p) p.caller (usage, ts)])) := by
    intro g
    cases hp : s.setups.get id with
    | none => exact FitStep.nil h
    | some p =>
      simp only
      split
      · exact FitStep.nil h
      · refine idx_fit (FitStep.ok ⟨?_, h.calls⟩ ?_)
        · intro e he
          rcases mem_insert_cases he with rfl | he
          · have := h.setup hp; exact this
          · exact h.setups e he
        · intro x hx
          rw [List.mem_singleton.1 hx]
          exact h.setup hp
  unfold Cc.announce
  cases hc : s.calls.get id with
  | none => exact key fun p => p.grant
  | some c =>
    simp only
    split
    · exact FitStep.nil h
    · exact key fun _ => if c.tx then .grantedToOther else .notGranted

theorem expire_fit {s : Cc} (h : CcFit s) (id : Nat) (k : CmceCircuit) :
    CcFit (s.expire id k).1 ∧ ∀ x ∈ (s.expire id k).2, x.Fits := by
  refine ⟨⟨fun e he => h.setups e (Assoc.mem_erase.1 he).1, fun e he => h.calls e (Assoc.mem_erase.1 he).1⟩, ?_⟩
  refine fits_append _ _ ?_ (by simp [CcOut.Fits])
  intro x hx
  split at hx
  · rename_i p hp
    simp only [List.mem_singleton] at hx
    subst hx
    exact (h.setup hp).1
  · simp at hx

theorem tasks_fit : ∀ (l : List Cmd) {s : Cc}, CcFit s → FitStep (s.tasks l)
  | [], _, h => FitStep.nil h
  | .sendDSetup id usage ts :: rest, _, h => FitStep.seq (announce_fit h id usage ts) (fun _ hs => tasks_fit rest hs) fits_append
  | .sendClose id k :: rest, s, h => by
    intro s' o e
    obtain ⟨q, hq, e⟩ := Res.bind_eq_ok.1 e
    cases e
    obtain ⟨h1, h2⟩ := expire_fit h id k
    obtain ⟨h3, h4⟩ := tasks_fit rest h1 _ _ hq
    exact ⟨h3, fits_append _ _ h2 h4⟩

theorem tick_fit {s : Cc} (h : CcFit s) (now : Time) : FitStep (s.tick now) := by
  intro s' o e
  obtain ⟨r, hr, e⟩ := Res.bind_eq_ok.1 e
  obtain ⟨m, hm, e⟩ := Res.bind_eq_ok.1 e
  obtain ⟨q, hq, e⟩ := Res.bind_eq_ok.1 e
  cases e
  have h0 : CcFit { s with now := now } := h.congr rfl rfl
  obtain ⟨h1, h2⟩ := releaseAll_fit _ _ h0 _ _ hr
  obtain ⟨h3, h4⟩ := tasks_fit m.2 (h1.congr (s' := { r.1 with mgr := m.1 }) rfl rfl) _ _ hq
  exact ⟨h3, fits_append _ _ h2 h4⟩

/-- Stations have 24 bit numbers, and so have speakers from the network. -/
def CcEv.Fits : CcEv → Prop
  | .uSetup caller _ _ _ => caller < 2 ^ 24
  | .uTxDemand ssi _ => ssi < 2 ^ 24
  | .netStart _ speaker _ => speaker < 2 ^ 24
  | _ => True

theorem step_fit {s : Cc} (hi : CcInv s) (h : CcFit s) {e : CcEv} (he : e.Fits) : FitStep (s.step e) := by
  cases e with
  | tick now => exact tick_fit h now
  | update u => exact update_fit h u
  | uSetup caller ok called comm => exact setup_fit hi h he ok called comm
  | uTxCeased ssi id => exact ceased_fit h id
  | uTxDemand ssi id => exact demand_fit h he id
  | uRelease ssi id => exact release_fit h id _
  | uDisconnect ssi id => exact disconnect_fit h ssi id
  | netStart uuid speaker gssi => exact netStart_fit hi h he uuid gssi
  | netEnd uuid => exact netEnd_fit h uuid
  | inactive ts => exact inactive_fit h ts

theorem CcFit.init (r : Nat → Bool) : CcFit (.init r) := ⟨by simp [Cc.init], by simp [Cc.init]⟩

theorem CcFit.reordered {s s' : Cc} (h : CcFit s) (hr : s.Reordered s') : CcFit s' := by
  obtain ⟨calls', f, hp, hf, rfl⟩ := hr
  exact ⟨h.setups, fun e he => h.calls e (hp.mem_iff.1 he)⟩

end Verif.Cmce
