import Verif.Cmce.CallFit
/-!
# Call control writes to addresses of 24 bits and with usage markers of 6 bits: lemmas

Group numbers come from the stations which joined the groups: a call is set up only for a group somebody listens to.
-/
namespace Verif.Cmce
open Tdma

/-- An address of 24 bits. -/
def Party.Short : Party → Prop
  | .station i => i < 2 ^ 24
  | .group g => g < 2 ^ 24

/-- A message to an address of 24 bits, with a usage marker of 6 bits if there is one. -/
def CcOut.Short : CcOut → Prop
  | .dCallProceeding to _ => to.Short
  | .dConnect to _ _ _ chan => to.Short ∧ ∀ c, chan = some c → c.1 < 64
  | .dSetup to _ _ _ chan => to.Short ∧ chan.1 < 64
  | .dRelease to _ _ => to.Short
  | .dTxCeased to _ _ => to.Short
  | .dTxGranted to _ _ _ _ => to.Short
  | _ => True

/-- The same for what is kept. -/
structure CcShort (s : Cc) : Prop where
  setups : ∀ e ∈ s.setups, e.2.gssi < 2 ^ 24
  calls : ∀ e ∈ s.calls, e.2.gssi < 2 ^ 24
  listeners : ∀ e ∈ s.listeners, e.1 < 2 ^ 24
  usage : ∀ i k, s.mgr.dl i = some k → k.usage < 64

theorem CcShort.setup {s : Cc} (h : CcShort s) {id : Nat} {p : Setup} (hp : s.setups.get id = some p) :
    p.gssi < 2 ^ 24 := h.setups (id, p) (Assoc.mem_of_get hp)

theorem CcShort.call {s : Cc} (h : CcShort s) {id : Nat} {c : Call} (hc : s.calls.get id = some c) : c.gssi < 2 ^ 24 :=
  h.calls (id, c) (Assoc.mem_of_get hc)

theorem CcShort.listens {s : Cc} (h : CcShort s) {g : Nat} (hg : s.hasListener g = true) : g < 2 ^ 24 := by
  unfold Cc.hasListener at hg
  cases hl : s.listeners.get g with
  | none => rw [hl] at hg; simp at hg
  | some n => exact h.listeners (g, n) (Assoc.mem_of_get hl)

theorem CcShort.setCall {s : Cc} (h : CcShort s) (id : Nat) {c : Call} (hc : c.gssi < 2 ^ 24) :
    CcShort { s with calls := s.calls.insert id c } :=
  ⟨h.setups, fun e he => (mem_insert_cases he).elim (fun q => q ▸ hc) (h.calls e), h.listeners, h.usage⟩

theorem CcShort.congr {s s' : Cc} (h : CcShort s) (h1 : s'.setups = s.setups) (h2 : s'.calls = s.calls)
    (h3 : s'.listeners = s.listeners) (h4 : ∀ i k, s'.mgr.dl i = some k → s.mgr.dl i = some k ∨ k.usage < 64) : CcShort s' :=
  ⟨by rw [h1]; exact h.setups, by rw [h2]; exact h.calls, by rw [h3]; exact h.listeners,
    fun i k hk => (h4 i k hk).elim (h.usage i k) id⟩

theorem close_dl {m m' : Mgr} {d : Dir} {ts : Nat} {r : Except CircuitErr CmceCircuit} (h : m.close d ts = .ok (m', r)) :
    ∀ i k, m'.dl i = some k → m.dl i = some k := by
  obtain ⟨j, _, h⟩ := Res.bind_eq_ok.1 h
  intro i k hk
  have hu : ∀ l : Slots (Option CmceCircuit), (l.upd j none) i = some k → l i = some k := by
    intro l hl
    simp only [Slots.upd] at hl
    split at hl
    · cases hl
    · exact hl
  cases d <;> cases h
  · exact hk
  · exact hu _ hk
  · exact hu _ hk

theorem closeAll_dl : ∀ (l : List CmceCircuit) {m m' : Mgr} {o : List Cmd}, closeAll m l = .ok (m', o) →
    (∀ i k, m'.dl i = some k → m.dl i = some k) ∧ ∀ c ∈ o, ∃ id x, c = .sendClose id x
  | [], _, _, _, h => by cases h; exact ⟨fun _ _ h => h, by simp⟩
  | c :: cs, m, m', o, h => by
    obtain ⟨⟨m1, r⟩, h1, h⟩ := Res.bind_eq_ok.1 h
    cases r with
    | error e => cases h
    | ok x =>
      obtain ⟨q, h2, h⟩ := Res.bind_eq_ok.1 h
      cases h
      obtain ⟨h3, h4⟩ := closeAll_dl cs h2
      refine ⟨fun i k hk => close_dl h1 i k (h3 i k hk), ?_⟩
      intro y hy
      rcases List.mem_cons.1 hy with rfl | hy
      · exact ⟨_, _, rfl⟩
      · exact h4 y hy

/-- The task of a circuit with a short usage marker. -/
def Cmd.Short : Cmd → Prop
  | .sendDSetup _ usage _ => usage < 64
  | .sendClose .. => True

theorem mgrTick_short {m m' : Mgr} {now : Time} {o : List Cmd} (h : m.tick now = .ok (m', o))
    (hu : ∀ i k, m.dl i = some k → k.usage < 64) :
    (∀ i k, m'.dl i = some k → m.dl i = some k) ∧ ∀ c ∈ o, c.Short := by
  unfold Mgr.tick at h
  simp only [Res.bind_ok, bind_pure_comp] at h
  split at h
  · obtain ⟨r, hr, h⟩ := Res.bind_eq_ok.1 h
    cases h
    obtain ⟨h1, h2⟩ := closeAll_dl _ hr
    refine ⟨h1, ?_⟩
    intro c hc
    rcases List.mem_append.1 hc with hc | hc
    · obtain ⟨_, _, rfl⟩ := h2 c hc
      trivial
    · obtain ⟨k, hk, rfl⟩ := List.mem_map.1 hc
      have hk := (List.mem_filter.1 hk).1
      obtain ⟨i, _, hi⟩ := List.mem_filterMap.1 hk
      exact hu i k (h1 i k hi)
  · cases h
    exact ⟨fun _ _ h => h, by simp⟩

theorem MgrOk.nextUsage_lt {m : Mgr} (h : MgrOk m) : m.nextUsage < 64 := by
  obtain ⟨log, hi⟩ := h.inv
  rw [hi.usage]
  unfold usageOf
  omega

theorem opened_dl {m : Mgr} {j : Fin 4} {k : CmceCircuit} (hk : k.usage < 64) :
    ∀ i x, (m.opened j k).dl i = some x → m.dl i = some x ∨ x.usage < 64 := by
  intro i x hx
  simp only [Mgr.opened, Slots.upd] at hx
  split at hx
  · cases hx; exact .inr hk
  · exact .inl hx

theorem incListener_keys {l : Assoc Nat Nat} {g : Nat} (hg : g < 2 ^ 24) (h : ∀ e ∈ l, e.1 < 2 ^ 24) :
    ∀ e ∈ incListener l g, e.1 < 2 ^ 24 := by
  intro e he
  rcases mem_insert_cases he with rfl | he
  · exact hg
  · exact h e he

theorem decListener_keys {l : Assoc Nat Nat} (g : Nat) (h : ∀ e ∈ l, e.1 < 2 ^ 24) :
    ∀ e ∈ decListener l g, e.1 < 2 ^ 24 := by
  unfold decListener
  cases hg : l.get g with
  | none => exact h
  | some n =>
    simp only
    split
    · exact fun e he => h e (Assoc.mem_erase.1 he).1
    · intro e he
      rcases mem_insert_cases he with rfl | he
      · exact h (g, n) (Assoc.mem_of_get hg)
      · exact h e he

theorem incAll_keys : ∀ (gs : List Nat) {l : Assoc Nat Nat}, (∀ g ∈ gs, g < 2 ^ 24) → (∀ e ∈ l, e.1 < 2 ^ 24) →
    ∀ e ∈ gs.foldl incListener l, e.1 < 2 ^ 24
  | [], _, _, h => h
  | g :: gs, _, hg, h => incAll_keys gs (fun x hx => hg x (.tail _ hx)) (incListener_keys (hg g (.head _)) h)

theorem decAll_keys : ∀ (gs : List Nat) {l : Assoc Nat Nat}, (∀ e ∈ l, e.1 < 2 ^ 24) →
    ∀ e ∈ gs.foldl decListener l, e.1 < 2 ^ 24
  | [], _, h => h
  | g :: gs, _, h => decAll_keys gs (decListener_keys g h)

theorem addGroups_new : ∀ (gs set : List Nat), ∀ g ∈ (addGroups set gs).2, g ∈ gs
  | [], _, g, h => by simp [addGroups] at h
  | x :: gs, set, g, h => by
    unfold addGroups at h
    split at h
    · exact .tail _ (addGroups_new gs _ g h)
    · rcases List.mem_cons.1 h with rfl | h
      · exact .head _
      · exact .tail _ (addGroups_new gs _ g h)

/-- A step keeps the numbers short. -/
def ShortStep (r : Res (Cc × List CcOut)) : Prop := ∀ s' o, r = .ok (s', o) → CcShort s' ∧ ∀ x ∈ o, x.Short

theorem ShortStep.nil {s : Cc} (h : CcShort s) : ShortStep (.ok (s, [])) := by
  rintro _ _ ⟨⟩
  exact ⟨h, by simp⟩

theorem ShortStep.panic : ShortStep .panic := by rintro _ _ ⟨⟩

theorem ShortStep.ok {s : Cc} {o : List CcOut} (h : CcShort s) (ho : ∀ x ∈ o, x.Short) : ShortStep (.ok (s, o)) := by
  rintro _ _ ⟨⟩
  exact ⟨h, ho⟩

theorem ShortStep.seq {r : Res (Cc × List CcOut)} {f : Cc → Res (Cc × List CcOut)} {g : List CcOut → List CcOut → List CcOut}
    (hr : ShortStep r) (hf : ∀ s, CcShort s → ShortStep (f s)) (hg : ∀ a b, (∀ x ∈ a, x.Short) → (∀ x ∈ b, x.Short) → ∀ x ∈ g a b, x.Short) :
    ShortStep (r >>= fun p => f p.1 >>= fun q => .ok (q.1, g p.2 q.2)) := by
  intro s' o h
  obtain ⟨p, hp, h⟩ := Res.bind_eq_ok.1 h
  obtain ⟨q, hq, h⟩ := Res.bind_eq_ok.1 h
  cases h
  obtain ⟨a, b⟩ := hr _ _ hp
  obtain ⟨c, d⟩ := hf _ a _ _ hq
  exact ⟨c, hg _ _ b d⟩

theorem short_append (a b : List CcOut) (ha : ∀ x ∈ a, x.Short) (hb : ∀ x ∈ b, x.Short) : ∀ x ∈ a ++ b, x.Short := by
  intro x hx
  rcases List.mem_append.1 hx with h | h
  · exact ha x h
  · exact hb x h

theorem idx_short {ts : Nat} {r : Res (Cc × List CcOut)} (h : ShortStep r) : ShortStep (Slots.idx ts >>= fun _ => r) := by
  intro s' o e
  obtain ⟨_, _, e⟩ := Res.bind_eq_ok.1 e
  exact h _ _ e

/-- Messages to the MAC and the network have nothing to fit. -/
theorem freeCall_short {s s' : Cc} {id : Nat} {c : Call} {o : List CcOut} (h : s.freeCall id c = .ok (s', o)) :
    s'.setups = s.setups ∧ s'.calls = s.calls ∧ s'.listeners = s.listeners ∧
      (∀ i k, s'.mgr.dl i = some k → s.mgr.dl i = some k) ∧ ∀ x ∈ o, x.Short := by
  obtain ⟨r, hr, e⟩ := Res.bind_eq_ok.1 h
  cases e
  refine ⟨rfl, rfl, rfl, close_dl hr, ?_⟩
  intro x hx
  simp only [List.mem_append, List.mem_singleton] at hx
  rcases hx with (hx | rfl) | hx
  · split at hx <;> simp at hx
    subst hx; trivial
  · trivial
  · split at hx
    · split at hx <;> simp at hx
      subst hx; trivial
    · simp at hx

theorem release_short {s : Cc} (h : CcShort s) (id : Nat) (cause : Cause) : ShortStep (s.release id cause) := by
  unfold Cc.release
  cases hp : s.setups.get id with
  | none => exact ShortStep.nil h
  | some p =>
    have hr : (CcOut.dRelease (.group p.gssi) p.callId cause).Short := h.setup hp
    cases hc : s.calls.get id with
    | none =>
      refine ShortStep.ok ⟨fun e he => h.setups e (Assoc.mem_erase.1 he).1, h.calls, h.listeners, h.usage⟩ ?_
      simpa using hr
    | some c =>
      intro s' o e
      obtain ⟨r, hf, e⟩ := Res.bind_eq_ok.1 e
      cases e
      obtain ⟨h1, h2, h4, h5, h3⟩ := freeCall_short hf
      refine ⟨⟨fun e he => h.setups e (h1 ▸ (Assoc.mem_erase.1 he).1), fun e he => h.calls e (h2 ▸ (Assoc.mem_erase.1 he).1),
        fun e he => h.listeners e (h4 ▸ he), fun i k hk => h.usage i k (h5 i k hk)⟩, ?_⟩
      intro x hx
      rcases List.mem_cons.1 hx with rfl | hx
      · exact hr
      · exact h3 x hx

theorem releaseAll_short (cause : Cause) : ∀ (ids : List Nat) {s : Cc}, CcShort s → ShortStep (s.releaseAll cause ids)
  | [], _, h => ShortStep.nil h
  | id :: ids, _, h => ShortStep.seq (release_short h id cause) (fun _ hs => releaseAll_short cause ids hs) short_append

theorem dropLoop_short (g : Nat) : ∀ (l : List (Nat × Call)) {s : Cc}, CcShort s → ShortStep (s.dropLoop g l)
  | [], _, h => ShortStep.nil h
  | (id, c) :: rest, s, h => by
    refine ShortStep.seq (g := fun a b => (match c.origin with
      | .net u => if s.routable g then [.netCallEnd u] else []
      | .ms _ => []) ++ a ++ b) (release_short h id .swmiRequested) (fun _ hs => dropLoop_short g rest hs) ?_
    intro a b ha hb
    refine short_append _ _ (short_append _ _ ?_ ha) hb
    intro x hx
    split at hx
    · split at hx <;> simp at hx
      subst hx; trivial
    · simp at hx

theorem dropUnlistened_short {s : Cc} (h : CcShort s) (g : Nat) : ShortStep (s.dropUnlistened g) := by
  unfold Cc.dropUnlistened
  split
  · exact ShortStep.nil h
  · exact dropLoop_short g _ h

theorem leaveLoop_short : ∀ (gs : List Nat) {s : Cc}, CcShort s → ShortStep (s.leaveLoop gs)
  | [], _, h => ShortStep.nil h
  | g :: gs, s, h => by
    have h' : CcShort { s with listeners := decListener s.listeners g } :=
      ⟨h.setups, h.calls, decListener_keys g h.listeners, h.usage⟩
    exact ShortStep.seq (dropUnlistened_short h' g) (fun _ hs => leaveLoop_short gs hs) short_append

theorem dropAllUnlistened_short : ∀ (gs : List Nat) {s : Cc}, CcShort s → ShortStep (s.dropAllUnlistened gs)
  | [], _, h => ShortStep.nil h
  | g :: gs, _, h => ShortStep.seq (dropUnlistened_short h g) (fun _ hs => dropAllUnlistened_short gs hs) short_append

/-- Groups joined have 24 bit numbers. -/
def SubUpdate.Short : SubUpdate → Prop
  | .affiliate _ gs => ∀ g ∈ gs, g < 2 ^ 24
  | _ => True

theorem update_short {s : Cc} (h : CcShort s) {u : SubUpdate} (hu : u.Short) : ShortStep (s.update u) := by
  cases u with
  | register i => exact ShortStep.ok (h.congr rfl rfl rfl fun _ _ q => .inl q) (by simp)
  | deregister i =>
    cases hg : s.groups.get i with
    | none => simp only [Cc.update, hg]; exact ShortStep.nil h
    | some gs =>
      simp only [Cc.update, hg]
      exact leaveLoop_short gs (h.congr rfl rfl rfl fun _ _ q => .inl q)
  | affiliate i gs =>
    exact ShortStep.ok ⟨h.setups, h.calls, incAll_keys _ (fun g hg => hu g (addGroups_new _ _ g hg)) h.listeners, h.usage⟩ (by simp)
  | deaffiliate i gs =>
    cases hg : s.groups.get i with
    | none => simp only [Cc.update, hg]; exact dropAllUnlistened_short gs h
    | some set =>
      simp only [Cc.update, hg]
      exact dropAllUnlistened_short _ ⟨h.setups, h.calls, decAll_keys _ h.listeners, h.usage⟩

theorem openLocal_short {s : Cc} (h : CcShort s) {caller gssi : Nat} {k : CmceCircuit} (hc : caller < 2 ^ 24) (hg : gssi < 2 ^ 24)
    (hk : k.usage < 64) : ShortStep (s.openLocal caller gssi k) := by
  refine idx_short (ShortStep.ok ⟨?_, ?_, h.listeners, h.usage⟩ ?_)
  · intro e he
    rcases mem_insert_cases he with rfl | he
    · exact hg
    · exact h.setups e he
  · intro e he
    rcases mem_insert_cases he with rfl | he
    · exact hg
    · exact h.calls e he
  · refine short_append _ _ ?_ ?_
    · intro x hx
      simp only [List.mem_cons, List.not_mem_nil, or_false] at hx
      rcases hx with rfl | rfl | rfl | rfl
      · trivial
      · exact hc
      · exact ⟨hc, fun c e => by cases e; exact hk⟩
      · exact ⟨hg, hk⟩
    · intro x hx
      split at hx <;> simp at hx
      subst hx; trivial

theorem openNet_short {s : Cc} (h : CcShort s) {uuid speaker gssi : Nat} {k : CmceCircuit} (hg : gssi < 2 ^ 24) (hk : k.usage < 64) :
    ShortStep (s.openNet uuid speaker gssi k) := by
  refine idx_short (ShortStep.ok ⟨?_, ?_, h.listeners, h.usage⟩ ?_)
  · intro e he
    rcases mem_insert_cases he with rfl | he
    · exact hg
    · exact h.setups e he
  · intro e he
    rcases mem_insert_cases he with rfl | he
    · exact hg
    · exact h.calls e he
  · intro x hx
    simp only [List.mem_cons, List.not_mem_nil, or_false] at hx
    rcases hx with rfl | rfl | rfl | rfl
    · trivial
    · exact ⟨hg, hk⟩
    · exact ⟨hg, fun c e => by cases e⟩
    · trivial

theorem setup_short {s : Cc} (hi : CcInv s) (h : CcShort s) {caller : Nat} (hc : caller < 2 ^ 24) (ok : Bool) (called : Option Nat)
    (comm : Nat) : ShortStep (s.setup caller ok called comm) := by
  unfold Cc.setup
  cases ok with
  | false => exact ShortStep.nil h
  | true =>
    cases called with
    | none => exact ShortStep.nil h
    | some gssi =>
      simp only [if_true]
      split
      · rename_i hl
        rcases allocateWith_cases hi comm with ⟨h1, _⟩ | ⟨a, i, k, h1, h2, h3, h4, h5⟩
        · simp only [h1, Res.bind_ok]
          exact ShortStep.nil (h.congr rfl rfl rfl fun _ _ q => .inl q)
        · have hk : k.usage < 64 := by rw [h4]; exact hi.mgr.nextUsage_lt
          simp only [h5, Res.bind_ok]
          exact openLocal_short (s := { s with mgr := s.mgr.opened i k, alloc := a }) (h.congr rfl rfl rfl (opened_dl hk)) hc
            (h.listens hl) hk
      · exact ShortStep.nil h

theorem netStart_short {s : Cc} (hi : CcInv s) (h : CcShort s) (uuid speaker gssi : Nat) :
    ShortStep (s.netStart uuid speaker gssi) := by
  unfold Cc.netStart
  split
  · split
    · rename_i hl
      have hg := h.listens hl
      split
      · rename_i id c hf
        have hid : c.gssi < 2 ^ 24 := h.calls (id, c) (List.mem_of_find?_eq_some hf)
        split
        · exact ShortStep.ok h (by simp [CcOut.Short])
        · refine idx_short (ShortStep.ok (h.setCall id (by exact hid)) ?_)
          intro x hx
          simp only [List.mem_cons, List.not_mem_nil, or_false] at hx
          rcases hx with rfl | rfl | rfl
          · exact hg
          · trivial
          · trivial
      · rcases allocateWith_cases hi 1 with ⟨h1, _⟩ | ⟨a, i, k, h1, h2, h3, h4, h5⟩
        · simp only [h1, Res.bind_ok]
          exact ShortStep.nil (h.congr rfl rfl rfl fun _ _ q => .inl q)
        · have hk : k.usage < 64 := by rw [h4]; exact hi.mgr.nextUsage_lt
          simp only [h5, Res.bind_ok]
          exact openNet_short (s := { s with mgr := s.mgr.opened i k, alloc := a }) (h.congr rfl rfl rfl (opened_dl hk)) hg hk
    · intro s' o e
      obtain ⟨r, hr, e⟩ := Res.bind_eq_ok.1 e
      cases e
      obtain ⟨a, b⟩ := dropUnlistened_short h gssi _ _ hr
      exact ⟨a, short_append _ _ b (by simp [CcOut.Short])⟩
  · exact ShortStep.panic

/-- The messages when the floor becomes free. -/
theorem floorFree_short {g id ts : Nat} (hid : g < 2 ^ 24) (b : Bool) :
    ∀ x ∈ [CcOut.dTxCeased (.group g) id ts, .macReleased id ts] ++ (if b then [.netReleased id ts] else []), x.Short := by
  intro x hx
  cases b <;> simp at hx
  · rcases hx with rfl | rfl
    · exact hid
    · trivial
  · rcases hx with rfl | rfl | rfl
    · exact hid
    · trivial
    · trivial

theorem ceased_short {s : Cc} (h : CcShort s) (id : Nat) : ShortStep (s.ceased id) := by
  unfold Cc.ceased
  cases hc : s.calls.get id with
  | none => exact ShortStep.nil h
  | some c =>
    simp only
    split
    · exact ShortStep.nil h
    · cases hp : s.setups.get id with
      | none => exact ShortStep.nil (CcShort.setCall h id (c := { c with tx := false, hang := some s.now }) (h.call (c := c) hc))
      | some p => exact idx_short (ShortStep.ok (CcShort.setCall h id (c := { c with tx := false, hang := some s.now }) (h.call (c := c) hc)) (floorFree_short (h.setup hp) _))

theorem demand_short {s : Cc} (h : CcShort s) {ssi : Nat} (hs : ssi < 2 ^ 24) (id : Nat) : ShortStep (s.demand ssi id) := by
  unfold Cc.demand
  cases hc : s.calls.get id with
  | none => exact ShortStep.nil h
  | some c =>
    simp only
    have hid := h.call hc
    split
    · exact ShortStep.nil h
    · cases hp : s.setups.get id with
      | none => exact ShortStep.nil (h.setCall id hid)
      | some p =>
        refine idx_short (ShortStep.ok (h.setCall id hid) (short_append _ _ ?_ ?_))
        · intro x hx
          simp only [List.mem_cons, List.not_mem_nil, or_false] at hx
          rcases hx with rfl | rfl | rfl
          · exact hs
          · exact h.setup hp
          · trivial
        · intro x hx
          split at hx <;> simp at hx
          subst hx; trivial

theorem disconnect_short {s : Cc} (h : CcShort s) {ssi : Nat} (hs : ssi < 2 ^ 24) (id : Nat) : ShortStep (s.disconnect ssi id) := by
  unfold Cc.disconnect
  cases hc : s.calls.get id with
  | none => exact ShortStep.nil h
  | some c =>
    simp only
    split
    · exact release_short h id _
    · refine ShortStep.ok h ?_
      intro x hx
      rw [List.mem_singleton.1 hx]
      exact hs

theorem netEnd_short {s : Cc} (h : CcShort s) (uuid : Nat) : ShortStep (s.netEnd uuid) := by
  unfold Cc.netEnd
  split
  · exact ShortStep.nil h
  · rename_i id c hf
    have hid : c.gssi < 2 ^ 24 := h.calls (id, c) (List.mem_of_find?_eq_some hf)
    split
    · exact idx_short (ShortStep.ok (h.setCall id hid) (floorFree_short hid false))
    · exact release_short h id _

theorem inactive_short {s : Cc} (h : CcShort s) (ts : Nat) : ShortStep (s.inactive ts) := by
  unfold Cc.inactive
  split
  · exact ShortStep.nil h
  · rename_i id c hf
    have hid : c.gssi < 2 ^ 24 := h.calls (id, c) (List.mem_of_find?_eq_some hf)
    exact idx_short (ShortStep.ok (h.setCall id hid) (floorFree_short hid _))

theorem announce_short {s : Cc} (h : CcShort s) (id : Nat) {usage : Nat} (hu : usage < 64) (ts : Nat) : ShortStep (s.announce id usage ts) := by
  have key : ∀ g : Setup → TxGrant, ShortStep (match s.setups.get id with
      | none => .ok (s, [])
      | some p =>
        if p.receipt = some false then .ok (s, [])
        else do
          let _ ← Slots.idx ts
          .ok ({ s with setups := s.setups.insert id { p with grant := g p } },
            [.dSetup (.group p.gssi) p.callId (g p) p.caller (usage, ts)])) := by
    intro g
    cases hp : s.setups.get id with
    | none => exact ShortStep.nil h
    | some p =>
      simp only
      split
      · exact ShortStep.nil h
      · refine idx_short (ShortStep.ok ⟨?_, h.calls, h.listeners, h.usage⟩ ?_)
        · intro e he
          rcases mem_insert_cases he with rfl | he
          · have := h.setup hp; exact this
          · exact h.setups e he
        · intro x hx
          rw [List.mem_singleton.1 hx]
          exact ⟨h.setup hp, hu⟩
  unfold Cc.announce
  cases hc : s.calls.get id with
  | none => exact key fun p => p.grant
  | some c =>
    simp only
    split
    · exact ShortStep.nil h
    · exact key fun _ => if c.tx then .grantedToOther else .notGranted

theorem expire_short {s : Cc} (h : CcShort s) (id : Nat) (k : CmceCircuit) :
    CcShort (s.expire id k).1 ∧ ∀ x ∈ (s.expire id k).2, x.Short := by
  refine ⟨⟨fun e he => h.setups e (Assoc.mem_erase.1 he).1, fun e he => h.calls e (Assoc.mem_erase.1 he).1,
    h.listeners, h.usage⟩, ?_⟩
  refine short_append _ _ ?_ (by simp [CcOut.Short])
  intro x hx
  split at hx
  · rename_i p hp
    simp only [List.mem_singleton] at hx
    subst hx
    exact h.setup hp
  · simp at hx

theorem tasks_short : ∀ (l : List Cmd) {s : Cc}, (∀ c ∈ l, c.Short) → CcShort s → ShortStep (s.tasks l)
  | [], _, _, h => ShortStep.nil h
  | .sendDSetup id usage ts :: rest, _, hl, h =>
    ShortStep.seq (announce_short h id (hl _ (.head _)) ts) (fun _ hs => tasks_short rest (fun c hc => hl c (.tail _ hc)) hs) short_append
  | .sendClose id k :: rest, s, hl, h => by
    intro s' o e
    obtain ⟨q, hq, e⟩ := Res.bind_eq_ok.1 e
    cases e
    obtain ⟨h1, h2⟩ := expire_short h id k
    obtain ⟨h3, h4⟩ := tasks_short rest (fun c hc => hl c (.tail _ hc)) h1 _ _ hq
    exact ⟨h3, short_append _ _ h2 h4⟩

theorem tick_short {s : Cc} (h : CcShort s) (now : Time) : ShortStep (s.tick now) := by
  intro s' o e
  obtain ⟨r, hr, e⟩ := Res.bind_eq_ok.1 e
  obtain ⟨m, hm, e⟩ := Res.bind_eq_ok.1 e
  obtain ⟨q, hq, e⟩ := Res.bind_eq_ok.1 e
  cases e
  have h0 : CcShort { s with now := now } := h.congr rfl rfl rfl fun _ _ q => .inl q
  obtain ⟨h1, h2⟩ := releaseAll_short _ _ h0 _ _ hr
  obtain ⟨h5, h6⟩ := mgrTick_short hm h1.usage
  obtain ⟨h3, h4⟩ := tasks_short m.2 h6
    (h1.congr (s' := { r.1 with mgr := m.1 }) rfl rfl rfl fun i k hk => .inl (h5 i k hk)) _ _ hq
  exact ⟨h3, short_append _ _ h2 h4⟩

/-- Stations and the groups they join have 24 bit numbers. Nothing is assumed about the network. -/
def CcEv.Short : CcEv → Prop
  | .uSetup caller _ _ _ => caller < 2 ^ 24
  | .uTxDemand ssi _ => ssi < 2 ^ 24
  | .uDisconnect ssi _ => ssi < 2 ^ 24
  | .update u => u.Short
  | _ => True

theorem step_short {s : Cc} (hi : CcInv s) (h : CcShort s) {e : CcEv} (he : e.Short) : ShortStep (s.step e) := by
  cases e with
  | tick now => exact tick_short h now
  | update u => exact update_short h he
  | uSetup caller ok called comm => exact setup_short hi h he ok called comm
  | uTxCeased ssi id => exact ceased_short h id
  | uTxDemand ssi id => exact demand_short h he id
  | uRelease ssi id => exact release_short h id _
  | uDisconnect ssi id => exact disconnect_short h he id
  | netStart uuid speaker gssi => exact netStart_short hi h uuid speaker gssi
  | netEnd uuid => exact netEnd_short h uuid
  | inactive ts => exact inactive_short h ts

theorem CcShort.init (r : Nat → Bool) : CcShort (.init r) :=
  ⟨by simp [Cc.init], by simp [Cc.init], by simp [Cc.init], by simp [Cc.init, Mgr.init]⟩

theorem CcShort.reordered {s s' : Cc} (h : CcShort s) (hr : s.Reordered s') : CcShort s' := by
  obtain ⟨calls', f, hp, hf, rfl⟩ := hr
  exact ⟨h.setups, fun e he => h.calls e (hp.mem_iff.1 he), h.listeners, h.usage⟩

end Verif.Cmce
