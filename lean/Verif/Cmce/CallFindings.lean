import Verif.Cmce.CallProps
import Verif.Cmce.CallFloorProps
import Verif.Cmce.CallMembersProps
/-!
# Call control: concrete histories and findings
-/
namespace Verif.Cmce
open Tdma

/-- A history run from the beginning is a history. -/
theorem run_ccRun {r : Nat → Bool} (es : List CcEv) {h0 h : List (CcEv × List CcOut)} {s0 s : Cc} (hr : CcRun r h0 s0)
    (hs : s0.run es = .ok (s, h)) : CcRun r (h0 ++ h) s := by
  induction es generalizing h0 h s0 with
  | nil => cases hs; rwa [List.append_nil]
  | cons e es ih =>
    simp only [Cc.run] at hs
    rw [Res.bind_eq_ok] at hs
    obtain ⟨⟨s1, o⟩, h1, hs⟩ := hs
    rw [Res.bind_eq_ok] at hs
    obtain ⟨q, hq, hs⟩ := hs
    cases hs
    have := ih (hr.step h1) hq
    rwa [List.append_assoc] at this

/-- The messages of a concrete history, event by event. -/
def sent (r : Nat → Bool) (es : List CcEv) : Option (List (List CcOut)) :=
  match (Cc.init r).run es with
  | .ok q => some (q.2.map Prod.snd)
  | .panic => none

/-- The call table after a concrete history. -/
def table (r : Nat → Bool) (es : List CcEv) : Option (Assoc Nat Call) :=
  match (Cc.init r).run es with
  | .ok q => some q.1.calls
  | .panic => none

theorem sent_run {r : Nat → Bool} {es : List CcEv} {l : List (List CcOut)} (h : sent r es = some l) :
    ∃ s hist, (Cc.init r).run es = .ok (s, hist) ∧ CcRun r hist s ∧ hist.map Prod.snd = l ∧ table r es = some s.calls := by
  unfold sent at h
  cases hq : (Cc.init r).run es with
  | ok q =>
    rw [hq] at h
    have := run_ccRun es (CcRun.init (routable := r)) hq
    exact ⟨q.1, q.2, rfl, by simpa using this, by simpa using h, by simp [table, hq]⟩
  | panic => rw [hq] at h; cases h

/-- Stations 1001 and 1002 join group 91; 1001 calls. -/
def begun : List CcEv := [.tick ⟨1, 1, 1, 1⟩, .update (.affiliate 1001 [91]), .update (.affiliate 1002 [91, 92]), .uSetup 1001 true (some 91) 0]

example : sent (fun _ => false) (begun ++ [.uTxDemand 1002 4, .uTxCeased 1001 4, .uTxDemand 1002 4, .uTxCeased 1002 4,
      .tick ⟨1, 1, 6, 1⟩, .tick ⟨2, 1, 6, 1⟩]) = some [[], [], [],
    [.open ⟨.both, 2, 4, 0, some 0, false⟩, .dCallProceeding (.station 1001) 4, .dConnect (.station 1001) 4 .granted true (some (4, 2)),
      .dSetup (.group 91) 4 .grantedToOther 1001 (4, 2)], [],
    [.dTxCeased (.group 91) 4 2, .macReleased 4 2],
    [.dTxGranted (.station 1002) 4 .granted 1002 2, .dTxGranted (.group 91) 4 .grantedToOther 1002 2, .macGranted 4 1002 91 2],
    [.dTxCeased (.group 91) 4 2, .macReleased 4 2], [],
    [.dRelease (.group 91) 4 .expiryOfTimer, .close .both 2, .macEnded 4 2]] := by decide +kernel

/-- Evaluate a check after a concrete history. -/
def check (r : Nat → Bool) (es : List CcEv) (p : List (CcEv × List CcOut) → Cc → Bool) : Bool :=
  match (Cc.init r).run es with
  | .ok q => p q.2 q.1
  | .panic => false

theorem check_run {r : Nat → Bool} (es : List CcEv) {p : List (CcEv × List CcOut) → Cc → Bool} (h : check r es p = true) :
    ∃ hist s, CcRun r hist s ∧ p hist s = true := by
  unfold check at h
  cases hq : (Cc.init r).run es with
  | ok q =>
    rw [hq] at h
    have := run_ccRun es (CcRun.init (routable := r)) hq
    exact ⟨q.2, q.1, by simpa using this, h⟩
  | panic => rw [hq] at h; cases h

/-- What is sent in an event. -/
def stepOut (s : Cc) (e : CcEv) : Option (List CcOut) :=
  match s.step e with
  | .ok q => some q.2
  | .panic => none

theorem stepOut_eq {s : Cc} {e : CcEv} {o : List CcOut} (h : stepOut s e = some o) : ∃ s', s.step e = .ok (s', o) := by
  unfold stepOut at h
  cases hs : s.step e with
  | ok q => rw [hs] at h; cases h; exact ⟨q.1, rfl⟩
  | panic => rw [hs] at h; cases h

/-! ## The hypotheses of the properties are met -/

/-- With the floor held, and with it free, in a call under way. -/
example : (∃ h s, CcRun (fun _ => false) h s ∧ NoReuse (messages h) ∧ connected (messages h) 4 = true ∧ busy (messages h) 4 = true ∧
      heard (messages h) 4 = some (91, 4, 2) ∧ (known h).2 4 = some ⟨⟨1, 1, 1, 1⟩, .talking 1001⟩) ∧
    (∃ h s, CcRun (fun _ => false) h s ∧ NoReuse (messages h) ∧ connected (messages h) 4 = true ∧ busy (messages h) 4 = false ∧
      (known h).2 4 = some ⟨⟨1, 1, 1, 1⟩, .free ⟨2, 1, 1, 1⟩⟩) := by
  constructor
  · obtain ⟨h, s, hr, hp⟩ := check_run (r := fun _ => false) begun
      (p := fun h _ => decide ((started (messages h)).length ≤ 1023 ∧ connected (messages h) 4 = true ∧ busy (messages h) 4 = true ∧
        heard (messages h) 4 = some (91, 4, 2) ∧ (known h).2 4 = some ⟨⟨1, 1, 1, 1⟩, .talking 1001⟩)) (by decide +kernel)
    have hp := of_decide_eq_true hp
    exact ⟨h, s, hr, (c28_numbers hr).2 hp.1, hp.2⟩
  · obtain ⟨h, s, hr, hp⟩ := check_run (r := fun _ => false) (begun ++ [.tick ⟨2, 1, 1, 1⟩, .uTxCeased 1001 4])
      (p := fun h _ => decide ((started (messages h)).length ≤ 1023 ∧ connected (messages h) 4 = true ∧ busy (messages h) 4 = false ∧
        (known h).2 4 = some ⟨⟨1, 1, 1, 1⟩, .free ⟨2, 1, 1, 1⟩⟩)) (by decide +kernel)
    have hp := of_decide_eq_true hp
    exact ⟨h, s, hr, (c28_numbers hr).2 hp.1, hp.2⟩

/-- The last listener leaves: the call to its group ends, the other goes on. -/
example : sent (fun _ => false) (begun ++ [.uSetup 1002 true (some 92) 0, .update (.deaffiliate 1002 [92]), .update (.deregister 1001)]) =
    some [[], [], [],
      [.open ⟨.both, 2, 4, 0, some 0, false⟩, .dCallProceeding (.station 1001) 4, .dConnect (.station 1001) 4 .granted true (some (4, 2)),
        .dSetup (.group 91) 4 .grantedToOther 1001 (4, 2)],
      [.open ⟨.both, 3, 5, 0, some 0, false⟩, .dCallProceeding (.station 1002) 5, .dConnect (.station 1002) 5 .granted true (some (5, 3)),
        .dSetup (.group 92) 5 .grantedToOther 1002 (5, 3)],
      [.dRelease (.group 92) 5 .swmiRequested, .close .both 3, .macEnded 5 3], []] := by decide +kernel

/-! ## Findings -/

/-- **Finding.** A station which is not talking ends the turn of the one which is. -/
theorem c29_any_station_ceases : ∃ h s s', CcRun (fun _ => false) h s ∧ (known h).2 4 = some ⟨⟨1, 1, 1, 1⟩, .talking 1001⟩ ∧
    s.step (.uTxCeased 1002 4) = .ok (s', [.dTxCeased (.group 91) 4 2, .macReleased 4 2]) := by
  obtain ⟨h, s, hr, hp⟩ := check_run (r := fun _ => false) begun
    (p := fun h s => decide ((known h).2 4 = some ⟨⟨1, 1, 1, 1⟩, .talking 1001⟩ ∧
      stepOut s (.uTxCeased 1002 4) = some [.dTxCeased (.group 91) 4 2, .macReleased 4 2])) (by decide +kernel)
  obtain ⟨h1, h2⟩ := of_decide_eq_true hp
  obtain ⟨s', h2⟩ := stepOut_eq h2
  exact ⟨h, s, s', hr, h1, h2⟩

/-- **Finding.** Any station, even one that never joined the group, ends a call with U-RELEASE. -/
theorem c29_any_station_releases : ∃ h s s', CcRun (fun _ => false) h s ∧ affiliated (updates h) 7777 91 = false ∧
    (known h).2 4 = some ⟨⟨1, 1, 1, 1⟩, .talking 1001⟩ ∧
    s.step (.uRelease 7777 4) = .ok (s', [.dRelease (.group 91) 4 .userRequested, .close .both 2, .macEnded 4 2]) := by
  obtain ⟨h, s, hr, hp⟩ := check_run (r := fun _ => false) begun
    (p := fun h s => decide ((affiliated (updates h) 7777 91 = false) ∧ (known h).2 4 = some ⟨⟨1, 1, 1, 1⟩, .talking 1001⟩ ∧
      stepOut s (.uRelease 7777 4) = some [.dRelease (.group 91) 4 .userRequested, .close .both 2, .macEnded 4 2])) (by decide +kernel)
  obtain ⟨h0, h1, h2⟩ := of_decide_eq_true hp
  obtain ⟨s', h2⟩ := stepOut_eq h2
  exact ⟨h, s, s', hr, h0, h1, h2⟩

/-- **Finding.** The station which set up the call can no longer disconnect it after another one talked; that one can. -/
theorem c29_owner_moves : ∃ h s s1 s2, CcRun (fun _ => false) h s ∧
    .dConnect (.station 1001) 4 .granted true (some (4, 2)) ∈ messages h ∧
    s.step (.uDisconnect 1001 4) = .ok (s1, [.dRelease (.station 1001) 4 .notAvailable]) ∧
    s.step (.uDisconnect 1002 4) = .ok (s2, [.dRelease (.group 91) 4 .userRequested, .close .both 2, .macEnded 4 2]) := by
  obtain ⟨h, s, hr, hp⟩ := check_run (r := fun _ => false) (begun ++ [.uTxCeased 1001 4, .uTxDemand 1002 4])
    (p := fun h s => decide (.dConnect (.station 1001) 4 .granted true (some (4, 2)) ∈ messages h ∧
      stepOut s (.uDisconnect 1001 4) = some [.dRelease (.station 1001) 4 .notAvailable] ∧
      stepOut s (.uDisconnect 1002 4) = some [.dRelease (.group 91) 4 .userRequested, .close .both 2, .macEnded 4 2])) (by decide +kernel)
  obtain ⟨h1, h2, h3⟩ := of_decide_eq_true hp
  obtain ⟨s1, h2⟩ := stepOut_eq h2
  obtain ⟨s2, h3⟩ := stepOut_eq h3
  exact ⟨h, s, s1, s2, hr, h1, h2, h3⟩

/-- **Finding.** A second request for a call to the same group, even by the same station, takes another timeslot. -/
theorem c28_one_group_two_calls : ∃ h s, CcRun (fun _ => false) h s ∧ heard (messages h) 4 = some (91, 4, 2) ∧
    heard (messages h) 5 = some (91, 5, 3) := by
  obtain ⟨h, s, hr, hp⟩ := check_run (r := fun _ => false) (begun ++ [.uSetup 1001 true (some 91) 0])
    (p := fun h _ => decide (heard (messages h) 4 = some (91, 4, 2) ∧ heard (messages h) 5 = some (91, 5, 3))) (by decide +kernel)
  exact ⟨h, s, hr, of_decide_eq_true hp⟩

/-- **Finding.** When all timeslots are taken, a call from the network is dropped without an answer: the network is neither
told that it is ready nor that it ended. -/
theorem c28_network_call_unanswered : ∃ h s, CcRun (fun _ => true) h s ∧ s.step (.netStart 9 5555 92) = .ok (s, []) := by
  obtain ⟨h, s, hr, hp⟩ := check_run (r := fun _ => true) (begun ++ [.uSetup 1001 true (some 91) 0, .uSetup 1001 true (some 91) 0])
    (p := fun _ s => decide (stepOut s (.netStart 9 5555 92) = some [] ∧ s.hasListener 92 = true ∧ s.calls.all (fun e => e.2.gssi ≠ 92) ∧
      s.alloc.owners = [some .cmce, some .cmce, some .cmce])) (by decide +kernel)
  obtain ⟨h1, h2, h3, h4⟩ := of_decide_eq_true hp
  refine ⟨h, s, hr, ?_⟩
  have hf : s.calls.find? (fun e => e.2.gssi = 92) = none := by
    rw [List.find?_eq_none]
    intro x hx
    have := List.all_eq_true.1 h3 x hx
    simpa using this
  have ha := allocateWith_cases (ccRun_inv hr) 1
  rcases ha with ⟨ha, _⟩ | ⟨a, i, k, ha, _⟩
  · have hrt : s.routable 92 = true := by rw [ccRun_routable hr]
    simp only [Cc.step, Cc.netStart, hrt, h2, hf, ha, if_true, Res.bind_ok]
    try rfl
  · simp [TsAlloc.Alloc.allocateAny, h4, TsAlloc.allocLoop] at ha

/-- **Finding.** A call which ends because of its age is not reported to the network, although its start was. -/
theorem c28_expiry_not_reported : ∃ h s s', CcRun (fun _ => true) h s ∧ .netGranted 4 1001 91 2 ∈ messages h ∧
    s.step (.tick ⟨1, 1, 1, 8⟩) = .ok (s', [.dRelease (.group 91) 4 .expiryOfTimer, .close .both 2]) := by
  obtain ⟨h, s, hr, hp⟩ := check_run (r := fun _ => true) begun
    (p := fun h s => decide (.netGranted 4 1001 91 2 ∈ messages h ∧
      stepOut s (.tick ⟨1, 1, 1, 8⟩) = some [.dRelease (.group 91) 4 .expiryOfTimer, .close .both 2])) (by decide +kernel)
  obtain ⟨h1, h2⟩ := of_decide_eq_true hp
  obtain ⟨s', h2⟩ := stepOut_eq h2
  exact ⟨h, s, s', hr, h1, h2⟩

/-- **Finding.** The network ends its call after a local station has taken over the floor: the local talker is cut off. And if
the local station has stopped by then, the call is released at once, without the hang time. -/
theorem c29_network_end_stops_local_talker :
    (∃ h s s', CcRun (fun _ => true) h s ∧ (known h).2 4 = some ⟨⟨1, 1, 1, 1⟩, .talking 1002⟩ ∧
      s.step (.netEnd 9) = .ok (s', [.dTxCeased (.group 91) 4 2, .macReleased 4 2])) ∧
    (∃ h s s', CcRun (fun _ => true) h s ∧ (known h).2 4 = some ⟨⟨1, 1, 1, 1⟩, .free ⟨1, 1, 1, 1⟩⟩ ∧ s.now = ⟨1, 1, 1, 1⟩ ∧
      s.step (.netEnd 9) = .ok (s', [.dRelease (.group 91) 4 .swmiRequested, .close .both 2, .macEnded 4 2])) := by
  constructor
  · obtain ⟨h, s, hr, hp⟩ := check_run (r := fun _ => true)
      [.tick ⟨1, 1, 1, 1⟩, .update (.affiliate 1002 [91]), .netStart 9 5555 91, .inactive 2, .uTxDemand 1002 4]
      (p := fun h s => decide ((known h).2 4 = some ⟨⟨1, 1, 1, 1⟩, .talking 1002⟩ ∧
        stepOut s (.netEnd 9) = some [.dTxCeased (.group 91) 4 2, .macReleased 4 2])) (by decide +kernel)
    obtain ⟨h1, h2⟩ := of_decide_eq_true hp
    obtain ⟨s', h2⟩ := stepOut_eq h2
    exact ⟨h, s, s', hr, h1, h2⟩
  · obtain ⟨h, s, hr, hp⟩ := check_run (r := fun _ => true)
      [.tick ⟨1, 1, 1, 1⟩, .update (.affiliate 1002 [91]), .netStart 9 5555 91, .inactive 2, .uTxDemand 1002 4, .uTxCeased 1002 4]
      (p := fun h s => decide ((known h).2 4 = some ⟨⟨1, 1, 1, 1⟩, .free ⟨1, 1, 1, 1⟩⟩ ∧ s.now = ⟨1, 1, 1, 1⟩ ∧
        stepOut s (.netEnd 9) = some [.dRelease (.group 91) 4 .swmiRequested, .close .both 2, .macEnded 4 2])) (by decide +kernel)
    obtain ⟨h1, h2, h3⟩ := of_decide_eq_true hp
    obtain ⟨s', h3⟩ := stepOut_eq h3
    exact ⟨h, s, s', hr, h1, h2, h3⟩

/-! ## Reuse of a number -/

/-- One call on timeslot 2, timeslots 3 and 4 free, about to give out number `callIdOf n`. -/
def oneCall (n : Nat) : Cc :=
  ⟨fun _ => false, Time.default, [(4, ⟨4, .grantedToOther, 1001, 91, none⟩)], held n firstCall, ⟨[some .cmce, none, none]⟩,
    [(4, ⟨.ms 1001, 91, 1001, 2, 4, true, none, none⟩)], [(1001, [91])], [(91, 1)]⟩

theorem oneCall_short {n : Nat} (hn : callIdOf n ≠ 4) : ∃ s1 o1 o2, (oneCall n).step (.uSetup 1001 true (some 91) 0) = .ok (s1, o1) ∧
    s1.step (.uRelease 1001 (callIdOf n)) = .ok (oneCall (n + 1), o2) := by
  have hi : Slots.idx 3 = .ok 2 := rfl
  have hl : (oneCall n).hasListener 91 = true := rfl
  have ha : (held n firstCall).allocateWith .both 0 ⟨[some .cmce, none, none]⟩ .cmce =
      .ok ((held n firstCall).opened 2 (shortCall n), ⟨[some .cmce, some .cmce, none]⟩, .ok (shortCall n)) := by
    simp [Mgr.allocateWith, TsAlloc.Alloc.allocateAny, TsAlloc.allocLoop, Mgr.openCircuit, Mgr.draw, hi, Mgr.isActive, held, isBoth,
      Mgr.opened, shortCall, Dir.includesDl, Dir.includesUl]
  have hstep : ∃ o1, (oneCall n).step (.uSetup 1001 true (some 91) 0) = .ok (
      { oneCall n with mgr := (held n firstCall).opened 2 (shortCall n), alloc := ⟨[some .cmce, some .cmce, none]⟩,
                       setups := (oneCall n).setups.insert (callIdOf n) ⟨callIdOf n, .grantedToOther, 1001, 91, none⟩,
                       calls := (oneCall n).calls.insert (callIdOf n) ⟨.ms 1001, 91, 1001, 3, usageOf n, true, none, none⟩ }, o1) := by
    have ha' : (oneCall n).mgr.allocateWith .both 0 (oneCall n).alloc .cmce = _ := ha
    simp only [Cc.step, Cc.setup, hl, if_true, ha', Res.bind_ok, Cc.openLocal]
    exact ⟨_, rfl⟩
  obtain ⟨o1, hstep⟩ := hstep
  have key : ∀ s : Cc, s = { oneCall n with
        mgr := (held n firstCall).opened 2 (shortCall n), alloc := ⟨[some .cmce, some .cmce, none]⟩,
        setups := (oneCall n).setups.insert (callIdOf n) ⟨callIdOf n, .grantedToOther, 1001, 91, none⟩,
        calls := (oneCall n).calls.insert (callIdOf n) ⟨.ms 1001, 91, 1001, 3, usageOf n, true, none, none⟩ } →
      ∃ o2, s.step (.uRelease 1001 (callIdOf n)) = .ok (oneCall (n + 1), o2) := by
    rintro s rfl
    have hc : ((held n firstCall).opened 2 (shortCall n)).close .both 3 = .ok (held (n + 1) firstCall, .ok (shortCall n)) := by
      simp only [Mgr.close, hi, Res.bind_ok, Mgr.opened, held, ← callIdOf_succ, ← usageOf_succ]
      congr 3
      · funext i
        simp only [Slots.upd_apply]
        split
        · rename_i e; subst e; rfl
        · rfl
      · funext i; simp only [Slots.upd_apply]; split
        · rfl
        · rfl
    simp only [Cc.step, Cc.release, Assoc.get_insert_self, Cc.freeCall, hc, Res.bind_ok]
    have e1 : ((oneCall n).setups.insert (callIdOf n) ⟨callIdOf n, .grantedToOther, 1001, 91, none⟩).erase (callIdOf n) = (oneCall n).setups := by
      simp [Assoc.insert, Assoc.erase, oneCall, Ne.symm hn]
    have e2 : ((oneCall n).calls.insert (callIdOf n) ⟨.ms 1001, 91, 1001, 3, usageOf n, true, none, none⟩).erase (callIdOf n) =
        (oneCall n).calls := by
      simp [Assoc.insert, Assoc.erase, oneCall, Ne.symm hn]
    rw [e1, e2]
    exact ⟨_, rfl⟩
  obtain ⟨o2, h2⟩ := key _ rfl
  exact ⟨_, o1, o2, hstep, h2⟩

theorem oneCall_reached (n : Nat) (hn : n ≤ 1022) : ∃ h, CcRun (fun _ => false) h (oneCall (n + 1)) := by
  induction n with
  | zero =>
    have h1 : (Cc.init fun _ => false).step (.update (.affiliate 1001 [91])) =
        .ok ({ Cc.init (fun _ => false) with groups := [(1001, [91])], listeners := [(91, 1)] }, []) := rfl
    have h2 : ∃ o, ({ Cc.init (fun _ => false) with groups := [(1001, [91])], listeners := [(91, 1)] } : Cc).step
        (.uSetup 1001 true (some 91) 0) = .ok (oneCall 1, o) := by
      have hi : Slots.idx 2 = .ok 1 := rfl
      have ha : (Cc.init fun _ => false).mgr.allocateWith .both 0 (Cc.init fun _ => false).alloc .cmce =
          .ok (held 1 firstCall, ⟨[some .cmce, none, none]⟩, .ok firstCall) := by
        have e2 : (Slots.upd (fun _ => []) 1 [] : Slots (List (List Nat))) = fun _ => [] := by
          funext i; simp only [Slots.upd_apply]; split <;> rfl
        have : (Cc.init fun _ => false).mgr.allocateWith .both 0 (Cc.init fun _ => false).alloc .cmce =
          .ok ({ held 1 firstCall with txData := Slots.upd (fun _ => []) 1 [] }, ⟨[some .cmce, none, none]⟩, .ok firstCall) := rfl
        rw [this, e2]; rfl
      have hl : ({ Cc.init (fun _ => false) with groups := [(1001, [91])], listeners := [(91, 1)] } : Cc).hasListener 91 = true := rfl
      simp only [Cc.step, Cc.setup, hl, if_true, ha, Res.bind_ok, Cc.openLocal]
      exact ⟨_, rfl⟩
    obtain ⟨o, h2⟩ := h2
    exact ⟨_, (CcRun.init.step h1).step h2⟩
  | succ n ih =>
    obtain ⟨h, hr⟩ := ih (by omega)
    obtain ⟨s1, o1, o2, h1, h2⟩ := oneCall_short (n := n + 1) (by unfold callIdOf; omega)
    exact ⟨_, (hr.step h1).step h2⟩

/-- **Finding.** After 1023 calls the number of a call which is still going on is given out again. The new call replaces the old
one in the tables: timeslot 2 stays occupied without a call. When the circuit of the old call gets too old, the new call is
torn down in its place, three minutes old, and now timeslot 3 stays occupied without a call. -/
theorem c28_reused_number : ∃ h s s', CcRun (fun _ => false) h s ∧
    s.calls.map (fun e => (e.1, e.2.ts)) = [(4, 3)] ∧ s.alloc.owners = [some .cmce, some .cmce, none] ∧
    s.now = ⟨2, 1, 1, 5⟩ ∧ s.step (.tick ⟨1, 1, 1, 8⟩) = .ok (s', [.dRelease (.group 91) 4 .expiryOfTimer, .close .both 2]) ∧
    s'.calls = [] ∧ s'.alloc.owners = [none, some .cmce, none] := by
  obtain ⟨h0, hr0⟩ := oneCall_reached 1022 (Nat.le_refl _)
  have key : (match (oneCall 1023).run [.tick ⟨2, 1, 1, 5⟩, .uSetup 1001 true (some 91) 0] with
      | .ok q => decide (q.1.calls.map (fun e => (e.1, e.2.ts)) = [(4, 3)] ∧ q.1.alloc.owners = [some .cmce, some .cmce, none] ∧
          q.1.now = ⟨2, 1, 1, 5⟩) && (match q.1.step (.tick ⟨1, 1, 1, 8⟩) with
            | .ok w => decide (w.2 = [.dRelease (.group 91) 4 .expiryOfTimer, .close .both 2] ∧ w.1.calls = [] ∧
                w.1.alloc.owners = [none, some .cmce, none])
            | .panic => false)
      | .panic => false) = true := by decide +kernel
  cases hq : (oneCall 1023).run [.tick ⟨2, 1, 1, 5⟩, .uSetup 1001 true (some 91) 0] with
  | panic => rw [hq] at key; cases key
  | ok q =>
    rw [hq] at key
    simp only [Bool.and_eq_true] at key
    obtain ⟨k1, k2⟩ := key
    obtain ⟨k3, k4, k5⟩ := of_decide_eq_true k1
    cases hw : q.1.step (.tick ⟨1, 1, 1, 8⟩) with
    | panic => rw [hw] at k2; cases k2
    | ok w =>
      rw [hw] at k2
      obtain ⟨k6, k7, k8⟩ := of_decide_eq_true k2
      refine ⟨_, q.1, w.1, run_ccRun _ hr0 (by rw [hq]), k3, k4, k5, ?_, k7, k8⟩
      rw [hw, ← k6]

end Verif.Cmce
