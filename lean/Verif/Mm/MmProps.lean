import Verif.Mm.MmEffects
import Verif.Cmce.CallMembersProps
/-!
# C32, C51-C55: mobility management
-/
namespace Verif.Mm
open Verif.Bits Verif.Codec Verif.TypedFields Verif.Config Verif.Cmce

/-! ## C32: agreement with call control -/

/-- **C32.** Call control never counts a station for a group mobility management does not hold it attached to, and knows
exactly the registered stations. -/
theorem c32_never_more {c : Brew.Cfg} {h : List (MmIn × List MmOut)} {s : Mm} (hr : MmRun c h s) :
    (∀ i g, affiliated (toCmce (sent h)) i g = true → s.attached i g = true) ∧
    (∀ i, registered (toCmce (sent h)) i = s.known i) := by
  obtain ⟨hf, _⟩ := run_fits hr
  rw [world_eq] at hf
  exact ⟨hf.below, hf.reg⟩

/-- **C32, partial.** The groups call control counts for a station are exactly those mobility management holds, as long as no
message detaches a group and later attaches the same group again. Missing: those messages, for which it is false
(`c32_reattach_lost`). -/
theorem c32_agree_partial {c : Brew.Cfg} {h : List (MmIn × List MmOut)} {s : Mm} (hr : MmRun c h s)
    (hn : ∀ x ∈ h, NoReattach (entriesOf x.1.bits)) (i g : Nat) : affiliated (toCmce (sent h)) i g = s.attached i g := by
  obtain ⟨_, he⟩ := run_fits hr
  have := he hn
  rw [world_eq] at this
  exact this i g

/-- The same through call control itself: when it has received the updates so far, it has a listener for a group exactly if a
station is attached to it. -/
theorem c32_listener_partial {c : Brew.Cfg} {h : List (MmIn × List MmOut)} {s : Mm} (hr : MmRun c h s)
    (hn : ∀ x ∈ h, NoReattach (entriesOf x.1.bits)) {r : Nat → Bool} {hc : List (CcEv × List CcOut)} {cc : Cc} (hrc : CcRun r hc cc)
    (hu : updates hc = toCmce (sent h)) (g : Nat) : cc.hasListener g = true ↔ ∃ i, s.attached i g = true := by
  rw [c30_listener hrc, hu]
  simp only [c32_agree_partial hr hn]

/-- Runs a list of messages; the property is checked on the state and on everything sent. -/
def replay (c : Brew.Cfg) (P : Mm → List MmOut → Bool) : Mm → List MmOut → List MmIn → Bool
  | s, out, [] => P s out
  | s, out, m :: ms => match s.rx c m.handle m.issi m.bits with
    | .ok (s', o) => replay c P s' (out ++ o) ms
    | .panic => false

theorem replay_run {c : Brew.Cfg} {P : Mm → List MmOut → Bool} (ms : List MmIn) : ∀ {h : List (MmIn × List MmOut)} {s : Mm},
    MmRun c h s → replay c P s (sent h) ms = true →
    ∃ h' s', MmRun c h' s' ∧ h'.map Prod.fst = h.map Prod.fst ++ ms ∧ P s' (sent h') = true := by
  induction ms with
  | nil => exact fun hr hp => ⟨_, _, hr, by simp, hp⟩
  | cons m ms ih =>
    intro h s hr hp
    unfold replay at hp
    cases hq : s.rx c m.handle m.issi m.bits with
    | panic => rw [hq] at hp; cases hp
    | ok r =>
      obtain ⟨s', o⟩ := r
      rw [hq] at hp
      obtain ⟨h', s'', h1, h2, h3⟩ := ih (.step hr hq) (by simpa [sent] using hp)
      exact ⟨h', s'', h1, by simpa using h2, h3⟩

/-- A message attaching or detaching groups. -/
def reportMsg (issi : Nat) (mode : Bool) (l : List GroupUplink) : MmIn :=
  ⟨0, issi, match UAttachDetach.enc ⟨false, mode, none, some l, none⟩ with | .ok b => b | _ => []⟩

/-- A station attaches to a group, then detaches from it and attaches again in one message, then asks for it once more. -/
def reattachHistory : List MmIn :=
  let on : GroupUplink := ⟨some 4, none, some 91, none, none⟩
  let off : GroupUplink := ⟨none, some 0, some 91, none, none⟩
  [reportMsg 1000 true [on], reportMsg 1000 false [off, on], reportMsg 1000 false [on]]

/-- **Finding (C32).** After a message which detaches a group and attaches it again, mobility management holds the station
attached and call control does not; asking for the group once more does not help. -/
theorem c32_reattach_lost : ∃ c h s, MmRun c h s ∧ h.map Prod.fst = reattachHistory ∧
    s.attached 1000 91 = true ∧ s.registry.hasGroupMembers 91 = true ∧ affiliated (toCmce (sent h)) 1000 91 = false := by
  obtain ⟨h, s, h1, h2, h3⟩ := replay_run (c := ⟨none, []⟩) reattachHistory .start (show replay _ (fun s out =>
    s.attached 1000 91 && s.registry.hasGroupMembers 91 && !affiliated (toCmce out) 1000 91) _ _ _ = true by decide +kernel)
  simp only [Bool.and_eq_true, Bool.not_eq_true'] at h3
  exact ⟨_, h, s, h1, h2, by simpa [and_assoc] using h3⟩

/-! ## C51: agreement with the registry -/

/-- **C51.** The subscriber registry the rest of the station asks holds exactly the stations and groups of mobility management,
and knows of a group exactly if some station is attached to it. -/
theorem c51_registry {c : Brew.Cfg} {h : List (MmIn × List MmOut)} {s : Mm} (hr : MmRun c h s) :
    (∀ i, s.registry.isRegistered i = s.known i) ∧
    (∀ i g, g ∈ s.registry.groupsOf i ↔ s.attached i g = true) ∧
    (∀ g, s.registry.hasGroupMembers g = true ↔ ∃ i, s.attached i g = true) := by
  obtain ⟨hf, _⟩ := run_fits hr
  have hg : ∀ i g, g ∈ s.registry.groupsOf i ↔ s.attached i g = true := by
    intro i g
    simp only [Registry.groupsOf, hf.same, Mm.attached, Mm.groups, List.contains_iff_mem]
  refine ⟨fun i => by simp only [Registry.isRegistered, hf.same, Mm.known], hg, fun g => ?_⟩
  obtain ⟨ops, ho⟩ := hf.ops
  simp only [Registry.hasGroupMembers, List.contains_iff_mem, ho.all g, Registry.all_iff_groups, hg]

/-! ## C54: what the backhaul learns -/

/-- **C54.** With a backhaul, it knows exactly the routable registered stations, and of the groups call control counts exactly
the routable ones. -/
theorem c54_backhaul {c : Brew.Cfg} {h : List (MmIn × List MmOut)} {s : Mm} (hr : MmRun c h s) (ha : Brew.isActive c = true) :
    (∀ i, registered (toBrew (sent h)) i = (s.known i && Brew.issiRoutable c i)) ∧
    (∀ i g, affiliated (toBrew (sent h)) i g = (affiliated (toCmce (sent h)) i g && Brew.gssiRoutable c g)) := by
  obtain ⟨hf, _⟩ := run_fits hr
  rw [world_eq] at hf
  exact ⟨hf.breg ha, hf.baff ha⟩

/-- **C54.** Message by message, the backhaul is sent the routable part of what call control is sent, in the same order; and
nothing at all without a backhaul. -/
theorem c54_same_order {c : Brew.Cfg} {s s' : Mm} {handle issi : Nat} {bits : List Bool} {out : List MmOut}
    (h : s.rx c handle issi bits = .ok (s', out)) :
    (Brew.isActive c = true → toBrew out = (toCmce out).flatMap (brewPart c)) ∧ (Brew.isActive c = false → toBrew out = []) := by
  have := mirrors_rx h
  unfold Mirrors at this
  exact ⟨fun ha => by rw [this, if_pos ha], fun ha => by rw [this, if_neg (by simp [ha])]⟩

/-! ## C55: telemetry -/

/-- **C55, partial.** Telemetry reports exactly the registered stations, and at least the attached groups. Missing: that it reports
no more groups, which is false (`c55_detach_unreported`). -/
theorem c55_telemetry_partial {c : Brew.Cfg} {h : List (MmIn × List MmOut)} {s : Mm} (hr : MmRun c h s) :
    (∀ i, telRegistered (toTelemetry (sent h)) i = s.known i) ∧
    (∀ i g, s.attached i g = true → telAttached (toTelemetry (sent h)) i g = true) := by
  obtain ⟨hf, _⟩ := run_fits hr
  rw [world_eq] at hf
  exact ⟨hf.treg, hf.above⟩

/-- A station attaches to a group and detaches from it. -/
def detachHistory : List MmIn :=
  [reportMsg 1000 true [⟨some 4, none, some 91, none, none⟩], reportMsg 1000 false [⟨none, some 0, some 91, none, none⟩]]

/-- **Finding (C55).** Detaching from a single group is not reported: telemetry goes on showing the station in the group. -/
theorem c55_detach_unreported : ∃ c h s, MmRun c h s ∧ h.map Prod.fst = detachHistory ∧
    s.attached 1000 91 = false ∧ affiliated (toCmce (sent h)) 1000 91 = false ∧ telAttached (toTelemetry (sent h)) 1000 91 = true := by
  obtain ⟨h, s, h1, h2, h3⟩ := replay_run (c := ⟨none, []⟩) detachHistory .start (show replay _ (fun s out =>
    !s.attached 1000 91 && !affiliated (toCmce out) 1000 91 && telAttached (toTelemetry out) 1000 91) _ _ _ = true by decide +kernel)
  simp only [Bool.and_eq_true, Bool.not_eq_true'] at h3
  exact ⟨_, h, s, h1, h2, by simpa [and_assoc] using h3⟩

/-! ## C52: what a mobile asks for is done and confirmed -/

/-- The command to report all groups goes to a station which was not known, unless it is just being switched on (type 3). -/
def commandsFor (s : Mm) (handle issi updateType : Nat) : List (Nat × Nat × List Bool) :=
  if s.known issi = false ∧ updateType ≠ 3 then
    match updateCommand.enc with
    | .ok b => [(handle, issi, b)]
    | _ => []
  else []

/-- **C52.** A location update demand of a supported kind registers the station, attaches and detaches it as asked, the last
entry for a group deciding, leaves other stations alone, and is answered once, to the sender, with an acceptance of the same
type which carries the station's number and confirms exactly the plain groups asked for, in order; a station not known before
is then commanded to report its groups. -/
theorem c52_location_update {c : Brew.Cfg} (s : Mm) {handle issi : Nat} (hi : issi < 2 ^ 24) {bits rest : List Bool} {x : ULocationUpdateDemand}
    (hx : ULocationUpdateDemand.dec.run bits = .ok (x, rest)) (ha : x.Acceptable) :
    ∃ s' out sdu y, s.rx c handle issi bits = .ok (s', out) ∧
      s'.known issi = true ∧
      (∀ g, s'.attached issi g = afterWords (s.attached issi g) ((demandEntries x.groupDemand).filterMap GroupUplink.word) g) ∧
      (∀ i, i ≠ issi → s'.clients.get i = s.clients.get i) ∧
      answers out = (handle, issi, sdu) :: commandsFor s handle issi x.updateType ∧
      DLocationUpdateAccept.dec.run sdu = .ok (y, []) ∧
      y.acceptType = x.updateType ∧ y.ssi = some issi ∧
      y.groupAccept = x.groupDemand.map fun d => ⟨0, d.groups.map confirm⟩ := by
  have hs := x.supported_iff.mpr ha
  obtain ⟨hl, h4⟩ := type_of hx
  obtain ⟨ht, hen⟩ := gives_locationUpdate _ _ _ hx
  -- the client is there
  let r := if !s.known issi then s.addClient c issi else (s, [])
  have hr1 : ∃ gs, r.1.clients.get issi = some gs := by
    cases hk : s.clients.get issi with
    | none => simp [r, Mm.known, hk, Mm.addClient]
    | some gs => exact ⟨gs, by simp [r, Mm.known, hk]⟩
  have hr2 : ∀ i, i ≠ issi → r.1.clients.get i = s.clients.get i := by
    intro i hne
    cases hk : s.clients.get issi with
    | none => simp [r, Mm.known, hk, Mm.addClient, Assoc.get_insert, Assoc.get_erase, Ne.symm hne]
    | some gs => simp [r, Mm.known, hk]
  have hr3 : ∀ g, r.1.attached issi g = s.attached issi g := by
    intro g
    cases hk : s.clients.get issi with
    | none => simp [r, Mm.known, hk, Mm.addClient, Mm.attached, Mm.groups]
    | some gs => simp [r, Mm.known, hk]
  have hr4 : answers r.2 = [] := by
    simp only [r]; split
    · exact answers_addClient c s issi
    · rfl
  obtain ⟨gs, hgs⟩ := hr1
  -- the groups
  have hg : (∀ i, i ≠ issi → (r.1.demandGroups c issi x.groupDemand).1.clients.get i = r.1.clients.get i) ∧
      (r.1.demandGroups c issi x.groupDemand).1.known issi = true ∧
      (∀ g, (r.1.demandGroups c issi x.groupDemand).1.attached issi g =
        afterWords (r.1.attached issi g) ((demandEntries x.groupDemand).filterMap GroupUplink.word) g) ∧
      (r.1.demandGroups c issi x.groupDemand).2.2 = x.groupDemand.map fun d => ⟨0, d.groups.map confirm⟩ := by
    match x.groupDemand with
    | none => exact ⟨fun _ _ => rfl, known_eq hgs, fun _ => rfl, rfl⟩
    | some ⟨m, none⟩ => exact ⟨fun _ _ => rfl, known_eq hgs, fun _ => rfl, rfl⟩
    | some ⟨m, some xs⟩ =>
      obtain ⟨a1, a2, a3, a4⟩ := attachDetach_known (c := c) xs hgs
      refine ⟨a1, a2, a3, ?_⟩
      simp [Mm.demandGroups, a4]
  obtain ⟨g1, g2, g3, g4⟩ := hg
  -- the answer
  have hacc : ∀ a, (r.1.demandGroups c issi x.groupDemand).2.2 = some a → a.Ok := by
    intro a ha
    rw [g4] at ha
    match hd : x.groupDemand, ha with
    | some ⟨m, none⟩, ha =>
      simp at ha; subst ha
      exact ⟨by simp, by simp⟩
    | some ⟨m, some xs⟩, ha =>
      simp at ha; subst ha
      refine ⟨by simp, fun gs he => ?_⟩
      simp at he; subst he
      rw [hd] at hen
      exact confirm_ok hen
  obtain ⟨sdu, e1, _, e3⟩ := unwrap_roundTrip (c38_mm_location_update_accept _ (accept_ok ht hi hacc))
  have hcmd : ∃ cmd, sendCommand (!s.known issi && x.updateType ≠ 3) handle issi = .ok cmd ∧ answers cmd = commandsFor s handle issi x.updateType := by
    unfold sendCommand commandsFor
    cases hk : s.known issi with
    | true => simp [answers]
    | false =>
      by_cases h3 : x.updateType = 3
      · simp [h3, answers]
      · have he : updateCommand.enc = .ok [false, true, true, false, true, false, false] := by decide +kernel
        simp [h3, he, unwrapOut, answers]
  obtain ⟨cmd, c1, c2⟩ := hcmd
  refine ⟨(r.1.demandGroups c issi x.groupDemand).1,
    r.2 ++ (r.1.demandGroups c issi x.groupDemand).2.1 ++ [.answer handle issi sdu] ++ cmd, sdu, _, ?_, g2, ?_, ?_, ?_, e3, rfl, rfl, g4⟩
  · unfold Mm.rx
    rw [if_neg (by omega)]
    simp only [h4, show ¬ (2 = 1) by omega, if_false, if_true]
    rw [hx]
    simp only [onParsed, Mm.locationUpdate, hs, if_true]
    have e1' : unwrapOut (updateAccept x.updateType issi
        (Mm.demandGroups c (if (!s.known issi) = true then Mm.addClient c s issi else (s, [])).1 issi x.groupDemand).2.2).enc = .ok sdu := e1
    rw [e1', Res.bind_ok, c1, Res.bind_ok]
  · intro g; rw [g3, hr3]
  · intro i hne; rw [g1 i hne, hr2 i hne]
  · simp only [answers_append, hr4, answers_demandGroups, c2, List.nil_append]
    rfl

/-- **C52.** A group report is answered once, to the sender. With mode one the station is registered if it was not, and starts from
no groups; otherwise from those it has. Then it is attached and detached as asked and the answer confirms exactly the plain
groups asked for; except that a station not known is left so, and nothing confirmed, if the mode is not one. -/
theorem c52_group_report {c : Brew.Cfg} (s : Mm) {handle issi : Nat} {bits rest : List Bool} {x : UAttachDetach}
    (hx : UAttachDetach.dec.run bits = .ok (x, rest)) {xs : List GroupUplink} (hxs : x.groups = some xs) :
    ∃ s' out sdu y, s.rx c handle issi bits = .ok (s', out) ∧
      s'.known issi = (x.mode || s.known issi) ∧
      ((x.mode || s.known issi) = true →
        (∀ g, s'.attached issi g = afterWords (s.attached issi g && !x.mode) (xs.filterMap GroupUplink.word) g) ∧ y.groups = some (confirm xs)) ∧
      ((x.mode || s.known issi) = false → (∀ g, s'.attached issi g = false) ∧ y.groups = some []) ∧
      (∀ i, i ≠ issi → s'.clients.get i = s.clients.get i) ∧
      answers out = [(handle, issi, sdu)] ∧
      DAttachDetachAck.dec.run sdu = .ok (y, []) ∧ y.acceptReject = 0 := by
  obtain ⟨hl, h4⟩ := type_of hx
  have hen := gives_attachDetach _ _ _ hx xs hxs
  let r := if x.mode then s.startOver c issi else (s, [])
  have hr2 : ∀ i, i ≠ issi → r.1.clients.get i = s.clients.get i := by
    intro i hne
    simp only [r]
    split
    · unfold Mm.startOver
      cases hk : s.clients.get issi with
      | none => simp [Mm.addClient, Assoc.get_insert, Assoc.get_erase, Ne.symm hne]
      | some gs => simp [Assoc.get_insert, Ne.symm hne]
    · rfl
  have hr1 : r.1.known issi = (x.mode || s.known issi) := by
    simp only [r]
    cases x.mode with
    | false => simp
    | true =>
      simp only [if_true, Bool.true_or]
      unfold Mm.startOver
      cases hk : s.clients.get issi with
      | none => simp [Mm.addClient, Mm.known]
      | some gs => simp [Mm.known]
  have hr3 : ∀ g, r.1.attached issi g = (s.attached issi g && !x.mode) := by
    intro g
    simp only [r]
    cases x.mode with
    | false => simp
    | true =>
      simp only [if_true, Bool.not_true, Bool.and_false]
      unfold Mm.startOver
      cases hk : s.clients.get issi with
      | none => simp [Mm.addClient, Mm.attached, Mm.groups]
      | some gs => simp [Mm.attached, Mm.groups]
  have hr4 : answers r.2 = [] := by
    simp only [r]; split
    · exact answers_startOver c s issi
    · rfl
  have hacc : DownlinkList (r.1.attachDetach c issi xs).2.2 := by
    cases hk : r.1.clients.get issi with
    | none => rw [attachDetach_unknown xs hk]; exact ⟨by simp, by simp, by simp⟩
    | some gs => rw [(attachDetach_known xs hk).2.2.2]; exact (confirm_ok hen).1
  obtain ⟨sdu, e1, _, e3⟩ := unwrap_roundTrip (c38_mm_downlink_ack ⟨0, false, none, some (r.1.attachDetach c issi xs).2.2, none⟩
    (by simp) (by simp [RawOk]) (fun gs hg => by simp only [Option.some.injEq] at hg; exact hg ▸ hacc) rfl)
  refine ⟨(r.1.attachDetach c issi xs).1, r.2 ++ (r.1.attachDetach c issi xs).2.1 ++ [.answer handle issi sdu], sdu, _,
    ?_, ?_, ?_, ?_, ?_, ?_, e3, rfl⟩
  · unfold Mm.rx
    rw [if_neg (by omega)]
    simp only [h4, show ¬ (7 = 1) by omega, show ¬ (7 = 2) by omega, show ¬ (7 = 3) by omega, if_false, if_true]
    rw [hx]
    simp only [onParsed, Mm.groupReport, hxs]
    have e1' : unwrapOut (DAttachDetachAck.enc ⟨0, false, none,
        some (Mm.attachDetach c (if x.mode = true then s.startOver c issi else (s, [])).1 issi xs).2.2, none⟩) = .ok sdu := e1
    rw [e1', Res.bind_ok]
  · rw [← hr1]
    cases hk : r.1.clients.get issi with
    | none => rw [attachDetach_unknown xs hk]
    | some gs => rw [(attachDetach_known xs hk).2.1, known_eq hk]
  · intro hk
    rw [← hr1] at hk
    cases hc : r.1.clients.get issi with
    | none => simp [Mm.known, hc] at hk
    | some gs =>
      obtain ⟨_, _, a3, a4⟩ := attachDetach_known (c := c) xs hc
      refine ⟨fun g => ?_, by rw [a4]⟩
      rw [a3, hr3]
  · intro hk
    rw [← hr1] at hk
    cases hc : r.1.clients.get issi with
    | some gs => rw [known_eq hc] at hk; cases hk
    | none =>
      rw [attachDetach_unknown xs hc]
      refine ⟨fun g => ?_, rfl⟩
      simp [Mm.attached, Mm.groups, hc]
  · intro i hne
    rw [← hr2 i hne]
    cases hk : r.1.clients.get issi with
    | none => rw [attachDetach_unknown xs hk]
    | some gs => exact (attachDetach_known xs hk).1 i hne
  · simp only [answers_append, hr4, answers_attachDetach, List.nil_append]
    rfl

/-- **C52.** ITSI DETACH removes the station with all its groups, and nothing else, without an answer. -/
theorem c52_itsi_detach {c : Brew.Cfg} (s : Mm) {handle issi : Nat} {bits rest : List Bool} {x : UItsiDetach}
    (hx : UItsiDetach.dec.run bits = .ok (x, rest)) :
    ∃ s' out, s.rx c handle issi bits = .ok (s', out) ∧ s'.known issi = false ∧ (∀ g, s'.attached issi g = false) ∧
      (∀ i, i ≠ issi → s'.clients.get i = s.clients.get i) ∧ answers out = [] := by
  obtain ⟨hl, h4⟩ := type_of hx
  refine ⟨(s.itsiDetach c issi).1, (s.itsiDetach c issi).2, ?_, ?_, ?_, ?_, answers_itsiDetach c s issi⟩
  · unfold Mm.rx
    rw [if_neg (by omega)]
    simp only [h4, if_true]
    rw [hx]
    rfl
  all_goals unfold Mm.itsiDetach; cases hk : s.clients.get issi with
    | none => simp [Mm.known, Mm.attached, Mm.groups, hk]
    | some gs => simp +contextual [Mm.known, Mm.attached, Mm.groups, Assoc.get_erase, Ne.symm]

/-- **C52.** Every MM status is answered once, to the sender, with MM PDU/FUNCTION NOT SUPPORTED naming the PDU type (3) and the
status, and changes nothing. -/
theorem c52_status {c : Brew.Cfg} (s : Mm) {handle issi : Nat} {bits rest : List Bool} {x : UMmStatus}
    (hx : UMmStatus.dec.run bits = .ok (x, rest)) :
    s.rx c handle issi bits = .ok (s, [.answer handle issi
      (toBits 4 15 ++ toBits 4 3 ++ [true, true] ++ toBits 6 x.status ++ [false])]) := by
  obtain ⟨hl, h4⟩ := type_of hx
  have hs := gives_mmStatus _ _ _ hx
  have e : NotSupported.enc ⟨3, some (6, x.status)⟩ = .ok (toBits 4 15 ++ toBits 4 3 ++ [true, true] ++ toBits 6 x.status ++ [false]) := by
    simp [NotSupported.enc, wBits_ok, wFlag, wType2, hs]
  unfold Mm.rx
  rw [if_neg (by omega)]
  simp only [h4, show ¬ (3 = 1) by omega, show ¬ (3 = 2) by omega, if_false, if_true]
  rw [hx]
  simp only [onParsed, Mm.status, e, unwrapOut, Res.bind_ok]

/-- **C52.** A message which cannot be read, an update demand of a kind not supported, a group report without groups and a message
of another type change nothing and are not answered. -/
theorem c52_refused {c : Brew.Cfg} (s : Mm) {handle issi : Nat} {bits : List Bool}
    (h : bits.length < 4 ∨ ofBits (bits.take 4) ∉ [1, 2, 3, 7] ∨
      (ofBits (bits.take 4) = 1 ∧ UItsiDetach.dec.run bits = .err) ∨
      (ofBits (bits.take 4) = 3 ∧ UMmStatus.dec.run bits = .err) ∨
      (ofBits (bits.take 4) = 2 ∧ (ULocationUpdateDemand.dec.run bits = .err ∨
        ∃ x rest, ULocationUpdateDemand.dec.run bits = .ok (x, rest) ∧ ¬ x.Acceptable)) ∨
      (ofBits (bits.take 4) = 7 ∧ (UAttachDetach.dec.run bits = .err ∨
        ∃ x rest, UAttachDetach.dec.run bits = .ok (x, rest) ∧ x.groups = none))) :
    s.rx c handle issi bits = .ok (s, []) := by
  unfold Mm.rx
  split
  · rfl
  · rename_i hl
    rcases h with h | h | ⟨h, h'⟩ | ⟨h, h'⟩ | ⟨h, h' | ⟨x, r, h', h''⟩⟩ | ⟨h, h' | ⟨x, r, h', h''⟩⟩
    · exact (hl h).elim
    · simp only [List.mem_cons, List.not_mem_nil, or_false, not_or] at h
      simp only [h.1, h.2.1, h.2.2.1, h.2.2.2, if_false]
    all_goals simp [h, h', onParsed]
    · rw [← ULocationUpdateDemand.supported_iff] at h''
      simp [Mm.locationUpdate, h'']
    · simp [Mm.groupReport, h'']

/-! ## C53: nothing a mobile sends aborts mobility management, but for broken elements -/

/-- The reader of the message's type aborts. -/
def Breaks (bits : List Bool) : Prop :=
  4 ≤ bits.length ∧ ((ofBits (bits.take 4) = 1 ∧ UItsiDetach.dec.run bits = .panic) ∨
    (ofBits (bits.take 4) = 2 ∧ ULocationUpdateDemand.dec.run bits = .panic) ∨
    (ofBits (bits.take 4) = 7 ∧ UAttachDetach.dec.run bits = .panic))

theorem rx_breaks {c : Brew.Cfg} (s : Mm) {handle issi : Nat} {bits : List Bool} (h : Breaks bits) : s.rx c handle issi bits = .panic := by
  obtain ⟨hl, ⟨h1, h2⟩ | ⟨h1, h2⟩ | ⟨h1, h2⟩⟩ := h <;> unfold Mm.rx <;> rw [if_neg (by omega)] <;> simp [h1, h2, onParsed]

/-- **C53, exactly.** In every state, a message aborts mobility management if and only if the reader of its type aborts: nothing of
what is done with a message which was read aborts. -/
theorem c53_mm_iff {c : Brew.Cfg} (s : Mm) {handle issi : Nat} (hi : issi < 2 ^ 24) {bits : List Bool} :
    s.rx c handle issi bits = .panic ↔ Breaks bits := by
  constructor
  · intro h
    have h0 := h
    unfold Mm.rx at h
    split at h
    · cases h
    refine ⟨by omega, ?_⟩
    simp only at h
    split at h
    · cases hx : UItsiDetach.dec.run bits with
      | panic => exact .inl ⟨‹_›, rfl⟩
      | err => rw [hx] at h; cases h
      | ok r => rw [hx] at h; cases h
    split at h
    · cases hx : ULocationUpdateDemand.dec.run bits with
      | panic => exact .inr (.inl ⟨‹_›, rfl⟩)
      | err => rw [hx] at h; cases h
      | ok r =>
        cases hs : r.1.supported with
        | true =>
          obtain ⟨s', out, _, _, e, _⟩ := c52_location_update (c := c) s (handle := handle) hi hx (r.1.supported_iff.mp hs)
          rw [e] at h0; cases h0
        | false =>
          rw [c52_refused s (.inr (.inr (.inr (.inr (.inl ⟨‹_›, .inr ⟨_, _, hx, fun h => by rw [← ULocationUpdateDemand.supported_iff, hs] at h; cases h⟩⟩))))) ] at h0
          cases h0
    split at h
    · cases hx : UMmStatus.dec.run bits with
      | panic => exact (safe_mmStatus _ hx).elim
      | err => rw [hx] at h; cases h
      | ok r => rw [c52_status s hx] at h0; cases h0
    split at h
    · cases hx : UAttachDetach.dec.run bits with
      | panic => exact .inr (.inr ⟨‹_›, rfl⟩)
      | err => rw [hx] at h; cases h
      | ok r =>
        cases hs : r.1.groups with
        | some xs =>
          obtain ⟨s', out, _, _, e, _⟩ := c52_group_report (c := c) s (handle := handle) (issi := issi) hx hs
          rw [e] at h0; cases h0
        | none =>
          rw [c52_refused s (.inr (.inr (.inr (.inr (.inr ⟨‹_›, .inr ⟨_, _, hx, hs⟩⟩))))) ] at h0
          cases h0
    · cases h
  · exact rx_breaks s

/-- **C53, partial.** A message aborts mobility management only if it contains an element header announcing a length which is too
short, or an unknown element reaching beyond the end. Missing: those messages, for which it is false (`c53_mm_aborts`). -/
theorem c53_mm_total_partial {c : Brew.Cfg} (s : Mm) {handle issi : Nat} (hi : issi < 2 ^ 24) {bits : List Bool}
    (h : s.rx c handle issi bits = .panic) : ∃ pre el, bits = pre ++ el ∧ BadElement el := by
  obtain ⟨_, ⟨_, hx⟩ | ⟨_, hx⟩ | ⟨_, hx⟩⟩ := (c53_mm_iff s hi).1 h
  · exact aborts_itsiDetach _ hx
  · exact aborts_locationUpdateDemand _ hx
  · exact aborts_attachDetach _ hx

/-- **Finding (C53).** A single short message from any station, whether registered or not, aborts mobility management in every
state: a group report whose group element announces a length of zero. -/
theorem c53_mm_aborts (c : Brew.Cfg) (s : Mm) (handle issi : Nat) :
    s.rx c handle issi (toBits 4 7 ++ [false, false] ++ [true] ++ [true] ++ toBits 4 8 ++ toBits 11 0 ++ toBits 6 0) = .panic := by
  have : UAttachDetach.dec.run (toBits 4 7 ++ [false, false] ++ [true] ++ [true] ++ toBits 4 8 ++ toBits 11 0 ++ toBits 6 0) = .panic := by
    decide +kernel
  unfold Mm.rx
  rw [this]
  rfl

/-! ## The hypotheses are met -/

/-- A registration demand asking for two groups, and its sender leaving one of them. -/
def demandMsg (issi : Nat) (t : Nat) (l : List GroupUplink) : MmIn :=
  ⟨7, issi, match ULocationUpdateDemand.enc ⟨t, false, false, none, none, none, none, none, none, some ⟨1, some l⟩, none, none, none, none⟩ with
    | .ok b => b | _ => []⟩

def busyHistory : List MmIn :=
  [demandMsg 2000 3 [⟨some 4, none, some 91, none, none⟩, ⟨some 4, none, some 12, none, none⟩],
   reportMsg 1000 true [⟨some 4, none, some 91, none, none⟩, ⟨some 4, none, some 2, none, none⟩],
   reportMsg 2000 false [⟨none, some 0, some 12, none, none⟩],
   demandMsg 3000 0 []]

theorem noReattach_of {xs : List GroupUplink} (h : ((xs.filterMap GroupUplink.word).all (·.2) ||
    (xs.filterMap GroupUplink.word).all (!·.2)) = true) : NoReattach xs := by
  intro g hg
  have h1 := hg.subset (show (g, false) ∈ _ by simp)
  have h2 := hg.subset (show (g, true) ∈ _ by simp)
  simp only [Bool.or_eq_true, List.all_eq_true] at h
  rcases h with h | h
  · exact absurd (h _ h1) (by simp)
  · exact absurd (h _ h2) (by simp)

/-- A run with a backhaul, three stations and no message attaching what it detached. -/
example : ∃ c h s, MmRun c h s ∧ Brew.isActive c = true ∧ (∀ x ∈ h, NoReattach (entriesOf x.1.bits)) ∧
    s.known 3000 = true ∧ s.attached 2000 91 = true ∧ s.attached 2000 12 = false ∧ s.attached 1000 91 = true := by
  obtain ⟨h, s, h1, h2, h3⟩ := replay_run (c := ⟨some ⟨"core.example.org", none, false⟩, []⟩) busyHistory .start (show replay _ (fun s _ =>
    s.known 3000 && s.attached 2000 91 && !s.attached 2000 12 && s.attached 1000 91) _ _ _ = true by decide +kernel)
  simp only [Bool.and_eq_true, Bool.not_eq_true'] at h3
  refine ⟨_, h, s, h1, rfl, fun x hx => noReattach_of ?_, by simpa [and_assoc] using h3⟩
  have hm : x.1 ∈ busyHistory := by
    have := List.mem_map_of_mem (f := Prod.fst) hx
    rwa [h2] at this
  have hall : busyHistory.all (fun m => ((entriesOf m.bits).filterMap GroupUplink.word).all (·.2) ||
    ((entriesOf m.bits).filterMap GroupUplink.word).all (!·.2)) = true := by decide +kernel
  exact List.all_eq_true.1 hall _ hm

/-- A supported demand which is read. -/
example : (match ULocationUpdateDemand.dec.run (demandMsg 2000 3 [⟨some 4, none, some 91, none, none⟩]).bits with
    | .ok (x, _) => x.supported
    | _ => false) = true := by decide +kernel

end Verif.Mm
