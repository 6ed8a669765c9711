import Verif.Brew.NetCalls
/-!
# C62: where the voice of the network is heard

Call control and the entity together (`NetRun`).
-/
namespace Verif.Brew
open Cmce (CcEv CcOut CcRun Cc messages heard NoReuse Held SilentIn)

/-! ## The property -/

theorem talks_of_held {r : Nat → Bool} {hc : List (CcEv × List CcOut)} {cc : Cc} (hcc : CcRun r hc cc) (hn : NoReuse (messages hc))
    {u id sp g ts : Nat} (h : Held cc u id sp g ts) : Talks hc id sp g ts := by
  obtain ⟨_, c, k1, k2, _, k3, k4, k5⟩ := h
  constructor
  · have hi := Cmce.ccRun_inv hcc
    obtain ⟨i, k, m1, m2, m3, _⟩ := hi.circuit _ c k1
    refine ⟨k.tsCreated, (Cmce.c29_known hcc hn id ⟨k.tsCreated, .talking sp⟩).mpr ⟨c, k, k1, ⟨i, m1, m2, m3⟩, rfl, ?_⟩⟩
    left
    have := hi.floor _ c k1
    rw [k2] at this
    refine ⟨?_, by rw [k3]⟩
    cases hh : c.hang with
    | none => rfl
    | some t => rw [hh] at this; cases this
  · refine ⟨c.usage, ?_⟩
    rw [(Cmce.c28_heard hcc hn).1, k1, Option.map_some, k4, k5]

/-- C62: when the voice of a session of the network goes to a timeslot, and no message that the session has ended is on the way,
then mobiles have been told that a call of a group is there in which a station talks, and the server has announced this station
as the speaker of the session in this group.

Missing: the exceptions of `SilentIn`, which are real: see `c62_voice_in_other_call`. The premises are that no number is given to a
new call while another has it, and that the server does not announce a session again which is over. -/
theorem c62_heard_partial {cfg : Cfg} {latency : Nat} {n : Net} (hr : NetRun cfg latency n) (hn : NoReuse (messages n.calls))
    (ho : NoReopen n.events) {u ts : Nat} {d : List Nat} {e : EntEv} (hv : .voice u ts d ∈ (n.ent.step e).2) (hq : .netCallEnd u ∉ n.toEnt) :
    ∃ id speaker gssi, AnnouncedAs n.events u speaker gssi ∧
      (Talks n.calls id speaker gssi ts ∨ SilentIn (gssiRoutable cfg) n.calls u id speaker gssi ts) := by
  obtain ⟨hcc, hent⟩ := netRun_parts hr
  obtain ⟨j, c, f, _, h1, h2, _⟩ := ((c62_voice hent e u).1 ts d).mp hv
  rcases (netInv_run hr hn ho u).playing c ts h1 h2 with ⟨id, sp, g, h3, h4⟩ | h
  · exact ⟨id, sp, g, h3, h4.imp (talks_of_held hcc hn) (fun x => x)⟩
  · exact absurd h hq

/-! ## Concrete histories -/

def Net.run (n : Net) : List NetEv → Option Net
  | [] => some n
  | e :: es => (n.step e).bind fun n' => n'.run es

theorem run_netRun {cfg : Cfg} {latency : Nat} (es : List NetEv) {n n' : Net} (hr : NetRun cfg latency n) (h : n.run es = some n') :
    NetRun cfg latency n' := by
  induction es generalizing n with
  | nil => cases h; exact hr
  | cons e es ih =>
    simp only [Net.run, Option.bind_eq_some_iff] at h
    obtain ⟨m, h1, h2⟩ := h
    exact ih (.step e hr h1) h2

def checkNet (cfg : Cfg) (es : List NetEv) (p : Net → Bool) : Bool :=
  match (Net.init cfg 4).run es with
  | some n => p n
  | none => false

theorem checkNet_run {cfg : Cfg} (es : List NetEv) {p : Net → Bool} (h : checkNet cfg es p = true) : ∃ n, NetRun cfg 4 n ∧ p n = true := by
  unfold checkNet at h
  split at h
  · rename_i n hn; exact ⟨n, run_netRun es .init hn, h⟩
  · cases h

/-- No session is over yet. -/
def noneOver (h : EntHist) : Bool := h.all fun x => x.2.all fun
  | .callEnd _ => false
  | _ => true

theorem noneOver_noReopen {h : EntHist} (hn : noneOver h = true) : NoReopen h := by
  rintro pre x post u a g p sv r n j rfl _ ⟨y, hy, h1⟩
  simp only [noneOver, List.all_eq_true] at hn
  have := hn y (List.mem_append_left _ hy) _ h1
  cases this

/-- Both are idle and the premises of `c62_heard_partial` hold. -/
def settled (n : Net) : Bool :=
  noneOver n.events && decide ((Cmce.started (messages n.calls)).length ≤ 1023) && n.toCc.isEmpty && n.toEnt.isEmpty

theorem settled_facts {cfg : Cfg} {n : Net} (hr : NetRun cfg 4 n) (h : settled n = true) :
    NoReuse (messages n.calls) ∧ NoReopen n.events ∧ n.toCc = [] ∧ n.toEnt = [] := by
  simp only [settled, Bool.and_eq_true, decide_eq_true_eq, List.isEmpty_iff] at h
  exact ⟨(Cmce.c28_numbers (netRun_parts hr).1).2 h.1.1.2, noneOver_noReopen h.1.1.1, h.1.2, h.2⟩

/-- An event of the backhaul. -/
def srv (e : BrewEvent) : NetEv := .ent (.event e (fun _ => false) 0 0)

/-- Twelve blocks of session `u`, then the tick of timeslot 2. -/
def talk (u : Nat) : List NetEv := List.replicate 12 (srv (.voice u 288 (List.replicate 36 u)))

def slot2 : NetEv := .ent (.clock ⟨2, 1, 1, 1⟩)

/-- Station 1002 listens to group 91 and station 1003 to group 92; session 9 of the network: station 5555 talks in group 91. -/
def netBegin : List NetEv :=
  [.cc (.tick ⟨1, 1, 1, 1⟩), .cc (.update (.affiliate 1002 [91])), .cc (.update (.affiliate 1003 [92])), srv .connected,
   srv (.groupCallStart 9 5555 91 0 0), .takeCc, .takeEnt 0]

theorem begin_facts : checkNet cfgLocal (netBegin ++ talk 9 ++ [slot2]) (fun n => settled n &&
    decide ((Cmce.known n.calls).2 4 = some ⟨⟨1, 1, 1, 1⟩, .talking 5555⟩) && decide (heard (messages n.calls) 4 = some (91, 4, 2)) &&
    decide ((n.ent.step (.playout fun _ => 0)).2 = [.voice 9 2 (List.replicate 35 9)])) = true := by decide +kernel

/-- The hypotheses of `c62_heard_partial` are met, with the announced station talking. -/
example : ∃ n, NetRun cfgLocal 4 n ∧ NoReuse (messages n.calls) ∧ NoReopen n.events ∧
    .voice 9 2 (List.replicate 35 9) ∈ (n.ent.step (.playout fun _ => 0)).2 ∧ n.toEnt = [] ∧ Talks n.calls 4 5555 91 2 := by
  obtain ⟨n, hr, h⟩ := checkNet_run _ begin_facts
  simp only [Bool.and_eq_true, decide_eq_true_eq] at h
  obtain ⟨⟨⟨h1, h2⟩, h3⟩, h4⟩ := h
  obtain ⟨k1, k2, _, k3⟩ := settled_facts hr h1
  exact ⟨n, hr, k1, k2, by rw [h4]; simp, k3, ⟨_, h2⟩, _, h3⟩

/-! ## Findings -/

/-- Station 1003, which is not in the call, releases it; then it calls the local group 92 and gets timeslot 2. -/
def netStolen : List NetEv :=
  netBegin ++ [.cc (.uRelease 1003 4), .cc (.uSetup 1003 true (some 92) 0)] ++ talk 9 ++ [slot2]

/-- **Finding.** The voice of a session of group 91 of the network is played to the mobiles of another group, while a station of
this group talks. The group is one whose calls stay in the cell. -/
theorem c62_voice_in_other_call : ∃ n, NetRun cfgLocal 4 n ∧ NoReuse (messages n.calls) ∧ NoReopen n.events ∧ n.toCc = [] ∧ n.toEnt = [] ∧
    Talks n.calls 5 1003 92 2 ∧ gssiRoutable cfgLocal 92 = false ∧ (∀ sp g, AnnouncedAs n.events 9 sp g → g = 91) ∧
    .voice 9 2 (List.replicate 35 9) ∈ (n.ent.step (.playout fun _ => 0)).2 := by
  have hk : checkNet cfgLocal netStolen (fun n => (settled n &&
    decide ((Cmce.known n.calls).2 5 = some ⟨⟨1, 1, 1, 1⟩, .talking 1003⟩) && decide (heard (messages n.calls) 5 = some (92, 5, 2)) &&
    decide ((n.ent.step (.playout fun _ => 0)).2 = [.voice 9 2 (List.replicate 35 9)])) &&
    n.events.all (fun x => match x.1 with
      | .event (.groupCallStart _ _ g _ _) _ _ _ => decide (g = 91)
      | _ => true)) = true := by decide +kernel
  obtain ⟨n, hr, h⟩ := checkNet_run _ hk
  simp only [Bool.and_eq_true, decide_eq_true_eq] at h
  obtain ⟨⟨⟨⟨h1, h2⟩, h3⟩, h4⟩, h5⟩ := h
  obtain ⟨k1, k2, k3, k4⟩ := settled_facts hr h1
  refine ⟨n, hr, k1, k2, k3, k4, ⟨⟨_, h2⟩, _, h3⟩, by decide +kernel, ?_, by rw [h4]; simp⟩
  rintro sp g ⟨x, hx, p, sv, r, k, j, he⟩
  have := List.all_eq_true.mp h5 x hx
  rw [he] at this
  simpa using this

/-- Session 9 falls silent; after that the server announces session 10 in the same group, and sends voice for both. -/
def netMixed : List NetEv :=
  netBegin ++ [.cc (.inactive 2), .takeEnt 0, srv (.groupCallStart 10 5556 91 0 0), .takeCc, .takeEnt 0] ++ talk 9 ++ talk 10 ++ [slot2]

/-- **Finding.** The voice of two sessions goes to the same timeslot at the same time. -/
theorem c62_two_voices : ∃ n, NetRun cfgLocal 4 n ∧ NoReuse (messages n.calls) ∧ NoReopen n.events ∧ n.toCc = [] ∧ n.toEnt = [] ∧
    Talks n.calls 4 5556 91 2 ∧
    .voice 9 2 (List.replicate 35 9) ∈ (n.ent.step (.playout fun _ => 0)).2 ∧
    .voice 10 2 (List.replicate 35 10) ∈ (n.ent.step (.playout fun _ => 0)).2 := by
  have hk : checkNet cfgLocal netMixed (fun n => settled n &&
    decide ((Cmce.known n.calls).2 4 = some ⟨⟨1, 1, 1, 1⟩, .talking 5556⟩) && decide (heard (messages n.calls) 4 = some (91, 4, 2)) &&
    decide (.voice 9 2 (List.replicate 35 9) ∈ (n.ent.step (.playout fun _ => 0)).2) &&
    decide (.voice 10 2 (List.replicate 35 10) ∈ (n.ent.step (.playout fun _ => 0)).2)) = true := by decide +kernel
  obtain ⟨n, hr, h⟩ := checkNet_run _ hk
  simp only [Bool.and_eq_true, decide_eq_true_eq] at h
  obtain ⟨⟨⟨⟨h1, h2⟩, h3⟩, h4⟩, h5⟩ := h
  obtain ⟨k1, k2, k3, k4⟩ := settled_facts hr h1
  exact ⟨n, hr, k1, k2, k3, k4, ⟨⟨_, h2⟩, _, h3⟩, h4, h5⟩

/-- In session 9 the network's speaker changes: station 5556 follows station 5555. -/
def netChange : List NetEv := netBegin ++ [srv (.groupCallStart 9 5556 91 0 0), .takeCc, .takeEnt 0] ++ talk 9

/-- **Finding.** When the speaker of an open session changes, the session is dropped: none of its further voice is heard, mobiles
are still told that the first speaker talks, and the end of the session is not passed on to call control. -/
theorem c62_speaker_change : ∃ n, NetRun cfgLocal 4 n ∧ NoReuse (messages n.calls) ∧ NoReopen n.events ∧ n.toCc = [] ∧ n.toEnt = [] ∧
    AnnouncedAs n.events 9 5556 91 ∧ session 9 n.events = none ∧ played 9 n.events = [] ∧ (received 9 n.events).length = 12 ∧
    Talks n.calls 4 5555 91 2 ∧ (n.ent.step (.event (.groupCallEnd 9 0) (fun _ => false) 0 0)).2 = [] := by
  have hk : checkNet cfgLocal netChange (fun n => settled n &&
    n.events.any (fun x => match x.1 with
      | .event (.groupCallStart u a g _ _) _ _ _ => decide (u = 9 ∧ a = 5556 ∧ g = 91)
      | _ => false) &&
    decide (session 9 n.events = none) && decide (played 9 n.events = []) && decide ((received 9 n.events).length = 12) &&
    decide ((Cmce.known n.calls).2 4 = some ⟨⟨1, 1, 1, 1⟩, .talking 5555⟩) && decide (heard (messages n.calls) 4 = some (91, 4, 2)) &&
    decide ((n.ent.step (.event (.groupCallEnd 9 0) (fun _ => false) 0 0)).2 = [])) = true := by decide +kernel
  obtain ⟨n, hr, h⟩ := checkNet_run _ hk
  simp only [Bool.and_eq_true, decide_eq_true_eq] at h
  obtain ⟨⟨⟨⟨⟨⟨⟨h1, h2⟩, h3⟩, h4⟩, h5⟩, h6⟩, h7⟩, h8⟩ := h
  obtain ⟨k1, k2, k3, k4⟩ := settled_facts hr h1
  refine ⟨n, hr, k1, k2, k3, k4, ?_, h3, h4, h5, ⟨⟨_, h6⟩, _, h7⟩, h8⟩
  obtain ⟨x, hx, he⟩ := List.any_eq_true.mp h2
  split at he
  · rename_i u a g p sv r k j hxe
    simp only [decide_eq_true_eq] at he
    obtain ⟨rfl, rfl, rfl⟩ := he
    exact ⟨x, hx, p, sv, r, k, j, hxe⟩
  · cases he

/-- Three calls take all timeslots; session 9 comes; the three calls are released; the server repeats its announcement. -/
def netBusy : List NetEv :=
  [.cc (.tick ⟨1, 1, 1, 1⟩), .cc (.update (.affiliate 1001 [101])), .cc (.update (.affiliate 1002 [102])),
   .cc (.update (.affiliate 1003 [103])), .cc (.update (.affiliate 1004 [91])), srv .connected,
   .cc (.uSetup 1001 true (some 101) 0), .cc (.uSetup 1002 true (some 102) 0), .cc (.uSetup 1003 true (some 103) 0),
   .takeEnt 70, .takeEnt 71, .takeEnt 72, srv (.groupCallStart 9 5555 91 0 0), .takeCc,
   .cc (.uRelease 1001 4), .cc (.uRelease 1002 5), .cc (.uRelease 1003 6), .takeEnt 0, .takeEnt 0, .takeEnt 0,
   srv (.groupCallStart 9 5555 91 0 0)] ++ talk 9

/-- **Finding.** A session which finds all timeslots taken gets no answer and is not tried again when timeslots become free, even
if the server repeats its announcement: none of its voice is heard although the cell is idle and a mobile listens. -/
theorem c62_not_tried_again : ∃ n, NetRun cfgLocal 4 n ∧ NoReuse (messages n.calls) ∧ NoReopen n.events ∧ n.toCc = [] ∧ n.toEnt = [] ∧
    session 9 n.events = some ⟨5555, 91, none, []⟩ ∧ n.cc.calls = [] ∧ n.cc.hasListener 91 = true ∧ played 9 n.events = [] ∧
    (received 9 n.events).length = 12 := by
  have hk : checkNet cfgLocal netBusy (fun n => settled n && decide (session 9 n.events = some ⟨5555, 91, none, []⟩) &&
    n.cc.calls.isEmpty && n.cc.hasListener 91 && decide (played 9 n.events = []) && decide ((received 9 n.events).length = 12)) = true := by
    decide +kernel
  obtain ⟨n, hr, h⟩ := checkNet_run _ hk
  simp only [Bool.and_eq_true, decide_eq_true_eq, List.isEmpty_iff] at h
  obtain ⟨⟨⟨⟨⟨h1, h2⟩, h3⟩, h4⟩, h5⟩, h6⟩ := h
  obtain ⟨k1, k2, k3, k4⟩ := settled_facts hr h1
  exact ⟨n, hr, k1, k2, k3, k4, h2, h3, h4, h5, h6⟩

/-! ## The hypotheses of the other theorems are met -/

/-- The state after `netBegin`, twelve blocks and the tick of timeslot 2, for the entity: `c62_voice`, `c62_order` and `c62_flow`
are not vacuous. -/
example : ∃ n c ps, NetRun cfgLocal 4 n ∧ session 9 n.events = some c ∧ c.ts = some 2 ∧ (clock n.events).t = 2 ∧ (clock n.events).f ≠ 18 ∧
    c.buffer = [] ++ ps ∧ (∀ p ∈ ps, ∃ d j, p = .push d j) ∧ 12 ≤ ps.length ∧ (received 9 n.events).length = 12 := by
  have hk : checkNet cfgLocal (netBegin ++ talk 9 ++ [slot2]) (fun n =>
      decide (session 9 n.events = some ⟨5555, 91, some 2, List.replicate 12 (.push (List.replicate 35 9) 0)⟩) &&
      decide ((clock n.events).t = 2) && decide ((clock n.events).f ≠ 18) && decide ((received 9 n.events).length = 12)) = true := by
    decide +kernel
  obtain ⟨n, hr, h⟩ := checkNet_run _ hk
  simp only [Bool.and_eq_true, decide_eq_true_eq] at h
  obtain ⟨⟨⟨h1, h2⟩, h3⟩, h4⟩ := h
  exact ⟨n, _, List.replicate 12 (.push (List.replicate 35 9) 0), hr, h1, rfl, h2, h3, rfl, fun p hp => ⟨_, _, (List.mem_replicate.mp hp).2⟩, by simp, h4⟩

/-- `c62_start` and `c62_end`: both messages are sent. -/
example : let h := (entRun (.init cfgLocal 4) [.event .connected (fun _ => false) 0 0,
      .event (.groupCallStart 9 5555 91 0 0) (fun _ => false) 0 0, .event (.groupCallEnd 9 0) (fun _ => false) 0 0]).1
    h.map (·.2) = [[], [.callStart 9 5555 91 0], [.callEnd 9]] := by decide +kernel

end Verif.Brew
