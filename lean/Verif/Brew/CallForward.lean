import Verif.Brew.ForwardProps
import Verif.Cmce.CallTold
/-!
# C61: whose voice the network gets

Call control and the entity together: what call control sends to the backhaul arrives in order.
-/
namespace Verif.Brew
open Cmce (CcEv CcOut CcRun Cc messages heard NoReuse GapIn)

/-! ## Specification -/

/-- The message of call control behind an event of the entity (entity.rs:680-725). -/
def EntEv.fromCalls : EntEv → Option CcOut
  | .granted id source gssi ts _ => some (.netGranted id source gssi ts)
  | .released id ts => some (.netReleased id ts)
  | .ended id ts => some (.netEnded id ts)
  | .netEnd u => some (.netCallEnd u)
  | .netReady u id ts usage => some (.netReady u id ts usage)
  | _ => none

/-- Messages of call control to the backhaul. -/
def toBackhaul : CcOut → Bool
  | .netGranted _ _ _ _ => true
  | .netReleased _ _ => true
  | .netEnded _ _ => true
  | .netCallEnd _ => true
  | .netReady _ _ _ _ => true
  | _ => false

/-- The entity has received what call control has sent to it, in order. -/
def Delivered (hc : List (CcEv × List CcOut)) (he : EntHist) : Prop :=
  he.filterMap (fun x => x.1.fromCalls) = (messages hc).filter toBackhaul

/-- By the messages to mobiles, this station talks in this call, in this group on this timeslot. -/
def Talks (hc : List (CcEv × List CcOut)) (id source gssi ts : Nat) : Prop :=
  (∃ since, (Cmce.known hc).2 id = some ⟨since, .talking source⟩) ∧ ∃ usage, heard (messages hc) id = some (gssi, usage, ts)

/-! ## The property -/

theorem filter_split {α : Type} (p : α → Bool) {l A B : List α} {x : α} (h : l.filter p = A ++ x :: B) :
    ∃ a b, l = a ++ x :: b ∧ b.filter p = B := by
  rw [List.filter_eq_append_iff] at h
  obtain ⟨l1, l2, rfl, _, h2⟩ := h
  rw [List.filter_eq_cons_iff] at h2
  obtain ⟨a, b, rfl, _, _, h3⟩ := h2
  exact ⟨l1 ++ a, b, by simp, h3⟩

/-- C61: when a timeslot carries a session of the network for a station, then this station talks there, in a call of a group of
the network, and its calls go over the network.

Missing: the exceptions of `GapIn`, which are real: see `c61_leak`. The premise is that no number is given to a new call while
another has it. -/
theorem c61_speaker_partial {cfg : Cfg} {latency : Nat} {hc : List (CcEv × List CcOut)} {cc : Cc} {he : EntHist} {s : Ent}
    (hcc : CcRun (gssiRoutable cfg) hc cc) (hn : NoReuse (messages hc)) (hent : EntRun cfg latency he s) (hd : Delivered hc he)
    {ts : Nat} {f : Fwd} (hf : Carries cfg he ts f) :
    gssiRoutable cfg f.gssi = true ∧ issiRoutable cfg f.source = true ∧
      (Talks hc f.callId f.source f.gssi ts ∨ GapIn (gssiRoutable cfg) hc f.callId ts) := by
  obtain ⟨pre, fresh, out, post, rfl, h1, h2, h3, h4⟩ := hf
  have hd' : (messages hc).filter toBackhaul = pre.filterMap (fun x => x.1.fromCalls) ++
      .netGranted f.callId f.source f.gssi ts :: post.filterMap (fun x => x.1.fromCalls) := by
    rw [← hd, List.filterMap_append, List.filterMap_cons]
    rfl
  obtain ⟨a, b, hab, hb⟩ := filter_split _ hd'
  have howed : Cmce.Owed (messages hc) f.callId f.source f.gssi ts := by
    refine ⟨a, b, hab, ?_⟩
    intro y hy ht
    have hyb : toBackhaul y = true := by
      cases y <;> first
        | rfl
        | exact ht.elim
    have : y ∈ post.filterMap (fun x => x.1.fromCalls) := by rw [← hb]; exact List.mem_filter.mpr ⟨hy, hyb⟩
    obtain ⟨x, hx, hxy⟩ := List.mem_filterMap.mp this
    obtain ⟨p1, p2, hp⟩ := List.append_of_mem hx
    apply (h4 p1 x p2 hp).1
    obtain ⟨e, o⟩ := x
    cases e <;> simp only [EntEv.fromCalls, Option.some.injEq, reduceCtorEq] at hxy <;> subst hxy <;> first
      | exact ht
      | exact ht.elim
  refine ⟨Cmce.ccRun_granted (id := f.callId) (speaker := f.source) (ts := ts) hcc (by rw [hab]; simp), h2, ?_⟩
  rcases Cmce.owed_run hcc hn howed with ⟨c, k1, k2, k3, k4, k5⟩ | hg
  · left
    constructor
    · have hi := Cmce.ccRun_inv hcc
      obtain ⟨i, k, m1, m2, m3, _⟩ := hi.circuit _ c k1
      refine ⟨k.tsCreated, (Cmce.c29_known hcc hn f.callId ⟨k.tsCreated, .talking f.source⟩).mpr ⟨c, k, k1, ⟨i, m1, m2, m3⟩, rfl, ?_⟩⟩
      left
      have := hi.floor _ c k1
      rw [k2] at this
      refine ⟨?_, by rw [k3]⟩
      cases hh : c.hang with
      | none => rfl
      | some t => rw [hh] at this; cases this
    · refine ⟨c.usage, ?_⟩
      rw [(Cmce.c28_heard hcc hn).1, k1, Option.map_some, k4, k5]
  · exact .inr hg

/-! ## Findings -/

/-- Calls of group 92 stay in the cell. -/
def cfgLocal : Cfg := ⟨some ⟨"example", none, true⟩, [⟨92, 93⟩]⟩

/-- A call from the network to group 91 (session 9) on timeslot 2; its speaker falls silent and station 1002 takes the floor;
the network ends session 9; the hang time passes; then station 1003 calls the local group 92 and gets timeslot 2. -/
def leakCalls : List CcEv :=
  [.tick ⟨1, 1, 1, 1⟩, .update (.affiliate 1002 [91]), .update (.affiliate 1003 [92]), .netStart 9 5555 91, .inactive 2,
   .uTxDemand 1002 4, .netEnd 9, .tick ⟨2, 18, 18, 1⟩, .uSetup 1003 true (some 92) 0]

/-- The same for the entity. -/
def leakEvents : List EntEv :=
  [.event .connected (fun _ => false) 0 0, .netReady 9 4 2 4, .released 4 2, .granted 4 1002 91 2 77]

theorem leak_facts :
    Cmce.check (gssiRoutable cfgLocal) leakCalls (fun hc _ =>
      decide ((entRun (.init cfgLocal 4) leakEvents).1.filterMap (fun x => x.1.fromCalls) = (messages hc).filter toBackhaul) &&
      decide ((Cmce.started (messages hc)).length ≤ 1023) &&
      decide ((Cmce.known hc).2 5 = some ⟨⟨2, 18, 18, 1⟩, .talking 1003⟩) && decide (heard (messages hc) 5 = some (92, 5, 2))) = true := by
  decide +kernel

/-- **Finding.** The network gets the voice of a station which talks in a local group, in a session which names another station
and another group. -/
theorem c61_leak : ∃ (hc : List (CcEv × List CcOut)) (cc : Cc) (he : EntHist) (s : Ent) (f : Fwd),
    CcRun (gssiRoutable cfgLocal) hc cc ∧ NoReuse (messages hc) ∧ EntRun cfgLocal 4 he s ∧ Delivered hc he ∧
    Talks hc 5 1003 92 2 ∧ gssiRoutable cfgLocal 92 = false ∧ f.source = 1002 ∧ f.gssi = 91 ∧
    (s.step (.ulVoice 2 (List.replicate 36 5))).2 = [.cmd (.voice f.uuid 288 (List.replicate 36 5))] := by
  obtain ⟨hc, cc, hr, hp⟩ := Cmce.check_run _ leak_facts
  simp only [Bool.and_eq_true, decide_eq_true_eq] at hp
  obtain ⟨⟨⟨h1, h2⟩, h3⟩, h4⟩ := hp
  have he := entRun_run (EntRun.init (cfg := cfgLocal) (latency := 4)) leakEvents
  rw [List.nil_append] at he
  exact ⟨hc, cc, _, _, ⟨77, 4, 1002, 91⟩, hr, (Cmce.c28_numbers hr).2 h2, he, h1, ⟨⟨_, h3⟩, _, h4⟩, by decide +kernel, rfl, rfl,
    by decide +kernel⟩

/-- Station 1002 starts a call in group 91, which is released while it talks. -/
def endCalls : List CcEv :=
  [.tick ⟨1, 1, 1, 1⟩, .update (.affiliate 1002 [91]), .uSetup 1002 true (some 91) 0, .uRelease 1002 4]

def endEvents : List EntEv :=
  [.event .connected (fun _ => false) 0 0, .granted 4 1002 91 2 77, .ended 4 2]

theorem end_facts : Cmce.check (gssiRoutable cfgLocal) endCalls (fun hc _ =>
    decide ((entRun (.init cfgLocal 4) endEvents).1.filterMap (fun x => x.1.fromCalls) = (messages hc).filter toBackhaul) &&
    decide ((Cmce.known hc).2 4 = none)) = true := by decide +kernel

/-- **Finding.** A call which is released while somebody talks leaves its session open: the network is never told that the
transmission is over. -/
theorem c61_session_left_open : ∃ (hc : List (CcEv × List CcOut)) (cc : Cc) (he : EntHist) (s : Ent),
    CcRun (gssiRoutable cfgLocal) hc cc ∧ EntRun cfgLocal 4 he s ∧ Delivered hc he ∧
    (Cmce.known hc).2 4 = none ∧ entCmds he = [.groupTx 77 1002 91 0 0] ∧ s.fwd = [] := by
  obtain ⟨hc, cc, hr, hp⟩ := Cmce.check_run _ end_facts
  simp only [Bool.and_eq_true, decide_eq_true_eq] at hp
  have he := entRun_run (EntRun.init (cfg := cfgLocal) (latency := 4)) endEvents
  rw [List.nil_append] at he
  exact ⟨hc, cc, _, _, hr, he, hp.1, hp.2, by decide +kernel, by decide +kernel⟩

/-- **Finding.** A session which is open when the connection is lost is continued on the next connection: its voice is sent
there although the server of that connection has not seen its GROUP_TX. -/
theorem c61_session_survives_reconnection : ∃ (he1 he2 : EntHist) (s1 s2 : Ent),
    EntRun cfgLocal 4 he1 s1 ∧ EntRun cfgLocal 4 (he1 ++ he2) s2 ∧
    entCmds he1 = [.groupTx 77 1002 91 0 0] ∧
    he2.map (fun x => x.2) = [[], [], [.cmd (.voice 77 288 (List.replicate 36 5))]] ∧ linkUp (he1 ++ he2.take 1) = false := by
  have e1 := entRun_run (EntRun.init (cfg := cfgLocal) (latency := 4))
    [.event .connected (fun _ => false) 0 0, .granted 4 1002 91 2 77]
  have e2 := entRun_run e1 [.event .disconnected (fun _ => false) 0 0, .event .connected (fun _ => false) 0 0,
    .ulVoice 2 (List.replicate 36 5)]
  exact ⟨_, _, _, _, e1, e2, by decide +kernel, by decide +kernel, by decide +kernel⟩

/-- The hypotheses of `c61_speaker_partial` are met, with the station talking. -/
example : ∃ (hc : List (CcEv × List CcOut)) (cc : Cc) (he : EntHist) (s : Ent) (f : Fwd),
    CcRun (gssiRoutable cfgLocal) hc cc ∧ NoReuse (messages hc) ∧ EntRun cfgLocal 4 he s ∧ Delivered hc he ∧
    Carries cfgLocal he 2 f ∧ Talks hc 4 1002 91 2 := by
  have hk : Cmce.check (gssiRoutable cfgLocal) (endCalls.take 3) (fun hc _ =>
      decide ((entRun (.init cfgLocal 4) (endEvents.take 2)).1.filterMap (fun x => x.1.fromCalls) = (messages hc).filter toBackhaul) &&
      decide ((Cmce.started (messages hc)).length ≤ 1023) &&
      decide ((Cmce.known hc).2 4 = some ⟨⟨1, 1, 1, 1⟩, .talking 1002⟩) && decide (heard (messages hc) 4 = some (91, 4, 2))) = true := by
    decide +kernel
  obtain ⟨hc, cc, hr, hp⟩ := Cmce.check_run _ hk
  simp only [Bool.and_eq_true, decide_eq_true_eq] at hp
  obtain ⟨⟨⟨h1, h2⟩, h3⟩, h4⟩ := hp
  have he := entRun_run (EntRun.init (cfg := cfgLocal) (latency := 4)) (endEvents.take 2)
  rw [List.nil_append] at he
  refine ⟨hc, cc, _, _, ⟨77, 4, 1002, 91⟩, hr, (Cmce.c28_numbers hr).2 h2, he, h1, (fwd_carries he 2 _).mp ?_, ⟨_, h3⟩, _, h4⟩
  decide +kernel

end Verif.Brew
