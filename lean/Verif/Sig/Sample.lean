import Verif.Sig.Down
import Verif.Sig.Time
import Verif.Sig.Fatal
/-!
# A history of the signalling stack

A station registers and attaches to a group, another one does, and the first one starts a call: what is heard and what is sent. The
history meets the hypotheses of C70 to C73.
-/
namespace Verif.Sig
open Verif.Tdma Verif.Bits
open Verif.Umac (Addr SsiType)
open Verif.Mm (demandMsg)
open Verif.Cmce (secretCall)

/-- A concrete history. -/
def St.runs (c : Cfg) : St → List Ev → Res (St × List Call)
  | s, [] => .ok (s, [])
  | s, e :: es => do
    let r ← s.step c e
    let q ← r.1.runs c es
    .ok (q.1, r.2 ++ q.2)

theorem runs_run {c : Cfg} {es evs : List Ev} {tr tr' : List Call} {s s' : St} (h : Run c evs tr s) (hr : s.runs c es = .ok (s', tr')) :
    Run c (evs ++ es) (tr ++ tr') s' := by
  induction es generalizing evs tr s tr' with
  | nil => cases hr; simpa using h
  | cons e es ih =>
    simp only [St.runs, Res.bind_eq_ok] at hr
    obtain ⟨r, h1, q, h2, h3⟩ := hr
    cases h3
    simpa using ih (h.step (s' := r.1) (calls := r.2) h1) h2

/-- No backhaul; the network time is announced. -/
def sampleCfg : Cfg := ⟨⟨none, []⟩, true⟩

/-- BL-DATA with a message. -/
def blData (ns : Bool) (d : Nat) (msg : List Bool) : List Bool := [false, false, false, true, ns] ++ (toBits 3 d ++ msg)

def demand (i : Nat) : List Bool := (demandMsg i 3 [⟨some 4, none, some 91, none, none⟩]).bits
def setup : List Bool := match secretCall.enc with | .ok bs => bs | _ => []

def sampleEvents : List Ev :=
  [.tickStart ⟨1, 1, 20, 1⟩ [] ⟨2026, 27561600, 3600⟩ true, .frame ⟨1001, .ssi, false⟩ 1 (blData false 1 (demand 1001)),
   .frame ⟨1002, .ssi, false⟩ 1 (blData false 1 (demand 1002))] ++ List.replicate 30 .deliver ++
  [.tickEnd, .frame ⟨1001, .ssi, false⟩ 1 (blData true 2 setup)] ++ List.replicate 20 .deliver ++ [.tickEnd]

/-- What is looked at: the messages heard, what the LLC is asked, what it hands the MAC. -/
def sampleView (evs : List Ev) : Option (List (Nat × Nat) × List (Option Nat × Nat × List Bool) × List (Nat × List Bool) × Nat) :=
  match (St.init sampleCfg).runs sampleCfg evs with
  | .ok (s, tr) => some ((heard tr).map fun (m : Message) => (m.protocol, m.sender),
      (ordered tr).map fun (o : Order) => (o.acknowledged, o.addr.ssi, o.sdu.take 8),
      (Llc.sentU (llcTrace tr)).map fun x => (x.1.addr.ssi, x.2.take 12), s.queue.length)
  | .panic => none

set_option synthInstance.maxSize 1000 in
/-- All three messages were heard; the time was announced; both stations got their answer; the caller was told that its call
proceeds and is connected, and the group that there is a call; nothing is left in the queue. -/
theorem sample_view : sampleView sampleEvents = some ([(1, 1001), (1, 1002), (2, 1001)],
    [(none, 16777215, [true, false, true, false, true, false, false, false]), (some 1, 1001, [false, false, true, false, true, false, true, false]),
     (some 1, 1002, [false, false, true, false, true, false, true, false]), (some 1, 1001, [false, true, false, false, false, false, false, true]),
     (none, 1001, [false, true, false, false, false, false, true, false]), (none, 91, [false, true, false, false, false, true, true, true])],
    [(16777215, [false, false, true, false, true, false, true, false, true, false, false, false]),
     (1001, [false, false, true, false, false, true, false, false, false, false, true, false]),
     (91, [false, false, true, false, false, true, false, false, false, true, true, true])], 0) := by
  decide +kernel

/-- A message of a kind which is read, in BL-DATA, is not fatal. -/
theorem blData_fine {ns : Bool} {d : Nat} {msg : List Bool} (hd : d = 1 ∧ ¬ Mm.Breaks msg ∨ d = 2 ∧ ¬ Cmce.Breaks msg) :
    ¬ Fatal (blData ns d msg) := by
  have hc : Carries (blData ns d msg) d msg := ⟨by omega, .data ns _⟩
  intro h
  generalize hp : blData ns d msg = pdu at h hc
  cases h with
  | packet h1 => have := (carries_unique h1 hc).1; omega
  | mm h1 hb =>
    obtain ⟨h2, rfl⟩ := carries_unique h1 hc
    rcases hd with ⟨_, hd⟩ | ⟨hd, _⟩
    · exact hd hb
    · omega
  | cmce h1 hb =>
    obtain ⟨h2, rfl⟩ := carries_unique h1 hc
    rcases hd with ⟨hd, _⟩ | ⟨_, hd⟩
    · omega
    · exact hd hb
  | emptyData ns' =>
    have := congrArg List.length hp
    simp [blData] at this
  | _ => simp [blData] at hp

theorem mm_reads {bits : List Bool} (h : (match Mm.Mm.new.rx ⟨none, []⟩ 0 0 bits with | .ok _ => true | .panic => false) = true) :
    ¬ Mm.Breaks bits := by
  intro hb
  rw [Mm.rx_breaks _ hb] at h
  cases h

theorem cmce_reads {bits : List Bool} (h : (match (Cmce.Bs.init fun _ => false).step ⟨Config.Registry.new, ⟨none, []⟩⟩ (.mobile 0 bits) with | .ok _ => true | .panic => false) = true) :
    ¬ Cmce.Breaks bits := by
  intro hb
  rw [Cmce.step_breaks hb] at h
  cases h

/-- The events are harmless. -/
theorem sample_fine : ∀ e ∈ sampleEvents, e.Fine sampleCfg := by
  intro e he
  simp only [sampleEvents, List.mem_append, List.mem_cons, List.mem_replicate, List.not_mem_nil, or_false] at he
  rcases he with ((((rfl | rfl | rfl) | ⟨_, rfl⟩) | (rfl | rfl)) | ⟨_, rfl⟩) | rfl
  · simp [Ev.Fine, Harmful, Cmce.Culprit]
  · exact ⟨by decide, by decide, blData_fine (.inl ⟨rfl, mm_reads (by decide +kernel)⟩)⟩
  · exact ⟨by decide, by decide, blData_fine (.inl ⟨rfl, mm_reads (by decide +kernel)⟩)⟩
  · trivial
  · trivial
  · exact ⟨by decide, by decide, blData_fine (.inr ⟨rfl, cmce_reads (by decide +kernel)⟩)⟩
  all_goals trivial

/-- The history happens. -/
theorem sample_runs : ∃ tr s, Run sampleCfg sampleEvents tr s ∧ s.queue = [] ∧ heard tr ≠ [] ∧ ordered tr ≠ [] := by
  have h := sample_view
  unfold sampleView at h
  split at h
  · rename_i s tr hr
    have h1 := runs_run (.init (c := sampleCfg)) hr
    refine ⟨tr, s, by simpa using h1, ?_, ?_, ?_⟩
    all_goals simp only [Option.some.injEq, Prod.mk.injEq] at h
    · exact List.eq_nil_of_length_eq_zero h.2.2.2
    · intro h0; rw [h0] at h; exact absurd h.1 (by simp)
    · intro h0; rw [h0] at h; exact absurd h.2.1 (by simp)
  · cases h

/-- One broadcast was due, and the clock is plausible. -/
example : due sampleCfg.zone sampleEvents = [⟨.unacknowledged 1 none false, ⟨0xFFFFFF, .gssi, false⟩, timeMessage ⟨2026, 27561600, 3600⟩⟩] ∧
    ∀ now cmds clock b, Ev.tickStart now cmds clock b ∈ sampleEvents → Plausible clock := by
  constructor
  · decide +kernel
  · intro now cmds clock b h
    simp only [sampleEvents, List.mem_append, List.mem_cons, List.mem_replicate, List.not_mem_nil, or_false, Ev.tickStart.injEq, reduceCtorEq,
      and_false, false_or, or_false] at h
    obtain ⟨_, _, rfl, _⟩ := h
    unfold Plausible; decide

/-- The same frames, with the setup right behind the registrations. -/
def hastyEvents : List Ev :=
  [.tickStart ⟨1, 1, 20, 1⟩ [] ⟨2026, 27561600, 3600⟩ true, .frame ⟨1001, .ssi, false⟩ 1 (blData false 1 (demand 1001)),
   .frame ⟨1002, .ssi, false⟩ 1 (blData false 1 (demand 1002)), .frame ⟨1001, .ssi, false⟩ 1 (blData true 2 setup)] ++
  List.replicate 40 .deliver ++ [.tickEnd]

set_option synthInstance.maxSize 1000 in
/-- **Finding (C70).** What mobility management tells call control about a registration goes to the end of the queue, behind a setup
which was received after the registration: call control handles the setup first, finds nobody listening to the group, and neither sets
up the call nor answers. -/
theorem c70_setup_overtakes : sampleView hastyEvents = some ([(1, 1001), (1, 1002), (2, 1001)],
    [(none, 16777215, [true, false, true, false, true, false, false, false]), (some 1, 1001, [false, false, true, false, true, false, true, false]),
     (some 1, 1002, [false, false, true, false, true, false, true, false])],
    [(16777215, [false, false, true, false, true, false, true, false, true, false, false, false])], 0) := by
  decide +kernel

end Verif.Sig
