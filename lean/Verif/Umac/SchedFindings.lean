import Verif.Umac.SchedLiveProps
import Verif.Umac.MsReassembly
/-!
# C23, C43–C46: concrete histories

Histories which meet the hypotheses of the theorems about the channel scheduler, and histories in which the
scheduler does not do what it should.
-/
namespace Verif.Umac
open Verif.Bits Verif.Codec Verif.Tdma Verif.Mle

/-- A cell. -/
def sampleCfg : CellCfg :=
  ⟨204, 1337, 3, 1, 0, 0, false, true, true, 1521, 4, 0, 0, false, 2, 65535,
    ⟨true, true, false, true, false, false, true, false, false, false, true⟩⟩

/-- A start at the beginning of the frame structure. -/
def sampleTime : Time := ⟨1, 1, 1, 0⟩

/-- A history from the start. -/
def sampleRun (es : List SchedEv) : Out (Sched × List (SchedEv × SchedRet)) :=
  (Sched.init sampleTime 864282631 (Precomps.generate sampleCfg)).run es

/-- The slots sent. -/
def slotsOf (o : Out (Sched × List (SchedEv × SchedRet))) : List TickOut :=
  match o with
  | .ok r => r.2.filterMap fun e => match e.2 with | .sent y => some y | _ => none
  | _ => []

/-- The run did not abort. -/
def runs (o : Out (Sched × List (SchedEv × SchedRet))) : Bool := match o with | .ok _ => true | _ => false

/-- A downlink circuit. -/
def dlCircuit (t usage : Nat) : Circuit := ⟨.dl, t, usage, 0, none, false⟩

/-- A message queued: a transmission trunked signalling SDU of `n` bits. -/
def msg (t id n : Nat) : SchedEv := .message t id true sampleRes (List.replicate n true)

/-- Ticks. -/
def ticks (n : Nat) : List SchedEv := List.replicate n .tick

/-- The run aborts. -/
def aborts (o : Out (Sched × List (SchedEv × SchedRet))) : Bool := match o with | .panic => true | _ => false

theorem panic_of_aborts {o : Out (Sched × List (SchedEv × SchedRet))} (h : aborts o = true) : o = .panic := by
  cases o <;> simp_all [aborts]

theorem sampleRes_sendable : sampleRes.Sendable := by
  refine ⟨by decide, by decide, by decide, by decide, ?_, by simp [sampleRes], by simp [sampleRes], by simp [sampleRes]⟩
  simp [MacResource.Addressed, sampleRes]

/-! ## The theorems are about something -/

example : sampleCfg.InRange ∧ sampleTime.valid := by
  refine ⟨?_, ?_⟩
  · unfold CellCfg.InRange; decide
  · unfold Time.valid; decide

/-- A history with a call, voice, hang time, a stolen block and messages on two timeslots. -/
def sampleHistory : List SchedEv :=
  [msg 1 1 500, .create .dl (dlCircuit 2 7), .create .ul ⟨.ul, 2, 7, 0, none, false⟩, .voice 2 (List.replicate 35 170)] ++ ticks 4 ++
  [.steal 2 2 true (List.replicate 124 true), .voice 2 (List.replicate 35 85)] ++ ticks 8 ++
  [msg 1 3 40, .hang 2 true, msg 2 4 300] ++ ticks 16

theorem sampleHistory_proper : Proper sampleHistory := by
  intro e he
  have hm : ∀ t id n, 1 ≤ t → t ≤ 4 → (msg t id n).Fine ∧ (msg t id n).Sound := fun t id n h1 h2 => ⟨sampleRes_sendable, h1, h2⟩
  simp only [sampleHistory, ticks, List.mem_append, List.mem_cons, List.not_mem_nil, or_false, List.mem_replicate] at he
  rcases he with (((((rfl | rfl | rfl | rfl) | ⟨_, rfl⟩) | (rfl | rfl)) | ⟨_, rfl⟩) | (rfl | rfl | rfl)) | ⟨_, rfl⟩
  · exact hm _ _ _ (by decide) (by decide)
  · exact ⟨trivial, .inl rfl, by decide, by decide, by decide, by decide⟩
  · exact ⟨trivial, .inr rfl, by decide, by decide, by decide, by decide⟩
  · exact ⟨trivial, by decide, by decide, by simp⟩
  · exact ⟨trivial, trivial⟩
  · exact ⟨by simp [SchedEv.Fine], by decide, by decide⟩
  · exact ⟨trivial, by decide, by decide, by simp⟩
  · exact ⟨trivial, trivial⟩
  · exact hm _ _ _ (by decide) (by decide)
  · exact ⟨trivial, trivial⟩
  · exact hm _ _ _ (by decide) (by decide)
  · exact ⟨trivial, trivial⟩

/-- A check which is enough for `Orderly`. -/
def orderlyCheck (es : List SchedEv) (k : Nat) : Bool :=
  match es[k]? with
  | some (.steal t _ _ _) => (circuitAt .dl t (es.take k)).isSome
  | some (.close .dl _) => false
  | _ => true

theorem orderly_of_check (cfg : CellCfg) (scramb : Nat) (x : Time) (es : List SchedEv)
    (h : ∀ k, k < es.length → orderlyCheck es k = true) : Orderly cfg scramb x es := by
  constructor
  · intro es1 t id rep b es2 he
    have := h es1.length (by rw [he]; simp)
    simpa [orderlyCheck, he] using this
  · intro es1 t es2 he
    have := h es1.length (by rw [he]; simp)
    simp [orderlyCheck, he] at this

example : Orderly sampleCfg 864282631 sampleTime sampleHistory := orderly_of_check _ _ _ _ (by decide +kernel)

/-- What goes out on the first two timeslots: a broadcast channel or signalling on the first, voice with a stolen
half on the second, and signalling there once the talker has stopped. -/
example : ((slotsOf (sampleRun sampleHistory)).filter (·.slot.ts.t ≤ 2)).map (fun y => (y.slot.ts.t, y.slot.ts.f, y.slot.blk1.chan)) =
    [(1, 2, .schF), (2, 2, .tchS), (1, 3, .schF), (2, 3, .stch), (1, 4, .schF), (2, 4, .tchS), (1, 5, .schF), (2, 5, .schF),
     (1, 6, .schHd), (2, 6, .schF), (1, 7, .schF), (2, 7, .schF), (1, 8, .schHd), (2, 8, .schF)] := by decide +kernel

/-- All messages of the sample history are reported as transmitted. -/
example : (slotsOf (sampleRun sampleHistory)).flatMap (·.reports) =
    [.transmitted 2, .transmitted 1, .transmitted 3, .transmitted 4] := by decide +kernel

/-- The hypotheses of `c23_main` are met: a short message on timeslot 1, and 96 ticks. -/
example : ∃ s' tr parts, (Sched.init sampleTime 864282631 (Precomps.generate sampleCfg)).run (msg 1 1 10 :: ticks 96) = .ok (s', tr) ∧
    Carried sampleRes (List.replicate 10 true) true (bitsIn 1 tr) parts ∧ reportsIn 1 tr = [.transmitted 1] := by
  have hin : sampleCfg.InRange := by unfold CellCfg.InRange; decide
  have hv : sampleTime.valid := by unfold Time.valid; decide
  have hp : Proper ([] ++ msg 1 1 10 :: ticks 96) := by
    intro e he
    simp only [ticks, List.nil_append, List.mem_cons, List.mem_replicate] at he
    rcases he with rfl | ⟨_, rfl⟩
    · exact ⟨sampleRes_sendable, by decide, by decide⟩
    · exact ⟨trivial, trivial⟩
  obtain ⟨⟨s', tr⟩, hr⟩ := c23_total_partial sampleCfg hin 864282631 sampleTime hv _ hp
    (orderly_of_check _ _ _ _ (by decide +kernel))
  obtain ⟨parts, h1, h2, _⟩ := c23_main sampleCfg hin 864282631 sampleTime hv [] (ticks 96) 1 true sampleRes
    (List.replicate 10 true) hp (by simp [Avoids]) (by intro e he; simp only [ticks, List.mem_replicate] at he; rw [he.2]; simp [SchedEv.id?])
    _ s' [] tr rfl hr (by decide +kernel) (by simp [ticks])
  exact ⟨s', tr, parts, hr, h1, h2⟩

/-! ## What goes wrong -/

/-- A circuit is closed while a block stolen from it waits, and a long message follows on the same timeslot. -/
def stranded : List SchedEv :=
  [.create .dl (dlCircuit 2 7)] ++ ticks 4 ++ [.steal 2 1 true (List.replicate 124 true), .close .dl 2, msg 2 2 400] ++ ticks 8

theorem stranded_proper : Proper stranded := by
  intro e he
  simp only [stranded, ticks, List.mem_append, List.mem_cons, List.not_mem_nil, or_false, List.mem_replicate] at he
  rcases he with ((rfl | ⟨_, rfl⟩) | (rfl | rfl | rfl)) | ⟨_, rfl⟩
  · exact ⟨trivial, .inl rfl, by decide, by decide, by decide, by decide⟩
  · exact ⟨trivial, trivial⟩
  · exact ⟨by simp [SchedEv.Fine], by decide, by decide⟩
  · exact ⟨trivial, by simp [SchedEv.Sound]⟩
  · exact ⟨sampleRes_sendable, by decide, by decide⟩
  · exact ⟨trivial, trivial⟩

/-- **C23, finding.** Without the discipline about stolen blocks the scheduler aborts. -/
theorem c23_stranded_block_aborts : ∃ es, Proper es ∧
    (Sched.init sampleTime 864282631 (Precomps.generate sampleCfg)).run es = .panic :=
  ⟨stranded, stranded_proper, by
    exact panic_of_aborts (show aborts (sampleRun stranded) = true by decide +kernel)⟩

/-- **C23, finding.** A block stolen from one call, left when that call ended, is sent in the next call on the timeslot. -/
theorem c23_stale_block_next_call :
    ∃ y ∈ slotsOf (sampleRun ([.create .dl (dlCircuit 2 7)] ++ ticks 4 ++ [.steal 2 1 true (List.replicate 124 true), .close .dl 2] ++
      ticks 40 ++ [.create .dl (dlCircuit 2 8)] ++ ticks 4)),
      y.slot.blk1.chan = .stch ∧ y.slot.ts.f = 13 ∧ y.slot.blk1.blk.bits = List.replicate 124 true ∧
      y.reports = [.transmitted 1] := by decide +kernel

/-- A header with power control and a slot grant. -/
def longHdr : MacResource := { sampleRes with powerControl := some 3, slotGrant := some ⟨3, .nextOpportunity⟩ }

/-- **C23, finding.** Across slots messages are not served in the order in which they were queued: the second waits
because its header does not fit into the space left, and the third is sent in it. -/
theorem c23_overtaken :
    ((slotsOf (sampleRun ([msg 1 1 177, .message 1 2 true longHdr (List.replicate 20 true), .message 1 3 true sampleRes [true]] ++
      ticks 12))).flatMap (·.reports)) = [.transmitted 1, .transmitted 3, .transmitted 2] := by decide +kernel

/-- **C23, finding.** A second grant to the same station queued for the same slot replaces the first, of which the station
never hears: the slots given by the first stay reserved. -/
theorem c23_second_grant_replaces :
    ((slotsOf (sampleRun ([.grant 1 ⟨7, .issi, false⟩ ⟨0, .nextOpportunity⟩, .grant 1 ⟨7, .issi, false⟩ ⟨1, .nextOpportunity⟩] ++ ticks 6))).flatMap
      (fun y => y.log.map (fun l => match MacResource.dec.run l.2 with | .ok (p, _) => p.slotGrant | _ => none))) =
    [some ⟨1, .nextOpportunity⟩] := by decide +kernel

/-- **C21, finding.** A grant due in frame 18 is sent one frame later, after the slot it was to announce. -/
theorem c21_frame_18_grant_late :
    ((slotsOf (sampleRun (ticks 66 ++ [.capReq 2 7 0, .grant 2 ⟨7, .issi, false⟩ ⟨0, .nextOpportunity⟩] ++ ticks 6))).filter
      (fun y => y.log ≠ [])).map (fun y => (y.slot.ts.m, y.slot.ts.f, y.slot.ts.t)) = [(2, 1, 2)] ∧
    ((slotsOf (sampleRun (ticks 66))).getLast?.map (fun y => (y.slot.ts.m, y.slot.ts.f, y.slot.ts.t))) = some (1, 17, 4) := by
  decide +kernel

/-- **C45, finding.** After the talker has stopped, a stolen block is sent as traffic in a slot announced as control. -/
theorem c45_hang_stolen_mismatch :
    ∃ y ∈ slotsOf (sampleRun ([.create .dl (dlCircuit 2 7), .hang 2 true, .steal 2 1 true (List.replicate 124 true)] ++ ticks 4)),
      y.slot.blk1.chan = .stch ∧
      (match AccessAssign.dec.run y.slot.bbk.blk.bits with | .ok (a, _) => decide (a.dlUsage = .assignedControl) | _ => false) = true := by
  decide +kernel

/-! ## C47: two fragmented messages at once -/

/-- Three messages for timeslot 1, the second with a longer header than the others. -/
def inter : List SchedEv :=
  [msg 1 1 177, .message 1 2 true longHdr (List.replicate 500 false), .message 1 3 true sampleRes (List.replicate 300 true)]

/-- What a station listening to a timeslot makes of the PDUs sent there: the SDUs it passes on. -/
def listen (d : MsDefrag) : List (Time × List Bool) → List (List Bool)
  | [] => []
  | (t, bs) :: rest =>
    match msPdu d t bs with
    | .ok (d, some (_, sdu)) => sdu :: listen d rest
    | .ok (d, none) => listen d rest
    | _ => listen d rest

/-- **C47, finding.** Two messages of the same timeslot can both be begun and unfinished: after eight ticks parts
of the second and of the third have been sent, and both are still waiting. -/
theorem c47_interleaved : ∃ s tr, sampleRun (inter ++ ticks 8) = .ok (s, tr) ∧
    (bitsIn 2 tr).flatten ≠ [] ∧ here 2 (s.queues 0) ≠ [] ∧ (bitsIn 3 tr).flatten ≠ [] ∧ here 3 (s.queues 0) ≠ [] := by
  have h : (match sampleRun (inter ++ ticks 8) with
    | .ok (s, tr) => !(bitsIn 2 tr).flatten.isEmpty && !(here 2 (s.queues 0)).isEmpty && !(bitsIn 3 tr).flatten.isEmpty &&
        !(here 3 (s.queues 0)).isEmpty
    | _ => false) = true := by decide +kernel
  split at h
  · rename_i s tr he
    refine ⟨s, tr, he, ?_⟩
    simpa [and_assoc, List.isEmpty_iff] using h
  · cases h

/-- **C47, finding.** All three are reported as transmitted, but the station addressed gets only two of them: to it the
fragments of the third look like a part of the second. -/
theorem c47_lost :
    (slotsOf (sampleRun (inter ++ ticks 24))).flatMap (·.reports) = [.transmitted 1, .transmitted 2, .transmitted 3] ∧
    (listen MsDefrag.new ((slotsOf (sampleRun (inter ++ ticks 24))).flatMap
      (fun y => (y.log.filter (fun l => l.2 ≠ [])).map (fun l => (y.slot.ts, l.2))))).length = 2 := by
  decide +kernel

/-- **C22, finding.** What is announced on timeslot 1 does not depend on what is reserved: every slot is announced as open for random
access by everybody, whatever was granted before. -/
theorem c22_always_open (cfg : CellCfg) (hcfg : cfg.InRange) (scramb : Nat) (x : Time) (hx : x.valid) (es : List SchedEv)
    (hp : Proper es) (y : TickOut) (h : Built cfg scramb x es y) (ht : (slotTime x es).t = 1) (hf : (slotTime x es).f ≠ 18) :
    AccessAssign.dec.run y.slot.bbk.blk.bits = .ok (⟨.commonControl, .commonOnly, some ⟨0, 4⟩, some ⟨0, 4⟩, none⟩, []) := by
  rw [(c45_announced cfg hcfg scramb x hx es hp y h).1 hf]
  simp [announced, ht]

/-- The uplink slots asked for by a station on timeslot 1, and the time to the second of them. -/
def reserved : List SchedEv := [.capReq 1 7 2] ++ ticks 2

/-- **C22, finding.** The uplink slot with the number of the slot sent is reserved for station 7 as a whole, and announced as open for
random access. -/
theorem c22_reserved_but_open : Proper reserved ∧ slotTime sampleTime reserved = ⟨1, 2, 1, 0⟩ ∧
    (match sampleRun reserved with | .ok r => slotOwner r.1.ul ⟨1, 2, 1, 0⟩ .both | _ => .panic) = .ok (some 7) ∧
    ((slotsOf (sampleRun (reserved ++ [.tick]))).getLast?.map fun y => (y.slot.ts, AccessAssign.dec.run y.slot.bbk.blk.bits)) =
      some (⟨1, 2, 1, 0⟩, .ok (⟨.commonControl, .commonOnly, some ⟨0, 4⟩, some ⟨0, 4⟩, none⟩, [])) := by
  refine ⟨?_, by decide +kernel, by decide +kernel, by decide +kernel⟩
  intro e he
  simp only [reserved, ticks, List.mem_append, List.mem_cons, List.not_mem_nil, or_false, List.mem_replicate] at he
  rcases he with rfl | ⟨_, rfl⟩
  · exact ⟨by simp [SchedEv.Fine], by decide, by decide, by decide⟩
  · exact ⟨trivial, trivial⟩

end Verif.Umac
