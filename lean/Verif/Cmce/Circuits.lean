import Verif.Umac.Circuits
import Verif.Core.Tdma
import Verif.Core.TimeslotAlloc
/-!
# Circuits of call control: model of `crates/tetra-entities/src/cmce/components/circuit_mgr.rs`
-/
namespace Verif.Cmce
open Tdma

/-- `CircuitErr` (circuit_mgr.rs:14-18). -/
inductive CircuitErr where
  | noCircuitFree | circuitAlreadyInUse | circuitNotActive
  deriving DecidableEq, Repr

/-- `CmceCircuit` (tetra-pdus/src/cmce/structs/cmce_circuit.rs:23-53). The fields which are the same in
every circuit the manager makes (circuit mode TCH/S, simplex, speech service 0, no end-to-end encryption;
circuit_mgr.rs:154-160 and 190-194) are left out. The communication type is its number. -/
structure CmceCircuit where
  tsCreated : Time
  direction : Dir
  ts : Nat
  callId : Nat
  usage : Nat
  commType : Nat
  deriving DecidableEq, Repr

/-- `CircuitMgrCmd` (circuit_mgr.rs:20-23). -/
inductive Cmd where
  | sendDSetup (callId usage ts : Nat)
  | sendClose (callId : Nat) (c : CmceCircuit)
  deriving DecidableEq, Repr

/-- `CircuitMgr` (circuit_mgr.rs:25-40). -/
structure Mgr where
  dltime : Time
  dl : Slots (Option CmceCircuit)
  ulOnly : Slots (Option CmceCircuit)
  txData : Slots (List (List Nat))
  nextCallId : Nat
  nextUsage : Nat

/-- `CircuitMgr::new` (circuit_mgr.rs:43-52). -/
def Mgr.init : Mgr := ⟨Time.default, fun _ => none, fun _ => none, fun _ => [], 4, 4⟩

/-- Part of `is_active` (circuit_mgr.rs:57-66) and `is_active_dir`: does the downlink entry also cover the
uplink? -/
def isBoth : Option CmceCircuit → Bool
  | some c => c.direction == .both
  | none => false

/-- `is_active` (circuit_mgr.rs:56-67): downlink, uplink. -/
def Mgr.isActive (m : Mgr) (i : Fin 4) : Bool × Bool :=
  ((m.dl i).isSome, isBoth (m.dl i) || (m.ulOnly i).isSome)

/-- `is_active_dir` (circuit_mgr.rs:71-86), including the assertion at line 76. -/
def Mgr.isActiveDir (m : Mgr) (i : Fin 4) : Dir → Res Bool
  | .dl => .ok (m.dl i).isSome
  | .ul =>
    if (m.dl i).isSome && (m.ulOnly i).isSome then .panic
    else .ok ((m.ulOnly i).isSome || isBoth (m.dl i))
  | _ => .panic

/-- `get_usage` (circuit_mgr.rs:89-104), including the assertion at line 96. -/
def Mgr.getUsage (m : Mgr) (i : Fin 4) : Res (Option Nat × Option Nat) :=
  if isBoth (m.dl i) then
    if (m.ulOnly i).isSome then .panic else .ok ((m.dl i).map CmceCircuit.usage, (m.dl i).map CmceCircuit.usage)
  else .ok ((m.dl i).map CmceCircuit.usage, (m.ulOnly i).map CmceCircuit.usage)

/-- The wrap in `get_next_call_id` (circuit_mgr.rs:108-111). -/
def nextCallIdAfter (n : Nat) : Nat := if n + 1 > 0x3FF then 1 else n + 1

/-- The wrap in `get_next_usage_number` (circuit_mgr.rs:117-120). -/
def nextUsageAfter (n : Nat) : Nat := if n + 1 > 63 then 4 else n + 1

/-- One iteration of the loop of `get_free_ts` (circuit_mgr.rs:129-143). -/
def Mgr.slotFreeFor (m : Mgr) (dir : Dir) (i : Fin 4) : Bool :=
  match dir, m.isActive i with
  | .dl, (false, _) => true
  | .ul, (false, false) => true
  | .ul, (true, false) => !isBoth (m.dl i)
  | .both, (false, false) => true
  | _, _ => false

/-- `get_free_ts` (circuit_mgr.rs:125-147): the first of timeslots 2 to 4 which is free. -/
def Mgr.getFreeTs (m : Mgr) (dir : Dir) : Except CircuitErr Nat :=
  match ([1, 2, 3] : List (Fin 4)).find? (m.slotFreeFor dir) with
  | some i => .ok (i.val + 1)
  | none => .error .noCircuitFree

/-- `open_circuit` (circuit_mgr.rs:225-254). -/
def Mgr.openCircuit (m : Mgr) (dir : Dir) (c : CmceCircuit) : Res (Mgr × Except CircuitErr CmceCircuit) := do
  let i ← Slots.idx c.ts
  if dir.includesDl && (m.isActive i).1 then .ok (m, .error .circuitAlreadyInUse)
  else if dir.includesUl && (m.isActive i).2 then .ok (m, .error .circuitAlreadyInUse)
  else match dir with
    | .dl => .ok ({ m with txData := m.txData.upd i [], dl := m.dl.upd i (some c) }, .ok c)
    | .both => .ok ({ m with txData := m.txData.upd i [], dl := m.dl.upd i (some c) }, .ok c)
    | .ul => .ok ({ m with ulOnly := m.ulOnly.upd i (some c) }, .ok c)
    | .none => .panic

/-- The circuit `allocate_circuit` and its variant build (circuit_mgr.rs:151-166, 181-198), drawing a call
identifier (lines 106-113) and a usage number (lines 115-122). -/
def Mgr.draw (m : Mgr) (dir : Dir) (comm ts : Nat) : Mgr × CmceCircuit :=
  ({ m with nextCallId := nextCallIdAfter m.nextCallId, nextUsage := nextUsageAfter m.nextUsage },
   ⟨m.dltime, dir, ts, m.nextCallId, m.nextUsage, comm⟩)

/-- `allocate_circuit` (circuit_mgr.rs:149-170). -/
def Mgr.allocate (m : Mgr) (dir : Dir) (comm : Nat) : Res (Mgr × Except CircuitErr CmceCircuit) :=
  match m.getFreeTs dir with
  | .error e => .ok (m, .error e)
  | .ok ts => let d := m.draw dir comm ts; d.1.openCircuit dir d.2

/-- `allocate_circuit_with_allocator` (circuit_mgr.rs:173-202). -/
def Mgr.allocateWith (m : Mgr) (dir : Dir) (comm : Nat) (a : TsAlloc.Alloc) (o : TsAlloc.Owner) :
    Res (Mgr × TsAlloc.Alloc × Except CircuitErr CmceCircuit) :=
  match a.allocateAny o with
  | (a, none) => .ok (m, a, .error .noCircuitFree)
  | (a, some ts) => do
    let d := m.draw dir comm ts
    let r ← d.1.openCircuit dir d.2
    .ok (r.1, a, r.2)

/-- `close_circuit` (circuit_mgr.rs:207-223). -/
def Mgr.close (m : Mgr) (dir : Dir) (ts : Nat) : Res (Mgr × Except CircuitErr CmceCircuit) := do
  let i ← Slots.idx ts
  let res : Option CmceCircuit → Except CircuitErr CmceCircuit := fun
    | some c => .ok c
    | none => .error .circuitNotActive
  match dir with
  | .dl => .ok ({ m with txData := m.txData.upd i [], dl := m.dl.upd i none }, res (m.dl i))
  | .both => .ok ({ m with txData := m.txData.upd i [], dl := m.dl.upd i none }, res (m.dl i))
  | .ul => .ok ({ m with ulOnly := m.ulOnly.upd i none }, res (m.ulOnly i))
  | .none => .panic

/-- `put_block` (circuit_mgr.rs:257-264). -/
def Mgr.putBlock (m : Mgr) (ts : Nat) (b : List Nat) : Res (Mgr × Except CircuitErr Unit) := do
  let i ← Slots.idx ts
  if (m.dl i).isSome then .ok ({ m with txData := m.txData.upd i (m.txData i ++ [b]) }, .ok ())
  else .ok (m, .error .circuitNotActive)

/-- `take_block` (circuit_mgr.rs:267-273). -/
def Mgr.takeBlock (m : Mgr) (ts : Nat) : Res (Mgr × Except CircuitErr (Option (List Nat))) := do
  let i ← Slots.idx ts
  if (m.dl i).isSome then .ok ({ m with txData := m.txData.upd i (m.txData i).tail }, .ok (m.txData i).head?)
  else .ok (m, .error .circuitNotActive)

/-- `CIRCUIT_EXPIRY_TIMESLOTS` (circuit_mgr.rs:279). -/
def expiry : Int := 6 * 60 * 18 * 4

/-- The entries of a table in order of timeslot. -/
def entries (s : Slots (Option CmceCircuit)) : List CmceCircuit := ([0, 1, 2, 3] : List (Fin 4)).filterMap s

/-- Is this circuit past the limit? (circuit_mgr.rs:285, 292). -/
def expired (now : Time) (c : CmceCircuit) : Bool := decide (c.tsCreated.age now > expiry)

/-- The closing loop of `close_expired_circuits` (circuit_mgr.rs:295-298), with its `unwrap`. -/
def closeAll (m : Mgr) : List CmceCircuit → Res (Mgr × List Cmd)
  | [] => .ok (m, [])
  | c :: cs => do
    let r ← m.close c.direction c.ts
    match r.2 with
    | .error _ => .panic
    | .ok x => do
      let q ← closeAll r.1 cs
      .ok (q.1, .sendClose c.callId x :: q.2)

/-- `close_expired_circuits` (circuit_mgr.rs:278-300). -/
def Mgr.closeExpired (m : Mgr) : Res (Mgr × List Cmd) :=
  closeAll m ((entries m.dl).filter (expired m.dltime) ++ (entries m.ulOnly).filter (expired m.dltime))

/-- `LATE_ENTRY_INTERVAL_TIMESLOTS` (circuit_mgr.rs:12). -/
def lateEntry : Int := multiframes 5

/-- Is a D-SETUP due for this circuit? (circuit_mgr.rs:314-332; `D_SETUP_REPEATS` is 1, line 11). Rust's
`i32` division and remainder truncate. -/
def setupDue (now : Time) (c : CmceCircuit) : Bool :=
  let age := c.tsCreated.age now
  if age < frames 1 then true else (age.tdiv 4).tmod (lateEntry.tdiv 4) == 0

/-- `tick_start` (circuit_mgr.rs:302-335). A missing task list is the empty list. -/
def Mgr.tick (m : Mgr) (now : Time) : Res (Mgr × List Cmd) := do
  let m := { m with dltime := now }
  if now.t = 1 then
    let r ← m.closeExpired
    .ok (r.1, r.2 ++ ((entries r.1.dl).filter (setupDue now)).map fun c => .sendDSetup c.callId c.usage c.ts)
  else .ok (m, [])

end Verif.Cmce
