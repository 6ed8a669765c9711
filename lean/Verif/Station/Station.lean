import Verif.Sig.Stack
import Verif.Phy.Uplink
import Verif.Umac.UmacCall
import Verif.Umac.UmacMsHistory
/-!
# The whole base station

Radio side (`Verif.Phy.Uplink`: physical layer, lower MAC, upper MAC) and signalling stack (`Verif.Sig.Stack`: LLC, MLE, mobility
management, call control) with the messages between them and the clock of the router
(crates/tetra-entities/src/messagerouter.rs). The outside is the radio channel, the backhaul, the control link and the clock of the
computer.

What goes up: TMA-UNITDATA indications for the LLC (umac_bs.rs:557-570, 700-716, 878-891, 991-1004, 1053-1066) and notices of a silent
uplink for call control (umac_bs.rs:1469-1478). What goes down: TMA-UNITDATA requests of the LLC (llc_bs_ms.rs:235-247, 699-718, 731-738)
and the orders of call control (cc_bs.rs, `Sap::Control` for `TetraEntity::Umac`). The transmission reporters are shared memory: a report
of the upper MAC is seen by the LLC without a message.

Simplifications. The messages for the upper MAC have a queue of their own, `mac`: their order among each other is kept; how their
deliveries interleave with those of the other queue is left open. A request for the upper MAC is given a serial number when it is
delivered, and a reporter under that number. The reporters of messages which are not to be acknowledged do not exist in the code or
nobody holds them (cc_bs.rs:703); here they are reported on and nobody listens. Of a time stamp the timeslot is kept. What call
control and the upper MAC send to the backhaul is in the trace of their calls; the backhaul is the outside.
-/
namespace Verif.Station
open Verif.Tdma Verif.Codec
open Verif.Phy (Air Cell CellEv CellOut)
open Verif.Umac (TmaReq ChanReq MacCtl UmacOut Report Block)
open Verif.Cmce (BsOut Control)

/-- A message for the upper MAC. `now` is the clock of the LLC when it asked. -/
inductive Mail where
  | request (now : Time) (e : Llc.Emit)
  | order (m : MacCtl)
  | voice (ts : Nat) (b : Block)
  deriving DecidableEq

/-- The base station. `next` is the next serial number; `owner` gives the message of the LLC a serial number belongs to. -/
structure Station where
  cell : Cell
  sig : Sig.St
  mac : List Mail
  next : Nat
  owner : Assoc Nat Nat

def Station.init (c : Sig.Cfg) (cell : Cell) : Station := ⟨cell, .init c, [], 0, []⟩

/-- What happened: to the radio side, to the signalling stack, and the calls of the entities in the stack. -/
structure Trace where
  radio : List (CellEv × CellOut)
  evs : List Sig.Ev
  calls : List Sig.Call

def Trace.empty : Trace := ⟨[], [], []⟩

def Trace.add (a b : Trace) : Trace := ⟨a.radio ++ b.radio, a.evs ++ b.evs, a.calls ++ b.calls⟩

/-! ## Downwards -/

/-- `CmceChanAllocReq` for one timeslot: Replace, both directions (cc_bs.rs:111-117, 156-162, 527-533, llc_bs_ms.rs:689-696). -/
def chanOf (a : Option Nat × Nat) : ChanReq := ⟨a.1, a.2 == 1, a.2 == 2, a.2 == 3, a.2 == 4, 0, 3⟩

/-- A BL-ACK without FCS (llc_bs_ms.rs:671-677). -/
def ackPdu (nr : Bool) : List Bool := [false, false, true, true, nr]

/-- The TMA-UNITDATA request with serial number `n`. Messages to be acknowledged have no channel allocation: mobility management and
short data never ask for one, and D-CALL PROCEEDING, the only message of call control to be acknowledged, does not either
(cc_bs.rs:361). The time stamp of a BL-ACK is two slots before the clock (llc_bs_ms.rs:684). -/
def requestOf (now : Time) (n : Nat) : Llc.Emit → Option TmaReq
  | .data _ addr ts pdu => some ⟨{ now with t := ts }, n, true, addr, false, none, pdu⟩
  | .ack addr nr ts steal =>
    some ⟨{ now with t := Llc.linkOf now.t }, n, true, addr, steal, if steal then some (chanOf (none, ts)) else none, ackPdu nr⟩
  | .udata v pdu => some ⟨{ now with t := v.ts }, n, true, v.addr, v.steal, v.chan.map chanOf, pdu⟩
  | _ => none

/-- Is it a message for the upper MAC? -/
def goesDown : Llc.Emit → Bool
  | .data .. => true
  | .ack .. => true
  | .udata .. => true
  | _ => false

/-- What a call of an entity leaves for the upper MAC. -/
def mailOf (now : Time) : Sig.Call → List Mail
  | .llc _ out => (out.filter goesDown).map (.request now)
  | .cmce _ _ out => (out.filterMap fun o => match o with | .signal m => Umac.toMac m | _ => none).map .order
  | _ => []

/-! ## Upwards -/

/-- An answer of the upper MAC as an event of the signalling stack. `t` is the timeslot of the present slot. -/
def eventOf (t : Nat) : UmacOut → Option Sig.Ev
  | .sdu x a bits => some (.frame a x.t bits)
  | .inactive ts => some (.toCmce t (.inactive ts))
  | _ => none

/-- A report about a message of the LLC. -/
def reportOf (owner : Assoc Nat Nat) : Report → Option Sig.Ev
  | .transmitted n => (owner.get n).map fun id => .mac id false
  | .discarded n => (owner.get n).map fun id => .mac id true

/-- What the signalling stack learns from a step of the radio side: the reports, and what the upper MAC pushed. -/
def eventsOf (owner : Assoc Nat Nat) (old new : Cell) (o : CellOut) : List Sig.Ev :=
  (Umac.reported (new.umac.log.drop old.umac.log.length)).filterMap (reportOf owner) ++
    (o.calls.flatMap fun p => p.2).filterMap (eventOf new.umac.now.t)

/-- Events of the signalling stack, one after the other. -/
def feed (c : Sig.Cfg) (s : Sig.St) : List Sig.Ev → Out (Sig.St × List Sig.Call)
  | [] => .ok (s, [])
  | e :: es => do
    let r ← Out.ofRes (s.step c e)
    let q ← feed c r.1 es
    .ok (q.1, r.2 ++ q.2)

/-! ## Steps -/

/-- A step of the radio side. -/
def Station.radio (c : Sig.Cfg) (s : Station) (e : CellEv) : Out (Station × Trace) := do
  let r ← s.cell.step e
  let evs := eventsOf s.owner s.cell r.1 r.2
  let q ← feed c s.sig evs
  .ok ({ s with cell := r.1, sig := q.1 }, ⟨[(e, r.2)], evs, q.2⟩)

/-- A step of the signalling stack. -/
def Station.signal (c : Sig.Cfg) (s : Station) (e : Sig.Ev) : Out (Station × Trace) := do
  let r ← Out.ofRes (s.sig.step c e)
  .ok ({ s with sig := r.1, mac := s.mac ++ r.2.flatMap (mailOf r.1.llc.now) }, ⟨[], [e], r.2⟩)

/-- Two steps, one after the other. -/
def andThen (a : Out (Station × Trace)) (f : Station → Out (Station × Trace)) : Out (Station × Trace) := do
  let r ← a
  let q ← f r.1
  .ok (q.1, r.2.add q.2)

/-- The message of the LLC a request belongs to. -/
def Station.owned (s : Station) : Llc.Emit → Assoc Nat Nat
  | .data id _ _ _ => s.owner.insert s.next id
  | _ => s.owner

/-- The first message for the upper MAC is delivered (messagerouter.rs:99-127). -/
def Station.deliverMac (c : Sig.Cfg) (s : Station) : Out (Station × Trace) :=
  match s.mac with
  | [] => .ok (s, .empty)
  | .request now e :: q =>
    match requestOf now s.next e with
    | some r => Station.radio c { s with mac := q, next := s.next + 1, owner := s.owned e } (.request r)
    | none => .ok ({ s with mac := q }, .empty)
  | .order m :: q => Station.radio c { s with mac := q } (.control m)
  | .voice ts b :: q => Station.radio c { s with mac := q } (.voice ts b)

/-- What happens to the base station. -/
inductive In where
  /-- `tick_start` of the entities (messagerouter.rs:137-146), in an order which depends on the hash map: `macFirst`: the upper MAC before
  the signalling stack. `wide`: the state of the backhaul; the commands on the control link; the clock of the computer -/
  | tick (wide : Bool) (cmds : List Control) (clock : Mle.Clock) (mleFirst macFirst : Bool)
  /-- the reception of a slot -/
  | air (a : Air)
  /-- the backhaul has a message for call control -/
  | backhaul (e : Sig.Outside)
  /-- the backhaul has voice -/
  | voice (ts : Nat) (b : Block)
  /-- the router delivers the first message for an entity of the signalling stack -/
  | deliver
  /-- the router delivers the first message for the upper MAC -/
  | deliverMac
  /-- `tick_end` of the LLC (messagerouter.rs:152-165) -/
  | llcEnd
  deriving DecidableEq

/-- One event. All entities are told the same time (messagerouter.rs:144), which is that of the upper MAC after its tick. A notice of a
silent uplink is not the backhaul's to give. -/
def Station.step (c : Sig.Cfg) (s : Station) : In → Out (Station × Trace)
  | .tick wide cmds clock mleFirst macFirst => do
    let now ← Out.ofRes (s.cell.umac.now.addTimeslots 1)
    if macFirst then andThen (s.radio c (.down wide)) fun s => s.signal c (.tickStart now cmds clock mleFirst)
    else andThen (s.signal c (.tickStart now cmds clock mleFirst)) fun s => s.radio c (.down wide)
  | .air a => s.radio c (.up a)
  | .backhaul (.inactive _) => .ok (s, .empty)
  | .backhaul e => s.signal c (.toCmce s.cell.umac.now.t e)
  | .voice ts b => .ok ({ s with mac := s.mac ++ [.voice ts b] }, .empty)
  | .deliver => s.signal c .deliver
  | .deliverMac => s.deliverMac c
  | .llcEnd => s.signal c .tickEnd

/-- Histories. Between events the hash maps of call control may list their entries in another order. -/
inductive Run (c : Sig.Cfg) (c0 : Cell) : List In → Trace → Station → Prop where
  | init : Run c c0 [] .empty (.init c c0)
  | step {ins : List In} {h t : Trace} {s s' : Station} {i : In} :
      Run c c0 ins h s → s.step c i = .ok (s', t) → Run c c0 (ins ++ [i]) (h.add t) s'
  | reorder {ins : List In} {h : Trace} {s : Station} {cc' : Cmce.Cc} :
      Run c c0 ins h s → s.sig.bs.cc.Reordered cc' → Run c c0 ins h { s with sig := { s.sig with bs := { s.sig.bs with cc := cc' } } }

end Verif.Station
