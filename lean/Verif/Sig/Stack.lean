import Verif.Mle.MleBs
import Verif.Llc.Entity
import Verif.Mm.MmBs
import Verif.Cmce.CmceBs
/-!
# The signalling stack of the base station

LLC, MLE, mobility management and call control, with the queue of the message router between them. The four entities are those of
`Verif.Llc.Entity`, `Verif.Mle.MleBs`, `Verif.Mm.MmBs` and `Verif.Cmce.CmceBs`; here is the wiring: which entity a pushed message is
addressed to, and the queue (crates/tetra-entities/src/messagerouter.rs, `push_back` only: the two places which push to the front,
lmac_bs.rs:257 and umac_bs.rs:1314, address the upper MAC and the lower MAC). The upper MAC, the backhaul, the control link and the telemetry are the outside.

The upper MAC and the backhaul share the queue; their messages among these do not change the order of these, and are left out.

Simplifications. The address of a station in a message of call control has type `issi` (in D-CALL PROCEEDING and D-CONNECT the code
copies the address received). Of a time stamp the timeslot is kept.
-/
namespace Verif.Sig
open Verif.Tdma Verif.Bits
open Verif.Umac (Addr SsiType)
open Verif.Cmce (BsEv BsOut Bs Party Service SdsView SubUpdate Control)
open Verif.Mm (Mm MmOut)
open Verif.Mle (Mle)
open Verif.Llc (Llc)

/-- A message in the queue, by the entity it is for. -/
inductive Letter where
  /-- TMA-UNITDATA indication for the LLC -/
  | frame (addr : Addr) (ts : Nat) (pdu : List Bool)
  /-- for MLE -/
  | mle (m : Mle.In)
  /-- for mobility management -/
  | mm (handle : Nat) (addr : Addr) (ts : Nat) (sdu : List Bool)
  /-- for call control -/
  | cmce (ts : Nat) (e : BsEv)
  /-- packet data, on the service access point of call control -/
  | sndcp (addr : Addr) (link ts : Nat) (sdu : List Bool)
  /-- TL-DATA and TL-UNITDATA requests for the LLC -/
  | tlData (addr : Addr) (ts : Nat) (stealing : Bool) (sdu : List Bool)
  | tlUnitdata (to : Llc.Via) (sdu : List Bool)
  deriving DecidableEq, Repr

/-- What MLE pushes (mle_bs.rs). -/
def ofMle : Mle.Out → Letter
  | .mm h addr ts sdu => .mm h addr ts sdu
  | .cmce _ addr _ ts sdu => .cmce ts (.mobile addr.ssi sdu)
  | .sndcp addr link ts sdu => .sndcp addr link ts sdu
  | .tlData addr ts _ stealing sdu => .tlData addr ts stealing sdu
  | .tlUnitdata addr ts chan stealing sdu => .tlUnitdata ⟨addr, ts, chan, stealing⟩ sdu

/-- What the LLC pushes for MLE (llc_bs_ms.rs:503-559); its other messages are for the upper MAC. `ts` is the time stamp of the
message being handled. -/
def ofLlc (ts : Nat) : Llc.Emit → Option Letter
  | .up true addr link _ sdu => some (.mle (.dataInd addr link ts sdu))
  | .up false addr link _ sdu => some (.mle (.unitdataInd addr link ts sdu))
  | _ => none

/-- The address mobility management answers to: mm_bs.rs:242-246, 417-421, 568-572, but line 323 for the answer to a status
message (type 3). -/
def answerTo (addr : Addr) (sdu : List Bool) : Addr :=
  if ofBits (sdu.take 4) = 3 then addr else ⟨addr.ssi, .ssi, false⟩

/-- What mobility management pushes for MLE and call control; `addr`, `ts` and `sdu` are those of the message being handled. -/
def ofMm (addr : Addr) (ts : Nat) (sdu : List Bool) : MmOut → Option Letter
  | .answer _ _ bs => some (.mle (.lmm (answerTo addr sdu) ts .todo bs))
  | .cmce u => some (.cmce ts (.update u))
  | _ => none

/-- The address of a message of call control. -/
def addrOf : Party → Addr
  | .station i => ⟨i, .issi, false⟩
  | .group g => ⟨g, .gssi, false⟩

/-- What call control pushes for MLE; `stamp` gives the time stamp of a message. -/
def ofBs (stamp : BsOut → Nat) : BsOut → Option Letter
  | .air to service chan stealing sdu => some (.mle (.lcmc (addrOf to) (stamp (.air to service chan stealing sdu)) service chan stealing sdu))
  | _ => none

/-- The timeslots call control takes time stamps from: that of the message handled, and that of the latest tick. -/
structure Stamp where
  msg : Nat
  clock : Nat
  deriving DecidableEq, Repr

/-- Is it short data (D-SDS-DATA, type 15)? -/
def isSds : BsOut → Bool
  | .air _ _ _ _ sdu => decide (ofBits (sdu.take 5) = 15)
  | _ => false

/-- The timeslot of the time stamp of a message of call control. Answers to U-SETUP and what short data and status messages of
stations become take that of the message received (cc_bs.rs:349, 516, 571, sds_bs.rs:73, 76, 208). Short data of the backhaul and
the control link takes timeslot 1 (sds_bs.rs:119, 159). Everything else takes that of the latest tick, `self.dltime` (cc_bs.rs:650,
695, 722, 783, 934, 1037, 1166, 1392, 1424, 1544, 1611). -/
def stampOf (p : Stamp) : BsEv → BsOut → Nat
  | .sdsFromBrew .., _ => 1
  | .tick now _, o => if isSds o then 1 else now.t
  | .mobile _ sdu, _ =>
    if ofBits (sdu.take 5) = 7 ∨ ofBits (sdu.take 5) = 8 ∨ ofBits (sdu.take 5) = 15 then p.msg else p.clock
  | _, _ => p.clock

/-- The configuration: the backhaul, and whether a time zone is set. -/
structure Cfg where
  brew : Brew.Cfg
  zone : Bool

/-- The four entities and the queue. The registry of subscribers, which call control reads, is the one mobility management keeps. -/
structure St where
  llc : Llc
  mle : Mle
  mm : Mm
  bs : Bs
  queue : List Letter

def St.init (c : Cfg) : St := ⟨.init, .new c.zone, .new, .init (Brew.gssiRoutable c.brew), []⟩

/-- What the backhaul and the upper MAC push for call control (net_brew/entity.rs, umac_bs.rs). -/
inductive Outside where
  | netStart (uuid speaker gssi : Nat)
  | netEnd (uuid : Nat)
  | inactive (ts : Nat)
  | sds (source dest : Nat) (data : Cmce.Pdu.Sds)
  deriving DecidableEq, Repr

/-- As an event of call control. -/
def Outside.ev : Outside → BsEv
  | .netStart uuid speaker gssi => .netStart uuid speaker gssi
  | .netEnd uuid => .netEnd uuid
  | .inactive ts => .inactive ts
  | .sds source dest data => .sdsFromBrew source dest data

/-- What happens to the stack. -/
inductive Ev where
  /-- the upper MAC pushes a TMA-UNITDATA indication -/
  | frame (addr : Addr) (ts : Nat) (pdu : List Bool)
  /-- the upper MAC or the backhaul pushes a message for call control -/
  | toCmce (ts : Nat) (e : Outside)
  /-- the router delivers the first message of the queue -/
  | deliver
  /-- `tick_start` of the entities, in either order, with the commands waiting on the control link and the clock -/
  | tickStart (now : Time) (cmds : List Control) (clock : Mle.Clock) (mleFirst : Bool)
  /-- `tick_end` of the LLC -/
  | tickEnd
  /-- the upper MAC has transmitted, or discarded, a message of the LLC -/
  | mac (id : Nat) (discarded : Bool)
  deriving DecidableEq, Repr

/-- A call of an entity: what it was handed and what it did. -/
inductive Call where
  | llc (e : Llc.Ev) (out : List Llc.Emit)
  | mle (m : Mle.In) (out : List Mle.Out)
  | time (out : List Mle.Out)
  | mm (handle : Nat) (addr : Addr) (ts : Nat) (sdu : List Bool) (out : List MmOut)
  | cmce (at_ : Stamp) (e : BsEv) (out : List BsOut)
  deriving DecidableEq, Repr

/-- A call of the LLC. -/
def St.callLlc (s : St) (ts : Nat) (e : Llc.Ev) : Res (St × List Call) := do
  let r ← s.llc.step e
  .ok ({ s with llc := r.1, queue := s.queue ++ r.2.filterMap (ofLlc ts) }, [.llc e r.2])

/-- A call of MLE. -/
def St.callMle (s : St) (m : Mle.In) : Res (St × List Call) := do
  let r ← s.mle.rx m
  .ok ({ s with mle := r.1, queue := s.queue ++ r.2.map ofMle }, [.mle m r.2])

/-- A call of mobility management. -/
def St.callMm (c : Cfg) (s : St) (handle : Nat) (addr : Addr) (ts : Nat) (sdu : List Bool) : Res (St × List Call) := do
  let r ← s.mm.rx c.brew handle addr.ssi sdu
  .ok ({ s with mm := r.1, queue := s.queue ++ r.2.filterMap (ofMm addr ts sdu) }, [.mm handle addr ts sdu r.2])

/-- A call of call control. -/
def St.callBs (c : Cfg) (s : St) (ts : Nat) (e : BsEv) : Res (St × List Call) := do
  let r ← s.bs.step ⟨s.mm.registry, c.brew⟩ e
  .ok ({ s with bs := r.1, queue := s.queue ++ r.2.filterMap (ofBs (stampOf ⟨ts, s.bs.cc.now.t⟩ e)) },
    [.cmce ⟨ts, s.bs.cc.now.t⟩ e r.2])

/-- The call of MLE at the start of a tick. -/
def St.tickMle (s : St) (now : Time) (clock : Mle.Clock) : Res (St × List Call) := do
  let r ← s.mle.tick now clock
  .ok ({ s with mle := r.1, queue := s.queue ++ r.2.map ofMle }, [.time r.2])

/-- A message reaches its entity. Packet data reaches call control, which aborts (cmce_bs.rs:119-121). The requests of MLE have no
FCS, and the LLC makes the reporter of a message in acknowledged mode itself (mle_bs.rs:311-335, 388-426). -/
def St.handle (c : Cfg) (s : St) : Letter → Res (St × List Call)
  | .frame addr ts pdu => s.callLlc ts (.ind addr ts pdu)
  | .mle m => s.callMle m
  | .mm handle addr ts sdu => s.callMm c handle addr ts sdu
  | .cmce ts e => s.callBs c ts e
  | .sndcp .. => .panic
  | .tlData addr ts stealing sdu => s.callLlc ts (.dataReq addr ts stealing false true sdu)
  | .tlUnitdata to sdu => s.callLlc to.ts (.unitdataReq to sdu)

/-- Two calls, one after the other. -/
def andThen (a : Res (St × List Call)) (f : St → Res (St × List Call)) : Res (St × List Call) := do
  let r ← a
  let q ← f r.1
  .ok (q.1, r.2 ++ q.2)

/-- One event: messagerouter.rs:99-146, 152-165. -/
def St.step (c : Cfg) (s : St) : Ev → Res (St × List Call)
  | .frame addr ts pdu => .ok ({ s with queue := s.queue ++ [.frame addr ts pdu] }, [])
  | .toCmce ts e => .ok ({ s with queue := s.queue ++ [.cmce ts e.ev] }, [])
  | .deliver =>
    match s.queue with
    | [] => .ok (s, [])
    | l :: q => { s with queue := q }.handle c l
  | .tickStart now cmds clock mleFirst =>
    andThen (s.callLlc now.t (.tickStart now)) fun s =>
      if mleFirst then andThen (s.tickMle now clock) fun s => s.callBs c now.t (.tick now cmds)
      else andThen (s.callBs c now.t (.tick now cmds)) fun s => s.tickMle now clock
  | .tickEnd => s.callLlc 0 .tickEnd
  | .mac id discarded => s.callLlc 0 (.mac id discarded)

/-- Histories: the events, the calls of entities they led to, and the state reached. Between events the hash maps of call control may
list their entries in another order. -/
inductive Run (c : Cfg) : List Ev → List Call → St → Prop where
  | init : Run c [] [] (.init c)
  | step {evs : List Ev} {tr calls : List Call} {s s' : St} {e : Ev} :
      Run c evs tr s → s.step c e = .ok (s', calls) → Run c (evs ++ [e]) (tr ++ calls) s'
  | reorder {evs : List Ev} {tr : List Call} {s : St} {cc' : Cmce.Cc} :
      Run c evs tr s → s.bs.cc.Reordered cc' → Run c evs tr { s with bs := { s.bs with cc := cc' } }

end Verif.Sig
