import Verif.Llc.Pdus
import Verif.Llc.FcsProps
import Verif.Core.Tdma
import Verif.Core.TxReceipt
import Verif.Assoc
import Verif.Umac.MacPdus
/-!
# The LLC entity: model of `crates/tetra-entities/src/llc/llc_bs_ms.rs`

Messages from above (TL-DATA and TL-UNITDATA requests), from below (TMA-UNITDATA indications), what the upper MAC
does with a message handed to it (seen by the LLC through the shared transmission reporter) and the two halves of
a tick are events; what the LLC hands down or up, and the final reports it makes, are its outputs.

Simplifications.
* Every acknowledged message carries a number, the count of requests before it (no counterpart in the code): it
  identifies the message in the outputs.
* Fields which the LLC only copies from a request to the primitive it sends down (endpoint, handles, encryption, data class, and for
  acknowledged messages the channel allocation) are left out, as is logging.
* Of the time stamp of a message sent down only the timeslot is kept: `forward_to_timeslot` of the timeslot of the
  request (C03, C04). Of `t_submitted_to_umac` only `is_some` is used by the code; it is a boolean here.
* The transmission reporter of a message lives in its queue entry. The upper MAC reports on a message only between
  its being handed down and the report.
-/
namespace Verif.Llc
open Verif.Tdma Verif.TxReceipt
open Verif.Umac (Addr SsiType)

/-- `T251_SENDER_RETRY_TIMER` (llc/consts/timers.rs:4). -/
def T251 : Int := 16
/-- `N252_BL_MAX_TLSDU_RETRANSMITS_ACKED` (llc/consts/consts.rs:9). -/
def N252 : Nat := 3

/-- `ScheduledOutAck` (llc_bs_ms.rs:56-63); `ts` is `t_start.t`. -/
structure OwedAck where
  addr : Addr
  nr : Bool
  ts : Nat
  deriving DecidableEq, Repr

/-- `ExpectedInAck` (llc_bs_ms.rs:26-53). `nr` and `sdu` make up the retransmission buffer. -/
structure Msg where
  id : Nat
  addr : Addr
  ns : Bool
  /-- acknowledgement carried: BL-ADATA when present, BL-DATA otherwise -/
  nr : Option Bool
  fcs : Bool
  sdu : List Bool
  ts : Nat
  submitted : Bool
  tDone : Option Time
  cell : Cell
  count : Nat
  deriving DecidableEq, Repr

/-- The PDU of a message (llc_bs_ms.rs:273-303). No FCS is appended whatever the flag says. -/
def Msg.pdu (m : Msg) : List Bool :=
  (match m.nr with
   | some nr => [false, m.fcs, false, false, nr, m.ns]
   | none => [false, m.fcs, false, true, m.ns]) ++ m.sdu

/-- What an unacknowledged request carries besides its bits (llc_bs_ms.rs:211-228): the address, the timeslot of its time stamp, the
channel allocation (usage marker and timeslot) and the permission to steal. -/
structure Via where
  addr : Addr
  ts : Nat
  chan : Option (Option Nat × Nat)
  steal : Bool
  deriving DecidableEq, Repr

/-- `Llc` (llc_bs_ms.rs:65-82). `nextId` counts the acknowledged requests. -/
structure Llc where
  now : Time
  acks : List OwedAck
  out : List Msg
  udata : List (Via × List Bool)
  seq : Assoc Nat Bool
  nextId : Nat
  deriving DecidableEq, Repr

/-- `Llc::new` (llc_bs_ms.rs:85-94). -/
def Llc.init : Llc := ⟨Time.default, [], [], [], [], 0⟩

/-- What the LLC sends and reports. -/
inductive Emit where
  /-- TMA-UNITDATA request with the PDU of message `id`, for timeslot `ts` -/
  | data (id : Nat) (addr : Addr) (ts : Nat) (pdu : List Bool)
  /-- TMA-UNITDATA request with a BL-ACK; `steal`: on a traffic timeslot -/
  | ack (addr : Addr) (nr : Bool) (ts : Nat) (steal : Bool)
  /-- TMA-UNITDATA request with a BL-UDATA -/
  | udata (to : Via) (pdu : List Bool)
  /-- TL-DATA (`acked`) or TL-UNITDATA indication to the MLE -/
  | up (acked : Bool) (addr : Addr) (link : Nat) (fcs : Bool) (sdu : Option (List Bool))
  /-- the reporter of message `id` is marked acknowledged -/
  | acknowledged (id : Nat)
  /-- the reporter of message `id` is marked lost -/
  | lost (id : Nat)
  deriving DecidableEq, Repr

/-- `get_out_ack_seq_if_any` (llc_bs_ms.rs:106-115). -/
def takeAck (ts ssi : Nat) : List OwedAck → Option Bool × List OwedAck
  | [] => (none, [])
  | a :: r =>
    if a.ts = ts ∧ a.addr.ssi = ssi then (some a.nr, r)
    else let q := takeAck ts ssi r; (q.1, a :: q.2)

/-- `get_next_send_seq` (llc_bs_ms.rs:119-124). -/
def Llc.nextSeq (s : Llc) (ssi : Nat) : Bool := (s.seq.get ssi).getD false

/-- `take_expected_ack_for_ssi` (llc_bs_ms.rs:127-135). -/
def takeOutstanding (ssi : Nat) : List Msg → Option (Msg × List Msg)
  | [] => none
  | m :: r =>
    if m.addr.ssi = ssi ∧ m.submitted = true then some (m, r)
    else (takeOutstanding ssi r).map fun q => (q.1, m :: q.2)

/-- `process_incoming_ack` (llc_bs_ms.rs:139-179). -/
def Llc.processAck (s : Llc) (ssi : Nat) (nr : Bool) : Res (Llc × List Emit) :=
  match takeOutstanding ssi s.out with
  | none => .ok (s, [])
  | some (m, rest) =>
    if m.tDone = none then .ok ({ s with out := m :: rest }, [])
    else if m.ns = nr then do
      let _ ← m.cell.markAcknowledged
      .ok ({ s with out := rest }, [.acknowledged m.id])
    else .ok ({ s with out := m :: rest }, [])

/-- `rx_tla_tlunitdata_req_bl` (llc_bs_ms.rs:196-232). -/
def Llc.unitdataReq (s : Llc) (to : Via) (sdu : List Bool) : Llc :=
  { s with udata := s.udata ++ [(to, [false, false, true, false] ++ sdu)] }

/-- `rx_tla_tldata_req_bl` (llc_bs_ms.rs:250-340). `expectsAck` is the flag of the reporter passed down (true when
the LLC makes its own). -/
def Llc.dataReq (s : Llc) (addr : Addr) (ts : Nat) (stealing fcs expectsAck : Bool) (sdu : List Bool) : Res Llc :=
  if stealing = true ∨ addr.ssiType = .gssi then .panic
  else
    let a := takeAck ts addr.ssi s.acks
    let ns := s.nextSeq addr.ssi
    .ok { s with
      acks := a.2
      seq := s.seq.insert addr.ssi (!ns)
      nextId := s.nextId + 1
      out := s.out ++ [⟨s.nextId, addr, ns, a.1, fcs, sdu, ts, false, none, ⟨expectsAck, TxState.pending.raw⟩, 0⟩] }

/-- `fcs::check_fcs` on the bits after the header; see `fcsOk_spec`. -/
def fcsOk (bs : List Bool) : Res Bool :=
  if bs.length < 32 then .ok false
  else if bs.length = 32 then .panic
  else .ok (decide (bs.drop (bs.length - 32) = Fcs.fcsBits (bs.take (bs.length - 32))))

/-- The header of a basic link PDU (llc_bs_ms.rs:433-476): FCS flag, N(S), N(R) and the rest. A header which does not
parse makes the receiver return. -/
def parseBl (k : Kind) (bs : List Bool) : Option (Bool × Option Bool × Option Bool × List Bool) :=
  match k with
  | .adata => match BlAdata.dec.run bs with | .ok (p, r) => some (p.fcs, some p.ns, some p.nr, r) | _ => none
  | .data => match BlData.dec.run bs with | .ok (p, r) => some (p.fcs, some p.ns, none, r) | _ => none
  | .ack => match BlAck.dec.run bs with | .ok (p, r) => some (p.fcs, none, some p.nr, r) | _ => none
  | .udata => match BlUdata.dec.run bs with | .ok (p, r) => some (p.fcs, none, none, r) | _ => none
  | _ => none

/-- The timeslot two slots earlier, used as link identifier (llc_bs_ms.rs:508, 532). -/
def linkOf (ts : Nat) : Nat := (ts + 1) % 4 + 1

/-- A received sequence number schedules an acknowledgement (llc_bs_ms.rs:484-488). -/
def Llc.owe (s : Llc) (addr : Addr) (ts : Nat) : Option Bool → Llc
  | some ns => { s with acks := s.acks ++ [⟨addr, ns, ts⟩] }
  | none => s

/-- A received acknowledgement is processed (llc_bs_ms.rs:490-493). -/
def Llc.handleNr (s : Llc) (ssi : Nat) : Option Bool → Res (Llc × List Emit)
  | some nr => s.processAck ssi nr
  | none => .ok (s, [])

/-- What a PDU makes the LLC hand up (llc_bs_ms.rs:495-559). -/
def deliver (k : Kind) (addr : Addr) (ts : Nat) (fcs : Bool) (body : List Bool) : List Emit :=
  if k = .ack then []
  else [.up (decide (k ≠ .udata)) addr (linkOf ts) fcs (if body = [] then none else some body)]

/-- llc_bs_ms.rs:484-559, after the FCS check. -/
def Llc.acceptBl (s : Llc) (k : Kind) (addr : Addr) (ts : Nat) (fcs : Bool) (ns nr : Option Bool) (body : List Bool) :
    Res (Llc × List Emit) := do
  let r ← (s.owe addr ts ns).handleNr addr.ssi nr
  .ok (r.1, r.2 ++ deliver k addr ts fcs body)

/-- The FCS check, if the PDU announces an FCS (llc_bs_ms.rs:478-482). -/
def fcsGood (fcs : Bool) (body : List Bool) : Res Bool := if fcs then fcsOk body else .ok true

/-- `rx_tma_unitdata_ind_bl` (llc_bs_ms.rs:413-560). -/
def Llc.rxBl (s : Llc) (k : Kind) (addr : Addr) (ts : Nat) (bs : List Bool) : Res (Llc × List Emit) :=
  match parseBl k bs with
  | none => .ok (s, [])
  | some (fcs, ns, nr, body) => do
    let good ← fcsGood fcs body
    if good then s.acceptBl k addr ts fcs ns nr body else .ok (s, [])

/-- `rx_tma_unitdata_ind` (llc_bs_ms.rs:362-411). -/
def Llc.unitdataInd (s : Llc) (addr : Addr) (ts : Nat) (bs : List Bool) : Res (Llc × List Emit) :=
  match kindOf bs with
  | none => .ok (s, [])
  | some .advanced => .ok (s, [])
  | some .other => .panic
  | some k => s.rxBl k addr ts bs

/-- `submit_for_acknowledged_transmission` (llc_bs_ms.rs:235-247). -/
def Msg.submit (m : Msg) : Msg := { m with submitted := true, tDone := none, cell := m.cell.reset }
/-- The primitive it pushes. -/
def Msg.emit (m : Msg) : Emit := .data m.id m.addr m.ts m.pdu

/-- llc_bs_ms.rs:573-577. -/
def Msg.noteDone (m : Msg) (now : Time) : Msg :=
  if m.tDone = none ∧ (m.cell.isTransmitted || m.cell.isDiscarded) = true then { m with tDone := some now } else m

/-- Is the retry timer of this message over? (llc_bs_ms.rs:580-588; a negative age is a large `u32`). -/
def Msg.timedOut (m : Msg) (now : Time) : Bool :=
  match m.tDone with
  | none => false
  | some t => decide (now.diff t < 0) || decide (now.diff t ≥ T251)

/-- One round of the loop of `submit_retransmissions_to_umac` (llc_bs_ms.rs:571-608): the entry afterwards, what is
sent, and whether the message is given up. -/
def Msg.retry (m : Msg) (now : Time) : Msg × List Emit × Bool :=
  let m := m.noteDone now
  if m.timedOut now then
    if m.count < N252 then ({ m.submit with count := m.count + 1 }, [m.emit], false) else (m, [], true)
  else (m, [], false)

/-- llc_bs_ms.rs:611-620: giving up. The `unwrap` aborts when there is no entry. -/
def dropAll (out : List Msg) : List Nat → Res (List Msg × List Emit)
  | [] => .ok (out, [])
  | ssi :: ssis =>
    match takeOutstanding ssi out with
    | none => .panic
    | some (m, rest) => do
      let _ ← m.cell.markLost
      let q ← dropAll rest ssis
      .ok (q.1, .lost m.id :: q.2)

/-- `submit_retransmissions_to_umac` (llc_bs_ms.rs:562-623). -/
def Llc.retransmit (s : Llc) : Res (Llc × List Emit) := do
  let rs := s.out.map fun m => m.retry s.now
  let d ← dropAll (rs.map fun r => r.1) ((rs.filter fun r => r.2.2).map fun r => r.1.addr.ssi)
  .ok ({ s with out := d.1 }, (rs.map fun r => r.2.1).flatten ++ d.2)

/-- The loop of `submit_free_messages_to_umac` (llc_bs_ms.rs:627-658). -/
def sendFree (blocked : List Nat) : List Msg → List Msg × List Emit
  | [] => ([], [])
  | m :: r =>
    if m.submitted then
      let q := sendFree (m.addr.ssi :: blocked) r
      (m :: q.1, q.2)
    else if blocked.contains m.addr.ssi then
      let q := sendFree blocked r
      (m :: q.1, q.2)
    else
      let q := sendFree (m.addr.ssi :: blocked) r
      (m.submit :: q.1, m.emit :: q.2)

/-- One round of `submit_ack_replies_to_umac` (llc_bs_ms.rs:666-725): a BL-ACK; stealing on timeslots 2 to 4. -/
def OwedAck.emit (a : OwedAck) : Emit := .ack a.addr a.nr a.ts (decide (2 ≤ a.ts ∧ a.ts ≤ 4))

/-- `tick_end` (llc_bs_ms.rs:790-810), with `submit_udata_msgs_to_umac` (731-738). -/
def Llc.tickEnd (s : Llc) : Res (Llc × List Emit) := do
  let r ← s.retransmit
  let f := sendFree [] r.1.out
  .ok ({ r.1 with out := f.1, acks := [], udata := [] },
    r.2 ++ f.2 ++ s.acks.map OwedAck.emit ++ s.udata.map fun u => .udata u.1 u.2)

/-- What happens to the LLC. -/
inductive Ev where
  /-- TL-DATA request -/
  | dataReq (addr : Addr) (ts : Nat) (stealing fcs expectsAck : Bool) (sdu : List Bool)
  /-- TL-UNITDATA request -/
  | unitdataReq (to : Via) (sdu : List Bool)
  /-- TMA-UNITDATA indication -/
  | ind (addr : Addr) (ts : Nat) (pdu : List Bool)
  /-- the MAC has transmitted message `id`, or discarded it -/
  | mac (id : Nat) (discarded : Bool)
  | tickStart (t : Time)
  | tickEnd
  deriving DecidableEq, Repr

/-- The MAC's report reaches the reporter of a message it holds; `mark_transmitted`, `mark_discarded`. -/
def Msg.report (m : Msg) (id : Nat) (discarded : Bool) : Msg :=
  if m.id = id ∧ m.submitted = true ∧ m.cell.raw = TxState.pending.raw then
    { m with cell := { m.cell with raw := if discarded then TxState.discarded.raw else TxState.transmitted.raw } }
  else m

/-- One event. -/
def Llc.step (s : Llc) : Ev → Res (Llc × List Emit)
  | .dataReq addr ts stealing fcs expectsAck sdu => do return (← s.dataReq addr ts stealing fcs expectsAck sdu, [])
  | .unitdataReq to sdu => .ok (s.unitdataReq to sdu, [])
  | .ind addr ts pdu => s.unitdataInd addr ts pdu
  | .mac id discarded => .ok ({ s with out := s.out.map fun m => m.report id discarded }, [])
  | .tickStart t => .ok ({ s with now := t }, [])
  | .tickEnd => s.tickEnd

/-- An entry of a trace: what happened, or what the LLC did. -/
inductive Item where
  | ev (e : Ev)
  | out (o : Emit)
  deriving DecidableEq, Repr

/-- A history and its trace. -/
def Llc.run (s : Llc) : List Ev → Res (Llc × List Item)
  | [] => .ok (s, [])
  | e :: es => do
    let r ← s.step e
    let q ← r.1.run es
    .ok (q.1, .ev e :: (r.2.map .out ++ q.2))

/-- The model's check on bits is the code's check on the buffer. -/
theorem fcsOk_spec (b : BitBuffer.Buf) (h : BitBuffer.Wf b) : Fcs.check b = fcsOk b.rest := by
  unfold fcsOk
  by_cases h1 : b.rest.length < 32
  · rw [if_pos h1]; exact Fcs.c17_short_rejected b h1
  · rw [if_neg h1]
    by_cases h2 : b.rest.length = 32
    · rw [if_pos h2]; exact Fcs.c17_empty_sdu_aborts b h h2
    · rw [if_neg h2]
      exact Fcs.check_spec b h _ _ (by intro h3; have := congrArg List.length h3; simp at this; omega) (by simp; omega)
        (List.take_append_drop _ _).symm

end Verif.Llc
