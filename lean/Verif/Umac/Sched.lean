import Verif.Umac.Fragger
import Verif.Umac.Circuits
import Verif.Umac.UlSched
import Verif.Mle.Broadcast
/-!
# The channel scheduler: model of `crates/tetra-entities/src/umac/subcomp/bs_sched.rs`

The uplink reservations are in `Verif.Umac.UlSched`, circuits in `Verif.Umac.Circuits`, the fragmenter in
`Verif.Umac.Fragger`. Logging is not modelled.

A transmission reporter (`Option<TxReporter>`) is represented by the identity of the message it belongs to
and whether the sender asked for reports; what it is told is an output. Which message a PDU belongs to is
kept beside each block built (`log`); the code has no such record, nothing in the model depends on it.
-/
namespace Verif.Codec

/-- A function without error return, used where errors are possible. -/
def Out.ofRes {α : Type} : Res α → Out α
  | .ok a => .ok a
  | .panic => .panic

end Verif.Codec

namespace Verif.Umac
open Verif.Bits Verif.Codec Verif.Tdma Verif.Mle

/-- `SCH_F_CAP` (bs_sched.rs:40). -/
def schFCap : Nat := 268
/-- `SCH_HD_CAP` (bs_sched.rs:39). -/
def schHdCap : Nat := 124
/-- `TCH_S_CAP` (bs_sched.rs:41). -/
def tchSCap : Nat := 274
/-- `SCRAMB_INIT` (lmac/components/scrambler.rs:7). -/
def scrambInit : Nat := 3

/-- `PrecomputedUmacPdus` (bs_sched.rs:43-50). -/
structure Precomps where
  macSysinfo1 : MacSysinfo
  macSysinfo2 : MacSysinfo
  mleSysinfo : DMleSysinfo
  macSync : MacSync
  mleSync : DMleSync
  deriving DecidableEq, Repr

/-- The message a queue element belongs to; `internal` for the resources the scheduler makes itself. -/
inductive Owner where
  | msg (id : Nat) (reported : Bool)
  | internal
  deriving DecidableEq, Repr

/-- What a sender is told: `mark_transmitted`, `mark_discarded` (tx_receipt.rs:132-139). -/
inductive Report where
  | transmitted (id : Nat)
  | discarded (id : Nat)
  deriving DecidableEq, Repr

/-- `mark_transmitted` on an `Option<TxReporter>`. -/
def Owner.sent : Owner → List Report
  | .msg id true => [.transmitted id]
  | _ => []

/-- `mark_discarded` on an `Option<TxReporter>`. -/
def Owner.dropped : Owner → List Report
  | .msg id true => [.discarded id]
  | _ => []

/-- `DlSchedElem` (bs_sched.rs:83-107); `Broadcast` is never built. -/
inductive DlElem where
  | ack (a : Addr)
  | grant (a : Addr) (g : SlotGrant)
  | resource (pdu : MacResource) (sdu : List Bool) (o : Owner)
  | frag (f : Fragger) (o : Owner)
  | stealing (block : List Bool) (o : Owner)
  deriving DecidableEq, Repr

def DlElem.isGrantOrAck : DlElem → Bool
  | .ack _ => true
  | .grant _ _ => true
  | _ => false
def DlElem.isGrant : DlElem → Bool
  | .grant _ _ => true
  | _ => false
def DlElem.isFrag : DlElem → Bool
  | .frag _ _ => true
  | _ => false
def DlElem.isResource : DlElem → Bool
  | .resource _ _ _ => true
  | _ => false
def DlElem.isStealing : DlElem → Bool
  | .stealing _ _ => true
  | _ => false
/-- The test at bs_sched.rs:534-537. -/
def DlElem.isResourceFor (ssi : Nat) : DlElem → Bool
  | .resource pdu _ _ => match pdu.addr with
    | some a => a.ssi == ssi
    | none => false
  | _ => false

/-- `position` with a test, then `remove`. -/
def takeFirst (p : DlElem → Bool) : List DlElem → Option (DlElem × List DlElem)
  | [] => none
  | e :: q => if p e then some (e, q) else (takeFirst p q).map fun r => (r.1, e :: r.2)

/-- Change the first element passing a test. -/
def updFirst (p : DlElem → Bool) (f : DlElem → DlElem) : List DlElem → List DlElem
  | [] => []
  | e :: q => if p e then f e :: q else e :: updFirst p f q

/-! ## Grants and acknowledgements join a resource -/

/-- `dl_make_minimal_resource` (bs_sched.rs:548-564). -/
def minimalResource (a : Addr) (g : Option SlotGrant) (ack : Bool) : Out MacResource := do
  let r ← MacResource.updateLen ⟨false, 0, 0, ack, 0, some a, none, none, none, g, none⟩ 0
  .ok r.1

/-- bs_sched.rs:646-662: put a grant or an acknowledgement into a resource. -/
def DlElem.join (e r : DlElem) : DlElem :=
  match e, r with
  | .grant _ g, .resource pdu sdu o => .resource { pdu with slotGrant := some g } sdu o
  | .ack _, .resource pdu sdu o => .resource { pdu with randomAccess := true } sdu o
  | _, r => r

/-- The address and the minimal resource of a grant or an acknowledgement (bs_sched.rs:668-685). -/
def DlElem.asMinimal : DlElem → Out MacResource
  | .grant a g => minimalResource a (some g) false
  | .ack a => minimalResource a none true
  | _ => .panic

/-- The address of a grant or acknowledgement. -/
def DlElem.ssi? : DlElem → Option Nat
  | .grant a _ => some a.ssi
  | .ack a => some a.ssi
  | _ => none

/-- Body of the loop of `dl_integrate_sched_elems_for_timeslot` (bs_sched.rs:635-693). -/
def integrateOne (q : List DlElem) (e : DlElem) : Out (List DlElem) :=
  match e.ssi? with
  | none => .panic
  | some ssi =>
    if q.any (·.isResourceFor ssi) then .ok (updFirst (·.isResourceFor ssi) e.join q)
    else do
      let pdu ← e.asMinimal
      .ok (q ++ [.resource pdu [] .internal])

/-- The loop of `dl_integrate_sched_elems_for_timeslot`. -/
def integrateAll (q : List DlElem) : List DlElem → Out (List DlElem)
  | [] => .ok q
  | e :: es => do
    let q ← integrateOne q e
    integrateAll q es

/-- `dl_integrate_sched_elems_for_timeslot` (bs_sched.rs:630-694) with `dl_take_all_grants_and_acks`
(bs_sched.rs:567-581). -/
def integrate (q : List DlElem) : Out (List DlElem) :=
  integrateAll (q.filter (!·.isGrantOrAck)) (q.filter (·.isGrantOrAck))

/-! ## Signalling blocks -/

/-- `dl_take_prioritized_sched_item` (bs_sched.rs:814-840). -/
def takePrioritized (f : Nat) (q : List DlElem) : Option (DlElem × List DlElem) :=
  if f = 18 then none
  else match takeFirst (·.isGrant) q with
    | some r => some r
    | none => match takeFirst (·.isFrag) q with
      | some r => some r
      | none => takeFirst (·.isResource) q

/-- What the loop of `dl_build_block_from_signalling_schedule` changes: the next-slot queue, the block, the
reports; and which message each piece of the block belongs to. -/
structure Build where
  next : List DlElem
  buf : Option Blk
  reports : List Report
  log : List (Owner × List Bool)
  deriving DecidableEq, Repr

/-- bs_sched.rs:709-731: a fragmenter gets the next piece of the block, and is kept for the next frame if it
has more to send. Its reporter is told when it is done (bs_frag.rs:224-229). -/
def Build.serve (b : Build) (f : Fragger) (o : Owner) : Out Build :=
  let blk := b.buf.getD ⟨[], schFCap⟩
  do
    let r ← f.nextChunk blk
    .ok { next := if r.2.2 then b.next else b.next ++ [.frag r.1 o]
          buf := some r.2.1
          reports := b.reports ++ (if r.2.2 then o.sent else [])
          log := b.log ++ [(o, r.2.1.bits.drop blk.bits.length)] }

/-- bs_sched.rs:703-750: one queue element. A grant is unexpected here, and so is an acknowledgement. -/
def Build.elem (b : Build) : DlElem → Out Build
  | .resource pdu sdu o => b.serve (Fragger.new pdu sdu) o
  | .frag f o => b.serve f o
  | .stealing _ o => .ok { b with reports := b.reports ++ o.dropped }
  | _ => .panic

/-- The loop at bs_sched.rs:699-756. Every round but the last removes an element, so the length of the queue
bounds the number of rounds. -/
def buildLoop (f : Nat) : Nat → List DlElem → Build → Out (List DlElem × Build)
  | 0, q, b => .ok (q, b)
  | n + 1, q, b =>
    match takePrioritized f q with
    | none => .ok (q, b)
    | some (e, q) => do
      let b ← b.elem e
      buildLoop f n q b

/-- bs_sched.rs:758-765: swap the next-slot queue in. -/
def swapIn (q : List DlElem) (b : Build) : Out (List DlElem × Build) :=
  if b.next.isEmpty then .ok (q, b)
  else if q.isEmpty then .ok (b.next, { b with next := q })
  else .panic

/-- `dl_build_block_from_signalling_schedule` (bs_sched.rs:696-768). -/
def buildBlock (f : Nat) (q next : List DlElem) : Out (List DlElem × Build) := do
  let r ← buildLoop f q.length q ⟨next, none, [], []⟩
  swapIn r.1 r.2

/-! ## Slots -/

/-- `LogicalChannel` (tetra-saps/src/tmv/enums/logical_chans.rs), those of the downlink of the base station. -/
inductive Chan where
  | aach | schHd | schF | stch | tchS | bsch | bnch
  deriving DecidableEq, Repr

/-- `TmvUnitdataReq` (tetra-saps/src/tmv). The block is what has been written and its size; the rest of it is
zero. -/
structure TmvReq where
  chan : Chan
  blk : Blk
  scramb : Nat
  deriving DecidableEq, Repr

/-- `PhysicalChannel` (sap_fields.rs:2-6). -/
inductive PhyChan where
  | tp | cp
  deriving DecidableEq, Repr

/-- `TmvUnitdataReqSlot` (tetra-saps/src/tmv), complete. -/
structure DlSlot where
  ts : Time
  bbk : TmvReq
  blk1 : TmvReq
  blk2 : Option TmvReq
  ulPhy : PhyChan
  deriving DecidableEq, Repr

/-- `BsChannelScheduler` (bs_sched.rs:58-81). -/
structure Sched where
  cur : Time
  scramb : Nat
  pre : Precomps
  next : List DlElem
  queues : Slots (List DlElem)
  ul : UlTable
  circuits : CircuitMgr
  hang : Slots Bool
  pendingRa : Slots (List Nat)

/-- `BsChannelScheduler::new` (bs_sched.rs:118-130) and `set_dl_time` (bs_sched.rs:215-218) for the tick after
`x`: the first tick of the base station sets the time instead of advancing it (umac_bs.rs:1570-1576). -/
def Sched.init (x : Time) (scramb : Nat) (pre : Precomps) : Sched :=
  ⟨x, scramb, pre, [], fun _ => [], .empty, .init, fun _ => false, fun _ => []⟩

/-- `has_pending_stealing` (bs_sched.rs:169-175). -/
def pendingStealing (q : List DlElem) : Bool := q.any (·.isStealing)

/-- bs_sched.rs:873-877 with `is_hangtime_effective` (bs_sched.rs:159-167). -/
def Sched.hangEffective (s : Sched) (t : Nat) (i : Fin 4) : Bool :=
  decide (2 ≤ t ∧ t ≤ 4) && (s.hang i && !pendingStealing (s.queues i))

/-- A null PDU (mac_resource.rs:56-70). -/
def nullPdu : MacResource := ⟨false, 0, 0, false, 2, none, none, none, none, none, none⟩

/-- A null PDU alone in a block of `cap` bits (bs_sched.rs:177-183, 1158-1162, 1170-1173). -/
def idleBlk (cap : Nat) : Out Blk := do
  let h ← nullPdu.enc
  (⟨[], cap⟩ : Blk).write h

/-- bs_sched.rs:772-784: voice or silence. -/
def voiceBlk : Option Block → Out Blk
  | some bytes =>
    let bits := bytes.flatMap (toBits 8)
    if bits.length < tchSCap then .panic else .ok ⟨bits.take tchSCap, tchSCap⟩
  | none => .ok ⟨[], tchSCap⟩

/-- The blocks of a slot before default blocks are filled in, and what building them changed. -/
structure Part where
  s : Sched
  blk1 : Option TmvReq
  blk2 : Option TmvReq
  reports : List Report
  log : List (Owner × List Bool)

/-- bs_sched.rs:889-928 with `dl_build_traffic_block` (bs_sched.rs:770-808). -/
def Sched.trafficPart (s : Sched) (t : Nat) (i : Fin 4) : Out Part := do
  let c ← Out.ofRes (s.circuits.takeBlock t)
  let tch ← voiceBlk c.2
  match takeFirst (·.isStealing) (s.queues i) with
  | some (.stealing b o, q) =>
    .ok ⟨{ s with circuits := c.1, queues := s.queues.upd i q }, some ⟨.stch, ⟨b, b.length⟩, s.scramb⟩,
      some ⟨.tchS, tch, s.scramb⟩, o.sent, [(o, b)]⟩
  | _ => .ok ⟨{ s with circuits := c.1 }, some ⟨.tchS, tch, s.scramb⟩, none, [], []⟩

/-- bs_sched.rs:935-975: the block built from signalling, an idle block or nothing. -/
def signallingBlk (scramb : Nat) (idle : Bool) : Option Blk → Out (Option TmvReq)
  | some b => .ok (some ⟨.schF, b, scramb⟩)
  | none => if idle then do let b ← idleBlk schFCap; .ok (some ⟨.schF, b, scramb⟩) else .ok none

/-- bs_sched.rs:929-976. `idle` is `hang_effective && dl_circuit_active`. -/
def Sched.signallingPart (s : Sched) (f : Nat) (i : Fin 4) (idle : Bool) : Out Part := do
  let q ← integrate (s.queues i)
  let r ← buildBlock f q s.next
  let blk1 ← signallingBlk s.scramb idle r.2.buf
  .ok ⟨{ s with queues := s.queues.upd i r.1, next := r.2.next }, blk1, none, r.2.reports, r.2.log⟩

/-- The access assignment of a slot outside frame 18 (bs_sched.rs:1067-1122). -/
def aachOf (t : Nat) (hang : Bool) (ul dl : Option Nat) : Out AccessAssign :=
  if t = 1 then
    if dl.isSome || ul.isSome then .panic
    else .ok ⟨.commonControl, .commonOnly, some ⟨0, 4⟩, some ⟨0, 4⟩, none⟩
  else if 2 ≤ t ∧ t ≤ 4 then
    if hang && (dl.isSome || ul.isSome) then .ok ⟨.assignedControl, .assignedOnly, none, none, some ⟨0, 4⟩⟩
    else .ok ⟨match dl with | some u => .traffic u | none => .unallocated,
      match ul with | some u => .traffic u | none => .unallocated, none, none, none⟩
  else .panic

/-- The access assignment of frame 18 (bs_sched.rs:1125-1141). -/
def aach18 : AccessAssignFr18 := ⟨.commonOnly, some ⟨0, 1⟩, some ⟨0, 0⟩, none⟩

/-- `generate_bbk_block` (bs_sched.rs:1053-1148). -/
def Sched.bbkBlk (s : Sched) (ts : Time) (i : Fin 4) : Out TmvReq := do
  let bits ← if ts.f = 18 then aach18.enc else do
    let ul ← Out.ofRes (s.circuits.getUsage .ul ts.t)
    let dl ← Out.ofRes (s.circuits.getUsage .dl ts.t)
    let a ← aachOf ts.t (s.hang i) ul dl
    a.enc
  let b ← (⟨[], 14⟩ : Blk).write bits
  .ok ⟨.aach, b, s.scramb⟩

/-- The SYNC block (bs_sched.rs:1182-1192). -/
def syncBlk (pre : Precomps) : Out TmvReq := do
  let a ← pre.macSync.enc
  let b ← (⟨[], 60⟩ : Blk).write a
  let c ← pre.mleSync.enc
  let b ← b.write c
  .ok ⟨.bsch, b, scrambInit⟩

/-- `generate_default_blks` (bs_sched.rs:1150-1196). -/
def defaultBlk (pre : Precomps) (scramb : Nat) (ts : Time) : Out TmvReq :=
  if ts.f = 18 ∨ (1 ≤ ts.f ∧ ts.f ≤ 17 ∧ 2 ≤ ts.t ∧ ts.t ≤ 4) then syncBlk pre
  else if 1 ≤ ts.f ∧ ts.f ≤ 17 ∧ ts.t = 1 then
    if ts.f % 2 = 0 then do let b ← idleBlk schHdCap; .ok ⟨.schHd, b, scramb⟩
    else do let b ← idleBlk schFCap; .ok ⟨.schF, b, scramb⟩
  else .panic

/-- The SYSINFO block (bs_sched.rs:1003-1019). -/
def sysinfoBlk (pre : Precomps) (scramb t : Nat) : Out TmvReq := do
  let a ← if t % 2 = 1 then pre.macSysinfo1.enc else pre.macSysinfo2.enc
  let b ← (⟨[], 124⟩ : Blk).write a
  let c ← pre.mleSysinfo.enc
  let b ← b.write c
  .ok ⟨.bnch, b, scramb⟩

/-- bs_sched.rs:991-1028: the second half of the slot. -/
def secondBlk (pre : Precomps) (scramb t : Nat) (blk1 : TmvReq) (blk2 : Option TmvReq) : Out (Option TmvReq) :=
  if blk1.chan = .stch then (if blk2.isSome then .ok blk2 else .panic)
  else if blk2.isNone ∧ (blk1.chan = .bsch ∨ blk1.chan = .schHd) then
    if blk1.blk.cap ≤ 124 then do
      let b ← sysinfoBlk pre scramb t
      .ok (some b)
    else .panic
  else if blk2.isNone then (if 268 ≤ blk1.blk.cap then .ok none else .panic)
  else .ok blk2

/-- `try_add_null_pdus` (bs_sched.rs:493-526). -/
def TmvReq.close (r : TmvReq) : Out TmvReq :=
  if (r.chan = .schHd ∨ r.chan = .schF) ∧ 16 ≤ r.blk.remaining then do
    let p ← nullPdu.updateLen 0
    let h ← p.1.enc
    let b ← r.blk.write h
    .ok { r with blk := b }
  else .ok r

/-- `try_add_null_pdus` on an absent or present block. -/
def closeOpt : Option TmvReq → Out (Option TmvReq)
  | none => .ok none
  | some r => do let r ← r.close; .ok (some r)

/-- bs_sched.rs:861-863: the broadcast PDUs get the time of the slot. -/
def Precomps.stamp (p : Precomps) (ts : Time) : Precomps :=
  { p with
    macSync := { p.macSync with t := ts.t, f := ts.f, m := ts.m }
    macSysinfo1 := { p.macSysinfo1 with hyperframe := some ts.h }
    macSysinfo2 := { p.macSysinfo2 with hyperframe := some ts.h } }

/-- What finalising a slot gives besides the new state. -/
structure TickOut where
  slot : DlSlot
  reports : List Report
  log : List (Owner × List Bool)
  deriving DecidableEq, Repr

/-- bs_sched.rs:865-976: traffic or signalling. -/
def Sched.build (s : Sched) (ts : Time) (i : Fin 4) : Out Part := do
  let dlOpen ← Out.ofRes (s.circuits.isActive .dl ts.t)
  let active := dlOpen && ts.f != 18
  if active && !s.hangEffective ts.t i then s.trafficPart ts.t i
  else s.signallingPart ts.f i (s.hangEffective ts.t i && active)

/-- bs_sched.rs:869, 880, 887: the uplink of the slot. -/
def Sched.ulPhy (s : Sched) (ts : Time) (i : Fin 4) : Out PhyChan := do
  let ulOpen ← Out.ofRes (s.circuits.isActive .ul ts.t)
  .ok (if ulOpen && ts.f != 18 && !s.hangEffective ts.t i then .tp else .cp)

/-- bs_sched.rs:978-982: frame 18 carries no user blocks. -/
def checkFrame18 (f : Nat) (blk1 : Option TmvReq) : Out Unit :=
  if blk1.isSome ∧ f = 18 then .panic else .ok ()

/-- bs_sched.rs:991-993. -/
def Sched.firstBlk (s : Sched) (ts : Time) : Option TmvReq → Out TmvReq
  | some b => .ok b
  | none => defaultBlk s.pre s.scramb ts

/-- `finalize_ts_for_tick` (bs_sched.rs:858-1048). -/
def Sched.finalize (s : Sched) : Out (Sched × TickOut) := do
  let ts ← Out.ofRes (s.cur.addTimeslots 1)
  let i ← Out.ofRes (Slots.idx ts.t)
  let s := { s with pre := s.pre.stamp ts }
  let phy ← s.ulPhy ts i
  let p ← s.build ts i
  let _ ← checkFrame18 ts.f p.blk1
  let bbk ← p.s.bbkBlk ts i
  let blk1 ← p.s.firstBlk ts p.blk1
  let blk2 ← secondBlk p.s.pre p.s.scramb ts.t blk1 p.blk2
  let blk1 ← blk1.close
  let blk2 ← closeOpt blk2
  let u ← Out.ofRes (clearUl p.s.ul ts)
  .ok ({ p.s with ul := u }, ⟨⟨ts, bbk, blk1, blk2, phy⟩, p.reports, p.log⟩)

/-! ## Calls -/

/-- `dl_drop_all_except_stolen` (bs_sched.rs:587-628): the reports. A fragmenter reports itself discarded when
it is dropped (bs_frag.rs:235-244). -/
def DlElem.dropReports : DlElem → List Report
  | .resource _ _ o => o.dropped
  | .frag _ o => o.dropped
  | _ => []

/-- bs_sched.rs:612-616: stations whose random access was not acknowledged. -/
def DlElem.ackSsi : DlElem → List Nat
  | .ack a => [a.ssi]
  | _ => []

/-- `dl_drop_all_except_stolen` (bs_sched.rs:587-628). -/
def Sched.dropAll (s : Sched) (i : Fin 4) : Sched × List Report :=
  let gone := (s.queues i).filter (!·.isStealing)
  ({ s with
      queues := s.queues.upd i ((s.queues i).filter (·.isStealing))
      pendingRa := s.pendingRa.upd i (s.pendingRa i ++ gone.flatMap DlElem.ackSsi) },
    gone.flatMap DlElem.dropReports)

/-- `set_hangtime` (bs_sched.rs:133-152). -/
def Sched.setHang (s : Sched) (t : Nat) (active : Bool) : Sched × List Report :=
  match Slots.idx t with
  | .panic => (s, [])
  | .ok i =>
    let s := { s with hang := s.hang.upd i active }
    if active then (s, []) else s.dropAll i

/-- Leaving hang time on opening and closing a circuit (bs_sched.rs:474-476, 482-484). -/
def Sched.unhang (s : Sched) (t : Nat) : Sched :=
  match Slots.idx t with
  | .panic => s
  | .ok i => { s with hang := s.hang.upd i false }

/-- `dltx_queues[ts as usize - 1].push(elem)` (bs_sched.rs:402-431, 446-449). -/
def Sched.push (s : Sched) (t : Nat) (e : DlElem) : Out Sched := do
  let i ← Out.ofRes (Slots.idx t)
  .ok { s with queues := s.queues.upd i (s.queues i ++ [e]) }

/-- `take_pending_ra_ack` (bs_sched.rs:436-444). -/
def Sched.takeRa (s : Sched) (t ssi : Nat) : Out (Sched × Bool) := do
  let i ← Out.ofRes (Slots.idx t)
  .ok ({ s with pendingRa := s.pendingRa.upd i ((s.pendingRa i).erase ssi) }, (s.pendingRa i).contains ssi)

/-- The calls made on the scheduler. -/
inductive SchedEv where
  /-- `tick_start` for the next slot and `finalize_ts_for_tick` (umac_bs.rs:1570-1590) -/
  | tick
  | capReq (t ssi code : Nat)
  | grant (t : Nat) (a : Addr) (g : SlotGrant)
  | ack (t : Nat) (a : Addr)
  | message (t id : Nat) (reported : Bool) (pdu : MacResource) (sdu : List Bool)
  | steal (t id : Nat) (reported : Bool) (block : List Bool)
  | takeRa (t ssi : Nat)
  | voice (t : Nat) (b : Block)
  | create (d : Dir) (c : Circuit)
  | close (d : Dir) (t : Nat)
  | hang (t : Nat) (active : Bool)
  | systemWide (enabled : Bool)
  deriving DecidableEq

/-- What a call gives. -/
inductive SchedRet where
  | none
  | sent (x : TickOut)
  | grant (g : Option SlotGrant)
  | dropped (r : List Report)
  | bool (b : Bool)
  deriving DecidableEq

/-- `set_system_wide_services_state` (bs_sched.rs:196-206). -/
def Precomps.systemWide (p : Precomps) (b : Bool) : Precomps :=
  { p with mleSysinfo := { p.mleSysinfo with services := { p.mleSysinfo.services with systemWideServices := b } } }

/-- One call. The tick carries no time: the check of the caller's time at bs_sched.rs:845-850 is that the router
counts timeslots. -/
def Sched.step (s : Sched) : SchedEv → Out (Sched × SchedRet)
  | .tick => do
    let c ← Out.ofRes (s.cur.addTimeslots 1)
    let r ← ({ s with cur := c } : Sched).finalize
    .ok (r.1, .sent r.2)
  | .capReq t ssi code => do
    let r ← Out.ofRes (processCapReq s.ul s.cur t ssi code)
    .ok ({ s with ul := r.1 }, .grant r.2)
  | .grant t a g => do let s ← s.push t (.grant a g); .ok (s, .none)
  | .ack t a => do let s ← s.push t (.ack a); .ok (s, .none)
  | .message t id rep pdu sdu => do let s ← s.push t (.resource pdu sdu (.msg id rep)); .ok (s, .none)
  | .steal t id rep block => do let s ← s.push t (.stealing block (.msg id rep)); .ok (s, .none)
  | .takeRa t ssi => do let r ← s.takeRa t ssi; .ok (r.1, .bool r.2)
  | .voice t b => do
    let c ← Out.ofRes (s.circuits.putBlock t b)
    .ok ({ s with circuits := c }, .none)
  | .create d c => do
    let cm ← Out.ofRes ((s.unhang c.ts).circuits.create d c)
    .ok ({ s.unhang c.ts with circuits := cm }, .none)
  | .close d t => do
    let r ← Out.ofRes ((s.unhang t).circuits.close d t)
    .ok ({ s.unhang t with circuits := r.1 }, .bool r.2.isSome)
  | .hang t active => .ok ((s.setHang t active).1, .dropped (s.setHang t active).2)
  | .systemWide b => .ok ({ s with pre := s.pre.systemWide b }, .none)

/-- A history of calls, with what each gave. -/
def Sched.run (s : Sched) : List SchedEv → Out (Sched × List (SchedEv × SchedRet))
  | [] => .ok (s, [])
  | e :: es => do
    let r ← s.step e
    let q ← r.1.run es
    .ok (q.1, (e, r.2) :: q.2)

end Verif.Umac
