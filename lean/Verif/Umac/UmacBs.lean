import Verif.Umac.Sched
import Verif.Umac.DefragProps
/-!
# The upper MAC of the base station: model of `crates/tetra-entities/src/umac/umac_bs.rs`

The scheduler, the fragmenter and the circuits below it are modelled in `Sched.lean`, the reassembly in
`Defrag.lean`, the headers in `MacPdus.lean`.

Simplifications: a received block is the bit string from the cursor to the end of the window (C01); logging is
left out; the first tick, which only sets the time of the scheduler (umac_bs.rs:1574-1577), is left out: the
state begins one slot earlier; the scrambling code and the constants handed to the LLC are left out; encryption
information is never stored (`None` at both calls of `insert_first`), so the branches at umac_bs.rs:776-779,
837-839, 957-959 are not reached. The calls made on the scheduler are recorded in `log`
and those on the reassembly in `frags`, which nothing reads.
-/
namespace Verif.Umac
open Verif.Tdma Verif.Codec

/-- The logical channels which carry uplink signalling (umac_bs.rs:279-304). -/
inductive UlChan where
  | schF | stch | schHu
  deriving DecidableEq, Repr

/-- `CmceChanAllocReq` (tetra-saps/src/lcmc/fields/chan_alloc_req.rs); the carrier is not used. -/
structure ChanReq where
  usage : Option Nat
  ts1 : Bool
  ts2 : Bool
  ts3 : Bool
  ts4 : Bool
  allocType : Nat
  ulDl : Nat
  deriving DecidableEq, Repr

/-- What the upper MAC sends to the other entities. -/
inductive UmacOut where
  /-- `TmaUnitdataInd` to the LLC -/
  | sdu (x : Time) (a : Addr) (bits : List Bool)
  /-- `TmvUnitdataReq` to the lower MAC: the slot -/
  | slot (o : TickOut)
  /-- `UlInactivityTimeout` to call control -/
  | inactive (ts : Nat)
  /-- `TmdCircuitDataInd` to the backhaul -/
  | voice (ts : Nat) (data : List Nat)
  /-- `TmvConfigureReq` to the lower MAC: the second half is stolen too -/
  | secondHalf
  deriving DecidableEq

/-- `CallControl` as the upper MAC receives it (umac_bs.rs:1482-1527). -/
inductive MacCtl where
  | open (c : Circuit)
  | close (d : Dir) (ts : Nat)
  | released (ts : Nat)
  | granted (ts : Nat)
  | ended (ts : Nat)
  deriving DecidableEq, Repr

/-- `UmacBs` (umac_bs.rs:41-63). `brew` and `carrier` are from the configuration. -/
structure UmacBs where
  brew : Bool
  carrier : Nat
  now : Time
  wide : Bool
  defrag : BsDefrag
  sched : Sched
  lastVoice : Slots (Option Time)
  log : List (SchedEv × SchedRet)
  frags : List BsEv

/-- `UmacBs::new` (umac_bs.rs:74-91) with the time set. -/
def UmacBs.init (brew : Bool) (carrier : Nat) (x : Time) (scramb : Nat) (wide : Bool) (pre : Precomps) : UmacBs :=
  ⟨brew, carrier, x, wide, .new, .init x scramb pre, fun _ => none, [], []⟩

/-- A call on the scheduler. -/
def UmacBs.call (s : UmacBs) (e : SchedEv) : Out (UmacBs × SchedRet) := do
  let r ← s.sched.step e
  .ok ({ s with sched := r.1, log := s.log ++ [(e, r.2)] }, r.2)

/-- A call on the reassembly. -/
def UmacBs.frag (s : UmacBs) (e : BsEv) : Out (UmacBs × Option DefragBuf) := do
  let r ← Out.ofRes (s.defrag.step e)
  .ok ({ s with defrag := r.1, frags := s.frags ++ [e] }, r.2)

/-! ## Uplink signalling -/

/-! The fill bits are stripped and the end of the window is moved as in the mobile (umac_bs.rs:487-498 and the same in the
other functions): `cutPdu` of `Fragger.lean`. -/

/-- A block in reception: where and when. -/
structure UlCtx where
  chan : UlChan
  half : BlockNum
  x : Time
  deriving DecidableEq, Repr

/-- The state, what was sent, and the bits after the PDU if the parent function is to go on. -/
abbrev UlRes := Out (UmacBs × List UmacOut × Option (List Bool))

/-- Handle a reservation request (umac_bs.rs:523-532, 673-681, 848-856, 968-976). -/
def UmacBs.reserve (s : UmacBs) (t : Nat) (a : Addr) : Option Nat → Out UmacBs
  | none => .ok s
  | some code => do
    let r ← s.call (.capReq t a.ssi code)
    match r.2 with
    | .grant (some g) => do let q ← r.1.call (.grant t a g); .ok q.1
    | _ => .ok r.1

/-- umac_bs.rs:442-472: length in bits, whether a fragmentation starts, whether the second half is stolen, whether it
is a null PDU. -/
def MacData.lengthOf (p : MacData) (avail : Nat) : Out (Nat × Bool × Bool × Bool) :=
  match p.lengthInd with
  | some l =>
    if l = 0 then .ok (37, false, false, true)
    else if 2 ≤ l ∧ l < 56 then .ok (l * 8, false, false, false)
    else if l = 62 then .ok (avail, false, true, false)
    else if l = 63 then .ok (avail, true, false, false)
    else .panic
  | none =>
    match p.fragFlag with
    | some f => .ok (avail, f, false, false)
    | none => .panic

/-- Store the first fragment or hand the SDU to the LLC (umac_bs.rs:535-572). -/
def UmacBs.firstOrWhole (s : UmacBs) (c : UlCtx) (a : Addr) (frag : Bool) (sdu : List Bool) : Out (UmacBs × List UmacOut) :=
  if frag then do
    let r ← s.frag (.first sdu c.x a)
    .ok (r.1, [])
  else .ok (s, if sdu = [] then [] else [.sdu c.x a sdu])

/-- `rx_mac_data` (umac_bs.rs:419-579). -/
def UmacBs.rxData (s : UmacBs) (c : UlCtx) (bits : List Bool) : UlRes :=
  match MacData.dec.run bits with
  | .err => .ok (s, [], none)
  | .panic => .panic
  | .ok (p, rest) =>
    if p.eventLabel.isSome then .ok (s, [], none)
    else match p.addr with
    | none => .panic
    | some a => do
      let k ← p.lengthOf bits.length
      let len := min k.1 bits.length
      let sdu ← cutPdu bits (bits.length - rest.length) len p.fillBits
      let pre := if k.2.2.1 then [UmacOut.secondHalf] else []
      if k.2.2.2 then .ok (s, pre, none)
      else if p.encrypted then .ok (s, pre, none)
      else do
        let s ← s.reserve c.x.t a p.reservation
        let r ← s.firstOrWhole c a k.2.1 sdu
        .ok (r.1, pre ++ r.2, some (bits.drop len))

/-- umac_bs.rs:600-628: length in bits. -/
def MacAccess.lengthOf (p : MacAccess) (avail : Nat) : Nat :=
  match p.lengthInd with
  | some l => if l = 0 then 36 else l * 8
  | none => avail

/-- umac_bs.rs:807-812, 913-918: length in bits. -/
def endLength (lengthInd : Option Nat) (avail : Nat) : Nat :=
  match lengthInd with
  | some l => l * 8
  | none => avail

/-- `rx_mac_access` (umac_bs.rs:581-735). An empty SDU ends the block. -/
def UmacBs.rxAccess (s : UmacBs) (c : UlCtx) (bits : List Bool) : UlRes :=
  match MacAccess.dec.run bits with
  | .err => .ok (s, [], none)
  | .panic => .panic
  | .ok (p, rest) =>
    if p.eventLabel.isSome then .ok (s, [], none)
    else match p.addr with
    | none => .panic
    | some a => do
      let len := min (p.lengthOf bits.length) bits.length
      let sdu ← cutPdu bits (bits.length - rest.length) len p.fillBits
      if p.lengthInd = some 0 then .ok (s, [], none)
      else do
        let s ← s.call (.ack c.x.t a)
        if p.encrypted then .ok (s.1, [], none)
        else do
          let s ← s.1.reserve c.x.t a p.reservation
          let frag := p.fragFlag.getD false
          if frag = false ∧ sdu = [] then .ok (s, [], none)
          else do
            let r ← s.firstOrWhole c a frag sdu
            .ok (r.1, r.2, some (bits.drop len))

/-- `rx_mac_frag_ul` (umac_bs.rs:737-783). -/
def UmacBs.rxFrag (s : UmacBs) (c : UlCtx) (bits : List Bool) : UlRes :=
  match MacFrag.dec.run bits with
  | .err => .ok (s, [], none)
  | .panic => .panic
  | .ok (p, rest) => do
    let sdu ← cutPdu bits (bits.length - rest.length) bits.length p.fillBits
    let o ← Out.ofRes (slotOwner s.sched.ul c.x c.half)
    match o with
    | none => .ok (s, [], none)
    | some ssi => do
      let r ← s.frag (.next sdu ssi c.x)
      .ok (r.1, [], none)

/-- The common part of `rx_mac_end_ul` (umac_bs.rs:807-892) and `rx_mac_end_hu` (umac_bs.rs:913-1010). -/
def UmacBs.rxEnd (s : UmacBs) (c : UlCtx) (bits : List Bool) (pos : Nat) (fill : Bool) (lengthInd reservation : Option Nat) : UlRes := do
  let len := min (endLength lengthInd bits.length) bits.length
  let sdu ← cutPdu bits pos len fill
  let o ← Out.ofRes (slotOwner s.sched.ul c.x c.half)
  match o with
  | none => .ok (s, [], none)
  | some ssi => do
    let r ← s.frag (.last sdu ssi c.x)
    match r.2 with
    | none => .ok (r.1, [], none)
    | some b => do
      let s ← r.1.reserve c.x.t b.addr reservation
      .ok (s, [.sdu c.x b.addr b.bits], some (bits.drop len))

/-- `rx_mac_end_ul` (umac_bs.rs:785-893). -/
def UmacBs.rxEndUl (s : UmacBs) (c : UlCtx) (bits : List Bool) : UlRes :=
  match MacEndUl.dec.run bits with
  | .err => .ok (s, [], none)
  | .panic => .panic
  | .ok (p, rest) => s.rxEnd c bits (bits.length - rest.length) p.fillBits p.lengthInd p.reservation

/-- `rx_mac_end_hu` (umac_bs.rs:895-1011). -/
def UmacBs.rxEndHu (s : UmacBs) (c : UlCtx) (bits : List Bool) : UlRes :=
  match MacEndHu.dec.run bits with
  | .err => .ok (s, [], none)
  | .panic => .panic
  | .ok (p, rest) =>
    if p.lengthInd = some 0 then .ok (s, [], none)
    else s.rxEnd c bits (bits.length - rest.length) p.fillBits p.lengthInd p.reservation

/-- `rx_ul_mac_u_signal` (umac_bs.rs:1015-1072): the address is not known. -/
def UmacBs.rxSignal (s : UmacBs) (c : UlCtx) (bits : List Bool) : UlRes :=
  match MacUSignal.dec.run bits with
  | .err => .ok (s, [], none)
  | .panic => .panic
  | .ok (p, rest) =>
    .ok (s, if p.secondHalfStolen || rest.isEmpty then [] else [.sdu c.x ⟨0, .ssi, false⟩ rest], none)

/-- `rx_ul_mac_u_blck` (umac_bs.rs:1075-1095). -/
def UmacBs.rxBlck (s : UmacBs) (bits : List Bool) : UlRes :=
  match MacUBlck.dec.run bits with
  | .err => .ok (s, [], none)
  | .panic => .panic
  | .ok _ => .panic

/-- One PDU of a block (umac_bs.rs:335-396). With fewer than three bits nothing is done. -/
def UmacBs.rxPdu (s : UmacBs) (c : UlCtx) (bits : List Bool) : UlRes :=
  match bits with
  | b0 :: b1 :: b2 :: _ =>
    if c.chan = .schHu then (if b0 then s.rxEndHu c bits else s.rxAccess c bits)
    else if b0 = false then
      if b1 = false then s.rxData c bits
      else if b2 then s.rxEndUl c bits
      else s.rxFrag c bits
    else if b1 = false then .ok (s, [], none)
    else if c.chan = .stch then s.rxSignal c bits
    else if b2 then .ok (s, [], none)
    else s.rxBlck bits
  | _ => .ok (s, [], none)

/-- `rx_tmv_sch` (umac_bs.rs:308-417): PDU after PDU while sixteen bits are left. The first argument bounds the number of
PDUs; every PDU takes at least one bit. -/
def UmacBs.rxLoop : Nat → UmacBs → UlCtx → List Bool → Out (UmacBs × List UmacOut)
  | 0, s, _, _ => .ok (s, [])
  | n + 1, s, c, bits => do
    let r ← s.rxPdu c bits
    match r.2.2 with
    | none => .ok (r.1, r.2.1)
    | some rest =>
      if 16 ≤ rest.length ∧ rest.length < bits.length then do
        let q ← rxLoop n r.1 c rest
        .ok (q.1, r.2.1 ++ q.2)
      else .ok (r.1, r.2.1)

/-- `rx_tmv_unitdata_ind` (umac_bs.rs:272-305): the assertions on the block number. -/
def UmacBs.rxBlock (s : UmacBs) (c : UlCtx) (bits : List Bool) : Out (UmacBs × List UmacOut) :=
  if c.chan = .schF ↔ c.half = .both then UmacBs.rxLoop bits.length s c bits else .panic

/-! ## Downlink requests -/

/-- umac_bs.rs:1110-1114: the first timeslot of the allocation, else the first active downlink circuit. -/
def UmacBs.stealTs (s : UmacBs) (chan : Option ChanReq) : Option Nat :=
  let first := match chan with
    | some r => if r.ts1 then some 1 else if r.ts2 then some 2 else if r.ts3 then some 3 else if r.ts4 then some 4 else none
    | none => none
  match first with
  | some t => some t
  | none => if (s.sched.circuits.dl 1).isSome then some 2 else if (s.sched.circuits.dl 2).isSome then some 3
    else if (s.sched.circuits.dl 3).isSome then some 4 else none

/-- Type-1 bits of a stolen half slot (umac_bs.rs:1119). -/
def stchCap : Nat := 124

/-- umac_bs.rs:1117-1157: the block put into a stolen half slot: header, SDU and zeros. -/
def stolenBlock (ra : Bool) (a : Addr) (usage : Option Nat) (sdu : List Bool) : Out (List Bool) := do
  let p : MacResource := ⟨false, 0, 0, ra, 0, some a, none, usage, none, none, none⟩
  let p ← p.updateLen sdu.length
  let h ← p.1.enc
  if h.length + sdu.length > stchCap then .panic
  else .ok (h ++ sdu ++ List.replicate (stchCap - (h.length + sdu.length)) false)

/-- `cmce_to_mac_chanalloc` (umac_bs.rs:227-243). -/
def ChanReq.toMac (r : ChanReq) (carrier : Nat) : ChanAlloc :=
  ⟨r.allocType, r.ts1, r.ts2, r.ts3, r.ts4, r.ulDl, (r.allocType = 0 || r.allocType = 1) && (r.ulDl = 2 || r.ulDl = 3), false, carrier,
    none, 0, some 0⟩

/-- A request from the LLC (`TmaUnitdataReq`, the fields used). -/
structure TmaReq where
  x : Time
  id : Nat
  reported : Bool
  addr : Addr
  steal : Bool
  chan : Option ChanReq
  sdu : List Bool
  deriving DecidableEq, Repr

/-- umac_bs.rs:1168-1211: signalling on the timeslot of the message. -/
def UmacBs.signal (s : UmacBs) (q : TmaReq) : Out UmacBs := do
  let p : MacResource := ⟨false, 0, 0, decide (q.addr.ssiType ≠ .gssi), 0, some q.addr, none, q.chan.bind (·.usage), none, none,
    q.chan.map (·.toMac s.carrier)⟩
  let p ← p.updateLen q.sdu.length
  let r ← s.call (.message q.x.t q.id q.reported p.1 q.sdu)
  .ok r.1

/-- `rx_ul_tma_unitdata_req` (umac_bs.rs:1097-1212). -/
def UmacBs.request (s : UmacBs) (q : TmaReq) : Out UmacBs :=
  match (if q.steal then s.stealTs q.chan else none) with
  | some ts => do
    let r ← s.call (.takeRa ts q.addr.ssi)
    let b ← stolenBlock (r.2 == .bool true || q.addr.ssiType == .issi) q.addr (q.chan.bind (·.usage)) q.sdu
    let r ← r.1.call (.steal ts q.id q.reported b)
    .ok r.1
  | none => s.signal q

/-! ## Voice -/

/-- `pack_ul_acelp_bits` (umac_bs.rs:1598-1623). -/
def packVoice (data : List Nat) : Option Block :=
  if data.length = 35 then some data
  else if data.length < tchSCap then none
  else some ((List.range 35).map fun k =>
    ((List.range 8).map fun b => if k * 8 + b < tchSCap then (data.getD (k * 8 + b) 0 % 2) * 2 ^ (7 - b) else 0).sum)

/-- Note the time of voice, for a timeslot in range. -/
def UmacBs.heard (s : UmacBs) (ts : Nat) (x : Option Time) : UmacBs :=
  match Slots.idx ts with
  | .ok i => { s with lastVoice := s.lastVoice.upd i x }
  | .panic => s

/-- `rx_tmd_prim`, voice for the downlink (umac_bs.rs:1235-1254). -/
def UmacBs.voiceDown (s : UmacBs) (ts : Nat) (b : Block) : Out UmacBs := do
  let dl ← Out.ofRes (s.sched.circuits.isActive .dl ts)
  let ul ← Out.ofRes (s.sched.circuits.isActive .ul ts)
  let s := if ul then s.heard ts (some s.now) else s
  if dl then do let r ← s.call (.voice ts b); .ok r.1 else .ok s

/-- `rx_tmd_prim`, voice from the uplink (umac_bs.rs:1256-1295). -/
def UmacBs.voiceUp (s : UmacBs) (ts : Nat) (data : List Nat) : Out (UmacBs × List UmacOut) := do
  let dl ← Out.ofRes (s.sched.circuits.isActive .dl ts)
  let ul ← Out.ofRes (s.sched.circuits.isActive .ul ts)
  let s := s.heard ts (some s.now)
  let out := if s.brew && ul then [UmacOut.voice ts data] else []
  match (if dl then packVoice data else none) with
  | some b => do let r ← s.call (.voice ts b); .ok (r.1, out)
  | none => .ok (s, out)

/-! ## Control -/

/-- umac_bs.rs:1373-1381, 1412-1420: the directions one by one. -/
def Dir.split : Dir → List Dir
  | .both => [.dl, .ul]
  | .dl => [.dl]
  | .ul => [.ul]
  | .none => []

/-- `rx_control_circuit_open` (umac_bs.rs:1368-1407), one direction. -/
def UmacBs.openOne (s : UmacBs) (c : Circuit) (d : Dir) : Out UmacBs := do
  let active ← Out.ofRes (s.sched.circuits.isActive d c.ts)
  let s ← if active then do let r ← s.call (.close d c.ts); .ok r.1 else .ok s
  let r ← s.call (.create d { c with direction := d })
  .ok (if d = .ul then r.1.heard c.ts (some s.now) else r.1)

/-- `rx_control_circuit_close` (umac_bs.rs:1409-1439), one direction. -/
def UmacBs.closeOne (s : UmacBs) (ts : Nat) (d : Dir) : Out UmacBs := do
  let r ← s.call (.close d ts)
  .ok (if d = .ul ∧ r.2 = .bool true then r.1.heard ts none else r.1)

/-- `rx_control` (umac_bs.rs:1482-1527). -/
def UmacBs.control (s : UmacBs) : MacCtl → Out UmacBs
  | .open c => (Dir.split c.direction).foldlM (fun s d => s.openOne c d) s
  | .close d ts => (Dir.split d).foldlM (fun s d => s.closeOne ts d) s
  | .released ts => do let r ← s.call (.hang ts true); .ok (r.1.heard ts none)
  | .granted ts => do let r ← s.call (.hang ts false); .ok (r.1.heard ts (some s.now))
  | .ended ts => do let r ← s.call (.hang ts false); .ok (r.1.heard ts none)

/-! ## Time -/

/-- `UL_INACTIVITY_TIMESLOTS` (umac_bs.rs:1446). -/
def ulInactivity : Int := 3 * 18 * 4

/-- umac_bs.rs:1448-1468: nothing heard for too long on an open uplink outside hang time. -/
def UmacBs.silent (s : UmacBs) (i : Fin 4) : Bool :=
  (s.sched.circuits.ul i).isSome && !s.sched.hang i &&
    match s.lastVoice i with
    | some t => decide (t.age s.now > ulInactivity)
    | none => false

/-- `check_ul_inactivity` (umac_bs.rs:1444-1480). -/
def UmacBs.checkSilent (s : UmacBs) : UmacBs × List UmacOut :=
  ({ s with lastVoice := fun i => if s.silent i then none else s.lastVoice i },
    ((List.finRange 4).filter s.silent).map fun i => .inactive (i.val + 1))

/-- `tick_start` (umac_bs.rs:1566-1594); `wide` is `get_system_wide_services_state` (umac_bs.rs:205-225). -/
def UmacBs.tick (s : UmacBs) (wide : Bool) : Out (UmacBs × List UmacOut) := do
  let now ← Out.ofRes (s.now.addTimeslots 1)
  let s := { s with now := now }
  let s ← if wide = s.wide then .ok s else do let r ← s.call (.systemWide wide); .ok { r.1 with wide := wide }
  let q := s.checkSilent
  let r ← q.1.call .tick
  .ok (r.1, q.2 ++ match r.2 with | .sent o => [.slot o] | _ => [])

/-! ## Events -/

/-- What can happen to the upper MAC. -/
inductive UmacEv where
  | tick (wide : Bool)
  | block (c : UlCtx) (bits : List Bool)
  | request (q : TmaReq)
  | voiceDown (ts : Nat) (b : Block)
  | voiceUp (ts : Nat) (data : List Nat)
  | control (m : MacCtl)
  deriving DecidableEq

/-- One event. -/
def UmacBs.step (s : UmacBs) : UmacEv → Out (UmacBs × List UmacOut)
  | .tick w => s.tick w
  | .block c bits => s.rxBlock c bits
  | .request q => do let s ← s.request q; .ok (s, [])
  | .voiceDown ts b => do let s ← s.voiceDown ts b; .ok (s, [])
  | .voiceUp ts data => s.voiceUp ts data
  | .control m => do let s ← s.control m; .ok (s, [])

/-- The upper MAC after a history of events, each with what was sent. -/
inductive UmacRun (s0 : UmacBs) : List (UmacEv × List UmacOut) → UmacBs → Prop where
  | init : UmacRun s0 [] s0
  | step {h : List (UmacEv × List UmacOut)} {s s' : UmacBs} {e : UmacEv} {out : List UmacOut} :
      UmacRun s0 h s → s.step e = .ok (s', out) → UmacRun s0 (h ++ [(e, out)]) s'

end Verif.Umac
