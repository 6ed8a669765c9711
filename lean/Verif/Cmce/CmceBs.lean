import Verif.Cmce.CallControl
import Verif.Cmce.Sds
/-!
# The CMCE entity: model of `crates/tetra-entities/src/cmce/cmce_bs.rs`

Call control and short data behind one entity, with the bits of the messages received and sent. The model of call control works
on the fields of the messages; here they are read from bits and written to bits. Log messages, handles, link and endpoint
identifiers and the time a message is sent are left out.
-/
namespace Verif.Cmce
open Verif.Bits Verif.Codec Tdma Pdu

/-! ## Numbers of enumerations -/

/-- tetra-pdus/src/cmce/enums/transmission_grant.rs lines 5-10. -/
def TxGrant.raw : TxGrant → Nat
  | .granted => 0
  | .notGranted => 1
  | .grantedToOther => 3

/-- tetra-pdus/src/cmce/enums/disconnect_cause.rs lines 5-30. -/
def Cause.raw : Cause → Nat
  | .userRequested => 1
  | .notAvailable => 8
  | .expiryOfTimer => 13
  | .swmiRequested => 14

/-- `CallTimeout::T5m` (enums/call_timeout.rs line 13). -/
def timeout5m : Nat := 7

/-- `CallTimeoutSetupPhase::T10s` (enums/call_timeout_setup_phase.rs line 10). -/
def setup10s : Nat := 4

/-! ## Messages of call control as bits -/

/-- Service and priority of a cached D-SETUP. The rest of it is in `Setup`. -/
structure Asked where
  service : BasicService
  priority : Nat
  deriving DecidableEq, Repr

/-- The service of a network call (cc_bs.rs:1362-1368), its priority (1371). -/
def netAsked : Asked := ⟨⟨0, false, 1, none, some 0⟩, 0⟩

/-- What the entity sends. -/
inductive BsOut where
  /-- to MLE: address, layer 2 service, usage marker and timeslot of the channel allocation, stealing, bits -/
  | air (to : Party) (service : Service) (chan : Option (Option Nat × Nat)) (stealing : Bool) (sdu : List Bool)
  /-- to the MAC and the backhaul -/
  | signal (o : CcOut)
  | sdsToBrew (source dest : Nat) (data : Sds)
  /-- answer on the control link -/
  | response (handle : Nat) (success : Bool)
  deriving DecidableEq, Repr

/-- cc_bs.rs:321-367 `send_d_call_proceeding`. Calls with other selections are refused before (827-840), so both are false. -/
def dCallProceedingPdu (id : Nat) : DCallProceeding := ⟨id, setup10s, false, false, none, none, none, none, none⟩

/-- cc_bs.rs:491-505, 1400-1414. -/
def dConnectPdu (id : Nat) (g : TxGrant) (owner : Bool) : DConnect :=
  ⟨id, timeout5m, false, false, g.raw, false, owner, none, none, none, none, none, none⟩

/-- cc_bs.rs:542-559, 1357-1380. -/
def dSetupPdu (id : Nat) (g : TxGrant) (caller : Nat) (a : Asked) : DSetup :=
  ⟨id, timeout5m, false, false, a.service, g.raw, false, a.priority, none, none, some caller, none, none, none, none, none⟩

/-- cc_bs.rs:186-201 `build_d_release_from_d_setup`, 1147-1153. -/
def dReleasePdu (id : Nat) (c : Cause) : DRelease := ⟨id, c.raw, none, none, none⟩

/-- cc_bs.rs:919-926, 1596-1603. -/
def dTxCeasedPdu (id : Nat) : DTxCeased := ⟨id, false, none, none, none, none⟩

/-- cc_bs.rs:1016-1030, 1522-1536. -/
def dTxGrantedPdu (id : Nat) (g : TxGrant) (speaker : Nat) : DTxGranted :=
  ⟨id, g.raw, false, false, false, none, some ⟨1, some speaker, none⟩, none, none, none, none⟩

/-- `to_bitbuf(..).expect(..)`: an encoder which refuses aborts like one which aborts. -/
def expectBits : Out (List Bool) → Res (List Bool)
  | .ok bs => .ok bs
  | _ => .panic

/-- A message as it leaves the entity: cc_bs.rs:102-184, 340-366, 507-537, 567-576, 928-935, 1032-1039, 1155-1180, 1416-1440, 1538-1546, 1605-1613. -/
def CcOut.wire (a : Asked) : CcOut → Res BsOut
  | .dCallProceeding to id => do
    let bs ← expectBits (dCallProceedingPdu id).enc
    .ok (.air to .acknowledged none false bs)
  | .dConnect to id g owner chan => do
    let bs ← expectBits (dConnectPdu id g owner).enc
    .ok (.air to .unacknowledged (chan.map fun c => (some c.1, c.2)) false bs)
  | .dSetup to id g caller chan => do
    let bs ← expectBits (dSetupPdu id g caller a).enc
    .ok (.air to .unacknowledged (some (some chan.1, chan.2)) false bs)
  | .dRelease to id c => do
    let bs ← expectBits (dReleasePdu id c).enc
    .ok (.air to .unacknowledged none false bs)
  | .dTxCeased to id ts => do
    let bs ← expectBits (dTxCeasedPdu id).enc
    .ok (.air to .unacknowledged (some (none, ts)) true bs)
  | .dTxGranted to id g speaker ts => do
    let bs ← expectBits (dTxGrantedPdu id g speaker).enc
    .ok (.air to .unacknowledged (some (none, ts)) true bs)
  | o => .ok (.signal o)

/-- The call a message announces. -/
def CcOut.announces : CcOut → Option Nat
  | .dSetup _ id _ _ _ => some id
  | _ => none

/-- The messages of one event, in order. -/
def wireAll (asked : Assoc Nat Asked) : List CcOut → Res (List BsOut)
  | [] => .ok []
  | o :: os => do
    let b ← o.wire (((o.announces).bind asked.get).getD netAsked)
    let bs ← wireAll asked os
    .ok (b :: bs)

/-! ## The entity -/

/-- `CmceBs` (cmce_bs.rs lines 15-23). `asked` is the part of `cached_setups` which `Setup` leaves out; an entry stays when the
call ends, but is overwritten before it is used again. -/
structure Bs where
  cc : Cc
  asked : Assoc Nat Asked

def Bs.init (routable : Nat → Bool) : Bs := ⟨.init routable, []⟩

/-- The number of a new call: the one connected. -/
def newCall (l : List CcOut) : Option Nat := l.findSome? fun o => match o with
  | .dConnect _ id _ _ _ => some id
  | _ => none

/-- An event for call control; `a` is what a call set up by it asks for. -/
def Bs.call (s : Bs) (e : CcEv) (a : Asked) : Res (Bs × List BsOut) := do
  let r ← s.cc.step e
  let asked := match newCall r.2 with
    | some id => s.asked.insert id a
    | none => s.asked
  let out ← wireAll asked r.2
  .ok (⟨r.1, asked⟩, out)

/-- `feature_check_u_setup` (cc_bs.rs:827-869): what it refuses; the rest is logged. -/
def USetup.supported (x : USetup) : Bool := (x.area == 0 || x.area == 1) && !x.hook && !x.simplexDuplex

/-- What a message of a mobile is for: `rx_lcmc_mle_unitdata_ind` (cmce_bs.rs lines 37-79) and `route_xx_deliver`
(cc_bs.rs:614-647). The types 0, 2, 5, 14, 16 and 31 are logged only. -/
inductive Uplink where
  | call (e : CcEv) (a : Asked)
  | status | sds | ignored
  deriving DecidableEq, Repr

/-- A PDU which cannot be read is dropped (cc_bs.rs:406-415, 879-888, 966-975, 1084-1093, 1112-1121). -/
def readCall {α : Type} (p : Rd α) (sdu : List Bool) (f : α → CcEv × Asked) : Res Uplink :=
  match p.run sdu with
  | .ok (x, _) => .ok (.call (f x).1 (f x).2)
  | .err => .ok .ignored
  | .panic => .panic

/-- The dispatch. -/
def uplink (ssi : Nat) (sdu : List Bool) : Res Uplink :=
  if sdu.length < 5 then .ok .ignored
  else match ofBits (sdu.take 5) with
    | 4 => readCall UDisconnect.dec sdu fun x => (.uDisconnect ssi x.callId, netAsked)
    | 6 => readCall URelease.dec sdu fun x => (.uRelease ssi x.callId, netAsked)
    | 7 => readCall USetup.dec sdu fun x =>
        (.uSetup ssi (USetup.supported x) x.called.ssi x.basicService.communication, ⟨x.basicService, x.priority⟩)
    | 8 => .ok .status
    | 9 => readCall UTxCeased.dec sdu fun x => (.uTxCeased ssi x.callId, netAsked)
    | 10 => readCall UTxDemand.dec sdu fun x => (.uTxDemand ssi x.callId, netAsked)
    | 15 => .ok .sds
    | _ => .ok .ignored

/-- A message of short data as one of the entity. -/
def SdsOut.wire : SdsOut → BsOut
  | .air ssi group service sdu => .air (if group then .group ssi else .station ssi) service none false sdu
  | .brew source dest data => .sdsToBrew source dest data

/-- `ControlCommand` (net_control/commands.rs). The two placeholders are one here. -/
inductive Control where
  | sendSds (c : SendSds)
  | other
  deriving DecidableEq, Repr

/-- cmce_bs.rs lines 96-109: the commands waiting, in order. Any other than `SendSds` aborts (line 106). -/
def controls (v : SdsView) : List Control → Res (List BsOut)
  | [] => .ok []
  | .sendSds c :: cs => do
    let r ← rxSdsFromControl v c
    let rest ← controls v cs
    .ok (r.1.map SdsOut.wire ++ .response c.handle r.2 :: rest)
  | .other :: _ => .panic

/-- What happens to the entity. -/
inductive BsEv where
  /-- `tick_start` with the commands waiting on the control link -/
  | tick (now : Time) (cmds : List Control)
  /-- a message of a mobile -/
  | mobile (ssi : Nat) (sdu : List Bool)
  /-- a change of registrations -/
  | update (u : SubUpdate)
  /-- from the backhaul and the MAC -/
  | netStart (uuid speaker gssi : Nat)
  | netEnd (uuid : Nat)
  | inactive (ts : Nat)
  | sdsFromBrew (source dest : Nat) (data : Sds)
  deriving DecidableEq, Repr

/-- `tick_start` and `rx_prim` (cmce_bs.rs lines 91-142). -/
def Bs.step (s : Bs) (v : SdsView) : BsEv → Res (Bs × List BsOut)
  | .tick now cmds => do
    let r ← s.call (.tick now) netAsked
    let out ← controls v cmds
    .ok (r.1, r.2 ++ out)
  | .mobile ssi sdu => do
    match ← uplink ssi sdu with
    | .ignored => .ok (s, [])
    | .call e a => s.call e a
    | .status => do
      let out ← rxUStatus v ssi sdu
      .ok (s, out.map SdsOut.wire)
    | .sds => do
      let out ← rxUSdsData v ssi sdu
      .ok (s, out.map SdsOut.wire)
  | .update u => s.call (.update u) netAsked
  | .netStart uuid speaker gssi => s.call (.netStart uuid speaker gssi) netAsked
  | .netEnd uuid => s.call (.netEnd uuid) netAsked
  | .inactive ts => s.call (.inactive ts) netAsked
  | .sdsFromBrew source dest data => do
    let out ← rxSdsFromBrew v source dest data
    .ok (s, out.map SdsOut.wire)

end Verif.Cmce
