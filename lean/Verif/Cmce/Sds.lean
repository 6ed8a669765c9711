import Verif.Cmce.Pdus
import Verif.Config.Registry
import Verif.Brew.Routable
/-!
# Short data: model of `crates/tetra-entities/src/cmce/subentities/sds_bs.rs`

The entity keeps no state of its own: it looks at the subscriber registry and the configuration. Log messages, handles, link and
endpoint identifiers (all zero here) and the slot a message is scheduled for are left out.
-/
namespace Verif.Cmce
open Verif.Bits Verif.Codec Pdu

/-- What the sub-entity consults: the registry of the shared state and the configuration. -/
structure SdsView where
  registry : Config.Registry
  cfg : Brew.Cfg

/-- `Layer2Service` (crates/tetra-core/src/sap_fields.rs line 21), the values used. -/
inductive Service where
  | acknowledged | unacknowledged | todo
  deriving DecidableEq, Repr

/-- A message of the sub-entity: `LcmcMleUnitdataReq` to MLE, or `CmceSdsData` to the backhaul. -/
inductive SdsOut where
  | air (ssi : Nat) (group : Bool) (service : Service) (sdu : List Bool)
  | brew (source dest : Nat) (data : Sds)
  deriving DecidableEq, Repr

/-- sds_bs.rs lines 320-327: the D-SDS-DATA. -/
def dSdsData (source : Nat) (data : Sds) : DSdsData := ⟨⟨1, some source, none⟩, data, none, none⟩

/-- sds_bs.rs lines 311-365 `send_d_sds_data`; an encoder that refuses is logged, nothing is sent (lines 332-335). -/
def sendSds (source dest : Nat) (group : Bool) (data : Sds) : Res (List SdsOut) :=
  match (dSdsData source data).enc with
  | .ok bs => .ok [.air dest group (if group then .unacknowledged else .acknowledged) bs]
  | .err => .ok []
  | .panic => .panic

/-- sds_bs.rs lines 268-275: the D-STATUS. -/
def dStatus (source : Nat) (s : Status) : DStatus := ⟨⟨1, some source, none⟩, s, none, none⟩

/-- sds_bs.rs lines 260-308 `send_d_status`. -/
def sendStatus (source dest : Nat) (s : Status) : Res (List SdsOut) :=
  match (dStatus source s).enc with
  | .ok bs => .ok [.air dest false .todo bs]
  | .err => .ok []
  | .panic => .panic

/-- sds_bs.rs lines 68-94: where a message goes. -/
def deliverSds (v : SdsView) (source dest : Nat) (data : Sds) : Res (List SdsOut) :=
  if v.registry.isRegistered dest then sendSds source dest false data
  else if v.registry.hasGroupMembers dest then sendSds source dest true data
  else if Brew.featureSdsEnabled v.cfg && (Brew.issiRoutable v.cfg dest || Brew.tetrapackServiceIssi v.cfg dest) then
    .ok [.brew source dest data]
  else .ok []

/-- sds_bs.rs lines 32-95 `route_rf_deliver`, with `feature_check_u_sds_data` (lines 367-387), which refuses a message without
a short address of the called party. -/
def rxUSdsData (v : SdsView) (source : Nat) (sdu : List Bool) : Res (List SdsOut) :=
  match USdsData.dec.run sdu with
  | .panic => .panic
  | .err => .ok []
  | .ok (x, _) =>
    match x.called.ssi with
    | none => .ok []
    | some dest => deliverSds v source dest x.data

/-- sds_bs.rs lines 98-125 `rx_sds_from_brew`. -/
def rxSdsFromBrew (v : SdsView) (source dest : Nat) (data : Sds) : Res (List SdsOut) :=
  if v.registry.isRegistered dest then sendSds source dest false data else .ok []

/-- `ControlCommand::SendSds` (crates/tetra-entities/src/net_control/commands.rs). -/
structure SendSds where
  handle : Nat
  source : Nat
  dest : Nat
  group : Bool
  len : Nat
  payload : List Nat
  deriving DecidableEq, Repr

/-- sds_bs.rs lines 128-166 `rx_sds_from_control`, with the success it returns. -/
def rxSdsFromControl (v : SdsView) (c : SendSds) : Res (List SdsOut × Bool) :=
  if v.registry.isRegistered c.dest then do
    let out ← sendSds c.source c.dest c.group (.type4 c.len c.payload)
    .ok (out, true)
  else .ok ([], false)

/-- sds_bs.rs lines 219-224: the delivery status of a short report (enums/short_report_type.rs lines 6-11: 0 protocol not
supported, 1 memory full, 2 received, 3 consumed). -/
def deliveryStatus (type : Nat) : Nat := if type = 1 then 2 else if type = 0 then 1 else 0

/-- sds_bs.rs lines 218-237: what the backhaul gets for a status. -/
def statusData : Status → Sds
  | .report t r => .type4 32 [0x82, 0x10, deliveryStatus t, r]
  | s => .type1 s.toRaw

/-- sds_bs.rs lines 206-256: where a status goes. -/
def deliverStatus (v : SdsView) (source dest : Nat) (s : Status) : Res (List SdsOut) :=
  if v.registry.isRegistered dest then sendStatus source dest s
  else if Brew.isActive v.cfg && (Brew.issiRoutable v.cfg dest || Brew.tetrapackServiceIssi v.cfg dest) then
    .ok [.brew source dest (statusData s)]
  else .ok []

/-- sds_bs.rs lines 169-257 `route_status_deliver`, with `feature_check_u_status` (lines 389-409). -/
def rxUStatus (v : SdsView) (source : Nat) (sdu : List Bool) : Res (List SdsOut) :=
  match UStatus.dec.run sdu with
  | .panic => .panic
  | .err => .ok []
  | .ok (x, _) =>
    match x.called.ssi with
    | none => .ok []
    | some dest => deliverStatus v source dest x.status

end Verif.Cmce
