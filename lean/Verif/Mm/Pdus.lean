import Verif.Core.PduForm
/-!
# PDUs of mobility management

Models crates/tetra-pdus/src/mm/fields/*.rs and crates/tetra-pdus/src/mm/pdus/*.rs. Line numbers are those of the file
named. An enumeration all of whose values exist (location update type, energy saving mode) is its number. `Display`
implementations are left out.
-/
namespace Verif.Mm
open Verif.Bits Verif.Codec Verif.TypedFields

/-! ## Elements -/

/-- fields/group_identity_uplink.rs lines 7-22 `GroupIdentityUplink`. -/
structure GroupUplink where
  classOfUsage : Option Nat
  detachment : Option Nat
  gssi : Option Nat
  addressExtension : Option Nat
  vgssi : Option Nat
  deriving DecidableEq, Repr

/-- group_identity_uplink.rs lines 25-56 `from_bitbuf`. -/
def GroupUplink.dec : Rd GroupUplink := do
  let d ← Rd.bits 1
  let cls ← rdIf (d == 0) (Rd.bits 3)
  let det ← rdIf (d == 1) (Rd.bits 2)
  let t ← Rd.bits 2
  let gssi ← rdIf (t == 0 || t == 1) (Rd.bits 24)
  let ext ← rdIf (t == 1) (Rd.bits 24)
  let vgssi ← rdIf (t == 2) (Rd.bits 24)
  pure ⟨cls, det, gssi, ext, vgssi⟩

/-- group_identity_uplink.rs lines 71-77: the address type, with its two assertions. -/
def GroupUplink.addressType (x : GroupUplink) : Out Nat :=
  if x.gssi.isSome then
    if x.vgssi.isSome then .panic else .ok (if x.addressExtension.isSome then 1 else 0)
  else if x.vgssi.isSome then .ok 2 else .panic

/-- group_identity_uplink.rs lines 58-90 `to_bitbuf`. -/
def GroupUplink.enc (x : GroupUplink) : Out (List Bool) :=
  if x.classOfUsage.isSome = x.detachment.isSome then .panic
  else cat [wBits (if x.classOfUsage.isSome then 0 else 1) 1, wOpt x.classOfUsage 3, wOpt x.detachment 2,
    x.addressType >>= fun t => wBits t 2, wOpt x.gssi 24, wOpt x.addressExtension 24, wOpt x.vgssi 24]

/-- fields/group_identity_attachment.rs lines 7-16 `GroupIdentityAttachment`. -/
structure Attachment where
  lifetime : Nat
  classOfUsage : Nat
  deriving DecidableEq, Repr

/-- group_identity_attachment.rs lines 19-29. -/
def Attachment.dec : Rd Attachment := do
  let l ← Rd.bits 2
  let c ← Rd.bits 3
  pure ⟨l, c⟩

/-- group_identity_attachment.rs lines 31-34. -/
def Attachment.enc (x : Attachment) : Out (List Bool) := cat [wBits x.lifetime 2, wBits x.classOfUsage 3]

/-- fields/group_identity_downlink.rs lines 9-24 `GroupIdentityDownlink`. -/
structure GroupDownlink where
  attachment : Option Attachment
  detachment : Option Nat
  gssi : Option Nat
  addressExtension : Option Nat
  vgssi : Option Nat
  deriving DecidableEq, Repr

/-- group_identity_downlink.rs lines 27-58 `from_bitbuf`. -/
def GroupDownlink.dec : Rd GroupDownlink := do
  let d ← Rd.bits 1
  let att ← rdIf (d == 0) Attachment.dec
  let det ← rdIf (d == 1) (Rd.bits 2)
  let t ← Rd.bits 2
  let gssi ← rdIf (t == 0 || t == 1 || t == 3) (Rd.bits 24)
  let ext ← rdIf (t == 1 || t == 3) (Rd.bits 24)
  let vgssi ← rdIf (t == 2 || t == 3) (Rd.bits 24)
  pure ⟨att, det, gssi, ext, vgssi⟩

/-- group_identity_downlink.rs lines 74-100: the address type; an address which has none is an `Err`. -/
def GroupDownlink.addressType (x : GroupDownlink) : Out Nat :=
  if x.gssi.isSome then
    if x.addressExtension.isSome then .ok (if x.vgssi.isSome then 3 else 1)
    else if x.vgssi.isSome then .err else .ok 0
  else if x.addressExtension.isSome then .err
  else if x.vgssi.isNone then .err
  else .ok 2

/-- group_identity_downlink.rs lines 60-114 `to_bitbuf`. -/
def GroupDownlink.enc (x : GroupDownlink) : Out (List Bool) :=
  if x.attachment.isSome = x.detachment.isSome then .panic
  else cat [wBits (if x.attachment.isSome then 0 else 1) 1,
    match x.attachment with
    | some a => a.enc
    | none => .ok [],
    wOpt x.detachment 2, x.addressType >>= fun t => wBits t 2, wOpt x.gssi 24, wOpt x.addressExtension 24, wOpt x.vgssi 24]

/-- fields/group_identity_location_demand.rs lines 16-23 `GroupIdentityLocationDemand`. -/
structure LocationDemand where
  mode : Nat
  groups : Option (List GroupUplink)
  deriving DecidableEq, Repr

/-- group_identity_location_demand.rs lines 38-44 and 74-80: identifier 8. -/
abbrev LocationDemand.fields : List Field := [.type4 8 GroupUplink.enc GroupUplink.dec]

/-- group_identity_location_demand.rs lines 28-56 `from_bitbuf`; the reserved bit must be zero. -/
def LocationDemand.dec : Rd LocationDemand := do
  let r ← Rd.bits 1
  if r ≠ 0 then Rd.fail else
  let mode ← Rd.bits 1
  let v ← rdOptional LocationDemand.fields
  pure ⟨mode, v.1⟩

/-- group_identity_location_demand.rs lines 59-85 `to_bitbuf`. -/
def LocationDemand.enc (x : LocationDemand) : Out (List Bool) :=
  cat [wBits 0 1, wBits x.mode 1, wOptional LocationDemand.fields (x.groups, ())]

/-- fields/group_identity_location_accept.rs lines 10-17 `GroupIdentityLocationAccept`. -/
structure LocationAccept where
  acceptReject : Nat
  groups : Option (List GroupDownlink)
  deriving DecidableEq, Repr

/-- group_identity_location_accept.rs lines 33-38 and 67-73: identifier 7. -/
abbrev LocationAccept.fields : List Field := [.type4 7 GroupDownlink.enc GroupDownlink.dec]

/-- group_identity_location_accept.rs lines 22-50 `from_bitbuf`; the reserved bit is ignored. -/
def LocationAccept.dec : Rd LocationAccept := do
  let a ← Rd.bits 1
  let _ ← Rd.bits 1
  let v ← rdOptional LocationAccept.fields
  pure ⟨a, v.1⟩

/-- group_identity_location_accept.rs lines 53-78 `to_bitbuf`. -/
def LocationAccept.enc (x : LocationAccept) : Out (List Bool) :=
  cat [wBits x.acceptReject 1, wBits 0 1, wOptional LocationAccept.fields (x.groups, ())]

/-- fields/energy_saving_information.rs lines 10-17 `EnergySavingInformation`; mode 0 is `StayAlive`. -/
structure EnergySaving where
  mode : Nat
  frame : Option Nat
  multiframe : Option Nat
  deriving DecidableEq, Repr

/-- energy_saving_information.rs lines 20-53 `from_bitbuf`. -/
def EnergySaving.dec : Rd EnergySaving := do
  let mode ← Rd.bits 3
  let f ← Rd.bits 2
  let m ← Rd.bits 2
  if mode = 0 then
    if f ≠ 0 then Rd.fail
    else if m ≠ 0 then Rd.fail
    else pure ⟨mode, some f, some m⟩
  else pure ⟨mode, none, none⟩

/-- energy_saving_information.rs lines 55-91 `to_bitbuf`. -/
def EnergySaving.enc (x : EnergySaving) : Out (List Bool) :=
  cat [wBits x.mode 3,
    if x.mode = 0 then
      if x.frame.isSome then .err else if x.multiframe.isSome then .err else wBits 0 4
    else match x.frame, x.multiframe with
      | none, _ => .err
      | some f, none => wBits f 2 >>= fun _ => .err
      | some f, some m => cat [wBits f 2, wBits m 2]]

/-! ## Uplink PDUs -/

/-- pdus/u_itsi_detach.rs `UItsiDetach` (PDU type 1). -/
structure UItsiDetach where
  addressExtension : Option Nat
  proprietary : Option Type3Generic
  deriving DecidableEq, Repr

abbrev UItsiDetach.fields2 : List Field := [num2 24]
abbrev UItsiDetach.fields34 : List Field := [.generic3 15]

/-- u_itsi_detach.rs lines 26-49. -/
def UItsiDetach.dec : Rd UItsiDetach := do
  expectType 4 1
  let v ← rdOptional (UItsiDetach.fields2 ++ UItsiDetach.fields34)
  pure ⟨v.1, v.2.1⟩

/-- u_itsi_detach.rs lines 52-72. -/
def UItsiDetach.enc (x : UItsiDetach) : Out (List Bool) :=
  cat [wBits 1 4, wOptional (UItsiDetach.fields2 ++ UItsiDetach.fields34) (x.addressExtension, x.proprietary, ())]

/-- pdus/u_location_update_demand.rs `ULocationUpdateDemand` (PDU type 2). -/
structure ULocationUpdateDemand where
  updateType : Nat
  appendLa : Bool
  cipherControl : Bool
  cipheringParameters : Option Nat
  classOfMs : Option Nat
  energySavingMode : Option Nat
  laInformation : Option Nat
  ssi : Option Nat
  addressExtension : Option Nat
  groupDemand : Option LocationDemand
  groupReportResponse : Option Type3Generic
  authenticationUplink : Option Type3Generic
  extendedCapabilities : Option Type3Generic
  proprietary : Option Type3Generic
  deriving DecidableEq, Repr

/-- u_location_update_demand.rs lines 95-103 and 192-199: fourteen bits and a trailing zero bit. -/
abbrev laField : Field := .type2 (fun la : Nat => wBits (2 * la) 15) ((· / 2) <$> Rd.bits 15)

/-- u_location_update_demand.rs lines 87-108 and 186-205. -/
abbrev ULocationUpdateDemand.fields2 : List Field := [num2 24, num2 3, laField, num2 24, num2 24]
/-- u_location_update_demand.rs lines 111-128 and 208-228. -/
abbrev ULocationUpdateDemand.fields34 : List Field :=
  [.type3 3 LocationDemand.enc LocationDemand.dec, .generic3 4, .generic3 9, .generic3 11, .generic3 15]

/-- u_location_update_demand.rs lines 55-152. -/
def ULocationUpdateDemand.dec : Rd ULocationUpdateDemand := do
  expectType 4 2
  let t ← Rd.bits 3
  let la ← Rd.flag
  let cc ← Rd.flag
  let cp ← rdIf cc (Rd.bits 10)
  let v ← rdOptional (ULocationUpdateDemand.fields2 ++ ULocationUpdateDemand.fields34)
  pure ⟨t, la, cc, cp, v.1, v.2.1, v.2.2.1, v.2.2.2.1, v.2.2.2.2.1, v.2.2.2.2.2.1, v.2.2.2.2.2.2.1, v.2.2.2.2.2.2.2.1,
    v.2.2.2.2.2.2.2.2.1, v.2.2.2.2.2.2.2.2.2.1⟩

/-- u_location_update_demand.rs lines 155-233. -/
def ULocationUpdateDemand.enc (x : ULocationUpdateDemand) : Out (List Bool) :=
  cat [wBits 2 4, wBits x.updateType 3, wFlag x.appendLa, wFlag x.cipherControl, wOpt x.cipheringParameters 10,
    wOptional (ULocationUpdateDemand.fields2 ++ ULocationUpdateDemand.fields34)
      (x.classOfMs, x.energySavingMode, x.laInformation, x.ssi, x.addressExtension, x.groupDemand, x.groupReportResponse,
        x.authenticationUplink, x.extendedCapabilities, x.proprietary, ())]

/-- pdus/u_attach_detach_group_identity.rs `UAttachDetachGroupIdentity` (PDU type 7). -/
structure UAttachDetach where
  report : Bool
  mode : Bool
  groupReportResponse : Option Type3Generic
  groups : Option (List GroupUplink)
  proprietary : Option Type3Generic
  deriving DecidableEq, Repr

abbrev UAttachDetach.fields : List Field := [.generic3 4, .type4 8 GroupUplink.enc GroupUplink.dec, .generic3 15]

/-- u_attach_detach_group_identity.rs lines 33-72. -/
def UAttachDetach.dec : Rd UAttachDetach := do
  expectType 4 7
  let r ← Rd.flag
  let m ← Rd.flag
  let v ← rdOptional UAttachDetach.fields
  pure ⟨r, m, v.1, v.2.1, v.2.2.1⟩

/-- u_attach_detach_group_identity.rs lines 75-108. -/
def UAttachDetach.enc (x : UAttachDetach) : Out (List Bool) :=
  cat [wBits 7 4, wFlag x.report, wFlag x.mode,
    wOptional UAttachDetach.fields (x.groupReportResponse, x.groups, x.proprietary, ())]

/-- pdus/u_attach_detach_group_identity_acknowledgement.rs (PDU type 8). -/
structure UAttachDetachAck where
  ackType : Bool
  groups : Option (List GroupUplink)
  proprietary : Option Type3Generic
  deriving DecidableEq, Repr

abbrev UAttachDetachAck.fields : List Field := [.type4 8 GroupUplink.enc GroupUplink.dec, .generic3 15]

/-- u_attach_detach_group_identity_acknowledgement.rs lines 29-61. -/
def UAttachDetachAck.dec : Rd UAttachDetachAck := do
  expectType 4 8
  let a ← Rd.flag
  let v ← rdOptional UAttachDetachAck.fields
  pure ⟨a, v.1, v.2.1⟩

/-- u_attach_detach_group_identity_acknowledgement.rs lines 64-92. -/
def UAttachDetachAck.enc (x : UAttachDetachAck) : Out (List Bool) :=
  cat [wBits 8 4, wFlag x.ackType, wOptional UAttachDetachAck.fields (x.groups, x.proprietary, ())]

/-- enums/status_uplink.rs lines 57-111: the values of `StatusUplink`. -/
def statusKnown (n : Nat) : Bool := (1 ≤ n && n ≤ 7) || (16 ≤ n && n ≤ 24) || (32 ≤ n && n ≤ 63)

/-- pdus/u_mm_status.rs lines 13-26 `UMmStatus` (PDU type 3); the dependent information is its length and value. -/
structure UMmStatus where
  status : Nat
  info : Option (Nat × Nat)
  deriving DecidableEq, Repr

/-- u_mm_status.rs lines 30-69: whatever is left is the dependent information; more than 64 bits are an `Err`. -/
def UMmStatus.dec : Rd UMmStatus := do
  expectType 4 3
  let s ← Rd.bits 6
  if statusKnown s then
    let rest ← Rd.look
    if 0 < rest.length then
      let v ← Rd.bits rest.length
      pure ⟨s, some (rest.length, v)⟩
    else pure ⟨s, none⟩
  else Rd.fail

/-- u_mm_status.rs lines 72-86. -/
def UMmStatus.enc (x : UMmStatus) : Out (List Bool) :=
  cat [wBits 3 4, wBits x.status 6, match x.info with
    | some (n, v) => wBits v n
    | none => .ok []]

/-! ## Downlink PDUs -/

/-- pdus/d_location_update_accept.rs `DLocationUpdateAccept` (PDU type 5). -/
structure DLocationUpdateAccept where
  acceptType : Nat
  ssi : Option Nat
  addressExtension : Option Nat
  subscriberClass : Option Nat
  energySaving : Option EnergySaving
  scch : Option Nat
  newRegisteredArea : Option Type4Generic
  securityDownlink : Option Type3Generic
  groupAccept : Option LocationAccept
  defaultLifetime : Option Type3Generic
  authenticationDownlink : Option Type3Generic
  groupSecurity : Option Type4Generic
  cellTypeControl : Option Type3Generic
  proprietary : Option Type3Generic
  deriving DecidableEq, Repr

/-- d_location_update_accept.rs lines 75-84 and 167-179. -/
abbrev DLocationUpdateAccept.fields2 : List Field :=
  [num2 24, num2 24, num2 16, .type2 EnergySaving.enc EnergySaving.dec, num2 6]
/-- d_location_update_accept.rs lines 87-114 and 182-224. -/
abbrev DLocationUpdateAccept.fields34 : List Field :=
  [.todo4 2, .generic3 3, .type3 5 LocationAccept.enc LocationAccept.dec, .generic3 1, .generic3 10, .todo4 12, .generic3 13, .generic3 15]

/-- d_location_update_accept.rs lines 54-138. -/
def DLocationUpdateAccept.dec : Rd DLocationUpdateAccept := do
  expectType 4 5
  let t ← Rd.bits 3
  let v ← rdOptional (DLocationUpdateAccept.fields2 ++ DLocationUpdateAccept.fields34)
  pure ⟨t, v.1, v.2.1, v.2.2.1, v.2.2.2.1, v.2.2.2.2.1, v.2.2.2.2.2.1, v.2.2.2.2.2.2.1, v.2.2.2.2.2.2.2.1,
    v.2.2.2.2.2.2.2.2.1, v.2.2.2.2.2.2.2.2.2.1, v.2.2.2.2.2.2.2.2.2.2.1, v.2.2.2.2.2.2.2.2.2.2.2.1,
    v.2.2.2.2.2.2.2.2.2.2.2.2.1⟩

/-- d_location_update_accept.rs lines 141-230. -/
def DLocationUpdateAccept.enc (x : DLocationUpdateAccept) : Out (List Bool) :=
  cat [wBits 5 4, wBits x.acceptType 3, wOptional (DLocationUpdateAccept.fields2 ++ DLocationUpdateAccept.fields34)
    (x.ssi, x.addressExtension, x.subscriberClass, x.energySaving, x.scch, x.newRegisteredArea, x.securityDownlink,
      x.groupAccept, x.defaultLifetime, x.authenticationDownlink, x.groupSecurity, x.cellTypeControl, x.proprietary, ())]

/-- pdus/d_attach_detach_group_identity_acknowledgement.rs (PDU type 11). -/
structure DAttachDetachAck where
  acceptReject : Nat
  reserved : Bool
  proprietary : Option Type3Generic
  groups : Option (List GroupDownlink)
  groupSecurity : Option Type4Generic
  deriving DecidableEq, Repr

abbrev DAttachDetachAck.fields : List Field := [.generic3 15, .type4 7 GroupDownlink.enc GroupDownlink.dec, .todo4 12]

/-- d_attach_detach_group_identity_acknowledgement.rs lines 34-74. -/
def DAttachDetachAck.dec : Rd DAttachDetachAck := do
  expectType 4 11
  let a ← Rd.bits 1
  let r ← Rd.flag
  let v ← rdOptional DAttachDetachAck.fields
  pure ⟨a, r, v.1, v.2.1, v.2.2.1⟩

/-- d_attach_detach_group_identity_acknowledgement.rs lines 77-117. -/
def DAttachDetachAck.enc (x : DAttachDetachAck) : Out (List Bool) :=
  cat [wBits 11 4, wBits x.acceptReject 1, wFlag x.reserved,
    wOptional DAttachDetachAck.fields (x.proprietary, x.groups, x.groupSecurity, ())]

/-- pdus/d_attach_detach_group_identity.rs (PDU type 10). -/
structure DAttachDetach where
  report : Bool
  ackRequest : Bool
  mode : Bool
  proprietary : Option Type3Generic
  groupReportResponse : Option Type3Generic
  groups : Option (List GroupDownlink)
  groupSecurity : Option Type4Generic
  deriving DecidableEq, Repr

abbrev DAttachDetach.fields : List Field := [.generic3 15, .generic3 4, .type4 7 GroupDownlink.enc GroupDownlink.dec, .todo4 12]

/-- d_attach_detach_group_identity.rs lines 38-85. -/
def DAttachDetach.dec : Rd DAttachDetach := do
  expectType 4 10
  let r ← Rd.flag
  let a ← Rd.flag
  let m ← Rd.flag
  let v ← rdOptional DAttachDetach.fields
  pure ⟨r, a, m, v.1, v.2.1, v.2.2.1, v.2.2.2.1⟩

/-- d_attach_detach_group_identity.rs lines 88-134. -/
def DAttachDetach.enc (x : DAttachDetach) : Out (List Bool) :=
  cat [wBits 10 4, wFlag x.report, wFlag x.ackRequest, wFlag x.mode,
    wOptional DAttachDetach.fields (x.proprietary, x.groupReportResponse, x.groups, x.groupSecurity, ())]

/-- pdus/d_location_update_proceeding.rs (PDU type 9). -/
structure DLocationUpdateProceeding where
  ssi : Nat
  addressExtension : Nat
  proprietary : Option Type3Generic
  deriving DecidableEq, Repr

abbrev DLocationUpdateProceeding.fields : List Field := [.generic3 15]

/-- d_location_update_proceeding.rs lines 28-54. -/
def DLocationUpdateProceeding.dec : Rd DLocationUpdateProceeding := do
  expectType 4 9
  let s ← Rd.bits 24
  let e ← Rd.bits 24
  let v ← rdOptional DLocationUpdateProceeding.fields
  pure ⟨s, e, v.1⟩

/-- d_location_update_proceeding.rs lines 57-78. -/
def DLocationUpdateProceeding.enc (x : DLocationUpdateProceeding) : Out (List Bool) :=
  cat [wBits 9 4, wBits x.ssi 24, wBits x.addressExtension 24, wOptional DLocationUpdateProceeding.fields (x.proprietary, ())]

/-- pdus/d_location_update_reject.rs (PDU type 7). -/
structure DLocationUpdateReject where
  updateType : Nat
  rejectCause : Nat
  cipherControl : Bool
  cipheringParameters : Option Nat
  addressExtension : Option Nat
  cellTypeControl : Option Type3Generic
  proprietary : Option Type3Generic
  deriving DecidableEq, Repr

/-- d_location_update_reject.rs lines 39-50: `unimplemented!()` after the mandatory elements; what follows it is never
reached. -/
def DLocationUpdateReject.dec : Rd DLocationUpdateReject := do
  expectType 4 7
  let _ ← Rd.bits 3
  let _ ← Rd.bits 5
  let _ ← Rd.flag
  Rd.abort

/-- d_location_update_reject.rs lines 82-115. -/
def DLocationUpdateReject.enc (x : DLocationUpdateReject) : Out (List Bool) :=
  cat [wBits 7 4, wBits x.updateType 3, wBits x.rejectCause 5, wFlag x.cipherControl, wOpt x.cipheringParameters 10,
    wOptional [num2 24, .generic3 13, .generic3 15] (x.addressExtension, x.cellTypeControl, x.proprietary, ())]

/-- pdus/d_location_update_command.rs (PDU type 6). -/
structure DLocationUpdateCommand where
  report : Bool
  cipherControl : Bool
  cipheringParameters : Option Nat
  addressExtension : Option Nat
  cellTypeControl : Option Nat
  proprietary : Option Nat
  deriving DecidableEq, Repr

/-- d_location_update_command.rs lines 35-44: `unimplemented!()` after the mandatory elements. -/
def DLocationUpdateCommand.dec : Rd DLocationUpdateCommand := do
  expectType 4 6
  let _ ← Rd.flag
  let _ ← Rd.flag
  Rd.abort

/-- d_location_update_command.rs lines 76-109: the o-bit is that of the address extension alone. -/
def DLocationUpdateCommand.enc (x : DLocationUpdateCommand) : Out (List Bool) :=
  cat [wBits 6 4, wFlag x.report, wFlag x.cipherControl, wOpt x.cipheringParameters 10,
    if x.addressExtension.isSome then
      cat [wFlag true, wType2 true (wBits · 24) x.addressExtension, wOpt x.cellTypeControl 3, wOpt x.proprietary 3, wFlag false]
    else wFlag false]

/-- pdus/d_mm_status.rs (PDU type 12). -/
structure DMmStatus where
  status : Nat
  info : Option Nat
  deriving DecidableEq, Repr

/-- d_mm_status.rs lines 29-36: `unimplemented!()` after the status. -/
def DMmStatus.dec : Rd DMmStatus := do
  expectType 4 12
  let _ ← Rd.bits 6
  Rd.abort

/-- d_mm_status.rs lines 55-68: `unimplemented!()` when there is dependent information. -/
def DMmStatus.enc (x : DMmStatus) : Out (List Bool) :=
  cat [wBits 12 4, wBits x.status 6, if x.info.isSome then .panic else .ok [], wFlag false]

/-- pdus/mm_pdu_function_not_supported.rs (PDU type 15); the sub PDU type is its length and value. -/
structure NotSupported where
  pduType : Nat
  sub : Option (Nat × Nat)
  deriving DecidableEq, Repr

/-- mm_pdu_function_not_supported.rs lines 34-74: with the o-bit set, `Err`. -/
def NotSupported.dec : Rd NotSupported := do
  expectType 4 15
  let t ← Rd.bits 4
  let o ← Rd.flag
  if o then Rd.fail else pure ⟨t, none⟩

/-- mm_pdu_function_not_supported.rs lines 77-115. -/
def NotSupported.enc (x : NotSupported) : Out (List Bool) :=
  cat [wBits 15 4, wBits x.pduType 4, match x.sub with
    | some (n, v) => cat [wFlag true, wType2 true (wBits · n) (some v), wFlag false]
    | none => wFlag false]

end Verif.Mm
