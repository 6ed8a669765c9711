import Verif.Cmce.PduElems
/-!
# The PDUs of call control and short data

Models every file of crates/tetra-pdus/src/cmce/pdus. A PDU is its type (five bits), mandatory elements and the optional part of
`Verif.TypedFields`; the elements are those of `Verif.Cmce.Pdu`. Enumerations which fill all their bits are numbers.
-/
namespace Verif.Cmce.Pdu
open Verif.Bits Verif.Codec Verif.TypedFields

/-- pdus/u_alert.rs lines 15-28 `UAlert` (PDU type 0). -/
structure UAlert where
  callId : Nat
  reserved : Bool
  simplexDuplex : Bool
  basicService : Option BasicService
  facility : Option Type3Generic
  proprietary : Option Type3Generic
  deriving DecidableEq, Repr

abbrev UAlert.fields2 : List Field := [.type2 BasicService.enc BasicService.dec]
abbrev UAlert.fields34 : List Field := [.generic3 3, .generic3 15]

/-- u_alert.rs lines 33-70. -/
def UAlert.dec : Rd UAlert := do
  expectType 5 0
  let a0 ← Rd.bits 14
  let a1 ← Rd.flag
  let a2 ← Rd.flag
  let v ← rdOptional (UAlert.fields2 ++ UAlert.fields34)
  pure ⟨a0, a1, a2, v.1, v.2.1, v.2.2.1⟩

/-- u_alert.rs lines 73-102. -/
def UAlert.enc (x : UAlert) : Out (List Bool) :=
  cat [wBits 0 5, wBits x.callId 14, wFlag x.reserved, wFlag x.simplexDuplex, wOptional (UAlert.fields2 ++ UAlert.fields34)
    (x.basicService, x.facility, x.proprietary, ())]

/-- pdus/u_connect.rs lines 14-27 `UConnect` (PDU type 2). -/
structure UConnect where
  callId : Nat
  hook : Bool
  simplexDuplex : Bool
  basicService : Option BasicService
  facility : Option Type3Generic
  proprietary : Option Type3Generic
  deriving DecidableEq, Repr

abbrev UConnect.fields2 : List Field := [.type2 BasicService.enc BasicService.dec]
abbrev UConnect.fields34 : List Field := [.generic3 3, .generic3 15]

/-- u_connect.rs lines 32-68. -/
def UConnect.dec : Rd UConnect := do
  expectType 5 2
  let a0 ← Rd.bits 14
  let a1 ← Rd.flag
  let a2 ← Rd.flag
  let v ← rdOptional (UConnect.fields2 ++ UConnect.fields34)
  pure ⟨a0, a1, a2, v.1, v.2.1, v.2.2.1⟩

/-- u_connect.rs lines 71-100. -/
def UConnect.enc (x : UConnect) : Out (List Bool) :=
  cat [wBits 2 5, wBits x.callId 14, wFlag x.hook, wFlag x.simplexDuplex, wOptional (UConnect.fields2 ++ UConnect.fields34)
    (x.basicService, x.facility, x.proprietary, ())]

/-- pdus/u_disconnect.rs lines 14-23 `UDisconnect` (PDU type 4). -/
structure UDisconnect where
  callId : Nat
  cause : Nat
  facility : Option Type3Generic
  proprietary : Option Type3Generic
  deriving DecidableEq, Repr

abbrev UDisconnect.fields34 : List Field := [.generic3 3, .generic3 15]

/-- u_disconnect.rs lines 28-62. -/
def UDisconnect.dec : Rd UDisconnect := do
  expectType 5 4
  let a0 ← Rd.bits 14
  let a1 ← rdCause
  let v ← rdOptional UDisconnect.fields34
  pure ⟨a0, a1, v.1, v.2.1⟩

/-- u_disconnect.rs lines 65-89. -/
def UDisconnect.enc (x : UDisconnect) : Out (List Bool) :=
  cat [wBits 4 5, wBits x.callId 14, wBits x.cause 5, wOptional UDisconnect.fields34 (x.facility, x.proprietary, ())]

/-- pdus/u_info.rs lines 15-28 `UInfo` (PDU type 5). -/
structure UInfo where
  callId : Nat
  pollResponse : Bool
  modify : Option Nat
  dtmf : Option Type3Generic
  facility : Option Type3Generic
  proprietary : Option Type3Generic
  deriving DecidableEq, Repr

abbrev UInfo.fields2 : List Field := [num2 9]
abbrev UInfo.fields34 : List Field := [.generic3 1, .generic3 3, .generic3 15]

/-- u_info.rs lines 33-71. -/
def UInfo.dec : Rd UInfo := do
  expectType 5 5
  let a0 ← Rd.bits 14
  let a1 ← Rd.flag
  let v ← rdOptional (UInfo.fields2 ++ UInfo.fields34)
  pure ⟨a0, a1, v.1, v.2.1, v.2.2.1, v.2.2.2.1⟩

/-- u_info.rs lines 74-104. -/
def UInfo.enc (x : UInfo) : Out (List Bool) :=
  cat [wBits 5 5, wBits x.callId 14, wFlag x.pollResponse, wOptional (UInfo.fields2 ++ UInfo.fields34) (x.modify, x.dtmf,
    x.facility, x.proprietary, ())]

/-- pdus/u_release.rs lines 14-23 `URelease` (PDU type 6). -/
structure URelease where
  callId : Nat
  cause : Nat
  facility : Option Type3Generic
  proprietary : Option Type3Generic
  deriving DecidableEq, Repr

abbrev URelease.fields34 : List Field := [.generic3 3, .generic3 15]

/-- u_release.rs lines 28-62. -/
def URelease.dec : Rd URelease := do
  expectType 5 6
  let a0 ← Rd.bits 14
  let a1 ← rdCause
  let v ← rdOptional URelease.fields34
  pure ⟨a0, a1, v.1, v.2.1⟩

/-- u_release.rs lines 65-89. -/
def URelease.enc (x : URelease) : Out (List Bool) :=
  cat [wBits 6 5, wBits x.callId 14, wBits x.cause 5, wOptional URelease.fields34 (x.facility, x.proprietary, ())]

/-- pdus/u_setup.rs lines 18-57 `USetup` (PDU type 7). -/
structure USetup where
  area : Nat
  hook : Bool
  simplexDuplex : Bool
  basicService : BasicService
  requestTransmit : Bool
  priority : Nat
  clir : Nat
  called : Called
  externalNumber : Option Type3Generic
  facility : Option Type3Generic
  dmAddress : Option Type3Generic
  proprietary : Option Type3Generic
  deriving DecidableEq, Repr

abbrev USetup.fields34 : List Field := [.generic3 2, .generic3 3, .generic3 6, .generic3 15]

/-- u_setup.rs lines 62-144. -/
def USetup.dec : Rd USetup := do
  expectType 5 7
  let a0 ← Rd.bits 4
  let a1 ← Rd.flag
  let a2 ← Rd.flag
  let a3 ← BasicService.dec
  let a4 ← Rd.flag
  let a5 ← Rd.bits 4
  let a6 ← Rd.bits 2
  let a7 ← Called.dec
  let v ← rdOptional USetup.fields34
  pure ⟨a0, a1, a2, a3, a4, a5, a6, a7, v.1, v.2.1, v.2.2.1, v.2.2.2.1⟩

/-- u_setup.rs lines 147-204. -/
def USetup.enc (x : USetup) : Out (List Bool) :=
  cat [wBits 7 5, wBits x.area 4, wFlag x.hook, wFlag x.simplexDuplex, x.basicService.enc, wFlag x.requestTransmit, wBits
    x.priority 4, wBits x.clir 2, x.called.enc, wOptional USetup.fields34 (x.externalNumber, x.facility, x.dmAddress,
    x.proprietary, ())]

/-- pdus/u_status.rs lines 16-33 `UStatus` (PDU type 8). -/
structure UStatus where
  area : Nat
  called : Called
  status : Status
  externalNumber : Option Type3Generic
  dmAddress : Option Type3Generic
  deriving DecidableEq, Repr

abbrev UStatus.fields34 : List Field := [.generic3 2, .generic3 6]

/-- u_status.rs lines 38-98. -/
def UStatus.dec : Rd UStatus := do
  expectType 5 8
  let a0 ← Rd.bits 4
  let a1 ← Called.dec
  let a2 ← Status.dec
  let v ← rdOptional UStatus.fields34
  pure ⟨a0, a1, a2, v.1, v.2.1⟩

/-- u_status.rs lines 101-139. -/
def UStatus.enc (x : UStatus) : Out (List Bool) :=
  cat [wBits 8 5, wBits x.area 4, x.called.enc, x.status.enc, wOptional UStatus.fields34 (x.externalNumber, x.dmAddress, ())]

/-- pdus/u_tx_ceased.rs lines 13-22 `UTxCeased` (PDU type 9). -/
structure UTxCeased where
  callId : Nat
  facility : Option Type3Generic
  dmAddress : Option Type3Generic
  proprietary : Option Type3Generic
  deriving DecidableEq, Repr

abbrev UTxCeased.fields34 : List Field := [.generic3 3, .generic3 6, .generic3 15]

/-- u_tx_ceased.rs lines 27-58. -/
def UTxCeased.dec : Rd UTxCeased := do
  expectType 5 9
  let a0 ← Rd.bits 14
  let v ← rdOptional UTxCeased.fields34
  pure ⟨a0, v.1, v.2.1, v.2.2.1⟩

/-- u_tx_ceased.rs lines 61-86. -/
def UTxCeased.enc (x : UTxCeased) : Out (List Bool) :=
  cat [wBits 9 5, wBits x.callId 14, wOptional UTxCeased.fields34 (x.facility, x.dmAddress, x.proprietary, ())]

/-- pdus/u_tx_demand.rs lines 14-29 `UTxDemand` (PDU type 10). -/
structure UTxDemand where
  callId : Nat
  priority : Nat
  encryption : Bool
  reserved : Bool
  facility : Option Type3Generic
  dmAddress : Option Type3Generic
  proprietary : Option Type3Generic
  deriving DecidableEq, Repr

abbrev UTxDemand.fields34 : List Field := [.generic3 3, .generic3 6, .generic3 15]

/-- u_tx_demand.rs lines 34-74. -/
def UTxDemand.dec : Rd UTxDemand := do
  expectType 5 10
  let a0 ← Rd.bits 14
  let a1 ← Rd.bits 2
  let a2 ← Rd.flag
  let a3 ← Rd.flag
  let v ← rdOptional UTxDemand.fields34
  pure ⟨a0, a1, a2, a3, v.1, v.2.1, v.2.2.1⟩

/-- u_tx_demand.rs lines 77-108. -/
def UTxDemand.enc (x : UTxDemand) : Out (List Bool) :=
  cat [wBits 10 5, wBits x.callId 14, wBits x.priority 2, wFlag x.encryption, wFlag x.reserved, wOptional UTxDemand.fields34
    (x.facility, x.dmAddress, x.proprietary, ())]

/-- pdus/u_call_restore.rs lines 17-38 `UCallRestore` (PDU type 14). -/
structure UCallRestore where
  callId : Nat
  requestTransmit : Bool
  otherParty : Called
  basicService : Option BasicService
  facility : Option Type3Generic
  dmAddress : Option Type3Generic
  proprietary : Option Type3Generic
  deriving DecidableEq, Repr

abbrev UCallRestore.fields2 : List Field := [.type2 BasicService.enc BasicService.dec]
abbrev UCallRestore.fields34 : List Field := [.generic3 3, .generic3 6, .generic3 15]

/-- u_call_restore.rs lines 43-105. -/
def UCallRestore.dec : Rd UCallRestore := do
  expectType 5 14
  let a0 ← Rd.bits 14
  let a1 ← Rd.flag
  let a2 ← Called.dec
  let v ← rdOptional (UCallRestore.fields2 ++ UCallRestore.fields34)
  pure ⟨a0, a1, a2, v.1, v.2.1, v.2.2.1, v.2.2.2.1⟩

/-- u_call_restore.rs lines 108-155. -/
def UCallRestore.enc (x : UCallRestore) : Out (List Bool) :=
  cat [wBits 14 5, wBits x.callId 14, wFlag x.requestTransmit, x.otherParty.enc, wOptional (UCallRestore.fields2 ++
    UCallRestore.fields34) (x.basicService, x.facility, x.dmAddress, x.proprietary, ())]

/-- pdus/u_sds_data.rs lines 19-36 `USdsData` (PDU type 15). -/
structure USdsData where
  area : Nat
  called : Called
  data : Sds
  externalNumber : Option Type3Generic
  dmAddress : Option Type3Generic
  deriving DecidableEq, Repr

abbrev USdsData.fields34 : List Field := [.generic3 2, .generic3 6]

/-- u_sds_data.rs lines 40-117. -/
def USdsData.dec : Rd USdsData := do
  expectType 5 15
  let a0 ← Rd.bits 4
  let a1 ← Called.dec
  let a2 ← Sds.dec
  let v ← rdOptional USdsData.fields34
  pure ⟨a0, a1, a2, v.1, v.2.1⟩

/-- u_sds_data.rs lines 120-177. -/
def USdsData.enc (x : USdsData) : Out (List Bool) :=
  cat [wBits 15 5, wBits x.area 4, x.called.enc, x.data.enc, wOptional USdsData.fields34 (x.externalNumber, x.dmAddress, ())]

/-- pdus/d_alert.rs lines 16-35 `DAlert` (PDU type 0). -/
structure DAlert where
  callId : Nat
  setupTimeout : Nat
  reserved : Bool
  simplexDuplex : Bool
  queued : Bool
  basicService : Option BasicService
  notification : Option Nat
  facility : Option Type3Generic
  proprietary : Option Type3Generic
  deriving DecidableEq, Repr

abbrev DAlert.fields2 : List Field := [.type2 BasicService.enc BasicService.dec, num2 6]
abbrev DAlert.fields34 : List Field := [.generic3 3, .generic3 15]

/-- d_alert.rs lines 40-87. -/
def DAlert.dec : Rd DAlert := do
  expectType 5 0
  let a0 ← Rd.bits 14
  let a1 ← Rd.bits 3
  let a2 ← Rd.flag
  let a3 ← Rd.flag
  let a4 ← Rd.flag
  let v ← rdOptional (DAlert.fields2 ++ DAlert.fields34)
  pure ⟨a0, a1, a2, a3, a4, v.1, v.2.1, v.2.2.1, v.2.2.2.1⟩

/-- d_alert.rs lines 90-129. -/
def DAlert.enc (x : DAlert) : Out (List Bool) :=
  cat [wBits 0 5, wBits x.callId 14, wBits x.setupTimeout 3, wFlag x.reserved, wFlag x.simplexDuplex, wFlag x.queued, wOptional
    (DAlert.fields2 ++ DAlert.fields34) (x.basicService, x.notification, x.facility, x.proprietary, ())]

/-- pdus/d_call_proceeding.rs lines 17-36 `DCallProceeding` (PDU type 1). -/
structure DCallProceeding where
  callId : Nat
  setupTimeout : Nat
  hook : Bool
  simplexDuplex : Bool
  basicService : Option BasicService
  callStatus : Option Nat
  notification : Option Nat
  facility : Option Type3Generic
  proprietary : Option Type3Generic
  deriving DecidableEq, Repr

abbrev DCallProceeding.fields2 : List Field := [.type2 BasicService.enc BasicService.dec, Pdu.callStatus, num2 6]
abbrev DCallProceeding.fields34 : List Field := [.generic3 3, .generic3 15]

/-- d_call_proceeding.rs lines 41-97. -/
def DCallProceeding.dec : Rd DCallProceeding := do
  expectType 5 1
  let a0 ← Rd.bits 14
  let a1 ← Rd.bits 3
  let a2 ← Rd.flag
  let a3 ← Rd.flag
  let v ← rdOptional (DCallProceeding.fields2 ++ DCallProceeding.fields34)
  pure ⟨a0, a1, a2, a3, v.1, v.2.1, v.2.2.1, v.2.2.2.1, v.2.2.2.2.1⟩

/-- d_call_proceeding.rs lines 100-141. -/
def DCallProceeding.enc (x : DCallProceeding) : Out (List Bool) :=
  cat [wBits 1 5, wBits x.callId 14, wBits x.setupTimeout 3, wFlag x.hook, wFlag x.simplexDuplex, wOptional
    (DCallProceeding.fields2 ++ DCallProceeding.fields34) (x.basicService, x.callStatus, x.notification, x.facility,
    x.proprietary, ())]

/-- pdus/d_connect.rs lines 17-45 `DConnect` (PDU type 2). -/
structure DConnect where
  callId : Nat
  timeout : Nat
  hook : Bool
  simplexDuplex : Bool
  grant : Nat
  requestPermission : Bool
  ownership : Bool
  priority : Option Nat
  basicService : Option BasicService
  temporaryAddress : Option Nat
  notification : Option Nat
  facility : Option Type3Generic
  proprietary : Option Type3Generic
  deriving DecidableEq, Repr

abbrev DConnect.fields2 : List Field := [num2 4, .type2 BasicService.enc BasicService.dec, num2 24, num2 6]
abbrev DConnect.fields34 : List Field := [.generic3 3, .generic3 15]

/-- d_connect.rs lines 50-112. -/
def DConnect.dec : Rd DConnect := do
  expectType 5 2
  let a0 ← Rd.bits 14
  let a1 ← Rd.bits 4
  let a2 ← Rd.flag
  let a3 ← Rd.flag
  let a4 ← Rd.bits 2
  let a5 ← Rd.flag
  let a6 ← Rd.flag
  let v ← rdOptional (DConnect.fields2 ++ DConnect.fields34)
  pure ⟨a0, a1, a2, a3, a4, a5, a6, v.1, v.2.1, v.2.2.1, v.2.2.2.1, v.2.2.2.2.1, v.2.2.2.2.2.1⟩

/-- d_connect.rs lines 115-166. -/
def DConnect.enc (x : DConnect) : Out (List Bool) :=
  cat [wBits 2 5, wBits x.callId 14, wBits x.timeout 4, wFlag x.hook, wFlag x.simplexDuplex, wBits x.grant 2, wFlag
    x.requestPermission, wFlag x.ownership, wOptional (DConnect.fields2 ++ DConnect.fields34) (x.priority, x.basicService,
    x.temporaryAddress, x.notification, x.facility, x.proprietary, ())]

/-- pdus/d_connect_acknowledge.rs lines 13-29 `DConnectAcknowledge` (PDU type 3). -/
structure DConnectAcknowledge where
  callId : Nat
  timeout : Nat
  grant : Nat
  requestPermission : Bool
  notification : Option Nat
  facility : Option Type3Generic
  proprietary : Option Type3Generic
  deriving DecidableEq, Repr

abbrev DConnectAcknowledge.fields2 : List Field := [num2 6]
abbrev DConnectAcknowledge.fields34 : List Field := [.generic3 3, .generic3 15]

/-- d_connect_acknowledge.rs lines 34-74. -/
def DConnectAcknowledge.dec : Rd DConnectAcknowledge := do
  expectType 5 3
  let a0 ← Rd.bits 14
  let a1 ← Rd.bits 4
  let a2 ← Rd.bits 2
  let a3 ← Rd.flag
  let v ← rdOptional (DConnectAcknowledge.fields2 ++ DConnectAcknowledge.fields34)
  pure ⟨a0, a1, a2, a3, v.1, v.2.1, v.2.2.1⟩

/-- d_connect_acknowledge.rs lines 77-108. -/
def DConnectAcknowledge.enc (x : DConnectAcknowledge) : Out (List Bool) :=
  cat [wBits 3 5, wBits x.callId 14, wBits x.timeout 4, wBits x.grant 2, wFlag x.requestPermission, wOptional
    (DConnectAcknowledge.fields2 ++ DConnectAcknowledge.fields34) (x.notification, x.facility, x.proprietary, ())]

/-- pdus/d_disconnect.rs lines 14-25 `DDisconnect` (PDU type 4). -/
structure DDisconnect where
  callId : Nat
  cause : Nat
  notification : Option Nat
  facility : Option Type3Generic
  proprietary : Option Type3Generic
  deriving DecidableEq, Repr

abbrev DDisconnect.fields2 : List Field := [num2 6]
abbrev DDisconnect.fields34 : List Field := [.generic3 3, .generic3 15]

/-- d_disconnect.rs lines 30-69. -/
def DDisconnect.dec : Rd DDisconnect := do
  expectType 5 4
  let a0 ← Rd.bits 14
  let a1 ← rdCause
  let v ← rdOptional (DDisconnect.fields2 ++ DDisconnect.fields34)
  pure ⟨a0, a1, v.1, v.2.1, v.2.2.1⟩

/-- d_disconnect.rs lines 72-99. -/
def DDisconnect.enc (x : DDisconnect) : Out (List Bool) :=
  cat [wBits 4 5, wBits x.callId 14, wBits x.cause 5, wOptional (DDisconnect.fields2 ++ DDisconnect.fields34) (x.notification,
    x.facility, x.proprietary, ())]

/-- pdus/d_info.rs lines 16-51 `DInfo` (PDU type 5). -/
structure DInfo where
  callId : Nat
  resetTimer : Bool
  pollRequest : Bool
  newCallId : Option Nat
  timeout : Option Nat
  setupTimeout : Option Nat
  ownership : Option Nat
  modify : Option Nat
  callStatus : Option Nat
  temporaryAddress : Option Nat
  notification : Option Nat
  pollPercentage : Option Nat
  pollNumber : Option Nat
  dtmf : Option Type3Generic
  facility : Option Type3Generic
  pollAddresses : Option Type3Generic
  proprietary : Option Type3Generic
  deriving DecidableEq, Repr

abbrev DInfo.fields2 : List Field := [num2 14, num2 4, num2 3, num2 1, num2 9, num2 3, num2 24, num2 6, num2 6, num2 6]
abbrev DInfo.fields34 : List Field := [.generic3 1, .generic3 3, .generic3 4, .generic3 15]

/-- d_info.rs lines 56-128. -/
def DInfo.dec : Rd DInfo := do
  expectType 5 5
  let a0 ← Rd.bits 14
  let a1 ← Rd.flag
  let a2 ← Rd.flag
  let v ← rdOptional (DInfo.fields2 ++ DInfo.fields34)
  pure ⟨a0, a1, a2, v.1, v.2.1, v.2.2.1, v.2.2.2.1, v.2.2.2.2.1, v.2.2.2.2.2.1, v.2.2.2.2.2.2.1, v.2.2.2.2.2.2.2.1,
    v.2.2.2.2.2.2.2.2.1, v.2.2.2.2.2.2.2.2.2.1, v.2.2.2.2.2.2.2.2.2.2.1, v.2.2.2.2.2.2.2.2.2.2.2.1, v.2.2.2.2.2.2.2.2.2.2.2.2.1,
    v.2.2.2.2.2.2.2.2.2.2.2.2.2.1⟩

/-- d_info.rs lines 131-205. -/
def DInfo.enc (x : DInfo) : Out (List Bool) :=
  cat [wBits 5 5, wBits x.callId 14, wFlag x.resetTimer, wFlag x.pollRequest, wOptional (DInfo.fields2 ++ DInfo.fields34)
    (x.newCallId, x.timeout, x.setupTimeout, x.ownership, x.modify, x.callStatus, x.temporaryAddress, x.notification,
    x.pollPercentage, x.pollNumber, x.dtmf, x.facility, x.pollAddresses, x.proprietary, ())]

/-- pdus/d_release.rs lines 14-25 `DRelease` (PDU type 6). -/
structure DRelease where
  callId : Nat
  cause : Nat
  notification : Option Nat
  facility : Option Type3Generic
  proprietary : Option Type3Generic
  deriving DecidableEq, Repr

abbrev DRelease.fields2 : List Field := [num2 6]
abbrev DRelease.fields34 : List Field := [.generic3 3, .generic3 15]

/-- d_release.rs lines 30-69. -/
def DRelease.dec : Rd DRelease := do
  expectType 5 6
  let a0 ← Rd.bits 14
  let a1 ← rdCause
  let v ← rdOptional (DRelease.fields2 ++ DRelease.fields34)
  pure ⟨a0, a1, v.1, v.2.1, v.2.2.1⟩

/-- d_release.rs lines 72-99. -/
def DRelease.enc (x : DRelease) : Out (List Bool) :=
  cat [wBits 6 5, wBits x.callId 14, wBits x.cause 5, wOptional (DRelease.fields2 ++ DRelease.fields34) (x.notification,
    x.facility, x.proprietary, ())]

/-- pdus/d_status.rs lines 15-28 `DStatus` (PDU type 8). -/
structure DStatus where
  calling : Calling
  status : Status
  externalNumber : Option Type3Generic
  dmAddress : Option Type3Generic
  deriving DecidableEq, Repr

abbrev DStatus.fields34 : List Field := [.generic3 2, .generic3 6]

/-- d_status.rs lines 33-83. -/
def DStatus.dec : Rd DStatus := do
  expectType 5 8
  let a0 ← Calling.dec
  let a1 ← Status.dec
  let v ← rdOptional DStatus.fields34
  pure ⟨a0, a1, v.1, v.2.1⟩

/-- d_status.rs lines 86-118. -/
def DStatus.enc (x : DStatus) : Out (List Bool) :=
  cat [wBits 8 5, x.calling.enc, x.status.enc, wOptional DStatus.fields34 (x.externalNumber, x.dmAddress, ())]

/-- pdus/d_tx_ceased.rs lines 13-27 `DTxCeased` (PDU type 9). -/
structure DTxCeased where
  callId : Nat
  requestPermission : Bool
  notification : Option Nat
  facility : Option Type3Generic
  dmAddress : Option Type3Generic
  proprietary : Option Type3Generic
  deriving DecidableEq, Repr

abbrev DTxCeased.fields2 : List Field := [num2 6]
abbrev DTxCeased.fields34 : List Field := [.generic3 3, .generic3 6, .generic3 15]

/-- d_tx_ceased.rs lines 32-70. -/
def DTxCeased.dec : Rd DTxCeased := do
  expectType 5 9
  let a0 ← Rd.bits 14
  let a1 ← Rd.flag
  let v ← rdOptional (DTxCeased.fields2 ++ DTxCeased.fields34)
  pure ⟨a0, a1, v.1, v.2.1, v.2.2.1, v.2.2.2.1⟩

/-- d_tx_ceased.rs lines 73-104. -/
def DTxCeased.enc (x : DTxCeased) : Out (List Bool) :=
  cat [wBits 9 5, wBits x.callId 14, wFlag x.requestPermission, wOptional (DTxCeased.fields2 ++ DTxCeased.fields34)
    (x.notification, x.facility, x.dmAddress, x.proprietary, ())]

/-- pdus/d_tx_continue.rs lines 13-29 `DTxContinue` (PDU type 10). -/
structure DTxContinue where
  callId : Nat
  doContinue : Bool
  requestPermission : Bool
  notification : Option Nat
  facility : Option Type3Generic
  dmAddress : Option Type3Generic
  proprietary : Option Type3Generic
  deriving DecidableEq, Repr

abbrev DTxContinue.fields2 : List Field := [num2 6]
abbrev DTxContinue.fields34 : List Field := [.generic3 3, .generic3 6, .generic3 15]

/-- d_tx_continue.rs lines 34-75. -/
def DTxContinue.dec : Rd DTxContinue := do
  expectType 5 10
  let a0 ← Rd.bits 14
  let a1 ← Rd.flag
  let a2 ← Rd.flag
  let v ← rdOptional (DTxContinue.fields2 ++ DTxContinue.fields34)
  pure ⟨a0, a1, a2, v.1, v.2.1, v.2.2.1, v.2.2.2.1⟩

/-- d_tx_continue.rs lines 78-111. -/
def DTxContinue.enc (x : DTxContinue) : Out (List Bool) :=
  cat [wBits 10 5, wBits x.callId 14, wFlag x.doContinue, wFlag x.requestPermission, wOptional (DTxContinue.fields2 ++
    DTxContinue.fields34) (x.notification, x.facility, x.dmAddress, x.proprietary, ())]

/-- pdus/d_tx_granted.rs lines 15-43 `DTxGranted` (PDU type 11); the two address fields are only there together with the type identifier, as in every value the code builds or reads. -/
structure DTxGranted where
  callId : Nat
  grant : Nat
  requestPermission : Bool
  encryption : Bool
  reserved : Bool
  notification : Option Nat
  transmitting : Option Calling
  externalNumber : Option Type3Generic
  facility : Option Type3Generic
  dmAddress : Option Type3Generic
  proprietary : Option Type3Generic
  deriving DecidableEq, Repr

abbrev DTxGranted.fields2 : List Field := [num2 6, .type2 Calling.enc Calling.dec]
abbrev DTxGranted.fields34 : List Field := [.generic3 2, .generic3 3, .generic3 6, .generic3 15]

/-- d_tx_granted.rs lines 48-117. -/
def DTxGranted.dec : Rd DTxGranted := do
  expectType 5 11
  let a0 ← Rd.bits 14
  let a1 ← Rd.bits 2
  let a2 ← Rd.flag
  let a3 ← Rd.flag
  let a4 ← Rd.flag
  let v ← rdOptional (DTxGranted.fields2 ++ DTxGranted.fields34)
  pure ⟨a0, a1, a2, a3, a4, v.1, v.2.1, v.2.2.1, v.2.2.2.1, v.2.2.2.2.1, v.2.2.2.2.2.1⟩

/-- d_tx_granted.rs lines 120-176. -/
def DTxGranted.enc (x : DTxGranted) : Out (List Bool) :=
  cat [wBits 11 5, wBits x.callId 14, wBits x.grant 2, wFlag x.requestPermission, wFlag x.encryption, wFlag x.reserved,
    wOptional (DTxGranted.fields2 ++ DTxGranted.fields34) (x.notification, x.transmitting, x.externalNumber, x.facility,
    x.dmAddress, x.proprietary, ())]

/-- pdus/d_tx_wait.rs lines 13-27 `DTxWait` (PDU type 12). -/
structure DTxWait where
  callId : Nat
  requestPermission : Bool
  notification : Option Nat
  facility : Option Type3Generic
  dmAddress : Option Type3Generic
  proprietary : Option Type3Generic
  deriving DecidableEq, Repr

abbrev DTxWait.fields2 : List Field := [num2 6]
abbrev DTxWait.fields34 : List Field := [.generic3 3, .generic3 6, .generic3 15]

/-- d_tx_wait.rs lines 32-70. -/
def DTxWait.dec : Rd DTxWait := do
  expectType 5 12
  let a0 ← Rd.bits 14
  let a1 ← Rd.flag
  let v ← rdOptional (DTxWait.fields2 ++ DTxWait.fields34)
  pure ⟨a0, a1, v.1, v.2.1, v.2.2.1, v.2.2.2.1⟩

/-- d_tx_wait.rs lines 73-104. -/
def DTxWait.enc (x : DTxWait) : Out (List Bool) :=
  cat [wBits 12 5, wBits x.callId 14, wFlag x.requestPermission, wOptional (DTxWait.fields2 ++ DTxWait.fields34)
    (x.notification, x.facility, x.dmAddress, x.proprietary, ())]

/-- pdus/d_tx_interrupt.rs lines 15-43 `DTxInterrupt` (PDU type 13). -/
structure DTxInterrupt where
  callId : Nat
  grant : Nat
  requestPermission : Bool
  encryption : Bool
  reserved : Bool
  notification : Option Nat
  partyType : Option Nat
  partySsi : Option Nat
  partyExt : Option Nat
  externalNumber : Option Type3Generic
  facility : Option Type3Generic
  dmAddress : Option Type3Generic
  proprietary : Option Type3Generic
  deriving DecidableEq, Repr

abbrev DTxInterrupt.fields2 : List Field := [num2 6, num2 2, num2 24, num2 24]
abbrev DTxInterrupt.fields34 : List Field := [.generic3 2, .generic3 3, .generic3 6, .generic3 15]

/-- d_tx_interrupt.rs lines 48-108. -/
def DTxInterrupt.dec : Rd DTxInterrupt := do
  expectType 5 13
  let a0 ← Rd.bits 14
  let a1 ← Rd.bits 2
  let a2 ← Rd.flag
  let a3 ← Rd.flag
  let a4 ← Rd.flag
  let v ← rdOptional (DTxInterrupt.fields2 ++ DTxInterrupt.fields34)
  pure ⟨a0, a1, a2, a3, a4, v.1, v.2.1, v.2.2.1, v.2.2.2.1, v.2.2.2.2.1, v.2.2.2.2.2.1, v.2.2.2.2.2.2.1, v.2.2.2.2.2.2.2.1⟩

/-- d_tx_interrupt.rs lines 111-166. -/
def DTxInterrupt.enc (x : DTxInterrupt) : Out (List Bool) :=
  cat [wBits 13 5, wBits x.callId 14, wBits x.grant 2, wFlag x.requestPermission, wFlag x.encryption, wFlag x.reserved,
    wOptional (DTxInterrupt.fields2 ++ DTxInterrupt.fields34) (x.notification, x.partyType, x.partySsi, x.partyExt,
    x.externalNumber, x.facility, x.dmAddress, x.proprietary, ())]

/-- pdus/d_call_restore.rs lines 13-41 `DCallRestore` (PDU type 14). -/
structure DCallRestore where
  callId : Nat
  grant : Nat
  requestPermission : Bool
  resetTimer : Bool
  newCallId : Option Nat
  timeout : Option Nat
  callStatus : Option Nat
  modify : Option Nat
  notification : Option Nat
  facility : Option Type3Generic
  temporaryAddress : Option Type3Generic
  dmAddress : Option Type3Generic
  proprietary : Option Type3Generic
  deriving DecidableEq, Repr

abbrev DCallRestore.fields2 : List Field := [num2 14, num2 4, num2 3, num2 9, num2 6]
abbrev DCallRestore.fields34 : List Field := [.generic3 3, .generic3 5, .generic3 6, .generic3 15]

/-- d_call_restore.rs lines 46-103. -/
def DCallRestore.dec : Rd DCallRestore := do
  expectType 5 14
  let a0 ← Rd.bits 14
  let a1 ← Rd.bits 2
  let a2 ← Rd.flag
  let a3 ← Rd.flag
  let v ← rdOptional (DCallRestore.fields2 ++ DCallRestore.fields34)
  pure ⟨a0, a1, a2, a3, v.1, v.2.1, v.2.2.1, v.2.2.2.1, v.2.2.2.2.1, v.2.2.2.2.2.1, v.2.2.2.2.2.2.1, v.2.2.2.2.2.2.2.1,
    v.2.2.2.2.2.2.2.2.1⟩

/-- d_call_restore.rs lines 106-163. -/
def DCallRestore.enc (x : DCallRestore) : Out (List Bool) :=
  cat [wBits 14 5, wBits x.callId 14, wBits x.grant 2, wFlag x.requestPermission, wFlag x.resetTimer, wOptional
    (DCallRestore.fields2 ++ DCallRestore.fields34) (x.newCallId, x.timeout, x.callStatus, x.modify, x.notification, x.facility,
    x.temporaryAddress, x.dmAddress, x.proprietary, ())]

/-- pdus/d_sds_data.rs lines 16-29 `DSdsData` (PDU type 15). -/
structure DSdsData where
  calling : Calling
  data : Sds
  externalNumber : Option Type3Generic
  dmAddress : Option Type3Generic
  deriving DecidableEq, Repr

abbrev DSdsData.fields34 : List Field := [.generic3 2, .generic3 6]

/-- d_sds_data.rs lines 33-100. -/
def DSdsData.dec : Rd DSdsData := do
  expectType 5 15
  let a0 ← Calling.dec
  let a1 ← Sds.dec
  let v ← rdOptional DSdsData.fields34
  pure ⟨a0, a1, v.1, v.2.1⟩

/-- d_sds_data.rs lines 103-154. -/
def DSdsData.enc (x : DSdsData) : Out (List Bool) :=
  cat [wBits 15 5, x.calling.enc, x.data.enc, wOptional DSdsData.fields34 (x.externalNumber, x.dmAddress, ())]
/-! ## D-SETUP -/

/-- pdus/d_setup.rs lines 19-55 `DSetup` (PDU type 7). -/
structure DSetup where
  callId : Nat
  timeout : Nat
  hook : Bool
  simplexDuplex : Bool
  basicService : BasicService
  grant : Nat
  requestPermission : Bool
  priority : Nat
  notification : Option Nat
  temporaryAddress : Option Nat
  callingSsi : Option Nat
  callingExt : Option Nat
  externalNumber : Option Type3Generic
  facility : Option Type3Generic
  dmAddress : Option Type3Generic
  proprietary : Option Type3Generic
  deriving DecidableEq, Repr

abbrev DSetup.fields2 : List Field := [num2 6, num2 24, .type2 Calling.enc Calling.dec]
abbrev DSetup.fields34 : List Field := [.generic3 2, .generic3 3, .generic3 6, .generic3 15]

/-- d_setup.rs lines 187-198: the type identifier of the calling party is computed from its address. -/
def DSetup.caller (x : DSetup) : Out (Option Calling) :=
  match x.callingSsi, x.callingExt with
  | none, none => .ok none
  | some s, none => .ok (some ⟨1, some s, none⟩)
  | some s, some e => .ok (some ⟨2, some s, some e⟩)
  | none, some _ => .err

/-- d_setup.rs lines 60-143. -/
def DSetup.dec : Rd DSetup := do
  expectType 5 7
  let a0 ← Rd.bits 14
  let a1 ← Rd.bits 4
  let a2 ← Rd.flag
  let a3 ← Rd.flag
  let a4 ← BasicService.dec
  let a5 ← Rd.bits 2
  let a6 ← Rd.flag
  let a7 ← Rd.bits 4
  let v ← rdOptional (DSetup.fields2 ++ DSetup.fields34)
  let c : Option Calling := v.2.2.1
  pure ⟨a0, a1, a2, a3, a4, a5, a6, a7, v.1, v.2.1, c.bind (·.ssi), c.bind (·.ext), v.2.2.2.1, v.2.2.2.2.1, v.2.2.2.2.2.1,
    v.2.2.2.2.2.2.1⟩

/-- d_setup.rs lines 146-222; an impossible calling address is refused before the elements in front of it are written, which
matters only for a temporary address or notification out of range. -/
def DSetup.enc (x : DSetup) : Out (List Bool) :=
  cat [wBits 7 5, wBits x.callId 14, wBits x.timeout 4, wFlag x.hook, wFlag x.simplexDuplex, x.basicService.enc, wBits x.grant 2,
    wFlag x.requestPermission, wBits x.priority 4,
    x.caller >>= fun c => wOptional (DSetup.fields2 ++ DSetup.fields34)
      (x.notification, x.temporaryAddress, c, x.externalNumber, x.facility, x.dmAddress, x.proprietary, ())]

/-! ## PDUs without elements -/

/-- pdus/u_facility.rs lines 19-33 and d_facility.rs lines 19-33 (PDU type 16 in both directions): nothing follows the type. -/
def facilityDec : Rd Unit := do
  expectType 5 16
  let _ ← rdOptional []
  pure ()

/-- u_facility.rs lines 36-42 and d_facility.rs lines 36-42. -/
def facilityEnc : Out (List Bool) := cat [wBits 16 5, wFlag false]

/-- pdus/cmce_function_not_supported.rs lines 19-32 (PDU type 31). -/
structure NotSupported where
  pduType : Nat
  callIdPresent : Bool
  callId : Option Nat
  pointer : Nat
  length : Option Nat
  extract : Option Nat
  deriving DecidableEq, Repr

/-- The end of `from_bitbuf` for a pointer which is zero (lines 67-83). -/
def NotSupported.finish (t : Nat) (p : Bool) (c : Option Nat) (ptr : Nat) : Rd NotSupported := do
  let _ ← rdOptional []
  pure ⟨t, p, c, ptr, none, none⟩

/-- cmce_function_not_supported.rs lines 37-84; `unimplemented!()` when the pointer is not zero. -/
def NotSupported.dec : Rd NotSupported := do
  expectType 5 31
  let t ← Rd.bits 5
  let p ← Rd.flag
  let c ← rdIf p (Rd.bits 14)
  let ptr ← Rd.bits 8
  if ptr ≠ 0 then do
    let _ ← Rd.bits 8
    Rd.abort
  else NotSupported.finish t p c ptr

/-- cmce_function_not_supported.rs lines 87-112. -/
def NotSupported.enc (x : NotSupported) : Out (List Bool) :=
  cat [wBits 31 5, wBits x.pduType 5, wFlag x.callIdPresent, wOpt x.callId 14, wBits x.pointer 8, wOpt x.length 8,
    if x.extract.isSome then .panic else .ok [], wFlag false]

end Verif.Cmce.Pdu
