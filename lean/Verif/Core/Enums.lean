/-!
# The coded enumerations: model of the enums of crates/tetra-pdus and crates/tetra-saps which stand for numbers in a message

Each has `try_from`, which reads a number, and `into_raw`, which gives the number to write. The numbers in the declaration of the enum
are what `as u8` gives. `Display` is not modelled.
-/
namespace Verif.Enums

/-- An enumeration, its length in a message, and its functions. Numbers are of 64 bits in the code; here they are not bounded. -/
structure Coding where
  V : Type
  bits : Nat
  number : V → Nat
  tryFrom : Nat → Option V
  raw : V → Nat

/-- `CallStatus` (crates/tetra-pdus/src/cmce/enums/call_status.rs:5-11). -/
inductive CallStatus where
  | «callproceeding» | «callqueued» | «requestedsubscriberpaged» | «callcontinue» | «hangtimeexpired»
  deriving DecidableEq

/-- The numbers in the declaration (crates/tetra-pdus/src/cmce/enums/call_status.rs:5), `try_from` and `into_raw` (lines 13 to 37); bits: the comment at line 2. -/
def CallStatus.coding : Coding where
  V := CallStatus
  bits := 3
  number := fun
    | .«callproceeding» => 0
    | .«callqueued» => 1
    | .«requestedsubscriberpaged» => 2
    | .«callcontinue» => 3
    | .«hangtimeexpired» => 4
  tryFrom := fun
    | 0 => some .«callproceeding»
    | 1 => some .«callqueued»
    | 2 => some .«requestedsubscriberpaged»
    | 3 => some .«callcontinue»
    | 4 => some .«hangtimeexpired»
    | _ => none
  raw := fun
    | .«callproceeding» => 0
    | .«callqueued» => 1
    | .«requestedsubscriberpaged» => 2
    | .«callcontinue» => 3
    | .«hangtimeexpired» => 4

/-- `CallTimeout` (crates/tetra-pdus/src/cmce/enums/call_timeout.rs:5-22). -/
inductive CallTimeout where
  | «infinite» | «t30s» | «t45s» | «t60s» | «t2m» | «t3m» | «t4m» | «t5m» | «t6m» | «t8m» | «t10m» | «t12m» | «t15m» | «t20m» | «t30m»
  | «reserved»
  deriving DecidableEq

/-- The numbers in the declaration (crates/tetra-pdus/src/cmce/enums/call_timeout.rs:5), `try_from` and `into_raw` (lines 24 to 70); bits: the comment at line 2. -/
def CallTimeout.coding : Coding where
  V := CallTimeout
  bits := 4
  number := fun
    | .«infinite» => 0
    | .«t30s» => 1
    | .«t45s» => 2
    | .«t60s» => 3
    | .«t2m» => 4
    | .«t3m» => 5
    | .«t4m» => 6
    | .«t5m» => 7
    | .«t6m» => 8
    | .«t8m» => 9
    | .«t10m» => 10
    | .«t12m» => 11
    | .«t15m» => 12
    | .«t20m» => 13
    | .«t30m» => 14
    | .«reserved» => 15
  tryFrom := fun
    | 0 => some .«infinite»
    | 1 => some .«t30s»
    | 2 => some .«t45s»
    | 3 => some .«t60s»
    | 4 => some .«t2m»
    | 5 => some .«t3m»
    | 6 => some .«t4m»
    | 7 => some .«t5m»
    | 8 => some .«t6m»
    | 9 => some .«t8m»
    | 10 => some .«t10m»
    | 11 => some .«t12m»
    | 12 => some .«t15m»
    | 13 => some .«t20m»
    | 14 => some .«t30m»
    | 15 => some .«reserved»
    | _ => none
  raw := fun
    | .«infinite» => 0
    | .«t30s» => 1
    | .«t45s» => 2
    | .«t60s» => 3
    | .«t2m» => 4
    | .«t3m» => 5
    | .«t4m» => 6
    | .«t5m» => 7
    | .«t6m» => 8
    | .«t8m» => 9
    | .«t10m» => 10
    | .«t12m» => 11
    | .«t15m» => 12
    | .«t20m» => 13
    | .«t30m» => 14
    | .«reserved» => 15

/-- `CallTimeoutSetupPhase` (crates/tetra-pdus/src/cmce/enums/call_timeout_setup_phase.rs:5-14). -/
inductive CallTimeoutSetupPhase where
  | «predefined» | «t1s» | «t2s» | «t5s» | «t10s» | «t20s» | «t30s» | «t60s»
  deriving DecidableEq

/-- The numbers in the declaration (crates/tetra-pdus/src/cmce/enums/call_timeout_setup_phase.rs:5), `try_from` and `into_raw` (lines 16 to 46); bits: the comment at line 2. -/
def CallTimeoutSetupPhase.coding : Coding where
  V := CallTimeoutSetupPhase
  bits := 3
  number := fun
    | .«predefined» => 0
    | .«t1s» => 1
    | .«t2s» => 2
    | .«t5s» => 3
    | .«t10s» => 4
    | .«t20s» => 5
    | .«t30s» => 6
    | .«t60s» => 7
  tryFrom := fun
    | 0 => some .«predefined»
    | 1 => some .«t1s»
    | 2 => some .«t2s»
    | 3 => some .«t5s»
    | 4 => some .«t10s»
    | 5 => some .«t20s»
    | 6 => some .«t30s»
    | 7 => some .«t60s»
    | _ => none
  raw := fun
    | .«predefined» => 0
    | .«t1s» => 1
    | .«t2s» => 2
    | .«t5s» => 3
    | .«t10s» => 4
    | .«t20s» => 5
    | .«t30s» => 6
    | .«t60s» => 7

/-- `CmcePduTypeDl` (crates/tetra-pdus/src/cmce/enums/cmce_pdu_type_dl.rs:5-24). -/
inductive CmcePduTypeDl where
  | «dAlert» | «dCallProceeding» | «dConnect» | «dConnectAcknowledge» | «dDisconnect» | «dInfo» | «dRelease» | «dSetup» | «dStatus»
  | «dTxCeased» | «dTxContinue» | «dTxGranted» | «dTxWait» | «dTxInterrupt» | «dCallRestore» | «dSdsData» | «dFacility»
  | «cmceFunctionNotSupported»
  deriving DecidableEq

/-- The numbers in the declaration (crates/tetra-pdus/src/cmce/enums/cmce_pdu_type_dl.rs:5), `try_from` and `into_raw` (lines 26 to 76); bits: the comment at line 2. -/
def CmcePduTypeDl.coding : Coding where
  V := CmcePduTypeDl
  bits := 5
  number := fun
    | .«dAlert» => 0
    | .«dCallProceeding» => 1
    | .«dConnect» => 2
    | .«dConnectAcknowledge» => 3
    | .«dDisconnect» => 4
    | .«dInfo» => 5
    | .«dRelease» => 6
    | .«dSetup» => 7
    | .«dStatus» => 8
    | .«dTxCeased» => 9
    | .«dTxContinue» => 10
    | .«dTxGranted» => 11
    | .«dTxWait» => 12
    | .«dTxInterrupt» => 13
    | .«dCallRestore» => 14
    | .«dSdsData» => 15
    | .«dFacility» => 16
    | .«cmceFunctionNotSupported» => 31
  tryFrom := fun
    | 0 => some .«dAlert»
    | 1 => some .«dCallProceeding»
    | 2 => some .«dConnect»
    | 3 => some .«dConnectAcknowledge»
    | 4 => some .«dDisconnect»
    | 5 => some .«dInfo»
    | 6 => some .«dRelease»
    | 7 => some .«dSetup»
    | 8 => some .«dStatus»
    | 9 => some .«dTxCeased»
    | 10 => some .«dTxContinue»
    | 11 => some .«dTxGranted»
    | 12 => some .«dTxWait»
    | 13 => some .«dTxInterrupt»
    | 14 => some .«dCallRestore»
    | 15 => some .«dSdsData»
    | 16 => some .«dFacility»
    | 31 => some .«cmceFunctionNotSupported»
    | _ => none
  raw := fun
    | .«dAlert» => 0
    | .«dCallProceeding» => 1
    | .«dConnect» => 2
    | .«dConnectAcknowledge» => 3
    | .«dDisconnect» => 4
    | .«dInfo» => 5
    | .«dRelease» => 6
    | .«dSetup» => 7
    | .«dStatus» => 8
    | .«dTxCeased» => 9
    | .«dTxContinue» => 10
    | .«dTxGranted» => 11
    | .«dTxWait» => 12
    | .«dTxInterrupt» => 13
    | .«dCallRestore» => 14
    | .«dSdsData» => 15
    | .«dFacility» => 16
    | .«cmceFunctionNotSupported» => 31

/-- `CmcePduTypeUl` (crates/tetra-pdus/src/cmce/enums/cmce_pdu_type_ul.rs:5-19). -/
inductive CmcePduTypeUl where
  | «uAlert» | «uConnect» | «uDisconnect» | «uInfo» | «uRelease» | «uSetup» | «uStatus» | «uTxCeased» | «uTxDemand» | «uCallRestore»
  | «uSdsData» | «uFacility» | «cmceFunctionNotSupported»
  deriving DecidableEq

/-- The numbers in the declaration (crates/tetra-pdus/src/cmce/enums/cmce_pdu_type_ul.rs:5), `try_from` and `into_raw` (lines 21 to 62); bits: the comment at line 2. -/
def CmcePduTypeUl.coding : Coding where
  V := CmcePduTypeUl
  bits := 5
  number := fun
    | .«uAlert» => 0
    | .«uConnect» => 2
    | .«uDisconnect» => 4
    | .«uInfo» => 5
    | .«uRelease» => 6
    | .«uSetup» => 7
    | .«uStatus» => 8
    | .«uTxCeased» => 9
    | .«uTxDemand» => 10
    | .«uCallRestore» => 14
    | .«uSdsData» => 15
    | .«uFacility» => 16
    | .«cmceFunctionNotSupported» => 31
  tryFrom := fun
    | 0 => some .«uAlert»
    | 2 => some .«uConnect»
    | 4 => some .«uDisconnect»
    | 5 => some .«uInfo»
    | 6 => some .«uRelease»
    | 7 => some .«uSetup»
    | 8 => some .«uStatus»
    | 9 => some .«uTxCeased»
    | 10 => some .«uTxDemand»
    | 14 => some .«uCallRestore»
    | 15 => some .«uSdsData»
    | 16 => some .«uFacility»
    | 31 => some .«cmceFunctionNotSupported»
    | _ => none
  raw := fun
    | .«uAlert» => 0
    | .«uConnect» => 2
    | .«uDisconnect» => 4
    | .«uInfo» => 5
    | .«uRelease» => 6
    | .«uSetup» => 7
    | .«uStatus» => 8
    | .«uTxCeased» => 9
    | .«uTxDemand» => 10
    | .«uCallRestore» => 14
    | .«uSdsData» => 15
    | .«uFacility» => 16
    | .«cmceFunctionNotSupported» => 31

/-- `DisconnectCause` (crates/tetra-pdus/src/cmce/enums/disconnect_cause.rs:5-30). -/
inductive DisconnectCause where
  | «causeNotDefinedOrUnknown» | «userRequestedDisconnection» | «calledPartyBusy» | «calledPartyNotReachable»
  | «calledPartyDoesNotSupportEncryption» | «congestionInInfrastructure» | «notAllowedTrafficCase» | «incompatibleTrafficCase»
  | «requestedServiceNotAvailable» | «preEmptiveUseOfResource» | «invalidCallIdentifier» | «callRejectedByTheCalledParty»
  | «noIdleCcEntity» | «expiryOfTimer» | «swmiRequestedDisconnection» | «acknowledgedServiceNotComplete» | «unknownTetraIdentity»
  | «ssSpecificDisconnection» | «unknownExternalSubscriberIdentity» | «callRestorationOfTheOtherUserFailed»
  | «calledPartyRequiresEncryption» | «concurrentSetUpNotSupported» | «calledPartyIsUnderTheSameDmGateOfTheCallingParty»
  | «nonCallOwnerRequestedDisconnection»
  deriving DecidableEq

/-- The numbers in the declaration (crates/tetra-pdus/src/cmce/enums/disconnect_cause.rs:5), `try_from` and `into_raw` (lines 32 to 94); bits: as written (crates/tetra-pdus/src/cmce/pdus/d_disconnect.rs:38); the comment of the enum says 3. -/
def DisconnectCause.coding : Coding where
  V := DisconnectCause
  bits := 5
  number := fun
    | .«causeNotDefinedOrUnknown» => 0
    | .«userRequestedDisconnection» => 1
    | .«calledPartyBusy» => 2
    | .«calledPartyNotReachable» => 3
    | .«calledPartyDoesNotSupportEncryption» => 4
    | .«congestionInInfrastructure» => 5
    | .«notAllowedTrafficCase» => 6
    | .«incompatibleTrafficCase» => 7
    | .«requestedServiceNotAvailable» => 8
    | .«preEmptiveUseOfResource» => 9
    | .«invalidCallIdentifier» => 10
    | .«callRejectedByTheCalledParty» => 11
    | .«noIdleCcEntity» => 12
    | .«expiryOfTimer» => 13
    | .«swmiRequestedDisconnection» => 14
    | .«acknowledgedServiceNotComplete» => 15
    | .«unknownTetraIdentity» => 16
    | .«ssSpecificDisconnection» => 17
    | .«unknownExternalSubscriberIdentity» => 18
    | .«callRestorationOfTheOtherUserFailed» => 19
    | .«calledPartyRequiresEncryption» => 20
    | .«concurrentSetUpNotSupported» => 21
    | .«calledPartyIsUnderTheSameDmGateOfTheCallingParty» => 22
    | .«nonCallOwnerRequestedDisconnection» => 23
  tryFrom := fun
    | 0 => some .«causeNotDefinedOrUnknown»
    | 1 => some .«userRequestedDisconnection»
    | 2 => some .«calledPartyBusy»
    | 3 => some .«calledPartyNotReachable»
    | 4 => some .«calledPartyDoesNotSupportEncryption»
    | 5 => some .«congestionInInfrastructure»
    | 6 => some .«notAllowedTrafficCase»
    | 7 => some .«incompatibleTrafficCase»
    | 8 => some .«requestedServiceNotAvailable»
    | 9 => some .«preEmptiveUseOfResource»
    | 10 => some .«invalidCallIdentifier»
    | 11 => some .«callRejectedByTheCalledParty»
    | 12 => some .«noIdleCcEntity»
    | 13 => some .«expiryOfTimer»
    | 14 => some .«swmiRequestedDisconnection»
    | 15 => some .«acknowledgedServiceNotComplete»
    | 16 => some .«unknownTetraIdentity»
    | 17 => some .«ssSpecificDisconnection»
    | 18 => some .«unknownExternalSubscriberIdentity»
    | 19 => some .«callRestorationOfTheOtherUserFailed»
    | 20 => some .«calledPartyRequiresEncryption»
    | 21 => some .«concurrentSetUpNotSupported»
    | 22 => some .«calledPartyIsUnderTheSameDmGateOfTheCallingParty»
    | 23 => some .«nonCallOwnerRequestedDisconnection»
    | _ => none
  raw := fun
    | .«causeNotDefinedOrUnknown» => 0
    | .«userRequestedDisconnection» => 1
    | .«calledPartyBusy» => 2
    | .«calledPartyNotReachable» => 3
    | .«calledPartyDoesNotSupportEncryption» => 4
    | .«congestionInInfrastructure» => 5
    | .«notAllowedTrafficCase» => 6
    | .«incompatibleTrafficCase» => 7
    | .«requestedServiceNotAvailable» => 8
    | .«preEmptiveUseOfResource» => 9
    | .«invalidCallIdentifier» => 10
    | .«callRejectedByTheCalledParty» => 11
    | .«noIdleCcEntity» => 12
    | .«expiryOfTimer» => 13
    | .«swmiRequestedDisconnection» => 14
    | .«acknowledgedServiceNotComplete» => 15
    | .«unknownTetraIdentity» => 16
    | .«ssSpecificDisconnection» => 17
    | .«unknownExternalSubscriberIdentity» => 18
    | .«callRestorationOfTheOtherUserFailed» => 19
    | .«calledPartyRequiresEncryption» => 20
    | .«concurrentSetUpNotSupported» => 21
    | .«calledPartyIsUnderTheSameDmGateOfTheCallingParty» => 22
    | .«nonCallOwnerRequestedDisconnection» => 23

/-- `PartyTypeIdentifier` (crates/tetra-pdus/src/cmce/enums/party_type_identifier.rs:6-15). -/
inductive PartyTypeIdentifier where
  | «sna» | «ssi» | «tsi» | «reserved»
  deriving DecidableEq

/-- The numbers in the declaration (crates/tetra-pdus/src/cmce/enums/party_type_identifier.rs:6), `try_from` and `into_raw` (lines 17 to 34); bits: the comment at line 3. -/
def PartyTypeIdentifier.coding : Coding where
  V := PartyTypeIdentifier
  bits := 2
  number := fun
    | .«sna» => 0
    | .«ssi» => 1
    | .«tsi» => 2
    | .«reserved» => 3
  tryFrom := fun
    | 0 => some .«sna»
    | 1 => some .«ssi»
    | 2 => some .«tsi»
    | 3 => some .«reserved»
    | _ => none
  raw := fun
    | .«sna» => 0
    | .«ssi» => 1
    | .«tsi» => 2
    | .«reserved» => 3

/-- `SdsProtocolId` (crates/tetra-pdus/src/cmce/enums/sds_protocol_id.rs:5-30). -/
inductive SdsProtocolId where
  | «otak» | «simpleTextMessaging» | «simpleLocationSystem» | «wirelessDatagramProtocol» | «wirelessControlMessageProtocol» | «mDmo»
  | «pinAuth» | «eteeMessage» | «simpleImmediateTextMessaging» | «locationInformationProtocol» | «netAssistProtocol2»
  | «concatenatedSdsMessage» | «dotam» | «simpleAgnssService» | «textMessagingSdsTl» | «locationSystemSdsTl»
  | «wirelessDatagramProtocolSdsTl» | «wirelessControlMessageProtocolSdsTl» | «mDmoSdsTl» | «eteeMessageSdsTl»
  | «immediateTextMessagingSdsTl» | «messageWithUserDataHeader» | «concatenatedSdsMessageSdsTl» | «agnssServiceSdsTl»
  deriving DecidableEq

/-- The numbers in the declaration (crates/tetra-pdus/src/cmce/enums/sds_protocol_id.rs:5), `try_from` and `into_raw` (lines 32 to 94); bits: the comment at line 2. -/
def SdsProtocolId.coding : Coding where
  V := SdsProtocolId
  bits := 8
  number := fun
    | .«otak» => 1
    | .«simpleTextMessaging» => 2
    | .«simpleLocationSystem» => 3
    | .«wirelessDatagramProtocol» => 4
    | .«wirelessControlMessageProtocol» => 5
    | .«mDmo» => 6
    | .«pinAuth» => 7
    | .«eteeMessage» => 8
    | .«simpleImmediateTextMessaging» => 9
    | .«locationInformationProtocol» => 10
    | .«netAssistProtocol2» => 11
    | .«concatenatedSdsMessage» => 12
    | .«dotam» => 13
    | .«simpleAgnssService» => 14
    | .«textMessagingSdsTl» => 130
    | .«locationSystemSdsTl» => 131
    | .«wirelessDatagramProtocolSdsTl» => 132
    | .«wirelessControlMessageProtocolSdsTl» => 133
    | .«mDmoSdsTl» => 134
    | .«eteeMessageSdsTl» => 136
    | .«immediateTextMessagingSdsTl» => 137
    | .«messageWithUserDataHeader» => 138
    | .«concatenatedSdsMessageSdsTl» => 140
    | .«agnssServiceSdsTl» => 141
  tryFrom := fun
    | 1 => some .«otak»
    | 2 => some .«simpleTextMessaging»
    | 3 => some .«simpleLocationSystem»
    | 4 => some .«wirelessDatagramProtocol»
    | 5 => some .«wirelessControlMessageProtocol»
    | 6 => some .«mDmo»
    | 7 => some .«pinAuth»
    | 8 => some .«eteeMessage»
    | 9 => some .«simpleImmediateTextMessaging»
    | 10 => some .«locationInformationProtocol»
    | 11 => some .«netAssistProtocol2»
    | 12 => some .«concatenatedSdsMessage»
    | 13 => some .«dotam»
    | 14 => some .«simpleAgnssService»
    | 130 => some .«textMessagingSdsTl»
    | 131 => some .«locationSystemSdsTl»
    | 132 => some .«wirelessDatagramProtocolSdsTl»
    | 133 => some .«wirelessControlMessageProtocolSdsTl»
    | 134 => some .«mDmoSdsTl»
    | 136 => some .«eteeMessageSdsTl»
    | 137 => some .«immediateTextMessagingSdsTl»
    | 138 => some .«messageWithUserDataHeader»
    | 140 => some .«concatenatedSdsMessageSdsTl»
    | 141 => some .«agnssServiceSdsTl»
    | _ => none
  raw := fun
    | .«otak» => 1
    | .«simpleTextMessaging» => 2
    | .«simpleLocationSystem» => 3
    | .«wirelessDatagramProtocol» => 4
    | .«wirelessControlMessageProtocol» => 5
    | .«mDmo» => 6
    | .«pinAuth» => 7
    | .«eteeMessage» => 8
    | .«simpleImmediateTextMessaging» => 9
    | .«locationInformationProtocol» => 10
    | .«netAssistProtocol2» => 11
    | .«concatenatedSdsMessage» => 12
    | .«dotam» => 13
    | .«simpleAgnssService» => 14
    | .«textMessagingSdsTl» => 130
    | .«locationSystemSdsTl» => 131
    | .«wirelessDatagramProtocolSdsTl» => 132
    | .«wirelessControlMessageProtocolSdsTl» => 133
    | .«mDmoSdsTl» => 134
    | .«eteeMessageSdsTl» => 136
    | .«immediateTextMessagingSdsTl» => 137
    | .«messageWithUserDataHeader» => 138
    | .«concatenatedSdsMessageSdsTl» => 140
    | .«agnssServiceSdsTl» => 141

/-- `ShortReportType` (crates/tetra-pdus/src/cmce/enums/short_report_type.rs:6-11). -/
inductive ShortReportType where
  | «protOrEncodingNotSupported» | «destMemFull» | «messageReceived» | «messageConsumed»
  deriving DecidableEq

/-- The numbers in the declaration (crates/tetra-pdus/src/cmce/enums/short_report_type.rs:6), `try_from` and `into_raw` (lines 13 to 35); bits: the comment at line 3. -/
def ShortReportType.coding : Coding where
  V := ShortReportType
  bits := 2
  number := fun
    | .«protOrEncodingNotSupported» => 0
    | .«destMemFull» => 1
    | .«messageReceived» => 2
    | .«messageConsumed» => 3
  tryFrom := fun
    | 0 => some .«protOrEncodingNotSupported»
    | 1 => some .«destMemFull»
    | 2 => some .«messageReceived»
    | 3 => some .«messageConsumed»
    | _ => none
  raw := fun
    | .«protOrEncodingNotSupported» => 0
    | .«destMemFull» => 1
    | .«messageReceived» => 2
    | .«messageConsumed» => 3

/-- `TransmissionGrant` (crates/tetra-pdus/src/cmce/enums/transmission_grant.rs:5-10). -/
inductive TransmissionGrant where
  | «granted» | «notGranted» | «requestQueued» | «grantedToOtherUser»
  deriving DecidableEq

/-- The numbers in the declaration (crates/tetra-pdus/src/cmce/enums/transmission_grant.rs:5), `try_from` and `into_raw` (lines 12 to 34); bits: the comment at line 2. -/
def TransmissionGrant.coding : Coding where
  V := TransmissionGrant
  bits := 2
  number := fun
    | .«granted» => 0
    | .«notGranted» => 1
    | .«requestQueued» => 2
    | .«grantedToOtherUser» => 3
  tryFrom := fun
    | 0 => some .«granted»
    | 1 => some .«notGranted»
    | 2 => some .«requestQueued»
    | 3 => some .«grantedToOtherUser»
    | _ => none
  raw := fun
    | .«granted» => 0
    | .«notGranted» => 1
    | .«requestQueued» => 2
    | .«grantedToOtherUser» => 3

/-- `CmceType3ElemId` (crates/tetra-pdus/src/cmce/enums/type3_elem_id.rs:6-14). -/
inductive CmceType3ElemId where
  | «dtmf» | «extSubscriberNum» | «facility» | «pollResponseAddr» | «tempAddr» | «dmMsAddr» | «proprietary»
  deriving DecidableEq

/-- The numbers in the declaration (crates/tetra-pdus/src/cmce/enums/type3_elem_id.rs:6), `try_from` and `into_raw` (lines 16 to 44); bits: the comment at line 3. -/
def CmceType3ElemId.coding : Coding where
  V := CmceType3ElemId
  bits := 4
  number := fun
    | .«dtmf» => 1
    | .«extSubscriberNum» => 2
    | .«facility» => 3
    | .«pollResponseAddr» => 4
    | .«tempAddr» => 5
    | .«dmMsAddr» => 6
    | .«proprietary» => 15
  tryFrom := fun
    | 1 => some .«dtmf»
    | 2 => some .«extSubscriberNum»
    | 3 => some .«facility»
    | 4 => some .«pollResponseAddr»
    | 5 => some .«tempAddr»
    | 6 => some .«dmMsAddr»
    | 15 => some .«proprietary»
    | _ => none
  raw := fun
    | .«dtmf» => 1
    | .«extSubscriberNum» => 2
    | .«facility» => 3
    | .«pollResponseAddr» => 4
    | .«tempAddr» => 5
    | .«dmMsAddr» => 6
    | .«proprietary» => 15

/-- `LlcPduType` (crates/tetra-pdus/src/llc/enums/llc_pdu_type.rs:5-22). -/
inductive LlcPduType where
  | «blAdata» | «blData» | «blUdata» | «blAck» | «blAdataFcs» | «blDataFcs» | «blUdataFcs» | «blAckFcs» | «alSetup» | «alDataAlFinal»
  | «alAlUdataAlUfinal» | «alAckAlRnr» | «alReconnect» | «suppLlcPdu» | «l2SigPdu» | «alDisc»
  deriving DecidableEq

/-- The numbers in the declaration (crates/tetra-pdus/src/llc/enums/llc_pdu_type.rs:5), `try_from` and `into_raw` (lines 24 to 70); bits: the comment at line 2. -/
def LlcPduType.coding : Coding where
  V := LlcPduType
  bits := 4
  number := fun
    | .«blAdata» => 0
    | .«blData» => 1
    | .«blUdata» => 2
    | .«blAck» => 3
    | .«blAdataFcs» => 4
    | .«blDataFcs» => 5
    | .«blUdataFcs» => 6
    | .«blAckFcs» => 7
    | .«alSetup» => 8
    | .«alDataAlFinal» => 9
    | .«alAlUdataAlUfinal» => 10
    | .«alAckAlRnr» => 11
    | .«alReconnect» => 12
    | .«suppLlcPdu» => 13
    | .«l2SigPdu» => 14
    | .«alDisc» => 15
  tryFrom := fun
    | 0 => some .«blAdata»
    | 1 => some .«blData»
    | 2 => some .«blUdata»
    | 3 => some .«blAck»
    | 4 => some .«blAdataFcs»
    | 5 => some .«blDataFcs»
    | 6 => some .«blUdataFcs»
    | 7 => some .«blAckFcs»
    | 8 => some .«alSetup»
    | 9 => some .«alDataAlFinal»
    | 10 => some .«alAlUdataAlUfinal»
    | 11 => some .«alAckAlRnr»
    | 12 => some .«alReconnect»
    | 13 => some .«suppLlcPdu»
    | 14 => some .«l2SigPdu»
    | 15 => some .«alDisc»
    | _ => none
  raw := fun
    | .«blAdata» => 0
    | .«blData» => 1
    | .«blUdata» => 2
    | .«blAck» => 3
    | .«blAdataFcs» => 4
    | .«blDataFcs» => 5
    | .«blUdataFcs» => 6
    | .«blAckFcs» => 7
    | .«alSetup» => 8
    | .«alDataAlFinal» => 9
    | .«alAlUdataAlUfinal» => 10
    | .«alAckAlRnr» => 11
    | .«alReconnect» => 12
    | .«suppLlcPdu» => 13
    | .«l2SigPdu» => 14
    | .«alDisc» => 15

/-- `MlePduTypeDl` (crates/tetra-pdus/src/mle/enums/mle_pdu_type_dl.rs:5-14). -/
inductive MlePduTypeDl where
  | «dNewCell» | «dPrepareFail» | «dNwrkBroadcast» | «dNwrkBroadcastExt» | «dRestoreAck» | «dRestoreFail» | «dChannelResponse»
  | «extPdu»
  deriving DecidableEq

/-- The numbers in the declaration (crates/tetra-pdus/src/mle/enums/mle_pdu_type_dl.rs:5), `try_from` and `into_raw` (lines 16 to 46); bits: the comment at line 2. -/
def MlePduTypeDl.coding : Coding where
  V := MlePduTypeDl
  bits := 3
  number := fun
    | .«dNewCell» => 0
    | .«dPrepareFail» => 1
    | .«dNwrkBroadcast» => 2
    | .«dNwrkBroadcastExt» => 3
    | .«dRestoreAck» => 4
    | .«dRestoreFail» => 5
    | .«dChannelResponse» => 6
    | .«extPdu» => 7
  tryFrom := fun
    | 0 => some .«dNewCell»
    | 1 => some .«dPrepareFail»
    | 2 => some .«dNwrkBroadcast»
    | 3 => some .«dNwrkBroadcastExt»
    | 4 => some .«dRestoreAck»
    | 5 => some .«dRestoreFail»
    | 6 => some .«dChannelResponse»
    | 7 => some .«extPdu»
    | _ => none
  raw := fun
    | .«dNewCell» => 0
    | .«dPrepareFail» => 1
    | .«dNwrkBroadcast» => 2
    | .«dNwrkBroadcastExt» => 3
    | .«dRestoreAck» => 4
    | .«dRestoreFail» => 5
    | .«dChannelResponse» => 6
    | .«extPdu» => 7

/-- `MlePduTypeUl` (crates/tetra-pdus/src/mle/enums/mle_pdu_type_ul.rs:5-13). -/
inductive MlePduTypeUl where
  | «uPrepare» | «uPrepareDa» | «uIrregularChannelAdvice» | «uChannelClassAdvice» | «uRestore» | «uChannelRequest» | «extPdu»
  deriving DecidableEq

/-- The numbers in the declaration (crates/tetra-pdus/src/mle/enums/mle_pdu_type_ul.rs:5), `try_from` and `into_raw` (lines 15 to 43); bits: the comment at line 2. -/
def MlePduTypeUl.coding : Coding where
  V := MlePduTypeUl
  bits := 3
  number := fun
    | .«uPrepare» => 0
    | .«uPrepareDa» => 1
    | .«uIrregularChannelAdvice» => 2
    | .«uChannelClassAdvice» => 3
    | .«uRestore» => 4
    | .«uChannelRequest» => 6
    | .«extPdu» => 7
  tryFrom := fun
    | 0 => some .«uPrepare»
    | 1 => some .«uPrepareDa»
    | 2 => some .«uIrregularChannelAdvice»
    | 3 => some .«uChannelClassAdvice»
    | 4 => some .«uRestore»
    | 6 => some .«uChannelRequest»
    | 7 => some .«extPdu»
    | _ => none
  raw := fun
    | .«uPrepare» => 0
    | .«uPrepareDa» => 1
    | .«uIrregularChannelAdvice» => 2
    | .«uChannelClassAdvice» => 3
    | .«uRestore» => 4
    | .«uChannelRequest» => 6
    | .«extPdu» => 7

/-- `MleProtocolDiscriminator` (crates/tetra-pdus/src/mle/enums/mle_protocol_discriminator.rs:5-14). -/
inductive MleProtocolDiscriminator where
  | «mm» | «cmce» | «sndcp» | «mle» | «tetraManagementEntity»
  deriving DecidableEq

/-- The numbers in the declaration (crates/tetra-pdus/src/mle/enums/mle_protocol_discriminator.rs:5), `try_from` and `into_raw` (lines 16 to 46); bits: the comment at line 2. -/
def MleProtocolDiscriminator.coding : Coding where
  V := MleProtocolDiscriminator
  bits := 3
  number := fun
    | .«mm» => 1
    | .«cmce» => 2
    | .«sndcp» => 4
    | .«mle» => 5
    | .«tetraManagementEntity» => 6
  tryFrom := fun
    | 1 => some .«mm»
    | 2 => some .«cmce»
    | 4 => some .«sndcp»
    | 5 => some .«mle»
    | 6 => some .«tetraManagementEntity»
    | _ => none
  raw := fun
    | .«mm» => 1
    | .«cmce» => 2
    | .«sndcp» => 4
    | .«mle» => 5
    | .«tetraManagementEntity» => 6

/-- `EnergySavingMode` (crates/tetra-pdus/src/mm/enums/energy_saving_mode.rs:5-21). -/
inductive EnergySavingMode where
  | «stayAlive» | «eg1» | «eg2» | «eg3» | «eg4» | «eg5» | «eg6» | «eg7»
  deriving DecidableEq

/-- The numbers in the declaration (crates/tetra-pdus/src/mm/enums/energy_saving_mode.rs:5), `try_from` and `into_raw` (lines 23 to 53); bits: the comment at line 2. -/
def EnergySavingMode.coding : Coding where
  V := EnergySavingMode
  bits := 3
  number := fun
    | .«stayAlive» => 0
    | .«eg1» => 1
    | .«eg2» => 2
    | .«eg3» => 3
    | .«eg4» => 4
    | .«eg5» => 5
    | .«eg6» => 6
    | .«eg7» => 7
  tryFrom := fun
    | 0 => some .«stayAlive»
    | 1 => some .«eg1»
    | 2 => some .«eg2»
    | 3 => some .«eg3»
    | 4 => some .«eg4»
    | 5 => some .«eg5»
    | 6 => some .«eg6»
    | 7 => some .«eg7»
    | _ => none
  raw := fun
    | .«stayAlive» => 0
    | .«eg1» => 1
    | .«eg2» => 2
    | .«eg3» => 3
    | .«eg4» => 4
    | .«eg5» => 5
    | .«eg6» => 6
    | .«eg7» => 7

/-- `LocationUpdateAcceptType` (crates/tetra-pdus/src/mm/enums/location_update_accept_type.rs:5-14). -/
inductive LocationUpdateAcceptType where
  | «roamingLocationUpdating» | «temporaryRegistration» | «periodicLocationUpdating» | «itsiAttach»
  | «serviceRestorationRoamingLocationUpdating» | «migratingOrServiceRestorationMigratingLocationUpdating» | «demandLocationUpdating»
  | «disabledMsUpdating»
  deriving DecidableEq

/-- The numbers in the declaration (crates/tetra-pdus/src/mm/enums/location_update_accept_type.rs:5), `try_from` and `into_raw` (lines 16 to 46); bits: the comment at line 2. -/
def LocationUpdateAcceptType.coding : Coding where
  V := LocationUpdateAcceptType
  bits := 3
  number := fun
    | .«roamingLocationUpdating» => 0
    | .«temporaryRegistration» => 1
    | .«periodicLocationUpdating» => 2
    | .«itsiAttach» => 3
    | .«serviceRestorationRoamingLocationUpdating» => 4
    | .«migratingOrServiceRestorationMigratingLocationUpdating» => 5
    | .«demandLocationUpdating» => 6
    | .«disabledMsUpdating» => 7
  tryFrom := fun
    | 0 => some .«roamingLocationUpdating»
    | 1 => some .«temporaryRegistration»
    | 2 => some .«periodicLocationUpdating»
    | 3 => some .«itsiAttach»
    | 4 => some .«serviceRestorationRoamingLocationUpdating»
    | 5 => some .«migratingOrServiceRestorationMigratingLocationUpdating»
    | 6 => some .«demandLocationUpdating»
    | 7 => some .«disabledMsUpdating»
    | _ => none
  raw := fun
    | .«roamingLocationUpdating» => 0
    | .«temporaryRegistration» => 1
    | .«periodicLocationUpdating» => 2
    | .«itsiAttach» => 3
    | .«serviceRestorationRoamingLocationUpdating» => 4
    | .«migratingOrServiceRestorationMigratingLocationUpdating» => 5
    | .«demandLocationUpdating» => 6
    | .«disabledMsUpdating» => 7

/-- `LocationUpdateType` (crates/tetra-pdus/src/mm/enums/location_update_type.rs:6-15). -/
inductive LocationUpdateType where
  | «roamingLocationUpdating» | «migratingLocationUpdating» | «periodicLocationUpdating» | «itsiAttach»
  | «serviceRestorationRoamingLocationUpdating» | «serviceRestorationMigratingLocationUpdating» | «demandLocationUpdating»
  | «disabledMsUpdating»
  deriving DecidableEq

/-- The numbers in the declaration (crates/tetra-pdus/src/mm/enums/location_update_type.rs:6), `try_from` and `into_raw` (lines 17 to 47); bits: the comment at line 3. -/
def LocationUpdateType.coding : Coding where
  V := LocationUpdateType
  bits := 3
  number := fun
    | .«roamingLocationUpdating» => 0
    | .«migratingLocationUpdating» => 1
    | .«periodicLocationUpdating» => 2
    | .«itsiAttach» => 3
    | .«serviceRestorationRoamingLocationUpdating» => 4
    | .«serviceRestorationMigratingLocationUpdating» => 5
    | .«demandLocationUpdating» => 6
    | .«disabledMsUpdating» => 7
  tryFrom := fun
    | 0 => some .«roamingLocationUpdating»
    | 1 => some .«migratingLocationUpdating»
    | 2 => some .«periodicLocationUpdating»
    | 3 => some .«itsiAttach»
    | 4 => some .«serviceRestorationRoamingLocationUpdating»
    | 5 => some .«serviceRestorationMigratingLocationUpdating»
    | 6 => some .«demandLocationUpdating»
    | 7 => some .«disabledMsUpdating»
    | _ => none
  raw := fun
    | .«roamingLocationUpdating» => 0
    | .«migratingLocationUpdating» => 1
    | .«periodicLocationUpdating» => 2
    | .«itsiAttach» => 3
    | .«serviceRestorationRoamingLocationUpdating» => 4
    | .«serviceRestorationMigratingLocationUpdating» => 5
    | .«demandLocationUpdating» => 6
    | .«disabledMsUpdating» => 7

/-- `MmPduTypeDl` (crates/tetra-pdus/src/mm/enums/mm_pdu_type_dl.rs:5-19). -/
inductive MmPduTypeDl where
  | «dOtar» | «dAuthentication» | «dCkChangeDemand» | «dDisable» | «dEnable» | «dLocationUpdateAccept» | «dLocationUpdateCommand»
  | «dLocationUpdateReject» | «dLocationUpdateProceeding» | «dAttachDetachGroupIdentity» | «dAttachDetachGroupIdentityAcknowledgement»
  | «dMmStatus» | «mmPduFunctionNotSupported»
  deriving DecidableEq

/-- The numbers in the declaration (crates/tetra-pdus/src/mm/enums/mm_pdu_type_dl.rs:5), `try_from` and `into_raw` (lines 21 to 61); bits: the comment at line 2. -/
def MmPduTypeDl.coding : Coding where
  V := MmPduTypeDl
  bits := 4
  number := fun
    | .«dOtar» => 0
    | .«dAuthentication» => 1
    | .«dCkChangeDemand» => 2
    | .«dDisable» => 3
    | .«dEnable» => 4
    | .«dLocationUpdateAccept» => 5
    | .«dLocationUpdateCommand» => 6
    | .«dLocationUpdateReject» => 7
    | .«dLocationUpdateProceeding» => 9
    | .«dAttachDetachGroupIdentity» => 10
    | .«dAttachDetachGroupIdentityAcknowledgement» => 11
    | .«dMmStatus» => 12
    | .«mmPduFunctionNotSupported» => 15
  tryFrom := fun
    | 0 => some .«dOtar»
    | 1 => some .«dAuthentication»
    | 2 => some .«dCkChangeDemand»
    | 3 => some .«dDisable»
    | 4 => some .«dEnable»
    | 5 => some .«dLocationUpdateAccept»
    | 6 => some .«dLocationUpdateCommand»
    | 7 => some .«dLocationUpdateReject»
    | 9 => some .«dLocationUpdateProceeding»
    | 10 => some .«dAttachDetachGroupIdentity»
    | 11 => some .«dAttachDetachGroupIdentityAcknowledgement»
    | 12 => some .«dMmStatus»
    | 15 => some .«mmPduFunctionNotSupported»
    | _ => none
  raw := fun
    | .«dOtar» => 0
    | .«dAuthentication» => 1
    | .«dCkChangeDemand» => 2
    | .«dDisable» => 3
    | .«dEnable» => 4
    | .«dLocationUpdateAccept» => 5
    | .«dLocationUpdateCommand» => 6
    | .«dLocationUpdateReject» => 7
    | .«dLocationUpdateProceeding» => 9
    | .«dAttachDetachGroupIdentity» => 10
    | .«dAttachDetachGroupIdentityAcknowledgement» => 11
    | .«dMmStatus» => 12
    | .«mmPduFunctionNotSupported» => 15

/-- `MmPduTypeUl` (crates/tetra-pdus/src/mm/enums/mm_pdu_type_ul.rs:5-18). -/
inductive MmPduTypeUl where
  | «uAuthentication» | «uItsiDetach» | «uLocationUpdateDemand» | «uMmStatus» | «uCkChangeResult» | «uOtar» | «uInformationProvide»
  | «uAttachDetachGroupIdentity» | «uAttachDetachGroupIdentityAcknowledgement» | «uTeiProvide» | «uDisableStatus»
  | «mmPduFunctionNotSupported»
  deriving DecidableEq

/-- The numbers in the declaration (crates/tetra-pdus/src/mm/enums/mm_pdu_type_ul.rs:5), `try_from` and `into_raw` (lines 20 to 58); bits: the comment at line 2. -/
def MmPduTypeUl.coding : Coding where
  V := MmPduTypeUl
  bits := 4
  number := fun
    | .«uAuthentication» => 0
    | .«uItsiDetach» => 1
    | .«uLocationUpdateDemand» => 2
    | .«uMmStatus» => 3
    | .«uCkChangeResult» => 4
    | .«uOtar» => 5
    | .«uInformationProvide» => 6
    | .«uAttachDetachGroupIdentity» => 7
    | .«uAttachDetachGroupIdentityAcknowledgement» => 8
    | .«uTeiProvide» => 9
    | .«uDisableStatus» => 11
    | .«mmPduFunctionNotSupported» => 15
  tryFrom := fun
    | 0 => some .«uAuthentication»
    | 1 => some .«uItsiDetach»
    | 2 => some .«uLocationUpdateDemand»
    | 3 => some .«uMmStatus»
    | 4 => some .«uCkChangeResult»
    | 5 => some .«uOtar»
    | 6 => some .«uInformationProvide»
    | 7 => some .«uAttachDetachGroupIdentity»
    | 8 => some .«uAttachDetachGroupIdentityAcknowledgement»
    | 9 => some .«uTeiProvide»
    | 11 => some .«uDisableStatus»
    | 15 => some .«mmPduFunctionNotSupported»
    | _ => none
  raw := fun
    | .«uAuthentication» => 0
    | .«uItsiDetach» => 1
    | .«uLocationUpdateDemand» => 2
    | .«uMmStatus» => 3
    | .«uCkChangeResult» => 4
    | .«uOtar» => 5
    | .«uInformationProvide» => 6
    | .«uAttachDetachGroupIdentity» => 7
    | .«uAttachDetachGroupIdentityAcknowledgement» => 8
    | .«uTeiProvide» => 9
    | .«uDisableStatus» => 11
    | .«mmPduFunctionNotSupported» => 15

/-- `StatusDownlink` (crates/tetra-pdus/src/mm/enums/status_downlink.rs:5-54). -/
inductive StatusDownlink where
  | «changeOfEnergySavingModeRequest» | «changeOfEnergySavingModeResponse» | «dualWatchModeResponse»
  | «terminatingDualWatchModeResponse» | «changeOfDualWatchModeRequest» | «msFrequencyBandsRequest» | «periodicDistanceReporting»
  | «acceptanceToStartDmGatewayOperation» | «rejectionToStartDmGatewayOperation» | «acceptanceToContinueDmGatewayOperation»
  | «rejectionToContinueDmGatewayOperation» | «acceptanceToStopDmGatewayOperation» | «acceptanceOfDmMsAddresses»
  | «commandToRemoveDmMsAddresses» | «commandToChangeRegistrationLabel» | «commandToStopDmGatewayOperation»
  | «networkOrUserSpecific32» | «networkOrUserSpecific33» | «networkOrUserSpecific34» | «networkOrUserSpecific35»
  | «networkOrUserSpecific36» | «networkOrUserSpecific37» | «networkOrUserSpecific38» | «networkOrUserSpecific39»
  | «networkOrUserSpecific40» | «networkOrUserSpecific41» | «networkOrUserSpecific42» | «networkOrUserSpecific43»
  | «networkOrUserSpecific44» | «networkOrUserSpecific45» | «networkOrUserSpecific46» | «networkOrUserSpecific47»
  | «networkOrUserSpecific48» | «networkOrUserSpecific49» | «networkOrUserSpecific50» | «networkOrUserSpecific51»
  | «networkOrUserSpecific52» | «networkOrUserSpecific53» | «networkOrUserSpecific54» | «networkOrUserSpecific55»
  | «networkOrUserSpecific56» | «networkOrUserSpecific57» | «networkOrUserSpecific58» | «networkOrUserSpecific59»
  | «networkOrUserSpecific60» | «networkOrUserSpecific61» | «networkOrUserSpecific62» | «networkOrUserSpecific63»
  deriving DecidableEq

/-- The numbers in the declaration (crates/tetra-pdus/src/mm/enums/status_downlink.rs:5), `try_from` and `into_raw` (lines 56 to 166); bits: the comment at line 2. -/
def StatusDownlink.coding : Coding where
  V := StatusDownlink
  bits := 6
  number := fun
    | .«changeOfEnergySavingModeRequest» => 1
    | .«changeOfEnergySavingModeResponse» => 2
    | .«dualWatchModeResponse» => 3
    | .«terminatingDualWatchModeResponse» => 4
    | .«changeOfDualWatchModeRequest» => 5
    | .«msFrequencyBandsRequest» => 7
    | .«periodicDistanceReporting» => 8
    | .«acceptanceToStartDmGatewayOperation» => 16
    | .«rejectionToStartDmGatewayOperation» => 17
    | .«acceptanceToContinueDmGatewayOperation» => 18
    | .«rejectionToContinueDmGatewayOperation» => 19
    | .«acceptanceToStopDmGatewayOperation» => 20
    | .«acceptanceOfDmMsAddresses» => 21
    | .«commandToRemoveDmMsAddresses» => 22
    | .«commandToChangeRegistrationLabel» => 23
    | .«commandToStopDmGatewayOperation» => 24
    | .«networkOrUserSpecific32» => 32
    | .«networkOrUserSpecific33» => 33
    | .«networkOrUserSpecific34» => 34
    | .«networkOrUserSpecific35» => 35
    | .«networkOrUserSpecific36» => 36
    | .«networkOrUserSpecific37» => 37
    | .«networkOrUserSpecific38» => 38
    | .«networkOrUserSpecific39» => 39
    | .«networkOrUserSpecific40» => 40
    | .«networkOrUserSpecific41» => 41
    | .«networkOrUserSpecific42» => 42
    | .«networkOrUserSpecific43» => 43
    | .«networkOrUserSpecific44» => 44
    | .«networkOrUserSpecific45» => 45
    | .«networkOrUserSpecific46» => 46
    | .«networkOrUserSpecific47» => 47
    | .«networkOrUserSpecific48» => 48
    | .«networkOrUserSpecific49» => 49
    | .«networkOrUserSpecific50» => 50
    | .«networkOrUserSpecific51» => 51
    | .«networkOrUserSpecific52» => 52
    | .«networkOrUserSpecific53» => 53
    | .«networkOrUserSpecific54» => 54
    | .«networkOrUserSpecific55» => 55
    | .«networkOrUserSpecific56» => 56
    | .«networkOrUserSpecific57» => 57
    | .«networkOrUserSpecific58» => 58
    | .«networkOrUserSpecific59» => 59
    | .«networkOrUserSpecific60» => 60
    | .«networkOrUserSpecific61» => 61
    | .«networkOrUserSpecific62» => 62
    | .«networkOrUserSpecific63» => 63
  tryFrom := fun
    | 1 => some .«changeOfEnergySavingModeRequest»
    | 2 => some .«changeOfEnergySavingModeResponse»
    | 3 => some .«dualWatchModeResponse»
    | 4 => some .«terminatingDualWatchModeResponse»
    | 5 => some .«changeOfDualWatchModeRequest»
    | 7 => some .«msFrequencyBandsRequest»
    | 8 => some .«periodicDistanceReporting»
    | 16 => some .«acceptanceToStartDmGatewayOperation»
    | 17 => some .«rejectionToStartDmGatewayOperation»
    | 18 => some .«acceptanceToContinueDmGatewayOperation»
    | 19 => some .«rejectionToContinueDmGatewayOperation»
    | 20 => some .«acceptanceToStopDmGatewayOperation»
    | 21 => some .«acceptanceOfDmMsAddresses»
    | 22 => some .«commandToRemoveDmMsAddresses»
    | 23 => some .«commandToChangeRegistrationLabel»
    | 24 => some .«commandToStopDmGatewayOperation»
    | 32 => some .«networkOrUserSpecific32»
    | 33 => some .«networkOrUserSpecific33»
    | 34 => some .«networkOrUserSpecific34»
    | 35 => some .«networkOrUserSpecific35»
    | 36 => some .«networkOrUserSpecific36»
    | 37 => some .«networkOrUserSpecific37»
    | 38 => some .«networkOrUserSpecific38»
    | 39 => some .«networkOrUserSpecific39»
    | 40 => some .«networkOrUserSpecific40»
    | 41 => some .«networkOrUserSpecific41»
    | 42 => some .«networkOrUserSpecific42»
    | 43 => some .«networkOrUserSpecific43»
    | 44 => some .«networkOrUserSpecific44»
    | 45 => some .«networkOrUserSpecific45»
    | 46 => some .«networkOrUserSpecific46»
    | 47 => some .«networkOrUserSpecific47»
    | 48 => some .«networkOrUserSpecific48»
    | 49 => some .«networkOrUserSpecific49»
    | 50 => some .«networkOrUserSpecific50»
    | 51 => some .«networkOrUserSpecific51»
    | 52 => some .«networkOrUserSpecific52»
    | 53 => some .«networkOrUserSpecific53»
    | 54 => some .«networkOrUserSpecific54»
    | 55 => some .«networkOrUserSpecific55»
    | 56 => some .«networkOrUserSpecific56»
    | 57 => some .«networkOrUserSpecific57»
    | 58 => some .«networkOrUserSpecific58»
    | 59 => some .«networkOrUserSpecific59»
    | 60 => some .«networkOrUserSpecific60»
    | 61 => some .«networkOrUserSpecific61»
    | 62 => some .«networkOrUserSpecific62»
    | 63 => some .«networkOrUserSpecific63»
    | _ => none
  raw := fun
    | .«changeOfEnergySavingModeRequest» => 1
    | .«changeOfEnergySavingModeResponse» => 2
    | .«dualWatchModeResponse» => 3
    | .«terminatingDualWatchModeResponse» => 4
    | .«changeOfDualWatchModeRequest» => 5
    | .«msFrequencyBandsRequest» => 7
    | .«periodicDistanceReporting» => 8
    | .«acceptanceToStartDmGatewayOperation» => 16
    | .«rejectionToStartDmGatewayOperation» => 17
    | .«acceptanceToContinueDmGatewayOperation» => 18
    | .«rejectionToContinueDmGatewayOperation» => 19
    | .«acceptanceToStopDmGatewayOperation» => 20
    | .«acceptanceOfDmMsAddresses» => 21
    | .«commandToRemoveDmMsAddresses» => 22
    | .«commandToChangeRegistrationLabel» => 23
    | .«commandToStopDmGatewayOperation» => 24
    | .«networkOrUserSpecific32» => 32
    | .«networkOrUserSpecific33» => 33
    | .«networkOrUserSpecific34» => 34
    | .«networkOrUserSpecific35» => 35
    | .«networkOrUserSpecific36» => 36
    | .«networkOrUserSpecific37» => 37
    | .«networkOrUserSpecific38» => 38
    | .«networkOrUserSpecific39» => 39
    | .«networkOrUserSpecific40» => 40
    | .«networkOrUserSpecific41» => 41
    | .«networkOrUserSpecific42» => 42
    | .«networkOrUserSpecific43» => 43
    | .«networkOrUserSpecific44» => 44
    | .«networkOrUserSpecific45» => 45
    | .«networkOrUserSpecific46» => 46
    | .«networkOrUserSpecific47» => 47
    | .«networkOrUserSpecific48» => 48
    | .«networkOrUserSpecific49» => 49
    | .«networkOrUserSpecific50» => 50
    | .«networkOrUserSpecific51» => 51
    | .«networkOrUserSpecific52» => 52
    | .«networkOrUserSpecific53» => 53
    | .«networkOrUserSpecific54» => 54
    | .«networkOrUserSpecific55» => 55
    | .«networkOrUserSpecific56» => 56
    | .«networkOrUserSpecific57» => 57
    | .«networkOrUserSpecific58» => 58
    | .«networkOrUserSpecific59» => 59
    | .«networkOrUserSpecific60» => 60
    | .«networkOrUserSpecific61» => 61
    | .«networkOrUserSpecific62» => 62
    | .«networkOrUserSpecific63» => 63

/-- `StatusUplink` (crates/tetra-pdus/src/mm/enums/status_uplink.rs:5-54). -/
inductive StatusUplink where
  | «changeOfEnergySavingModeRequest» | «changeOfEnergySavingModeResponse» | «dualWatchModeRequest»
  | «terminatingDualWatchModeRequest» | «changeOfDualWatchModeResponse» | «startOfDirectModeOperation» | «msFrequencyBandsInformation»
  | «requestToStartDmGatewayOperation» | «requestToContinuedmGatewayOperation» | «requestToStopDmGatewayOperation»
  | «requestToAddDmMsAddresses» | «requestToRemoveDmMsAddresses» | «requestToReplaceDmMsAddresses»
  | «acceptanceToRemovalOfDmMsAddresses» | «acceptanceToChangeRegistrationLabel» | «acceptanceToStopDmGatewayOperation»
  | «networkOrUserSpecific32» | «networkOrUserSpecific33» | «networkOrUserSpecific34» | «networkOrUserSpecific35»
  | «networkOrUserSpecific36» | «networkOrUserSpecific37» | «networkOrUserSpecific38» | «networkOrUserSpecific39»
  | «networkOrUserSpecific40» | «networkOrUserSpecific41» | «networkOrUserSpecific42» | «networkOrUserSpecific43»
  | «networkOrUserSpecific44» | «networkOrUserSpecific45» | «networkOrUserSpecific46» | «networkOrUserSpecific47»
  | «networkOrUserSpecific48» | «networkOrUserSpecific49» | «networkOrUserSpecific50» | «networkOrUserSpecific51»
  | «networkOrUserSpecific52» | «networkOrUserSpecific53» | «networkOrUserSpecific54» | «networkOrUserSpecific55»
  | «networkOrUserSpecific56» | «networkOrUserSpecific57» | «networkOrUserSpecific58» | «networkOrUserSpecific59»
  | «networkOrUserSpecific60» | «networkOrUserSpecific61» | «networkOrUserSpecific62» | «networkOrUserSpecific63»
  deriving DecidableEq

/-- The numbers in the declaration (crates/tetra-pdus/src/mm/enums/status_uplink.rs:5), `try_from` and `into_raw` (lines 56 to 166); bits: the comment at line 2. -/
def StatusUplink.coding : Coding where
  V := StatusUplink
  bits := 6
  number := fun
    | .«changeOfEnergySavingModeRequest» => 1
    | .«changeOfEnergySavingModeResponse» => 2
    | .«dualWatchModeRequest» => 3
    | .«terminatingDualWatchModeRequest» => 4
    | .«changeOfDualWatchModeResponse» => 5
    | .«startOfDirectModeOperation» => 6
    | .«msFrequencyBandsInformation» => 7
    | .«requestToStartDmGatewayOperation» => 16
    | .«requestToContinuedmGatewayOperation» => 17
    | .«requestToStopDmGatewayOperation» => 18
    | .«requestToAddDmMsAddresses» => 19
    | .«requestToRemoveDmMsAddresses» => 20
    | .«requestToReplaceDmMsAddresses» => 21
    | .«acceptanceToRemovalOfDmMsAddresses» => 22
    | .«acceptanceToChangeRegistrationLabel» => 23
    | .«acceptanceToStopDmGatewayOperation» => 24
    | .«networkOrUserSpecific32» => 32
    | .«networkOrUserSpecific33» => 33
    | .«networkOrUserSpecific34» => 34
    | .«networkOrUserSpecific35» => 35
    | .«networkOrUserSpecific36» => 36
    | .«networkOrUserSpecific37» => 37
    | .«networkOrUserSpecific38» => 38
    | .«networkOrUserSpecific39» => 39
    | .«networkOrUserSpecific40» => 40
    | .«networkOrUserSpecific41» => 41
    | .«networkOrUserSpecific42» => 42
    | .«networkOrUserSpecific43» => 43
    | .«networkOrUserSpecific44» => 44
    | .«networkOrUserSpecific45» => 45
    | .«networkOrUserSpecific46» => 46
    | .«networkOrUserSpecific47» => 47
    | .«networkOrUserSpecific48» => 48
    | .«networkOrUserSpecific49» => 49
    | .«networkOrUserSpecific50» => 50
    | .«networkOrUserSpecific51» => 51
    | .«networkOrUserSpecific52» => 52
    | .«networkOrUserSpecific53» => 53
    | .«networkOrUserSpecific54» => 54
    | .«networkOrUserSpecific55» => 55
    | .«networkOrUserSpecific56» => 56
    | .«networkOrUserSpecific57» => 57
    | .«networkOrUserSpecific58» => 58
    | .«networkOrUserSpecific59» => 59
    | .«networkOrUserSpecific60» => 60
    | .«networkOrUserSpecific61» => 61
    | .«networkOrUserSpecific62» => 62
    | .«networkOrUserSpecific63» => 63
  tryFrom := fun
    | 1 => some .«changeOfEnergySavingModeRequest»
    | 2 => some .«changeOfEnergySavingModeResponse»
    | 3 => some .«dualWatchModeRequest»
    | 4 => some .«terminatingDualWatchModeRequest»
    | 5 => some .«changeOfDualWatchModeResponse»
    | 6 => some .«startOfDirectModeOperation»
    | 7 => some .«msFrequencyBandsInformation»
    | 16 => some .«requestToStartDmGatewayOperation»
    | 17 => some .«requestToContinuedmGatewayOperation»
    | 18 => some .«requestToStopDmGatewayOperation»
    | 19 => some .«requestToAddDmMsAddresses»
    | 20 => some .«requestToRemoveDmMsAddresses»
    | 21 => some .«requestToReplaceDmMsAddresses»
    | 22 => some .«acceptanceToRemovalOfDmMsAddresses»
    | 23 => some .«acceptanceToChangeRegistrationLabel»
    | 24 => some .«acceptanceToStopDmGatewayOperation»
    | 32 => some .«networkOrUserSpecific32»
    | 33 => some .«networkOrUserSpecific33»
    | 34 => some .«networkOrUserSpecific34»
    | 35 => some .«networkOrUserSpecific35»
    | 36 => some .«networkOrUserSpecific36»
    | 37 => some .«networkOrUserSpecific37»
    | 38 => some .«networkOrUserSpecific38»
    | 39 => some .«networkOrUserSpecific39»
    | 40 => some .«networkOrUserSpecific40»
    | 41 => some .«networkOrUserSpecific41»
    | 42 => some .«networkOrUserSpecific42»
    | 43 => some .«networkOrUserSpecific43»
    | 44 => some .«networkOrUserSpecific44»
    | 45 => some .«networkOrUserSpecific45»
    | 46 => some .«networkOrUserSpecific46»
    | 47 => some .«networkOrUserSpecific47»
    | 48 => some .«networkOrUserSpecific48»
    | 49 => some .«networkOrUserSpecific49»
    | 50 => some .«networkOrUserSpecific50»
    | 51 => some .«networkOrUserSpecific51»
    | 52 => some .«networkOrUserSpecific52»
    | 53 => some .«networkOrUserSpecific53»
    | 54 => some .«networkOrUserSpecific54»
    | 55 => some .«networkOrUserSpecific55»
    | 56 => some .«networkOrUserSpecific56»
    | 57 => some .«networkOrUserSpecific57»
    | 58 => some .«networkOrUserSpecific58»
    | 59 => some .«networkOrUserSpecific59»
    | 60 => some .«networkOrUserSpecific60»
    | 61 => some .«networkOrUserSpecific61»
    | 62 => some .«networkOrUserSpecific62»
    | 63 => some .«networkOrUserSpecific63»
    | _ => none
  raw := fun
    | .«changeOfEnergySavingModeRequest» => 1
    | .«changeOfEnergySavingModeResponse» => 2
    | .«dualWatchModeRequest» => 3
    | .«terminatingDualWatchModeRequest» => 4
    | .«changeOfDualWatchModeResponse» => 5
    | .«startOfDirectModeOperation» => 6
    | .«msFrequencyBandsInformation» => 7
    | .«requestToStartDmGatewayOperation» => 16
    | .«requestToContinuedmGatewayOperation» => 17
    | .«requestToStopDmGatewayOperation» => 18
    | .«requestToAddDmMsAddresses» => 19
    | .«requestToRemoveDmMsAddresses» => 20
    | .«requestToReplaceDmMsAddresses» => 21
    | .«acceptanceToRemovalOfDmMsAddresses» => 22
    | .«acceptanceToChangeRegistrationLabel» => 23
    | .«acceptanceToStopDmGatewayOperation» => 24
    | .«networkOrUserSpecific32» => 32
    | .«networkOrUserSpecific33» => 33
    | .«networkOrUserSpecific34» => 34
    | .«networkOrUserSpecific35» => 35
    | .«networkOrUserSpecific36» => 36
    | .«networkOrUserSpecific37» => 37
    | .«networkOrUserSpecific38» => 38
    | .«networkOrUserSpecific39» => 39
    | .«networkOrUserSpecific40» => 40
    | .«networkOrUserSpecific41» => 41
    | .«networkOrUserSpecific42» => 42
    | .«networkOrUserSpecific43» => 43
    | .«networkOrUserSpecific44» => 44
    | .«networkOrUserSpecific45» => 45
    | .«networkOrUserSpecific46» => 46
    | .«networkOrUserSpecific47» => 47
    | .«networkOrUserSpecific48» => 48
    | .«networkOrUserSpecific49» => 49
    | .«networkOrUserSpecific50» => 50
    | .«networkOrUserSpecific51» => 51
    | .«networkOrUserSpecific52» => 52
    | .«networkOrUserSpecific53» => 53
    | .«networkOrUserSpecific54» => 54
    | .«networkOrUserSpecific55» => 55
    | .«networkOrUserSpecific56» => 56
    | .«networkOrUserSpecific57» => 57
    | .«networkOrUserSpecific58» => 58
    | .«networkOrUserSpecific59» => 59
    | .«networkOrUserSpecific60» => 60
    | .«networkOrUserSpecific61» => 61
    | .«networkOrUserSpecific62» => 62
    | .«networkOrUserSpecific63» => 63

/-- `MmType34ElemIdDl` (crates/tetra-pdus/src/mm/enums/type34_elem_id_dl.rs:5-17). -/
inductive MmType34ElemIdDl where
  | «defaultGroupAttachLifetime» | «newRegisteredArea» | «securityDownlink» | «groupReportResponse» | «groupIdentityLocationAccept»
  | «dmMsAddress» | «groupIdentityDownlink» | «authenticationDownlink» | «groupIdentitySecurityRelatedInformation» | «cellTypeControl»
  | «proprietary»
  deriving DecidableEq

/-- The numbers in the declaration (crates/tetra-pdus/src/mm/enums/type34_elem_id_dl.rs:5), `try_from` and `into_raw` (lines 19 to 55); bits: as written (crates/tetra-core/src/typed_pdu_fields.rs:313); the comment of the enum says 3. -/
def MmType34ElemIdDl.coding : Coding where
  V := MmType34ElemIdDl
  bits := 4
  number := fun
    | .«defaultGroupAttachLifetime» => 1
    | .«newRegisteredArea» => 2
    | .«securityDownlink» => 3
    | .«groupReportResponse» => 4
    | .«groupIdentityLocationAccept» => 5
    | .«dmMsAddress» => 6
    | .«groupIdentityDownlink» => 7
    | .«authenticationDownlink» => 10
    | .«groupIdentitySecurityRelatedInformation» => 12
    | .«cellTypeControl» => 13
    | .«proprietary» => 15
  tryFrom := fun
    | 1 => some .«defaultGroupAttachLifetime»
    | 2 => some .«newRegisteredArea»
    | 3 => some .«securityDownlink»
    | 4 => some .«groupReportResponse»
    | 5 => some .«groupIdentityLocationAccept»
    | 6 => some .«dmMsAddress»
    | 7 => some .«groupIdentityDownlink»
    | 10 => some .«authenticationDownlink»
    | 12 => some .«groupIdentitySecurityRelatedInformation»
    | 13 => some .«cellTypeControl»
    | 15 => some .«proprietary»
    | _ => none
  raw := fun
    | .«defaultGroupAttachLifetime» => 1
    | .«newRegisteredArea» => 2
    | .«securityDownlink» => 3
    | .«groupReportResponse» => 4
    | .«groupIdentityLocationAccept» => 5
    | .«dmMsAddress» => 6
    | .«groupIdentityDownlink» => 7
    | .«authenticationDownlink» => 10
    | .«groupIdentitySecurityRelatedInformation» => 12
    | .«cellTypeControl» => 13
    | .«proprietary» => 15

/-- `MmType34ElemIdUl` (crates/tetra-pdus/src/mm/enums/type34_elem_id_ul.rs:5-13). -/
inductive MmType34ElemIdUl where
  | «groupIdentityLocationDemand» | «groupReportResponse» | «dmMsAddress» | «groupIdentityUplink» | «authenticationUplink»
  | «extendedCapabilities» | «proprietary»
  deriving DecidableEq

/-- The numbers in the declaration (crates/tetra-pdus/src/mm/enums/type34_elem_id_ul.rs:5), `try_from` and `into_raw` (lines 15 to 43); bits: as written (crates/tetra-core/src/typed_pdu_fields.rs:313); the comment of the enum says 3. -/
def MmType34ElemIdUl.coding : Coding where
  V := MmType34ElemIdUl
  bits := 4
  number := fun
    | .«groupIdentityLocationDemand» => 3
    | .«groupReportResponse» => 4
    | .«dmMsAddress» => 6
    | .«groupIdentityUplink» => 8
    | .«authenticationUplink» => 9
    | .«extendedCapabilities» => 11
    | .«proprietary» => 15
  tryFrom := fun
    | 3 => some .«groupIdentityLocationDemand»
    | 4 => some .«groupReportResponse»
    | 6 => some .«dmMsAddress»
    | 8 => some .«groupIdentityUplink»
    | 9 => some .«authenticationUplink»
    | 11 => some .«extendedCapabilities»
    | 15 => some .«proprietary»
    | _ => none
  raw := fun
    | .«groupIdentityLocationDemand» => 3
    | .«groupReportResponse» => 4
    | .«dmMsAddress» => 6
    | .«groupIdentityUplink» => 8
    | .«authenticationUplink» => 9
    | .«extendedCapabilities» => 11
    | .«proprietary» => 15

/-- `BasicSlotgrantCapAlloc` (crates/tetra-pdus/src/umac/enums/basic_slotgrant_cap_alloc.rs:5-22). -/
inductive BasicSlotgrantCapAlloc where
  | «firstSubslotGranted» | «grant1Slot» | «grant2Slots» | «grant3Slots» | «grant4Slots» | «grant5Slots» | «grant6Slots»
  | «grant8Slots» | «grant10Slots» | «grant13Slots» | «grant17Slots» | «grant24Slots» | «grant34Slots» | «grant51Slots»
  | «grant68Slots» | «secondSubslotGranted»
  deriving DecidableEq

/-- The numbers in the declaration (crates/tetra-pdus/src/umac/enums/basic_slotgrant_cap_alloc.rs:5), `try_from` and `into_raw` (lines 24 to 70); bits: the comment at line 2. -/
def BasicSlotgrantCapAlloc.coding : Coding where
  V := BasicSlotgrantCapAlloc
  bits := 4
  number := fun
    | .«firstSubslotGranted» => 0
    | .«grant1Slot» => 1
    | .«grant2Slots» => 2
    | .«grant3Slots» => 3
    | .«grant4Slots» => 4
    | .«grant5Slots» => 5
    | .«grant6Slots» => 6
    | .«grant8Slots» => 7
    | .«grant10Slots» => 8
    | .«grant13Slots» => 9
    | .«grant17Slots» => 10
    | .«grant24Slots» => 11
    | .«grant34Slots» => 12
    | .«grant51Slots» => 13
    | .«grant68Slots» => 14
    | .«secondSubslotGranted» => 15
  tryFrom := fun
    | 0 => some .«firstSubslotGranted»
    | 1 => some .«grant1Slot»
    | 2 => some .«grant2Slots»
    | 3 => some .«grant3Slots»
    | 4 => some .«grant4Slots»
    | 5 => some .«grant5Slots»
    | 6 => some .«grant6Slots»
    | 7 => some .«grant8Slots»
    | 8 => some .«grant10Slots»
    | 9 => some .«grant13Slots»
    | 10 => some .«grant17Slots»
    | 11 => some .«grant24Slots»
    | 12 => some .«grant34Slots»
    | 13 => some .«grant51Slots»
    | 14 => some .«grant68Slots»
    | 15 => some .«secondSubslotGranted»
    | _ => none
  raw := fun
    | .«firstSubslotGranted» => 0
    | .«grant1Slot» => 1
    | .«grant2Slots» => 2
    | .«grant3Slots» => 3
    | .«grant4Slots» => 4
    | .«grant5Slots» => 5
    | .«grant6Slots» => 6
    | .«grant8Slots» => 7
    | .«grant10Slots» => 8
    | .«grant13Slots» => 9
    | .«grant17Slots» => 10
    | .«grant24Slots» => 11
    | .«grant34Slots» => 12
    | .«grant51Slots» => 13
    | .«grant68Slots» => 14
    | .«secondSubslotGranted» => 15

/-- `BroadcastType` (crates/tetra-pdus/src/umac/enums/broadcast_type.rs:5-12). -/
inductive BroadcastType where
  | «sysinfo» | «accessDefine» | «sysinfoDa»
  deriving DecidableEq

/-- The numbers in the declaration (crates/tetra-pdus/src/umac/enums/broadcast_type.rs:5), `try_from` and `into_raw` (lines 14 to 34); bits: the comment at line 2. -/
def BroadcastType.coding : Coding where
  V := BroadcastType
  bits := 2
  number := fun
    | .«sysinfo» => 0
    | .«accessDefine» => 1
    | .«sysinfoDa» => 2
  tryFrom := fun
    | 0 => some .«sysinfo»
    | 1 => some .«accessDefine»
    | 2 => some .«sysinfoDa»
    | _ => none
  raw := fun
    | .«sysinfo» => 0
    | .«accessDefine» => 1
    | .«sysinfoDa» => 2

/-- `MacPduType` (crates/tetra-pdus/src/umac/enums/mac_pdu_type.rs:5-14). -/
inductive MacPduType where
  | «macResourceMacData» | «macFragMacEnd» | «broadcast» | «suppMacUSignal»
  deriving DecidableEq

/-- The numbers in the declaration (crates/tetra-pdus/src/umac/enums/mac_pdu_type.rs:5), `try_from` and `into_raw` (lines 16 to 38); bits: the comment at line 2. -/
def MacPduType.coding : Coding where
  V := MacPduType
  bits := 2
  number := fun
    | .«macResourceMacData» => 0
    | .«macFragMacEnd» => 1
    | .«broadcast» => 2
    | .«suppMacUSignal» => 3
  tryFrom := fun
    | 0 => some .«macResourceMacData»
    | 1 => some .«macFragMacEnd»
    | 2 => some .«broadcast»
    | 3 => some .«suppMacUSignal»
    | _ => none
  raw := fun
    | .«macResourceMacData» => 0
    | .«macFragMacEnd» => 1
    | .«broadcast» => 2
    | .«suppMacUSignal» => 3

/-- `MacResourceAddrType` (crates/tetra-pdus/src/umac/enums/mac_resource_addr_type.rs:5-14). -/
inductive MacResourceAddrType where
  | «nullPdu» | «ssi» | «eventLabel» | «ussi» | «smi» | «ssiAndEventLabel» | «ssiAndUsageMarker» | «smiAndEventLabel»
  deriving DecidableEq

/-- The numbers in the declaration (crates/tetra-pdus/src/umac/enums/mac_resource_addr_type.rs:5), `try_from` and `into_raw` (lines 16 to 46); bits: the comment at line 2. -/
def MacResourceAddrType.coding : Coding where
  V := MacResourceAddrType
  bits := 3
  number := fun
    | .«nullPdu» => 0
    | .«ssi» => 1
    | .«eventLabel» => 2
    | .«ussi» => 3
    | .«smi» => 4
    | .«ssiAndEventLabel» => 5
    | .«ssiAndUsageMarker» => 6
    | .«smiAndEventLabel» => 7
  tryFrom := fun
    | 0 => some .«nullPdu»
    | 1 => some .«ssi»
    | 2 => some .«eventLabel»
    | 3 => some .«ussi»
    | 4 => some .«smi»
    | 5 => some .«ssiAndEventLabel»
    | 6 => some .«ssiAndUsageMarker»
    | 7 => some .«smiAndEventLabel»
    | _ => none
  raw := fun
    | .«nullPdu» => 0
    | .«ssi» => 1
    | .«eventLabel» => 2
    | .«ussi» => 3
    | .«smi» => 4
    | .«ssiAndEventLabel» => 5
    | .«ssiAndUsageMarker» => 6
    | .«smiAndEventLabel» => 7

/-- `ReservationRequirement` (crates/tetra-pdus/src/umac/enums/reservation_requirement.rs:12-32). -/
inductive ReservationRequirement where
  | «req1Subslot» | «req1Slot» | «req2Slots» | «req3Slots» | «req4Slots» | «req5Slots» | «req6Slots» | «req8Slots» | «req10Slots»
  | «req13Slots» | «req17Slots» | «req24Slots» | «req34Slots» | «req51Slots» | «req68Slots» | «reqOver68»
  deriving DecidableEq

/-- The numbers in the declaration (crates/tetra-pdus/src/umac/enums/reservation_requirement.rs:12), `try_from` and `into_raw` (lines 34 to 80); bits: the comment at line 2. -/
def ReservationRequirement.coding : Coding where
  V := ReservationRequirement
  bits := 4
  number := fun
    | .«req1Subslot» => 0
    | .«req1Slot» => 1
    | .«req2Slots» => 2
    | .«req3Slots» => 3
    | .«req4Slots» => 4
    | .«req5Slots» => 5
    | .«req6Slots» => 6
    | .«req8Slots» => 7
    | .«req10Slots» => 8
    | .«req13Slots» => 9
    | .«req17Slots» => 10
    | .«req24Slots» => 11
    | .«req34Slots» => 12
    | .«req51Slots» => 13
    | .«req68Slots» => 14
    | .«reqOver68» => 15
  tryFrom := fun
    | 0 => some .«req1Subslot»
    | 1 => some .«req1Slot»
    | 2 => some .«req2Slots»
    | 3 => some .«req3Slots»
    | 4 => some .«req4Slots»
    | 5 => some .«req5Slots»
    | 6 => some .«req6Slots»
    | 7 => some .«req8Slots»
    | 8 => some .«req10Slots»
    | 9 => some .«req13Slots»
    | 10 => some .«req17Slots»
    | 11 => some .«req24Slots»
    | 12 => some .«req34Slots»
    | 13 => some .«req51Slots»
    | 14 => some .«req68Slots»
    | 15 => some .«reqOver68»
    | _ => none
  raw := fun
    | .«req1Subslot» => 0
    | .«req1Slot» => 1
    | .«req2Slots» => 2
    | .«req3Slots» => 3
    | .«req4Slots» => 4
    | .«req5Slots» => 5
    | .«req6Slots» => 6
    | .«req8Slots» => 7
    | .«req10Slots» => 8
    | .«req13Slots» => 9
    | .«req17Slots» => 10
    | .«req24Slots» => 11
    | .«req34Slots» => 12
    | .«req51Slots» => 13
    | .«req68Slots» => 14
    | .«reqOver68» => 15

/-- `SysinfoOptFieldFlag` (crates/tetra-pdus/src/umac/enums/sysinfo_opt_field_flag.rs:5-14). -/
inductive SysinfoOptFieldFlag where
  | «evenMfDefForTsMode» | «oddMfDefForTsMode» | «defaultDefForAccCodeA» | «extServicesBroadcast»
  deriving DecidableEq

/-- The numbers in the declaration (crates/tetra-pdus/src/umac/enums/sysinfo_opt_field_flag.rs:5), `try_from` and `into_raw` (lines 16 to 38); bits: the comment at line 2. -/
def SysinfoOptFieldFlag.coding : Coding where
  V := SysinfoOptFieldFlag
  bits := 2
  number := fun
    | .«evenMfDefForTsMode» => 0
    | .«oddMfDefForTsMode» => 1
    | .«defaultDefForAccCodeA» => 2
    | .«extServicesBroadcast» => 3
  tryFrom := fun
    | 0 => some .«evenMfDefForTsMode»
    | 1 => some .«oddMfDefForTsMode»
    | 2 => some .«defaultDefForAccCodeA»
    | 3 => some .«extServicesBroadcast»
    | _ => none
  raw := fun
    | .«evenMfDefForTsMode» => 0
    | .«oddMfDefForTsMode» => 1
    | .«defaultDefForAccCodeA» => 2
    | .«extServicesBroadcast» => 3

/-- `CircuitModeType` (crates/tetra-saps/src/control/enums/circuit_mode_type.rs:5-22). -/
inductive CircuitModeType where
  | «tchS» | «tch72» | «tch48n1» | «tch48n4» | «tch48n8» | «tch24n1» | «tch24n4» | «tch24n8»
  deriving DecidableEq

/-- The numbers in the declaration (crates/tetra-saps/src/control/enums/circuit_mode_type.rs:5), `try_from` and `into_raw` (lines 24 to 54); bits: the comment at line 2. -/
def CircuitModeType.coding : Coding where
  V := CircuitModeType
  bits := 3
  number := fun
    | .«tchS» => 0
    | .«tch72» => 1
    | .«tch48n1» => 2
    | .«tch48n4» => 3
    | .«tch48n8» => 4
    | .«tch24n1» => 5
    | .«tch24n4» => 6
    | .«tch24n8» => 7
  tryFrom := fun
    | 0 => some .«tchS»
    | 1 => some .«tch72»
    | 2 => some .«tch48n1»
    | 3 => some .«tch48n4»
    | 4 => some .«tch48n8»
    | 5 => some .«tch24n1»
    | 6 => some .«tch24n4»
    | 7 => some .«tch24n8»
    | _ => none
  raw := fun
    | .«tchS» => 0
    | .«tch72» => 1
    | .«tch48n1» => 2
    | .«tch48n4» => 3
    | .«tch48n8» => 4
    | .«tch24n1» => 5
    | .«tch24n4» => 6
    | .«tch24n8» => 7

/-- `CommunicationType` (crates/tetra-saps/src/control/enums/communication_type.rs:5-14). -/
inductive CommunicationType where
  | «p2p» | «p2Mp» | «p2MpAcked» | «broadcast»
  deriving DecidableEq

/-- The numbers in the declaration (crates/tetra-saps/src/control/enums/communication_type.rs:5), `try_from` and `into_raw` (lines 16 to 38); bits: the comment at line 2. -/
def CommunicationType.coding : Coding where
  V := CommunicationType
  bits := 2
  number := fun
    | .«p2p» => 0
    | .«p2Mp» => 1
    | .«p2MpAcked» => 2
    | .«broadcast» => 3
  tryFrom := fun
    | 0 => some .«p2p»
    | 1 => some .«p2Mp»
    | 2 => some .«p2MpAcked»
    | 3 => some .«broadcast»
    | _ => none
  raw := fun
    | .«p2p» => 0
    | .«p2Mp» => 1
    | .«p2MpAcked» => 2
    | .«broadcast» => 3

/-- `ChanAllocType` (crates/tetra-saps/src/lcmc/enums/alloc_type.rs:5-11). -/
inductive ChanAllocType where
  | «replace» | «additional» | «quitAndGo» | «replaceWithCarrierSignalling»
  deriving DecidableEq

/-- The numbers in the declaration (crates/tetra-saps/src/lcmc/enums/alloc_type.rs:5), `try_from` and `into_raw` (lines 13 to 35); bits: the comment at line 2. -/
def ChanAllocType.coding : Coding where
  V := ChanAllocType
  bits := 2
  number := fun
    | .«replace» => 0
    | .«additional» => 1
    | .«quitAndGo» => 2
    | .«replaceWithCarrierSignalling» => 3
  tryFrom := fun
    | 0 => some .«replace»
    | 1 => some .«additional»
    | 2 => some .«quitAndGo»
    | 3 => some .«replaceWithCarrierSignalling»
    | _ => none
  raw := fun
    | .«replace» => 0
    | .«additional» => 1
    | .«quitAndGo» => 2
    | .«replaceWithCarrierSignalling» => 3

/-- `UlDlAssignment` (crates/tetra-saps/src/lcmc/enums/ul_dl_assignment.rs:5-10). -/
inductive UlDlAssignment where
  | «augmented» | «dl» | «ul» | «both»
  deriving DecidableEq

/-- The numbers in the declaration (crates/tetra-saps/src/lcmc/enums/ul_dl_assignment.rs:5), `try_from` and `into_raw` (lines 12 to 34); bits: the comment at line 2. -/
def UlDlAssignment.coding : Coding where
  V := UlDlAssignment
  bits := 2
  number := fun
    | .«augmented» => 0
    | .«dl» => 1
    | .«ul» => 2
    | .«both» => 3
  tryFrom := fun
    | 0 => some .«augmented»
    | 1 => some .«dl»
    | 2 => some .«ul»
    | 3 => some .«both»
    | _ => none
  raw := fun
    | .«augmented» => 0
    | .«dl» => 1
    | .«ul» => 2
    | .«both» => 3

/-- `BasicSlotgrantGrantingDelay` (crates/tetra-pdus/src/umac/enums/basic_slotgrant_granting_delay.rs:5-11). -/
inductive Delay where
  | atNext | opportunities (n : Nat) | inFrame18 | wait
  deriving DecidableEq

/-- `try_from` (basic_slotgrant_granting_delay.rs:13-24). -/
def Delay.tryFrom (x : Nat) : Option Delay :=
  if x = 0 then some .atNext else if 1 ≤ x ∧ x ≤ 13 then some (.opportunities x) else if x = 14 then some .inFrame18
  else if x = 15 then some .wait else none

/-- `into_raw` (basic_slotgrant_granting_delay.rs:26-36). -/
def Delay.raw : Delay → Nat
  | .atNext => 0
  | .opportunities n => n
  | .inFrame18 => 14
  | .wait => 15

/-- All of them but the granting delay. -/
def all : List Coding := [CallStatus.coding, CallTimeout.coding, CallTimeoutSetupPhase.coding, CmcePduTypeDl.coding, CmcePduTypeUl.coding,
  DisconnectCause.coding, PartyTypeIdentifier.coding, SdsProtocolId.coding, ShortReportType.coding, TransmissionGrant.coding,
  CmceType3ElemId.coding, LlcPduType.coding, MlePduTypeDl.coding, MlePduTypeUl.coding, MleProtocolDiscriminator.coding,
  EnergySavingMode.coding, LocationUpdateAcceptType.coding, LocationUpdateType.coding, MmPduTypeDl.coding, MmPduTypeUl.coding,
  StatusDownlink.coding, StatusUplink.coding, MmType34ElemIdDl.coding, MmType34ElemIdUl.coding, BasicSlotgrantCapAlloc.coding,
  BroadcastType.coding, MacPduType.coding, MacResourceAddrType.coding, ReservationRequirement.coding, SysinfoOptFieldFlag.coding,
  CircuitModeType.coding, CommunicationType.coding, ChanAllocType.coding, UlDlAssignment.coding]

end Verif.Enums
