import Verif.Codec
/-!
# Broadcast PDUs of the MLE: model of `crates/tetra-pdus/src/mle/pdus/d_mle_sync.rs`,
`d_mle_sysinfo.rs` and `mle/fields/bs_service_details.rs`
-/
namespace Verif.Mle
open Verif.Bits Verif.Codec

/-- `DMleSync` (d_mle_sync.rs:6-17). -/
structure DMleSync where
  mcc : Nat
  mnc : Nat
  neighborCellBroadcast : Nat
  cellLoadCa : Nat
  lateEntry : Bool
  deriving DecidableEq, Repr

/-- `DMleSync::to_bitbuf` (d_mle_sync.rs:37-43). -/
def DMleSync.enc (x : DMleSync) : Out (List Bool) :=
  cat [wBits x.mcc 10, wBits x.mnc 14, wBits x.neighborCellBroadcast 2, wBits x.cellLoadCa 2, wFlag x.lateEntry]

/-- `DMleSync::from_bitbuf` (d_mle_sync.rs:20-35). -/
def DMleSync.dec : Rd DMleSync := do
  let mcc ← Rd.bits 10
  let mnc ← Rd.bits 14
  let ncb ← Rd.bits 2
  let load ← Rd.bits 2
  let late ← Rd.flag
  pure ⟨mcc, mnc, ncb, load, late⟩

/-- `BsServiceDetails` (bs_service_details.rs:7-32). -/
structure BsServiceDetails where
  registration : Bool
  deregistration : Bool
  priorityCell : Bool
  noMinimumMode : Bool
  migration : Bool
  systemWideServices : Bool
  voiceService : Bool
  circuitModeData : Bool
  sndcpService : Bool
  aieService : Bool
  advancedLink : Bool
  deriving DecidableEq, Repr

/-- `BsServiceDetails::to_bitbuf` (bs_service_details.rs:66-79). -/
def BsServiceDetails.enc (x : BsServiceDetails) : Out (List Bool) :=
  cat [wFlag x.registration, wFlag x.deregistration, wFlag x.priorityCell, wFlag x.noMinimumMode, wFlag x.migration,
    wFlag x.systemWideServices, wFlag x.voiceService, wFlag x.circuitModeData, wBits 0 1, wFlag x.sndcpService,
    wFlag x.aieService, wFlag x.advancedLink]

/-- `BsServiceDetails::from_bitbuf` (bs_service_details.rs:35-64); a set reserved bit is only warned about. -/
def BsServiceDetails.dec : Rd BsServiceDetails := do
  let a ← Rd.flag
  let b ← Rd.flag
  let c ← Rd.flag
  let d ← Rd.flag
  let e ← Rd.flag
  let f ← Rd.flag
  let g ← Rd.flag
  let h ← Rd.flag
  let _ ← Rd.bits 1
  let i ← Rd.flag
  let j ← Rd.flag
  let k ← Rd.flag
  pure ⟨a, b, c, d, e, f, g, h, i, j, k⟩

/-- `DMleSysinfo` (d_mle_sysinfo.rs:8-15). -/
structure DMleSysinfo where
  locationArea : Nat
  subscriberClass : Nat
  services : BsServiceDetails
  deriving DecidableEq, Repr

/-- `DMleSysinfo::to_bitbuf` (d_mle_sysinfo.rs:33-38). -/
def DMleSysinfo.enc (x : DMleSysinfo) : Out (List Bool) :=
  cat [wBits x.locationArea 14, wBits x.subscriberClass 16, x.services.enc]

/-- `DMleSysinfo::from_bitbuf` (d_mle_sysinfo.rs:18-31). -/
def DMleSysinfo.dec : Rd DMleSysinfo := do
  let la ← Rd.bits 14
  let sc ← Rd.bits 16
  let s ← BsServiceDetails.dec
  pure ⟨la, sc, s⟩

end Verif.Mle
