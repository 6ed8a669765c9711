import Verif.Umac.Sched
/-!
# The broadcast PDUs of a cell: model of `generate_precomps` in `crates/tetra-entities/src/umac/umac_bs.rs`
-/
namespace Verif.Umac
open Verif.Mle

/-- The configuration values broadcast (tetra-config `CfgNetInfo`, `CfgCellInfo`). `freqOffset` is the index
`FreqInfo::freq_offset_hz_to_id` gives, property C14. `services.systemWideServices` is the value of
`get_system_wide_services_state` (umac_bs.rs:211-218). -/
structure CellCfg where
  mcc : Nat
  mnc : Nat
  systemCode : Nat
  colourCode : Nat
  sharingMode : Nat
  tsReserved : Nat
  uPlaneDtx : Bool
  frame18Ext : Bool
  lateEntry : Bool
  mainCarrier : Nat
  freqBand : Nat
  freqOffset : Nat
  duplexSpacing : Nat
  reverse : Bool
  locationArea : Nat
  subscriberClass : Nat
  services : BsServiceDetails
  deriving DecidableEq, Repr

/-- `generate_precomps` (umac_bs.rs:96-207). -/
def Precomps.generate (c : CellCfg) : Precomps where
  macSysinfo1 := ⟨c.mainCarrier, c.freqBand, c.freqOffset, c.duplexSpacing, c.reverse, 0, 5, 3, 7, 3, none, some 0, 2,
    none, some ⟨8, 5, 5, false, 0, 0⟩, none⟩
  macSysinfo2 := ⟨c.mainCarrier, c.freqBand, c.freqOffset, c.duplexSpacing, c.reverse, 0, 5, 3, 7, 3, none, some 0, 3,
    none, none, some ⟨false, true, true, false, some 0, none, none, none, none, 2, false, 0, 0⟩⟩
  mleSysinfo := ⟨c.locationArea, c.subscriberClass, c.services⟩
  macSync := ⟨c.systemCode, c.colourCode, 1, 1, 1, c.sharingMode, c.tsReserved, c.uPlaneDtx, c.frame18Ext⟩
  mleSync := ⟨c.mcc, c.mnc, 2, 0, c.lateEntry⟩

end Verif.Umac
