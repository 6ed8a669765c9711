import Verif.Core.Ranges
/-!
# Routing to the backhaul

Models crates/tetra-entities/src/net_brew/components/brew_routable.rs.
-/
namespace Verif.Brew


/-- The part of the Brew configuration consulted (crates/tetra-config/src/bluestation `CfgBrew`). -/
structure BrewCfg where
  host : String
  whitelistedSsis : Option (List Nat)
  featureSds : Bool
  deriving DecidableEq, Repr

/-- The configuration consulted: `brew` section, if any, and `cell.local_ssi_ranges`. -/
structure Cfg where
  brew : Option BrewCfg
  localSsiRanges : List Ranges.Range
  deriving DecidableEq, Repr

/-- brew_routable.rs lines 5-7 `is_active`. -/
def isActive (c : Cfg) : Bool := c.brew.isSome

/-- brew_routable.rs lines 11-13 `feature_sds_enabled`. -/
def featureSdsEnabled (c : Cfg) : Bool :=
  match c.brew with
  | some b => b.featureSds
  | none => false

/-- brew_routable.rs lines 16-21 `is_tetrapack`. -/
def isTetrapack (c : Cfg) : Bool :=
  match c.brew with
  | some b => b.host == "core.tetrapack.online"
  | none => false

/-- brew_routable.rs lines 24-51 `is_brew_gssi_routable`. -/
def gssiRoutable (c : Cfg) (ssi : Nat) : Bool :=
  match c.brew with
  | none => false
  | some b =>
    if isTetrapack c && decide (ssi ≤ 90) then false
    else if Ranges.contains c.localSsiRanges ssi then false
    else match b.whitelistedSsis with
      | some w => w.contains ssi
      | none => true

/-- brew_routable.rs lines 55-64 `is_brew_issi_routable`. -/
def issiRoutable (c : Cfg) (issi : Nat) : Bool :=
  if c.brew.isNone then false
  else if isTetrapack c then decide (issi ≥ 1000000) && decide (issi ≤ 9999999)
  else true

/-- brew_routable.rs lines 68-71 `is_tetrapack_sds_service_issi`. -/
def tetrapackServiceIssi (c : Cfg) (issi : Nat) : Bool := isTetrapack c && [200999, 262993].contains issi

end Verif.Brew
