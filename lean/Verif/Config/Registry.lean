import Verif.Assoc
/-!
# Subscriber registry

Models crates/tetra-config/src/bluestation/state.rs lines 4-89. Hash sets are lists tested by membership.
-/
namespace Verif.Config

/-- state.rs lines 12-18 `SubscriberRegistry`: subscriber number to its attached groups, and the set of
all groups with at least one attached subscriber. -/
structure Registry where
  subscribers : Assoc Nat (List Nat)
  allGroups : List Nat
  deriving DecidableEq, Repr

namespace Registry

/-- state.rs lines 21-26 `new`. -/
def new : Registry := ⟨[], []⟩

/-- state.rs lines 28-30 `is_registered`. -/
def isRegistered (r : Registry) (issi : Nat) : Bool := (r.subscribers.get issi).isSome

/-- `self.subscribers.values().any(|s| s.attached_groups.contains(gssi))`. -/
def stillHasMembers (subs : Assoc Nat (List Nat)) (gssi : Nat) : Bool := subs.any fun e => e.2.contains gssi

/-- `HashSet::remove`. -/
def setRemove (s : List Nat) (g : Nat) : List Nat := s.filter (· ≠ g)
/-- `HashSet::insert`. -/
def setInsert (s : List Nat) (g : Nat) : List Nat := if s.contains g then s else g :: s

/-- state.rs lines 56-62: the loop over the groups of a removed subscriber. -/
def dropGroups (subs : Assoc Nat (List Nat)) (all : List Nat) : List Nat → List Nat
  | [] => all
  | g :: gs => dropGroups subs (if stillHasMembers subs g then all else setRemove all g) gs

/-- state.rs lines 53-64 `deregister`. -/
def deregister (r : Registry) (issi : Nat) : Registry :=
  match r.subscribers.get issi with
  | some groups =>
    let subs := r.subscribers.erase issi
    ⟨subs, dropGroups subs r.allGroups groups⟩
  | none => r

/-- state.rs lines 33-42 `register`. -/
def register (r : Registry) (issi : Nat) : Registry :=
  let r := r.deregister issi
  { r with subscribers := r.subscribers.insert issi [] }

/-- state.rs lines 45-50 `get_subscriber_mut`: inserts a default subscriber when there is none. -/
def ensure (r : Registry) (issi : Nat) : Registry :=
  match r.subscribers.get issi with
  | some _ => r
  | none => { r with subscribers := r.subscribers.insert issi [] }

/-- The groups of a subscriber present after `ensure`. -/
def groupsOf (r : Registry) (issi : Nat) : List Nat := (r.subscribers.get issi).getD []

/-- state.rs lines 67-71 `affiliate`. -/
def affiliate (r : Registry) (issi gssi : Nat) : Registry :=
  let r := r.ensure issi
  ⟨r.subscribers.insert issi (setInsert (r.groupsOf issi) gssi), setInsert r.allGroups gssi⟩

/-- state.rs lines 74-83 `deaffiliate`. -/
def deaffiliate (r : Registry) (issi gssi : Nat) : Registry :=
  let r := r.ensure issi
  if (r.groupsOf issi).contains gssi then
    let subs := r.subscribers.insert issi (setRemove (r.groupsOf issi) gssi)
    ⟨subs, if stillHasMembers subs gssi then r.allGroups else setRemove r.allGroups gssi⟩
  else r

/-- state.rs lines 86-88 `has_group_members`. -/
def hasGroupMembers (r : Registry) (gssi : Nat) : Bool := r.allGroups.contains gssi

end Registry
end Verif.Config
