import Verif.Assoc
import Verif.Common
/-!
# MAC event labels

Models crates/tetra-entities/src/umac/subcomp/event_label_store.rs. An address is represented by its SSI;
a mapping stores the label under itself as key, so the second component keeps the SSI only.
-/
namespace Verif.Umac

/-- event_label_store.rs lines 12-15. -/
structure LabelStore where
  labels : Assoc Nat Nat
  nextLabel : Nat
  deriving DecidableEq, Repr

namespace LabelStore

/-- event_label_store.rs lines 18-23 `new`. -/
def new : LabelStore := ⟨[], 1⟩

/-- event_label_store.rs lines 28-32 `get_free_label` (`EventLabel` is `u16`; no overflow is possible
below 0x1FF). -/
def getFreeLabel (s : LabelStore) : Nat × LabelStore :=
  (s.nextLabel, { s with nextLabel := (s.nextLabel + 1) % 0x1FF })

/-- event_label_store.rs lines 53-58 `get_label_by_ssi`: the first match in iteration order. -/
def getLabelBySsi (s : LabelStore) (ssi : Nat) : Option Nat :=
  (s.labels.find? fun e => e.2 == ssi).map Prod.fst

/-- event_label_store.rs lines 48-50 `get_addr_by_label`. -/
def getAddrByLabel (s : LabelStore) (label : Nat) : Option Nat := s.labels.get label

/-- event_label_store.rs lines 36-44 `create_label_for_addr`. -/
def create (s : LabelStore) (ssi : Nat) : Res (Nat × LabelStore) :=
  if (s.getLabelBySsi ssi).isSome then .panic else
    let r := s.getFreeLabel
    .ok (r.1, { r.2 with labels := r.2.labels.insert r.1 ssi })

end LabelStore
end Verif.Umac
