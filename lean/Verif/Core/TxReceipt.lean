import Verif.Common
/-!
# Transmit receipts: model of `crates/tetra-core/src/tx_receipt.rs`

The shared cell is one atomic byte. Every method is one atomic access to it, so a concurrent execution is
an interleaving of steps; a history is the list of steps in the order they hit the cell.
-/
namespace Verif.TxReceipt

/-- `TxState` (tx_receipt.rs:6-17). -/
inductive TxState where
  | pending | discarded | transmitted | lost | acknowledged
  deriving DecidableEq, Repr

/-- The `as u8` cast of `TxState`. -/
def TxState.raw : TxState → Nat
  | .pending => 0
  | .discarded => 1
  | .transmitted => 2
  | .lost => 3
  | .acknowledged => 4

/-- `TxState::from_raw` (tx_receipt.rs:20-28). -/
def TxState.fromRaw : Nat → TxState
  | 0 => .pending
  | 1 => .discarded
  | 2 => .transmitted
  | 3 => .lost
  | _ => .acknowledged

/-- `TxReporter` (tx_receipt.rs:56-62): the clone-shared byte, and the `expects_ack` flag every clone
copies. -/
structure Cell where
  expectsAck : Bool
  raw : Nat
  deriving DecidableEq, Repr

/-- `TxReporter::new` (tx_receipt.rs:66-69). -/
def Cell.new : Cell := { expectsAck := true, raw := TxState.pending.raw }
/-- `TxReporter::new_unacked` (tx_receipt.rs:72-76). -/
def Cell.newUnacked : Cell := { Cell.new with expectsAck := false }

/-- `get_state` (tx_receipt.rs:79-81). -/
def Cell.getState (c : Cell) : TxState := .fromRaw c.raw
/-- `is_discarded` (tx_receipt.rs:84-86). -/
def Cell.isDiscarded (c : Cell) : Bool := c.raw == TxState.discarded.raw
/-- `is_transmitted` (tx_receipt.rs:89-91). -/
def Cell.isTransmitted (c : Cell) : Bool := decide (c.raw ≥ TxState.transmitted.raw)
/-- `is_acknowledged` (tx_receipt.rs:94-96). -/
def Cell.isAcknowledged (c : Cell) : Bool := decide (c.raw ≥ TxState.acknowledged.raw)
/-- `is_in_final_state` (tx_receipt.rs:99-107). -/
def Cell.isFinal (c : Cell) : Bool :=
  match c.getState with
  | .pending => false
  | .discarded => true
  | .transmitted => !c.expectsAck
  | .lost => true
  | .acknowledged => true

/-- `mark` (tx_receipt.rs:109-125): compare-exchange, abort if the cell held another value. -/
def Cell.mark (c : Cell) (cur new : TxState) : Res Cell :=
  if c.raw = cur.raw then .ok { c with raw := new.raw } else .panic

/-- `mark_transmitted` (tx_receipt.rs:132-134). -/
def Cell.markTransmitted (c : Cell) : Res Cell := c.mark .pending .transmitted
/-- `mark_discarded` (tx_receipt.rs:137-139). -/
def Cell.markDiscarded (c : Cell) : Res Cell := c.mark .pending .discarded
/-- `mark_acknowledged` (tx_receipt.rs:142-148). -/
def Cell.markAcknowledged (c : Cell) : Res Cell := do
  Res.assert c.expectsAck
  c.mark .transmitted .acknowledged
/-- `mark_lost` (tx_receipt.rs:151-157). -/
def Cell.markLost (c : Cell) : Res Cell := do
  Res.assert c.expectsAck
  c.mark .transmitted .lost
/-- `reset` (tx_receipt.rs:161-163) through `mark_unchecked` (127-129). -/
def Cell.reset (c : Cell) : Cell := { c with raw := TxState.pending.raw }

/-- The calls on the cell that can change it. -/
inductive Op where
  | markTransmitted | markDiscarded | markAcknowledged | markLost | reset
  deriving DecidableEq, Repr

/-- One call. The boolean says whether the calling thread aborted; the cell value is what the other
holders see afterwards. -/
def step (c : Cell) : Op → Cell × Bool
  | .markTransmitted => lift c.markTransmitted
  | .markDiscarded => lift c.markDiscarded
  | .markAcknowledged => lift c.markAcknowledged
  | .markLost => lift c.markLost
  | .reset => (c.reset, false)
where
  lift : Res Cell → Cell × Bool
    | .ok c' => (c', false)
    | .panic => (c, true)

/-- The cell after each step of a history (the initial one first). -/
def states (c : Cell) : List Op → List Cell
  | [] => [c]
  | op :: rest => c :: states (step c op).1 rest

end Verif.TxReceipt
