import Verif.Core.BitBuffer
/-! # Fill bits: model of `crates/tetra-entities/src/umac/subcomp/fillbits.rs` -/
namespace Verif.FillBits
open Verif.BitBuffer

/-- The loop of `get_num_fill_bits` (fillbits.rs:6-17); the argument is `index + 1`, `lo` the cursor and `len` the PDU length. A bit
outside the window is an `unwrap` of `None`. -/
def scan (b : Buf) (lo len : Nat) : Nat → Res Nat
  | 0 => .ok 0
  | k + 1 =>
    if k ≥ lo then do
      match ← b.peekStartOffset k 1 with
      | none => .panic
      | some bit => if bit = 0 then scan b lo len k else pure (len - k)
    else .ok 0

/-- `get_num_fill_bits` (fillbits.rs:5-23); the log message is not modelled. -/
def count (b : Buf) (pduLenBits : Nat) : Res Nat := scan b (b.pos - b.start) pduLenBits pduLenBits

/-- `compute_required_bytealigned` (fillbits.rs:33-35). -/
def requiredBytealigned (total : Nat) : Nat := (8 - total % 8) % 8

/-- `compute_required` (fillbits.rs:41-54). -/
def required (total cap : Nat) : Nat :=
  if total ≥ cap then 0
  else
    let a := requiredBytealigned total
    if total + a ≤ cap then a else cap - total

/-- `write` (fillbits.rs:57-74). -/
def write (b : Buf) (num : Option Nat) : Res Buf :=
  match num with
  | some n =>
    if n > 0 then do
      let b ← b.writeBit 1
      b.writeZeroes (n - 1)
    else .ok b
  | none =>
    if b.lenRemaining > 0 then do
      let b ← b.writeBit 1
      b.writeZeroes b.lenRemaining
    else .ok b

end Verif.FillBits
