import Verif.Core.BitBuffer
/-! # LLC frame check sequence: model of `crates/tetra-entities/src/llc/components/fcs.rs` -/
namespace Verif.Fcs
open Verif.BitBuffer

/-- The generator constant (fcs.rs:22). -/
def poly : BitVec 32 := 0x04C11DB7#32

/-- Loop body of `compute_fcs` (fcs.rs:19-23). -/
def stepBit (crc : BitVec 32) (bit : Nat) : BitVec 32 :=
  let feedback := (bit ^^^ (crc >>> 31).toNat) &&& 1
  let crc := crc <<< 1
  if feedback ≠ 0 then crc ^^^ poly else crc

/-- The loop of `compute_fcs` (fcs.rs:16-24) for `n` more bits from window offset `at_`; a missing bit is an `unwrap` of `None`. -/
def loop (b : Buf) (at_ : Nat) (crc : BitVec 32) : Nat → Res (BitVec 32)
  | 0 => .ok crc
  | n + 1 => do
    match ← b.peekStartOffset at_ 1 with
    | none => .panic
    | some bit => loop b (at_ + 1) (stepBit crc bit) n

/-- `compute_fcs` (fcs.rs:5-27). With `len = 0` the shift `crc <<= 32` overflows, which aborts in a build with overflow checks
(the model's convention throughout). -/
def compute (b : Buf) (start «end» : Nat) : Res (BitVec 32) := do
  Res.assert (decide (start ≤ «end»))
  Res.assert (decide («end» ≤ b.len))
  let len := «end» - start
  let init ← if len < 32 then (if 32 - len < 32 then pure (0xFFFFFFFF#32 <<< (32 - len)) else .panic) else pure 0xFFFFFFFF#32
  let crc ← loop b start init len
  pure (~~~ crc)

/-- `check_fcs` (fcs.rs:31-42); `get_pos` is relative to the window start. -/
def check (b : Buf) : Res Bool := do
  if b.lenRemaining < 32 then pure false
  else
    let computed ← compute b (b.pos - b.start) (b.len - 32)
    match ← b.peekStartOffset (b.len - 32) 32 with
    | none => .panic
    | some v => pure (computed == BitVec.ofNat 32 v)

end Verif.Fcs
