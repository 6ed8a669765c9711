import Verif.Bits
/-!
# BitBuffer: model of `crates/tetra-core/src/bitbuffer.rs`

Bytes are naturals below 256 (`Wf`), the byte operations are the Rust ones on naturals (`&&&`, `|||`,
`<<<`, `>>>`, `!x` on `u8` is `255 ^^^ x`). Indexing outside the vector aborts.
-/
namespace Verif.BitBuffer
open Verif.Bits

/-- `BitBuffer` (bitbuffer.rs:10-16). -/
structure Buf where
  buffer : List Nat
  start : Nat
  pos : Nat
  «end» : Nat
  autoexpand : Bool
  deriving DecidableEq, Repr

/-- Representation invariant: a window inside the storage, and bytes are bytes. -/
structure Wf (b : Buf) : Prop where
  start_le : b.start ≤ b.pos
  pos_le : b.pos ≤ b.end
  end_le : b.end ≤ 8 * b.buffer.length
  byte : ∀ x ∈ b.buffer, x < 256

/-- `new` (bitbuffer.rs:20-29). -/
def Buf.new (lenBits : Nat) : Buf :=
  { buffer := List.replicate ((lenBits + 7) / 8) 0, start := 0, pos := 0, «end» := lenBits, autoexpand := false }

/-- `new_autoexpand` (bitbuffer.rs:33-42). -/
def Buf.newAutoexpand (n : Nat) : Buf :=
  { buffer := List.replicate ((n + 7) / 8) 0, start := 0, pos := 0, «end» := 0, autoexpand := true }

/-- `from_vec` / `from_bytes` (bitbuffer.rs:46-66). -/
def Buf.fromVec (data : List Nat) : Buf :=
  { buffer := data, start := 0, pos := 0, «end» := data.length * 8, autoexpand := false }

/-- Vector read with the Rust bounds check. -/
def getByte (buf : List Nat) (i : Nat) : Res Nat :=
  match buf[i]? with
  | some x => .ok x
  | none => .panic

/-- Vector write with the Rust bounds check. -/
def setByte (buf : List Nat) (i v : Nat) : Res (List Nat) :=
  if i < buf.length then .ok (buf.set i v) else .panic

/-! ## Reading -/

/-- The full-byte loop of `read_bits_at_unchecked` (bitbuffer.rs:645-650). -/
def readFull (buf : List Nat) (result pos rem : Nat) : Res (Nat × Nat × Nat) :=
  if rem ≥ 8 then do
    let byte ← getByte buf (pos / 8)
    readFull buf ((result <<< 8) ||| byte) (pos + 8) (rem - 8)
  else .ok (result, pos, rem)
termination_by rem

/-- The tail loop of `read_bits_at_unchecked` (bitbuffer.rs:655-659) for `i = k ..  k + cnt`. -/
def readTail (byte pos result k : Nat) : Nat → Nat
  | 0 => result
  | cnt + 1 =>
    let bit := (byte >>> (7 - (pos % 8 + k))) &&& 1
    readTail byte pos ((result <<< 1) ||| bit) (k + 1) cnt

/-- `read_bits_at_unchecked` (bitbuffer.rs:625-663). -/
def readBitsAt (buf : List Nat) (bitPos numBits : Nat) : Res Nat := do
  let head := bitPos % 8
  let (result, pos, rem) ←
    if head ≠ 0 ∧ numBits > 0 then do
      let take := min (8 - head) numBits
      let byte ← getByte buf (bitPos / 8)
      let shift := 8 - head - take
      let mask := (1 <<< take) - 1
      pure ((byte >>> shift) &&& mask, bitPos + take, numBits - take)
    else pure (0, bitPos, numBits)
  let (result, pos, rem) ← readFull buf result pos rem
  if rem > 0 then do
    let byte ← getByte buf (pos / 8)
    pure (readTail byte pos result 0 rem)
  else pure result

/-- `peek_bits_startoffset` (bitbuffer.rs:181-190). -/
def Buf.peekStartOffset (b : Buf) (offset numBits : Nat) : Res (Option Nat) :=
  let absPos := b.start + offset
  if numBits > 64 ∨ b.start + offset + numBits > b.end then .ok none
  else do
    let v ← readBitsAt b.buffer absPos numBits
    pure (some v)

/-- `peek_bits` (bitbuffer.rs:165-177), offset zero; `pos - start` aborts if negative. -/
def Buf.peekBits (b : Buf) (numBits : Nat) : Res (Option Nat) :=
  if b.start ≤ b.pos then b.peekStartOffset (b.pos - b.start) numBits else .panic

/-- `read_bits` (bitbuffer.rs:193-197). -/
def Buf.readBits (b : Buf) (numBits : Nat) : Res (Option Nat × Buf) :=
  if b.start ≤ b.pos then do
    match ← b.peekStartOffset (b.pos - b.start) numBits with
    | none => pure (none, b)
    | some v => pure (some v, { b with pos := b.pos + numBits })
  else .panic

/-! ## Writing -/

/-- `_realloc_tail` (bitbuffer.rs:226-235). -/
def Buf.reallocTail (b : Buf) (newCapBits : Nat) : Res Buf :=
  let bytes := (newCapBits + 7) / 8
  if bytes ≥ b.buffer.length then
    .ok { b with buffer := b.buffer ++ List.replicate (bytes - b.buffer.length) 0 }
  else .panic

/-- `_move_end` (bitbuffer.rs:254-269). -/
def Buf.moveEnd (b : Buf) (extra : Nat) : Res Buf := do
  let cap := b.buffer.length * 8
  if b.end > cap then .panic
  else
    let free := cap - b.end
    let total := b.end + extra
    let b ← if extra > free then b.reallocTail (max total (cap * 2)) else pure b
    pure { b with «end» := b.end + extra }

/-- Read-modify-write of `h` bits at bit offset `off` of a byte, the expression of
bitbuffer.rs:386-389 and 405-409. -/
def mergeByte (byte off h bits : Nat) : Nat :=
  let shift := 8 - (off + h)
  let mask := ((1 <<< h) - 1) <<< shift
  (byte &&& (255 ^^^ mask)) ||| (bits <<< shift)

/-- The full-byte loop of `write_bits` (bitbuffer.rs:394-400). -/
def writeFull (buf : List Nat) (v cur rem : Nat) : Res (List Nat × Nat × Nat) :=
  if rem ≥ 8 then do
    let buf ← setByte buf (cur / 8) ((v >>> (rem - 8)) &&& 0xFF)
    writeFull buf v (cur + 8) (rem - 8)
  else .ok (buf, cur, rem)
termination_by rem

/-- The three write phases of `write_bits` (bitbuffer.rs:372-412) on the byte vector. -/
def writeRaw (buf : List Nat) (pos v numBits : Nat) : Res (List Nat) := do
  let off := pos % 8
  let (buf, cur, rem) ←
    if off ≠ 0 ∧ numBits > 0 then do
      let h := min numBits (8 - off)
      let byte ← getByte buf (pos / 8)
      let bits := ((v >>> (numBits - h)) % 256) &&& ((1 <<< h) - 1)
      let buf ← setByte buf (pos / 8) (mergeByte byte off h bits)
      pure (buf, pos + h, numBits - h)
    else pure (buf, pos, numBits)
  let (buf, cur, rem) ← writeFull buf v cur rem
  if rem > 0 then do
    let byte ← getByte buf (cur / 8)
    let bits := (v % 256) &&& ((1 <<< rem) - 1)
    setByte buf (cur / 8) (mergeByte byte (cur % 8) rem bits)
  else pure buf

/-- Window check of `write_bits` (bitbuffer.rs:364-370). -/
def Buf.ensure (b : Buf) (numBits : Nat) : Res Buf :=
  if b.pos + numBits > b.end then
    if b.autoexpand then b.moveEnd numBits else .panic
  else .ok b

/-- `write_bits` (bitbuffer.rs:354-417). `value` is a `u64`, so it is below `2^64`; the assertion refuses a
value which does not fit. -/
def Buf.writeBits (b : Buf) (value numBits : Nat) : Res Buf := do
  Res.assert (decide (numBits ≤ 64))
  Res.assert (decide (numBits = 64 ∨ value >>> numBits = 0))
  let b ← b.ensure numBits
  let v := if numBits = 64 then value else value &&& ((1 <<< numBits) - 1)
  let buf ← writeRaw b.buffer b.pos v numBits
  pure { b with buffer := buf, pos := b.pos + numBits }

/-- `write_bit` (bitbuffer.rs:311-328). -/
def Buf.writeBit (b : Buf) (value : Nat) : Res Buf := do
  Res.assert (decide (value = 0 ∨ value = 1))
  let b ← b.ensure 1
  let byte ← getByte b.buffer (b.pos / 8)
  let mask := 1 <<< (7 - b.pos % 8)
  let buf ← setByte b.buffer (b.pos / 8) ((byte &&& (255 ^^^ mask)) ||| (value <<< (7 - b.pos % 8)))
  pure { b with buffer := buf, pos := b.pos + 1 }

/-- `write_zeroes` (bitbuffer.rs:331-338). -/
def Buf.writeZeroes (b : Buf) (n : Nat) : Res Buf :=
  if 0 < n then do
    let b ← b.writeBits 0 (min n 64)
    b.writeZeroes (n - min n 64)
  else .ok b
termination_by n

/-- `copy_bits` (bitbuffer.rs:421-433): returns the destination and the advanced source. -/
def Buf.copyBits (b src : Buf) (n : Nat) : Res (Buf × Buf) :=
  if 0 < n then
    let k := min n 64
    if src.pos ≤ src.end ∧ src.end - src.pos ≥ k then do
      match ← src.readBits k with
      | (none, _) => .panic
      | (some v, src') =>
        let b ← b.writeBits v k
        b.copyBits src' (n - k)
    else .panic
  else .ok (b, src)
termination_by n

/-- `seek` (bitbuffer.rs:483-493). -/
def Buf.seek (b : Buf) (offset : Nat) : Res Buf :=
  if b.start + offset ≤ b.end then .ok { b with pos := b.start + offset } else .panic

/-- `seek_rel` (bitbuffer.rs:497-507); a negative target wraps to a huge `usize` and fails the check. -/
def Buf.seekRel (b : Buf) (offset : Int) : Res Buf :=
  let p := (b.pos : Int) + offset
  if (b.start : Int) ≤ p ∧ p ≤ b.end then .ok { b with pos := p.toNat } else .panic

/-- `set_raw_start` (bitbuffer.rs:525-529). -/
def Buf.setRawStart (b : Buf) (s : Nat) : Res Buf :=
  if s ≤ b.end ∧ s ≤ b.pos then .ok { b with start := s } else .panic

/-- `set_raw_end` (bitbuffer.rs:532-538). -/
def Buf.setRawEnd (b : Buf) (e : Nat) : Res Buf :=
  if e ≤ b.buffer.length * 8 ∧ e ≥ b.start ∧ e ≥ b.pos then .ok { b with «end» := e } else .panic

/-- `set_raw_pos` (bitbuffer.rs:541-545). -/
def Buf.setRawPos (b : Buf) (p : Nat) : Res Buf :=
  if b.start ≤ p ∧ p ≤ b.end then .ok { b with pos := p } else .panic

/-- `get_len` (bitbuffer.rs:463-465). -/
def Buf.len (b : Buf) : Nat := b.end - b.start
/-- `get_len_remaining` (bitbuffer.rs:468-470). -/
def Buf.lenRemaining (b : Buf) : Nat := b.end - b.pos

/-- `read_bit_at_unchecked` (bitbuffer.rs:668-670). -/
def readBitAt (buf : List Nat) (p : Nat) : Res Nat := do
  let byte ← getByte buf (p / 8)
  pure ((byte >>> (7 - p % 8)) &&& 1)

/-- Collect `f 0 .. f (n-1)`, aborting at the first abort. -/
def collect (f : Nat → Res Nat) : Nat → Res (List Nat)
  | 0 => .ok []
  | n + 1 => do
    let l ← collect f n
    let x ← f n
    pure (l ++ [x])

/-- `into_bitvec` (bitbuffer.rs:454-460). Note the index `i`, not `start + i`. -/
def Buf.intoBitvec (b : Buf) : Res (List Nat) := collect (readBitAt b.buffer) b.len

/-- `to_bitstr` (bitbuffer.rs:154-161), as a list of 0/1. -/
def Buf.toBitstr (b : Buf) : Res (List Nat) := collect (fun i => readBitAt b.buffer (b.start + i)) b.len

/-- `from_bitbuffer_pos` (bitbuffer.rs:122-135): copies the bytes holding `[pos, end)`. -/
def Buf.fromBitbufferPos (b : Buf) : Res Buf :=
  let sb := b.pos / 8
  let eb := (b.end + 7) / 8
  if sb ≤ eb ∧ eb ≤ b.buffer.length ∧ b.pos ≤ b.end then
    .ok { buffer := (b.buffer.drop sb).take (eb - sb), start := b.pos % 8, pos := b.pos % 8,
          «end» := b.pos % 8 + (b.end - b.pos), autoexpand := false }
  else .panic

/-- `from_bitbuffer` (bitbuffer.rs:105-118). -/
def Buf.fromBitbuffer (b : Buf) : Res Buf :=
  let sb := b.start / 8
  let eb := (b.end + 7) / 8
  if sb ≤ eb ∧ eb ≤ b.buffer.length ∧ b.start ≤ b.end then
    .ok { buffer := (b.buffer.drop sb).take (eb - sb), start := b.start % 8, pos := b.start % 8,
          «end» := b.start % 8 + (b.end - b.start), autoexpand := false }
  else .panic

/-! ## Meaning: the bit string a buffer denotes -/

/-- Bit number `p` of the storage, counted from the most significant bit of byte 0; bits beyond the
storage read as zero (used only to state facts, never by the model functions). -/
def bitAt (buf : List Nat) (p : Nat) : Bool := (buf.getD (p / 8) 0).testBit (7 - p % 8)

/-- `n` consecutive bits from bit `p`. -/
def slice (buf : List Nat) (p : Nat) : Nat → List Bool
  | 0 => []
  | n + 1 => bitAt buf p :: slice buf (p + 1) n

/-- The unread part of the window. -/
def Buf.rest (b : Buf) : List Bool := slice b.buffer b.pos (b.end - b.pos)
/-- The part of the window before the cursor. -/
def Buf.written (b : Buf) : List Bool := slice b.buffer b.start (b.pos - b.start)
/-- The whole window. -/
def Buf.window (b : Buf) : List Bool := slice b.buffer b.start (b.end - b.start)

end Verif.BitBuffer
