import Verif.Common
/-! # Scrambler: model of `crates/tetra-entities/src/lmac/components/scrambler.rs` -/
namespace Verif.Scrambler

/-- Output bit of `next_lfsr_bit` (scrambler.rs:11-27). -/
def outBit (x : BitVec 32) : BitVec 32 :=
  (x ^^^ (x >>> (32 - 26)) ^^^ (x >>> (32 - 23)) ^^^ (x >>> (32 - 22)) ^^^ (x >>> (32 - 16)) ^^^ (x >>> (32 - 12))
    ^^^ (x >>> (32 - 11)) ^^^ (x >>> (32 - 10)) ^^^ (x >>> (32 - 8)) ^^^ (x >>> (32 - 7)) ^^^ (x >>> (32 - 5))
    ^^^ (x >>> (32 - 4)) ^^^ (x >>> (32 - 2)) ^^^ (x >>> (32 - 1))) &&& 1#32

/-- `next_lfsr_bit` (scrambler.rs:11-30): the bit and the new register. -/
def nextBit (x : BitVec 32) : Bool × BitVec 32 :=
  let bit := outBit x
  (bit.getLsbD 0, (x >>> 1) ||| (bit <<< 31))

/-- `tetra_scramb_get_bits` (scrambler.rs:33-37): `n` raw keystream bits. -/
def keystream (lfsr : BitVec 32) : Nat → List Bool
  | 0 => []
  | n + 1 =>
    let (b, lfsr) := nextBit lfsr
    b :: keystream lfsr n

/-- `tetra_scramb_bits` (scrambler.rs:51-60): every bit from the cursor to the end is xor-ed with the keystream and the
cursor goes back. On the bit string this is a pointwise xor. -/
def scramble (lfsr : BitVec 32) : List Bool → List Bool
  | [] => []
  | x :: xs =>
    let (b, lfsr) := nextBit lfsr
    (x ^^ b) :: scramble lfsr xs

/-- `SCRAMB_INIT` (scrambler.rs:7). -/
def scrambInit : BitVec 32 := 3#32

/-- `tetra_scramb_get_init` (scrambler.rs:63-70). `mcc`, `mnc` are `u16` and `colour` is `u8`, cast to `u32`; shifts drop
the bits beyond 32. -/
def getInit (mcc mnc colour : Nat) : BitVec 32 :=
  if colour = 0 then 0#32
  else ((BitVec.ofNat 32 colour ||| (BitVec.ofNat 32 mnc <<< 6) ||| (BitVec.ofNat 32 mcc <<< 20)) <<< 2) ||| scrambInit

end Verif.Scrambler
