import Verif.Lmac.Crc
/-! # Block CRC: model of `crates/tetra-entities/src/lmac/components/crc16.rs` and its use in `errorcontrol.rs` -/
namespace Verif.Crc16
open Verif.Bits

/-- `GEN_POLY` (crc16.rs:2). -/
def genPoly : BitVec 16 := 0x1021#16
/-- `TETRA_CRC_OK` (crc16.rs:3). -/
def crcOk : BitVec 16 := 0x1d0f#16

/-- Loop body of `crc16_itut_bits` (crc16.rs:33-40). -/
def stepBit (crc : BitVec 16) (b : Bool) : BitVec 16 :=
  let crc := crc ^^^ (BitVec.ofNat 16 b.toNat <<< 15)
  if crc &&& 0x8000#16 ≠ 0#16 then (crc <<< 1) ^^^ genPoly else crc <<< 1

/-- `crc16_itut_bits` (crc16.rs:31-43): the first `numberBits` entries. Entries are bits (the code masks with 1). -/
def itutBits (crc : BitVec 16) (input : List Bool) (numberBits : Nat) : BitVec 16 :=
  (input.take numberBits).foldl stepBit crc

/-- `crc16_ccitt_bits` (crc16.rs:46-48). -/
def ccittBits (input : List Bool) (len : Nat) : BitVec 16 := itutBits 0xffff#16 input len

/-- CRC addition of `encode_cp` (errorcontrol.rs:40-44): the information bits followed by the complemented CRC,
most significant bit first. -/
def appendCrc (type1 : List Bool) : List Bool :=
  let crc := ~~~ (ccittBits type1 type1.length)
  type1 ++ (List.range 16).map (fun i => (crc >>> (15 - i)).getLsbD 0)

/-- CRC check of `decode_cp` (errorcontrol.rs:139-140) over information bits and CRC. -/
def check (type2 : List Bool) (type1Bits : Nat) : Bool := ccittBits type2 (type1Bits + 16) == crcOk

end Verif.Crc16
