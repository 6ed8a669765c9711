import Verif.Lmac.Crc16
import Verif.Lmac.Scrambler
import Verif.Lmac.Interleaver
import Verif.Lmac.Viterbi
/-!
# Block coding chains

Model of `encode_cp`, `decode_cp`, `speech_crc`, `encode_tp` and `decode_tp` in
`crates/tetra-entities/src/lmac/components/errorcontrol.rs`. A `BitBuffer` holding a block is the list of its bits.
-/
namespace Verif.ErrorControl
open Verif.Interleaver Verif.ConvEnc Verif.Viterbi

/-- `to_bitarr` into the first `n` cells of an array (bitbuffer.rs:138-151): aborts when fewer bits are left. -/
def toBitarr (bits : List Bool) (n : Nat) (arr : List Bool) : Res (List Bool) :=
  if n ≤ bits.length then .ok (bits.take n ++ arr.drop n) else .panic

/-- The type-2 array of `encode_cp` (errorcontrol.rs:35-44): information bits, complemented CRC, and zeros up to 288, the first
four of which are the tail bits. -/
def type2Arr (type1 : List Bool) : List Bool :=
  let a := Crc16.appendCrc type1
  a ++ List.replicate (288 - a.length) false

/-- `encode_cp` (errorcontrol.rs:19-79). -/
def encodeCp (lchan : Chan) (type1 : List Bool) (code : BitVec 32) : Res (List Bool) := do
  Res.assert (isCp lchan)
  let p := params lchan
  Res.assert (type1.length == p.type1)
  Res.assert p.crc
  let type2 := type2Arr type1
  let r ← encode cchTaps 4 Enc.zero (type2.take p.type2) (List.replicate 1728 false)
  let type3 ← puncture rate2_3 r.1 (List.replicate 432 false)
  let type4 ← blockInterleave p.type345 p.a type3 (List.replicate 432 false)
  pure (Scrambler.scramble code (type4.take p.type345))

/-- `decode_cp` (errorcontrol.rs:85-152). `sb1`: the block is the synchronisation block; `code?`: the cell's scrambling code if
known. -/
def decodeCp (lchan : Chan) (sb1 : Bool) (type5 : List Bool) (code? : Option (BitVec 32)) : Res (Option (List Bool) × Bool) := do
  Res.assert (isCp lchan)
  let p := params lchan
  match (if sb1 then some Scrambler.scrambInit else code?) with
  | none => pure (none, false)
  | some code =>
    let type4 := Scrambler.scramble code type5
    let type4 ← toBitarr type4 p.type345 (List.replicate 432 false)
    let type3 ← blockDeinterleave p.type345 p.a type4 (List.replicate 432 false)
    let type3dp ← depuncture rate2_3 (type3.map some) p.type345 (List.replicate 1728 none)
    let type2 ← decSb1 type3dp (List.replicate 288 false) p.type2
    Res.assert p.crc
    pure (some (type2.take p.type1), Crc16.check type2 p.type1)

/-! ## Speech -/

/-- Loop body of the polynomial division of `speech_crc` (errorcontrol.rs:168-175) at degree `d`. -/
def reduceAt (w : List Bool) (d : Nat) : List Bool :=
  if w.getD d false then
    let w := w.set d (w.getD d false ^^ true)
    let w := w.set (d - 4) (w.getD (d - 4) false ^^ true)
    w.set (d - 7) (w.getD (d - 7) false ^^ true)
  else w

/-- The division loop: degrees 66 down to 7 (errorcontrol.rs:168). -/
def reduce (w : List Bool) : List Bool := ((List.range 60).map (fun i => 66 - i)).foldl reduceAt w

/-- `speech_crc` (errorcontrol.rs:156-194). -/
def speechCrc (class2 : List Bool) : List Bool :=
  let w := reduce (List.replicate 7 false ++ class2)
  let f := w.take 7
  f ++ [(class2 ++ f).foldl xor false]

/-- `encode_tp` (errorcontrol.rs:199-283) for TCH/S. The two assignments of punctured bits into `type3_arr` are written as a
concatenation; the slices have the sizes 102, 168 and 162. -/
def encodeTp (type1In : List Bool) (code : BitVec 32) (blkNum : Nat) : Res (List Bool) := do
  let len := min type1In.length 274
  let type1 ← toBitarr type1In len (List.replicate 274 false)
  let type1 ← if len = 274 then codecToChannel type1 else pure type1
  let r1 ← encode speechTaps 3 Enc.zero ((type1.drop 102).take 112) (List.replicate 336 false)
  let p1 ← puncture rate112_168 r1.1 (List.replicate 168 false)
  let data := (type1.drop 214).take 60
  let class2 := data ++ speechCrc data ++ List.replicate 4 false
  let r2 ← encode speechTaps 3 r1.2 class2 (List.replicate 216 false)
  let p2 ← puncture rate72_162 r2.1 (List.replicate 162 false)
  let type3 := type1.take 102 ++ p1 ++ p2
  let type4 ← matrixInterleave 24 18 type3 (List.replicate 432 false)
  let type5 := Scrambler.scramble code type4
  pure (if blkNum = 1 then type5 else (type5.take 432).drop 216)

/-- The part of `decode_tp` after de-interleaving (errorcontrol.rs:315-374): the channel-order bits and the frame check. -/
def decodeType3 (type3 : List Bool) : Res (List Bool × Bool) := do
  let m1 ← depuncture rate112_168 (((type3.drop 102).take 168).map some) 168 (List.replicate 336 none)
  let m2 ← depuncture rate72_162 (((type3.drop 270).take 162).map some) 162 (List.replicate 216 none)
  let decoded := decode speechPolys ((m1 ++ m2).map soft)
  let class2 := decoded.drop 112
  let data := class2.take 60
  let ok := speechCrc data == (class2.drop 60).take 8
  pure (type3.take 102 ++ decoded.take 112 ++ data, ok)

/-- `decode_tp` (errorcontrol.rs:288-378). -/
def decodeTp (type5 : List Bool) (code : BitVec 32) : Res (List Bool × Bool) := do
  let type4 ← toBitarr (Scrambler.scramble code type5) 432 (List.replicate 432 false)
  let type3 ← matrixDeinterleave 24 18 type4 (List.replicate 432 false)
  let r ← decodeType3 type3
  let codec ← channelToCodec r.1
  pure (codec, r.2)

end Verif.ErrorControl
