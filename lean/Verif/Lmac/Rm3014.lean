import Verif.Bits
import Verif.Lmac.Scrambler
/-!
# Reed-Muller (30,14) code and the AACH

Model of `crates/tetra-entities/src/lmac/components/rm3014.rs` and of `encode_aach`/`decode_aach` in `errorcontrol.rs`.
Words are naturals; every intermediate value stays below `2^30`.
-/
namespace Verif.Rm3014
open Verif.Bits

/-- `RM_30_14_GEN` (rm3014.rs:2-17). -/
def gen : List (List Nat) := [
  [1, 0, 0, 1, 1, 0, 1, 1, 0, 1, 1, 0, 0, 0, 0, 0],
  [0, 0, 1, 0, 1, 1, 0, 1, 1, 1, 1, 0, 0, 0, 0, 0],
  [1, 1, 1, 1, 1, 1, 0, 0, 0, 0, 1, 0, 0, 0, 0, 0],
  [1, 1, 1, 0, 0, 0, 0, 0, 0, 0, 1, 1, 1, 1, 0, 0],
  [1, 0, 0, 1, 1, 0, 0, 0, 0, 0, 1, 1, 1, 0, 1, 0],
  [0, 1, 0, 1, 0, 1, 0, 0, 0, 0, 1, 1, 0, 1, 1, 0],
  [0, 0, 1, 0, 1, 1, 0, 0, 0, 0, 1, 0, 1, 1, 1, 0],
  [1, 1, 1, 1, 1, 1, 1, 1, 1, 1, 0, 1, 1, 1, 1, 1],
  [1, 0, 0, 0, 0, 0, 1, 1, 0, 0, 1, 1, 1, 0, 0, 1],
  [0, 1, 0, 0, 0, 0, 1, 0, 1, 0, 1, 1, 0, 1, 0, 1],
  [0, 0, 1, 0, 0, 0, 0, 1, 1, 0, 1, 0, 1, 1, 0, 1],
  [0, 0, 0, 1, 0, 0, 1, 0, 0, 1, 1, 1, 0, 0, 1, 1],
  [0, 0, 0, 0, 1, 0, 0, 1, 0, 1, 1, 0, 1, 0, 1, 1],
  [0, 0, 0, 0, 0, 1, 0, 0, 1, 1, 1, 0, 0, 1, 1, 1]]

/-- `RM_30_14_ROWS_PRECOMPUTED` (rm3014.rs:20-23). -/
def rows : List Nat := [
  0x20009b60, 0x10002de0, 0x0800fc20, 0x0400e03c, 0x0200983a, 0x01005436, 0x00802c2e, 0x0040ffdf, 0x00208339, 0x001042b5,
  0x000821ad, 0x00041273, 0x0002096b, 0x000104e7]

/-- Entry of the generator table; indices are always in range in the code. -/
def genBit (i j : Nat) : Bool := ((gen.getD i []).getD j 0) == 1

/-- `tetra_rm3014_compute` (rm3014.rs:26-36). -/
def compute (input : Nat) : Nat :=
  (List.range 14).foldl (fun val i => if (input >>> (13 - i)) &&& 1 = 1 then val ^^^ rows.getD i 0 else val) 0

/-- `tetra_rm3014_decode_naive` (rm3014.rs:40-42); the cast to `u16` keeps 16 bits. -/
def decodeNaive (cw : Nat) : Nat := (cw >>> 16) % 2 ^ 16

/-- `compute_col_syndromes` (rm3014.rs:45-65). -/
def colSyndrome (k : Nat) : Nat :=
  (List.range 16).foldl (fun syn j =>
    let bit := if k < 14 then (gen.getD k []).getD j 0 else if k - 14 = j then 1 else 0
    syn ||| (bit <<< j)) 0

/-- The sum for column `j` in `compute_syndrome` (rm3014.rs:74-81). -/
def sumBit (cw j : Nat) : Bool :=
  (List.range 14).foldl (fun s i => s ^^ (cw.testBit (29 - i) && genBit i j)) false ^^ cw.testBit (29 - (14 + j))

/-- `compute_syndrome` (rm3014.rs:71-87). -/
def syndrome (cw : Nat) : Nat :=
  (List.range 16).foldl (fun syn j => if sumBit cw j then syn ||| (1 <<< j) else syn) 0

/-- `tetra_rm3014_decode_limited_ecc` (rm3014.rs:89-101). -/
def decodeEcc (cw : Nat) : Nat :=
  let syn := syndrome cw
  let corrected :=
    if syn ≠ 0 then
      match (List.range 30).find? (fun k => colSyndrome k == syn) with
      | some k => cw ^^^ (1 <<< (29 - k))
      | none => cw
    else cw
  (corrected >>> 16) % 2 ^ 16

/-- `encode_aach` (errorcontrol.rs:381-404). -/
def encodeAach (type1 : List Bool) (code : BitVec 32) : Res (List Bool) := do
  Res.assert (type1.length == 14)
  pure (Scrambler.scramble code (toBits 30 (compute (ofBits type1))))

/-- `decode_aach` (errorcontrol.rs:407-436). Writing more than 14 bits into 14 aborts. -/
def decodeAach (type5 : List Bool) (code : BitVec 32) : Res (List Bool) := do
  Res.assert (type5.length == 30)
  let y := decodeEcc (ofBits (Scrambler.scramble code type5))
  Res.assert (decide (y < 2 ^ 14))
  pure (toBits 14 y)

end Verif.Rm3014
