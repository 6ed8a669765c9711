import Verif.Arr
/-!
# Interleavers and speech bit reordering

Model of `crates/tetra-entities/src/lmac/components/interleaver.rs` and `tch_reorder.rs`.
-/
namespace Verif.Interleaver
open Verif.Arr

variable {α : Type}

/-- `block_interl_func` (interleaver.rs:1-3), with the wrapping `u32` product. -/
def interlFunc (k a i : Nat) : Nat := 1 + ((a * i % 2 ^ 32) % k)

/-- `block_interleave` (interleaver.rs:5-11). The loop `i in 1..=k` becomes `i + 1` for `i < k`. -/
def blockInterleave (k a : Nat) (input output : List α) : Res (List α) := do
  Res.assert (decide (input.length ≥ k ∧ output.length ≥ k))
  moveLoop (fun i => interlFunc k a (i + 1) - 1) (fun i => i + 1 - 1) input k output

/-- `block_deinterleave` (interleaver.rs:13-19). -/
def blockDeinterleave (k a : Nat) (input output : List α) : Res (List α) := do
  Res.assert (decide (input.length ≥ k ∧ output.length ≥ k))
  moveLoop (fun i => i + 1 - 1) (fun i => interlFunc k a (i + 1) - 1) input k output

/-- `matrix_interleave` (interleaver.rs:21-29). The two nested loops over column `i` and line `j` are written as one loop
over `n = i * lines + j`, which visits the same pairs in the same order. -/
def matrixInterleave (lines columns : Nat) (input output : List α) : Res (List α) := do
  Res.assert (decide (input.length ≥ lines * columns ∧ output.length ≥ lines * columns))
  moveLoop (fun n => n / lines * lines + n % lines) (fun n => n % lines * columns + n / lines) input (lines * columns) output

/-- `matrix_deinterleave` (interleaver.rs:31-39), loops as in `matrixInterleave`. -/
def matrixDeinterleave (lines columns : Nat) (input output : List α) : Res (List α) := do
  Res.assert (decide (input.length ≥ lines * columns ∧ output.length ≥ lines * columns))
  moveLoop (fun n => n % lines * columns + n / lines) (fun n => n / lines * lines + n % lines) input (lines * columns) output

/-! ## Speech bit reordering -/

/-- `CLASS0_POS` (tch_reorder.rs:11-14). -/
def class0Pos : List Nat :=
  [35, 36, 37, 38, 39, 40, 41, 42, 43, 47, 48, 56, 61, 62, 63, 64, 65, 66, 67, 68, 69, 70, 74, 75, 83, 88, 89, 90, 91, 92, 93, 94, 95, 96,
   97, 101, 102, 110, 115, 116, 117, 118, 119, 120, 121, 122, 123, 124, 128, 129, 137]
/-- `CLASS1_POS` (tch_reorder.rs:17-20). -/
def class1Pos : List Nat :=
  [58, 85, 112, 54, 81, 108, 135, 50, 77, 104, 131, 45, 72, 99, 126, 55, 82, 109, 136, 5, 13, 34, 8, 16, 17, 22, 23, 24, 25, 26, 6, 14, 7,
   15, 60, 87, 114, 46, 73, 100, 127, 44, 71, 98, 125, 33, 49, 76, 103, 130, 59, 86, 113, 57, 84, 111]
/-- `CLASS2_POS` (tch_reorder.rs:23-25). -/
def class2Pos : List Nat :=
  [18, 19, 20, 21, 31, 32, 53, 80, 107, 134, 1, 2, 3, 4, 9, 10, 11, 12, 27, 28, 29, 30, 52, 79, 106, 133, 51, 78, 105, 132]

/-- The position used for channel bit pair `b`: the three consecutive loops of tch_reorder.rs:33-57. -/
def posTable : List Nat := class0Pos ++ class1Pos ++ class2Pos

/-- Codec index of channel bit `n`: bit `n / 2` of the table, subframe `n % 2`. -/
def codecIdx (n : Nat) : Nat := n % 2 * 137 + (posTable.getD (n / 2) 1 - 1)

/-- `codec_to_channel` (tch_reorder.rs:28-59): the loops over the three tables, two assignments each, as one loop. -/
def codecToChannel (codec : List Bool) : Res (List Bool) :=
  moveLoop id codecIdx codec 274 (List.replicate 274 false)

/-- `channel_to_codec` (tch_reorder.rs:62-93). -/
def channelToCodec (channel : List Bool) : Res (List Bool) :=
  moveLoop codecIdx id channel 274 (List.replicate 274 false)

/-! ## Parameters -/

/-- Logical channels with an entry in `get_params` (errorcontrol_params.rs:82-101); those which are `unimplemented!()`
there are left out. -/
inductive Chan where
  | bsch | schHd | stch | bnch | aach | schF | schHu | tchS
  deriving DecidableEq, Repr

/-- `ErrorControlParams` (errorcontrol_params.rs:5-12). -/
structure Params where
  type345 : Nat
  type2 : Nat
  type1 : Nat
  a : Nat
  crc : Bool
  deriving DecidableEq, Repr

/-- `get_params` and the constant tables (errorcontrol_params.rs:15-101). -/
def params : Chan → Params
  | .bsch => ⟨120, 80, 60, 11, true⟩
  | .schHd => ⟨216, 144, 124, 101, true⟩
  | .stch => ⟨216, 144, 124, 101, true⟩
  | .bnch => ⟨216, 144, 124, 101, true⟩
  | .aach => ⟨30, 30, 14, 0, false⟩
  | .schF => ⟨432, 288, 268, 103, true⟩
  | .schHu => ⟨168, 112, 92, 13, true⟩
  | .tchS => ⟨432, 288, 274, 103, false⟩

/-- `is_control_channel` minus AACH, the channels `encode_cp` accepts (errorcontrol.rs:21, 86). -/
def isCp : Chan → Bool
  | .aach => false
  | .tchS => false
  | _ => true

end Verif.Interleaver
