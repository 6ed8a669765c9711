import Verif.Arr
/-!
# Convolutional encoders and puncturing

Model of `crates/tetra-entities/src/lmac/components/convenc.rs`. Bits are booleans.
-/
namespace Verif.ConvEnc
open Verif.Arr

/-- `ConvEncState` / `SpeechConvEncState` (convenc.rs:18-21, 100-103): the four delayed bits, newest first. -/
structure Enc where
  d0 : Bool
  d1 : Bool
  d2 : Bool
  d3 : Bool
  deriving DecidableEq, Repr

/-- `new` (convenc.rs:26-28, 106-108). -/
def Enc.zero : Enc := ⟨false, false, false, false⟩

/-- The shift register update of both `encode_bit`s (convenc.rs:50-54, 125-129). -/
def Enc.shift (s : Enc) (bit : Bool) : Enc := ⟨bit, s.d0, s.d1, s.d2⟩

/-- Outputs of `ConvEncState::encode_bit` (convenc.rs:44-48). -/
def cchTaps (s : Enc) (bit : Bool) : List Bool :=
  [bit ^^ s.d0 ^^ s.d3,
   bit ^^ s.d1 ^^ s.d2 ^^ s.d3,
   bit ^^ s.d0 ^^ s.d1 ^^ s.d3,
   bit ^^ s.d0 ^^ s.d2 ^^ s.d3]

/-- Outputs of `SpeechConvEncState::encode_bit` (convenc.rs:118-123). -/
def speechTaps (s : Enc) (bit : Bool) : List Bool :=
  [bit ^^ s.d0 ^^ s.d1 ^^ s.d2 ^^ s.d3,
   bit ^^ s.d0 ^^ s.d2 ^^ s.d3,
   bit ^^ s.d1 ^^ s.d3]

/-- The loop of `encode` (convenc.rs:67-74, 138-147): the output bits in order and the final register. -/
def encodeLoop (taps : Enc → Bool → List Bool) : Enc → List Bool → List Bool × Enc
  | s, [] => ([], s)
  | s, b :: bs => let r := encodeLoop taps (s.shift b) bs; (taps s b ++ r.1, r.2)

/-- `encode` writes the output bits to the front of the caller's buffer, and aborts if it is shorter than `rate` times the
input (convenc.rs:67-74, 138-147). -/
def encode (taps : Enc → Bool → List Bool) (rate : Nat) (s : Enc) (input output : List Bool) : Res (List Bool × Enc) := do
  Res.assert (decide (output.length ≥ input.length * rate))
  let r := encodeLoop taps s input
  pure (r.1 ++ output.drop (input.length * rate), r.2)

/-- `Puncturer` (convenc.rs:166-177), restricted to the modes with `i_func = i_equals`, the only ones the entities use. -/
structure Puncturer where
  p : List Nat
  t : Nat
  period : Nat
  deriving DecidableEq, Repr

/-- `Rate2_3` (convenc.rs:180, 190-195). -/
def rate2_3 : Puncturer := ⟨[0, 1, 2, 5], 3, 8⟩
/-- `Rate112_168` (convenc.rs:182, 214-219). -/
def rate112_168 : Puncturer := ⟨[0, 1, 2, 4], 3, 6⟩
/-- `Rate72_162` (convenc.rs:183, 220-225). -/
def rate72_162 : Puncturer := ⟨[0, 1, 2, 3, 4, 5, 7, 8, 10, 11], 9, 12⟩

/-- The index `k - 1` computed in the loops of convenc.rs:253-258 and 271-276 for `j = n + 1`. The table index `i - t*blk`
is between 1 and `t`, which is inside the table for the three modes. -/
def Puncturer.pos (pu : Puncturer) (n : Nat) : Nat :=
  let i := n + 1
  let blk := (i - 1) / pu.t
  let idx := i - pu.t * blk
  pu.period * blk + pu.p.getD idx 0 - 1

variable {α : Type}

/-- `get_punctured_rate` (convenc.rs:246-260). -/
def puncture (pu : Puncturer) (input output : List α) : Res (List α) := moveLoop id pu.pos input output.length output

/-- `tetra_rcpc_depunct` (convenc.rs:263-279). -/
def depuncture (pu : Puncturer) (input : List α) (len : Nat) (output : List α) : Res (List α) := moveLoop pu.pos id input len output

end Verif.ConvEnc
