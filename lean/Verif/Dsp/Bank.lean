import Verif.Dsp.Receive
import Mathlib.Analysis.SpecialFunctions.Complex.Log
import Mathlib.Algebra.BigOperators.Intervals
/-!
# The filter bank

Model of `crates/tetra-entities/src/phy/components/fcfb.rs`: the analysis bank takes the signal of one channel out of the signal of the
radio, the synthesis bank puts the signals of channels together.

Simplifications: samples are complex numbers and weights are real numbers, without rounding. `rustfft` is taken to compute the discrete
Fourier transform and its inverse without scaling. A buffer is a function from indices and its length is kept beside it.
-/
namespace Verif.Dsp.Bank
open Verif Verif.Dsp.Slots
open scoped BigOperators

/-- `Overlap` (fcfb.rs:65-72). -/
inductive Overlap
  | half
  | quarter
  deriving DecidableEq, Repr

/-- `required_fft_size_factor` (fcfb.rs:77-82). -/
def Overlap.factor : Overlap → Nat
  | half => 2
  | quarter => 4

/-- `check_fft_size` (fcfb.rs:86-91). -/
def checkSize (size : Nat) (o : Overlap) : Res Unit := Res.assert (size % o.factor = 0)

/-- `input_block_size(..).new` (fcfb.rs:94-105). -/
def newSize (size : Nat) : Overlap → Nat
  | .half => size / 2
  | .quarter => size / 4 * 3

/-- `input_block_size(..).overlap` (fcfb.rs:94-105). -/
def overlapSize (size : Nat) : Overlap → Nat
  | .half => size / 2
  | .quarter => size / 4

/-- `first_sample` in `slice_middle_samples` (fcfb.rs:107-114). -/
def first (len : Nat) : Overlap → Nat
  | .half => (len + 2) / 4
  | .quarter => (len + 4) / 8

/-- `n_samples` in `slice_middle_samples` (fcfb.rs:107-114). -/
def count (len : Nat) : Overlap → Nat
  | .half => len / 2
  | .quarter => len / 4 * 3

/-- `slice_middle_samples` (fcfb.rs:107-114); a slice beyond the end panics. -/
def middle {α : Type} (len : Nat) (o : Overlap) (buffer : Nat → α) : Res (List α) :=
  if first len o + count len o ≤ len then .ok ((List.range (count len o)).map fun i => buffer (first len o + i)) else .panic

/-- `get_phase_rotation` (fcfb.rs:123-131). `i8` does not overflow, the product is at most 18. -/
def phase (center block : Int) (o : Overlap) : Int :=
  (center % 4 * (block % 4) * (match o with | .half => 2 | .quarter => 1)) % 4

/-- The complex number with angle `a / n` of a full turn. -/
noncomputable def turn (a : Int) (n : Nat) : ℂ := Complex.exp (2 * Real.pi * Complex.I * a / n)

/-- Forward transform of `rustfft`. -/
noncomputable def fft (n : Nat) (x : Nat → ℂ) (k : Nat) : ℂ := ∑ i ∈ Finset.range n, x i * turn (-(i * k)) n

/-- Inverse transform of `rustfft`. -/
noncomputable def ifft (n : Nat) (x : Nat → ℂ) (i : Nat) : ℂ := ∑ k ∈ Finset.range n, x k * turn (k * i) n

/-- `AnalysisOutputProcessor` (fcfb.rs:247-271) and the parameters of its input (fcfb.rs:138-146): `size` is `fft_size` of the input,
`out` the length of the weights. -/
structure Analysis where
  size : Nat
  overlap : Overlap
  center : Int
  weights : Nat → ℝ
  out : Nat

/-- The checks of `AnalysisInputProcessor::new` (fcfb.rs:162-163) and `AnalysisOutputProcessor::new` (fcfb.rs:262-263). -/
def Analysis.check (a : Analysis) : Res Unit := do
  checkSize a.size a.overlap
  checkSize a.out a.overlap

/-- One bin in `AnalysisOutputProcessor::process` (fcfb.rs:276-311). -/
noncomputable def Analysis.bin (a : Analysis) (spectrum : Nat → ℂ) (block : Int) (d : Int) : ℂ :=
  let num := phase a.center block a.overlap
  let scaling : ℝ := if num ≥ 2 then -(1 / (a.size : ℝ)) else 1 / (a.size : ℝ)
  let weighted : ℂ := a.weights (d % a.out).toNat * spectrum ((a.center + d) % a.size).toNat * scaling
  if num % 2 = 1 then ⟨-weighted.im, weighted.re⟩ else weighted

/-- The loop of `AnalysisOutputProcessor::process` (fcfb.rs:291-314) over bins from `-out / 2` on; `old` is what is in the buffer. -/
noncomputable def Analysis.fill (a : Analysis) (spectrum : Nat → ℂ) (block : Int) (old : Nat → ℂ) : Nat → ℂ :=
  (upTo (-((a.out / 2 : Nat) : Int)) (2 * (a.out / 2))).foldl
    (fun buffer (d : Int) => Function.update buffer (d % a.out).toNat (a.bin spectrum block d)) old

/-- `AnalysisInputProcessor::process` (fcfb.rs:201-207) followed by `AnalysisOutputProcessor::process` (fcfb.rs:273-319). -/
noncomputable def Analysis.process (a : Analysis) (input : Nat → ℂ) (block : Int) (old : Nat → ℂ) : Res (List ℂ) :=
  middle a.out a.overlap (ifft a.out (a.fill (fft a.size input) block old))

/-- `SynthesisBufferState` (fcfb.rs:364-375). -/
inductive State
  | clear
  | input
  | output
  deriving DecidableEq, Repr

/-- `SynthesisOutputProcessor` (fcfb.rs:351-361). -/
structure Output where
  size : Nat
  overlap : Overlap
  buffer : Nat → ℂ
  state : State

/-- `SynthesisOutputProcessor::new` (fcfb.rs:386-394). -/
def Output.new (size : Nat) (o : Overlap) : Res Output := do
  checkSize size o
  return ⟨size, o, fun _ => 0, .clear⟩

/-- `SynthesisOutputProcessor::clear` (fcfb.rs:396-401). -/
def Output.clear (s : Output) : Output := { s with buffer := fun _ => 0, state := .clear }

/-- `SynthesisIntermediateResult` (fcfb.rs:377-383), with the length of `fft_result`. -/
structure Part where
  offset : Nat
  size : Nat
  values : Nat → ℂ

/-- `SynthesisOutputProcessor::add` (fcfb.rs:403-419). -/
noncomputable def Output.add (s : Output) (p : Part) : Output :=
  let s := if s.state = .output then s.clear else s
  { s with
    buffer := (List.range p.size).foldl
      (fun buffer i => Function.update buffer ((p.offset + i) % s.size) (buffer ((p.offset + i) % s.size) + p.values i)) s.buffer
    state := .input }

/-- `SynthesisOutputProcessor::process` (fcfb.rs:421-443). -/
noncomputable def Output.process (s : Output) : Output × Res (List ℂ) :=
  let s := match s.state with
    | .clear => s
    | .input => { s with buffer := ifft s.size s.buffer, state := .output }
    | .output => s.clear
  (s, middle s.size s.overlap s.buffer)

/-- `SynthesisInputProcessor` (fcfb.rs:485-498): `size` is the length of the weights, `out` is `ifft_size` of the output. -/
structure Channel where
  size : Nat
  overlap : Overlap
  center : Int
  weights : Nat → ℝ
  out : Nat

/-- Weights, scaling and rotation in `SynthesisInputProcessor::process` (fcfb.rs:525-541). -/
noncomputable def Channel.bin (c : Channel) (input : Nat → ℂ) (block : Int) (k : Nat) : ℂ :=
  let num := phase c.center block c.overlap
  let scaling : ℝ := if num ≥ 2 then -(1 / (c.size : ℝ)) else 1 / (c.size : ℝ)
  let value : ℂ := fft c.size input k * c.weights k * scaling
  if num % 2 = 1 then ⟨value.im, -value.re⟩ else value

/-- The loop which swaps halves (fcfb.rs:545-548). Each pair is swapped once, so the loop is written as a function of the index. -/
def swap {α : Type} (size : Nat) (x : Nat → α) (j : Nat) : α :=
  if j < size / 2 then x (size / 2 + j) else if j < 2 * (size / 2) then x (j - size / 2) else x j

/-- `SynthesisInputProcessor::new` (fcfb.rs:506-518) and `process` (fcfb.rs:521-551). -/
noncomputable def Channel.process (c : Channel) (input : Nat → ℂ) (block : Int) : Part where
  offset := ((c.center - (c.size / 2 : Nat)) % c.out).toNat
  size := c.size
  values := swap c.size (c.bin input block)

/-- One output block: the signals of all channels are added (soapy_dev.rs:382-388, `ModulatorChannel::process`), then processed. -/
noncomputable def Output.block (s : Output) (cs : List (Channel × (Nat → ℂ))) (block : Int) : Output × Res (List ℂ) :=
  (cs.foldl (fun s c => s.add (c.1.process c.2 block)) s).process

/-- First loop of `raised_cosine_weights` (fcfb.rs:594-599), `n` times. -/
noncomputable def flatLoop (size : Nat) : Nat → (Nat → ℝ)
  | 0 => fun _ => 0
  | i + 1 =>
    let w := Function.update (flatLoop size i) i 1
    if i ≠ 0 then Function.update w (size - i) 1 else w

/-- `v` in `raised_cosine_weights` (fcfb.rs:601). -/
noncomputable def slope (transition i : Nat) : ℝ := 0.5 + 0.5 * Real.cos (Real.pi * (i + 1 : Nat) / (transition + 1 : Nat))

/-- Second loop of `raised_cosine_weights` (fcfb.rs:600-607), `n` times. -/
noncomputable def slopeLoop (size half transition : Nat) : Nat → (Nat → ℝ)
  | 0 => flatLoop size half
  | i + 1 =>
    let w := Function.update (slopeLoop size half transition i) (half + i) (slope transition i)
    if half + i ≠ 0 then Function.update w (size - (half + i)) (slope transition i) else w

/-- `raised_cosine_weights` (fcfb.rs:582-610). -/
noncomputable def raisedCosine (size passband transition : Nat) : Res (Nat → ℝ) := do
  Res.assert (size % 2 = 0)
  let half := passband / 2 + 1
  Res.assert (half + transition ≤ size / 2)
  return slopeLoop size half transition transition

/-- `a - b` of `usize`. -/
def subtract (a b : Nat) : Res Nat := if b ≤ a then .ok (a - b) else .panic

/-- `raised_cosine_weights_default` (fcfb.rs:630-656). -/
noncomputable def defaultWeights (size : Nat) (passband transition : Option Nat) (o : Overlap) : Res (Nat → ℝ) := do
  match passband, transition with
  | some p, some t => raisedCosine size p t
  | some p, none =>
    let x ← subtract size (p / 2 * 2)
    let t ← subtract (x / 2) 1
    raisedCosine size p t
  | none, t =>
    let most ← subtract (size / 2) 1
    let t := min (t.getD (match o with | .half => 15 | .quarter => 31)) most
    let x ← subtract size 2
    let y ← subtract x (2 * t)
    raisedCosine size (y + 1) t

/-- The design of a channel: `RxDsp::new` (soapy_dev.rs:166-174) and `AnalysisOutputParameters::for_frequency` (fcfb.rs:221-244) with the
sample rate and bandwidth of `DemodulatorChannel::new` (soapy_dev.rs:418-424). The transmitter does the same (soapy_dev.rs:316-321,
fcfb.rs:459-482). Rates and frequencies are whole numbers of Hertz, and the arithmetic is exact. -/
structure Design where
  size : Nat
  out : Nat
  center : Int
  passband : Nat
  deriving DecidableEq, Repr

/-- See `Design`: for a radio with sample rate `rate` tuned to `tuned`, and a carrier at `freq`. -/
def design (rate : Nat) (tuned freq : Int) : Design :=
  let size := (Receive.roundDiv rate 500).toNat
  { size := size
    out := (Receive.roundDiv (72000 * size) rate).toNat
    center := Receive.roundDiv ((freq - tuned) * size) rate % size
    passband := (Receive.roundDiv (25000 * size) rate).toNat }

end Verif.Dsp.Bank
