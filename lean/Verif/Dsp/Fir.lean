import Mathlib.Algebra.Ring.Defs
import Verif.Common

/-!
Model of `crates/tetra-entities/src/phy/components/fir.rs`: the streaming filter `FirComplexSym`, used for pulse
shaping in the modulator and as matched filter in the demodulator.

Simplification: 32-bit floating point numbers are replaced by the elements of a commutative ring `R` (the rationals, the
reals, …), so rounding is not modelled. Everything else is as in the code: the doubled ("fake circular") history
buffers, the buffer with the reversed older half of the history, the slices and the summation in four lanes. Index
arithmetic that would leave a buffer or go below zero is a panic.
-/
namespace Verif.Dsp

open Verif

/-- `ComplexSample` (dsp_types.rs:5-8). -/
structure Cx (R : Type) where
  re : R
  im : R
deriving DecidableEq, Repr

variable {R : Type} [CommRing R]

/-- `ComplexSample::ZERO`. -/
def Cx.zero : Cx R := ⟨0, 0⟩

/-- `VECLEN` (fir.rs:3). -/
def vecLen : Nat := 4

/-- `FirComplexSym` (fir.rs:6-21). -/
structure Fir (R : Type) where
  half : Nat
  i : Nat
  historyRe : List R
  historyIm : List R
  reversedRe : List R
  reversedIm : List R

/-- `FirComplexSym::new` (fir.rs:24-35). -/
def Fir.new (half : Nat) : Res (Fir R) :=
  if half % vecLen = 0 then
    .ok ⟨half, 0, List.replicate (half * 2) 0, List.replicate (half * 2) 0,
      List.replicate (half * 2) 0, List.replicate (half * 2) 0⟩
  else .panic

/-- `v[j]` for reading: a panic beyond the end. -/
def readAt (v : List R) (j : Nat) : Res R :=
  match v[j]? with
  | some x => .ok x
  | none => .panic

/-- `v[j] = x`: a panic beyond the end. -/
def writeAt (v : List R) (j : Nat) (x : R) : Res (List R) :=
  if j < v.length then .ok (v.set j x) else .panic

/-- `&v[from..from + len]`: a panic beyond the end. -/
def slice (v : List R) (start len : Nat) : Res (List R) :=
  if start + len ≤ v.length then .ok ((v.drop start).take len) else .panic

/-- The loop over chunks of four of taps, first half of the history and reversed second half (fir.rs:64-75), one lane
per position in the chunk. An incomplete chunk at the end is left out (`chunks_exact`). -/
def lanes : List R → List R → List R → R × R × R × R → R × R × R × R
  | t0 :: t1 :: t2 :: t3 :: ts, h0 :: h1 :: h2 :: h3 :: hs, r0 :: r1 :: r2 :: r3 :: rs, (a, b, c, d) =>
    lanes ts hs rs (a + (h0 + r0) * t0, b + (h1 + r1) * t1, c + (h2 + r2) * t2, d + (h3 + r3) * t3)
  | _, _, _, acc => acc

/-- `sum.iter().sum()` (fir.rs:81-82). -/
def laneSum (l : R × R × R × R) : R := l.1 + l.2.1 + l.2.2.1 + l.2.2.2

/-- What `sample` does to the buffers of one of the two parts of the signal (fir.rs:45-52): move the oldest sample of the
history to the reversed history, put in the new one. -/
def shiftIn (half i : Nat) (history reversed : List R) (x : R) : Res (List R × List R) := do
  let old ← readAt history i
  let ir := half - 1 - i
  let reversed ← writeAt reversed ir old
  let reversed ← writeAt reversed (ir + half) old
  let history ← writeAt history i x
  let history ← writeAt history (i + half) x
  return (history, reversed)

/-- The filtered value of one of the two parts of the signal (fir.rs:61-76, 81-82). -/
def weigh (taps : List R) (half i : Nat) (history reversed : List R) : Res R := do
  let h ← slice history (i + 1) half
  let r ← slice reversed (half - 1 - i) half
  return laneSum (lanes taps h r (0, 0, 0, 0))

/-- `FirComplexSym::sample` (fir.rs:37-84). `half_length - 1 - i` below zero is a panic. -/
def Fir.sample (f : Fir R) (taps : List R) (x : Cx R) : Res (Cx R × Fir R) := do
  if taps.length ≠ f.half then Res.panic else
  if f.half < 1 + f.i then Res.panic else do
  let (hRe, rRe) ← shiftIn f.half f.i f.historyRe f.reversedRe x.re
  let (hIm, rIm) ← shiftIn f.half f.i f.historyIm f.reversedIm x.im
  let re ← weigh taps f.half f.i hRe rRe
  let im ← weigh taps f.half f.i hIm rIm
  return (⟨re, im⟩, ⟨f.half, if f.i < f.half - 1 then f.i + 1 else 0, hRe, hIm, rRe, rIm⟩)

/-- Filtering a signal sample by sample. -/
def Fir.run (f : Fir R) (taps : List R) : List (Cx R) → Res (List (Cx R) × Fir R)
  | [] => .ok ([], f)
  | x :: xs => do
    let (y, f) ← f.sample taps x
    let (ys, f) ← f.run taps xs
    return (y :: ys, f)

end Verif.Dsp
