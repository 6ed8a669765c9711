import Mathlib.Data.Rat.Defs
import Mathlib.Algebra.Ring.Rat
import Verif.Core.Tdma
import Verif.Phy.Burst
import Verif.Dsp.Fir

/-!
Model of the modulator (`crates/tetra-entities/src/phy/components/modulator.rs`) and of the way the demodulator
(`demodulator.rs`) turns the filtered signal into bits, with the history buffer (`history.rs`).

Simplifications: floating point numbers are replaced by rational numbers, so rounding is not modelled; the constants are
the decimal numbers written in the code. The estimate of the symbol timing, which the code gets from an arc tangent, is an
argument. Bits are booleans.
-/
namespace Verif.Dsp

open Verif

/-- `CHANNEL_FILTER_TAPS` (modem_common.rs:6-23), in units of 1e-8. -/
def channelTapsInt : List Int :=
  [26497180, 20002119, 10064187, 998249, -4014123, -4405674, -1982716, 642452, 1744363, 1213436, 71221, -609533, -488494,
    28619, 345407, 220812]

/-- `CHANNEL_FILTER_TAPS` (modem_common.rs:6-23). -/
def channelTaps : List ℚ := channelTapsInt.map fun t : Int => (t : ℚ) / 100000000

/-- Samples per symbol (modulator.rs:10, demodulator.rs:18). -/
def sps : Int := 4

/-- Samples per slot (modulator.rs:13, demodulator.rs:24). -/
def samplesSlot : Int := sps * 255

/-! ## Modulator -/

/-- `CONSTELLATION` (modulator.rs:104-137), in units of 1e-6. -/
def constellationInt : List (Int × Int) :=
  [(1000000, 0), (707107, 707107), (0, 1000000), (-707107, 707107), (-1000000, 0), (-707107, -707107), (0, -1000000),
    (707107, -707107)]

/-- `CONSTELLATION` (modulator.rs:104-137). -/
def constellation : List (Cx ℚ) := constellationInt.map fun p : Int × Int => ⟨(p.1 : ℚ) / 1000000, (p.2 : ℚ) / 1000000⟩

/-- `DqpskMapper::symbol` (modulator.rs:90-138): constellation point and new phase. `& 7` on a small signed number is the
remainder modulo eight. -/
def dqpskSymbol (phase : Int) (b0 b1 : Bool) : Res (Cx ℚ × Int) :=
  let phase := (phase + Phy.symbolStep b0 b1) % 8
  match constellation[phase.toNat]? with
  | some c => .ok (c, phase)
  | none => .panic

/-- `Modulator` (modulator.rs:24-31). The reference time is always zero and the mode always downlink. -/
structure Modulator where
  filter : Fir ℚ
  phase : Int

/-- `Modulator::new` (modulator.rs:40-47). -/
def Modulator.new : Res Modulator := do
  let f ← Fir.new channelTaps.length
  return ⟨f, 0⟩

/-- `bits[j] != 0`: a panic beyond the end. -/
def bitAt (bits : List Bool) (j : Nat) : Res Bool :=
  match bits[j]? with
  | some b => .ok b
  | none => .panic

/-- What `Modulator::sample` feeds to the pulse shaping filter (modulator.rs:52-79): `none` when the slot is in the past and
data for the next slot are needed. -/
def Modulator.input (m : Modulator) (counter : Int) (time : Tdma.Time) (bits : Option (List Bool)) :
    Res (Option (Cx ℚ × Int)) :=
  let counter := counter + channelTaps.length
  let slotBegin := time.toInt * samplesSlot
  let inSlot := counter - slotBegin
  if inSlot < 0 then .ok (some (Cx.zero, m.phase))
  else if inSlot ≥ samplesSlot then .ok none
  else match bits with
    | none => .ok (some (Cx.zero, m.phase))
    | some bits =>
      if inSlot % sps = 0 then do
        let i := (inSlot / sps).toNat
        let b0 ← bitAt bits (i * 2)
        let b1 ← bitAt bits (i * 2 + 1)
        let (c, phase) ← dqpskSymbol m.phase b0 b1
        return some (c, phase)
      else .ok (some (Cx.zero, m.phase))

/-- `Modulator::sample` (modulator.rs:50-81). `none` is `Err(NeedMoreData)`. -/
def Modulator.sample (m : Modulator) (counter : Int) (time : Tdma.Time) (bits : Option (List Bool)) :
    Res (Option (Cx ℚ) × Modulator) := do
  match ← m.input counter time bits with
  | none => return (none, m)
  | some (x, phase) => do
    let (y, f) ← m.filter.sample channelTaps x
    return (some y, ⟨f, phase⟩)

/-- A sequence of calls of `Modulator::sample`, each with the sample counter and the slot offered. -/
def Modulator.run (m : Modulator) : List (Int × Tdma.Time × Option (List Bool)) → Res (List (Option (Cx ℚ)) × Modulator)
  | [] => .ok ([], m)
  | (counter, time, bits) :: calls => do
    let (y, m) ← m.sample counter time bits
    let (ys, m) ← m.run calls
    return (y :: ys, m)

/-! ## History -/

/-- `History` (history.rs:2-6). The length `N` is the length of the buffer. -/
structure History (α : Type) where
  buffer : List α
  index : Nat

/-- `History::new` (history.rs:9-14). -/
def History.new {α : Type} (n : Nat) (initial : α) : History α := ⟨List.replicate n initial, 0⟩

/-- `History::write` (history.rs:17-20). -/
def History.write {α : Type} (h : History α) (x : α) : History α :=
  let index := (h.index + 1) % h.buffer.length
  ⟨h.buffer.set index x, index⟩

/-- `History::delayed` (history.rs:23-26). -/
def History.delayed {α : Type} (h : History α) (delay : Nat) : Res α :=
  if delay < h.buffer.length then
    match h.buffer[(h.index + h.buffer.length - delay) % h.buffer.length]? with
    | some x => .ok x
    | none => .panic
  else .panic

/-- The part of `Demodulator` that carries the signal (demodulator.rs:72-74). -/
structure Receiver where
  filter : Fir ℚ
  past : History (Cx ℚ)

/-- `Demodulator::new` (demodulator.rs:99-100). -/
def Receiver.new : Res Receiver := do
  let f ← Fir.new channelTaps.length
  return ⟨f, History.new (4 * 512) Cx.zero⟩

/-- The signal part of `process_sample` (demodulator.rs:163-164). -/
def Receiver.sample (r : Receiver) (x : Cx ℚ) : Res Receiver := do
  let (y, f) ← r.filter.sample channelTaps x
  return ⟨f, r.past.write y⟩

/-- A sequence of samples. -/
def Receiver.run (r : Receiver) : List (Cx ℚ) → Res Receiver
  | [] => .ok r
  | x :: xs => do
    let r ← r.sample x
    r.run xs

/-! ## Decisions -/

/-- One symbol of the filtered signal (demodulator.rs:250-252): linear interpolation between two neighbouring samples. `d - i`
below zero is a panic. -/
def symbolAt (past : History (Cx ℚ)) (d i : Nat) (fract : ℚ) : Res (Cx ℚ) :=
  if d < i + 1 then .panic else do
  let a ← past.delayed (d - i)
  let b ← past.delayed (d - (i + 1))
  return ⟨(1 - fract) * a.re + fract * b.re, (1 - fract) * a.im + fract * b.im⟩

/-- The decisions on one symbol (demodulator.rs:254-260): signs of the parts of `symbol * previous.conj()`. -/
def decideBits (previous symbol : Cx ℚ) : List Bool :=
  let re := symbol.re * previous.re + symbol.im * previous.im
  let im := symbol.im * previous.re - symbol.re * previous.im
  [decide (im < 0), decide (re < 0)]

/-- The loop over the symbols of a slot (demodulator.rs:248-262), from symbol number `k`. -/
def decideFrom (past : History (Cx ℚ)) (d first : Nat) (fract : ℚ) (previous : Cx ℚ) : Nat → Nat → Res (List Bool)
  | _, 0 => .ok []
  | k, n + 1 => do
    let s ← symbolAt past d (first + 4 * k) fract
    let rest ← decideFrom past d first fract s (k + 1) n
    return decideBits previous s ++ rest

/-- The bits of a slot (demodulator.rs:233-262): `d` samples back, `n` symbols, the first of them at sample number `first` and
the fraction `fract` after it (`symbol_timing.floor()` and `.fract()`). The first symbol is the phase reference of the second. -/
def slotBits (past : History (Cx ℚ)) (d n first : Nat) (fract : ℚ) : Res (List Bool) :=
  match n with
  | 0 => .ok []
  | n + 1 => do
    let s ← symbolAt past d first fract
    decideFrom past d first fract s 1 n

end Verif.Dsp
