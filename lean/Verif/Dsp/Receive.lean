import Verif.Dsp.Slots
/-!
# How received samples are counted and put into blocks

Model of `crates/tetra-entities/src/phy/components/soapy_time.rs`, of `SoapyIo::receive` (`soapyio.rs`) and of `RxDsp::receive_block`
(`soapy_dev.rs`). Samples are represented by their true number since the radio was switched on.

Simplifications: sample rates are whole numbers of Hertz, and the floating point arithmetic of `soapy_time.rs` is exact. `i64` does not
overflow.
-/
namespace Verif.Dsp.Receive
open Verif Verif.Dsp.Slots

/-- `f64::round` of the fraction `a / b`, for positive `b`: to the nearest whole number, halves away from zero. -/
def roundDiv (a b : Int) : Int := if 0 ≤ a then (2 * a + b) / (2 * b) else -((-2 * a + b) / (2 * b))

/-- Nanoseconds in a second. -/
def giga : Int := 1000000000

/-- `ticks_to_time_ns` (soapy_time.rs:9-27) for a whole rate, so `part` is 0. Rust's `/` truncates. -/
def ticksToNs (ticks rate : Int) : Int :=
  let full := Int.tdiv ticks rate
  let err := ticks - full * rate
  full * giga + roundDiv (err * giga) rate

/-- `time_ns_to_ticks` (soapy_time.rs:31-48) for a whole rate. -/
def nsToTicks (ns rate : Int) : Int :=
  let full := Int.tdiv ns giga
  let err := ns - full * giga
  full * rate + roundDiv (err * rate) giga

/-- What `SoapyIo` (soapyio.rs:22-43) remembers about received samples, and the number of the next sample the radio will take. -/
structure Io where
  rate : Int
  initial : Option Int
  next : Int
  prev : Int
  pos : Int
  deriving DecidableEq, Repr

/-- `SoapyIo::new` (soapyio.rs:173-186); the radio is at sample `pos`. -/
def Io.new (rate pos : Int) : Io := ⟨rate, none, 0, -1, pos⟩

/-- A read from the radio: how many samples were lost before it, how many it delivers if there is room for them, and whether it comes with
a timestamp. Without one the driver's wrapper goes on giving the last (soapyio.rs:204-207). -/
structure Read where
  lost : Nat
  len : Nat
  stamped : Bool
  deriving DecidableEq, Repr

/-- Timestamp of a sample: the radio has a counter of samples and converts it as SoapySDR does. -/
def stamp (rate pos : Int) : Int := ticksToNs pos rate

/-- `SoapyIo::receive` (soapyio.rs:189-244) with room for `room` samples: the samples delivered and the counter
given to the first of them. -/
def Io.receive (s : Io) (r : Read) (room : Nat) : Res (Io × List Int × Int) :=
  let pos := s.pos + r.lost
  let samples := upTo pos (min r.len room)
  let time := if r.stamped then stamp s.rate pos else s.prev
  let available := time ≠ s.prev
  let initial : Option Int := match s.initial with
    | some t => some t
    | none => if available then some (time - ticksToNs s.next s.rate) else none
  let count : Res Int := if available then
      match initial with
      | some t => .ok (nsToTicks (time - t) s.rate)
      | none => .panic
    else .ok s.next
  match count with
  | .panic => .panic
  | .ok count =>
    let delta := count - s.next
    if -1 ≤ delta ∧ delta ≤ 1 then
      if delta = 0 then .ok (⟨s.rate, initial, s.next + samples.length, time, pos + samples.length⟩, samples, s.next)
      else match initial with
        | some t => .ok (⟨s.rate, some (t + ticksToNs delta s.rate), s.next + samples.length, time, pos + samples.length⟩, samples, s.next)
        | none => .panic
    else .ok (⟨s.rate, initial, count + samples.length, time, pos + samples.length⟩, samples, count)

/-- `RxDsp` (soapy_dev.rs:150-161) in the middle of `receive_block`: `new` and `overlap` are the block sizes, `filled` is `rx_buffer_i`,
and `skip` is `samples_to_skip`. -/
structure Rx where
  new : Nat
  overlap : Nat
  buffer : List Int
  filled : Nat
  block : Int
  skip : Nat
  io : Io
  deriving DecidableEq, Repr

/-- The beginning of `receive_block` (soapy_dev.rs:235-240), for a buffer of the right length. -/
def Rx.begin (s : Rx) : Rx :=
  { s with
    block := s.block + 1
    buffer := (s.buffer.drop s.new).take s.overlap ++ s.buffer.drop s.overlap
    filled := s.overlap }

/-- `RxDsp::new` (soapy_dev.rs:164-207) and the beginning of the first `receive_block`. -/
def Rx.init (new overlap : Nat) (io : Io) : Rx :=
  Rx.begin ⟨new, overlap, List.replicate (overlap + new) 0, 0, 0, 0, io⟩

/-- Samples are put into the buffer. -/
def put (buffer : List Int) (i : Nat) (xs : List Int) : List Int := buffer.take i ++ xs ++ buffer.drop (i + xs.length)

/-- A block given to the demodulators. -/
structure Block where
  number : Int
  samples : List Int
  deriving DecidableEq, Repr

/-- One read in the loops of `receive_block` (soapy_dev.rs:242-292), and the beginning of the next `receive_block` when a block is
complete, which is the result. -/
def Rx.step (s : Rx) (r : Read) : Res (Rx × Option Block) := do
  if s.skip > 0 then
    if s.skip ≤ s.buffer.length then do
      let (io, xs, _) ← s.io.receive r s.skip
      return ({ s with io := io, buffer := put s.buffer 0 xs, skip := s.skip - xs.length }, none)
    else .panic
  else do
    let (io, xs, count) ← s.io.receive r (s.buffer.length - s.filled)
    let buffer := put s.buffer s.filled xs
    if count - (s.block * s.new + s.filled) ≠ 0 then
      let next := count + xs.length
      let block := -(next / (-(s.new : Int))) + 1
      return ({ s with io := io, buffer := buffer, block := block, filled := 0, skip := (block * s.new - next).toNat }, none)
    else
      let filled := s.filled + xs.length
      if filled = buffer.length then
        return (({ s with io := io, buffer := buffer, filled := filled } : Rx).begin, some ⟨s.block, buffer⟩)
      else return ({ s with io := io, buffer := buffer, filled := filled }, none)

/-- A number of reads: the blocks produced. -/
def Rx.run (s : Rx) : List Read → Res (Rx × List Block)
  | [] => .ok (s, [])
  | r :: rs => do
    let (s1, b) ← s.step r
    let (s2, bs) ← s1.run rs
    return (s2, b.toList ++ bs)

end Verif.Dsp.Receive
