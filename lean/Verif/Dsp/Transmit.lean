import Verif.Dsp.Slots
/-!
# When slots are sent

Model of the transmitting part of `crates/tetra-entities/src/phy/components/soapy_dev.rs` together with the receiving part and the
ticks of the stack (`Dsp/Slots.lean`). A sample is kept only as the place in a slot it is made from.
-/
namespace Verif.Dsp.Slots
open Verif Verif.Tdma

/-- A sample to be sent: silence, or the sample with this number of the slot with this time. -/
abbrev Sample := Option (Time × Int)

/-- `Modulator::sample` (modulator.rs:50-81) for the slot with this time, offered for the sample with this counter; `none` is
`NeedMoreData`. The stack always gives the bits of a whole slot (phy_bs.rs:228-232). -/
def sampleAt (time : Time) (counter : Int) : Option Sample :=
  let inSlot := counter + filterDelay - time.toInt * perSlot
  if inSlot < 0 then some none
  else if inSlot ≥ perSlot then none
  else some (some (time, inSlot))

/-- The loop of `ModulatorChannel::process` (soapy_dev.rs:472-487), `n` samples before the buffer is full: the buffer, and whether it
is full. -/
def fill (time : Time) (block : Int) (buf : List Sample) : Nat → List Sample × Bool
  | 0 => (buf, true)
  | n + 1 =>
    match sampleAt time (block * perBlock + buf.length) with
    | none => (buf, false)
    | some x => fill time block (buf ++ [x]) n

/-- A block of samples given to the radio, for the time `number`, when the clock of the radio said `clock`. -/
structure Sent where
  number : Int
  samples : List Sample
  clock : Int
  deriving DecidableEq, Repr

/-- `TxDsp` (soapy_dev.rs:312-317) with its only `ModulatorChannel`: the number of the next block, and the part of it which has been
produced already (`buffer` up to `buffer_i`). -/
structure Tx where
  block : Int
  buf : List Sample
  deriving DecidableEq, Repr

/-- `TxDsp::new` (soapy_dev.rs:320-344). -/
def Tx.new : Tx := ⟨0, []⟩

/-- `TxDsp::process_block` (soapy_dev.rs:346-403): the clock of the radio in blocks, the latest block received, and the slot to send.
What is given to the radio, if anything (then the answer of the function is true). The filter bank between modulator and radio keeps
the block structure; errors of the device end the program (phy_bs.rs:243). -/
def Tx.process (s : Tx) (clock latestRx : Int) (time : Time) : Tx × Option Sent :=
  let d := s.block - clock
  let block := if d < 2 then clock + 2 else s.block
  if d > 60 then (⟨block, s.buf⟩, none)
  else if block - latestRx > 60 then (⟨block, s.buf⟩, none)
  else
    match fill time block s.buf (perBlock - s.buf.length) with
    | (buf, false) => (⟨block, buf⟩, none)
    | (buf, true) => (⟨block + 1, []⟩, some ⟨block, buf, clock⟩)

/-- The device together with the stack. `pumping` is the point reached in `rxtx_timeslot` (soapy_dev.rs:128-148): about to call
`process_tx_block`, or about to call `process_rx_block`. `started` is `tx_possible`: the first block has been received. -/
structure Sys where
  now : Time
  dev : Demod
  tx : Tx
  rxBlock : Int
  started : Bool
  pumping : Bool
  deriving DecidableEq, Repr

/-- At the start; blocks up to number `r` are skipped until the radio delivers a whole one. -/
def Sys.init (r : Int) : Sys := ⟨.default, .new, .new, r, false, true⟩

/-- What the radio answers: `ahead` if it is asked for the time, how many blocks its clock is ahead of the number of the latest block
received; `lost` if it is asked for a block, how many blocks were lost before it. -/
structure Answer where
  ahead : Nat
  lost : Nat
  deriving DecidableEq, Repr

/-- What a step of the program brings about: a block sent, a tick of the stack. -/
structure Effect where
  sent : Option Sent
  tick : Option Tick
  deriving DecidableEq, Repr

/-- The next call of `process_tx_block` or `process_rx_block` in the loops of `rxtx_timeslot` (soapy_dev.rs:104-148); after a slot has
been received the stack runs until it calls `rxtx_timeslot` again, as in `Stack.tick`. -/
def Sys.step (s : Sys) (a : Answer) : Res (Sys × Effect) := do
  if s.pumping then
    if s.started then do
      let time ← s.now.addTimeslots 1
      let r := s.tx.process (s.rxBlock + a.ahead) s.rxBlock time
      return ({ s with tx := r.1, pumping := r.2.isSome }, ⟨r.2, none⟩)
    else return ({ s with pumping := false }, ⟨none, none⟩)
  else do
    let b := s.rxBlock + 1 + a.lost
    let r ← s.dev.block b
    let s' := { s with dev := r.1, rxBlock := b, started := true, pumping := true }
    if r.1.avail then do
      let tx ← s.now.addTimeslots 1
      let label ← s.now.addTimeslots (-2)
      let next ← s.now.addTimeslots 1
      return ({ s' with now := next, dev := { r.1 with avail := false } }, ⟨none, some ⟨tx, label, r.1.time⟩⟩)
    else return (s', ⟨none, none⟩)

/-- A number of steps. -/
def Sys.run (s : Sys) : List Answer → Res (Sys × List Effect)
  | [] => .ok (s, [])
  | a :: as => do
    let r ← s.step a
    let q ← r.1.run as
    return (q.1, r.2 :: q.2)

/-- The blocks sent. -/
def sentBy (es : List Effect) : List Sent := es.filterMap Effect.sent

/-- The ticks of the stack. -/
def ticksBy (es : List Effect) : List Tick := es.filterMap Effect.tick

end Verif.Dsp.Slots
