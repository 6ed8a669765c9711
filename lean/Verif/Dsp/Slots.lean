import Verif.Core.Tdma
/-!
# When slots are demodulated and handed to the stack

Model of the timing logic of `crates/tetra-entities/src/phy/components/demodulator.rs` in uplink mode, of the part of
`soapy_dev.rs` which feeds it, and of the loop of the stack around it (`phy_bs.rs`, `messagerouter.rs`).

The samples themselves are left out: what is kept is their counter. There is one carrier (`bs_ul_frequencies` has one element,
soapy_dev.rs:73-77), so one demodulator.
-/
namespace Verif.Dsp.Slots
open Verif Verif.Tdma

/-- `SAMPLES_SLOT` (demodulator.rs:23-24). -/
def perSlot : Int := 1020

/-- `CHANNEL_FILTER_TAPS.len()` (modem_common.rs:6). -/
def filterDelay : Int := 16

/-- `Demodulator` (demodulator.rs:43-77), what concerns the time. `reference_time` stays 0 and the mode stays `Ul`. -/
structure Demod where
  slot : Time
  ready : Int
  next : Int
  time : Time
  avail : Bool
  deriving DecidableEq, Repr

/-- `set_slot` with `set_slot_ready_time` and `slot_ready_from_begin` (demodulator.rs:111-137). -/
def Demod.setSlot (s : Demod) (t : Time) : Demod := { s with slot := t, ready := t.toInt * perSlot + perSlot }

/-- `Demodulator::new` (demodulator.rs:80-105). -/
def Demod.new : Demod := (⟨.default, 0, 0, .default, false⟩ : Demod).setSlot .default

/-- `add_slots` (demodulator.rs:107-109). -/
def Demod.addSlots (s : Demod) (n : Int) : Res Demod := do
  let t ← s.slot.addTimeslots n
  return s.setSlot t

/-- `as i32` of an `i64`. -/
def toI32 (n : Int) : Int := Int.bmod n (2 ^ 32)

/-- The next slot which is not in the past, if the one waited for is in the past or far in the future (demodulator.rs:167-178). -/
def Demod.skip (s : Demod) (c : Int) : Res Demod :=
  let tdiff := c - s.ready
  if -2 * perSlot ≤ tdiff ∧ tdiff ≤ 0 then .ok s else s.addSlots (toI32 (-(-tdiff / perSlot)))

/-- `process_sample` (demodulator.rs:159-208) for the sample with this counter: the new state, and the slot which is read from the
past samples at this point, if any (`process_past_samples`; it is reported as two slots earlier, demodulator.rs:319-323). -/
def Demod.process (s : Demod) (counter : Int) : Res (Demod × Option Time) := do
  let c := counter - filterDelay
  let s ← s.skip c
  if c = s.ready then do
    let t ← s.slot.addTimeslots (-2)
    let s' ← ({ s with time := t, avail := true } : Demod).addSlots 1
    return (s', some s.slot)
  else return (s, none)

/-- A number of calls of `process_sample`. -/
def Demod.processAll (s : Demod) : List Int → Res (Demod × List Time)
  | [] => .ok (s, [])
  | c :: cs => do
    let r ← s.process c
    let q ← r.1.processAll cs
    return (q.1, r.2.toList ++ q.2)

/-- The counters `a`, `a + 1`, … (`n` of them). -/
def upTo (a : Int) (n : Nat) : List Int := (List.range n).map fun i : Nat => a + i

/-- `sample` (demodulator.rs:140-157): zeros in place of up to one slot of lost samples, then the sample. -/
def Demod.sample (s : Demod) (counter : Int) : Res (Demod × List Time) := do
  let lost := counter - s.next
  let add := min (max lost 0) perSlot
  let r ← s.processAll (upTo (counter - add) (add.toNat + 1))
  return ({ r.1 with next := counter + 1 }, r.2)

/-- A number of samples. -/
def Demod.samples (s : Demod) : List Int → Res (Demod × List Time)
  | [] => .ok (s, [])
  | c :: cs => do
    let r ← s.sample c
    let q ← r.1.samples cs
    return (q.1, r.2 ++ q.2)

/-- Samples in a block at the rate of the demodulator: 72000 / 500 bins, three quarters of which are new
(soapy_dev.rs:180-188, fcfb.rs:97-109). -/
def perBlock : Nat := 108

/-- `DemodulatorChannel::process` (soapy_dev.rs:415-427) for the block of this number. -/
def Demod.block (s : Demod) (b : Int) : Res (Demod × List Time) := s.samples (upTo (b * perBlock) perBlock)

/-- The receiving part of `rxtx_timeslot` (soapy_dev.rs:128-148, 209-232), given the numbers of the blocks which are received from now
on: blocks are processed until a slot is available, which is then taken. What is left of the blocks, and the slot, or nothing if the
blocks given do not suffice. -/
def Demod.listen (s : Demod) : List Int → Res (Demod × List Int × Option Time)
  | [] => .ok (s, [], none)
  | b :: bs => do
    let r ← s.block b
    if r.1.avail then return ({ r.1 with avail := false }, bs, some r.1.time)
    else r.1.listen bs

/-- The stack: in each tick a slot is handed to the device and one is taken from it (messagerouter.rs:137-190, lmac_bs.rs:373-381,
phy_bs.rs:225-290). `now` is the time of the message router. -/
structure Stack where
  now : Time
  dev : Demod
  deriving DecidableEq, Repr

/-- At the start (main.rs:172). -/
def Stack.init : Stack := ⟨.default, .new⟩

/-- What a tick does: the time for which the slot handed to the device is to be sent (phy_bs.rs:228-232), the time under which the
bursts received are passed on (`dltime - 2`, phy_bs.rs:88), and the time the demodulator says they have, which is not looked at
(phy_bs.rs:254-287). -/
structure Tick where
  tx : Time
  label : Time
  heard : Time
  deriving DecidableEq, Repr

/-- One tick; nothing if the blocks do not suffice. -/
def Stack.tick (s : Stack) (bs : List Int) : Res (Option (Stack × List Int × Tick)) := do
  let tx ← s.now.addTimeslots 1
  let r ← s.dev.listen bs
  match r.2.2 with
  | none => return none
  | some heard => do
    let label ← s.now.addTimeslots (-2)
    let next ← s.now.addTimeslots 1
    return some (⟨next, r.1⟩, r.2.1, ⟨tx, label, heard⟩)

/-- Ticks as long as the blocks suffice, at most `n` of them. -/
def Stack.run (s : Stack) (bs : List Int) : Nat → Res (List Tick)
  | 0 => .ok []
  | n + 1 => do
    match ← s.tick bs with
    | none => return []
    | some (s', bs', t) => do
      let ts ← s'.run bs' n
      return t :: ts

end Verif.Dsp.Slots
