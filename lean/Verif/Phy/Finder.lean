import Verif.Phy.Burst
/-!
# Finding bursts

Model of `find_sequence` and `SlotBurstFinder` in `crates/tetra-entities/src/phy/components/demodulator.rs` (lines 397-587).

Simplifications: bits are booleans. `check_slot` begins with `train_errs = 100` and leaves at the first success, so the
test `dist < self.train_errs` is always passed by a distance which passes the other test (at most 1) and is left out. The
demodulation of the samples into bits is not modelled: it yields 510 bits for a slot and 254 for each half
(`process_slot(.., 256, 0)` and `process_slot(.., 128, ..)`, demodulator.rs:217-222, 265-277).
-/
namespace Verif.Phy

/-- `hamming_distance` (demodulator.rs:404-406). -/
def hamming : List Bool → List Bool → Nat
  | a :: as, b :: bs => (if a = b then 0 else 1) + hamming as bs
  | _, _ => 0

/-- One round of the loop of `find_sequence` (demodulator.rs:414-420) at position `p`; `best` is position and distance. -/
def findStep (bits seq : List Bool) (best : Nat × Nat) (p : Nat) : Nat × Nat :=
  let d := hamming ((bits.drop p).take seq.length) seq
  if d < best.2 then (p, d) else best

/-- Positions 0, 2, 4, … of windows of length `n` in `len` bits (demodulator.rs:414). -/
def evenPositions (len n : Nat) : List Nat := (List.range ((len - n) / 2 + 1)).map (2 * ·)

/-- `find_sequence` (demodulator.rs:411-422). A slice shorter than the sequence has no windows. -/
def findSequence (bits seq : List Bool) : Nat × Nat :=
  if bits.length < seq.length then (0, seq.length)
  else (evenPositions bits.length seq.length).foldl (findStep bits seq) (0, seq.length)

/-- `check_sequence` (demodulator.rs:480-509): where the burst begins, if the sequence is found with at most `maxErr` wrong
bits. -/
def checkSequence (bits : List Bool) (trainPos burstLen : Nat) (seq : List Bool) (maxErr : Nat) : Res (Option Nat) :=
  if bits.length < burstLen then .panic
  else
    let r := findSequence ((bits.drop trainPos).take (bits.length - burstLen + seq.length)) seq
    .ok (if r.2 ≤ maxErr then some r.1 else none)

/-- What `get_burst` hands out (demodulator.rs:580-585). -/
structure RxBurst where
  train : Train
  bits : List Bool
  deriving DecidableEq, Repr

/-- The burst at the position found. -/
def burstAt (bits : List Bool) (train : Train) (len pos : Nat) : RxBurst := ⟨train, (bits.drop pos).take len⟩

/-- `check_slot` for a downlink slot (demodulator.rs:515-542). -/
def findDl (bits : List Bool) : Res (Option RxBurst) := do
  match ← checkSequence bits 214 510 seqY 1 with
  | some p => .ok (some (burstAt bits .sync 510 p))
  | none =>
    match ← checkSequence bits 244 510 seqN 1 with
    | some p => .ok (some (burstAt bits .norm1 510 p))
    | none =>
      match ← checkSequence bits 244 510 seqP 1 with
      | some p => .ok (some (burstAt bits .norm2 510 p))
      | none => .ok none

/-- `check_slot` for a full uplink slot (demodulator.rs:543-562). -/
def findUlFull (bits : List Bool) : Res (Option RxBurst) := do
  match ← checkSequence bits 220 462 seqN 1 with
  | some p => .ok (some (burstAt bits .norm1 462 p))
  | none =>
    match ← checkSequence bits 220 462 seqP 1 with
    | some p => .ok (some (burstAt bits .norm2 462 p))
    | none => .ok none

/-- `check_slot` for an uplink subslot (demodulator.rs:563-573). -/
def findUlSub (bits : List Bool) : Res (Option RxBurst) := do
  match ← checkSequence bits 88 206 seqX 1 with
  | some p => .ok (some (burstAt bits .ext 206 p))
  | none => .ok none

end Verif.Phy
