import Verif.Core.Freqs
/-! # Property C08: carrier frequencies -/
namespace Verif.Freqs

/-- C08: the 2-bit offset code and its value in Hz convert back and forth without loss; nothing else
converts. -/
theorem c08_offset_roundtrip :
    (∀ id hz, offsetIdToHz id = some hz ↔ offsetHzToId hz = some id) ∧
    (∀ id, (offsetIdToHz id).isSome = true ↔ id < 4) := by
  constructor
  · intro id hz
    unfold offsetHzToId
    match id with
    | 0 => simp only [offsetIdToHz, Option.some.injEq]; split <;> (try split) <;> (try split) <;> (try split) <;> simp_all <;> omega
    | 1 => simp only [offsetIdToHz, Option.some.injEq]; split <;> (try split) <;> (try split) <;> (try split) <;> simp_all <;> omega
    | 2 => simp only [offsetIdToHz, Option.some.injEq]; split <;> (try split) <;> (try split) <;> (try split) <;> simp_all <;> omega
    | 3 => simp only [offsetIdToHz, Option.some.injEq]; split <;> (try split) <;> (try split) <;> (try split) <;> simp_all <;> omega
    | n + 4 =>
      simp only [offsetIdToHz]
      split <;> (try split) <;> (try split) <;> (try split) <;> simp
  · intro id
    match id with
    | 0 | 1 | 2 | 3 => simp [offsetIdToHz]
    | n + 4 => simp [offsetIdToHz]

/-- The frequency plan (clause cited in freqs.rs:123-135): downlink in Hz. -/
def planDl (band carrier : Nat) (off : Int) : Int := band * 100000000 + carrier * 25000 + off

/-- What `from_components` accepts. -/
theorem fromComponents_ok {band carrier : Nat} {off : Int} {reverse : Bool} {duplex : Nat} {custom : Option Nat}
    {x : FreqInfo} (h : fromComponents band carrier off reverse duplex custom = .ok (some x)) :
    band ≤ 8 ∧ carrier < 4000 ∧ (off = 0 ∨ off = 6250 ∨ off = -6250 ∨ off = 12500) ∧
    x.band = band ∧ x.carrier = carrier ∧ x.freqOffsetHz = off ∧ x.reverse = reverse ∧
    x.duplexSpacingId = duplex ∧
    (∀ c, custom = some c → x.duplexSpacingVal = c) ∧
    (custom = none → getDefaultDuplexSpacing band duplex = .ok (some x.duplexSpacingVal)) := by
  unfold fromComponents at h
  by_cases h1 : band ≤ 8 <;> by_cases h2 : carrier < 4000 <;>
    by_cases h3 : off = 0 ∨ off = 6250 ∨ off = -6250 ∨ off = 12500 <;> simp [h1, h2, h3, Res.assert] at h
  cases custom with
  | some c => simp at h; subst h; simp [h1, h2, h3]
  | none =>
    simp only [Res.bind_eq_ok] at h
    obtain ⟨sp, hsp, h⟩ := h
    cases sp with
    | none => simp at h
    | some v => simp at h; subst h; simp [h1, h2, h3, hsp]

/-- C08: for every configuration accepted by `from_components` in a non-zero band, whenever the result
is representable the downlink is exactly the planned frequency and the uplink lies exactly one duplex
spacing below (normal) or above (reverse); otherwise the computation aborts: it never returns a wrong
number. -/
theorem c08_freqs_exact (band carrier : Nat) (off : Int) (reverse : Bool) (duplex : Nat) (custom : Option Nat)
    (x : FreqInfo) (h : fromComponents band carrier off reverse duplex custom = .ok (some x)) (hb : 1 ≤ band)
    (dl ul : Nat) (hf : x.getFreqs = .ok (dl, ul)) :
    (dl : Int) = planDl band carrier off ∧
    (ul : Int) = (if reverse then (dl : Int) + x.duplexSpacingVal else (dl : Int) - x.duplexSpacingVal) := by
  obtain ⟨h1, h2, h3, e1, e2, e3, e4, -, -, -⟩ := fromComponents_ok h
  unfold FreqInfo.getFreqs at hf
  simp only [e1, e2, e3, e4] at hf
  unfold planDl
  split at hf
  · simp at hf
  · split at hf
    · rename_i hr
      split at hf <;> simp at hf
      obtain ⟨rfl, rfl⟩ := hf
      rw [if_pos hr]
      omega
    · rename_i hr
      split at hf <;> simp at hf
      obtain ⟨rfl, rfl⟩ := hf
      rw [if_neg hr]
      omega

/-- Every entry of the standard duplex table is at most 45 MHz. -/
theorem table_bound (band duplex v : Nat) (h : getDefaultDuplexSpacing band duplex = .ok (some v)) :
    v ≤ 45000000 := by
  have key : ∀ row ∈ table, ∀ e ∈ row, ∀ k, e = some k → k ≤ 45000 := by
    intro row hr e he k hk
    subst hk
    simp only [table, List.mem_cons, List.not_mem_nil, or_false] at hr
    rcases hr with rfl | rfl | rfl | rfl | rfl | rfl | rfl | rfl <;>
      simp only [List.mem_cons, List.not_mem_nil, or_false, Option.some.injEq, reduceCtorEq, false_or, or_self] at he <;>
      omega
  unfold getDefaultDuplexSpacing at h
  split at h
  · split at h
    · simp at h
    · rename_i row hrow
      split at h
      · simp at h
      · rename_i e he
        simp at h
        obtain ⟨k, hk, rfl⟩ := h
        have := key row (List.mem_of_getElem? hrow) _ (List.mem_of_getElem? he) k hk
        omega
  · simp at h

/-- C08: with the standard duplex table, bands 1 to 8 never abort. -/
theorem c08_standard_total (band carrier : Nat) (off : Int) (reverse : Bool) (duplex : Nat)
    (x : FreqInfo) (h : fromComponents band carrier off reverse duplex none = .ok (some x)) (hb : 1 ≤ band) :
    ∃ dl ul, x.getFreqs = .ok (dl, ul) := by
  obtain ⟨h1, h2, h3, e1, e2, e3, e4, -, -, hd⟩ := fromComponents_ok h
  have hv := table_bound _ _ _ (hd rfl)
  unfold FreqInfo.getFreqs
  simp only [e1, e2, e3, e4]
  have hd0 : (100000000 * (band : Int) + carrier * 25000 + off) / 4294967296 = 0 := by omega
  rw [if_neg (by omega)]
  by_cases hr : reverse = true
  · rw [if_pos hr, if_pos (by omega)]; exact ⟨_, _, rfl⟩
  · rw [if_neg hr, if_pos (by omega)]; exact ⟨_, _, rfl⟩

/-- C08, negative: in band 0, carrier 0 with offset -6250 Hz is accepted and yields the wrapped
downlink frequency 4294961046 Hz. -/
theorem c08_band0_wraps :
    ∃ x, fromComponents 0 0 (-6250) false 2 none = .ok (some x) ∧ x.getFreqs = .ok (4294961046, 4294961046) := by
  refine ⟨_, rfl, ?_⟩; decide

/-- C08, negative: a custom duplex spacing above the downlink frequency is accepted, then aborts the
process when frequencies are computed. -/
theorem c08_custom_spacing_aborts :
    ∃ x, fromComponents 1 0 0 false 0 (some 100000001) = .ok (some x) ∧ x.getFreqs = .panic := by
  refine ⟨_, rfl, ?_⟩; decide

example : ∃ x, fromComponents 4 1001 0 false 0 none = .ok (some x) ∧
    x.getFreqs = .ok (425025000, 415025000) := by refine ⟨_, rfl, ?_⟩; decide

end Verif.Freqs
