import Verif.Lmac.Rm3014Props
/-!
# C13 — Which blocks the access-assignment coder and decoder take
-/
namespace Verif.Rm3014
open Verif.Bits

theorem ecc_lt {cw : Nat} (h : cw < 2 ^ 30) : decodeEcc cw < 2 ^ 14 := by
  have key : ∀ x, x < 2 ^ 30 → (x >>> 16) % 2 ^ 16 < 2 ^ 14 := by
    intro x hx
    rw [Nat.shiftRight_eq_div_pow]
    omega
  unfold decodeEcc
  apply key
  split
  · split
    · rename_i k _
      refine Nat.xor_lt_two_pow h ?_
      rw [Nat.one_shiftLeft]
      exact Nat.pow_lt_pow_right (by omega) (by omega)
    · exact h
  · exact h

/-- **C13, which blocks are taken**: blocks of 14 bits are coded and all others abort; any 30 bits received, with whatever errors, give 14
bits and never abort, and all others abort. -/
theorem c13_taken (x : List Bool) (code : BitVec 32) :
    (encodeAach x code = .panic ↔ x.length ≠ 14) ∧ (decodeAach x code = .panic ↔ x.length ≠ 30) ∧
      (x.length = 30 → ∃ y, decodeAach x code = .ok y ∧ y.length = 14) := by
  have hd : x.length = 30 → ∃ y, decodeAach x code = .ok y ∧ y.length = 14 := by
    intro h
    have hlt : ofBits (Scrambler.scramble code x) < 2 ^ 30 := by
      have := ofBits_lt (Scrambler.scramble code x)
      rwa [show (Scrambler.scramble code x).length = 30 by simp [h]] at this
    have := ecc_lt hlt
    exact ⟨toBits 14 (decodeEcc (ofBits (Scrambler.scramble code x))), by simp [decodeAach, h, this], by simp⟩
  refine ⟨?_, ?_, hd⟩
  · by_cases h : x.length = 14
    · simp [encodeAach, h]
    · have hb : (x.length == 14) = false := by simpa using h
      simp [encodeAach, hb, h]
  · by_cases h : x.length = 30
    · obtain ⟨y, hy, _⟩ := hd h
      simp [hy, h]
    · have hb : (x.length == 30) = false := by simpa using h
      simp [decodeAach, hb, h]

/-- Fifteen bits are not taken. -/
example : encodeAach (List.replicate 15 true) 3 = .panic := (c13_taken _ _).1.2 (by decide)

end Verif.Rm3014
