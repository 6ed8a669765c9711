import Verif.Dsp.Eye

/-!
From sectors to bits: when two symbols are inside their sectors, the demodulator reads the bits between them; the sequence of
bits of a whole slot follows.
-/
namespace Verif.Dsp

open Verif Finset

/-- The turn from one point of the constellation to the next shows the two bits of the symbol in its signs. -/
theorem turn : ∀ p ∈ range 8, ∀ b0 ∈ [false, true], ∀ b1 ∈ [false, true], ∀ c ∈ constellation[p]?,
    ∀ c' ∈ constellation[(((p : Int) + Phy.symbolStep b0 b1) % 8).toNat]?,
    dot c' c = (if b1 then -1 else 1) * (707107 / 1000000) ∧ cross c' c = (if b0 then -1 else 1) * (707107 / 1000000) := by
  decide +kernel

/-- Both borders: the symbol `z` is inside the sector around `v`. -/
def Inside (v z : Cx ℚ) : Prop := 0 < side 1 v z ∧ 0 < side (-1) v z

theorem decideBits_eq {g c c' z z' : Cx ℚ} {p : ℕ} {b0 b1 : Bool} (hp : p < 8) (hc : constellation[p]? = some c)
    (hc' : constellation[(((p : Int) + Phy.symbolStep b0 b1) % 8).toNat]? = some c') (hg : 0 < dot g g)
    (h : Inside (g.mul c) z) (h' : Inside (g.mul c') z') : decideBits z z' = [b0, b1] := by
  obtain ⟨t1, t2⟩ := turn p (mem_range.mpr hp) b0 (by cases b0 <;> simp) b1 (by cases b1 <;> simp) c hc c' hc'
  obtain ⟨h1, h2⟩ := h
  obtain ⟨h3, h4⟩ := h'
  simp only [side] at h1 h2 h3 h4
  -- the turn from `z` to `z'`, seen from the points
  have e1 : dot z' (g.mul c') * dot z (g.mul c) + cross z' (g.mul c') * cross z (g.mul c) =
      dot g g * (dot z' z * dot c' c + cross z' z * cross c' c) := by
    simp only [dot, cross, Cx.mul]; ring
  have e2 : cross z' (g.mul c') * dot z (g.mul c) - dot z' (g.mul c') * cross z (g.mul c) =
      dot g g * (cross z' z * dot c' c - dot z' z * cross c' c) := by
    simp only [dot, cross, Cx.mul]; ring
  generalize dot z (g.mul c) = A at *
  generalize cross z (g.mul c) = B at *
  generalize dot z' (g.mul c') = A' at *
  generalize cross z' (g.mul c') = B' at *
  have hA : 0 < A := by linarith
  have hA' : 0 < A' := by linarith
  have hB : |B| < 41 / 100 * A := by rw [abs_lt]; constructor <;> linarith
  have hB' : |B'| < 41 / 100 * A' := by rw [abs_lt]; constructor <;> linarith
  have q1 : |B' * B| ≤ 41 / 100 * A' * (41 / 100 * A) := by
    rw [abs_mul]; exact mul_le_mul hB'.le hB.le (abs_nonneg _) (by positivity)
  have q2 : |B' * A| ≤ 41 / 100 * A' * A := by
    rw [abs_mul, abs_of_pos hA]; exact mul_le_mul_of_nonneg_right hB'.le hA.le
  have q3 : |A' * B| ≤ A' * (41 / 100 * A) := by
    rw [abs_mul, abs_of_pos hA']; exact mul_le_mul_of_nonneg_left hB.le hA'.le
  have hAA : 0 < A' * A := mul_pos hA' hA
  have w1 : 0 < (A' * A + B' * B) - (B' * A - A' * B) := by
    have := neg_le_of_abs_le q1; have := le_of_abs_le q2; have := neg_le_of_abs_le q3
    nlinarith
  have w2 : 0 < (A' * A + B' * B) + (B' * A - A' * B) := by
    have := neg_le_of_abs_le q1; have := neg_le_of_abs_le q2; have := le_of_abs_le q3
    nlinarith
  rw [e1, e2, t1, t2] at w1 w2
  have r1 : 0 < dot g g * ((dot z' z * ((if b1 then -1 else 1) + (if b0 then -1 else 1)) +
      cross z' z * ((if b0 then -1 else 1) - (if b1 then -1 else 1))) * (707107 / 1000000)) := by
    refine lt_of_lt_of_eq w1 ?_; ring
  have r2 : 0 < dot g g * ((dot z' z * ((if b1 then -1 else 1) - (if b0 then -1 else 1)) +
      cross z' z * ((if b0 then -1 else 1) + (if b1 then -1 else 1))) * (707107 / 1000000)) := by
    refine lt_of_lt_of_eq w2 ?_; ring
  have s1 := (mul_pos_iff_of_pos_left hg).mp r1
  have s2 := (mul_pos_iff_of_pos_left hg).mp r2
  have e3 : z'.re * z.re + z'.im * z.im = dot z' z := rfl
  have e4 : z'.im * z.re - z'.re * z.im = cross z' z := rfl
  simp only [decideBits, e3, e4]
  generalize dot z' z = X at *
  generalize cross z' z = Y at *
  cases b0 <;> cases b1 <;> simp at s1 s2 ⊢ <;> constructor <;> linarith

end Verif.Dsp
