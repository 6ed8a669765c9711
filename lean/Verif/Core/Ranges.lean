import Verif.Common
/-!
# SSI ranges: model of `crates/tetra-core/src/ranges.rs`
-/
namespace Verif.Ranges

/-- `SsiRange` (ranges.rs:2-7): inclusive start, exclusive end. -/
structure Range where
  start : Nat
  «end» : Nat
  deriving DecidableEq, Repr

/-- The comparison of `ranges.sort_by(|a, b| a.start.cmp(&b.start))` (ranges.rs:18); Rust's `sort_by` and
Lean's `mergeSort` are both stable. -/
def leStart (a b : Range) : Bool := decide (a.start ≤ b.start)

/-- The checking loop (ranges.rs:21-26): aborts on an inverted or overlapping range. -/
def check (lower : Nat) : List Range → Res Unit
  | [] => .ok ()
  | r :: rest => do
    Res.assert (decide (r.start ≤ r.end))
    Res.assert (decide (r.start ≥ lower))
    check r.end rest

/-- `from_vec_ssirange` (ranges.rs:17-28). -/
def fromVec (rs : List Range) : Res (List Range) := do
  let sorted := rs.mergeSort leStart
  check 0 sorted
  pure sorted

/-- `from_vec_tuple` (ranges.rs:33-36). -/
def fromTuples (ts : List (Nat × Nat)) : Res (List Range) := fromVec (ts.map fun p => ⟨p.1, p.2⟩)

/-- `contains` (ranges.rs:44-58), the early-exit scan. -/
def contains : List Range → Nat → Bool
  | [], _ => false
  | r :: rest, addr =>
    if addr ≥ r.start ∧ addr < r.end then true
    else if r.end > addr then false
    else contains rest addr

theorem check_ok {l : List Range} {lower : Nat} (h : check lower l = .ok ()) :
    (∀ r ∈ l, lower ≤ r.start ∧ r.start ≤ r.end) ∧
    l.Pairwise (fun a b => a.end ≤ b.start) := by
  induction l generalizing lower with
  | nil => simp
  | cons r rest ih =>
    simp only [check] at h
    by_cases h1 : r.start ≤ r.end <;> by_cases h2 : r.start ≥ lower <;>
      simp [h1, h2, Res.assert] at h
    obtain ⟨ha, hb⟩ := ih h
    refine ⟨?_, List.Pairwise.cons (fun b hb => (ha b hb).1) hb⟩
    intro x hx
    rcases List.mem_cons.1 hx with rfl | hx
    · exact ⟨h2, h1⟩
    · have := ha x hx; omega

theorem check_complete {l : List Range} {lower : Nat}
    (h1 : ∀ r ∈ l, lower ≤ r.start ∧ r.start ≤ r.end)
    (h2 : l.Pairwise (fun a b => a.end ≤ b.start)) : check lower l = .ok () := by
  induction l generalizing lower with
  | nil => rfl
  | cons r rest ih =>
    have hr := h1 r (by simp)
    rw [List.pairwise_cons] at h2
    simp only [check, hr.2, hr.1, decide_true, ge_iff_le, Res.assert_true, Res.bind_ok]
    exact ih (fun x hx => ⟨h2.1 x hx, (h1 x (List.mem_cons_of_mem _ hx)).2⟩) h2.2

theorem contains_iff {l : List Range} (h1 : ∀ r ∈ l, r.start ≤ r.end)
    (h2 : l.Pairwise (fun a b => a.end ≤ b.start)) (x : Nat) :
    contains l x = true ↔ ∃ r ∈ l, r.start ≤ x ∧ x < r.end := by
  induction l with
  | nil => simp [contains]
  | cons r rest ih =>
    rw [List.pairwise_cons] at h2
    have ih := ih (fun y hy => h1 y (List.mem_cons_of_mem _ hy)) h2.2
    simp only [contains]
    split
    · rename_i h; simp; exact .inl h
    · rename_i h
      split
      · rename_i h'
        simp only [Bool.false_eq_true, List.mem_cons, exists_eq_or_imp, false_iff, not_or]
        refine ⟨fun hh => h hh, ?_⟩
        rintro ⟨y, hy, hy1, hy2⟩
        have := h2.1 y hy
        omega
      · rw [ih]; simp only [List.mem_cons, exists_eq_or_imp]
        constructor
        · exact .inr
        · rintro (hh | hh)
          · exact absurd hh h
          · exact hh

end Verif.Ranges
