import Verif.Core.Ranges
/-! # Property C07: SSI range membership -/
namespace Verif.Ranges

/-- Independent specification: `x` lies in one of the configured `[start, end)` ranges. -/
def InSome (rs : List Range) (x : Nat) : Prop := ∃ r ∈ rs, r.start ≤ x ∧ x < r.end

/-- Two ranges share an address. -/
def Overlap (a b : Range) : Prop := ∃ x, (a.start ≤ x ∧ x < a.end) ∧ (b.start ≤ x ∧ x < b.end)

/-- C07: once a list of ranges is accepted, the lookup answers exactly membership in one of the ranges
listed, whatever the order they were listed in. -/
theorem c07_contains_exact (rs sorted : List Range) (h : fromVec rs = .ok sorted) (x : Nat) :
    contains sorted x = true ↔ InSome rs x := by
  unfold fromVec at h
  rw [Res.bind_eq_ok] at h
  obtain ⟨_, hc, hs⟩ := h
  simp at hs; subst hs
  obtain ⟨h1, h2⟩ := check_ok hc
  rw [contains_iff (fun r hr => (h1 r hr).2) h2]
  unfold InSome
  constructor <;> rintro ⟨r, hr, hh⟩ <;> refine ⟨r, ?_, hh⟩
  · exact List.mem_mergeSort.1 hr
  · exact List.mem_mergeSort.2 hr

/-- C07: two accepted listings of the same ranges answer every query alike. -/
theorem c07_order_irrelevant (rs rs' s s' : List Range) (hp : rs.Perm rs')
    (h : fromVec rs = .ok s) (h' : fromVec rs' = .ok s') (x : Nat) : contains s x = contains s' x := by
  rw [Bool.eq_iff_iff, c07_contains_exact rs s h, c07_contains_exact rs' s' h']
  unfold InSome
  constructor <;> rintro ⟨r, hr, hh⟩
  · exact ⟨r, hp.mem_iff.1 hr, hh⟩
  · exact ⟨r, hp.mem_iff.2 hr, hh⟩

private theorem pairwise_of_perm {l l' : List Range} {R : Range → Range → Prop} (hp : l.Perm l')
    (hs : ∀ {a b}, R a b → R b a) (h : l.Pairwise R) : l'.Pairwise R :=
  hp.pairwise h (fun h => hs h)

/-- C07: what is accepted has no inverted range and no two overlapping ones. -/
theorem c07_accepts_only_disjoint (rs sorted : List Range) (h : fromVec rs = .ok sorted) :
    (∀ r ∈ rs, r.start ≤ r.end) ∧ rs.Pairwise (fun a b => ¬ Overlap a b) := by
  unfold fromVec at h
  rw [Res.bind_eq_ok] at h
  obtain ⟨_, hc, hs⟩ := h
  simp at hs; subst hs
  obtain ⟨h1, h2⟩ := check_ok hc
  refine ⟨fun r hr => (h1 r (List.mem_mergeSort.2 hr)).2, ?_⟩
  apply pairwise_of_perm (List.mergeSort_perm rs leStart)
  · rintro a b h ⟨x, hx, hy⟩; exact h ⟨x, hy, hx⟩
  · refine h2.imp ?_
    rintro a b hab ⟨x, hx, hy⟩; omega

/-- C07: every list of non-empty, pairwise disjoint ranges is accepted, in whatever order it is
listed. -/
theorem c07_accepts_disjoint (rs : List Range) (h1 : ∀ r ∈ rs, r.start < r.end)
    (h2 : rs.Pairwise (fun a b => ¬ Overlap a b)) : ∃ sorted, fromVec rs = .ok sorted := by
  refine ⟨rs.mergeSort leStart, ?_⟩
  have hp : (rs.mergeSort leStart).Pairwise (fun a b => ¬ Overlap a b) := by
    apply pairwise_of_perm (List.mergeSort_perm rs leStart).symm
    · rintro a b h ⟨x, hx, hy⟩; exact h ⟨x, hy, hx⟩
    · exact h2
  have hso : (rs.mergeSort leStart).Pairwise (fun a b => leStart a b = true) :=
    List.pairwise_mergeSort (by intro a b c; simp [leStart]; omega) (by intro a b; simp [leStart]; omega) rs
  have hmem : ∀ r ∈ rs.mergeSort leStart, r.start < r.end := fun r hr => h1 r (List.mem_mergeSort.1 hr)
  unfold fromVec
  have : check 0 (rs.mergeSort leStart) = .ok () := by
    apply check_complete
    · intro r hr; have := hmem r hr; omega
    · have hand := (hp.and hso)
      apply List.Pairwise.imp_of_mem _ hand
      rintro a b ha hb ⟨hno, hle⟩
      simp [leStart] at hle
      have := hmem a ha; have := hmem b hb
      apply Classical.byContradiction
      intro hlt
      exact hno ⟨b.start, by omega, by omega⟩
  simp [this]

/-- C07, negative: with an empty range in the list, acceptance depends on the listing order although
both lists denote the same addresses. -/
theorem c07_empty_range_order_dependent :
    fromTuples [(100, 100), (100, 200)] = .ok [⟨100, 100⟩, ⟨100, 200⟩] ∧
    fromTuples [(100, 200), (100, 100)] = .panic := by
  constructor <;> simp [fromTuples, fromVec, List.mergeSort, List.MergeSort.Internal.splitInTwo, List.merge, leStart, check, Res.assert]

example : ∃ s, fromTuples [(300, 400), (100, 200), (500, 600)] = .ok s ∧ contains s 150 = true ∧
    contains s 200 = false := by
  refine ⟨[⟨100, 200⟩, ⟨300, 400⟩, ⟨500, 600⟩], ?_, by decide, by decide⟩
  simp [fromTuples, fromVec, List.mergeSort, List.MergeSort.Internal.splitInTwo, List.merge, leStart, check, Res.assert]

end Verif.Ranges
