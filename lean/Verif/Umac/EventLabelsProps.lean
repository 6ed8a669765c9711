import Verif.Umac.EventLabels
/-!
# C40 — MAC access event labels are unique while in use
-/
namespace Verif.Umac
namespace LabelStore

/-- Allocations for a list of stations one after the other: the log of (label, station) pairs, oldest
first, and the store afterwards. -/
def allocs (s : LabelStore) : List Nat → Res (List (Nat × Nat) × LabelStore)
  | [] => .ok ([], s)
  | ssi :: rest => do
    let r ← s.create ssi
    let q ← allocs r.2 rest
    pure ((r.1, ssi) :: q.1, q.2)

/-- Specification: the station a label was issued to most recently. -/
def lastIssued (log : List (Nat × Nat)) (label : Nat) : Option Nat :=
  (log.reverse.find? fun e => e.1 == label).map Prod.snd

/-- A state reached after issuing the labels of `log`. -/
structure Inv (s : LabelStore) (log : List (Nat × Nat)) : Prop where
  ok : s.labels.Ok
  next : s.nextLabel = (log.length + 1) % 511
  label : ∀ i (h : i < log.length), log[i].1 = (i + 1) % 511
  last : ∀ l, s.getAddrByLabel l = lastIssued log l
  one : ∀ l l' ssi, (l, ssi) ∈ s.labels → (l', ssi) ∈ s.labels → l = l'

theorem inv_new : Inv new [] := by
  refine ⟨Assoc.ok_nil, rfl, by simp, ?_, ?_⟩ <;> simp [new, getAddrByLabel, lastIssued]

theorem find_none {s : LabelStore} {ssi : Nat} (h : (s.getLabelBySsi ssi).isSome = false) (l : Nat) :
    (l, ssi) ∉ s.labels := by
  intro hm
  simp only [getLabelBySsi, Option.isSome_map, Bool.eq_false_iff, ne_eq, List.find?_isSome, not_exists] at h
  exact h (l, ssi) ⟨hm, by simp⟩

theorem inv_create {s s' : LabelStore} {log : List (Nat × Nat)} {ssi l : Nat} (hi : Inv s log)
    (h : s.create ssi = .ok (l, s')) : Inv s' (log ++ [(l, ssi)]) := by
  unfold create at h
  split at h
  · simp at h
  rename_i hn
  have hn : (s.getLabelBySsi ssi).isSome = false := by simpa using hn
  simp only [getFreeLabel, Res.ok.injEq, Prod.mk.injEq] at h
  obtain ⟨rfl, rfl⟩ := h
  refine ⟨Assoc.ok_insert hi.ok _ _, ?_, ?_, ?_, ?_⟩
  · simp only [hi.next, List.length_append, List.length_cons, List.length_nil]; omega
  · intro i h
    rw [List.getElem_append]
    split
    · exact hi.label i ‹_›
    · have : i = log.length := by simp at h; omega
      subst this; simp [hi.next]
  · intro l
    have := hi.last l
    simp only [getAddrByLabel] at this
    simp only [getAddrByLabel, Assoc.get_insert, lastIssued, List.reverse_append, List.reverse_cons, List.reverse_nil,
      List.nil_append, List.cons_append, List.find?_cons]
    by_cases he : s.nextLabel = l
    · simp [he]
    · have he' : (s.nextLabel == l) = false := by simpa using he
      simp only [he, if_false, he', this, lastIssued]
  · intro a b x ha hb
    simp only [Assoc.insert, List.mem_cons, Prod.mk.injEq, Assoc.mem_erase] at ha hb
    rcases ha with ⟨ha, hx⟩ | ⟨ha, _⟩ <;> rcases hb with ⟨hb, hy⟩ | ⟨hb, _⟩
    · rw [ha, hb]
    · subst hx; exact absurd hb (find_none hn _)
    · subst hy; exact absurd ha (find_none hn _)
    · exact hi.one _ _ _ ha hb

theorem inv_allocs {s s' : LabelStore} {ssis : List Nat} {log0 log : List (Nat × Nat)} (hi : Inv s log0)
    (h : s.allocs ssis = .ok (log, s')) : Inv s' (log0 ++ log) ∧ log.map Prod.snd = ssis := by
  induction ssis generalizing s log0 log with
  | nil => simp [allocs] at h; obtain ⟨rfl, rfl⟩ := h; simpa using hi
  | cons a r ih =>
    simp only [allocs] at h
    rw [Res.bind_eq_ok] at h; obtain ⟨⟨l, s1⟩, h1, h⟩ := h
    rw [Res.bind_eq_ok] at h; obtain ⟨⟨log1, s2⟩, h2, h⟩ := h
    simp at h
    obtain ⟨rfl, rfl⟩ := h
    have := ih (inv_create hi h1) h2
    simp only [List.append_assoc, List.cons_append, List.nil_append] at this
    simpa using this

/-- **C40, resolution and uniqueness.** After any allocations which do not abort, a label resolves to the
station it was issued to most recently; a station has at most one label; and the label reported for a
station resolves to that station, so no two stations hold the same label. -/
theorem c40_labels (ssis : List Nat) (log : List (Nat × Nat)) (s : LabelStore) (h : new.allocs ssis = .ok (log, s)) :
    log.map Prod.snd = ssis ∧
    (∀ l, s.getAddrByLabel l = lastIssued log l) ∧
    (∀ ssi l, s.getLabelBySsi ssi = some l ↔ s.getAddrByLabel l = some ssi) ∧
    (∀ ssi ssi' l, s.getLabelBySsi ssi = some l → s.getLabelBySsi ssi' = some l → ssi = ssi') := by
  obtain ⟨hi, hm⟩ := inv_allocs inv_new h
  simp only [List.nil_append] at hi
  have key : ∀ ssi l, s.getLabelBySsi ssi = some l ↔ s.getAddrByLabel l = some ssi := by
    intro ssi l
    simp only [getLabelBySsi, Option.map_eq_some_iff, getAddrByLabel]
    constructor
    · rintro ⟨⟨l', x⟩, hf, rfl⟩
      have h1 := List.mem_of_find?_eq_some hf
      have h2 := List.find?_some hf
      simp only [beq_iff_eq] at h2
      subst h2
      exact Assoc.get_of_mem hi.ok h1
    · intro hg
      have hmem := Assoc.mem_of_get hg
      have : (s.labels.find? fun e => e.2 == ssi).isSome = true := by
        rw [List.find?_isSome]; exact ⟨_, hmem, by simp⟩
      obtain ⟨⟨l', x⟩, hf⟩ := Option.isSome_iff_exists.1 this
      have h1 := List.mem_of_find?_eq_some hf
      have h2 := List.find?_some hf
      simp only [beq_iff_eq] at h2
      subst h2
      exact ⟨_, hf, hi.one _ _ _ h1 hmem⟩
  refine ⟨hm, hi.last, key, ?_⟩
  intro a b l ha hb
  rw [key] at ha hb
  rw [ha] at hb
  exact Option.some.inj hb

/-- **C40, labels issued.** The n-th allocation (from zero) issues label `(n+1) mod 511`: all labels are
below 511 and any 511 consecutive allocations issue distinct labels. -/
theorem c40_sequence (ssis : List Nat) (log : List (Nat × Nat)) (s : LabelStore) (h : new.allocs ssis = .ok (log, s))
    (i j : Nat) (hi : i < log.length) (hj : j < log.length) (hij : i < j) (hd : j < i + 511) :
    log[i].1 < 511 ∧ log[i].1 ≠ log[j].1 := by
  have inv := (inv_allocs inv_new h).1
  simp only [List.nil_append] at inv
  rw [inv.label i hi, inv.label j hj]
  omega

/-- **C40, label 0**: it is not issued by the first 510 allocations. Missing: later ones, see
`c40_label_zero_issued`. -/
theorem c40_not_zero_partial (ssis : List Nat) (log : List (Nat × Nat)) (s : LabelStore)
    (h : new.allocs ssis = .ok (log, s)) (i : Nat) (hi : i < log.length) (hs : i < 510) : log[i].1 ≠ 0 := by
  have inv := (inv_allocs inv_new h).1
  simp only [List.nil_append] at inv
  rw [inv.label i hi]
  omega

/-- Finding: the 511th allocation always issues the reserved label 0. -/
theorem c40_label_zero_issued (ssis : List Nat) (log : List (Nat × Nat)) (s : LabelStore)
    (h : new.allocs ssis = .ok (log, s)) (hi : 510 < log.length) : (log[510]).1 = 0 := by
  have inv := (inv_allocs inv_new h).1
  simp only [List.nil_append] at inv
  rw [inv.label 510 hi]

/-- An allocation aborts exactly when the station already holds a label. -/
theorem c40_create_total (s : LabelStore) (ssi : Nat) : s.create ssi = .panic ↔ (s.getLabelBySsi ssi).isSome = true := by
  unfold create
  split <;> simp_all

/-- So histories of any number of different stations exist: the hypotheses above are met for each. -/
theorem allocs_of_nodup (ssis : List Nat) (hn : ssis.Nodup) (s : LabelStore)
    (hs : ∀ e ∈ s.labels, e.2 ∉ ssis) : ∃ log s', s.allocs ssis = .ok (log, s') := by
  induction ssis generalizing s with
  | nil => exact ⟨[], s, rfl⟩
  | cons a r ih =>
    rw [List.nodup_cons] at hn
    have hf : (s.getLabelBySsi a).isSome = false := by
      simp only [getLabelBySsi, Option.isSome_map, Bool.eq_false_iff, ne_eq, List.find?_isSome, not_exists]
      rintro e ⟨he, h2⟩
      simp only [beq_iff_eq] at h2
      exact hs e he (by simp [h2])
    have hc : s.create a = .ok (s.nextLabel, ⟨s.labels.insert s.nextLabel a, (s.nextLabel + 1) % 0x1FF⟩) := by
      simp [create, hf, getFreeLabel]
    obtain ⟨log, s', h⟩ := ih hn.2 ⟨s.labels.insert s.nextLabel a, (s.nextLabel + 1) % 0x1FF⟩ (by
      intro e he
      simp only [Assoc.insert, List.mem_cons, Assoc.mem_erase] at he
      rcases he with rfl | ⟨he, _⟩
      · exact hn.1
      · exact fun hx => hs e he (List.mem_cons_of_mem _ hx))
    exact ⟨(s.nextLabel, a) :: log, s', by simp [allocs, hc, h]⟩

/-- Finding: the 512th station silently takes over the label of the first one, which from then on has
no label (the source comment expects an abort instead). -/
theorem c40_wraparound_takes_label (ssis : List Nat) (log : List (Nat × Nat)) (s : LabelStore)
    (h : new.allocs ssis = .ok (log, s)) (hl : log.length = 512) (hn : ssis.Nodup) :
    (log[0]).1 = 1 ∧ s.getAddrByLabel 1 = some (log[511]).2 ∧ s.getLabelBySsi (log[0]).2 = none := by
  obtain ⟨hm, h1, h2, _⟩ := c40_labels ssis log s h
  have inv := (inv_allocs inv_new h).1
  simp only [List.nil_append] at inv
  have e0 := inv.label 0 (by omega)
  have e511 := inv.label 511 (by omega)
  have ha : s.getAddrByLabel 1 = some (log[511]).2 := by
    rw [h1]
    have hd : log = log.take 511 ++ [log[511]] := by
      have := List.take_append_drop 511 log
      rw [List.drop_eq_getElem_cons (by omega), List.drop_of_length_le (by omega)] at this
      exact this.symm
    have : lastIssued (log.take 511 ++ [log[511]]) 1 = some (log[511]).2 := by
      simp only [lastIssued, List.reverse_append, List.reverse_cons, List.reverse_nil, List.nil_append, List.cons_append,
        List.find?_cons, e511]
      rfl
    rw [← hd] at this
    exact this
  refine ⟨e0, ha, ?_⟩
  cases hx : s.getLabelBySsi (log[0]).2 with
  | none => rfl
  | some l =>
    exfalso
    have hl' := (h2 _ _).1 hx
    rw [h1] at hl'
    simp only [lastIssued, Option.map_eq_some_iff] at hl'
    obtain ⟨e, hf, he⟩ := hl'
    have hmem := List.mem_of_find?_eq_some hf
    have hlab := List.find?_some hf
    simp only [beq_iff_eq] at hlab
    rw [List.mem_reverse] at hmem
    obtain ⟨i, hi, hie⟩ := List.getElem_of_mem hmem
    have hnd : (log.map Prod.snd).Nodup := by rw [hm]; exact hn
    have : i = 0 := by
      apply Classical.byContradiction
      intro hne
      have hp := List.nodup_iff_pairwise_ne.1 hnd
      have := List.pairwise_iff_getElem.1 hp 0 i (by simp; omega) (by simpa using hi) (by omega)
      simp only [List.getElem_map] at this
      apply this
      rw [hie, he]
    subst this
    rw [hie] at e0
    rw [hlab] at e0
    subst e0
    rw [(h2 _ _).1 hx] at ha
    have hp := List.nodup_iff_pairwise_ne.1 hnd
    have := List.pairwise_iff_getElem.1 hp 0 511 (by simp; omega) (by simp; omega) (by omega)
    simp only [List.getElem_map] at this
    exact this (Option.some.inj ha)

example : ∃ log s, new.allocs (List.range 512) = .ok (log, s) ∧ log.length = 512 := by
  obtain ⟨log, s, h⟩ := allocs_of_nodup (List.range 512) List.nodup_range new (by simp [new])
  refine ⟨log, s, h, ?_⟩
  have := (inv_allocs inv_new h).2
  have := congrArg List.length this
  simpa using this

example : ∃ log s, new.allocs [5, 6, 7] = .ok (log, s) ∧ log = [(1, 5), (2, 6), (3, 7)] ∧ s.getLabelBySsi 6 = some 2 :=
  ⟨_, _, rfl, rfl, by decide⟩

end LabelStore
end Verif.Umac
