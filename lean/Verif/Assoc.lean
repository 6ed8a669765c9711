/-!
# Finite maps

Model of `std::collections::HashMap` as an association list in which every key occurs once. The order
of the list stands for the unspecified iteration order of the hash map: theorems about the models which
iterate over a map do not depend on it.
-/
namespace Verif

/-- A finite map: entries with distinct keys (see `Assoc.Ok`). -/
abbrev Assoc (κ ν : Type) := List (κ × ν)

namespace Assoc
variable {κ ν : Type} [DecidableEq κ]

/-- `HashMap::get`. -/
def get (m : Assoc κ ν) (k : κ) : Option ν :=
  match m with
  | [] => none
  | (k', v) :: r => if k' = k then some v else get r k

/-- `HashMap::remove` (the map afterwards). -/
def erase (m : Assoc κ ν) (k : κ) : Assoc κ ν := m.filter fun e => e.1 ≠ k

/-- `HashMap::insert` (the map afterwards): an existing entry is replaced. -/
def insert (m : Assoc κ ν) (k : κ) (v : ν) : Assoc κ ν := (k, v) :: erase m k

/-- Every key occurs once. -/
def Ok (m : Assoc κ ν) : Prop := (m.map Prod.fst).Nodup

@[simp] theorem get_nil (k : κ) : get ([] : Assoc κ ν) k = none := rfl
@[simp] theorem get_cons (k' k : κ) (v : ν) (r : Assoc κ ν) :
    get ((k', v) :: r) k = if k' = k then some v else get r k := rfl

theorem get_erase (m : Assoc κ ν) (k k' : κ) : get (erase m k) k' = if k = k' then none else get m k' := by
  induction m with
  | nil => simp [erase]
  | cons e r ih =>
    obtain ⟨a, v⟩ := e
    simp only [erase, List.filter_cons] at ih ⊢
    by_cases h : a = k
    · subst h
      simp only [ne_eq, not_true_eq_false, decide_false, Bool.false_eq_true, if_false, ih, get_cons]
      split <;> simp_all
    · simp only [ne_eq, h, not_false_eq_true, decide_true, if_true, get_cons, ih]
      by_cases h1 : a = k'
      · subst h1; simp [Ne.symm h]
      · simp [h1]

@[simp] theorem get_erase_self (m : Assoc κ ν) (k : κ) : get (erase m k) k = none := by simp [get_erase]
theorem get_erase_ne (m : Assoc κ ν) {k k' : κ} (h : k ≠ k') : get (erase m k) k' = get m k' := by
  simp [get_erase, h]

theorem get_insert (m : Assoc κ ν) (k k' : κ) (v : ν) :
    get (insert m k v) k' = if k = k' then some v else get m k' := by
  simp only [insert, get_cons, get_erase]
  split <;> rfl

@[simp] theorem get_insert_self (m : Assoc κ ν) (k : κ) (v : ν) : get (insert m k v) k = some v := by simp [insert]
theorem get_insert_ne (m : Assoc κ ν) {k k' : κ} (h : k ≠ k') (v : ν) : get (insert m k v) k' = get m k' := by
  simp [get_insert, h]

theorem ok_nil : Ok ([] : Assoc κ ν) := by simp [Ok]

theorem ok_erase {m : Assoc κ ν} (h : Ok m) (k : κ) : Ok (erase m k) := by
  unfold Ok erase at *
  exact h.sublist (List.Sublist.map _ (List.filter_sublist))

theorem mem_erase {m : Assoc κ ν} {k : κ} {e : κ × ν} : e ∈ erase m k ↔ e ∈ m ∧ e.1 ≠ k := by
  simp [erase]

theorem ok_insert {m : Assoc κ ν} (h : Ok m) (k : κ) (v : ν) : Ok (insert m k v) := by
  have h2 := ok_erase h k
  unfold Ok insert at *
  simp only [List.map_cons, List.nodup_cons]
  refine ⟨?_, h2⟩
  intro hm
  obtain ⟨e, he, hk⟩ := List.mem_map.1 hm
  exact (mem_erase.1 he).2 hk

theorem mem_of_get {m : Assoc κ ν} {k : κ} {v : ν} (h : get m k = some v) : (k, v) ∈ m := by
  induction m with
  | nil => simp at h
  | cons e r ih =>
    obtain ⟨a, w⟩ := e
    rw [get_cons] at h
    split at h
    · rename_i e; subst e; simp at h; simp [h]
    · exact List.mem_cons_of_mem _ (ih h)

theorem get_of_mem {m : Assoc κ ν} (hm : Ok m) {k : κ} {v : ν} (h : (k, v) ∈ m) : get m k = some v := by
  induction m with
  | nil => simp at h
  | cons e r ih =>
    obtain ⟨a, w⟩ := e
    simp only [Ok, List.map_cons, List.nodup_cons] at hm
    rcases List.mem_cons.1 h with h | h
    · simp at h; simp [h]
    · have : a ≠ k := by
        rintro rfl
        exact hm.1 (List.mem_map.2 ⟨_, h, rfl⟩)
      rw [get_cons, if_neg this]
      exact ih hm.2 h

theorem mem_iff_get {m : Assoc κ ν} (hm : Ok m) {k : κ} {v : ν} : (k, v) ∈ m ↔ get m k = some v :=
  ⟨get_of_mem hm, mem_of_get⟩

end Assoc
end Verif
