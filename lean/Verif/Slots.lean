import Verif.Common
/-!
# Tables with one entry per timeslot

Rust arrays `[T; 4]` indexed by `ts as usize - 1`.
-/
namespace Verif

/-- A table with an entry for each of the four timeslots. -/
abbrev Slots (α : Type) := Fin 4 → α

namespace Slots
variable {α : Type}

/-- The index expression `ts as usize - 1` used on a four-element array: it aborts for timeslot 0
(subtraction overflow) and above 4 (index out of range). -/
def idx (ts : Nat) : Res (Fin 4) := if h : 1 ≤ ts ∧ ts ≤ 4 then .ok ⟨ts - 1, by omega⟩ else .panic

/-- Assignment to one entry. -/
def upd (s : Slots α) (i : Fin 4) (a : α) : Slots α := fun j => if j = i then a else s j

@[simp] theorem upd_self (s : Slots α) (i : Fin 4) (a : α) : s.upd i a i = a := by simp [upd]
theorem upd_ne (s : Slots α) {i j : Fin 4} (a : α) (h : j ≠ i) : s.upd i a j = s j := by simp [upd, h]
theorem upd_apply (s : Slots α) (i j : Fin 4) (a : α) : s.upd i a j = if j = i then a else s j := rfl
@[simp] theorem upd_same (s : Slots α) (i : Fin 4) : s.upd i (s i) = s := by
  funext j; simp only [upd]; split <;> simp_all
@[simp] theorem upd_upd (s : Slots α) (i : Fin 4) (a b : α) : (s.upd i a).upd i b = s.upd i b := by
  funext j; simp only [upd]; split <;> rfl

theorem idx_ok {ts : Nat} {i : Fin 4} : idx ts = .ok i ↔ ts = i.val + 1 := by
  unfold idx
  split
  · rename_i h
    simp only [Res.ok.injEq]
    constructor
    · intro e; rw [← e]; simp; omega
    · intro e; apply Fin.ext; simp; omega
  · rename_i h
    simp only [reduceCtorEq, false_iff]
    omega

@[simp] theorem idx_succ (i : Fin 4) : idx (i.val + 1) = .ok i := idx_ok.2 rfl
theorem idx_panic {ts : Nat} : idx ts = .panic ↔ ts = 0 ∨ 4 < ts := by
  unfold idx; split <;> simp <;> omega

end Slots
end Verif
