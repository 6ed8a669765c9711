import Verif.Common
/-! # Bounds-checked array access on lists, and loops which fill an array by a formula for the index -/
namespace Verif.Arr
variable {α : Type}

/-- Indexing with Rust's bounds check. -/
def get (l : List α) (i : Nat) : Res α :=
  match l[i]? with
  | some x => .ok x
  | none => .panic

/-- Indexed assignment with Rust's bounds check. -/
def set (l : List α) (i : Nat) (v : α) : Res (List α) :=
  if i < l.length then .ok (l.set i v) else .panic

/-- `for i in 0..n { out[dst i] = input[src i] }`. -/
def moveLoop (dst src : Nat → Nat) (input : List α) : Nat → List α → Res (List α)
  | 0, out => .ok out
  | n + 1, out => do
    let out ← moveLoop dst src input n out
    let x ← get input (src n)
    set out (dst n) x

theorem get_ok {l : List α} {i : Nat} (h : i < l.length) : get l i = .ok l[i] := by
  simp [get, List.getElem?_eq_getElem h]

theorem set_ok {l : List α} {i : Nat} {v : α} (h : i < l.length) : set l i v = .ok (l.set i v) := by
  simp [set, h]

/-- What the loop leaves behind, when every index is in range. -/
theorem moveLoop_ok (dst src : Nat → Nat) (input : List α) (n : Nat) (out : List α)
    (hs : ∀ i, i < n → src i < input.length) (hd : ∀ i, i < n → dst i < out.length) :
    ∃ r, moveLoop dst src input n out = .ok r ∧ r.length = out.length ∧
      (∀ p, (∀ i, i < n → dst i ≠ p) → r[p]? = out[p]?) ∧
      ((∀ i j, i < n → j < n → dst i = dst j → i = j) → ∀ i, i < n → r[dst i]? = input[src i]?) := by
  induction n with
  | zero => exact ⟨out, rfl, rfl, fun _ _ => rfl, fun _ i hi => by omega⟩
  | succ n ih =>
    obtain ⟨r, e, hl, hf, hw⟩ := ih (fun i hi => hs i (by omega)) (fun i hi => hd i (by omega))
    have h1 := hs n (by omega)
    have h2 : dst n < r.length := by rw [hl]; exact hd n (by omega)
    refine ⟨r.set (dst n) input[src n], ?_, by simp [hl], ?_, ?_⟩
    · simp only [moveLoop, e, Res.bind_ok, get_ok h1, set_ok h2]
    · intro p hp
      rw [List.getElem?_set_ne (hp n (by omega))]
      exact hf p (fun i hi => hp i (by omega))
    · intro inj i hi
      by_cases hin : i = n
      · subst hin
        rw [List.getElem?_set_self h2, List.getElem?_eq_getElem h1]
      · rw [List.getElem?_set_ne (fun hc => hin (inj n i (by omega) hi hc).symm)]
        exact hw (fun a b ha hb => inj a b (by omega) (by omega)) i (by omega)

/-- Moving out by `(dst, src)` and back by `(src, dst)` restores the first `n` source cells. -/
theorem moveLoop_inverse (dst src : Nat → Nat) (input : List α) (n : Nat) (out out2 r : List α)
    (hs : ∀ i, i < n → src i < input.length) (hd : ∀ i, i < n → dst i < out.length)
    (hs2 : ∀ i, i < n → src i < out2.length)
    (injd : ∀ i j, i < n → j < n → dst i = dst j → i = j)
    (injs : ∀ i j, i < n → j < n → src i = src j → i = j)
    (e : moveLoop dst src input n out = .ok r) :
    ∃ r2, moveLoop src dst r n out2 = .ok r2 ∧ r2.length = out2.length ∧
      (∀ i, i < n → r2[src i]? = input[src i]?) ∧
      (∀ p, (∀ i, i < n → src i ≠ p) → r2[p]? = out2[p]?) := by
  obtain ⟨r', e', hl, _, hw⟩ := moveLoop_ok dst src input n out hs hd
  rw [e] at e'; cases e'
  obtain ⟨r2, e2, hl2, hf2, hw2⟩ := moveLoop_ok src dst r n out2 (fun i hi => by rw [hl]; exact hd i hi) hs2
  refine ⟨r2, e2, hl2, ?_, hf2⟩
  intro i hi
  rw [hw2 injs i hi, hw injd i hi]

end Verif.Arr
