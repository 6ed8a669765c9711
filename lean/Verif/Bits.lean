import Verif.Common
/-!
# Bit strings

A bit string is a `List Bool`, most significant / first transmitted bit first. This is vocabulary, not
a model of particular code: the Rust functions it is used to specify are `BitBuffer::write_bits` and
`read_bits`, which put the most significant bit of a field first.
-/
namespace Verif.Bits

/-- The `n` low bits of `v`, most significant first. -/
def toBits : Nat → Nat → List Bool
  | 0, _ => []
  | n + 1, v => v.testBit n :: toBits n v

/-- Value of a bit string read most significant bit first. -/
def ofBits (l : List Bool) : Nat := l.foldl (fun a b => 2 * a + b.toNat) 0

@[simp] theorem length_toBits (n v : Nat) : (toBits n v).length = n := by
  induction n with
  | zero => rfl
  | succ n ih => simp [toBits, ih]

@[simp] theorem toBits_zero (v : Nat) : toBits 0 v = [] := rfl

theorem getElem_toBits (n v i : Nat) (h : i < (toBits n v).length) :
    (toBits n v)[i] = v.testBit (n - 1 - i) := by
  induction n generalizing i with
  | zero => simp at h
  | succ n ih =>
    cases i with
    | zero => simp [toBits]
    | succ i => simp only [toBits, List.getElem_cons_succ]; rw [ih]; congr 1; omega

theorem foldl_ofBits (l : List Bool) (a : Nat) :
    l.foldl (fun a b => 2 * a + b.toNat) a = a * 2 ^ l.length + ofBits l := by
  induction l generalizing a with
  | nil => simp [ofBits]
  | cons b l ih =>
    simp only [List.foldl_cons, List.length_cons, ofBits]
    rw [ih, ih (2 * 0 + b.toNat)]
    rw [Nat.pow_succ]
    simp only [Nat.mul_zero, Nat.zero_add, Nat.add_mul]
    have : 2 * a * 2 ^ l.length = a * (2 ^ l.length * 2) := by
      rw [Nat.mul_comm 2 a, Nat.mul_assoc, Nat.mul_comm 2]
    omega

theorem ofBits_append (l m : List Bool) : ofBits (l ++ m) = ofBits l * 2 ^ m.length + ofBits m := by
  conv => lhs; unfold ofBits
  rw [List.foldl_append, foldl_ofBits]; rfl

@[simp] theorem ofBits_nil : ofBits [] = 0 := rfl

theorem ofBits_cons (b : Bool) (l : List Bool) : ofBits (b :: l) = b.toNat * 2 ^ l.length + ofBits l := by
  have := ofBits_append [b] l
  simpa [ofBits] using this

theorem ofBits_lt (l : List Bool) : ofBits l < 2 ^ l.length := by
  induction l with
  | nil => simp
  | cons b l ih =>
    rw [ofBits_cons, List.length_cons, Nat.pow_succ]
    cases b <;> simp <;> omega

theorem ofBits_toBits_mod (n v : Nat) : ofBits (toBits n v) = v % 2 ^ n := by
  induction n with
  | zero => simp [Nat.mod_one]
  | succ n ih =>
    rw [toBits, ofBits_cons, ih, length_toBits]
    have h1 : v % 2 ^ (n + 1) = v % 2 ^ n + 2 ^ n * (v / 2 ^ n % 2) := by
      rw [Nat.pow_succ, Nat.mod_mul]
    rw [h1, Nat.testBit_eq_decide_div_mod_eq]
    have : v / 2 ^ n % 2 = 0 ∨ v / 2 ^ n % 2 = 1 := by omega
    rcases this with h | h <;> simp [h] <;> omega

theorem ofBits_toBits {n v : Nat} (h : v < 2 ^ n) : ofBits (toBits n v) = v := by
  rw [ofBits_toBits_mod, Nat.mod_eq_of_lt h]

theorem testBit_ofBits (l : List Bool) (i : Nat) (h : i < l.length) :
    (ofBits l).testBit i = l[l.length - 1 - i]'(by omega) := by
  induction l with
  | nil => simp at h
  | cons b l ih =>
    rw [ofBits_cons]
    have hlt := ofBits_lt l
    by_cases hi : i < l.length
    · rw [Nat.add_comm, Nat.mul_comm, Nat.testBit_add_mul_two_pow _ hlt, if_pos hi, ih hi]
      have : l.length + 1 - 1 - i = (l.length - 1 - i) + 1 := by omega
      simp only [List.length_cons, this, List.getElem_cons_succ]
    · have hi' : i = l.length := by simp at h; omega
      subst hi'
      rw [Nat.add_comm, Nat.mul_comm, Nat.testBit_add_mul_two_pow _ hlt, if_neg (by omega)]
      cases b <;> simp
where
  Nat.testBit_add_mul_two_pow (b : Nat) {a k i : Nat} (h : a < 2 ^ k) :
      (a + 2 ^ k * b).testBit i = if i < k then a.testBit i else b.testBit (i - k) := by
    rw [Nat.add_comm, Nat.testBit_two_pow_mul_add b h]

theorem toBits_ofBits (l : List Bool) : toBits l.length (ofBits l) = l := by
  apply List.ext_getElem (by simp)
  intro i h1 h2
  rw [getElem_toBits, testBit_ofBits _ _ (by omega)]
  congr 1; omega

theorem toBits_add (a b v : Nat) : toBits (a + b) v = toBits a (v >>> b) ++ toBits b v := by
  apply List.ext_getElem (by simp)
  intro i h1 h2
  rw [getElem_toBits, List.getElem_append]
  split
  · rw [getElem_toBits, Nat.testBit_shiftRight]; congr 1; simp at *; omega
  · rw [getElem_toBits]; congr 1; simp at *; omega

theorem toBits_mod (n v : Nat) : toBits n (v % 2 ^ n) = toBits n v := by
  apply List.ext_getElem (by simp)
  intro i h1 h2
  simp only [length_toBits] at h1
  rw [getElem_toBits, getElem_toBits, Nat.testBit_mod_two_pow]
  simp; omega

theorem ofBits_inj {l m : List Bool} (hl : l.length = m.length) (h : ofBits l = ofBits m) : l = m := by
  rw [← toBits_ofBits l, ← toBits_ofBits m, hl, h]

theorem toBits_inj {n v w : Nat} (hv : v < 2 ^ n) (hw : w < 2 ^ n) (h : toBits n v = toBits n w) : v = w := by
  rw [← ofBits_toBits hv, ← ofBits_toBits hw, h]

end Verif.Bits
