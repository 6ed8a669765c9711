import Verif.Bits
/-!
# Bit-serial CRC registers

A register of `w` bits shifted left; the top bit xor the input bit decides whether the generator is added.
Generic in the width and the generator: the block CRC (16 bits) and the LLC FCS (32 bits) are instances.
-/
namespace Verif.Crc
open Verif.Bits

/-- One shift with a zero input bit. -/
def shift {w : Nat} (poly c : BitVec w) : BitVec w := if c.msb then (c <<< 1) ^^^ poly else c <<< 1

/-- Input bit at the top of the register. -/
def top (w : Nat) (b : Bool) : BitVec w := if b then BitVec.ofNat w (2 ^ (w - 1)) else 0#w

/-- One input bit. -/
def step {w : Nat} (poly c : BitVec w) (b : Bool) : BitVec w := shift poly (c ^^^ top w b)

/-- A bit string, first bit first. -/
def feed {w : Nat} (poly : BitVec w) (c : BitVec w) (bs : List Bool) : BitVec w := bs.foldl (step poly) c

/-- `k` shifts. -/
def shifts {w : Nat} (poly : BitVec w) : Nat → BitVec w → BitVec w
  | 0, c => c
  | k + 1, c => shifts poly k (shift poly c)

variable {w : Nat}

theorem feed_append (poly c : BitVec w) (a b : List Bool) : feed poly c (a ++ b) = feed poly (feed poly c a) b := by
  simp [feed]

theorem shift_xor (poly a b : BitVec w) : shift poly (a ^^^ b) = shift poly a ^^^ shift poly b := by
  unfold shift
  rw [BitVec.msb_xor, BitVec.shiftLeft_xor_distrib]
  cases a.msb <;> cases b.msb <;> simp
  · rw [BitVec.xor_assoc]
  · rw [BitVec.xor_assoc, BitVec.xor_assoc]; congr 1; rw [BitVec.xor_comm]
  · rw [BitVec.xor_assoc, ← BitVec.xor_assoc poly, BitVec.xor_comm poly, BitVec.xor_assoc, BitVec.xor_self]; simp

theorem shift_zero (poly : BitVec w) : shift poly 0#w = 0#w := by simp [shift]

/-- The generator has a constant term, so a shift loses nothing. -/
theorem shift_eq_zero (poly : BitVec w) (hp : poly.getLsbD 0 = true) (c : BitVec w) (h : shift poly c = 0#w) : c = 0#w := by
  unfold shift at h
  split at h
  · have : ((c <<< 1) ^^^ poly).getLsbD 0 = false := by rw [h]; simp
    simp [hp] at this
  · rename_i hm
    apply BitVec.eq_of_getLsbD_eq
    intro i hi
    simp only [BitVec.getLsbD_zero]
    by_cases hi1 : i + 1 < w
    · have : (c <<< 1).getLsbD (i + 1) = false := by rw [h]; simp
      rw [BitVec.getLsbD_eq_getElem hi]
      simpa [hi1] using this
    · have : i = w - 1 := by omega
      subst this
      rw [BitVec.msb_eq_getLsbD_last] at hm
      simpa using hm

theorem shifts_xor (poly a b : BitVec w) (k : Nat) : shifts poly k (a ^^^ b) = shifts poly k a ^^^ shifts poly k b := by
  induction k generalizing a b with
  | zero => rfl
  | succ k ih => simp only [shifts, shift_xor, ih]

theorem shifts_zero (poly : BitVec w) (k : Nat) : shifts poly k 0#w = 0#w := by
  induction k with
  | zero => rfl
  | succ k ih => simp only [shifts, shift_zero, ih]

theorem shifts_eq_zero (poly : BitVec w) (hp : poly.getLsbD 0 = true) (k : Nat) (c : BitVec w)
    (h : shifts poly k c = 0#w) : c = 0#w := by
  induction k generalizing c with
  | zero => exact h
  | succ k ih => exact shift_eq_zero poly hp c (ih _ h)

theorem shifts_succ' (poly : BitVec w) (k : Nat) (c : BitVec w) : shifts poly (k + 1) c = shift poly (shifts poly k c) := by
  induction k generalizing c with
  | zero => rfl
  | succ k ih => rw [shifts, ih]; rfl

theorem shifts_add (poly : BitVec w) (a b : Nat) (c : BitVec w) : shifts poly (a + b) c = shifts poly b (shifts poly a c) := by
  induction a generalizing c with
  | zero => simp [shifts]
  | succ a ih => rw [show a + 1 + b = (a + b) + 1 by omega, shifts, ih]; rfl

theorem top_xor (a b : Bool) : top w (a ^^ b) = top w a ^^^ top w b := by
  cases a <;> cases b <;> simp [top]

/-- Linearity over strings of equal length. -/
theorem feed_xor (poly : BitVec w) (x y : List Bool) (h : x.length = y.length) (c d : BitVec w) :
    feed poly (c ^^^ d) (List.zipWith xor x y) = feed poly c x ^^^ feed poly d y := by
  induction x generalizing y c d with
  | nil => cases y <;> simp_all [feed]
  | cons a x ih =>
    cases y with
    | nil => simp at h
    | cons b y =>
      have e : step poly (c ^^^ d) (a ^^ b) = step poly c a ^^^ step poly d b := by
        unfold step
        rw [← shift_xor, top_xor]
        congr 1
        ac_rfl
      simp only [feed, List.zipWith_cons_cons, List.foldl_cons] at *
      rw [e]
      exact ih y (by simpa using h) _ _

theorem feed_zeros (poly c : BitVec w) (n : Nat) : feed poly c (List.replicate n false) = shifts poly n c := by
  induction n generalizing c with
  | zero => rfl
  | succ n ih =>
    rw [List.replicate_succ]
    simp only [feed, List.foldl_cons, shifts] at *
    rw [ih]
    simp [step, top]

/-- A string of `n` zeros leaves the zero register at zero. -/
theorem feed_zeros_zero (poly : BitVec w) (n : Nat) : feed poly 0#w (List.replicate n false) = 0#w := by
  rw [feed_zeros, shifts_zero]

/-- Left-aligned value of a string of at most `w` bits. -/
def align (w : Nat) (bs : List Bool) : BitVec w := BitVec.ofNat w (ofBits bs * 2 ^ (w - bs.length))

theorem shift_align_lt (poly : BitVec w) (x : Nat) (h : x < 2 ^ (w - 1)) :
    shift poly (BitVec.ofNat w x) = BitVec.ofNat w (x * 2) := by
  unfold shift
  have hm : (BitVec.ofNat w x).msb = false := by
    rw [BitVec.msb_eq_decide]
    simp only [BitVec.toNat_ofNat, decide_eq_false_iff_not, Nat.not_le]
    exact Nat.lt_of_le_of_lt (Nat.mod_le _ _) h
  rw [hm]
  simp only [Bool.false_eq_true, if_false]
  apply BitVec.eq_of_toNat_eq
  simp [Nat.shiftLeft_eq]

theorem align_cons (b : Bool) (bs : List Bool) (h : bs.length + 1 ≤ w) :
    align w (b :: bs) = top w b ^^^ BitVec.ofNat w (ofBits bs * 2 ^ (w - 1 - bs.length)) := by
  unfold align top
  have hlt : ofBits bs * 2 ^ (w - 1 - bs.length) < 2 ^ (w - 1) := by
    have := ofBits_lt bs
    calc _ < 2 ^ bs.length * 2 ^ (w - 1 - bs.length) := Nat.mul_lt_mul_of_pos_right this (Nat.two_pow_pos _)
      _ = 2 ^ (w - 1) := by rw [← Nat.pow_add]; congr 1; omega
  have hle : 2 ^ (w - 1) * 2 = 2 ^ w := by rw [← Nat.pow_succ]; congr 1; omega
  have e1 : w - (b :: bs).length = w - 1 - bs.length := by simp; omega
  rw [e1, ofBits_cons, Nat.add_mul, Nat.mul_assoc, ← Nat.pow_add, show bs.length + (w - 1 - bs.length) = w - 1 by omega]
  apply BitVec.eq_of_toNat_eq
  cases b
  · simp
  · simp only [Bool.toNat_true, Nat.one_mul, BitVec.toNat_ofNat, if_true, BitVec.toNat_xor]
    have e2 : 2 ^ (w - 1) + ofBits bs * 2 ^ (w - 1 - bs.length) < 2 ^ w := by omega
    rw [Nat.mod_eq_of_lt e2, Nat.mod_eq_of_lt (show 2 ^ (w - 1) < 2 ^ w by have := Nat.two_pow_pos (w - 1); omega),
      Nat.mod_eq_of_lt (show ofBits bs * 2 ^ (w - 1 - bs.length) < 2 ^ w by omega)]
    have := Nat.two_pow_add_eq_or_of_lt hlt 1
    rw [Nat.mul_one] at this
    rw [this]
    apply Nat.eq_of_testBit_eq
    intro i
    rw [Nat.testBit_or, Nat.testBit_xor]
    by_cases hi : i < w - 1
    · rw [Nat.testBit_two_pow_of_ne (by omega)]; simp
    · rw [Nat.testBit_lt_two_pow (Nat.lt_of_lt_of_le hlt (Nat.pow_le_pow_right (by omega) (show w - 1 ≤ i by omega)))]
      simp

/-- Feeding at most `w` bits is adding them, left aligned, and shifting. -/
theorem feed_align (poly c : BitVec w) (bs : List Bool) (h : bs.length ≤ w) :
    feed poly c bs = shifts poly bs.length (c ^^^ align w bs) := by
  induction bs generalizing c with
  | nil => simp [feed, shifts, align, ofBits]
  | cons b bs ih =>
    have hl : bs.length + 1 ≤ w := by simpa using h
    simp only [feed, List.foldl_cons, List.length_cons, shifts] at *
    rw [ih (step poly c b) (by omega), align_cons b bs hl, ← BitVec.xor_assoc, shift_xor]
    unfold step
    congr 2
    have hlt : ofBits bs * 2 ^ (w - 1 - bs.length) < 2 ^ (w - 1) := by
      have := ofBits_lt bs
      calc _ < 2 ^ bs.length * 2 ^ (w - 1 - bs.length) := Nat.mul_lt_mul_of_pos_right this (Nat.two_pow_pos _)
        _ = 2 ^ (w - 1) := by rw [← Nat.pow_add]; congr 1; omega
    rw [shift_align_lt poly _ hlt, Nat.mul_assoc, ← Nat.pow_succ]
    unfold align
    congr 3; omega

theorem align_ne_zero (bs : List Bool) (h : bs.length ≤ w) (hne : true ∈ bs) : align w bs ≠ 0#w := by
  intro hc
  have hlt : ofBits bs * 2 ^ (w - bs.length) < 2 ^ w := by
    have := ofBits_lt bs
    calc _ < 2 ^ bs.length * 2 ^ (w - bs.length) := Nat.mul_lt_mul_of_pos_right this (Nat.two_pow_pos _)
      _ = 2 ^ w := by rw [← Nat.pow_add]; congr 1; omega
  have h0 : (align w bs).toNat = 0 := by rw [hc]; simp
  unfold align at h0
  rw [BitVec.toNat_ofNat, Nat.mod_eq_of_lt hlt] at h0
  have hz : ofBits bs = 0 := by
    rcases Nat.mul_eq_zero.1 h0 with h | h
    · exact h
    · have := Nat.two_pow_pos (w - bs.length); omega
  have : bs = toBits bs.length 0 := by rw [← hz, toBits_ofBits]
  rw [this, List.mem_iff_getElem] at hne
  obtain ⟨i, hi, he⟩ := hne
  rw [getElem_toBits] at he
  simp at he

/-- A non-zero error confined to `w` consecutive bits changes the register, whatever surrounds it. -/
theorem burst_ne_zero (poly : BitVec w) (hp : poly.getLsbD 0 = true) (a b : Nat) (e : List Bool)
    (hl : e.length ≤ w) (hne : true ∈ e) :
    feed poly 0#w (List.replicate a false ++ e ++ List.replicate b false) ≠ 0#w := by
  rw [feed_append, feed_append, feed_zeros_zero, feed_zeros, feed_align poly _ _ hl]
  intro hc
  have h1 := shifts_eq_zero poly hp _ _ (shifts_eq_zero poly hp _ _ hc)
  exact align_ne_zero e hl hne (by simpa using h1)

end Verif.Crc
