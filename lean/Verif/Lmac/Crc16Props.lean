import Verif.Lmac.Crc16
/-! # C10: the block CRC -/
namespace Verif.Crc16
open Verif.Bits Verif.Crc

theorem and_top (c : BitVec 16) : (c &&& 0x8000#16 ≠ 0#16) ↔ c.msb = true := by
  have h : (0x8000#16) = BitVec.twoPow 16 15 := by decide
  rw [h, BitVec.and_twoPow, BitVec.msb_eq_getLsbD_last]
  simp only [Nat.add_one_sub_one]
  cases c.getLsbD 15 <;> simp

theorem stepBit_eq (c : BitVec 16) (b : Bool) : stepBit c b = step genPoly c b := by
  have ht : (BitVec.ofNat 16 b.toNat <<< 15) = top 16 b := by cases b <;> decide
  unfold stepBit step shift
  rw [ht]
  simp only [and_top]

theorem itutBits_eq (c : BitVec 16) (x : List Bool) (n : Nat) : itutBits c x n = feed genPoly c (x.take n) := by
  unfold itutBits feed
  congr 1
  funext c b
  exact stepBit_eq c b

theorem crc_bits (c : BitVec 16) : (List.range 16).map (fun i => (c >>> (15 - i)).getLsbD 0) = toBits 16 c.toNat := by
  apply List.ext_getElem (by simp)
  intro i h1 h2
  rw [getElem_toBits]
  simp [BitVec.getLsbD]

theorem align_toBits (c : BitVec 16) : align 16 (toBits 16 c.toNat) = c := by
  unfold align
  rw [length_toBits, ofBits_toBits c.isLt]
  simp

theorem check_iff (x : List Bool) (n : Nat) (h : x.length = n + 16) : check x n = true ↔ feed genPoly 0xffff#16 x = crcOk := by
  unfold check ccittBits
  rw [itutBits_eq, List.take_of_length_le (by omega)]
  simp

/-- **C10, acceptance.** Whatever the block and its length, the block with the CRC the encoder appends passes the
receiver's check. -/
theorem c10_accepts (data : List Bool) : check (appendCrc data) data.length = true := by
  rw [check_iff _ _ (by simp [appendCrc])]
  unfold appendCrc ccittBits
  simp only
  rw [itutBits_eq, List.take_length, crc_bits, feed_append, feed_align _ _ _ (by simp), align_toBits, length_toBits]
  generalize feed genPoly 0xffff#16 data = r
  have : r ^^^ ~~~r = 0xffff#16 := by
    apply BitVec.eq_of_getLsbD_eq
    intro i hi
    rw [BitVec.getLsbD_xor, BitVec.getLsbD_not, show (0xffff#16) = BitVec.allOnes 16 by decide, BitVec.getLsbD_allOnes]
    cases r.getLsbD i <;> simp [hi]
  rw [this]
  decide +kernel

/-- **C10, acceptance is exact.** A received block passes the check only if its last 16 bits are the CRC the encoder would have
appended to the others. -/
theorem c10_accepts_only (x : List Bool) (n : Nat) (h : x.length = n + 16) (hx : check x n = true) : x = appendCrc (x.take n) := by
  rw [check_iff _ _ h] at hx
  have ha := c10_accepts (x.take n)
  rw [check_iff _ _ (by simp [appendCrc])] at ha
  have e1 : x = x.take n ++ x.drop n := (List.take_append_drop n x).symm
  have e2 : appendCrc (x.take n) = x.take n ++ (appendCrc (x.take n)).drop n := by
    have hl : (x.take n).length = n := by rw [List.length_take]; omega
    unfold appendCrc
    simp only
    rw [List.drop_append_of_le_length (by omega), List.drop_eq_nil_of_le (by omega : (x.take n).length ≤ n), List.nil_append]
  have l1 : (x.drop n).length = 16 := by simp [h]
  have l2 : ((appendCrc (x.take n)).drop n).length = 16 := by simp [appendCrc]; omega
  have hinj : x.drop n = (appendCrc (x.take n)).drop n := by
    rw [e1, feed_append, feed_align _ _ _ (by omega), l1] at hx
    rw [e2, feed_append, feed_align _ _ _ (by omega), l2] at ha
    have hz : shifts genPoly 16 (align 16 (x.drop n) ^^^ align 16 ((appendCrc (x.take n)).drop n)) = 0#16 := by
      have : align 16 (x.drop n) ^^^ align 16 ((appendCrc (x.take n)).drop n) =
          (feed genPoly 0xffff#16 (x.take n) ^^^ align 16 (x.drop n)) ^^^
          (feed genPoly 0xffff#16 (x.take n) ^^^ align 16 ((appendCrc (x.take n)).drop n)) := by
        generalize feed genPoly 0xffff#16 (x.take n) = f
        generalize align 16 (x.drop n) = a
        generalize align 16 ((appendCrc (x.take n)).drop n) = b
        rw [BitVec.xor_comm f a, BitVec.xor_assoc, ← BitVec.xor_assoc f f b, BitVec.xor_self, BitVec.zero_xor]
      rw [this, shifts_xor, hx, ha, BitVec.xor_self]
    have h0 := shifts_eq_zero genPoly (by decide) _ _ hz
    have heq : align 16 (x.drop n) = align 16 ((appendCrc (x.take n)).drop n) := by
      have := congrArg (· ^^^ align 16 ((appendCrc (x.take n)).drop n)) h0
      simpa [BitVec.xor_assoc] using this
    unfold align at heq
    rw [l1, l2] at heq
    have := congrArg BitVec.toNat heq
    have b1 := ofBits_lt (x.drop n)
    have b2 := ofBits_lt ((appendCrc (x.take n)).drop n)
    rw [l1] at b1
    rw [l2] at b2
    simp only [BitVec.toNat_ofNat, Nat.sub_self, Nat.pow_zero, Nat.mul_one] at this
    rw [Nat.mod_eq_of_lt b1, Nat.mod_eq_of_lt b2] at this
    exact ofBits_inj (by omega) this
  rw [e2, ← hinj]
  exact e1

/-- Bitwise difference of two blocks. -/
def flip (x e : List Bool) : List Bool := List.zipWith xor x e

theorem feed_flip (x e : List Bool) (h : x.length = e.length) :
    feed genPoly 0xffff#16 (flip x e) = feed genPoly 0xffff#16 x ^^^ feed genPoly 0#16 e := by
  have := feed_xor genPoly x e h 0xffff#16 0#16
  simpa [flip] using this

theorem reject_of_ne {x e : List Bool} {n : Nat} (h : x.length = n + 16) (he : e.length = x.length)
    (hx : check x n = true) (hne : feed genPoly 0#16 e ≠ 0#16) : check (flip x e) n = false := by
  rw [check_iff _ _ h] at hx
  have hl : (flip x e).length = n + 16 := by simp [flip]; omega
  cases hc : check (flip x e) n with
  | false => rfl
  | true =>
    rw [check_iff _ _ hl, feed_flip _ _ he.symm, hx] at hc
    exfalso
    apply hne
    have := congrArg (crcOk ^^^ ·) hc
    simpa [← BitVec.xor_assoc] using this

/-- **C10, bursts.** Any non-zero error confined to 16 consecutive bits of an accepted block, of any length and at any
position (CRC bits included), is rejected. -/
theorem c10_rejects_burst (x : List Bool) (n a b : Nat) (w : List Bool) (h : x.length = n + 16)
    (hx : check x n = true) (hw : w.length ≤ 16) (hne : true ∈ w) (hlen : a + w.length + b = x.length) :
    check (flip x (List.replicate a false ++ w ++ List.replicate b false)) n = false := by
  apply reject_of_ne h (by simp; omega) hx
  exact burst_ne_zero genPoly (by decide) a b w hw hne

/-- **C10, single-bit errors** are rejected. -/
theorem c10_rejects_single (x : List Bool) (n i : Nat) (h : x.length = n + 16) (hx : check x n = true)
    (hi : i < x.length) : check (x.set i (!x[i])) n = false := by
  have e : x.set i (!x[i]) = flip x (List.replicate i false ++ [true] ++ List.replicate (x.length - i - 1) false) := by
    apply List.ext_getElem (by simp [flip]; omega)
    intro j h1 h2
    simp only [flip, List.getElem_zipWith, List.getElem_set]
    by_cases hj : i = j
    · subst hj
      rw [if_pos rfl, List.getElem_append_left (by simp), List.getElem_append_right (by simp)]
      simp
    · rw [if_neg hj]
      by_cases hlt : j < i
      · rw [List.getElem_append_left (by simp; omega), List.getElem_append_left (by simpa using hlt)]; simp
      · rw [List.getElem_append_right (by simp; omega)]; simp
  rw [e]
  exact c10_rejects_burst x n i (x.length - i - 1) [true] h hx (by simp) (by simp) (by simp; omega)

/-- Parity of the low `n` bits of the register. -/
def par (c : BitVec 16) : Nat → Bool
  | 0 => false
  | n + 1 => par c n ^^ c.getLsbD n

/-- Parity of the register. -/
def parity (c : BitVec 16) : Bool := par c 16

theorem par_xor (c d : BitVec 16) (n : Nat) : par (c ^^^ d) n = (par c n ^^ par d n) := by
  induction n with
  | zero => rfl
  | succ n ih =>
    simp only [par, ih, BitVec.getLsbD_xor]
    cases par c n <;> cases par d n <;> cases c.getLsbD n <;> cases d.getLsbD n <;> rfl

theorem parity_xor (c d : BitVec 16) : parity (c ^^^ d) = (parity c ^^ parity d) := par_xor c d 16

theorem par_shl (c : BitVec 16) (n : Nat) (h : n < 16) : par (c <<< 1) (n + 1) = par c n := by
  induction n with
  | zero => simp [par]
  | succ n ih =>
    rw [par, ih (by omega)]
    simp only [par, BitVec.getLsbD_shiftLeft]
    simp [h]

theorem parity_shl (c : BitVec 16) : parity (c <<< 1) = (parity c ^^ c.msb) := by
  unfold parity
  rw [par_shl c 15 (by omega), show par c 16 = (par c 15 ^^ c.getLsbD 15) from rfl, BitVec.msb_eq_getLsbD_last,
    Bool.xor_assoc, Bool.xor_self, Bool.xor_false]

theorem parity_shift (c : BitVec 16) : parity (shift genPoly c) = parity c := by
  unfold shift
  split
  · rename_i h
    rw [parity_xor, parity_shl, h, show parity genPoly = true by decide]; simp
  · rename_i h
    rw [parity_shl]; simp at h; simp [h]

theorem parity_step (c : BitVec 16) (b : Bool) : parity (step genPoly c b) = (parity c ^^ b) := by
  unfold step
  rw [parity_shift, parity_xor]
  congr 1
  cases b <;> decide

theorem parity_feed (c : BitVec 16) (e : List Bool) : parity (feed genPoly c e) = (parity c ^^ decide (e.count true % 2 = 1)) := by
  induction e generalizing c with
  | nil => simp [feed]
  | cons b e ih =>
    simp only [feed, List.foldl_cons] at *
    rw [ih, parity_step]
    cases b
    · simp
    · simp only [List.count_cons_self, Bool.xor_assoc]
      congr 1
      have : e.count true % 2 = 0 ∨ e.count true % 2 = 1 := by omega
      rcases this with h | h
      · have : (e.count true + 1) % 2 = 1 := by omega
        simp [h, this]
      · have : (e.count true + 1) % 2 = 0 := by omega
        simp [h, this]

/-- **C10, odd errors.** An odd number of wrong bits, anywhere, is rejected. -/
theorem c10_rejects_odd (x e : List Bool) (n : Nat) (h : x.length = n + 16) (he : e.length = x.length)
    (hx : check x n = true) (hodd : e.count true % 2 = 1) : check (flip x e) n = false := by
  apply reject_of_ne h he hx
  intro hc
  have := parity_feed 0#16 e
  rw [hc] at this
  rw [hodd] at this
  exact absurd this (by decide)

/-- The register does not return to a unit within the length of the longest control block (288 bits). -/
theorem shifts_one_ne : ∀ k, 1 ≤ k → k ≤ 288 → shifts genPoly k 1#16 ≠ 1#16 := by
  have h : ∀ k : Fin 289, 1 ≤ k.val → shifts genPoly k.val 1#16 ≠ 1#16 := by decide +kernel
  intro k h1 h2
  exact h ⟨k, by omega⟩ h1

theorem shifts_inj {a b : BitVec 16} {k : Nat} (h : shifts genPoly k a = shifts genPoly k b) : a = b := by
  have h0 : shifts genPoly k (a ^^^ b) = 0#16 := by rw [shifts_xor, h, BitVec.xor_self]
  have := shifts_eq_zero genPoly (by decide) k _ h0
  have := congrArg (· ^^^ b) this
  simpa [BitVec.xor_assoc] using this

/-- **C10, double errors.** Two wrong bits, at any distance up to the longest control block, are rejected. -/
theorem c10_rejects_double (x : List Bool) (n a d b : Nat) (h : x.length = n + 16) (hx : check x n = true)
    (hd : d ≤ 287) (hlen : a + 1 + d + 1 + b = x.length) :
    check (flip x (List.replicate a false ++ ([true] ++ List.replicate d false ++ [true]) ++ List.replicate b false)) n = false := by
  apply reject_of_ne h (by simp; omega) hx
  rw [feed_append, feed_append, feed_zeros_zero, feed_zeros]
  intro hc
  have h1 := shifts_eq_zero genPoly (by decide) _ _ hc
  rw [feed_append, feed_append, feed_zeros] at h1
  have e1 : feed genPoly 0#16 [true] = shifts genPoly 1 0x8000#16 := by decide
  rw [e1, ← shifts_add, feed_align _ _ _ (by simp)] at h1
  have e2 : align 16 [true] = 0x8000#16 := by decide
  rw [e2] at h1
  have h2 := shifts_eq_zero genPoly (by decide) _ _ h1
  have h3 : shifts genPoly (1 + d) 0x8000#16 = 0x8000#16 := by
    have := congrArg (· ^^^ 0x8000#16) h2
    simpa [BitVec.xor_assoc] using this
  have e3 : (0x8000#16) = shifts genPoly 15 1#16 := by decide +kernel
  have h4 : shifts genPoly 15 (shifts genPoly (1 + d) 1#16) = shifts genPoly 15 1#16 := by
    rw [← shifts_add, Nat.add_comm (1 + d) 15, shifts_add, ← e3, h3]
  exact shifts_one_ne (1 + d) (by omega) (by omega) (shifts_inj h4)

/-- Non-vacuity: an accepted block and the result of damaging it. -/
example : check (appendCrc [true, false, true, true, false]) 5 = true ∧
    check (flip (appendCrc [true, false, true, true, false])
      (List.replicate 3 false ++ (true :: List.replicate 14 false ++ [true]) ++ List.replicate 2 false)) 5 = false := by
  decide +kernel

end Verif.Crc16
