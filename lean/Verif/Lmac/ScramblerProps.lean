import Verif.Lmac.Scrambler
/-! # C11: scrambling -/
namespace Verif.Scrambler

/-- Register after `k` steps. -/
def iter : Nat → BitVec 32 → BitVec 32
  | 0, x => x
  | k + 1, x => iter k (nextBit x).2

theorem iter_succ' (k : Nat) (x : BitVec 32) : iter (k + 1) x = (nextBit (iter k x)).2 := by
  induction k generalizing x with
  | zero => rfl
  | succ k ih => rw [iter, ih]; rfl

theorem iter_add (a b : Nat) (x : BitVec 32) : iter (a + b) x = iter b (iter a x) := by
  induction a generalizing x with
  | zero => simp [iter]
  | succ a ih => rw [show a + 1 + b = (a + b) + 1 by omega, iter, ih]; rfl

/-- Taps other than the oldest bit. -/
def taps (x : BitVec 32) : Bool :=
  x.getLsbD 6 ^^ x.getLsbD 9 ^^ x.getLsbD 10 ^^ x.getLsbD 16 ^^ x.getLsbD 20 ^^ x.getLsbD 21 ^^ x.getLsbD 22 ^^
  x.getLsbD 24 ^^ x.getLsbD 25 ^^ x.getLsbD 27 ^^ x.getLsbD 28 ^^ x.getLsbD 30 ^^ x.getLsbD 31

theorem nextBit_fst (x : BitVec 32) : (nextBit x).1 = (x.getLsbD 0 ^^ taps x) := by
  simp only [nextBit, outBit, BitVec.getLsbD_and, BitVec.getLsbD_xor, BitVec.getLsbD_ushiftRight, taps]
  simp [Bool.xor_assoc]

theorem outBit_getLsbD (x : BitVec 32) (j : Nat) : (outBit x).getLsbD j = (decide (j = 0) && (nextBit x).1) := by
  unfold nextBit
  simp only
  by_cases h : j = 0
  · subst h; simp
  · unfold outBit
    rw [BitVec.getLsbD_and]
    have : (1#32).getLsbD j = false := by
      rw [BitVec.getLsbD_one]; simp; omega
    simp [this, h]

theorem nextBit_snd (x : BitVec 32) (i : Nat) (hi : i < 32) :
    (nextBit x).2.getLsbD i = if i = 31 then (nextBit x).1 else x.getLsbD (i + 1) := by
  rw [show (nextBit x).2 = (x >>> 1) ||| (outBit x <<< 31) from rfl, BitVec.getLsbD_or, BitVec.getLsbD_ushiftRight,
    BitVec.getLsbD_shiftLeft, outBit_getLsbD]
  by_cases h : i = 31
  · subst h
    rw [if_pos rfl, BitVec.getLsbD_of_ge _ _ (by omega)]
    simp
  · rw [if_neg h]
    have : decide (i < 31) = true := by simp; omega
    rw [this]
    simp [Nat.add_comm]

/-- One step loses nothing: the register can be run backwards. -/
theorem nextBit_inj {x y : BitVec 32} (h : (nextBit x).2 = (nextBit y).2) : x = y := by
  have hb : ∀ i, i < 32 → (nextBit x).2.getLsbD i = (nextBit y).2.getLsbD i := fun i _ => by rw [h]
  have hhi : ∀ j, 1 ≤ j → j < 32 → x.getLsbD j = y.getLsbD j := by
    intro j h1 h2
    have := hb (j - 1) (by omega)
    rw [nextBit_snd _ _ (by omega), nextBit_snd _ _ (by omega), if_neg (by omega), if_neg (by omega)] at this
    rwa [show j - 1 + 1 = j by omega] at this
  have h31 := hb 31 (by omega)
  rw [nextBit_snd _ _ (by omega), nextBit_snd _ _ (by omega), if_pos rfl, if_pos rfl, nextBit_fst, nextBit_fst] at h31
  have ht : taps x = taps y := by
    unfold taps
    rw [hhi 6 (by omega) (by omega), hhi 9 (by omega) (by omega), hhi 10 (by omega) (by omega), hhi 16 (by omega) (by omega), hhi 20 (by omega) (by omega), hhi 21 (by omega) (by omega), hhi 22 (by omega) (by omega),
      hhi 24 (by omega) (by omega), hhi 25 (by omega) (by omega), hhi 27 (by omega) (by omega), hhi 28 (by omega) (by omega), hhi 30 (by omega) (by omega), hhi 31 (by omega) (by omega)]
  rw [ht] at h31
  have h0 : x.getLsbD 0 = y.getLsbD 0 := by
    revert h31
    cases x.getLsbD 0 <;> cases y.getLsbD 0 <;> cases taps y <;> simp
  apply BitVec.eq_of_getLsbD_eq
  intro i hi
  by_cases h : i = 0
  · subst h; exact h0
  · exact hhi i (by omega) hi

theorem iter_inj {k : Nat} {x y : BitVec 32} (h : iter k x = iter k y) : x = y := by
  induction k generalizing x y with
  | zero => exact h
  | succ k ih => exact nextBit_inj (ih h)

/-- The register is a window on one sequence of bits. -/
theorem iter_window (x : BitVec 32) (k i : Nat) (hi : i < 32) : (iter k x).getLsbD i = (iter (k + i) x).getLsbD 0 := by
  induction i generalizing k with
  | zero => rfl
  | succ i ih =>
    have := nextBit_snd (iter k x) i (by omega)
    rw [if_neg (by omega), ← iter_succ'] at this
    rw [← this, ih (k + 1) (by omega)]
    congr 2; omega

@[simp] theorem length_keystream (x : BitVec 32) (n : Nat) : (keystream x n).length = n := by
  induction n generalizing x with
  | zero => rfl
  | succ n ih => simp [keystream, ih]

theorem getElem_keystream (x : BitVec 32) (n k : Nat) (h : k < (keystream x n).length) :
    (keystream x n)[k] = (iter (k + 32) x).getLsbD 0 := by
  induction n generalizing x k with
  | zero => simp at h
  | succ n ih =>
    cases k with
    | zero =>
      simp only [keystream, List.getElem_cons_zero]
      have := nextBit_snd x 31 (by omega)
      rw [if_pos rfl] at this
      rw [← this, show (nextBit x).2 = iter 1 x from rfl, iter_window x 1 31 (by omega)]
    | succ k =>
      simp only [keystream, List.getElem_cons_succ]
      rw [ih, show k + 1 + 32 = (k + 32) + 1 by omega]
      rfl

theorem scramble_eq (x : BitVec 32) (l : List Bool) : scramble x l = List.zipWith xor l (keystream x l.length) := by
  induction l generalizing x with
  | nil => rfl
  | cons a l ih => simp [scramble, keystream, ih]

@[simp] theorem length_scramble (x : BitVec 32) (l : List Bool) : (scramble x l).length = l.length := by
  rw [scramble_eq]; simp

/-- **C11, involution.** Applying the scrambler twice with the same code gives the block back: every code, every block. -/
theorem c11_involution (code : BitVec 32) (block : List Bool) : scramble code (scramble code block) = block := by
  induction block generalizing code with
  | nil => rfl
  | cons a l ih => simp [scramble, ih]

/-- **C11, separation.** Two different codes differ within the first 32 keystream bits. -/
theorem c11_codes_differ (a b : BitVec 32) (h : a ≠ b) (n : Nat) (hn : 32 ≤ n) : keystream a n ≠ keystream b n := by
  intro hc
  apply h
  apply iter_inj (k := 32)
  apply BitVec.eq_of_getLsbD_eq
  intro i hi
  rw [iter_window _ _ _ hi, iter_window _ _ _ hi]
  have ha : i < (keystream a n).length := by simp; omega
  have hb : i < (keystream b n).length := by simp; omega
  have e1 := getElem_keystream a n i ha
  have e2 := getElem_keystream b n i hb
  rw [Nat.add_comm 32 i, ← e1, ← e2]
  simp only [hc]

theorem iter_zero (k : Nat) : iter k 0#32 = 0#32 := by
  induction k with
  | zero => rfl
  | succ k ih => rw [iter_succ', ih]; decide

theorem keystream_zero (n : Nat) : keystream 0#32 n = List.replicate n false := by
  apply List.ext_getElem (by simp)
  intro i h1 h2
  rw [getElem_keystream, iter_zero]; simp

/-- **C11, no degenerate keystream.** For a non-zero code no 32 consecutive keystream bits, however late, are all zero. -/
theorem c11_no_zero_run (code : BitVec 32) (h : code ≠ 0#32) (start n : Nat) (hn : start + 32 ≤ n) :
    ((keystream code n).drop start).take 32 ≠ List.replicate 32 false := by
  intro hc
  apply h
  have hz : iter (start + 32) code = iter (start + 32) 0#32 := by
    rw [iter_zero]
    apply BitVec.eq_of_getLsbD_eq
    intro i hi
    rw [iter_window _ _ _ hi]
    have hl : start + i < (keystream code n).length := by simp; omega
    have e := getElem_keystream code n (start + i) hl
    rw [show start + 32 + i = start + i + 32 by omega, ← e]
    have h1 : (((keystream code n).drop start).take 32)[i]? = some false := by
      rw [hc, List.getElem?_replicate, if_pos hi]
    rw [List.getElem?_take_of_lt hi, List.getElem?_drop, List.getElem?_eq_getElem hl] at h1
    simpa using h1
  exact iter_inj hz

theorem getInit_toNat (mcc mnc colour : Nat) (hc : 1 ≤ colour) (hc2 : colour < 64) (hn : mnc < 16384) (hm : mcc < 1024) :
    (getInit mcc mnc colour).toNat = ((mcc * 16384 + mnc) * 64 + colour) * 4 + 3 := by
  unfold getInit scrambInit
  rw [if_neg (by omega)]
  have h1 : (colour ||| (mnc <<< 6)) = mnc * 64 + colour := by
    have := Nat.two_pow_add_eq_or_of_lt (show colour < 2 ^ 6 by omega) mnc
    rw [Nat.or_comm, Nat.shiftLeft_eq, Nat.mul_comm mnc, ← this, Nat.mul_comm]
  have h2 : (colour ||| (mnc <<< 6) ||| (mcc <<< 20)) = (mcc * 16384 + mnc) * 64 + colour := by
    rw [h1]
    have := Nat.two_pow_add_eq_or_of_lt (show mnc * 64 + colour < 2 ^ 20 by omega) mcc
    rw [Nat.or_comm, Nat.shiftLeft_eq, Nat.mul_comm mcc, ← this]; omega
  have e1 : (BitVec.ofNat 32 colour ||| (BitVec.ofNat 32 mnc <<< 6) ||| (BitVec.ofNat 32 mcc <<< 20)) =
      BitVec.ofNat 32 ((mcc * 16384 + mnc) * 64 + colour) := by
    apply BitVec.eq_of_toNat_eq
    simp only [BitVec.toNat_or, BitVec.toNat_shiftLeft, BitVec.toNat_ofNat]
    rw [Nat.mod_eq_of_lt (show colour < 2 ^ 32 by omega), Nat.mod_eq_of_lt (show mnc < 2 ^ 32 by omega),
      Nat.mod_eq_of_lt (show mcc < 2 ^ 32 by omega),
      Nat.mod_eq_of_lt (show mnc <<< 6 < 2 ^ 32 by rw [Nat.shiftLeft_eq]; omega),
      Nat.mod_eq_of_lt (show mcc <<< 20 < 2 ^ 32 by rw [Nat.shiftLeft_eq]; omega), h2,
      Nat.mod_eq_of_lt (by omega)]
  rw [e1, BitVec.toNat_or, BitVec.toNat_shiftLeft, BitVec.toNat_ofNat]
  have h3 := Nat.two_pow_add_eq_or_of_lt (show 3 < 2 ^ 2 by omega) ((mcc * 16384 + mnc) * 64 + colour)
  rw [Nat.mod_eq_of_lt (show (mcc * 16384 + mnc) * 64 + colour < 2 ^ 32 by omega), Nat.shiftLeft_eq,
    Nat.mod_eq_of_lt (by omega), Nat.mul_comm _ (2 ^ 2)]
  rw [show (3#32).toNat = 3 by decide, ← h3, Nat.mul_comm]

/-- **C11, networks never share a keystream.** Distinct (country, network, colour) identities, with the colour code a
cell may announce (1 to 63), get different keystreams, and none equals the fixed code of the synchronisation block. -/
theorem c11_networks_differ (mcc mnc cc mcc' mnc' cc' : Nat) (h1 : mcc < 1024) (h2 : mnc < 16384) (h3 : 1 ≤ cc ∧ cc < 64)
    (h1' : mcc' < 1024) (h2' : mnc' < 16384) (h3' : 1 ≤ cc' ∧ cc' < 64) (hne : (mcc, mnc, cc) ≠ (mcc', mnc', cc')) :
    keystream (getInit mcc mnc cc) 32 ≠ keystream (getInit mcc' mnc' cc') 32 ∧
    keystream (getInit mcc mnc cc) 32 ≠ keystream scrambInit 32 := by
  have t := getInit_toNat mcc mnc cc h3.1 h3.2 h2 h1
  have t' := getInit_toNat mcc' mnc' cc' h3'.1 h3'.2 h2' h1'
  refine ⟨c11_codes_differ _ _ ?_ 32 (Nat.le_refl _), c11_codes_differ _ _ ?_ 32 (Nat.le_refl _)⟩
  · intro hc
    have := congrArg BitVec.toNat hc
    rw [t, t'] at this
    apply hne
    have hcc : cc = cc' := by omega
    have hmn : mcc * 16384 + mnc = mcc' * 16384 + mnc' := by omega
    have hmnc : mnc = mnc' := by omega
    have hmcc : mcc = mcc' := by omega
    subst hcc hmnc hmcc; rfl
  · intro hc
    have := congrArg BitVec.toNat hc
    rw [t, show scrambInit.toNat = 3 by decide] at this
    omega

/-- A network with a colour code of at least 1 is really scrambled. -/
theorem c11_valid_code_nonzero (mcc mnc cc : Nat) (h1 : mcc < 1024) (h2 : mnc < 16384) (h3 : 1 ≤ cc ∧ cc < 64) :
    getInit mcc mnc cc ≠ 0#32 := by
  intro hc
  have := congrArg BitVec.toNat hc
  rw [getInit_toNat mcc mnc cc h3.1 h3.2 h2 h1] at this
  simp at this

/-- **Finding**: colour code 0 gives the all-zero code, and then scrambling is the identity on every block, for every
network: all networks with colour code 0 share the (empty) keystream. -/
theorem c11_colour_zero_disables (mcc mnc : Nat) (block : List Bool) : scramble (getInit mcc mnc 0) block = block := by
  have : getInit mcc mnc 0 = 0#32 := rfl
  rw [this, scramble_eq, keystream_zero]
  apply List.ext_getElem (by simp)
  intro i h1 h2
  simp

/-- Non-vacuity: the network of the repository's own test, scrambled and back. -/
example : getInit 204 1337 1 ≠ getInit 204 1337 2 ∧
    scramble (getInit 204 1337 1) [true, false, true, true, false, false, true, false] ≠
      [true, false, true, true, false, false, true, false] := by decide +kernel

end Verif.Scrambler
