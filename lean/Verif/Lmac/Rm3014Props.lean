import Verif.Lmac.Rm3014
import Verif.Lmac.ScramblerProps
/-! # C13: the access-assignment channel code -/
namespace Verif.Rm3014
open Verif.Bits

/-! ## Linear algebra over GF(2) on naturals -/

/-- Two xor-linear maps which agree on the powers of two below `2^n` agree below `2^n`. -/
theorem linear_ext (f g : Nat → Nat) (hf : ∀ a b, f (a ^^^ b) = f a ^^^ f b) (hg : ∀ a b, g (a ^^^ b) = g a ^^^ g b)
    (n : Nat) (h : ∀ j, j < n → f (2 ^ j) = g (2 ^ j)) : ∀ m, m < 2 ^ n → f m = g m := by
  have z : ∀ f : Nat → Nat, (∀ a b, f (a ^^^ b) = f a ^^^ f b) → f 0 = 0 := by
    intro f hf
    have := hf 0 0
    simpa using this
  induction n with
  | zero => intro m hm; have : m = 0 := by omega
            subst this; rw [z f hf, z g hg]
  | succ n ih =>
    intro m hm
    have ih := ih (fun j hj => h j (by omega))
    by_cases hlt : m < 2 ^ n
    · exact ih m hlt
    · have hle : 2 ^ n ≤ m := by omega
      have hp : m - 2 ^ n < 2 ^ n := by rw [Nat.pow_succ] at hm; omega
      have e : m = 2 ^ n ^^^ (m - 2 ^ n) := by
        apply Nat.eq_of_testBit_eq
        intro i
        have h1 := Nat.two_pow_add_eq_or_of_lt hp 1
        rw [Nat.mul_one, show 2 ^ n + (m - 2 ^ n) = m by omega] at h1
        rw [h1, Nat.testBit_or, ← h1, Nat.testBit_xor]
        by_cases hi : i < n
        · rw [Nat.testBit_two_pow_of_ne (by omega)]; simp
        · rw [Nat.testBit_lt_two_pow (Nat.lt_of_lt_of_le hp (Nat.pow_le_pow_right (by omega) (show n ≤ i by omega)))]
          simp
      rw [e, hf, hg, h n (by omega), ih _ hp]

theorem and_one_eq (x k : Nat) : ((x >>> k) &&& 1 = 1) ↔ x.testBit k = true := by
  rw [Nat.testBit_eq_decide_div_mod_eq, Nat.and_one_is_mod, Nat.shiftRight_eq_div_pow]
  simp

theorem xor4 (a b c d : Nat) : (a ^^^ b) ^^^ (c ^^^ d) = (a ^^^ c) ^^^ (b ^^^ d) := by
  rw [Nat.xor_assoc, Nat.xor_assoc, ← Nat.xor_assoc b c d, Nat.xor_comm b c, Nat.xor_assoc c b d]

theorem compute_xor (a b : Nat) : compute (a ^^^ b) = compute a ^^^ compute b := by
  have key : ∀ (l : List Nat) (v w : Nat),
      l.foldl (fun val i => if ((a ^^^ b) >>> (13 - i)) &&& 1 = 1 then val ^^^ rows.getD i 0 else val) (v ^^^ w) =
      l.foldl (fun val i => if (a >>> (13 - i)) &&& 1 = 1 then val ^^^ rows.getD i 0 else val) v ^^^
      l.foldl (fun val i => if (b >>> (13 - i)) &&& 1 = 1 then val ^^^ rows.getD i 0 else val) w := by
    intro l
    induction l with
    | nil => intro v w; rfl
    | cons i l ih =>
      intro v w
      simp only [List.foldl_cons]
      rw [← ih]
      congr 1
      simp only [and_one_eq, Nat.testBit_xor]
      cases a.testBit (13 - i) <;> cases b.testBit (13 - i) <;> simp
      · rw [Nat.xor_assoc]
      · rw [Nat.xor_assoc, Nat.xor_assoc, Nat.xor_comm w]
      · rw [xor4, Nat.xor_self, Nat.xor_zero]
  have := key (List.range 14) 0 0
  simpa [compute] using this

theorem shr_xor (a b k : Nat) : (a ^^^ b) >>> k = (a >>> k) ^^^ (b >>> k) := by
  apply Nat.eq_of_testBit_eq; intro i
  simp [Nat.testBit_shiftRight, Nat.testBit_xor]

theorem mod_xor (a b k : Nat) : (a ^^^ b) % 2 ^ k = (a % 2 ^ k) ^^^ (b % 2 ^ k) := by
  apply Nat.eq_of_testBit_eq; intro i
  simp only [Nat.testBit_mod_two_pow, Nat.testBit_xor]
  cases decide (i < k) <;> simp

theorem naive_xor (a b : Nat) : decodeNaive (a ^^^ b) = decodeNaive a ^^^ decodeNaive b := by
  unfold decodeNaive
  rw [shr_xor, mod_xor]

theorem naive_compute (m : Nat) (h : m < 2 ^ 14) : decodeNaive (compute m) = m := by
  apply linear_ext (fun m => decodeNaive (compute m)) id (fun a b => by simp only [compute_xor, naive_xor])
    (fun _ _ => rfl) 14 ?_ m h
  have : ∀ j : Fin 14, decodeNaive (compute (2 ^ j.val)) = 2 ^ j.val := by decide +kernel
  intro j hj; exact this ⟨j, hj⟩

theorem sumBit_xor (a b j : Nat) : sumBit (a ^^^ b) j = (sumBit a j ^^ sumBit b j) := by
  have key : ∀ (l : List Nat) (v w : Bool),
      l.foldl (fun s i => s ^^ ((a ^^^ b).testBit (29 - i) && genBit i j)) (v ^^ w) =
      (l.foldl (fun s i => s ^^ (a.testBit (29 - i) && genBit i j)) v ^^
      l.foldl (fun s i => s ^^ (b.testBit (29 - i) && genBit i j)) w) := by
    intro l
    induction l with
    | nil => intro v w; rfl
    | cons i l ih =>
      intro v w
      simp only [List.foldl_cons]
      rw [← ih]
      congr 1
      rw [Nat.testBit_xor]
      cases a.testBit (29 - i) <;> cases b.testBit (29 - i) <;> cases genBit i j <;> cases v <;> cases w <;> rfl
  have := key (List.range 14) false false
  unfold sumBit
  rw [Bool.false_xor] at this
  rw [this, Nat.testBit_xor]
  generalize List.foldl _ _ _ = x
  generalize List.foldl _ _ _ = y
  cases x <;> cases y <;> cases a.testBit (29 - (14 + j)) <;> cases b.testBit (29 - (14 + j)) <;> rfl

theorem orfold_testBit (p : Nat → Bool) (n k : Nat) :
    ((List.range n).foldl (fun syn j => if p j then syn ||| (1 <<< j) else syn) 0).testBit k = (decide (k < n) && p k) := by
  induction n with
  | zero => simp
  | succ n ih =>
    rw [List.range_succ, List.foldl_append]
    simp only [List.foldl_cons, List.foldl_nil]
    by_cases hk : k = n
    · subst hk
      cases hp : p k
      · rw [if_neg (by simp), ih]; simp
      · rw [if_pos rfl, Nat.testBit_or, Nat.one_shiftLeft, Nat.testBit_two_pow_self]; simp
    · have h2 : (decide (k < n + 1)) = decide (k < n) := by
        apply decide_eq_decide.2; omega
      split
      · rw [Nat.testBit_or, ih, Nat.one_shiftLeft, Nat.testBit_two_pow_of_ne (by omega), h2]; simp
      · rw [ih, h2]

theorem syndrome_xor (a b : Nat) : syndrome (a ^^^ b) = syndrome a ^^^ syndrome b := by
  apply Nat.eq_of_testBit_eq; intro k
  unfold syndrome
  rw [Nat.testBit_xor, orfold_testBit, orfold_testBit, orfold_testBit, sumBit_xor]
  cases decide (k < 16) <;> simp

/-- Every codeword has syndrome zero. -/
theorem syndrome_compute (m : Nat) (h : m < 2 ^ 14) : syndrome (compute m) = 0 := by
  apply linear_ext (fun m => syndrome (compute m)) (fun _ => 0) (fun a b => by simp only [compute_xor, syndrome_xor])
    (fun _ _ => by simp) 14 ?_ m h
  have : ∀ j : Fin 14, syndrome (compute (2 ^ j.val)) = 0 := by decide +kernel
  intro j hj; exact this ⟨j, hj⟩

theorem syndrome_unit : ∀ k, k < 30 → syndrome (1 <<< (29 - k)) = colSyndrome k := by
  have : ∀ k : Fin 30, syndrome (1 <<< (29 - k.val)) = colSyndrome k.val := by decide +kernel
  intro k hk; exact this ⟨k, hk⟩

theorem find_col : ∀ k, k < 30 → (List.range 30).find? (fun k' => colSyndrome k' == colSyndrome k) = some k := by
  have : ∀ k : Fin 30, (List.range 30).find? (fun k' => colSyndrome k' == colSyndrome k.val) = some k.val := by decide +kernel
  intro k hk; exact this ⟨k, hk⟩

theorem col_ne_zero : ∀ k, k < 30 → colSyndrome k ≠ 0 := by
  have : ∀ k : Fin 30, colSyndrome k.val ≠ 0 := by decide +kernel
  intro k hk; exact this ⟨k, hk⟩

theorem ecc_clean (m : Nat) (h : m < 2 ^ 14) : decodeEcc (compute m) = m := by
  have := naive_compute m h
  unfold decodeNaive at this
  simp [decodeEcc, syndrome_compute m h, this]

/-- **C13, single errors.** Whatever the 14-bit word and whichever of the 30 transmitted bits is wrong, the word is
recovered. -/
theorem c13_corrects_single (m k : Nat) (h : m < 2 ^ 14) (hk : k < 30) : decodeEcc (compute m ^^^ (1 <<< (29 - k))) = m := by
  have hs : syndrome (compute m ^^^ (1 <<< (29 - k))) = colSyndrome k := by
    rw [syndrome_xor, syndrome_compute m h, syndrome_unit k hk]; simp
  unfold decodeEcc
  simp only [hs, find_col k hk]
  rw [if_pos (col_ne_zero k hk), Nat.xor_assoc, Nat.xor_self, Nat.xor_zero]
  exact naive_compute m h

/-- **C13, error-free words** are recovered by both decoders. -/
theorem c13_roundtrip (m : Nat) (h : m < 2 ^ 14) : decodeNaive (compute m) = m ∧ decodeEcc (compute m) = m :=
  ⟨naive_compute m h, ecc_clean m h⟩

/-! ## Minimum distance -/

/-- Number of ones among the low `n` bits. -/
def weight : Nat → Nat → Nat
  | 0, _ => 0
  | n + 1, x => x % 2 + weight n (x / 2)

/-- Number of the 30 positions in which two codewords differ. -/
def distance (a b : Nat) : Nat := weight 30 (a ^^^ b)

/-- Sum of the selected rows. -/
def select : List Nat → List Bool → Nat
  | r :: rs, b :: bs => (if b then r else 0) ^^^ select rs bs
  | _, _ => 0

theorem select_xor (rs : List Nat) (x y : List Bool) (h : x.length = y.length) :
    select rs (List.zipWith xor x y) = select rs x ^^^ select rs y := by
  induction rs generalizing x y with
  | nil => cases x <;> cases y <;> simp [select]
  | cons r rs ih =>
    cases x with
    | nil => cases y <;> simp_all [select]
    | cons a x =>
      cases y with
      | nil => simp at h
      | cons b y =>
        simp only [List.zipWith_cons_cons, select]
        rw [ih x y (by simpa using h), xor4]
        cases a <;> cases b <;> simp

theorem toBits_xor (n a b : Nat) : toBits n (a ^^^ b) = List.zipWith xor (toBits n a) (toBits n b) := by
  induction n with
  | zero => rfl
  | succ n ih => simp [toBits, ih, Nat.testBit_xor]

theorem compute_eq_select (m : Nat) (h : m < 2 ^ 14) : compute m = select rows (toBits 14 m) := by
  apply linear_ext compute (fun m => select rows (toBits 14 m)) compute_xor
    (fun a b => by simp only [toBits_xor]; exact select_xor _ _ _ (by simp)) 14 ?_ m h
  have : ∀ j : Fin 14, compute (2 ^ j.val) = select rows (toBits 14 (2 ^ j.val)) := by decide +kernel
  intro j hj; exact this ⟨j, hj⟩

/-- Every sum of a selection of rows, added to `acc`, is zero or has weight at least 8. -/
def heavy : List Nat → Nat → Bool
  | [], acc => acc == 0 || decide (8 ≤ weight 30 acc)
  | r :: rs, acc => heavy rs acc && heavy rs (acc ^^^ r)

theorem heavy_sound (rs : List Nat) (acc : Nat) (h : heavy rs acc = true) (bs : List Bool) (hl : bs.length = rs.length) :
    acc ^^^ select rs bs = 0 ∨ 8 ≤ weight 30 (acc ^^^ select rs bs) := by
  induction rs generalizing acc bs with
  | nil =>
    cases bs with
    | nil => simpa [heavy, select] using h
    | cons b bs => simp at hl
  | cons r rs ih =>
    cases bs with
    | nil => simp at hl
    | cons b bs =>
      simp only [heavy, Bool.and_eq_true] at h
      simp only [select]
      cases b
      · simpa using ih acc h.1 bs (by simpa using hl)
      · have := ih (acc ^^^ r) h.2 bs (by simpa using hl)
        rw [Nat.xor_assoc] at this
        simpa using this

/-- All 16384 codewords, checked by the kernel. -/
theorem heavy_rows : heavy rows 0 = true := by decide +kernel

/-- **C13, distance.** The codewords of two different words differ in at least 8 of the 30 bits. -/
theorem c13_distance (m m' : Nat) (h : m < 2 ^ 14) (h' : m' < 2 ^ 14) (hne : m ≠ m') : 8 ≤ distance (compute m) (compute m') := by
  unfold distance
  rw [← compute_xor]
  have hx : m ^^^ m' < 2 ^ 14 := Nat.xor_lt_two_pow h h'
  rw [compute_eq_select _ hx]
  have := heavy_sound rows 0 heavy_rows (toBits 14 (m ^^^ m')) (by simp [rows])
  rw [Nat.zero_xor] at this
  rcases this with h0 | h8
  · exfalso
    rw [← compute_eq_select _ hx] at h0
    have := naive_compute _ hx
    rw [h0] at this
    have h1 : m ^^^ m' = 0 := by rw [← this]; rfl
    exact hne (by
      have := congrArg (· ^^^ m') h1
      simpa [Nat.xor_assoc] using this)
  · exact h8

theorem weight_xor_le (n a b : Nat) : weight n (a ^^^ b) ≤ weight n a + weight n b := by
  induction n generalizing a b with
  | zero => simp [weight]
  | succ n ih =>
    simp only [weight]
    have e1 : (a ^^^ b) / 2 = (a / 2) ^^^ (b / 2) := by
      have := shr_xor a b 1
      simpa [Nat.shiftRight_eq_div_pow] using this
    have e2 : (a ^^^ b) % 2 ≤ a % 2 + b % 2 := by
      have := mod_xor a b 1
      simp only [Nat.pow_one] at this
      rw [this]
      rcases Nat.mod_two_eq_zero_or_one a with h | h <;> rcases Nat.mod_two_eq_zero_or_one b with h' | h' <;> rw [h, h'] <;> decide
    rw [e1]
    have := ih (a / 2) (b / 2)
    omega

/-- **C13, unique nearest word.** A received word with at most three wrong bits is within three bits of one codeword only:
such errors can never turn a word into another valid one. -/
theorem c13_unique_nearest (m m' r : Nat) (h : m < 2 ^ 14) (h' : m' < 2 ^ 14) (h1 : distance r (compute m) ≤ 3)
    (h2 : distance r (compute m') ≤ 3) : m = m' := by
  apply Classical.byContradiction
  intro hne
  have := c13_distance m m' h h' hne
  have h3 := weight_xor_le 30 (r ^^^ compute m) (r ^^^ compute m')
  rw [xor4, Nat.xor_self, Nat.zero_xor] at h3
  unfold distance at *
  omega

theorem select_lt (n : Nat) (rs : List Nat) (hr : ∀ r ∈ rs, r < 2 ^ n) (bs : List Bool) : select rs bs < 2 ^ n := by
  induction rs generalizing bs with
  | nil => cases bs <;> simp [select, Nat.two_pow_pos]
  | cons r rs ih =>
    cases bs with
    | nil => simp [select, Nat.two_pow_pos]
    | cons b bs =>
      simp only [select]
      apply Nat.xor_lt_two_pow
      · cases b
        · simp [Nat.two_pow_pos]
        · simpa using hr r (List.mem_cons_self)
      · exact ih (fun r hm => hr r (by simp [hm])) bs

theorem rows_lt : ∀ r ∈ rows, r < 2 ^ 30 := by decide +kernel

theorem compute_lt (m : Nat) (h : m < 2 ^ 14) : compute m < 2 ^ 30 := by
  rw [compute_eq_select m h]
  exact select_lt 30 rows rows_lt _

theorem ofBits_set_flip (x : List Bool) (i : Nat) (hi : i < x.length) :
    ofBits (x.set i (!x[i])) = ofBits x ^^^ (1 <<< (x.length - 1 - i)) := by
  have hl : (x.set i (!x[i])).length = x.length := by simp
  have e : toBits x.length (ofBits (x.set i (!x[i]))) = toBits x.length (ofBits x ^^^ (1 <<< (x.length - 1 - i))) := by
    have h1 := toBits_ofBits (x.set i (!x[i]))
    rw [hl] at h1
    rw [h1]
    apply List.ext_getElem (by simp)
    intro j h2 h3
    have hj : j < x.length := by simpa using h2
    rw [getElem_toBits, Nat.testBit_xor, testBit_ofBits _ _ (by omega), List.getElem_set]
    rw [Nat.one_shiftLeft, Nat.testBit_two_pow]
    have ej : x.length - 1 - (x.length - 1 - j) = j := by omega
    by_cases hij : i = j
    · subst hij
      simp [ej, hi]
    · have : ¬ (x.length - 1 - i = x.length - 1 - j) := by omega
      simp [hij, this, ej, hj]
  have hlt1 : ofBits (x.set i (!x[i])) < 2 ^ x.length := by have := ofBits_lt (x.set i (!x[i])); rwa [hl] at this
  have hlt2 : ofBits x ^^^ (1 <<< (x.length - 1 - i)) < 2 ^ x.length := by
    apply Nat.xor_lt_two_pow (ofBits_lt x)
    rw [Nat.one_shiftLeft]
    exact Nat.pow_lt_pow_right (by omega) (by omega)
  have := congrArg ofBits e
  rwa [ofBits_toBits hlt1, ofBits_toBits hlt2] at this

theorem scramble_set_flip (code : BitVec 32) (x : List Bool) (i : Nat) (hi : i < x.length) :
    Scrambler.scramble code (x.set i (!x[i])) =
      (Scrambler.scramble code x).set i (!(Scrambler.scramble code x)[i]'(by simpa using hi)) := by
  apply List.ext_getElem (by simp)
  intro j h1 h2
  simp only [Scrambler.scramble_eq, List.getElem_zipWith, List.getElem_set]
  by_cases hij : i = j
  · subst hij; simp
  · simp [hij]

/-- **C13, the AACH.** For every 14-bit access-assign field and every scrambling code the receiver recovers the field,
also when any one of the 30 transmitted bits is inverted. -/
theorem c13_aach_roundtrip (x : List Bool) (code : BitVec 32) (h : x.length = 14) :
    ∃ t, encodeAach x code = .ok t ∧ t.length = 30 ∧ decodeAach t code = .ok x ∧
      ∀ (i : Nat) (b : Bool), i < 30 → t[i]? = some b → decodeAach (t.set i (!b)) code = .ok x := by
  have hx : ofBits x < 2 ^ 14 := by have := ofBits_lt x; rwa [h] at this
  have hxb : toBits 14 (ofBits x) = x := by have := toBits_ofBits x; rwa [h] at this
  have hlt := compute_lt _ hx
  refine ⟨Scrambler.scramble code (toBits 30 (compute (ofBits x))), by simp [encodeAach, h], by simp, ?_, ?_⟩
  · simp [decodeAach, Scrambler.c11_involution, ofBits_toBits hlt, ecc_clean _ hx, hxb, hx]
  · intro i b hi hb
    have hl : i < (Scrambler.scramble code (toBits 30 (compute (ofBits x)))).length := by simpa using hi
    have hb' : b = (Scrambler.scramble code (toBits 30 (compute (ofBits x))))[i] := by
      rw [List.getElem?_eq_getElem hl] at hb; simpa using hb.symm
    subst hb'
    unfold decodeAach
    simp only [List.length_set, Scrambler.length_scramble, length_toBits]
    have e : Scrambler.scramble code ((Scrambler.scramble code (toBits 30 (compute (ofBits x)))).set i
        (!(Scrambler.scramble code (toBits 30 (compute (ofBits x))))[i])) =
        (toBits 30 (compute (ofBits x))).set i (!(toBits 30 (compute (ofBits x)))[i]'(by simpa using hi)) := by
      rw [scramble_set_flip code _ i hl]
      simp only [Scrambler.c11_involution]
    rw [e, ofBits_set_flip _ _ (by simpa using hi), ofBits_toBits hlt, length_toBits]
    have := c13_corrects_single (ofBits x) i hx hi
    rw [show 30 - 1 - i = 29 - i by omega, this]
    simp [hx, hxb]

/-- **Finding**: two wrong bits are neither corrected nor reported. The decoder has no failure result, and there is a word
and a pair of errors for which it returns a different word. -/
theorem c13_double_error_unreported : ∃ m r, m < 2 ^ 14 ∧ distance r (compute m) = 2 ∧ decodeEcc r ≠ m :=
  ⟨0x1234, compute 0x1234 ^^^ 0x30000000, by decide, by decide +kernel, by decide +kernel⟩

/-- Non-vacuity: a word whose codeword is damaged in bit 7 of the air interface. -/
example : compute 0x2A3B ≠ 0x2A3B ∧ decodeEcc (compute 0x2A3B ^^^ (1 <<< (29 - 7))) = 0x2A3B := by decide +kernel

end Verif.Rm3014
