import Verif.Lmac.ViterbiProps
/-!
# Distance between punctured code words

The minimum number of transmitted (not punctured) bits in which two terminated messages differ, computed by a backward
dynamic program over the puncturing pattern, with its soundness proof.
-/
namespace Verif.Viterbi
open Verif.ConvEnc

/-- Number of selected positions holding a one. -/
def maskWeight : List Bool → List Bool → Nat
  | k :: ks, b :: bs => (if k && b then 1 else 0) + maskWeight ks bs
  | _, _ => 0

/-- Keep the selected bits, erase the others. -/
def mask : List Bool → List Bool → List (Option Bool)
  | k :: ks, b :: bs => (if k then some b else none) :: mask ks bs
  | _, _ => []

/-- Sum of two register contents. -/
def xorEnc (s t : Enc) : Enc := ⟨s.d0 ^^ t.d0, s.d1 ^^ t.d1, s.d2 ^^ t.d2, s.d3 ^^ t.d3⟩

/-- A linear encoder step of fixed rate. -/
structure Linear (taps : Enc → Bool → List Bool) (rate : Nat) : Prop where
  len : ∀ s b, (taps s b).length = rate
  lin : ∀ s t a b, taps (xorEnc s t) (a ^^ b) = List.zipWith xor (taps s a) (taps t b)

theorem cch_linear : Linear cchTaps 4 := by
  constructor
  · intros; rfl
  · intro s t a b
    obtain ⟨s0, s1, s2, s3⟩ := s
    obtain ⟨t0, t1, t2, t3⟩ := t
    simp only [cchTaps, xorEnc, List.zipWith_cons_cons, List.zipWith_nil_right]
    refine List.cons_eq_cons.2 ⟨?_, List.cons_eq_cons.2 ⟨?_, List.cons_eq_cons.2 ⟨?_, List.cons_eq_cons.2 ⟨?_, rfl⟩⟩⟩⟩ <;> simp only [Bool.xor_assoc, Bool.xor_left_comm, Bool.xor_comm]

theorem speech_linear : Linear speechTaps 3 := by
  constructor
  · intros; rfl
  · intro s t a b
    obtain ⟨s0, s1, s2, s3⟩ := s
    obtain ⟨t0, t1, t2, t3⟩ := t
    simp only [speechTaps, xorEnc, List.zipWith_cons_cons, List.zipWith_nil_right]
    refine List.cons_eq_cons.2 ⟨?_, List.cons_eq_cons.2 ⟨?_, List.cons_eq_cons.2 ⟨?_, rfl⟩⟩⟩ <;> simp only [Bool.xor_assoc, Bool.xor_left_comm, Bool.xor_comm]

/-- Encoder state with a given trellis number. -/
def encOf (e : Nat) : Enc := ⟨e.testBit 3, e.testBit 2, e.testBit 1, e.testBit 0⟩

theorem encOf_st (s : Enc) : encOf (st s) = s := by
  obtain ⟨a, b, c, d⟩ := s
  cases a <;> cases b <;> cases c <;> cases d <;> rfl

theorem st_lt (s : Enc) : st s < 16 := by
  obtain ⟨a, b, c, d⟩ := s
  cases a <;> cases b <;> cases c <;> cases d <;> decide

/-- Smallest weight from each state back to zero. 100 stands for impossible. -/
def toZero (taps : Enc → Bool → List Bool) : List (List Bool) → List Nat
  | [] => 0 :: List.replicate 15 100
  | m :: ms =>
    let r := toZero taps ms
    (List.range 16).map (fun e =>
      min (maskWeight m (taps (encOf e) false) + r.getD (next e false) 0) (maskWeight m (taps (encOf e) true) + r.getD (next e true) 0))

/-- Smallest weight of a nonzero message from the zero state back to it. -/
def nonzeroMin (taps : Enc → Bool → List Bool) : List (List Bool) → Nat
  | [] => 100
  | m :: ms => min (maskWeight m (taps Enc.zero true) + (toZero taps ms).getD 8 0) (nonzeroMin taps ms)

/-- Number of transmitted bits in which two messages differ. -/
def keptDist (taps : Enc → Bool → List Bool) : List (List Bool) → Enc → List Bool → Enc → List Bool → Nat
  | m :: ms, s, a :: x, t, b :: y => maskWeight m (List.zipWith xor (taps s a) (taps t b)) + keptDist taps ms (s.shift a) x (t.shift b) y
  | _, _, _, _, _ => 0

theorem xorEnc_shift (s t : Enc) (a b : Bool) : xorEnc (s.shift a) (t.shift b) = (xorEnc s t).shift (a ^^ b) := rfl

theorem xorEnc_self (s : Enc) : xorEnc s s = Enc.zero := by simp [xorEnc, Enc.zero]

theorem toZero_sound {taps : Enc → Bool → List Bool} {rate : Nat} (hl : Linear taps rate) (ms : List (List Bool)) (s t : Enc)
    (x y : List Bool) (hx : x.length = ms.length) (hy : y.length = ms.length)
    (fx : (encodeLoop taps s x).2 = Enc.zero) (fy : (encodeLoop taps t y).2 = Enc.zero) :
    (toZero taps ms).getD (st (xorEnc s t)) 0 ≤ keptDist taps ms s x t y := by
  induction ms generalizing s t x y with
  | nil =>
    have hx : x = [] := by simpa using hx
    have hy : y = [] := by simpa using hy
    subst hx hy
    simp only [encodeLoop] at fx fy
    subst fx fy
    simp [toZero, keptDist, xorEnc, st, Enc.zero]
  | cons m ms ih =>
    match x, y, hx, hy with
    | a :: x, b :: y, hx, hy =>
      simp only [encodeLoop] at fx fy
      have ih := ih (s.shift a) (t.shift b) x y (by simpa using hx) (by simpa using hy) fx fy
      simp only [keptDist]
      rw [← hl.lin]
      rw [xorEnc_shift, st_shift] at ih
      have hlt := st_lt (xorEnc s t)
      simp only [toZero]
      have hg : ∀ (f : Nat → Nat) (e : Nat), e < 16 → ((List.range 16).map f).getD e 0 = f e := by
        intro f e he; simp [List.getD, he]
      rw [hg _ _ hlt, encOf_st]
      cases hab : (a ^^ b)
      · rw [hab] at ih; omega
      · rw [hab] at ih; omega

theorem nonzeroMin_sound {taps : Enc → Bool → List Bool} {rate : Nat} (hl : Linear taps rate) (ms : List (List Bool)) (s : Enc)
    (x y : List Bool) (hx : x.length = ms.length) (hy : y.length = ms.length)
    (fx : (encodeLoop taps s x).2 = Enc.zero) (fy : (encodeLoop taps s y).2 = Enc.zero) (hne : x ≠ y) :
    nonzeroMin taps ms ≤ keptDist taps ms s x s y := by
  induction ms generalizing s x y with
  | nil =>
    have hx : x = [] := by simpa using hx
    have hy : y = [] := by simpa using hy
    subst hx hy
    exact absurd rfl hne
  | cons m ms ih =>
    match x, y, hx, hy with
    | a :: x, b :: y, hx, hy =>
      simp only [encodeLoop] at fx fy
      simp only [keptDist, nonzeroMin]
      by_cases hab : a = b
      · subst hab
        have := ih (s.shift a) x y (by simpa using hx) (by simpa using hy) fx fy (fun h => hne (by rw [h]))
        omega
      · have h1 := toZero_sound hl ms (s.shift a) (s.shift b) x y (by simpa using hx) (by simpa using hy) fx fy
        have hx1 : (a ^^ b) = true := by cases a <;> cases b <;> simp_all
        rw [xorEnc_shift, xorEnc_self, hx1] at h1
        have h2 : taps Enc.zero true = List.zipWith xor (taps s a) (taps s b) := by
          rw [← hl.lin, xorEnc_self, hx1]
        rw [← h2]
        have h3 : st (Enc.zero.shift true) = 8 := rfl
        rw [h3] at h1
        omega

/-! ## Flat blocks -/

theorem mismatches_mask (k u v : List Bool) (h1 : u.length = k.length) (h2 : v.length = k.length) :
    mismatches (mask k u) v = maskWeight k (List.zipWith xor u v) := by
  induction k generalizing u v with
  | nil =>
    have : u = [] := by simpa using h1
    subst this
    cases v <;> simp [mask, mismatches, maskWeight]
  | cons k ks ih =>
    match u, v, h1, h2 with
    | a :: u, b :: v, h1, h2 =>
      have := ih u v (by simpa using h1) (by simpa using h2)
      cases k <;> simp only [mask, mismatches, maskWeight, List.zipWith_cons_cons, this, if_true, if_false, Bool.false_eq_true, Bool.false_and, Bool.true_and]
      · omega
      · cases a <;> cases b <;> simp

theorem mask_append (k1 k2 u1 u2 : List Bool) (h : u1.length = k1.length) : mask (k1 ++ k2) (u1 ++ u2) = mask k1 u1 ++ mask k2 u2 := by
  induction k1 generalizing u1 with
  | nil =>
    have : u1 = [] := by simpa using h
    subst this
    simp [mask]
  | cons k ks ih =>
    match u1, h with
    | a :: u, h => simp [mask, ih u (by simpa using h)]

theorem length_mask (k u : List Bool) (h : u.length = k.length) : (mask k u).length = k.length := by
  induction k generalizing u with
  | nil => rfl
  | cons k ks ih =>
    match u, h with
    | a :: u, h => simp [mask, ih u (by simpa using h)]

theorem length_encodeLoop {taps : Enc → Bool → List Bool} {rate : Nat} (hl : Linear taps rate) (s : Enc) (x : List Bool) :
    (encodeLoop taps s x).1.length = rate * x.length := by
  induction x generalizing s with
  | nil => rfl
  | cons b x ih => simp only [encodeLoop, List.length_append, hl.len, ih, List.length_cons, Nat.mul_add]; omega

theorem keptDist_flat {taps : Enc → Bool → List Bool} {rate : Nat} (hl : Linear taps rate) (ms : List (List Bool))
    (hm : ∀ m ∈ ms, m.length = rate) (s t : Enc) (x y : List Bool) (hx : x.length = ms.length) (hy : y.length = ms.length) :
    keptDist taps ms s x t y = mismatches (mask ms.flatten (encodeLoop taps s x).1) (encodeLoop taps t y).1 := by
  induction ms generalizing s t x y with
  | nil =>
    have hx : x = [] := by simpa using hx
    subst hx
    simp [keptDist, mask, mismatches]
  | cons m ms ih =>
    match x, y, hx, hy with
    | a :: x, b :: y, hx, hy =>
      have hml := hm m (by simp)
      simp only [keptDist, List.flatten_cons, encodeLoop]
      rw [mask_append _ _ _ _ (by rw [hl.len, hml]), mismatches_append _ _ _ _ (by rw [length_mask _ _ (by rw [hl.len, hml]), hl.len, hml]),
        mismatches_mask _ _ _ (by rw [hl.len, hml]) (by rw [hl.len, hml]),
        ih (fun m' h' => hm m' (by simp [h'])) _ _ x y (by simpa using hx) (by simpa using hy)]

/-- Triangle inequality through a received block with the same erasures. -/
theorem mismatches_triangle (k : List Bool) (rx : List (Option Bool)) (u v : List Bool) (hk : rx.map Option.isSome = k)
    (h1 : u.length = k.length) (h2 : v.length = k.length) : mismatches (mask k u) v ≤ mismatches rx u + mismatches rx v := by
  induction k generalizing rx u v with
  | nil =>
    have : u = [] := by simpa using h1
    subst this
    simp [mask, mismatches]
  | cons k ks ih =>
    match u, v, rx, h1, h2, hk with
    | a :: u, b :: v, r :: rx, h1, h2, hk =>
      simp only [List.map_cons, List.cons.injEq] at hk
      have := ih rx u v hk.2 (by simpa using h1) (by simpa using h2)
      rcases r with _ | r
      · have hk0 : k = false := by simpa using hk.1.symm
        subst hk0
        simpa [mask, mismatches] using this
      · have hk0 : k = true := by simpa using hk.1.symm
        subst hk0
        simp only [mask, mismatches, if_true]
        cases a <;> cases b <;> cases r <;> simp <;> omega

/-- A block which agrees with what was received everywhere except at one position has at most one mismatch. -/
theorem mismatches_le_one (rx : List (Option Bool)) (u : List Bool) (p : Nat)
    (h : ∀ (i : Nat) (r b : Bool), i ≠ p → rx[i]? = some (some r) → u[i]? = some b → r = b) : mismatches rx u ≤ 1 := by
  have zero : ∀ (rx : List (Option Bool)) (u : List Bool),
      (∀ (i : Nat) (r b : Bool), rx[i]? = some (some r) → u[i]? = some b → r = b) → mismatches rx u = 0 := by
    intro rx
    induction rx with
    | nil => intro u _; cases u <;> rfl
    | cons r rx ih =>
      intro u h
      cases u with
      | nil => cases r <;> rfl
      | cons b u =>
        have := ih u (fun i r b h1 h2 => h (i + 1) r b (by simpa using h1) (by simpa using h2))
        rcases r with _ | r
        · simpa [mismatches] using this
        · have : r = b := h 0 r b (by simp) (by simp)
          simp [mismatches, *]
  induction rx generalizing u p with
  | nil => cases u <;> simp [mismatches]
  | cons r rx ih =>
    cases u with
    | nil => cases r <;> simp [mismatches]
    | cons b u =>
      cases p with
      | zero =>
        have := zero rx u (fun i r b h1 h2 => h (i + 1) r b (by omega) (by simpa using h1) (by simpa using h2))
        rcases r with _ | r
        · simp [mismatches, this]
        · simp only [mismatches, this]; split <;> omega
      | succ p =>
        have := ih u p (fun i r b hi h1 h2 => h (i + 1) r b (by omega) (by simpa using h1) (by simpa using h2))
        rcases r with _ | r
        · simpa [mismatches] using this
        · have : r = b := h 0 r b (by omega) (by simp) (by simp)
          simpa [mismatches, this] using ih u p (fun i r b hi h1 h2 => h (i + 1) r b (by omega) (by simpa using h1) (by simpa using h2))

/-- A most likely message is the sent one if at most one transmitted bit is wrong and the punctured code has distance 3 or more. -/
theorem unique_decoding {taps : Enc → Bool → List Bool} {rate : Nat} (hl : Linear taps rate) (ms : List (List Bool))
    (hm : ∀ m ∈ ms, m.length = rate) (hd : 3 ≤ nonzeroMin taps ms) (rx : List (Option Bool)) (hk : rx.map Option.isSome = ms.flatten)
    (msg x : List Bool) (hml : msg.length = ms.length) (ht : Terminated taps msg) (h1 : mismatches rx (sent taps msg) ≤ 1)
    (hx : MostLikely taps ms.length rx x) : x = msg := by
  apply Classical.byContradiction
  intro hne
  obtain ⟨hxl, hxt, hxm⟩ := hx
  have hb := hxm msg hml ht
  have hfl : ms.flatten.length = rate * ms.length := by
    clear hd hk hml hxl hb hxm
    induction ms with
    | nil => simp
    | cons m ms ih =>
      simp only [List.flatten_cons, List.length_append, List.length_cons, Nat.mul_add]
      rw [ih (fun m' h' => hm m' (by simp [h'])), hm m (by simp)]; omega
  have h2 := nonzeroMin_sound hl ms Enc.zero x msg hxl hml hxt ht hne
  rw [keptDist_flat hl ms hm _ _ x msg hxl hml] at h2
  have h3 := mismatches_triangle ms.flatten rx (encodeLoop taps Enc.zero x).1 (encodeLoop taps Enc.zero msg).1 hk
    (by rw [length_encodeLoop hl, hfl, hxl]) (by rw [length_encodeLoop hl, hfl, hml])
  unfold sent at *
  omega

end Verif.Viterbi
