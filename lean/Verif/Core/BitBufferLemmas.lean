import Verif.Core.BitBuffer
/-! # Helper lemmas about the BitBuffer model -/
namespace Verif.BitBuffer
open Verif.Bits

@[simp] theorem length_slice (buf : List Nat) (p n : Nat) : (slice buf p n).length = n := by
  induction n generalizing p with
  | zero => rfl
  | succ n ih => simp [slice, ih]

theorem getElem_slice (buf : List Nat) (p n i : Nat) (h : i < (slice buf p n).length) :
    (slice buf p n)[i] = bitAt buf (p + i) := by
  induction n generalizing p i with
  | zero => simp at h
  | succ n ih =>
    cases i with
    | zero => simp [slice]
    | succ i => simp only [slice, List.getElem_cons_succ]; rw [ih]; congr 1; omega

theorem slice_add (buf : List Nat) (p a b : Nat) : slice buf p (a + b) = slice buf p a ++ slice buf (p + a) b := by
  induction a generalizing p with
  | zero => simp [slice]
  | succ a ih =>
    rw [show a + 1 + b = (a + b) + 1 by omega, slice, slice, ih]
    simp; congr 1; omega

theorem slice_congr {buf buf' : List Nat} {p q n : Nat} (h : ∀ i, i < n → bitAt buf (p + i) = bitAt buf' (q + i)) :
    slice buf p n = slice buf' q n := by
  apply List.ext_getElem (by simp)
  intro i h1 h2
  rw [getElem_slice, getElem_slice]
  exact h i (by simpa using h1)

theorem slice_eq_toBits {buf : List Nat} {p n v : Nat}
    (h : ∀ i, i < n → bitAt buf (p + i) = v.testBit (n - 1 - i)) : slice buf p n = toBits n v := by
  apply List.ext_getElem (by simp)
  intro i h1 h2
  rw [getElem_slice, getElem_toBits]
  exact h i (by simpa using h1)

theorem slice_take (buf : List Nat) (p n k : Nat) (h : k ≤ n) : (slice buf p n).take k = slice buf p k := by
  obtain ⟨d, rfl⟩ := Nat.exists_eq_add_of_le h
  rw [slice_add]; simp [List.take_append]

theorem slice_drop (buf : List Nat) (p n k : Nat) (h : k ≤ n) : (slice buf p n).drop k = slice buf (p + k) (n - k) := by
  obtain ⟨d, rfl⟩ := Nat.exists_eq_add_of_le h
  rw [slice_add]; simp [List.drop_append]

theorem bitAt_set (buf : List Nat) (i v p : Nat) (hi : i < buf.length) :
    bitAt (buf.set i v) p = if p / 8 = i then v.testBit (7 - p % 8) else bitAt buf p := by
  unfold bitAt
  simp only [List.getD_eq_getElem?_getD, List.getElem?_set]
  by_cases h : p / 8 = i
  · simp [h, hi]
  · simp [h, Ne.symm h]

theorem bitAt_append_zero (buf : List Nat) (k p : Nat) : bitAt (buf ++ List.replicate k 0) p = bitAt buf p := by
  unfold bitAt
  simp only [List.getD_eq_getElem?_getD, List.getElem?_append, List.getElem?_replicate]
  split
  · rfl
  · rename_i h; rw [List.getElem?_eq_none (by omega)]
    split <;> simp

theorem getByte_ok {buf : List Nat} {i : Nat} (h : i < buf.length) : getByte buf i = .ok (buf.getD i 0) := by
  unfold getByte
  simp [List.getElem?_eq_getElem h]

theorem setByte_ok {buf : List Nat} {i v : Nat} (h : i < buf.length) : setByte buf i v = .ok (buf.set i v) := by
  simp [setByte, h]

theorem testBit_ge_256 {x j : Nat} (h : x < 256) (hj : 8 ≤ j) : x.testBit j = false :=
  Nat.testBit_lt_two_pow (Nat.lt_of_lt_of_le h (by
    have := Nat.pow_le_pow_right (n := 2) (by omega) hj; simpa using this))

theorem lt_256_of_testBit {x : Nat} (h : ∀ j, 8 ≤ j → x.testBit j = false) : x < 256 := by
  have := Nat.lt_pow_two_of_testBit (n := 8) x (fun i hi => h i hi)
  simpa using this

theorem testBit_mask (h s j : Nat) : (((1 <<< h) - 1) <<< s).testBit j = (decide (s ≤ j) && decide (j - s < h)) := by
  rw [Nat.testBit_shiftLeft, Nat.one_shiftLeft, Nat.testBit_two_pow_sub_one]

theorem testBit_255 (j : Nat) : (255 : Nat).testBit j = decide (j < 8) := by
  have := Nat.testBit_two_pow_sub_one 8 j
  simpa using this

theorem testBit_mergeByte {byte off h bits : Nat} (hb : byte < 256) (ho : off + h ≤ 8) (hbits : bits < 2 ^ h) (j : Nat) :
    (mergeByte byte off h bits).testBit j =
      if 8 - (off + h) ≤ j ∧ j < 8 - off then bits.testBit (j - (8 - (off + h))) else byte.testBit j := by
  unfold mergeByte
  simp only [Nat.testBit_or, Nat.testBit_and, Nat.testBit_xor, testBit_mask, testBit_255]
  simp only [Nat.testBit_shiftLeft]
  by_cases h1 : 8 - (off + h) ≤ j
  · by_cases h2 : j < 8 - off
    · have h3 : j - (8 - (off + h)) < h := by omega
      have h4 : j < 8 := by omega
      simp [h1, h2, h3, h4]
    · have h3 : ¬ (j - (8 - (off + h)) < h) := by omega
      have h4 : bits.testBit (j - (8 - (off + h))) = false :=
        Nat.testBit_lt_two_pow (Nat.lt_of_lt_of_le hbits (Nat.pow_le_pow_right (by omega) (by omega)))
      by_cases h5 : j < 8
      · simp [h1, h2, h3, h4, h5]
      · simp [h1, h2, h3, h4, h5, testBit_ge_256 hb (Nat.le_of_not_lt h5)]
  · have h5 : j < 8 := by omega
    simp [h1, h5]

theorem mergeByte_lt {byte off h bits : Nat} (hb : byte < 256) (ho : off + h ≤ 8) (hbits : bits < 2 ^ h) :
    mergeByte byte off h bits < 256 := by
  apply lt_256_of_testBit
  intro j hj
  rw [testBit_mergeByte hb ho hbits]
  split
  · omega
  · exact testBit_ge_256 hb hj

theorem getD_lt {buf : List Nat} (hb : ∀ x ∈ buf, x < 256) (i : Nat) : buf.getD i 0 < 256 := by
  rw [List.getD_eq_getElem?_getD]
  cases h : buf[i]? with
  | none => simp
  | some x => exact hb x (List.mem_of_getElem? h)

theorem mem_set_lt {buf : List Nat} (hb : ∀ x ∈ buf, x < 256) {i v : Nat} (hv : v < 256) :
    ∀ x ∈ buf.set i v, x < 256 := by
  intro x hx
  rcases List.mem_or_eq_of_mem_set hx with h | h
  · exact hb x h
  · exact h ▸ hv

theorem writeFull_spec (buf : List Nat) (v cur rem : Nat) (hb : ∀ x ∈ buf, x < 256)
    (hc : cur % 8 = 0) (hfit : cur + rem ≤ 8 * buf.length) :
    ∃ buf', writeFull buf v cur rem = .ok (buf', cur + (rem - rem % 8), rem % 8) ∧
      buf'.length = buf.length ∧ (∀ x ∈ buf', x < 256) ∧
      ∀ p, bitAt buf' p = if cur ≤ p ∧ p < cur + (rem - rem % 8) then v.testBit (rem - 1 - (p - cur)) else bitAt buf p := by
  induction rem using Nat.strongRecOn generalizing buf cur with
  | _ rem ih =>
    rw [writeFull]
    by_cases h8 : rem ≥ 8
    · rw [if_pos h8]
      have hidx : cur / 8 < buf.length := by omega
      rw [setByte_ok hidx]
      simp only [Res.bind_ok]
      have hv : (v >>> (rem - 8)) &&& 0xFF < 256 := by
        apply lt_256_of_testBit; intro j hj
        rw [Nat.testBit_and]
        have : (0xFF : Nat).testBit j = false := by rw [testBit_255]; simp; omega
        simp [this]
      obtain ⟨buf', he, hl, hbb, hp⟩ := ih (rem - 8) (by omega) (buf.set (cur / 8) ((v >>> (rem - 8)) &&& 0xFF))
        (cur + 8) (mem_set_lt hb hv) (by omega) (by simp; omega)
      refine ⟨buf', ?_, by simpa using hl, hbb, ?_⟩
      · rw [he]
        have e1 : cur + 8 + (rem - 8 - (rem - 8) % 8) = cur + (rem - rem % 8) := by omega
        have e2 : (rem - 8) % 8 = rem % 8 := by omega
        rw [e1, e2]
      · intro p
        rw [hp, bitAt_set _ _ _ _ hidx]
        by_cases hp1 : cur + 8 ≤ p ∧ p < cur + 8 + (rem - 8 - (rem - 8) % 8)
        · rw [if_pos hp1, if_pos (by omega)]; congr 1; omega
        · rw [if_neg hp1]
          by_cases hp2 : p / 8 = cur / 8
          · rw [if_pos hp2, if_pos (by omega)]
            rw [Nat.testBit_and, Nat.testBit_shiftRight, testBit_255]
            have : 7 - p % 8 < 8 := by omega
            simp only [this, decide_true, Bool.and_true]
            congr 1; omega
          · rw [if_neg hp2, if_neg (by omega)]
    · rw [if_neg h8]
      have e : rem - rem % 8 = 0 := by omega
      refine ⟨buf, by simp [e, Nat.mod_eq_of_lt (show rem < 8 by omega)], rfl, hb, ?_⟩
      intro p
      rw [if_neg (by omega)]

theorem topbits_lt (v h : Nat) : (v % 256) &&& ((1 <<< h) - 1) < 2 ^ h := by
  rw [Nat.one_shiftLeft, Nat.and_two_pow_sub_one_eq_mod]
  exact Nat.mod_lt _ (Nat.two_pow_pos h)

theorem testBit_topbits (v h j : Nat) (hj : j < h) (h8 : h ≤ 8) :
    ((v % 256) &&& ((1 <<< h) - 1)).testBit j = v.testBit j := by
  rw [Nat.one_shiftLeft, Nat.and_two_pow_sub_one_eq_mod, Nat.testBit_mod_two_pow,
    show (256 : Nat) = 2 ^ 8 by rfl, Nat.testBit_mod_two_pow]
  have : j < 8 := by omega
  simp [hj, this]

/-- The tail phase of a write, when the cursor is byte aligned or nothing is left. -/
theorem writeTail_spec (buf : List Nat) (v cur rem : Nat) (hb : ∀ x ∈ buf, x < 256)
    (hr : rem < 8) (hc : rem = 0 ∨ cur % 8 = 0) (hfit : cur + rem ≤ 8 * buf.length) :
    ∃ buf', (if rem > 0 then (do
        let byte ← getByte buf (cur / 8)
        let bits := (v % 256) &&& ((1 <<< rem) - 1)
        setByte buf (cur / 8) (mergeByte byte (cur % 8) rem bits)) else (pure buf : Res (List Nat))) = .ok buf' ∧
      buf'.length = buf.length ∧ (∀ x ∈ buf', x < 256) ∧
      ∀ p, bitAt buf' p = if cur ≤ p ∧ p < cur + rem then v.testBit (rem - 1 - (p - cur)) else bitAt buf p := by
  by_cases h0 : rem > 0
  · have hc : cur % 8 = 0 := by omega
    have hidx : cur / 8 < buf.length := by omega
    rw [if_pos h0, getByte_ok hidx]
    simp only [Res.bind_ok]
    rw [setByte_ok hidx]
    have hbb := getD_lt hb (cur / 8)
    have hm := mergeByte_lt hbb (show cur % 8 + rem ≤ 8 by omega) (topbits_lt v rem)
    refine ⟨_, rfl, by simp, mem_set_lt hb hm, ?_⟩
    intro p
    rw [bitAt_set _ _ _ _ hidx]
    by_cases hp : p / 8 = cur / 8
    · rw [if_pos hp, testBit_mergeByte hbb (by omega) (topbits_lt v rem)]
      by_cases hq : cur ≤ p ∧ p < cur + rem
      · rw [if_pos (by omega), if_pos hq, testBit_topbits _ _ _ (by omega) (by omega)]; congr 1; omega
      · rw [if_neg (by omega), if_neg hq]; unfold bitAt; rw [hp]
    · rw [if_neg hp, if_neg (by omega)]
  · rw [if_neg h0]
    refine ⟨buf, rfl, rfl, hb, ?_⟩
    intro p; rw [if_neg (by omega)]

/-- The three phases together replace exactly the `n` bits at `pos` by the digits of `v`. -/
theorem writeRaw_spec (buf : List Nat) (pos v n : Nat) (hb : ∀ x ∈ buf, x < 256) (hfit : pos + n ≤ 8 * buf.length) :
    ∃ buf', writeRaw buf pos v n = .ok buf' ∧ buf'.length = buf.length ∧ (∀ x ∈ buf', x < 256) ∧
      ∀ p, bitAt buf' p = if pos ≤ p ∧ p < pos + n then v.testBit (n - 1 - (p - pos)) else bitAt buf p := by
  unfold writeRaw
  by_cases hh : pos % 8 ≠ 0 ∧ n > 0
  · simp only [if_pos hh]
    have hidx : pos / 8 < buf.length := by omega
    rw [getByte_ok hidx]
    simp only [Res.bind_ok]
    rw [setByte_ok hidx]
    simp only [Res.bind_ok, Res.pure_eq]
    generalize hk : min n (8 - pos % 8) = k
    have hk1 : 0 < k ∧ k ≤ n ∧ pos % 8 + k ≤ 8 := by omega
    have hbb := getD_lt hb (pos / 8)
    have hbl := topbits_lt (v >>> (n - k)) k
    have hm := mergeByte_lt hbb hk1.2.2 hbl
    have hset := mem_set_lt (i := pos / 8) hb hm
    have hbuf1 : ∀ p, bitAt (buf.set (pos / 8) (mergeByte (buf.getD (pos / 8) 0) (pos % 8) k
        (((v >>> (n - k)) % 256) &&& ((1 <<< k) - 1)))) p =
        if pos ≤ p ∧ p < pos + k then v.testBit (n - 1 - (p - pos)) else bitAt buf p := by
      intro p
      rw [bitAt_set _ _ _ _ hidx]
      by_cases hp : p / 8 = pos / 8
      · rw [if_pos hp, testBit_mergeByte hbb hk1.2.2 hbl]
        by_cases hq : pos ≤ p ∧ p < pos + k
        · rw [if_pos (by omega), if_pos hq, testBit_topbits _ _ _ (by omega) (by omega), Nat.testBit_shiftRight]
          congr 1; omega
        · rw [if_neg (by omega), if_neg hq]; unfold bitAt; rw [hp]
      · rw [if_neg hp, if_neg (by omega)]
    generalize hbuf : (buf.set (pos / 8) (mergeByte (buf.getD (pos / 8) 0) (pos % 8) k
        (((v >>> (n - k)) % 256) &&& ((1 <<< k) - 1)))) = buf1 at *
    have hlen1 : buf1.length = buf.length := by rw [← hbuf]; simp
    by_cases hrem : n - k = 0
    · rw [hrem]
      rw [writeFull]
      simp only [show ¬ (0 ≥ 8) by omega, if_false, Res.bind_ok, show ¬ (0 > 0) by omega]
      refine ⟨buf1, rfl, hlen1, hset, ?_⟩
      intro p; rw [hbuf1]
      have : n = k := by omega
      rw [this]
    · have hal : (pos + k) % 8 = 0 := by omega
      obtain ⟨buf2, e2, l2, b2, p2⟩ := writeFull_spec buf1 v (pos + k) (n - k) hset hal (by omega)
      rw [e2]
      simp only [Res.bind_ok]
      obtain ⟨buf3, e3, l3, b3, p3⟩ := writeTail_spec buf2 v (pos + k + (n - k - (n - k) % 8)) ((n - k) % 8) b2
        (by omega) (by omega) (by omega)
      refine ⟨buf3, e3, by omega, b3, ?_⟩
      intro p
      rw [p3, p2, hbuf1]
      by_cases c1 : pos + k + (n - k - (n - k) % 8) ≤ p ∧ p < pos + k + (n - k - (n - k) % 8) + (n - k) % 8
      · rw [if_pos c1, if_pos (by omega)]; congr 1; omega
      · rw [if_neg c1]
        by_cases c2 : pos + k ≤ p ∧ p < pos + k + (n - k - (n - k) % 8)
        · rw [if_pos c2, if_pos (by omega)]; congr 1; omega
        · rw [if_neg c2]
          by_cases c3 : pos ≤ p ∧ p < pos + k
          · rw [if_pos c3, if_pos (by omega)]
          · rw [if_neg c3, if_neg (by omega)]
  · simp only [if_neg hh, Res.pure_eq, Res.bind_ok]
    by_cases h0 : n = 0
    · subst h0
      rw [writeFull]
      simp only [show ¬ (0 ≥ 8) by omega, if_false, Res.bind_ok, show ¬ (0 > 0) by omega]
      refine ⟨buf, rfl, rfl, hb, ?_⟩
      intro p; rw [if_neg (by omega)]
    · have hal : pos % 8 = 0 := by omega
      obtain ⟨buf2, e2, l2, b2, p2⟩ := writeFull_spec buf v pos n hb hal (by omega)
      rw [e2]
      simp only [Res.bind_ok]
      obtain ⟨buf3, e3, l3, b3, p3⟩ := writeTail_spec buf2 v (pos + (n - n % 8)) (n % 8) b2
        (by omega) (by omega) (by omega)
      refine ⟨buf3, e3, by omega, b3, ?_⟩
      intro p
      rw [p3, p2]
      by_cases c1 : pos + (n - n % 8) ≤ p ∧ p < pos + (n - n % 8) + n % 8
      · rw [if_pos c1, if_pos (by omega)]; congr 1; omega
      · rw [if_neg c1]
        by_cases c2 : pos ≤ p ∧ p < pos + (n - n % 8)
        · rw [if_pos c2, if_pos (by omega)]
        · rw [if_neg c2, if_neg (by omega)]

/-! ## Reading -/

theorem shiftLeft_or_eq (a b k : Nat) (h : b < 2 ^ k) : (a <<< k) ||| b = a * 2 ^ k + b := by
  rw [Nat.shiftLeft_eq, Nat.mul_comm, ← Nat.two_pow_add_eq_or_of_lt h]

theorem byte_eq_slice {buf : List Nat} (hb : ∀ x ∈ buf, x < 256) (i : Nat) :
    buf.getD i 0 = ofBits (slice buf (8 * i) 8) := by
  have hlt := getD_lt hb i
  rw [← ofBits_toBits (show buf.getD i 0 < 2 ^ 8 by simpa using hlt)]
  congr 1
  symm
  apply slice_eq_toBits
  intro j hj
  unfold bitAt
  have e1 : (8 * i + j) / 8 = i := by omega
  have e2 : 7 - (8 * i + j) % 8 = 8 - 1 - j := by omega
  rw [e1, e2]

theorem readFull_spec (buf : List Nat) (hb : ∀ x ∈ buf, x < 256) (acc : List Bool) (pos rem : Nat)
    (hc : pos % 8 = 0) (hfit : pos + rem ≤ 8 * buf.length) :
    readFull buf (ofBits acc) pos rem =
      .ok (ofBits (acc ++ slice buf pos (rem - rem % 8)), pos + (rem - rem % 8), rem % 8) := by
  induction rem using Nat.strongRecOn generalizing acc pos with
  | _ rem ih =>
    rw [readFull]
    by_cases h8 : rem ≥ 8
    · rw [if_pos h8, getByte_ok (by omega)]
      simp only [Res.bind_ok]
      have hv : (ofBits acc <<< 8) ||| buf.getD (pos / 8) 0 = ofBits (acc ++ slice buf pos 8) := by
        rw [shiftLeft_or_eq _ _ _ (by simpa using getD_lt hb (pos / 8)), ofBits_append, length_slice,
          byte_eq_slice hb, show 8 * (pos / 8) = pos by omega]
      rw [hv, ih (rem - 8) (by omega) _ _ (by omega) (by omega)]
      have e1 : pos + 8 + (rem - 8 - (rem - 8) % 8) = pos + (rem - rem % 8) := by omega
      have e2 : (rem - 8) % 8 = rem % 8 := by omega
      have e3 : rem - rem % 8 = 8 + (rem - 8 - rem % 8) := by omega
      rw [e1, e2, List.append_assoc]
      congr 3
      rw [e3, slice_add]
    · rw [if_neg h8]
      have e : rem - rem % 8 = 0 := by omega
      simp [e, slice, Nat.mod_eq_of_lt (show rem < 8 by omega)]

theorem readTail_spec (buf : List Nat) (pos : Nat) (acc : List Bool) (k cnt : Nat) (h : pos % 8 + k + cnt ≤ 8) :
    readTail (buf.getD (pos / 8) 0) pos (ofBits acc) k cnt = ofBits (acc ++ slice buf (pos + k) cnt) := by
  induction cnt generalizing acc k with
  | zero => simp [readTail, slice]
  | succ cnt ih =>
    simp only [readTail]
    have hbit : (buf.getD (pos / 8) 0) >>> (7 - (pos % 8 + k)) &&& 1 = (bitAt buf (pos + k)).toNat := by
      unfold bitAt
      have e1 : (pos + k) / 8 = pos / 8 := by omega
      have e2 : 7 - (pos + k) % 8 = 7 - (pos % 8 + k) := by omega
      rw [e1, e2, Nat.testBit_eq_decide_div_mod_eq, Nat.and_one_is_mod, Nat.shiftRight_eq_div_pow]
      generalize buf.getD (pos / 8) 0 / 2 ^ (7 - (pos % 8 + k)) = x
      have : x % 2 = 0 ∨ x % 2 = 1 := by omega
      rcases this with h | h <;> simp [h]
    have hv : (ofBits acc <<< 1) ||| (buf.getD (pos / 8) 0 >>> (7 - (pos % 8 + k)) &&& 1) =
        ofBits (acc ++ [bitAt buf (pos + k)]) := by
      rw [hbit, shiftLeft_or_eq _ _ _ (by cases bitAt buf (pos + k) <;> simp), ofBits_append]
      congr 1
      cases bitAt buf (pos + k) <;> rfl
    rw [hv, ih _ _ (by omega)]
    simp only [slice, List.append_assoc, List.singleton_append]
    rfl

/-- Reading `n` bits inside the storage yields the value of exactly those bits. -/
theorem readBitsAt_spec (buf : List Nat) (hb : ∀ x ∈ buf, x < 256) (pos n : Nat) (hfit : pos + n ≤ 8 * buf.length) :
    readBitsAt buf pos n = .ok (ofBits (slice buf pos n)) := by
  unfold readBitsAt
  have tail : ∀ (acc : List Bool) (p r : Nat), r < 8 → (r = 0 ∨ p % 8 = 0) → p + r ≤ 8 * buf.length →
      (if r > 0 then (do
        let byte ← getByte buf (p / 8)
        pure (readTail byte p (ofBits acc) 0 r)) else (pure (ofBits acc) : Res Nat)) =
      .ok (ofBits (acc ++ slice buf p r)) := by
    intro acc p r hr hp hf
    by_cases h0 : r > 0
    · rw [if_pos h0, getByte_ok (by omega)]
      simp only [Res.bind_ok, Res.pure_eq]
      rw [readTail_spec buf p acc 0 r (by omega)]
      rfl
    · have : r = 0 := by omega
      subst this
      simp [slice]
  by_cases hh : pos % 8 ≠ 0 ∧ n > 0
  · simp only [if_pos hh]
    rw [getByte_ok (by omega)]
    simp only [Res.bind_ok, Res.pure_eq]
    generalize hk : min (8 - pos % 8) n = k
    have hk1 : 0 < k ∧ k ≤ n ∧ pos % 8 + k ≤ 8 := by omega
    have hv : (buf.getD (pos / 8) 0 >>> (8 - pos % 8 - k)) &&& ((1 <<< k) - 1) = ofBits (slice buf pos k) := by
      have hlt : (buf.getD (pos / 8) 0 >>> (8 - pos % 8 - k)) &&& ((1 <<< k) - 1) < 2 ^ k := by
        rw [Nat.one_shiftLeft, Nat.and_two_pow_sub_one_eq_mod]
        exact Nat.mod_lt _ (Nat.two_pow_pos k)
      rw [← ofBits_toBits hlt]
      congr 1
      symm
      apply slice_eq_toBits
      intro i hi
      rw [Nat.one_shiftLeft, Nat.and_two_pow_sub_one_eq_mod, Nat.testBit_mod_two_pow, Nat.testBit_shiftRight]
      unfold bitAt
      have e1 : (pos + i) / 8 = pos / 8 := by omega
      have e2 : 7 - (pos + i) % 8 = 8 - pos % 8 - k + (k - 1 - i) := by omega
      rw [e1, e2]
      simp; omega
    rw [hv]
    by_cases hrem : n - k = 0
    · rw [hrem, readFull]
      simp only [show ¬ (0 ≥ 8) by omega, if_false, Res.bind_ok, show ¬ (0 > 0) by omega]
      have : n = k := by omega
      rw [this]
    · rw [readFull_spec buf hb _ _ _ (by omega) (by omega)]
      simp only [Res.bind_ok]
      have := tail (slice buf pos k ++ slice buf (pos + k) (n - k - (n - k) % 8))
        (pos + k + (n - k - (n - k) % 8)) ((n - k) % 8) (by omega) (by omega) (by omega)
      simp only [Res.pure_eq] at this
      rw [this, List.append_assoc, ← slice_add, ← slice_add]
      congr 3; omega
  · simp only [if_neg hh, Res.pure_eq, Res.bind_ok]
    by_cases h0 : n = 0
    · subst h0
      rw [readFull]
      simp [slice]
    · rw [show (0 : Nat) = ofBits [] by rfl, readFull_spec buf hb _ _ _ (by omega) (by omega)]
      simp only [Res.bind_ok]
      have := tail ([] ++ slice buf pos (n - n % 8)) (pos + (n - n % 8)) (n % 8) (by omega) (by omega) (by omega)
      simp only [Res.pure_eq] at this
      rw [show (ofBits [] : Nat) = 0 by rfl, this, List.nil_append, ← slice_add]
      congr 3; omega

end Verif.BitBuffer
