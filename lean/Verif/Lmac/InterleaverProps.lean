import Verif.Lmac.Interleaver
import Mathlib.Data.Fintype.EquivFin
/-! # C12: interleaving loses nothing -/
namespace Verif.Interleaver
open Verif.Arr

variable {α : Type}

theorem interl_inj (k a : Nat) (hk : 1 ≤ k) (hc : Nat.Coprime a k) (hw : a * k < 2 ^ 32) (i j : Nat) (hi : i < k) (hj : j < k)
    (h : interlFunc k a (i + 1) - 1 = interlFunc k a (j + 1) - 1) : i = j := by
  have key : ∀ i j, i < k → j < k → i ≤ j → (a * (i + 1)) % k = (a * (j + 1)) % k → i = j := by
    intro i j hi hj hij h
    have hd : k ∣ a * (j + 1) - a * (i + 1) := Nat.dvd_of_mod_eq_zero (Nat.sub_mod_eq_zero_of_mod_eq h.symm)
    rw [← Nat.mul_sub, show j + 1 - (i + 1) = j - i by omega] at hd
    have := Nat.Coprime.dvd_of_dvd_mul_left hc.symm hd
    have := Nat.eq_zero_of_dvd_of_lt this (by omega)
    omega
  have small : ∀ i, i < k → a * (i + 1) % 2 ^ 32 = a * (i + 1) := by
    intro i hi
    apply Nat.mod_eq_of_lt
    exact Nat.lt_of_le_of_lt (Nat.mul_le_mul_left a (by omega)) hw
  unfold interlFunc at h
  rw [small i hi, small j hj] at h
  rcases Nat.le_total i j with hij | hij
  · exact key i j hi hj hij (by omega)
  · exact (key j i hj hi hij (by omega)).symm

theorem interl_range (k a i : Nat) (hk : 1 ≤ k) : interlFunc k a i - 1 < k := by
  unfold interlFunc
  have := Nat.mod_lt (a * i % 2 ^ 32) (show 0 < k by omega)
  omega

/-- An injective map of `0..k-1` into itself hits everything. -/
theorem surj_of_inj (k : Nat) (f : Nat → Nat) (hr : ∀ i, i < k → f i < k)
    (hinj : ∀ i j, i < k → j < k → f i = f j → i = j) : ∀ p, p < k → ∃ i, i < k ∧ f i = p := by
  intro p hp
  have hs := (Finite.injective_iff_surjective (f := fun i : Fin k => (⟨f i.val, hr i.val i.isLt⟩ : Fin k))).1
    (fun i j h => Fin.ext (hinj i.val j.val i.isLt j.isLt (by simpa using h)))
  obtain ⟨i, hi⟩ := hs ⟨p, hp⟩
  exact ⟨i.val, i.isLt, by simpa using hi⟩

/-- **C12, block interleaver, bijection.** For every block length `k` and every multiplier coprime to it, each position
of the interleaved block receives exactly one position of the input. -/
theorem c12_block_bijection (k a : Nat) (hk : 1 ≤ k) (hc : Nat.Coprime a k) (hw : a * k < 2 ^ 32) (p : Nat)
    (hp : 1 ≤ p ∧ p ≤ k) : ∃ i, (1 ≤ i ∧ i ≤ k ∧ interlFunc k a i = p) ∧
      ∀ j, 1 ≤ j ∧ j ≤ k ∧ interlFunc k a j = p → j = i := by
  obtain ⟨i, hi, he⟩ := surj_of_inj k (fun i => interlFunc k a (i + 1) - 1) (fun i _ => interl_range k a (i + 1) hk)
    (fun i j hi hj h => interl_inj k a hk hc hw i j hi hj h) (p - 1) (by omega)
  have hone : ∀ i, 1 ≤ interlFunc k a i := fun i => by unfold interlFunc; omega
  refine ⟨i + 1, ⟨by omega, by omega, by have := hone (i + 1); omega⟩, ?_⟩
  rintro j ⟨h1, h2, h3⟩
  have := interl_inj k a hk hc hw (j - 1) i (by omega) hi (by
    rw [show j - 1 + 1 = j by omega, h3, he])
  omega

/-- **C12, block interleaver, round trip.** The deinterleaver restores the block, and the interleaved block holds, at the
interleaver's position for `i`, exactly input element `i`. -/
theorem c12_block_roundtrip (k a : Nat) (hk : 1 ≤ k) (hc : Nat.Coprime a k) (hw : a * k < 2 ^ 32) (input buf1 buf2 : List α)
    (h0 : k ≤ input.length) (h1 : k ≤ buf1.length) (h2 : k ≤ buf2.length) :
    ∃ mid out, blockInterleave k a input buf1 = .ok mid ∧ blockDeinterleave k a mid buf2 = .ok out ∧
      out.take k = input.take k ∧ mid.length = buf1.length ∧
      ∀ i, 1 ≤ i → i ≤ k → mid[interlFunc k a i - 1]? = input[i - 1]? := by
  have hd : ∀ i, i < k → interlFunc k a (i + 1) - 1 < buf1.length := fun i _ => by
    have := interl_range k a (i + 1) hk; omega
  have injd := fun i j hi hj h => interl_inj k a hk hc hw i j hi hj h
  obtain ⟨mid, e, hl, _, hpos⟩ := moveLoop_ok (fun i => interlFunc k a (i + 1) - 1) (fun i => i + 1 - 1) input k buf1
    (fun i hi => by simp; omega) hd
  obtain ⟨out, e2, hl2, hin, _⟩ := moveLoop_inverse (fun i => interlFunc k a (i + 1) - 1) (fun i => i + 1 - 1) input k buf1 buf2 mid
    (fun i hi => by simp; omega) hd (fun i hi => by simp; omega) injd (fun i j _ _ h => by simpa using h) e
  refine ⟨mid, out, ?_, ?_, ?_, hl, ?_⟩
  · simp only [blockInterleave]
    rw [show decide (input.length ≥ k ∧ buf1.length ≥ k) = true by simp; omega, Res.assert_true, Res.bind_ok]
    exact e
  · simp only [blockDeinterleave]
    rw [show decide (mid.length ≥ k ∧ buf2.length ≥ k) = true by simp; omega, Res.assert_true, Res.bind_ok]
    exact e2
  · apply List.ext_getElem?
    intro i
    by_cases hi : i < k
    · rw [List.getElem?_take_of_lt hi, List.getElem?_take_of_lt hi]
      have := hin i hi
      simpa using this
    · rw [List.getElem?_eq_none (by simp; omega), List.getElem?_eq_none (by simp; omega)]
  · intro i hi1 hi2
    have := hpos injd (i - 1) (by omega)
    rwa [show i - 1 + 1 = i by omega] at this

/-- The parameters of every coded control channel (and of speech) meet the hypotheses of the two theorems above. -/
theorem c12_parameters (c : Chan) (h : c ≠ .aach) :
    1 ≤ (params c).type345 ∧ Nat.Coprime (params c).a (params c).type345 ∧ (params c).a * (params c).type345 < 2 ^ 32 ∧
      (params c).type345 ≤ 432 := by
  cases c <;> first | exact absurd rfl h | decide

theorem matrix_src_lt (lines columns n : Nat) (h : n < lines * columns) : n % lines * columns + n / lines < lines * columns := by
  have hl : 0 < lines := Nat.pos_of_ne_zero (by rintro rfl; simp at h)
  have h1 := Nat.mod_lt n hl
  have h2 : n / lines < columns := Nat.div_lt_of_lt_mul h
  calc n % lines * columns + n / lines < n % lines * columns + columns := by omega
    _ = (n % lines + 1) * columns := by rw [Nat.add_mul, Nat.one_mul]
    _ ≤ lines * columns := Nat.mul_le_mul_right columns (by omega)

theorem matrix_src_inj (lines columns n m : Nat) (hn : n < lines * columns) (hm : m < lines * columns)
    (h : n % lines * columns + n / lines = m % lines * columns + m / lines) : n = m := by
  have h2 : n / lines < columns := Nat.div_lt_of_lt_mul hn
  have h3 : m / lines < columns := Nat.div_lt_of_lt_mul hm
  have hc : 0 < columns := Nat.lt_of_le_of_lt (Nat.zero_le _) h2
  have e1 : n % lines = m % lines := by
    have := congrArg (· / columns) h
    rw [Nat.add_comm, Nat.add_mul_div_right _ _ hc, Nat.add_comm (m % lines * columns), Nat.add_mul_div_right _ _ hc,
      Nat.div_eq_of_lt h2, Nat.div_eq_of_lt h3] at this
    omega
  have e2 : n / lines = m / lines := by rw [e1] at h; omega
  rw [← Nat.div_add_mod n lines, ← Nat.div_add_mod m lines, e1, e2]

/-- **C12, matrix interleaver.** For every matrix shape: each output position gets exactly one input position, and the
deinterleaver restores the block. -/
theorem c12_matrix_roundtrip (lines columns : Nat) (input buf1 buf2 : List α)
    (h0 : lines * columns ≤ input.length) (h1 : lines * columns ≤ buf1.length) (h2 : lines * columns ≤ buf2.length) :
    ∃ mid out, matrixInterleave lines columns input buf1 = .ok mid ∧ matrixDeinterleave lines columns mid buf2 = .ok out ∧
      out.take (lines * columns) = input.take (lines * columns) ∧ mid.length = buf1.length ∧
      ∀ i j, i < columns → j < lines → mid[i * lines + j]? = input[j * columns + i]? := by
  have hid : ∀ n, n / lines * lines + n % lines = n := fun n => by
    rw [Nat.mul_comm]; exact Nat.div_add_mod n lines
  have hs : ∀ n, n < lines * columns → n % lines * columns + n / lines < input.length := fun n hn => by
    have := matrix_src_lt lines columns n hn; omega
  have hs2 : ∀ n, n < lines * columns → n % lines * columns + n / lines < buf2.length := fun n hn => by
    have := matrix_src_lt lines columns n hn; omega
  have hd : ∀ n, n < lines * columns → n / lines * lines + n % lines < buf1.length := fun n hn => by rw [hid]; omega
  have injd : ∀ n m, n < lines * columns → m < lines * columns →
      n / lines * lines + n % lines = m / lines * lines + m % lines → n = m := fun n m _ _ h => by rwa [hid, hid] at h
  obtain ⟨mid, e, hl, _, hpos⟩ := moveLoop_ok (fun n => n / lines * lines + n % lines)
    (fun n => n % lines * columns + n / lines) input (lines * columns) buf1 hs hd
  obtain ⟨out, e2, hl2, hin, _⟩ := moveLoop_inverse (fun n => n / lines * lines + n % lines)
    (fun n => n % lines * columns + n / lines) input (lines * columns) buf1 buf2 mid hs hd hs2 injd
    (matrix_src_inj lines columns) e
  refine ⟨mid, out, ?_, ?_, ?_, hl, ?_⟩
  · simp [matrixInterleave, h0, h1, e]
  · simp only [matrixDeinterleave]
    rw [show decide (mid.length ≥ lines * columns ∧ buf2.length ≥ lines * columns) = true by simp; omega,
      Res.assert_true, Res.bind_ok]
    exact e2
  · apply List.ext_getElem?
    intro p
    by_cases hp : p < lines * columns
    · rw [List.getElem?_take_of_lt hp, List.getElem?_take_of_lt hp]
      obtain ⟨n, hn, he⟩ := surj_of_inj (lines * columns) (fun n => n % lines * columns + n / lines)
        (matrix_src_lt lines columns) (matrix_src_inj lines columns) p hp
      have := hin n hn
      rwa [he] at this
    · rw [List.getElem?_eq_none (by simp; omega), List.getElem?_eq_none (by simp; omega)]
  · intro i j hi hj
    have hlt : i * lines + j < lines * columns := by
      calc i * lines + j < i * lines + lines := by omega
        _ = (i + 1) * lines := by rw [Nat.add_mul, Nat.one_mul]
        _ ≤ columns * lines := Nat.mul_le_mul_right lines (by omega)
        _ = lines * columns := Nat.mul_comm _ _
    have := hpos injd (i * lines + j) hlt
    have e1 : (i * lines + j) % lines = j := by
      rw [Nat.add_comm, Nat.add_mul_mod_self_right]; exact Nat.mod_eq_of_lt hj
    have e2 : (i * lines + j) / lines = i := by
      rw [Nat.add_comm, Nat.add_mul_div_right _ _ (by omega), Nat.div_eq_of_lt hj]; omega
    rwa [hid, e1, e2] at this

theorem codecIdx_lt : ∀ n, n < 274 → codecIdx n < 274 := by
  have h : ∀ n : Fin 274, codecIdx n.val < 274 := by decide +kernel
  intro n hn; exact h ⟨n, hn⟩

theorem codecIdx_inj : ∀ n m, n < 274 → m < 274 → codecIdx n = codecIdx m → n = m := by
  have h : ((List.range 274).map codecIdx).Nodup := by decide +kernel
  intro n m hn hm he
  exact List.inj_on_of_nodup_map h (by simpa using hn) (by simpa using hm) he

/-- Reordering by a permutation `idx` of `0..N-1`, out and back. -/
theorem gather_scatter (N : Nat) (idx : Nat → Nat) (hr : ∀ n, n < N → idx n < N)
    (hinj : ∀ n m, n < N → m < N → idx n = idx m → n = m) (x z1 z2 : List Bool) (hx : x.length = N) (h1 : z1.length = N)
    (h2 : z2.length = N) : ∃ y, moveLoop id idx x N z1 = .ok y ∧ y.length = N ∧ moveLoop idx id y N z2 = .ok x := by
  obtain ⟨y, e, hl, _, _⟩ := moveLoop_ok id idx x N z1
    (fun i hi => by rw [hx]; exact hr i hi) (fun i hi => by rw [h1]; exact hi)
  obtain ⟨out, e2, hl2, hin, _⟩ := moveLoop_inverse id idx x N z1 z2 y
    (fun i hi => by rw [hx]; exact hr i hi) (fun i hi => by rw [h1]; exact hi)
    (fun i hi => by rw [h2]; exact hr i hi) (fun i j _ _ h => h) hinj e
  refine ⟨y, e, by omega, ?_⟩
  rw [e2]
  apply congrArg
  apply List.ext_getElem?
  intro p
  by_cases hp : p < N
  · obtain ⟨n, hn, he⟩ := surj_of_inj N idx hr hinj p hp
    rw [← he]; exact hin n hn
  · rw [List.getElem?_eq_none (by omega), List.getElem?_eq_none (by omega)]

/-- The other way round. -/
theorem scatter_gather (N : Nat) (idx : Nat → Nat) (hr : ∀ n, n < N → idx n < N)
    (hinj : ∀ n m, n < N → m < N → idx n = idx m → n = m) (x z1 z2 : List Bool) (hx : x.length = N) (h1 : z1.length = N)
    (h2 : z2.length = N) : ∃ y, moveLoop idx id x N z1 = .ok y ∧ y.length = N ∧ moveLoop id idx y N z2 = .ok x := by
  obtain ⟨y, e, hl, _, _⟩ := moveLoop_ok idx id x N z1
    (fun i hi => by rw [hx]; exact hi) (fun i hi => by rw [h1]; exact hr i hi)
  obtain ⟨out, e2, hl2, hin, _⟩ := moveLoop_inverse idx id x N z1 z2 y
    (fun i hi => by rw [hx]; exact hi) (fun i hi => by rw [h1]; exact hr i hi)
    (fun i hi => by rw [h2]; exact hi) hinj (fun i j _ _ h => h) e
  refine ⟨y, e, by omega, ?_⟩
  rw [e2]
  apply congrArg
  apply List.ext_getElem?
  intro p
  by_cases hp : p < N
  · exact hin p hp
  · rw [List.getElem?_eq_none (by omega), List.getElem?_eq_none (by omega)]

/-- **C12, speech bit order.** The reordering of the 274 speech bits into sensitivity classes is undone exactly, for every
speech frame: no bit is lost or duplicated. -/
theorem c12_reorder_roundtrip (codec : List Bool) (h : codec.length = 274) :
    ∃ ch, codecToChannel codec = .ok ch ∧ ch.length = 274 ∧ channelToCodec ch = .ok codec :=
  gather_scatter 274 codecIdx codecIdx_lt codecIdx_inj codec _ _ h List.length_replicate List.length_replicate

/-- **C12, speech bit order, other direction.** -/
theorem c12_reorder_roundtrip' (ch : List Bool) (h : ch.length = 274) :
    ∃ codec, channelToCodec ch = .ok codec ∧ codec.length = 274 ∧ codecToChannel codec = .ok ch :=
  scatter_gather 274 codecIdx codecIdx_lt codecIdx_inj ch _ _ h List.length_replicate List.length_replicate

/-- Non-vacuity: a block is really permuted. -/
example : blockInterleave 8 3 (List.range 8) (List.replicate 8 0) = .ok [7, 2, 5, 0, 3, 6, 1, 4] ∧
    matrixInterleave 2 3 (List.range 6) (List.replicate 6 0) = .ok [0, 3, 1, 4, 2, 5] := by
  constructor <;> decide +kernel

end Verif.Interleaver
