import Verif.Lmac.ErrorControlProps
/-! # C15: speech channel coding -/
namespace Verif.ErrorControl
open Verif.Interleaver Verif.ConvEnc Verif.Viterbi Verif.Arr

/-! ## Frame check of the most sensitive bits -/

theorem length_reduceAt (w : List Bool) (d : Nat) : (reduceAt w d).length = w.length := by
  unfold reduceAt; split <;> simp

theorem length_reduce (w : List Bool) : (reduce w).length = w.length := by
  have : ∀ (l : List Nat) (w : List Bool), (l.foldl reduceAt w).length = w.length := by
    intro l
    induction l with
    | nil => intro w; rfl
    | cons d l ih => intro w; rw [List.foldl_cons, ih, length_reduceAt]
  exact this _ w

theorem length_speechCrc (d : List Bool) (h : d.length = 60) : (speechCrc d).length = 8 := by
  simp [speechCrc, length_reduce, h]

/-- Parity of a bit string. -/
def parity (x : List Bool) : Bool := x.foldl xor false

theorem foldl_xor (x : List Bool) (a : Bool) : x.foldl xor a = (a ^^ parity x) := by
  unfold parity
  induction x generalizing a with
  | nil => simp
  | cons b x ih => rw [List.foldl_cons, List.foldl_cons, ih, ih (false ^^ b)]; simp [Bool.xor_assoc]

theorem parity_append (x y : List Bool) : parity (x ++ y) = (parity x ^^ parity y) := by
  rw [parity, List.foldl_append, foldl_xor]; rfl

/-- Data followed by its check bits always has even parity. -/
theorem speechCrc_even (d : List Bool) : parity (d ++ speechCrc d) = false := by
  unfold speechCrc
  simp only
  rw [parity_append, parity_append, show (d ++ (reduce (List.replicate 7 false ++ d)).take 7).foldl xor false =
    parity (d ++ (reduce (List.replicate 7 false ++ d)).take 7) from rfl, parity_append]
  generalize parity d = a
  generalize parity (List.take 7 _) = b
  cases a <;> cases b <;> rfl

/-! ## Puncturing patterns -/

theorem known_gen (pu : Puncturer) (len N : Nat) (r : List (Option Bool)) (t3 : List Bool) (hl : r.length = N) (ht : len ≤ t3.length)
    (h0 : ∀ i, i < N → (∀ j, j < len → pu.pos j ≠ i) → r[i]? = some none)
    (h1 : ∀ j, j < len → r[pu.pos j]? = some t3[j]?) (K : List Bool) (hK : K.length = N)
    (hp : ∀ i, i < N → K[i]? = some ((List.range len).any (fun j => pu.pos j == i))) : r.map Option.isSome = K := by
  apply List.ext_getElem?
  intro i
  by_cases hi : i < N
  · rw [hp i hi, List.getElem?_map]
    by_cases hex : ∃ j, j < len ∧ pu.pos j = i
    · obtain ⟨j, hj, rfl⟩ := hex
      rw [h1 j hj]
      have : (List.range len).any (fun j' => pu.pos j' == pu.pos j) = true := by
        simp only [List.any_eq_true, List.mem_range, beq_iff_eq]; exact ⟨j, hj, rfl⟩
      rw [this]
      simp [show j < t3.length by omega]
    · rw [h0 i hi (fun j hj hc => hex ⟨j, hj, hc⟩)]
      have : (List.range len).any (fun j' => pu.pos j' == i) = false := by
        simp only [List.any_eq_false, List.mem_range, beq_iff_eq]; exact fun j hj hc => hex ⟨j, hj, hc⟩
      rw [this]; rfl
  · rw [List.getElem?_eq_none (by simp; omega), List.getElem?_eq_none (by omega)]

def msA : List (List Bool) := (List.replicate 56 [[true, true, false], [true, false, false]]).flatten
def msB : List (List Bool) := (List.replicate 18 [[true, true, true], [true, true, false], [true, true, false], [true, true, false]]).flatten

theorem msA_pattern : ∀ i, i < 336 → msA.flatten[i]? = some ((List.range 168).any (fun j => rate112_168.pos j == i)) := by
  have : ∀ i : Fin 336, msA.flatten[i.val]? = some ((List.range 168).any (fun j => rate112_168.pos j == i.val)) := by decide +kernel
  intro i hi; exact this ⟨i, hi⟩
theorem msB_pattern : ∀ i, i < 216 → msB.flatten[i]? = some ((List.range 162).any (fun j => rate72_162.pos j == i)) := by
  have : ∀ i : Fin 216, msB.flatten[i.val]? = some ((List.range 162).any (fun j => rate72_162.pos j == i.val)) := by decide +kernel
  intro i hi; exact this ⟨i, hi⟩
theorem msA_len : msA.length = 112 ∧ msA.flatten.length = 336 ∧ ∀ m ∈ msA, m.length = 3 := by decide +kernel
theorem msB_len : msB.length = 72 ∧ msB.flatten.length = 216 ∧ ∀ m ∈ msB, m.length = 3 := by decide +kernel
theorem speech_dist : 3 ≤ nonzeroMin speechTaps (msA ++ msB) := by decide +kernel

/-- Consecutive positions are increasing, hence distinct. -/
theorem posA (j : Nat) (h : j < 168) : rate112_168.pos j < 336 ∧ (j + 1 < 168 → rate112_168.pos j < rate112_168.pos (j + 1)) := by
  have : ∀ j : Fin 168, rate112_168.pos j.val < 336 ∧ (j.val + 1 < 168 → rate112_168.pos j.val < rate112_168.pos (j.val + 1)) := by decide +kernel
  exact this ⟨j, h⟩
theorem posB (j : Nat) (h : j < 162) : rate72_162.pos j < 216 ∧ (j + 1 < 162 → rate72_162.pos j < rate72_162.pos (j + 1)) := by
  have : ∀ j : Fin 162, rate72_162.pos j.val < 216 ∧ (j.val + 1 < 162 → rate72_162.pos j.val < rate72_162.pos (j.val + 1)) := by decide +kernel
  exact this ⟨j, h⟩

theorem inj_of_step (f : Nat → Nat) (n : Nat) (h : ∀ j, j + 1 < n → f j < f (j + 1)) (i j : Nat) (hi : i < n) (hj : j < n)
    (e : f i = f j) : i = j := by
  have mono : ∀ d i, i + d + 1 < n → f i < f (i + d + 1) := by
    intro d
    induction d with
    | zero => intro i hi; exact h i hi
    | succ d ih => intro i hi; exact Nat.lt_trans (ih i (by omega)) (h _ (by omega))
  rcases Nat.lt_trichotomy i j with hlt | heq | hgt
  · have := mono (j - i - 1) i (by omega); rw [show i + (j - i - 1) + 1 = j by omega] at this; omega
  · exact heq
  · have := mono (i - j - 1) j (by omega); rw [show j + (i - j - 1) + 1 = i by omega] at this; omega

/-! ## The coded part -/

theorem encodeLoop_append (taps : Enc → Bool → List Bool) (s : Enc) (x y : List Bool) :
    encodeLoop taps s (x ++ y) = ((encodeLoop taps s x).1 ++ (encodeLoop taps (encodeLoop taps s x).2 y).1, (encodeLoop taps (encodeLoop taps s x).2 y).2) := by
  induction x generalizing s with
  | nil => simp [encodeLoop]
  | cons b x ih => simp only [List.cons_append, encodeLoop, ih, List.append_assoc]

theorem getElem?_mid {α : Type} (a b c : List α) (i : Nat) (h : i < b.length) : (a ++ b ++ c)[a.length + i]? = b[i]? := by
  rw [List.append_assoc, List.getElem?_append_right (by omega), Nat.add_sub_cancel_left, List.getElem?_append_left h]

/-- The type-3 bits the encoder makes from 274 channel-order bits. -/
theorem decodeType3_near (c : List Bool) (hc : c.length = 274) (u1 u2 : List Bool)
    (hu1 : u1.length = 168) (hu2 : u2.length = 162)
    (e1 : ∀ j, j < 168 → u1[j]? = (encodeLoop speechTaps Enc.zero ((c.drop 102).take 112)).1[rate112_168.pos j]?)
    (e2 : ∀ j, j < 162 → u2[j]? = (encodeLoop speechTaps (encodeLoop speechTaps Enc.zero ((c.drop 102).take 112)).2
      ((c.drop 214).take 60 ++ speechCrc ((c.drop 214).take 60) ++ List.replicate 4 false)).1[rate72_162.pos j]?)
    (t3 : List Bool) (ht3 : t3.length = 432) (p : Nat) (hp : ∀ i, i ≠ p → t3[i]? = (c.take 102 ++ u1 ++ u2)[i]?) :
    decodeType3 t3 = .ok (t3.take 102 ++ c.drop 102, true) := by
  let c1 := (c.drop 102).take 112
  let d := (c.drop 214).take 60
  have hc1 : c1.length = 112 := by simp [c1, hc]
  have hd : d.length = 60 := by simp [d, hc]
  let msg := c1 ++ (d ++ speechCrc d ++ List.replicate 4 false)
  have hmsg : msg.length = 184 := by simp [msg, hc1, hd, length_speechCrc d hd]
  have hterm : Terminated speechTaps msg := by
    have : msg = (c1 ++ (d ++ speechCrc d)) ++ List.replicate 4 false := by simp [msg, List.append_assoc]
    rw [this]
    exact (c16_terminated_iff speechTaps _ (List.replicate 4 false) rfl).2 rfl
  have hsent : sent speechTaps msg = (encodeLoop speechTaps Enc.zero c1).1 ++
      (encodeLoop speechTaps (encodeLoop speechTaps Enc.zero c1).2 (d ++ speechCrc d ++ List.replicate 4 false)).1 := by
    unfold sent; rw [encodeLoop_append]
  have hl1 : (encodeLoop speechTaps Enc.zero c1).1.length = 336 := by rw [length_encodeLoop speech_linear, hc1]
  -- depunctured halves
  have hA : ((t3.drop 102).take 168).length = 168 := by rw [List.length_take, List.length_drop, ht3]; omega
  have hB : ((t3.drop 270).take 162).length = 162 := by rw [List.length_take, List.length_drop, ht3]; omega
  have injA := inj_of_step rate112_168.pos 168 (fun j h => (posA j (by omega)).2 h)
  have injB := inj_of_step rate72_162.pos 162 (fun j h => (posB j (by omega)).2 h)
  obtain ⟨m1, em1, lm1, z1, g1⟩ := depuncture_spec rate112_168 ((t3.drop 102).take 168) 168 336 (Nat.le_of_eq hA.symm) (fun j hj => (posA j hj).1) injA
  obtain ⟨m2, em2, lm2, z2, g2⟩ := depuncture_spec rate72_162 ((t3.drop 270).take 162) 162 216 (Nat.le_of_eq hB.symm) (fun j hj => (posB j hj).1) injB
  have k1 := known_gen rate112_168 168 336 m1 _ lm1 (Nat.le_of_eq hA.symm) z1 g1 msA.flatten msA_len.2.1 msA_pattern
  have k2 := known_gen rate72_162 162 216 m2 _ lm2 (Nat.le_of_eq hB.symm) z2 g2 msB.flatten msB_len.2.1 msB_pattern
  have hk : (m1 ++ m2).map Option.isSome = (msA ++ msB).flatten := by
    rw [List.map_append, k1, k2, List.flatten_append]
  -- received coded bits
  have hc102 : (c.take 102).length = 102 := by rw [List.length_take, hc]; rfl
  have r1 : ∀ j, j < 168 → 102 + j ≠ p → ((t3.drop 102).take 168)[j]? = u1[j]? := by
    intro j hj hne
    rw [List.getElem?_take, if_pos hj, List.getElem?_drop, hp _ hne]
    have := getElem?_mid (c.take 102) u1 u2 j (by omega)
    rwa [hc102] at this
  have r2 : ∀ j, j < 162 → 270 + j ≠ p → ((t3.drop 270).take 162)[j]? = u2[j]? := by
    intro j hj hne
    rw [List.getElem?_take, if_pos hj, List.getElem?_drop, hp _ hne, List.getElem?_append_right (by rw [List.length_append, hc102, hu1]; omega)]
    rw [List.length_append, hc102, hu1, Nat.add_sub_cancel_left]
  -- one wrong position at most
  have hms : mismatches (m1 ++ m2) (sent speechTaps msg) ≤ 1 := by
    apply mismatches_le_one _ _ (if p < 270 then rate112_168.pos (p - 102) else 336 + rate72_162.pos (p - 270))
    intro i r b hi h1 h2
    rw [hsent] at h2
    by_cases hi1 : i < 336
    · rw [List.getElem?_append_left (by omega)] at h1 h2
      by_cases hj : ∃ j, j < 168 ∧ rate112_168.pos j = i
      · obtain ⟨j, hj, rfl⟩ := hj
        have hne : 102 + j ≠ p := by
          intro hc; apply hi; rw [if_pos (by omega), show p - 102 = j by omega]
        rw [g1 j hj, r1 j hj hne, e1 j hj, h2] at h1
        simpa using h1.symm
      · rw [z1 i hi1 (fun j hj' hc => hj ⟨j, hj', hc⟩)] at h1
        simp at h1
    · rw [List.getElem?_append_right (by omega), lm1] at h1
      rw [List.getElem?_append_right (by omega), hl1] at h2
      by_cases hi2 : i - 336 < 216
      · by_cases hj : ∃ j, j < 162 ∧ rate72_162.pos j = i - 336
        · obtain ⟨j, hj, he⟩ := hj
          have hne : 270 + j ≠ p := by
            intro hc; apply hi; rw [if_neg (by omega)]
            rw [show p - 270 = j by omega]; omega
          rw [← he] at h1 h2
          rw [g2 j hj, r2 j hj hne, e2 j hj, h2] at h1
          simpa using h1.symm
        · rw [z2 _ hi2 (fun j hj' hc => hj ⟨j, hj', hc⟩)] at h1
          simp at h1
      · rw [List.getElem?_eq_none (by omega)] at h1; simp at h1
  have hml := c16_speech_most_likely 184 (by omega) (m1 ++ m2) (by rw [List.length_append, lm1, lm2])
  have hmsl : (msA ++ msB).length = 184 := by rw [List.length_append, msA_len.1, msB_len.1]
  have hdec : decode speechPolys ((m1 ++ m2).map soft) = msg :=
    unique_decoding speech_linear (msA ++ msB)
      (fun m hm => (List.mem_append.1 hm).elim (msA_len.2.2 m) (msB_len.2.2 m)) speech_dist (m1 ++ m2) hk msg _
      (by rw [hmsl, hmsg]) hterm hms (by rw [hmsl]; exact hml)
  unfold decodeType3
  rw [em1, Res.bind_ok, em2, Res.bind_ok]
  simp only [hdec, Res.pure_eq]
  have hlc := length_speechCrc d hd
  have f1 : msg.drop 112 = d ++ speechCrc d ++ List.replicate 4 false := by
    show (c1 ++ _).drop 112 = _
    rw [← hc1, List.drop_left]
  have f2 : msg.take 112 = c1 := by
    show (c1 ++ _).take 112 = _
    rw [← hc1, List.take_left]
  have f3 : (d ++ speechCrc d ++ List.replicate 4 false).take 60 = d := by
    rw [List.append_assoc, ← hd, List.take_left]
  have f4 : ((d ++ speechCrc d ++ List.replicate 4 false).drop 60).take 8 = speechCrc d := by
    rw [List.append_assoc, ← hd, List.drop_left, ← hlc, List.take_left]
  rw [f1, f2, f3, f4]
  have f5 : c1 ++ d = c.drop 102 := by
    have : (c.drop 102).drop 112 = d := by
      show _ = (c.drop 214).take 60
      rw [List.drop_drop, List.take_of_length_le (by rw [List.length_drop, hc])]
    rw [← this]; exact List.take_append_drop 112 (c.drop 102)
  rw [List.append_assoc, f5]
  simp

/-! ## The whole chain -/

theorem matrix_len : (24 * 18 : Nat) = 432 := rfl

theorem encodeTp_spec (frame : List Bool) (hf : frame.length = 274) (code : BitVec 32) :
    ∃ c u1 u2 t4, codecToChannel frame = .ok c ∧ c.length = 274 ∧ channelToCodec c = .ok frame ∧ u1.length = 168 ∧ u2.length = 162 ∧
      (∀ j, j < 168 → u1[j]? = (encodeLoop speechTaps Enc.zero ((c.drop 102).take 112)).1[rate112_168.pos j]?) ∧
      (∀ j, j < 162 → u2[j]? = (encodeLoop speechTaps (encodeLoop speechTaps Enc.zero ((c.drop 102).take 112)).2
        ((c.drop 214).take 60 ++ speechCrc ((c.drop 214).take 60) ++ List.replicate 4 false)).1[rate72_162.pos j]?) ∧
      t4.length = 432 ∧
      (∀ i j, i < 18 → j < 24 → t4[i * 24 + j]? = (c.take 102 ++ u1 ++ u2)[j * 18 + i]?) ∧
      encodeTp frame code 1 = .ok (Scrambler.scramble code t4) ∧
      encodeTp frame code 2 = .ok ((Scrambler.scramble code t4).drop 216) := by
  obtain ⟨c, ec, hc, ec'⟩ := c12_reorder_roundtrip frame hf
  have hc1 : ((c.drop 102).take 112).length = 112 := by rw [List.length_take, List.length_drop, hc]; rfl
  have hd : ((c.drop 214).take 60).length = 60 := by rw [List.length_take, List.length_drop, hc]; rfl
  have hlc := length_speechCrc _ hd
  have hl1 : (encodeLoop speechTaps Enc.zero ((c.drop 102).take 112)).1.length = 336 := by rw [length_encodeLoop speech_linear, hc1]
  generalize hs : (encodeLoop speechTaps Enc.zero ((c.drop 102).take 112)) = r1 at *
  have hcl : ((c.drop 214).take 60 ++ speechCrc ((c.drop 214).take 60) ++ List.replicate 4 false).length = 72 := by
    rw [List.length_append, List.length_append, hd, hlc, List.length_replicate]
  have hl2 : (encodeLoop speechTaps r1.2 ((c.drop 214).take 60 ++ speechCrc ((c.drop 214).take 60) ++ List.replicate 4 false)).1.length = 216 := by
    rw [length_encodeLoop speech_linear, hcl]
  obtain ⟨u1, eu1, lu1, gu1⟩ := puncture_spec rate112_168 r1.1 168 (fun j hj => by rw [hl1]; exact (posA j hj).1)
  obtain ⟨u2, eu2, lu2, gu2⟩ := puncture_spec rate72_162 (encodeLoop speechTaps r1.2
    ((c.drop 214).take 60 ++ speechCrc ((c.drop 214).take 60) ++ List.replicate 4 false)).1 162 (fun j hj => by rw [hl2]; exact (posB j hj).1)
  have hc102 : (c.take 102).length = 102 := by rw [List.length_take, hc]; rfl
  have hl3 : (c.take 102 ++ u1 ++ u2).length = 432 := by rw [List.length_append, List.length_append, hc102, lu1, lu2]
  obtain ⟨t4, _, et4, _, _, lt4, gt4⟩ := c12_matrix_roundtrip 24 18 (c.take 102 ++ u1 ++ u2) (List.replicate 432 false) (List.replicate 432 false)
    (Nat.le_of_eq hl3.symm) (by rw [List.length_replicate]; first | done | exact Nat.le_refl _) (by rw [List.length_replicate]; first | done | exact Nat.le_refl _)
  rw [List.length_replicate] at lt4
  have common : ∀ n, encodeTp frame code n = .ok (if n = 1 then Scrambler.scramble code t4 else ((Scrambler.scramble code t4).take 432).drop 216) := by
    intro n
    unfold encodeTp toBitarr encode
    rw [show min frame.length 274 = 274 by rw [hf]; rfl]
    simp only [hf, Nat.le_refl, if_true, Res.bind_ok]
    rw [List.take_of_length_le (by rw [hf]; first | done | exact Nat.le_refl _), List.drop_eq_nil_of_le (by rw [List.length_replicate]; first | done | exact Nat.le_refl _), List.append_nil, ec]
    simp only [Res.bind_ok, hs]
    rw [show decide ((List.replicate 336 false).length ≥ ((c.drop 102).take 112).length * 3) = true by
      rw [List.length_replicate, hc1]; rfl]
    simp only [Res.assert_true, Res.bind_ok, Res.pure_eq]
    rw [show (List.replicate 336 false).drop (((c.drop 102).take 112).length * 3) = [] by
      apply List.drop_eq_nil_of_le; rw [List.length_replicate, hc1]; first | done | exact Nat.le_refl _, List.append_nil, eu1]
    simp only [Res.bind_ok]
    rw [show decide ((List.replicate 216 false).length ≥ ((c.drop 214).take 60 ++ speechCrc ((c.drop 214).take 60) ++ List.replicate 4 false).length * 3) = true by
      rw [List.length_replicate, hcl]; rfl]
    simp only [Res.assert_true, Res.bind_ok]
    rw [show (List.replicate 216 false).drop (((c.drop 214).take 60 ++ speechCrc ((c.drop 214).take 60) ++ List.replicate 4 false).length * 3) = [] by
      apply List.drop_eq_nil_of_le; rw [List.length_replicate, hcl]; first | done | exact Nat.le_refl _, List.append_nil, eu2]
    simp only [Res.bind_ok]
    rw [et4]
    rfl
  refine ⟨c, u1, u2, t4, ec, hc, ec', lu1, lu2, by rw [hs]; exact gu1, by rw [hs]; exact gu2, lt4, gt4, by rw [common 1]; rfl, ?_⟩
  rw [common 2, if_neg (by decide), List.take_of_length_le (by rw [Scrambler.length_scramble, lt4]; first | done | exact Nat.le_refl _)]

/-- Deinterleaved received bits, cell by cell. -/
theorem deinterleave_cells (r : List Bool) (hr : r.length = 432) :
    ∃ t3, matrixDeinterleave 24 18 r (List.replicate 432 false) = .ok t3 ∧ t3.length = 432 ∧
      ∀ i j, i < 18 → j < 24 → t3[j * 18 + i]? = r[i * 24 + j]? := by
  obtain ⟨t3, e, l, _, g⟩ := moveLoop_ok (fun n => n % 24 * 18 + n / 24) (fun n => n / 24 * 24 + n % 24) r (24 * 18) (List.replicate 432 false)
    (fun n hn => by rw [hr]; omega) (fun n hn => by rw [List.length_replicate]; omega)
  rw [List.length_replicate] at l
  refine ⟨t3, ?_, l, ?_⟩
  · unfold matrixDeinterleave
    rw [show decide (r.length ≥ 24 * 18 ∧ (List.replicate 432 false).length ≥ 24 * 18) = true by
      rw [hr, List.length_replicate]; rfl]
    simp only [Res.assert_true, Res.bind_ok]
    exact e
  · intro i j hi hj
    have := g (fun a b ha hb h => by omega) (i * 24 + j) (by omega)
    rwa [show (i * 24 + j) % 24 = j by omega, show (i * 24 + j) / 24 = i by omega] at this

/-- The receiver on a burst with at most one wrong bit: the check passes, the coded (class 1 and 2) bits are right, and the
uncoded ones are those received. -/
theorem decodeTp_near (frame : List Bool) (hf : frame.length = 274) (code : BitVec 32) :
    ∃ c t, codecToChannel frame = .ok c ∧ encodeTp frame code 1 = .ok t ∧ t.length = 432 ∧
      ∀ rx, AtMostOneError rx t → ∃ c0 out, c0.length = 102 ∧ (∃ p, ∀ i, i < 102 → i ≠ p → c0[i]? = c[i]?) ∧ (rx = t → c0 = c.take 102) ∧
        channelToCodec (c0 ++ c.drop 102) = .ok out ∧ decodeTp rx code = .ok (out, true) := by
  obtain ⟨c, u1, u2, t4, ec, hc, ec', lu1, lu2, gu1, gu2, lt4, gt4, et, _⟩ := encodeTp_spec frame hf code
  refine ⟨c, _, ec, et, by rw [Scrambler.length_scramble, lt4], ?_⟩
  intro rx hnear
  obtain ⟨hl, p, hp⟩ := hnear
  rw [Scrambler.length_scramble, lt4] at hl
  have hdes : ∀ i, i ≠ p → (Scrambler.scramble code rx)[i]? = t4[i]? := by
    intro i hi
    rw [scramble_near code rx _ p (by rw [hl, Scrambler.length_scramble, lt4]) hp i hi, Scrambler.c11_involution]
  obtain ⟨t3, e3, l3, g3⟩ := deinterleave_cells (Scrambler.scramble code rx) (by rw [Scrambler.length_scramble, hl])
  have hc102 : (c.take 102).length = 102 := by rw [List.length_take, hc]; rfl
  have hl3 : (c.take 102 ++ u1 ++ u2).length = 432 := by rw [List.length_append, List.length_append, hc102, lu1, lu2]
  have near3 : ∀ k, k ≠ p % 24 * 18 + p / 24 → t3[k]? = (c.take 102 ++ u1 ++ u2)[k]? := by
    intro k hk
    by_cases hk4 : k < 432
    · have h1 := g3 (k % 18) (k / 18) (by omega) (by omega)
      have h2 := gt4 (k % 18) (k / 18) (by omega) (by omega)
      rw [show k / 18 * 18 + k % 18 = k by omega] at h1 h2
      rw [h1, ← h2]
      apply hdes
      intro hc
      apply hk
      rw [← hc]; omega
    · rw [List.getElem?_eq_none (by omega), List.getElem?_eq_none (by omega)]
  have hdec := decodeType3_near c hc u1 u2 lu1 lu2 gu1 gu2 t3 l3 _ near3
  have h102 : (t3.take 102).length = 102 := by rw [List.length_take, l3]; rfl
  obtain ⟨out, eo, _, _⟩ := c12_reorder_roundtrip' (t3.take 102 ++ c.drop 102) (by rw [List.length_append, h102, List.length_drop, hc])
  refine ⟨t3.take 102, out, h102, ⟨p % 24 * 18 + p / 24, ?_⟩, ?_, eo, ?_⟩
  · intro i hi hne
    rw [List.getElem?_take, if_pos hi, near3 i hne, List.append_assoc, List.getElem?_append_left (by rw [hc102]; exact hi),
      List.getElem?_take, if_pos hi]
  · intro hrx
    apply List.ext_getElem?
    intro k
    by_cases hk : k < 102
    · have h1 := g3 (k % 18) (k / 18) (by omega) (by omega)
      have h2 := gt4 (k % 18) (k / 18) (by omega) (by omega)
      rw [show k / 18 * 18 + k % 18 = k by omega] at h1 h2
      rw [hrx, Scrambler.c11_involution] at h1
      rw [List.getElem?_take, if_pos hk, h1, h2, List.append_assoc, List.getElem?_append_left (by rw [hc102]; exact hk)]
    · rw [List.getElem?_eq_none (by rw [h102]; omega), List.getElem?_eq_none (by rw [hc102]; omega)]
  · unfold decodeTp toBitarr
    rw [if_pos (show 432 ≤ (Scrambler.scramble code rx).length by rw [Scrambler.length_scramble, hl]; first | done | exact Nat.le_refl _)]
    simp only [Res.bind_ok]
    rw [List.take_of_length_le (by rw [Scrambler.length_scramble, hl]; first | done | exact Nat.le_refl _),
      List.drop_eq_nil_of_le (by rw [List.length_replicate]; first | done | exact Nat.le_refl _), List.append_nil, e3]
    simp only [Res.bind_ok]
    rw [hdec]
    simp only [Res.bind_ok]
    rw [eo]
    rfl

/-- **C15, round trip.** Every pair of speech frames (274 bits) comes back unchanged, marked good, for every scrambling
code. -/
theorem c15_roundtrip (frame : List Bool) (hf : frame.length = 274) (code : BitVec 32) :
    ∃ t, encodeTp frame code 1 = .ok t ∧ t.length = 432 ∧ decodeTp t code = .ok (frame, true) := by
  obtain ⟨c, t, ec, et, lt, h⟩ := decodeTp_near frame hf code
  refine ⟨t, et, lt, ?_⟩
  obtain ⟨c0, out, _, _, h3, h4, h5⟩ := h t ⟨rfl, 0, fun _ _ => rfl⟩
  rw [h3 rfl, List.take_append_drop] at h4
  obtain ⟨c', ec', _, ec2⟩ := c12_reorder_roundtrip frame hf
  rw [ec] at ec'; cases ec'
  rw [ec2] at h4; cases h4
  exact h5

/-- **C15, one wrong bit on the air.** Whichever of the 432 bits is wrong, the frame is marked good and every bit of class 1
and class 2 (everything but the 102 least sensitive bits) is right. -/
theorem c15_protects (frame : List Bool) (hf : frame.length = 274) (code : BitVec 32) :
    ∃ t, encodeTp frame code 1 = .ok t ∧ ∀ rx, AtMostOneError rx t →
      ∃ out chIn chOut, decodeTp rx code = .ok (out, true) ∧ codecToChannel frame = .ok chIn ∧ codecToChannel out = .ok chOut ∧
        chOut.drop 102 = chIn.drop 102 ∧ ∃ p, ∀ i, i < 102 → i ≠ p → chOut[i]? = chIn[i]? := by
  obtain ⟨c, t, ec, et, lt, h⟩ := decodeTp_near frame hf code
  refine ⟨t, et, fun rx hrx => ?_⟩
  obtain ⟨c0, out, h1, ⟨p, h2⟩, _, h4, h5⟩ := h rx hrx
  have hc : c.length = 274 := by
    obtain ⟨c', ec', hl, _⟩ := c12_reorder_roundtrip frame hf
    rw [ec] at ec'; cases ec'; exact hl
  obtain ⟨out', eo, _, eb⟩ := c12_reorder_roundtrip' (c0 ++ c.drop 102) (by rw [List.length_append, h1, List.length_drop, hc])
  rw [h4] at eo; cases eo
  refine ⟨out, c, _, h5, ec, eb, ?_, p, ?_⟩
  · rw [← h1, List.drop_left, h1]
  · intro i hi hne
    rw [List.getElem?_append_left (by omega), h2 i hi hne]

/-- **C15, half slot.** When the first half of the slot is stolen, the encoder sends exactly the second half of the full burst. -/
theorem c15_half_slot (frame : List Bool) (hf : frame.length = 274) (code : BitVec 32) :
    ∃ t, encodeTp frame code 1 = .ok t ∧ encodeTp frame code 2 = .ok (t.drop 216) := by
  obtain ⟨_, _, _, _, _, _, _, _, _, _, _, _, _, h1, h2⟩ := encodeTp_spec frame hf code
  exact ⟨_, h1, h2⟩

/-! ## Bad frames -/

/-- The check the receiver makes on the 68 decoded bits of class 2 (data and check bits). -/
def frameGood (class2 : List Bool) : Bool := speechCrc (class2.take 60) == (class2.drop 60).take 8

/-- The receiver's verdict is that check on the decoded bits, whose first sixty are the ones delivered. -/
theorem verdict_is_check (t3 c : List Bool) (ok : Bool) (h : decodeType3 t3 = .ok (c, ok)) :
    ∃ decoded : List Bool, c = t3.take 102 ++ decoded.take 112 ++ (decoded.drop 112).take 60 ∧ ok = frameGood (decoded.drop 112) := by
  unfold decodeType3 at h
  rw [Res.bind_eq_ok] at h
  obtain ⟨m1, _, h⟩ := h
  rw [Res.bind_eq_ok] at h
  obtain ⟨m2, _, h⟩ := h
  generalize decode speechPolys ((m1 ++ m2).map soft) = decoded at h
  rw [Res.pure_eq, Res.ok.injEq, Prod.mk.injEq] at h
  exact ⟨decoded, h.1.symm, h.2.symm⟩

/-- **C15, bad frames.** If an odd number of the 68 protected bits differs from what the encoder made, in particular exactly one,
the frame is marked bad. -/
theorem c15_odd_errors_flagged (data e : List Bool) (hd : data.length = 60) (he : e.length = 68) (hodd : parity e = true) :
    frameGood (List.zipWith xor (data ++ speechCrc data) e) = false := by
  have hlc := length_speechCrc data hd
  have hpz : ∀ x y : List Bool, x.length = y.length → parity (List.zipWith xor x y) = (parity x ^^ parity y) := by
    intro x
    induction x with
    | nil => intro y h; have : y = [] := by simpa using h.symm
             subst this; rfl
    | cons a x ih =>
      intro y h
      match y, h with
      | b :: y, h =>
        have hc : ∀ (a : Bool) (x : List Bool), parity (a :: x) = (a ^^ parity x) := by
          intro a x; unfold parity; rw [List.foldl_cons, foldl_xor]; rw [Bool.false_xor]; rfl
        rw [List.zipWith_cons_cons, hc, hc, hc, ih y (by simpa using h)]
        generalize parity x = u
        generalize parity y = v
        cases a <;> cases b <;> cases u <;> cases v <;> rfl
  have hl : (List.zipWith xor (data ++ speechCrc data) e).length = 68 := by
    rw [List.length_zipWith, List.length_append, hd, hlc, he]; rfl
  have hpar : parity (List.zipWith xor (data ++ speechCrc data) e) = true := by
    rw [hpz _ _ (by rw [List.length_append, hd, hlc, he]), speechCrc_even, hodd]; rfl
  generalize List.zipWith xor (data ++ speechCrc data) e = w at *
  unfold frameGood
  apply Bool.eq_false_iff.2
  intro h
  rw [beq_iff_eq, List.take_of_length_le (l := w.drop 60) (by rw [List.length_drop, hl])] at h
  have := speechCrc_even (w.take 60)
  rw [h, List.take_append_drop, hpar] at this
  cases this

/-! Even numbers of errors: the check is linear, so it sees only the error pattern. -/

theorem getD_set' (w : List Bool) (i j : Nat) (v : Bool) (hi : i < w.length) :
    (w.set i v).getD j false = if i = j then v else w.getD j false := by
  simp only [List.getD_eq_getElem?_getD, List.getElem?_set]
  by_cases h : i = j
  · subst h; simp [hi]
  · simp [h]

theorem getD_reduceAt (w : List Bool) (d i : Nat) (h7 : 7 ≤ d) (hd : d < w.length) :
    (reduceAt w d).getD i false = (w.getD i false ^^ (w.getD d false && (decide (d = i) || decide (d - 4 = i) || decide (d - 7 = i)))) := by
  unfold reduceAt
  by_cases hw : w.getD d false = true
  · rw [if_pos hw, hw]
    have e4 : (w.set d (true ^^ true)).getD (d - 4) false = w.getD (d - 4) false := by
      rw [getD_set' _ _ _ _ hd, if_neg (by omega)]
    have e7 : ((w.set d (true ^^ true)).set (d - 4) (w.getD (d - 4) false ^^ true)).getD (d - 7) false = w.getD (d - 7) false := by
      rw [getD_set' _ _ _ _ (by rw [List.length_set]; omega), if_neg (by omega), getD_set' _ _ _ _ hd, if_neg (by omega)]
    simp only [e4, e7]
    rw [getD_set' _ _ _ _ (by rw [List.length_set, List.length_set]; omega), getD_set' _ _ _ _ (by rw [List.length_set]; omega), getD_set' _ _ _ _ hd]
    by_cases h1 : d = i
    · subst h1
      rw [if_neg (show ¬ d - 7 = d by omega), if_neg (show ¬ d - 4 = d by omega), if_pos rfl, hw, decide_eq_true rfl]; rfl
    · by_cases h2 : d - 4 = i
      · subst h2
        rw [if_neg (show ¬ d - 7 = d - 4 by omega), if_pos rfl, decide_eq_false h1, decide_eq_true rfl]; rfl
      · by_cases h3 : d - 7 = i
        · subst h3
          rw [if_pos rfl, decide_eq_false h1, decide_eq_false h2, decide_eq_true rfl]; rfl
        · rw [if_neg h3, if_neg h2, if_neg h1, decide_eq_false h1, decide_eq_false h2, decide_eq_false h3]
          generalize w.getD i false = a
          cases a <;> rfl
  · have : w.getD d false = false := by simpa using hw
    rw [if_neg hw, this, Bool.false_and, Bool.xor_false]

/-- Bitwise xor of bit strings. -/
abbrev xorl (x y : List Bool) : List Bool := List.zipWith xor x y

theorem getD_xorl (x y : List Bool) (h : x.length = y.length) (i : Nat) : (xorl x y).getD i false = (x.getD i false ^^ y.getD i false) := by
  simp only [xorl, List.getD_eq_getElem?_getD, List.getElem?_zipWith]
  by_cases hi : i < x.length
  · rw [List.getElem?_eq_getElem hi, List.getElem?_eq_getElem (h ▸ hi)]; rfl
  · rw [List.getElem?_eq_none (by omega), List.getElem?_eq_none (by omega)]; rfl

theorem ext_getD (x y : List Bool) (h : x.length = y.length) (hi : ∀ i, i < x.length → x.getD i false = y.getD i false) : x = y := by
  apply List.ext_getElem h
  intro i h1 h2
  have := hi i h1
  simp only [List.getD_eq_getElem?_getD, List.getElem?_eq_getElem h1, List.getElem?_eq_getElem h2] at this
  simpa using this

theorem reduceAt_xor (x y : List Bool) (h : x.length = y.length) (d : Nat) (h7 : 7 ≤ d) (hd : d < x.length) :
    reduceAt (xorl x y) d = xorl (reduceAt x d) (reduceAt y d) := by
  apply ext_getD
  · simp [length_reduceAt, h]
  · intro i _
    rw [getD_reduceAt _ _ _ h7 (by simp [xorl]; omega), getD_xorl (reduceAt x d) _ (by rw [length_reduceAt, length_reduceAt, h]), getD_xorl _ _ h, getD_xorl _ _ h,
      getD_reduceAt _ _ _ h7 hd, getD_reduceAt _ _ _ h7 (by omega)]
    generalize (decide (d = i) || decide (d - 4 = i) || decide (d - 7 = i)) = m
    generalize x.getD i false = a
    generalize y.getD i false = b
    generalize x.getD d false = c
    generalize y.getD d false = e
    cases m <;> cases a <;> cases b <;> cases c <;> cases e <;> rfl

theorem reduce_xor (x y : List Bool) (hx : x.length = 67) (hy : y.length = 67) : reduce (xorl x y) = xorl (reduce x) (reduce y) := by
  have : ∀ (l : List Nat), (∀ d ∈ l, 7 ≤ d ∧ d < 67) → ∀ x y : List Bool, x.length = 67 → y.length = 67 →
      l.foldl reduceAt (xorl x y) = xorl (l.foldl reduceAt x) (l.foldl reduceAt y) := by
    intro l
    induction l with
    | nil => intros; rfl
    | cons d l ih =>
      intro hl x y hx hy
      obtain ⟨h7, h67⟩ := hl d (by simp)
      rw [List.foldl_cons, List.foldl_cons, List.foldl_cons, reduceAt_xor x y (by omega) d h7 (by omega)]
      exact ih (fun d' h' => hl d' (by simp [h'])) _ _ (by rw [length_reduceAt, hx]) (by rw [length_reduceAt, hy])
  apply this _ _ x y hx hy
  intro d hd
  simp only [List.mem_map, List.mem_range] at hd
  obtain ⟨k, hk, rfl⟩ := hd
  omega

theorem xorl_append (a b c d : List Bool) (h : a.length = c.length) : xorl (a ++ b) (c ++ d) = xorl a c ++ xorl b d :=
  List.zipWith_append h

theorem foldl_xorl (x y : List Bool) (h : x.length = y.length) : parity (xorl x y) = (parity x ^^ parity y) := by
  induction x generalizing y with
  | nil => have : y = [] := by simpa using h.symm
           subst this; rfl
  | cons a x ih =>
    match y, h with
    | b :: y, h =>
      have hc : ∀ (a : Bool) (x : List Bool), parity (a :: x) = (a ^^ parity x) := by
        intro a x; unfold parity; rw [List.foldl_cons, foldl_xor]; rw [Bool.false_xor]; rfl
      show parity ((a ^^ b) :: xorl x y) = _
      rw [hc, hc, hc, ih y (by simpa using h)]
      generalize parity x = u
      generalize parity y = v
      cases a <;> cases b <;> cases u <;> cases v <;> rfl

theorem speechCrc_xor (x y : List Bool) (hx : x.length = 60) (hy : y.length = 60) : speechCrc (xorl x y) = xorl (speechCrc x) (speechCrc y) := by
  have e : List.replicate 7 false ++ xorl x y = xorl (List.replicate 7 false ++ x) (List.replicate 7 false ++ y) := by
    rw [xorl_append _ _ _ _ rfl]; rfl
  have hr : reduce (List.replicate 7 false ++ xorl x y) = xorl (reduce (List.replicate 7 false ++ x)) (reduce (List.replicate 7 false ++ y)) := by
    rw [e, reduce_xor _ _ (by simp [hx]) (by simp [hy])]
  unfold speechCrc
  simp only [hr]
  have l1 : ((reduce (List.replicate 7 false ++ x)).take 7).length = 7 := by simp [length_reduce]
  have l2 : ((reduce (List.replicate 7 false ++ y)).take 7).length = 7 := by simp [length_reduce]
  rw [show (xorl (reduce (List.replicate 7 false ++ x)) (reduce (List.replicate 7 false ++ y))).take 7 =
    xorl ((reduce (List.replicate 7 false ++ x)).take 7) ((reduce (List.replicate 7 false ++ y)).take 7) from List.take_zipWith]
  generalize (reduce (List.replicate 7 false ++ x)).take 7 = f at *
  generalize (reduce (List.replicate 7 false ++ y)).take 7 = g at *
  rw [xorl_append f _ g _ (by omega), ← xorl_append x f y g (by omega)]
  have := foldl_xorl (x ++ f) (y ++ g) (by rw [List.length_append, List.length_append, hx, hy, l1, l2])
  unfold parity at this
  rw [this]
  rfl

/-- The 8-bit syndrome of 68 received bits. -/
def syndrome (w : List Bool) : List Bool := xorl (speechCrc (w.take 60)) ((w.drop 60).take 8)

theorem xorl_self (x : List Bool) : xorl x x = List.replicate x.length false := by
  induction x with
  | nil => rfl
  | cons a x ih =>
    show (a ^^ a) :: xorl x x = _
    rw [ih, Bool.xor_self]; rfl

theorem xorl_eq_zero (x y : List Bool) (h : x.length = y.length) (hz : xorl x y = List.replicate x.length false) : x = y := by
  apply ext_getD _ _ h
  intro i hi
  have : (xorl x y).getD i false = (List.replicate x.length false).getD i false := by rw [hz]
  rw [getD_xorl _ _ h] at this
  have h0 : (List.replicate x.length false).getD i false = false := by
    simp [List.getD_eq_getElem?_getD, hi]
  rw [h0] at this
  revert this
  cases x.getD i false <;> cases y.getD i false <;> simp

theorem frameGood_iff (w : List Bool) (h : w.length = 68) : frameGood w = true ↔ syndrome w = List.replicate 8 false := by
  have l1 := length_speechCrc (w.take 60) (by simp [h])
  have l2 : ((w.drop 60).take 8).length = 8 := by simp [h]
  unfold frameGood syndrome
  rw [beq_iff_eq]
  constructor
  · intro e; rw [e, xorl_self, l2]
  · intro e; exact xorl_eq_zero _ _ (by omega) (by rw [e, l1])

theorem xorl_xorl (a b c d : List Bool) (h1 : a.length = b.length) (h2 : c.length = d.length) (h3 : a.length = c.length) :
    xorl (xorl a b) (xorl c d) = xorl (xorl a c) (xorl b d) := by
  apply ext_getD
  · simp [xorl]; omega
  · intro i _
    rw [getD_xorl _ _ (by simp [xorl]; omega), getD_xorl _ _ h1, getD_xorl _ _ h2, getD_xorl _ _ (by simp [xorl]; omega), getD_xorl _ _ h3,
      getD_xorl _ _ (by omega)]
    generalize a.getD i false = p
    generalize b.getD i false = q
    generalize c.getD i false = r
    generalize d.getD i false = s
    cases p <;> cases q <;> cases r <;> cases s <;> rfl

theorem syndrome_xor (x y : List Bool) (hx : x.length = 68) (hy : y.length = 68) : syndrome (xorl x y) = xorl (syndrome x) (syndrome y) := by
  unfold syndrome
  have lx := length_speechCrc (x.take 60) (by simp [hx])
  have ly := length_speechCrc (y.take 60) (by simp [hy])
  rw [show (xorl x y).take 60 = xorl (x.take 60) (y.take 60) from List.take_zipWith,
    show ((xorl x y).drop 60).take 8 = xorl ((x.drop 60).take 8) ((y.drop 60).take 8) by
      rw [show (xorl x y).drop 60 = xorl (x.drop 60) (y.drop 60) from List.drop_zipWith]; exact List.take_zipWith,
    speechCrc_xor _ _ (by simp [hx]) (by simp [hy])]
  exact xorl_xorl _ _ _ _ (by omega) (by simp [hx, hy]) (by simp [lx, hx])

/-- One wrong bit at position `i` of 68. -/
def unit (i : Nat) : List Bool := (List.replicate 68 false).set i true

theorem unit_syndromes : ((List.range 68).map (fun i => Bits.ofBits (syndrome (unit i)))).Nodup := by decide +kernel

/-- **C15, bad frames.** Any two wrong bits among the 68 protected ones are flagged as well. -/
theorem c15_double_errors_flagged (data : List Bool) (hd : data.length = 60) (i j : Nat) (hi : i < 68) (hj : j < 68) (hij : i ≠ j) :
    frameGood (List.zipWith xor (data ++ speechCrc data) (List.zipWith xor (unit i) (unit j))) = false := by
  have hlc := length_speechCrc data hd
  have hcl : (data ++ speechCrc data).length = 68 := by rw [List.length_append, hd, hlc]
  have lu : ∀ k, (unit k).length = 68 := by intro k; simp [unit]
  have hgood : syndrome (data ++ speechCrc data) = List.replicate 8 false := by
    rw [← frameGood_iff _ hcl]
    unfold frameGood
    rw [← hd, List.take_left, List.drop_left, ← hlc, List.take_length]; simp
  have ls : ∀ k, (syndrome (unit k)).length = 8 := by
    intro k
    have := length_speechCrc ((unit k).take 60) (by simp [lu])
    simp [syndrome, xorl, this, lu]
  apply Bool.eq_false_iff.2
  intro h
  rw [frameGood_iff _ (by simp [hcl, lu])] at h
  rw [syndrome_xor _ _ hcl (by simp [lu]), syndrome_xor _ _ (lu i) (lu j), hgood] at h
  have hz : xorl (syndrome (unit i)) (syndrome (unit j)) = List.replicate (syndrome (unit i)).length false := by
    rw [ls, ← h]
    apply ext_getD
    · simp [xorl, ls]
    · intro k _
      rw [getD_xorl (List.replicate 8 false) _ (by simp [xorl, ls])]
      have : (List.replicate 8 false).getD k false = false := by
        simp only [List.getD_eq_getElem?_getD, List.getElem?_replicate]; split <;> rfl
      rw [this, Bool.false_xor]
  have heq := xorl_eq_zero _ _ (by rw [ls, ls]) hz
  have hnd := unit_syndromes
  rw [List.nodup_iff_getElem?_ne_getElem?] at hnd
  rcases Nat.lt_or_gt_of_ne hij with hlt | hlt
  · exact hnd i j hlt (by simp [hj]) (by simp [hi, hj, heq])
  · exact hnd j i hlt (by simp [hi]) (by simp [hi, hj, heq])

/-- Non-vacuity: one wrong bit of class 2. -/
example : frameGood (List.zipWith xor (List.replicate 60 true ++ speechCrc (List.replicate 60 true)) (true :: List.replicate 67 false)) = false ∧
    frameGood (List.replicate 60 true ++ speechCrc (List.replicate 60 true)) = true ∧ parity (true :: List.replicate 67 false) = true := by
  decide +kernel

end Verif.ErrorControl
