import Verif.Lmac.SpeechProps
/-!
# The decoders return for every block of the right size
-/
namespace Verif.ErrorControl
open Verif.Interleaver Verif.ConvEnc Verif.Viterbi Verif.Arr

/-- Whatever was received, the control channel decoder gives a block of the size of the channel and a verdict. -/
theorem decodeCp_total (lchan : Chan) (hc : isCp lchan = true) (rx : List Bool) (hl : rx.length = (params lchan).type345) (code : BitVec 32) :
    ∃ d ok, decodeCp lchan false rx (some code) = .ok (some d, ok) ∧ d.length = (params lchan).type1 := by
  obtain ⟨q, hq, e345, e2, e1, ecrc⟩ := params_q lchan hc
  have hp := c12_parameters lchan (by rintro rfl; simp [isCp] at hc)
  have hq144 : q ≤ 144 := by simp at hq; omega
  obtain ⟨hk1, hcop, hw, hk⟩ := hp
  rw [e345] at hk1 hcop hw hk hl
  generalize ha : (params lchan).a = a at *
  have hkk : ∀ i, i < 3 * q → interlFunc (3 * q) a (i + 1) - 1 < 3 * q := fun i _ => interl_range (3 * q) a (i + 1) hk1
  obtain ⟨d3, ed3, hd3l, _, _⟩ := moveLoop_ok (fun i => i + 1 - 1) (fun i => interlFunc (3 * q) a (i + 1) - 1)
    (Scrambler.scramble code rx ++ (List.replicate 432 false).drop (3 * q)) (3 * q) (List.replicate 432 false)
    (fun i hi => by
      have := hkk i hi
      rw [List.length_append, Scrambler.length_scramble, hl]; omega)
    (fun i hi => by rw [List.length_replicate]; omega)
  rw [List.length_replicate] at hd3l
  obtain ⟨dp, edp, hdpl, _, _⟩ := depuncture_spec rate2_3 d3 (3 * q) 1728 (by omega)
    (fun j hj => by have := pos23_lt q j hj; omega) (fun i j _ _ h => pos23_inj i j h)
  obtain ⟨x, ex, hx⟩ := c16_control_most_likely (2 * q) (by omega) dp (by omega) (List.replicate 288 false) (by rw [List.length_replicate]; omega)
  refine ⟨(x ++ (List.replicate 288 false).drop (2 * q)).take (params lchan).type1,
    Crc16.check (x ++ (List.replicate 288 false).drop (2 * q)) (params lchan).type1, ?_, ?_⟩
  · unfold decodeCp toBitarr
    simp only [hc, ecrc, e345, e2, ha, Res.assert_true, Res.bind_ok, Res.pure_eq, Scrambler.length_scramble, hl, Nat.le_refl, if_true,
      Bool.false_eq_true, if_false]
    rw [List.take_of_length_le (by rw [Scrambler.length_scramble, hl])]
    unfold blockDeinterleave
    rw [show decide ((Scrambler.scramble code rx ++ (List.replicate 432 false).drop (3 * q)).length ≥ 3 * q ∧
      (List.replicate 432 false).length ≥ 3 * q) = true by
        apply decide_eq_true
        rw [List.length_append, Scrambler.length_scramble, hl, List.length_replicate]; omega]
    simp only [Res.assert_true, Res.bind_ok]
    rw [ed3]
    simp only [Res.bind_ok]
    rw [edp]
    simp only [Res.bind_ok]
    rw [ex]
    simp only [Res.bind_ok]
  · rw [List.length_take, List.length_append, hx.1]; omega

/-- Whatever was received, the voice decoder gives a frame pair and a verdict. -/
theorem decodeTp_total (rx : List Bool) (hl : rx.length = 432) (code : BitVec 32) :
    ∃ d ok, decodeTp rx code = .ok (d, ok) ∧ d.length = 274 := by
  obtain ⟨t3, e3, l3, _⟩ := deinterleave_cells (Scrambler.scramble code rx) (by rw [Scrambler.length_scramble, hl])
  obtain ⟨m1, em1, lm1, _, _⟩ := depuncture_spec rate112_168 ((t3.drop 102).take 168) 168 336
    (by rw [List.length_take, List.length_drop, l3]; omega) (fun j hj => (posA j hj).1)
    (fun i j hi hj h => inj_of_step _ 168 (fun j hj => (posA j (by omega)).2 hj) i j hi hj h)
  obtain ⟨m2, em2, lm2, _, _⟩ := depuncture_spec rate72_162 ((t3.drop 270).take 162) 162 216
    (by rw [List.length_take, List.length_drop, l3]; omega) (fun j hj => (posB j hj).1)
    (fun i j hi hj h => inj_of_step _ 162 (fun j hj => (posB j (by omega)).2 hj) i j hi hj h)
  have hml := c16_speech_most_likely 184 (by omega) (m1 ++ m2) (by rw [List.length_append, lm1, lm2])
  obtain ⟨out, eo, lo, _⟩ := c12_reorder_roundtrip'
    (t3.take 102 ++ (decode speechPolys ((m1 ++ m2).map soft)).take 112 ++ ((decode speechPolys ((m1 ++ m2).map soft)).drop 112).take 60)
    (by
      rw [List.length_append, List.length_append, List.length_take, List.length_take, List.length_take, List.length_drop, hml.1, l3]
      decide)
  refine ⟨out, speechCrc (((decode speechPolys ((m1 ++ m2).map soft)).drop 112).take 60) ==
    (((decode speechPolys ((m1 ++ m2).map soft)).drop 112).drop 60).take 8, ?_, lo⟩
  unfold decodeTp toBitarr
  rw [if_pos (show 432 ≤ (Scrambler.scramble code rx).length by rw [Scrambler.length_scramble, hl]; first | done | exact Nat.le_refl _)]
  simp only [Res.bind_ok]
  rw [List.take_of_length_le (by rw [Scrambler.length_scramble, hl]; first | done | exact Nat.le_refl _),
    List.drop_eq_nil_of_le (by rw [List.length_replicate]; first | done | exact Nat.le_refl _), List.append_nil, e3]
  simp only [Res.bind_ok]
  unfold decodeType3
  rw [em1]
  simp only [Res.bind_ok]
  rw [em2]
  simp only [Res.bind_ok, Res.pure_eq]
  rw [eo]
  rfl

end Verif.ErrorControl
