import Verif.Lmac.ErrorControl
import Verif.Lmac.CodeDistance
import Verif.Lmac.InterleaverProps
import Verif.Lmac.ScramblerProps
import Verif.Lmac.Crc16Props
/-! # C14: control channel coding -/
namespace Verif.ErrorControl
open Verif.Interleaver Verif.ConvEnc Verif.Viterbi Verif.Arr

/-! ## Specification -/

/-- The received block equals the sent one except possibly in one bit. -/
def AtMostOneError (rx sent : List Bool) : Prop := rx.length = sent.length ∧ ∃ p, ∀ i : Nat, i ≠ p → rx[i]? = sent[i]?

/-! ## Stages -/

theorem scramble_near (code : BitVec 32) (a b : List Bool) (p : Nat) (hl : a.length = b.length) (h : ∀ i : Nat, i ≠ p → a[i]? = b[i]?) (i : Nat)
    (hi : i ≠ p) : (Scrambler.scramble code a)[i]? = (Scrambler.scramble code b)[i]? := by
  rw [Scrambler.scramble_eq, Scrambler.scramble_eq, hl, List.getElem?_zipWith, List.getElem?_zipWith, h i hi]

theorem depuncture_spec (pu : Puncturer) (t3 : List Bool) (len N : Nat) (hl : len ≤ t3.length)
    (hp : ∀ j, j < len → pu.pos j < N) (hi : ∀ i j, i < len → j < len → pu.pos i = pu.pos j → i = j) :
    ∃ r, depuncture pu (t3.map some) len (List.replicate N none) = .ok r ∧ r.length = N ∧
      (∀ i, i < N → (∀ j, j < len → pu.pos j ≠ i) → r[i]? = some none) ∧
      (∀ j, j < len → r[pu.pos j]? = some t3[j]?) := by
  obtain ⟨r, e, h1, h2, h3⟩ := moveLoop_ok pu.pos id (t3.map some) len (List.replicate N none)
    (fun i hi => by simp; omega) (fun i hi => by rw [List.length_replicate]; exact hp i hi)
  refine ⟨r, e, by rw [h1, List.length_replicate], ?_, ?_⟩
  · intro i hi hj
    rw [h2 i hj, List.getElem?_replicate, if_pos hi]
  · intro j hj
    rw [h3 hi j hj]
    simp [show j < t3.length by omega]

theorem puncture_spec (pu : Puncturer) (mother : List Bool) (len : Nat) (hp : ∀ j, j < len → pu.pos j < mother.length) :
    ∃ r, puncture pu mother (List.replicate len false) = .ok r ∧ r.length = len ∧ ∀ j, j < len → r[j]? = mother[pu.pos j]? := by
  obtain ⟨r, e, h1, _, h3⟩ := moveLoop_ok id pu.pos mother len (List.replicate len false) hp
    (fun i hi => by rw [List.length_replicate]; exact hi)
  refine ⟨r, ?_, by rw [h1, List.length_replicate], fun j hj => h3 (fun _ _ _ _ h => h) j hj⟩
  unfold puncture
  rw [List.length_replicate]
  exact e

/-! ### Rate 2/3 -/

theorem pos23 (j : Nat) : rate2_3.pos j = 8 * (j / 3) + (if j % 3 = 0 then 0 else if j % 3 = 1 then 1 else 4) := by
  have h : j + 1 - 3 * (j / 3) = j % 3 + 1 := by omega
  have h3 : j % 3 = 0 ∨ j % 3 = 1 ∨ j % 3 = 2 := by omega
  simp only [Puncturer.pos, rate2_3, Nat.add_sub_cancel, h]
  rcases h3 with h3 | h3 | h3 <;> simp [h3]

theorem pos23_inj (i j : Nat) (h : rate2_3.pos i = rate2_3.pos j) : i = j := by
  rw [pos23, pos23] at h
  split at h <;> split at h <;> (try split at h) <;> (try split at h) <;> omega

theorem pos23_lt (q j : Nat) (h : j < 3 * q) : rate2_3.pos j < 8 * q := by
  rw [pos23]; split <;> (try split) <;> omega

/-- Bits transmitted at each step, two steps per period. -/
def ms23 (q : Nat) : List (List Bool) := (List.replicate q [[true, true, false, false], [true, false, false, false]]).flatten

theorem ms23_length (q : Nat) : (ms23 q).length = 2 * q := by
  unfold ms23; induction q with
  | zero => rfl
  | succ q ih => rw [List.replicate_succ, List.flatten_cons, List.length_append, ih]; simp; omega

theorem ms23_mem (q : Nat) : ∀ m ∈ ms23 q, m.length = 4 := by
  intro m hm
  simp only [ms23, List.mem_flatten, List.mem_replicate] at hm
  obtain ⟨l, ⟨_, rfl⟩, hm⟩ := hm
  revert m; decide

theorem ms23_flat_length (q : Nat) : (ms23 q).flatten.length = 8 * q := by
  unfold ms23; induction q with
  | zero => rfl
  | succ q ih =>
    rw [List.replicate_succ, List.flatten_cons, List.flatten_append, List.length_append, ih]; simp; omega

theorem ms23_flat_get (q i : Nat) (h : i < 8 * q) :
    (ms23 q).flatten[i]? = some (i % 8 == 0 || i % 8 == 1 || i % 8 == 4) := by
  unfold ms23
  induction q generalizing i with
  | zero => omega
  | succ q ih =>
    rw [List.replicate_succ, List.flatten_cons, List.flatten_append]
    have hl : ([[true, true, false, false], [true, false, false, false]] : List (List Bool)).flatten =
      [true, true, false, false, true, false, false, false] := rfl
    rw [hl]
    by_cases h8 : i < 8
    · rw [List.getElem?_append_left (by simpa using h8)]
      have : ∀ i : Fin 8, [true, true, false, false, true, false, false, false][i.val]? = some (i.val % 8 == 0 || i.val % 8 == 1 || i.val % 8 == 4) := by decide
      exact this ⟨i, h8⟩
    · rw [List.getElem?_append_right (by simp; omega)]
      simp only [List.length_cons, List.length_nil]
      rw [ih (i - 8) (by omega), show (i - 8) % 8 = i % 8 by omega]

/-- The number of erasure-free positions of the received block is the puncturing pattern. -/
theorem known23 (q N : Nat) (r : List (Option Bool)) (t3 : List Bool) (hN : 8 * q ≤ N) (hl : r.length = N) (ht : 3 * q ≤ t3.length)
    (h0 : ∀ i, i < N → (∀ j, j < 3 * q → rate2_3.pos j ≠ i) → r[i]? = some none)
    (h1 : ∀ j, j < 3 * q → r[rate2_3.pos j]? = some t3[j]?) : (r.take (8 * q)).map Option.isSome = (ms23 q).flatten := by
  apply List.ext_getElem?
  intro i
  by_cases hi : i < 8 * q
  · rw [ms23_flat_get q i hi, List.getElem?_map, List.getElem?_take, if_pos hi]
    have pick : ∀ j, j < 3 * q → rate2_3.pos j = i → r[i]?.map Option.isSome = some true := by
      intro j hj hp
      rw [← hp, h1 j hj]
      simp [show j < t3.length by omega]
    by_cases c0 : i % 8 = 0
    · rw [pick (3 * (i / 8)) (by omega) (by rw [pos23]; split <;> (try split) <;> omega)]; simp [c0]
    · by_cases c1 : i % 8 = 1
      · rw [pick (3 * (i / 8) + 1) (by omega) (by rw [pos23]; split <;> (try split) <;> omega)]; simp [c1]
      · by_cases c4 : i % 8 = 4
        · rw [pick (3 * (i / 8) + 2) (by omega) (by rw [pos23]; split <;> (try split) <;> omega)]; simp [c4]
        · rw [h0 i (by omega) (fun j hj hp => by
            rw [pos23] at hp; split at hp <;> (try split at hp) <;> omega)]
          simp [c0, c1, c4]
  · rw [List.getElem?_eq_none (by simp; omega), List.getElem?_eq_none (by rw [ms23_flat_length]; omega)]

theorem ms23_dist : ∀ q ∈ [40, 56, 72, 144], 3 ≤ nonzeroMin cchTaps (ms23 q) := by decide +kernel

/-! ### The whole chain -/

theorem length_appendCrc (x : List Bool) : (Crc16.appendCrc x).length = x.length + 16 := by simp [Crc16.appendCrc]

theorem params_q (c : Chan) (h : isCp c = true) : ∃ q, q ∈ [40, 56, 72, 144] ∧ (params c).type345 = 3 * q ∧ (params c).type2 = 2 * q ∧
    (params c).type1 + 20 = 2 * q ∧ (params c).crc = true := by
  cases c <;> simp [isCp] at h
  · exact ⟨40, by simp [params]⟩
  · exact ⟨72, by simp [params]⟩
  · exact ⟨72, by simp [params]⟩
  · exact ⟨72, by simp [params]⟩
  · exact ⟨144, by simp [params]⟩
  · exact ⟨56, by simp [params]⟩

/-- **C14.** For every control channel, every information block and every scrambling code, the block the encoder sends has
the channel's length, and the receiver gets the information bits back with a passed check - also when any one of the
transmitted bits is wrong. -/
theorem c14_roundtrip (lchan : Chan) (hc : isCp lchan = true) (type1 : List Bool) (hlen : type1.length = (params lchan).type1)
    (code : BitVec 32) :
    ∃ t, encodeCp lchan type1 code = .ok t ∧ t.length = (params lchan).type345 ∧
      ∀ rx sb1 code?, AtMostOneError rx t → (if sb1 then some Scrambler.scrambInit else code?) = some code →
        decodeCp lchan sb1 rx code? = .ok (some type1, true) := by
  obtain ⟨q, hq, e345, e2, e1, ecrc⟩ := params_q lchan hc
  have hp := c12_parameters lchan (by rintro rfl; simp [isCp] at hc)
  have hq144 : q ≤ 144 := by simp at hq; omega
  obtain ⟨hk1, hcop, hw, hk⟩ := hp
  rw [e345] at hk1 hcop hw hk
  generalize ha : (params lchan).a = a at *
  -- the message the encoder codes
  let msg := Crc16.appendCrc type1 ++ [false, false, false, false]
  have hmsg : (type2Arr type1).take (2 * q) = msg := by
    have hl := length_appendCrc type1
    unfold type2Arr
    simp only
    rw [List.take_append, List.take_of_length_le (by omega), List.take_replicate, hl]
    show _ ++ List.replicate _ false = _ ++ List.replicate 4 false
    congr 2
    omega
  have hmlen : msg.length = 2 * q := by
    show (Crc16.appendCrc type1 ++ [false, false, false, false]).length = _
    rw [List.length_append, length_appendCrc]; simp; omega
  have hterm : Terminated cchTaps msg := (c16_terminated_iff cchTaps (Crc16.appendCrc type1) _ rfl).2 rfl
  have hsl : (sent cchTaps msg).length = 8 * q := by
    unfold sent; rw [length_encodeLoop cch_linear, hmlen]; omega
  -- encoder
  obtain ⟨t3, et3, ht3l, ht3⟩ := puncture_spec rate2_3 (sent cchTaps msg ++ (List.replicate 1728 false).drop (msg.length * 4)) 432
    (fun j hj => by
      have := pos23_lt 144 j (by omega)
      rw [List.length_append, hsl, List.length_drop, List.length_replicate, hmlen]; omega)
  have ht3' : ∀ j, j < 3 * q → t3[j]? = (sent cchTaps msg)[rate2_3.pos j]? := by
    intro j hj
    rw [ht3 j (by omega), List.getElem?_append_left (by rw [hsl]; exact pos23_lt q j hj)]
  obtain ⟨t4, _, et4, _, _, ht4l, ht4⟩ := c12_block_roundtrip (3 * q) a hk1 hcop hw t3 (List.replicate 432 false) (List.replicate 432 false)
    (by omega) (by rw [List.length_replicate]; omega) (by rw [List.length_replicate]; omega)
  rw [List.length_replicate] at ht4l
  refine ⟨Scrambler.scramble code (t4.take (3 * q)), ?_, ?_, ?_⟩
  · unfold encodeCp encode
    rw [hmsg.symm] at et3
    simp only [hc, hlen, ecrc, e345, e2, ha, Res.assert_true, Res.bind_ok, beq_self_eq_true, Res.pure_eq]
    rw [hmsg] at et3 ⊢
    rw [show decide ((List.replicate 1728 false).length ≥ msg.length * 4) = true by
      rw [List.length_replicate, hmlen]; exact decide_eq_true (by omega)]
    simp only [Res.assert_true, Res.bind_ok]
    unfold sent at et3
    rw [et3]
    simp only [Res.bind_ok]
    rw [et4]
    rfl
  · rw [Scrambler.length_scramble, List.length_take, ht4l, e345]; omega
  · -- receiver
    intro rx sb1 code? hnear hcode
    obtain ⟨hrl, p, hp⟩ := hnear
    have hrxl : rx.length = 3 * q := by
      rw [hrl, Scrambler.length_scramble, List.length_take, ht4l]; omega
    have hdes : ∀ i : Nat, i ≠ p → (Scrambler.scramble code rx)[i]? = (t4.take (3 * q))[i]? := by
      intro i hi
      rw [scramble_near code rx _ p hrl hp i hi, Scrambler.c11_involution]
    have hkk : ∀ i, i < 3 * q → interlFunc (3 * q) a (i + 1) - 1 < 3 * q := fun i _ => interl_range (3 * q) a (i + 1) hk1
    obtain ⟨d3, ed3, hd3l, _, hd3⟩ := moveLoop_ok (fun i => i + 1 - 1) (fun i => interlFunc (3 * q) a (i + 1) - 1)
      (Scrambler.scramble code rx ++ (List.replicate 432 false).drop (3 * q)) (3 * q) (List.replicate 432 false)
      (fun i hi => by
        have := hkk i hi
        rw [List.length_append, Scrambler.length_scramble, hrxl]; omega)
      (fun i hi => by rw [List.length_replicate]; omega)
    rw [List.length_replicate] at hd3l
    have hd3' : ∀ i, i < 3 * q → d3[i]? = (Scrambler.scramble code rx)[interlFunc (3 * q) a (i + 1) - 1]? := by
      intro i hi
      have := hd3 (fun i j _ _ h => by simpa using h) i hi
      rw [List.getElem?_append_left (by rw [Scrambler.length_scramble, hrxl]; exact hkk i hi)] at this
      simpa using this
    -- received type-3 bits agree with the sent ones except at one index
    have hnear3 : ∃ p0, ∀ i, i < 3 * q → i ≠ p0 → d3[i]? = t3[i]? := by
      have agree : ∀ i, i < 3 * q → interlFunc (3 * q) a (i + 1) - 1 ≠ p → d3[i]? = t3[i]? := by
        intro i hi hne
        rw [hd3' i hi, hdes _ hne, List.getElem?_take, if_pos (hkk i hi), ht4 (i + 1) (by omega) (by omega)]
        rfl
      by_cases hex : ∃ i0, i0 < 3 * q ∧ interlFunc (3 * q) a (i0 + 1) - 1 = p
      · obtain ⟨i0, h0, h0p⟩ := hex
        exact ⟨i0, fun i hi hne => agree i hi (fun hc => hne (interl_inj (3 * q) a hk1 hcop hw i i0 hi h0 (by
          rw [hc, h0p])))⟩
      · exact ⟨0, fun i hi _ => agree i hi (fun hc => hex ⟨i, hi, hc⟩)⟩
    obtain ⟨p0, hp0⟩ := hnear3
    obtain ⟨dp, edp, hdpl, hdp0, hdp1⟩ := depuncture_spec rate2_3 d3 (3 * q) 1728 (by omega)
      (fun j hj => by have := pos23_lt q j hj; omega) (fun i j _ _ h => pos23_inj i j h)
    have hknown := known23 q 1728 dp d3 (by omega) hdpl (by omega) hdp0 hdp1
    obtain ⟨x, ex, hx⟩ := c16_control_most_likely (2 * q) (by omega) dp (by omega) (List.replicate 288 false) (by rw [List.length_replicate]; omega)
    have hms : mismatches (dp.take (4 * (2 * q))) (sent cchTaps msg) ≤ 1 := by
      apply mismatches_le_one _ _ (rate2_3.pos p0)
      intro i r b hi h1 h2
      rw [List.getElem?_take] at h1
      split at h1
      · rename_i hlt
        by_cases hj : ∃ j, j < 3 * q ∧ rate2_3.pos j = i
        · obtain ⟨j, hj, rfl⟩ := hj
          have hjp : j ≠ p0 := fun h => hi (by rw [h])
          rw [hdp1 j hj, hp0 j hj hjp, ht3' j hj, h2] at h1
          simpa using h1.symm
        · rw [hdp0 i (by omega) (fun j hj' hc => hj ⟨j, hj', hc⟩)] at h1
          simp at h1
      · simp at h1
    have h8 : 4 * (2 * q) = 8 * q := by omega
    rw [h8] at hx hms
    have hxm : x = msg := unique_decoding cch_linear (ms23 q) (ms23_mem q) (ms23_dist q hq) (dp.take (8 * q)) hknown msg x
      (by rw [ms23_length, hmlen]) hterm hms (by rw [ms23_length]; exact hx)
    subst hxm
    unfold decodeCp toBitarr
    rw [hcode]
    simp only [hc, ecrc, e345, e2, ha, Res.assert_true, Res.bind_ok, Res.pure_eq, Scrambler.length_scramble, hrxl, Nat.le_refl, if_true]
    rw [List.take_of_length_le (by rw [Scrambler.length_scramble, hrxl])]
    unfold blockDeinterleave
    rw [show decide ((Scrambler.scramble code rx ++ (List.replicate 432 false).drop (3 * q)).length ≥ 3 * q ∧
      (List.replicate 432 false).length ≥ 3 * q) = true by
        apply decide_eq_true
        rw [List.length_append, Scrambler.length_scramble, hrxl, List.length_replicate]; omega]
    simp only [Res.assert_true, Res.bind_ok]
    rw [ed3]
    simp only [Res.bind_ok]
    rw [edp]
    simp only [Res.bind_ok]
    rw [ex]
    simp only [Res.bind_ok]
    have e16 := length_appendCrc type1
    have t1 : (msg ++ (List.replicate 288 false).drop (2 * q)).take (params lchan).type1 = type1 := by
      show (((Crc16.appendCrc type1) ++ [false, false, false, false]) ++ _).take _ = _
      unfold Crc16.appendCrc
      simp only
      rw [List.append_assoc, List.append_assoc, List.take_append_of_le_length (by omega), List.take_of_length_le (by omega)]
    have c1 : Crc16.check (msg ++ (List.replicate 288 false).drop (2 * q)) (params lchan).type1 = true := by
      have := Crc16.c10_accepts type1
      unfold Crc16.check Crc16.ccittBits Crc16.itutBits at this ⊢
      rw [← hlen]
      have e : (msg ++ (List.replicate 288 false).drop (2 * q)).take (type1.length + 16) = (Crc16.appendCrc type1).take (type1.length + 16) := by
        show (((Crc16.appendCrc type1) ++ [false, false, false, false]) ++ _).take _ = _
        rw [List.append_assoc, List.take_append_of_le_length (by omega)]
      rw [e]; exact this
    rw [t1, c1]

/-- **C14, a block passed on as good is intact.** Whatever was received, a block is marked good only if the most likely transmitted
sequence begins with the information bits delivered followed by exactly their CRC. -/
theorem c14_good_means_intact (lchan : Chan) (hc : isCp lchan = true) (rx : List Bool) (sb1 : Bool) (code? : Option (BitVec 32)) (d : List Bool) (ok : Bool)
    (h : decodeCp lchan sb1 rx code? = .ok (some d, ok)) :
    ∃ type2 : List Bool, d = type2.take (params lchan).type1 ∧ (ok = true ↔ type2.take ((params lchan).type1 + 16) = Crc16.appendCrc d) := by
  unfold decodeCp at h
  simp only [hc, Res.assert_true, Res.bind_ok] at h
  split at h
  · cases h
  · rw [Res.bind_eq_ok] at h
    obtain ⟨t4, _, h⟩ := h
    rw [Res.bind_eq_ok] at h
    obtain ⟨t3, _, h⟩ := h
    rw [Res.bind_eq_ok] at h
    obtain ⟨dp, _, h⟩ := h
    rw [Res.bind_eq_ok] at h
    obtain ⟨type2, e2, h⟩ := h
    rw [Res.bind_eq_ok] at h
    obtain ⟨_, _, h⟩ := h
    simp only [Res.pure_eq, Res.ok.injEq, Prod.mk.injEq, Option.some.injEq] at h
    obtain ⟨rfl, rfl⟩ := h
    refine ⟨type2, rfl, ?_⟩
    have hl : (params lchan).type1 + 16 ≤ type2.length := by
      obtain ⟨q, hq, _, e2', e1', _⟩ := params_q lchan hc
      unfold decSb1 at e2
      rw [Res.bind_eq_ok] at e2
      obtain ⟨_, _, e2⟩ := e2
      rw [Res.bind_eq_ok] at e2
      obtain ⟨_, _, e2⟩ := e2
      rw [Res.bind_eq_ok] at e2
      obtain ⟨_, _, e2⟩ := e2
      rw [Res.bind_eq_ok] at e2
      obtain ⟨_, hdec, e2⟩ := e2
      simp only [Res.pure_eq, Res.ok.injEq] at e2
      rw [← e2, List.length_append, List.length_take]
      have hge : (decode cchPolys ((dp.take ((params lchan).type2 * 4)).map soft)).length ≥ (params lchan).type2 := by
        by_contra hn
        rw [decide_eq_false hn] at hdec
        cases hdec
      omega
    have ht : (type2.take ((params lchan).type1 + 16)).take (params lchan).type1 = type2.take (params lchan).type1 := by
      rw [List.take_take]; congr 1; omega
    have hck : Crc16.check type2 (params lchan).type1 = Crc16.check (type2.take ((params lchan).type1 + 16)) (params lchan).type1 := by
      unfold Crc16.check Crc16.ccittBits Crc16.itutBits
      rw [List.take_take, Nat.min_self]
    rw [hck]
    constructor
    · intro hok
      have := Crc16.c10_accepts_only _ _ (by rw [List.length_take]; omega) hok
      rwa [ht] at this
    · intro he
      rw [he]
      have := Crc16.c10_accepts (type2.take (params lchan).type1)
      rwa [List.length_take, Nat.min_eq_left (by omega)] at this

/-- **C14, no code yet.** Before the cell's scrambling code is known a block other than the synchronisation block gives
nothing, and is not reported as correct. -/
theorem c14_needs_code (lchan : Chan) (hc : isCp lchan = true) (rx : List Bool) : decodeCp lchan false rx none = .ok (none, false) := by
  simp [decodeCp, hc]

/-- Non-vacuity: all six channels are covered. -/
example : [Chan.bsch, .schHd, .stch, .bnch, .schF, .schHu].map (fun c => (isCp c, (params c).type1, (params c).type345)) =
    [(true, 60, 120), (true, 124, 216), (true, 124, 216), (true, 124, 216), (true, 268, 432), (true, 92, 168)] := by decide

end Verif.ErrorControl
