import Verif.Phy.BurstProps
/-!
# C65: every slot of the scheduler is heard as it was scheduled
-/
namespace Verif.Phy
open Verif.ErrorControl
open Verif.Umac (DlSlot TmvReq Blk SchedEv TickOut CellCfg Built Proper Shape)
open Verif.Tdma

/-! ## Distances -/

theorem hamming_self (a : List Bool) : hamming a a = 0 := by
  induction a with
  | nil => rfl
  | cons x l ih => simp [hamming, ih]

theorem hamming_tri : ∀ (a b c : List Bool), a.length = b.length → b.length = c.length → hamming a c ≤ hamming a b + hamming b c
  | [], [], [], _, _ => by simp [hamming]
  | x :: a, y :: b, z :: c, h1, h2 => by
    have := hamming_tri a b c (by simpa using h1) (by simpa using h2)
    simp only [hamming]
    cases x <;> cases y <;> cases z <;> simp <;> omega
  | [], _ :: _, _, h, _ => by simp at h
  | _ :: _, [], _, h, _ => by simp at h
  | _ :: _, _ :: _, [], _, h => by simp at h
  | [], [], _ :: _, _, h => by simp at h

theorem hamming_comm : ∀ (a b : List Bool), hamming a b = hamming b a
  | x :: a, y :: b => by simp only [hamming, hamming_comm a b, eq_comm]
  | [], [] => rfl
  | [], _ :: _ => rfl
  | _ :: _, [] => rfl

theorem hamming_append : ∀ (a b c d : List Bool), a.length = b.length → hamming (a ++ c) (b ++ d) = hamming a b + hamming c d
  | [], [], c, d, _ => by simp [hamming]
  | x :: a, y :: b, c, d, h => by
    have := hamming_append a b c d (by simpa using h)
    simp only [List.cons_append, hamming, this]; omega
  | [], _ :: _, _, _, h => by simp at h
  | _ :: _, [], _, _, h => by simp at h

theorem hamming_drop_le (a b : List Bool) (n : Nat) (h : a.length = b.length) : hamming (a.drop n) (b.drop n) ≤ hamming a b := by
  have := hamming_append (a.take n) (b.take n) (a.drop n) (b.drop n) (by simp [h])
  simp only [List.take_append_drop] at this
  omega

theorem hamming_take_le (a b : List Bool) (n : Nat) (h : a.length = b.length) : hamming (a.take n) (b.take n) ≤ hamming a b := by
  have := hamming_append (a.take n) (b.take n) (a.drop n) (b.drop n) (by simp [h])
  simp only [List.take_append_drop] at this
  omega

theorem hamming_le_one : ∀ {rx t : List Bool}, AtMostOneError rx t → hamming rx t ≤ 1
  | [], [], _ => by simp [hamming]
  | x :: rx, y :: t, ⟨hl, p, h⟩ => by
    have hl' : rx.length = t.length := by simpa using hl
    cases p with
    | zero =>
      have e : rx = t := List.ext_getElem? fun i => by simpa using h (i + 1) (by omega)
      subst e
      simp only [hamming, hamming_self]; split <;> omega
    | succ p =>
      have e : x = y := by simpa using h 0 (by omega)
      have := hamming_le_one (rx := rx) (t := t) ⟨hl', p, fun i hi => by simpa using h (i + 1) (by omega)⟩
      simp only [hamming, e, if_true]; omega
  | [], _ :: _, ⟨h, _⟩ => by simp at h
  | _ :: _, [], ⟨h, _⟩ => by simp at h

/-! ## Finding the burst in a slot -/

theorem check_aligned (rx seq : List Bool) (o : Nat) (hl : rx.length = 510) (h1 : 1 < seq.length) (ho : o + seq.length ≤ 510) :
    checkSequence rx o 510 seq 1 = .ok (if hamming (field rx o seq.length) seq ≤ 1 then some 0 else none) := by
  unfold checkSequence
  rw [if_neg (by omega), hl, Nat.sub_self, Nat.zero_add]
  change Res.ok (if (findSequence (field rx o seq.length) seq).2 ≤ 1 then some (findSequence (field rx o seq.length) seq).1 else none) = _
  have hf : (field rx o seq.length).length = seq.length := by simp [field]; omega
  have e : evenPositions seq.length seq.length = [0] := by simp [evenPositions]
  have hfs : findSequence (field rx o seq.length) seq = [0].foldl (findStep (field rx o seq.length) seq) (0, seq.length) := by
    unfold findSequence
    rw [if_neg (show ¬ (field rx o seq.length).length < seq.length by omega), hf, e]
  rw [hfs]
  simp only [List.foldl_cons, List.foldl_nil, findStep, List.drop_zero]
  rw [show (field rx o seq.length).take seq.length = field rx o seq.length from List.take_of_length_le (by omega)]
  by_cases hd : hamming (field rx o seq.length) seq ≤ 1
  · rw [if_pos (show hamming (field rx o seq.length) seq < seq.length by omega)]
  · rw [if_neg hd]
    split
    · simp <;> omega
    · simp <;> omega

theorem field_length {b : List Bool} {o n : Nat} (h : o + n ≤ b.length) : (field b o n).length = n := by simp [field]; omega

theorem found_sync {rx : List Bool} (hl : rx.length = 510) (h : hamming (field rx 214 38) seqY ≤ 1) :
    findDl rx = .ok (some ⟨.sync, rx⟩) := by
  unfold findDl
  have := check_aligned rx seqY 214 hl (by decide) (by decide)
  rw [this]
  have hy : seqY.length = 38 := by decide
  rw [hy, if_pos h]
  simp [burstAt, List.take_of_length_le (Nat.le_of_eq hl)]

/-- A normal burst is not taken for a synchronisation burst. -/
theorem not_sync {rx t : List Bool} (hl : rx.length = 510) (ht : t = seqN ∨ t = seqP) (h : hamming (field rx 244 22) t ≤ 1) :
    ¬ hamming (field rx 214 38) seqY ≤ 1 := by
  intro hc
  have l8 : (field rx 244 8).length = 8 := field_length (by omega)
  have e1 : (field rx 214 38).drop 30 = field rx 244 8 := by simp [field, List.drop_take, List.drop_drop]
  have e2 : (field rx 244 22).take 8 = field rx 244 8 := by simp [field, List.take_take]
  have d1 := hamming_drop_le (field rx 214 38) seqY 30 (by rw [field_length (by omega)]; decide)
  have d2 := hamming_take_le (field rx 244 22) t 8 (by rw [field_length (by omega)]; rcases ht with rfl | rfl <;> decide)
  rw [e1] at d1; rw [e2] at d2
  have hy8 : (seqY.drop 30).length = 8 := by decide
  have ht8 : (t.take 8).length = 8 := by rcases ht with rfl | rfl <;> decide
  have tri := hamming_tri (t.take 8) (field rx 244 8) (seqY.drop 30) (by omega) (by omega)
  rw [hamming_comm (t.take 8) (field rx 244 8)] at tri
  have : 4 ≤ hamming (t.take 8) (seqY.drop 30) := by rcases ht with rfl | rfl <;> decide
  omega

theorem found_norm1 {rx : List Bool} (hl : rx.length = 510) (h : hamming (field rx 244 22) seqN ≤ 1) :
    findDl rx = .ok (some ⟨.norm1, rx⟩) := by
  unfold findDl
  rw [check_aligned rx seqY 214 hl (by decide) (by decide), check_aligned rx seqN 244 hl (by decide) (by decide)]
  have hy : seqY.length = 38 := by decide
  have hn : seqN.length = 22 := by decide
  rw [hy, if_neg (not_sync hl (.inl rfl) h), hn, if_pos h]
  simp [burstAt, List.take_of_length_le (Nat.le_of_eq hl)]

theorem found_norm2 {rx : List Bool} (hl : rx.length = 510) (h : hamming (field rx 244 22) seqP ≤ 1) :
    findDl rx = .ok (some ⟨.norm2, rx⟩) := by
  unfold findDl
  rw [check_aligned rx seqY 214 hl (by decide) (by decide), check_aligned rx seqN 244 hl (by decide) (by decide),
    check_aligned rx seqP 244 hl (by decide) (by decide)]
  have hy : seqY.length = 38 := by decide
  have hn : seqN.length = 22 := by decide
  have hp : seqP.length = 22 := by decide
  have hne : ¬ hamming (field rx 244 22) seqN ≤ 1 := by
    intro hc
    have := hamming_tri seqN (field rx 244 22) seqP (by rw [field_length (by omega)]; rfl) (by rw [field_length (by omega)]; rfl)
    rw [hamming_comm seqN (field rx 244 22)] at this
    have : 11 ≤ hamming seqN seqP := by decide
    omega
  rw [hy, if_neg (not_sync hl (.inr rfl) h), hn, if_neg hne, hp, if_pos h]
  simp [burstAt, List.take_of_length_le (Nat.le_of_eq hl)]

/-! ## Coding -/

theorem aach_code (x : List Bool) (code : BitVec 32) (h : x.length = 14) :
    ∃ t, Rm3014.encodeAach x code = .ok t ∧ t.length = 30 ∧ ∀ rx, AtMostOneError rx t → Rm3014.decodeAach rx code = .ok x := by
  obtain ⟨t, e, l, d0, d1⟩ := Rm3014.c13_aach_roundtrip x code h
  refine ⟨t, e, l, fun rx ⟨hl, p, hp⟩ => ?_⟩
  by_cases hlt : p < 30
  · by_cases hs : rx[p]? = t[p]?
    · have : rx = t := List.ext_getElem? fun i => by
        by_cases hi : i = p
        · rw [hi]; exact hs
        · exact hp i hi
      rw [this]; exact d0
    · obtain ⟨b, hb⟩ : ∃ b, t[p]? = some b := ⟨t[p], by rw [List.getElem?_eq_getElem]⟩
      have : rx = t.set p (!b) := List.ext_getElem? fun i => by
        by_cases hi : i = p
        · subst hi
          have hr : rx[i]? = some (rx[i]'(by omega)) := List.getElem?_eq_getElem _
          rw [hr, hb] at hs
          rw [hr, List.getElem?_set_self (by omega)]
          cases b <;> simp_all
        · rw [List.getElem?_set_ne (Ne.symm hi)]; exact hp i hi
      rw [this]; exact d1 p b hlt hb
  · have : rx = t := List.ext_getElem? fun i => by
      by_cases hi : i = p
      · subst hi; rw [List.getElem?_eq_none (by omega), List.getElem?_eq_none (by omega)]
      · exact hp i hi
    rw [this]; exact d0

theorem whole_length (b : Blk) (h : b.bits.length ≤ b.cap) : (whole b).length = b.cap := by simp [whole]; omega

theorem codeBlock_cp (r : TmvReq) (num : Nat) (hc : r.chan ≠ .tchS) (ha : r.chan ≠ .aach) (hb : r.blk.bits.length ≤ r.blk.cap)
    (hcap : r.blk.cap = (Interleaver.params (codeChan r.chan)).type1) :
    ∃ t, codeBlock r num = .ok t ∧ t.length = (Interleaver.params (codeChan r.chan)).type345 ∧
      ∀ rx sb1 code?, AtMostOneError rx t → (if sb1 then some Scrambler.scrambInit else code?) = some (BitVec.ofNat 32 r.scramb) →
        decodeCp (codeChan r.chan) sb1 rx code? = .ok (some (whole r.blk), true) := by
  obtain ⟨t, e, l, d⟩ := c14_roundtrip (codeChan r.chan) (by cases hh : r.chan <;> simp_all [codeChan, Interleaver.isCp]) (whole r.blk)
    (by rw [whole_length _ hb, hcap]) (BitVec.ofNat 32 r.scramb)
  exact ⟨t, by rw [codeBlock, if_neg hc]; exact e, l, d⟩

/-! ## Specification: what a mobile hears -/

/-- The broadcast block of a normal burst. -/
def bbkOf (b : List Bool) : List Bool := field b 230 14 ++ field b 266 16

/-- The full-slot block of a normal burst. -/
def fullOf (b : List Bool) : List Bool := field b 14 216 ++ field b 282 216

/-- A synchronisation burst `b` arrives as `rx`, with at most one wrong bit in each of its fields. -/
structure SyncNear (rx b : List Bool) : Prop where
  len : rx.length = 510
  sb1 : AtMostOneError (field rx 94 120) (field b 94 120)
  train : AtMostOneError (field rx 214 38) (field b 214 38)
  bbk : AtMostOneError (field rx 252 30) (field b 252 30)
  blk2 : AtMostOneError (field rx 282 216) (field b 282 216)

/-- The same for a normal burst with two blocks. -/
structure HalfNear (rx b : List Bool) : Prop where
  len : rx.length = 510
  blk1 : AtMostOneError (field rx 14 216) (field b 14 216)
  train : AtMostOneError (field rx 244 22) (field b 244 22)
  bbk : AtMostOneError (bbkOf rx) (bbkOf b)
  blk2 : AtMostOneError (field rx 282 216) (field b 282 216)

/-- The same for a normal burst with one block. -/
structure FullNear (rx b : List Bool) : Prop where
  len : rx.length = 510
  blk : AtMostOneError (fullOf rx) (fullOf b)
  train : AtMostOneError (field rx 244 22) (field b 244 22)
  bbk : AtMostOneError (bbkOf rx) (bbkOf b)

/-! ## The five kinds of slots -/

theorem send_sync (y : DlSlot) (r : TmvReq) (h1 : y.blk1.chan = .bsch) (c1 : y.blk1.blk.cap = 60) (hb1 : y.blk1.blk.bits.length ≤ y.blk1.blk.cap)
    (h2 : y.blk2 = some r) (h3 : r.chan = .bnch) (c2 : r.blk.cap = 124) (hb2 : r.blk.bits.length ≤ r.blk.cap)
    (ha : (whole y.bbk.blk).length = 14) (hs : y.blk1.scramb = 3) :
    ∃ b, sendSlot y = .ok b ∧ b.length = 510 ∧ HalfRight b 216 ∧ ∀ rx, SyncNear rx b →
      findDl rx = .ok (some ⟨.sync, rx⟩) ∧
      decodeCp .bsch true (field rx 94 120) none = .ok (some (whole y.blk1.blk), true) ∧
      Rm3014.decodeAach (field rx 252 30) (BitVec.ofNat 32 y.bbk.scramb) = .ok (whole y.bbk.blk) ∧
      decodeCp .bnch false (field rx 282 216) (some (BitVec.ofNat 32 r.scramb)) = .ok (some (whole r.blk), true) := by
  obtain ⟨ta, ea, la, da⟩ := aach_code (whole y.bbk.blk) (BitVec.ofNat 32 y.bbk.scramb) ha
  obtain ⟨t1, e1, l1, d1⟩ := codeBlock_cp y.blk1 1 (by simp [h1]) (by simp [h1]) hb1 (by simp [h1, codeChan, Interleaver.params, c1])
  obtain ⟨t2, e2, l2, d2⟩ := codeBlock_cp r 2 (by simp [h3]) (by simp [h3]) hb2 (by simp [h3, codeChan, Interleaver.params, c2])
  simp only [h1, codeChan, Interleaver.params] at l1 d1
  simp only [h3, codeChan, Interleaver.params] at l2 d2
  obtain ⟨b, eb, L, hr⟩ := buildSdb_spec t1 ta t2 l1 la l2
  refine ⟨b, ?_, L.len, hr, fun rx N => ⟨?_, ?_, ?_, ?_⟩⟩
  · have el : lmacSlot y = .ok ⟨.sync, ta, t1, some t2⟩ := by
      simp [lmacSlot, h1, burstKind, h2, ea, e1, e2]
    simp only [sendSlot, el, Res.bind_ok, phySlot, takeBits, la, l1, l2, Nat.le_refl, if_true]
    rw [List.take_of_length_le (Nat.le_of_eq l1), List.take_of_length_le (Nat.le_of_eq la), List.take_of_length_le (Nat.le_of_eq l2)]
    exact eb
  · have := N.train; rw [L.train] at this
    exact found_sync N.len (hamming_le_one this)
  · have := N.sb1; rw [L.sb1] at this
    exact d1 _ true none this (by rw [hs]; rfl)
  · have := N.bbk; rw [L.bbk] at this
    exact da _ this
  · have := N.blk2; rw [L.blk2] at this
    exact d2 _ false _ this (by simp)

theorem send_half (y : DlSlot) (r : TmvReq) (h1 : y.blk1.chan = .schHd) (c1 : y.blk1.blk.cap = 124) (hb1 : y.blk1.blk.bits.length ≤ y.blk1.blk.cap)
    (h2 : y.blk2 = some r) (h3 : r.chan = .bnch) (c2 : r.blk.cap = 124) (hb2 : r.blk.bits.length ≤ r.blk.cap)
    (ha : (whole y.bbk.blk).length = 14) :
    ∃ b, sendSlot y = .ok b ∧ b.length = 510 ∧ HalfRight b 244 ∧ ∀ rx, HalfNear rx b →
      findDl rx = .ok (some ⟨.norm2, rx⟩) ∧
      decodeCp .schHd false (field rx 14 216) (some (BitVec.ofNat 32 y.blk1.scramb)) = .ok (some (whole y.blk1.blk), true) ∧
      Rm3014.decodeAach (bbkOf rx) (BitVec.ofNat 32 y.bbk.scramb) = .ok (whole y.bbk.blk) ∧
      decodeCp .bnch false (field rx 282 216) (some (BitVec.ofNat 32 r.scramb)) = .ok (some (whole r.blk), true) := by
  obtain ⟨ta, ea, la, da⟩ := aach_code (whole y.bbk.blk) (BitVec.ofNat 32 y.bbk.scramb) ha
  obtain ⟨t1, e1, l1, d1⟩ := codeBlock_cp y.blk1 1 (by simp [h1]) (by simp [h1]) hb1 (by simp [h1, codeChan, Interleaver.params, c1])
  obtain ⟨t2, e2, l2, d2⟩ := codeBlock_cp r 2 (by simp [h3]) (by simp [h3]) hb2 (by simp [h3, codeChan, Interleaver.params, c2])
  simp only [h1, codeChan, Interleaver.params] at l1 d1
  simp only [h3, codeChan, Interleaver.params] at l2 d2
  obtain ⟨b, eb, L, hr⟩ := buildNdb_spec .norm2 seqP t1 ta t2 (.inr ⟨rfl, rfl⟩) l1 la l2
  refine ⟨b, ?_, L.len, hr, fun rx N => ⟨?_, ?_, ?_, ?_⟩⟩
  · have el : lmacSlot y = .ok ⟨.norm2, ta, t1, some t2⟩ := by
      simp [lmacSlot, h1, burstKind, h2, ea, e1, e2]
    simp only [sendSlot, el, Res.bind_ok, phySlot, takeBits, la, l1, l2, Nat.le_refl, if_true]
    rw [List.take_of_length_le (Nat.le_of_eq l1), List.take_of_length_le (Nat.le_of_eq la), List.take_of_length_le (Nat.le_of_eq l2)]
    exact eb
  · have := N.train; rw [L.train] at this
    exact found_norm2 N.len (hamming_le_one this)
  · have := N.blk1; rw [L.blk1] at this
    exact d1 _ false _ this (by simp)
  · have := N.bbk; rw [show bbkOf b = ta from L.bbk] at this
    exact da _ this
  · have := N.blk2; rw [L.blk2] at this
    exact d2 _ false _ this (by simp)

theorem halves (t : List Bool) (h : t.length = 432) : (t.take 216).length = 216 ∧ ((t.drop 216).take 216).length = 216 ∧
    (t.take 216) ++ (t.drop 216).take 216 = t := by
  refine ⟨by simp [h], by simp [h], ?_⟩
  rw [List.take_of_length_le (l := t.drop 216) (by simp [h]), List.take_append_drop]

theorem phy_full (ta t : List Bool) (la : ta.length = 30) (l : t.length = 432) :
    ∃ b, phySlot ⟨.norm1, ta, t, none⟩ = .ok b ∧ NdbLayout b seqN (t.take 216) ta ((t.drop 216).take 216) ∧ HalfRight b 244 ∧ fullOf b = t := by
  obtain ⟨k1, k2, k3⟩ := halves t l
  obtain ⟨b, eb, L, hr⟩ := buildNdb_spec .norm1 seqN (t.take 216) ta ((t.drop 216).take 216) (.inl ⟨rfl, rfl⟩) k1 la k2
  refine ⟨b, ?_, L, hr, by rw [fullOf, L.blk1, L.blk2, k3]⟩
  have hd : 216 ≤ (t.drop 216).length := by simp [l]
  simp only [phySlot, takeBits, la, l, Nat.le_refl, if_true, Res.bind_ok, if_pos hd, show (216 : Nat) ≤ 432 by decide]
  rw [List.take_of_length_le (Nat.le_of_eq la)]
  exact eb

theorem send_full (y : DlSlot) (h1 : y.blk1.chan = .schF) (c1 : y.blk1.blk.cap = 268) (hb1 : y.blk1.blk.bits.length ≤ y.blk1.blk.cap)
    (h2 : y.blk2 = none) (ha : (whole y.bbk.blk).length = 14) :
    ∃ b, sendSlot y = .ok b ∧ b.length = 510 ∧ HalfRight b 244 ∧ ∀ rx, FullNear rx b →
      findDl rx = .ok (some ⟨.norm1, rx⟩) ∧
      decodeCp .schF false (fullOf rx) (some (BitVec.ofNat 32 y.blk1.scramb)) = .ok (some (whole y.blk1.blk), true) ∧
      Rm3014.decodeAach (bbkOf rx) (BitVec.ofNat 32 y.bbk.scramb) = .ok (whole y.bbk.blk) := by
  obtain ⟨ta, ea, la, da⟩ := aach_code (whole y.bbk.blk) (BitVec.ofNat 32 y.bbk.scramb) ha
  obtain ⟨t1, e1, l1, d1⟩ := codeBlock_cp y.blk1 1 (by simp [h1]) (by simp [h1]) hb1 (by simp [h1, codeChan, Interleaver.params, c1])
  simp only [h1, codeChan, Interleaver.params] at l1 d1
  obtain ⟨b, eb, L, hr, hf⟩ := phy_full ta t1 la l1
  refine ⟨b, ?_, L.len, hr, fun rx N => ⟨?_, ?_, ?_⟩⟩
  · have el : lmacSlot y = .ok ⟨.norm1, ta, t1, none⟩ := by
      simp [lmacSlot, h1, burstKind, h2, ea, e1]
    simp only [sendSlot, el, Res.bind_ok, eb]
  · have := N.train; rw [L.train] at this
    exact found_norm1 N.len (hamming_le_one this)
  · have := N.blk; rw [hf] at this
    exact d1 _ false _ this (by simp)
  · have := N.bbk; rw [show bbkOf b = ta from L.bbk] at this
    exact da _ this

theorem send_voice (y : DlSlot) (h1 : y.blk1.chan = .tchS) (c1 : y.blk1.blk.cap = 274) (hb1 : y.blk1.blk.bits.length ≤ y.blk1.blk.cap)
    (h2 : y.blk2 = none) (ha : (whole y.bbk.blk).length = 14) :
    ∃ b, sendSlot y = .ok b ∧ b.length = 510 ∧ HalfRight b 244 ∧
      decodeTp (fullOf b) (BitVec.ofNat 32 y.blk1.scramb) = .ok (whole y.blk1.blk, true) ∧ ∀ rx, FullNear rx b →
      findDl rx = .ok (some ⟨.norm1, rx⟩) ∧
      (∃ out chIn chOut, decodeTp (fullOf rx) (BitVec.ofNat 32 y.blk1.scramb) = .ok (out, true) ∧
        Interleaver.codecToChannel (whole y.blk1.blk) = .ok chIn ∧ Interleaver.codecToChannel out = .ok chOut ∧
        chOut.drop 102 = chIn.drop 102 ∧ ∃ p, ∀ i, i < 102 → i ≠ p → chOut[i]? = chIn[i]?) ∧
      Rm3014.decodeAach (bbkOf rx) (BitVec.ofNat 32 y.bbk.scramb) = .ok (whole y.bbk.blk) := by
  obtain ⟨ta, ea, la, da⟩ := aach_code (whole y.bbk.blk) (BitVec.ofNat 32 y.bbk.scramb) ha
  have hw : (whole y.blk1.blk).length = 274 := by rw [whole_length _ hb1, c1]
  obtain ⟨t1, e1, l1, d0⟩ := c15_roundtrip (whole y.blk1.blk) hw (BitVec.ofNat 32 y.blk1.scramb)
  obtain ⟨t1', e1', d1⟩ := c15_protects (whole y.blk1.blk) hw (BitVec.ofNat 32 y.blk1.scramb)
  rw [e1] at e1'; cases e1'
  obtain ⟨b, eb, L, hr, hf⟩ := phy_full ta t1 la l1
  refine ⟨b, ?_, L.len, hr, by rw [hf]; exact d0, fun rx N => ⟨?_, ?_, ?_⟩⟩
  · have el : lmacSlot y = .ok ⟨.norm1, ta, t1, none⟩ := by
      simp [lmacSlot, h1, burstKind, h2, ea, codeBlock, e1]
    simp only [sendSlot, el, Res.bind_ok, eb]
  · have := N.train; rw [L.train] at this
    exact found_norm1 N.len (hamming_le_one this)
  · have := N.blk; rw [hf] at this
    exact d1 _ this
  · have := N.bbk; rw [show bbkOf b = ta from L.bbk] at this
    exact da _ this

theorem send_stolen (y : DlSlot) (r : TmvReq) (h1 : y.blk1.chan = .stch) (c1 : y.blk1.blk.cap = 124) (hb1 : y.blk1.blk.bits.length ≤ y.blk1.blk.cap)
    (h2 : y.blk2 = some r) (h3 : r.chan = .tchS) (c2 : r.blk.cap = 274) (hb2 : r.blk.bits.length ≤ r.blk.cap)
    (ha : (whole y.bbk.blk).length = 14) :
    ∃ b t, sendSlot y = .ok b ∧ b.length = 510 ∧ HalfRight b 244 ∧
      encodeTp (whole r.blk) (BitVec.ofNat 32 r.scramb) 1 = .ok t ∧ field b 282 216 = t.drop 216 ∧ ∀ rx, HalfNear rx b →
      findDl rx = .ok (some ⟨.norm2, rx⟩) ∧
      decodeCp .stch false (field rx 14 216) (some (BitVec.ofNat 32 y.blk1.scramb)) = .ok (some (whole y.blk1.blk), true) ∧
      Rm3014.decodeAach (bbkOf rx) (BitVec.ofNat 32 y.bbk.scramb) = .ok (whole y.bbk.blk) := by
  obtain ⟨ta, ea, la, da⟩ := aach_code (whole y.bbk.blk) (BitVec.ofNat 32 y.bbk.scramb) ha
  obtain ⟨t1, e1, l1, d1⟩ := codeBlock_cp y.blk1 1 (by simp [h1]) (by simp [h1]) hb1 (by simp [h1, codeChan, Interleaver.params, c1])
  simp only [h1, codeChan, Interleaver.params] at l1 d1
  have hw : (whole r.blk).length = 274 := by rw [whole_length _ hb2, c2]
  obtain ⟨t, e2, l2, _⟩ := c15_roundtrip (whole r.blk) hw (BitVec.ofNat 32 r.scramb)
  obtain ⟨t', e2', e3⟩ := c15_half_slot (whole r.blk) hw (BitVec.ofNat 32 r.scramb)
  rw [e2] at e2'; cases e2'
  have l3 : (t.drop 216).length = 216 := by simp [l2]
  obtain ⟨b, eb, L, hr⟩ := buildNdb_spec .norm2 seqP t1 ta (t.drop 216) (.inr ⟨rfl, rfl⟩) l1 la l3
  refine ⟨b, t, ?_, L.len, hr, e2, L.blk2, fun rx N => ⟨?_, ?_, ?_⟩⟩
  · have el : lmacSlot y = .ok ⟨.norm2, ta, t1, some (t.drop 216)⟩ := by
      have e3' : codeBlock r 2 = .ok (t.drop 216) := by rw [codeBlock, if_pos h3]; exact e3
      simp [lmacSlot, h1, burstKind, h2, ea, e1, e3']
    simp only [sendSlot, el, Res.bind_ok, phySlot, takeBits, la, l1, l3, Nat.le_refl, if_true]
    rw [List.take_of_length_le (Nat.le_of_eq l1), List.take_of_length_le (Nat.le_of_eq la), List.take_of_length_le (Nat.le_of_eq l3)]
    exact eb
  · have := N.train; rw [L.train] at this
    exact found_norm2 N.len (hamming_le_one this)
  · have := N.blk1; rw [L.blk1] at this
    exact d1 _ false _ this (by simp)
  · have := N.bbk; rw [show bbkOf b = ta from L.bbk] at this
    exact da _ this

/-! ## C65 -/

theorem shape_facts {cfg : CellCfg} (hcfg : cfg.InRange) {scramb : Nat} {x : Time} (hx : x.valid) {es : List SchedEv}
    (hp : Proper es) {y : TickOut} (h : Built cfg scramb x es y) :
    Shape y.slot ∧ y.slot.blk1.blk.bits.length ≤ y.slot.blk1.blk.cap ∧
    (∀ r, y.slot.blk2 = some r → r.blk.bits.length ≤ r.blk.cap ∧ r.scramb = scramb) ∧
    (y.slot.blk1.chan = .bsch → y.slot.blk1.scramb = 3) ∧ (y.slot.blk1.chan ≠ .bsch → y.slot.blk1.scramb = scramb) ∧
    y.slot.bbk.scramb = scramb ∧ whole y.slot.bbk.blk = y.slot.bbk.blk.bits ∧ (whole y.slot.bbk.blk).length = 14 := by
  obtain ⟨a1, a2, a3, a4, a5, a6, a7, a8, a9⟩ := Umac.c44_shape cfg hcfg scramb x hx es hp y h
  have hw : whole y.slot.bbk.blk = y.slot.bbk.blk.bits := by simp [whole, a8, a9]
  exact ⟨a1, a2, a3, a4, a5, a7, hw, by rw [hw, a8]⟩

/-- **C65, the sequences.** The training sequences are those of EN 300 392-2 clauses 9.4.4.3.2 to 9.4.4.3.4, and no normal sequence
can be taken for another: any two differ in at least ten bits. -/
theorem c65_sequences : seqN = Bits.toBits 22 0b1101000011101001110100 ∧ seqP = Bits.toBits 22 0b0111101001000011011110 ∧
    seqQ = Bits.toBits 22 0b1011011100000110101101 ∧ seqX = Bits.toBits 30 0b100111010000111010011101000011 ∧
    seqY = Bits.toBits 38 0b11000001100111001110100111000001100111 ∧
    10 ≤ hamming seqN seqP ∧ 10 ≤ hamming seqN seqQ ∧ 10 ≤ hamming seqP seqQ := by decide +kernel

/-- **C65, filling up.** A block on the air is what was scheduled, followed by zeros only, as long as the block of the channel. -/
theorem c65_fill (b : Blk) (h : b.bits.length ≤ b.cap) : (whole b).length = b.cap ∧ b.bits <+: whole b ∧
    ∀ i, b.bits.length ≤ i → i < b.cap → (whole b)[i]? = some false := by
  refine ⟨whole_length b h, List.prefix_append _ _, fun i h1 h2 => ?_⟩
  rw [whole, List.getElem?_append_right h1, List.getElem?_replicate]
  rw [if_pos (by omega)]

/-- **C65, every slot is sent.** After every history of the scheduler the lower MAC and the physical layer accept the slot
and hand 510 bits to the radio. -/
theorem c65_sent (cfg : CellCfg) (hcfg : cfg.InRange) (scramb : Nat) (x : Time) (hx : x.valid) (es : List SchedEv) (hp : Proper es)
    (y : TickOut) (h : Built cfg scramb x es y) : ∃ b, sendSlot y.slot = .ok b ∧ b.length = 510 := by
  obtain ⟨hs, b1, b2, s3, s4, sa, hw, ha⟩ := shape_facts hcfg hx hp h
  cases hs with
  | traffic h1 c1 h2 => obtain ⟨b, e, l, _⟩ := send_voice y.slot h1 c1 b1 h2 ha; exact ⟨b, e, l⟩
  | stolen r h1 c1 h2 h3 c2 => obtain ⟨b, _, e, l, _⟩ := send_stolen y.slot r h1 c1.1 b1 h2 h3 c2 (b2 r h2).1 ha; exact ⟨b, e, l⟩
  | full h1 c1 h2 => obtain ⟨b, e, l, _⟩ := send_full y.slot h1 c1 b1 h2 ha; exact ⟨b, e, l⟩
  | half r h1 c1 h2 h3 c2 => obtain ⟨b, e, l, _⟩ := send_half y.slot r h1 c1 b1 h2 h3 c2 (b2 r h2).1 ha; exact ⟨b, e, l⟩
  | sync r h1 c1 h2 h3 c2 => obtain ⟨b, e, l, _⟩ := send_sync y.slot r h1 c1 b1 h2 h3 c2 (b2 r h2).1 ha (s3 h1); exact ⟨b, e, l⟩

/-- **C65, synchronisation slots.** A mobile which knows nothing of the cell finds the burst, reads the synchronisation block,
and with the scrambling code of the cell the access assignment and the network broadcast, each exactly as scheduled. -/
theorem c65_sync (cfg : CellCfg) (hcfg : cfg.InRange) (scramb : Nat) (x : Time) (hx : x.valid) (es : List SchedEv) (hp : Proper es)
    (y : TickOut) (h : Built cfg scramb x es y) (hc : y.slot.blk1.chan = .bsch) (b : List Bool) (hb : sendSlot y.slot = .ok b)
    (rx : List Bool) (N : SyncNear rx b) :
    findDl rx = .ok (some ⟨.sync, rx⟩) ∧
    decodeCp .bsch true (field rx 94 120) none = .ok (some (whole y.slot.blk1.blk), true) ∧
    Rm3014.decodeAach (field rx 252 30) (BitVec.ofNat 32 scramb) = .ok y.slot.bbk.blk.bits ∧
    ∃ r, y.slot.blk2 = some r ∧
      decodeCp .bnch false (field rx 282 216) (some (BitVec.ofNat 32 scramb)) = .ok (some (whole r.blk), true) := by
  obtain ⟨hs, b1, b2, s3, s4, sa, hw, ha⟩ := shape_facts hcfg hx hp h
  cases hs with
  | traffic h1 => rw [h1] at hc; cases hc
  | stolen _ h1 => rw [h1] at hc; cases hc
  | full h1 => rw [h1] at hc; cases hc
  | half _ h1 => rw [h1] at hc; cases hc
  | sync r h1 c1 h2 h3 c2 =>
    obtain ⟨b', e, l, _, f⟩ := send_sync y.slot r h1 c1 b1 h2 h3 c2 (b2 r h2).1 ha (s3 h1)
    rw [e] at hb; cases hb
    obtain ⟨f1, f2, f3, f4⟩ := f rx N
    rw [sa, hw] at f3; rw [(b2 r h2).2] at f4
    exact ⟨f1, f2, f3, r, h2, f4⟩

/-- **C65, slots with two signalling blocks.** -/
theorem c65_half (cfg : CellCfg) (hcfg : cfg.InRange) (scramb : Nat) (x : Time) (hx : x.valid) (es : List SchedEv) (hp : Proper es)
    (y : TickOut) (h : Built cfg scramb x es y) (hc : y.slot.blk1.chan = .schHd) (b : List Bool) (hb : sendSlot y.slot = .ok b)
    (rx : List Bool) (N : HalfNear rx b) :
    findDl rx = .ok (some ⟨.norm2, rx⟩) ∧
    decodeCp .schHd false (field rx 14 216) (some (BitVec.ofNat 32 scramb)) = .ok (some (whole y.slot.blk1.blk), true) ∧
    Rm3014.decodeAach (bbkOf rx) (BitVec.ofNat 32 scramb) = .ok y.slot.bbk.blk.bits ∧
    ∃ r, y.slot.blk2 = some r ∧
      decodeCp .bnch false (field rx 282 216) (some (BitVec.ofNat 32 scramb)) = .ok (some (whole r.blk), true) := by
  obtain ⟨hs, b1, b2, s3, s4, sa, hw, ha⟩ := shape_facts hcfg hx hp h
  cases hs with
  | traffic h1 => rw [h1] at hc; cases hc
  | stolen _ h1 => rw [h1] at hc; cases hc
  | full h1 => rw [h1] at hc; cases hc
  | sync _ h1 => rw [h1] at hc; cases hc
  | half r h1 c1 h2 h3 c2 =>
    obtain ⟨b', e, l, _, f⟩ := send_half y.slot r h1 c1 b1 h2 h3 c2 (b2 r h2).1 ha
    rw [e] at hb; cases hb
    obtain ⟨f1, f2, f3, f4⟩ := f rx N
    rw [sa, hw] at f3; rw [(b2 r h2).2] at f4; rw [s4 (by rw [h1]; simp)] at f2
    exact ⟨f1, f2, f3, r, h2, f4⟩

/-- **C65, full slots of signalling.** -/
theorem c65_full (cfg : CellCfg) (hcfg : cfg.InRange) (scramb : Nat) (x : Time) (hx : x.valid) (es : List SchedEv) (hp : Proper es)
    (y : TickOut) (h : Built cfg scramb x es y) (hc : y.slot.blk1.chan = .schF) (b : List Bool) (hb : sendSlot y.slot = .ok b)
    (rx : List Bool) (N : FullNear rx b) :
    findDl rx = .ok (some ⟨.norm1, rx⟩) ∧
    decodeCp .schF false (fullOf rx) (some (BitVec.ofNat 32 scramb)) = .ok (some (whole y.slot.blk1.blk), true) ∧
    Rm3014.decodeAach (bbkOf rx) (BitVec.ofNat 32 scramb) = .ok y.slot.bbk.blk.bits := by
  obtain ⟨hs, b1, b2, s3, s4, sa, hw, ha⟩ := shape_facts hcfg hx hp h
  cases hs with
  | traffic h1 => rw [h1] at hc; cases hc
  | stolen _ h1 => rw [h1] at hc; cases hc
  | half _ h1 => rw [h1] at hc; cases hc
  | sync _ h1 => rw [h1] at hc; cases hc
  | full h1 c1 h2 =>
    obtain ⟨b', e, l, _, f⟩ := send_full y.slot h1 c1 b1 h2 ha
    rw [e] at hb; cases hb
    obtain ⟨f1, f2, f3⟩ := f rx N
    rw [sa, hw] at f3; rw [s4 (by rw [h1]; simp)] at f2
    exact ⟨f1, f2, f3⟩

/-- **C65, voice.** Unhurt, the frame is heard as it was scheduled; with one wrong bit it is marked good and only one of the
least sensitive bits may differ. -/
theorem c65_voice (cfg : CellCfg) (hcfg : cfg.InRange) (scramb : Nat) (x : Time) (hx : x.valid) (es : List SchedEv) (hp : Proper es)
    (y : TickOut) (h : Built cfg scramb x es y) (hc : y.slot.blk1.chan = .tchS) (b : List Bool) (hb : sendSlot y.slot = .ok b) :
    decodeTp (fullOf b) (BitVec.ofNat 32 scramb) = .ok (whole y.slot.blk1.blk, true) ∧ ∀ rx, FullNear rx b →
    findDl rx = .ok (some ⟨.norm1, rx⟩) ∧
    (∃ out chIn chOut, decodeTp (fullOf rx) (BitVec.ofNat 32 scramb) = .ok (out, true) ∧
        Interleaver.codecToChannel (whole y.slot.blk1.blk) = .ok chIn ∧ Interleaver.codecToChannel out = .ok chOut ∧
        chOut.drop 102 = chIn.drop 102 ∧ ∃ p, ∀ i, i < 102 → i ≠ p → chOut[i]? = chIn[i]?) ∧
    Rm3014.decodeAach (bbkOf rx) (BitVec.ofNat 32 scramb) = .ok y.slot.bbk.blk.bits := by
  obtain ⟨hs, b1, b2, s3, s4, sa, hw, ha⟩ := shape_facts hcfg hx hp h
  cases hs with
  | full h1 => rw [h1] at hc; cases hc
  | stolen _ h1 => rw [h1] at hc; cases hc
  | half _ h1 => rw [h1] at hc; cases hc
  | sync _ h1 => rw [h1] at hc; cases hc
  | traffic h1 c1 h2 =>
    obtain ⟨b', e, l, _, f0, f⟩ := send_voice y.slot h1 c1 b1 h2 ha
    rw [e] at hb; cases hb
    rw [s4 (by rw [h1]; simp), sa, hw] at f
    rw [s4 (by rw [h1]; simp)] at f0
    exact ⟨f0, f⟩

/-- **C65, stolen half slots.** The signalling block is read exactly; the second half of the slot is the second half of the
coded voice. -/
theorem c65_stolen (cfg : CellCfg) (hcfg : cfg.InRange) (scramb : Nat) (x : Time) (hx : x.valid) (es : List SchedEv) (hp : Proper es)
    (y : TickOut) (h : Built cfg scramb x es y) (hc : y.slot.blk1.chan = .stch) (b : List Bool) (hb : sendSlot y.slot = .ok b) :
    (∃ r t, y.slot.blk2 = some r ∧ encodeTp (whole r.blk) (BitVec.ofNat 32 scramb) 1 = .ok t ∧ field b 282 216 = t.drop 216) ∧
    ∀ rx, HalfNear rx b →
    findDl rx = .ok (some ⟨.norm2, rx⟩) ∧
    decodeCp .stch false (field rx 14 216) (some (BitVec.ofNat 32 scramb)) = .ok (some y.slot.blk1.blk.bits, true) ∧
    Rm3014.decodeAach (bbkOf rx) (BitVec.ofNat 32 scramb) = .ok y.slot.bbk.blk.bits := by
  obtain ⟨hs, b1, b2, s3, s4, sa, hw, ha⟩ := shape_facts hcfg hx hp h
  cases hs with
  | full h1 => rw [h1] at hc; cases hc
  | traffic h1 => rw [h1] at hc; cases hc
  | half _ h1 => rw [h1] at hc; cases hc
  | sync _ h1 => rw [h1] at hc; cases hc
  | stolen r h1 c1 h2 h3 c2 =>
    obtain ⟨b', t, e, l, _, f0, f1, f⟩ := send_stolen y.slot r h1 c1.1 b1 h2 h3 c2 (b2 r h2).1 ha
    rw [e] at hb; cases hb
    have hw1 : whole y.slot.blk1.blk = y.slot.blk1.blk.bits := by simp [whole, c1.1, c1.2]
    rw [s4 (by rw [h1]; simp), sa, hw, hw1] at f
    rw [(b2 r h2).2] at f0
    exact ⟨⟨r, t, h2, f0, f1⟩, f⟩

/-! ## C66 -/

/-- **C66, what holds.** In every slot sent, each phase adjustment symbol is right if the symbols it accounts for turn the
carrier by three eighths of a turn more than a multiple of a half turn, and otherwise it is half a turn off. The windows are
those of the standard: they end after bit 216 (synchronisation burst) or 244 (normal burst), and after bit 500. -/
theorem c66_partial (cfg : CellCfg) (hcfg : cfg.InRange) (scramb : Nat) (x : Time) (hx : x.valid) (es : List SchedEv) (hp : Proper es)
    (y : TickOut) (h : Built cfg scramb x es y) (b : List Bool) (hb : sendSlot y.slot = .ok b) :
    (y.slot.blk1.chan = .bsch → HalfRight b 216) ∧ (y.slot.blk1.chan ≠ .bsch → HalfRight b 244) := by
  obtain ⟨hs, b1, b2, s3, s4, sa, hw, ha⟩ := shape_facts hcfg hx hp h
  cases hs with
  | traffic h1 c1 h2 =>
    obtain ⟨b', e, l, r, _⟩ := send_voice y.slot h1 c1 b1 h2 ha
    rw [e] at hb; cases hb; exact ⟨(fun hc => by rw [h1] at hc; cases hc), fun _ => r⟩
  | stolen r h1 c1 h2 h3 c2 =>
    obtain ⟨b', _, e, l, r, _⟩ := send_stolen y.slot r h1 c1.1 b1 h2 h3 c2 (b2 r h2).1 ha
    rw [e] at hb; cases hb; exact ⟨(fun hc => by rw [h1] at hc; cases hc), fun _ => r⟩
  | full h1 c1 h2 =>
    obtain ⟨b', e, l, r, _⟩ := send_full y.slot h1 c1 b1 h2 ha
    rw [e] at hb; cases hb; exact ⟨(fun hc => by rw [h1] at hc; cases hc), fun _ => r⟩
  | half r h1 c1 h2 h3 c2 =>
    obtain ⟨b', e, l, r, _⟩ := send_half y.slot r h1 c1 b1 h2 h3 c2 (b2 r h2).1 ha
    rw [e] at hb; cases hb; exact ⟨(fun hc => by rw [h1] at hc; cases hc), fun _ => r⟩
  | sync r h1 c1 h2 h3 c2 =>
    obtain ⟨b', e, l, r, _⟩ := send_sync y.slot r h1 c1 b1 h2 h3 c2 (b2 r h2).1 ha (s3 h1)
    rw [e] at hb; cases hb; exact ⟨fun _ => r, fun hc => absurd h1 hc⟩

end Verif.Phy
