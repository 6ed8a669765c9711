import Verif.Llc.Fcs
import Verif.Lmac.Crc
import Verif.Core.BitBufferProps
/-! # C17: the frame check sequence accepts what it should and nothing near it -/
namespace Verif.Fcs
open Verif.BitBuffer Verif.Bits Verif.Crc

/-! ## Specification -/

/-- The checksum of a non-empty bit string: a CRC-32 register, preset to all ones shifted so that only the first bits of a
short string meet them, complemented at the end. -/
def fcs (d : List Bool) : BitVec 32 := ~~~ feed poly (0xFFFFFFFF#32 <<< (32 - d.length)) d

/-- The bits of a checksum, most significant first. -/
def fcsBits (d : List Bool) : List Bool := toBits 32 (fcs d).toNat

/-! ## The code computes it -/

theorem stepBit_eq (crc : BitVec 32) (bit : Bool) : stepBit crc bit.toNat = Crc.step poly crc bit := by
  unfold stepBit Crc.step shift
  have h1 : (crc >>> 31).toNat = crc.msb.toNat := by
    rw [BitVec.toNat_ushiftRight, BitVec.msb_eq_decide]
    have := crc.isLt
    simp only [Nat.shiftRight_eq_div_pow]
    by_cases h : 2 ^ 31 ≤ crc.toNat
    · simp [h]; omega
    · simp [h]; omega
  have h2 : (crc ^^^ top 32 bit).msb = (crc.msb ^^ bit) := by
    rw [BitVec.msb_xor]
    cases bit
    · simp [top]
    · rw [show (top 32 true).msb = true by decide]
  have h3 : (crc ^^^ top 32 bit) <<< 1 = crc <<< 1 := by
    rw [BitVec.shiftLeft_xor_distrib]
    cases bit
    · simp [top]
    · rw [show (top 32 true) <<< 1 = 0#32 by decide]; simp
  simp only [h1, h2, h3]
  cases crc.msb <;> cases bit <;> rfl

theorem peek_spec (b : Buf) (h : Wf b) (o n : Nat) (hn : n ≤ 64) (ho : b.start + o + n ≤ b.end) :
    b.peekStartOffset o n = .ok (some (ofBits (slice b.buffer (b.start + o) n))) := by
  have he := h.end_le
  unfold Buf.peekStartOffset
  rw [if_neg (by omega), readBitsAt_spec _ h.byte _ _ (by omega)]
  rfl

theorem loop_spec (b : Buf) (h : Wf b) (o : Nat) (crc : BitVec 32) (n : Nat) (ho : b.start + o + n ≤ b.end) :
    loop b o crc n = .ok (feed poly crc (slice b.buffer (b.start + o) n)) := by
  induction n generalizing o crc with
  | zero => rfl
  | succ n ih =>
    unfold loop
    rw [peek_spec b h o 1 (by omega) (by omega)]
    simp only [Res.bind_ok]
    rw [ih _ _ (by omega)]
    simp only [slice, feed, List.foldl_cons]
    rw [← Nat.add_assoc]
    congr 2
    rw [show ofBits [bitAt b.buffer (b.start + o)] = (bitAt b.buffer (b.start + o)).toNat by simp [ofBits]]
    exact stepBit_eq _ _

theorem compute_spec (b : Buf) (h : Wf b) (s e : Nat) (hs : s < e) (he : e ≤ b.len) :
    compute b s e = .ok (fcs (slice b.buffer (b.start + s) (e - s))) := by
  have h1 := h.start_le; have h2 := h.pos_le
  unfold Buf.len at he
  unfold compute fcs
  rw [decide_eq_true (Nat.le_of_lt hs), decide_eq_true (show e ≤ b.len from he)]
  simp only [Res.assert_true, Res.bind_ok, length_slice]
  by_cases hl : e - s < 32
  · rw [if_pos hl, if_pos (by omega)]
    simp only [Res.pure_eq, Res.bind_ok]
    rw [loop_spec b h s _ _ (by omega)]
    rfl
  · rw [if_neg hl]
    simp only [Res.pure_eq, Res.bind_ok]
    rw [loop_spec b h s _ _ (by omega), show 32 - (e - s) = 0 by omega]
    simp

/-- What the receiver's check decides, for an unread part of at least 33 bits. -/
theorem check_spec (b : Buf) (h : Wf b) (d f : List Bool) (hd : d ≠ []) (hf : f.length = 32) (hr : b.rest = d ++ f) :
    check b = .ok (decide (f = fcsBits d)) := by
  have h1 := h.start_le; have h2 := h.pos_le
  have hlen : b.end - b.pos = d.length + 32 := by
    have := congrArg List.length hr
    simpa [Buf.rest, hf] using this
  have hdl : 0 < d.length := List.length_pos_iff.2 hd
  unfold check Buf.lenRemaining
  rw [if_neg (by omega), compute_spec b h _ _ (by unfold Buf.len; omega) (by unfold Buf.len; omega)]
  simp only [Res.bind_ok]
  rw [peek_spec b h _ 32 (by omega) (by unfold Buf.len; omega)]
  simp only [Res.bind_ok, Res.pure_eq]
  have e1 : slice b.buffer (b.start + (b.pos - b.start)) (b.len - 32 - (b.pos - b.start)) = d := by
    have := congrArg (List.take d.length) hr
    rw [List.take_left, Buf.rest, slice_take _ _ _ _ (by omega)] at this
    rw [← this]; unfold Buf.len; congr 1 <;> omega
  have e2 : slice b.buffer (b.start + (b.len - 32)) 32 = f := by
    have := congrArg (List.drop d.length) hr
    rw [List.drop_left, Buf.rest, slice_drop _ _ _ _ (by omega)] at this
    rw [← this]; unfold Buf.len; congr 1 <;> omega
  rw [e1, e2]
  congr 1
  have hfl := ofBits_lt f
  rw [hf] at hfl
  apply Bool.eq_iff_iff.2
  rw [beq_iff_eq, decide_eq_true_iff]
  unfold fcsBits
  constructor
  · intro h
    rw [h, BitVec.toNat_ofNat, Nat.mod_eq_of_lt hfl, ← hf, toBits_ofBits]
  · intro h
    apply BitVec.eq_of_toNat_eq
    rw [BitVec.toNat_ofNat, Nat.mod_eq_of_lt hfl, h, ofBits_toBits (BitVec.isLt _)]

/-! ## Properties -/

/-- **C17, acceptance.** Partial: the empty SDU is excluded, see `c17_empty_sdu_aborts`. For every non-empty SDU, at any alignment and in any window, the SDU followed by the checksum the
sender computes over it passes the receiver's check. -/
theorem c17_accepts_partial (sender receiver : Buf) (hs : Wf sender) (hr : Wf receiver) (s e : Nat) (hse : s < e) (he : e ≤ sender.len)
    (c : BitVec 32) (hc : compute sender s e = .ok c)
    (hrest : receiver.rest = slice sender.buffer (sender.start + s) (e - s) ++ toBits 32 c.toNat) :
    check receiver = .ok true := by
  rw [compute_spec sender hs s e hse he] at hc
  cases hc
  rw [check_spec receiver hr _ _ (by intro h; have := congrArg List.length h; simp at this; omega) (by simp) hrest]
  exact congrArg Res.ok (decide_eq_true rfl)

theorem feed_diff (init : BitVec 32) (d e : List Bool) (h : e.length = d.length) :
    feed poly init (List.zipWith xor d e) = feed poly init d ^^^ feed poly 0#32 e := by
  have := feed_xor poly d e h.symm init 0#32
  rwa [BitVec.xor_zero] at this

theorem toBits_xor (a b : BitVec 32) : toBits 32 (a ^^^ b).toNat = List.zipWith xor (toBits 32 a.toNat) (toBits 32 b.toNat) := by
  apply List.ext_getElem (by simp)
  intro i h1 h2
  rw [getElem_toBits, List.getElem_zipWith, getElem_toBits, getElem_toBits, BitVec.toNat_xor, Nat.testBit_xor]

theorem zip_self_inj (x a b : List Bool) (ha : a.length = x.length) (hb : b.length = x.length)
    (h : List.zipWith xor x a = List.zipWith xor x b) : a = b := by
  apply List.ext_getElem (by omega)
  intro i h1 h2
  have : (List.zipWith xor x a)[i]? = (List.zipWith xor x b)[i]? := by rw [h]
  rw [List.getElem?_eq_getElem (by simp; omega), List.getElem?_eq_getElem (by simp; omega)] at this
  simp only [List.getElem_zipWith, Option.some.injEq] at this
  revert this
  cases x[i]'(by omega) <;> cases a[i] <;> cases b[i] <;> simp

theorem complement_xor (a e : BitVec 32) : ~~~ (a ^^^ e) = ~~~ a ^^^ e := by
  apply BitVec.eq_of_getLsbD_eq
  intro i hi
  simp only [BitVec.getLsbD_not, BitVec.getLsbD_xor]
  cases a.getLsbD i <;> cases e.getLsbD i <;> simp [hi]

/-- **C17, rejection.** Every non-zero error confined to 32 consecutive bits, anywhere in SDU and checksum, is rejected, for
every SDU length. -/
theorem c17_rejects_burst (b : Buf) (h : Wf b) (d e w : List Bool) (hd : d ≠ []) (a z : Nat)
    (he : e = List.replicate a false ++ w ++ List.replicate z false) (hel : e.length = d.length + 32)
    (hw : w.length ≤ 32) (hne : true ∈ w) (hr : b.rest = List.zipWith xor (d ++ fcsBits d) e) :
    check b = .ok false := by
  have e12 : e = e.take d.length ++ e.drop d.length := (List.take_append_drop _ _).symm
  have l1 : (e.take d.length).length = d.length := by simp [hel]
  have l2 : (e.drop d.length).length = 32 := by simp [hel]
  have hl : (fcsBits d).length = 32 := by simp [fcsBits]
  have hsplit : b.rest = List.zipWith xor d (e.take d.length) ++ List.zipWith xor (fcsBits d) (e.drop d.length) := by
    have := List.zipWith_append (f := xor) (l₁ := d) (l₁' := fcsBits d) (l₂ := e.take d.length) (l₂' := e.drop d.length) l1.symm
    rw [List.take_append_drop] at this
    rw [hr, this]
  have hdl : 0 < d.length := List.length_pos_iff.2 hd
  rw [check_spec b h _ _ (by intro hc; have := congrArg List.length hc; simp [l1] at this; exact hd this) (by simp [hl, l2]) hsplit]
  congr 1
  rw [decide_eq_false_iff_not]
  intro hc
  unfold fcsBits fcs at hc
  rw [List.length_zipWith, l1, Nat.min_self, feed_diff _ _ _ l1, complement_xor, toBits_xor] at hc
  have hx := zip_self_inj _ _ _ (by simp [l2]) (by simp) hc
  have hb := burst_ne_zero poly (by decide) a z w hw hne
  rw [← he, e12, feed_append, feed_align _ _ _ (by omega)] at hb
  apply hb
  have : align 32 (e.drop d.length) = feed poly 0#32 (e.take d.length) := by
    unfold align
    rw [l2, hx, ofBits_toBits (BitVec.isLt _)]
    apply BitVec.eq_of_toNat_eq
    simp
  rw [this, BitVec.xor_self, shifts_zero]

/-- **Finding**: an SDU of no bits has no checksum; computing one aborts (the register preset shifts a 32-bit word by 32). A
received frame of exactly 32 unread bits aborts the receiver the same way. -/
theorem c17_empty_sdu_aborts (b : Buf) (h : Wf b) (hl : b.rest.length = 32) : check b = .panic := by
  have h1 := h.start_le; have h2 := h.pos_le
  have hlen : b.end - b.pos = 32 := by simpa [Buf.rest] using hl
  unfold check Buf.lenRemaining
  rw [if_neg (by omega)]
  unfold compute
  have e0 : b.len - 32 - (b.pos - b.start) = 0 := by unfold Buf.len; omega
  rw [decide_eq_true (show b.pos - b.start ≤ b.len - 32 by unfold Buf.len; omega), decide_eq_true (show b.len - 32 ≤ b.len by omega)]
  simp only [Res.assert_true, Res.bind_ok]
  rw [e0]
  rfl

/-- Shorter frames are rejected. -/
theorem c17_short_rejected (b : Buf) (hl : b.rest.length < 32) : check b = .ok false := by
  unfold check Buf.lenRemaining
  rw [if_pos (by simpa [Buf.rest] using hl)]
  rfl

/-- The test vector of the repository (fcs.rs:45-53): 224 bits and their checksum. -/
example : fcs (toBits 224 0x4f5af84c31618000620266606458646064626262626a646064606062) = 0xcf415635#32 := by decide +kernel

/-- Non-vacuity: a one-bit SDU with its checksum is accepted, and with the SDU bit flipped it is not. -/
example : ∃ b b' : Buf, Wf b ∧ Wf b' ∧ b.rest = [true] ++ fcsBits [true] ∧ b'.rest = [false] ++ fcsBits [true] ∧
    check b = .ok true ∧ check b' = .ok false := by
  have h1 : Wf ⟨[0xff, 0xff, 0xff, 0xff, 0xff], 0, 0, 33, false⟩ := ⟨by decide, by decide, by decide, by decide⟩
  have h2 : Wf ⟨[0x7f, 0xff, 0xff, 0xff, 0xff], 0, 0, 33, false⟩ := ⟨by decide, by decide, by decide, by decide⟩
  have r1 : Buf.rest ⟨[0xff, 0xff, 0xff, 0xff, 0xff], 0, 0, 33, false⟩ = [true] ++ fcsBits [true] := by decide +kernel
  have r2 : Buf.rest ⟨[0x7f, 0xff, 0xff, 0xff, 0xff], 0, 0, 33, false⟩ = [false] ++ fcsBits [true] := by decide +kernel
  refine ⟨_, _, h1, h2, r1, r2, ?_, ?_⟩
  · rw [check_spec _ h1 [true] (fcsBits [true]) (by simp) (by simp [fcsBits]) r1]; simp
  · exact c17_rejects_burst _ h2 [true] (true :: List.replicate 32 false) [true] (by simp) 0 32 rfl rfl (by simp) (by simp)
      (by rw [r2]; decide +kernel)

end Verif.Fcs
