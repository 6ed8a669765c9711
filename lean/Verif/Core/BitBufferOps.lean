import Verif.Core.BitBufferLemmas
/-! # Operation-level lemmas about the BitBuffer model -/
namespace Verif.BitBuffer
open Verif.Bits

theorem replicate_byte {l : List Nat} (hb : ∀ x ∈ l, x < 256) (k : Nat) : ∀ x ∈ l ++ List.replicate k 0, x < 256 := by
  intro x hx
  rcases List.mem_append.1 hx with h | h
  · exact hb x h
  · rw [List.mem_replicate] at h; omega

theorem ensure_spec (b : Buf) (n : Nat) (h : Wf b) (hn : b.autoexpand = true ∨ b.pos + n ≤ b.end) :
    ∃ b', b.ensure n = .ok b' ∧ Wf b' ∧ b'.pos = b.pos ∧ b'.start = b.start ∧ b'.autoexpand = b.autoexpand ∧
      b'.end = (if b.pos + n ≤ b.end then b.end else b.end + n) ∧ b.pos + n ≤ b'.end ∧
      ∀ p, bitAt b'.buffer p = bitAt b.buffer p := by
  unfold Buf.ensure
  have hs := h.start_le; have hp := h.pos_le; have he := h.end_le
  by_cases hfit : b.pos + n ≤ b.end
  · rw [if_neg (by omega)]
    exact ⟨b, rfl, h, rfl, rfl, rfl, by rw [if_pos hfit], hfit, fun _ => rfl⟩
  · rw [if_pos (by omega), if_pos (by rcases hn with h | h; exact h; omega)]
    unfold Buf.moveEnd
    simp only
    rw [if_neg (by omega)]
    by_cases hx : n > b.buffer.length * 8 - b.end
    · rw [if_pos hx]
      unfold Buf.reallocTail
      simp only
      rw [if_pos (by omega)]
      simp only [Res.bind_ok, Res.pure_eq]
      refine ⟨_, rfl, ⟨hs, ?_, ?_, ?_⟩, rfl, rfl, rfl, ?_, ?_, ?_⟩
      · simp; omega
      · simp; omega
      · exact replicate_byte h.byte _
      · rw [if_neg hfit]
      · simp; omega
      · intro p; exact bitAt_append_zero _ _ _
    · rw [if_neg hx]
      simp only [Res.bind_ok, Res.pure_eq]
      refine ⟨_, rfl, ⟨hs, ?_, ?_, h.byte⟩, rfl, rfl, rfl, ?_, ?_, fun _ => rfl⟩
      · simp; omega
      · simp; omega
      · rw [if_neg hfit]
      · simp; omega

theorem ensure_panic (b : Buf) (n : Nat) (hn : ¬ (b.autoexpand = true ∨ b.pos + n ≤ b.end)) :
    b.ensure n = .panic := by
  unfold Buf.ensure
  rw [if_pos (by omega)]
  have : b.autoexpand = false := by
    cases h : b.autoexpand <;> simp [h] at hn ⊢
  simp [this]

/-- What a successful write of `n` bits does: `bits` stands for the digits put at the cursor. -/
structure Wrote (b b' : Buf) (n : Nat) (bits : List Bool) : Prop where
  wf : Wf b'
  start : b'.start = b.start
  pos : b'.pos = b.pos + n
  auto : b'.autoexpand = b.autoexpand
  fin : b'.end = if b.pos + n ≤ b.end then b.end else b.end + n
  put : slice b'.buffer b.pos n = bits
  frame : ∀ p, ¬ (b.pos ≤ p ∧ p < b.pos + n) → bitAt b'.buffer p = bitAt b.buffer p

theorem shiftRight_eq_zero_iff (v n : Nat) : v >>> n = 0 ↔ v < 2 ^ n := by
  rw [Nat.shiftRight_eq_div_pow, Nat.div_eq_zero_iff]
  have := Nat.two_pow_pos n
  omega

theorem writeBits_spec (b : Buf) (v n : Nat) (h : Wf b) (hn : n ≤ 64) (hv : v < 2 ^ n)
    (hroom : b.autoexpand = true ∨ b.pos + n ≤ b.end) :
    ∃ b', b.writeBits v n = .ok b' ∧ Wrote b b' n (toBits n v) := by
  obtain ⟨b1, e1, w1, p1, s1, a1, f1, r1, t1⟩ := ensure_spec b n h hroom
  have hvv : (if n = 64 then v else v &&& ((1 <<< n) - 1)) = v := by
    split
    · rfl
    · rw [Nat.one_shiftLeft, Nat.and_two_pow_sub_one_eq_mod, Nat.mod_eq_of_lt hv]
  obtain ⟨buf, e2, l2, b2, t2⟩ := writeRaw_spec b1.buffer b1.pos v n w1.byte
    (by have := w1.end_le; omega)
  refine ⟨{ b1 with buffer := buf, pos := b1.pos + n }, ?_, ?_⟩
  · unfold Buf.writeBits
    have hz := (shiftRight_eq_zero_iff v n).2 hv
    simp only [hn, hz, Res.assert, decide_true, or_true, if_true, Res.bind_ok, e1, hvv, e2, Res.pure_eq]
  · refine ⟨⟨?_, ?_, ?_, b2⟩, s1, by simp [p1], a1, f1, ?_, ?_⟩
    · have := w1.start_le; simp; omega
    · simp; omega
    · have := w1.end_le; simp [l2]; omega
    · apply slice_eq_toBits
      intro i hi
      simp only
      rw [t2, if_pos (by omega)]
      congr 1; omega
    · intro p hp
      simp only
      rw [t2, if_neg (by omega), t1]

theorem writeBits_panic (b : Buf) (v n : Nat) (hv64 : v < 2 ^ 64)
    (h : ¬ (n ≤ 64 ∧ v < 2 ^ n ∧ (b.autoexpand = true ∨ b.pos + n ≤ b.end))) : b.writeBits v n = .panic := by
  unfold Buf.writeBits
  by_cases hn : n ≤ 64
  · by_cases hv : v < 2 ^ n
    · have hz := (shiftRight_eq_zero_iff v n).2 hv
      rw [ensure_panic b n (fun hc => h ⟨hn, hv, hc⟩)]
      simp [Res.assert, hn, hz]
    · have hz : ¬ (v >>> n = 0) := fun hc => hv ((shiftRight_eq_zero_iff v n).1 hc)
      have : n ≠ 64 := by intro hc; subst hc; exact hv hv64
      simp [Res.assert, hn, hz, this]
  · simp [Res.assert, hn]

theorem writeBit_spec (b : Buf) (v : Nat) (h : Wf b) (hv : v < 2)
    (hroom : b.autoexpand = true ∨ b.pos + 1 ≤ b.end) :
    ∃ b', b.writeBit v = .ok b' ∧ Wrote b b' 1 (toBits 1 v) := by
  obtain ⟨b1, e1, w1, p1, s1, a1, f1, r1, t1⟩ := ensure_spec b 1 h hroom
  have hidx : b1.pos / 8 < b1.buffer.length := by have := w1.end_le; omega
  have hbb := getD_lt w1.byte (b1.pos / 8)
  have hmb : ((b1.buffer.getD (b1.pos / 8) 0) &&& (255 ^^^ (1 <<< (7 - b1.pos % 8)))) ||| (v <<< (7 - b1.pos % 8)) =
      mergeByte (b1.buffer.getD (b1.pos / 8) 0) (b1.pos % 8) 1 v := by
    unfold mergeByte
    have : 8 - (b1.pos % 8 + 1) = 7 - b1.pos % 8 := by omega
    simp only [this]
    rfl
  have hml := mergeByte_lt (off := b1.pos % 8) (h := 1) (bits := v) hbb (by omega) (by omega)
  refine ⟨{ b1 with
    buffer := b1.buffer.set (b1.pos / 8) (mergeByte (b1.buffer.getD (b1.pos / 8) 0) (b1.pos % 8) 1 v)
    pos := b1.pos + 1 }, ?_, ?_⟩
  · unfold Buf.writeBit
    have : v = 0 ∨ v = 1 := by omega
    simp only [this, Res.assert, decide_true, if_true, Res.bind_ok, e1]
    rw [getByte_ok hidx]
    simp only [Res.bind_ok]
    rw [hmb, setByte_ok hidx]
    rfl
  · have hbit : ∀ p, bitAt (b1.buffer.set (b1.pos / 8) (mergeByte (b1.buffer.getD (b1.pos / 8) 0) (b1.pos % 8) 1 v)) p
        = if b.pos ≤ p ∧ p < b.pos + 1 then v.testBit 0 else bitAt b.buffer p := by
      intro p
      rw [bitAt_set _ _ _ _ hidx]
      by_cases hp : p / 8 = b1.pos / 8
      · rw [if_pos hp, testBit_mergeByte hbb (by omega) (by omega)]
        by_cases hq : b.pos ≤ p ∧ p < b.pos + 1
        · rw [if_pos hq, if_pos (by omega)]; congr 1; omega
        · rw [if_neg hq, if_neg (by omega), ← t1]; unfold bitAt; rw [hp]
      · rw [if_neg hp, if_neg (by intro hc; exact hp (by congr 1; omega)), t1]
    refine ⟨⟨?_, ?_, ?_, mem_set_lt w1.byte hml⟩, s1, by simp [p1], a1, f1, ?_, ?_⟩
    · have := w1.start_le; simp; omega
    · simp; omega
    · have := w1.end_le; simp; omega
    · apply slice_eq_toBits
      intro i hi
      simp only
      rw [hbit, if_pos (by omega)]
      congr 1; omega
    · intro p hp
      simp only
      rw [hbit, if_neg hp]

theorem writeBit_panic (b : Buf) (v : Nat) (h : ¬ (v < 2 ∧ (b.autoexpand = true ∨ b.pos + 1 ≤ b.end))) :
    b.writeBit v = .panic := by
  unfold Buf.writeBit
  by_cases hv : v < 2
  · rw [ensure_panic b 1 (fun hc => h ⟨hv, hc⟩)]
    have : v = 0 ∨ v = 1 := by omega
    simp [Res.assert, this]
  · have : ¬ (v = 0 ∨ v = 1) := by omega
    simp [Res.assert, this]

/-- Reading at the cursor: exactly the next `n` bits of the window, or nothing. -/
theorem readBits_spec (b : Buf) (n : Nat) (h : Wf b) :
    b.readBits n = .ok (if n ≤ 64 ∧ b.pos + n ≤ b.end
      then (some (ofBits (slice b.buffer b.pos n)), { b with pos := b.pos + n }) else (none, b)) := by
  have hs := h.start_le; have he := h.end_le
  unfold Buf.readBits Buf.peekStartOffset
  rw [if_pos hs]
  have e : b.start + (b.pos - b.start) = b.pos := by omega
  simp only [e]
  by_cases hc : n ≤ 64 ∧ b.pos + n ≤ b.end
  · rw [if_pos hc, if_neg (by omega), readBitsAt_spec _ h.byte _ _ (by omega)]
    rfl
  · rw [if_neg hc, if_pos (by omega)]
    rfl

theorem peekBits_spec (b : Buf) (n : Nat) (h : Wf b) :
    b.peekBits n = .ok (if n ≤ 64 ∧ b.pos + n ≤ b.end
      then some (ofBits (slice b.buffer b.pos n)) else none) := by
  have hs := h.start_le; have he := h.end_le
  unfold Buf.peekBits Buf.peekStartOffset
  rw [if_pos hs]
  have e : b.start + (b.pos - b.start) = b.pos := by omega
  simp only [e]
  by_cases hc : n ≤ 64 ∧ b.pos + n ≤ b.end
  · rw [if_pos hc, if_neg (by omega), readBitsAt_spec _ h.byte _ _ (by omega)]
    rfl
  · rw [if_neg hc, if_pos (by omega)]

theorem readBits_wf (b : Buf) (n : Nat) (h : Wf b) (hc : b.pos + n ≤ b.end) : Wf { b with pos := b.pos + n } :=
  ⟨by have := h.start_le; simp; omega, by simpa using hc, h.end_le, h.byte⟩

/-- Two writes in a row are one write of the concatenation (when the first does not straddle the end). -/
theorem Wrote.trans {b b1 b2 : Buf} {n m : Nat} {x y : List Bool} (h1 : Wrote b b1 n x) (h2 : Wrote b1 b2 m y)
    (hx : b.pos + (n + m) ≤ b.end ∨ b.pos = b.end) (hp : b.pos ≤ b.end) : Wrote b b2 (n + m) (x ++ y) := by
  have f1 := h1.fin; have f2 := h2.fin; have p1 := h1.pos; have p2 := h2.pos
  refine ⟨h2.wf, h2.start.trans h1.start, by omega, h2.auto.trans h1.auto, ?_, ?_, ?_⟩
  · rw [f2, p1, f1]
    by_cases c1 : b.pos + n ≤ b.end
    · rw [if_pos c1]
      split <;> split <;> omega
    · rw [if_neg c1]
      split <;> split <;> omega
  · rw [slice_add, ← h1.put, ← h2.put, p1]
    congr 1
    apply slice_congr
    intro i hi
    exact h2.frame _ (by omega)
  · intro p hpp
    rw [h2.frame p (by omega), h1.frame p (by omega)]

theorem Wrote.refl (b : Buf) (h : Wf b) : Wrote b b 0 [] :=
  ⟨h, rfl, rfl, rfl, by rw [if_pos (by have := h.pos_le; omega)], rfl, fun _ _ => rfl⟩

theorem toBits_zero_value (n : Nat) : toBits n 0 = List.replicate n false := by
  apply List.ext_getElem (by simp)
  intro i h1 h2
  rw [getElem_toBits]; simp

theorem writeZeroes_spec (b : Buf) (n : Nat) (h : Wf b)
    (hroom : (b.autoexpand = true ∧ b.pos = b.end) ∨ b.pos + n ≤ b.end) :
    ∃ b', b.writeZeroes n = .ok b' ∧ Wrote b b' n (List.replicate n false) := by
  induction n using Nat.strongRecOn generalizing b with
  | _ n ih =>
    rw [Buf.writeZeroes]
    by_cases h0 : 0 < n
    · rw [if_pos h0]
      have hpl := h.pos_le
      obtain ⟨b1, e1, w1⟩ := writeBits_spec b 0 (min n 64) h (by omega) (Nat.two_pow_pos _)
        (hroom.imp And.left (fun hf => by omega))
      have f1 := w1.fin; have p1 := w1.pos
      obtain ⟨b2, e2, w2⟩ := ih (n - min n 64) (by omega) b1 w1.wf (by
        rw [w1.auto]
        rcases hroom with ⟨ha, hp⟩ | hf
        · left; refine ⟨ha, ?_⟩
          rw [if_neg (by omega)] at f1; omega
        · right; rw [if_pos (by omega)] at f1; omega)
      rw [e1]
      simp only [Res.bind_ok]
      refine ⟨b2, e2, ?_⟩
      have := w1.trans w2 (by omega) hpl
      rw [toBits_zero_value, List.replicate_append_replicate, show min n 64 + (n - min n 64) = n by omega] at this
      exact this
    · rw [if_neg h0]
      have : n = 0 := by omega
      subst this
      exact ⟨b, rfl, Wrote.refl b h⟩

theorem writeZeroes_panic (b : Buf) (n : Nat) (h : Wf b) (ha : b.autoexpand = false) (hroom : ¬ b.pos + n ≤ b.end) :
    b.writeZeroes n = .panic := by
  induction n using Nat.strongRecOn generalizing b with
  | _ n ih =>
    have hpl := h.pos_le
    rw [Buf.writeZeroes]
    rw [if_pos (by omega)]
    by_cases hf : b.pos + min n 64 ≤ b.end
    · obtain ⟨b1, e1, w1⟩ := writeBits_spec b 0 (min n 64) h (by omega) (Nat.two_pow_pos _) (by omega)
      have f1 := w1.fin; have p1 := w1.pos
      rw [if_pos hf] at f1
      rw [e1]
      simp only [Res.bind_ok]
      exact ih _ (by omega) b1 w1.wf (by rw [w1.auto, ha]) (by omega)
    · rw [writeBits_panic _ _ _ (by omega) (by rw [ha]; simp; intros; omega)]
      rfl

theorem copyBits_spec (b src : Buf) (n : Nat) (h : Wf b) (hs : Wf src) (hsrc : src.pos + n ≤ src.end)
    (hroom : (b.autoexpand = true ∧ b.pos = b.end) ∨ b.pos + n ≤ b.end) :
    ∃ b', b.copyBits src n = .ok (b', { src with pos := src.pos + n }) ∧
      Wrote b b' n (slice src.buffer src.pos n) := by
  induction n using Nat.strongRecOn generalizing b src with
  | _ n ih =>
    rw [Buf.copyBits]
    by_cases h0 : 0 < n
    · rw [if_pos h0]
      have hpl := h.pos_le
      simp only
      rw [if_pos (by have := hs.pos_le; omega), readBits_spec src _ hs, if_pos (by omega)]
      simp only [Res.bind_ok]
      have hlt : ofBits (slice src.buffer src.pos (min n 64)) < 2 ^ (min n 64) := by
        have := ofBits_lt (slice src.buffer src.pos (min n 64)); simpa using this
      obtain ⟨b1, e1, w1⟩ := writeBits_spec b _ (min n 64) h (by omega) hlt (hroom.imp And.left (fun hf => by omega))
      have f1 := w1.fin; have p1 := w1.pos
      rw [e1]
      simp only [Res.bind_ok]
      obtain ⟨b2, e2, w2⟩ := ih (n - min n 64) (by omega) b1 { src with pos := src.pos + min n 64 } w1.wf
        (readBits_wf src _ hs (by omega)) (by simp; omega) (by
        rw [w1.auto]
        rcases hroom with ⟨ha, hp⟩ | hf
        · left; refine ⟨ha, ?_⟩
          rw [if_neg (by omega)] at f1; omega
        · right; rw [if_pos (by omega)] at f1; omega)
      refine ⟨b2, ?_, ?_⟩
      · rw [e2]
        simp only [Res.ok.injEq, Prod.mk.injEq, true_and, Buf.mk.injEq, and_true]
        omega
      · have := w1.trans w2 (by omega) hpl
        have e : toBits (min n 64) (ofBits (slice src.buffer src.pos (min n 64))) = slice src.buffer src.pos (min n 64) := by
          have := toBits_ofBits (slice src.buffer src.pos (min n 64)); simpa using this
        rw [e] at this
        simp only [← slice_add] at this
        rwa [show min n 64 + (n - min n 64) = n by omega] at this
    · rw [if_neg h0]
      have : n = 0 := by omega
      subst this
      exact ⟨b, rfl, Wrote.refl b h⟩

/-- A write as an edit of the window. -/
theorem Wrote.window {b b' : Buf} {n : Nat} {x : List Bool} (w : Wrote b b' n x) (h : Wf b)
    (hx : b.pos + n ≤ b.end ∨ b.pos = b.end) :
    b'.window = (b.window).take (b.pos - b.start) ++ x ++ (b.window).drop (b.pos - b.start + n) := by
  have f := w.fin; have p := w.pos; have s := w.start
  have hs := h.start_le; have hp := h.pos_le
  unfold Buf.window
  rw [slice_take _ _ _ _ (by omega), s]
  have pre : slice b'.buffer b.start (b.pos - b.start) = slice b.buffer b.start (b.pos - b.start) :=
    slice_congr fun i hi => w.frame _ (by omega)
  by_cases hf : b.pos + n ≤ b.end
  · rw [if_pos hf] at f
    rw [slice_drop _ _ _ _ (by omega), f]
    have e : b.end - b.start = (b.pos - b.start) + (n + (b.end - b.start - (b.pos - b.start + n))) := by omega
    rw [e, slice_add, slice_add, pre, ← e, show b.start + (b.pos - b.start) = b.pos by omega, w.put,
      ← List.append_assoc]
    congr 1
    rw [show b.start + (b.pos - b.start + n) = b.pos + n by omega]
    exact slice_congr fun i hi => w.frame _ (by omega)
  · have he : b.pos = b.end := by omega
    rw [if_neg hf] at f
    rw [List.drop_eq_nil_of_le (by simp; omega), f, List.append_nil,
      show b.end + n - b.start = (b.pos - b.start) + n by omega, slice_add, pre,
      show b.start + (b.pos - b.start) = b.pos by omega, w.put]

theorem Wrote.written {b b' : Buf} {n : Nat} {x : List Bool} (w : Wrote b b' n x) (h : Wf b) :
    b'.written = b.written ++ x := by
  have p := w.pos; have s := w.start; have hs := h.start_le
  unfold Buf.written
  rw [s, p, show b.pos + n - b.start = (b.pos - b.start) + n by omega, slice_add,
    show b.start + (b.pos - b.start) = b.pos by omega, w.put]
  congr 1
  exact slice_congr fun i hi => w.frame _ (by omega)

end Verif.BitBuffer
