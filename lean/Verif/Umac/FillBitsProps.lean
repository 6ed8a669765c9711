import Verif.Umac.FillBits
import Verif.Core.BitBufferProps
/-! # C18: fill bits are removed exactly -/
namespace Verif.FillBits
open Verif.BitBuffer Verif.Bits

/-- The fill pattern: a one followed by zeros. -/
def pattern : Nat → List Bool
  | 0 => []
  | n + 1 => true :: List.replicate n false

/-! ## Writing -/

theorem length_pattern (n : Nat) : (pattern n).length = n := by cases n <;> simp [pattern]

theorem write_some (b : Buf) (h : Wf b) (n : Nat) (hroom : (b.autoexpand = true ∧ b.pos = b.end) ∨ b.pos + n ≤ b.end) :
    ∃ b', write b (some n) = .ok b' ∧ Wrote b b' n (pattern n) := by
  unfold write
  by_cases hn : n > 0
  · simp only [hn, if_true]
    obtain ⟨b1, e1, w1⟩ := writeBit_spec b 1 h (by omega) (by rcases hroom with h | h; exact .inl h.1; exact .inr (by omega))
    have f1 := w1.fin; have p1 := w1.pos; have a1 := w1.auto
    have hpl := h.pos_le
    obtain ⟨b2, e2, w2⟩ := writeZeroes_spec b1 (n - 1) w1.wf (by
      rcases hroom with h | h
      · left; rw [a1]; refine ⟨h.1, ?_⟩; rw [if_neg (by omega)] at f1; omega
      · right; rw [if_pos (by omega)] at f1; omega)
    refine ⟨b2, by rw [e1, Res.bind_ok, e2], ?_⟩
    have := w1.trans w2 (by rcases hroom with h | h; exact .inr h.2; exact .inl (by omega)) hpl
    rw [show 1 + (n - 1) = n by omega] at this
    have ep : toBits 1 1 ++ List.replicate (n - 1) false = pattern n := by
      match n, hn with
      | k + 1, _ => rfl
    rwa [ep] at this
  · have : n = 0 := by omega
    subst this
    exact ⟨b, rfl, Wrote.refl b h⟩

theorem write_none (b : Buf) (h : Wf b) : ∃ b', write b none = .ok b' ∧ Wrote b b' (b.end - b.pos) (pattern (b.end - b.pos)) := by
  have hpl := h.pos_le
  unfold write Buf.lenRemaining
  by_cases hn : b.end - b.pos > 0
  · simp only [hn, if_true]
    obtain ⟨b1, e1, w1⟩ := writeBit_spec b 1 h (by omega) (.inr (by omega))
    have f1 := w1.fin; have p1 := w1.pos
    rw [if_pos (by omega)] at f1
    have e : b1.end - b1.pos = b.end - b.pos - 1 := by omega
    obtain ⟨b2, e2, w2⟩ := write_some b h (b.end - b.pos) (.inr (by omega))
    refine ⟨b2, ?_, w2⟩
    unfold write at e2
    simp only [hn, if_true] at e2
    rw [e1, Res.bind_ok] at e2 ⊢
    simp only [e]
    exact e2
  · have : b.end - b.pos = 0 := by omega
    rw [this]
    exact ⟨b, by simp, Wrote.refl b h⟩

/-! ## Counting -/

theorem peek_bit (b : Buf) (h : Wf b) (k : Nat) (hk : b.start + k < b.end) :
    b.peekStartOffset k 1 = .ok (some (bitAt b.buffer (b.start + k)).toNat) := by
  have he := h.end_le
  unfold Buf.peekStartOffset
  rw [if_neg (by omega), readBitsAt_spec _ h.byte _ _ (by omega)]
  simp [slice, ofBits]

theorem scan_zeros (b : Buf) (h : Wf b) (lo len k : Nat) (z : Nat) (hz : z ≤ k) (hk : b.start + k ≤ b.end)
    (hzero : ∀ i, z ≤ i → i < k → bitAt b.buffer (b.start + i) = false) (hlo : lo ≤ z) :
    scan b lo len k = scan b lo len z := by
  induction k with
  | zero => have : z = 0 := by omega
            rw [this]
  | succ k ih =>
    by_cases hzk : z = k + 1
    · rw [hzk]
    · rw [scan, if_pos (by omega), peek_bit b h k (by omega), hzero k (by omega) (by omega)]
      simp only [Res.bind_ok, Bool.toNat_false, if_true]
      exact ih (by omega) (by omega) (fun i h1 h2 => hzero i h1 (by omega))

/-- **C18, exact removal.** Take any PDU window whose bits from the cursor on are a payload (of any length and content, zeros
included) followed by `n > 0` fill bits and anything after them: the receiver counts exactly `n`. -/
theorem c18_count_exact (b : Buf) (h : Wf b) (payload after : List Bool) (n : Nat) (hn : 0 < n)
    (hrest : b.rest = payload ++ pattern n ++ after) :
    count b (b.pos - b.start + payload.length + n) = .ok n := by
  have hs := h.start_le; have hp := h.pos_le
  have hlen : b.end - b.pos = payload.length + n + after.length := by
    have := congrArg List.length hrest
    simpa [Buf.rest, length_pattern, Nat.add_assoc] using this
  have hbit : ∀ i, i < n → bitAt b.buffer (b.pos + (payload.length + i)) = decide (i = 0) := by
    intro i hi
    have h1 : (slice b.buffer b.pos (b.end - b.pos))[payload.length + i]? = (payload ++ pattern n ++ after)[payload.length + i]? := by
      rw [← hrest]; rfl
    rw [List.getElem?_eq_getElem (by simp; omega), getElem_slice] at h1
    rw [List.append_assoc, List.getElem?_append_right (by omega), Nat.add_sub_cancel_left,
      List.getElem?_append_left (by rw [length_pattern]; exact hi)] at h1
    match n, hn with
    | m + 1, _ =>
      cases i with
      | zero => simpa [pattern] using h1
      | succ j =>
        have hj : j < m := by omega
        simpa [pattern, hj] using h1
  unfold count
  rw [scan_zeros b h _ _ _ (b.pos - b.start + payload.length + 1) (by omega) (by omega) ?_ (by omega)]
  · rw [scan, if_pos (by omega), peek_bit b h _ (by omega)]
    have := hbit 0 hn
    rw [show b.start + (b.pos - b.start + payload.length) = b.pos + (payload.length + 0) by omega, this]
    simp only [decide_true, Res.bind_ok, Bool.toNat_true, Nat.one_ne_zero, if_false, Res.pure_eq]
    congr 1
    omega
  · intro i h1 h2
    have := hbit (i - (b.pos - b.start + payload.length)) (by omega)
    rw [show b.start + i = b.pos + (payload.length + (i - (b.pos - b.start + payload.length))) by omega, this]
    simp; omega

/-- **C18, round trip.** The sender appends to what it has written the number of fill bits it chose; a receiver looking at the same
window, its cursor anywhere before the fill, counts exactly that number, so cutting the count off leaves exactly the sender's bits. -/
theorem c18_roundtrip (b : Buf) (h : Wf b) (n : Nat) (hn : 0 < n)
    (hroom : (b.autoexpand = true ∧ b.pos = b.end) ∨ b.pos + n ≤ b.end) (cursor : Nat) (hc : b.start + cursor ≤ b.pos) :
    ∃ b', write b (some n) = .ok b' ∧ b'.pos - b'.start = b.pos - b.start + n ∧
      count { b' with pos := b'.start + cursor } (b'.pos - b'.start) = .ok n ∧
      b'.window.take (b'.pos - b'.start - n) = b.written := by
  obtain ⟨b', e, w⟩ := write_some b h n hroom
  have p := w.pos; have s := w.start; have f := w.fin
  have hs := h.start_le; have hp := h.pos_le
  have hend : b'.pos ≤ b'.end := w.wf.pos_le
  have hwf : Wf { b' with pos := b'.start + cursor } :=
    ⟨by simp, by simp; omega, w.wf.end_le, w.wf.byte⟩
  refine ⟨b', e, by omega, ?_, ?_⟩
  · have := c18_count_exact { b' with pos := b'.start + cursor } hwf (slice b'.buffer (b.start + cursor) (b.pos - (b.start + cursor)))
      (slice b'.buffer (b.pos + n) (b'.end - (b.pos + n))) n hn (by
        unfold Buf.rest
        simp only
        rw [show b'.end - (b'.start + cursor) = (b.pos - (b.start + cursor)) + n + (b'.end - (b.pos + n)) by omega, slice_add, slice_add, s]
        rw [show b.start + cursor + (b.pos - (b.start + cursor)) = b.pos by omega, w.put,
          show b.start + cursor + (b.pos - (b.start + cursor) + n) = b.pos + n by omega])
    simp only [length_slice] at this
    rw [show b'.pos - b'.start = b'.start + cursor - b'.start + (b.pos - (b.start + cursor)) + n by omega]
    exact this
  · unfold Buf.window Buf.written
    rw [slice_take _ _ _ _ (by omega), s, p, show b.pos + n - b.start - n = b.pos - b.start by omega]
    exact slice_congr fun i hi => w.frame _ (by omega)

/-- **C18, whole block.** Filling the rest of a block leaves a block whose written part is the payload and whose fill the receiver
counts exactly, whenever there is anything to fill. -/
theorem c18_roundtrip_block (b : Buf) (h : Wf b) (hroom : b.pos < b.end) (cursor : Nat) (hc : b.start + cursor ≤ b.pos) :
    ∃ b', write b none = .ok b' ∧ b'.pos = b'.end ∧ b'.end = b.end ∧
      count { b' with pos := b'.start + cursor } b'.len = .ok (b.end - b.pos) ∧
      b'.window.take (b'.len - (b.end - b.pos)) = b.written := by
  obtain ⟨b1, e1, w1⟩ := write_none b h
  obtain ⟨b', e, hp, hcnt, htk⟩ := c18_roundtrip b h (b.end - b.pos) (by omega) (.inr (by omega)) cursor hc
  obtain ⟨b2, e2, w2⟩ := write_some b h (b.end - b.pos) (.inr (by omega))
  have h12 : b1 = b2 := by
    have : write b none = write b (some (b.end - b.pos)) := by
      unfold write Buf.lenRemaining
      have hn : b.end - b.pos > 0 := by omega
      simp only [hn, if_true]
      obtain ⟨b3, e3, w3⟩ := writeBit_spec b 1 h (by omega) (.inr (by omega))
      have f3 := w3.fin; have p3 := w3.pos
      rw [if_pos (by omega)] at f3
      rw [e3, Res.bind_ok, Res.bind_ok, show b3.end - b3.pos = b.end - b.pos - 1 by omega]
    rw [e1, e2] at this; cases this; rfl
  subst h12
  rw [e2] at e; cases e
  have p := w1.pos; have f := w1.fin; have s := w1.start
  have hs := h.start_le
  rw [if_pos (by omega)] at f
  refine ⟨b1, e1, by omega, f, ?_, ?_⟩
  · rw [show b1.len = b1.pos - b1.start by unfold Buf.len; omega]; exact hcnt
  · rw [show b1.len = b1.pos - b1.start by unfold Buf.len; omega]; exact htk

/-- **C18, amount.** The number of fill bits chosen never makes the PDU exceed the slot; the PDU then ends on an octet boundary or
exactly at the end of the slot; less than an octet is spent; and nothing is added to a PDU which already fills the slot. -/
theorem c18_required (total cap : Nat) :
    (total ≤ cap → total + required total cap ≤ cap) ∧ required total cap < 8 ∧
    (total ≤ cap → (total + required total cap) % 8 = 0 ∨ total + required total cap = cap) ∧
    (total ≥ cap → required total cap = 0) ∧ (total % 8 = 0 → required total cap = 0) := by
  unfold required requiredBytealigned
  by_cases h : total ≥ cap
  · rw [if_pos h]; refine ⟨by omega, by omega, by omega, by omega, by omega⟩
  · rw [if_neg h]
    simp only
    by_cases h2 : total + (8 - total % 8) % 8 ≤ cap
    · rw [if_pos h2]; refine ⟨by omega, by omega, by omega, by omega, by omega⟩
    · rw [if_neg h2]; refine ⟨by omega, by omega, by omega, by omega, by omega⟩

/-- A PDU announced as filled whose bits are all zero has nothing to cut: the receiver reports zero fill bits. -/
theorem c18_no_marker (b : Buf) (h : Wf b) (hz : ∀ x ∈ b.rest, x = false) : count b b.len = .ok 0 := by
  have hs := h.start_le; have hp := h.pos_le
  unfold count
  rw [scan_zeros b h _ _ _ (b.pos - b.start) (by unfold Buf.len; omega) (by unfold Buf.len; omega) ?_ (Nat.le_refl _)]
  · generalize hk : b.pos - b.start = k
    cases k with
    | zero => rfl
    | succ k => rw [scan, if_neg (by omega)]
  · intro i h1 h2
    unfold Buf.len at h2
    apply hz
    unfold Buf.rest
    rw [List.mem_iff_getElem]
    refine ⟨b.start + i - b.pos, by simp; omega, ?_⟩
    rw [getElem_slice]
    congr 1; omega

/-- Non-vacuity: a payload ending in zeros, `1000`, with three fill bits, in a 7-bit window at bit 1. -/
example : count { buffer := [0x48], start := 1, pos := 1, «end» := 8, autoexpand := false } 7 = .ok 4 ∧
    (write { buffer := [0x40], start := 1, pos := 5, «end» := 8, autoexpand := false } (some 3)).bind
      (fun b => count { b with pos := 1 } 7) = .ok 3 := by
  constructor
  · exact c18_count_exact { buffer := [0x48], start := 1, pos := 1, «end» := 8, autoexpand := false }
      ⟨by decide, by decide, by decide, by decide⟩ [true, false, false] [] 4 (by decide) (by decide)
  · obtain ⟨b', e, h1, h2, _⟩ := c18_roundtrip { buffer := [0x40], start := 1, pos := 5, «end» := 8, autoexpand := false }
      ⟨by decide, by decide, by decide, by decide⟩ 3 (by decide) (.inr (by decide)) 0 (by decide)
    have w := (write_some { buffer := [0x40], start := 1, pos := 5, «end» := 8, autoexpand := false }
      ⟨by decide, by decide, by decide, by decide⟩ 3 (.inr (by decide)))
    obtain ⟨b2, e2, w2⟩ := w
    rw [e] at e2; cases e2
    rw [e]
    have hs := w2.start
    simp only at hs h1 h2
    rw [hs] at h1 h2
    rw [h1] at h2
    show count { b' with pos := 1 } 7 = _
    rw [hs]
    exact h2

end Verif.FillBits
