import Verif.Dsp.Receive
import Verif.Dsp.ClockProps
/-!
# Received samples are counted right, and every block is what its number says
-/
namespace Verif.Dsp.Receive
open Verif Verif.Dsp.Slots

/-! ## Time and sample numbers -/

theorem roundDiv_near (a : Int) {b : Int} (hb : 0 < b) : -b ≤ 2 * (b * roundDiv a b - a) ∧ 2 * (b * roundDiv a b - a) ≤ b := by
  unfold roundDiv
  split
  · have h1 := Int.mul_ediv_add_emod (2 * a + b) (2 * b)
    have h2 := Int.emod_nonneg (2 * a + b) (show 2 * b ≠ 0 by omega)
    have h3 := Int.emod_lt_of_pos (2 * a + b) (show 0 < 2 * b by omega)
    rw [Int.mul_assoc] at h1
    omega
  · have h1 := Int.mul_ediv_add_emod (-2 * a + b) (2 * b)
    have h2 := Int.emod_nonneg (-2 * a + b) (show 2 * b ≠ 0 by omega)
    have h3 := Int.emod_lt_of_pos (-2 * a + b) (show 0 < 2 * b by omega)
    rw [Int.mul_assoc] at h1
    rw [Int.mul_neg]
    omega

theorem roundDiv_unique {a b k : Int} (hb : 0 < b) (h1 : -b < 2 * (b * k - a)) (h2 : 2 * (b * k - a) < b) : roundDiv a b = k := by
  have h := roundDiv_near a hb
  generalize roundDiv a b = q at *
  have e : b * (q - k) = b * q - b * k := Int.mul_sub ..
  have h3 : b * (q - k) < b := by omega
  have h4 : -b < b * (q - k) := by omega
  rcases Int.lt_trichotomy (q - k) 0 with h | h | h
  · have : b * (q - k) ≤ b * (-1) := Int.mul_le_mul_of_nonneg_left (by omega) (by omega)
    omega
  · omega
  · have : b * 1 ≤ b * (q - k) := Int.mul_le_mul_of_nonneg_left (by omega) (by omega)
    omega

/-- A time given in nanoseconds is at most half a nanosecond off. -/
theorem ticksToNs_near (n : Int) {R : Int} (hR : 0 < R) :
    -R ≤ 2 * (R * ticksToNs n R - n * giga) ∧ 2 * (R * ticksToNs n R - n * giga) ≤ R := by
  unfold ticksToNs
  simp only
  have h := roundDiv_near ((n - n.tdiv R * R) * giga) hR
  generalize roundDiv ((n - n.tdiv R * R) * giga) R = q at *
  have e : R * (n.tdiv R * giga + q) - n * giga = R * q - (n - n.tdiv R * R) * giga := by
    rw [Int.mul_add, Int.sub_mul, ← Int.mul_assoc, Int.mul_comm R (n.tdiv R)]
    omega
  rw [e]
  exact h

theorem nsToTicks_unique {t k R : Int} (h1 : -giga < 2 * (giga * k - t * R)) (h2 : 2 * (giga * k - t * R) < giga) : nsToTicks t R = k := by
  unfold nsToTicks
  simp only
  have e : giga * (k - t.tdiv giga * R) - (t - t.tdiv giga * giga) * R = giga * k - t * R := by
    rw [Int.mul_sub, Int.sub_mul, ← Int.mul_assoc, Int.mul_comm giga (t.tdiv giga)]
    omega
  have : roundDiv ((t - t.tdiv giga * giga) * R) giga = k - t.tdiv giga * R := roundDiv_unique (by decide) (by rw [e]; exact h1) (by rw [e]; exact h2)
  rw [this]
  omega

/-- **C87, time.** A sample number turned into a time and back is the same number, for every sample rate below 1 GHz. -/
theorem c87_round_trip (n : Int) {R : Int} (h0 : 0 < R) (h1 : R < giga) : nsToTicks (ticksToNs n R) R = n := by
  have h := ticksToNs_near n h0
  have e : giga * n - ticksToNs n R * R = -(R * ticksToNs n R - n * giga) := by
    rw [Int.mul_comm giga n, Int.mul_comm (ticksToNs n R) R]; omega
  exact nsToTicks_unique (by rw [e]; omega) (by rw [e]; omega)

/-- **C87, time.** The difference of two timestamps is the right number of samples, for every sample rate below 500 MHz. -/
theorem c87_difference (n k : Int) {R : Int} (h0 : 0 < R) (h1 : 2 * R < giga) : nsToTicks (stamp R n - stamp R k) R = n - k := by
  have h := ticksToNs_near n h0
  have h' := ticksToNs_near k h0
  have e : giga * (n - k) - (stamp R n - stamp R k) * R = (R * ticksToNs k R - k * giga) - (R * ticksToNs n R - n * giga) := by
    unfold stamp
    rw [Int.mul_sub, Int.sub_mul, Int.mul_comm giga n, Int.mul_comm giga k, Int.mul_comm _ R, Int.mul_comm _ R]
    omega
  exact nsToTicks_unique (by rw [e]; omega) (by rw [e]; omega)

example : nsToTicks (stamp 4608000 123456789 - stamp 4608000 1) 4608000 = 123456788 := by decide

theorem stamp_inj {n k R : Int} (h0 : 0 < R) (h1 : 2 * R < giga) (h : stamp R n = stamp R k) : n = k := by
  have := c87_difference n k h0 h1
  rw [h, Int.sub_self] at this
  have z : nsToTicks 0 R = 0 := nsToTicks_unique (by rw [Int.zero_mul]; decide) (by rw [Int.zero_mul]; decide)
  omega

theorem stamp_ne {n R : Int} (hn : 0 ≤ n) (h0 : 0 < R) : stamp R n ≠ -1 := by
  intro h
  have := ticksToNs_near n h0
  unfold stamp at h
  rw [h] at this
  have hg : (0 : Int) < giga := by decide
  have := Int.mul_nonneg hn (show 0 ≤ giga by decide)
  omega

theorem ticksToNs_zero {R : Int} (h0 : 0 < R) : ticksToNs 0 R = 0 := by
  unfold ticksToNs
  have : roundDiv 0 R = 0 := roundDiv_unique h0 (by omega) (by omega)
  simp [this]

/-! ## Counting -/

/-- The samples are counted from sample `p0` of the radio; `st` says whether a timestamp has been seen. -/
structure IoOk (s : Io) (R p0 : Int) (st : Bool) : Prop where
  rate : s.rate = R
  r0 : 0 < R
  r1 : 3 * R < giga
  base : 0 ≤ p0
  next : s.next = s.pos - p0
  pos0 : p0 ≤ s.pos
  fresh : st = false → s.initial = none ∧ s.prev = -1
  begun : st = true → ∃ n q, s.initial = some (stamp R (p0 + n) - ticksToNs n R) ∧ q ≤ s.pos ∧ s.prev = stamp R q

/-- The counter is right although the start was computed from a later timestamp. -/
theorem count_right (k p0 n : Int) {R : Int} (h0 : 0 < R) (h1 : 3 * R < giga) :
    nsToTicks (stamp R k - (stamp R (p0 + n) - ticksToNs n R)) R = k - p0 := by
  have a := ticksToNs_near k h0
  have b := ticksToNs_near (p0 + n) h0
  have c := ticksToNs_near n h0
  have e : giga * (k - p0) - (stamp R k - (stamp R (p0 + n) - ticksToNs n R)) * R =
      (R * ticksToNs (p0 + n) R - (p0 + n) * giga) - (R * ticksToNs k R - k * giga) - (R * ticksToNs n R - n * giga) := by
    unfold stamp
    simp only [Int.mul_sub, Int.sub_mul, Int.add_mul, Int.mul_comm giga, Int.mul_comm _ R]
    omega
  exact nsToTicks_unique (by rw [e]; omega) (by rw [e]; omega)

theorem receive_ok {s : Io} {R p0 : Int} {st : Bool} (h : IoOk s R p0 st) (r : Read)
    (hr : r.lost = 0 ∨ (st = true ∧ 1 < r.lost ∧ r.stamped = true)) (room : Nat) :
    ∃ s', s.receive r room = .ok (s', upTo (s.pos + r.lost) (min r.len room), s.pos + r.lost - p0) ∧ IoOk s' R p0 (st || r.stamped) ∧
      s'.pos = s.pos + r.lost + (min r.len room : Nat) := by
  obtain ⟨h1, h2, h3, hb0, h5, hp0, hf, hbg⟩ := h
  have hlen : ((upTo (s.pos + r.lost) (min r.len room)).length : Int) = (min r.len room : Nat) := by simp [upTo]
  have h2R : 2 * R < giga := by omega
  unfold Io.receive
  simp only [h1, hlen]
  by_cases hst : r.stamped = true
  case neg =>
    have hz : r.lost = 0 := by
      rcases hr with h | h
      · exact h
      · exact absurd h.2.2 hst
    have hst' : r.stamped = false := by simpa using hst
    rw [if_neg hst, hst', Bool.or_false]
    have hpv : ¬ s.prev ≠ s.prev := by simp
    cases hi : s.initial with
    | none =>
      simp only [if_neg hpv]
      rw [if_pos (by omega), if_pos (by omega), h5, hz, show s.pos + ((0 : Nat) : Int) = s.pos by omega]
      refine ⟨_, rfl, ⟨rfl, h2, h3, hb0, by simp only; omega, by simp only; omega, fun hs => ⟨rfl, (hf hs).2⟩, fun hs => ?_⟩, rfl⟩
      obtain ⟨n, q, k1, _⟩ := hbg hs
      rw [hi] at k1; cases k1
    | some t =>
      simp only [if_neg hpv]
      rw [if_pos (by omega), if_pos (by omega), h5, hz, show s.pos + ((0 : Nat) : Int) = s.pos by omega]
      refine ⟨_, rfl, ⟨rfl, h2, h3, hb0, by simp only; omega, by simp only; omega, fun hs => ?_, fun hs => ?_⟩, rfl⟩
      · have := (hf hs).1
        rw [hi] at this; cases this
      · obtain ⟨n, q, k1, k2, k3⟩ := hbg hs
        exact ⟨n, q, by rw [← k1, hi], by simp only; omega, k3⟩
  rw [if_pos hst, hst, Bool.or_true]
  cases hs : st with
  | false =>
    have hz : r.lost = 0 := by
      rcases hr with h | h
      · exact h
      · rw [hs] at h; cases h.1
    obtain ⟨k1, k2⟩ := hf hs
    have hne : stamp R (s.pos + r.lost) ≠ s.prev := by rw [k2]; exact stamp_ne (by omega) h2
    have hcr := count_right (s.pos + r.lost) p0 (s.pos - p0) h2 h3
    rw [show p0 + (s.pos - p0) = s.pos + r.lost by omega, ← h5] at hcr
    simp only [k1, if_pos hne]
    rw [hcr, if_pos (by omega), if_pos (by omega), h5, hz, show s.pos + ((0 : Nat) : Int) = s.pos by omega]
    refine ⟨_, rfl, ⟨rfl, h2, h3, hb0, by simp only; omega, by simp only; omega, fun h => (by cases h), fun _ => ?_⟩, rfl⟩
    exact ⟨s.pos - p0, s.pos, by rw [show p0 + (s.pos - p0) = s.pos by omega], by simp only; omega, rfl⟩
  | true =>
    obtain ⟨n, q, h4, h6, h7⟩ := hbg hs
    simp only [h4, h7]
    by_cases ha : stamp R (s.pos + r.lost) ≠ stamp R q
    · rw [if_pos ha, count_right _ _ _ h2 h3]
      simp only
      by_cases hz : r.lost = 0
      · rw [if_pos (by omega), if_pos (by omega), h5, hz, show s.pos + ((0 : Nat) : Int) = s.pos by omega]
        exact ⟨_, rfl, ⟨rfl, h2, h3, hb0, by simp only; omega, by simp only; omega, fun h => (by cases h),
          fun _ => ⟨n, s.pos, rfl, by simp only; omega, rfl⟩⟩, rfl⟩
      · rw [if_neg (by omega)]
        exact ⟨_, rfl, ⟨rfl, h2, h3, hb0, by simp only; omega, by simp only; omega, fun h => (by cases h),
          fun _ => ⟨n, _, rfl, by simp only; omega, rfl⟩⟩, rfl⟩
    · rw [if_neg ha]
      have hq := stamp_inj h2 h2R (Decidable.not_not.1 ha)
      have hz : r.lost = 0 := by omega
      simp only
      rw [if_pos (by omega), if_pos (by omega), h5, hz, show s.pos + ((0 : Nat) : Int) = s.pos by omega]
      exact ⟨_, rfl, ⟨rfl, h2, h3, hb0, by simp only; omega, by simp only; omega, fun h => (by cases h),
        fun _ => ⟨n, s.pos, rfl, by simp only; omega, rfl⟩⟩, rfl⟩

theorem receive_first {R pos : Int} (h0 : 0 < R) (h1 : 3 * R < giga) (hp : 0 ≤ pos) (r : Read) (room : Nat) :
    ∃ s', (Io.new R pos).receive r room = .ok (s', upTo (pos + r.lost) (min r.len room), 0) ∧ IoOk s' R (pos + r.lost) r.stamped ∧
      s'.pos = pos + r.lost + (min r.len room : Nat) := by
  have ok : IoOk (Io.new R (pos + r.lost)) R (pos + r.lost) false :=
    ⟨rfl, h0, h1, by omega, by simp [Io.new], by simp [Io.new], fun _ => ⟨rfl, rfl⟩, fun h => (by cases h)⟩
  obtain ⟨s', e, ok', hpos⟩ := receive_ok ok ⟨0, r.len, r.stamped⟩ (.inl rfl) room
  have e0 : (Io.new R pos).receive r room = (Io.new R (pos + r.lost)).receive ⟨0, r.len, r.stamped⟩ room := by
    simp [Io.receive, Io.new]
  refine ⟨s', ?_, by simpa using ok', by simpa [Io.new] using hpos⟩
  rw [e0, e]
  simp [Io.new]

/-! ## Blocks -/

theorem upTo_take (a : Int) (n k : Nat) (h : k ≤ n) : (upTo a n).take k = upTo a k := by
  obtain ⟨m, rfl⟩ := Nat.exists_eq_add_of_le h
  rw [upTo_append, List.take_left' (by simp [upTo])]

theorem upTo_drop (a : Int) (n k : Nat) : (upTo a (k + n)).drop k = upTo (a + k) n := by
  rw [upTo_append, List.drop_left' (by simp [upTo])]

theorem put_take {buf xs : List Int} {i : Nat} (h : i ≤ buf.length) : (put buf i xs).take (i + xs.length) = buf.take i ++ xs := by
  unfold put
  rw [List.take_left' (by simp; omega)]

theorem put_length {buf xs : List Int} {i : Nat} (h : i + xs.length ≤ buf.length) : (put buf i xs).length = buf.length := by
  unfold put
  simp
  omega

/-- In the middle of the work, blocks up to number `last` having been passed on. -/
structure RxOk (s : Rx) (new overlap : Nat) (R p0 last : Int) (st : Bool) : Prop where
  new_ : s.new = new
  overlap_ : s.overlap = overlap
  new0 : 0 < new
  io : IoOk s.io R p0 st
  len : s.buffer.length = overlap + new
  room : s.filled < overlap + new
  skipLe : s.skip ≤ new
  skip0 : 0 < s.skip → s.filled = 0
  content : s.buffer.take s.filled = upTo (p0 + s.block * new) s.filled
  order : last < s.block
  past : (last + 1) * new ≤ s.io.next

theorem realign {n : Int} {new : Nat} (h : 0 < new) :
    n < (-(n / (-(new : Int))) + 1) * new ∧ (-(n / (-(new : Int))) + 1) * new ≤ n + new := by
  rw [Int.ediv_neg, Int.neg_neg]
  have h1 := Int.mul_ediv_add_emod n new
  have h2 := Int.emod_nonneg n (show (new : Int) ≠ 0 by omega)
  have h3 := Int.emod_lt_of_pos n (show (0 : Int) < new by omega)
  rw [Int.mul_comm] at h1
  rw [Int.add_mul]
  omega

theorem step_ok {s : Rx} {new overlap : Nat} {R p0 last : Int} {st : Bool} (h : RxOk s new overlap R p0 last st) (r : Read)
    (hr : r.lost = 0 ∨ (st = true ∧ 1 < r.lost ∧ r.stamped = true)) :
    ∃ s' b last', s.step r = .ok (s', b) ∧ RxOk s' new overlap R p0 last' (st || r.stamped) ∧
      ((b = none ∧ last' = last) ∨ (b = some ⟨last', upTo (p0 + last' * new) (overlap + new)⟩ ∧ last < last')) ∧
      (r.lost = 0 → (0 < s.skip → s.io.next + s.skip = s.block * new) → (s.skip = 0 → s.io.next = s.block * new + s.filled) →
        (0 < s'.skip → s'.io.next + s'.skip = s'.block * new) ∧ (s'.skip = 0 → s'.io.next = s'.block * new + s'.filled) ∧
        ((b = none ∧ s'.block = s.block) ∨ (b ≠ none ∧ last' = s.block ∧ s'.block = s.block + 1))) := by
  obtain ⟨h1, h2, h3, h4, h5, h6, h7, h8, h9, h10, h11⟩ := h
  have hpos := h4.next
  unfold Rx.step
  by_cases hs : 0 < s.skip
  · rw [if_pos hs, if_pos (by omega)]
    obtain ⟨io, e, hio, hp⟩ := receive_ok h4 r hr s.skip
    have hn := hio.next
    rw [e]
    simp only [Res.bind_ok]
    have hlen : (upTo (s.io.pos + r.lost) (min r.len s.skip)).length = min r.len s.skip := by simp [upTo]
    refine ⟨_, _, last, rfl, ⟨h1, h2, h3, hio, ?_, ?_, ?_, ?_, ?_, h10, ?_⟩, .inl ⟨rfl, rfl⟩, ?_⟩
    · simp only
      rw [put_length (by omega)]
      exact h5
    · exact h6
    · simp only; omega
    · intro _; exact h8 hs
    · simp only
      rw [h8 hs]
      rfl
    · simp only; omega
    · intro hz ha _
      have := ha hs
      have := h8 hs
      simp only [hlen]
      exact ⟨by omega, by omega, .inl (by simp)⟩
  · rw [if_neg hs]
    obtain ⟨io, e, hio, hp⟩ := receive_ok h4 r hr (s.buffer.length - s.filled)
    have hn := hio.next
    rw [e]
    simp only [Res.bind_ok]
    have hlen : (upTo (s.io.pos + r.lost) (min r.len (s.buffer.length - s.filled))).length = min r.len (s.buffer.length - s.filled) := by simp [upTo]
    by_cases hc : s.io.pos + r.lost - p0 - (s.block * s.new + s.filled) ≠ 0
    · rw [if_pos hc]
      have hra := realign (n := s.io.pos + r.lost - p0 + (upTo (s.io.pos + r.lost) (min r.len (s.buffer.length - s.filled))).length) h3
      rw [← h1] at hra
      refine ⟨_, _, last, rfl, ⟨h1, h2, h3, hio, ?_, ?_, ?_, ?_, ?_, ?_, ?_⟩, .inl ⟨rfl, rfl⟩, ?_⟩
      · simp only
        rw [put_length (by omega)]
        exact h5
      · simp only; omega
      · simp only
        omega
      · intro _; rfl
      · rfl
      · simp only
        have : (last + 1) * (new : Int) < (-((s.io.pos + r.lost - p0 + (upTo (s.io.pos + r.lost) (min r.len (s.buffer.length - s.filled))).length) / (-(s.new : Int))) + 1) * new := by
          rw [← h1]; rw [← h1] at h11; omega
        have := Int.lt_of_mul_lt_mul_right this (by omega)
        omega
      · simp only; omega
      · intro hz _ hb
        have := hb (by omega)
        rw [h1] at hc
        omega
    · rw [if_neg hc]
      have hc : s.io.pos + r.lost = p0 + s.block * new + s.filled := by rw [h1] at hc; omega
      have hcont : (put s.buffer s.filled (upTo (s.io.pos + r.lost) (min r.len (s.buffer.length - s.filled)))).take
          (s.filled + (upTo (s.io.pos + r.lost) (min r.len (s.buffer.length - s.filled))).length) =
          upTo (p0 + s.block * new) (s.filled + min r.len (s.buffer.length - s.filled)) := by
        rw [put_take (by omega), h9, upTo_append, hc]
      have hpl : (put s.buffer s.filled (upTo (s.io.pos + r.lost) (min r.len (s.buffer.length - s.filled)))).length = overlap + new := by
        rw [put_length (by omega), h5]
      by_cases hf : s.filled + (upTo (s.io.pos + r.lost) (min r.len (s.buffer.length - s.filled))).length =
          (put s.buffer s.filled (upTo (s.io.pos + r.lost) (min r.len (s.buffer.length - s.filled)))).length
      · rw [if_pos hf]
        rw [hf, List.take_length] at hcont
        have hN : s.filled + min r.len (s.buffer.length - s.filled) = overlap + new := by omega
        rw [hN] at hcont
        have hmul : (s.block + 1) * (new : Int) = s.block * new + new := by rw [Int.add_mul, Int.one_mul]
        refine ⟨_, _, s.block, rfl, ⟨h1, h2, h3, hio, ?_, ?_, ?_, ?_, ?_, ?_, ?_⟩, .inr ⟨?_, h10⟩, ?_⟩
        · simp only [Rx.begin]
          simp
          omega
        · simp only [Rx.begin]; omega
        · simp only [Rx.begin]; omega
        · simp only [Rx.begin]; omega
        · simp only [Rx.begin]
          rw [hcont, h1, h2, Nat.add_comm overlap new, upTo_drop, List.take_left' (by simp [upTo])]
          rw [List.take_of_length_le (by simp [upTo]), hmul, Int.add_assoc]
        · simp only [Rx.begin]; omega
        · simp only [Rx.begin]; omega
        · rw [hcont]
        · intro hz _ hb
          simp only [Rx.begin]
          exact ⟨by omega, by omega, .inr (by simp)⟩
      · rw [if_neg hf]
        refine ⟨_, _, last, rfl, ⟨h1, h2, h3, hio, hpl, ?_, h7, ?_, ?_, h10, ?_⟩, .inl ⟨rfl, rfl⟩, ?_⟩
        · simp only; omega
        · simp only; omega
        · simp only
          rw [hcont, hlen]
        · simp only; omega
        · intro hz _ hb
          have := hb (by omega)
          simp only
          exact ⟨by omega, by omega, .inl (by simp)⟩

/-- All losses can be told from timestamps: of more than one sample, before a read with a timestamp, which is not the first one; `st` says
whether there was a timestamp before. -/
def Told : Bool → List Read → Prop
  | _, [] => True
  | st, r :: rs => (r.lost = 0 ∨ (st = true ∧ 1 < r.lost ∧ r.stamped = true)) ∧ Told (st || r.stamped) rs

theorem run_ok (rs : List Read) : ∀ {s : Rx} {new overlap : Nat} {R p0 last : Int} {st : Bool}, RxOk s new overlap R p0 last st → Told st rs →
    ∃ s' bs last' st', s.run rs = .ok (s', bs) ∧ (RxOk s' new overlap R p0 last' st' ∧ st' = (st || rs.any (·.stamped))) ∧ (bs.map Block.number).Pairwise (· < ·) ∧
      (∀ b ∈ bs, last < b.number ∧ b.samples = upTo (p0 + b.number * new) (overlap + new)) ∧
      ((∀ r ∈ rs, r.lost = 0) → (0 < s.skip → s.io.next + s.skip = s.block * new) → (s.skip = 0 → s.io.next = s.block * new + s.filled) →
        bs.map Block.number = upTo s.block bs.length ∧ s'.block = s.block + bs.length ∧
        (0 < s'.skip → s'.io.next + s'.skip = s'.block * new) ∧ (s'.skip = 0 → s'.io.next = s'.block * new + s'.filled)) := by
  induction rs with
  | nil =>
    intro s new overlap R p0 last st h _
    exact ⟨s, [], last, st, rfl, ⟨h, by simp⟩, by simp, by simp, fun _ h1 h2 => ⟨rfl, by simp, h1, h2⟩⟩
  | cons r rs ih =>
    intro s new overlap R p0 last st h hr
    obtain ⟨s1, b, l1, e1, ok1, hb, hz⟩ := step_ok h r hr.1
    obtain ⟨s2, bs, l2, t2, e2, ok2, hp, hbs, hz2⟩ := ih ok1 hr.2
    have hrun : s.run (r :: rs) = .ok (s2, b.toList ++ bs) := by
      unfold Rx.run
      rw [e1, Res.bind_ok]
      simp only
      rw [e2]
      rfl
    refine ⟨s2, b.toList ++ bs, l2, t2, hrun, ⟨ok2.1, by rw [ok2.2, List.any_cons, Bool.or_assoc]⟩, ?_⟩
    rcases hb with ⟨rfl, rfl⟩ | ⟨rfl, hlt⟩
    · refine ⟨by simpa using hp, by simpa using hbs, ?_⟩
      intro hl ha hc
      obtain ⟨z1, z2, z3⟩ := hz (hl r (by simp)) ha hc
      obtain ⟨w1, w2, w3, w4⟩ := hz2 (fun q hq => hl q (by simp [hq])) z1 z2
      have : s1.block = s.block := by simpa using z3
      rw [this] at w1 w2
      exact ⟨by simpa using w1, by simpa using w2, w3, w4⟩
    · simp only [Option.toList_some, List.singleton_append, List.map_cons, List.pairwise_cons, List.mem_cons, forall_eq_or_imp]
      refine ⟨⟨?_, hp⟩, ⟨⟨hlt, trivial⟩, fun c hc => ⟨by have := (hbs c hc).1; omega, (hbs c hc).2⟩⟩, ?_⟩
      · intro n hn
        obtain ⟨c, hc, rfl⟩ := List.mem_map.1 hn
        exact (hbs c hc).1
      · rintro ⟨hl0, hl⟩ ha hc
        obtain ⟨z1, z2, z3⟩ := hz hl0 ha hc
        obtain ⟨w1, w2, w3, w4⟩ := hz2 hl z1 z2
        have z4 : l1 = s.block ∧ s1.block = s.block + 1 := by simpa using z3
        rw [z4.2] at w1 w2
        refine ⟨?_, by rw [w2, List.length_cons]; omega, w3, w4⟩
        rw [w1, z4.1, List.length_cons, Nat.add_comm, upTo_append]
        simp [upTo]

theorem told_of_none (rs : List Read) (h : ∀ q ∈ rs, q.lost = 0) : ∀ st, Told st rs := by
  induction rs with
  | nil => intro _; trivial
  | cons r rs ih => intro st; exact ⟨.inl (h r (by simp)), ih (fun q hq => h q (by simp [hq])) _⟩

theorem first_ok {new overlap : Nat} (hn : 0 < new) {R pos : Int} (h0 : 0 < R) (h1 : 3 * R < giga) (hp : 0 ≤ pos) (r : Read) :
    ∃ s', (Rx.init new overlap (Io.new R pos)).step r = .ok (s', none) ∧ RxOk s' new overlap R (pos + r.lost) (-1) r.stamped ∧
      s'.block = (min r.len new / new : Nat) + 1 ∧ 0 < s'.skip ∧ s'.io.next + s'.skip = s'.block * new := by
  have hbl : (Rx.init new overlap (Io.new R pos)).buffer.length = overlap + new := by
    simp [Rx.init, Rx.begin]
  obtain ⟨io, e, hio, hpos⟩ := receive_first h0 h1 hp r ((Rx.init new overlap (Io.new R pos)).buffer.length - overlap)
  have hroom : (Rx.init new overlap (Io.new R pos)).buffer.length - overlap = new := by omega
  rw [hroom] at e hpos
  have hnext := hio.next
  have hlen : (upTo (pos + r.lost) (min r.len new)).length = min r.len new := by simp [upTo]
  have hra := realign (n := (0 : Int) + (upTo (pos + r.lost) (min r.len new)).length) hn
  unfold Rx.step
  have hskip : (Rx.init new overlap (Io.new R pos)).skip = 0 := rfl
  have hfill : (Rx.init new overlap (Io.new R pos)).filled = overlap := rfl
  have hio' : (Rx.init new overlap (Io.new R pos)).io = Io.new R pos := rfl
  have hblk : (Rx.init new overlap (Io.new R pos)).block = 1 := rfl
  have hnew : (Rx.init new overlap (Io.new R pos)).new = new := rfl
  rw [hskip, hfill, hio', hblk, hnew, if_neg (by omega), hroom, e]
  simp only [Res.bind_ok]
  rw [if_pos (by omega)]
  refine ⟨_, rfl, ⟨rfl, rfl, hn, hio, ?_, ?_, ?_, ?_, rfl, ?_, ?_⟩, ?_, ?_, ?_⟩
  · simp only
    rw [put_length (by omega)]
    exact hbl
  · simp only; omega
  · simp only
    omega
  · intro _; rfl
  · simp only
    have : (0 : Int) * new < (-((0 + ((upTo (pos + r.lost) (min r.len new)).length : Int)) / (-(new : Int))) + 1) * new := by omega
    have := Int.lt_of_mul_lt_mul_right this (by omega)
    omega
  · simp only; omega
  · simp only
    rw [hlen, Int.ediv_neg, Int.neg_neg, Int.zero_add]
    rfl
  · simp only; omega
  · simp only; omega

/-- **C87.** The radio is read any number of times, with any number of samples in each read, at any sample rate below 333 MHz, with
or without timestamps. Before any read with a timestamp, except the first such, any number of samples may have been lost, but not exactly
one. Then every block passed on to the demodulators, with number `n`,
consists of the samples which the radio took at numbers `n * new`, `n * new + 1`, … since the first one read, without a gap; the
blocks are in order, and nothing aborts. -/
theorem c87_blocks {new overlap : Nat} (hn : 0 < new) {R pos : Int} (h0 : 0 < R) (h1 : 3 * R < giga) (hp : 0 ≤ pos) (r : Read) (rs : List Read)
    (hr : Told r.stamped rs) :
    ∃ s bs, (Rx.init new overlap (Io.new R pos)).run (r :: rs) = .ok (s, bs) ∧ (bs.map Block.number).Pairwise (· < ·) ∧
      ∀ b ∈ bs, 0 ≤ b.number ∧ b.samples = upTo (pos + r.lost + b.number * new) (overlap + new) := by
  obtain ⟨s1, e1, ok1, _⟩ := first_ok hn h0 h1 hp r
  obtain ⟨s2, bs, l2, t2, e2, ok2, hpw, hbs, _⟩ := run_ok rs ok1 hr
  refine ⟨s2, bs, ?_, hpw, fun b hb => ⟨by have := (hbs b hb).1; omega, (hbs b hb).2⟩⟩
  unfold Rx.run
  rw [e1, Res.bind_ok]
  simp only
  rw [e2]
  rfl

/-- **C87, without losses.** If no samples are lost after the first read, the blocks passed on are all those from the first one which
begins after the first read, up to the last one all of whose samples have been read. -/
theorem c87_all_blocks {new overlap : Nat} (hn : 0 < new) {R pos : Int} (h0 : 0 < R) (h1 : 3 * R < giga) (hp : 0 ≤ pos) (r : Read) (rs : List Read)
    (hr : ∀ q ∈ rs, q.lost = 0) :
    ∃ s bs, (Rx.init new overlap (Io.new R pos)).run (r :: rs) = .ok (s, bs) ∧
      bs.map Block.number = upTo ((min r.len new / new : Nat) + 1) bs.length ∧
      s.io.pos < pos + r.lost + ((min r.len new / new : Nat) + 1 + bs.length) * new + (overlap + new) := by
  obtain ⟨s1, e1, ok1, hb, hsk, hnx⟩ := first_ok (overlap := overlap) hn h0 h1 hp r
  obtain ⟨s2, bs, l2, t2, e2, ok2, hpw, hbs, hz⟩ := run_ok rs ok1 (told_of_none rs hr _)
  obtain ⟨z1, z2, z3, z4⟩ := hz hr (fun _ => hnx) (by omega)
  refine ⟨s2, bs, ?_, by rw [z1, hb], ?_⟩
  · unfold Rx.run
    rw [e1, Res.bind_ok]
    simp only
    rw [e2]
    rfl
  · have := ok2.1.io.next
    have := ok2.1.room
    rw [hb] at z2
    rw [z2] at z3 z4
    by_cases h : s2.skip = 0
    · have := z4 h
      omega
    · have := z3 (by omega)
      omega

/-- A run: the first read is short, the next ones have no timestamp, then nine samples are lost. -/
example : Told true (List.replicate 9 ⟨0, 5, false⟩ ++ ⟨9, 4, true⟩ :: List.replicate 6 ⟨0, 4, true⟩) := by simp [Told, List.replicate]

example : ((Rx.init 6 2 (Io.new 4000 1000)).run (⟨3, 2, true⟩ :: (List.replicate 9 ⟨0, 5, false⟩ ++ ⟨9, 4, true⟩ :: List.replicate 6 ⟨0, 4, true⟩)) >>= fun x => Res.ok x.2) =
    .ok [⟨1, upTo 1009 8⟩, ⟨2, upTo 1015 8⟩, ⟨3, upTo 1021 8⟩, ⟨4, upTo 1027 8⟩, ⟨8, upTo 1051 8⟩, ⟨9, upTo 1057 8⟩] := by
  decide +kernel

/-- **C87, finding.** A single lost sample is not noticed: it is taken for jitter of the timestamps. The block is passed on with a gap,
and all later ones are shifted by one sample. -/
theorem c87_one_lost : ((Rx.init 6 2 (Io.new 4000 1000)).run (⟨0, 2, true⟩ :: ⟨0, 4, true⟩ :: ⟨0, 4, true⟩ :: ⟨1, 4, true⟩ :: List.replicate 2 ⟨0, 6, true⟩) >>= fun x => Res.ok x.2) =
    .ok [⟨1, [1006, 1007, 1008, 1009, 1011, 1012, 1013, 1014]⟩, ⟨2, upTo 1013 8⟩, ⟨3, upTo 1019 8⟩] := by
  decide +kernel

/-- **C87, finding.** A loss before a read without a timestamp is noticed only at the next timestamp: until then blocks have a gap and a wrong
number. -/
theorem c87_unstamped_lost : ((Rx.init 6 2 (Io.new 4000 1000)).run (⟨0, 2, true⟩ :: ⟨0, 4, true⟩ :: ⟨0, 4, true⟩ :: ⟨5, 4, false⟩ :: ⟨0, 6, false⟩ ::
    List.replicate 4 ⟨0, 6, true⟩) >>= fun x => Res.ok x.2) =
    .ok [⟨1, [1006, 1007, 1008, 1009, 1015, 1016, 1017, 1018]⟩, ⟨2, upTo 1017 8⟩, ⟨6, upTo 1036 8⟩] := by
  decide +kernel

end Verif.Dsp.Receive
