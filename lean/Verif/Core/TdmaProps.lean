import Verif.Core.Tdma
/-!
# Properties C03 and C04: TDMA time

`toInt` is the slot number inside the 283115520-slot cycle; the specification of a signed distance is
"the representative of `a - b` modulo the cycle length which lies in `[-W/2, W/2)`".
-/
namespace Verif.Tdma

/-- Independent specification of the signed circular distance from `b` to `a`. -/
def IsDistance (a b d : Int) : Prop :=
  -141557760 ≤ d ∧ d < 141557760 ∧ ∃ k : Int, a - b = d + k * 283115520

theorem isDistance_unique {a b d e : Int} (hd : IsDistance a b d) (he : IsDistance a b e) : d = e := by
  obtain ⟨_, _, k, hk⟩ := hd; obtain ⟨_, _, l, hl⟩ := he; omega

/-- C03: valid times are in bijection with the slot numbers `0 .. 283115520`. -/
theorem c03_time_bijection :
    (∀ x : Time, x.valid → 0 ≤ x.toInt ∧ x.toInt < 283115520 ∧ fromInt x.toInt = x) ∧
    (∀ n : Int, 0 ≤ n → n < 283115520 → (fromInt n).valid ∧ (fromInt n).toInt = n) := by
  refine ⟨fun x hx => ⟨toInt_nonneg hx, toInt_lt hx, fromInt_toInt hx⟩, fun n h0 h1 => ?_⟩
  refine ⟨fromInt_valid n, ?_⟩
  rw [toInt_fromInt]; unfold wrap; omega

/-- C03: adding any signed number of slots which does not overflow the 32-bit slot counter gives a
valid time whose slot number is the sum modulo the cycle length; the only abort is that overflow. -/
theorem c03_add_spec (x : Time) (hx : x.valid) (n : Int) :
    (inI32 (x.toInt + n) → ∃ y, x.addTimeslots n = .ok y ∧ y.valid ∧
        y.toInt = (x.toInt + n) % 283115520) ∧
    (¬ inI32 (x.toInt + n) → x.addTimeslots n = .panic) := by
  constructor
  · intro h
    exact ⟨_, by unfold Time.addTimeslots; rw [if_pos h], fromInt_valid _, toInt_fromInt _⟩
  · intro h; unfold Time.addTimeslots; rw [if_neg h]

/-- C03: no `i32` offset up to ±1 864 368 127 can abort. -/
theorem c03_add_total (x : Time) (hx : x.valid) (n : Int) (h1 : -2147483648 ≤ n) (h2 : n ≤ 1864368127) :
    ∃ y, x.addTimeslots n = .ok y := by
  have := toInt_nonneg hx; have := toInt_lt hx
  obtain ⟨y, hy, _⟩ := (c03_add_spec x hx n).1 (by unfold inI32; simp only [wrap] at *; omega)
  exact ⟨y, hy⟩

/-- C03: adding `a` and then `b` slots is adding `a + b` slots. -/
theorem c03_add_add (x y z : Time) (hx : x.valid) (a b : Int)
    (hy : x.addTimeslots a = .ok y) (hz : y.addTimeslots b = .ok z)
    (hab : inI32 (x.toInt + (a + b))) : x.addTimeslots (a + b) = .ok z := by
  unfold Time.addTimeslots at *
  split at hy <;> simp at hy
  split at hz <;> simp at hz
  subst hy hz
  rw [if_pos hab]
  congr 1
  apply toInt_inj (fromInt_valid _) (fromInt_valid _)
  simp only [toInt_fromInt, wrap]; omega

/-- C03: adding zero changes nothing, and subtracting undoes adding. -/
theorem c03_add_sub (x y : Time) (hx : x.valid) (a : Int) (hy : x.addTimeslots a = .ok y)
    (hr : inI32 (y.toInt - a)) : y.addTimeslots (-a) = .ok x := by
  unfold Time.addTimeslots at *
  split at hy <;> simp at hy
  subst hy
  rw [if_pos (by simpa [Int.sub_eq_add_neg] using hr)]
  congr 1
  apply toInt_inj (fromInt_valid _) hx
  have := toInt_nonneg hx; have := toInt_lt hx
  simp only [toInt_fromInt, wrap] at *; omega

/-- C03: `diff` is the circular distance. -/
theorem c03_diff_is_distance (a b : Time) : IsDistance a.toInt b.toInt (a.diff b) := by
  obtain ⟨h1, h2, k, hk⟩ := timeIntDiff_spec a.toInt b.toInt
  refine ⟨by simpa [wrap, Time.diff] using h1, by simpa [wrap, Time.diff] using h2, -k, ?_⟩
  unfold Time.diff wrap at *; omega

/-- C03: `diff` and `age` undo `add_timeslots` for every offset of less than half the cycle. -/
theorem c03_diff_add (x y : Time) (n : Int) (hx : x.valid) (h1 : -141557760 ≤ n) (h2 : n < 141557760)
    (hy : x.addTimeslots n = .ok y) : y.diff x = n ∧ x.age y = n := by
  have hd : y.diff x = n := by
    apply isDistance_unique (c03_diff_is_distance y x)
    unfold Time.addTimeslots at hy
    split at hy <;> simp at hy
    subst hy
    refine ⟨h1, h2, (x.toInt + n) % wrap / wrap - (x.toInt + n) / wrap, ?_⟩
    rw [toInt_fromInt]; unfold wrap; omega
  exact ⟨hd, hd⟩

/-- C03: `diff` is zero only for equal times. -/
theorem c03_diff_zero (a b : Time) (ha : a.valid) (hb : b.valid) : a.diff b = 0 ↔ a = b := by
  constructor
  · intro h
    obtain ⟨_, _, k, hk⟩ := c03_diff_is_distance a b
    have := toInt_nonneg ha; have := toInt_lt ha; have := toInt_nonneg hb; have := toInt_lt hb
    apply toInt_inj ha hb
    simp only [wrap] at *; omega
  · rintro rfl
    apply isDistance_unique (c03_diff_is_distance a a)
    exact ⟨by omega, by omega, 0, by omega⟩

example : ({ t := 3, f := 18, m := 60, h := 65535 } : Time).valid ∧
    Time.addTimeslots { t := 3, f := 18, m := 60, h := 65535 } 2 = .ok Time.default := by decide
example : Time.addTimeslots Time.default (-1) = .ok { t := 4, f := 18, m := 60, h := 65535 } := by decide

/-- The time after a time: one slot later (specification of "consecutive"). -/
def Succ (x y : Time) : Prop := x.addTimeslots 1 = .ok y

/-- C04: in every multiframe exactly one slot is a mandatory BSCH slot, exactly one is a mandatory
BNCH slot, both in frame 18, and they are different slots. -/
theorem c04_one_per_multiframe (m h : Nat) :
    (∃ t f, (1 ≤ t ∧ t ≤ 4 ∧ f = 18) ∧
      ∀ x : Time, x.valid → x.m = m → x.h = h → (x.isMandatoryBsch = true ↔ x.t = t ∧ x.f = f)) ∧
    (∃ t f, (1 ≤ t ∧ t ≤ 4 ∧ f = 18) ∧
      ∀ x : Time, x.valid → x.m = m → x.h = h → (x.isMandatoryBnch = true ↔ x.t = t ∧ x.f = f)) ∧
    (∀ x : Time, x.valid → ¬ (x.isMandatoryBsch = true ∧ x.isMandatoryBnch = true)) := by
  refine ⟨⟨4 - (m + 1) % 4, 18, ⟨by omega, by omega, rfl⟩, ?_⟩,
          ⟨4 - (m + 3) % 4, 18, ⟨by omega, by omega, rfl⟩, ?_⟩, ?_⟩
  · intro x _ hm _; simp [Time.isMandatoryBsch, hm]; omega
  · intro x _ hm _; simp [Time.isMandatoryBnch, hm]; omega
  · intro x _; simp [Time.isMandatoryBsch, Time.isMandatoryBnch]; omega

/-- Slot (f = 18, timeslot `t`) of the multiframe which is `k` multiframes after that of `x`. -/
def slotIn (x : Time) (k : Nat) (t : Nat) : Time :=
  fromInt (({ x with t := t, f := 18 } : Time).toInt + 72 * (k : Int))

/-- C04: in every window of four consecutive multiframes (also across the wrap of the multiframe and
hyperframe counters), each of the four timeslots carries the BSCH exactly once and the BNCH exactly
once. -/
theorem c04_rotation (x : Time) (hx : x.valid) (t : Nat) (ht : 1 ≤ t ∧ t ≤ 4) :
    (∃ k, k < 4 ∧ (slotIn x k t).isMandatoryBsch = true ∧
      ∀ k', k' < 4 → (slotIn x k' t).isMandatoryBsch = true → k' = k) ∧
    (∃ k, k < 4 ∧ (slotIn x k t).isMandatoryBnch = true ∧
      ∀ k', k' < 4 → (slotIn x k' t).isMandatoryBnch = true → k' = k) := by
  obtain ⟨_, _, _, _, h5, h6, h7⟩ := hx
  have key : ∀ k, k < 4 → (slotIn x k t).t = t ∧ (slotIn x k t).f = 18 ∧
      (slotIn x k t).m = (x.m - 1 + k) % 60 + 1 := by
    intro k hk
    unfold slotIn fromInt Time.toInt
    simp only
    refine ⟨?_, ?_, ?_⟩ <;> omega
  have bsch : ∀ k, k < 4 → ((slotIn x k t).isMandatoryBsch = true ↔
      t = 4 - (((x.m - 1 + k) % 60 + 1 + 1) % 4)) := by
    intro k hk; obtain ⟨a, b, c⟩ := key k hk
    simp [Time.isMandatoryBsch, a, b, c]
  have bnch : ∀ k, k < 4 → ((slotIn x k t).isMandatoryBnch = true ↔
      t = 4 - (((x.m - 1 + k) % 60 + 1 + 3) % 4)) := by
    intro k hk; obtain ⟨a, b, c⟩ := key k hk
    simp [Time.isMandatoryBnch, a, b, c]
  constructor
  · refine ⟨(7 - t + 3 * x.m) % 4, by omega, (bsch _ (by omega)).2 (by omega), ?_⟩
    intro k' hk' h; have := (bsch k' hk').1 h; omega
  · refine ⟨(9 - t + 3 * x.m) % 4, by omega, (bnch _ (by omega)).2 (by omega), ?_⟩
    intro k' hk' h; have := (bnch k' hk').1 h; omega

/-- C04: `forward_to_timeslot` lands on the requested timeslot, 0 to 3 slots ahead, and does not move
when already there. -/
theorem c04_forward (x : Time) (hx : x.valid) (ts : Nat) (hts : 1 ≤ ts ∧ ts ≤ 4) :
    ∃ y n, x.forwardToTimeslot ts = .ok y ∧ y.valid ∧ y.t = ts ∧ 0 ≤ n ∧ n ≤ 3 ∧
      x.addTimeslots n = .ok y ∧ (x.t = ts → y = x) := by
  obtain ⟨y, hy⟩ := c03_add_total x hx (((ts + 4 - x.t) % 4 : Nat) : Int) (by omega) (by omega)
  refine ⟨y, (((ts + 4 - x.t) % 4 : Nat) : Int), hy, ?_, ?_, by omega, by omega, hy, ?_⟩
  · unfold Time.addTimeslots at hy; split at hy <;> simp at hy; subst hy; exact fromInt_valid _
  · unfold Time.addTimeslots at hy
    split at hy <;> simp at hy
    obtain ⟨_, _, _, _, _, _, _⟩ := hx
    subst hy
    unfold fromInt Time.toInt; simp only; omega
  · intro h
    have h0 : ((ts + 4 - x.t) % 4 : Nat) = 0 := by omega
    rw [h0] at hy
    unfold Time.addTimeslots at hy
    split at hy <;> simp at hy
    rw [← hy, fromInt_toInt hx]

example : Time.isMandatoryBsch { t := 1, f := 18, m := 2, h := 7 } = true := by decide

end Verif.Tdma
