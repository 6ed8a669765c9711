import Verif.Common
/-!
# TDMA time: model of `crates/tetra-core/src/tdma_time.rs`
-/
namespace Verif.Tdma

/-- `TdmaTime` (tdma_time.rs:30-40). Unsigned machine integers are naturals; the type bounds are part
of `valid`. -/
structure Time where
  t : Nat
  f : Nat
  m : Nat
  h : Nat
  deriving DecidableEq, Repr

/-- `TdmaTime::is_valid` (tdma_time.rs:65-67), plus the bound `h : u16` which Rust gets from the type. -/
def Time.valid (x : Time) : Prop :=
  1 ≤ x.t ∧ x.t ≤ 4 ∧ 1 ≤ x.f ∧ x.f ≤ 18 ∧ 1 ≤ x.m ∧ x.m ≤ 60 ∧ x.h ≤ 65535

instance (x : Time) : Decidable x.valid := by unfold Time.valid; infer_instance

/-- `TIME_INT_WRAP` (tdma_time.rs:50). -/
def wrap : Int := 4 * 18 * 60 * 65536

/-- Bounds of `i32`. -/
def inI32 (n : Int) : Prop := -2147483648 ≤ n ∧ n ≤ 2147483647
instance (n : Int) : Decidable (inI32 n) := by unfold inI32; infer_instance

/-- `TdmaTime::to_int` (tdma_time.rs:69-71). Cannot overflow `i32` for a valid time. -/
def Time.toInt (x : Time) : Int :=
  ((x.t : Int) - 1) + (((x.f : Int) - 1) * 4) + (((x.m : Int) - 1) * 4 * 18) + ((x.h : Int) * 4 * 18 * 60)

/-- `TdmaTime::from_int` (tdma_time.rs:75-83). `rem_euclid`/`div_euclid` are Lean's `%` and `/` on
`Int`; the cast `as u16` keeps the low 16 bits. -/
def fromInt (n : Int) : Time :=
  { t := (n % 4 + 1).toNat
    f := ((n / 4) % 18 + 1).toNat
    m := ((n / (4 * 18)) % 60 + 1).toNat
    h := ((n / (4 * 18 * 60)) % 65536).toNat }

/-- `TdmaTime::add_timeslots` (tdma_time.rs:86-88); the `i32` addition aborts on overflow. -/
def Time.addTimeslots (x : Time) (n : Int) : Res Time :=
  if inI32 (x.toInt + n) then .ok (fromInt (x.toInt + n)) else .panic

/-- First loop of `time_int_diff` (tdma_time.rs:55-57). -/
def diffUp (d : Int) : Int :=
  if d < (-wrap) / 2 then diffUp (d + wrap) else d
termination_by ((-wrap) / 2 - d).toNat
decreasing_by simp only [wrap] at *; omega

/-- Second loop of `time_int_diff` (tdma_time.rs:58-60). -/
def diffDown (d : Int) : Int :=
  if d ≥ wrap / 2 then diffDown (d - wrap) else d
termination_by (d - wrap / 2 + 1).toNat
decreasing_by simp only [wrap] at *; omega

/-- `time_int_diff` (tdma_time.rs:53-62). -/
def timeIntDiff (a b : Int) : Int := diffDown (diffUp (a - b))

/-- `TdmaTime::diff` (tdma_time.rs:91-93). -/
def Time.diff (a b : Time) : Int := timeIntDiff a.toInt b.toInt

/-- `TdmaTime::age` (tdma_time.rs:97-99). -/
def Time.age (x now : Time) : Int := now.diff x

/-- `TdmaTime::forward_to_timeslot` (tdma_time.rs:104-107), for `ts` small enough that `ts + 4` fits a
byte and `ts + 4 >= self.t` (true for a valid time). -/
def Time.forwardToTimeslot (x : Time) (ts : Nat) : Res Time :=
  x.addTimeslots (((ts + 4 - x.t) % 4 : Nat) : Int)

/-- `TdmaTime::is_mandatory_bsch` (tdma_time.rs:110-112). -/
def Time.isMandatoryBsch (x : Time) : Bool := x.f == 18 && x.t == 4 - ((x.m + 1) % 4)

/-- `TdmaTime::is_mandatory_bnch` (tdma_time.rs:115-117). -/
def Time.isMandatoryBnch (x : Time) : Bool := x.f == 18 && x.t == 4 - ((x.m + 3) % 4)

/-- `TdmaTime::is_mandatory_clch` (tdma_time.rs:120-123). -/
def Time.isMandatoryClch (x : Time) : Bool := x.f == 18 && x.t == 4 - ((x.m + 1) % 4)

/-- `frames!` (tdma_time.rs:24-28). -/
def frames (f : Int) : Int := f * 4
/-- `multiframes!` (tdma_time.rs:16-20). -/
def multiframes (m : Int) : Int := m * 18 * 4
/-- `hyperframes!` (tdma_time.rs:8-12). -/
def hyperframes (h : Int) : Int := h * 60 * 18 * 4

/-- `TdmaTime::default` (tdma_time.rs:42-47). -/
def Time.default : Time := { h := 0, m := 1, f := 1, t := 1 }

/-! ## Basic facts used by other parts of the model -/

theorem toInt_nonneg {x : Time} (h : x.valid) : 0 ≤ x.toInt := by
  obtain ⟨_, _, _, _, _, _, _⟩ := h; unfold Time.toInt; omega

theorem toInt_lt {x : Time} (h : x.valid) : x.toInt < wrap := by
  obtain ⟨_, _, _, _, _, _, _⟩ := h; unfold Time.toInt wrap; omega

theorem fromInt_valid (n : Int) : (fromInt n).valid := by
  unfold fromInt Time.valid; simp only; omega

theorem toInt_fromInt (n : Int) : (fromInt n).toInt = n % wrap := by
  unfold fromInt Time.toInt wrap; simp only
  omega

theorem fromInt_toInt {x : Time} (h : x.valid) : fromInt x.toInt = x := by
  obtain ⟨_, _, _, _, _, _, _⟩ := h
  obtain ⟨t, f, m, hh⟩ := x
  simp only at *
  simp only [fromInt, Time.toInt, Time.mk.injEq]
  refine ⟨?_, ?_, ?_, ?_⟩ <;> omega

theorem toInt_inj {x y : Time} (hx : x.valid) (hy : y.valid) (h : x.toInt = y.toInt) : x = y := by
  rw [← fromInt_toInt hx, ← fromInt_toInt hy, h]

theorem diffUp_spec (d : Int) : (-wrap) / 2 ≤ diffUp d ∧ wrap ∣ (diffUp d - d) ∧
    (d < wrap / 2 → diffUp d < wrap / 2) := by
  fun_induction diffUp d with
  | case1 d h ih =>
    refine ⟨ih.1, ?_, fun _ => ih.2.2 ?_⟩
    · obtain ⟨k, hk⟩ := ih.2.1
      refine ⟨k + 1, ?_⟩
      have : wrap * (k + 1) = wrap * k + wrap := by rw [Int.mul_add, Int.mul_one]
      omega
    · simp only [wrap] at *; omega
  | case2 d h => exact ⟨by omega, ⟨0, by omega⟩, fun h => h⟩

theorem diffDown_spec (d : Int) (hd : (-wrap) / 2 ≤ d) :
    (-wrap) / 2 ≤ diffDown d ∧ diffDown d < wrap / 2 ∧ wrap ∣ (diffDown d - d) := by
  fun_induction diffDown d with
  | case1 d h ih =>
    have ih := ih (by simp only [wrap] at *; omega)
    refine ⟨ih.1, ih.2.1, ?_⟩
    obtain ⟨k, hk⟩ := ih.2.2
    refine ⟨k - 1, ?_⟩
    have : wrap * (k - 1) = wrap * k - wrap := by rw [Int.mul_sub, Int.mul_one]
    omega
  | case2 d h => exact ⟨hd, by omega, ⟨0, by omega⟩⟩

theorem timeIntDiff_spec (a b : Int) :
    (-wrap) / 2 ≤ timeIntDiff a b ∧ timeIntDiff a b < wrap / 2 ∧ wrap ∣ (timeIntDiff a b - (a - b)) := by
  unfold timeIntDiff
  have h1 := diffUp_spec (a - b)
  have h2 := diffDown_spec _ h1.1
  refine ⟨h2.1, h2.2.1, ?_⟩
  have := Int.dvd_add h2.2.2 h1.2.1
  rwa [show diffDown (diffUp (a - b)) - diffUp (a - b) + (diffUp (a - b) - (a - b)) = diffDown (diffUp (a - b)) - (a - b) by omega] at this

/-- The closed form of the circular distance. -/
theorem timeIntDiff_eq (a b : Int) : timeIntDiff a b = (a - b + wrap / 2) % wrap - wrap / 2 := by
  obtain ⟨h1, h2, k, hk⟩ := timeIntDiff_spec a b
  have hw : wrap = 283115520 := rfl
  generalize timeIntDiff a b = d at *
  rw [hw] at h1 h2 hk ⊢
  omega

theorem addTimeslots_ok {x : Time} (hx : x.valid) {n : Int} (h1 : -1000000000 ≤ n) (h2 : n ≤ 1000000000) :
    x.addTimeslots n = .ok (fromInt (x.toInt + n)) := by
  have := toInt_nonneg hx; have := toInt_lt hx
  unfold Time.addTimeslots
  rw [if_pos]
  unfold inI32; simp only [wrap] at *; omega

end Verif.Tdma
