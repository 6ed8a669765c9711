import Verif.Core.TdmaProps
/-!
# C03 — Frames, multiframes and hyperframes as numbers of slots
-/
namespace Verif.Tdma

/-- **C03, units of time**: `k` frames later (or earlier) it is the same timeslot of another frame, `k` multiframes later the same slot
and frame of another multiframe, `k` hyperframes later the same slot, frame and multiframe. -/
theorem c03_units (x y : Time) (hx : x.valid) (k : Int) :
    (x.addTimeslots (frames k) = .ok y → y.t = x.t ∧ (y.f : Int) - 1 = ((x.f : Int) - 1 + k) % 18) ∧
    (x.addTimeslots (multiframes k) = .ok y → y.t = x.t ∧ y.f = x.f ∧ (y.m : Int) - 1 = ((x.m : Int) - 1 + k) % 60) ∧
    (x.addTimeslots (hyperframes k) = .ok y → y.t = x.t ∧ y.f = x.f ∧ y.m = x.m ∧ (y.h : Int) = ((x.h : Int) + k) % 65536) := by
  obtain ⟨h1, h2, h3, h4, h5, h6, h7⟩ := hx
  refine ⟨?_, ?_, ?_⟩ <;> intro h <;> simp only [Time.addTimeslots] at h <;> split at h <;> cases h <;>
    simp only [fromInt, Time.toInt, frames, multiframes, hyperframes]
  · refine ⟨by omega, by omega⟩
  · refine ⟨by omega, by omega, by omega⟩
  · refine ⟨by omega, by omega, by omega, by omega⟩

/-- Three multiframes after the last but one of a hyperframe. -/
example : (Time.mk 2 5 59 7).valid ∧ (Time.mk 2 5 59 7).addTimeslots (multiframes 3) = .ok ⟨2, 5, 2, 8⟩ := by decide

end Verif.Tdma
