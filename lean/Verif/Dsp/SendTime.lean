import Verif.Dsp.ReceiveProps
/-!
# C109 — What is sent and what is received are counted by one clock

The transmitting half of `SoapyIo` (crates/tetra-entities/src/phy/components/soapyio.rs), with the counting of received samples of C87.
The radio is as there: it counts samples and converts the counter to a time and back as SoapySDR does. Sample rates for both directions are
equal (soapy_settings.rs has one rate). Exact arithmetic.
-/
namespace Verif.Dsp.Receive
open Verif Verif.Dsp.Slots

/-- `transmit` (soapyio.rs:255-274): the time at which the radio is told to send the sample with this counter; `none` is an error. -/
def Io.sendAt (s : Io) (count : Int) : Option Int := s.initial.map fun t => t + ticksToNs count s.rate

/-- `tx_possible` (soapyio.rs:312-316), for a radio which can send. -/
def Io.canSend (s : Io) : Bool := s.initial.isSome

/-- `rx_current_count` and `tx_current_count` (soapyio.rs:280-310), for a radio which sends and receives; `hardware` is
`use_get_hardware_time`, `now` the time of the radio. -/
def Io.current (s : Io) (hardware : Bool) (now : Int) : Int :=
  if hardware then nsToTicks (now - s.initial.getD 0) s.rate else s.next - 1

/-! ## Specification -/

/-- The sample of the radio at a time. -/
def sampleOf (rate time : Int) : Int := nsToTicks time rate

/-! ## Proofs -/

theorem send_right (c p0 n : Int) {R : Int} (h0 : 0 < R) (h1 : 3 * R < giga) :
    nsToTicks (stamp R (p0 + n) - ticksToNs n R + ticksToNs c R) R = p0 + c := by
  have a := ticksToNs_near c h0
  have b := ticksToNs_near (p0 + n) h0
  have d := ticksToNs_near n h0
  have e : giga * (p0 + c) - (stamp R (p0 + n) - ticksToNs n R + ticksToNs c R) * R =
      (R * ticksToNs n R - n * giga) - (R * ticksToNs (p0 + n) R - (p0 + n) * giga) - (R * ticksToNs c R - c * giga) := by
    unfold stamp
    simp only [Int.mul_add, Int.mul_sub, Int.sub_mul, Int.add_mul, Int.mul_comm giga, Int.mul_comm _ R]
    omega
  exact nsToTicks_unique (by rw [e]; omega) (by rw [e]; omega)

theorem io_after {new overlap : Nat} (hn : 0 < new) {R pos : Int} (h0 : 0 < R) (h1 : 3 * R < giga) (hp : 0 ≤ pos) (r : Read) (rs : List Read)
    (hr : Told r.stamped rs) {s : Rx} {bs : List Block} (h : (Rx.init new overlap (Io.new R pos)).run (r :: rs) = .ok (s, bs)) :
    IoOk s.io R (pos + r.lost) ((r :: rs).any (·.stamped)) := by
  obtain ⟨s1, e1, ok1, _⟩ := first_ok (overlap := overlap) hn h0 h1 hp r
  obtain ⟨s2, bs2, l2, t2, e2, ⟨ok2, ht⟩, _⟩ := run_ok rs ok1 hr
  unfold Rx.run at h
  rw [e1, Res.bind_ok] at h
  simp only at h
  rw [e2] at h
  simp only [Res.bind_ok] at h
  cases h
  rw [List.any_cons, ← ht]
  exact ok2.io

/-! ## C109 -/

/-- **C109**: after any number of reads, as in C87, sending is possible exactly if one of them had a timestamp; and then the sample with
counter `c` is sent when the radio is at its sample `pos + r.lost + c`, which is the sample that has counter `c` when it is received
(`c87_blocks`). -/
theorem c109_aligned {new overlap : Nat} (hn : 0 < new) {R pos : Int} (h0 : 0 < R) (h1 : 3 * R < giga) (hp : 0 ≤ pos) (r : Read)
    (rs : List Read) (hr : Told r.stamped rs) {s : Rx} {bs : List Block}
    (h : (Rx.init new overlap (Io.new R pos)).run (r :: rs) = .ok (s, bs)) :
    (s.io.canSend = true ↔ ∃ q ∈ r :: rs, q.stamped = true) ∧
    (s.io.canSend = true → ∀ c, ∃ time, s.io.sendAt c = some time ∧ sampleOf R time = pos + r.lost + c) := by
  have ok := io_after hn h0 h1 hp r rs hr h
  rw [← List.any_eq_true]
  cases hst : (r :: rs).any (·.stamped) with
  | false =>
    obtain ⟨k, _⟩ := ok.fresh hst
    simp [Io.canSend, k]
  | true =>
    obtain ⟨n, q, k, _⟩ := ok.begun hst
    refine ⟨by simp [Io.canSend, k], fun _ c => ⟨_, by rw [Io.sendAt, k]; rfl, ?_⟩⟩
    rw [ok.rate]
    exact send_right c _ n h0 h1

/-- **C109, the clock**: once sending is possible, the counter of the moment is the one of the sample the radio is at, if its clock is read,
and the one of the last sample read otherwise. -/
theorem c109_clock {new overlap : Nat} (hn : 0 < new) {R pos : Int} (h0 : 0 < R) (h1 : 3 * R < giga) (hp : 0 ≤ pos) (r : Read)
    (rs : List Read) (hr : Told r.stamped rs) {s : Rx} {bs : List Block}
    (h : (Rx.init new overlap (Io.new R pos)).run (r :: rs) = .ok (s, bs)) (hc : s.io.canSend = true) (k : Int) :
    s.io.current true (stamp R k) = k - (pos + r.lost) ∧ s.io.current false (stamp R k) = s.io.pos - 1 - (pos + r.lost) := by
  have ok := io_after hn h0 h1 hp r rs hr h
  have hst : (r :: rs).any (·.stamped) = true := by
    cases hst : (r :: rs).any (·.stamped) with
    | false => obtain ⟨k, _⟩ := ok.fresh hst; simp [Io.canSend, k] at hc
    | true => rfl
  obtain ⟨n, q, e, _⟩ := ok.begun hst
  constructor
  · simp only [Io.current, if_true, e, Option.getD_some, ok.rate]
    exact count_right k _ n h0 h1
  · have := ok.next
    simp only [Io.current, Bool.false_eq_true, if_false]
    omega

/-- **C109, never late**: a sample with a counter above the one of the moment, by the clock of the radio, is sent after the sample the radio
is at. -/
theorem c109_ahead {new overlap : Nat} (hn : 0 < new) {R pos : Int} (h0 : 0 < R) (h1 : 3 * R < giga) (hp : 0 ≤ pos) (r : Read)
    (rs : List Read) (hr : Told r.stamped rs) {s : Rx} {bs : List Block}
    (h : (Rx.init new overlap (Io.new R pos)).run (r :: rs) = .ok (s, bs)) (hc : s.io.canSend = true) (k c : Int)
    (hk : s.io.current true (stamp R k) < c) : ∃ time, s.io.sendAt c = some time ∧ k < sampleOf R time := by
  obtain ⟨time, e, ht⟩ := (c109_aligned hn h0 h1 hp r rs hr h).2 hc c
  have := (c109_clock hn h0 h1 hp r rs hr h hc k).1
  exact ⟨time, e, by omega⟩

/-- **C109 finding: a single lost sample delays all that is sent.** The loss is taken for jitter (C87), and the times of sending move by one
sample: counter 100, which belonged to sample 1100 of the radio, is sent at sample 1101 from then on. -/
theorem c109_one_lost :
    (((Rx.init 6 2 (Io.new 4000 1000)).run [⟨0, 2, true⟩, ⟨0, 4, true⟩]) >>= fun x => Res.ok ((x.1.io.sendAt 100).map (sampleOf 4000))) =
      .ok (some 1100) ∧
    (((Rx.init 6 2 (Io.new 4000 1000)).run [⟨0, 2, true⟩, ⟨0, 4, true⟩, ⟨1, 4, true⟩]) >>= fun x =>
      Res.ok ((x.1.io.sendAt 100).map (sampleOf 4000))) = .ok (some 1101) := by
  decide +kernel

/-- The first reads have no timestamp; then nine samples are lost. -/
example : (((Rx.init 6 2 (Io.new 4608000 1000)).run [⟨3, 2, false⟩, ⟨0, 4, false⟩, ⟨0, 5, true⟩, ⟨9, 4, true⟩]) >>= fun x =>
    Res.ok (x.1.io.canSend, (x.1.io.sendAt 100).map (sampleOf 4608000), x.1.io.current true (stamp 4608000 1050), x.1.io.current false 0)) =
    .ok (true, some 1103, 47, 22) := by
  decide +kernel

end Verif.Dsp.Receive
