import Verif.Brew.JitterProps
/-!
# C33 — The configured latency
-/
namespace Verif.Brew.Jitter

/-- **C33, a fresh buffer** waits for four frames more than the latency configured, of which no more than ten count. -/
theorem c33_fresh (latency : Nat) : (withInitialLatency latency).target = 4 + min latency 10 := by
  simp only [withInitialLatency, target, BASE_FRAMES, TARGET_MAX_FRAMES, MIN_FRAMES]
  omega

/-- The latency configured is kept, and the depth waited for never falls below it. -/
structure Kept (latency : Nat) (s : Jitter) : Prop where
  kept : s.initialLatency = min latency 10
  depth : min 12 (4 + min latency 10) ≤ s.targetFrames

theorem kept_recompute {latency : Nat} {s : Jitter} (h : s.initialLatency = min latency 10) (j : Nat) : Kept latency (s.recompute j) := by
  refine ⟨h, ?_⟩
  simp only [recompute, BASE_FRAMES, TARGET_MAX_FRAMES, MIN_FRAMES, h]
  omega

theorem kept_take {latency : Nat} {s : Jitter} (h : Kept latency s) (j : Nat) : Kept latency (s.take j).2 := by
  unfold take
  split
  · dsimp only
    repeat' split
    all_goals first
      | exact ⟨h.kept, h.depth⟩
      | (apply kept_recompute; exact h.kept)
  · apply kept_recompute
    exact h.kept

theorem kept_step {latency : Nat} {s : Jitter} (hi : Inv s) (h : Kept latency s) (e : Ev) : Kept latency (s.step e).2 := by
  cases e with
  | push d j =>
    simp only [step, push, initTarget_id hi]
    apply kept_recompute
    exact h.kept
  | pop j =>
    simp only [step, popReady, initTarget_id hi]
    split
    · exact kept_take h j
    · split
      · exact h
      · exact kept_take (s := { s with started := true }) ⟨h.kept, h.depth⟩ j

/-- **C33, the latency configured**: in every history, playing never starts with fewer frames than the latency configured asks for:
four more than configured, and twelve at most. -/
theorem c33_latency (latency : Nat) (evs : List Ev) (j : Nat) (f : Frame) :
    let s := ((withInitialLatency latency).run evs).2
    s.started = false → (s.popReady j).1 = some f → min 12 (4 + latency) ≤ s.frames.length := by
  have main : ∀ (evs : List Ev) (s : Jitter), Inv s → Kept latency s → Kept latency (s.run evs).2 := by
    intro evs
    induction evs with
    | nil => intro s _ h; exact h
    | cons e r ih => intro s hi h; exact ih _ (inv_step hi e) (kept_step hi h e)
  have hi := inv_run (inv_new latency) evs
  have hk := main evs (withInitialLatency latency) (inv_new latency)
    ⟨rfl, by simp only [withInitialLatency, BASE_FRAMES, TARGET_MAX_FRAMES, MIN_FRAMES]; omega⟩
  generalize ((withInitialLatency latency).run evs).2 = s at hi hk ⊢
  intro s0 hs hp
  have hd := hk.depth
  obtain ⟨_, _, _, h4⟩ := pop_spec hi j
  by_cases hc : s.targetFrames ≤ s.frames.length
  · show min 12 (4 + latency) ≤ s.frames.length
    omega
  · have := (h4 (by rintro (h | h); exact absurd (hs.symm.trans h) (by decide); exact hc h)).1
    rw [this] at hp
    cases hp

/-- With a latency of three, playing starts with the seventh frame. -/
example : (((withInitialLatency 3).run (List.replicate 6 (.push [] 0))).2.popReady 0).1 = none ∧
    (((withInitialLatency 3).run (List.replicate 7 (.push [] 0))).2.popReady 0).1 = some ⟨0, []⟩ := by decide +kernel

end Verif.Brew.Jitter
