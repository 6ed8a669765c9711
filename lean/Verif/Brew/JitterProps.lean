import Verif.Brew.Jitter
/-!
# C33 — Voice jitter buffer keeps order and bounds
-/
namespace Verif.Brew
namespace Jitter

/-- A call on the buffer; the number is the jitter component in force at that moment. -/
inductive Ev where
  | push (data : List Nat) (j : Nat)
  | pop (j : Nat)
  deriving DecidableEq, Repr

/-- One call: the frame handed out, if any, and the buffer afterwards. -/
def step (s : Jitter) : Ev → Option Frame × Jitter
  | .push d j => (none, s.push d j)
  | .pop j => s.popReady j

/-- Buffer after a history, oldest event first, and the frames handed out, in order. -/
def run (s : Jitter) : List Ev → List Frame × Jitter
  | [] => ([], s)
  | e :: r =>
    let a := s.step e
    let q := run a.2 r
    (a.1.toList ++ q.1, q.2)

/-- The frames pushed in a history, in order, numbered from `n`. -/
def pushedFrom (n : Nat) : List Ev → List Frame
  | [] => []
  | .push d _ :: r => ⟨n, d⟩ :: pushedFrom ((n + 1) % 2 ^ 64) r
  | .pop _ :: r => pushedFrom n r

/-- What every reachable buffer satisfies. -/
structure Inv (s : Jitter) : Prop where
  len : s.frames.length ≤ 24
  pos : 2 ≤ s.targetFrames
  target : s.targetFrames ≤ 12 ∨ s.frames = []
  boost : s.underrunBoost ≤ 4
  pops : s.stablePops < 80

theorem inv_new (n : Nat) : Inv (withInitialLatency n) := by
  refine ⟨by simp [withInitialLatency], ?_, Or.inr rfl, by simp [withInitialLatency], by simp [withInitialLatency]⟩
  simp [withInitialLatency, BASE_FRAMES]; omega

theorem initTarget_id {s : Jitter} (h : Inv s) : s.initTarget = s := by
  unfold initTarget; rw [if_neg]; have := h.pos; omega

theorem recompute_target (s : Jitter) (j : Nat) : 2 ≤ (recompute s j).targetFrames ∧ (recompute s j).targetFrames ≤ 12 := by
  simp only [recompute, MIN_FRAMES, TARGET_MAX_FRAMES]; omega

theorem push_frames {s : Jitter} (h : Inv s) (d : List Nat) (j : Nat) :
    (s.push d j).frames = dropOld (s.frames ++ [⟨s.nextRxSeq, d⟩]) := by
  unfold push; rw [initTarget_id h]; rfl

theorem inv_push {s : Jitter} (h : Inv s) (d : List Nat) (j : Nat) : Inv (s.push d j) := by
  have e := push_frames h d j
  refine ⟨?_, (recompute_target _ _).1, Or.inl (recompute_target _ _).2, ?_, ?_⟩
  · rw [e]; simp [dropOld, MAX_FRAMES]; omega
  · unfold push; rw [initTarget_id h]; exact h.boost
  · unfold push; rw [initTarget_id h]; exact h.pops

theorem take_spec {s : Jitter} (h : Inv s) (j : Nat) :
    Inv (s.take j).2 ∧ (s.take j).1 = s.frames.head? ∧ (s.take j).2.frames = s.frames.tail ∧
    ((s.take j).2.started = (s.started && !s.frames.isEmpty)) ∧ (s.take j).2.nextRxSeq = s.nextRxSeq := by
  have hb := h.boost
  unfold take
  cases hf : s.frames with
  | nil =>
    refine ⟨⟨by simp [recompute, hf], (recompute_target _ _).1, Or.inl (recompute_target _ _).2, ?_, ?_⟩, rfl, ?_, ?_, rfl⟩
    · simp only [recompute]; omega
    · simp [recompute]
    · simp [recompute, hf]
    · simp [recompute]
  | cons f r =>
    have hl := h.len
    have ht : s.targetFrames ≤ 12 := by
      rcases h.target with h | h
      · exact h
      · rw [hf] at h; simp at h
    have hp := h.pos
    have hpp := h.pops
    rw [hf] at hl; simp at hl
    simp only
    split
    · split
      · split
        · refine ⟨⟨?_, (recompute_target _ _).1, Or.inl (recompute_target _ _).2, ?_, ?_⟩, ?_, ?_, ?_, ?_⟩ <;>
            simp [recompute] <;> omega
        · refine ⟨⟨?_, ?_, Or.inl ?_, ?_, ?_⟩, ?_, ?_, ?_, ?_⟩ <;> simp <;> omega
      · rename_i hc
        refine ⟨⟨?_, ?_, Or.inl ?_, ?_, ?_⟩, ?_, ?_, ?_, ?_⟩ <;> simp at hc ⊢ <;> omega
    · refine ⟨⟨?_, ?_, Or.inl ?_, ?_, ?_⟩, ?_, ?_, ?_, ?_⟩ <;> simp <;> omega

/-- What a pop does, in terms of the buffer before it. -/
theorem pop_spec {s : Jitter} (h : Inv s) (j : Nat) :
    Inv (s.popReady j).2 ∧ (s.popReady j).2.nextRxSeq = s.nextRxSeq ∧
    (((s.started = true ∨ s.targetFrames ≤ s.frames.length) →
        (s.popReady j).1 = s.frames.head? ∧ (s.popReady j).2.frames = s.frames.tail) ∧
     (¬ (s.started = true ∨ s.targetFrames ≤ s.frames.length) →
        (s.popReady j).1 = none ∧ (s.popReady j).2 = s)) := by
  unfold popReady
  rw [initTarget_id h]
  simp only
  split
  · rename_i hs
    have := take_spec h j
    exact ⟨this.1, this.2.2.2.2, fun _ => ⟨this.2.1, this.2.2.1⟩, fun hn => absurd (Or.inl hs) hn⟩
  · rename_i hs
    split
    · rename_i hl
      exact ⟨h, rfl, fun hc => by rcases hc with hc | hc; exact absurd hc hs; omega, fun _ => ⟨rfl, rfl⟩⟩
    · rename_i hl
      have h' : Inv { s with started := true } := ⟨h.len, h.pos, h.target, h.boost, h.pops⟩
      have := take_spec h' j
      exact ⟨this.1, this.2.2.2.2, fun _ => ⟨this.2.1, this.2.2.1⟩, fun hn => absurd (Or.inr (by omega)) hn⟩

theorem inv_step {s : Jitter} (h : Inv s) (e : Ev) : Inv (s.step e).2 := by
  cases e with
  | push d j => exact inv_push h d j
  | pop j => exact (pop_spec h j).1

theorem inv_run {s : Jitter} (h : Inv s) (evs : List Ev) : Inv (s.run evs).2 := by
  induction evs generalizing s with
  | nil => exact h
  | cons e r ih => exact ih (inv_step h e)

theorem run_sublist {s : Jitter} (h : Inv s) (evs : List Ev) :
    ((s.run evs).1 ++ (s.run evs).2.frames).Sublist (s.frames ++ pushedFrom s.nextRxSeq evs) := by
  induction evs generalizing s with
  | nil => simp [run, pushedFrom]
  | cons e r ih =>
    have := ih (inv_step h e)
    simp only [run, List.append_assoc]
    cases e with
    | push d j =>
      simp only [step, Option.toList, List.nil_append, pushedFrom] at this ⊢
      rw [push_frames h] at this
      have hn : (s.push d j).nextRxSeq = (s.nextRxSeq + 1) % 2 ^ 64 := by unfold push; rw [initTarget_id h]; rfl
      rw [hn] at this
      refine this.trans ?_
      have : (dropOld (s.frames ++ [⟨s.nextRxSeq, d⟩])).Sublist (s.frames ++ [⟨s.nextRxSeq, d⟩]) :=
        List.drop_sublist _ _
      have := this.append_right (pushedFrom ((s.nextRxSeq + 1) % 2 ^ 64) r)
      simpa using this
    | pop j =>
      simp only [step, pushedFrom] at this ⊢
      obtain ⟨_, h2, h3, h4⟩ := pop_spec h j
      rw [h2] at this
      by_cases hc : s.started = true ∨ s.targetFrames ≤ s.frames.length
      · obtain ⟨e1, e2⟩ := h3 hc
        rw [e2] at this
        rw [e1]
        cases hf : s.frames with
        | nil => simpa [hf] using this
        | cons f fs => simpa [hf] using this
      · obtain ⟨e1, e2⟩ := h4 hc
        rw [e1]
        rw [e2] at this
        rw [e2]
        simpa using this

/-- **C33, order and no duplication.** For every history of pushes and pops from a fresh buffer, the frames
handed out followed by those still held are a subsequence of the frames pushed: same order, each at
most once, payload unchanged. -/
theorem c33_order (latency : Nat) (evs : List Ev) :
    (((withInitialLatency latency).run evs).1 ++ ((withInitialLatency latency).run evs).2.frames).Sublist
      (pushedFrom 0 evs) := by
  have := run_sublist (inv_new latency) evs
  simpa [withInitialLatency] using this

/-- **C33, bounds.** At most 24 frames are held and the target is between 2 and 12 frames whenever any
frame is held. -/
theorem c33_bounds (latency : Nat) (evs : List Ev) :
    let s := ((withInitialLatency latency).run evs).2
    s.frames.length ≤ 24 ∧ 2 ≤ s.target ∧ (s.frames ≠ [] → s.target ≤ 12) := by
  have h := inv_run (inv_new latency) evs
  refine ⟨h.len, ?_, ?_⟩
  · simp only [target, MIN_FRAMES]; omega
  · intro hne
    rcases h.target with h' | h'
    · simp only [target, MIN_FRAMES]; omega
    · exact absurd h' hne

/-- **C33, overflow.** In every reachable buffer a push appends the new frame; the frames before it are
kept, except the single oldest one when 24 are already held. -/
theorem c33_overflow (latency : Nat) (evs : List Ev) (d : List Nat) (j : Nat) :
    let s := ((withInitialLatency latency).run evs).2
    (s.frames.length < 24 → (s.push d j).frames = s.frames ++ [⟨s.nextRxSeq, d⟩]) ∧
    (s.frames.length = 24 → (s.push d j).frames = s.frames.tail ++ [⟨s.nextRxSeq, d⟩]) := by
  have h := inv_run (inv_new latency) evs
  refine ⟨?_, ?_⟩
  · intro hl
    rw [push_frames h, dropOld]
    simp [MAX_FRAMES, show ((withInitialLatency latency).run evs).2.frames.length + 1 - 24 = 0 by omega]
  · intro hl
    rw [push_frames h, dropOld]
    simp only [List.length_append, List.length_cons, List.length_nil, MAX_FRAMES, hl]
    rw [List.drop_append_of_le_length (by omega)]
    simp

/-- **C33, play-out.** In every reachable buffer: before play-out has started a pop gives a frame only if
the target depth is buffered, and then it gives the oldest one; while play-out runs a pop gives the
oldest frame whenever there is one. -/
theorem c33_playout (latency : Nat) (evs : List Ev) (j : Nat) :
    let s := ((withInitialLatency latency).run evs).2
    (s.started = false → s.frames.length < s.target → (s.popReady j).1 = none ∧ (s.popReady j).2.frames = s.frames) ∧
    (s.started = false → s.target ≤ s.frames.length → (s.popReady j).1 = s.frames.head? ∧
      (s.popReady j).2.frames = s.frames.tail ∧ (s.popReady j).2.started = true) ∧
    (s.started = true → (s.popReady j).1 = s.frames.head? ∧ (s.popReady j).2.frames = s.frames.tail ∧
      (s.popReady j).2.started = !s.frames.isEmpty) := by
  have h := inv_run (inv_new latency) evs
  generalize ((withInitialLatency latency).run evs).2 = s at h ⊢
  have hp := h.pos
  have ht : s.target = s.targetFrames := by simp only [target, MIN_FRAMES]; omega
  obtain ⟨_, _, h3, h4⟩ := pop_spec h j
  refine ⟨?_, ?_, ?_⟩
  · intro hs hl
    rw [ht] at hl
    have := h4 (by rintro (hc | hc); simp [hs] at hc; omega)
    exact ⟨this.1, by rw [this.2]⟩
  · intro hs hl
    rw [ht] at hl
    have := h3 (Or.inr hl)
    refine ⟨this.1, this.2, ?_⟩
    unfold popReady
    rw [initTarget_id h]
    simp only [hs, Bool.false_eq_true, if_false]
    rw [if_neg (by omega)]
    have h' : Inv { s with started := true } := ⟨h.len, h.pos, h.target, h.boost, h.pops⟩
    rw [(take_spec h' j).2.2.2.1]
    simp
    intro e
    simp [e] at hl
    omega
  · intro hs
    have := h3 (Or.inl hs)
    refine ⟨this.1, this.2, ?_⟩
    unfold popReady
    rw [initTarget_id h]
    simp only [hs, if_true]
    rw [(take_spec h j).2.2.2.1]
    simp [hs]

/-- **C33, no stall.** Twelve buffered frames are always enough for the next pop to hand one out. -/
theorem c33_no_stall (latency : Nat) (evs : List Ev) (j : Nat) :
    let s := ((withInitialLatency latency).run evs).2
    12 ≤ s.frames.length → ∃ f, (s.popReady j).1 = some f := by
  have h := inv_run (inv_new latency) evs
  generalize ((withInitialLatency latency).run evs).2 = s at h ⊢
  dsimp only
  intro hl
  obtain ⟨_, _, h3, _⟩ := pop_spec h j
  cases hf : s.frames with
  | nil => simp [hf] at hl
  | cons f r =>
    have : s.targetFrames ≤ 12 := by
      rcases h.target with h | h
      · exact h
      · rw [hf] at h; simp at h
    exact ⟨f, by rw [(h3 (Or.inr (by omega))).1, hf]; rfl⟩

/-- Frames in, frames out: a short history. -/
example : ((withInitialLatency 0).run [.push [1] 0, .push [2] 0, .push [3] 0, .pop 0, .push [4] 0, .pop 0, .pop 0]).1 =
    [⟨0, [1]⟩, ⟨1, [2]⟩] := by decide
example : ((withInitialLatency 0).run (List.replicate 30 (.push [] 0))).2.frames.length = 24 := by decide +kernel

/-- Finding: with the largest initial latency the target a fresh buffer reports exceeds its documented
maximum of 12 (until the first frame arrives). -/
theorem c33_initial_target_above_maximum : (withInitialLatency 10).target = 14 := by decide

end Jitter
end Verif.Brew
