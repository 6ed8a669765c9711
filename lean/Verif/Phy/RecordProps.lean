import Verif.Phy.Record
/-!
# What is recorded is what was sent, and can be replayed
-/
namespace Verif.Phy.Record

/-! ## Replaying -/

theorem step_same (s : Player) (n : Nat) : (s.step n).content = s.content ∧ (s.step n).block = s.block := by
  unfold Player.step
  split
  · split <;> exact ⟨rfl, rfl⟩
  · exact ⟨rfl, rfl⟩

theorem frame_take (frames : List (List Nat)) (tail : List Nat) {block : Nat} (hf : ∀ f ∈ frames, f.length = block) :
    (frames.flatten ++ tail).length = frames.length * block + tail.length ∧
    ∀ j (hj : j < frames.length), ((frames.flatten ++ tail).drop (j * block)).take block = frames[j] := by
  induction frames with
  | nil => exact ⟨by simp, fun j hj => absurd hj (by simp)⟩
  | cons f fs ih =>
    obtain ⟨i1, i2⟩ := ih (fun g hg => hf g (by simp [hg]))
    have hl := hf f (by simp)
    refine ⟨?_, ?_⟩
    · rw [List.flatten_cons, List.append_assoc, List.length_append, i1, List.length_cons, hl, Nat.succ_mul]
      omega
    · intro j hj
      rw [List.flatten_cons, List.append_assoc]
      cases j with
      | zero =>
        rw [Nat.zero_mul, List.drop_zero, ← hl]
        simp
      | succ j =>
        have : (j + 1) * block = f.length + j * block := by rw [Nat.succ_mul, hl]; omega
        rw [this, List.drop_append, List.drop_eq_nil_of_le (by omega)]
        have e : f.length + j * block - f.length = j * block := by omega
        rw [e, List.nil_append]
        exact i2 j (by simpa using hj)

/-- In the middle of the `j`th frame, after as many blocks as there are. -/
structure Playing (s : Player) (frames : List (List Nat)) (tail : List Nat) (block : Nat) (j : Nat) : Prop where
  content : s.content = frames.flatten ++ tail
  size : s.block = block
  le : j ≤ frames.length
  out : s.out.length % frames.length = j % frames.length
  pos : s.pos = j * block + s.got.length
  got : s.got = (s.content.drop (j * block)).take s.got.length
  room : s.got.length ≤ block
  blocks : ∀ i (h : i < s.out.length), ∃ h', s.out[i] = frames[i % frames.length]'h'

/-- Rounds until the next block is returned, at most. -/
def left (s : Player) (n : Nat) (tail : List Nat) (block j : Nat) : Nat :=
  if j < n then block - s.got.length + 1 else tail.length - s.got.length + block + 2

theorem step_playing {s : Player} {frames : List (List Nat)} {tail : List Nat} {block j : Nat} (h : Playing s frames tail block j)
    (hf : ∀ f ∈ frames, f.length = block) (hn : 0 < frames.length) (ht : tail.length < block) (upTo : Nat) :
    ∃ j', Playing (s.step upTo) frames tail block j' ∧
      ((s.step upTo).out.length = s.out.length + 1 ∨
        (s.step upTo).out.length = s.out.length ∧ left (s.step upTo) frames.length tail block j' + 1 ≤ left s frames.length tail block j) := by
  obtain ⟨hlen, htake⟩ := frame_take frames tail hf
  have hjm : j * block ≤ frames.length * block := Nat.mul_le_mul_right _ h.le
  have hsl : s.content.length = frames.length * block + tail.length := by rw [h.content, hlen]
  have hgl : s.got.length ≤ s.content.length - j * block := by
    have : s.got.length = min s.got.length (s.content.length - j * block) := by
      have := congrArg List.length h.got
      rw [List.length_take, List.length_drop] at this
      exact this
    omega
  unfold Player.step
  rw [h.size]
  by_cases h1 : s.got.length < block
  · rw [if_pos h1]
    by_cases h2 : s.pos ≥ s.content.length
    · rw [if_pos h2]
      have hj : j = frames.length := by
        have hp := h.pos
        have hle := h.le
        rcases Nat.lt_or_ge j frames.length with hlt | hge
        · have : (j + 1) * block ≤ frames.length * block := Nat.mul_le_mul_right _ hlt
          rw [Nat.succ_mul] at this
          omega
        · omega
      refine ⟨0, ⟨h.content, rfl, by omega, by rw [h.out, hj]; simp, by simp, by simp, by simp, h.blocks⟩, .inr ⟨rfl, ?_⟩⟩
      unfold left
      rw [if_pos hn, if_neg (by omega)]
      simp only [List.length_nil]
      omega
    · rw [if_neg h2]
      simp only
      generalize hk : max 1 (min upTo (min (block - s.got.length) (s.content.length - s.pos))) = k
      have k1 : 1 ≤ k := by omega
      have k2 : k ≤ block - s.got.length := by omega
      have k3 : k ≤ s.content.length - s.pos := by omega
      have kl : ((s.content.drop s.pos).take k).length = k := by simp; omega
      have hgot : s.got ++ (s.content.drop s.pos).take k = (s.content.drop (j * block)).take (s.got.length + k) := by
        rw [List.take_add, List.drop_drop, ← h.got, ← h.pos]
      refine ⟨j, ⟨h.content, rfl, h.le, h.out, ?_, ?_, ?_, h.blocks⟩, .inr ⟨trivial, ?_⟩⟩
      · simp only [List.length_append, kl]
        have := h.pos
        omega
      · simp only [List.length_append, kl]
        exact hgot
      · simp only [List.length_append, kl]
        omega
      · unfold left
        simp only [List.length_append, kl]
        split
        · omega
        · have hp := h.pos
          have hj : j = frames.length := by have := h.le; omega
          rw [hj] at hp
          omega
  · rw [if_neg h1]
    have hg : s.got.length = block := by have := h.room; omega
    have hj : j < frames.length := by
      rcases Nat.lt_or_ge j frames.length with hlt | hge
      · exact hlt
      · have : j = frames.length := by have := h.le; omega
        rw [this] at hgl
        omega
    have hout : s.out.length % frames.length = j := by rw [h.out, Nat.mod_eq_of_lt hj]
    have hfr : s.got = frames[j] := by
      have := htake j hj
      rw [← this, ← h.content]
      have g := h.got
      rw [hg] at g
      exact g
    refine ⟨j + 1, ⟨h.content, rfl, by omega, ?_, ?_, by simp, by simp, ?_⟩, .inl (by simp)⟩
    · simp only [List.length_append, List.length_singleton]
      rw [Nat.add_mod, hout, Nat.add_mod j 1, Nat.mod_eq_of_lt hj]
    · have := h.pos
      simp only [List.length_nil]
      rw [Nat.succ_mul]
      omega
    · intro i hi
      have hmod : i % frames.length < frames.length := Nat.mod_lt _ hn
      refine ⟨hmod, ?_⟩
      simp only [List.length_append, List.length_singleton] at hi
      rcases Nat.lt_or_ge i s.out.length with hlt | hge
      · obtain ⟨_, e⟩ := h.blocks i hlt
        simp only [List.getElem_append_left hlt]
        exact e
      · have : i = s.out.length := by omega
        subst this
        simp only [List.getElem_append_right (Nat.le_refl _), Nat.sub_self, List.getElem_cons_zero]
        rw [hfr]
        congr 1
        exact hout.symm

theorem run_playing (reads : List Nat) : ∀ {s : Player} {frames : List (List Nat)} {tail : List Nat} {block j : Nat}, Playing s frames tail block j →
    (∀ f ∈ frames, f.length = block) → 0 < frames.length → tail.length < block → ∀ k, k + left s frames.length tail block j ≤ (s.out.length + 1) * (2 * block + 2) →
    ∃ j', Playing (s.run reads) frames tail block j' ∧
      k + reads.length + left (s.run reads) frames.length tail block j' ≤ ((s.run reads).out.length + 1) * (2 * block + 2) := by
  induction reads with
  | nil => intro s frames tail block j h _ _ _ k hk; exact ⟨j, h, by simpa [Player.run] using hk⟩
  | cons r reads ih =>
    intro s frames tail block j h hf hn ht k hk
    obtain ⟨j1, h1, h2⟩ := step_playing h hf hn ht r
    have hk1 : k + 1 + left (s.step r) frames.length tail block j1 ≤ ((s.step r).out.length + 1) * (2 * block + 2) := by
      rcases h2 with e | ⟨e, hl⟩
      · have hb : left (s.step r) frames.length tail block j1 ≤ 2 * block + 1 := by
          unfold left
          split <;> omega
        have hp : 1 ≤ left s frames.length tail block j := by
          unfold left
          split <;> omega
        rw [e, Nat.succ_mul]
        omega
      · rw [e]
        omega
    obtain ⟨j2, h3, h4⟩ := ih h1 hf hn ht (k + 1) hk1
    refine ⟨j2, h3, ?_⟩
    have : s.run (r :: reads) = (s.step r).run reads := rfl
    rw [this, List.length_cons]
    omega

/-- **C89, replay.** A file with at least one whole block is replayed. However the system cuts the reads: the blocks returned are those of
the file, in order, again and again from the first; what is left at the end is never returned. And a block is returned after at most
`2 * block + 2` reads. -/
theorem c89_replay {frames : List (List Nat)} {tail : List Nat} {block : Nat} (hf : ∀ f ∈ frames, f.length = block) (hn : 0 < frames.length)
    (ht : tail.length < block) (reads : List Nat) :
    (∀ i (h : i < ((Player.new (frames.flatten ++ tail) block).run reads).out.length),
      ∃ h', ((Player.new (frames.flatten ++ tail) block).run reads).out[i] = frames[i % frames.length]'h') ∧
    reads.length / (2 * block + 2) ≤ ((Player.new (frames.flatten ++ tail) block).run reads).out.length := by
  obtain ⟨j, h, hk⟩ := run_playing reads (s := Player.new (frames.flatten ++ tail) block) (block := block) (j := 0)
    ⟨rfl, rfl, by omega, by simp [Player.new], by simp [Player.new], by simp [Player.new], by simp [Player.new], fun i hi => absurd hi (by simp [Player.new])⟩
    hf hn ht 0 (by unfold left; rw [if_pos hn]; simp [Player.new]; omega)
  refine ⟨h.blocks, ?_⟩
  have hp : 1 ≤ left ((Player.new (frames.flatten ++ tail) block).run reads) frames.length tail block j := by
    unfold left
    split <;> omega
  have : reads.length < (((Player.new (frames.flatten ++ tail) block).run reads).out.length + 1) * (2 * block + 2) := by omega
  have := (Nat.div_lt_iff_lt_mul (by omega)).2 this
  omega

example : ((Player.new [1, 2, 3, 4, 5] 2).run [1, 7, 0, 9, 9, 0, 3, 2, 0, 1]).out = [[1, 2], [3, 4], [1, 2]] := by decide

/-- **C89, finding.** If the file is shorter than a block, no block is ever returned: the base station stops for ever at the first slot. -/
theorem c89_short_file {content : List Nat} {block : Nat} (h : content.length < block) (reads : List Nat) :
    ((Player.new content block).run reads).out = [] := by
  suffices H : ∀ (reads : List Nat) (s : Player), s.content = content → s.block = block → s.out = [] → s.got.length ≤ s.pos → s.pos ≤ content.length → (s.run reads).out = [] by
    exact H reads _ rfl rfl rfl (by simp [Player.new]) (by simp [Player.new])
  intro reads
  induction reads with
  | nil => intro s _ _ h3 _ _; exact h3
  | cons r reads ih =>
    intro s h1 h2 h3 h4 h5
    have e : s.run (r :: reads) = (s.step r).run reads := rfl
    rw [e]
    have hs := step_same s r
    have hc := congrArg List.length h1
    apply ih _ (hs.1.trans h1) (hs.2.trans h2)
    all_goals
      unfold Player.step
      rw [if_pos (by omega)]
      split
    · exact h3
    · exact h3
    · simp
    · simp
      omega
    · simp
    · simp
      omega

/-! ## Recording -/

theorem run_recorded (es : List Event) : ∀ (s : Recorder), s.opened = true → (∀ e ∈ es, e ≠ .write none → ∃ m, e = .send m) →
    (s.run es).file ++ ((s.run es).queue.map Msg.bytes).flatten = s.file ++ (s.queue.map Msg.bytes).flatten ++ ((sentIn es).map Msg.bytes).flatten ∧
    ∃ k, (s.run es).queue = (s.queue ++ sentIn es).drop k := by
  induction es with
  | nil => intro s _ _; exact ⟨by simp [Recorder.run, sentIn], 0, by simp [Recorder.run, sentIn]⟩
  | cons e es ih =>
    intro s hs hes
    have hrun : s.run (e :: es) = (s.step e).run es := rfl
    rw [hrun]
    cases e with
    | send m =>
      have hst : s.step (.send m) = { s with queue := s.queue ++ [m] } := by
        simp [Recorder.step, hs]
      obtain ⟨h1, k, h2⟩ := ih (s.step (.send m)) (by rw [hst]; exact hs) (fun e he => hes e (by simp [he]))
      have hsent : sentIn (.send m :: es) = m :: sentIn es := rfl
      rw [hst] at h1 h2 ⊢
      rw [hsent]
      refine ⟨?_, k, ?_⟩
      · rw [h1]
        simp
      · rw [h2]
        simp
    | write a =>
      have ha : a = none := by
        cases a with
        | none => rfl
        | some a =>
          obtain ⟨m, hm⟩ := hes (.write (some a)) (by simp) (by simp)
          exact absurd hm (by simp)
      subst ha
      have hsent : sentIn (.write none :: es) = sentIn es := rfl
      rw [hsent]
      cases hq : s.queue with
      | nil =>
        have hst : s.step (.write none) = s := by simp [Recorder.step, hq]
        rw [hst]
        obtain ⟨h1, k, h2⟩ := ih s hs (fun e he => hes e (by simp [he]))
        rw [hq] at h1 h2
        exact ⟨h1, k, h2⟩
      | cons m queue =>
        have hst : s.step (.write none) = { s with queue := queue, file := s.file ++ m.bytes } := by
          simp [Recorder.step, hq]
        obtain ⟨h1, k, h2⟩ := ih (s.step (.write none)) (by rw [hst]; exact hs) (fun e he => hes e (by simp [he]))
        rw [hst] at h1 h2 ⊢
        refine ⟨?_, k + 1, ?_⟩
        · rw [h1]
          simp
        · rw [h2]
          simp

/-- **C89, recording.** If the file could be created and the disk does not fill up, the file is at every time the beginning of what was
sent, up to the messages which the thread has not handled yet; these are the last ones. -/
theorem c89_record (es : List Event) (h : ∀ e ∈ es, e ≠ .write none → ∃ m, e = .send m) :
    ((Recorder.new true).run es).file ++ (((Recorder.new true).run es).queue.map Msg.bytes).flatten = ((sentIn es).map Msg.bytes).flatten ∧
    ∃ k, ((Recorder.new true).run es).queue = (sentIn es).drop k := by
  obtain ⟨h1, k, h2⟩ := run_recorded es (Recorder.new true) rfl h
  exact ⟨by simpa [Recorder.new] using h1, k, by simpa [Recorder.new] using h2⟩

/-- **C89.** The bursts sent are recorded, and the recording is replayed: whatever the system does, the bursts replayed are those which
were sent, in order, from the first. -/
theorem c89_record_replay {bursts : List (List Nat)} {block : Nat} (hb : ∀ b ∈ bursts, b.length = block) (h0 : 0 < bursts.length) (hbl : 0 < block)
    (es : List Event) (h : ∀ e ∈ es, e ≠ .write none → ∃ m, e = .send m) (hs : sentIn es = bursts.map Msg.block)
    (hq : ((Recorder.new true).run es).queue = []) (reads : List Nat) :
    ∀ i (hi : i < ((Player.new ((Recorder.new true).run es).file block).run reads).out.length),
      ∃ h', ((Player.new ((Recorder.new true).run es).file block).run reads).out[i] = bursts[i % bursts.length]'h' := by
  have hf : ((Recorder.new true).run es).file = bursts.flatten ++ [] := by
    have := (c89_record es h).1
    rw [hq, hs, List.map_map] at this
    simpa [Function.comp_def, Msg.bytes] using this
  rw [hf]
  exact (c89_replay hb h0 (by simpa using hbl) reads).1

example : let es := [.send (.block [1, 2]), .write none, .send (.block [3, 4]), .send (.block [5, 6]), .write none, .write none]
    sentIn es = [[1, 2], [3, 4], [5, 6]].map Msg.block ∧ ((Recorder.new true).run es).queue = [] ∧
      ((Player.new ((Recorder.new true).run es).file 2).run [2, 0, 2, 0, 2, 0, 0, 2, 0]).out = [[1, 2], [3, 4], [5, 6], [1, 2]] := by decide

/-- **C89, finding.** If the file cannot be created nothing is recorded, and nobody is told. -/
theorem c89_not_created (es : List Event) : ((Recorder.new false).run es).file = [] := by
  suffices H : ∀ (es : List Event) (s : Recorder), s.opened = false → s.queue = [] → s.file = [] → (s.run es).file = [] from H es _ rfl rfl rfl
  intro es
  induction es with
  | nil => intro s _ _ h; exact h
  | cons e es ih =>
    intro s h1 h2 h3
    have e1 : s.step e = s := by
      cases e with
      | send m => simp [Recorder.step, h1]
      | write a => simp [Recorder.step, h2]
    have : s.run (e :: es) = (s.step e).run es := rfl
    rw [this, e1]
    exact ih s h1 h2 h3

/-! ## The uplink recording -/

/-- A burst received: which part of the slot (3 is the whole slot), the tick, the bits. -/
structure Burst where
  kind : Nat
  tick : Nat
  bits : List Nat
  deriving DecidableEq, Repr

/-- How long a burst is (burst_consts.rs:23, 32; asserted in phy_bs.rs:108, 119, 144). -/
def lengthOf (kind : Nat) : Nat := if kind = 3 then 462 else 206

/-- As bursts are received. -/
def Burst.Valid (b : Burst) : Prop := (b.kind = 1 ∨ b.kind = 2 ∨ b.kind = 3) ∧ b.tick < 2 ^ 64 ∧ b.bits.length = lengthOf b.kind

/-- A big endian number. -/
def number (bytes : List Nat) : Nat := bytes.foldl (fun n b => n * 256 + b) 0

/-- How to read a recording. -/
def parse : Nat → List Nat → List Burst
  | 0, _ => []
  | _ + 1, [] => []
  | n + 1, kind :: rest => ⟨kind, number (rest.take 8), (rest.drop 8).take (lengthOf kind)⟩ :: parse n ((rest.drop 8).drop (lengthOf kind))

theorem be64_length (x : Nat) : (be64 x).length = 8 := rfl

theorem number_be64 {x : Nat} (h : x < 2 ^ 64) : number (be64 x) = x := by
  simp only [be64, number, List.range, List.range.loop, List.map_cons, List.map_nil, List.foldl_cons, List.foldl_nil]
  omega

/-- **C89, uplink recording.** Although the recording of the uplink has no lengths in it, all bursts can be read from it. -/
theorem c89_uplink (bs : List Burst) (h : ∀ b ∈ bs, b.Valid) :
    parse bs.length ((bs.map fun b => Msg.bytes (.headed b.kind b.tick b.bits)).flatten) = bs := by
  induction bs with
  | nil => rfl
  | cons b bs ih =>
    obtain ⟨h1, h2, h3⟩ := h b (by simp)
    have hl := be64_length b.tick
    rw [List.map_cons, List.flatten_cons, List.length_cons]
    simp only [Msg.bytes, List.cons_append, List.append_assoc, parse]
    have e1 : (be64 b.tick ++ (b.bits ++ (bs.map fun b => b.kind :: (be64 b.tick ++ b.bits)).flatten)).take 8 = be64 b.tick := by
      rw [← hl, List.take_left]
    have e2 : (be64 b.tick ++ (b.bits ++ (bs.map fun b => b.kind :: (be64 b.tick ++ b.bits)).flatten)).drop 8 =
        b.bits ++ (bs.map fun b => b.kind :: (be64 b.tick ++ b.bits)).flatten := by
      rw [← hl, List.drop_left]
    rw [e1, e2, ← h3, List.take_left, List.drop_left, number_be64 h2]
    congr 1
    have := ih (fun c hc => h c (by simp [hc]))
    simpa [Msg.bytes] using this

example : (⟨3, 7, List.replicate 462 1⟩ : Burst).Valid ∧ (⟨2, 8, List.replicate 206 0⟩ : Burst).Valid := by
  constructor <;> exact ⟨by decide, by decide, by rw [List.length_replicate]; decide⟩

end Verif.Phy.Record
