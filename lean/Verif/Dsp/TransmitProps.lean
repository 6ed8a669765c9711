import Verif.Dsp.Transmit
import Verif.Dsp.ClockProps
/-!
# Slots are sent at their time
-/
namespace Verif.Dsp.Slots
open Verif Verif.Tdma

/-! ## Specification -/

/-- What the radio should send at the sample with this counter: sample number `(c + 16) % 1020` of slot number `(c + 16) / 1020` (the
filter delays by 16). Slot 0 is not sent, the stack starts with the slot after the present one. -/
def onAir (c : Int) : Sample := if c + 16 < 1020 then none else some (fromInt ((c + 16) / 1020), (c + 16) % 1020)

/-! ## One block -/

theorem fill_ok (time : Time) (block : Int) (n : Nat) : ∀ buf : List Sample, ∃ xs : List Sample,
    (fill time block buf n).1 = buf ++ xs ∧ xs.length ≤ n ∧
    (∀ (i : Nat) (x : Sample), xs[i]? = some x → sampleAt time (block * 108 + (buf.length + i : Nat)) = some x) ∧
    ((fill time block buf n).2 = true → xs.length = n) ∧
    ((fill time block buf n).2 = false → xs.length < n ∧ sampleAt time (block * 108 + (buf.length + xs.length : Nat)) = none) := by
  induction n with
  | zero => intro buf; exact ⟨[], by simp [fill]⟩
  | succ n ih =>
    intro buf
    unfold fill
    cases h : sampleAt time (block * perBlock + buf.length) with
    | none => exact ⟨[], by simp, by simp, by simp, by simp, fun _ => ⟨by simp, by simpa [perBlock] using h⟩⟩
    | some x =>
      obtain ⟨xs, e, hl, hx, ht, hf⟩ := ih (buf ++ [x])
      simp only [List.length_append, List.length_cons, List.length_nil, Nat.zero_add] at hx hf
      refine ⟨x :: xs, by simp [e], by simpa using hl, ?_, fun h => by simpa using ht h, fun h => ?_⟩
      · intro i y hy
        cases i with
        | zero =>
          simp only [List.getElem?_cons_zero, Option.some.injEq] at hy
          subst hy
          simpa [perBlock] using h
        | succ i =>
          rw [List.getElem?_cons_succ] at hy
          have := hx i y hy
          rwa [show buf.length + 1 + i = buf.length + (i + 1) by omega] at this
      · have := hf h
        rw [show buf.length + 1 + xs.length = buf.length + (xs.length + 1) by omega] at this
        exact ⟨by simpa using this.1, by simpa using this.2⟩

/-! ## Never too early, never too late -/

/-- The part of a block produced so far: each sample is at its place in the slot, for this block or an earlier one. -/
def BufOk (block : Int) (buf : List Sample) : Prop :=
  ∀ (i : Nat) (t : Time) (k : Int), buf[i]? = some (some (t, k)) → 0 ≤ k ∧ k < 1020 ∧ t.toInt * 1020 + k ≤ block * 108 + i + 16

theorem sampleAt_eq (time : Time) (c : Int) : sampleAt time c = if c + 16 - time.toInt * 1020 < 0 then some none
    else if c + 16 - time.toInt * 1020 ≥ 1020 then none else some (some (time, c + 16 - time.toInt * 1020)) := rfl

theorem sampleAt_some {time t : Time} {c k : Int} (h : sampleAt time c = some (some (t, k))) :
    t = time ∧ 0 ≤ k ∧ k < 1020 ∧ t.toInt * 1020 + k = c + 16 := by
  rw [sampleAt_eq] at h
  by_cases h0 : c + 16 - time.toInt * 1020 < 0
  · rw [if_pos h0] at h; simp at h
  · rw [if_neg h0] at h
    by_cases h1 : c + 16 - time.toInt * 1020 ≥ 1020
    · rw [if_pos h1] at h; cases h
    · rw [if_neg h1] at h
      simp only [Option.some.injEq, Prod.mk.injEq] at h
      obtain ⟨rfl, rfl⟩ := h
      exact ⟨rfl, by omega, by omega, by omega⟩

theorem process_safe {s : Tx} (hl : s.buf.length < 108) (hb : BufOk s.block s.buf) (clock rx : Int) (time : Time) :
    (s.process clock rx time).1.buf.length < 108 ∧ BufOk (s.process clock rx time).1.block (s.process clock rx time).1.buf ∧
    s.block ≤ (s.process clock rx time).1.block ∧
    ∀ x, (s.process clock rx time).2 = some x → s.block ≤ x.number ∧ x.number < (s.process clock rx time).1.block ∧
      x.clock + 2 ≤ x.number ∧ x.samples.length = 108 ∧ BufOk x.number x.samples ∧
      ∀ t k, x.samples[107]? = some (some (t, k)) → t = time ∧ t.toInt * 1020 + k = x.number * 108 + 107 + 16 := by
  unfold Tx.process
  simp only
  generalize hB : (if s.block - clock < 2 then clock + 2 else s.block) = B
  have hB1 : s.block ≤ B := by split at hB <;> omega
  have hB2 : clock + 2 ≤ B := by split at hB <;> omega
  have mono : BufOk B s.buf := fun i t k h => by
    have := hb i t k h
    exact ⟨this.1, this.2.1, by omega⟩
  split
  · exact ⟨hl, mono, hB1, by simp⟩
  split
  · exact ⟨hl, mono, hB1, by simp⟩
  obtain ⟨xs, e, hx0, hx, ht, hf⟩ := fill_ok time B (perBlock - s.buf.length) s.buf
  have all : BufOk B (s.buf ++ xs) := by
    intro i t k h
    by_cases hi : i < s.buf.length
    · rw [List.getElem?_append_left hi] at h
      exact mono i t k h
    · rw [List.getElem?_append_right (by omega)] at h
      have := sampleAt_some (hx _ _ h)
      exact ⟨this.2.1, this.2.2.1, by omega⟩
  revert e ht hf
  cases fill time B s.buf (perBlock - s.buf.length) with
  | mk buf full =>
    intro e ht hf
    simp only at e ht hf
    subst e
    cases full with
    | false =>
      simp only
      have := (hf rfl).1
      exact ⟨by simp [perBlock] at this ⊢; omega, all, hB1, by simp⟩
    | true =>
      have h1 := ht rfl
      simp only [Option.some.injEq, List.length_nil]
      refine ⟨by omega, fun i t k h => by simp at h, by omega, ?_⟩
      rintro x rfl
      refine ⟨hB1, by simp only; omega, hB2, by simp [perBlock] at h1 ⊢; omega, all, ?_⟩
      intro t k h
      rw [List.getElem?_append_right (by omega)] at h
      have := sampleAt_some (hx _ _ h)
      exact ⟨this.1, by simp only; omega⟩

theorem process_times (s : Tx) (clock rx : Int) (time : Time) (i : Nat) (t : Time) (k : Int)
    (h : (s.process clock rx time).1.buf[i]? = some (some (t, k))) : s.buf[i]? = some (some (t, k)) ∨ t = time := by
  revert h
  unfold Tx.process
  simp only
  generalize hB : (if s.block - clock < 2 then clock + 2 else s.block) = B
  split
  · exact .inl
  split
  · exact .inl
  obtain ⟨xs, e, hx0, hx, ht, hf⟩ := fill_ok time B (perBlock - s.buf.length) s.buf
  revert e
  cases fill time B s.buf (perBlock - s.buf.length) with
  | mk buf full =>
    intro e h
    simp only at e
    subst e
    cases full with
    | true => simp at h
    | false =>
      simp only at h
      by_cases hi : i < s.buf.length
      · rw [List.getElem?_append_left hi] at h
        exact .inl h
      · rw [List.getElem?_append_right (by omega)] at h
        exact .inr (sampleAt_some (hx _ _ h)).1

/-! ## One step -/

/-- The state after tick `j - 1`, slot `m` being the last one read. -/
structure Good (s : Sys) (j m : Int) : Prop where
  now : s.now = fromInt j
  j0 : 0 ≤ j
  jm : j ≤ m + 1
  mw : m < wrap
  waits : Waits s.dev (s.dev.next - 1)
  avail : s.dev.avail = false
  n0 : 0 ≤ s.dev.next
  nr : s.dev.next ≤ (s.rxBlock + 1) * 108
  rd : s.started = true → s.dev.next = (s.rxBlock + 1) * 108
  past : m = -1 ∨ slotEnd m < s.dev.next
  len : s.tx.buf.length < 108
  buf : BufOk s.tx.block s.tx.buf
  st : m = -1 ∨ s.started = true
  own : ∀ (i : Nat) (t : Time) (k : Int), s.tx.buf[i]? = some (some (t, k)) → t.toInt ≤ j + 1

theorem init_good {r : Int} (hr : 0 ≤ r) : Good (Sys.init r) 0 (-1) :=
  ⟨rfl, by decide, by decide, by decide, new_waits, rfl, Int.le_refl 0, by simp only [Sys.init, Demod.new, Demod.setSlot]; omega,
    by simp [Sys.init], .inl rfl, show 0 < 108 by decide, fun i t k h => by simp [Sys.init, Tx.new] at h, .inl rfl,
    fun i t k h => by simp [Sys.init, Tx.new] at h⟩

theorem add_any (j n : Int) (h2 : -wrap ≤ n) (h3 : n ≤ wrap) : (fromInt j).addTimeslots n = .ok (fromInt (j % wrap + n)) := by
  have := add_ok (m := j % wrap) (n := n) (Int.emod_nonneg _ (by decide)) (Int.emod_lt_of_pos _ (by decide)) h2 h3
  unfold Time.addTimeslots at this ⊢
  rw [toInt_fromInt] at this ⊢
  rw [Int.emod_emod] at this
  exact this

/-- The slots whose end is reached with block `b`. -/
def newSlots (next b : Int) : List Int := emits (fed next (upTo (b * 108) 108))

theorem newSlots_mem {next b m : Int} (h : next ≤ b * 108) (hm : m ∈ newSlots next b) :
    0 ≤ m ∧ m < wrap ∧ next ≤ slotEnd m ∧ slotEnd m < b * 108 + 108 := by
  have hs : ((next - 1) :: upTo (b * 108) 108).Pairwise (· < ·) := by
    rw [List.pairwise_cons]
    exact ⟨fun c hc => by rw [mem_upTo] at hc; omega, upTo_sorted ..⟩
  unfold newSlots at hm
  rw [mem_emits] at hm
  refine ⟨hm.1, hm.2.1, ?_⟩
  have hf := fed_sorted _ hs
  rw [List.pairwise_cons] at hf
  have h1 := hf.1 _ hm.2.2
  have h2 := (mem_fed _ hs _).1 hm.2.2
  rcases h2 with h2 | ⟨_, k, hk, h2, _, _⟩
  · rw [mem_upTo] at h2; omega
  · rw [mem_upTo] at hk; omega

theorem receive_ok {s : Sys} {j m : Int} (g : Good s j m) (hp : s.pumping = false) (a : Answer)
    (hb : (s.rxBlock + 1 + a.lost) * 108 + 108 ≤ farEnd) :
    ∃ s' e, s.step a = .ok (s', e) ∧ e.sent = none ∧ s'.rxBlock = s.rxBlock + 1 + a.lost ∧ s'.pumping = true ∧ s'.started = true ∧
      s'.tx = s.tx ∧
      ((newSlots s.dev.next (s.rxBlock + 1 + a.lost) = [] ∧ e.tick = none ∧ Good s' j m) ∨
        ∃ m', (newSlots s.dev.next (s.rxBlock + 1 + a.lost)).getLast? = some m' ∧ m < m' ∧ e.tick = some (tickOf j m') ∧
          Good s' (j + 1) m') := by
  obtain ⟨d, e1, n1, w1, o1⟩ := block_ok g.waits (b := s.rxBlock + 1 + a.lost) (by have := g.nr; omega) hb
  unfold Sys.step
  rw [if_neg (by simp [hp])]
  simp only
  rw [e1, Res.bind_ok]
  simp only
  have hn0 := g.n0
  have hnr := g.nr
  unfold Offers at o1
  cases hl : (emits (fed s.dev.next (upTo ((s.rxBlock + 1 + a.lost) * 108) 108))).getLast? with
  | none =>
    rw [hl] at o1
    simp only at o1
    rw [if_neg (by rw [o1.1, g.avail]; simp)]
    refine ⟨_, _, rfl, rfl, rfl, rfl, rfl, rfl, .inl ⟨List.getLast?_eq_none_iff.1 hl, rfl, ?_⟩⟩
    refine ⟨g.now, g.j0, g.jm, g.mw, w1, by rw [o1.1]; exact g.avail, by simp only; omega, by simp only; omega, fun _ => by simp only; omega, ?_, g.len, g.buf, .inr rfl, g.own⟩
    rcases g.past with h | h
    · exact .inl h
    · exact .inr (by simp only; omega)
  | some m' =>
    rw [hl] at o1
    simp only at o1
    have hm := newSlots_mem (by omega) (List.mem_of_getLast? hl)
    have hlt : m < m' := by
      rcases g.past with h | h
      · omega
      · have := hm.2.2.1
        unfold slotEnd at *
        omega
    have hj := g.jm
    have hj0 := g.j0
    rw [if_pos o1.1, g.now, add_ok g.j0 (by omega) (by decide) (by decide), add_ok g.j0 (by omega) (by decide) (by decide)]
    simp only [Res.bind_ok]
    refine ⟨_, _, rfl, rfl, rfl, rfl, rfl, rfl, .inr ⟨m', hl, hlt, ?_, ?_⟩⟩
    · simp only
      rw [o1.2]
      rfl
    · refine ⟨rfl, by omega, by omega, hm.2.1, ⟨w1.1, w1.2⟩, rfl, by simp only; omega, by simp only; omega, fun _ => by simp only; omega, .inr (by simp only; omega), g.len, g.buf, .inr rfl,
        fun i t k h => by have := g.own i t k h; omega⟩

theorem pump_ok {s : Sys} {j m : Int} (g : Good s j m) (hp : s.pumping = true) (hs : s.started = true) (a : Answer) :
    s.step a = .ok ({ s with tx := (s.tx.process (s.rxBlock + a.ahead) s.rxBlock (fromInt (j % wrap + 1))).1, pumping := (s.tx.process (s.rxBlock + a.ahead) s.rxBlock (fromInt (j % wrap + 1))).2.isSome },
      ⟨(s.tx.process (s.rxBlock + a.ahead) s.rxBlock (fromInt (j % wrap + 1))).2, none⟩) ∧
    Good { s with tx := (s.tx.process (s.rxBlock + a.ahead) s.rxBlock (fromInt (j % wrap + 1))).1, pumping := (s.tx.process (s.rxBlock + a.ahead) s.rxBlock (fromInt (j % wrap + 1))).2.isSome } j m := by
  have hq := process_safe g.len g.buf (s.rxBlock + a.ahead) s.rxBlock (fromInt (j % wrap + 1))
  refine ⟨?_, ⟨g.now, g.j0, g.jm, g.mw, g.waits, g.avail, g.n0, g.nr, g.rd, g.past, hq.1, hq.2.1, g.st, ?_⟩⟩
  · unfold Sys.step
    rw [if_pos hp, if_pos hs, g.now, add_any j 1 (by decide) (by decide)]
    rfl
  · intro i t k h
    rcases process_times _ _ _ _ i t k h with h | rfl
    · exact g.own i t k h
    · have := g.j0
      rw [toInt_fromInt]
      have hw : wrap = 283115520 := rfl
      rw [hw]
      omega

theorem idle_ok {s : Sys} {j m : Int} (g : Good s j m) (hp : s.pumping = true) (hs : s.started = false) (a : Answer) :
    s.step a = .ok ({ s with pumping := false }, ⟨none, none⟩) ∧ Good { s with pumping := false } j m := by
  refine ⟨?_, ⟨g.now, g.j0, g.jm, g.mw, g.waits, g.avail, g.n0, g.nr, g.rd, g.past, g.len, g.buf, g.st, g.own⟩⟩
  unfold Sys.step
  rw [if_pos hp, if_neg (by simp [hs])]
  rfl

/-- How many blocks the radio counts at most during these answers. -/
def span : List Answer → Nat
  | [] => 0
  | a :: as => 1 + a.lost + span as

/-- What holds of a sequence of blocks sent from number `from` on. -/
structure SentOk (start : Int) (xs : List Sent) : Prop where
  order : (xs.map Sent.number).Pairwise (· < ·)
  first : ∀ x ∈ xs, start ≤ x.number
  clock : ∀ x ∈ xs, x.clock + 2 ≤ x.number
  len : ∀ x ∈ xs, x.samples.length = 108
  buf : ∀ x ∈ xs, BufOk x.number x.samples
  last : ∀ x ∈ xs, ∀ t k, x.samples[107]? = some (some (t, k)) → t.toInt * 1020 + k = x.number * 108 + 107 + 16

theorem run_safe (as : List Answer) : ∀ {s : Sys} {j m : Int}, Good s j m → (s.rxBlock + span as) * 108 + 108 ≤ farEnd →
    ∃ s' es j' m', s.run as = .ok (s', es) ∧ Good s' j' m' ∧ SentOk s.tx.block (sentBy es) := by
  induction as with
  | nil =>
    intro s j m g _
    exact ⟨s, [], j, m, rfl, g, by constructor <;> simp [sentBy]⟩
  | cons a as ih =>
    intro s j m g hb
    simp only [span] at hb
    have step : ∃ s1 e j1 m1, s.step a = .ok (s1, e) ∧ Good s1 j1 m1 ∧ s.tx.block ≤ s1.tx.block ∧ s1.rxBlock ≤ s.rxBlock + 1 + a.lost ∧
        ∀ x, e.sent = some x → s.tx.block ≤ x.number ∧ x.number < s1.tx.block ∧
          x.clock + 2 ≤ x.number ∧ x.samples.length = 108 ∧ BufOk x.number x.samples ∧
          ∀ t k, x.samples[107]? = some (some (t, k)) → t.toInt * 1020 + k = x.number * 108 + 107 + 16 := by
      cases hp : s.pumping with
      | false =>
        obtain ⟨s1, e, h1, h2, h3, _, _, h4, h5⟩ := receive_ok g hp a (by omega)
        rcases h5 with ⟨_, _, h5⟩ | ⟨m', _, _, _, h5⟩
        · exact ⟨s1, e, _, _, h1, h5, by rw [h4]; omega, by omega, by rw [h2]; simp⟩
        · exact ⟨s1, e, _, _, h1, h5, by rw [h4]; omega, by omega, by rw [h2]; simp⟩
      | true =>
        cases hs : s.started with
        | false =>
          obtain ⟨h1, h2⟩ := idle_ok g hp hs a
          exact ⟨_, _, _, _, h1, h2, by simp only; omega, by simp only; omega, by simp⟩
        | true =>
          obtain ⟨h1, h2⟩ := pump_ok g hp hs a
          have hq := process_safe g.len g.buf (s.rxBlock + a.ahead) s.rxBlock (fromInt (j % wrap + 1))
          refine ⟨_, _, _, _, h1, h2, hq.2.2.1, by simp only; omega, ?_⟩
          intro x hx
          have := hq.2.2.2 x hx
          exact ⟨this.1, this.2.1, this.2.2.1, this.2.2.2.1, this.2.2.2.2.1, fun t k h => (this.2.2.2.2.2 t k h).2⟩
    obtain ⟨s1, e, j1, m1, h1, g1, hle, hrx, hx⟩ := step
    obtain ⟨s2, es, j2, m2, h2, g2, q⟩ := ih g1 (by omega)
    refine ⟨s2, e :: es, j2, m2, ?_, g2, ?_⟩
    · unfold Sys.run
      rw [h1, Res.bind_ok]
      simp only
      rw [h2]
      rfl
    · cases he : e.sent with
      | none =>
        have : sentBy (e :: es) = sentBy es := by simp [sentBy, he]
        rw [this]
        exact ⟨q.order, fun x h => by have := q.first x h; omega, q.clock, q.len, q.buf, q.last⟩
      | some x =>
        have : sentBy (e :: es) = x :: sentBy es := by simp [sentBy, he]
        rw [this]
        have hx := hx x he
        constructor
        · rw [List.map_cons, List.pairwise_cons]
          refine ⟨?_, q.order⟩
          intro n hn
          obtain ⟨y, hy, rfl⟩ := List.mem_map.1 hn
          have := q.first y hy
          omega
        all_goals
          intro y hy
          rcases List.mem_cons.1 hy with rfl | hy
          all_goals first | exact hx.1 | exact hx.2.2.1 | exact hx.2.2.2.1 | exact hx.2.2.2.2.1 | exact hx.2.2.2.2.2 | skip
        · have := q.first y hy; omega
        · exact q.clock y hy
        · exact q.len y hy
        · exact q.buf y hy
        · exact q.last y hy

/-- **C86, whatever the radio does.** Any blocks may be lost, and the clock of the radio may say anything that is not in the past. The
program does not abort; every block is given to the radio at least two blocks before its time, the blocks in order and no
time twice; no sample of a slot is sent before its time. -/
theorem c86_in_order {r : Int} (hr : 0 ≤ r) (as : List Answer) (hb : (r + span as) * 108 + 108 ≤ farEnd) :
    ∃ s es, (Sys.init r).run as = .ok (s, es) ∧ ((sentBy es).map Sent.number).Pairwise (· < ·) ∧
      ∀ x ∈ sentBy es, x.clock + 2 ≤ x.number ∧ x.samples.length = 108 ∧
        ∀ (i : Nat) (t : Time) (k : Int), x.samples[i]? = some (some (t, k)) → 0 ≤ k ∧ k < 1020 ∧
          t.toInt * 1020 + k ≤ x.number * 108 + i + 16 := by
  obtain ⟨s, es, _, _, h, _, q⟩ := run_safe as (init_good hr) hb
  exact ⟨s, es, h, q.order, fun x hx => ⟨q.clock x hx, q.len x hx, q.buf x hx⟩⟩

/-! ## On time -/

/-- All samples of block `b`. -/
def blockOnAir (b : Int) : List Sample := (upTo (b * 108) 108).map onAir

/-- Nothing has been lost, the program is as fast as it should be: tick `j`, in which slot `j + 1` is to be sent. -/
structure Timely (s : Sys) (j : Int) : Prop where
  good : Good s j (j - 1)
  end_ : (s.rxBlock + 1) * 108 ≤ slotEnd j
  fresh : s.started = false → s.dev.next = 0 ∧ j = 0 ∧ s.tx = Tx.new
  right : s.tx.buf = (upTo (s.tx.block * 108) s.tx.buf.length).map onAir
  upper : s.tx.block * 108 + s.tx.buf.length + 16 ≤ 1020 * (j + 2)
  lower : 1 ≤ j → 1020 * (j + 1) ≤ s.tx.block * 108 + s.tx.buf.length + 16
  zero : j = 0 → s.tx.buf = [] ∨ s.tx.block * 108 + s.tx.buf.length + 16 = 2040
  done : s.started = true → s.pumping = false → s.tx.block * 108 + s.tx.buf.length + 16 = 1020 * (j + 2)
  early : s.started = true → s.tx.block * 108 + s.tx.buf.length + 16 = 1020 * (j + 2) ∨ (1 ≤ j ∧ s.rxBlock * 108 ≤ slotEnd (j - 1)) ∨
    (j = 0 ∧ s.rxBlock ≤ 8)
  rx0 : 0 ≤ s.rxBlock

theorem sampleAt_right {j c : Int} (h0 : 0 ≤ j) (h1 : j + 1 < wrap) (hl : 1 ≤ j → 1020 * (j + 1) ≤ c + 16) (hc : c + 16 < 1020 * (j + 2)) :
    sampleAt (fromInt (j + 1)) c = some (onAir c) := by
  rw [sampleAt_eq, toInt_fromInt, Int.emod_eq_of_lt (by omega) h1]
  unfold onAir
  by_cases h : c + 16 < 1020
  · rw [if_pos (by omega), if_pos h]
  · have : 1020 * (j + 1) ≤ c + 16 := by
      by_cases h2 : 1 ≤ j
      · exact hl h2
      · omega
    rw [if_neg (by omega), if_neg (by omega), if_neg h, show (c + 16) / 1020 = j + 1 by omega,
      show c + 16 - (j + 1) * 1020 = (c + 16) % 1020 by omega]

theorem sampleAt_over {j c : Int} (h0 : 0 ≤ j) (h1 : j + 1 < wrap) (hc : 1020 * (j + 2) ≤ c + 16) :
    sampleAt (fromInt (j + 1)) c = none := by
  rw [sampleAt_eq, toInt_fromInt, Int.emod_eq_of_lt (by omega) h1, if_neg (by omega), if_pos (by omega)]

theorem fill_right {j B : Int} (h0 : 0 ≤ j) (h1 : j + 1 < wrap) {buf : List Sample} (hb : buf = (upTo (B * 108) buf.length).map onAir)
    (hlen : buf.length < 108) (hl : 1 ≤ j → 1020 * (j + 1) ≤ B * 108 + buf.length + 16) (hu : B * 108 + buf.length + 16 ≤ 1020 * (j + 2)) :
    (B * 108 + 108 + 16 ≤ 1020 * (j + 2) ∧ fill (fromInt (j + 1)) B buf (108 - buf.length) = (blockOnAir B, true)) ∨
    (1020 * (j + 2) < B * 108 + 108 + 16 ∧
      fill (fromInt (j + 1)) B buf (108 - buf.length) = ((upTo (B * 108) (1020 * (j + 2) - 16 - B * 108).toNat).map onAir, false)) := by
  obtain ⟨xs, e, hx0, hx, ht, hf⟩ := fill_ok (fromInt (j + 1)) B (108 - buf.length) buf
  have hin : ∀ i : Nat, i < xs.length → B * 108 + (buf.length + i : Nat) + 16 < 1020 * (j + 2) := by
    intro i hi
    refine Int.not_le.1 fun hle => ?_
    have := hx i _ (List.getElem?_eq_getElem hi)
    rw [sampleAt_over h0 h1 hle] at this
    cases this
  have hxs : xs = (upTo (B * 108 + buf.length) xs.length).map onAir := by
    refine List.ext_getElem (by simp [upTo]) fun i hi _ => ?_
    have h2 := hx i _ (List.getElem?_eq_getElem hi)
    have h3 := hin i hi
    rw [sampleAt_right h0 h1 (fun h => by have := hl h; omega) h3] at h2
    simp only [Option.some.injEq] at h2
    rw [← h2]
    simp only [upTo, List.getElem_map, List.getElem_range]
    congr 1
    omega
  have hall : buf ++ xs = (upTo (B * 108) (buf.length + xs.length)).map onAir := by
    rw [upTo_append, List.map_append, ← hb, ← hxs]
  revert e ht hf
  generalize fill (fromInt (j + 1)) B buf (108 - buf.length) = q
  obtain ⟨q1, q2⟩ := q
  intro e ht hf
  simp only at e ht hf
  subst e
  cases q2 with
  | true =>
    have := ht rfl
    refine .inl ⟨?_, ?_⟩
    · have := hin (xs.length - 1) (by omega)
      omega
    · rw [hall, show buf.length + xs.length = 108 by omega]
      rfl
  | false =>
    obtain ⟨hn, hnone⟩ := hf rfl
    have hge : 1020 * (j + 2) ≤ B * 108 + (buf.length + xs.length : Nat) + 16 := by
      refine Int.not_lt.1 fun hlt => ?_
      rw [sampleAt_right h0 h1 (fun h => by have := hl h; omega) hlt] at hnone
      cases hnone
    have hle : B * 108 + (buf.length + xs.length : Nat) + 16 ≤ 1020 * (j + 2) := by
      by_cases hz : xs.length = 0
      · omega
      · have := hin (xs.length - 1) (by omega)
        omega
    refine .inr ⟨by omega, ?_⟩
    rw [hall, show buf.length + xs.length = (1020 * (j + 2) - 16 - B * 108).toNat by omega]

theorem init_timely {r : Int} (h0 : 0 ≤ r) (h1 : r ≤ 7) : Timely (Sys.init r) 0 := by
  refine ⟨init_good h0, ?_, fun _ => ⟨rfl, rfl, rfl⟩, rfl, ?_, fun h => by omega, fun _ => .inl rfl, fun h => (by cases h), fun h => (by cases h), h0⟩
  · show (r + 1) * 108 ≤ slotEnd 0
    unfold slotEnd; omega
  · show (0 : Int) * 108 + ((0 : Nat) : Int) + 16 ≤ 1020 * (0 + 2)
    decide

theorem pump_timely {s : Sys} {j : Int} (t : Timely s j) (hs : s.started = true) (hj : j + 1 < wrap) {clock : Int} (h0 : s.rxBlock ≤ clock)
    (h1 : clock ≤ s.rxBlock + 7) :
    ∃ B, (B = s.tx.block ∨ (s.tx.block ≤ B ∧ B ≤ 18)) ∧
    ((s.tx.process clock s.rxBlock (fromInt (j + 1)) = (⟨B + 1, []⟩, some ⟨B, blockOnAir B, clock⟩) ∧ B * 108 + 108 + 16 ≤ 1020 * (j + 2) ∧
        (1 ≤ j → 1020 * (j + 1) ≤ (B + 1) * 108 + 16)) ∨
      ∃ n : Nat, s.tx.process clock s.rxBlock (fromInt (j + 1)) = (⟨B, (upTo (B * 108) n).map onAir⟩, none) ∧
        B * 108 + n + 16 = 1020 * (j + 2)) := by
  obtain ⟨g, hend, hfr, hright, hup, hlow, hzero, hdone, hearly, hrx0⟩ := t
  have hlen := g.len
  have hj0 := g.j0
  have hrd := g.rd hs
  have hpast := g.past
  unfold slotEnd at hend hpast hearly
  have hearly := hearly hs
  have hd : s.tx.block - clock ≤ 60 := by omega
  have hB : ∃ B, B = (if s.tx.block - clock < 2 then clock + 2 else s.tx.block) ∧ (B = s.tx.block ∨ (s.tx.block ≤ B ∧ B ≤ 18)) ∧
      s.tx.buf = (upTo (B * 108) s.tx.buf.length).map onAir ∧ B * 108 + s.tx.buf.length + 16 ≤ 1020 * (j + 2) ∧
      (1 ≤ j → 1020 * (j + 1) ≤ B * 108 + s.tx.buf.length + 16) ∧ B - s.rxBlock ≤ 60 := by
    refine ⟨_, rfl, ?_⟩
    by_cases hc : s.tx.block - clock < 2
    · rw [if_pos hc]
      by_cases hj1 : 1 ≤ j
      · have := hlow hj1
        omega
      · obtain rfl : j = 0 := by omega
        rcases hzero rfl with h | h
        · rw [h]
          simp only [List.length_nil]
          exact ⟨by omega, rfl, by omega, by omega, by omega⟩
        · omega
    · rw [if_neg hc]
      exact ⟨.inl rfl, hright, hup, hlow, by omega⟩
  obtain ⟨B, hBe, hBB, hBr, hBu, hBl, hBd⟩ := hB
  refine ⟨B, hBB, ?_⟩
  unfold Tx.process
  simp only
  rw [if_neg (by omega), ← hBe, if_neg (by omega), show perBlock = 108 from rfl]
  rcases fill_right hj0 hj hBr hlen hBl hBu with ⟨h, e⟩ | ⟨h, e⟩
  · rw [e]
    exact .inl ⟨rfl, h, fun h => by have := hBl h; omega⟩
  · rw [e]
    exact .inr ⟨(1020 * (j + 2) - 16 - B * 108).toNat, rfl, by omega⟩

theorem newSlots_whole {r : Int} : newSlots (r * 108) r = emits (upTo (r * 108) 108) := by
  unfold newSlots
  rw [fed_whole]

theorem timely_step {s : Sys} {j : Int} (t : Timely s j) (a : Answer) (hl : a.lost = 0) (ha : a.ahead ≤ 7)
    (hf : s.started = false → s.rxBlock ≤ 7) (hb : (s.rxBlock + 1) * 108 + 108 ≤ 1020 * (wrap - 2)) :
    ∃ s' e j', s.step a = .ok (s', e) ∧ Timely s' j' ∧ s'.rxBlock ≤ s.rxBlock + 1 ∧
      (s'.started = false → s'.rxBlock ≤ 7) ∧
      ((e.tick = none ∧ j' = j) ∨ (e.tick = some (tickOf j j) ∧ j' = j + 1)) ∧
      (∀ x, e.sent = some x → x.samples = blockOnAir x.number ∧ s.tx.block ≤ x.number ∧ s'.tx.block = x.number + 1 ∧
        (x.number = s.tx.block ∨ x.number ≤ 18)) ∧
      (e.sent = none → s.tx.block ≤ s'.tx.block ∧ (s'.tx.block = s.tx.block ∨ s'.tx.block ≤ 18)) := by
  have hw : wrap = 283115520 := rfl
  have g := t.good
  have hj0 := g.j0
  have hnr := g.nr
  have hpast := g.past
  have hend := t.end_
  have hj : j + 2 < wrap := by unfold slotEnd at hpast; omega
  cases hp : s.pumping with
  | true =>
    cases hs : s.started with
    | false =>
      obtain ⟨h1, h2⟩ := idle_ok g hp hs a
      refine ⟨_, _, j, h1, ⟨h2, t.end_, t.fresh, t.right, t.upper, t.lower, t.zero, ?_, t.early, t.rx0⟩, by simp only; omega, hf,
        .inl ⟨rfl, rfl⟩, by simp, by simp⟩
      intro h _
      simp only at h
      rw [hs] at h; cases h
    | true =>
      obtain ⟨h1, h2⟩ := pump_ok g hp hs a
      rw [Int.emod_eq_of_lt hj0 (by omega)] at h1 h2
      obtain ⟨B, hB, h | ⟨n, h, hn⟩⟩ := pump_timely t hs (by omega) (clock := s.rxBlock + a.ahead) (by omega) (by omega)
      · obtain ⟨he, hu, hlo⟩ := h
        rw [he] at h1 h2
        refine ⟨_, _, j, h1, ⟨h2, t.end_, fun h => (by simp only at h; rw [hs] at h; cases h), rfl, ?_, ?_, fun _ => .inl rfl, ?_, ?_, t.rx0⟩, by simp only; omega,
          hf, .inl ⟨rfl, rfl⟩, ?_, by simp⟩
        · simp only [List.length_nil]; omega
        · intro h; have := hlo h; simp only [List.length_nil]; omega
        · intro _ h; simp at h
        · intro _
          rcases t.early hs with h | h
          · have := g.len
            omega
          · exact .inr h
        · intro x hx
          simp only [Option.some.injEq] at hx
          subst hx
          exact ⟨rfl, by simp only; omega, rfl, by simp only; omega⟩
      · rw [h] at h1 h2
        have hlen : ((upTo (B * 108) n).map onAir).length = n := by simp [upTo]
        refine ⟨_, _, j, h1, ⟨h2, t.end_, fun h => (by simp only at h; rw [hs] at h; cases h), ?_, ?_, ?_, ?_, ?_, ?_, t.rx0⟩, by simp only; omega,
          hf, .inl ⟨rfl, rfl⟩, by simp, fun _ => by simp only; omega⟩
        · simp only [hlen]
        · simp only [hlen]; omega
        · simp only [hlen]; omega
        · intro h; simp only [hlen]; exact .inr (by omega)
        · simp only [hlen]; intro _ _; exact hn
        · simp only [hlen]; exact fun _ => .inl hn
  | false =>
    have hlost : s.rxBlock + 1 + (a.lost : Int) = s.rxBlock + 1 := by omega
    obtain ⟨s', e, h1, h2, h3, h4, h5, h6, h7⟩ := receive_ok g hp a (by rw [hlost]; simp only [farEnd]; omega)
    rw [hlost] at h3 h7
    refine ⟨s', e, ?_⟩
    cases hs : s.started with
    | true =>
      have hrd := g.rd hs
      have hpos := t.done hs hp
      rw [hrd, newSlots_whole] at h7
      rcases h7 with ⟨h7, h8, h9⟩ | ⟨m', h7, h8, h9, h10⟩
      · refine ⟨j, h1, ⟨h9, ?_, by rw [h5]; simp, by rw [h6]; exact t.right, by rw [h6]; exact t.upper, by rw [h6]; exact t.lower,
          by rw [h6]; exact t.zero, by rw [h4]; simp, by rw [h6]; exact fun _ => .inl hpos, by have := t.rx0; omega⟩, by omega, by rw [h5]; simp, .inl ⟨h8, rfl⟩, by rw [h2]; simp,
          fun _ => by rw [h6]; omega⟩
        have hno : j ∉ emits (upTo ((s.rxBlock + 1) * 108) 108) := by rw [h7]; simp
        rw [mem_emits, mem_upTo] at hno
        omega
      · have hm := List.mem_of_getLast? h7
        rw [mem_emits, mem_upTo] at hm
        obtain rfl : m' = j := by unfold slotEnd at hm hend; omega
        have hend' : (s'.rxBlock + 1) * 108 ≤ slotEnd (m' + 1) := by
          unfold slotEnd at hend ⊢
          omega
        refine ⟨m' + 1, h1, ⟨by rw [show m' + 1 - 1 = m' by omega]; exact h10, hend', by rw [h5]; simp, by rw [h6]; exact t.right, by rw [h6]; omega,
          by rw [h6]; omega, by omega, by rw [h4]; simp, ?_, by have := t.rx0; omega⟩, by omega, by rw [h5]; simp, .inr ⟨h9, rfl⟩, by rw [h2]; simp,
          fun _ => by rw [h6]; omega⟩
        intro _
        refine .inr (.inl ⟨by omega, ?_⟩)
        rw [show m' + 1 - 1 = m' by omega, h3]
        exact hend
    | false =>
      obtain ⟨f1, rfl, f3⟩ := t.fresh hs
      have hr7 := hf hs
      have hr0 := t.rx0
      rw [f1] at h7
      rcases h7 with ⟨h7, h8, h9⟩ | ⟨m', h7, h8, h9, h10⟩
      · refine ⟨0, h1, ⟨h9, by unfold slotEnd; omega, by rw [h5]; simp, by rw [h6]; exact t.right, by rw [h6]; exact t.upper, by rw [h6]; exact t.lower,
          by rw [h6]; exact t.zero, by rw [h4]; simp, fun _ => .inr (.inr ⟨rfl, by omega⟩), by omega⟩, by omega, by rw [h5]; simp, .inl ⟨h8, rfl⟩, by rw [h2]; simp,
          fun _ => by rw [h6]; omega⟩
      · have hm := newSlots_mem (by omega) (List.mem_of_getLast? h7)
        unfold slotEnd at hm
        omega

theorem timely_run (as : List Answer) : ∀ {s : Sys} {j : Int}, Timely s j → (∀ a ∈ as, a.lost = 0 ∧ a.ahead ≤ 7) →
    (s.started = false → s.rxBlock ≤ 7) → (s.rxBlock + as.length) * 108 + 108 ≤ 1020 * (wrap - 2) →
    ∃ (s' : Sys) (es : List Effect) (k : Nat), s.run as = .ok (s', es) ∧ Timely s' (j + k) ∧
      ticksBy es = (List.range k).map (fun i : Nat => tickOf (j + i) (j + i)) ∧
      (∀ x ∈ sentBy es, x.samples = blockOnAir x.number) ∧
      ∀ n : Int, 18 ≤ n → s.tx.block ≤ n → n < s'.tx.block → n ∈ (sentBy es).map Sent.number := by
  induction as with
  | nil =>
    intro s j t _ _ _
    exact ⟨s, [], 0, rfl, by simpa using t, rfl, by simp [sentBy], fun n _ h1 h2 => by omega⟩
  | cons a as ih =>
    intro s j t ha hf hb
    rw [List.length_cons] at hb
    obtain ⟨s1, e, j1, h1, t1, hr, hf1, hj, hx, hn⟩ := timely_step t a (ha a (by simp)).1 (ha a (by simp)).2 hf (by omega)
    obtain ⟨s2, es, k, h2, t2, ht, hx2, hn2⟩ := ih t1 (fun b hb => ha b (by simp [hb])) hf1 (by omega)
    have hrun : s.run (a :: as) = .ok (s2, e :: es) := by
      unfold Sys.run
      rw [h1, Res.bind_ok]
      simp only
      rw [h2]
      rfl
    have hxs : ∀ x ∈ sentBy (e :: es), x.samples = blockOnAir x.number := by
      intro x hxm
      unfold sentBy at hxm
      rw [List.filterMap_cons] at hxm
      cases he : e.sent with
      | none => rw [he] at hxm; exact hx2 x hxm
      | some y =>
        rw [he] at hxm
        rcases List.mem_cons.1 hxm with rfl | hxm
        · exact (hx x he).1
        · exact hx2 x hxm
    have hns : ∀ n : Int, 18 ≤ n → s.tx.block ≤ n → n < s2.tx.block → n ∈ (sentBy (e :: es)).map Sent.number := by
      intro n h18 hlo hhi
      unfold sentBy
      rw [List.filterMap_cons]
      cases he : e.sent with
      | none =>
        have := hn he
        exact hn2 n h18 (by omega) hhi
      | some y =>
        have := hx y he
        simp only [List.map_cons, List.mem_cons]
        by_cases hny : n = y.number
        · exact .inl hny
        · exact .inr (hn2 n h18 (by omega) hhi)
    rcases hj with ⟨he, rfl⟩ | ⟨he, rfl⟩
    · refine ⟨s2, e :: es, k, hrun, t2, ?_, hxs, hns⟩
      rw [← ht]
      simp [ticksBy, he]
    · refine ⟨s2, e :: es, k + 1, hrun, by rw [show j + ((k + 1 : Nat) : Int) = j + 1 + k by omega]; exact t2, ?_, hxs, hns⟩
      unfold ticksBy at ht ⊢
      rw [List.filterMap_cons, he]
      simp only
      rw [ht, List.range_succ_eq_map, List.map_cons, List.map_map]
      congr 1
      · rw [show j + ((0 : Nat) : Int) = j by omega]
      · refine List.map_congr_left fun i _ => ?_
        simp only [Function.comp_apply]
        rw [show j + 1 + (i : Int) = j + (i.succ : Nat) by omega]

/-- **C86.** If no block is lost and the clock of the radio is at most seven blocks (10 ms) ahead of the samples received, then in each
tick what was received in that slot is passed on, and every slot from the second on is sent completely and at its time: the blocks
given to the radio consist of what should be on the air then, and when the program waits for samples in tick `k` all blocks up to the end
of slot `k + 1` have been given to it. This goes on until the hyperframe counter overflows, after 46 days. -/
theorem c86_on_time {r : Int} (h0 : 0 ≤ r) (h1 : r ≤ 7) (as : List Answer) (ha : ∀ a ∈ as, a.lost = 0 ∧ a.ahead ≤ 7)
    (hb : (r + as.length) * 108 + 108 ≤ 1020 * (wrap - 2)) :
    ∃ (s : Sys) (es : List Effect) (k : Nat), (Sys.init r).run as = .ok (s, es) ∧
      ticksBy es = (List.range k).map (fun i : Nat => tickOf i i) ∧
      (∀ x ∈ sentBy es, x.samples = blockOnAir x.number) ∧
      (s.pumping = false → ∀ n : Int, 18 ≤ n → n * 108 + 108 + 16 ≤ 1020 * (k + 2) → n ∈ (sentBy es).map Sent.number) := by
  obtain ⟨s, es, k, h, t, ht, hx, hn⟩ := timely_run as (init_timely h0 h1) ha (fun _ => h1) hb
  refine ⟨s, es, k, h, by simpa using ht, hx, fun hp n h18 hle => hn n h18 (by show (0 : Int) ≤ n; omega) ?_⟩
  cases hs : s.started with
  | true =>
    have := t.done hs hp
    have := t.good.len
    omega
  | false =>
    have := (t.fresh hs).2.1
    omega

/-! ## After a loss -/

theorem ticksOf_append (l l' : List Int) : ∀ j, ticksOf j (l ++ l') = ticksOf j l ++ ticksOf (j + l.length) l' := by
  induction l with
  | nil => intro j; simp [ticksOf]
  | cons m l ih =>
    intro j
    rw [List.cons_append, ticksOf, ih, ticksOf, List.length_cons, List.cons_append, show j + 1 + (l.length : Int) = j + (l.length + 1 : Nat) by omega]

theorem step_ticks {s : Sys} {j m : Int} (g : Good s j m) (a : Answer) (hb : (s.rxBlock + 1 + a.lost) * 108 + 108 ≤ farEnd) :
    ∃ s1 e m1, s.step a = .ok (s1, e) ∧ s1.rxBlock ≤ s.rxBlock + 1 + a.lost ∧
      ((e.tick = none ∧ m1 = m ∧ Good s1 j m) ∨ (e.tick = some (tickOf j m1) ∧ m < m1 ∧ Good s1 (j + 1) m1)) := by
  cases hp : s.pumping with
  | false =>
    obtain ⟨s1, e, h1, h2, h3, _, _, h4, h5⟩ := receive_ok g hp a hb
    rcases h5 with ⟨_, h6, h5⟩ | ⟨m', _, h7, h6, h5⟩
    · exact ⟨s1, e, m, h1, by omega, .inl ⟨h6, rfl, h5⟩⟩
    · exact ⟨s1, e, m', h1, by omega, .inr ⟨h6, h7, h5⟩⟩
  | true =>
    cases hs : s.started with
    | false =>
      obtain ⟨h1, h2⟩ := idle_ok g hp hs a
      exact ⟨_, _, m, h1, by simp only; omega, .inl ⟨rfl, rfl, h2⟩⟩
    | true =>
      obtain ⟨h1, h2⟩ := pump_ok g hp hs a
      exact ⟨_, _, m, h1, by simp only; omega, .inl ⟨rfl, rfl, h2⟩⟩

theorem run_ticks (as : List Answer) : ∀ {s : Sys} {j m : Int}, Good s j m → (s.rxBlock + span as) * 108 + 108 ≤ farEnd →
    ∃ s' es m' ms, s.run as = .ok (s', es) ∧ Good s' (j + (ms.length : Nat)) m' ∧ ticksBy es = ticksOf j ms ∧
      s'.rxBlock ≤ s.rxBlock + span as ∧ m' = ms.getLastD m := by
  induction as with
  | nil =>
    intro s j m g _
    exact ⟨s, [], m, [], rfl, by simpa using g, rfl, by simp [span], rfl⟩
  | cons a as ih =>
    intro s j m g hb
    simp only [span] at hb ⊢
    obtain ⟨s1, e, m1, h1, hr, h⟩ := step_ticks g a (by omega)
    have hrun : ∀ s2 es, s1.run as = .ok (s2, es) → s.run (a :: as) = .ok (s2, e :: es) := by
      intro s2 es h2
      unfold Sys.run
      rw [h1, Res.bind_ok]
      simp only
      rw [h2]
      rfl
    rcases h with ⟨he, rfl, g1⟩ | ⟨he, hm, g1⟩
    · obtain ⟨s2, es, m2, ms, h2, g2, ht, hr2, hl⟩ := ih g1 (by omega)
      exact ⟨s2, e :: es, m2, ms, hrun _ _ h2, g2, by rw [← ht]; simp [ticksBy, he], by omega, hl⟩
    · obtain ⟨s2, es, m2, ms, h2, g2, ht, hr2, hl⟩ := ih g1 (by omega)
      refine ⟨s2, e :: es, m2, m1 :: ms, hrun _ _ h2, ?_, ?_, by omega, ?_⟩
      · rw [List.length_cons, show j + ((ms.length + 1 : Nat) : Int) = j + 1 + ms.length by omega]
        exact g2
      · have : ticksBy (e :: es) = tickOf j m1 :: ticksBy es := by simp [ticksBy, he]
        rw [this, ht]
        rfl
      · rw [hl]
        cases ms <;> rfl

theorem run_append (as as' : List Answer) : ∀ {s s1 s2 : Sys} {es es' : List Effect}, s.run as = .ok (s1, es) → s1.run as' = .ok (s2, es') →
    s.run (as ++ as') = .ok (s2, es ++ es') := by
  induction as with
  | nil =>
    intro s s1 s2 es es' h h'
    simp only [Sys.run, Res.ok.injEq, Prod.mk.injEq] at h
    obtain ⟨rfl, rfl⟩ := h
    simpa using h'
  | cons a as ih =>
    intro s s1 s2 es es' h h'
    unfold Sys.run at h
    rw [List.cons_append]
    unfold Sys.run
    obtain ⟨⟨sa, ea⟩, h1, h⟩ := Res.bind_eq_ok.1 h
    obtain ⟨⟨sb, eb⟩, h2, h⟩ := Res.bind_eq_ok.1 h
    simp only [Res.pure_eq, Res.ok.injEq, Prod.mk.injEq] at h
    obtain ⟨rfl, rfl⟩ := h
    rw [h1, Res.bind_ok]
    simp only at h2 ⊢
    rw [ih h2 h', Res.bind_ok]
    rfl

/-- What is left in the buffer is from before slot `T`, or not from the beginning of a slot. -/
def Tail (T : Int) (buf : List Sample) : Prop :=
  ∀ (i : Nat) (t : Time) (k : Int), buf[i]? = some (some (t, k)) → t.toInt < T ∨ 249 ≤ k

theorem process_behind {s : Sys} {j m T : Int} (g : Good s j m) (hs : s.started = true) (hm : 0 ≤ m) (hlag : j ≤ m) (hT : 0 < T)
    (hb : Tail T s.tx.buf) {clock : Int} (hc : s.rxBlock + 1 ≤ clock) :
    Tail T (s.tx.process clock s.rxBlock (fromInt (j % wrap + 1))).1.buf ∧
    (∀ x, (s.tx.process clock s.rxBlock (fromInt (j % wrap + 1))).2 = some x → Tail T x.samples) ∧
    (j + 1 ≤ m → (s.tx.process clock s.rxBlock (fromInt (j % wrap + 1))).2 = none) := by
  have hrd := g.rd hs
  have hpast : slotEnd m < s.dev.next := by
    rcases g.past with h | h
    · omega
    · exact h
  have hmw := g.mw
  have hj0 := g.j0
  have hlen := g.len
  rw [Int.emod_eq_of_lt hj0 (by omega)]
  unfold slotEnd at hpast
  unfold Tx.process
  simp only
  generalize hB : (if s.tx.block - clock < 2 then clock + 2 else s.tx.block) = B
  have hB2 : clock + 2 ≤ B := by split at hB <;> omega
  split
  · exact ⟨hb, by simp, by simp⟩
  split
  · exact ⟨hb, by simp, by simp⟩
  obtain ⟨xs, e, hx0, hx, ht, hf⟩ := fill_ok (fromInt (j + 1)) B (perBlock - s.tx.buf.length) s.tx.buf
  have all : Tail T (s.tx.buf ++ xs) := by
    intro i t k h
    by_cases hi : i < s.tx.buf.length
    · rw [List.getElem?_append_left hi] at h
      exact hb i t k h
    · rw [List.getElem?_append_right (by omega)] at h
      obtain ⟨rfl, h1, h2, h3⟩ := sampleAt_some (hx _ _ h)
      rw [toInt_fromInt] at h3 ⊢
      by_cases hw : j + 1 < wrap
      · rw [Int.emod_eq_of_lt (by omega) hw] at h3
        exact .inr (by omega)
      · obtain hw : j + 1 = wrap := by omega
        rw [hw, Int.emod_self]
        exact .inl hT
  have none_ : j + 1 ≤ m → xs = [] := by
    intro hjm
    cases xs with
    | nil => rfl
    | cons x xs =>
      have := hx 0 x rfl
      rw [sampleAt_over hj0 (by omega) (by omega)] at this
      cases this
  revert e ht hf
  cases fill (fromInt (j + 1)) B s.tx.buf (perBlock - s.tx.buf.length) with
  | mk buf full =>
    intro e ht hf
    simp only at e ht hf
    subst e
    cases full with
    | false => exact ⟨all, by simp, by simp⟩
    | true =>
      have h1 := ht rfl
      simp only [Option.some.injEq]
      refine ⟨fun i t k h => by simp at h, ?_, ?_⟩
      · rintro x rfl
        exact all
      · intro h
        have := none_ h
        rw [this] at h1
        simp only [perBlock, List.length_nil] at h1
        omega

theorem behind_run (as : List Answer) (T : Int) (hT : 0 < T) : ∀ {s : Sys} {j m : Int}, Good s j m → s.started = true → 0 ≤ m → j ≤ m → Tail T s.tx.buf →
    (∀ a ∈ as, 1 ≤ a.ahead) → (s.rxBlock + span as) * 108 + 108 ≤ farEnd →
    ∃ s' es, s.run as = .ok (s', es) ∧ (∀ x ∈ sentBy es, Tail T x.samples) ∧ (j + 1 ≤ m → sentBy es = []) := by
  induction as with
  | nil => intro s j m _ _ _ _ _ _ _; exact ⟨s, [], rfl, by simp [sentBy], fun _ => rfl⟩
  | cons a as ih =>
    intro s j m g hs hm hlag hbuf ha hb
    simp only [span] at hb
    have step : ∃ s1 e j1 m1, s.step a = .ok (s1, e) ∧ Good s1 j1 m1 ∧ s1.rxBlock ≤ s.rxBlock + 1 + a.lost ∧ s1.started = true ∧ 0 ≤ m1 ∧
        j1 ≤ m1 ∧ (j + 1 ≤ m → j1 + 1 ≤ m1) ∧ Tail T s1.tx.buf ∧ (∀ x, e.sent = some x → Tail T x.samples) ∧ (j + 1 ≤ m → e.sent = none) := by
      cases hp : s.pumping with
      | false =>
        obtain ⟨s1, e, h1, h2, h3, _, h6, h4, h5⟩ := receive_ok g hp a (by omega)
        rcases h5 with ⟨_, _, h5⟩ | ⟨m', _, h7, _, h5⟩
        · exact ⟨s1, e, j, m, h1, h5, by omega, h6, hm, hlag, id, by rw [h4]; exact hbuf, by rw [h2]; simp, fun _ => h2⟩
        · exact ⟨s1, e, j + 1, m', h1, h5, by omega, h6, by omega, by omega, by omega, by rw [h4]; exact hbuf, by rw [h2]; simp, fun _ => h2⟩
      | true =>
        obtain ⟨h1, h2⟩ := pump_ok g hp hs a
        have hq := process_behind g hs hm hlag hT hbuf (clock := s.rxBlock + a.ahead) (by have := ha a (by simp); omega)
        exact ⟨_, _, j, m, h1, h2, by simp only; omega, hs, hm, hlag, id, hq.1, hq.2.1, hq.2.2⟩
    obtain ⟨s1, e, j1, m1, h1, g1, hr, hs1, hm1, hl1, hl2, hb1, hx, hn⟩ := step
    obtain ⟨s2, es, h2, hx2, hn2⟩ := ih g1 hs1 hm1 hl1 hb1 (fun b hb => ha b (by simp [hb])) (by omega)
    refine ⟨s2, e :: es, ?_, ?_, ?_⟩
    · unfold Sys.run
      rw [h1, Res.bind_ok]
      simp only
      rw [h2]
      rfl
    · intro x hxm
      unfold sentBy at hxm
      rw [List.filterMap_cons] at hxm
      cases he : e.sent with
      | none => rw [he] at hxm; exact hx2 x hxm
      | some y =>
        rw [he] at hxm
        rcases List.mem_cons.1 hxm with rfl | hxm
        · exact hx x he
        · exact hx2 x hxm
    · intro h
      unfold sentBy
      rw [List.filterMap_cons, hn h]
      exact hn2 (hl2 h)

/-- **C86, findings.** `as` is anything that may happen, after which slots `ms` have been received in the ticks so far. If the stack is
behind, that is, if the last slot received is not the one before the present tick but a later one, then whatever happens afterwards:

* no slot handed over from the next tick on is ever sent whole, at least its first 249 samples (a quarter) are missing;
* if the stack is two slots behind, or more, nothing is ever sent again. -/
theorem c86_behind {r : Int} (hr : 0 ≤ r) (as as' : List Answer) (ha : ∀ a ∈ as', 1 ≤ a.ahead)
    (hb : (r + span as + span as') * 108 + 108 ≤ farEnd) :
    ∃ s es s' es' ms, (Sys.init r).run as = .ok (s, es) ∧ (Sys.init r).run (as ++ as') = .ok (s', es ++ es') ∧ ticksBy es = ticksOf 0 ms ∧
      ∀ m, ms.getLast? = some m →
        ((ms.length : Int) ≤ m → ∀ x ∈ sentBy es', ∀ t k, some (t, k) ∈ x.samples → ms.length + 2 ≤ t.toInt → 249 ≤ k) ∧
        (ms.length + 1 ≤ m → sentBy es' = []) := by
  obtain ⟨s, es, m, ms, h, g, ht, hrx, hm⟩ := run_ticks as (init_good hr) (by show (r + span as) * 108 + 108 ≤ farEnd; omega)
  have hrx' : s.rxBlock ≤ r + span as := hrx
  rw [Int.zero_add] at g
  by_cases hlag : 0 ≤ m ∧ (ms.length : Int) ≤ m
  · have hs : s.started = true := by
      rcases g.st with h | h
      · omega
      · exact h
    obtain ⟨s', es', h', hx, hn⟩ := behind_run as' (ms.length + 2) (by omega) g hs hlag.1 hlag.2 (fun i t k h => by
      have := g.own i t k h
      exact .inl (by omega)) ha (by omega)
    refine ⟨s, es, s', es', ms, h, run_append _ _ h h', ht, ?_⟩
    intro m' hm'
    have : m = m' := by
      rw [hm, List.getLastD_eq_getLast?, hm']
      rfl
    subst this
    refine ⟨fun _ x hxm t k hmem hk => ?_, hn⟩
    obtain ⟨i, hi, hi'⟩ := List.getElem_of_mem hmem
    have := hx x hxm i t k (by rw [List.getElem?_eq_getElem hi, hi'])
    omega
  · obtain ⟨s', es', m2, ms', h', _⟩ := run_ticks as' g (by omega)
    refine ⟨s, es, s', es', ms, h, run_append _ _ h h', ht, ?_⟩
    intro m' hm'
    have : m = m' := by
      rw [hm, List.getLastD_eq_getLast?, hm']
      rfl
    subst this
    have : 0 ≤ m := by
      have := g.jm
      have : ms ≠ [] := by rintro rfl; simp at hm'
      have := List.length_pos_iff.2 this
      omega
    exact ⟨fun h => absurd ⟨this, h⟩ hlag, fun h => absurd ⟨this, by omega⟩ hlag⟩

/-- `n` answers without losses, the clock one block ahead. -/
def calm (n : Nat) : List Answer := List.replicate n ⟨1, 0⟩

/-- What a run does: the slots received in the ticks, and the numbers of the blocks sent. -/
def seen (as : List Answer) : Option (List Int × List Int) :=
  match (Sys.init 0).run as with
  | .ok (_, es) => some ((ticksBy es).map fun t => (t.heard.toInt + 2) % wrap, (sentBy es).map Sent.number)
  | .panic => none

/-- Without losses: slot 0 is received, blocks 4 to 27 are sent (slot 2 ends in block 28). -/
example : seen (calm 45) = some ([0], upTo 4 24) := by decide +kernel

/-- Nine blocks are lost before block 28: slot 1 is not received, and the stack is one slot behind; blocks 28 to 30 are not sent. -/
example : seen (calm 61 ++ ⟨1, 9⟩ :: calm 7) = some ([0, 2], upTo 4 24 ++ upTo 31 6) := by decide +kernel

/-- Thirty blocks are lost: the stack is three slots behind and nothing is sent any more. -/
example : seen (calm 61 ++ ⟨1, 30⟩ :: calm 10) = some ([0, 4], upTo 4 24) := by decide +kernel

/-- The samples of a block which are not what should be on the air then. -/
def misplaced (x : Sent) : List (Nat × Sample) :=
  (List.range 108).filterMap fun i : Nat =>
    match x.samples[i]? with
    | some y => if y = onAir (x.number * 108 + i) then none else some (i, y)
    | none => none

/-- **C86, finding.** The program is late once, by 13 ms, nothing is lost. Block 28 has been begun with the last samples of slot 2 and is
then skipped, but the samples stay in the buffer and are sent as the beginning of block 29, in the middle of slot 3. -/
theorem c86_mixed : ∃ (s : Sys) (es : List Effect) (x : Sent), (Sys.init 0).run (calm 60 ++ ⟨9, 0⟩ :: calm 15) = .ok (s, es) ∧ x ∈ sentBy es ∧
    x.number = 29 ∧ misplaced x = (List.range 20).map fun i : Nat => (i, some (fromInt 2, 1000 + (i : Int))) := by
  have h : (match (Sys.init 0).run (calm 60 ++ ⟨9, 0⟩ :: calm 15) with
    | .ok (_, es) => (sentBy es).any fun x => decide (x.number = 29 ∧
        misplaced x = (List.range 20).map fun i : Nat => (i, some (fromInt 2, 1000 + (i : Int))))
    | .panic => false) = true := by decide +kernel
  cases hr : (Sys.init 0).run (calm 60 ++ ⟨9, 0⟩ :: calm 15) with
  | panic => rw [hr] at h; cases h
  | ok p =>
    obtain ⟨s, es⟩ := p
    rw [hr] at h
    simp only [List.any_eq_true, decide_eq_true_eq] at h
    obtain ⟨x, hx, h1, h2⟩ := h
    exact ⟨s, es, x, rfl, hx, h1, h2⟩

end Verif.Dsp.Slots
