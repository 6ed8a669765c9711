import Verif.Umac.UmacMsHistory
/-!
# C81: what the base station reports as sent, a mobile station passes up

The station runs the upper MAC of this repository and is given every signalling block the channel scheduler builds on its
timeslot. What it passes up is compared with what the senders at the base station are told.
-/
namespace Verif.Umac
open Verif.Bits Verif.Codec Verif.Tdma Verif.Mle

/-- The loop of `rx_tmv_sch` ends by itself: with more rounds allowed than there are bits, how many does not matter. -/
theorem rxSch_fuel (t : Time) (sc n k : Nat) (s : UmacMs) (bs : List Bool) (h : bs.length < n) :
    UmacMs.loop t sc (n + k) s bs = UmacMs.loop t sc n s bs := by
  induction n generalizing s bs with
  | zero => omega
  | succ n ih =>
    have e : n + 1 + k = n + k + 1 := by omega
    rw [e]
    simp only [UmacMs.loop]
    congr 1
    funext r
    cases r.2.2 with
    | none => rfl
    | some rest =>
      simp only
      split
      · rw [ih r.1 rest (by omega)]
      · rfl

/-- Never are parts of two messages of a timeslot on the air at once. -/
def OneAtATime (s : Sched) (i : Fin 4) (es : List SchedEv) : Prop :=
  ∀ es1 es2 r1, es = es1 ++ es2 → s.run es1 = .ok r1 → (r1.1.queues i).countP DlElem.begun ≤ 1

theorem line_one {n : Nat} {q : List DlElem} (h : InLine n q) : q.countP DlElem.begun ≤ 1 := by
  rw [← count_work]
  have hl := h.line
  generalize workOf q = W at hl
  cases W with
  | nil => simp
  | cons e W =>
    rw [List.countP_cons]
    have : W.countP DlElem.begun = 0 := by
      rw [List.countP_eq_zero]
      intro x hx hb
      obtain ⟨f, o, h1, h2, _⟩ := hl.2 x hx
      rw [begun_eq h1, h2] at hb; cases hb
    split <;> omega

theorem uniform_one {x : Time} {scramb : Nat} {pre : Precomps} {es : List SchedEv} {i : Fin 4} {n : Nat} (hf : ∀ e ∈ es, e.Fine)
    (hu : ∀ e ∈ es, e.Uniform (i.val + 1) n) : OneAtATime (Sched.init x scramb pre) i es := by
  intro es1 es2 r1 he hr
  exact line_one (srun_line (n := n) (sinv_init x scramb pre) (fun e h => hf e (by rw [he]; simp [h]))
    (fun e h => hu e (by rw [he]; simp [h])) hr ⟨by simp [Sched.init, workOf, Line], by simp [Sched.init]⟩)

theorem heard_init {own : Prop} {want : Nat → Option Wanted} (sc : Nat) {x : Time} {scramb : Nat} {pre : Precomps} {es : List SchedEv}
    {i : Fin 4} (hf : ∀ e ∈ es, e.Fine) (hfit : ∀ e ∈ es, e.Fits (i.val + 1) want) (hown : ∀ e ∈ es, e.grants (i.val + 1) → own)
    {s' : Sched} {tr : List (SchedEv × SchedRet)} (h : (Sched.init x scramb pre).run es = .ok (s', tr))
    (hone : OneAtATime (Sched.init x scramb pre) i es) :
    Outcome (Risky own want) (fun y => Heard sc (told want (reported tr)) y.2) (UmacMs.init.run (listenOn (i.val + 1) sc tr)) := by
  have hq : (Sched.init x scramb pre).queues i = [] := rfl
  have := srun_heard (own := own) (sc := sc) (m := .init) (sinv_init x scramb pre) hf hfit hown h hone
    (by rw [hq]; exact ⟨by simp, by simp, by simp⟩) (by rw [hq]; exact ⟨by simp, .inr rfl⟩)
  rw [srun_told (sinv_init x scramb pre) hf hfit h (fun id m _ j _ => rfl)] at this
  exact this

theorem fin_of_slot {t : Nat} (h1 : 1 ≤ t) (h4 : t ≤ 4) : ∃ i : Fin 4, t = i.val + 1 := ⟨⟨t - 1, by omega⟩, by simp; omega⟩

/-- **C81.** A station listens to timeslot `t` from the start. All messages of the timeslot have headers of the same length and
content of four bits or more, and there are no grants and no acknowledgements on it. Then the station does not abort, and what
it passes up are the messages reported as transmitted: each once, in that order, to the address it was sent to, and nothing
else. A message whose end falls between one and four bits after a byte boundary may lose its end. -/
theorem c81_partial (x : Time) (scramb sc : Nat) (pre : Precomps) (es : List SchedEv) (t n : Nat) (ht : 1 ≤ t ∧ t ≤ 4)
    (want : Nat → Option Wanted) (hf : ∀ e ∈ es, e.Fine) (hfit : ∀ e ∈ es, e.Fits t want) (hu : ∀ e ∈ es, e.Uniform t n)
    (hlen : ∀ id m, want id = some m → 4 ≤ m.sdu.length) (s' : Sched) (tr : List (SchedEv × SchedRet))
    (h : (Sched.init x scramb pre).run es = .ok (s', tr)) :
    ∃ m outs, UmacMs.init.run (listenOn t sc tr) = .ok (m, outs) ∧ Heard sc (told want (reported tr)) outs := by
  obtain ⟨i, rfl⟩ := fin_of_slot ht.1 ht.2
  have := heard_init (own := False) sc hf hfit (fun e he hg => by
    have := hu e he
    cases e with
    | grant t' a g => exact this hg
    | ack t' a => exact this hg
    | _ => exact hg) h (uniform_one hf hu)
  cases hr : UmacMs.init.run (listenOn (i.val + 1) sc tr) with
  | ok y => rw [hr] at this; exact ⟨y.1, y.2, rfl, this⟩
  | err => rw [hr] at this; cases this
  | panic =>
    rw [hr] at this
    rcases this with h | ⟨id, m, h1, h2⟩
    · cases h
    · have := hlen id m h1; omega

theorem heard_exact {sc : Nat} {ms : List Wanted} {outs : List MsOut} (h : Heard sc ms outs)
    (hw : ∀ m ∈ ms, m.sdu ≠ [] ∧ ((m.hdr + m.sdu.length) % 8 = 0 ∨ 5 ≤ (m.hdr + m.sdu.length) % 8)) :
    outs = ms.map fun m => .sdu m.addr m.sdu sc := by
  induction h with
  | nil => rfl
  | whole _ ih => rw [if_neg (hw _ (by simp)).1, ih (fun m hm => hw m (by simp [hm]))]; rfl
  | short k got hk hs _ ih =>
    have := (hw _ (List.mem_cons_self ..)).2
    cases hs <;> omega

theorem told_mem {want : Nat → Option Wanted} {rs : List Report} {m : Wanted} (h : m ∈ told want rs) : ∃ id, want id = some m := by
  unfold told at h
  rw [List.mem_filterMap] at h
  obtain ⟨r, _, h⟩ := h
  cases r with
  | transmitted id => exact ⟨id, h⟩
  | discarded _ => cases h

/-- **C81.** If no message ends between one and four bits after a byte boundary, what is passed up are exactly the messages
reported as transmitted. -/
theorem c81_exact_partial (x : Time) (scramb sc : Nat) (pre : Precomps) (es : List SchedEv) (t n : Nat) (ht : 1 ≤ t ∧ t ≤ 4)
    (want : Nat → Option Wanted) (hf : ∀ e ∈ es, e.Fine) (hfit : ∀ e ∈ es, e.Fits t want) (hu : ∀ e ∈ es, e.Uniform t n)
    (hlen : ∀ id m, want id = some m → 4 ≤ m.sdu.length ∧ ((m.hdr + m.sdu.length) % 8 = 0 ∨ 5 ≤ (m.hdr + m.sdu.length) % 8))
    (s' : Sched) (tr : List (SchedEv × SchedRet)) (h : (Sched.init x scramb pre).run es = .ok (s', tr)) :
    ∃ m, UmacMs.init.run (listenOn t sc tr) = .ok (m, (told want (reported tr)).map fun m => .sdu m.addr m.sdu sc) := by
  obtain ⟨m, outs, h1, h2⟩ := c81_partial x scramb sc pre es t n ht want hf hfit hu (fun id m hm => (hlen id m hm).1) s' tr h
  refine ⟨m, ?_⟩
  rw [h1, heard_exact h2]
  intro w hw
  obtain ⟨id, hid⟩ := told_mem hw
  obtain ⟨k1, k2⟩ := hlen id w hid
  exact ⟨fun e => by rw [e] at k1; simp at k1, k2⟩

/-- **C81.** With grants and acknowledgements, headers of any length and messages of any length: as long as parts of two
messages are never on the air at once, a station which has not aborted has passed up the messages reported as transmitted. -/
theorem c81_mixed_partial (x : Time) (scramb sc : Nat) (pre : Precomps) (es : List SchedEv) (i : Fin 4)
    (want : Nat → Option Wanted) (hf : ∀ e ∈ es, e.Fine) (hfit : ∀ e ∈ es, e.Fits (i.val + 1) want)
    (hone : OneAtATime (Sched.init x scramb pre) i es) (s' : Sched) (tr : List (SchedEv × SchedRet))
    (h : (Sched.init x scramb pre).run es = .ok (s', tr)) :
    UmacMs.init.run (listenOn (i.val + 1) sc tr) = .panic ∨
    ∃ m outs, UmacMs.init.run (listenOn (i.val + 1) sc tr) = .ok (m, outs) ∧ Heard sc (told want (reported tr)) outs := by
  have := heard_init (own := True) sc hf hfit (fun _ _ _ => trivial) h hone
  cases hr : UmacMs.init.run (listenOn (i.val + 1) sc tr) with
  | ok y => rw [hr] at this; exact .inr ⟨y.1, y.2, rfl, this⟩
  | err => rw [hr] at this; cases this
  | panic => exact .inl rfl

theorem srun_joined {s s1 s2 : Sched} {es1 es2 : List SchedEv} {tr1 tr2 : List (SchedEv × SchedRet)} (h1 : s.run es1 = .ok (s1, tr1))
    (h2 : s1.run es2 = .ok (s2, tr2)) : s.run (es1 ++ es2) = .ok (s2, tr1 ++ tr2) := by
  induction es1 generalizing s tr1 with
  | nil => cases h1; exact h2
  | cons e es ih =>
    obtain ⟨a, tr, k1, k2, k3⟩ := srun_cons h1
    simp only at k3
    simp only [List.cons_append, Sched.run, k1, Out.bind_ok, ih k2, k3]

/-- **C81.** On the main carrier's first timeslot, a message reaches the station: queued after `es1`, with so many ticks
following (C23), it is among what the station passes up, complete. -/
theorem c81_delivered_partial (cfg : CellCfg) (hcfg : cfg.InRange) (scramb sc : Nat) (x : Time) (hx : x.valid) (es1 es2 : List SchedEv)
    (n id : Nat) (pdu : MacResource) (a : Addr) (sdu : List Bool) (hp : Proper (es1 ++ .message 1 id true pdu sdu :: es2))
    (h1 : Avoids id es1) (h2 : Avoids id es2) (want : Nat → Option Wanted)
    (hfit : ∀ e ∈ es1 ++ .message 1 id true pdu sdu :: es2, e.Fits 1 want)
    (hu : ∀ e ∈ es1 ++ .message 1 id true pdu sdu :: es2, e.Uniform 1 n)
    (hlen : ∀ id m, want id = some m → 4 ≤ m.sdu.length ∧ ((m.hdr + m.sdu.length) % 8 = 0 ∨ 5 ≤ (m.hdr + m.sdu.length) % 8))
    (ha : pdu.onAir.addr = some a) (s1 s' : Sched) (tr1 tr2 : List (SchedEv × SchedRet))
    (hr1 : (Sched.init x scramb (Precomps.generate cfg)).run es1 = .ok (s1, tr1))
    (hr2 : s1.run (.message 1 id true pdu sdu :: es2) = .ok (s', tr2))
    (hn : 8 * (backlog (s1.queues 0) + sdu.length + 2) ≤ ticksIn es2) (hh : .hang 1 false ∉ es2) :
    ∃ m outs, UmacMs.init.run (listenOn 1 sc (tr1 ++ tr2)) = .ok (m, outs) ∧ .sdu a sdu sc ∈ outs := by
  obtain ⟨_, _, hrep, _⟩ := c23_main cfg hcfg scramb x hx es1 es2 id true pdu sdu hp h1 h2 s1 s' tr1 tr2 hr1 hr2 hn hh
  have hrun : (Sched.init x scramb (Precomps.generate cfg)).run (es1 ++ .message 1 id true pdu sdu :: es2) = .ok (s', tr1 ++ tr2) := by
    exact srun_joined hr1 hr2
  obtain ⟨m, hm⟩ := c81_exact_partial x scramb sc _ _ 1 n (by decide) want (fun e he => (hp e he).1) hfit hu hlen s' _ hrun
  refine ⟨m, _, hm, ?_⟩
  have hw := hfit (.message 1 id true pdu sdu) (by simp)
  simp only [SchedEv.Fits, if_true] at hw
  obtain ⟨_, _, _, a', n', w1, _, w2⟩ := hw
  rw [ha] at w1; cases w1
  rw [List.mem_map]
  refine ⟨⟨a, n', sdu⟩, ?_, rfl⟩
  unfold told
  rw [List.mem_filterMap]
  refine ⟨.transmitted id, ?_, w2⟩
  have hin : Report.transmitted id ∈ reportsIn id (tr1 ++ tr2) := by rw [hrep]; simp
  simp only [reportsIn, List.mem_flatMap] at hin
  obtain ⟨p, hp1, hp2⟩ := hin
  simp only [reported, List.mem_flatMap]
  refine ⟨p, hp1, ?_⟩
  cases hp : p.2 with
  | sent y => rw [hp] at hp2; exact (List.mem_filter.1 hp2).1
  | dropped r => rw [hp] at hp2; exact (List.mem_filter.1 hp2).1
  | _ => rw [hp] at hp2; cases hp2

end Verif.Umac
