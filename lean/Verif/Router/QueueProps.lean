import Verif.Router.Queue
/-!
# C35 — Entity message queue delivers every message exactly once in order

`World.pushed` and `World.delivered` record what the entities pushed and what was handed to its
destination, in order of time. The theorems hold for every stack, that is, every behaviour of the
entities.
-/
namespace Verif.Router
variable {S : Stack}

/-- Anything that happens to the router: a delivery, pushes by an entity (a tick or a submission), a change
of the entities' states, an advance of the clock. -/
inductive Step : World S → World S → Prop where
  | deliver (w : World S) : Step w w.deliver
  | push (w : World S) (ps : List (Prio × S.M)) : Step w (w.push ps)
  | state (w : World S) (st : S.St) : Step w { w with st := st }
  | clock (w : World S) (ts : Int) : Step w { w with ts := ts }

/-- Any history. -/
inductive Steps : World S → World S → Prop where
  | refl (w : World S) : Steps w w
  | tail {a b c : World S} : Steps a b → Step b c → Steps a c

/-- A router on which nothing has been pushed yet. -/
def World.Fresh (w : World S) : Prop := w.queue = [] ∧ w.delivered = [] ∧ w.pushed = []

theorem Steps.trans {a b c : World S} (h1 : Steps a b) (h2 : Steps b c) : Steps a c := by
  induction h2 with
  | refl => exact h1
  | tail _ hs ih => exact .tail ih hs

theorem pushAll_perm {M : Type} (q : List M) (ps : List (Prio × M)) : (pushAll q ps).Perm (q ++ ps.map Prod.snd) := by
  induction ps generalizing q with
  | nil => simp [pushAll]
  | cons a r ih =>
    obtain ⟨p, m⟩ := a
    simp only [pushAll, List.map_cons]
    refine (ih _).trans ?_
    cases p with
    | normal => simp [pushPrio]
    | immediate => simpa [pushPrio] using (List.perm_middle (a := m) (l₁ := q) (l₂ := r.map Prod.snd)).symm

theorem pushAll_filter {M : Type} (norm : M → Bool) (q : List M) (ps : List (Prio × M))
    (h : ∀ m, (Prio.immediate, m) ∈ ps → norm m = false) :
    (pushAll q ps).filter norm = (q ++ ps.map Prod.snd).filter norm := by
  induction ps generalizing q with
  | nil => simp [pushAll]
  | cons a r ih =>
    obtain ⟨p, m⟩ := a
    simp only [pushAll, List.map_cons]
    rw [ih _ (fun m hm => h m (List.mem_cons_of_mem _ hm))]
    cases p with
    | normal => simp [pushPrio]
    | immediate =>
      have := h m List.mem_cons_self
      simp [pushPrio, List.filter_append, List.filter_cons, this]

/-- A delivery takes the first message; then the entity may push. -/
theorem deliver_cases (w : World S) :
    (w.queue = [] ∧ w.deliver = w) ∨
    ∃ m q st ps, w.queue = m :: q ∧
      w.deliver = (⟨st, q, w.ts, w.delivered ++ [m], w.pushed⟩ : World S).push ps := by
  unfold World.deliver
  cases hq : w.queue with
  | nil => exact Or.inl ⟨rfl, rfl⟩
  | cons m q =>
    right
    simp only [popFront]
    split
    · exact ⟨m, q, _, _, rfl, rfl⟩
    · exact ⟨m, q, w.st, [], rfl, by simp [World.push, pushAll]⟩

theorem step_perm {w w' : World S} (hs : Step w w') (h : (w.pushed.map Prod.snd).Perm (w.delivered ++ w.queue)) :
    (w'.pushed.map Prod.snd).Perm (w'.delivered ++ w'.queue) := by
  have key : ∀ (w : World S) (ps : List (Prio × S.M)), (w.pushed.map Prod.snd).Perm (w.delivered ++ w.queue) →
      ((w.push ps).pushed.map Prod.snd).Perm ((w.push ps).delivered ++ (w.push ps).queue) := by
    intro w ps h
    simp only [World.push, List.map_append]
    refine (h.append_right _).trans ?_
    rw [List.append_assoc]
    exact ((pushAll_perm w.queue ps).symm).append_left _
  cases hs with
  | deliver =>
    rcases deliver_cases w with ⟨_, e⟩ | ⟨m, q, st, ps, hq, e⟩
    · rw [e]; exact h
    · rw [e]; apply key; rw [hq] at h; simpa using h
  | push ps => exact key w ps h
  | state => exact h
  | clock => exact h

theorem steps_perm {w w' : World S} (hs : Steps w w') (h : (w.pushed.map Prod.snd).Perm (w.delivered ++ w.queue)) :
    (w'.pushed.map Prod.snd).Perm (w'.delivered ++ w'.queue) := by
  induction hs with
  | refl => exact h
  | tail _ hs ih => exact step_perm hs ih

/-- **C35, exactly once.** After any history the messages pushed are, as a multiset, the messages delivered
together with those still queued: nothing is lost, nothing is delivered twice. -/
theorem c35_exactly_once {w w' : World S} (hf : w.Fresh) (hs : Steps w w') :
    (w'.pushed.map Prod.snd).Perm (w'.delivered ++ w'.queue) := by
  obtain ⟨h1, h2, h3⟩ := hf
  exact steps_perm hs (by simp [h1, h2, h3])

theorem pushed_mono {w w' : World S} (hs : Step w w') : ∃ ps, w'.pushed = w.pushed ++ ps := by
  cases hs with
  | deliver =>
    rcases deliver_cases w with ⟨_, e⟩ | ⟨m, q, st, ps, hq, e⟩
    · exact ⟨[], by simp [e]⟩
    · exact ⟨ps, by rw [e]; rfl⟩
  | push ps => exact ⟨ps, rfl⟩
  | state => exact ⟨[], by simp⟩
  | clock => exact ⟨[], by simp⟩

/-- **C35, order.** Take any class of messages which are never pushed as immediate. After any history, the
messages of that class were delivered in exactly the order in which they were pushed, and those not yet
delivered are queued in that order. -/
theorem c35_fifo {w w' : World S} (hf : w.Fresh) (hs : Steps w w') (norm : S.M → Bool)
    (hn : ∀ m, (Prio.immediate, m) ∈ w'.pushed → norm m = false) :
    (w'.pushed.map Prod.snd).filter norm = w'.delivered.filter norm ++ w'.queue.filter norm := by
  induction hs with
  | refl => obtain ⟨h1, h2, h3⟩ := hf; simp [h1, h2, h3]
  | @tail b c _ hs ih =>
    obtain ⟨ps, hps⟩ := pushed_mono hs
    have ih := ih (fun m hm => hn m (by rw [hps]; exact List.mem_append_left _ hm))
    have key : ∀ (w : World S) (ps : List (Prio × S.M)), (∀ m, (Prio.immediate, m) ∈ ps → norm m = false) →
        (w.pushed.map Prod.snd).filter norm = w.delivered.filter norm ++ w.queue.filter norm →
        ((w.push ps).pushed.map Prod.snd).filter norm = (w.push ps).delivered.filter norm ++ (w.push ps).queue.filter norm := by
      intro w ps h1 h2
      simp only [World.push, List.map_append, List.filter_append, h2, pushAll_filter norm w.queue ps h1,
        List.append_assoc]
    cases hs with
    | deliver =>
      rcases deliver_cases b with ⟨_, e⟩ | ⟨m, q, st, ps', hq, e⟩
      · rw [e]; exact ih
      · rw [e] at hn ⊢
        apply key
        · intro m hm; exact hn m (by simp [World.push, hm])
        · rw [hq] at ih
          simp only [ih, List.filter_append, List.filter_cons, List.filter_nil]
          split <;> simp
    | push ps' =>
      apply key
      · intro m hm; exact hn m (by simp [World.push, hm])
      · exact ih
    | state => exact ih
    | clock => exact ih

/-- **C35, order without immediate messages**: plain first in, first out. -/
theorem c35_fifo_plain {w w' : World S} (hf : w.Fresh) (hs : Steps w w')
    (hn : ∀ m, (Prio.immediate, m) ∉ w'.pushed) : w'.pushed.map Prod.snd = w'.delivered ++ w'.queue := by
  have := c35_fifo hf hs (fun _ => true) (fun m hm => absurd hm (hn m))
  have e : ∀ l : List S.M, l.filter (fun _ => true) = l := fun l => List.filter_eq_self.2 (by simp)
  simpa only [e] using this

/-- **C35, immediate messages** overtake everything queued: it is the very next message delivered, and the
messages queued before it stay as they are behind it. -/
theorem c35_immediate (w : World S) (m : S.M) :
    (w.push [(.immediate, m)]).queue = m :: w.queue ∧
    ∃ ps, (w.push [(.immediate, m)]).deliver.delivered = w.delivered ++ [m] ∧
      (w.push [(.immediate, m)]).deliver.queue = pushAll w.queue ps := by
  refine ⟨rfl, ?_⟩
  rcases deliver_cases (w.push [(.immediate, m)]) with ⟨h, _⟩ | ⟨m', q, st, ps, hq, e⟩
  · simp [World.push, pushAll, pushPrio] at h
  · simp only [World.push, pushAll, pushPrio, List.cons.injEq] at hq
    obtain ⟨rfl, rfl⟩ := hq
    exact ⟨ps, by rw [e]; rfl, by rw [e]; rfl⟩

theorem deliverAll_steps {w w' : World S} (h : DeliverAll w w') : Steps w w' ∧ w'.queue = [] ∧ w'.ts = w.ts := by
  induction h with
  | done hq => exact ⟨.refl _, hq, rfl⟩
  | @step w w' _ _ ih =>
    refine ⟨Steps.trans (.tail (.refl _) (.deliver _)) ih.1, ih.2.1, ?_⟩
    rw [ih.2.2]
    rcases deliver_cases w with ⟨_, e⟩ | ⟨m, q, st, ps, hq, e⟩
    · rw [e]
    · rw [e]; rfl

theorem ticks_steps (f : S.St → S.Dest → Int → S.St × List (Prio × S.M)) (w : World S) (ds : List S.Dest) :
    Steps w (w.ticks f ds) ∧ (w.ticks f ds).ts = w.ts := by
  induction ds generalizing w with
  | nil => exact ⟨.refl _, rfl⟩
  | cons d ds ih =>
    have h := ih (({ w with st := (f w.st d w.ts).1 } : World S).push (f w.st d w.ts).2)
    exact ⟨Steps.trans (.tail (.tail (.refl _) (.state w _)) (.push _ _)) h.1, h.2⟩

/-- **C35, ticks.** A tick, if it ends, ends with an empty queue and the clock advanced by one slot; every
message pushed up to then has been delivered; and up to the advance the clock stood still, so that all of
them were delivered, and all entities called, at the old time. -/
theorem c35_tick {w0 w w' : World S} (hf : w0.Fresh) (h0 : Steps w0 w) (order first second others : List S.Dest)
    (h : Tick order first second others w w') :
    w'.queue = [] ∧ w'.ts = w.ts + 1 ∧ (w'.pushed.map Prod.snd).Perm w'.delivered ∧
    ∃ c, Steps w c ∧ c.ts = w.ts ∧ w' = { c with ts := c.ts + 1 } := by
  obtain ⟨a, ha, b, c, d, hb, hc, hd, rfl⟩ := h
  obtain ⟨sa, qa, ta⟩ := deliverAll_steps ha
  obtain ⟨sb, qb, tb⟩ := deliverAll_steps hb
  obtain ⟨sc, qc, tc⟩ := deliverAll_steps hc
  obtain ⟨sd, qd, td⟩ := deliverAll_steps hd
  obtain ⟨s0, t0⟩ := ticks_steps S.tickStart w order
  obtain ⟨s1, t1⟩ := ticks_steps S.tickEnd a first
  obtain ⟨s2, t2⟩ := ticks_steps S.tickEnd b second
  obtain ⟨s3, t3⟩ := ticks_steps S.tickEnd c others
  have hs : Steps w d := (s0.trans sa).trans ((s1.trans sb).trans ((s2.trans sc).trans (s3.trans sd)))
  have hts : d.ts = w.ts := by
    rw [td, t3, tc, t2, tb, t1, ta]; exact t0
  refine ⟨qd, by simp [hts], ?_, d, hs, hts, rfl⟩
  have := c35_exactly_once hf (h0.trans hs)
  rw [qd] at this
  simpa using this

/-- A concrete stack: entity 1 answers message `n+1` with message `n`, first as an immediate one. -/
def countdown : Stack where
  Dest := Nat
  M := Nat
  St := Unit
  dest _ := 1
  registered _ := true
  rx _ _ m := ((), if m = 0 then [] else [(.immediate, m - 1)])
  tickStart _ _ _ := ((), [(.normal, 2), (.normal, 1)])
  tickEnd _ _ _ := ((), [])

def trace : List Nat := [2, 1, 0, 1, 0]
def tracePushed : List (Prio × Nat) := [(.normal, 2), (.normal, 1), (.immediate, 1), (.immediate, 0), (.immediate, 0)]

/-- On it a tick ends, with five deliveries in the expected order. -/
example : ∃ w', Tick (S := countdown) [(1 : Nat)] [] [] [] ⟨(), [], 7, [], []⟩ w' ∧ w'.delivered = trace ∧ w'.ts = 8 := by
  refine ⟨⟨(), [], 8, trace, tracePushed⟩, ⟨⟨(), [], 7, trace, tracePushed⟩, ?_, ?_⟩, rfl, rfl⟩
  · refine .step (by intro h; cases h) (.step (by intro h; cases h) (.step (by intro h; cases h)
      (.step (by intro h; cases h) (.step (by intro h; cases h) ?_))))
    exact .done rfl
  · exact ⟨_, _, _, .done rfl, .done rfl, .done rfl, rfl⟩

end Verif.Router
