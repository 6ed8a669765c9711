import Verif.Brew.ForwardProps
import Verif.Brew.JitterProps
/-!
# C62: calls of the network in the cell

Histories of the entity alone. The specification follows one session of the network: what the server says of it, what call
control answers, and the voice received for it.
-/
namespace Verif.Brew
open Tdma

/-! ## Specification -/

/-- What is known of an open session: who talks, in which group, the timeslot given by call control, and what has happened to
the play-out buffer (see `Jitter.run`) since it was opened. -/
structure Session where
  speaker : Nat
  gssi : Nat
  ts : Option Nat
  buffer : List Jitter.Ev
  deriving DecidableEq, Repr

/-- The time: what the last tick says. -/
def clock (h : EntHist) : Time := h.foldl (fun t x => match x.1 with
  | .clock t' => t'
  | _ => t) Time.default

/-- What an event does to session `u`, at time `t`. The server opens it, names another speaker, or ends it; the loss of the
connection ends it, and so does call control; call control names the timeslot; voice received for it after that goes to the
buffer, without its first byte; a tick of its timeslot, except in frame 18, takes from the buffer. -/
def sessionAfter (u : Nat) (t : Time) (st : Option Session) : EntEv → Option Session
  | .event (.groupCallStart v speaker gssi _ _) _ _ _ =>
    if v = u then (match st with
      | none => some ⟨speaker, gssi, none, []⟩
      | some c => some { c with speaker := speaker }) else st
  | .event (.groupCallEnd v _) _ _ _ => if v = u then none else st
  | .event .disconnected _ _ _ => none
  | .event (.voice v _ data) _ _ j =>
    st.map fun c => if v = u ∧ c.ts.isSome ∧ 36 ≤ data.length then { c with buffer := c.buffer ++ [.push (data.drop 1) j] } else c
  | .netEnd v => if v = u then none else st
  | .netReady v _ ts _ => st.map fun c => if v = u then { c with ts := some ts } else c
  | .playout j => st.map fun c => if t.f ≠ 18 ∧ c.ts = some t.t then { c with buffer := c.buffer ++ [.pop (j u)] } else c
  | _ => st

/-- Session `u` after a history. -/
def session (u : Nat) (h : EntHist) : Option Session :=
  (h.foldl (fun (p : Time × Option Session) x => ((match x.1 with
    | .clock t' => t'
    | _ => p.1), sessionAfter u p.1 p.2 x.1)) (Time.default, none)).2

/-- The blocks received for session `u` from the network, without their first bytes. -/
def received (u : Nat) (h : EntHist) : List (List Nat) := h.filterMap fun x => match x.1 with
  | .event (.voice v _ data) _ _ _ => if v = u ∧ 36 ≤ data.length then some (data.drop 1) else none
  | _ => none

/-- The blocks of session `u` sent to the radio side. -/
def played (u : Nat) (h : EntHist) : List (List Nat) := h.flatMap fun x => x.2.filterMap fun
  | .voice v _ data => if v = u then some data else none
  | _ => none

/-! ## Lemmas -/

theorem session_pair (u : Nat) (h : EntHist) :
    h.foldl (fun (p : Time × Option Session) x => ((match x.1 with
      | .clock t' => t'
      | _ => p.1), sessionAfter u p.1 p.2 x.1)) (Time.default, none) = (clock h, session u h) := by
  have key : ∀ (h : EntHist) (p : Time × Option Session),
      (h.foldl (fun (p : Time × Option Session) x => ((match x.1 with
        | .clock t' => t'
        | _ => p.1), sessionAfter u p.1 p.2 x.1)) p).1 = h.foldl (fun t x => match x.1 with
        | .clock t' => t'
        | _ => t) p.1 := by
    intro h
    induction h with
    | nil => intro p; rfl
    | cons x h ih => intro p; rw [List.foldl_cons, List.foldl_cons, ih]
  exact Prod.ext (key h _) rfl

theorem session_snoc (u : Nat) (h : EntHist) (x : EntEv × List EntOut) :
    session u (h ++ [x]) = sessionAfter u (clock h) (session u h) x.1 := by
  rw [session, List.foldl_append, session_pair]
  rfl

theorem clock_snoc (h : EntHist) (x : EntEv × List EntOut) : clock (h ++ [x]) = match x.1 with
    | .clock t' => t'
    | _ => clock h := by
  rw [clock, List.foldl_append]
  rfl

theorem Assoc.get_perm {κ ν : Type} [DecidableEq κ] {m m' : Assoc κ ν} (hm : Assoc.Ok m) (hp : m'.Perm m) (k : κ) :
    Assoc.get m' k = Assoc.get m k := by
  have hm' : Assoc.Ok m' := (hp.map Prod.fst).nodup_iff.mpr hm
  apply Option.ext
  intro v
  rw [← Assoc.mem_iff_get hm', ← Assoc.mem_iff_get hm, hp.mem_iff]

theorem Assoc.ok_perm {κ ν : Type} [DecidableEq κ] {m m' : Assoc κ ν} (hm : Assoc.Ok m) (hp : m'.Perm m) : Assoc.Ok m' :=
  (hp.map Prod.fst).nodup_iff.mpr hm

/-- The buffer of session `c`. -/
def Session.jitter (latency : Nat) (c : Session) : Jitter := ((Jitter.withInitialLatency latency).run c.buffer).2

theorem run_snoc (b : Jitter) (evs : List Jitter.Ev) (e : Jitter.Ev) :
    b.run (evs ++ [e]) = ((b.run evs).1 ++ ((b.run evs).2.step e).1.toList, ((b.run evs).2.step e).2) := by
  induction evs generalizing b with
  | nil => simp [Jitter.run]
  | cons x evs ih =>
    rw [List.cons_append, Jitter.run, ih, Jitter.run]
    simp

theorem get_none_of_not_mem {m : Assoc Nat NetCall} {u : Nat} (h : u ∉ m.map Prod.fst) : m.get u = none := by
  cases hg : m.get u with
  | none => rfl
  | some c => exact absurd (List.mem_map.mpr ⟨_, Assoc.mem_of_get hg, rfl⟩) h

/-- The blocks of session `u` among messages. -/
def voiceOf (u : Nat) (o : List EntOut) : List (Nat × List Nat) := o.filterMap fun
  | .voice v ts data => if v = u then some (ts, data) else none
  | _ => none

theorem voiceOf_append (u : Nat) (a b : List EntOut) : voiceOf u (a ++ b) = voiceOf u a ++ voiceOf u b := List.filterMap_append

/-- What the loop does for one session: its buffer before (`b`) and after (`b'`), and its voice. -/
def PlaysAs (t j : Nat) (call : Option NetCall) (b b' : Option Jitter) (v : List (Nat × List Nat)) : Prop :=
  (call.bind (·.ts) = some t → b' = b.map (fun b => (b.popReady j).2) ∧
    v = ((b.bind fun b => (b.popReady j).1).map fun f => (t, f.data)).toList) ∧
  (call.bind (·.ts) ≠ some t → b' = b ∧ v = [])

theorem playLoop_get (t : Nat) (j : Nat → Nat) (l : Assoc Nat NetCall) (hl : Assoc.Ok l) (jit : Assoc Nat Jitter) (u : Nat) :
    PlaysAs t (j u) (l.get u) (jit.get u) ((playLoop t j jit l).1.get u) (voiceOf u (playLoop t j jit l).2) := by
  induction l generalizing jit with
  | nil => simp [playLoop, voiceOf, PlaysAs]
  | cons x l ih =>
    obtain ⟨v, c⟩ := x
    simp only [Assoc.Ok, List.map_cons, List.nodup_cons] at hl
    have ih := ih hl.2
    have hsame : (v ≠ u ∨ c.ts ≠ some t) → (playLoop t j jit ((v, c) :: l)).1.get u = (playLoop t j jit l).1.get u →
        voiceOf u (playLoop t j jit ((v, c) :: l)).2 = voiceOf u (playLoop t j jit l).2 →
        PlaysAs t (j u) (Assoc.get ((v, c) :: l) u) (jit.get u) ((playLoop t j jit ((v, c) :: l)).1.get u)
          (voiceOf u (playLoop t j jit ((v, c) :: l)).2) := by
      intro h1 h2 h3
      rw [h2, h3, Assoc.get_cons]
      by_cases huv : v = u
      · subst huv
        rw [if_pos rfl, PlaysAs, Option.bind_some]
        have hn := get_none_of_not_mem hl.1
        have := (ih jit).2 (by rw [hn]; simp)
        refine ⟨fun h => ?_, fun _ => this⟩
        rcases h1 with h1 | h1
        · exact absurd rfl h1
        · exact absurd h h1
      · rw [if_neg huv]; exact ih jit
    cases hts : c.ts with
    | none => exact hsame (by simp [hts]) (by simp only [playLoop, hts]) (by simp only [playLoop, hts])
    | some ts =>
      by_cases ht : ts = t
      · subst ht
        cases hb : jit.get v with
        | none =>
          by_cases huv : v = u
          · subst huv
            have hn := get_none_of_not_mem hl.1
            have := (ih jit).2 (by rw [hn]; simp)
            simp only [playLoop, hts, ne_eq, not_true_eq_false, if_false, hb]
            rw [hb] at this
            rw [this.1, this.2]
            simp [hts, PlaysAs]
          · refine hsame (.inl huv) ?_ ?_ <;> simp only [playLoop, hts, ne_eq, not_true_eq_false, if_false, hb]
        | some b =>
          simp only [playLoop, hts, ne_eq, not_true_eq_false, if_false, hb]
          rw [voiceOf_append]
          have ih := ih (jit.insert v (b.popReady (j v)).2)
          by_cases huv : v = u
          · subst huv
            have hn := get_none_of_not_mem hl.1
            have := ih.2 (by rw [hn]; simp)
            rw [this.1, this.2, Assoc.get_insert_self, hb]
            simp only [PlaysAs, Assoc.get_cons, if_true, Option.bind_some, hts, List.append_nil, true_implies, not_true_eq_false,
              false_implies, and_true, Option.map_some, true_and]
            cases (b.popReady (j v)).1 <;> simp [voiceOf]
          · rw [Assoc.get_insert_ne _ huv] at ih
            rw [Assoc.get_cons, if_neg huv]
            cases (b.popReady (j v)).1 with
            | none => exact ih
            | some f =>
              have : voiceOf u [EntOut.voice v ts f.data] = [] := by simp [voiceOf, huv]
              simp only [this, List.nil_append]
              exact ih
      · refine hsame (.inr (by simp [hts, ht])) ?_ ?_ <;> simp only [playLoop, hts, ne_eq, ht, not_false_eq_true, if_true]

/-- The tables are what the histories of the sessions say. -/
structure CallInv (latency : Nat) (h : EntHist) (s : Ent) : Prop where
  lat : s.latency = latency
  now : s.now = clock h
  ok : Assoc.Ok s.active
  call : ∀ u, (s.active.get u).map (fun c => (c.source, c.gssi, c.ts)) = (session u h).map fun c => (c.speaker, c.gssi, c.ts)
  buf : ∀ u, s.jitter.get u = (session u h).map (·.jitter latency)

theorem CallInv.keep {latency : Nat} {h : EntHist} {s s' : Ent} {x : EntEv × List EntOut} (i : CallInv latency h s)
    (h1 : s'.latency = s.latency) (h2 : s'.now = s.now) (h3 : s'.active = s.active) (h4 : s'.jitter = s.jitter)
    (hc : ∀ t, x.1 ≠ .clock t) (hs : ∀ u t st, sessionAfter u t st x.1 = st) : CallInv latency (h ++ [x]) s' := by
  refine ⟨h1.trans i.lat, ?_, by rw [h3]; exact i.ok, ?_, ?_⟩
  · rw [clock_snoc, h2, i.now]
    obtain ⟨e, o⟩ := x
    cases e with
    | clock t => exact absurd rfl (hc t)
    | _ => rfl
  · intro u; rw [session_snoc, hs, h3]; exact i.call u
  · intro u; rw [session_snoc, hs, h4]; exact i.buf u

/-- One step, when only the calls and buffers change. -/
theorem CallInv.of {latency : Nat} {h : EntHist} {s s' : Ent} {x : EntEv × List EntOut} (i : CallInv latency h s)
    (h1 : s'.latency = s.latency) (h2 : s'.now = s.now) (h3 : Assoc.Ok s'.active) (hc : ∀ t, x.1 ≠ .clock t)
    (hs : ∀ u, (s'.active.get u).map (fun c => (c.source, c.gssi, c.ts)) =
        (sessionAfter u (clock h) (session u h) x.1).map (fun c => (c.speaker, c.gssi, c.ts)) ∧
      s'.jitter.get u = (sessionAfter u (clock h) (session u h) x.1).map (·.jitter latency)) : CallInv latency (h ++ [x]) s' := by
  refine ⟨h1.trans i.lat, ?_, h3, ?_, ?_⟩
  · rw [clock_snoc, h2, i.now]
    obtain ⟨e, o⟩ := x
    cases e with
    | clock t => exact absurd rfl (hc t)
    | _ => rfl
  · intro u; rw [session_snoc]; exact (hs u).1
  · intro u; rw [session_snoc]; exact (hs u).2

theorem CallInv.closed {latency : Nat} {h : EntHist} {s : Ent} (i : CallInv latency h s) {u : Nat} (ha : s.active.get u = none) :
    session u h = none := by
  have := i.call u
  rw [ha] at this
  cases hs : session u h with
  | none => rfl
  | some c => rw [hs] at this; cases this

theorem CallInv.opened {latency : Nat} {h : EntHist} {s : Ent} (i : CallInv latency h s) {u : Nat} {c : NetCall}
    (ha : s.active.get u = some c) : ∃ evs, session u h = some ⟨c.source, c.gssi, c.ts, evs⟩ := by
  have := i.call u
  rw [ha] at this
  cases hs : session u h with
  | none => rw [hs] at this; cases this
  | some d =>
    rw [hs] at this
    simp only [Option.map_some, Option.some.injEq, Prod.mk.injEq] at this
    exact ⟨d.buffer, by rw [this.1, this.2.1, this.2.2]⟩

theorem callInv_run {cfg : Cfg} {latency : Nat} {h : EntHist} {s : Ent} (hr : EntRun cfg latency h s) : CallInv latency h s := by
  induction hr with
  | init => exact ⟨rfl, rfl, Assoc.ok_nil, fun _ => rfl, fun _ => rfl⟩
  | @reorder h s a b c hr ha hb hc ih =>
    refine ⟨ih.lat, ih.now, Assoc.ok_perm ih.ok ha, ?_, ih.buf⟩
    intro u
    rw [← ih.call u]
    simp only
    rw [Assoc.get_perm ih.ok ha]
  | @step h s e hr ih =>
    cases e with
    | clock t =>
      refine ⟨ih.lat, by rw [clock_snoc]; rfl, ih.ok, ?_, ?_⟩
      · intro u; rw [session_snoc]; exact ih.call u
      · intro u; rw [session_snoc]; exact ih.buf u
    | event b r n j =>
      cases b with
      | groupCallStart v speaker gssi p service =>
        simp only [Ent.step, Ent.event, Ent.callStart]
        cases hv : s.active.get v with
        | none =>
          refine ih.of rfl rfl (Assoc.ok_insert ih.ok _ _) (by simp) ?_
          intro u
          simp only [sessionAfter, Assoc.get_insert]
          by_cases e : v = u
          · subst e
            have hn := ih.closed hv
            rw [if_pos rfl, if_pos rfl, if_pos rfl, hn]
            refine ⟨rfl, ?_⟩
            have := ih.buf v
            rw [hn] at this
            simp only [Ent.buffer, this, Option.map_none, Option.getD_none, ih.lat]
            rfl
          · rw [if_neg e, if_neg e, if_neg e]
            exact ⟨ih.call u, ih.buf u⟩
        | some c =>
          simp only
          obtain ⟨evs, ho⟩ := ih.opened hv
          split
          · refine ih.of rfl rfl (Assoc.ok_insert ih.ok _ _) (by simp) ?_
            intro u
            simp only [sessionAfter, Assoc.get_insert]
            by_cases e : v = u
            · subst e
              rw [if_pos rfl, if_pos rfl, ih.buf v, ho]
              exact ⟨rfl, rfl⟩
            · rw [if_neg e, if_neg e]
              exact ⟨ih.call u, ih.buf u⟩
          · rename_i hsp
            have hsp : c.source = speaker := Classical.byContradiction hsp
            refine ih.of rfl rfl ih.ok (by simp) ?_
            intro u
            simp only [sessionAfter]
            by_cases e : v = u
            · subst e
              rw [if_pos rfl, ih.buf v, hv, ho, ← hsp]
              exact ⟨rfl, rfl⟩
            · rw [if_neg e]
              exact ⟨ih.call u, ih.buf u⟩
      | groupCallEnd v cause =>
        simp only [Ent.step, Ent.event, Ent.callEnd]
        cases hv : s.active.get v with
        | none =>
          refine ih.of rfl rfl ih.ok (by simp) ?_
          intro u
          simp only [sessionAfter]
          by_cases e : v = u
          · subst e
            rw [if_pos rfl, ih.buf v, hv, ih.closed hv]
            exact ⟨rfl, rfl⟩
          · rw [if_neg e]; exact ⟨ih.call u, ih.buf u⟩
        | some c =>
          refine ih.of rfl rfl (Assoc.ok_erase ih.ok _) (by simp) ?_
          intro u
          simp only [sessionAfter, Assoc.get_erase]
          by_cases e : v = u
          · subst e
            rw [if_pos rfl, if_pos rfl, if_pos rfl]
            exact ⟨rfl, rfl⟩
          · rw [if_neg e, if_neg e, if_neg e]; exact ⟨ih.call u, ih.buf u⟩
      | disconnected =>
        exact ih.of rfl rfl Assoc.ok_nil (by simp) fun u => ⟨rfl, rfl⟩
      | voice v bits data =>
        have hsame : s.active.get v = none ∨ (∃ c, s.active.get v = some c ∧ (c.ts = none ∨ data.length < 36)) →
            CallInv latency (h ++ [(.event (.voice v bits data) r n j, [])]) s := by
          intro hx
          refine ih.of rfl rfl ih.ok (by simp) ?_
          intro u
          have : sessionAfter u (clock h) (session u h) (.event (.voice v bits data) r n j) = session u h := by
            simp only [sessionAfter]
            cases hs : session u h with
            | none => rfl
            | some d =>
              rw [Option.map_some, if_neg]
              rintro ⟨rfl, h2, h3⟩
              rcases hx with hx | ⟨c, hx, hx'⟩
              · rw [ih.closed hx] at hs; cases hs
              · obtain ⟨evs, ho⟩ := ih.opened hx
                rw [ho] at hs
                cases hs
                rcases hx' with hx' | hx'
                · rw [hx'] at h2; cases h2
                · omega
          rw [this]
          exact ⟨ih.call u, ih.buf u⟩
        simp only [Ent.step, Ent.event, Ent.voice]
        cases hv : s.active.get v with
        | none => exact hsame (.inl hv)
        | some c =>
          simp only
          cases ht : c.ts with
          | none => exact hsame (.inr ⟨c, hv, .inl ht⟩)
          | some ts =>
            simp only
            split
            · rename_i hlt; exact hsame (.inr ⟨c, hv, .inr hlt⟩)
            · rename_i hge
              obtain ⟨evs, ho⟩ := ih.opened hv
              refine ih.of rfl rfl ih.ok (by simp) ?_
              intro u
              simp only [sessionAfter, Assoc.get_insert]
              by_cases e : v = u
              · subst e
                have hc : True ∧ c.ts.isSome = true ∧ 36 ≤ data.length := ⟨trivial, by rw [ht]; rfl, by omega⟩
                simp only [if_true, ho, hv, Option.map_some, if_pos hc]
                refine ⟨trivial, ?_⟩
                have := ih.buf v
                rw [ho] at this
                simp only [Ent.buffer, this, Option.map_some, Option.getD_some, Session.jitter, run_snoc]
                rfl
              · rw [if_neg e]
                have : (session u h).map (fun c => if v = u ∧ c.ts.isSome ∧ 36 ≤ data.length then
                    ({ c with buffer := c.buffer ++ [.push (data.drop 1) j] } : Session) else c) = session u h := by
                  cases session u h with
                  | none => rfl
                  | some d => rw [Option.map_some, if_neg (fun hx => e hx.1)]
                rw [this]
                exact ⟨ih.call u, ih.buf u⟩
      | _ => exact ih.keep rfl rfl rfl rfl (by simp) (fun _ _ _ => rfl)
    | playout j =>
      simp only [Ent.step, Ent.playout]
      have hid : ∀ u, ((clock h).f = 18 ∨ (s.active.get u).bind (·.ts) ≠ some (clock h).t) →
          sessionAfter u (clock h) (session u h) (.playout j) = session u h := by
        intro u hx
        simp only [sessionAfter]
        cases hs : session u h with
        | none => rfl
        | some d =>
          rw [Option.map_some, if_neg]
          rintro ⟨h2, h3⟩
          rcases hx with hx | hx
          · exact h2 hx
          · have := ih.call u
            rw [hs] at this
            cases ha : s.active.get u with
            | none => rw [ha] at this; cases this
            | some c =>
              rw [ha] at this hx
              simp only [Option.map_some, Option.some.injEq, Prod.mk.injEq] at this
              rw [Option.bind_some, this.2.2] at hx
              exact hx h3
      split
      · rename_i hf
        rw [ih.now] at hf
        refine ih.of rfl rfl ih.ok (by simp) ?_
        intro u
        rw [hid u (.inl hf)]
        exact ⟨ih.call u, ih.buf u⟩
      · rename_i hf
        rw [ih.now] at hf ⊢
        refine ih.of rfl ih.now.symm ih.ok (by simp) ?_
        intro u
        obtain ⟨p1, p2⟩ := playLoop_get (clock h).t j s.active ih.ok s.jitter u
        by_cases hx : (s.active.get u).bind (·.ts) = some (clock h).t
        · rw [(p1 hx).1]
          cases ha : s.active.get u with
          | none => rw [ha] at hx; cases hx
          | some c =>
            rw [ha, Option.bind_some] at hx
            obtain ⟨evs, ho⟩ := ih.opened ha
            simp only [sessionAfter, ho, Option.map_some]
            rw [if_pos ⟨hf, hx⟩]
            refine ⟨rfl, ?_⟩
            have := ih.buf u
            rw [ho] at this
            rw [this]
            simp only [Option.map_some, Session.jitter, run_snoc]
            rfl
        · rw [(p2 hx).1, hid u (.inr hx)]
          exact ⟨ih.call u, ih.buf u⟩
    | granted id source gssi ts fresh =>
      refine ih.keep ?_ ?_ ?_ ?_ (by simp) (fun _ _ _ => rfl) <;> simp only [Ent.step, Ent.localStart] <;>
        (split; rfl; split; rfl; split <;> rfl)
    | released id ts =>
      refine ih.keep ?_ ?_ ?_ ?_ (by simp) (fun _ _ _ => rfl) <;> simp only [Ent.step, Ent.localStop] <;> split <;> rfl
    | netEnd v =>
      simp only [Ent.step, Ent.dropCall]
      have hno : s.active.get v = none → ∀ s' : Ent, s'.latency = s.latency → s'.now = s.now → s'.active = s.active →
          s'.jitter = s.jitter → CallInv latency (h ++ [(.netEnd v, [])]) s' := by
        intro hv s' h1 h2 h3 h4
        refine ih.of h1 h2 (by rw [h3]; exact ih.ok) (by simp) ?_
        intro u
        rw [h3, h4]
        simp only [sessionAfter]
        by_cases e : v = u
        · subst e
          rw [if_pos rfl, ih.buf v, hv, ih.closed hv]
          exact ⟨rfl, rfl⟩
        · rw [if_neg e]; exact ⟨ih.call u, ih.buf u⟩
      cases hv : s.active.get v with
      | none =>
        simp only
        split
        · exact hno hv _ rfl rfl rfl rfl
        · exact hno hv _ rfl rfl rfl rfl
      | some c =>
        refine ih.of rfl rfl (Assoc.ok_erase ih.ok _) (by simp) ?_
        intro u
        simp only [sessionAfter, Assoc.get_erase]
        by_cases e : v = u
        · subst e
          rw [if_pos rfl, if_pos rfl, if_pos rfl]
          exact ⟨rfl, rfl⟩
        · rw [if_neg e, if_neg e, if_neg e]; exact ⟨ih.call u, ih.buf u⟩
    | netReady v id ts usage =>
      simp only [Ent.step, Ent.ready]
      have hid : ∀ u, v ≠ u → (session u h).map (fun c => if v = u then ({ c with ts := some ts } : Session) else c) = session u h := by
        intro u e
        cases session u h with
        | none => rfl
        | some d => rw [Option.map_some, if_neg e]
      cases hv : s.active.get v with
      | none =>
        refine ih.of rfl rfl ih.ok (by simp) ?_
        intro u
        simp only [sessionAfter]
        by_cases e : v = u
        · subst e
          rw [ih.buf v, hv, ih.closed hv]
          exact ⟨rfl, rfl⟩
        · rw [hid u e]; exact ⟨ih.call u, ih.buf u⟩
      | some c =>
        obtain ⟨evs, ho⟩ := ih.opened hv
        refine ih.of rfl rfl (Assoc.ok_insert ih.ok _ _) (by simp) ?_
        intro u
        simp only [sessionAfter, Assoc.get_insert]
        by_cases e : v = u
        · subst e
          rw [if_pos rfl, ih.buf v, ho, Option.map_some, Option.map_some, Option.map_some, if_pos rfl]
          exact ⟨rfl, rfl⟩
        · rw [if_neg e, hid u e]; exact ⟨ih.call u, ih.buf u⟩
    | update v =>
      have : ∀ v, (s.update v).1.latency = s.latency ∧ (s.update v).1.now = s.now ∧ (s.update v).1.active = s.active ∧
          (s.update v).1.jitter = s.jitter := by
        intro v
        cases v <;> simp only [Ent.update] <;> (try split) <;> simp
      obtain ⟨h1, h2, h3, h4⟩ := this v
      exact ih.keep h1 h2 h3 h4 (by simp) (fun _ _ _ => rfl)
    | _ => exact ih.keep rfl rfl rfl rfl (by simp) (fun _ _ _ => rfl)

/-! ## Messages -/

/-- Whether a message is about a call of the network. -/
def EntOut.ofCall : EntOut → Bool
  | .callStart _ _ _ _ => true
  | .callEnd _ => true
  | .voice _ _ _ => true
  | _ => false

/-- Which steps say something about calls of the network. -/
theorem call_messages (s : Ent) (e : EntEv) (m : EntOut) (hm : m ∈ (s.step e).2) (ho : m.ofCall = true) :
    (∃ u a g p sv r n j, e = .event (.groupCallStart u a g p sv) r n j ∧ m = .callStart u a g p ∧
      ∀ c, s.active.get u = some c → c.source ≠ a) ∨
    (∃ u cause r n j, e = .event (.groupCallEnd u cause) r n j ∧ m = .callEnd u ∧ s.active.get u ≠ none) ∨
    (∃ r n j u c, e = .event .disconnected r n j ∧ (u, c) ∈ s.active ∧ m = .callEnd u) ∨
    (∃ j, e = .playout j ∧ s.now.f ≠ 18 ∧ m ∈ (playLoop s.now.t j s.jitter s.active).2) := by
  cases e with
  | event b r n j =>
    cases b with
    | groupCallStart u a g p sv =>
      left
      simp only [Ent.step, Ent.event, Ent.callStart] at hm
      split at hm
      · rename_i c hc
        split at hm
        · rename_i hne
          simp only [List.mem_singleton] at hm
          exact ⟨u, a, g, p, sv, r, n, j, rfl, hm, fun c' hc' => by rw [hc] at hc'; cases hc'; exact hne⟩
        · simp at hm
      · rename_i hc
        simp only [List.mem_singleton] at hm
        exact ⟨u, a, g, p, sv, r, n, j, rfl, hm, fun c' hc' => by rw [hc] at hc'; cases hc'⟩
    | groupCallEnd u cause =>
      right; left
      simp only [Ent.step, Ent.event, Ent.callEnd] at hm
      split at hm
      · simp at hm
      · rename_i c hc
        simp only [List.mem_singleton] at hm
        exact ⟨u, cause, r, n, j, rfl, hm, by rw [hc]; simp⟩
    | disconnected =>
      right; right; left
      simp only [Ent.step, Ent.event, Ent.linkDown, List.mem_map] at hm
      obtain ⟨x, hx, rfl⟩ := hm
      exact ⟨r, n, j, x.1, x.2, rfl, hx, rfl⟩
    | connected =>
      simp only [Ent.step, Ent.event, Ent.resync, List.mem_flatMap] at hm
      obtain ⟨x, _, hm⟩ := hm
      split at hm
      · split at hm <;> simp at hm
        · subst hm; cases ho
        · rcases hm with rfl | rfl <;> cases ho
      · simp at hm
    | sds u a d data bits =>
      simp only [Ent.step, Ent.event, Ent.sdsIn] at hm
      split at hm
      · simp at hm; rcases hm with rfl | rfl <;> cases ho
      · simp at hm
    | voice u bits data => simp [Ent.step, Ent.event] at hm
    | _ => simp [Ent.step, Ent.event] at hm
  | playout j =>
    right; right; right
    simp only [Ent.step, Ent.playout] at hm
    split at hm
    · simp at hm
    · rename_i hf; exact ⟨j, rfl, hf, hm⟩
  | granted id a g ts fresh =>
    simp only [Ent.step, Ent.localStart] at hm
    split at hm
    · simp at hm
    split at hm
    · simp at hm
    split at hm <;> simp at hm <;> subst hm <;> cases ho
  | released id ts =>
    simp only [Ent.step, Ent.localStop] at hm
    split at hm <;> simp at hm
    subst hm; cases ho
  | update u =>
    cases u <;> simp only [Ent.step, Ent.update] at hm
    · split at hm <;> simp at hm
      subst hm; cases ho
    · split at hm
      · split at hm <;> simp at hm
        · subst hm; cases ho
        · rcases hm with rfl | rfl <;> cases ho
      · simp at hm
    · split at hm <;> simp at hm
      subst hm; cases ho
    · split at hm
      · simp only at hm
        split at hm <;> simp at hm
        subst hm; cases ho
      · simp at hm
  | ulVoice ts bits =>
    simp only [Ent.step, Ent.ulVoice] at hm
    split at hm
    · simp at hm
    · split at hm <;> simp at hm
      subst hm; cases ho
  | sds a d data fresh =>
    simp only [Ent.step, Ent.sdsOut] at hm
    split at hm <;> simp at hm
    subst hm; cases ho
  | _ => simp [Ent.step] at hm

theorem playLoop_only (t : Nat) (j : Nat → Nat) (l : List (Nat × NetCall)) (jit : Assoc Nat Jitter) :
    ∀ m ∈ (playLoop t j jit l).2, ∃ u ts d, m = .voice u ts d := by
  induction l generalizing jit with
  | nil => simp [playLoop]
  | cons x l ih =>
    obtain ⟨u, c⟩ := x
    intro m hm
    unfold playLoop at hm
    split at hm
    · exact ih _ m hm
    · split at hm
      · exact ih _ m hm
      · split at hm
        · exact ih _ m hm
        · simp only [List.mem_append] at hm
          rcases hm with hm | hm
          · split at hm <;> simp at hm
            exact ⟨_, _, _, hm⟩
          · exact ih _ m hm

theorem mem_voiceOf {u ts : Nat} {d : List Nat} {o : List EntOut} : .voice u ts d ∈ o ↔ (ts, d) ∈ voiceOf u o := by
  simp only [voiceOf, List.mem_filterMap]
  constructor
  · intro h; exact ⟨_, h, by simp⟩
  · rintro ⟨m, hm, h⟩
    cases m with
    | voice v ts' d' =>
      simp only at h
      split at h
      · rename_i e; simp only [Option.some.injEq, Prod.mk.injEq] at h
        rw [← e, ← h.1, ← h.2]; exact hm
      · cases h
    | _ => cases h

theorem session_speaker {cfg : Cfg} {latency : Nat} {h : EntHist} {s : Ent} (hr : EntRun cfg latency h s) (u : Nat) :
    (s.active.get u).map (·.source) = (session u h).map (·.speaker) := by
  have := congrArg (Option.map (fun p : Nat × Nat × Option Nat => p.1)) ((callInv_run hr).call u)
  rw [Option.map_map, Option.map_map] at this
  exact this

/-! ## The property -/

/-- C62, beginning: call control is told of a call of the network exactly if the server announces a session which is not open, or
another speaker in one which is. -/
theorem c62_start {cfg : Cfg} {latency : Nat} {h : EntHist} {s : Ent} (hr : EntRun cfg latency h s) (e : EntEv) (u speaker gssi priority : Nat) :
    .callStart u speaker gssi priority ∈ (s.step e).2 ↔
      (∃ service r n j, e = .event (.groupCallStart u speaker gssi priority service) r n j) ∧
      ∀ c, session u h = some c → c.speaker ≠ speaker := by
  have inv := callInv_run hr
  have hsp : (∀ c, session u h = some c → c.speaker ≠ speaker) ↔ ∀ c, s.active.get u = some c → c.source ≠ speaker := by
    have := session_speaker hr u
    cases ha : s.active.get u <;> cases hs : session u h <;> rw [ha, hs] at this <;> simp at this ⊢
    rw [this]
  rw [hsp]
  constructor
  · intro hm
    rcases call_messages s e _ hm rfl with ⟨u', a, g, p, sv, r, n, j, rfl, he, hx⟩ | ⟨_, _, _, _, _, _, he, _⟩ |
      ⟨_, _, _, _, _, _, _, he⟩ | ⟨_, _, _, hm'⟩
    · cases he; exact ⟨⟨_, _, _, _, rfl⟩, hx⟩
    · cases he
    · cases he
    · obtain ⟨_, _, _, he⟩ := playLoop_only _ _ _ _ _ hm'; cases he
  · rintro ⟨⟨sv, r, n, j, rfl⟩, hx⟩
    simp only [Ent.step, Ent.event, Ent.callStart]
    split
    · rename_i c hc
      rw [if_pos (hx c hc)]; simp
    · simp

/-- C62, end: call control is told of the end of a call of the network exactly if its session is open and the server ends it or
the connection is lost; once. -/
theorem c62_end {cfg : Cfg} {latency : Nat} {h : EntHist} {s : Ent} (hr : EntRun cfg latency h s) (e : EntEv) (u : Nat) :
    (.callEnd u ∈ (s.step e).2 ↔ session u h ≠ none ∧
      ((∃ cause r n j, e = .event (.groupCallEnd u cause) r n j) ∨ ∃ r n j, e = .event .disconnected r n j)) ∧
    (s.step e).2.count (.callEnd u) ≤ 1 := by
  have inv := callInv_run hr
  have hop : session u h ≠ none ↔ s.active.get u ≠ none := by
    have := session_speaker hr u
    cases ha : s.active.get u <;> cases hs : session u h <;> rw [ha, hs] at this <;> simp at this ⊢
  rw [hop]
  constructor
  · constructor
    · intro hm
      rcases call_messages s e _ hm rfl with ⟨_, _, _, _, _, _, _, _, _, he, _⟩ | ⟨u', cause, r, n, j, rfl, he, hx⟩ |
        ⟨r, n, j, u', c, rfl, hc, he⟩ | ⟨_, _, _, hm'⟩
      · cases he
      · cases he; exact ⟨hx, .inl ⟨_, _, _, _, rfl⟩⟩
      · cases he
        refine ⟨?_, .inr ⟨_, _, _, rfl⟩⟩
        rw [Assoc.get_of_mem inv.ok hc]; simp
      · obtain ⟨_, _, _, he⟩ := playLoop_only _ _ _ _ _ hm'; cases he
    · rintro ⟨hx, ⟨cause, r, n, j, rfl⟩ | ⟨r, n, j, rfl⟩⟩
      · simp only [Ent.step, Ent.event, Ent.callEnd]
        split
        · rename_i hc; exact absurd hc hx
        · simp
      · simp only [Ent.step, Ent.event, Ent.linkDown, List.mem_map]
        cases hc : s.active.get u with
        | none => exact absurd hc hx
        | some c => exact ⟨(u, c), Assoc.mem_of_get hc, rfl⟩
  · by_cases hm : .callEnd u ∈ (s.step e).2
    · rcases call_messages s e _ hm rfl with ⟨_, _, _, _, _, _, _, _, _, he, _⟩ | ⟨u', cause, r, n, j, rfl, he, hx⟩ |
        ⟨r, n, j, u', c, rfl, hc, he⟩ | ⟨_, _, _, hm'⟩
      · cases he
      · simp only [Ent.step, Ent.event, Ent.callEnd]
        split
        · simp
        · simp [List.count_cons]; split <;> omega
      · simp only [Ent.step, Ent.event, Ent.linkDown]
        have hk : (s.active.map fun e => EntOut.callEnd e.1).Nodup := by
          have := inv.ok
          unfold Assoc.Ok at this
          rw [List.Nodup, List.pairwise_map] at this ⊢
          exact this.imp fun hne => by simpa using hne
        exact List.nodup_iff_count.mp hk _
      · obtain ⟨_, _, _, he⟩ := playLoop_only _ _ _ _ _ hm'; cases he
    · rw [List.count_eq_zero.mpr hm]; omega

/-- C62, voice: a block goes to the radio side exactly if it is the turn of the session's timeslot, outside frame 18, and the
play-out buffer of the session (C33) hands it out; at most one block per session and tick. -/
theorem c62_voice {cfg : Cfg} {latency : Nat} {h : EntHist} {s : Ent} (hr : EntRun cfg latency h s) (e : EntEv) (u : Nat) :
    (∀ ts d, .voice u ts d ∈ (s.step e).2 ↔
      ∃ j c f, e = .playout j ∧ session u h = some c ∧ c.ts = some ts ∧ (clock h).t = ts ∧ (clock h).f ≠ 18 ∧
        ((((Jitter.withInitialLatency latency).run c.buffer).2).popReady (j u)).1 = some f ∧ f.data = d) ∧
    (voiceOf u (s.step e).2).length ≤ 1 := by
  have inv := callInv_run hr
  have hkey : ∀ j, s.now.f ≠ 18 → voiceOf u (s.step (.playout j)).2 = voiceOf u (playLoop s.now.t j s.jitter s.active).2 := by
    intro j hf
    simp only [Ent.step, Ent.playout, if_neg hf]
  constructor
  · intro ts d
    constructor
    · intro hm
      rcases call_messages s e _ hm rfl with ⟨_, _, _, _, _, _, _, _, _, he, _⟩ | ⟨_, _, _, _, _, _, he, _⟩ |
        ⟨_, _, _, _, _, _, _, he⟩ | ⟨j, rfl, hf, hm'⟩
      · cases he
      · cases he
      · cases he
      · rw [mem_voiceOf] at hm'
        obtain ⟨p1, p2⟩ := playLoop_get s.now.t j s.active inv.ok s.jitter u
        by_cases hx : (s.active.get u).bind (·.ts) = some s.now.t
        · rw [(p1 hx).2] at hm'
          cases ha : s.active.get u with
          | none => rw [ha] at hx; cases hx
          | some a =>
            rw [ha, Option.bind_some] at hx
            obtain ⟨evs, ho⟩ := inv.opened ha
            have hb := inv.buf u
            rw [ho] at hb
            rw [hb, Option.map_some, Option.bind_some] at hm'
            simp only [Option.mem_toList, Option.map_eq_some_iff, Prod.mk.injEq] at hm'
            obtain ⟨f, h1, h2, h3⟩ := hm'
            refine ⟨j, _, f, rfl, ho, ?_, ?_, ?_, h1, h3⟩
            · rw [← h2]; exact hx
            · rw [← inv.now]; exact h2
            · rw [← inv.now]; exact hf
        · rw [(p2 hx).2] at hm'; cases hm'
    · rintro ⟨j, c, f, rfl, ho, hts, ht, hf, hp, rfl⟩
      rw [← inv.now] at ht hf
      rw [mem_voiceOf, hkey j hf]
      obtain ⟨p1, _⟩ := playLoop_get s.now.t j s.active inv.ok s.jitter u
      have hc := inv.call u
      rw [ho] at hc
      cases ha : s.active.get u with
      | none => rw [ha] at hc; cases hc
      | some a =>
        rw [ha] at hc p1
        simp only [Option.map_some, Option.some.injEq, Prod.mk.injEq] at hc
        rw [(p1 (by rw [Option.bind_some, hc.2.2, hts, ht])).2, inv.buf u, ho, Option.map_some, Option.bind_some]
        simp only [Option.mem_toList, Option.map_eq_some_iff, Prod.mk.injEq]
        exact ⟨f, hp, ht, rfl⟩
  · cases hv : voiceOf u (s.step e).2 with
    | nil => simp
    | cons x l =>
      have hm : .voice u x.1 x.2 ∈ (s.step e).2 := mem_voiceOf.mpr (by rw [hv]; simp)
      rcases call_messages s e _ hm rfl with ⟨_, _, _, _, _, _, _, _, _, he, _⟩ | ⟨_, _, _, _, _, _, he, _⟩ |
        ⟨_, _, _, _, _, _, _, he⟩ | ⟨j, rfl, hf, hm'⟩
      · cases he
      · cases he
      · cases he
      · rw [← hv, hkey j hf]
        obtain ⟨p1, p2⟩ := playLoop_get s.now.t j s.active inv.ok s.jitter u
        by_cases hx : (s.active.get u).bind (·.ts) = some s.now.t
        · rw [(p1 hx).2]
          cases ((s.jitter.get u).bind fun b => (b.popReady (j u)).1) <;> simp
        · rw [(p2 hx).2]; simp

theorem played_snoc (u : Nat) (h : EntHist) (x : EntEv × List EntOut) :
    played u (h ++ [x]) = played u h ++ (voiceOf u x.2).map Prod.snd := by
  rw [played, List.flatMap_append, List.flatMap_cons, List.flatMap_nil, List.append_nil]
  congr 1
  rw [voiceOf, List.map_filterMap]
  congr 1
  funext m
  cases m with
  | voice v ts d => simp only; split <;> rfl
  | _ => rfl

theorem received_snoc (u : Nat) (h : EntHist) (x : EntEv × List EntOut) : received u (h ++ [x]) = received u h ++ received u [x] := by
  rw [received, List.filterMap_append]; rfl

/-- What waits in the buffer of a session. -/
def waiting (latency : Nat) : Option Session → List (List Nat)
  | none => []
  | some c => (c.jitter latency).frames.map (·.data)

theorem Session.inv (latency : Nat) (c : Session) : Jitter.Inv (c.jitter latency) := Jitter.inv_run (Jitter.inv_new latency) _

theorem voiceOf_none {s : Ent} {e : EntEv} {u : Nat} (he : ∀ j, e ≠ .playout j) : voiceOf u (s.step e).2 = [] := by
  cases hv : voiceOf u (s.step e).2 with
  | nil => rfl
  | cons x l =>
    have hm : .voice u x.1 x.2 ∈ (s.step e).2 := mem_voiceOf.mpr (by rw [hv]; simp)
    rcases call_messages s e _ hm rfl with ⟨_, _, _, _, _, _, _, _, _, h, _⟩ | ⟨_, _, _, _, _, _, h, _⟩ |
      ⟨_, _, _, _, _, _, _, h⟩ | ⟨j, h, _, _⟩
    · cases h
    · cases h
    · cases h
    · exact absurd h (he j)

theorem order_run {cfg : Cfg} {latency : Nat} {h : EntHist} {s : Ent} (hr : EntRun cfg latency h s) (u : Nat) :
    (played u h ++ waiting latency (session u h)).Sublist (received u h) := by
  induction hr with
  | init => exact List.Sublist.refl _
  | reorder _ _ _ _ ih => exact ih
  | @step h s e hr ih =>
    rw [played_snoc, received_snoc, session_snoc]
    simp only
    have hstay : ∀ st', voiceOf u (s.step e).2 = [] → (waiting latency st').Sublist (waiting latency (session u h)) →
        (played u h ++ (voiceOf u (s.step e).2).map Prod.snd ++ waiting latency st').Sublist (received u h ++ received u [(e, (s.step e).2)]) := by
      intro st' hv hw
      rw [hv, List.map_nil, List.append_nil]
      refine List.Sublist.trans ?_ (List.sublist_append_left _ _)
      exact (List.Sublist.append (List.Sublist.refl _) hw).trans ih
    cases e with
    | playout j =>
      simp only [sessionAfter]
      have hv := c62_voice hr (.playout j) u
      cases hs : session u h with
      | none =>
        have : voiceOf u (s.step (.playout j)).2 = [] := by
          cases hx : voiceOf u (s.step (.playout j)).2 with
          | nil => rfl
          | cons x l =>
            obtain ⟨_, c, _, _, ho, _⟩ := (hv.1 x.1 x.2).mp (mem_voiceOf.mpr (by rw [hx]; simp))
            rw [hs] at ho; cases ho
        rw [hs] at hstay
        exact hstay none this (List.Sublist.refl _)
      | some c =>
        rw [Option.map_some]
        split
        · rename_i hc
          rw [hs] at ih
          refine List.Sublist.trans ?_ (List.sublist_append_left _ _)
          refine List.Sublist.trans ?_ ih
          rw [List.append_assoc]
          apply List.Sublist.append (List.Sublist.refl _)
          have hi := c.inv latency
          obtain ⟨_, _, h3, h4⟩ := Jitter.pop_spec hi (j u)
          simp only [waiting, Session.jitter, run_snoc]
          change (_ ++ ((c.jitter latency).popReady (j u)).2.frames.map (·.data)).Sublist ((c.jitter latency).frames.map (·.data))
          have hvo : voiceOf u (s.step (.playout j)).2 = ((((c.jitter latency).popReady (j u)).1).map fun f => ((clock h).t, f.data)).toList := by
            cases hp : ((c.jitter latency).popReady (j u)).1 with
            | none =>
              cases hx : voiceOf u (s.step (.playout j)).2 with
              | nil => rfl
              | cons x l =>
                obtain ⟨j', c', f, he, ho, _, _, _, hf, _⟩ := (hv.1 x.1 x.2).mp (mem_voiceOf.mpr (by rw [hx]; simp))
                rw [hs] at ho; cases ho; cases he
                rw [show ((Jitter.withInitialLatency latency).run c.buffer).2 = c.jitter latency from rfl, hp] at hf
                cases hf
            | some f =>
              have hm := mem_voiceOf.mp ((hv.1 (clock h).t f.data).mpr ⟨j, c, f, rfl, hs, hc.2, rfl, hc.1, hp, rfl⟩)
              have hl := hv.2
              cases hx : voiceOf u (s.step (.playout j)).2 with
              | nil => rw [hx] at hm; cases hm
              | cons x l =>
                rw [hx] at hm hl
                cases l with
                | nil => simp only [List.mem_singleton] at hm; rw [← hm]; rfl
                | cons y l => simp at hl
          rw [hvo]
          by_cases hx : (c.jitter latency).started = true ∨ (c.jitter latency).targetFrames ≤ (c.jitter latency).frames.length
          · rw [(h3 hx).1, (h3 hx).2]
            cases (c.jitter latency).frames <;> simp
          · rw [(h4 hx).1, (h4 hx).2]; simp
        · rename_i hc
          have : voiceOf u (s.step (.playout j)).2 = [] := by
            cases hx : voiceOf u (s.step (.playout j)).2 with
            | nil => rfl
            | cons x l =>
              obtain ⟨_, c', _, _, ho, h1, h2, h3, _⟩ := (hv.1 x.1 x.2).mp (mem_voiceOf.mpr (by rw [hx]; simp))
              rw [hs] at ho; cases ho
              exact absurd ⟨h3, by rw [h1, h2]⟩ hc
          rw [hs] at hstay
          exact hstay (some c) this (List.Sublist.refl _)
    | event b r n j =>
      have hv : voiceOf u (s.step (.event b r n j)).2 = [] := voiceOf_none (by simp)
      cases b with
      | voice v bits data =>
        simp only [sessionAfter]
        cases hs : session u h with
        | none => rw [hs] at hstay; exact hstay none hv (List.Sublist.refl _)
        | some c =>
          rw [Option.map_some]
          split
          · rename_i hc
            rw [hv, List.map_nil, List.append_nil]
            have hrec : received u [(EntEv.event (.voice v bits data) r n j, (s.step (.event (.voice v bits data) r n j)).2)] = [data.drop 1] := by
              simp [received, hc.1, hc.2.2]
            rw [hrec]
            have hi := c.inv latency
            simp only [waiting, Session.jitter, run_snoc]
            change (played u h ++ (((c.jitter latency).push (data.drop 1) j).frames).map (·.data)).Sublist _
            rw [Jitter.push_frames hi]
            have h1 : ((Jitter.dropOld ((c.jitter latency).frames ++ [⟨(c.jitter latency).nextRxSeq, data.drop 1⟩])).map (·.data)).Sublist
                ((c.jitter latency).frames.map (·.data) ++ [data.drop 1]) := by
              have := (List.drop_sublist (((c.jitter latency).frames ++ [(⟨(c.jitter latency).nextRxSeq, data.drop 1⟩ : Frame)]).length - MAX_FRAMES)
                ((c.jitter latency).frames ++ [(⟨(c.jitter latency).nextRxSeq, data.drop 1⟩ : Frame)])).map (·.data)
              simpa [Jitter.dropOld] using this
            rw [hs] at ih
            have h2 := (List.Sublist.append (List.Sublist.refl (played u h)) h1)
            rw [← List.append_assoc] at h2
            exact h2.trans (List.Sublist.append ih (List.Sublist.refl _))
          · rw [hs] at hstay
            exact hstay (some c) hv (List.Sublist.refl _)
      | groupCallStart v a g p sv =>
        refine hstay _ hv ?_
        simp only [sessionAfter]
        split
        · cases hs : session u h with
          | none => simp [waiting, Session.jitter, Jitter.run, Jitter.withInitialLatency]
          | some c => exact List.Sublist.refl _
        · exact List.Sublist.refl _
      | groupCallEnd v cause =>
        refine hstay _ hv ?_
        simp only [sessionAfter]
        split
        · exact List.nil_sublist _
        · exact List.Sublist.refl _
      | disconnected => exact hstay _ hv (List.nil_sublist _)
      | _ => exact hstay _ hv (List.Sublist.refl _)
    | netEnd v =>
      refine hstay _ (voiceOf_none (by simp)) ?_
      simp only [sessionAfter]
      split
      · exact List.nil_sublist _
      · exact List.Sublist.refl _
    | netReady v id ts usage =>
      refine hstay _ (voiceOf_none (by simp)) ?_
      simp only [sessionAfter]
      cases session u h with
      | none => exact List.Sublist.refl _
      | some c =>
        rw [Option.map_some]
        split <;> exact List.Sublist.refl _
    | _ => exact hstay _ (voiceOf_none (by simp)) (List.Sublist.refl _)

/-- C62, order: the blocks of a session which go to the radio side are blocks received for it, in the order in which they came,
each at most as often as it came. -/
theorem c62_order {cfg : Cfg} {latency : Nat} {h : EntHist} {s : Ent} (hr : EntRun cfg latency h s) (u : Nat) :
    (played u h).Sublist (received u h) :=
  (List.sublist_append_left _ _).trans (order_run hr u)

theorem pushes_waiting (latency : Nat) (evs ps : List Jitter.Ev) (hp : ∀ p ∈ ps, ∃ d j, p = .push d j) :
    min ps.length 24 ≤ ((Jitter.withInitialLatency latency).run (evs ++ ps)).2.frames.length := by
  rcases List.eq_nil_or_concat ps with rfl | ⟨qs, p, rfl⟩
  · simp
  · rw [List.concat_eq_append] at hp ⊢
    have ih := pushes_waiting latency evs qs (fun q hq => hp q (by simp [hq]))
    obtain ⟨d, j, rfl⟩ := hp p (by simp)
    have hi := Jitter.inv_run (Jitter.inv_new latency) (evs ++ qs)
    rw [← List.append_assoc, run_snoc]
    simp only [Jitter.step, Jitter.push_frames hi, Jitter.dropOld, List.length_append, List.length_cons, List.length_nil, List.length_drop,
      MAX_FRAMES]
    omega
termination_by ps.length
decreasing_by simp_all

/-- C62, flow: if call control has given the session a timeslot and twelve blocks have come since that timeslot's turn, its next
turn, outside frame 18, sends a block. -/
theorem c62_flow {cfg : Cfg} {latency : Nat} {h : EntHist} {s : Ent} (hr : EntRun cfg latency h s) {u ts : Nat} {c : Session}
    (hs : session u h = some c) (hts : c.ts = some ts) (ht : (clock h).t = ts) (hf : (clock h).f ≠ 18)
    {evs ps : List Jitter.Ev} (hb : c.buffer = evs ++ ps) (hp : ∀ p ∈ ps, ∃ d j, p = .push d j) (hl : 12 ≤ ps.length) (j : Nat → Nat) :
    ∃ d, .voice u ts d ∈ (s.step (.playout j)).2 := by
  have h1 := pushes_waiting latency evs ps hp
  have h2 : 12 ≤ ((Jitter.withInitialLatency latency).run c.buffer).2.frames.length := by rw [hb]; omega
  obtain ⟨f, hf'⟩ := Jitter.c33_no_stall latency c.buffer (j u) h2
  exact ⟨f.data, ((c62_voice hr (.playout j) u).1 ts f.data).mpr ⟨j, c, f, rfl, hs, hts, ht, hf, hf', rfl⟩⟩

end Verif.Brew
