import Verif.Net.Control
import Verif.Cmce.CmceBsProps
/-!
# C74 — Commands of the control server

What the server sends is carried out once and in order, and answered once and in order, with what became of it.
-/
namespace Verif.Net
open Verif.Cmce Verif.Config Verif.Codec Pdu

/-- Runs from the start. `reorder` is that hash maps have no order. -/
inductive Run {P : Type} (dec : P → Option Command) (routable : Nat → Bool) : List (Ev P × List NetOut) → Site → Prop where
  | start : Run dec routable [] ⟨.start, .init routable⟩
  | step {h : List (Ev P × List NetOut)} {s s' : Site} {e : Ev P} {out : List NetOut} :
      Run dec routable h s → s.enabled e = true → s.step dec e = .ok (s', out) → Run dec routable (h ++ [(e, out)]) s'
  | reorder {h : List (Ev P × List NetOut)} {s : Site} {cc' : Cc} :
      Run dec routable h s → s.bs.cc.Reordered cc' → Run dec routable h { s with bs := { s.bs with cc := cc' } }

/-! ## Specification -/

/-- The commands received so far. -/
def received {P : Type} (dec : P → Option Command) (h : List (Ev P × List NetOut)) : List Command :=
  h.filterMap fun x => match x.1 with
    | .receive p => dec p
    | _ => none

/-- Everything that came out, in order. -/
def outs {P : Type} (h : List (Ev P × List NetOut)) : List NetOut := h.flatMap Prod.snd

/-- The commands an entity took. -/
def NetOut.takenBy (t : Target) : NetOut → List Command
  | .took t' cs => if t' = t then cs else []
  | _ => []
def taken {P : Type} (t : Target) (h : List (Ev P × List NetOut)) : List Command := (outs h).flatMap (NetOut.takenBy t)

/-- The commands waiting for an entity. -/
def Worker.queue (w : Worker) : Target → List Command
  | .mm => w.toMm
  | .cmce => w.toCmce

/-- The answers of call control. -/
def NetOut.answer : NetOut → Option Response
  | .bs (.response h s) => some ⟨h, s⟩
  | _ => none
def answers {P : Type} (h : List (Ev P × List NetOut)) : List Response := (outs h).filterMap NetOut.answer

/-- What became of an answer. -/
def NetOut.fate : NetOut → Option (Response × Bool)
  | .sent r => some (r, true)
  | .lost r => some (r, false)
  | _ => none
def fates {P : Type} (h : List (Ev P × List NetOut)) : List (Response × Bool) := (outs h).filterMap NetOut.fate

/-- The number the server gave a request for short data. -/
def Command.request : Command → Option Nat
  | .sendSds c => some c.handle
  | _ => none

/-- The octets of a payload are octets. -/
def Command.Typed : Command → Prop
  | .sendSds c => ∀ d ∈ c.payload, d < 256
  | _ => True

/-- What is to be seen of a request: if the destination is registered one message which a mobile reads as the data from the source, and
the answer that it was sent; else the answer that it was not. -/
def Done (reg : List RegOp) (c : SendSds) (out : List BsOut) : Prop :=
  (Spec.Registered reg c.dest ∧ ∃ bs, out = [.air (if c.group then .group c.dest else .station c.dest)
      (if c.group then .unacknowledged else .acknowledged) none false bs, .response c.handle true] ∧
    ReadBy bs c.source (Sds.type4 c.len c.payload).trim) ∨
  (¬ Spec.Registered reg c.dest ∧ out = [.response c.handle false])

/-- A request the code cannot carry out: too long for the message or with a source which is no number. -/
def TooMuch (c : SendSds) : Prop := 2 ^ 24 ≤ c.source ∨ 2 ^ 11 ≤ c.len ∨ 8 * c.payload.length < c.len

/-! ## Commands -/

theorem received_append {P : Type} (dec : P → Option Command) (h : List (Ev P × List NetOut)) (e : Ev P) (out : List NetOut) :
    received dec (h ++ [(e, out)]) = received dec h ++ (match e with | .receive p => (dec p).toList | _ => []) := by
  simp only [received, List.filterMap_append]
  congr 1
  cases e with
  | receive p => cases h : dec p <;> simp [h]
  | _ => rfl

theorem outs_append {P : Type} (h : List (Ev P × List NetOut)) (e : Ev P) (out : List NetOut) :
    outs (h ++ [(e, out)]) = outs h ++ out := by simp [outs]

theorem takenBy_bs (t : Target) (l : List BsOut) : (l.map NetOut.bs).flatMap (NetOut.takenBy t) = [] := by
  induction l with
  | nil => rfl
  | cons x xs ih => simpa [NetOut.takenBy] using ih

theorem fate_bs (l : List BsOut) : (l.map NetOut.bs).filterMap NetOut.fate = [] := by
  induction l with
  | nil => rfl
  | cons x xs ih => simpa [NetOut.fate] using ih

theorem answer_bs (l : List BsOut) : (l.map NetOut.bs).filterMap NetOut.answer = responses l := by
  induction l with
  | nil => rfl
  | cons x xs ih =>
    simp only [responses] at ih ⊢
    cases x <;> simp only [List.map_cons, List.filterMap_cons, NetOut.answer, ih]

/-- **C74, commands.** Every command the server sends gets to the entity it is for, once and in the order sent: those an entity took
and those waiting for it are the ones received for it. -/
theorem c74_commands {P : Type} {dec : P → Option Command} {routable : Nat → Bool} {h : List (Ev P × List NetOut)} {s : Site}
    (hr : Run dec routable h s) (t : Target) :
    taken t h ++ s.worker.queue t = (received dec h).filter fun c => c.route = t := by
  induction hr with
  | start => cases t <;> rfl
  | reorder _ _ ih => exact ih
  | @step h s s' e out _ he hs ih =>
    simp only [taken, outs_append, List.flatMap_append, received_append, List.filter_append] at ih ⊢
    rw [← ih]
    clear ih
    cases e with
    | receive p =>
      simp only [Site.step] at hs
      cases hd : dec p with
      | none => rw [hd] at hs; cases hs; simp [hd]
      | some c =>
        rw [hd] at hs; cases hs
        cases t <;> cases c <;> simp [hd, Worker.dispatch, Command.route, Worker.queue]
    | collect => cases hs; cases t <;> simp [Worker.queue]
    | send ok again =>
      simp only [Site.step] at hs
      split at hs
      · cases hs; simp
      · split at hs
        · cases hs; cases t <;> simp [Worker.queue, NetOut.takenBy]
        · split at hs <;> cases hs <;> cases t <;> simp [Worker.queue, NetOut.takenBy]
    | check a r w => cases hs; cases t <;> simp [Worker.queue]
    | mmTick =>
      simp only [Site.step] at hs
      split at hs
      · cases hs; simp [NetOut.takenBy]
      · cases hs
    | cmceTick v now =>
      obtain ⟨r, _, hs⟩ := Res.bind_eq_ok.1 hs
      cases hs
      cases t <;> simp [Worker.queue, NetOut.takenBy, takenBy_bs]
    | cmce v e =>
      obtain ⟨r, _, hs⟩ := Res.bind_eq_ok.1 hs
      cases hs
      simp [takenBy_bs]

/-- At a tick an entity takes all that waits for it. -/
theorem c74_promptly {P : Type} {dec : P → Option Command} {s s' : Site} {e : Ev P} {out : List NetOut}
    (hs : s.step dec e = .ok (s', out)) :
    (e = .mmTick → s'.worker.toMm = []) ∧ (∀ v now, e = .cmceTick v now → s'.worker.toCmce = []) := by
  refine ⟨fun he => ?_, fun v now he => ?_⟩
  · subst he
    simp only [Site.step] at hs
    split at hs
    · rename_i h; cases hs; exact h
    · cases hs
  · subst he
    obtain ⟨r, _, hs⟩ := Res.bind_eq_ok.1 hs
    cases hs
    rfl

/-! ## What is done -/

/-- A request that was carried out, was carried out as it should. -/
theorem done_of_ok {reg : List RegOp} {cfg : Brew.Cfg} {c : SendSds} {r : List SdsOut × Bool} (ht : ∀ d ∈ c.payload, d < 256)
    (h : rxSdsFromControl ⟨Registry.after reg, cfg⟩ c = .ok r) :
    Done reg c (r.1.map SdsOut.wire ++ [.response c.handle r.2]) := by
  by_cases hreg : Spec.Registered reg c.dest
  · have hr : (Registry.after reg).isRegistered c.dest = true := ((c31_exact reg).1 c.dest).2 hreg
    have hn := (not_congr (c39_control_abort ⟨Registry.after reg, cfg⟩ c hr ht)).1 (by rw [h]; simp)
    obtain ⟨bs, e, hb⟩ := (c39_from_control reg cfg c (by omega) ⟨by omega, by omega, ht⟩).1 hreg
    rw [h] at e
    cases e
    exact Or.inl ⟨hreg, bs, by cases hg : c.group <;> simp [SdsOut.wire], hb⟩
  · refine Or.inr ⟨hreg, ?_⟩
    have hr : (Registry.after reg).isRegistered c.dest = false := by
      cases e : (Registry.after reg).isRegistered c.dest with
      | true => exact (hreg (((c31_exact reg).1 c.dest).1 e)).elim
      | false => rfl
    simp only [rxSdsFromControl, hr] at h
    cases h
    rfl

theorem controls_done {reg : List RegOp} {cfg : Brew.Cfg} {cs : List Command} (ht : ∀ c ∈ cs, c.Typed) {out : List BsOut}
    (h : controls ⟨Registry.after reg, cfg⟩ (cs.map Command.control) = .ok out) :
    ∃ os : List (SendSds × List BsOut), cs = os.map (fun o => .sendSds o.1) ∧ out = os.flatMap Prod.snd ∧
      ∀ o ∈ os, Done reg o.1 o.2 := by
  induction cs generalizing out with
  | nil => cases h; exact ⟨[], rfl, rfl, by simp⟩
  | cons c cs ih =>
    cases c with
    | commandA _ _ => cases h
    | testB _ _ _ _ => cases h
    | sendSds c =>
      obtain ⟨r, hr, h⟩ := Res.bind_eq_ok.1 h
      obtain ⟨rest, hrest, h⟩ := Res.bind_eq_ok.1 h
      cases h
      obtain ⟨os, h1, h2, h3⟩ := ih (fun c hc => ht c (by simp [hc])) hrest
      refine ⟨(c, r.1.map SdsOut.wire ++ [.response c.handle r.2]) :: os, by simp [h1], by simp [h2], ?_⟩
      intro o ho
      rcases List.mem_cons.1 ho with rfl | ho
      · exact done_of_ok (ht (.sendSds c) (by simp)) hr
      · exact h3 o ho

/-- Call control by itself answers no command. -/
theorem wire_no_response {a : Asked} {o : CcOut} {b : BsOut} (h : o.wire a = .ok b) : responses [b] = [] := by
  cases o <;> simp only [CcOut.wire] at h
  all_goals first
    | (obtain ⟨_, _, h⟩ := Res.bind_eq_ok.1 h; cases h; rfl)
    | (cases h; rfl)

theorem responses_append (l l' : List BsOut) : responses (l ++ l') = responses l ++ responses l' := by simp [responses]

theorem wireAll_no_response {asked : Assoc Nat Asked} {l : List CcOut} {out : List BsOut} (h : wireAll asked l = .ok out) :
    responses out = [] := by
  induction l generalizing out with
  | nil => cases h; rfl
  | cons o os ih =>
    obtain ⟨b, hb, h⟩ := Res.bind_eq_ok.1 h
    obtain ⟨bs, hbs, h⟩ := Res.bind_eq_ok.1 h
    cases h
    have := responses_append [b] bs
    rw [List.singleton_append] at this
    rw [this, wire_no_response hb, ih hbs]; rfl

theorem call_no_response {s s' : Bs} {e : CcEv} {a : Asked} {out : List BsOut} (h : s.call e a = .ok (s', out)) :
    responses out = [] := by
  obtain ⟨r, _, h⟩ := Res.bind_eq_ok.1 h
  obtain ⟨o, ho, h⟩ := Res.bind_eq_ok.1 h
  cases h
  exact wireAll_no_response ho

theorem sds_no_response (l : List SdsOut) : responses (l.map SdsOut.wire) = [] := by
  induction l with
  | nil => rfl
  | cons x xs ih => cases x <;> simpa [responses, SdsOut.wire] using ih

theorem step_no_response {s s' : Bs} {v : SdsView} {e : BsEv} {out : List BsOut} (he : ∀ now cs, e ≠ .tick now cs)
    (h : s.step v e = .ok (s', out)) : responses out = [] := by
  cases e with
  | tick now cs => exact (he _ _ rfl).elim
  | mobile ssi sdu =>
    obtain ⟨u, _, h⟩ := Res.bind_eq_ok.1 h
    cases u with
    | ignored => cases h; rfl
    | call c a => exact call_no_response h
    | status => obtain ⟨o, _, h⟩ := Res.bind_eq_ok.1 h; cases h; exact sds_no_response o
    | sds => obtain ⟨o, _, h⟩ := Res.bind_eq_ok.1 h; cases h; exact sds_no_response o
  | sdsFromBrew a b d => obtain ⟨o, _, h⟩ := Res.bind_eq_ok.1 h; cases h; exact sds_no_response o
  | _ => exact call_no_response h

/-- **C74, carried out.** At a tick call control deals with the commands waiting, in order, after its own affairs (about which it
answers nothing): all are requests for short data, and for each is seen exactly what should be. -/
theorem c74_done {P : Type} {dec : P → Option Command} {s s' : Site} {reg : List RegOp} {cfg : Brew.Cfg} {now : Tdma.Time}
    {out : List NetOut} (ht : ∀ c ∈ s.worker.toCmce, c.Typed)
    (hs : s.step dec (.cmceTick (P := P) ⟨Registry.after reg, cfg⟩ now) = .ok (s', out)) :
    ∃ (own : List BsOut) (os : List (SendSds × List BsOut)),
      s.worker.toCmce = os.map (fun o => .sendSds o.1) ∧
      out = .took .cmce s.worker.toCmce :: (own ++ os.flatMap Prod.snd).map .bs ∧
      responses own = [] ∧ ∀ o ∈ os, Done reg o.1 o.2 := by
  obtain ⟨r, hr, hs⟩ := Res.bind_eq_ok.1 hs
  cases hs
  obtain ⟨q, hq, hr⟩ := Res.bind_eq_ok.1 hr
  obtain ⟨o, ho, hr⟩ := Res.bind_eq_ok.1 hr
  cases hr
  obtain ⟨os, h1, h2, h3⟩ := controls_done ht ho
  exact ⟨q.2, os, h1, by simp [h2], call_no_response hq, h3⟩

/-! ## Answers -/

/-- **C74, answers.** The answers of call control are, in order: those sent to the server or lost, those collected, and those
waiting. -/
theorem c74_answers {P : Type} {dec : P → Option Command} {routable : Nat → Bool} {h : List (Ev P × List NetOut)} {s : Site}
    (hr : Run dec routable h s) : answers h = (fates h).map Prod.fst ++ s.worker.batch ++ s.worker.fromCmce := by
  induction hr with
  | start => rfl
  | reorder _ _ ih => exact ih
  | @step h s s' e out _ he hs ih =>
    simp only [answers, fates, outs_append, List.filterMap_append, List.map_append] at ih ⊢
    rw [ih]
    clear ih
    cases e with
    | receive p =>
      simp only [Site.step] at hs
      cases hd : dec p with
      | none => rw [hd] at hs; cases hs; simp
      | some c => rw [hd] at hs; cases hs; cases c <;> simp [Worker.dispatch, Command.route]
    | collect =>
      cases hs
      simp only [Site.enabled, Bool.and_eq_true, List.isEmpty_iff] at he
      simp [he.2]
    | send ok again =>
      simp only [Site.step] at hs
      split at hs
      · cases hs; simp
      · rename_i r rs hb
        split at hs
        · cases hs; simp [List.filterMap_cons, NetOut.answer, NetOut.fate, hb]
        · split at hs <;> cases hs <;> simp [List.filterMap_cons, NetOut.answer, NetOut.fate, hb]
    | check a r w => cases hs; simp
    | mmTick =>
      simp only [Site.step] at hs
      split at hs
      · cases hs; simp [List.filterMap_cons, NetOut.answer, NetOut.fate]
      · cases hs
    | cmceTick v now =>
      obtain ⟨r, _, hs⟩ := Res.bind_eq_ok.1 hs
      cases hs
      simp only [List.filterMap_cons, NetOut.answer, NetOut.fate, answer_bs, fate_bs]
      simp
    | cmce v e =>
      obtain ⟨r, hr, hs⟩ := Res.bind_eq_ok.1 hs
      cases hs
      have := step_no_response (by intro now cs hc; subst hc; simp [Site.enabled] at he) hr
      rw [answer_bs, fate_bs, this]
      simp

theorem controls_responses {v : SdsView} {cs : List Command} {out : List BsOut}
    (h : controls v (cs.map Command.control) = .ok out) :
    (responses out).map Response.handle = cs.filterMap Command.request := by
  induction cs generalizing out with
  | nil => cases h; rfl
  | cons c cs ih =>
    cases c with
    | commandA _ _ => cases h
    | testB _ _ _ _ => cases h
    | sendSds c =>
      obtain ⟨r, hr, h⟩ := Res.bind_eq_ok.1 h
      obtain ⟨rest, hrest, h⟩ := Res.bind_eq_ok.1 h
      cases h
      rw [responses_append, sds_no_response]
      have := responses_append [BsOut.response c.handle r.2] rest
      rw [List.singleton_append] at this
      rw [this, List.map_append, List.map_append, ih hrest]
      simp [responses, Command.request]

theorem answers_taken {P : Type} {dec : P → Option Command} {routable : Nat → Bool} {h : List (Ev P × List NetOut)} {s : Site}
    (hr : Run dec routable h s) : (answers h).map Response.handle = (taken .cmce h).filterMap Command.request := by
  induction hr with
  | start => rfl
  | reorder _ _ ih => exact ih
  | @step h s s' e out _ he hs ih =>
    simp only [answers, taken, outs_append, List.filterMap_append, List.map_append, List.flatMap_append] at ih ⊢
    rw [ih]
    clear ih
    congr 1
    cases e with
    | receive p =>
      simp only [Site.step] at hs
      cases hd : dec p with
      | none => rw [hd] at hs; cases hs; rfl
      | some c => rw [hd] at hs; cases hs; rfl
    | collect => cases hs; rfl
    | send ok again =>
      simp only [Site.step] at hs
      split at hs
      · cases hs; rfl
      · split at hs
        · cases hs; rfl
        · split at hs <;> cases hs <;> rfl
    | check a r w => cases hs; rfl
    | mmTick =>
      simp only [Site.step] at hs
      split at hs
      · cases hs; rfl
      · cases hs
    | cmceTick v now =>
      obtain ⟨r, hr, hs⟩ := Res.bind_eq_ok.1 hs
      cases hs
      obtain ⟨q, hq, hr⟩ := Res.bind_eq_ok.1 hr
      obtain ⟨o, ho, hr⟩ := Res.bind_eq_ok.1 hr
      cases hr
      have := controls_responses ho
      simp only [List.filterMap_cons, NetOut.answer, answer_bs, responses_append, call_no_response hq, List.nil_append,
        List.flatMap_cons, NetOut.takenBy, if_true, takenBy_bs, List.append_nil]
      exact this
    | cmce v e =>
      obtain ⟨r, hr, hs⟩ := Res.bind_eq_ok.1 hs
      cases hs
      have := step_no_response (by intro now cs hc; subst hc; simp [Site.enabled] at he) hr
      rw [answer_bs, takenBy_bs, this]
      rfl

/-- **C74, one answer each.** The requests of the server, in the order sent: those whose answer was sent or lost, those whose answer is
on its way, and those which still wait. -/
theorem c74_requests {P : Type} {dec : P → Option Command} {routable : Nat → Bool} {h : List (Ev P × List NetOut)} {s : Site}
    (hr : Run dec routable h s) :
    (fates h).map (fun f => f.1.handle) ++ (s.worker.batch ++ s.worker.fromCmce).map Response.handle ++
      s.worker.toCmce.filterMap Command.request = (received dec h).filterMap Command.request := by
  have h1 := answers_taken hr
  rw [c74_answers hr] at h1
  have h2 := congrArg (List.filterMap Command.request) (c74_commands hr .cmce)
  rw [List.filterMap_append, ← h1] at h2
  have h3 : ∀ l : List Command, (l.filter fun c => c.route = .cmce).filterMap Command.request = l.filterMap Command.request := by
    intro l
    induction l with
    | nil => rfl
    | cons c cs ih => cases c <;> simp [List.filter_cons, Command.route, Command.request] at ih ⊢ <;> exact ih
  rw [h3] at h2
  rw [← h2]
  simp [Worker.queue, List.map_append]

/-- **C74, lost answers.** If the connection takes every answer it is given, none is lost. -/
theorem c74_not_lost_partial {P : Type} {dec : P → Option Command} {routable : Nat → Bool} {h : List (Ev P × List NetOut)} {s : Site}
    (hr : Run dec routable h s) (hok : ∀ e ∈ h, ∀ again, e.1 ≠ .send false again) (f : Response × Bool) (hf : f ∈ fates h) :
    f.2 = true := by
  have key : (s.worker.batch ≠ [] → s.worker.connected = true) ∧ ∀ f ∈ fates h, f.2 = true := by
    clear hf f
    induction hr with
    | start => exact ⟨fun h => (h rfl).elim, by simp [fates, outs]⟩
    | reorder _ _ ih => exact ih hok
    | @step h s s' e out _ he hs ih =>
      obtain ⟨ih1, ih2⟩ := ih (fun e he => hok e (by simp [he]))
      have hnow := hok (e, out) (by simp)
      suffices (s'.worker.batch ≠ [] → s'.worker.connected = true) ∧ ∀ f ∈ out.filterMap NetOut.fate, f.2 = true by
        refine ⟨this.1, fun f hf => ?_⟩
        simp only [fates, outs_append, List.filterMap_append, List.mem_append] at hf
        rcases hf with hf | hf
        · exact ih2 f hf
        · exact this.2 f hf
      cases e with
      | receive p =>
        simp only [Site.step] at hs
        cases hd : dec p with
        | none => rw [hd] at hs; cases hs; exact ⟨ih1, by simp⟩
        | some c => rw [hd] at hs; cases hs; cases c <;> exact ⟨ih1, by simp⟩
      | collect =>
        cases hs
        simp only [Site.enabled, Bool.and_eq_true] at he
        exact ⟨fun _ => he.1, by simp⟩
      | send ok again =>
        have hok : ok = true := by
          cases ok with
          | true => rfl
          | false => exact (hnow again rfl).elim
        subst hok
        simp only [Site.step] at hs
        split at hs
        · cases hs; exact ⟨ih1, by simp⟩
        · rename_i r rs hb
          have hc : s.worker.connected = true := ih1 (by simp [hb])
          simp only [hc, if_true] at hs
          cases hs
          exact ⟨fun _ => rfl, by simp [List.filterMap_cons, NetOut.fate]⟩
      | check a r w =>
        cases hs
        simp only [Site.enabled, List.isEmpty_iff] at he
        exact ⟨fun h => (h he).elim, by simp⟩
      | mmTick =>
        simp only [Site.step] at hs
        split at hs
        · cases hs; exact ⟨ih1, by simp [List.filterMap_cons, NetOut.fate]⟩
        · cases hs
      | cmceTick v now =>
        obtain ⟨r, hr, hs⟩ := Res.bind_eq_ok.1 hs
        cases hs
        exact ⟨ih1, by simp only [List.filterMap_cons, NetOut.fate, fate_bs]; simp⟩
      | cmce v e =>
        obtain ⟨r, hr, hs⟩ := Res.bind_eq_ok.1 hs
        cases hs
        exact ⟨ih1, by rw [fate_bs]; simp⟩
  exact key.2 f hf

/-! ## Aborts -/

/-- The events of call control. -/
def Ev.bsEv {P : Type} : Ev P × List NetOut → Option (BsEv × List BsOut)
  | (.cmceTick _ now, .took _ cs :: out) => some (.tick now (cs.map Command.control), out.filterMap fun o => match o with | .bs b => some b | _ => none)
  | (.cmce _ e, out) => some (e, out.filterMap fun o => match o with | .bs b => some b | _ => none)
  | _ => none

/-- Numbers of stations have 24 bits (C57). -/
def Ev.Sane {P : Type} (routable : Nat → Bool) : Ev P → Prop
  | .cmce _ e => e.Sane routable
  | _ => True

theorem filterMap_bs (l : List BsOut) :
    ((l.map NetOut.bs).filterMap fun o => match o with | .bs b => some b | _ => none) = l := by
  induction l with
  | nil => rfl
  | cons x xs ih => simp only [List.map_cons, List.filterMap_cons, ih]

/-- The entity at the end of the link is that of C57. -/
theorem bsRun_of_run {P : Type} {dec : P → Option Command} {routable : Nat → Bool} {h : List (Ev P × List NetOut)} {s : Site}
    (hr : Run dec routable h s) (hsane : ∀ e ∈ h, e.1.Sane routable) : BsRun routable (h.filterMap Ev.bsEv) s.bs := by
  induction hr with
  | start => exact .init
  | reorder _ hc ih => exact .reorder (ih hsane) hc
  | @step h s s' e out _ he hs ih =>
    have ih := ih (fun e he => hsane e (by simp [he]))
    have hnow := hsane (e, out) (by simp)
    have same : s'.bs = s.bs → Ev.bsEv (e, out) = none → BsRun routable ((h ++ [(e, out)]).filterMap Ev.bsEv) s'.bs := by
      intro h1 h2
      rw [h1, List.filterMap_append]
      simpa [h2] using ih
    cases e with
    | receive p =>
      simp only [Site.step] at hs
      cases hd : dec p with
      | none => rw [hd] at hs; cases hs; exact same rfl rfl
      | some c => rw [hd] at hs; cases hs; exact same rfl rfl
    | collect => cases hs; exact same rfl rfl
    | send ok again =>
      simp only [Site.step] at hs
      split at hs
      · cases hs; exact same rfl rfl
      · split at hs
        · cases hs; exact same rfl rfl
        · split at hs <;> cases hs <;> exact same rfl rfl
    | check a r w => cases hs; exact same rfl rfl
    | mmTick =>
      simp only [Site.step] at hs
      split at hs
      · cases hs; exact same rfl rfl
      · cases hs
    | cmceTick v now =>
      obtain ⟨r, hr, hs⟩ := Res.bind_eq_ok.1 hs
      cases hs
      rw [List.filterMap_append]
      simp only [List.filterMap_cons, Ev.bsEv, filterMap_bs, List.filterMap_nil]
      exact .step (v := v) ih trivial hr
    | cmce v e =>
      obtain ⟨r, hr, hs⟩ := Res.bind_eq_ok.1 hs
      cases hs
      rw [List.filterMap_append]
      simp only [List.filterMap_cons, Ev.bsEv, filterMap_bs, List.filterMap_nil]
      exact .step (v := v) ih hnow hr

theorem controls_panic {reg : List RegOp} {cfg : Brew.Cfg} {cs : List Command} (ht : ∀ c ∈ cs, c.Typed) :
    controls ⟨Registry.after reg, cfg⟩ (cs.map Command.control) = .panic ↔
      ∃ c ∈ cs, (∀ x, c ≠ .sendSds x) ∨ ∃ x, c = .sendSds x ∧ Spec.Registered reg x.dest ∧ TooMuch x := by
  induction cs with
  | nil => simp [controls]
  | cons c cs ih =>
    have ih := ih (fun c hc => ht c (by simp [hc]))
    cases c with
    | commandA a b => exact ⟨fun _ => ⟨_, List.mem_cons_self, Or.inl (by simp)⟩, fun _ => rfl⟩
    | testB a b c d => exact ⟨fun _ => ⟨_, List.mem_cons_self, Or.inl (by simp)⟩, fun _ => rfl⟩
    | sendSds x =>
      have hx : ∀ d ∈ x.payload, d < 256 := ht (.sendSds x) (by simp)
      have h1 : rxSdsFromControl ⟨Registry.after reg, cfg⟩ x = .panic ↔ Spec.Registered reg x.dest ∧ TooMuch x := by
        by_cases hreg : Spec.Registered reg x.dest
        · have hr : (Registry.after reg).isRegistered x.dest = true := ((c31_exact reg).1 x.dest).2 hreg
          rw [c39_control_abort ⟨Registry.after reg, cfg⟩ x hr hx]
          exact ⟨fun h => ⟨hreg, h⟩, fun h => h.2⟩
        · have hr : (Registry.after reg).isRegistered x.dest = false := by
            cases e : (Registry.after reg).isRegistered x.dest with
            | true => exact (hreg (((c31_exact reg).1 x.dest).1 e)).elim
            | false => rfl
          simp [rxSdsFromControl, hr, hreg]
      have e1 : controls ⟨Registry.after reg, cfg⟩ ((Command.sendSds x :: cs).map Command.control) = .panic ↔
          rxSdsFromControl ⟨Registry.after reg, cfg⟩ x = .panic ∨
            controls ⟨Registry.after reg, cfg⟩ (cs.map Command.control) = .panic := by
        simp only [List.map_cons, Command.control, controls]
        cases rxSdsFromControl ⟨Registry.after reg, cfg⟩ x with
        | panic => simp
        | ok r => cases controls ⟨Registry.after reg, cfg⟩ (cs.map Command.control) <;> simp
      rw [e1, h1, ih]
      simp

/-- **C74, aborts.** The worker never aborts. Mobility management aborts at a tick exactly when a command waits for it. Call control
aborts at a tick exactly when a command other than one for short data waits, or one for a registered station with a source of more than
24 bits or more bits than the message has or a length of more than 11 bits. -/
theorem c74_abort_iff_partial {P : Type} {dec : P → Option Command} {routable : Nat → Bool} {h : List (Ev P × List NetOut)} {s : Site}
    (hr : Run dec routable h s) (hsane : ∀ e ∈ h, e.1.Sane routable) :
    (∀ p, s.step dec (.receive p) ≠ .panic) ∧ s.step dec .collect ≠ .panic ∧ (∀ a b, s.step dec (.send a b) ≠ .panic) ∧
    (∀ a b c, s.step dec (.check a b c) ≠ .panic) ∧
    (s.step dec .mmTick = .panic ↔ s.worker.toMm ≠ []) ∧
    ∀ reg cfg now, (∀ c ∈ s.worker.toCmce, c.Typed) →
      (s.step dec (.cmceTick ⟨Registry.after reg, cfg⟩ now) = .panic ↔
        ∃ c ∈ s.worker.toCmce, (∀ x, c ≠ .sendSds x) ∨ ∃ x, c = .sendSds x ∧ Spec.Registered reg x.dest ∧ TooMuch x) := by
  refine ⟨fun p => ?_, by simp [Site.step], fun a b => ?_, fun a b c => by simp [Site.step], ?_, fun reg cfg now ht => ?_⟩
  · simp only [Site.step]
    split <;> simp
  · simp only [Site.step]
    split
    · simp
    · split
      · simp
      · split <;> simp
  · simp only [Site.step]
    split
    · rename_i h; simp [h]
    · rename_i h; simp [h]
  · rw [← controls_panic (cfg := cfg) ht]
    have hcall : s.bs.step ⟨Registry.after reg, cfg⟩ (.tick now []) ≠ .panic := by
      intro hp
      obtain ⟨c, hc, _⟩ := c57_total_partial (bsRun_of_run hr hsane) (e := .tick now []) trivial hp
      cases hc
    simp only [Site.step, Bs.step, controls] at hcall ⊢
    cases hc : s.bs.call (.tick now) netAsked with
    | panic => rw [hc] at hcall; exact (hcall rfl).elim
    | ok r => cases controls ⟨Registry.after reg, cfg⟩ (s.worker.toCmce.map Command.control) <;> simp

/-- **Finding (C74).** A `CommandA` of the server aborts the base station, whatever its state, and so does a `TestCmdB`. -/
theorem c74_command_abort {P : Type} {dec : P → Option Command} {s s' : Site} {p : P} {out : List NetOut} :
    (∀ a b, dec p = some (.commandA a b) → s.step dec (.receive p) = .ok (s', out) → s'.step dec .mmTick = .panic) ∧
    (∀ a b c d v now, dec p = some (.testB a b c d) → s.step dec (.receive p) = .ok (s', out) →
      s'.step dec (.cmceTick v now) = .panic) := by
  refine ⟨fun a b hd hs => ?_, fun a b c d v now hd hs => ?_⟩
  · simp only [Site.step, hd] at hs
    cases hs
    simp only [Site.step, Worker.dispatch, Command.route]
    split
    · rename_i h; simp at h
    · rfl
  · simp only [Site.step, hd] at hs
    cases hs
    simp only [Site.step, Worker.dispatch, Command.route]
    rw [c57_command_abort _ _ _ _ (by simp [Command.control])]
    rfl

/-! ## Examples -/

/-- Several events. -/
def Site.run {P : Type} (dec : P → Option Command) (s : Site) : List (Ev P) → Option (Site × List (Ev P × List NetOut))
  | [] => some (s, [])
  | e :: es =>
    if s.enabled e then
      match s.step dec e with
      | .ok (s', out) => (Site.run dec s' es).map fun r => (r.1, (e, out) :: r.2)
      | .panic => none
    else none

theorem run_run {P : Type} {dec : P → Option Command} {routable : Nat → Bool} {h : List (Ev P × List NetOut)} {s : Site}
    (hr : Run dec routable h s) {es : List (Ev P)} {q : Site × List (Ev P × List NetOut)} (hq : s.run dec es = some q) :
    Run dec routable (h ++ q.2) q.1 := by
  induction es generalizing h s q with
  | nil => cases hq; simpa using hr
  | cons e es ih =>
    simp only [Site.run] at hq
    split at hq
    · rename_i he
      split at hq
      · rename_i s' out hs
        cases hq' : s'.run dec es with
        | none => rw [hq'] at hq; cases hq
        | some r =>
          rw [hq'] at hq
          cases hq
          have := ih (.step hr he hs) hq'
          simpa using this
      · cases hq
    · cases hq

/-- Station 1001 is registered. -/
def oneStation : SdsView := ⟨Registry.after [.register 1001], ⟨none, []⟩⟩

/-- Two requests, one for a station which is there and one for one which is not. -/
def twoRequests (ok : Bool) : List (Ev Command) := [.check true true true, .receive (.sendSds ⟨7, 5, 1001, false, 16, [0xab, 0xcd]⟩),
  .receive (.sendSds ⟨8, 5, 1002, false, 16, [0xab, 0xcd]⟩), .cmceTick oneStation ⟨1, 1, 1, 1⟩, .collect, .send ok true, .send true true]

/-- Both answers get to the server, if the connection holds. -/
example : ∃ h s, Run some (fun _ => false) h s ∧ (∀ e ∈ h, e.1.Sane fun _ => false) ∧
    fates h = [(⟨7, true⟩, true), (⟨8, false⟩, true)] := by
  have hb : (((⟨.start, .init fun _ => false⟩ : Site).run some (twoRequests true)).map fun q => fates q.2) =
      some [(⟨7, true⟩, true), (⟨8, false⟩, true)] := by decide +kernel
  have hs : (((⟨.start, .init fun _ => false⟩ : Site).run some (twoRequests true)).map fun q => q.2.map fun e =>
      match e.1 with | .cmce _ _ => false | _ => true) = some [true, true, true, true, true, true, true] := by decide +kernel
  cases hq : (⟨.start, .init fun _ => false⟩ : Site).run some (twoRequests true) with
  | none => rw [hq] at hb; cases hb
  | some q =>
    rw [hq] at hb hs
    simp only [Option.map_some, Option.some.injEq] at hb hs
    refine ⟨q.2, q.1, by simpa using run_run .start hq, fun e he => ?_, hb⟩
    have : (match e.1 with | .cmce _ _ => false | _ => true) ∈ q.2.map fun e =>
      match e.1 with | .cmce _ _ => false | _ => true := List.mem_map.2 ⟨e, he, rfl⟩
    rw [hs] at this
    obtain ⟨e, o⟩ := e
    cases e <;> first | trivial | (simp at this)

/-- **Finding (C74).** The message was sent to the station, but the server never learns it: the answer is lost when the connection
fails, while that of the next request arrives. -/
theorem c74_answer_lost : ∃ h s, Run some (fun _ => false) h s ∧ fates h = [(⟨7, true⟩, false), (⟨8, false⟩, true)] ∧
    (∃ bs, NetOut.bs (.air (.station 1001) .acknowledged none false bs) ∈ outs h) := by
  have hb : (((⟨.start, .init fun _ => false⟩ : Site).run some (twoRequests false)).map fun q =>
      (fates q.2, (outs q.2).any fun o => match o with
        | .bs (.air (.station 1001) .acknowledged none false _) => true
        | _ => false)) = some ([(⟨7, true⟩, false), (⟨8, false⟩, true)], true) := by decide +kernel
  cases hq : (⟨.start, .init fun _ => false⟩ : Site).run some (twoRequests false) with
  | none => rw [hq] at hb; cases hb
  | some q =>
    rw [hq] at hb
    simp only [Option.map_some, Option.some.injEq, Prod.mk.injEq] at hb
    refine ⟨q.2, q.1, by simpa using run_run .start hq, hb.1, ?_⟩
    obtain ⟨o, ho, hm⟩ := List.any_eq_true.1 hb.2
    split at hm
    · exact ⟨_, ho⟩
    · cases hm

end Verif.Net
