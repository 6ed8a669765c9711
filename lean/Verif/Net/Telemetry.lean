import Verif.Mm.MmTelemetry
/-!
# C75 — What the telemetry server is told

Model of `crates/tetra-entities/src/net_telemetry` (worker.rs:29-145, channel.rs) behind mobility management (C55). The transport is the
environment. The channel is an unbounded FIFO queue. JSON is left out: what is sent is the event itself. An event is what a thread does
between two moments at which the other can see it; the worker exits only when the base station does (line 61).
-/
namespace Verif.Net
open Verif.Mm

/-- `TelemetryWorker` (worker.rs:29-34) with its channel (channel.rs:17-19, 33-35), and mobility management. -/
structure TelSite where
  connected : Bool
  queue : List TelEvent
  mm : Mm.Mm

inductive TelIn where
  /-- a message for mobility management, which may emit events (channel.rs:24-26) -/
  | mm (m : MmIn)
  /-- the worker takes an event (lines 53-56) and `forward_event` (lines 90-106): whether connecting works, if it must; whether the
  transport takes the event; and if not, whether connecting again works -/
  | forward (connects ok again : Bool)
  /-- the rest of the loop (lines 66-84): whether the transport is connected, whether it is time to try again, and whether that works.
  Also `try_connect` at the start (line 48), with `retry = true`. -/
  | check (alive retry works : Bool)
  deriving DecidableEq, Repr

inductive TelOut where
  | mm (o : MmOut)
  /-- an event handed to the transport, or dropped -/
  | sent (x : TelEvent)
  | lost (x : TelEvent)
  deriving DecidableEq, Repr

/-- One event. -/
def TelSite.step (c : Brew.Cfg) (s : TelSite) : TelIn → Res (TelSite × List TelOut)
  | .mm m => do
    let r ← s.mm.rx c m.handle m.issi m.bits
    .ok ({ s with mm := r.1, queue := s.queue ++ toTelemetry r.2 }, r.2.map .mm)
  | .forward connects ok again =>
    match s.queue with
    | [] => .ok (s, [])
    | x :: xs =>
      if !s.connected && !connects then .ok ({ s with queue := xs }, [.lost x])
      else if ok then .ok ({ s with queue := xs, connected := true }, [.sent x])
      else .ok ({ s with queue := xs, connected := again }, [.lost x])
  | .check alive retry works =>
    let b := s.connected && alive
    .ok ({ s with connected := if !b && retry then works else b }, [])

/-- Histories from the start. -/
inductive TelRun (c : Brew.Cfg) : List (TelIn × List TelOut) → TelSite → Prop where
  | start : TelRun c [] ⟨false, [], Mm.Mm.new⟩
  | step {h : List (TelIn × List TelOut)} {s s' : TelSite} {e : TelIn} {out : List TelOut} :
      TelRun c h s → s.step c e = .ok (s', out) → TelRun c (h ++ [(e, out)]) s'

/-! ## Specification -/

/-- The messages for mobility management, each with what came of it. -/
def mmHistory (h : List (TelIn × List TelOut)) : List (MmIn × List MmOut) := h.filterMap fun x => match x with
  | (.mm m, out) => some (m, out.filterMap fun o => match o with | .mm o => some o | _ => none)
  | _ => none

/-- What became of the events, in order. -/
def TelOut.fate : TelOut → Option (TelEvent × Bool)
  | .sent x => some (x, true)
  | .lost x => some (x, false)
  | _ => none
def telFates (h : List (TelIn × List TelOut)) : List (TelEvent × Bool) := (h.flatMap Prod.snd).filterMap TelOut.fate

/-- What the server is told. -/
def told (h : List (TelIn × List TelOut)) : List TelEvent := (telFates h).filterMap fun f => if f.2 then some f.1 else none

/-- The connection failed: it could not be made when it was needed, or did not take an event. -/
def TelIn.Fails (connected : Bool) : TelIn → Prop
  | .forward connects ok _ => (connected = false ∧ connects = false) ∨ ok = false
  | _ => False

/-- The event says whether station `i` is registered. -/
def Concerns (i : Nat) : TelEvent → Prop
  | .registration j => j = i
  | .deregistration j => j = i
  | _ => False

/-! ## Theorems -/

theorem mm_filterMap (l : List MmOut) : ((l.map TelOut.mm).filterMap fun o => match o with | .mm o => some o | _ => none) = l := by
  induction l with
  | nil => rfl
  | cons x xs ih => simp only [List.map_cons, List.filterMap_cons, ih]

theorem mm_fate (l : List MmOut) : (l.map TelOut.mm).filterMap TelOut.fate = [] := by
  induction l with
  | nil => rfl
  | cons x xs ih => simpa only [List.map_cons, List.filterMap_cons, TelOut.fate] using ih

theorem telFates_append (h : List (TelIn × List TelOut)) (e : TelIn) (out : List TelOut) :
    telFates (h ++ [(e, out)]) = telFates h ++ out.filterMap TelOut.fate := by simp [telFates]

/-- Mobility management is that of C55. -/
theorem mmRun_of_telRun {c : Brew.Cfg} {h : List (TelIn × List TelOut)} {s : TelSite} (hr : TelRun c h s) :
    MmRun c (mmHistory h) s.mm := by
  induction hr with
  | start => exact .start
  | @step h s s' e out _ hs ih =>
    have same : s'.mm = s.mm → mmHistory [(e, out)] = [] → MmRun c (mmHistory (h ++ [(e, out)])) s'.mm := by
      intro h1 h2
      have : mmHistory (h ++ [(e, out)]) = mmHistory h ++ mmHistory [(e, out)] := by simp [mmHistory]
      rw [this, h1, h2, List.append_nil]
      exact ih
    cases e with
    | mm m =>
      obtain ⟨r, hx, hs⟩ := Res.bind_eq_ok.1 hs
      cases hs
      have : mmHistory (h ++ [(.mm m, r.2.map .mm)]) = mmHistory h ++ [(m, r.2)] := by
        simp only [mmHistory, List.filterMap_append, List.filterMap_cons, mm_filterMap, List.filterMap_nil]
      rw [this]
      exact .step ih hx
    | forward a b d =>
      simp only [TelSite.step] at hs
      split at hs
      · cases hs; exact same rfl rfl
      · split at hs
        · cases hs; exact same rfl rfl
        · split at hs <;> cases hs <;> exact same rfl rfl
    | check a b d => cases hs; exact same rfl rfl

/-- **C75, each event once.** The events mobility management emits are, in order, those sent or lost and those waiting. -/
theorem c75_events {c : Brew.Cfg} {h : List (TelIn × List TelOut)} {s : TelSite} (hr : TelRun c h s) :
    (telFates h).map Prod.fst ++ s.queue = toTelemetry (sent (mmHistory h)) := by
  induction hr with
  | start => rfl
  | @step h s s' e out _ hs ih =>
    have hm : mmHistory (h ++ [(e, out)]) = mmHistory h ++ mmHistory [(e, out)] := by simp [mmHistory]
    have ht : ∀ a b, toTelemetry (sent (a ++ b)) = toTelemetry (sent a) ++ toTelemetry (sent b) := by
      intro a b; simp [sent, toTelemetry]
    rw [telFates_append, hm, ht, ← ih, List.map_append]
    clear ih hm ht
    cases e with
    | mm m =>
      obtain ⟨r, hx, hs⟩ := Res.bind_eq_ok.1 hs
      cases hs
      rw [mm_fate]
      simp only [mmHistory, List.filterMap_cons, mm_filterMap, List.filterMap_nil, sent, List.flatMap_cons, List.flatMap_nil,
        List.append_nil, List.map_nil, List.append_assoc]
    | forward a b d =>
      simp only [TelSite.step] at hs
      split at hs
      · cases hs; simp [mmHistory, sent, toTelemetry]
      · rename_i x xs hq
        split at hs
        · cases hs; simp [mmHistory, sent, toTelemetry, TelOut.fate, hq]
        · split at hs <;> cases hs <;> simp [mmHistory, sent, toTelemetry, TelOut.fate, hq]
    | check a b d => cases hs; simp [mmHistory, sent, toTelemetry]

theorem told_sublist_fates (l : List (TelEvent × Bool)) :
    (l.filterMap fun f => if f.2 then some f.1 else none).Sublist (l.map Prod.fst) := by
  induction l with
  | nil => exact .slnil
  | cons f fs ih =>
    cases hf : f.2 with
    | true => simp only [List.filterMap_cons, hf, if_true, List.map_cons]; exact .cons_cons _ ih
    | false => simp only [List.filterMap_cons, hf, List.map_cons]; exact .cons _ ih

/-- **C75, nothing invented.** The server is told events which happened, in their order. -/
theorem c75_in_order {c : Brew.Cfg} {h : List (TelIn × List TelOut)} {s : TelSite} (hr : TelRun c h s) :
    (told h).Sublist (toTelemetry (sent (mmHistory h))) := by
  rw [← c75_events hr]
  exact (told_sublist_fates _).trans (List.sublist_append_left _ _)

/-- **C75, losses.** An event is lost only, and always, when the connection fails. -/
theorem c75_lost_iff {c : Brew.Cfg} {s s' : TelSite} {e : TelIn} {out : List TelOut} (hs : s.step c e = .ok (s', out)) (x : TelEvent) :
    .lost x ∈ out ↔ e.Fails s.connected ∧ s.queue.head? = some x := by
  cases e with
  | mm m =>
    obtain ⟨r, hx, hs⟩ := Res.bind_eq_ok.1 hs
    cases hs
    simp [TelIn.Fails]
  | forward a b d =>
    simp only [TelSite.step] at hs
    split at hs
    · rename_i hq; cases hs; simp [hq]
    · rename_i y ys hq
      cases hc : s.connected <;> cases a <;> cases b <;> simp [hc] at hs <;> (obtain ⟨_, rfl⟩ := hs) <;>
        simp [TelIn.Fails, hq, eq_comm]
  | check a b d => cases hs; simp [TelIn.Fails]

/-- Whether a station is registered is what the last event about it says. -/
theorem telRegistered_last (pre post : List TelEvent) (x : TelEvent) (i : Nat) (hx : Concerns i x) (hp : ∀ y ∈ post, ¬ Concerns i y) :
    telRegistered (pre ++ x :: post) i = telRegistered [x] i := by
  have key : ∀ (post : List TelEvent) (t : Nat → Bool), (∀ y ∈ post, ¬ Concerns i y) → post.foldl telRegisteredAfter t i = t i := by
    intro post
    induction post with
    | nil => intros; rfl
    | cons y ys ih =>
      intro t hp
      rw [List.foldl_cons, ih _ fun y hy => hp y (by simp [hy])]
      have := hp y (by simp)
      cases y with
      | registration j => simp only [telRegisteredAfter]; rw [if_neg fun h => this h.symm]
      | deregistration j => simp only [telRegisteredAfter]; rw [if_neg fun h => this h.symm]
      | groupAttach _ _ => rfl
      | groupDetach _ _ => rfl
  simp only [telRegistered, List.foldl_append, List.foldl_cons, List.foldl_nil]
  rw [key post _ hp]
  cases x with
  | registration j => cases hx; simp [telRegisteredAfter]
  | deregistration j => cases hx; simp [telRegisteredAfter]
  | groupAttach _ _ => cases hx
  | groupDetach _ _ => cases hx

/-- **C75, one station.** The server's picture of a station is right if the last event about it was sent, whatever was lost before or
of others. -/
theorem c75_station_partial {c : Brew.Cfg} {h : List (TelIn × List TelOut)} {s : TelSite} (hr : TelRun c h s) (i : Nat)
    (pre post : List (TelEvent × Bool)) (x : TelEvent) (hf : telFates h = pre ++ (x, true) :: post) (hx : Concerns i x)
    (hpost : ∀ y ∈ post, ¬ Concerns i y.1) (hq : ∀ y ∈ s.queue, ¬ Concerns i y) :
    telRegistered (told h) i = s.mm.known i := by
  rw [← (c55_telemetry_partial (mmRun_of_telRun hr)).1 i, ← c75_events hr, told, hf]
  simp only [List.filterMap_append, List.filterMap_cons, if_true, List.map_append, List.map_cons, List.append_assoc, List.cons_append]
  rw [telRegistered_last _ _ x i hx, telRegistered_last _ _ x i hx]
  · intro y hy
    rcases List.mem_append.1 hy with hy | hy
    · obtain ⟨z, hz, rfl⟩ := List.mem_map.1 hy
      exact hpost z hz
    · exact hq y hy
  · intro y hy
    obtain ⟨z, hz, he⟩ := List.mem_filterMap.1 hy
    have := hpost z hz
    cases hz2 : z.2 <;> simp [hz2] at he
    exact he ▸ this

/-- A station about which nothing was ever emitted is not registered for either. -/
theorem c75_silent {c : Brew.Cfg} {h : List (TelIn × List TelOut)} {s : TelSite} (hr : TelRun c h s) (i : Nat)
    (hn : ∀ y ∈ toTelemetry (sent (mmHistory h)), ¬ Concerns i y) : telRegistered (told h) i = false ∧ s.mm.known i = false := by
  have key : ∀ (l : List TelEvent), (∀ y ∈ l, ¬ Concerns i y) → telRegistered l i = false := by
    intro l hl
    have := telRegistered_last [] (.registration (i + 1) :: l) (.deregistration i) i rfl (by
      intro y hy
      rcases List.mem_cons.1 hy with rfl | hy
      · simp [Concerns]
      · exact hl y hy)
    have h1 : ∀ (l : List TelEvent) (t t' : Nat → Bool), t i = t' i → l.foldl telRegisteredAfter t i = l.foldl telRegisteredAfter t' i := by
      intro l
      induction l with
      | nil => intro t t' h; exact h
      | cons y ys ih =>
        intro t t' h
        apply ih
        cases y <;> simp [telRegisteredAfter, h]
    rw [telRegistered, h1 l _ ([TelEvent.deregistration i, .registration (i + 1)].foldl telRegisteredAfter fun _ => false)
      (by simp [telRegisteredAfter])]
    simp only [telRegistered, List.nil_append, List.foldl_cons, List.foldl_nil] at this ⊢
    rw [this]
    simp [telRegisteredAfter]
  refine ⟨key _ fun y hy => hn y ((c75_in_order hr).subset hy), ?_⟩
  rw [← (c55_telemetry_partial (mmRun_of_telRun hr)).1 i]
  exact key _ hn

theorem told_all {l : List (TelEvent × Bool)} (h : ∀ f ∈ l, f.2 = true) :
    (l.filterMap fun f => if f.2 then some f.1 else none) = l.map Prod.fst := by
  induction l with
  | nil => rfl
  | cons f fs ih => simp [h f (by simp), ih fun f hf => h f (by simp [hf])]

/-- **C75, picture.** If no event was lost and none waits, the server's picture is the truth: the registered stations, at least the
attached groups, and exactly these as long as no station leaves a single group (C55). -/
theorem c75_picture_partial {c : Brew.Cfg} {h : List (TelIn × List TelOut)} {s : TelSite} (hr : TelRun c h s)
    (hl : ∀ e ∈ h, ∀ x, .lost x ∉ e.2) (hq : s.queue = []) :
    (∀ i, telRegistered (told h) i = s.mm.known i) ∧
    (∀ i g, s.mm.attached i g = true → telAttached (told h) i g = true) ∧
    ((∀ x ∈ mmHistory h, NoDetach (entriesOf x.1.bits)) → ∀ i g, telAttached (told h) i g = s.mm.attached i g) := by
  have ht : told h = toTelemetry (sent (mmHistory h)) := by
    rw [← c75_events hr, hq, List.append_nil, told]
    apply told_all
    intro f hf
    obtain ⟨o, ho, he⟩ := List.mem_filterMap.1 hf
    obtain ⟨e, hm, ho⟩ := List.mem_flatMap.1 ho
    cases o with
    | mm _ => cases he
    | sent x => cases he; rfl
    | lost x => exact (hl e hm x ho).elim
  have h1 := mmRun_of_telRun hr
  rw [ht]
  exact ⟨(c55_telemetry_partial h1).1, (c55_telemetry_partial h1).2, fun hn => c55_exact_partial h1 hn⟩

/-! ## Examples -/

/-- Several events, if none aborts. -/
def TelSite.run (c : Brew.Cfg) (s : TelSite) : List TelIn → Option (TelSite × List (TelIn × List TelOut))
  | [] => some (s, [])
  | e :: es =>
    match s.step c e with
    | .ok (s', out) => (TelSite.run c s' es).map fun r => (r.1, (e, out) :: r.2)
    | .panic => none

theorem telRun_run {c : Brew.Cfg} {h : List (TelIn × List TelOut)} {s : TelSite} (hr : TelRun c h s) {es : List TelIn}
    {q : TelSite × List (TelIn × List TelOut)} (hq : s.run c es = some q) : TelRun c (h ++ q.2) q.1 := by
  induction es generalizing h s q with
  | nil => cases hq; simpa using hr
  | cons e es ih =>
    simp only [TelSite.run] at hq
    split at hq
    · rename_i s' out hs
      cases hq' : s'.run c es with
      | none => rw [hq'] at hq; cases hq
      | some r =>
        rw [hq'] at hq
        cases hq
        have := ih (.step hr hs) hq'
        simpa using this
    · cases hq

/-- Station 1000 registers while the server cannot be reached (`up = false`); then the connection is made, station 2000 registers, and
station 1000 attaches to a group. -/
def outage (up : Bool) : List TelIn := [.check false true up, .mm (demandMsg 1000 0 []), .forward up true true, .check true true true,
  .mm (demandMsg 2000 0 []), .forward true true true, .mm (reportMsg 1000 false [⟨some 4, none, some 91, none, none⟩]),
  .forward true true true]

/-- The server sees both stations and the group, if it was there all the time. -/
example : ∃ h s, TelRun ⟨none, []⟩ h s ∧ s.queue = [] ∧ (∀ e ∈ h, ∀ x, .lost x ∉ e.2) ∧
    s.mm.known 1000 = true ∧ telRegistered (told h) 1000 = true ∧ telAttached (told h) 1000 91 = true := by
  have hb : (((⟨false, [], Mm.Mm.new⟩ : TelSite).run ⟨none, []⟩ (outage true)).map fun q => (q.1.queue, q.1.mm.known 1000,
      telRegistered (told q.2) 1000, telAttached (told q.2) 1000 91, q.2.all fun e => e.2.all fun o =>
        match o with | .lost _ => false | _ => true)) = some ([], true, true, true, true) := by decide +kernel
  cases hq : (⟨false, [], Mm.Mm.new⟩ : TelSite).run ⟨none, []⟩ (outage true) with
  | none => rw [hq] at hb; cases hb
  | some q =>
    rw [hq] at hb
    simp only [Option.map_some, Option.some.injEq, Prod.mk.injEq] at hb
    refine ⟨q.2, q.1, by simpa using telRun_run .start hq, hb.1, fun e he x hx => ?_, hb.2.1, hb.2.2.1, hb.2.2.2.1⟩
    have := List.all_eq_true.1 (List.all_eq_true.1 hb.2.2.2.2 e he) _ hx
    cases this

set_option synthInstance.maxSize 1000 in
/-- **Finding (C75).** There is no resynchronization: a station which registered while the server could not be reached stays
unregistered for the server when the connection is back, even when its groups are reported. -/
theorem c75_no_resync : ∃ h s, TelRun ⟨none, []⟩ h s ∧ s.queue = [] ∧ s.connected = true ∧
    s.mm.known 1000 = true ∧ telRegistered (told h) 1000 = false ∧ telAttached (told h) 1000 91 = true ∧
    s.mm.known 2000 = true ∧ telRegistered (told h) 2000 = true := by
  have hb : (((⟨false, [], Mm.Mm.new⟩ : TelSite).run ⟨none, []⟩ (outage false)).map fun q => (q.1.queue, q.1.connected, q.1.mm.known 1000,
      telRegistered (told q.2) 1000, telAttached (told q.2) 1000 91, q.1.mm.known 2000, telRegistered (told q.2) 2000)) =
      some ([], true, true, false, true, true, true) := by decide +kernel
  cases hq : (⟨false, [], Mm.Mm.new⟩ : TelSite).run ⟨none, []⟩ (outage false) with
  | none => rw [hq] at hb; cases hb
  | some q =>
    rw [hq] at hb
    simp only [Option.map_some, Option.some.injEq, Prod.mk.injEq] at hb
    exact ⟨q.2, q.1, by simpa using telRun_run .start hq, hb⟩

end Verif.Net
