import Verif.Station.Parts
import Verif.Cmce.CmceBsProps
/-!
# What the signalling stack gives to the radio side: lemmas
-/
namespace Verif.Station
open Verif.Tdma Verif.Codec
open Verif.Phy (Air Cell CellEv CellOut CellRun callsOf callsOf_append)
open Verif.Umac (TmaReq ChanReq MacCtl UmacOut UmacEv Report Block Addr)
open Verif.Cmce (BsOut BsEv Control)

/-! ## What there is to do -/

/-- The messages the LLC gives to the upper MAC, with its clock, which is `t` at the beginning. -/
def handed : Time → List Llc.Item → List (Time × Llc.Emit)
  | _, [] => []
  | t, .ev e :: l => handed (match e with | .tickStart t' => t' | _ => t) l
  | t, .out e :: l => (if goesDown e then [(t, e)] else []) ++ handed t l

/-- The clock of the LLC after a trace. -/
def clockFrom (t : Time) (l : List Llc.Item) : Time :=
  l.foldl (fun t i => match i with | .ev (.tickStart t') => t' | _ => t) t

/-- The requests among the mail for the upper MAC. -/
def waiting (l : List Mail) : List (Time × Llc.Emit) := l.filterMap fun m => match m with
  | .request t e => some (t, e)
  | _ => none

/-- The orders among the mail for the upper MAC. -/
def waitingOrders (l : List Mail) : List MacCtl := l.filterMap fun m => match m with
  | .order m => some m
  | _ => none

/-- The requests the upper MAC was given. -/
def asked (h : List (CellEv × CellOut)) : List TmaReq := h.filterMap fun p => match p.1 with
  | .request q => some q
  | _ => none

theorem waiting_append (a b : List Mail) : waiting (a ++ b) = waiting a ++ waiting b := List.filterMap_append
theorem waitingOrders_append (a b : List Mail) : waitingOrders (a ++ b) = waitingOrders a ++ waitingOrders b := List.filterMap_append
theorem asked_append (a b : List (CellEv × CellOut)) : asked (a ++ b) = asked a ++ asked b := List.filterMap_append

theorem handed_append (t : Time) (a b : List Llc.Item) : handed t (a ++ b) = handed t a ++ handed (clockFrom t a) b := by
  induction a generalizing t with
  | nil => rfl
  | cons i a ih =>
    cases i with
    | ev e => simp only [List.cons_append, handed, ih]; cases e <;> rfl
    | out e => simp only [List.cons_append, handed, ih, List.append_assoc]; rfl

theorem handed_outs (t : Time) (out : List Llc.Emit) : handed t (out.map .out) = (out.filter goesDown).map fun e => (t, e) := by
  induction out with
  | nil => rfl
  | cons e l ih =>
    simp only [List.map_cons, handed, ih, List.filter_cons]
    split <;> simp

theorem clock_outs (t : Time) (out : List Llc.Emit) : clockFrom t (out.map .out) = t := by
  induction out with
  | nil => rfl
  | cons e l ih => exact ih

theorem handed_down {t : Time} {l : List Llc.Item} {p : Time × Llc.Emit} (h : p ∈ handed t l) : goesDown p.2 = true := by
  induction l generalizing t with
  | nil => cases h
  | cons i l ih =>
    cases i with
    | ev e => exact ih h
    | out e =>
      simp only [handed, List.mem_append] at h
      rcases h with h | h
      · split at h
        · rename_i hg
          rw [List.mem_singleton] at h; subst h; exact hg
        · cases h
      · exact ih h

theorem requestOf_some {now : Time} {n : Nat} {e : Llc.Emit} (h : goesDown e = true) : ∃ r, requestOf now n e = some r := by
  cases e <;> simp [requestOf, goesDown] at h ⊢

/-! ## Steps of the signalling stack -/

theorem run_clock {c : Sig.Cfg} {evs : List Sig.Ev} {tr : List Sig.Call} {s : Sig.St} (h : Sig.Run c evs tr s) :
    s.llc.now = clockFrom Time.default (Sig.llcTrace tr) := by
  have := (Llc.rel_run Llc.rel_init _ (Sig.run_llc h)).now
  rw [List.nil_append] at this
  exact this

/-- What the upper MAC gets of a call. -/
theorem mail_call (t : Time) (k : List Sig.Call) (h : ∀ e out, Sig.Call.llc e out ∈ k → clockFrom t [.ev e] = t) :
    waiting (k.flatMap (mailOf t)) = handed t (Sig.llcTrace k) := by
  induction k with
  | nil => rfl
  | cons x k ih =>
    have ih := ih fun e out he => h e out (by simp [he])
    rw [List.flatMap_cons, waiting_append, ih]
    have hl : Sig.llcTrace (x :: k) = Sig.llcTrace [x] ++ Sig.llcTrace k := by rw [← Sig.llcTrace_append]; rfl
    rw [hl, handed_append]
    cases x with
    | llc e out =>
      have ht := h e out (by simp)
      have e1 : Sig.llcTrace [.llc e out] = [.ev e] ++ out.map .out := by simp [Sig.llcTrace]
      rw [e1, handed_append, ht, handed_outs]
      have e2 : handed t [Llc.Item.ev e] = [] := by cases e <;> rfl
      have e3 : clockFrom t ([.ev e] ++ out.map .out) = t := by
        unfold clockFrom; rw [List.foldl_append]
        have := clock_outs (clockFrom t [.ev e]) out
        unfold clockFrom at this ht; rw [this, ht]
      rw [e2, e3, List.nil_append]
      congr 1
      simp only [mailOf, waiting, List.filterMap_map]
      induction out.filter goesDown with
      | nil => rfl
      | cons a l ihl => simp
    | mle m out => rfl
    | time out => rfl
    | mm a b d f g => rfl
    | cmce at_ e out =>
      have : waiting (mailOf t (.cmce at_ e out)) = [] := by
        simp only [mailOf, waiting, List.filterMap_map]
        rw [List.filterMap_eq_nil_iff]; intro m _; rfl
      rw [this]; rfl

theorem signal_mail {c : Sig.Cfg} {ok : In → Prop} {s s' : Sig.St} {e : Sig.Ev} {k : List Sig.Call} (h : s.step c e = .ok (s', k)) (ho : Own c ok e)
    (hc : s'.llc.now = clockFrom s.llc.now (Sig.llcTrace k)) :
    waiting (k.flatMap (mailOf s'.llc.now)) = handed s.llc.now (Sig.llcTrace k) := by
  cases e with
  | frame a b d => cases ho
  | mac a b => cases ho
  | toCmce a b => cases h; rfl
  | tickEnd =>
    obtain ⟨l, es, _, rfl, rfl⟩ := Sig.callLlc_ok h
    have e0 : clockFrom s.llc.now (Sig.llcTrace [.llc .tickEnd es]) = s.llc.now := by
      simp only [Sig.llcTrace, List.flatMap_cons, List.flatMap_nil, List.append_nil]; exact clock_outs _ _
    rw [hc, e0]
    refine mail_call _ _ ?_
    intro e out he; simp at he; rw [he.1]; rfl
  | deliver =>
    simp only [Sig.St.step] at h
    split at h
    · cases h; rfl
    · rename_i l q _
      have key : ∀ {s0 s1 : Sig.St} {ts : Nat} {e : Llc.Ev}, (∀ t, e ≠ .tickStart t) → s0.callLlc ts e = .ok (s1, k) →
          s1.llc.now = clockFrom s.llc.now (Sig.llcTrace k) → waiting (k.flatMap (mailOf s1.llc.now)) = handed s.llc.now (Sig.llcTrace k) := by
        intro s0 s1 ts e hne h hc
        obtain ⟨l, es, _, rfl, rfl⟩ := Sig.callLlc_ok h
        have e1 : clockFrom s.llc.now [Llc.Item.ev e] = s.llc.now := by cases e <;> first | rfl | exact absurd rfl (hne _)
        have e0 : clockFrom s.llc.now (Sig.llcTrace [.llc e es]) = s.llc.now := by
          simp only [Sig.llcTrace, List.flatMap_cons, List.flatMap_nil, List.append_nil]
          have := clock_outs (clockFrom s.llc.now [Llc.Item.ev e]) es
          rw [e1] at this
          unfold clockFrom at this e1 ⊢
          rw [show (Llc.Item.ev e :: es.map .out) = [Llc.Item.ev e] ++ es.map .out from rfl, List.foldl_append, e1]; exact this
        rw [hc, e0]
        refine mail_call _ _ ?_
        intro e' out he; simp at he; rw [he.1]; exact e1
      have none : (∀ x ∈ k, ∀ e out, x ≠ .llc e out) → waiting (k.flatMap (mailOf s'.llc.now)) = handed s.llc.now (Sig.llcTrace k) := by
        intro hk
        have e0 : Sig.llcTrace k = [] := by
          unfold Sig.llcTrace; rw [List.flatMap_eq_nil_iff]; intro x hx
          cases x <;> first | rfl | exact absurd rfl (hk _ hx _ _)
        rw [e0] at hc
        rw [hc, mail_call]
        · rfl
        · intro e out he; exact absurd rfl (hk _ he _ _)
      cases l with
      | frame a ts p => exact key (e := .ind a ts p) (by simp) h hc
      | tlData a ts st sdu => exact key (e := .dataReq a ts st false true sdu) (by simp) h hc
      | tlUnitdata v sdu => exact key (e := .unitdataReq v sdu) (by simp) h hc
      | mle m => obtain ⟨_, _, _, rfl, rfl⟩ := Sig.callMle_ok h; exact none (by simp)
      | mm a b d f => obtain ⟨_, _, _, rfl, rfl⟩ := Sig.callMm_ok h; exact none (by simp)
      | cmce a b => obtain ⟨_, _, _, rfl, rfl⟩ := Sig.callBs_ok h; exact none (by simp)
      | sndcp => cases h
  | tickStart now cmds clock b =>
    simp only [Sig.St.step] at h
    obtain ⟨s1, k1, k2, h1, h2, rfl⟩ := Sig.andThen_ok h
    obtain ⟨l, es, hl, rfl, rfl⟩ := Sig.callLlc_ok h1
    cases hl
    have hk2 : ∀ x ∈ k2, ∀ e out, x ≠ .llc e out := by
      split at h2
      · obtain ⟨s2, k3, k4, h3, h4, rfl⟩ := Sig.andThen_ok h2
        obtain ⟨_, _, _, rfl, rfl⟩ := Sig.tickMle_ok h3
        obtain ⟨_, _, _, rfl, rfl⟩ := Sig.callBs_ok h4
        simp
      · obtain ⟨s2, k3, k4, h3, h4, rfl⟩ := Sig.andThen_ok h2
        obtain ⟨_, _, _, rfl, rfl⟩ := Sig.callBs_ok h3
        obtain ⟨_, _, _, rfl, rfl⟩ := Sig.tickMle_ok h4
        simp
    have e2 : Sig.llcTrace k2 = [] := by
      unfold Sig.llcTrace; rw [List.flatMap_eq_nil_iff]; intro x hx
      cases x <;> first | rfl | exact absurd rfl (hk2 _ hx _ _)
    rw [List.flatMap_append, waiting_append, mail_call _ k2 (fun e out he => absurd rfl (hk2 _ he _ _)), Sig.llcTrace_append, e2]
    rfl

/-! ## The orders of call control -/

theorem hear_air {party t chan st sdu} {m : Cmce.CcOut} (h : Cmce.hear (.air party t chan st sdu) = some m) : Umac.toMac m = none := by
  simp only [Cmce.hear] at h
  split at h <;> simp only [Option.bind_eq_some_iff, Option.some.injEq, reduceCtorEq] at h
  · obtain ⟨_, _, rfl⟩ := h; rfl
  · obtain ⟨_, _, _, _, rfl⟩ := h; rfl
  · obtain ⟨_, _, _, _, rfl⟩ := h; rfl
  · obtain ⟨_, _, _, _, _, _, _, _, _, _, rfl⟩ := h; rfl
  · obtain ⟨_, _, _, _, h⟩ := h; split at h <;> cases h; rfl
  · obtain ⟨_, _, _, _, _, _, _, _, _, _, h⟩ := h; split at h <;> cases h; rfl

theorem hear_mac (o : BsOut) : (Cmce.hear o).bind Umac.toMac = (match o with | .signal m => Umac.toMac m | _ => none) := by
  cases o with
  | air party t chan st sdu =>
    cases h : Cmce.hear (.air party t chan st sdu) with
    | none => rfl
    | some m => exact hear_air h
  | _ => rfl

/-- The orders of a call are those among what can be heard. -/
theorem orders_call (t : Time) (k : List Sig.Call) : waitingOrders (k.flatMap (mailOf t)) = Umac.macOrders (Cmce.heardIn (Sig.bsCalls k)) := by
  induction k with
  | nil => rfl
  | cons x k ih =>
    have hb : Sig.bsCalls (x :: k) = Sig.bsCalls [x] ++ Sig.bsCalls k := by rw [← Sig.bsCalls_append]; rfl
    have ha : ∀ a b, Cmce.heardIn (a ++ b) = Cmce.heardIn a ++ Cmce.heardIn b := by intro a b; simp [Cmce.heardIn]
    rw [List.flatMap_cons, waitingOrders_append, ih, hb, ha, Umac.macOrders_append]
    congr 1
    cases x with
    | llc e out =>
      simp only [mailOf, waitingOrders, List.filterMap_map, Sig.bsCalls]
      rw [List.filterMap_eq_nil_iff.2 (by intro m _; rfl)]; rfl
    | cmce at_ e out =>
      have e1 : Sig.bsCalls [.cmce at_ e out] = [(e, out)] := rfl
      have e2 : Cmce.heardIn [(e, out)] = out.filterMap Cmce.hear := by simp [Cmce.heardIn]
      rw [e1, e2]
      unfold Umac.macOrders
      rw [List.filterMap_filterMap]
      simp only [hear_mac, mailOf, waitingOrders, List.filterMap_map]
      generalize out.filterMap (fun o => match o with | .signal m => Umac.toMac m | _ => none) = l
      induction l with
      | nil => rfl
      | cons o l ihl => simp
    | _ => rfl

/-! ## The radio side -/

/-- The order a step of the radio side is. -/
def orderIn : CellEv → List MacCtl
  | .control m => [m]
  | _ => []

/-- The request a step of the radio side is. -/
def requestIn : CellEv → List TmaReq
  | .request q => [q]
  | _ => []

/-- The orders among the calls of the upper MAC in a step of the radio side. -/
theorem step_orders {c c' : Cell} {e : CellEv} {o : CellOut} (h : c.step e = .ok (c', o)) :
    Umac.orders o.calls = orderIn e := by
  have horder : ∀ {u : UmacEv}, c.order u = .ok (c', o) → ∃ out, o.calls = [(u, out)] := by
    intro u h
    unfold Cell.order at h
    rw [Out.bind_eq_ok] at h; obtain ⟨r, _, h⟩ := h
    cases h; exact ⟨r.2, rfl⟩
  cases e with
  | down w =>
    simp only [Cell.step] at h
    rw [Out.bind_eq_ok] at h; obtain ⟨r, h1, h⟩ := h
    cases h
    unfold Cell.down at h1
    rw [Out.bind_eq_ok] at h1; obtain ⟨q, _, h1⟩ := h1
    rw [Out.bind_eq_ok] at h1; obtain ⟨q', _, h1⟩ := h1
    cases h1; rfl
  | up a =>
    simp only [Cell.step] at h
    rw [Out.bind_eq_ok] at h; obtain ⟨r, h1, h⟩ := h
    cases h
    obtain ⟨x, bs, c1, cs1, vs, cs2, _, _, h3, h4, e⟩ := Phy.up_inv (c' := r.1) (cs := r.2) h1
    rw [e]
    show Umac.orders _ = []
    unfold Umac.orders
    rw [List.filterMap_eq_nil_iff]
    intro p hp
    rcases List.mem_append.1 hp with hp | hp
    · obtain ⟨k, d, e, _⟩ := (Phy.hearAll_chain h3).2.1 p hp
      rw [e]; rfl
    · have : p.1 ∈ cs2.map Prod.fst := List.mem_map_of_mem hp
      rw [(Phy.voices_chain h4).2.1] at this
      obtain ⟨v, _, e⟩ := List.mem_map.1 this
      rw [← e]; rfl
  | request q => obtain ⟨out, e⟩ := horder h; rw [e]; rfl
  | voice ts b => obtain ⟨out, e⟩ := horder h; rw [e]; rfl
  | control m => obtain ⟨out, e⟩ := horder h; rw [e]; rfl

/-- What the radio side tells the signalling stack makes nobody send anything. -/
theorem feed_quiet {c : Sig.Cfg} : ∀ {es : List Sig.Ev} {s s' : Sig.St} {k : List Sig.Call}, feed c s es = .ok (s', k) →
    (∀ e ∈ es, (∃ a t b, e = .frame a t b) ∨ (∃ t x, e = .toCmce t x) ∨ ∃ i d, e = .mac i d) → ∀ x ∈ k, ∃ i d, x = .llc (.mac i d) []
  | [], s, s', k, h, _ => by cases h; simp
  | e :: es, s, s', k, h, hq => by
    obtain ⟨s1, k1, k2, h1, h2, rfl⟩ := feed_cons h
    have ih := feed_quiet h2 fun e he => hq e (by simp [he])
    intro x hx
    rcases List.mem_append.1 hx with hx | hx
    · rcases hq e (by simp) with ⟨a, t, b, rfl⟩ | ⟨t, y, rfl⟩ | ⟨i, d, rfl⟩
      · cases h1; cases hx
      · cases h1; cases hx
      · obtain ⟨l, es, hl, rfl, rfl⟩ := Sig.callLlc_ok h1
        cases hl
        simp at hx
        exact ⟨i, d, hx⟩
    · exact ih x hx

theorem events_quiet {owner : Assoc Nat Nat} {old new : Cell} {o : CellOut} :
    ∀ e ∈ eventsOf owner old new o, (∃ a t b, e = .frame a t b) ∨ (∃ t x, e = .toCmce t x) ∨ ∃ i d, e = .mac i d := by
  intro e he
  unfold eventsOf at he
  rcases List.mem_append.1 he with he | he
  · obtain ⟨r, _, hr⟩ := List.mem_filterMap.1 he
    cases r <;> simp only [reportOf, Option.map_eq_some_iff] at hr <;> obtain ⟨_, _, rfl⟩ := hr <;> exact .inr (.inr ⟨_, _, rfl⟩)
  · obtain ⟨r, _, hr⟩ := List.mem_filterMap.1 he
    cases r <;> simp only [eventOf, Option.some.injEq, reduceCtorEq] at hr
    · subst hr; exact .inl ⟨_, _, _, rfl⟩
    · subst hr; exact .inr (.inl ⟨_, _, rfl⟩)

theorem quiet_trace {k : List Sig.Call} (h : ∀ x ∈ k, ∃ i d, x = .llc (.mac i d) []) (t : Time) :
    handed t (Sig.llcTrace k) = [] ∧ clockFrom t (Sig.llcTrace k) = t ∧ Sig.bsCalls k = [] := by
  induction k with
  | nil => exact ⟨rfl, rfl, rfl⟩
  | cons x k ih =>
    obtain ⟨i, d, rfl⟩ := h x (by simp)
    obtain ⟨i1, i2, i3⟩ := ih fun y hy => h y (by simp [hy])
    exact ⟨i1, i2, i3⟩

/-- A step of the radio side, in terms of what passes between the parts. -/
theorem radio_mail {c : Sig.Cfg} {s s' : Station} {e : CellEv} {t : Trace} (h : s.radio c e = .ok (s', t)) (x : Time) :
    handed x (Sig.llcTrace t.calls) = [] ∧ clockFrom x (Sig.llcTrace t.calls) = x ∧ Sig.bsCalls t.calls = [] ∧
    Umac.orders (callsOf t.radio) = orderIn e ∧
    asked t.radio = requestIn e ∧ s'.mac = s.mac ∧ s'.next = s.next ∧ s'.owner = s.owner := by
  obtain ⟨cell, o, sig, k, h1, h2, rfl, rfl⟩ := radio_ok h
  obtain ⟨a1, a2, a3⟩ := quiet_trace (feed_quiet h2 events_quiet) x
  refine ⟨a1, a2, a3, ?_, ?_, rfl, rfl, rfl⟩
  · have := step_orders h1
    simpa [callsOf] using this
  · cases e <;> rfl

/-! ## Histories -/

/-- The requests made so far, `sent`, and those waiting; the orders made and those waiting. -/
structure Gone (h : Trace) (s : Station) (sent : List (Time × Llc.Emit)) : Prop where
  handed : handed Time.default (Sig.llcTrace h.calls) = sent ++ waiting s.mac
  next : s.next = sent.length
  asked : asked h.radio = sent.zipIdx.filterMap fun p => requestOf p.1.1 p.2 p.1.2
  owner : ∀ n id, s.owner.get n = some id ↔ ∃ now a ts p, sent[n]? = some (now, .data id a ts p)
  orders : Umac.orders (callsOf h.radio) ++ waitingOrders s.mac = Umac.macOrders (Cmce.heardIn (Sig.bsCalls h.calls))

theorem Gone.radio {c : Sig.Cfg} {h t : Trace} {s s' : Station} {sent : List (Time × Llc.Emit)} {e : CellEv} (hg : Gone h s sent)
    (he : (∀ q, e ≠ .request q) ∧ ∀ m, e ≠ .control m) (hs : s.radio c e = .ok (s', t)) : Gone (h.add t) s' sent := by
  obtain ⟨a1, a2, a3, a4, a5, a6, a7, a8⟩ := radio_mail hs (clockFrom Time.default (Sig.llcTrace h.calls))
  have a4 : Umac.orders (callsOf t.radio) = [] := by rw [a4]; cases e <;> first | rfl | exact absurd rfl (he.2 _)
  have a5 : Verif.Station.asked t.radio = [] := by rw [a5]; cases e <;> first | rfl | exact absurd rfl (he.1 _)
  refine ⟨?_, by rw [a7]; exact hg.next, ?_, by rw [a8]; exact hg.owner, ?_⟩
  · rw [Trace.add_calls, Sig.llcTrace_append, handed_append, a1, List.append_nil, a6]; exact hg.handed
  · rw [Trace.add_radio, asked_append, a5, List.append_nil]; exact hg.asked
  · have e1 : ∀ a b, Umac.orders (a ++ b) = Umac.orders a ++ Umac.orders b := fun a b => List.filterMap_append
    rw [Trace.add_radio, callsOf_append, e1, a4, List.append_nil, a6, Trace.add_calls, Sig.bsCalls_append, a3, List.append_nil]
    exact hg.orders

theorem heardIn_append (a b : List (BsEv × List BsOut)) : Cmce.heardIn (a ++ b) = Cmce.heardIn a ++ Cmce.heardIn b := by simp [Cmce.heardIn]
theorem orders_append (a b : Verif.Phy.Calls) : Umac.orders (a ++ b) = Umac.orders a ++ Umac.orders b := List.filterMap_append

theorem run_gone {c : Sig.Cfg} {c0 : Cell} {ins : List In} {h : Trace} {s : Station} (hr : Run c c0 ins h s) : ∃ sent, Gone h s sent := by
  have key : Both c c0 h s ∧ ∃ sent, Gone h s sent := by
    refine run_parts (P := fun h s => Both c c0 h s ∧ ∃ sent, Gone h s sent) (fun _ => True) ?_ ?_ ?_ ?_ ?_ ?_ ?_ ?_ ?_ hr (fun _ _ => trivial)
    · refine ⟨⟨.init, .init⟩, [], rfl, rfl, rfl, ?_, rfl⟩
      intro n id
      simp [Station.init]
    · rintro h s cc' ⟨hb, sent, hg⟩ hre
      exact ⟨⟨.reorder hb.sig hre, hb.cell⟩, sent, hg.handed, hg.next, hg.asked, hg.owner, hg.orders⟩
    · rintro h s s' e t ⟨hb, sent, hg⟩ he hs
      refine ⟨hb.radio hs, sent, hg.radio ?_ hs⟩
      rcases he with ⟨_, rfl⟩ | ⟨_, rfl⟩ <;> simp
    · rintro h s s' e t ⟨hb, sent, hg⟩ hs ho
      have hb' : Both c c0 (h.add t) s' := by
        obtain ⟨sig, k, h1, rfl, rfl⟩ := signal_ok hs
        exact ⟨hb.sig.step h1, by simpa using hb.cell⟩
      refine ⟨hb', sent, ?_⟩
      have hn := run_clock hb.sig
      have hn' := run_clock hb'.sig
      obtain ⟨sig, k, h1, rfl, rfl⟩ := signal_ok hs
      rw [Trace.add_calls, Sig.llcTrace_append] at hn'
      have hc : sig.llc.now = clockFrom s.sig.llc.now (Sig.llcTrace k) := by
        have : clockFrom Time.default (Sig.llcTrace h.calls ++ Sig.llcTrace k) = clockFrom s.sig.llc.now (Sig.llcTrace k) := by
          rw [hn]; unfold clockFrom; rw [List.foldl_append]
        rw [← this]; exact hn'
      have hm := signal_mail h1 ho hc
      refine ⟨?_, hg.next, ?_, hg.owner, ?_⟩
      · simp only [Trace.add_calls]
        rw [Sig.llcTrace_append, handed_append, hg.handed, ← hn, ← hm, waiting_append, List.append_assoc]
      · simpa using hg.asked
      · simp only [Trace.add_radio, List.append_nil, Trace.add_calls]
        rw [waitingOrders_append, ← List.append_assoc, hg.orders, orders_call, Sig.bsCalls_append, heardIn_append, Umac.macOrders_append]
    · rintro h s ts b ⟨hb, sent, hg⟩
      refine ⟨⟨hb.sig, hb.cell⟩, sent, ?_, hg.next, hg.asked, hg.owner, ?_⟩
      · rw [hg.handed, waiting_append]; simp [waiting]
      · rw [← hg.orders, waitingOrders_append]; simp [waitingOrders]
    · rintro h s now e q r s' t ⟨hb, sent, hg⟩ hq hreq hs
      refine ⟨Both.radio (s := { s with mac := q, next := s.next + 1, owner := s.owned e }) ⟨hb.sig, hb.cell⟩ hs, sent ++ [(now, e)], ?_⟩
      obtain ⟨a1, a2, a3, a4, a5, a6, a7, a8⟩ := radio_mail hs (clockFrom Time.default (Sig.llcTrace h.calls))
      simp only [orderIn, requestIn] at a4 a5 a6 a7 a8
      have hw : waiting s.mac = (now, e) :: waiting q := by rw [hq]; rfl
      refine ⟨?_, ?_, ?_, ?_, ?_⟩
      · rw [Trace.add_calls, Sig.llcTrace_append, handed_append, a1, List.append_nil, a6, hg.handed, hw, List.append_assoc]; rfl
      · rw [a7, hg.next]; simp
      · rw [Trace.add_radio, asked_append, a5, hg.asked, List.zipIdx_append, List.filterMap_append]
        congr 1
        simp only [List.zipIdx_cons, List.zipIdx_nil, Nat.zero_add, List.filterMap_cons, List.filterMap_nil]
        rw [hg.next] at hreq
        rw [hreq]
      · intro n id
        rw [a8]
        rcases Nat.lt_trichotomy n sent.length with hn | hn | hn
        · rw [List.getElem?_append_left hn, ← hg.owner]
          cases e <;> simp only [Station.owned]
          rw [Assoc.get_insert_ne]; rw [hg.next]; omega
        · subst hn
          rw [List.getElem?_append_right (Nat.le_refl _), Nat.sub_self]
          have hnone : s.owner.get sent.length = none := by
            cases ho : s.owner.get sent.length with
            | none => rfl
            | some id =>
              obtain ⟨_, _, _, _, hx⟩ := (hg.owner _ _).1 ho
              simp at hx
          cases e <;> simp [Station.owned, hnone]
          rw [hg.next, Assoc.get_insert_self]; simp
        · have hnone : (sent ++ [(now, e)])[n]? = none := by simp; omega
          rw [hnone]
          have : s.owner.get n = none := by
            cases ho : s.owner.get n with
            | none => rfl
            | some id =>
              obtain ⟨_, _, _, _, hx⟩ := (hg.owner _ _).1 ho
              have := (List.getElem?_eq_some_iff.1 hx).1
              omega
          cases e <;> simp [Station.owned, this]
          rw [Assoc.get_insert_ne, this]
          · simp
          · rw [hg.next]; omega
      · rw [Trace.add_radio, callsOf_append, orders_append, a4, List.append_nil, a6, Trace.add_calls, Sig.bsCalls_append, a3, List.append_nil,
          ← hg.orders, hq]
        rfl
    · rintro h s now e q ⟨hb, sent, hg⟩ hq hreq
      exfalso
      have : goesDown e = true := handed_down (t := Time.default) (l := Sig.llcTrace h.calls) (p := (now, e)) (by
        rw [hg.handed, hq]; simp [waiting])
      obtain ⟨r, hr⟩ := requestOf_some (now := now) (n := s.next) this
      rw [hr] at hreq; cases hreq
    · rintro h s m q s' t ⟨hb, sent, hg⟩ hq hs
      refine ⟨Both.radio (s := { s with mac := q }) ⟨hb.sig, hb.cell⟩ hs, sent, ?_⟩
      obtain ⟨a1, a2, a3, a4, a5, a6, a7, a8⟩ := radio_mail hs (clockFrom Time.default (Sig.llcTrace h.calls))
      simp only [orderIn, requestIn] at a4 a5 a6 a7 a8
      refine ⟨?_, by rw [a7]; exact hg.next, ?_, by rw [a8]; exact hg.owner, ?_⟩
      · rw [Trace.add_calls, Sig.llcTrace_append, handed_append, a1, List.append_nil, a6, hg.handed, hq]; rfl
      · rw [Trace.add_radio, asked_append, a5, List.append_nil]; exact hg.asked
      · rw [Trace.add_radio, callsOf_append, orders_append, a4, a6, Trace.add_calls, Sig.bsCalls_append, a3, List.append_nil,
          ← hg.orders, hq, List.append_assoc]
        rfl
    · rintro h s ts b q s' t ⟨hb, sent, hg⟩ hq hs
      refine ⟨Both.radio (s := { s with mac := q }) ⟨hb.sig, hb.cell⟩ hs, sent, ?_⟩
      refine Gone.radio (s := { s with mac := q }) (e := .voice ts b) ?_ (by simp) hs
      exact ⟨by rw [hg.handed, hq]; rfl, hg.next, hg.asked, hg.owner, by rw [← hg.orders, hq]; rfl⟩
  exact key.2

end Verif.Station
