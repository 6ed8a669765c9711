import Verif.Umac.SchedTrack
import Verif.Umac.UlHistoryProps
/-!
# Following one message through a history of the channel scheduler
-/
namespace Verif.Umac
open Verif.Bits Verif.Codec Verif.Tdma Verif.Mle

/-! ## Taking `finalize` apart -/

theorem build_inv {s : Sched} {ts : Time} {i : Fin 4} (hi : Slots.idx ts.t = .ok i) {p : Part} (h : s.build ts i = .ok p) :
    ((s.circuits.dl i).isSome = true ∧ ts.f ≠ 18 ∧ s.hangEffective ts.t i = false ∧ s.trafficPart ts.t i = .ok p) ∨
    (¬ ((s.circuits.dl i).isSome = true ∧ ts.f ≠ 18 ∧ s.hangEffective ts.t i = false) ∧
      s.signallingPart ts.f i (s.hangEffective ts.t i && ((s.circuits.dl i).isSome && ts.f != 18)) = .ok p) := by
  simp only [Sched.build, CircuitMgr.isActive, hi, Res.bind_ok, Out.ofRes_ok, Out.bind_ok] at h
  cases hd : (s.circuits.dl i).isSome <;> cases hh : s.hangEffective ts.t i <;>
    by_cases hf : ts.f = 18 <;> simp_all

structure Finalized (s : Sched) (s' : Sched) (x : TickOut) : Type where
  ts : Time
  i : Fin 4
  p : Part
  hts : s.cur.addTimeslots 1 = .ok ts
  hi : Slots.idx ts.t = .ok i
  hphy : ({ s with pre := s.pre.stamp ts } : Sched).ulPhy ts i = .ok x.slot.ulPhy
  hp : ({ s with pre := s.pre.stamp ts } : Sched).build ts i = .ok p
  h18 : p.blk1.isSome → ts.f ≠ 18
  hbbk : p.s.bbkBlk ts i = .ok x.slot.bbk
  b1 : TmvReq
  b2 : Option TmvReq
  hb1 : p.s.firstBlk ts p.blk1 = .ok b1
  hb2 : secondBlk p.s.pre p.s.scramb ts.t b1 p.blk2 = .ok b2
  hc1 : b1.close = .ok x.slot.blk1
  hc2 : closeOpt b2 = .ok x.slot.blk2
  u : UlTable
  hu : clearUl p.s.ul ts = .ok u
  hs' : s' = { p.s with ul := u }
  hxt : x.slot.ts = ts
  hxr : x.reports = p.reports
  hxl : x.log = p.log

theorem finalize_inv {s s' : Sched} {x : TickOut} (h : s.finalize = .ok (s', x)) : Nonempty (Finalized s s' x) := by
  unfold Sched.finalize at h
  rw [Out.bind_eq_ok] at h; obtain ⟨ts, hts, h⟩ := h
  rw [Out.bind_eq_ok] at h; obtain ⟨i, hi, h⟩ := h
  simp only at h
  rw [Out.bind_eq_ok] at h; obtain ⟨phy, hphy, h⟩ := h
  rw [Out.bind_eq_ok] at h; obtain ⟨p, hp, h⟩ := h
  rw [Out.bind_eq_ok] at h; obtain ⟨c, hc, h⟩ := h
  rw [Out.bind_eq_ok] at h; obtain ⟨bbk, hbbk, h⟩ := h
  rw [Out.bind_eq_ok] at h; obtain ⟨b1, hb1, h⟩ := h
  rw [Out.bind_eq_ok] at h; obtain ⟨b2, hb2, h⟩ := h
  rw [Out.bind_eq_ok] at h; obtain ⟨c1, hc1, h⟩ := h
  rw [Out.bind_eq_ok] at h; obtain ⟨c2, hc2, h⟩ := h
  rw [Out.bind_eq_ok] at h; obtain ⟨u, hu, h⟩ := h
  simp only [Out.ok.injEq, Prod.mk.injEq] at h
  obtain ⟨rfl, rfl⟩ := h
  refine ⟨⟨ts, i, p, Out.ofRes_eq_ok.1 hts, Out.ofRes_eq_ok.1 hi, hphy, hp, ?_, hbbk, b1, b2, hb1, hb2, hc1, hc2, u,
    Out.ofRes_eq_ok.1 hu, rfl, rfl, rfl, rfl⟩⟩
  intro h1 h2
  simp [checkFrame18, h1, h2] at hc

/-! ## The invariant -/

/-- Everything waiting is in good order, and nothing waits for the next slot. -/
structure SInv (s : Sched) : Prop where
  next : s.next = []
  good : ∀ i, ∀ e ∈ s.queues i, e.Good

/-- What can happen to a waiting element in one call: `q` is what is left of it in the queue, `bits` what was
put into a block, `rep` what its sender was told. -/
inductive Move (mayDrop : Bool) : DlElem → List DlElem → List (List Bool) → List Report → Prop
  | wait {e e' : DlElem} (h : JoinedElem e e') : Move mayDrop e [e'] [] []
  | serve {e e' : DlElem} {f f' : Fragger} {o : Owner} {blk : Blk} {new : List Bool} (h : JoinedElem e e')
      (he : e'.fragger = some (f, o)) (hb : blk.Ok)
      (h1 : f.nextChunk blk = .ok (f', ⟨blk.bits ++ new, blk.cap⟩, f'.done)) (h2 : Step f blk f' new) :
      Move mayDrop e (if f'.done then [] else [.frag f' o]) [new] (if f'.done then o.sent else [])
  | steal (b : List Bool) (o : Owner) : Move mayDrop (.stealing b o) [] [b] o.sent
  | drop {e : DlElem} (hd : mayDrop = true) (hs : e.isStealing = false) : Move mayDrop e [] [] e.dropReports

/-- What the call did to message `id`, if it waits in a queue at most once. -/
structure QTrack (mayDrop : Bool) (id : Nat) (q q' : List DlElem) (bits : List (List Bool)) (rep : List Report) : Prop where
  absent : here id q = [] → here id q' = [] ∧ bits = [] ∧ rep = []
  one : ∀ e, here id q = [e] → Move mayDrop e (here id q') bits rep

theorem takeFirst_here_none {id : Nat} {q : List DlElem} {p : DlElem → Bool} {e : DlElem} {q' : List DlElem}
    (h : takeFirst p q = some (e, q')) (hm : e.owner.isMsg id = false) : here id q' = here id q :=
  ((takeFirst_some h).2.2.2.1 _ hm).symm

theorem takeFirst_here_self {id : Nat} {q : List DlElem} {p : DlElem → Bool} {e a : DlElem} {q' : List DlElem}
    (h : takeFirst p q = some (e, q')) (hm : e.owner.isMsg id = true) (h1 : here id q = [a]) : a = e ∧ here id q' = [] := by
  obtain ⟨_, g2, _, g4, _, _, g7⟩ := takeFirst_some h
  have he : e ∈ here id q := List.mem_filter.2 ⟨g7, hm⟩
  rw [h1] at he
  simp at he
  refine ⟨he.symm, ?_⟩
  -- the number of elements of `id` goes down by one
  have hlen : ∀ {q q' : List DlElem}, takeFirst p q = some (e, q') → (here id q).length = (here id q').length + 1 := by
    intro q
    induction q with
    | nil => intro q' h; simp [takeFirst] at h
    | cons x q ih =>
      intro q' h
      unfold takeFirst at h
      by_cases hp : p x = true
      · simp only [hp, if_true, Option.some.injEq, Prod.mk.injEq] at h
        obtain ⟨rfl, rfl⟩ := h
        simp [here, hm]
      · simp only [hp, if_false, Option.map_eq_some_iff, Prod.exists, Prod.mk.injEq, Bool.false_eq_true] at h
        obtain ⟨e', q'', h1, rfl, rfl⟩ := h
        have := ih h1
        simp only [here, List.filter_cons] at this ⊢
        split <;> simp_all
  have := hlen h
  rw [h1] at this
  simp at this
  exact this

/-- A traffic slot. -/
theorem trafficPart_track {s : Sched} (hs : SInv s) {t : Nat} {i : Fin 4} (hi : Slots.idx t = .ok i) {p : Part}
    (h : s.trafficPart t i = .ok p) :
    SInv p.s ∧ (∀ j, j ≠ i → p.s.queues j = s.queues j) ∧
    ∀ id, QTrack false id (s.queues i) (p.s.queues i) (bitsOf id p.log) (about id p.reports) := by
  unfold Sched.trafficPart at h
  rw [Out.bind_eq_ok] at h; obtain ⟨c, hc, h⟩ := h
  rw [Out.bind_eq_ok] at h; obtain ⟨tch, htch, h⟩ := h
  have none_case : ∀ p' : Part, Out.ok (⟨{ s with circuits := c.1 }, some ⟨.tchS, tch, s.scramb⟩, none, [], []⟩ : Part) = .ok p' →
      SInv p'.s ∧ (∀ j, j ≠ i → p'.s.queues j = s.queues j) ∧
      ∀ id, QTrack false id (s.queues i) (p'.s.queues i) (bitsOf id p'.log) (about id p'.reports) := by
    intro p' h
    simp only [Out.ok.injEq] at h
    subst h
    exact ⟨⟨hs.next, hs.good⟩, fun j _ => rfl, fun id => ⟨fun h => ⟨h, rfl, rfl⟩, fun e h => h ▸ .wait (.refl _)⟩⟩
  cases hq : takeFirst (·.isStealing) (s.queues i) with
  | none => rw [hq] at h; exact none_case p h
  | some r =>
    obtain ⟨e, q'⟩ := r
    rw [hq] at h
    have hst := (takeFirst_some hq).1
    cases e with
    | ack _ => simp [DlElem.isStealing] at hst
    | grant _ _ => simp [DlElem.isStealing] at hst
    | resource _ _ _ => simp [DlElem.isStealing] at hst
    | frag _ _ => simp [DlElem.isStealing] at hst
    | stealing b o =>
      simp only [Out.ok.injEq] at h
      subst h
      refine ⟨⟨hs.next, ?_⟩, fun j hj => Slots.upd_ne _ _ hj, fun id => ?_⟩
      · intro j e he
        by_cases hj : j = i
        · subst hj
          simp only [Slots.upd_self] at he
          exact hs.good j e ((takeFirst_some hq).2.2.2.2.2.1 e he)
        · simp only [Slots.upd_ne _ _ hj] at he; exact hs.good j e he
      · simp only [Slots.upd_self]
        cases hm : o.isMsg id with
        | false =>
          have hh := takeFirst_here_none hq hm
          refine ⟨fun h => ⟨hh.trans h, by simp [bitsOf, hm], by simp [about_sent, hm]⟩, fun e h => ?_⟩
          rw [hh, h]
          simp only [bitsOf, List.filter_cons, hm, about_sent, Bool.false_eq_true, if_false, List.filter_nil, List.map_nil]
          exact .wait (.refl _)
        | true =>
          refine ⟨fun h => ?_, fun e h => ?_⟩
          · have : DlElem.stealing b o ∈ here id (s.queues i) := List.mem_filter.2 ⟨(takeFirst_some hq).2.2.2.2.2.2, hm⟩
            rw [h] at this; simp at this
          · obtain ⟨rfl, h2⟩ := takeFirst_here_self hq hm h
            rw [h2]
            simp only [bitsOf, List.filter_cons, hm, about_sent, if_true, List.filter_nil, List.map_cons, List.map_nil]
            exact .steal b o

theorem here_parts {id : Nat} {q : List DlElem} (hm : Merged q) {e : DlElem} (h : here id q = [e]) :
    (e.isStealing = true ∧ here id (stolenOf q) = [e] ∧ here id (workOf q) = []) ∨
    (e.isStealing = false ∧ here id (stolenOf q) = [] ∧ here id (workOf q) = [e]) := by
  have hq : e ∈ q := (List.mem_filter.1 (show e ∈ here id q by rw [h]; simp)).1
  have hg := (List.filter_eq_nil_iff.1 hm) e hq
  simp only [stolenOf, workOf, here_append, here_filter, h]
  cases e <;> simp_all [DlElem.isStealing, DlElem.isFrag, DlElem.isResource, DlElem.isGrantOrAck]

theorem here_parts_nil {id : Nat} {q : List DlElem} (h : here id q = []) :
    here id (stolenOf q) = [] ∧ here id (workOf q) = [] := by
  simp only [stolenOf, workOf, here_append, here_filter, h]
  simp

/-- The block built from a queue in a signalling slot, seen from one message. -/
theorem buildBlock_track {f : Nat} {q : List DlElem} (hm : Merged q) (hg : ∀ e ∈ q, e.Good) {r : List DlElem × Build}
    (h : buildBlock f q [] = .ok r) :
    r.2.next = [] ∧ (∀ e ∈ r.1, e.Good) ∧ ∀ id, QTrack false id q r.1 (bitsOf id r.2.log) (about id r.2.reports) := by
  by_cases hf : f = 18
  · subst hf
    rw [buildBlock_18] at h
    cases h
    exact ⟨rfl, hg, fun id => ⟨fun h => ⟨h, rfl, rfl⟩, fun e h => h ▸ .wait (.refl _)⟩⟩
  · obtain ⟨rs, blk', hs, _, _, _, h1, h2⟩ := buildBlock_spec hf hm hg
    have hor : stolenOf q = [] ∨ leftOver (workOf q) rs = [] := by
      by_cases ha : stolenOf q = []
      · exact .inl ha
      · by_cases hb : leftOver (workOf q) rs = []
        · exact .inr hb
        · rw [h2 ha hb] at h; cases h
    rw [h1 hor] at h
    cases h
    refine ⟨rfl, ?_, fun id => ⟨fun h => ?_, fun e h => ?_⟩⟩
    · intro e he
      simp only [List.mem_append] at he
      rcases he with he | he
      · exact hg e (List.mem_filter.1 he).1
      · exact (leftOver_good hs (fun e he => hg e (workOf_mem he).1) e he).1
    · obtain ⟨p1, p2⟩ := here_parts_nil h
      obtain ⟨s1, s2, s3⟩ := round_absent id hs p2
      simp [p1, s1, s2, s3]
    · simp only [here_append]
      rcases here_parts hm h with ⟨p0, p1, p2⟩ | ⟨p0, p1, p2⟩
      · obtain ⟨s1, s2, s3⟩ := round_absent id hs p2
        rw [p1, s1, s2, s3]
        exact .wait (.refl _)
      · obtain ⟨f1, o, blk, f', new, j1, j2, j3, j4, s1, s2, s3⟩ := round_one id hs p2
        rw [p1, s1, s2, s3, List.nil_append]
        exact .serve (.refl _) j1 j2 j3 j4

/-- A signalling slot. -/
theorem signallingPart_track {s : Sched} (hs : SInv s) {f : Nat} {i : Fin 4} {idle : Bool} {p : Part}
    (h : s.signallingPart f i idle = .ok p) :
    SInv p.s ∧ (∀ j, j ≠ i → p.s.queues j = s.queues j) ∧
    ∀ id, QTrack false id (s.queues i) (p.s.queues i) (bitsOf id p.log) (about id p.reports) := by
  unfold Sched.signallingPart at h
  rw [Out.bind_eq_ok] at h; obtain ⟨q, hq, h⟩ := h
  rw [Out.bind_eq_ok] at h; obtain ⟨r, hr, h⟩ := h
  rw [Out.bind_eq_ok] at h; obtain ⟨b, hb, h⟩ := h
  simp only [Out.ok.injEq] at h
  subst h
  obtain ⟨q', e1, e2, e3, _, _, e4, e5⟩ := integrate_queue (hs.good i)
  rw [hq] at e1; cases e1
  rw [hs.next] at hr
  obtain ⟨g1, g2, g3⟩ := buildBlock_track e3 e2 hr
  refine ⟨⟨g1, ?_⟩, fun j hj => Slots.upd_ne _ _ hj, fun id => ⟨fun h => ?_, fun e h => ?_⟩⟩
  · intro j e he
    by_cases hj : j = i
    · subst hj; simp only [Slots.upd_self] at he; exact g2 e he
    · simp only [Slots.upd_ne _ _ hj] at he; exact hs.good j e he
  · simp only [Slots.upd_self]
    exact (g3 id).absent (e4 id h)
  · simp only [Slots.upd_self]
    obtain ⟨e', h1, hj⟩ := e5 id e h
    have hmv := (g3 id).one e' h1
    generalize here id r.1 = Q at hmv ⊢
    generalize bitsOf id r.2.log = B at hmv ⊢
    generalize about id r.2.reports = R at hmv ⊢
    cases hmv with
    | wait hj' => exact .wait (hj.trans hj')
    | serve hj' he hb h1 h2 => exact .serve (hj.trans hj') he hb h1 h2
    | steal b o => cases hj; exact .steal b o
    | drop hd => cases hd

/-- One tick. -/
theorem finalize_track {s s' : Sched} {x : TickOut} (hs : SInv s) (h : s.finalize = .ok (s', x)) :
    SInv s' ∧ ∃ i : Fin 4, x.slot.ts.t = i.val + 1 ∧ (∀ j, j ≠ i → s'.queues j = s.queues j) ∧
    ∀ id, QTrack false id (s.queues i) (s'.queues i) (bitsOf id x.log) (about id x.reports) := by
  obtain ⟨F⟩ := finalize_inv h
  have hs1 : SInv ({ s with pre := s.pre.stamp F.ts } : Sched) := ⟨hs.next, hs.good⟩
  have key : SInv F.p.s ∧ (∀ j, j ≠ F.i → F.p.s.queues j = s.queues j) ∧
      ∀ id, QTrack false id (s.queues F.i) (F.p.s.queues F.i) (bitsOf id F.p.log) (about id F.p.reports) := by
    rcases build_inv F.hi F.hp with ⟨_, _, _, h⟩ | ⟨_, h⟩
    · exact trafficPart_track hs1 F.hi h
    · exact signallingPart_track hs1 h
  obtain ⟨k1, k2, k3⟩ := key
  rw [F.hs', F.hxr, F.hxl, F.hxt]
  exact ⟨⟨k1.next, k1.good⟩, F.i, Slots.idx_ok.1 F.hi, k2, k3⟩

/-! ## Any call -/

/-- The message a call brings. -/
def SchedEv.id? : SchedEv → Option Nat
  | .message _ id _ _ _ => some id
  | .steal _ id _ _ => some id
  | _ => none

/-- Calls with well-formed content: what is queued can be put on the air. -/
def SchedEv.Fine : SchedEv → Prop
  | .grant _ a g => AddrOk a ∧ g.InRange
  | .ack _ a => AddrOk a
  | .message _ _ _ pdu _ => pdu.Sendable
  | .steal _ _ _ b => b.length = 124
  | _ => True

/-- The bits of message `id` put into the slot built in this call. -/
def SchedRet.bits (id : Nat) : SchedRet → List (List Bool)
  | .sent x => bitsOf id x.log
  | _ => []

/-- The reports about message `id` made in this call. -/
def SchedRet.reports (id : Nat) : SchedRet → List Report
  | .sent x => about id x.reports
  | .dropped r => about id r
  | _ => []

/-- The call ends the hang time of timeslot `t`. -/
def SchedEv.endsHang (t : Nat) : SchedEv → Bool
  | .hang t' false => t' == t
  | _ => false

theorem push_inv {s s' : Sched} (hs : SInv s) {t : Nat} {e : DlElem} (he : e.Good) (h : s.push t e = .ok s') :
    SInv s' ∧ ∃ i : Fin 4, t = i.val + 1 ∧ s'.queues = s.queues.upd i (s.queues i ++ [e]) := by
  unfold Sched.push at h
  rw [Out.bind_eq_ok] at h; obtain ⟨i, hi, h⟩ := h
  cases h
  refine ⟨⟨hs.next, ?_⟩, i, Slots.idx_ok.1 (Out.ofRes_eq_ok.1 hi), rfl⟩
  intro j x hx
  by_cases hj : j = i
  · subst hj
    simp only [Slots.upd_self, List.mem_append, List.mem_singleton] at hx
    rcases hx with hx | rfl
    · exact hs.good j x hx
    · exact he
  · simp only [Slots.upd_ne _ _ hj] at hx; exact hs.good j x hx

theorem track_same (b : Bool) (id : Nat) (q : List DlElem) : QTrack b id q q [] [] :=
  ⟨fun h => ⟨h, rfl, rfl⟩, fun e h => h ▸ .wait (.refl _)⟩

theorem track_push (b : Bool) (id : Nat) (q : List DlElem) {e : DlElem} (h : e.owner.isMsg id = false) :
    QTrack b id q (q ++ [e]) [] [] := by
  have : here id (q ++ [e]) = here id q := by simp [here, h]
  exact ⟨fun h => ⟨this.trans h, rfl, rfl⟩, fun x hx => by rw [this, hx]; exact .wait (.refl _)⟩

theorem QTrack.weaken {id : Nat} {q q' : List DlElem} {bits : List (List Bool)} {rep : List Report} (b : Bool)
    (h : QTrack false id q q' bits rep) : QTrack b id q q' bits rep := by
  refine ⟨h.absent, fun e he => ?_⟩
  have hmv := h.one e he
  generalize here id q' = Q at hmv ⊢
  cases hmv with
  | wait hj => exact .wait hj
  | serve hj he hb h1 h2 => exact .serve hj he hb h1 h2
  | steal b o => exact .steal b o
  | drop hd => cases hd

theorem dropAll_track (s : Sched) (i : Fin 4) (id : Nat) :
    QTrack true id (s.queues i) ((s.dropAll i).1.queues i) [] (about id (s.dropAll i).2) := by
  have h1 : here id ((s.dropAll i).1.queues i) = (here id (s.queues i)).filter (·.isStealing) := by
    simp only [Sched.dropAll, Slots.upd_self, here_filter]
  have h2 : about id (s.dropAll i).2 =
      ((here id (s.queues i)).filter (!·.isStealing)).flatMap DlElem.dropReports := by
    simp only [Sched.dropAll]
    generalize s.queues i = q
    induction q with
    | nil => rfl
    | cons e q ih =>
      have hd : about id e.dropReports = if e.owner.isMsg id then e.dropReports else [] := by
        cases e with
        | ack a => simp [DlElem.dropReports, about]
        | grant a g => simp [DlElem.dropReports, about]
        | stealing b o => simp [DlElem.dropReports, about]
        | resource p d o => exact about_dropped id o
        | frag f o => exact about_dropped id o
      by_cases hst : e.isStealing = true
      · simp only [List.filter_cons, hst, Bool.not_true, Bool.false_eq_true, if_false, here] at ih ⊢
        rw [ih]
        split <;> simp [hst]
      · simp only [List.filter_cons, hst, Bool.not_false, if_true, List.flatMap_cons, about_append, ih, hd, here]
        split <;> simp [hst, *]
  refine ⟨fun h => ⟨by rw [h1, h]; rfl, rfl, by rw [h2, h]; rfl⟩, fun e h => ?_⟩
  rw [h1, h2, h]
  cases hst : e.isStealing with
  | true => simp [hst]; exact .wait (.refl _)
  | false => simp [hst]; exact .drop rfl hst

/-- What a call does to a message it does not bring. -/
def Tracked (s s' : Sched) (ev : SchedEv) (ret : SchedRet) : Prop :=
    SInv s' ∧ ∀ id, ev.id? ≠ some id → ∀ i : Fin 4, (∀ j, j ≠ i → here id (s.queues j) = []) →
      (∀ j, j ≠ i → here id (s'.queues j) = []) ∧
      QTrack (ev.endsHang (i.val + 1)) id (s.queues i) (s'.queues i) (ret.bits id) (ret.reports id) ∧
      (∀ x, ret = .sent x → x.slot.ts.t ≠ i.val + 1 → bitsOf id x.log = [] ∧ about id x.reports = [])

theorem step_track {s s' : Sched} {ev : SchedEv} {ret : SchedRet} (hs : SInv s) (hf : ev.Fine)
    (h : s.step ev = .ok (s', ret)) : Tracked s s' ev ret := by
  have same : s'.queues = s.queues → s'.next = s.next → (∀ id, ret.bits id = [] ∧ ret.reports id = []) →
      (∀ x, ret ≠ .sent x) → Tracked s s' ev ret := by
    intro hq hn hr hx
    refine ⟨⟨hn.trans hs.next, by rw [hq]; exact hs.good⟩, fun id _ i ho => ⟨by rw [hq]; exact ho, ?_, fun x e => absurd e (hx x)⟩⟩
    rw [hq, (hr id).1, (hr id).2]
    exact track_same _ id _
  have pushed : ∀ {t : Nat} {e : DlElem}, e.Good → s.push t e = .ok s' → (∀ id, ev.id? ≠ some id → e.owner.isMsg id = false) →
      ret = .none → Tracked s s' ev ret := by
    intro t e he hp ho hr
    obtain ⟨h1, i0, hi0, hq⟩ := push_inv hs he hp
    refine ⟨h1, fun id hid i hoth => ?_⟩
    subst hr
    have key : ∀ j, here id (s'.queues j) = here id (s.queues j) := by
      intro j
      rw [hq]
      by_cases hj : j = i0
      · subst hj; simp only [Slots.upd_self, here_append]; simp [here, ho id hid]
      · rw [Slots.upd_ne _ _ hj]
    refine ⟨fun j hj => (key j).trans (hoth j hj), ⟨fun h => ⟨(key i).trans h, rfl, rfl⟩, fun x hx => ?_⟩, by simp⟩
    rw [key i, hx]
    exact .wait (.refl _)
  cases ev with
  | tick =>
    simp only [Sched.step] at h
    rw [Out.bind_eq_ok] at h; obtain ⟨c, hc, h⟩ := h
    rw [Out.bind_eq_ok] at h; obtain ⟨r, hr, h⟩ := h
    cases h
    have hs1 : SInv ({ s with cur := c } : Sched) := ⟨hs.next, hs.good⟩
    obtain ⟨k1, i0, hi0, k2, k3⟩ := finalize_track hs1 (s' := r.1) (x := r.2) hr
    refine ⟨k1, fun id _ i ho => ?_⟩
    by_cases hj : i = i0
    · subst hj
      refine ⟨fun j hj => by rw [k2 j hj]; exact ho j hj, (k3 id).weaken _, ?_⟩
      intro x e hne
      cases e
      exact absurd hi0 hne
    · have ha := (k3 id).absent (ho i0 (fun e => hj e.symm))
      refine ⟨?_, ?_, ?_⟩
      · intro j hne
        by_cases hj0 : j = i0
        · subst hj0; exact ha.1
        · rw [k2 j hj0]; exact ho j hne
      · rw [k2 i hj]
        simp only [SchedRet.bits, SchedRet.reports, ha.2.1, ha.2.2]
        exact track_same _ id _
      · intro x e _
        cases e
        exact ⟨ha.2.1, ha.2.2⟩
  | capReq t ssi code =>
    simp only [Sched.step] at h
    rw [Out.bind_eq_ok] at h; obtain ⟨r, hr, h⟩ := h
    cases h
    exact same rfl rfl (fun _ => ⟨rfl, rfl⟩) (by simp)
  | grant t a g =>
    simp only [Sched.step] at h
    rw [Out.bind_eq_ok] at h; obtain ⟨r, hr, h⟩ := h
    cases h
    exact pushed (e := .grant a g) hf hr (fun _ _ => rfl) rfl
  | ack t a =>
    simp only [Sched.step] at h
    rw [Out.bind_eq_ok] at h; obtain ⟨r, hr, h⟩ := h
    cases h
    exact pushed (e := .ack a) hf hr (fun _ _ => rfl) rfl
  | message t id rep pdu sdu =>
    simp only [Sched.step] at h
    rw [Out.bind_eq_ok] at h; obtain ⟨r, hr, h⟩ := h
    cases h
    exact pushed (e := .resource pdu sdu (.msg id rep)) hf hr
      (fun id' h => by simpa [SchedEv.id?, DlElem.owner, Owner.isMsg] using h) rfl
  | steal t id rep b =>
    simp only [Sched.step] at h
    rw [Out.bind_eq_ok] at h; obtain ⟨r, hr, h⟩ := h
    cases h
    exact pushed (e := .stealing b (.msg id rep)) hf hr
      (fun id' h => by simpa [SchedEv.id?, DlElem.owner, Owner.isMsg] using h) rfl
  | takeRa t ssi =>
    simp only [Sched.step, Sched.takeRa] at h
    rw [Out.bind_eq_ok] at h; obtain ⟨r, hr, h⟩ := h
    rw [Out.bind_eq_ok] at hr; obtain ⟨j, hj, hr⟩ := hr
    cases hr
    cases h
    exact same rfl rfl (fun _ => ⟨rfl, rfl⟩) (by simp)
  | voice t b =>
    simp only [Sched.step] at h
    rw [Out.bind_eq_ok] at h; obtain ⟨r, hr, h⟩ := h
    cases h
    exact same rfl rfl (fun _ => ⟨rfl, rfl⟩) (by simp)
  | create d c =>
    simp only [Sched.step] at h
    rw [Out.bind_eq_ok] at h; obtain ⟨r, hr, h⟩ := h
    cases h
    refine same ?_ ?_ (fun _ => ⟨rfl, rfl⟩) (by simp) <;> simp only [Sched.unhang] <;> split <;> rfl
  | close d t =>
    simp only [Sched.step] at h
    rw [Out.bind_eq_ok] at h; obtain ⟨r, hr, h⟩ := h
    cases h
    refine same ?_ ?_ (fun _ => ⟨rfl, rfl⟩) (by simp) <;> simp only [Sched.unhang] <;> split <;> rfl
  | hang t a =>
    simp only [Sched.step, Out.ok.injEq, Prod.mk.injEq] at h
    obtain ⟨rfl, rfl⟩ := h
    cases a with
    | true =>
      have e : (s.setHang t true).1.queues = s.queues ∧ (s.setHang t true).1.next = s.next ∧ (s.setHang t true).2 = [] := by
        unfold Sched.setHang
        cases Slots.idx t <;> simp
      exact same e.1 e.2.1 (fun id => ⟨rfl, by simp [SchedRet.reports, e.2.2, about]⟩) (by simp)
    | false =>
      cases hi : Slots.idx t with
      | panic =>
        have e : (s.setHang t false) = (s, []) := by simp [Sched.setHang, hi]
        exact same (by rw [e]) (by rw [e]) (fun id => ⟨rfl, by simp [SchedRet.reports, e, about]⟩) (by simp)
      | ok i0 =>
        have e : s.setHang t false = ({ s with hang := s.hang.upd i0 false } : Sched).dropAll i0 := by
          simp [Sched.setHang, hi]
        have ht := Slots.idx_ok.1 hi
        rw [e]
        generalize hs1 : ({ s with hang := s.hang.upd i0 false } : Sched) = s1
        have hq1 : s1.queues = s.queues := by rw [← hs1]
        have hqj : ∀ j, j ≠ i0 → (s1.dropAll i0).1.queues j = s.queues j := by
          intro j hj; rw [← hq1]; exact Slots.upd_ne _ _ hj
        refine ⟨⟨?_, ?_⟩, fun id _ i ho => ⟨?_, ?_, by simp⟩⟩
        · show s1.next = []
          rw [← hs1]; exact hs.next
        · intro j x hx
          by_cases hj : j = i0
          · subst hj
            simp only [Sched.dropAll, Slots.upd_self, hq1] at hx
            exact hs.good j x (List.mem_filter.1 hx).1
          · rw [hqj j hj] at hx; exact hs.good j x hx
        · intro j hj
          by_cases hj0 : j = i0
          · subst hj0
            have := (dropAll_track s1 j id).absent (by rw [hq1]; exact ho j hj)
            exact this.1
          · rw [hqj j hj0]; exact ho j hj
        · by_cases hj : i = i0
          · subst hj
            have := dropAll_track s1 i id
            rw [hq1] at this
            simpa [SchedEv.endsHang, ht, SchedRet.bits, SchedRet.reports] using this
          · rw [hqj i hj]
            have h0 := (dropAll_track s1 i0 id).absent (by rw [hq1]; exact ho i0 (fun e => hj e.symm))
            simp only [SchedRet.bits, SchedRet.reports, h0.2.2]
            exact track_same _ id _
  | systemWide b =>
    simp only [Sched.step, Out.ok.injEq, Prod.mk.injEq] at h
    obtain ⟨rfl, rfl⟩ := h
    exact same rfl rfl (fun _ => ⟨rfl, rfl⟩) (by simp)

end Verif.Umac
