import Verif.Umac.SchedSlotProps
/-!
# Progress and order in the channel scheduler: lemmas
-/
namespace Verif.Umac
open Verif.Bits Verif.Codec Verif.Tdma Verif.Mle

/-! ## Specification -/

/-- How many blocks a message may still need at most: one per bit of its SDU, and two. -/
def DlElem.weight : DlElem → Nat
  | .resource _ sdu _ => sdu.length + 2
  | .frag f _ => (f.sdu.length - f.pos) + 1 + (if f.hdrWritten then 0 else 1)
  | _ => 0

/-- Work as far as order and amount are concerned. -/
def DlElem.key (e : DlElem) : Nat × Owner := (e.weight, e.owner)

/-- The work waiting in a queue, in the order it is served. -/
def keys (q : List DlElem) : List (Nat × Owner) := (workOf q).map DlElem.key

/-- The amount of work up to and including message `id`. -/
def upTo (id : Nat) : List (Nat × Owner) → Nat
  | [] => 0
  | k :: ks => if k.2.isMsg id then k.1 else k.1 + upTo id ks

/-- The amount of work waiting in a queue. -/
def backlog (q : List DlElem) : Nat := ((workOf q).map DlElem.weight).sum

/-- The message of a piece of work. -/
def Owner.id? : Owner → Option Nat
  | .msg id _ => some id
  | .internal => none

/-- The messages of work, in order. -/
def idsOf (ks : List (Nat × Owner)) : List Nat := ks.filterMap (·.2.id?)

/-! ## Lemmas -/

theorem upTo_append {id : Nat} {a : List (Nat × Owner)} (b : List (Nat × Owner)) (h : ∃ k ∈ a, k.2.isMsg id = true) :
    upTo id (a ++ b) = upTo id a := by
  induction a with
  | nil => obtain ⟨k, hk, _⟩ := h; simp at hk
  | cons k a ih =>
    simp only [List.cons_append, upTo]
    split
    · rfl
    · rename_i hm
      rw [ih]
      obtain ⟨k', hk, hm'⟩ := h
      rcases List.mem_cons.1 hk with rfl | hk
      · exact absurd hm' hm
      · exact ⟨k', hk, hm'⟩

theorem upTo_snoc {id : Nat} {a : List (Nat × Owner)} (k : Nat × Owner) (hk : k.2.isMsg id = true) (h : ∀ k ∈ a, k.2.isMsg id = false) :
    upTo id (a ++ [k]) = (a.map Prod.fst).sum + k.1 := by
  induction a with
  | nil => simp [upTo, hk]
  | cons b a ih =>
    simp only [List.cons_append, upTo, h b (by simp), Bool.false_eq_true, if_false, List.map_cons, List.sum_cons]
    rw [ih (fun k hk => h k (by simp [hk]))]
    omega

/-- The weight of a fragmenter. -/
def Fragger.wt (f : Fragger) : Nat := (f.sdu.length - f.pos) + 1 + (if f.hdrWritten then 0 else 1)

theorem fragger_wt {e : DlElem} {f : Fragger} {o : Owner} (h : e.fragger = some (f, o)) : e.weight = f.wt := by
  cases e <;> simp [DlElem.fragger] at h
  · obtain ⟨rfl, _⟩ := h
    simp [DlElem.weight, Fragger.wt, Fragger.new]
  · obtain ⟨rfl, _⟩ := h
    rfl

theorem wt_pos (f : Fragger) : 1 ≤ f.wt := by unfold Fragger.wt; omega

theorem step_wt {f f' : Fragger} {b : Blk} {new : List Bool} (hf : f.Ok) (h : Step f b f' new) (hd : f'.done = false) :
    f'.wt ≤ f.wt ∧ (b.remaining = 268 → f'.wt < f.wt) := by
  have hleft : f.left.length = f.sdu.length - f.pos := by simp [Fragger.left]
  have hp := hf.pos_le
  cases h with
  | idle h0 h1 =>
    refine ⟨Nat.le_refl _, fun hr => ?_⟩
    cases hw : f.hdrWritten with
    | false =>
      obtain ⟨n, hn, hlt⟩ := h0 hw
      obtain ⟨m, hm, _, hm2⟩ := sendable_hdr hf.sendable
      rw [hn] at hm; cases hm
      omega
    | true => have := h1 hw; omega
  | whole => cases hd
  | start hdr n r hw hr he hdd hn hfull =>
    have hpos := hf.fresh hw
    simp only [Fragger.wt, hw, hpos, if_true, Bool.false_eq_true, if_false]
    omega
  | frag n k hw hn hprog hfull hlt h16 hlate =>
    simp only [Fragger.wt, hw, if_true]
    omega
  | fin => cases hd

theorem leftOver_cons {e : DlElem} {es : List DlElem} {f' : Fragger} {new : List Bool} {rs : List (Fragger × List Bool)} :
    leftOver (e :: es) ((f', new) :: rs) = (if f'.done then [] else [.frag f' e.owner]) ++ leftOver es rs := by
  simp only [leftOver, List.zip_cons_cons, List.filterMap_cons]
  cases f'.done <;> simp

theorem round_upTo {id : Nat} {es : List DlElem} {b b' : Blk} {rs : List (Fragger × List Bool)} (h : Round es b rs b')
    (hg : ∀ e ∈ es, e.Good) {e : DlElem} (h0 : here id es = [e]) :
    here id (leftOver es rs) = [] ∨ (upTo id ((leftOver es rs).map DlElem.key) ≤ upTo id (es.map DlElem.key) ∧
      (b.remaining = 268 → upTo id ((leftOver es rs).map DlElem.key) < upTo id (es.map DlElem.key))) := by
  induction h with
  | nil => simp at h0
  | @cons e' f o es b b' f' new rs he hb h1 h2 h3 ih =>
    have hf := good_fragger (hg e' (by simp)) he
    have hw := fragger_wt he
    rw [leftOver_cons]
    simp only [here, List.filter_cons] at h0
    by_cases hm : e'.owner.isMsg id = true
    · simp only [hm, if_true, List.cons.injEq] at h0
      obtain ⟨rfl, h0⟩ := h0
      obtain ⟨i1, _⟩ := round_absent id h3 h0
      cases hd : f'.done with
      | true => simp only [if_true, List.nil_append]; exact .inl i1
      | false =>
        refine .inr ?_
        have hs := step_wt hf h2 hd
        simp only [Bool.false_eq_true, if_false, List.singleton_append, List.map_cons, upTo, DlElem.key, owner_frag, hm, if_true, hw]
        exact hs
    · simp only [hm, if_false, Bool.false_eq_true] at h0
      rcases ih (fun e he => hg e (by simp [he])) h0 with i1 | ⟨i1, i2⟩
      · refine .inl ?_
        cases f'.done with
        | true => simpa using i1
        | false => simp only [Bool.false_eq_true, if_false, here_append, i1]; simp [here, hm]
      · refine .inr ?_
        cases hd : f'.done with
        | true =>
          have := wt_pos f
          simp only [if_true, List.nil_append, List.map_cons, upTo, DlElem.key, hm, Bool.false_eq_true, if_false, hw]
          exact ⟨by omega, fun _ => by omega⟩
        | false =>
          have hs := step_wt hf h2 hd
          have e1 : ∀ o, (DlElem.frag f' o).weight = f'.wt := fun _ => rfl
          simp only [Bool.false_eq_true, if_false, List.singleton_append, List.map_cons, upTo, DlElem.key, owner_frag, hm, hw, e1]
          exact ⟨by omega, fun hr => by have := hs.2 hr; omega⟩

theorem round_ids {es : List DlElem} {b b' : Blk} {rs : List (Fragger × List Bool)} (h : Round es b rs b') :
    (idsOf ((leftOver es rs).map DlElem.key)).Sublist (idsOf (es.map DlElem.key)) ∧
    (pieces es rs).filterMap (·.1.id?) = idsOf (es.map DlElem.key) := by
  induction h with
  | nil => exact ⟨.refl _, rfl⟩
  | @cons e f o es b b' f' new rs he hb h1 h2 h3 ih =>
    obtain ⟨i1, i2⟩ := ih
    rw [leftOver_cons]
    constructor
    · cases hd : f'.done with
      | true =>
        simp only [if_true, List.nil_append, List.map_cons, idsOf, List.filterMap_cons] at i1 ⊢
        split
        · exact i1
        · exact i1.cons _
      | false =>
        simp only [Bool.false_eq_true, if_false, List.singleton_append, List.map_cons, idsOf, List.filterMap_cons, DlElem.key,
          owner_frag] at i1 ⊢
        split
        · exact i1
        · exact i1.cons_cons _
    · simp only [pieces, List.zip_cons_cons, List.map_cons, List.filterMap_cons, idsOf, DlElem.key] at i2 ⊢
      split <;> simp_all

/-! ## Joining does not change the work waiting -/

theorem JoinedElem.key {a b : DlElem} (h : JoinedElem a b) : b.key = a.key := by
  cases h <;> rfl

theorem keys_append (a b : List DlElem) (h : b.filter (·.isFrag) = []) :
    keys (a ++ b) = keys a ++ (b.filter (·.isResource)).map DlElem.key := by
  simp [keys, workOf, h]

theorem integrateOne_keys {q q' : List DlElem} (hg : ∀ x ∈ q, x.Good) {e : DlElem} (he : e.Good) (hk : e.isGrantOrAck = true)
    (h : integrateOne q e = .ok q') : (∀ x ∈ q', x.Good) ∧ ∃ n, keys q' = keys q ++ List.replicate n (2, .internal) := by
  obtain ⟨q1, h1, h2, h3⟩ := integrateOne_spec hg he hk
  rw [h] at h1; cases h1
  refine ⟨h2, ?_⟩
  rcases h3 with ⟨l, r, r', s, rfl, rfl, hj, hr⟩ | ⟨pdu, rfl⟩
  · refine ⟨0, ?_⟩
    simp only [List.replicate_zero, List.append_nil]
    cases hj with
    | refl => rfl
    | join sdu o h => simp [keys, workOf, DlElem.isFrag, DlElem.isResource, DlElem.key, DlElem.weight, DlElem.owner]
  · refine ⟨1, ?_⟩
    rw [keys_append _ _ (by simp [DlElem.isFrag])]
    simp [DlElem.isResource, DlElem.key, DlElem.weight, DlElem.owner]

theorem integrateAll_keys (es : List DlElem) (q q' : List DlElem) (hg : ∀ x ∈ q, x.Good)
    (he : ∀ e ∈ es, e.Good ∧ e.isGrantOrAck = true) (h : integrateAll q es = .ok q') :
    ∃ n, keys q' = keys q ++ List.replicate n (2, .internal) := by
  induction es generalizing q with
  | nil => cases h; exact ⟨0, by simp⟩
  | cons e es ih =>
    simp only [integrateAll] at h
    rw [Out.bind_eq_ok] at h; obtain ⟨q1, h1, h⟩ := h
    obtain ⟨g1, n, hn⟩ := integrateOne_keys hg (he e (by simp)).1 (he e (by simp)).2 h1
    obtain ⟨m, hm⟩ := ih q1 g1 (fun x hx => he x (by simp [hx])) h
    exact ⟨n + m, by rw [hm, hn, List.append_assoc, List.replicate_append_replicate]⟩

theorem integrate_keys {q q' : List DlElem} (hg : ∀ x ∈ q, x.Good) (h : integrate q = .ok q') :
    ∃ n, keys q' = keys q ++ List.replicate n (2, .internal) := by
  have hk : keys (q.filter (!·.isGrantOrAck)) = keys q := by
    simp only [keys, workOf, List.filter_filter]
    congr 2 <;>
    · congr 1; funext x
      cases x <;> simp [DlElem.isFrag, DlElem.isResource, DlElem.isGrantOrAck]
  obtain ⟨n, hn⟩ := integrateAll_keys _ _ q' (fun x hx => hg x (List.mem_filter.1 hx).1)
    (fun e he => ⟨hg e (List.mem_filter.1 he).1, (List.mem_filter.1 he).2⟩) h
  exact ⟨n, by rw [hn, hk]⟩

theorem idsOf_internal (l : List (Nat × Owner)) (n : Nat) : idsOf (l ++ List.replicate n (2, .internal)) = idsOf l := by
  simp [idsOf, Owner.id?]

/-! ## One tick -/

theorem keys_takeStolen {q q' : List DlElem} {e : DlElem} (h : takeFirst (·.isStealing) q = some (e, q')) : keys q' = keys q := by
  obtain ⟨h1, _, _, h4, _⟩ := takeFirst_some h
  have : e.isFrag = false ∧ e.isResource = false := by
    cases e <;> simp_all [DlElem.isStealing, DlElem.isFrag, DlElem.isResource]
  simp only [keys, workOf, h4 _ this.1, h4 _ this.2]

theorem stolen_notWork (q : List DlElem) : (stolenOf q).filter (·.isFrag) = [] ∧ (stolenOf q).filter (·.isResource) = [] := by
  simp only [stolenOf, List.filter_filter]
  constructor <;>
  · rw [List.filter_eq_nil_iff]
    intro x _
    cases x <;> simp [DlElem.isStealing, DlElem.isFrag, DlElem.isResource]

theorem workOf_left {q : List DlElem} {l : List DlElem} (h : ∀ e ∈ l, e.isFrag = true) : workOf (stolenOf q ++ l) = l := by
  have h1 : l.filter (·.isFrag) = l := List.filter_eq_self.2 h
  have h2 : l.filter (·.isResource) = [] := by
    rw [List.filter_eq_nil_iff]
    intro x hx
    have := h x hx
    cases x <;> simp_all [DlElem.isFrag, DlElem.isResource]
  simp [workOf, stolen_notWork, h1, h2]

/-- What building a slot does to the work waiting on its timeslot. -/
structure SlotServed (q q' : List DlElem) (log : List (Owner × List Bool)) (stolen sig : Bool) : Prop where
  /-- messages still there have not moved back; they have moved on in a signalling slot -/
  ahead : ∀ id e, here id q = [e] → e.isWork = true → here id q' = [] ∨
    upTo id (keys q') + (if sig then 1 else 0) ≤ upTo id (keys q)
  order : (idsOf (keys q')).Sublist (idsOf (keys q))
  log : stolen = false → (log.filterMap (·.1.id?)).Sublist (idsOf (keys q))
  stolen : pendingStealing q' = true → pendingStealing q = true

theorem here_work {id : Nat} {q : List DlElem} {e : DlElem} (h : here id q = [e]) (hw : e.isWork = true) :
    here id (workOf q) = [e] := by
  simp only [workOf, here_append, here_filter, h]
  cases e <;> simp_all [DlElem.isWork, DlElem.isFrag, DlElem.isResource]

theorem keys_has {id : Nat} {q : List DlElem} {e : DlElem} (h : here id q = [e]) (hw : e.isWork = true) :
    ∃ k ∈ keys q, k.2.isMsg id = true := by
  have := here_work h hw
  have he : e ∈ here id (workOf q) := by rw [this]; simp
  obtain ⟨h1, h2⟩ := List.mem_filter.1 he
  exact ⟨e.key, List.mem_map.2 ⟨e, h1, rfl⟩, h2⟩

theorem pending_iff {q : List DlElem} : pendingStealing q = true ↔ stolenOf q ≠ [] := by
  constructor
  · intro h
    rw [pendingStealing, List.any_eq_true] at h
    obtain ⟨x, h1, h2⟩ := h
    intro h0
    have : x ∈ stolenOf q := List.mem_filter.2 ⟨h1, h2⟩
    rw [h0] at this; simp at this
  · intro h
    cases hp : pendingStealing q with
    | true => rfl
    | false => exact absurd (stolen_nil hp) h

theorem signalling_served {s : Sched} (hs : SInv s) {f : Nat} {i : Fin 4} {idle : Bool} {p : Part}
    (h : s.signallingPart f i idle = .ok p) :
    SlotServed (s.queues i) (p.s.queues i) p.log false (decide (f ≠ 18)) := by
  unfold Sched.signallingPart at h
  rw [Out.bind_eq_ok] at h; obtain ⟨q, hq, h⟩ := h
  rw [Out.bind_eq_ok] at h; obtain ⟨r, hr, h⟩ := h
  rw [Out.bind_eq_ok] at h; obtain ⟨b, hb, h⟩ := h
  simp only [Out.ok.injEq] at h
  subst h
  simp only [Slots.upd_self]
  obtain ⟨n, hn⟩ := integrate_keys (hs.good i) hq
  obtain ⟨q1, e1, e2, e3, e6, _, e4, e5⟩ := integrate_queue (hs.good i)
  rw [hq] at e1; cases e1
  rw [hs.next] at hr
  by_cases hf : f = 18
  · rw [hf, buildBlock_18] at hr
    cases hr
    refine ⟨?_, by rw [hn, idsOf_internal]; exact List.Sublist.refl _, fun _ => List.nil_sublist _, ?_⟩
    · intro id e h hw
      refine .inr ?_
      rw [hn, upTo_append _ (keys_has h hw)]
      simp [hf]
    · simp only [pending_iff, e6]; exact fun h => h
  · obtain ⟨rs, blk', hrd, k1, k2, k3, h1, h2⟩ := buildBlock_spec hf e3 e2
    have hor : stolenOf q = [] ∨ leftOver (workOf q) rs = [] := by
      by_cases ha : stolenOf q = []
      · exact .inl ha
      · by_cases hb : leftOver (workOf q) rs = []
        · exact .inr hb
        · rw [h2 ha hb] at hr; cases hr
    rw [h1 hor] at hr
    cases hr
    have hgw : ∀ e ∈ workOf q, e.Good := fun e he => e2 e (workOf_mem he).1
    have hlf := leftOver_good hrd hgw
    have hkl : keys (stolenOf q ++ leftOver (workOf q) rs) = (leftOver (workOf q) rs).map DlElem.key := by
      rw [keys, workOf_left (fun e he => (hlf e he).2)]
    obtain ⟨o1, o2⟩ := round_ids hrd
    have hids : idsOf ((workOf q).map DlElem.key) = idsOf (keys (s.queues i)) := by
      rw [show (workOf q).map DlElem.key = keys q from rfl, hn, idsOf_internal]
    refine ⟨?_, ?_, ?_, ?_⟩
    · intro id e h hw
      obtain ⟨e', h', hj⟩ := e5 id e h
      have hw' : e'.isWork = true := by cases hj <;> first | exact hw | rfl
      have hh := here_work h' hw'
      simp only [here_append]
      have hst : here id (stolenOf q) = [] := by
        rcases here_parts e3 h' with ⟨p0, _⟩ | ⟨_, p1, _⟩
        · cases e' <;> simp_all [DlElem.isWork, DlElem.isStealing, DlElem.isFrag, DlElem.isResource]
        · exact p1
      rw [hst, List.nil_append]
      rcases round_upTo hrd hgw hh with h3 | ⟨_, h3⟩
      · exact .inl h3
      · refine .inr ?_
        have h4 := h3 rfl
        rw [hkl]
        rw [show (workOf q).map DlElem.key = keys q from rfl, hn, upTo_append _ (keys_has h hw)] at h4
        simp only [ne_eq, hf, not_false_eq_true, decide_true, if_true]
        omega
    · rw [hkl, ← hids]; exact o1
    · intro _; rw [o2, hids]; exact List.Sublist.refl _
    · intro h
      rw [pending_iff] at h ⊢
      rw [← e6]
      intro h0
      apply h
      rw [h0, List.nil_append]
      unfold stolenOf
      rw [List.filter_eq_nil_iff]
      intro x hx
      have := (hlf x hx).2
      cases x <;> simp_all [DlElem.isStealing, DlElem.isFrag]

theorem close_chan {r r' : TmvReq} (h : r.close = .ok r') : r'.chan = r.chan := by
  unfold TmvReq.close at h
  split at h
  · rw [Out.bind_eq_ok] at h; obtain ⟨_, _, h⟩ := h
    rw [Out.bind_eq_ok] at h; obtain ⟨_, _, h⟩ := h
    rw [Out.bind_eq_ok] at h; obtain ⟨_, _, h⟩ := h
    cases h; rfl
  · cases h; rfl

/-- A slot for signalling: outside frame 18 and without traffic. -/
def DlSlot.signals (y : DlSlot) : Bool := y.ts.f != 18 && (y.blk1.chan != .tchS && y.blk1.chan != .stch)

theorem finalize_served {s s' : Sched} {x : TickOut} (hs : SInv s) (h : s.finalize = .ok (s', x)) :
    ∃ i : Fin 4, x.slot.ts.t = i.val + 1 ∧ (∀ j, j ≠ i → s'.queues j = s.queues j) ∧
      SlotServed (s.queues i) (s'.queues i) x.log (decide (x.slot.blk1.chan = .stch)) x.slot.signals := by
  obtain ⟨_, i0, hi0, k2, _⟩ := finalize_track hs h
  obtain ⟨F⟩ := finalize_inv h
  have hs1 : SInv ({ s with pre := s.pre.stamp F.ts } : Sched) := ⟨hs.next, hs.good⟩
  have hi : F.i = i0 := by
    have := Slots.idx_ok.1 F.hi
    rw [F.hxt] at hi0
    apply Fin.ext; omega
  refine ⟨i0, hi0, k2, ?_⟩
  have hq : s'.queues = F.p.s.queues := by
    have := congrArg Sched.queues F.hs'
    exact this
  rw [← hi, hq, F.hxl]
  have weaken : ∀ {a b : List DlElem} {l : List (Owner × List Bool)} {z c d : Bool}, (d = true → c = true) →
      SlotServed a b l false c → SlotServed a b l z d := by
    intro a b l z c d hcd hsv
    refine ⟨fun id e h hw => ?_, hsv.order, fun _ => hsv.log rfl, hsv.stolen⟩
    rcases hsv.ahead id e h hw with h | h
    · exact .inl h
    · refine .inr ?_
      cases c <;> cases d <;> simp_all <;> omega
  rcases build_inv F.hi F.hp with ⟨h1, h2, h3, h4⟩ | ⟨_, h4⟩
  · have hsig : x.slot.signals = false := by
      have hch : x.slot.blk1.chan = .tchS ∨ x.slot.blk1.chan = .stch := by
        rw [close_chan F.hc1]
        have hb1 := F.hb1
        cases (trafficPart_case F.hi h2 h1 h3 h4).2 with
        | traffic _ _ _ _ _ hb => rw [hb] at hb1; simp only [Sched.firstBlk, Out.ok.injEq] at hb1; rw [← hb1]; exact .inl rfl
        | stolen _ _ _ _ _ _ _ _ hb => rw [hb] at hb1; simp only [Sched.firstBlk, Out.ok.injEq] at hb1; rw [← hb1]; exact .inr rfl
        | signalling hn => rcases hn with hn | hn <;> simp_all
        | idle _ _ hh => simp_all
        | nothing hn => rcases hn with hn | hn <;> simp_all
      rcases hch with h | h <;> simp [DlSlot.signals, h]
    rw [hsig]
    have fin : ∀ q', keys q' = keys (s.queues F.i) → (stolenOf q' ≠ [] → stolenOf (s.queues F.i) ≠ []) →
        (F.p.log = [] ∨ x.slot.blk1.chan = .stch) →
        SlotServed (s.queues F.i) q' F.p.log (decide (x.slot.blk1.chan = .stch)) false := by
      intro q' hk hst hl
      refine ⟨fun id e h hw => .inr (by simp [hk]), by rw [hk]; exact List.Sublist.refl _, ?_, ?_⟩
      · intro hz
        rcases hl with hl | hl
        · rw [hl]; exact List.nil_sublist _
        · simp [hl] at hz
      · simp only [pending_iff]; exact hst
    cases (trafficPart_case F.hi h2 h1 h3 h4).2 with
    | traffic _ _ _ _ _ _ _ hl hsame => rw [hsame]; exact fin _ rfl (fun h => h) (.inl hl)
    | stolen _ _ _ b o q hq _ hb _ hl hsame =>
      rw [hsame, Slots.upd_self]
      have hch : x.slot.blk1.chan = .stch := by
        have hb1 := F.hb1
        rw [close_chan F.hc1]
        rw [hb] at hb1; simp only [Sched.firstBlk, Out.ok.injEq] at hb1; rw [← hb1]
      refine fin q (keys_takeStolen hq) ?_ (.inr hch)
      intro _
      have : (s.queues F.i).filter (·.isStealing) = .stealing b o :: q.filter (·.isStealing) := (takeFirst_some hq).2.1
      rw [stolenOf, this]; simp
    | signalling hn => rcases hn with hn | hn <;> simp_all
    | idle _ _ hh => simp_all
    | nothing hn => rcases hn with hn | hn <;> simp_all
  · refine weaken ?_ (signalling_served hs1 h4)
    intro h
    rw [DlSlot.signals, Bool.and_eq_true, F.hxt, bne_iff_ne] at h
    simpa using h.1

/-! ## One call -/

/-- The call builds a signalling slot on timeslot `t`. -/
def SchedRet.signalsOn (t : Nat) : SchedRet → Bool
  | .sent y => y.slot.ts.t == t && y.slot.signals
  | _ => false

theorem queue_snoc_keys (q : List DlElem) {el : DlElem} (h : el.isFrag = false) :
    keys (q ++ [el]) = keys q ++ (if el.isResource then [el.key] else []) := by
  rw [keys_append _ _ (by simp [h])]
  cases hr : el.isResource <;> simp [hr]

theorem step_live {s s' : Sched} {ev : SchedEv} {ret : SchedRet} (hs : SInv s) (h : s.step ev = .ok (s', ret))
    {id : Nat} (hid : ev.id? ≠ some id) {i : Fin 4} {e : DlElem} (h0 : here id (s.queues i) = [e]) (hw : e.isWork = true) :
    here id (s'.queues i) = [] ∨ upTo id (keys (s'.queues i)) + (if ret.signalsOn (i.val + 1) then 1 else 0) ≤ upTo id (keys (s.queues i)) := by
  have same : s'.queues = s.queues → ret.signalsOn (i.val + 1) = false →
      here id (s'.queues i) = [] ∨ upTo id (keys (s'.queues i)) + (if ret.signalsOn (i.val + 1) then 1 else 0) ≤ upTo id (keys (s.queues i)) := by
    intro hq hr
    rw [hq, hr]; exact .inr (by simp)
  have pushed : ∀ {t : Nat} {el : DlElem}, s.push t el = .ok s' → el.isFrag = false → ret.signalsOn (i.val + 1) = false →
      here id (s'.queues i) = [] ∨ upTo id (keys (s'.queues i)) + (if ret.signalsOn (i.val + 1) then 1 else 0) ≤ upTo id (keys (s.queues i)) := by
    intro t el hp hfr hr
    unfold Sched.push at hp
    rw [Out.bind_eq_ok] at hp; obtain ⟨k, hk, hp⟩ := hp
    cases hp
    rw [hr]
    refine .inr ?_
    by_cases hi : i = k
    · subst hi
      simp only [Slots.upd_self]
      rw [queue_snoc_keys _ hfr, upTo_append _ (keys_has h0 hw)]
      simp
    · simp only [Slots.upd_ne _ _ hi]; simp
  cases ev with
  | tick =>
    simp only [Sched.step] at h
    rw [Out.bind_eq_ok] at h; obtain ⟨c, hc, h⟩ := h
    rw [Out.bind_eq_ok] at h; obtain ⟨r, hr, h⟩ := h
    cases h
    obtain ⟨k, hk, k2, hsv⟩ := finalize_served (s := { s with cur := c }) ⟨hs.next, hs.good⟩ (s' := r.1) (x := r.2) hr
    by_cases hi : i = k
    · subst hi
      rcases hsv.ahead id e h0 hw with h | h
      · exact .inl h
      · refine .inr ?_
        simp only [SchedRet.signalsOn, hk, beq_self_eq_true, Bool.true_and]
        exact h
    · rw [k2 i hi]
      refine .inr ?_
      have : (r.2.slot.ts.t == i.val + 1) = false := by
        rw [beq_eq_false_iff_ne, hk]
        intro h; apply hi; apply Fin.ext; omega
      simp [SchedRet.signalsOn, this]
  | capReq t ssi code =>
    simp only [Sched.step] at h
    rw [Out.bind_eq_ok] at h; obtain ⟨r, hr, h⟩ := h
    cases h
    exact same rfl rfl
  | grant t a g =>
    simp only [Sched.step] at h
    rw [Out.bind_eq_ok] at h; obtain ⟨r, hr, h⟩ := h
    cases h
    exact pushed hr rfl rfl
  | ack t a =>
    simp only [Sched.step] at h
    rw [Out.bind_eq_ok] at h; obtain ⟨r, hr, h⟩ := h
    cases h
    exact pushed hr rfl rfl
  | message t id rep pdu sdu =>
    simp only [Sched.step] at h
    rw [Out.bind_eq_ok] at h; obtain ⟨r, hr, h⟩ := h
    cases h
    exact pushed hr rfl rfl
  | steal t id rep b =>
    simp only [Sched.step] at h
    rw [Out.bind_eq_ok] at h; obtain ⟨r, hr, h⟩ := h
    cases h
    exact pushed hr rfl rfl
  | takeRa t ssi =>
    simp only [Sched.step, Sched.takeRa] at h
    rw [Out.bind_eq_ok] at h; obtain ⟨r, hr, h⟩ := h
    rw [Out.bind_eq_ok] at hr; obtain ⟨j, hj, hr⟩ := hr
    cases hr
    cases h
    exact same rfl rfl
  | voice t b =>
    simp only [Sched.step] at h
    rw [Out.bind_eq_ok] at h; obtain ⟨r, hr, h⟩ := h
    cases h
    exact same rfl rfl
  | create d c =>
    simp only [Sched.step] at h
    rw [Out.bind_eq_ok] at h; obtain ⟨r, hr, h⟩ := h
    cases h
    exact same (unhang_same s c.ts).2.2.2.2.1 rfl
  | close d t =>
    simp only [Sched.step] at h
    rw [Out.bind_eq_ok] at h; obtain ⟨r, hr, h⟩ := h
    cases h
    exact same (unhang_same s t).2.2.2.2.1 rfl
  | hang t active =>
    simp only [Sched.step, Out.ok.injEq, Prod.mk.injEq] at h
    obtain ⟨rfl, rfl⟩ := h
    unfold Sched.setHang
    cases hk : Slots.idx t with
    | panic => simp only; exact .inr (by simp [SchedRet.signalsOn])
    | ok k =>
      simp only
      cases active with
      | true => simp only [if_true]; exact .inr (by simp [SchedRet.signalsOn])
      | false =>
        simp only [Bool.false_eq_true, if_false, Sched.dropAll]
        by_cases hi : i = k
        · subst hi
          refine .inl ?_
          simp only [Slots.upd_self, here_filter, h0]
          cases e <;> simp_all [DlElem.isWork, DlElem.isStealing, DlElem.isFrag, DlElem.isResource]
        · simp only [Slots.upd_ne _ _ hi]
          exact .inr (by simp [SchedRet.signalsOn])
  | systemWide b =>
    simp only [Sched.step, Out.ok.injEq, Prod.mk.injEq] at h
    obtain ⟨rfl, rfl⟩ := h
    exact same rfl rfl

/-- The signalling slots built on timeslot `t`. -/
def signalSlots (t : Nat) (tr : List (SchedEv × SchedRet)) : Nat := tr.countP (·.2.signalsOn t)

theorem here_still {d : Bool} {id : Nat} {q q' : List DlElem} {b : List (List Bool)} {r : List Report} (h : QTrack d id q q' b r) {e : DlElem}
    (h0 : here id q = [e]) (hw : e.isWork = true) : here id q' = [] ∨ ∃ e', here id q' = [e'] ∧ e'.isWork = true := by
  have hm := h.one e h0
  generalize here id q' = Q at hm ⊢
  cases hm with
  | wait hj =>
    refine .inr ⟨_, rfl, ?_⟩
    cases hj
    · exact hw
    · rfl
  | @serve _ e' f f' o blk new =>
    cases f'.done with
    | true => exact .inl rfl
    | false => exact .inr ⟨_, rfl, rfl⟩
  | steal => exact .inl rfl
  | drop => exact .inl rfl

theorem srun_live {id : Nat} {i : Fin 4} {es : List SchedEv} {s : Sched} (hs : SInv s) (hf : ∀ e ∈ es, e.Fine) (ha : Avoids id es)
    {r : Sched × List (SchedEv × SchedRet)} (h : s.run es = .ok r) (ho : ∀ j, j ≠ i → here id (s.queues j) = [])
    {e : DlElem} (h0 : here id (s.queues i) = [e]) (hw : e.isWork = true) :
    here id (r.1.queues i) = [] ∨ ((∃ e, here id (r.1.queues i) = [e] ∧ e.isWork = true) ∧
      upTo id (keys (r.1.queues i)) + signalSlots (i.val + 1) r.2 ≤ upTo id (keys (s.queues i))) := by
  induction es generalizing s r e with
  | nil => cases h; exact .inr ⟨⟨e, h0, hw⟩, by simp [signalSlots]⟩
  | cons ev es ih =>
    obtain ⟨a, tr, h1, h2, h3⟩ := srun_cons h
    obtain ⟨hs1, ht⟩ := step_track hs (hf ev (by simp)) (s' := a.1) (ret := a.2) h1
    have hid := ha ev (by simp)
    obtain ⟨t1, t2, t3⟩ := ht id hid i ho
    have hf' : ∀ e ∈ es, e.Fine := fun e he => hf e (by simp [he])
    have ha' : Avoids id es := fun e he => ha e (by simp [he])
    rcases here_still t2 h0 hw with hgone | ⟨e', he', hw'⟩
    · refine .inl ((srun_absent hs1 hf' ha' h2 ?_).1 i)
      intro j
      by_cases hj : j = i
      · rw [hj]; exact hgone
      · exact t1 j hj
    · rcases step_live hs h1 hid h0 hw with h4 | h4
      · rw [h4] at he'; cases he'
      · rcases ih hs1 hf' ha' h2 t1 he' hw' with h5 | ⟨h5, h6⟩
        · exact .inl h5
        · refine .inr ⟨h5, ?_⟩
          rw [h3]
          simp only [signalSlots, List.countP_cons] at h6 ⊢
          omega

theorem upTo_pos {id : Nat} {q : List DlElem} {e : DlElem} (h : here id q = [e]) (hw : e.isWork = true) : 1 ≤ upTo id (keys q) := by
  have hpos : ∀ x ∈ workOf q, 1 ≤ x.weight := by
    intro x hx
    obtain ⟨_, hx⟩ := workOf_mem hx
    obtain ⟨f, o, hfo⟩ := work_cases hx
    rw [fragger_wt hfo]; exact wt_pos f
  have hmem := keys_has h hw
  have : ∀ ks : List (Nat × Owner), (∀ k ∈ ks, 1 ≤ k.1) → (∃ k ∈ ks, k.2.isMsg id = true) → 1 ≤ upTo id ks := by
    intro ks h1 h2
    cases ks with
    | nil => obtain ⟨k, hk, _⟩ := h2; simp at hk
    | cons k ks =>
      have := h1 k (by simp)
      simp only [upTo]
      split <;> omega
  refine this _ ?_ hmem
  intro k hk
  obtain ⟨x, hx, rfl⟩ := List.mem_map.1 hk
  exact hpos x hx

end Verif.Umac
