import Verif.Umac.SchedFindings
/-!
# C47: one fragmented message at a time

MAC-FRAG and MAC-END PDUs carry no address: a station takes those on a timeslot for the continuation of the last
fragmented MAC-RESOURCE it heard there. So at any time at most one message may be begun and not finished on a timeslot.
The scheduler does not ensure this (`c47_interleaved`); it does as long as all headers have the same length.
-/
namespace Verif.Umac
open Verif.Bits Verif.Codec Verif.Tdma Verif.Mle

/-! ## Lemmas -/

/-- Work not begun, with a header of `n` bits. -/
def Fresh (n : Nat) (e : DlElem) : Prop := ∃ f o, e.fragger = some (f, o) ∧ f.hdrWritten = false ∧ f.resource.headerLen = .ok n

/-- All work but possibly the first is not begun. -/
def Line (n : Nat) : List DlElem → Prop
  | [] => True
  | e :: es => (Fresh n e ∨ ∃ f o, e.fragger = some (f, o) ∧ f.hdrWritten = true) ∧ ∀ x ∈ es, Fresh n x

theorem line_fresh {n : Nat} {es : List DlElem} (h : ∀ x ∈ es, Fresh n x) : Line n es := by
  cases es with
  | nil => trivial
  | cons e es => exact ⟨.inl (h e (by simp)), fun x hx => h x (by simp [hx])⟩

theorem round_fresh {n : Nat} {es : List DlElem} {b b' : Blk} {rs : List (Fragger × List Bool)} (h : Round es b rs b')
    (hu : ∀ e ∈ es, Fresh n e) :
    Line n (leftOver es rs) ∧ ((b.remaining < 32 ∨ b.remaining < n) → ∀ e ∈ leftOver es rs, Fresh n e) := by
  induction h with
  | nil => exact ⟨trivial, by simp [leftOver]⟩
  | @cons e f o es b b' f' new rs he hbk h1 h2 h3 ih =>
    obtain ⟨f0, o0, e1, e2, e3⟩ := hu e (by simp)
    rw [he] at e1; cases e1
    obtain ⟨i1, i2⟩ := ih (fun e he => hu e (by simp [he]))
    rw [leftOver_cons]
    have hmono : (⟨b.bits ++ new, b.cap⟩ : Blk).remaining ≤ b.remaining := by
      simp only [Blk.remaining, List.length_append]; omega
    cases h2 with
    | idle h0 _ =>
      obtain ⟨n', hn', hlt⟩ := h0 e2
      rw [e3] at hn'; cases hn'
      have hfr : ∀ x ∈ leftOver es rs, Fresh n x := i2 (by omega)
      have hall : ∀ x ∈ (if f.done = true then [] else [DlElem.frag f e.owner]) ++ leftOver es rs, Fresh n x := by
        intro x hx
        rw [List.mem_append] at hx
        rcases hx with hx | hx
        · split at hx
          · simp at hx
          · simp only [List.mem_singleton] at hx
            subst hx
            exact ⟨f, e.owner, rfl, e2, e3⟩
        · exact hfr x hx
      exact ⟨line_fresh hall, fun _ => hall⟩
    | whole =>
      simp only [if_true, List.nil_append]
      exact ⟨i1, fun h => i2 (by omega)⟩
    | start hdr k r hw hr henc hd hn hfull hlen h32 =>
      rw [e3] at hlen
      cases hlen
      have hzero : (⟨b.bits ++ (hdr ++ f.sdu.take k), b.cap⟩ : Blk).remaining = 0 := by
        have : b.remaining = b.cap - b.bits.length := rfl
        simp only [Blk.remaining, List.length_append, List.length_take]
        omega
      have hfr := i2 (.inl (by omega))
      refine ⟨?_, fun h => by omega⟩
      split
      · exact line_fresh hfr
      · exact ⟨.inr ⟨_, e.owner, rfl, rfl⟩, hfr⟩
    | frag k j hw => rw [e2] at hw; cases hw
    | fin k len hw => rw [e2] at hw; cases hw

theorem round_line {n : Nat} {es : List DlElem} {b' : Blk} {rs : List (Fragger × List Bool)} (h : Round es ⟨[], schFCap⟩ rs b')
    (hu : Line n es) : Line n (leftOver es rs) := by
  cases h with
  | nil => trivial
  | @cons e f o es _ b' f' new rs he hbk h1 h2 h3 =>
    obtain ⟨hh, ht⟩ := hu
    rcases hh with hh | ⟨f0, o0, e1, e2⟩
    · exact (round_fresh (.cons he hbk h1 h2 h3) (fun x hx => by
        rcases List.mem_cons.1 hx with rfl | hx
        · exact hh
        · exact ht x hx)).1
    · rw [he] at e1; cases e1
      obtain ⟨i1, i2⟩ := round_fresh h3 ht
      rw [leftOver_cons]
      cases h2 with
      | idle _ hi1 => have := hi1 e2; simp [Blk.remaining, schFCap] at this
      | whole _ _ _ hw => rw [e2] at hw; cases hw
      | start _ _ _ hw => rw [e2] at hw; cases hw
      | frag k j hw hn hprog hfull =>
        have hzero : (⟨(⟨[], schFCap⟩ : Blk).bits ++ ([false, true, false, decide (j > 0)] ++ (f.left.take k ++ fillPattern j)), (⟨[], schFCap⟩ : Blk).cap⟩ : Blk).remaining = 0 := by
          have : (⟨[], schFCap⟩ : Blk).remaining = schFCap := rfl
          rw [this] at hfull
          simp only [Blk.remaining, List.length_append, List.length_take, length_fillPattern, List.length_cons, List.length_nil]
          omega
        have hfr := i2 (.inl (by omega))
        split
        · exact line_fresh hfr
        · exact ⟨.inr ⟨_, e.owner, rfl, e2⟩, hfr⟩
      | fin => simp only [if_true, List.nil_append]; exact i1

/-! ## All calls -/

/-- Work on timeslot `i` is in line, and nothing there is to be joined with it. -/
structure InLine (n : Nat) (q : List DlElem) : Prop where
  line : Line n (workOf q)
  plain : ∀ e ∈ q, e.isGrantOrAck = false

/-- The call queues on timeslot `t` only messages with a header of `n` bits, no grants and no acknowledgements. -/
def SchedEv.Uniform (t n : Nat) : SchedEv → Prop
  | .grant t' _ _ => t' ≠ t
  | .ack t' _ => t' ≠ t
  | .message t' _ _ pdu _ => t' = t → pdu.headerLen = .ok n
  | _ => True

theorem line_snoc {n : Nat} {es : List DlElem} (h : Line n es) {e : DlElem} (he : Fresh n e) : Line n (es ++ [e]) := by
  cases es with
  | nil => exact ⟨.inl he, by simp⟩
  | cons x es =>
    refine ⟨h.1, ?_⟩
    intro y hy
    rcases List.mem_append.1 hy with hy | hy
    · exact h.2 y hy
    · rw [List.mem_singleton.1 hy]; exact he

theorem integrate_plain {q : List DlElem} (h : ∀ e ∈ q, e.isGrantOrAck = false) : integrate q = .ok q := by
  have h1 : q.filter (·.isGrantOrAck) = [] := by
    rw [List.filter_eq_nil_iff]; intro x hx; simp [h x hx]
  have h2 : q.filter (!·.isGrantOrAck) = q := by
    rw [List.filter_eq_self]; intro x hx; simp [h x hx]
  simp [integrate, h1, h2, integrateAll]

theorem workOf_takeStolen {q q' : List DlElem} {e : DlElem} (h : takeFirst (·.isStealing) q = some (e, q')) : workOf q' = workOf q := by
  obtain ⟨h1, _, _, h4, _⟩ := takeFirst_some h
  have : e.isFrag = false ∧ e.isResource = false := by
    cases e <;> simp_all [DlElem.isStealing, DlElem.isFrag, DlElem.isResource]
  simp only [workOf, h4 _ this.1, h4 _ this.2]

theorem signalling_line {n : Nat} {s : Sched} (hs : SInv s) {f : Nat} {i : Fin 4} {idle : Bool} {p : Part}
    (h : s.signallingPart f i idle = .ok p) (hl : InLine n (s.queues i)) : InLine n (p.s.queues i) := by
  unfold Sched.signallingPart at h
  rw [integrate_plain hl.plain, Out.bind_ok] at h
  rw [Out.bind_eq_ok] at h; obtain ⟨r, hr, h⟩ := h
  rw [Out.bind_eq_ok] at h; obtain ⟨b, hb, h⟩ := h
  simp only [Out.ok.injEq] at h
  subst h
  simp only [Slots.upd_self]
  have hm : Merged (s.queues i) := by
    obtain ⟨q1, e1, e2, e3, _⟩ := integrate_queue (hs.good i)
    rw [integrate_plain hl.plain] at e1; cases e1; exact e3
  rw [hs.next] at hr
  by_cases hf : f = 18
  · rw [hf, buildBlock_18] at hr
    cases hr
    exact hl
  · obtain ⟨rs, blk', hrd, k1, k2, k3, h1, h2⟩ := buildBlock_spec hf hm (hs.good i)
    have hor : stolenOf (s.queues i) = [] ∨ leftOver (workOf (s.queues i)) rs = [] := by
      by_cases ha : stolenOf (s.queues i) = []
      · exact .inl ha
      · by_cases hb : leftOver (workOf (s.queues i)) rs = []
        · exact .inr hb
        · rw [h2 ha hb] at hr; cases hr
    rw [h1 hor] at hr
    cases hr
    have hgw : ∀ e ∈ workOf (s.queues i), e.Good := fun e he => hs.good i e (workOf_mem he).1
    have hlf := leftOver_good hrd hgw
    refine ⟨?_, ?_⟩
    · simp only
      rw [workOf_left (fun e he => (hlf e he).2)]
      exact round_line hrd hl.line
    · intro e he
      rw [List.mem_append] at he
      rcases he with he | he
      · exact hl.plain e (List.mem_filter.1 he).1
      · have := (hlf e he).2
        cases e <;> simp_all [DlElem.isFrag, DlElem.isGrantOrAck]

theorem finalize_line {n : Nat} {s s' : Sched} {x : TickOut} (hs : SInv s) (h : s.finalize = .ok (s', x)) {i : Fin 4}
    (hl : InLine n (s.queues i)) : InLine n (s'.queues i) := by
  obtain ⟨_, i0, hi0, k2, _⟩ := finalize_track hs h
  obtain ⟨F⟩ := finalize_inv h
  have hs1 : SInv ({ s with pre := s.pre.stamp F.ts } : Sched) := ⟨hs.next, hs.good⟩
  have hi : F.i = i0 := by
    have := Slots.idx_ok.1 F.hi
    rw [F.hxt] at hi0
    apply Fin.ext; omega
  by_cases hii : i = i0
  · subst hii
    have hq : s'.queues = F.p.s.queues := by
      have := congrArg Sched.queues F.hs'
      exact this
    rw [hq, ← hi]
    rw [← hi] at hl
    rcases build_inv F.hi F.hp with ⟨h1, h2, h3, h4⟩ | ⟨_, h4⟩
    · cases (trafficPart_case F.hi h2 h1 h3 h4).2 with
      | traffic _ _ _ _ _ _ _ _ hsame => rw [hsame]; exact hl
      | stolen _ _ _ b o q hq _ hb _ _ hsame =>
        rw [hsame, Slots.upd_self]
        refine ⟨by rw [workOf_takeStolen hq]; exact hl.line, ?_⟩
        intro e he
        exact hl.plain e ((takeFirst_some hq).2.2.2.2.2.1 e he)
      | signalling hn => rcases hn with hn | hn <;> simp_all
      | idle _ _ hh => simp_all
      | nothing hn => rcases hn with hn | hn <;> simp_all
    · exact signalling_line hs1 h4 hl
  · rw [k2 i hii]; exact hl

theorem step_line {n : Nat} {s s' : Sched} {ev : SchedEv} {ret : SchedRet} (hs : SInv s) (h : s.step ev = .ok (s', ret)) {i : Fin 4}
    (hu : ev.Uniform (i.val + 1) n) (hl : InLine n (s.queues i)) : InLine n (s'.queues i) := by
  have pushed : ∀ {t : Nat} {el : DlElem}, s.push t el = .ok s' → el.isFrag = false →
      (t = i.val + 1 → el.isGrantOrAck = false ∧ (el.isResource = true → Fresh n el)) → InLine n (s'.queues i) := by
    intro t el hp hfr hel
    unfold Sched.push at hp
    rw [Out.bind_eq_ok] at hp; obtain ⟨k, hk, hp⟩ := hp
    cases hp
    rw [Out.ofRes_eq_ok] at hk
    by_cases hi : i = k
    · subst hi
      obtain ⟨h1, h2⟩ := hel (Slots.idx_ok.1 hk)
      simp only [Slots.upd_self]
      refine ⟨?_, ?_⟩
      · have hw : workOf (s.queues i ++ [el]) = workOf (s.queues i) ++ (if el.isResource then [el] else []) := by
          cases hr : el.isResource <;> simp [workOf, hfr, hr]
        rw [hw]
        cases hr : el.isResource with
        | false => simpa using hl.line
        | true => exact line_snoc hl.line (h2 hr)
      · intro e he
        rw [List.mem_append, List.mem_singleton] at he
        rcases he with he | rfl
        · exact hl.plain e he
        · exact h1
    · simp only [Slots.upd_ne _ _ hi]; exact hl
  cases ev with
  | tick =>
    simp only [Sched.step] at h
    rw [Out.bind_eq_ok] at h; obtain ⟨c, hc, h⟩ := h
    rw [Out.bind_eq_ok] at h; obtain ⟨r, hr, h⟩ := h
    cases h
    exact finalize_line (s := { s with cur := c }) ⟨hs.next, hs.good⟩ (s' := r.1) (x := r.2) hr hl
  | capReq t ssi code =>
    simp only [Sched.step] at h
    rw [Out.bind_eq_ok] at h; obtain ⟨r, hr, h⟩ := h
    cases h
    exact hl
  | grant t a g =>
    simp only [Sched.step] at h
    rw [Out.bind_eq_ok] at h; obtain ⟨r, hr, h⟩ := h
    cases h
    exact pushed hr rfl (fun ht => absurd ht hu)
  | ack t a =>
    simp only [Sched.step] at h
    rw [Out.bind_eq_ok] at h; obtain ⟨r, hr, h⟩ := h
    cases h
    exact pushed hr rfl (fun ht => absurd ht hu)
  | message t id rep pdu sdu =>
    simp only [Sched.step] at h
    rw [Out.bind_eq_ok] at h; obtain ⟨r, hr, h⟩ := h
    cases h
    exact pushed hr rfl (fun ht => ⟨rfl, fun _ => ⟨_, _, rfl, rfl, hu ht⟩⟩)
  | steal t id rep b =>
    simp only [Sched.step] at h
    rw [Out.bind_eq_ok] at h; obtain ⟨r, hr, h⟩ := h
    cases h
    exact pushed hr rfl (fun ht => ⟨rfl, by simp [DlElem.isResource]⟩)
  | takeRa t ssi =>
    simp only [Sched.step, Sched.takeRa] at h
    rw [Out.bind_eq_ok] at h; obtain ⟨r, hr, h⟩ := h
    rw [Out.bind_eq_ok] at hr; obtain ⟨j, hj, hr⟩ := hr
    cases hr
    cases h
    exact hl
  | voice t b =>
    simp only [Sched.step] at h
    rw [Out.bind_eq_ok] at h; obtain ⟨r, hr, h⟩ := h
    cases h
    exact hl
  | create d c =>
    simp only [Sched.step] at h
    rw [Out.bind_eq_ok] at h; obtain ⟨r, hr, h⟩ := h
    cases h
    simp only [(unhang_same s c.ts).2.2.2.2.1]; exact hl
  | close d t =>
    simp only [Sched.step] at h
    rw [Out.bind_eq_ok] at h; obtain ⟨r, hr, h⟩ := h
    cases h
    simp only [(unhang_same s t).2.2.2.2.1]; exact hl
  | hang t active =>
    simp only [Sched.step, Out.ok.injEq, Prod.mk.injEq] at h
    obtain ⟨rfl, rfl⟩ := h
    unfold Sched.setHang
    cases hk : Slots.idx t with
    | panic => exact hl
    | ok k =>
      simp only
      cases active with
      | true => exact hl
      | false =>
        simp only [Bool.false_eq_true, if_false, Sched.dropAll]
        by_cases hi : i = k
        · subst hi
          simp only [Slots.upd_self]
          have hw : workOf ((s.queues i).filter (·.isStealing)) = [] := by
            have := stolen_notWork (s.queues i)
            simp only [stolenOf] at this
            simp [workOf, this]
          exact ⟨by rw [hw]; trivial, fun e he => hl.plain e (List.mem_filter.1 he).1⟩
        · simp only [Slots.upd_ne _ _ hi]; exact hl
  | systemWide b =>
    simp only [Sched.step, Out.ok.injEq, Prod.mk.injEq] at h
    obtain ⟨rfl, rfl⟩ := h
    exact hl

theorem srun_line {n : Nat} {es : List SchedEv} {s : Sched} (hs : SInv s) (hf : ∀ e ∈ es, e.Fine) {i : Fin 4}
    (hu : ∀ e ∈ es, e.Uniform (i.val + 1) n) {r : Sched × List (SchedEv × SchedRet)}
    (h : s.run es = .ok r) (hl : InLine n (s.queues i)) : InLine n (r.1.queues i) := by
  induction es generalizing s r with
  | nil => cases h; exact hl
  | cons e es ih =>
    obtain ⟨a, tr, h1, h2, h3⟩ := srun_cons h
    have hs1 := (step_track hs (hf e (by simp)) (s' := a.1) (ret := a.2) h1).1
    exact ih (r := (r.1, tr)) hs1 (fun e he => hf e (by simp [he])) (fun e he => hu e (by simp [he])) h2
      (step_line hs (s' := a.1) (ret := a.2) h1 (hu e (by simp)) hl)

theorem send_written {blks : List Blk} {f f' : Fragger} {bits : List (List Bool)} (hf : f.Ok) (hb : ∀ b ∈ blks, b.Ok)
    (h : send f blks = .ok (f', bits)) : (f.hdrWritten = true → f'.hdrWritten = true) ∧ (f'.hdrWritten = false → bits.flatten = []) := by
  induction blks generalizing f bits with
  | nil => cases h; simp
  | cons b blks ih =>
    unfold send at h
    simp only [hf.busy, Bool.false_eq_true, if_false] at h
    rw [Out.bind_eq_ok] at h; obtain ⟨r, hr, h⟩ := h
    rw [Out.bind_eq_ok] at h; obtain ⟨q, hq, h⟩ := h
    cases h
    obtain ⟨f1, new, e1, e2⟩ := nextChunk_step f b hf (hb b (by simp))
    rw [hr] at e1; cases e1
    simp only [List.drop_left] at *
    have hih : (f1.hdrWritten = true → q.1.hdrWritten = true) ∧ (q.1.hdrWritten = false → q.2.flatten = []) := by
      rcases e2.ok hf with hd | hok
      · cases blks with
        | nil => simp only [send, Out.ok.injEq] at hq; subst hq; simp
        | cons b' blks => simp only [send, hd, if_true, Out.ok.injEq] at hq; subst hq; simp
      · exact ih hok (fun b hb' => hb b (by simp [hb'])) hq
    cases e2 with
    | idle => simpa using hih
    | whole => exact ⟨fun _ => hih.1 rfl, fun h => by rw [hih.1 rfl] at h; cases h⟩
    | start => exact ⟨fun _ => hih.1 rfl, fun h => by rw [hih.1 rfl] at h; cases h⟩
    | frag _ _ hw => exact ⟨fun _ => hih.1 hw, fun h => by rw [hih.1 hw] at h; cases h⟩
    | fin _ _ hw => exact ⟨fun _ => hih.1 hw, fun h => by rw [hih.1 hw] at h; cases h⟩

/-- A message which waits although a part of it has been sent. -/
theorem begun {x : Time} {scramb : Nat} {pre : Precomps} {es1 es2 : List SchedEv} {t id : Nat} {rep : Bool}
    {pdu : MacResource} {sdu : List Bool} (hf : ∀ e ∈ es1 ++ .message t id rep pdu sdu :: es2, e.Fine)
    (h1 : Avoids id es1) (h2 : Avoids id es2) {s' : Sched} {tr : List (SchedEv × SchedRet)}
    (h : (Sched.init x scramb pre).run (es1 ++ .message t id rep pdu sdu :: es2) = .ok (s', tr))
    (hb : (bitsIn id tr).flatten ≠ []) {i : Fin 4} (hi : t = i.val + 1) (hw : here id (s'.queues i) ≠ []) :
    ∃ f, here id (s'.queues i) = [.frag f (.msg id rep)] ∧ f.hdrWritten = true := by
  have hs : pdu.Sendable := hf (.message t id rep pdu sdu) (by simp)
  obtain ⟨i', hi', hst, _, _⟩ := message_stage hf h1 h2 h
  have : i' = i := by apply Fin.ext; omega
  subst this
  generalize hbb : bitsIn id tr = B at hst hb
  generalize hr : reportsIn id tr = R at hst
  generalize hq : here id (s'.queues i') = Q at hst hw
  cases hst with
  | queued hj => simp at hb
  | @started bits f hsd hd =>
    refine ⟨f, rfl, ?_⟩
    obtain ⟨pdu', blks, g1, g2, g3⟩ := hsd.sent
    have hok : (Fragger.new pdu' sdu).Ok := ⟨g1.sendable hs, by simp [Fragger.new], by simp [Fragger.new], rfl⟩
    cases hh : f.hdrWritten with
    | true => rfl
    | false => exact absurd ((send_written hok g2 g3).2 hh) hb
  | done => simp at hw
  | dropped => simp at hw

/-- C47. While all messages of a timeslot have headers of the same length and no grants or acknowledgements are joined
with them, at most one of them is at any time begun and not finished: of two messages which are both waiting
after part of each has been on the air, both are the same. -/
theorem c47_partial (x : Time) (scramb : Nat) (pre : Precomps) (es : List SchedEv) (t n : Nat) (hf : ∀ e ∈ es, e.Fine)
    (hu : ∀ e ∈ es, e.Uniform t n) (s' : Sched) (tr : List (SchedEv × SchedRet))
    (h : (Sched.init x scramb pre).run es = .ok (s', tr)) (i : Fin 4) (hi : t = i.val + 1)
    (a b : Nat) (es1 es2 es3 es4 : List SchedEv) (ra rb : Bool) (pa pb : MacResource) (sa sb : List Bool)
    (ha : es = es1 ++ .message t a ra pa sa :: es2) (ha1 : Avoids a es1) (ha2 : Avoids a es2)
    (hb : es = es3 ++ .message t b rb pb sb :: es4) (hb1 : Avoids b es3) (hb2 : Avoids b es4)
    (hpa : (bitsIn a tr).flatten ≠ [] ∧ here a (s'.queues i) ≠ []) (hpb : (bitsIn b tr).flatten ≠ [] ∧ here b (s'.queues i) ≠ []) :
    a = b := by
  have hl := srun_line (n := n) (i := i) (sinv_init x scramb pre) hf (by rw [← hi]; exact hu) h
    ⟨by simp [Sched.init, workOf, Line], by simp [Sched.init]⟩
  obtain ⟨fa, qa, wa⟩ := begun (by rw [← ha]; exact hf) ha1 ha2 (by rw [← ha]; exact h) hpa.1 hi hpa.2
  obtain ⟨fb, qb, wb⟩ := begun (by rw [← hb]; exact hf) hb1 hb2 (by rw [← hb]; exact h) hpb.1 hi hpb.2
  have mem : ∀ {id : Nat} {f : Fragger} {o : Owner}, here id (s'.queues i) = [.frag f o] → DlElem.frag f o ∈ workOf (s'.queues i) ∧
      (DlElem.frag f o).owner.isMsg id = true := by
    intro id f o hh
    have hm : DlElem.frag f o ∈ here id (s'.queues i) := by rw [hh]; simp
    obtain ⟨m1, m2⟩ := List.mem_filter.1 hm
    exact ⟨by rw [workOf, List.mem_append]; exact .inl (List.mem_filter.2 ⟨m1, rfl⟩), m2⟩
  have head : ∀ {f : Fragger} {o : Owner}, DlElem.frag f o ∈ workOf (s'.queues i) → f.hdrWritten = true →
      (workOf (s'.queues i)).head? = some (.frag f o) := by
    intro f o hm hw
    have hline := hl.line
    simp only at hline
    generalize workOf (s'.queues i) = W at hm hline
    cases W with
    | nil => simp at hm
    | cons e W =>
      rcases List.mem_cons.1 hm with rfl | hm
      · rfl
      · obtain ⟨f0, o0, q1, q2, _⟩ := hline.2 _ hm
        simp only [DlElem.fragger, Option.some.injEq, Prod.mk.injEq] at q1
        rw [← q1.1, hw] at q2; cases q2
  obtain ⟨ma, oa⟩ := mem qa
  obtain ⟨mb, ob⟩ := mem qb
  have h1 := head ma wa
  have h2 := head mb wb
  rw [h1] at h2
  simp only [Option.some.injEq, DlElem.frag.injEq, Owner.msg.injEq] at h2
  exact h2.2.1

/-- The hypotheses are met with one message begun and another waiting behind it. -/
example : (∀ e ∈ [msg 1 1 600, msg 1 2 400] ++ ticks 4, e.Uniform 1 43) ∧
    ∃ s tr, sampleRun ([msg 1 1 600, msg 1 2 400] ++ ticks 4) = .ok (s, tr) ∧ (bitsIn 1 tr).flatten ≠ [] ∧ here 1 (s.queues 0) ≠ [] ∧
      here 2 (s.queues 0) ≠ [] := by
  refine ⟨?_, ?_⟩
  · intro e he
    simp only [ticks, List.mem_append, List.mem_cons, List.not_mem_nil, or_false, List.mem_replicate] at he
    rcases he with (rfl | rfl) | ⟨_, rfl⟩
    · intro _; decide +kernel
    · intro _; decide +kernel
    · trivial
  · have h : (match sampleRun ([msg 1 1 600, msg 1 2 400] ++ ticks 4) with
      | .ok (s, tr) => !(bitsIn 1 tr).flatten.isEmpty && !(here 1 (s.queues 0)).isEmpty && !(here 2 (s.queues 0)).isEmpty
      | _ => false) = true := by decide +kernel
    split at h
    · rename_i s tr he
      exact ⟨s, tr, he, by simpa [and_assoc, List.isEmpty_iff] using h⟩
    · cases h

end Verif.Umac
