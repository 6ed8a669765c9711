import Verif.Umac.Grants
import Verif.Umac.SchedFindings
/-!
# Grants and acknowledgements are told to their station

C96: a grant or an acknowledgement asked for is told, on its timeslot and to its station, in the next slot which carries signalling,
unless that slot is more than half full; and no station is told what was not asked for it.
-/
namespace Verif.Umac
open Verif.Bits Verif.Codec Verif.Tdma Verif.Mle

/-! ## One slot -/

/-- The slot tells the station: one of its PDUs, read from the air, does. -/
def TickOut.Tells (y : TickOut) (ssi : Nat) (w : Told) : Prop :=
  ∃ o b p rest tail, (o, b) ∈ y.log ∧ y.slot.blk1.blk.bits = (y.log.map Prod.snd).flatten ++ tail ∧
    MacResource.dec.run b = .ok (p, rest) ∧ p.Tells ssi w

/-- A message not begun yet waits on timeslot `t` to tell the station. -/
def Waits (s : Sched) (t ssi : Nat) (w : Told) : Prop :=
  ∃ i : Fin 4, t = i.val + 1 ∧ ∃ f o, .frag f o ∈ s.queues i ∧ f.hdrWritten = false ∧ f.resource.Tells ssi w

theorem leftOver_mem {es : List DlElem} {rs : List (Fragger × List Bool)} {x : DlElem} (h : x ∈ leftOver es rs) :
    ∃ e f' new, (e, f', new) ∈ es.zip rs ∧ x = .frag f' e.owner := by
  simp only [leftOver, List.mem_filterMap] at h
  obtain ⟨⟨e, f', new⟩, h1, h2⟩ := h
  cases hd : f'.done <;> simp [hd] at h2
  exact ⟨e, f', new, h1, h2.symm⟩

theorem fragger_says {e : DlElem} {f : Fragger} {o : Owner} (h : e.fragger = some (f, o)) {ssi : Nat} {w : Told}
    (hw : f.resource.Tells ssi w) : e.Says ssi w := by
  cases e <;> simp only [DlElem.fragger, Option.some.injEq, Prod.mk.injEq, reduceCtorEq] at h
  · obtain ⟨rfl, rfl⟩ := h; exact hw
  · obtain ⟨rfl, rfl⟩ := h; exact hw

theorem block_says {f : Nat} {q : List DlElem} (hm : Merged q) (hg : ∀ e ∈ q, e.Good) {r : List DlElem × Build}
    (h : buildBlock f q [] = .ok r) {ssi : Nat} {w : Told} :
    (∀ x ∈ r.1, x.Says ssi w → ∃ y ∈ q, y.Says ssi w) ∧
    (∀ o b p rest, (o, b) ∈ r.2.log → MacResource.dec.run b = .ok (p, rest) → p.Tells ssi w → ∃ y ∈ q, y.Says ssi w) := by
  by_cases hf : f = 18
  · subst hf
    rw [buildBlock_18] at h
    cases h
    exact ⟨fun x hx hw => ⟨x, hx, hw⟩, by simp⟩
  · obtain ⟨rs, blk', h1, _, _, _, h5, h6⟩ := buildBlock_spec hf hm hg
    by_cases hor : stolenOf q = [] ∨ leftOver (workOf q) rs = []
    · rw [h5 hor] at h
      cases h
      refine ⟨?_, ?_⟩
      · intro x hx hw
        rcases List.mem_append.1 hx with hx | hx
        · exact ⟨x, (List.mem_filter.1 hx).1, hw⟩
        · obtain ⟨e, f', new, h7, rfl⟩ := leftOver_mem hx
          obtain ⟨g, o, blk, h8, h9, _⟩ := (round_each h1).2 e f' new h7
          exact ⟨e, (workOf_mem (List.of_mem_zip h7).1).1, fragger_says h8 ((step_tells h9).1 hw)⟩
      · intro o b p rest hl hd hw
        simp only [pieces, List.mem_map] at hl
        obtain ⟨⟨e, f', new⟩, h7, h8⟩ := hl
        cases h8
        obtain ⟨g, o, blk, h8, h9, _⟩ := (round_each h1).2 e f' new h7
        exact ⟨e, (workOf_mem (List.of_mem_zip h7).1).1, fragger_says h8 (step_reads h9 hd hw)⟩
    · rw [not_or] at hor
      rw [h6 hor.1 hor.2] at h
      cases h

/-- A message not begun yet has its turn: it is begun, or there is little room left and it waits. -/
theorem block_begins {f : Nat} (hf : f ≠ 18) {q : List DlElem} (hm : Merged q) (hg : ∀ e ∈ q, e.Good) {r : List DlElem × Build}
    (h : buildBlock f q [] = .ok r) {e : DlElem} {g : Fragger} {o : Owner} (he : e ∈ q) (hw : e.isWork = true)
    (hfr : e.fragger = some (g, o)) (h0 : g.hdrWritten = false) {ssi : Nat} {w : Told} (ht : g.resource.Tells ssi w) :
    ∃ blk, r.2.buf = some blk ∧ blk.bits = (r.2.log.map Prod.snd).flatten ∧
      ((∃ b p rest, (o, b) ∈ r.2.log ∧ MacResource.dec.run b = .ok (p, rest) ∧ p.Tells ssi w) ∨
        (140 < blk.bits.length ∧ .frag g o ∈ r.1)) := by
  obtain ⟨rs, blk', h1, _, hcap, h4, h5, h6⟩ := buildBlock_spec hf hm hg
  by_cases hor : stolenOf q = [] ∨ leftOver (workOf q) rs = []
  · rw [h5 hor] at h
    cases h
    have hmem : e ∈ workOf q := by
      simp only [DlElem.isWork, Bool.or_eq_true] at hw
      simp only [workOf, List.mem_append, List.mem_filter]
      rcases hw with hw | hw
      · exact .inl ⟨he, hw⟩
      · exact .inr ⟨he, hw⟩
    have hne : workOf q ≠ [] := List.ne_nil_of_mem hmem
    obtain ⟨f', new, hz⟩ := round_mem h1 hmem
    obtain ⟨g', o', blk, e1, e2, e3, e4⟩ := (round_each h1).2 e f' new hz
    rw [hfr] at e1
    cases e1
    refine ⟨blk', by simp [hne], h4, ?_⟩
    have ho := fragger_owner hfr
    rcases step_begins e2 (good_fragger (hg e he) hfr) h0 ht with ⟨p, rest, k1, k2⟩ | ⟨k1, rfl, k3⟩
    · refine .inl ⟨new, p, rest, ?_, k1, k2⟩
      simp only [pieces, List.mem_map]
      exact ⟨_, hz, by simp [ho]⟩
    · refine .inr ⟨?_, ?_⟩
      · simp only [Blk.remaining] at k1
        rw [show blk.cap = 268 from e3] at k1
        omega
      · refine List.mem_append_right _ (List.mem_filterMap.2 ⟨_, hz, ?_⟩)
        simp [k3, ho]
  · rw [not_or] at hor
    rw [h6 hor.1 hor.2] at h
    cases h

/-- Whatever waits in the queue of the timeslot: what the slot and the queue say afterwards was said before. -/
theorem part_says {s : Sched} (hs : SInv s) {f : Nat} {i : Fin 4} {idle : Bool} {p : Part} (h : s.signallingPart f i idle = .ok p)
    {ssi : Nat} {w : Told} :
    (∀ x ∈ p.s.queues i, x.Says ssi w → ∃ y ∈ s.queues i, y.Says ssi w) ∧
    (∀ o b pdu rest, (o, b) ∈ p.log → MacResource.dec.run b = .ok (pdu, rest) → pdu.Tells ssi w → ∃ y ∈ s.queues i, y.Says ssi w) := by
  unfold Sched.signallingPart at h
  rw [Out.bind_eq_ok] at h; obtain ⟨q, hq, h⟩ := h
  rw [Out.bind_eq_ok] at h; obtain ⟨r, hr, h⟩ := h
  rw [Out.bind_eq_ok] at h; obtain ⟨b, hb, h⟩ := h
  cases h
  rw [hs.next] at hr
  obtain ⟨q', k1, k2, k3, _⟩ := integrate_queue (hs.good i)
  rw [hq] at k1
  cases k1
  obtain ⟨j1, j2⟩ := block_says k3 k2 hr (ssi := ssi) (w := w)
  refine ⟨fun x hx hw => ?_, fun o b pdu rest hl hd hw => ?_⟩
  · simp only [Slots.upd_self] at hx
    obtain ⟨y, hy, hyw⟩ := j1 x hx hw
    exact integrate_says (hs.good i) hq hy hyw
  · obtain ⟨y, hy, hyw⟩ := j2 o b pdu rest hl hd hw
    exact integrate_says (hs.good i) hq hy hyw

/-- What has to be told on timeslot `i`: a grant or acknowledgement no later grant replaces, or a message not begun. -/
inductive Due (q : List DlElem) (ssi : Nat) (w : Told) : Prop
  | asked (l : List DlElem) (e : DlElem) (r : List DlElem) (hq : q = l ++ e :: r) (hk : e.isGrantOrAck = true) (hw : e.Says ssi w)
      (hs : ∀ x ∈ r, x.Spares ssi w)
  | begun (f : Fragger) (o : Owner) (hm : .frag f o ∈ q) (h0 : f.hdrWritten = false) (hw : f.resource.Tells ssi w)

theorem part_begins {s : Sched} (hs : SInv s) {f : Nat} (hf : f ≠ 18) {i : Fin 4} {idle : Bool} {p : Part}
    (h : s.signallingPart f i idle = .ok p) {ssi : Nat} {w : Told} (hd : Due (s.queues i) ssi w) :
    ∃ blk, p.blk1 = some ⟨.schF, blk, s.scramb⟩ ∧ blk.bits = (p.log.map Prod.snd).flatten ∧
      ((∃ o b pdu rest, (o, b) ∈ p.log ∧ MacResource.dec.run b = .ok (pdu, rest) ∧ pdu.Tells ssi w) ∨
        (140 < blk.bits.length ∧ ∃ g o, .frag g o ∈ p.s.queues i ∧ g.hdrWritten = false ∧ g.resource.Tells ssi w)) := by
  unfold Sched.signallingPart at h
  rw [Out.bind_eq_ok] at h; obtain ⟨q, hq, h⟩ := h
  rw [Out.bind_eq_ok] at h; obtain ⟨r, hr, h⟩ := h
  rw [Out.bind_eq_ok] at h; obtain ⟨b, hb, h⟩ := h
  cases h
  rw [hs.next] at hr
  obtain ⟨q', k1, k2, k3, _, k5, _⟩ := integrate_queue (hs.good i)
  rw [hq] at k1
  cases k1
  have fin : ∀ {e : DlElem} {g : Fragger} {o : Owner}, e ∈ q → e.isWork = true → e.fragger = some (g, o) → g.hdrWritten = false →
      g.resource.Tells ssi w → ∃ blk, b = some ⟨.schF, blk, s.scramb⟩ ∧ blk.bits = (r.2.log.map Prod.snd).flatten ∧
      ((∃ o b pdu rest, (o, b) ∈ r.2.log ∧ MacResource.dec.run b = .ok (pdu, rest) ∧ pdu.Tells ssi w) ∨
        (140 < blk.bits.length ∧ ∃ g o, .frag g o ∈ r.1 ∧ g.hdrWritten = false ∧ g.resource.Tells ssi w)) := by
    intro e g o he hw hfr h0 ht
    obtain ⟨blk, b1, b2, b3⟩ := block_begins hf k3 k2 hr he hw hfr h0 ht
    rw [b1] at hb
    cases hb
    refine ⟨blk, rfl, b2, ?_⟩
    rcases b3 with ⟨b, p, rest, c1, c2, c3⟩ | ⟨c1, c2⟩
    · exact .inl ⟨o, b, p, rest, c1, c2, c3⟩
    · exact .inr ⟨c1, g, o, c2, h0, ht⟩
  simp only [Slots.upd_self]
  cases hd with
  | asked l e r hq' hk hw hsp =>
    have he := hs.good i e (by rw [hq']; simp)
    rw [hq'] at hq
    obtain ⟨pdu, sdu, o, j1, j2⟩ := integrate_carries hq he hk hw hsp
    exact fin j1 rfl rfl rfl j2
  | begun f o hm h0 hw =>
    have : .frag f o ∈ q.filter (·.isFrag) := by
      rw [k5]
      exact List.mem_filter.2 ⟨hm, rfl⟩
    exact fin (List.mem_filter.1 this).1 rfl rfl h0 hw

/-! ## Ticks -/

theorem close_bits {r r' : TmvReq} (h : r.close = .ok r') : r'.chan = r.chan ∧ ∃ tail, r'.blk.bits = r.blk.bits ++ tail := by
  unfold TmvReq.close at h
  split at h
  · rw [Out.bind_eq_ok] at h; obtain ⟨p, hp, h⟩ := h
    rw [Out.bind_eq_ok] at h; obtain ⟨hd, hh, h⟩ := h
    rw [Out.bind_eq_ok] at h; obtain ⟨b, hb, h⟩ := h
    cases h
    unfold Blk.write at hb
    split at hb
    · cases hb; exact ⟨rfl, _, rfl⟩
    · cases hb
  · cases h; exact ⟨rfl, [], by simp⟩

theorem traffic_case {s : Sched} {t : Nat} {i : Fin 4} {p : Part} (h : s.trafficPart t i = .ok p) :
    (∃ b, p.blk1 = some b ∧ (b.chan = .tchS ∧ p.log = [] ∨ b.chan = .stch)) ∧
    (∀ x ∈ p.s.queues i, x ∈ s.queues i) ∧ (∀ f o, .frag f o ∈ s.queues i → .frag f o ∈ p.s.queues i) ∧
    (s.queues i = p.s.queues i ∨ ∃ e, e.isStealing = true ∧ takeFirst (·.isStealing) (s.queues i) = some (e, p.s.queues i)) := by
  unfold Sched.trafficPart at h
  rw [Out.bind_eq_ok] at h; obtain ⟨c, hc, h⟩ := h
  rw [Out.bind_eq_ok] at h; obtain ⟨tch, htch, h⟩ := h
  cases hq : takeFirst (·.isStealing) (s.queues i) with
  | none =>
    rw [hq] at h
    cases h
    exact ⟨⟨_, rfl, .inl ⟨rfl, rfl⟩⟩, fun x h => h, fun f o h => h, .inl rfl⟩
  | some r =>
    obtain ⟨e, q'⟩ := r
    rw [hq] at h
    obtain ⟨g1, _, _, _, g5, g6, _⟩ := takeFirst_some hq
    cases e <;> simp [DlElem.isStealing] at g1
    cases h
    simp only [Slots.upd_self]
    refine ⟨⟨_, rfl, .inr rfl⟩, g6, fun f o h => ?_, .inr ⟨_, rfl, rfl⟩⟩
    rcases g5 _ h with h | h
    · cases h
    · exact h

/-- One tick. -/
theorem tick_says {s s' : Sched} {y : TickOut} (hs : SInv s) (h : s.step .tick = .ok (s', .sent y)) :
    ∃ i : Fin 4, y.slot.ts.t = i.val + 1 ∧ (∀ j, j ≠ i → s'.queues j = s.queues j) ∧
      (∀ ssi w, ∀ x ∈ s'.queues i, x.Says ssi w → ∃ z ∈ s.queues i, z.Says ssi w) ∧
      (y.slot.blk1.chan ≠ .stch → ∀ ssi w o b pdu rest, (o, b) ∈ y.log → MacResource.dec.run b = .ok (pdu, rest) → pdu.Tells ssi w →
        ∃ z ∈ s.queues i, z.Says ssi w) ∧
      (∀ ssi w, Due (s.queues i) ssi w → y.slot.ts.f ≠ 18 → y.slot.blk1.chan ≠ .stch → y.slot.blk1.chan ≠ .tchS →
        y.Tells ssi w ∨ (140 < y.slot.blk1.blk.bits.length ∧ Waits s' y.slot.ts.t ssi w)) ∧
      (∀ ssi w f o, .frag f o ∈ s.queues i → f.hdrWritten = false → f.resource.Tells ssi w →
        y.Tells ssi w ∨ Waits s' y.slot.ts.t ssi w) := by
  simp only [Sched.step] at h
  rw [Out.bind_eq_ok] at h; obtain ⟨c, hc, h⟩ := h
  rw [Out.bind_eq_ok] at h; obtain ⟨r, hr, h⟩ := h
  cases h
  have hs1 : SInv ({ s with cur := c } : Sched) := ⟨hs.next, hs.good⟩
  obtain ⟨_, i0, hi0, hne, _⟩ := finalize_track hs1 hr
  obtain ⟨F⟩ := finalize_inv hr
  have hi : i0 = F.i := by
    have h2 := Slots.idx_ok.1 F.hi
    rw [F.hxt, h2] at hi0
    exact Fin.ext (by omega)
  subst hi
  have hs2 : SInv ({ ({ s with cur := c } : Sched) with pre := s.pre.stamp F.ts } : Sched) := ⟨hs.next, hs.good⟩
  have hq' : r.1.queues = F.p.s.queues := (congrArg Sched.queues F.hs').trans rfl
  have hfirst : ∀ b, F.p.blk1 = some b → F.b1 = b := by
    intro b hb
    have := F.hb1
    rw [hb] at this
    cases this; rfl
  obtain ⟨k1, tail, k2⟩ := close_bits F.hc1
  refine ⟨F.i, hi0, hne, ?_⟩
  rcases build_inv F.hi F.hp with ⟨_, hf, _, h⟩ | ⟨_, h⟩
  · obtain ⟨⟨b, hb, hb'⟩, t2, t3, _⟩ := traffic_case h
    have hchan : r.2.slot.blk1.chan = b.chan := by rw [k1, hfirst b hb]
    refine ⟨fun ssi w x hx hw => ⟨x, t2 x (hq' ▸ hx), hw⟩, ?_, ?_, fun ssi w f o hm h0 hw => .inr ⟨F.i, hi0, f, o, by rw [hq']; exact t3 f o hm, h0, hw⟩⟩
    · intro hn ssi w o b' pdu rest hl
      rcases hb' with ⟨_, hlog⟩ | hb'
      · rw [F.hxl, hlog] at hl; cases hl
      · exact absurd (hchan.trans hb') hn
    · intro ssi w _ _ hn1 hn2
      rcases hb' with ⟨hb', _⟩ | hb'
      · exact absurd (hchan.trans hb') hn2
      · exact absurd (hchan.trans hb') hn1
  · have due : ∀ ssi w, Due (s.queues F.i) ssi w → r.2.slot.ts.f ≠ 18 →
        r.2.Tells ssi w ∨ (140 < r.2.slot.blk1.blk.bits.length ∧ Waits r.1 r.2.slot.ts.t ssi w) := by
      intro ssi w hd hf
      rw [F.hxt] at hf
      obtain ⟨blk, b1, b2, b3⟩ := part_begins hs2 hf h hd
      have hb1 := hfirst _ b1
      rw [hb1] at k2
      rcases b3 with ⟨o, b, pdu, rest, c1, c2, c3⟩ | ⟨c1, g, o, c2, c3, c4⟩
      · refine .inl ⟨o, b, pdu, rest, tail, by rw [F.hxl]; exact c1, ?_, c2, c3⟩
        rw [k2, F.hxl, b2]
      · refine .inr ⟨by rw [k2]; simp only [List.length_append]; omega, F.i, hi0, g, o, by rw [hq']; exact c2, c3, c4⟩
    refine ⟨fun ssi w x hx hw => ?_, fun _ ssi w o b pdu rest hl hd hw => ?_, fun ssi w hd hf _ _ => due ssi w hd hf,
      fun ssi w f o hm h0 hw => ?_⟩
    · rw [hq'] at hx
      exact (part_says hs2 h).1 x hx hw
    · rw [F.hxl] at hl
      exact (part_says hs2 h).2 o b pdu rest hl hd hw
    · by_cases hf18 : r.2.slot.ts.f = 18
      · refine .inr ⟨F.i, hi0, f, o, ?_, h0, hw⟩
        rw [hq']
        rw [F.hxt] at hf18
        unfold Sched.signallingPart at h
        rw [Out.bind_eq_ok] at h; obtain ⟨q, hq, h⟩ := h
        rw [Out.bind_eq_ok] at h; obtain ⟨r', hr', h⟩ := h
        rw [Out.bind_eq_ok] at h; obtain ⟨b, hb, h⟩ := h
        rw [hf18, show ({ ({ s with cur := c } : Sched) with pre := s.pre.stamp F.ts } : Sched).next = [] from hs.next, buildBlock_18] at hr'
        cases hr'
        rw [Out.ok.injEq] at h
        rw [← h]
        simp only [Slots.upd_self]
        obtain ⟨q', j1, _, _, _, j5, _⟩ := integrate_queue (hs.good F.i)
        rw [show integrate (({ ({ s with cur := c } : Sched) with pre := s.pre.stamp F.ts } : Sched).queues F.i) = _ from j1] at hq
        cases hq
        have : .frag f o ∈ q.filter (·.isFrag) := by rw [j5]; exact List.mem_filter.2 ⟨hm, rfl⟩
        exact (List.mem_filter.1 this).1
      · rcases due ssi w (.begun f o hm h0 hw) hf18 with h | h
        · exact .inl h
        · exact .inr h.2

/-! ## Any call -/

/-- A call other than a tick of the timeslot, or the end of its hang time, only appends to the queue of the timeslot. -/
theorem step_appends {s s' : Sched} {e : SchedEv} {r : SchedRet} (hs : SInv s) (h : s.step e = .ok (s', r)) (i : Fin 4)
    (h1 : ∀ y, r = .sent y → y.slot.ts.t ≠ i.val + 1) (h2 : e ≠ .hang (i.val + 1) false) :
    ∃ d, s'.queues i = s.queues i ++ d ∧ (∀ x ∈ d, ∀ ssi w, x.Says ssi w → e.Asks (i.val + 1) ssi w ∨ e.Brings (i.val + 1) ssi w) ∧
      (∀ a g, .grant a g ∈ d → e = .grant (i.val + 1) a g) ∧ (∀ a g, e = .grant (i.val + 1) a g → d = [.grant a g]) ∧
      (∀ a, e = .ack (i.val + 1) a → d = [.ack a]) := by
  have same : s'.queues i = s.queues i → (∀ t a g, e ≠ .grant t a g) → (∀ t a, e ≠ .ack t a) →
      ∃ d, s'.queues i = s.queues i ++ d ∧ (∀ x ∈ d, ∀ ssi w, x.Says ssi w → e.Asks (i.val + 1) ssi w ∨ e.Brings (i.val + 1) ssi w) ∧
      (∀ a g, .grant a g ∈ d → e = .grant (i.val + 1) a g) ∧ (∀ a g, e = .grant (i.val + 1) a g → d = [.grant a g]) ∧
      (∀ a, e = .ack (i.val + 1) a → d = [.ack a]) :=
    fun hq hg ha => ⟨[], by simp [hq], by simp, by simp, fun a g h => absurd h (hg _ a g), fun a h => absurd h (ha _ a)⟩
  have pushed : ∀ {t : Nat} {x : DlElem} {s1 : Sched}, s.push t x = .ok s1 →
      (t ≠ i.val + 1 ∧ s1.queues i = s.queues i) ∨ (t = i.val + 1 ∧ s1.queues i = s.queues i ++ [x]) := by
    intro t x s1 hp
    unfold Sched.push at hp
    rw [Out.bind_eq_ok] at hp; obtain ⟨j, hj, hp⟩ := hp
    cases hp
    have ht := Slots.idx_ok.1 (Out.ofRes_eq_ok.1 hj)
    by_cases hij : i = j
    · subst hij; exact .inr ⟨ht, by simp⟩
    · refine .inl ⟨fun h => hij (Fin.ext (by omega)), ?_⟩
      simp only [Slots.upd_ne _ _ hij]
  cases e with
  | tick =>
    simp only [Sched.step] at h
    rw [Out.bind_eq_ok] at h; obtain ⟨c, hc, h⟩ := h
    rw [Out.bind_eq_ok] at h; obtain ⟨q, hq, h⟩ := h
    cases h
    obtain ⟨_, i0, hi0, hne, _⟩ := finalize_track (s := { s with cur := c }) ⟨hs.next, hs.good⟩ hq
    refine same (hne i ?_) (by simp) (by simp)
    rintro rfl
    exact h1 _ rfl hi0
  | capReq t ssi code =>
    simp only [Sched.step] at h
    rw [Out.bind_eq_ok] at h; obtain ⟨q, hq, h⟩ := h
    cases h
    exact same rfl (by simp) (by simp)
  | grant t a g =>
    simp only [Sched.step] at h
    rw [Out.bind_eq_ok] at h; obtain ⟨q, hq, h⟩ := h
    cases h
    rcases pushed hq with ⟨ht, hq'⟩ | ⟨rfl, hq'⟩
    · exact ⟨[], by simp [hq'], by simp, by simp, fun a' g' h => (by cases h; exact absurd rfl ht), by simp⟩
    · refine ⟨_, hq', ?_, ?_, ?_, by simp⟩
      · intro x hx ssi w hw
        rw [List.mem_singleton] at hx
        subst hx
        obtain ⟨h1, rfl⟩ := hw
        exact .inl (.grant a g h1)
      · intro a' g' h; simp at h; simp [h]
      · intro a' g' h; cases h; rfl
  | ack t a =>
    simp only [Sched.step] at h
    rw [Out.bind_eq_ok] at h; obtain ⟨q, hq, h⟩ := h
    cases h
    rcases pushed hq with ⟨ht, hq'⟩ | ⟨rfl, hq'⟩
    · exact ⟨[], by simp [hq'], by simp, by simp, by simp, fun a' h => (by cases h; exact absurd rfl ht)⟩
    · refine ⟨_, hq', ?_, by simp, by simp, fun a' h => by cases h; rfl⟩
      intro x hx ssi w hw
      rw [List.mem_singleton] at hx
      subst hx
      obtain ⟨h1, rfl⟩ := hw
      exact .inl (.ack a h1)
  | message t id rep pdu sdu =>
    simp only [Sched.step] at h
    rw [Out.bind_eq_ok] at h; obtain ⟨q, hq, h⟩ := h
    cases h
    rcases pushed hq with ⟨ht, hq'⟩ | ⟨rfl, hq'⟩
    · exact same hq' (by simp) (by simp)
    · refine ⟨_, hq', ?_, by simp, by simp, by simp⟩
      intro x hx ssi w hw
      rw [List.mem_singleton] at hx
      subst hx
      exact .inr ⟨id, rep, pdu, sdu, rfl, hw⟩
  | steal t id rep b =>
    simp only [Sched.step] at h
    rw [Out.bind_eq_ok] at h; obtain ⟨q, hq, h⟩ := h
    cases h
    rcases pushed hq with ⟨ht, hq'⟩ | ⟨rfl, hq'⟩
    · exact same hq' (by simp) (by simp)
    · refine ⟨_, hq', ?_, by simp, by simp, by simp⟩
      intro x hx ssi w hw
      rw [List.mem_singleton] at hx
      subst hx
      exact hw.elim
  | takeRa t ssi =>
    simp only [Sched.step, Sched.takeRa] at h
    rw [Out.bind_eq_ok] at h; obtain ⟨q, hq, h⟩ := h
    rw [Out.bind_eq_ok] at hq; obtain ⟨j, hj, hq⟩ := hq
    cases hq
    cases h
    exact same rfl (by simp) (by simp)
  | voice t b =>
    simp only [Sched.step] at h
    rw [Out.bind_eq_ok] at h; obtain ⟨q, hq, h⟩ := h
    cases h
    exact same rfl (by simp) (by simp)
  | create d c =>
    simp only [Sched.step] at h
    rw [Out.bind_eq_ok] at h; obtain ⟨q, hq, h⟩ := h
    cases h
    refine same ?_ (by simp) (by simp)
    simp only [Sched.unhang]; split <;> rfl
  | close d t =>
    simp only [Sched.step] at h
    rw [Out.bind_eq_ok] at h; obtain ⟨q, hq, h⟩ := h
    cases h
    refine same ?_ (by simp) (by simp)
    simp only [Sched.unhang]; split <;> rfl
  | hang t a =>
    simp only [Sched.step, Out.ok.injEq, Prod.mk.injEq] at h
    obtain ⟨rfl, rfl⟩ := h
    refine same ?_ (by simp) (by simp)
    unfold Sched.setHang
    cases hi : Slots.idx t with
    | panic => rfl
    | ok j =>
      cases a with
      | true => rfl
      | false =>
        have ht := Slots.idx_ok.1 hi
        have hij : i ≠ j := by rintro rfl; exact h2 (by rw [ht])
        simp only [Sched.dropAll, Bool.false_eq_true, if_false, Slots.upd_ne _ _ hij]
  | systemWide b =>
    simp only [Sched.step, Out.ok.injEq, Prod.mk.injEq] at h
    obtain ⟨rfl, rfl⟩ := h
    exact same rfl (by simp) (by simp)

theorem hang_says {s s' : Sched} {t : Nat} {r : SchedRet} (h : s.step (.hang t false) = .ok (s', r)) (i : Fin 4) :
    ∀ x ∈ s'.queues i, x ∈ s.queues i := by
  simp only [Sched.step, Out.ok.injEq, Prod.mk.injEq] at h
  obtain ⟨rfl, rfl⟩ := h
  intro x hx
  unfold Sched.setHang at hx
  cases hi : Slots.idx t with
  | panic => rw [hi] at hx; exact hx
  | ok j =>
    rw [hi] at hx
    simp only [Sched.dropAll, Bool.false_eq_true, if_false] at hx
    by_cases hij : i = j
    · subst hij
      simp only [Slots.upd_self] at hx
      exact (List.mem_filter.1 hx).1
    · simpa only [Slots.upd_ne _ _ hij] using hx

/-- The history asks for it, or brings a message which tells it. -/
def Ordered (h : List (SchedEv × SchedRet)) (t ssi : Nat) (w : Told) : Prop :=
  ∃ q ∈ h, q.1.Asks t ssi w ∨ q.1.Brings t ssi w

theorem Ordered.snoc {h : List (SchedEv × SchedRet)} {t ssi : Nat} {w : Told} (ho : Ordered h t ssi w) (l : List (SchedEv × SchedRet)) :
    Ordered (h ++ l) t ssi w := by
  obtain ⟨q, hq, h⟩ := ho
  exact ⟨q, by simp [hq], h⟩

theorem step_ordered {s s' : Sched} {e : SchedEv} {r : SchedRet} (hs : SInv s) (h : s.step e = .ok (s', r))
    {tr : List (SchedEv × SchedRet)} (ho : ∀ i : Fin 4, ∀ x ∈ s.queues i, ∀ ssi w, x.Says ssi w → Ordered tr (i.val + 1) ssi w) :
    ∀ i : Fin 4, ∀ x ∈ s'.queues i, ∀ ssi w, x.Says ssi w → Ordered (tr ++ [(e, r)]) (i.val + 1) ssi w := by
  intro i x hx ssi w hw
  by_cases h1 : ∃ y, r = .sent y ∧ y.slot.ts.t = i.val + 1
  · obtain ⟨y, rfl, hy⟩ := h1
    have he : e = .tick := by
      cases e <;> first | rfl | skip
      all_goals
        simp only [Sched.step] at h
        try (rw [Out.bind_eq_ok] at h; obtain ⟨q, _, h⟩ := h)
        cases h
    subst he
    obtain ⟨j, k1, _, k3, _⟩ := tick_says hs h
    have : i = j := Fin.ext (by omega)
    subst this
    obtain ⟨z, hz, hzw⟩ := k3 ssi w x hx hw
    exact (ho i z hz ssi w hzw).snoc _
  · by_cases h2 : e = .hang (i.val + 1) false
    · subst h2
      exact (ho i x (hang_says h i x hx) ssi w hw).snoc _
    · obtain ⟨d, hd, k1, _⟩ := step_appends hs h i (fun y hy ht => h1 ⟨y, hy, ht⟩) h2
      rw [hd] at hx
      rcases List.mem_append.1 hx with hx | hx
      · exact (ho i x hx ssi w hw).snoc _
      · exact ⟨(e, r), by simp, k1 x hx ssi w hw⟩

/-- A history in two parts. -/
theorem srun_split {s s' : Sched} {es : List SchedEv} {h1 h2 : List (SchedEv × SchedRet)} (h : s.run es = .ok (s', h1 ++ h2)) :
    ∃ es1 es2 s1, es = es1 ++ es2 ∧ s.run es1 = .ok (s1, h1) ∧ s1.run es2 = .ok (s', h2) := by
  induction h1 generalizing s es with
  | nil => exact ⟨[], es, s, rfl, rfl, h⟩
  | cons p h1 ih =>
    cases es with
    | nil => cases h
    | cons e es =>
      obtain ⟨a, tr, k1, k2, k3⟩ := srun_cons h
      simp only [List.cons_append, List.cons.injEq] at k3
      obtain ⟨rfl, rfl⟩ := k3
      obtain ⟨es1, es2, s1, rfl, k4, k5⟩ := ih k2
      exact ⟨e :: es1, es2, s1, rfl, by simp [Sched.run, k1, k4], k5⟩

theorem srun_one {s s' : Sched} {es : List SchedEv} {e : SchedEv} {r : SchedRet} (h : s.run es = .ok (s', [(e, r)])) :
    es = [e] ∧ s.step e = .ok (s', r) := by
  cases es with
  | nil => cases h
  | cons e' es =>
    obtain ⟨a, tr, k1, k2, k3⟩ := srun_cons h
    simp only [List.cons.injEq, Prod.mk.injEq] at k3
    obtain ⟨⟨rfl, rfl⟩, rfl⟩ := k3
    cases es with
    | nil => cases k2; exact ⟨rfl, k1⟩
    | cons b es =>
      obtain ⟨a', tr, _, _, k3⟩ := srun_cons k2
      cases k3

theorem srun_ordered {es : List SchedEv} : ∀ {s s' : Sched} {h0 h : List (SchedEv × SchedRet)}, SInv s → (∀ e ∈ es, e.Fine) →
    (∀ i : Fin 4, ∀ x ∈ s.queues i, ∀ ssi w, x.Says ssi w → Ordered h0 (i.val + 1) ssi w) → s.run es = .ok (s', h) →
    ∀ i : Fin 4, ∀ x ∈ s'.queues i, ∀ ssi w, x.Says ssi w → Ordered (h0 ++ h) (i.val + 1) ssi w := by
  induction es with
  | nil => intro s s' h0 h _ _ ho hr; cases hr; simpa using ho
  | cons e es ih =>
    intro s s' h0 h hs hf ho hr
    obtain ⟨a, tr, k1, k2, k3⟩ := srun_cons hr
    simp only at k3
    subst k3
    have := ih (step_track hs (hf e (by simp)) k1).1 (fun e he => hf e (by simp [he])) (step_ordered hs k1 ho) k2
    simpa using this

/-! ## C96 -/

variable {x : Time} {scramb : Nat} {pre : Precomps} {es : List SchedEv} {s : Sched}

/-- **C96, to no other.** Whatever the history: when a slot tells a station that it has been granted slots, or that its random access
was heard, this was asked for, for this station and on the timeslot of this slot; or it stood in the header of the message as it was
handed over. (Stolen half slots are sent as they were handed over.) -/
theorem c96_only {h : List (SchedEv × SchedRet)} {y : TickOut}
    (hr : (Sched.init x scramb pre).run es = .ok (s, h ++ [(.tick, .sent y)])) (hf : ∀ e ∈ es, e.Fine) (hc : y.slot.blk1.chan ≠ .stch)
    {o : Owner} {b : List Bool} (hb : (o, b) ∈ y.log) {p : MacResource} {rest : List Bool} (hp : MacResource.dec.run b = .ok (p, rest))
    {ssi : Nat} {w : Told} (hw : p.Tells ssi w) : ∃ q ∈ h, q.1.Asks y.slot.ts.t ssi w ∨ q.1.Brings y.slot.ts.t ssi w := by
  obtain ⟨es1, es2, s1, rfl, k1, k2⟩ := srun_split hr
  obtain ⟨rfl, k3⟩ := srun_one k2
  have hs1 := srun_inv (sinv_init x scramb pre) (fun e he => hf e (by simp [he])) k1
  obtain ⟨i, hi, _, _, h4, _⟩ := tick_says hs1 k3
  obtain ⟨z, hz, hzw⟩ := h4 hc ssi w o b p rest hb hp hw
  have := srun_ordered (h0 := []) (sinv_init x scramb pre) (fun e he => hf e (by simp [he])) (fun i x hx => by simp [Sched.init] at hx) k1 i z hz
    ssi w hzw
  rw [hi]
  exact this

/-- What may come between the request and the slot: no slot of the timeslot, no end of its hang time, and no further grant for the station
if it is about a grant. -/
def Undisturbed (t ssi : Nat) (w : Told) (h : List (SchedEv × SchedRet)) : Prop :=
  ∀ q ∈ h, (∀ y, q.2 = .sent y → y.slot.ts.t ≠ t) ∧ q.1 ≠ .hang t false ∧ ∀ g g', w = .grant g → ¬ q.1.Asks t ssi (.grant g')

theorem run_due {es : List SchedEv} : ∀ {s s' : Sched} {h : List (SchedEv × SchedRet)} {i : Fin 4} {ssi : Nat} {w : Told}, SInv s →
    (∀ e ∈ es, e.Fine) → s.run es = .ok (s', h) → Undisturbed (i.val + 1) ssi w h →
    ∃ d, s'.queues i = s.queues i ++ d ∧ ∀ x ∈ d, x.Spares ssi w := by
  induction es with
  | nil => intro s s' h i ssi w _ _ hr _; cases hr; exact ⟨[], by simp⟩
  | cons e es ih =>
    intro s s' h i ssi w hs hf hr hu
    obtain ⟨a, tr, k1, k2, k3⟩ := srun_cons hr
    simp only at k3
    subst k3
    obtain ⟨u1, u2, u3⟩ := hu (e, a.2) (by simp)
    obtain ⟨d, hd, _, hg, _⟩ := step_appends hs k1 i u1 u2
    obtain ⟨d', hd', hs'⟩ := ih (i := i) (ssi := ssi) (w := w) (step_track hs (hf e (by simp)) k1).1 (fun e he => hf e (by simp [he])) k2
      (fun q hq => hu q (by simp [hq]))
    refine ⟨d ++ d', by rw [hd', hd, List.append_assoc], ?_⟩
    intro z hz
    rcases List.mem_append.1 hz with hz | hz
    · intro b g g' hw he hb
      subst he
      exact u3 g g' hw (by rw [hg b g' hz]; exact .grant b g' hb)
    · exact hs' z hz

/-- **C96, in the next slot.** Whatever the history: a grant or an acknowledgement asked for on timeslot `t` is told to its station in the
next slot of this timeslot, if that is not in frame 18 and does not carry traffic; or that slot is more than half full (of 268 bits, over
140 are used) and a message which tells it waits on the timeslot. -/
theorem c96_told {h1 h2 : List (SchedEv × SchedRet)} {e : SchedEv} {r : SchedRet} {y : TickOut} {t ssi : Nat} {w : Told}
    (hr : (Sched.init x scramb pre).run es = .ok (s, h1 ++ ((e, r) :: (h2 ++ [(.tick, .sent y)])))) (hf : ∀ e ∈ es, e.Fine)
    (he : e.Asks t ssi w) (hu : Undisturbed t ssi w h2) (ht : y.slot.ts.t = t) (h18 : y.slot.ts.f ≠ 18)
    (hc : y.slot.blk1.chan ≠ .stch ∧ y.slot.blk1.chan ≠ .tchS) :
    y.Tells ssi w ∨ (140 < y.slot.blk1.blk.bits.length ∧ Waits s t ssi w) := by
  obtain ⟨es1, es2, s1, rfl, k1, k2⟩ := srun_split hr
  rw [show (e, r) :: (h2 ++ [(SchedEv.tick, SchedRet.sent y)]) = [(e, r)] ++ (h2 ++ [(.tick, .sent y)]) from rfl] at k2
  obtain ⟨es3, es4, s2, rfl, k3, k4⟩ := srun_split k2
  obtain ⟨es5, es6, s3, rfl, k5, k6⟩ := srun_split k4
  obtain ⟨rfl, k3'⟩ := srun_one k3
  obtain ⟨rfl, k6'⟩ := srun_one k6
  clear k3 k6 k2 k4
  have i1 := srun_inv (sinv_init x scramb pre) (fun e he => hf e (by simp [he])) k1
  have i2 := (step_track i1 (hf e (by simp)) k3').1
  have i3 := srun_inv i2 (fun e he => hf e (by simp [he])) k5
  obtain ⟨i, hi, _, _, _, h5, _⟩ := tick_says i3 k6'
  have hti : t = i.val + 1 := by rw [← ht, hi]
  subst hti
  obtain ⟨d, hd, hsp⟩ := run_due (i := i) i2 (fun e he => hf e (by simp [he])) k5 hu
  have hask : ∃ z, s2.queues i = s1.queues i ++ [z] ∧ z.isGrantOrAck = true ∧ z.Says ssi w := by
    have hret : ∀ y, r = .sent y → y.slot.ts.t ≠ i.val + 1 := by
      intro y hy
      subst hy
      cases he <;>
      · simp only [Sched.step] at k3'
        rw [Out.bind_eq_ok] at k3'; obtain ⟨q, _, k3'⟩ := k3'
        cases k3'
    cases he with
    | grant a g ha =>
      obtain ⟨d, hd, _, _, hg, _⟩ := step_appends i1 k3' i hret (by simp)
      exact ⟨.grant a g, by rw [hd, hg a g rfl], rfl, ha, rfl⟩
    | ack a ha =>
      obtain ⟨d, hd, _, _, _, hg⟩ := step_appends i1 k3' i hret (by simp)
      exact ⟨.ack a, by rw [hd, hg a rfl], rfl, ha, rfl⟩
  obtain ⟨z, hz, hk, hzw⟩ := hask
  rw [hz] at hd
  have hdue : Due (s3.queues i) ssi w := .asked (s1.queues i) z d (by rw [hd]; simp) hk hzw hsp
  rcases h5 ssi w hdue h18 hc.1 hc.2 with h | ⟨h, h'⟩
  · exact .inl h
  · exact .inr ⟨h, by rw [← hi]; exact h'⟩

/-- **C96, it keeps waiting.** A message which waits to tell a station is not lost or changed by any call but the end of the hang time of its
timeslot: it waits on, or a slot of its timeslot tells the station. -/
theorem c96_waits {s s' : Sched} {e : SchedEv} {r : SchedRet} {t ssi : Nat} {w : Told} (hs : SInv s) (h : s.step e = .ok (s', r))
    (hw : Waits s t ssi w) (he : e ≠ .hang t false) :
    Waits s' t ssi w ∨ ∃ y, r = .sent y ∧ y.slot.ts.t = t ∧ y.Tells ssi w := by
  obtain ⟨i, rfl, f, o, hm, h0, hw⟩ := hw
  by_cases h1 : ∃ y, r = .sent y ∧ y.slot.ts.t = i.val + 1
  · obtain ⟨y, rfl, hy⟩ := h1
    have he : e = .tick := by
      cases e <;> first | rfl | skip
      all_goals
        simp only [Sched.step] at h
        try (rw [Out.bind_eq_ok] at h; obtain ⟨q, _, h⟩ := h)
        cases h
    subst he
    obtain ⟨j, k1, _, _, _, _, k6⟩ := tick_says hs h
    have : i = j := Fin.ext (by omega)
    subst this
    rcases k6 ssi w f o hm h0 hw with h | h
    · exact .inr ⟨y, rfl, hy, h⟩
    · rw [hy] at h; exact .inl h
  · obtain ⟨d, hd, _⟩ := step_appends hs h i (fun y hy ht => h1 ⟨y, hy, ht⟩) he
    exact .inl ⟨i, rfl, f, o, by rw [hd]; simp [hm], h0, hw⟩

/-! ## Acknowledgements thrown away with the hang time -/

/-- The random accesses of a timeslot not acknowledged yet: those waiting for a slot with signalling, and those whose acknowledgement was
thrown away. -/
structure Book where
  opened : List Nat
  pending : List Nat
  deriving DecidableEq

def Book.after (t : Nat) (b : Book) : SchedEv × SchedRet → Book
  | (.ack t' a, _) => if t' = t then { b with opened := b.opened ++ [a.ssi] } else b
  | (.tick, .sent y) => if y.slot.ts.t = t ∧ y.slot.blk1.chan ≠ .tchS ∧ y.slot.blk1.chan ≠ .stch then { b with opened := [] } else b
  | (.hang t' false, _) => if t' = t then ⟨[], b.pending ++ b.opened⟩ else b
  | (.takeRa t' ssi, _) => if t' = t then { b with pending := b.pending.erase ssi } else b
  | _ => b

def bookOf (t : Nat) (h : List (SchedEv × SchedRet)) : Book := h.foldl (Book.after t) ⟨[], []⟩

structure Booked (s : Sched) (i : Fin 4) (b : Book) : Prop where
  opened : (s.queues i).flatMap DlElem.ackSsi = b.opened
  pending : s.pendingRa i = b.pending

theorem noAck_flatMap {q : List DlElem} (h : ∀ x ∈ q, x.isGrantOrAck = false) : q.flatMap DlElem.ackSsi = [] := by
  rw [List.flatMap_eq_nil_iff]
  intro x hx
  have := h x hx
  cases x <;> first | rfl | (simp [DlElem.isGrantOrAck] at this)

theorem block_noAck {f : Nat} {q : List DlElem} (hm : Merged q) (hg : ∀ e ∈ q, e.Good) {r : List DlElem × Build}
    (h : buildBlock f q [] = .ok r) : ∀ x ∈ r.1, x.isGrantOrAck = false := by
  by_cases hf : f = 18
  · subst hf
    rw [buildBlock_18] at h
    cases h
    intro x hx
    simpa using List.filter_eq_nil_iff.1 hm x hx
  · obtain ⟨rs, blk', h1, _, _, _, h5, h6⟩ := buildBlock_spec hf hm hg
    by_cases hor : stolenOf q = [] ∨ leftOver (workOf q) rs = []
    · rw [h5 hor] at h
      cases h
      intro x hx
      rcases List.mem_append.1 hx with hx | hx
      · have := (List.mem_filter.1 hx).2
        cases x <;> simp_all [DlElem.isStealing, DlElem.isGrantOrAck]
      · obtain ⟨e, f', new, _, rfl⟩ := leftOver_mem hx
        rfl
    · rw [not_or] at hor
      rw [h6 hor.1 hor.2] at h
      cases h

theorem default_chan {pre : Precomps} {scramb : Nat} {ts : Time} {b : TmvReq} (h : defaultBlk pre scramb ts = .ok b) :
    b.chan ≠ .tchS ∧ b.chan ≠ .stch := by
  unfold defaultBlk at h
  split at h
  · unfold syncBlk at h
    rw [Out.bind_eq_ok] at h; obtain ⟨_, _, h⟩ := h
    rw [Out.bind_eq_ok] at h; obtain ⟨_, _, h⟩ := h
    rw [Out.bind_eq_ok] at h; obtain ⟨_, _, h⟩ := h
    rw [Out.bind_eq_ok] at h; obtain ⟨_, _, h⟩ := h
    cases h; simp
  · split at h
    · split at h <;>
      · rw [Out.bind_eq_ok] at h; obtain ⟨_, _, h⟩ := h
        cases h; simp
    · cases h

theorem takeFirst_ack {q q' : List DlElem} {e : DlElem} (h : takeFirst (·.isStealing) q = some (e, q')) :
    q.flatMap DlElem.ackSsi = q'.flatMap DlElem.ackSsi := by
  induction q generalizing q' with
  | nil => cases h
  | cons a q ih =>
    unfold takeFirst at h
    by_cases hp : a.isStealing = true
    · simp only [hp, if_true, Option.some.injEq, Prod.mk.injEq] at h
      obtain ⟨rfl, rfl⟩ := h
      cases a <;> simp [DlElem.isStealing] at hp
      simp [DlElem.ackSsi]
    · simp only [hp, if_false, Option.map_eq_some_iff, Prod.exists, Prod.mk.injEq, Bool.false_eq_true] at h
      obtain ⟨e', q'', h1, rfl, rfl⟩ := h
      simp [ih h1]

theorem tick_booked {s s' : Sched} {y : TickOut} (hs : SInv s) (h : s.step .tick = .ok (s', .sent y)) {i : Fin 4} {b : Book}
    (hb : Booked s i b) : Booked s' i (b.after (i.val + 1) (.tick, .sent y)) := by
  simp only [Sched.step] at h
  rw [Out.bind_eq_ok] at h; obtain ⟨c, hc, h⟩ := h
  rw [Out.bind_eq_ok] at h; obtain ⟨r, hr, h⟩ := h
  cases h
  have hs1 : SInv ({ s with cur := c } : Sched) := ⟨hs.next, hs.good⟩
  obtain ⟨_, i0, hi0, hne, _⟩ := finalize_track hs1 hr
  obtain ⟨F⟩ := finalize_inv hr
  have hi : i0 = F.i := by
    have h2 := Slots.idx_ok.1 F.hi
    rw [F.hxt, h2] at hi0
    exact Fin.ext (by omega)
  subst hi
  have hs2 : SInv ({ ({ s with cur := c } : Sched) with pre := s.pre.stamp F.ts } : Sched) := ⟨hs.next, hs.good⟩
  have hq' : r.1.queues = F.p.s.queues := (congrArg Sched.queues F.hs').trans rfl
  have hra : r.1.pendingRa = s.pendingRa := (congrArg Sched.pendingRa F.hs').trans (build_case hs2 F.hi F.hp).1.pendingRa
  have hch : F.b1.chan = r.2.slot.blk1.chan := (close_bits F.hc1).1.symm
  simp only [Book.after]
  by_cases hij : i = F.i
  · subst hij
    rcases build_inv F.hi F.hp with ⟨_, hf, _, h⟩ | ⟨_, h⟩
    · obtain ⟨⟨b1, k1, k2⟩, _, _, k5⟩ := traffic_case h
      have hb1 : F.b1 = b1 := by
        have := F.hb1
        rw [k1] at this
        cases this; rfl
      rw [if_neg (by
        rintro ⟨_, h1, h2⟩
        rw [← hch, hb1] at h1 h2
        rcases k2 with ⟨k2, _⟩ | k2
        · exact h1 k2
        · exact h2 k2)]
      refine ⟨?_, by rw [hra]; exact hb.pending⟩
      rw [hq', ← hb.opened]
      rcases k5 with k5 | ⟨e, k5, k6⟩
      · rw [← k5]
      · have := takeFirst_ack k6
        exact this.symm
    · have hnc : r.2.slot.blk1.chan ≠ .tchS ∧ r.2.slot.blk1.chan ≠ .stch := by
        rw [← hch]
        have hb1 := F.hb1
        unfold Sched.signallingPart at h
        rw [Out.bind_eq_ok] at h; obtain ⟨q, hq, h⟩ := h
        rw [Out.bind_eq_ok] at h; obtain ⟨r', hr', h⟩ := h
        rw [Out.bind_eq_ok] at h; obtain ⟨b', hb', h⟩ := h
        rw [Out.ok.injEq] at h
        rw [← h] at hb1
        cases b' with
        | none => exact default_chan hb1
        | some b' =>
          simp only [Sched.firstBlk, Out.ok.injEq] at hb1
          rw [← hb1]
          unfold signallingBlk at hb'
          split at hb'
          · cases hb'; simp
          · split at hb'
            · rw [Out.bind_eq_ok] at hb'; obtain ⟨_, _, hb'⟩ := hb'
              cases hb'; simp
            · cases hb'
      rw [if_pos ⟨hi0, hnc⟩]
      refine ⟨?_, by rw [hra]; exact hb.pending⟩
      rw [hq']
      unfold Sched.signallingPart at h
      rw [Out.bind_eq_ok] at h; obtain ⟨q, hq, h⟩ := h
      rw [Out.bind_eq_ok] at h; obtain ⟨r', hr', h⟩ := h
      rw [Out.bind_eq_ok] at h; obtain ⟨b', hb', h⟩ := h
      rw [Out.ok.injEq] at h
      rw [← h]
      simp only [Slots.upd_self]
      obtain ⟨q', j1, j2, j3, _⟩ := integrate_queue (hs.good F.i)
      rw [show integrate (({ ({ s with cur := c } : Sched) with pre := s.pre.stamp F.ts } : Sched).queues F.i) = _ from j1] at hq
      cases hq
      exact noAck_flatMap (block_noAck j3 j2 ((congrArg (buildBlock F.ts.f q) hs.next).symm.trans hr'))
  · rw [if_neg (by rintro ⟨h1, _⟩; exact hij (Fin.ext (by omega)))]
    exact ⟨by rw [hne i hij]; exact hb.opened, by rw [hra]; exact hb.pending⟩

theorem step_booked {s s' : Sched} {e : SchedEv} {r : SchedRet} (hs : SInv s) (h : s.step e = .ok (s', r)) {i : Fin 4} {b : Book}
    (hb : Booked s i b) : Booked s' i (b.after (i.val + 1) (e, r)) := by
  have same : s'.queues i = s.queues i → s'.pendingRa i = s.pendingRa i → Booked s' i b :=
    fun h1 h2 => ⟨by rw [h1]; exact hb.opened, by rw [h2]; exact hb.pending⟩
  have pushed : ∀ {t : Nat} {x : DlElem} {s1 : Sched}, s.push t x = .ok s1 →
      s1.pendingRa = s.pendingRa ∧ ((t ≠ i.val + 1 ∧ s1.queues i = s.queues i) ∨ (t = i.val + 1 ∧ s1.queues i = s.queues i ++ [x])) := by
    intro t x s1 hp
    unfold Sched.push at hp
    rw [Out.bind_eq_ok] at hp; obtain ⟨j, hj, hp⟩ := hp
    cases hp
    have ht := Slots.idx_ok.1 (Out.ofRes_eq_ok.1 hj)
    refine ⟨rfl, ?_⟩
    by_cases hij : i = j
    · subst hij; exact .inr ⟨ht, by simp⟩
    · refine .inl ⟨fun h => hij (Fin.ext (by omega)), ?_⟩
      simp only [Slots.upd_ne _ _ hij]
  have silent : ∀ {t : Nat} {x : DlElem} {s1 : Sched}, s.push t x = .ok s1 → x.ackSsi = [] → Booked s1 i b := by
    intro t x s1 hp hx
    obtain ⟨h1, ⟨_, h2⟩ | ⟨_, h2⟩⟩ := pushed hp
    · exact ⟨by rw [h2]; exact hb.opened, by rw [h1]; exact hb.pending⟩
    · exact ⟨by rw [h2]; simp [hx, hb.opened], by rw [h1]; exact hb.pending⟩
  cases e with
  | tick =>
    have : ∃ y, r = .sent y := by
      simp only [Sched.step] at h
      rw [Out.bind_eq_ok] at h; obtain ⟨c, hc, h⟩ := h
      rw [Out.bind_eq_ok] at h; obtain ⟨q, hq, h⟩ := h
      cases h
      exact ⟨_, rfl⟩
    obtain ⟨y, rfl⟩ := this
    exact tick_booked hs h hb
  | capReq t ssi code =>
    simp only [Sched.step] at h
    rw [Out.bind_eq_ok] at h; obtain ⟨q, hq, h⟩ := h
    cases h
    exact same rfl rfl
  | grant t a g =>
    simp only [Sched.step] at h
    rw [Out.bind_eq_ok] at h; obtain ⟨q, hq, h⟩ := h
    cases h
    exact silent hq rfl
  | ack t a =>
    simp only [Sched.step] at h
    rw [Out.bind_eq_ok] at h; obtain ⟨q, hq, h⟩ := h
    cases h
    obtain ⟨h1, ⟨ht, h2⟩ | ⟨ht, h2⟩⟩ := pushed hq
    · simp only [Book.after, if_neg ht]
      exact ⟨by rw [h2]; exact hb.opened, by rw [h1]; exact hb.pending⟩
    · simp only [Book.after, if_pos ht]
      exact ⟨by rw [h2]; simp [DlElem.ackSsi, hb.opened], by rw [h1]; exact hb.pending⟩
  | message t id rep pdu sdu =>
    simp only [Sched.step] at h
    rw [Out.bind_eq_ok] at h; obtain ⟨q, hq, h⟩ := h
    cases h
    exact silent hq rfl
  | steal t id rep bl =>
    simp only [Sched.step] at h
    rw [Out.bind_eq_ok] at h; obtain ⟨q, hq, h⟩ := h
    cases h
    exact silent hq rfl
  | takeRa t ssi =>
    simp only [Sched.step, Sched.takeRa] at h
    rw [Out.bind_eq_ok] at h; obtain ⟨q, hq, h⟩ := h
    rw [Out.bind_eq_ok] at hq; obtain ⟨j, hj, hq⟩ := hq
    cases hq
    cases h
    have ht := Slots.idx_ok.1 (Out.ofRes_eq_ok.1 hj)
    by_cases hij : i = j
    · subst hij
      simp only [Book.after, ht, if_true]
      exact ⟨hb.opened, by simp [hb.pending]⟩
    · have hne : ¬ t = i.val + 1 := fun h => hij (Fin.ext (by omega))
      simp only [Book.after, if_neg hne]
      exact ⟨hb.opened, by simp only [Slots.upd_ne _ _ hij]; exact hb.pending⟩
  | voice t bl =>
    simp only [Sched.step] at h
    rw [Out.bind_eq_ok] at h; obtain ⟨q, hq, h⟩ := h
    cases h
    exact same rfl rfl
  | create d c =>
    simp only [Sched.step] at h
    rw [Out.bind_eq_ok] at h; obtain ⟨q, hq, h⟩ := h
    cases h
    refine same ?_ ?_ <;> simp only [Sched.unhang] <;> split <;> rfl
  | close d t =>
    simp only [Sched.step] at h
    rw [Out.bind_eq_ok] at h; obtain ⟨q, hq, h⟩ := h
    cases h
    refine same ?_ ?_ <;> simp only [Sched.unhang] <;> split <;> rfl
  | hang t a =>
    simp only [Sched.step, Out.ok.injEq, Prod.mk.injEq] at h
    obtain ⟨rfl, rfl⟩ := h
    cases hi : Slots.idx t with
    | panic =>
      have hne : ¬ t = i.val + 1 := by
        intro h
        rw [Slots.idx_ok.2 h] at hi
        cases hi
      have e : s.setHang t a = (s, []) := by simp [Sched.setHang, hi]
      cases a
      · simp only [Book.after, if_neg hne]; rw [e]; exact hb
      · rw [e]; exact hb
    | ok j =>
      have ht := Slots.idx_ok.1 hi
      cases a with
      | true =>
        refine same ?_ ?_ <;> simp [Sched.setHang, hi]
      | false =>
        have e : (s.setHang t false).1 = (({ s with hang := s.hang.upd j false } : Sched).dropAll j).1 := by simp [Sched.setHang, hi]
        by_cases hij : i = j
        · subst hij
          simp only [Book.after, ht, if_true]
          rw [← ht, e]
          refine ⟨?_, ?_⟩
          · simp only [Sched.dropAll, Slots.upd_self]
            rw [List.flatMap_eq_nil_iff]
            intro x hx
            have := (List.mem_filter.1 hx).2
            cases x <;> simp [DlElem.isStealing] at this
            rfl
          · simp only [Sched.dropAll, Slots.upd_self]
            rw [← hb.pending, ← hb.opened]
            congr 1
            generalize s.queues i = q
            induction q with
            | nil => rfl
            | cons a q ih => cases a <;> simp_all [DlElem.isStealing, DlElem.ackSsi]
        · have hne : ¬ t = i.val + 1 := fun h => hij (Fin.ext (by omega))
          simp only [Book.after, if_neg hne]
          rw [e]
          exact ⟨by simp only [Sched.dropAll, Slots.upd_ne _ _ hij]; exact hb.opened,
            by simp only [Sched.dropAll, Slots.upd_ne _ _ hij]; exact hb.pending⟩
  | systemWide w =>
    simp only [Sched.step, Out.ok.injEq, Prod.mk.injEq] at h
    obtain ⟨rfl, rfl⟩ := h
    exact same rfl rfl

theorem run_booked {es : List SchedEv} : ∀ {s s' : Sched} {h : List (SchedEv × SchedRet)} {i : Fin 4} {b : Book}, SInv s →
    (∀ e ∈ es, e.Fine) → s.run es = .ok (s', h) → Booked s i b → Booked s' i (h.foldl (Book.after (i.val + 1)) b) := by
  induction es with
  | nil => intro s s' h i b _ _ hr hb; cases hr; exact hb
  | cons e es ih =>
    intro s s' h i b hs hf hr hb
    obtain ⟨a, tr, k1, k2, k3⟩ := srun_cons hr
    simp only at k3
    subst k3
    exact ih (h := tr) (step_track hs (hf e (by simp)) k1).1 (fun e he => hf e (by simp [he])) k2 (step_booked hs k1 hb)

/-- **C96, acknowledged later.** Whatever the history: when a message is to be sent in a stolen half slot, the scheduler says that it has to
acknowledge a random access of the station exactly if an acknowledgement for the station was thrown away with the hang time of the
timeslot, and each of them once. -/
theorem c96_deferred {h : List (SchedEv × SchedRet)} {t ssi : Nat} {b : Bool}
    (hr : (Sched.init x scramb pre).run es = .ok (s, h ++ [(.takeRa t ssi, .bool b)])) (hf : ∀ e ∈ es, e.Fine) :
    b = (bookOf t h).pending.contains ssi := by
  obtain ⟨es1, es2, s1, rfl, k1, k2⟩ := srun_split hr
  obtain ⟨rfl, k3⟩ := srun_one k2
  simp only [Sched.step, Sched.takeRa] at k3
  rw [Out.bind_eq_ok] at k3; obtain ⟨q, hq, k3⟩ := k3
  rw [Out.bind_eq_ok] at hq; obtain ⟨j, hj, hq⟩ := hq
  cases hq
  cases k3
  have ht := Slots.idx_ok.1 (Out.ofRes_eq_ok.1 hj)
  have := run_booked (i := j) (b := ⟨[], []⟩) (sinv_init x scramb pre) (fun e he => hf e (by simp [he])) k1 ⟨rfl, rfl⟩
  rw [this.pending, ht]
  rfl

/-! ## Concrete histories -/

/-- An individual address. -/
def stAddr (ssi : Nat) : Addr := ⟨ssi, .issi, false⟩

/-- The grants told to stations: in which slot, to whom, what. -/
def grantsTold (o : Out (Sched × List (SchedEv × SchedRet))) : List (Time × Nat × SlotGrant) :=
  (slotsOf o).flatMap fun y => y.log.filterMap fun l => match MacResource.dec.run l.2 with
    | .ok (p, _) => match p.addr, p.slotGrant with
      | some a, some g => some (y.slot.ts, a.ssi, g)
      | _, _ => none
    | _ => none

/-- What the scheduler answered to capacity requests. -/
def grantsGiven (o : Out (Sched × List (SchedEv × SchedRet))) : List (Option SlotGrant) :=
  match o with
  | .ok r => r.2.filterMap fun p => match p.2 with | .grant g => some g | _ => none
  | _ => []

/-- For whom an uplink slot is reserved. -/
def reservedFor (o : Out (Sched × List (SchedEv × SchedRet))) (n : Int) : Option Nat :=
  match o with
  | .ok r => match slotOwner r.1.ul (fromInt n) .both with | .ok o => o | _ => none
  | _ => none

/-- A message which fills the next slot of timeslot 2, then a request of station 7 for one slot. -/
def fullSlot : List SchedEv := ticks 3 ++ [msg 2 1 225, .capReq 2 7 1, .grant 2 (stAddr 7) ⟨1, .nextOpportunity⟩]

/-- **C96, finding.** When the next slot is full, a grant is told one frame later, unchanged. Station 7 is granted the next opportunity, which is
reserved for it in slot 5 (frame 2); it is told in slot 9 (frame 3), and what it takes to be the next opportunity then is reserved for
nobody: the reserved slot is lost, and the station sends where others may send too. -/
theorem c96_full_slot_late :
    grantsGiven (sampleRun fullSlot) = [some ⟨1, .nextOpportunity⟩] ∧
    (reservedFor (sampleRun fullSlot) 5, reservedFor (sampleRun fullSlot) 9) = (some 7, none) ∧
    (fromInt 5, fromInt 9) = (⟨2, 2, 1, 0⟩, ⟨2, 3, 1, 0⟩) ∧
    grantsTold (sampleRun (fullSlot ++ ticks 6)) = [(fromInt 9, 7, ⟨1, .nextOpportunity⟩)] ∧
    grantsTold (sampleRun (fullSlot.eraseIdx 3 ++ ticks 6)) = [(fromInt 5, 7, ⟨1, .nextOpportunity⟩)] := by decide +kernel

/-- The grant of one station next to the message of another: it does not join it. -/
example : grantsTold (sampleRun (ticks 3 ++ [msg 2 1 20, .grant 2 (stAddr 7) ⟨1, .nextOpportunity⟩] ++ ticks 2)) =
    [(fromInt 5, 7, ⟨1, .nextOpportunity⟩)] := by decide +kernel

/-- The hypotheses of `c96_told` are met. -/
example : ∃ (s : Sched) (y : TickOut) (r : SchedRet), sampleRun [.grant 3 (stAddr 7) ⟨1, .nextOpportunity⟩, .tick] =
      .ok (s, [] ++ ((.grant 3 (stAddr 7) ⟨1, .nextOpportunity⟩, r) :: ([] ++ [(.tick, .sent y)]))) ∧
    y.slot.ts.t = 3 ∧ y.slot.ts.f ≠ 18 ∧ y.slot.blk1.chan = .schF ∧ y.slot.blk1.blk.bits.length ≤ 140 := by
  have hok : runs (sampleRun [.grant 3 (stAddr 7) ⟨1, .nextOpportunity⟩, .tick]) = true := by decide +kernel
  have hy : (slotsOf (sampleRun [.grant 3 (stAddr 7) ⟨1, .nextOpportunity⟩, .tick])).map
      (fun y => decide (y.slot.ts.t = 3 ∧ y.slot.ts.f ≠ 18 ∧ y.slot.blk1.chan = .schF ∧ y.slot.blk1.blk.bits.length ≤ 140)) = [true] := by
    decide +kernel
  cases hr : sampleRun [.grant 3 (stAddr 7) ⟨1, .nextOpportunity⟩, .tick] with
  | err => rw [hr] at hok; cases hok
  | panic => rw [hr] at hok; cases hok
  | ok q =>
    rw [hr] at hy
    obtain ⟨a, tr, h1, h2, h3⟩ := srun_cons hr
    obtain ⟨b, tr', h4, h5, h6⟩ := srun_cons h2
    obtain ⟨s, tr0⟩ := q
    cases (Out.ok.inj h5)
    simp only at h3 h6
    subst h3
    subst h6
    simp only [Sched.step] at h1
    rw [Out.bind_eq_ok] at h1; obtain ⟨_, _, h1⟩ := h1
    cases h1
    simp only [Sched.step] at h4
    rw [Out.bind_eq_ok] at h4; obtain ⟨_, _, h4⟩ := h4
    rw [Out.bind_eq_ok] at h4; obtain ⟨y, _, h4⟩ := h4
    cases h4
    simp only [slotsOf, List.filterMap_cons, List.filterMap_nil, List.map_cons, List.map_nil, List.cons.injEq, decide_eq_true_eq, and_true] at hy
    exact ⟨_, y.2, .none, rfl, hy⟩

/-- An acknowledgement thrown away with the hang time is asked for once by the next message in a stolen half slot. -/
example : (match sampleRun [.create .dl (dlCircuit 2 7), .hang 2 true, .ack 2 (stAddr 7), .hang 2 false, .takeRa 2 8, .takeRa 2 7, .takeRa 2 7] with
    | .ok r => r.2.filterMap fun p => match p.2 with | .bool b => some b | _ => none
    | _ => []) = [false, true, false] := by decide +kernel

end Verif.Umac
