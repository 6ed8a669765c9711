import Verif.Umac.SchedProps
/-!
# Grants and acknowledgements on their way through the channel scheduler
-/
namespace Verif.Umac
open Verif.Bits Verif.Codec Verif.Tdma Verif.Mle

/-! ## Specification -/

/-- What a MAC header can tell one station: that it has been granted slots, or that its random access was heard. -/
inductive Told where
  | grant (g : SlotGrant)
  | ack
  deriving DecidableEq

/-- The header tells the station with this number so. -/
def MacResource.Tells (p : MacResource) (ssi : Nat) : Told → Prop
  | .grant g => (∃ a, p.addr = some a ∧ a.ssi = ssi) ∧ p.slotGrant = some g
  | .ack => (∃ a, p.addr = some a ∧ a.ssi = ssi) ∧ p.randomAccess = true

/-- The call asks for the station to be told on timeslot `t`. -/
inductive SchedEv.Asks (t ssi : Nat) : SchedEv → Told → Prop
  | grant (a : Addr) (g : SlotGrant) (h : a.ssi = ssi) : Asks t ssi (.grant t a g) (.grant g)
  | ack (a : Addr) (h : a.ssi = ssi) : Asks t ssi (.ack t a) .ack

/-- The call brings a message whose own header tells it. -/
def SchedEv.Brings (t ssi : Nat) (e : SchedEv) (w : Told) : Prop :=
  ∃ id rep pdu sdu, e = .message t id rep pdu sdu ∧ pdu.Tells ssi w

theorem Tells.onAir {p : MacResource} {ssi : Nat} {w : Told} : p.onAir.Tells ssi w ↔ p.Tells ssi w := by
  cases w <;> (simp only [MacResource.Tells, MacResource.onAir, Option.map_eq_some_iff]; constructor)
  all_goals
    rintro ⟨⟨a, h1, h2⟩, h3⟩
    first
    | (obtain ⟨b, h1, rfl⟩ := h1; exact ⟨⟨b, h1, h2⟩, h3⟩)
    | exact ⟨⟨_, ⟨a, h1, rfl⟩, h2⟩, h3⟩

theorem Tells.same {p q : MacResource} (h1 : q.addr = p.addr) (h2 : q.slotGrant = p.slotGrant) (h3 : q.randomAccess = p.randomAccess)
    {ssi : Nat} {w : Told} : q.Tells ssi w ↔ p.Tells ssi w := by
  cases w <;> simp only [MacResource.Tells, h1, h2, h3]

/-! ## Joining -/

/-- What an element tells or is to tell. -/
def DlElem.Says (e : DlElem) (ssi : Nat) (w : Told) : Prop :=
  match e with
  | .grant a g => a.ssi = ssi ∧ w = .grant g
  | .ack a => a.ssi = ssi ∧ w = .ack
  | .resource pdu _ _ => pdu.Tells ssi w
  | .frag f _ => f.resource.Tells ssi w
  | .stealing _ _ => False

theorem resourceFor_inv {ssi : Nat} {e : DlElem} (h : e.isResourceFor ssi = true) :
    ∃ pdu sdu o a, e = .resource pdu sdu o ∧ pdu.addr = some a ∧ a.ssi = ssi := by
  cases e with
  | resource pdu sdu o =>
    simp only [DlElem.isResourceFor] at h
    split at h
    · rename_i a ha; exact ⟨pdu, sdu, o, a, rfl, ha, by simpa using h⟩
    · cases h
  | _ => cases h

theorem join_says {e r : DlElem} {n ssi : Nat} {w : Told} (hn : e.ssi? = some n) (hr : r.isResourceFor n = true)
    (h : (e.join r).Says ssi w) : e.Says ssi w ∨ r.Says ssi w := by
  obtain ⟨pdu, sdu, o, a, rfl, ha, rfl⟩ := resourceFor_inv hr
  cases e with
  | grant b g =>
    simp only [DlElem.ssi?, Option.some.injEq] at hn
    cases w with
    | grant g' =>
      simp only [DlElem.join, DlElem.Says, MacResource.Tells, ha, Option.some.injEq] at h ⊢
      obtain ⟨⟨c, rfl, rfl⟩, rfl⟩ := h
      exact .inl ⟨hn, rfl⟩
    | ack => exact .inr h
  | ack b =>
    simp only [DlElem.ssi?, Option.some.injEq] at hn
    cases w with
    | grant g' => exact .inr h
    | ack =>
      simp only [DlElem.join, DlElem.Says, MacResource.Tells, ha, Option.some.injEq] at h ⊢
      obtain ⟨⟨c, rfl, rfl⟩, _⟩ := h
      exact .inl ⟨hn, trivial⟩
  | _ => cases hn

theorem minimal_says {e : DlElem} (he : e.Good) {pdu : MacResource} (h : e.asMinimal = .ok pdu) {ssi : Nat} {w : Told}
    (hw : pdu.Tells ssi w) : e.Says ssi w := by
  cases e with
  | grant a g =>
    obtain ⟨pdu', h1, _, h2, h3, h4⟩ := minimal_good he.1 (g := some g) (by simpa using he.2) false
    rw [show DlElem.asMinimal (.grant a g) = _ from h1] at h
    cases h
    cases w <;> simp only [MacResource.Tells, h2, h3, h4, Option.some.injEq] at hw
    · obtain ⟨⟨b, rfl, h⟩, rfl⟩ := hw; exact ⟨h, rfl⟩
    · simp at hw
  | ack a =>
    obtain ⟨pdu', h1, _, h2, h3, h4⟩ := minimal_good he (g := none) (by simp) true
    rw [show DlElem.asMinimal (.ack a) = _ from h1] at h
    cases h
    cases w <;> simp only [MacResource.Tells, h2, h3, h4, Option.some.injEq] at hw
    · simp at hw
    · obtain ⟨⟨b, rfl, h⟩, _⟩ := hw; exact ⟨h, rfl⟩
  | _ => cases h

/-- Nothing is told to another station: what the queue says after joining, it said before. -/
theorem integrateOne_says {q q' : List DlElem} {e : DlElem} (he : e.Good) (h : integrateOne q e = .ok q') {ssi : Nat} {w : Told}
    {x : DlElem} (hx : x ∈ q') (hw : x.Says ssi w) : e.Says ssi w ∨ ∃ y ∈ q, y.Says ssi w := by
  unfold integrateOne at h
  split at h
  · cases h
  · rename_i n hn
    split at h
    · rename_i hany
      cases h
      obtain ⟨l, r, s, h1, h2, h3, h4⟩ := (updFirst_spec (·.isResourceFor n) e.join q).2 hany
      rw [h4] at hx
      simp only [List.mem_append, List.mem_cons] at hx
      rcases hx with hx | rfl | hx
      · exact .inr ⟨x, by simp [h1, hx], hw⟩
      · rcases join_says hn h2 hw with h | h
        · exact .inl h
        · exact .inr ⟨r, by simp [h1], h⟩
      · exact .inr ⟨x, by simp [h1, hx], hw⟩
    · rw [Out.bind_eq_ok] at h; obtain ⟨pdu, hp, h⟩ := h
      cases h
      simp only [List.mem_append, List.mem_singleton] at hx
      rcases hx with hx | rfl
      · exact .inr ⟨x, hx, hw⟩
      · exact .inl (minimal_says he hp hw)

theorem integrateAll_says {es q q' : List DlElem} (he : ∀ e ∈ es, e.Good) (h : integrateAll q es = .ok q') {ssi : Nat} {w : Told}
    {x : DlElem} (hx : x ∈ q') (hw : x.Says ssi w) : ∃ y, (y ∈ q ∨ y ∈ es) ∧ y.Says ssi w := by
  induction es generalizing q with
  | nil => cases h; exact ⟨x, .inl hx, hw⟩
  | cons e es ih =>
    simp only [integrateAll] at h
    rw [Out.bind_eq_ok] at h; obtain ⟨q1, h1, h⟩ := h
    obtain ⟨y, hy, hyw⟩ := ih (fun e h => he e (by simp [h])) h
    rcases hy with hy | hy
    · rcases integrateOne_says (he e (by simp)) h1 hy hyw with h | ⟨z, hz, hzw⟩
      · exact ⟨e, by simp, h⟩
      · exact ⟨z, .inl hz, hzw⟩
    · exact ⟨y, by simp [hy], hyw⟩

theorem integrate_says {q q' : List DlElem} (hg : ∀ e ∈ q, e.Good) (h : integrate q = .ok q') {ssi : Nat} {w : Told}
    {x : DlElem} (hx : x ∈ q') (hw : x.Says ssi w) : ∃ y ∈ q, y.Says ssi w := by
  obtain ⟨y, hy, hyw⟩ := integrateAll_says (fun e he => hg e (List.mem_filter.1 he).1) h hx hw
  rcases hy with hy | hy <;> exact ⟨y, (List.mem_filter.1 hy).1, hyw⟩

/-! ## Nothing asked for is forgotten -/

/-- A message of the queue tells it. -/
def Joins (q : List DlElem) (ssi : Nat) (w : Told) : Prop := ∃ pdu sdu o, .resource pdu sdu o ∈ q ∧ pdu.Tells ssi w

theorem integrateOne_new {q q' : List DlElem} {e : DlElem} (he : e.Good) (h : integrateOne q e = .ok q') {ssi : Nat} {w : Told}
    (hk : e.isGrantOrAck = true) (hw : e.Says ssi w) : Joins q' ssi w := by
  unfold integrateOne at h
  split at h
  · cases h
  · rename_i n hn
    split at h
    · rename_i hany
      cases h
      obtain ⟨l, r, s, h1, h2, h3, h4⟩ := (updFirst_spec (·.isResourceFor n) e.join q).2 hany
      obtain ⟨pdu, sdu, o, a, rfl, ha, rfl⟩ := resourceFor_inv h2
      rw [h4]
      cases e with
      | grant b g =>
        obtain ⟨rfl, rfl⟩ := hw
        simp only [DlElem.ssi?, Option.some.injEq] at hn
        exact ⟨{ pdu with slotGrant := some g }, sdu, o, by simp [DlElem.join], ⟨a, ha, hn.symm⟩, rfl⟩
      | ack b =>
        obtain ⟨rfl, rfl⟩ := hw
        simp only [DlElem.ssi?, Option.some.injEq] at hn
        exact ⟨{ pdu with randomAccess := true }, sdu, o, by simp [DlElem.join], ⟨a, ha, hn.symm⟩, rfl⟩
      | _ => cases hn
    · rw [Out.bind_eq_ok] at h; obtain ⟨pdu, hp, h⟩ := h
      cases h
      refine ⟨pdu, [], .internal, by simp, ?_⟩
      cases e with
      | grant a g =>
        obtain ⟨pdu', h1, _, h2, h3, h4⟩ := minimal_good he.1 (g := some g) (by simpa using he.2) false
        rw [show DlElem.asMinimal (.grant a g) = _ from h1] at hp
        cases hp
        obtain ⟨rfl, rfl⟩ := hw
        exact ⟨⟨a, h2, rfl⟩, h3⟩
      | ack a =>
        obtain ⟨pdu', h1, _, h2, h3, h4⟩ := minimal_good he (g := none) (by simp) true
        rw [show DlElem.asMinimal (.ack a) = _ from h1] at hp
        cases hp
        obtain ⟨rfl, rfl⟩ := hw
        exact ⟨⟨a, h2, rfl⟩, h4⟩
      | _ => cases hp

/-- The element does not replace it: it is not another grant for the same station. -/
def DlElem.Spares (e : DlElem) (ssi : Nat) (w : Told) : Prop :=
  ∀ a g g', w = .grant g → e = .grant a g' → a.ssi ≠ ssi

theorem integrateOne_old {q q' : List DlElem} {e : DlElem} (h : integrateOne q e = .ok q') {ssi : Nat} {w : Told}
    (hs : e.Spares ssi w) (hw : Joins q ssi w) : Joins q' ssi w := by
  obtain ⟨pdu, sdu, o, hm, hw⟩ := hw
  unfold integrateOne at h
  split at h
  · cases h
  · rename_i n hn
    split at h
    · rename_i hany
      cases h
      obtain ⟨l, r, s, h1, h2, h3, h4⟩ := (updFirst_spec (·.isResourceFor n) e.join q).2 hany
      rw [h4]
      rw [h1] at hm
      simp only [List.mem_append, List.mem_cons] at hm
      rcases hm with hm | rfl | hm
      · exact ⟨pdu, sdu, o, by simp [hm], hw⟩
      · cases e with
        | grant b g =>
          simp only [DlElem.ssi?, Option.some.injEq] at hn
          refine ⟨{ pdu with slotGrant := some g }, sdu, o, by simp [DlElem.join], ?_⟩
          cases w with
          | ack => exact hw
          | grant g' =>
            obtain ⟨_, _, _, a, he, ha, hb⟩ := resourceFor_inv h2
            cases he
            obtain ⟨⟨c, hc, hc'⟩, _⟩ := hw
            rw [ha] at hc
            cases hc
            exact absurd (hn.trans (hb.symm.trans hc')) (hs b g' g rfl rfl)
        | ack b =>
          refine ⟨{ pdu with randomAccess := true }, sdu, o, by simp [DlElem.join], ?_⟩
          cases w with
          | ack => exact ⟨hw.1, rfl⟩
          | grant g' => exact hw
        | _ => cases hn
      · exact ⟨pdu, sdu, o, by simp [hm], hw⟩
    · rw [Out.bind_eq_ok] at h; obtain ⟨pdu', hp, h⟩ := h
      cases h
      exact ⟨pdu, sdu, o, by simp [hm], hw⟩

theorem integrateAll_old {es q q' : List DlElem} (h : integrateAll q es = .ok q') {ssi : Nat} {w : Told}
    (hs : ∀ e ∈ es, e.Spares ssi w) (hw : Joins q ssi w) : Joins q' ssi w := by
  induction es generalizing q with
  | nil => cases h; exact hw
  | cons e es ih =>
    simp only [integrateAll] at h
    rw [Out.bind_eq_ok] at h; obtain ⟨q1, h1, h⟩ := h
    exact ih h (fun e h => hs e (by simp [h])) (integrateOne_old h1 (hs e (by simp)) hw)

theorem integrateAll_carries {l r q q' : List DlElem} {e : DlElem} (h : integrateAll q (l ++ e :: r) = .ok q') (he : e.Good)
    (hk : e.isGrantOrAck = true) {ssi : Nat} {w : Told} (hw : e.Says ssi w) (hs : ∀ e ∈ r, e.Spares ssi w) : Joins q' ssi w := by
  induction l generalizing q with
  | nil =>
    simp only [List.nil_append, integrateAll] at h
    rw [Out.bind_eq_ok] at h; obtain ⟨q1, h1, h⟩ := h
    exact integrateAll_old h hs (integrateOne_new he h1 hk hw)
  | cons a l ih =>
    simp only [List.cons_append, integrateAll] at h
    rw [Out.bind_eq_ok] at h; obtain ⟨q1, h1, h⟩ := h
    exact ih h

theorem integrate_carries {l r q' : List DlElem} {e : DlElem} (h : integrate (l ++ e :: r) = .ok q') (he : e.Good)
    (hk : e.isGrantOrAck = true) {ssi : Nat} {w : Told} (hw : e.Says ssi w) (hs : ∀ e ∈ r, e.Spares ssi w) : Joins q' ssi w := by
  unfold integrate at h
  rw [show (l ++ e :: r).filter (·.isGrantOrAck) = l.filter (·.isGrantOrAck) ++ e :: r.filter (·.isGrantOrAck) by
    simp [hk]] at h
  exact integrateAll_carries h he hk hw (fun e he => hs e (List.mem_filter.1 he).1)

/-! ## A round of service -/

theorem round_each {es : List DlElem} {b b' : Blk} {rs : List (Fragger × List Bool)} (h : Round es b rs b') :
    b.bits.length ≤ b'.bits.length ∧ ∀ e f' new, (e, f', new) ∈ es.zip rs →
      ∃ f o blk, e.fragger = some (f, o) ∧ Step f blk f' new ∧ blk.cap = b.cap ∧ blk.bits.length ≤ b'.bits.length := by
  induction h with
  | nil => simp
  | @cons e f o es b b' f' new rs he hb h1 h2 h3 ih =>
    obtain ⟨i1, i2⟩ := ih
    simp only [List.length_append] at i1
    refine ⟨by omega, ?_⟩
    intro e2 f2 n2 hm
    simp only [List.zip_cons_cons, List.mem_cons, Prod.mk.injEq] at hm
    rcases hm with ⟨rfl, rfl, rfl⟩ | hm
    · exact ⟨f, o, b, he, h2, rfl, by omega⟩
    · exact i2 e2 f2 n2 hm

theorem round_mem {es : List DlElem} {b b' : Blk} {rs : List (Fragger × List Bool)} (h : Round es b rs b') {e : DlElem} (he : e ∈ es) :
    ∃ f' new, (e, f', new) ∈ es.zip rs := by
  induction h with
  | nil => simp at he
  | @cons e' f o es b b' f' new rs _ _ _ _ _ ih =>
    rcases List.mem_cons.1 he with rfl | he
    · exact ⟨f', new, by simp⟩
    · obtain ⟨f2, n2, h⟩ := ih he
      exact ⟨f2, n2, by simp [h]⟩

/-- A piece of a block which reads as a MAC-RESOURCE is the beginning of a message and tells what the message tells. -/
theorem step_reads {f f' : Fragger} {b : Blk} {new : List Bool} (h : Step f b f' new) {p : MacResource} {rest : List Bool}
    (hp : MacResource.dec.run new = .ok (p, rest)) {ssi : Nat} {w : Told} (hw : p.Tells ssi w) : f.resource.Tells ssi w := by
  cases h with
  | idle => cases hp
  | whole hdr n r hw' hr he hd =>
    rw [hd] at hp
    cases hp
    subst hr
    exact (Tells.same rfl rfl rfl).1 (Tells.onAir.1 hw)
  | start hdr n r hw' hr he hd =>
    rw [hd] at hp
    cases hp
    subst hr
    exact (Tells.same rfl rfl rfl).1 (Tells.onAir.1 hw)
  | frag n k => cases hp
  | fin k len => cases hp

/-- What a message tells does not change while it is sent. -/
theorem step_tells {f f' : Fragger} {b : Blk} {new : List Bool} (h : Step f b f' new) {ssi : Nat} {w : Told} :
    f'.resource.Tells ssi w ↔ f.resource.Tells ssi w := by
  cases h with
  | idle => rfl
  | whole hdr n r hw' hr he hd => subst hr; exact Tells.same rfl rfl rfl
  | start hdr n r hw' hr he hd => subst hr; exact Tells.same rfl rfl rfl
  | frag n k => rfl
  | fin k len => rfl

/-- A message which has its turn is begun, or there is little room left. -/
theorem step_begins {f f' : Fragger} {b : Blk} {new : List Bool} (h : Step f b f' new) (hf : f.Ok) (h0 : f.hdrWritten = false) {ssi : Nat}
    {w : Told} (hw : f.resource.Tells ssi w) :
    (∃ p rest, MacResource.dec.run new = .ok (p, rest) ∧ p.Tells ssi w) ∨ (b.remaining < 128 ∧ f' = f ∧ f.done = false) := by
  obtain ⟨hs, hp, hfr, hbusy⟩ := hf
  obtain ⟨hl, hhl, h16, h128⟩ := sendable_hdr hs
  cases h with
  | idle h1 =>
    obtain ⟨n, hn, h⟩ := h1 h0
    rw [hhl] at hn
    cases hn
    exact .inr ⟨by omega, rfl, hbusy⟩
  | whole hdr n r hw' hr he hd =>
    refine .inl ⟨_, _, hd _, ?_⟩
    subst hr
    exact Tells.onAir.2 ((Tells.same rfl rfl rfl).2 hw)
  | start hdr n r hw' hr he hd =>
    refine .inl ⟨_, _, hd _, ?_⟩
    subst hr
    exact Tells.onAir.2 ((Tells.same rfl rfl rfl).2 hw)
  | frag n k h1 => rw [h0] at h1; cases h1
  | fin k len h1 => rw [h0] at h1; cases h1

end Verif.Umac
