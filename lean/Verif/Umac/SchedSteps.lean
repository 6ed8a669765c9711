import Verif.Umac.Sched
import Verif.Umac.FraggerProps
/-!
# Lemmas about the signalling part of the channel scheduler
-/
namespace Verif.Codec

@[simp] theorem Out.ofRes_ok {α : Type} (a : α) : Out.ofRes (Res.ok a) = .ok a := rfl
@[simp] theorem Out.ofRes_panic {α : Type} : Out.ofRes (Res.panic : Res α) = .panic := rfl
theorem Out.ofRes_eq_ok {α : Type} {x : Res α} {a : α} : Out.ofRes x = .ok a ↔ x = .ok a := by
  cases x <;> simp

end Verif.Codec

namespace Verif.Umac
open Verif.Bits Verif.Codec Verif.Tdma Verif.Mle

/-! ## Taking elements out of a queue -/

theorem takeFirst_some {p : DlElem → Bool} {q : List DlElem} {e : DlElem} {q' : List DlElem}
    (h : takeFirst p q = some (e, q')) :
    p e = true ∧ q.filter p = e :: q'.filter p ∧ q.length = q'.length + 1 ∧
    (∀ r : DlElem → Bool, r e = false → q.filter r = q'.filter r) ∧ (∀ x ∈ q, x = e ∨ x ∈ q') ∧ (∀ x ∈ q', x ∈ q) ∧ e ∈ q := by
  induction q generalizing q' with
  | nil => simp [takeFirst] at h
  | cons a q ih =>
    unfold takeFirst at h
    by_cases hp : p a = true
    · simp only [hp, if_true, Option.some.injEq, Prod.mk.injEq] at h
      obtain ⟨rfl, rfl⟩ := h
      refine ⟨hp, by simp [hp], by simp, fun r hr => by simp [hr], by simp, fun x hx => by simp [hx], by simp⟩
    · simp only [hp, if_false, Option.map_eq_some_iff, Prod.exists, Prod.mk.injEq, Bool.false_eq_true] at h
      obtain ⟨e', q'', h1, rfl, rfl⟩ := h
      obtain ⟨g1, g2, g3, g4, g5, g6, g7⟩ := ih h1
      refine ⟨g1, by simp [hp, g2], by simp [g3], fun r hr => by simp [List.filter_cons, g4 r hr], ?_, ?_, by simp [g7]⟩
      · intro x hx
        rcases List.mem_cons.1 hx with rfl | hx
        · simp
        · rcases g5 x hx with h | h
          · exact .inl h
          · simp [h]
      · intro x hx
        rcases List.mem_cons.1 hx with rfl | hx
        · simp
        · simp [g6 x hx]

theorem takeFirst_none {p : DlElem → Bool} {q : List DlElem} : takeFirst p q = none ↔ q.filter p = [] := by
  induction q with
  | nil => simp [takeFirst]
  | cons a q ih =>
    unfold takeFirst
    by_cases hp : p a = true
    · simp [hp]
    · simp [hp, ih]

/-- Nothing waits to be merged. -/
def Merged (q : List DlElem) : Prop := q.filter (·.isGrantOrAck) = []

/-- What is served in a signalling slot, in the order it is served: first what has been started or put off,
then the new messages. -/
def workOf (q : List DlElem) : List DlElem := q.filter (·.isFrag) ++ q.filter (·.isResource)

/-- The rest: blocks waiting to steal. -/
def stolenOf (q : List DlElem) : List DlElem := q.filter (·.isStealing)

/-- Serve elements one after the other. -/
def Build.elems (b : Build) : List DlElem → Out Build
  | [] => .ok b
  | e :: es => do
    let b ← b.elem e
    b.elems es

theorem merged_noGrant {q : List DlElem} (h : Merged q) : q.filter (·.isGrant) = [] := by
  unfold Merged at h
  rw [List.filter_eq_nil_iff] at h ⊢
  intro a ha
  have := h a ha
  cases a <;> simp_all [DlElem.isGrant, DlElem.isGrantOrAck]

/-- Outside frame 18 the loop serves all work in order and leaves the blocks waiting to steal. -/
theorem buildLoop_eq {f : Nat} (hf : f ≠ 18) (n : Nat) (q : List DlElem) (b : Build) (hn : q.length ≤ n) (hm : Merged q) :
    buildLoop f n q b = (do let b' ← b.elems (workOf q); .ok (stolenOf q, b')) := by
  induction n generalizing q b with
  | zero =>
    have : q = [] := List.length_eq_zero_iff.1 (by omega)
    subst this
    rfl
  | succ n ih =>
    unfold buildLoop takePrioritized
    rw [if_neg hf]
    rw [takeFirst_none.2 (merged_noGrant hm)]
    have hm' : ∀ {e : DlElem} {q' : List DlElem}, e.isGrantOrAck = false → (∀ r : DlElem → Bool, r e = false → q.filter r = q'.filter r) →
        Merged q' := by
      intro e q' he h
      unfold Merged
      rw [← h _ he]; exact hm
    cases h1 : takeFirst (·.isFrag) q with
    | some r =>
      obtain ⟨e, q'⟩ := r
      obtain ⟨g1, g2, g3, g4, _⟩ := takeFirst_some h1
      have he : e.isGrantOrAck = false ∧ e.isResource = false ∧ e.isStealing = false := by
        cases e <;> simp_all [DlElem.isFrag, DlElem.isGrantOrAck, DlElem.isResource, DlElem.isStealing]
      simp only
      have hw : workOf q = e :: workOf q' := by simp only [workOf, g2, g4 _ he.2.1, List.cons_append]
      have hs : stolenOf q = stolenOf q' := g4 _ he.2.2
      rw [hw, hs]
      simp only [Build.elems]
      cases hb : b.elem e with
      | ok b' => simp only [Out.bind_ok]; exact ih q' b' (by omega) (hm' he.1 g4)
      | err => rfl
      | panic => rfl
    | none =>
      simp only
      have hf0 := takeFirst_none.1 h1
      cases h2 : takeFirst (·.isResource) q with
      | some r =>
        obtain ⟨e, q'⟩ := r
        obtain ⟨g1, g2, g3, g4, _⟩ := takeFirst_some h2
        have he : e.isGrantOrAck = false ∧ e.isFrag = false ∧ e.isStealing = false := by
          cases e <;> simp_all [DlElem.isFrag, DlElem.isGrantOrAck, DlElem.isResource, DlElem.isStealing]
        simp only
        have hw : workOf q = e :: workOf q' := by
          simp only [workOf, g2, ← g4 _ he.2.1, hf0, List.nil_append]
        have hs : stolenOf q = stolenOf q' := g4 _ he.2.2
        rw [hw, hs]
        simp only [Build.elems]
        cases hb : b.elem e with
        | ok b' => simp only [Out.bind_ok]; exact ih q' b' (by omega) (hm' he.1 g4)
        | err => rfl
        | panic => rfl
      | none =>
        have hr0 := takeFirst_none.1 h2
        have hq : stolenOf q = q := by
          unfold stolenOf
          rw [List.filter_eq_self]
          intro a ha
          rw [List.filter_eq_nil_iff] at hf0 hr0
          have h3 := hf0 a ha
          have h4 := hr0 a ha
          have h5 := (List.filter_eq_nil_iff.1 hm) a ha
          cases a <;> simp_all [DlElem.isFrag, DlElem.isGrantOrAck, DlElem.isResource, DlElem.isStealing]
        simp only [workOf, hf0, hr0, List.nil_append, Build.elems, Out.bind_ok, hq]

/-- In frame 18 nothing is served. -/
theorem buildLoop_18 (n : Nat) (q : List DlElem) (b : Build) : buildLoop 18 n q b = .ok (q, b) := by
  cases n <;> simp [buildLoop, takePrioritized]

/-! ## Queue elements in good order -/

/-- An address a MAC-RESOURCE can carry unencrypted. -/
def AddrOk (a : Addr) : Prop :=
  a.ssi < 2 ^ 24 ∧ a.encrypted = false ∧
    (a.ssiType = .ssi ∨ a.ssiType = .issi ∨ a.ssiType = .gssi ∨ a.ssiType = .ussi ∨ a.ssiType = .smi)

/-- What may be in a queue. -/
def DlElem.Good : DlElem → Prop
  | .ack a => AddrOk a
  | .grant a g => AddrOk a ∧ g.InRange
  | .resource pdu _ _ => pdu.Sendable
  | .frag f _ => f.Ok
  | .stealing b _ => b.length = 124

/-- The fragmenter of a piece of work. -/
def DlElem.fragger : DlElem → Option (Fragger × Owner)
  | .resource pdu sdu o => some (Fragger.new pdu sdu, o)
  | .frag f o => some (f, o)
  | _ => none

theorem fragger_new_ok {pdu : MacResource} (h : pdu.Sendable) (sdu : List Bool) : (Fragger.new pdu sdu).Ok :=
  ⟨h, by simp [Fragger.new], by simp [Fragger.new], rfl⟩

/-- The block a build works on. -/
def Build.blk (b : Build) : Blk := b.buf.getD ⟨[], schFCap⟩

/-- A build in good order. -/
structure Build.Ok (b : Build) : Prop where
  blk : b.blk.Ok
  cap : b.blk.cap = schFCap
  log : b.blk.bits = (b.log.map Prod.snd).flatten
  next : ∀ e ∈ b.next, e.Good ∧ e.isFrag = true

/-- Serving one piece of work. -/
theorem serve_spec {b : Build} (hb : b.Ok) {f : Fragger} (hf : f.Ok) (o : Owner) :
    ∃ f' new, f.nextChunk b.blk = .ok (f', ⟨b.blk.bits ++ new, b.blk.cap⟩, f'.done) ∧ Step f b.blk f' new ∧
      b.serve f o = .ok ⟨if f'.done then b.next else b.next ++ [.frag f' o], some ⟨b.blk.bits ++ new, b.blk.cap⟩,
        b.reports ++ (if f'.done then o.sent else []), b.log ++ [(o, new)]⟩ ∧
      (⟨if f'.done then b.next else b.next ++ [.frag f' o], some ⟨b.blk.bits ++ new, b.blk.cap⟩,
        b.reports ++ (if f'.done then o.sent else []), b.log ++ [(o, new)]⟩ : Build).Ok := by
  obtain ⟨f', new, e, hst⟩ := nextChunk_step f b.blk hf hb.blk
  obtain ⟨f2, b2, e2, _, hc, hok⟩ := c19_block f b.blk hf hb.blk
  rw [e] at e2
  simp only [Out.ok.injEq, Prod.mk.injEq] at e2
  obtain ⟨rfl, rfl, _⟩ := e2
  refine ⟨f', new, e, hst, ?_, hok, hb.cap, ?_, ?_⟩
  · unfold Build.serve
    rw [show b.buf.getD ⟨[], schFCap⟩ = b.blk from rfl]
    simp [e]
  · simp [Build.blk]
    exact hb.log
  · intro x hx
    simp only at hx
    by_cases hd : f'.done = true
    · simp only [hd, if_true] at hx; exact hb.next x hx
    · simp only [hd, if_false, List.mem_append, List.mem_singleton, Bool.false_eq_true] at hx
      rcases hx with hx | rfl
      · exact hb.next x hx
      · rcases hst.ok hf with h | h
        · exact absurd h hd
        · exact ⟨h, rfl⟩

/-- A piece of work. -/
def DlElem.isWork (e : DlElem) : Bool := e.isFrag || e.isResource

theorem work_cases {e : DlElem} (h : e.isWork = true) : ∃ f o, e.fragger = some (f, o) := by
  cases e <;> simp_all [DlElem.isWork, DlElem.isFrag, DlElem.isResource, DlElem.fragger]

theorem good_fragger {e : DlElem} (h : e.Good) {f : Fragger} {o : Owner} (he : e.fragger = some (f, o)) : f.Ok := by
  cases e <;> simp_all [DlElem.fragger, DlElem.Good]
  rw [← he.1]; exact fragger_new_ok h _

theorem elem_serve {e : DlElem} {f : Fragger} {o : Owner} (he : e.fragger = some (f, o)) (b : Build) :
    b.elem e = b.serve f o := by
  cases e <;> simp_all [DlElem.fragger, Build.elem]

/-- The work is served piece by piece: `rs` are, per piece, the state of its fragmenter afterwards and the bits
it put into the block. -/
inductive Round : List DlElem → Blk → List (Fragger × List Bool) → Blk → Prop
  | nil (b : Blk) : Round [] b [] b
  | cons {e : DlElem} {f : Fragger} {o : Owner} {es : List DlElem} {b b' : Blk} {f' : Fragger} {new : List Bool}
      {rs : List (Fragger × List Bool)} (he : e.fragger = some (f, o)) (hb : b.Ok)
      (h1 : f.nextChunk b = .ok (f', ⟨b.bits ++ new, b.cap⟩, f'.done)) (h2 : Step f b f' new)
      (h3 : Round es ⟨b.bits ++ new, b.cap⟩ rs b') : Round (e :: es) b ((f', new) :: rs) b'

/-- The message a piece of work belongs to. -/
def DlElem.owner : DlElem → Owner
  | .resource _ _ o => o
  | .frag _ o => o
  | .stealing _ o => o
  | _ => .internal

theorem fragger_owner {e : DlElem} {f : Fragger} {o : Owner} (he : e.fragger = some (f, o)) : e.owner = o := by
  cases e <;> simp_all [DlElem.fragger, DlElem.owner]

/-- What is left to do after a round of service. -/
def leftOver (es : List DlElem) (rs : List (Fragger × List Bool)) : List DlElem :=
  (es.zip rs).filterMap fun p => if p.2.1.done then none else some (.frag p.2.1 p.1.owner)

/-- Who is told what after a round of service. -/
def finished (es : List DlElem) (rs : List (Fragger × List Bool)) : List Report :=
  (es.zip rs).flatMap fun p => if p.2.1.done then p.1.owner.sent else []

/-- Which bits belong to whom. -/
def pieces (es : List DlElem) (rs : List (Fragger × List Bool)) : List (Owner × List Bool) :=
  (es.zip rs).map fun p => (p.1.owner, p.2.2)

theorem elems_spec (es : List DlElem) (b : Build) (hb : b.Ok) (hw : ∀ e ∈ es, e.isWork = true ∧ e.Good) :
    ∃ rs blk', Round es b.blk rs blk' ∧ rs.length = es.length ∧
      ∃ b', b.elems es = .ok b' ∧ b'.Ok ∧ b'.blk = blk' ∧ (es ≠ [] → b'.buf.isSome = true) ∧ (es = [] → b' = b) ∧
        b'.next = b.next ++ leftOver es rs ∧ b'.reports = b.reports ++ finished es rs ∧
        b'.log = b.log ++ pieces es rs := by
  induction es generalizing b with
  | nil =>
    exact ⟨[], b.blk, .nil _, rfl, b, rfl, hb, rfl, by simp, fun _ => rfl, by simp [leftOver], by simp [finished], by simp [pieces]⟩
  | cons e es ih =>
    obtain ⟨f, o, he⟩ := work_cases (hw e (by simp)).1
    have hf := good_fragger (hw e (by simp)).2 he
    obtain ⟨f', new, e1, hst, e2, hok⟩ := serve_spec hb hf o
    obtain ⟨rs, blk', hs, hl, b', g1, g2, g3, g4, g4', g5, g6, g7⟩ := ih _ hok (fun e he => hw e (by simp [he]))
    refine ⟨(f', new) :: rs, blk', .cons he hb.blk e1 hst hs, by simp [hl], b', ?_, g2, g3, ?_, by simp, ?_, ?_, ?_⟩
    · simp only [Build.elems, elem_serve he, e2, Out.bind_ok, g1]
    · intro _
      cases es with
      | nil => rw [g4' rfl]; rfl
      | cons a as => exact g4 (by simp)
    · rw [g5]
      simp only [leftOver, List.zip_cons_cons, List.filterMap_cons, fragger_owner he]
      cases f'.done <;> simp
    · rw [g6]
      simp only [finished, List.zip_cons_cons, List.flatMap_cons, fragger_owner he, List.append_assoc]
    · rw [g7]
      simp only [pieces, List.zip_cons_cons, List.map_cons, fragger_owner he, List.append_assoc, List.singleton_append]

end Verif.Umac
