import Verif.Umac.SchedSteps
/-!
# Following one message through the channel scheduler
-/
namespace Verif.Umac
open Verif.Bits Verif.Codec Verif.Tdma Verif.Mle

/-- The message with identity `id`. -/
def Owner.isMsg (id : Nat) : Owner → Bool
  | .msg i _ => i == id
  | .internal => false

/-- The elements of a queue which belong to message `id`. -/
def here (id : Nat) (q : List DlElem) : List DlElem := q.filter (·.owner.isMsg id)

/-- The bits of a log which belong to message `id`. -/
def bitsOf (id : Nat) (l : List (Owner × List Bool)) : List (List Bool) :=
  (l.filter (·.1.isMsg id)).map Prod.snd

/-- The reports about message `id`. -/
def Report.about (id : Nat) : Report → Bool
  | .transmitted i => i == id
  | .discarded i => i == id

def about (id : Nat) (l : List Report) : List Report := l.filter (·.about id)

@[simp] theorem here_nil (id : Nat) : here id [] = [] := rfl
@[simp] theorem here_append (id : Nat) (a b : List DlElem) : here id (a ++ b) = here id a ++ here id b := by simp [here]
@[simp] theorem about_append (id : Nat) (a b : List Report) : about id (a ++ b) = about id a ++ about id b := by simp [about]
@[simp] theorem bitsOf_append (id : Nat) (a b : List (Owner × List Bool)) : bitsOf id (a ++ b) = bitsOf id a ++ bitsOf id b := by
  simp [bitsOf]
theorem here_filter (id : Nat) (p : DlElem → Bool) (q : List DlElem) : here id (q.filter p) = (here id q).filter p := by
  simp only [here, List.filter_filter]
  congr 1; funext x; exact Bool.and_comm _ _

theorem about_sent (id : Nat) (o : Owner) : about id o.sent = if o.isMsg id then o.sent else [] := by
  cases o with
  | internal => simp [Owner.sent, Owner.isMsg, about]
  | msg i r =>
    cases r with
    | false => simp [Owner.sent, about]
    | true =>
      by_cases h : i = id <;> simp [Owner.sent, Owner.isMsg, about, Report.about, h]

theorem about_dropped (id : Nat) (o : Owner) : about id o.dropped = if o.isMsg id then o.dropped else [] := by
  cases o with
  | internal => simp [Owner.dropped, Owner.isMsg, about]
  | msg i r =>
    cases r with
    | false => simp [Owner.dropped, about]
    | true =>
      by_cases h : i = id <;> simp [Owner.dropped, Owner.isMsg, about, Report.about, h]

@[simp] theorem owner_frag (f : Fragger) (o : Owner) : (DlElem.frag f o).owner = o := rfl

/-! ## A round of service -/

theorem round_length {es : List DlElem} {b b' : Blk} {rs : List (Fragger × List Bool)} (h : Round es b rs b') :
    rs.length = es.length := by
  induction h with
  | nil => rfl
  | cons _ _ _ _ _ ih => simp [ih]

theorem round_absent (id : Nat) {es : List DlElem} {b b' : Blk} {rs : List (Fragger × List Bool)} (h : Round es b rs b')
    (h0 : here id es = []) :
    here id (leftOver es rs) = [] ∧ about id (finished es rs) = [] ∧ bitsOf id (pieces es rs) = [] := by
  induction h with
  | nil => simp [leftOver, finished, pieces, about, bitsOf]
  | @cons e f o es b b' f' new rs he hb h1 h2 h3 ih =>
    simp only [here, List.filter_cons] at h0
    by_cases hm : e.owner.isMsg id = true
    · simp [hm] at h0
    · simp only [hm, if_false, Bool.false_eq_true] at h0
      obtain ⟨i1, i2, i3⟩ := ih h0
      refine ⟨?_, ?_, ?_⟩
      · simp only [leftOver, List.zip_cons_cons, List.filterMap_cons]
        cases f'.done with
        | true => simpa [leftOver] using i1
        | false =>
          simp only [Bool.false_eq_true, if_false, here, List.filter_cons, owner_frag, hm]
          exact i1
      · simp only [finished, List.zip_cons_cons, List.flatMap_cons, about_append]
        rw [show about id (List.flatMap _ (es.zip rs)) = [] from i2, List.append_nil]
        cases f'.done with
        | true => simp only [if_true, about_sent, hm, if_false, Bool.false_eq_true]
        | false => rfl
      · simp only [pieces, List.zip_cons_cons, List.map_cons, bitsOf, List.filter_cons, hm, if_false, Bool.false_eq_true]
        exact i3

theorem round_one (id : Nat) {es : List DlElem} {b b' : Blk} {rs : List (Fragger × List Bool)} (h : Round es b rs b')
    {e : DlElem} (h0 : here id es = [e]) :
    ∃ f o blk f' new, e.fragger = some (f, o) ∧ blk.Ok ∧
      f.nextChunk blk = .ok (f', ⟨blk.bits ++ new, blk.cap⟩, f'.done) ∧ Step f blk f' new ∧
      here id (leftOver es rs) = (if f'.done then [] else [.frag f' o]) ∧
      about id (finished es rs) = (if f'.done then o.sent else []) ∧ bitsOf id (pieces es rs) = [new] := by
  induction h with
  | nil => simp at h0
  | @cons e' f o es b b' f' new rs he hb h1 h2 h3 ih =>
    simp only [here, List.filter_cons] at h0
    by_cases hm : e'.owner.isMsg id = true
    · simp only [hm, if_true, List.cons.injEq] at h0
      obtain ⟨rfl, h0⟩ := h0
      obtain ⟨i1, i2, i3⟩ := round_absent id h3 h0
      have ho := fragger_owner he
      refine ⟨f, o, b, f', new, he, hb, h1, h2, ?_, ?_, ?_⟩
      · simp only [leftOver, List.zip_cons_cons, List.filterMap_cons, ho]
        cases f'.done with
        | true => simpa [leftOver] using i1
        | false =>
          simp only [Bool.false_eq_true, if_false, here, List.filter_cons, owner_frag, ← ho, hm, if_true, List.cons.injEq, true_and]
          exact i1
      · simp only [finished, List.zip_cons_cons, List.flatMap_cons, about_append]
        rw [show about id (List.flatMap _ (es.zip rs)) = [] from i2, List.append_nil, ho]
        cases f'.done with
        | true => simp only [if_true, about_sent, ← ho, hm]
        | false => rfl
      · simp only [pieces, List.zip_cons_cons, List.map_cons, bitsOf, List.filter_cons, hm, if_true, List.cons.injEq, true_and]
        exact i3
    · simp only [hm, if_false, Bool.false_eq_true] at h0
      obtain ⟨f2, o2, blk, f2', new2, j1, j2, j3, j4, i1, i2, i3⟩ := ih h0
      refine ⟨f2, o2, blk, f2', new2, j1, j2, j3, j4, ?_, ?_, ?_⟩
      · rw [← i1]
        simp only [leftOver, List.zip_cons_cons, List.filterMap_cons]
        cases f'.done with
        | true => rfl
        | false => simp only [Bool.false_eq_true, if_false, here, List.filter_cons, owner_frag, hm]
      · rw [← i2]
        simp only [finished, List.zip_cons_cons, List.flatMap_cons, about_append]
        cases f'.done with
        | true => simp only [if_true, about_sent, hm, if_false, Bool.false_eq_true, List.nil_append]
        | false => rfl
      · rw [← i3]
        simp only [pieces, List.zip_cons_cons, List.map_cons, bitsOf, List.filter_cons, hm, if_false, Bool.false_eq_true]

theorem leftOver_good {es : List DlElem} {b b' : Blk} {rs : List (Fragger × List Bool)} (h : Round es b rs b')
    (hg : ∀ e ∈ es, e.Good) : ∀ e ∈ leftOver es rs, e.Good ∧ e.isFrag = true := by
  induction h with
  | nil => simp [leftOver]
  | @cons e' f o es b b' f' new rs he hb h1 h2 h3 ih =>
    intro e hm
    simp only [leftOver, List.zip_cons_cons, List.filterMap_cons] at hm
    have ih' := ih (fun e he => hg e (by simp [he])) e
    cases hd : f'.done with
    | true => simp only [hd, if_true] at hm; exact ih' hm
    | false =>
      simp only [hd, Bool.false_eq_true, if_false, List.mem_cons] at hm
      rcases hm with rfl | hm
      · rcases h2.ok (good_fragger (hg e' (by simp)) he) with h | h
        · simp [h] at hd
        · exact ⟨h, rfl⟩
      · exact ih' hm

/-! ## A block -/

theorem emptyBuild_ok : (⟨[], none, [], []⟩ : Build).Ok :=
  ⟨⟨by decide, by decide, by decide⟩, rfl, rfl, by simp⟩

theorem workOf_mem {q : List DlElem} {e : DlElem} (h : e ∈ workOf q) : e ∈ q ∧ e.isWork = true := by
  simp only [workOf, List.mem_append, List.mem_filter] at h
  rcases h with ⟨h1, h2⟩ | ⟨h1, h2⟩ <;> exact ⟨h1, by simp [DlElem.isWork, h2]⟩

/-- Building a block from a queue in good order, outside frame 18. -/
theorem buildBlock_spec {f : Nat} (hf : f ≠ 18) {q : List DlElem} (hm : Merged q) (hg : ∀ e ∈ q, e.Good) :
    ∃ rs blk', Round (workOf q) ⟨[], schFCap⟩ rs blk' ∧ blk'.Ok ∧ blk'.cap = schFCap ∧
      blk'.bits = ((pieces (workOf q) rs).map Prod.snd).flatten ∧
      ((stolenOf q = [] ∨ leftOver (workOf q) rs = []) →
        buildBlock f q [] = .ok (stolenOf q ++ leftOver (workOf q) rs,
          ⟨[], if workOf q = [] then none else some blk', finished (workOf q) rs, pieces (workOf q) rs⟩)) ∧
      (stolenOf q ≠ [] → leftOver (workOf q) rs ≠ [] → buildBlock f q [] = .panic) := by
  obtain ⟨rs, blk', hs, _, b', g1, g2, g3, g4, g4', g5, g6, g7⟩ := elems_spec (workOf q) ⟨[], none, [], []⟩ emptyBuild_ok
    (fun e he => ⟨(workOf_mem he).2, hg e (workOf_mem he).1⟩)
  have hbuf : b'.buf = if workOf q = [] then none else some blk' := by
    by_cases hw : workOf q = []
    · rw [if_pos hw, g4' hw]
    · rw [if_neg hw]
      have := g4 hw
      rw [Option.isSome_iff_exists] at this
      obtain ⟨x, hx⟩ := this
      rw [hx, ← g3, Build.blk, hx]; rfl
  simp only [List.nil_append] at g5 g6 g7
  have hbits := g2.log
  rw [g3, g7] at hbits
  have hcap := g2.cap
  have hok := g2.blk
  rw [g3] at hcap hok
  have hloop : buildLoop f q.length q ⟨[], none, [], []⟩ = .ok (stolenOf q, b') := by
    rw [buildLoop_eq hf q.length q _ (Nat.le_refl _) hm, g1]; rfl
  refine ⟨rs, blk', hs, hok, hcap, hbits, ?_, ?_⟩
  · intro hor
    unfold buildBlock
    rw [hloop]
    simp only [Out.bind_ok, swapIn, g5]
    have hb' : b' = ⟨leftOver (workOf q) rs, if workOf q = [] then none else some blk', finished (workOf q) rs,
        pieces (workOf q) rs⟩ := by
      rw [← g5, ← g6, ← g7, ← hbuf]
    by_cases hl : leftOver (workOf q) rs = []
    · simp [hl, hb']
    · rcases hor with h | h
      · simp [hl, h, hb']
      · exact absurd h hl
  · intro h1 h2
    unfold buildBlock
    rw [hloop]
    simp [swapIn, g5, h1, h2]

/-- In frame 18 the queue is left alone. -/
theorem buildBlock_18 (q : List DlElem) : buildBlock 18 q [] = .ok (q, ⟨[], none, [], []⟩) := by
  simp [buildBlock, buildLoop_18, swapIn]

/-! ## Joining grants and acknowledgements -/

/-- `b` is `a`, possibly with a slot grant and the random access acknowledgement added. -/
def Joined (a b : MacResource) : Prop :=
  ∃ g ra, b = { a with slotGrant := g, randomAccess := ra } ∧ (a.randomAccess = true → ra = true) ∧
    (g = a.slotGrant ∨ ∃ v, g = some v ∧ v.InRange)

theorem Joined.refl (a : MacResource) : Joined a a := ⟨a.slotGrant, a.randomAccess, rfl, fun h => h, .inl rfl⟩
theorem Joined.trans {a b c : MacResource} (h1 : Joined a b) (h2 : Joined b c) : Joined a c := by
  obtain ⟨g, ra, rfl, h3, h4⟩ := h1
  obtain ⟨g', ra', rfl, h5, h6⟩ := h2
  refine ⟨g', ra', rfl, fun h => h5 (h3 h), ?_⟩
  rcases h6 with h6 | h6
  · simp only at h6; rw [h6]; exact h4
  · exact .inr h6

theorem Joined.sendable {a b : MacResource} (h : Joined a b) (ha : a.Sendable) : b.Sendable := by
  obtain ⟨g, ra, rfl, h3, h4⟩ := h
  obtain ⟨h1, h2, h3, h4', h5, h6, h7, h8⟩ := ha
  refine ⟨h1, h2, h3, h4', h5, h6, ?_, h8⟩
  intro v hv
  simp only at hv
  rcases h4 with h4 | ⟨w, h4, hw⟩
  · rw [h4] at hv; exact h7 v hv
  · rw [h4] at hv; cases hv; exact hw

/-- How joining may change an element. -/
inductive JoinedElem : DlElem → DlElem → Prop
  | refl (e : DlElem) : JoinedElem e e
  | join {a b : MacResource} (sdu : List Bool) (o : Owner) (h : Joined a b) : JoinedElem (.resource a sdu o) (.resource b sdu o)

theorem JoinedElem.trans {a b c : DlElem} (h1 : JoinedElem a b) (h2 : JoinedElem b c) : JoinedElem a c := by
  cases h1 with
  | refl => exact h2
  | join sdu o h =>
    cases h2 with
    | refl => exact .join sdu o h
    | join _ _ h' => exact .join sdu o (h.trans h')

theorem JoinedElem.owner {a b : DlElem} (h : JoinedElem a b) : b.owner = a.owner := by
  cases h <;> rfl

theorem join_joined {e : DlElem} (he : e.Good) (r : DlElem) : JoinedElem r (e.join r) := by
  cases e <;> cases r <;> first
    | exact .refl _
    | exact .join _ _ ⟨_, _, rfl, fun h => h, .inr ⟨_, rfl, he.2⟩⟩
    | exact .join _ _ ⟨_, _, rfl, fun _ => rfl, .inl rfl⟩

theorem join_good {e r : DlElem} (he : e.Good) (hr : r.Good) : (e.join r).Good := by
  cases e <;> cases r <;> simp only [DlElem.join, DlElem.Good] at * <;> try exact hr
  · obtain ⟨h1, h2, h3, h4, h5, h6, h7, h8⟩ := hr
    refine ⟨h1, h2, h3, h4, h5, h6, ?_, h8⟩
    intro v hv
    simp at hv
    subst hv; exact he.2

theorem updFirst_spec (p : DlElem → Bool) (f : DlElem → DlElem) (q : List DlElem) :
    (q.any p = false → updFirst p f q = q) ∧
    (q.any p = true → ∃ l e r, q = l ++ e :: r ∧ p e = true ∧ (∀ x ∈ l, p x = false) ∧ updFirst p f q = l ++ f e :: r) := by
  induction q with
  | nil => simp [updFirst]
  | cons a q ih =>
    by_cases hp : p a = true
    · refine ⟨by simp [hp], fun _ => ⟨[], a, q, rfl, hp, by simp, by simp [updFirst, hp]⟩⟩
    · refine ⟨fun h => ?_, fun h => ?_⟩
      · simp only [List.any_cons, Bool.or_eq_false_iff] at h
        simp [updFirst, hp, ih.1 h.2]
      · simp only [List.any_cons, Bool.or_eq_true, hp, false_or, Bool.false_eq_true] at h
        obtain ⟨l, e, r, h1, h2, h3, h4⟩ := ih.2 h
        refine ⟨a :: l, e, r, by simp [h1], h2, ?_, by simp [updFirst, hp, h4]⟩
        intro x hx
        rcases List.mem_cons.1 hx with rfl | hx
        · simpa using hp
        · exact h3 x hx

/-- The minimal resource carries what it is made for. -/
theorem minimal_good {a : Addr} (ha : AddrOk a) {g : Option SlotGrant} (hg : ∀ v, g = some v → v.InRange) (ack : Bool) :
    ∃ pdu, minimalResource a g ack = .ok pdu ∧ pdu.Sendable ∧ pdu.addr = some a ∧ pdu.slotGrant = g ∧ pdu.randomAccess = ack := by
  obtain ⟨h1, h2, h3⟩ := ha
  refine ⟨_, rfl, ?_, rfl, rfl, rfl⟩
  refine ⟨by simp, by simp, by simp, by simp, ?_, by simp, fun v hv => hg v (by simpa using hv), by simp⟩
  simp only [MacResource.Addressed]
  refine ⟨h1, by simp [h2], by simp, by simp, by simp, ?_⟩
  rcases h3 with h | h | h | h | h <;> simp [h]

/-- One grant or acknowledgement: it joins the first waiting message of its station, or makes a message of its
own. -/
theorem integrateOne_spec {q : List DlElem} (hg : ∀ x ∈ q, x.Good) {e : DlElem} (he : e.Good) (hk : e.isGrantOrAck = true) :
    ∃ q', integrateOne q e = .ok q' ∧ (∀ x ∈ q', x.Good) ∧
      ((∃ l r r' s, q = l ++ r :: s ∧ q' = l ++ r' :: s ∧ JoinedElem r r' ∧ r.isResource = true) ∨
       (∃ pdu, q' = q ++ [.resource pdu [] .internal])) := by
  have main : ∀ ssi, e.ssi? = some ssi → (∃ pdu, e.asMinimal = .ok pdu ∧ pdu.Sendable) →
      ∃ q', integrateOne q e = .ok q' ∧ (∀ x ∈ q', x.Good) ∧
      ((∃ l r r' s, q = l ++ r :: s ∧ q' = l ++ r' :: s ∧ JoinedElem r r' ∧ r.isResource = true) ∨
       (∃ pdu, q' = q ++ [.resource pdu [] .internal])) := by
    intro ssi hs ⟨pdu, hp, hps⟩
    unfold integrateOne
    rw [hs]
    simp only
    cases hany : q.any (·.isResourceFor ssi) with
    | true =>
      obtain ⟨l, x, r, h1, h2, h3, h4⟩ := (updFirst_spec (·.isResourceFor ssi) e.join q).2 hany
      simp only [if_true]
      refine ⟨_, rfl, ?_, .inl ⟨l, x, e.join x, r, h1, h4, join_joined he x, ?_⟩⟩
      · intro y hy
        rw [h4] at hy
        simp only [List.mem_append, List.mem_cons] at hy
        rcases hy with hy | rfl | hy
        · exact hg y (by simp [h1, hy])
        · exact join_good he (hg x (by simp [h1]))
        · exact hg y (by simp [h1, hy])
      · cases x <;> simp_all [DlElem.isResourceFor, DlElem.isResource]
    | false =>
      simp only [Bool.false_eq_true, if_false, hp, Out.bind_ok]
      refine ⟨_, rfl, ?_, .inr ⟨pdu, rfl⟩⟩
      intro y hy
      simp only [List.mem_append, List.mem_singleton] at hy
      rcases hy with hy | rfl
      · exact hg y hy
      · exact hps
  cases e with
  | ack a =>
    obtain ⟨pdu, h1, h2, _⟩ := minimal_good he (g := none) (by simp) true
    exact main a.ssi rfl ⟨pdu, h1, h2⟩
  | grant a g =>
    obtain ⟨pdu, h1, h2, _⟩ := minimal_good he.1 (g := some g) (by simpa using he.2) false
    exact main a.ssi rfl ⟨pdu, h1, h2⟩
  | resource pdu sdu o => simp [DlElem.isGrantOrAck] at hk
  | frag f o => simp [DlElem.isGrantOrAck] at hk
  | stealing b o => simp [DlElem.isGrantOrAck] at hk

/-- What joining does to a queue. -/
structure JoinedQueue (q q' : List DlElem) : Prop where
  good : (∀ x ∈ q, x.Good) → ∀ x ∈ q', x.Good
  stolen : stolenOf q' = stolenOf q
  frags : q'.filter (·.isFrag) = q.filter (·.isFrag)
  merged : Merged q → Merged q'
  absent : ∀ id, here id q = [] → here id q' = []
  one : ∀ id e, here id q = [e] → ∃ e', here id q' = [e'] ∧ JoinedElem e e'

theorem integrateOne_queue {q : List DlElem} (hg : ∀ x ∈ q, x.Good) {e : DlElem} (he : e.Good) (hk : e.isGrantOrAck = true) :
    ∃ q', integrateOne q e = .ok q' ∧ JoinedQueue q q' := by
  obtain ⟨q', h1, h2, h3⟩ := integrateOne_spec hg he hk
  refine ⟨q', h1, fun _ => h2, ?_, ?_, ?_, ?_, ?_⟩ <;> rcases h3 with ⟨l, r, r', s, rfl, rfl, hj, hr⟩ | ⟨pdu, rfl⟩
  · cases hj <;> simp_all [stolenOf, DlElem.isStealing, DlElem.isResource]
  · simp [stolenOf, DlElem.isStealing]
  · cases hj <;> simp_all [DlElem.isFrag, DlElem.isResource]
  · simp [DlElem.isFrag]
  · intro h
    unfold Merged at h ⊢
    cases hj <;> simp_all [DlElem.isGrantOrAck]
  · intro h
    unfold Merged at h ⊢
    rw [List.filter_append, h]; rfl
  · intro id h
    simp only [here, List.filter_append, List.filter_cons, hj.owner] at h ⊢
    split at h <;> simp_all
  · intro id h; simp [h]; simp [here, DlElem.owner, Owner.isMsg]
  · intro id e h
    simp only [here, List.filter_append, List.filter_cons, hj.owner] at h ⊢
    by_cases hm : r.owner.isMsg id = true
    · simp only [hm, if_true] at h ⊢
      generalize hA : List.filter (fun x => x.owner.isMsg id) l = A at h ⊢
      generalize hB : List.filter (fun x => x.owner.isMsg id) s = B at h ⊢
      cases A with
      | nil =>
        simp only [List.nil_append, List.cons.injEq] at h ⊢
        obtain ⟨rfl, rfl⟩ := h
        exact ⟨r', ⟨rfl, rfl⟩, hj⟩
      | cons a A => simp at h
    · simp only [hm, Bool.false_eq_true, if_false] at h ⊢
      exact ⟨e, h, .refl _⟩
  · intro id e h
    exact ⟨e, by simp [h]; simp [here, DlElem.owner, Owner.isMsg], .refl _⟩

theorem JoinedQueue.refl (q : List DlElem) : JoinedQueue q q :=
  ⟨fun h => h, rfl, rfl, fun h => h, fun _ h => h, fun _ e h => ⟨e, h, .refl _⟩⟩

theorem JoinedQueue.trans {a b c : List DlElem} (h1 : JoinedQueue a b) (h2 : JoinedQueue b c) : JoinedQueue a c := by
  refine ⟨fun h => h2.good (h1.good h), h2.stolen.trans h1.stolen, h2.frags.trans h1.frags, fun h => h2.merged (h1.merged h),
    fun id h => h2.absent id (h1.absent id h), ?_⟩
  intro id e h
  obtain ⟨e', h3, h4⟩ := h1.one id e h
  obtain ⟨e'', h5, h6⟩ := h2.one id e' h3
  exact ⟨e'', h5, h4.trans h6⟩

theorem integrateAll_queue (es : List DlElem) (q : List DlElem) (hg : ∀ x ∈ q, x.Good)
    (he : ∀ e ∈ es, e.Good ∧ e.isGrantOrAck = true) : ∃ q', integrateAll q es = .ok q' ∧ JoinedQueue q q' := by
  induction es generalizing q with
  | nil => exact ⟨q, rfl, .refl q⟩
  | cons e es ih =>
    obtain ⟨q1, h1, h2⟩ := integrateOne_queue hg (he e (by simp)).1 (he e (by simp)).2
    obtain ⟨q2, h3, h4⟩ := ih q1 (h2.good hg) (fun x hx => he x (by simp [hx]))
    exact ⟨q2, by simp [integrateAll, h1, h3], h2.trans h4⟩

/-- Joining all grants and acknowledgements of a queue. -/
theorem integrate_queue {q : List DlElem} (hg : ∀ x ∈ q, x.Good) :
    ∃ q', integrate q = .ok q' ∧ (∀ x ∈ q', x.Good) ∧ Merged q' ∧ stolenOf q' = stolenOf q ∧
      q'.filter (·.isFrag) = q.filter (·.isFrag) ∧
      (∀ id, here id q = [] → here id q' = []) ∧
      (∀ id e, here id q = [e] → ∃ e', here id q' = [e'] ∧ JoinedElem e e') := by
  have hg1 : ∀ x ∈ q.filter (!·.isGrantOrAck), x.Good := fun x hx => hg x (List.mem_filter.1 hx).1
  obtain ⟨q', h1, h2⟩ := integrateAll_queue (q.filter (·.isGrantOrAck)) (q.filter (!·.isGrantOrAck)) hg1
    (fun e he => ⟨hg e (List.mem_filter.1 he).1, (List.mem_filter.1 he).2⟩)
  have hh : ∀ id, here id (q.filter (!·.isGrantOrAck)) = here id q := by
    intro id
    unfold here
    rw [List.filter_filter]
    congr 1; funext x
    cases x <;> simp [DlElem.owner, Owner.isMsg, DlElem.isGrantOrAck]
  refine ⟨q', h1, h2.good hg1, h2.merged ?_, ?_, ?_, ?_, ?_⟩
  · unfold Merged
    rw [List.filter_filter, List.filter_eq_nil_iff]
    intro a _; simp
  · rw [h2.stolen]
    unfold stolenOf
    rw [List.filter_filter]
    congr 1; funext x
    cases x <;> simp [DlElem.isStealing, DlElem.isGrantOrAck]
  · rw [h2.frags, List.filter_filter]
    congr 1; funext x
    cases x <;> simp [DlElem.isFrag, DlElem.isGrantOrAck]
  · intro id h; exact h2.absent id ((hh id).trans h)
  · intro id e h; exact h2.one id e ((hh id).trans h)

end Verif.Umac
