import Verif.Umac.SchedHistory
/-!
# C23 — queued downlink messages: one history, one message

`Sched.run` is any sequence of calls on the channel scheduler of a base station: ticks, capacity requests,
grants, acknowledgements, messages, blocks for stealing, voice, circuits being opened and closed, hang time.
The theorems follow one message from the call which queues it.
-/
namespace Verif.Umac
open Verif.Bits Verif.Codec Verif.Tdma Verif.Mle

/-! ## Specification -/

/-- The bits of message `id` put on the air, slot by slot: one entry per slot in which it was served. -/
def bitsIn (id : Nat) (tr : List (SchedEv × SchedRet)) : List (List Bool) := tr.flatMap (·.2.bits id)

/-- What the sender of message `id` was told. -/
def reportsIn (id : Nat) (tr : List (SchedEv × SchedRet)) : List Report := tr.flatMap (·.2.reports id)

/-- What is left of a message after it has been offered blocks: its sender. -/
structure Sending (pdu : MacResource) (sdu : List Bool) (bits : List (List Bool)) (f : Fragger) : Prop where
  /-- The header is the one asked for, possibly with a slot grant and an acknowledgement added; the fragmenter of
  C19, offered some sequence of blocks, gave exactly `bits`. -/
  sent : ∃ pdu' blks, Joined pdu pdu' ∧ (∀ b ∈ blks, b.Ok) ∧ send (Fragger.new pdu' sdu) blks = .ok (f, bits)

/-- Where a message can be. -/
inductive Stage (mayDrop : Bool) (pdu : MacResource) (sdu : List Bool) (o : Owner) :
    List (List Bool) → List Report → List DlElem → Prop
  /-- waiting, untouched -/
  | queued {pdu' : MacResource} (h : Joined pdu pdu') : Stage mayDrop pdu sdu o [] [] [.resource pdu' sdu o]
  /-- partly sent or put off -/
  | started {bits : List (List Bool)} {f : Fragger} (h : Sending pdu sdu bits f) (hd : f.done = false) :
      Stage mayDrop pdu sdu o bits [] [.frag f o]
  | done {bits : List (List Bool)} {f : Fragger} (h : Sending pdu sdu bits f) (hd : f.done = true) :
      Stage mayDrop pdu sdu o bits o.sent []
  | dropped {bits : List (List Bool)} {f : Fragger} (hm : mayDrop = true) (h : Sending pdu sdu bits f) (hd : f.done = false) :
      Stage mayDrop pdu sdu o bits o.dropped []

/-- Where a block for stealing can be. -/
inductive StageS (b : List Bool) (o : Owner) : List (List Bool) → List Report → List DlElem → Prop
  | waiting : StageS b o [] [] [.stealing b o]
  | done : StageS b o [b] o.sent []

/-! ## Steps -/

theorem send_snoc {f f1 f2 : Fragger} {blks : List Blk} {bits : List (List Bool)} {blk : Blk} {new : List Bool} {d : Bool}
    (h : send f blks = .ok (f1, bits)) (hd : f1.done = false)
    (h1 : f1.nextChunk blk = .ok (f2, ⟨blk.bits ++ new, blk.cap⟩, d)) :
    send f (blks ++ [blk]) = .ok (f2, bits ++ [new]) := by
  induction blks generalizing f bits with
  | nil =>
    simp only [send, Out.ok.injEq, Prod.mk.injEq] at h
    obtain ⟨rfl, rfl⟩ := h
    simp [send, hd, h1]
  | cons b blks ih =>
    unfold send at h
    by_cases hfd : f.done = true
    · simp only [hfd, if_true, Out.ok.injEq, Prod.mk.injEq] at h
      rw [← h.1, hfd] at hd; cases hd
    · simp only [hfd, if_false, Bool.false_eq_true] at h
      rw [Out.bind_eq_ok] at h; obtain ⟨r, hr, h⟩ := h
      rw [Out.bind_eq_ok] at h; obtain ⟨q, hq, h⟩ := h
      simp only [Out.ok.injEq, Prod.mk.injEq] at h
      obtain ⟨rfl, rfl⟩ := h
      have := ih (f := r.1) (bits := q.2) hq
      simp [send, hfd, hr, this]

theorem Sending.new {pdu pdu' : MacResource} (h : Joined pdu pdu') (sdu : List Bool) :
    Sending pdu sdu [] (Fragger.new pdu' sdu) := ⟨⟨pdu', [], h, by simp, rfl⟩⟩

theorem Sending.snoc {pdu : MacResource} {sdu : List Bool} {bits : List (List Bool)} {f f' : Fragger} {blk : Blk}
    {new : List Bool} {d : Bool} (h : Sending pdu sdu bits f) (hd : f.done = false) (hb : blk.Ok)
    (h1 : f.nextChunk blk = .ok (f', ⟨blk.bits ++ new, blk.cap⟩, d)) : Sending pdu sdu (bits ++ [new]) f' := by
  obtain ⟨pdu', blks, g1, g2, g3⟩ := h.sent
  refine ⟨⟨pdu', blks ++ [blk], g1, ?_, send_snoc g3 hd h1⟩⟩
  intro b hb'
  simp only [List.mem_append, List.mem_singleton] at hb'
  rcases hb' with hb' | rfl
  · exact g2 b hb'
  · exact hb

theorem Stage.weaken {d : Bool} (d' : Bool) {pdu : MacResource} {sdu : List Bool} {o : Owner} {bits : List (List Bool)}
    {reps : List Report} {q : List DlElem} (h : Stage d pdu sdu o bits reps q) : Stage (d || d') pdu sdu o bits reps q := by
  cases h with
  | queued h => exact .queued h
  | started h hd => exact .started h hd
  | done h hd => exact .done h hd
  | dropped hm h hd => exact .dropped (by simp [hm]) h hd

theorem stage_move {d d' : Bool} {id : Nat} {pdu : MacResource} {sdu : List Bool} {o : Owner} {bits b : List (List Bool)}
    {reps r : List Report} {q q' : List DlElem} (h : Stage d pdu sdu o bits reps (here id q)) (ht : QTrack d' id q q' b r) :
    Stage (d || d') pdu sdu o (bits ++ b) (reps ++ r) (here id q') := by
  generalize hq : here id q = H at h
  cases h with
  | @queued pdu' hj =>
    have hm := ht.one _ hq
    generalize here id q' = Q at hm ⊢
    cases hm with
    | wait h =>
      cases h with
      | refl => exact .queued hj
      | join _ _ h => exact .queued (hj.trans h)
    | @serve _ e' f f' o' blk new h he hb h1 h2 =>
      obtain ⟨pdu'', hj', rfl⟩ : ∃ pdu'', Joined pdu pdu'' ∧ e' = .resource pdu'' sdu o := by
        cases h with
        | refl => exact ⟨_, hj, rfl⟩
        | join _ _ h => exact ⟨_, hj.trans h, rfl⟩
      simp only [DlElem.fragger, Option.some.injEq, Prod.mk.injEq] at he
      obtain ⟨rfl, rfl⟩ := he
      have hs := (Sending.new hj' sdu).snoc rfl hb h1
      cases hd : f'.done with
      | true => exact .done hs hd
      | false => exact .started hs hd
    | drop hd hs => exact .dropped (by simp [hd]) (Sending.new hj sdu) rfl
  | @started _ f hs hd =>
    have hm := ht.one _ hq
    generalize here id q' = Q at hm ⊢
    cases hm with
    | wait h =>
      cases h
      simpa using Stage.started (mayDrop := d || d') (o := o) hs hd
    | @serve _ e' f1 f' o' blk new h he hb h1 h2 =>
      cases h
      simp only [DlElem.fragger, Option.some.injEq, Prod.mk.injEq] at he
      obtain ⟨rfl, rfl⟩ := he
      have hs' := hs.snoc hd hb h1
      cases hd : f'.done with
      | true => exact .done hs' hd
      | false => exact .started hs' hd
    | drop hdr _ => rw [List.append_nil]; exact Stage.dropped (o := o) (by simp [hdr]) hs hd
  | done hs hd =>
    obtain ⟨h1, rfl, rfl⟩ := ht.absent hq
    rw [h1]; simpa using Stage.done (mayDrop := d || d') (o := o) hs hd
  | dropped hm hs hd =>
    obtain ⟨h1, rfl, rfl⟩ := ht.absent hq
    rw [h1]; simpa using Stage.dropped (o := o) (by simp [hm]) hs hd

theorem stageS_move {d : Bool} {id : Nat} {blk : List Bool} {o : Owner} {bits b : List (List Bool)}
    {reps r : List Report} {q q' : List DlElem} (h : StageS blk o bits reps (here id q)) (ht : QTrack d id q q' b r) :
    StageS blk o (bits ++ b) (reps ++ r) (here id q') := by
  generalize hq : here id q = H at h
  cases h with
  | waiting =>
    have hm := ht.one _ hq
    generalize here id q' = Q at hm ⊢
    cases hm with
    | wait h => cases h; exact .waiting
    | serve h he => cases h; cases he
    | steal => exact .done
    | drop _ hs => cases hs
  | done =>
    obtain ⟨h1, rfl, rfl⟩ := ht.absent hq
    rw [h1]; simpa using StageS.done (b := blk) (o := o)

/-! ## Histories -/

theorem srun_append {s : Sched} (es1 es2 : List SchedEv) {r : Sched × List (SchedEv × SchedRet)}
    (h : s.run (es1 ++ es2) = .ok r) :
    ∃ s1 tr1 tr2, s.run es1 = .ok (s1, tr1) ∧ s1.run es2 = .ok (r.1, tr2) ∧ r.2 = tr1 ++ tr2 := by
  induction es1 generalizing s r with
  | nil => exact ⟨s, [], r.2, rfl, h, rfl⟩
  | cons e es1 ih =>
    simp only [List.cons_append, Sched.run] at h
    rw [Out.bind_eq_ok] at h; obtain ⟨a, ha, h⟩ := h
    rw [Out.bind_eq_ok] at h; obtain ⟨b, hb, h⟩ := h
    cases h
    obtain ⟨s1, tr1, tr2, h1, h2, h3⟩ := ih hb
    exact ⟨s1, (e, a.2) :: tr1, tr2, by simp [Sched.run, ha, h1], h2, by simp [h3]⟩

theorem srun_cons {s : Sched} {e : SchedEv} {es : List SchedEv} {r : Sched × List (SchedEv × SchedRet)}
    (h : s.run (e :: es) = .ok r) :
    ∃ a tr, s.step e = .ok a ∧ a.1.run es = .ok (r.1, tr) ∧ r.2 = (e, a.2) :: tr := by
  simp only [Sched.run] at h
  rw [Out.bind_eq_ok] at h; obtain ⟨a, ha, h⟩ := h
  rw [Out.bind_eq_ok] at h; obtain ⟨b, hb, h⟩ := h
  cases h
  exact ⟨a, b.2, ha, hb, rfl⟩

theorem sinv_init (x : Time) (scramb : Nat) (pre : Precomps) : SInv (Sched.init x scramb pre) :=
  ⟨rfl, fun i e he => by simp [Sched.init] at he⟩

/-- A history which does not bring message `id`. -/
def Avoids (id : Nat) (es : List SchedEv) : Prop := ∀ e ∈ es, e.id? ≠ some id

theorem srun_inv {es : List SchedEv} {s : Sched} (hs : SInv s) (hf : ∀ e ∈ es, e.Fine) {r : Sched × List (SchedEv × SchedRet)}
    (h : s.run es = .ok r) : SInv r.1 := by
  induction es generalizing s r with
  | nil => cases h; exact hs
  | cons e es ih =>
    obtain ⟨a, tr, h1, h2, h3⟩ := srun_cons h
    exact ih (r := (r.1, tr)) (step_track hs (hf e (by simp)) h1).1 (fun e he => hf e (by simp [he])) h2

theorem srun_absent {es : List SchedEv} {s : Sched} (hs : SInv s) (hf : ∀ e ∈ es, e.Fine) {id : Nat} (ha : Avoids id es)
    {r : Sched × List (SchedEv × SchedRet)} (h : s.run es = .ok r) (h0 : ∀ i, here id (s.queues i) = []) :
    (∀ i, here id (r.1.queues i) = []) ∧ bitsIn id r.2 = [] ∧ reportsIn id r.2 = [] ∧
    ∀ e x, (e, SchedRet.sent x) ∈ r.2 → bitsOf id x.log = [] := by
  induction es generalizing s r with
  | nil => cases h; exact ⟨h0, rfl, rfl, by simp⟩
  | cons e es ih =>
    obtain ⟨a, tr, h1, h2, h3⟩ := srun_cons h
    obtain ⟨hs1, ht⟩ := step_track hs (hf e (by simp)) h1
    have hst : ∀ i, here id (a.1.queues i) = [] ∧ a.2.bits id = [] ∧ a.2.reports id = [] := fun i =>
      (ht id (ha e (by simp)) i (fun j _ => h0 j)).2.1.absent (h0 i)
    obtain ⟨g1, g2, g3, g4⟩ := ih hs1 (fun e he => hf e (by simp [he])) (fun e he => ha e (by simp [he])) h2 (fun i => (hst i).1)
    rw [h3]
    refine ⟨g1, ?_, ?_, ?_⟩
    · simp only [bitsIn, List.flatMap_cons, (hst 0).2.1, List.nil_append]; exact g2
    · simp only [reportsIn, List.flatMap_cons, (hst 0).2.2, List.nil_append]; exact g3
    · intro e' x hx
      rcases List.mem_cons.1 hx with he | hx
      · have h5 := (hst 0).2.1
        simp only [Prod.mk.injEq] at he
        rw [← he.2] at h5; exact h5
      · exact g4 e' x hx

/-- One message over a history which does not bring it again. -/
theorem srun_track {P : Bool → List (List Bool) → List Report → List DlElem → Prop} {id : Nat}
    (hP : ∀ d d' bits b reps r q q', P d bits reps (here id q) → QTrack d' id q q' b r →
      P (d || d') (bits ++ b) (reps ++ r) (here id q'))
    {i : Fin 4} {es : List SchedEv} {s : Sched} (hs : SInv s) (hf : ∀ e ∈ es, e.Fine) (ha : Avoids id es)
    {r : Sched × List (SchedEv × SchedRet)} (h : s.run es = .ok r) (ho : ∀ j, j ≠ i → here id (s.queues j) = [])
    {d : Bool} {bits : List (List Bool)} {reps : List Report} (h0 : P d bits reps (here id (s.queues i))) :
    P (d || es.any (·.endsHang (i.val + 1))) (bits ++ bitsIn id r.2) (reps ++ reportsIn id r.2) (here id (r.1.queues i)) ∧
    (∀ j, j ≠ i → here id (r.1.queues j) = []) ∧
    ∀ e x, (e, SchedRet.sent x) ∈ r.2 → bitsOf id x.log ≠ [] → x.slot.ts.t = i.val + 1 := by
  induction es generalizing s r d bits reps with
  | nil => cases h; exact ⟨by simpa [bitsIn, reportsIn] using h0, ho, by simp⟩
  | cons e es ih =>
    obtain ⟨a, tr, h1, h2, h3⟩ := srun_cons h
    obtain ⟨hs1, ht⟩ := step_track hs (hf e (by simp)) h1
    obtain ⟨t1, t2, t3⟩ := ht id (ha e (by simp)) i ho
    obtain ⟨g1, g2, g3⟩ := ih hs1 (fun e he => hf e (by simp [he])) (fun e he => ha e (by simp [he])) h2 t1
      (hP _ _ _ _ _ _ _ _ h0 t2)
    rw [h3]
    refine ⟨?_, g2, ?_⟩
    · simpa [bitsIn, reportsIn, Bool.or_assoc] using g1
    · intro e' x hx hne
      rcases List.mem_cons.1 hx with he | hx
      · simp only [Prod.mk.injEq] at he
        apply Decidable.byContradiction
        intro hc
        exact hne (t3 x he.2.symm hc).1
      · exact g3 e' x hx hne

/-- The induction behind C23: where a message is at the end of a history. -/
theorem message_stage {x : Time} {scramb : Nat} {pre : Precomps} {es1 es2 : List SchedEv} {t id : Nat} {rep : Bool}
    {pdu : MacResource} {sdu : List Bool} (hf : ∀ e ∈ es1 ++ .message t id rep pdu sdu :: es2, e.Fine)
    (h1 : Avoids id es1) (h2 : Avoids id es2) {s' : Sched} {tr : List (SchedEv × SchedRet)}
    (h : (Sched.init x scramb pre).run (es1 ++ .message t id rep pdu sdu :: es2) = .ok (s', tr)) :
    ∃ i : Fin 4, t = i.val + 1 ∧
      Stage (es2.any (·.endsHang t)) pdu sdu (.msg id rep) (bitsIn id tr) (reportsIn id tr) (here id (s'.queues i)) ∧
      (∀ j, j ≠ i → here id (s'.queues j) = []) ∧
      ∀ e x, (e, SchedRet.sent x) ∈ tr → bitsOf id x.log ≠ [] → x.slot.ts.t = t := by
  obtain ⟨s1, tr1, tr2, r1, r2, r3⟩ := srun_append _ _ h
  have hs1 := srun_inv (sinv_init x scramb pre) (fun e he => hf e (by simp [he])) r1
  obtain ⟨a1, a2, a3, a4⟩ := srun_absent (sinv_init x scramb pre) (fun e he => hf e (by simp [he])) h1 r1
    (fun i => by simp [Sched.init])
  obtain ⟨a, tr3, c1, c2, c3⟩ := srun_cons r2
  simp only [Sched.step] at c1
  rw [Out.bind_eq_ok] at c1; obtain ⟨s2, hp, c1⟩ := c1
  cases c1
  have hfm : pdu.Sendable := hf (.message t id rep pdu sdu) (by simp)
  obtain ⟨hs2, i, hi, hq⟩ := push_inv hs1 (e := .resource pdu sdu (.msg id rep)) hfm hp
  have hi0 : here id (s2.queues i) = [.resource pdu sdu (.msg id rep)] := by
    have := a1 i
    rw [hq, Slots.upd_self, here_append]
    simp only at this
    rw [this]
    simp [here, DlElem.owner, Owner.isMsg]
  have ho : ∀ j, j ≠ i → here id (s2.queues j) = [] := by
    intro j hj
    rw [hq, Slots.upd_ne _ _ hj]; exact a1 j
  obtain ⟨g1, g2, g3⟩ := srun_track (P := fun d => Stage d pdu sdu (.msg id rep))
    (fun d d' bits b reps r q q' h ht => stage_move h ht) hs2 (fun e he => hf e (by simp [he])) h2 c2 ho
    (d := false) (by rw [hi0]; exact .queued (.refl _))
  subst hi
  simp only at r3 a2 a3 a4 c3
  refine ⟨i, rfl, ?_, g2, ?_⟩
  · rw [r3, c3]
    simp only [bitsIn, reportsIn, List.flatMap_append, List.flatMap_cons] at g1 a2 a3 ⊢
    rw [a2, a3]
    simpa [SchedRet.bits, SchedRet.reports] using g1
  · intro e y hy hne
    rw [r3, c3] at hy
    simp only [List.mem_append, List.mem_cons, Prod.mk.injEq] at hy
    rcases hy with hy | ⟨_, hy⟩ | hy
    · exact absurd (a4 e y hy) hne
    · cases hy
    · exact g3 e y hy hne

/-- The parts of a message the PDUs on the air carry. -/
structure Carried (pdu : MacResource) (sdu : List Bool) (complete : Bool) (bits parts : List (List Bool)) : Prop where
  prefix_ : parts.flatten <+: sdu
  whole : complete = true → parts.flatten = sdu
  pdus : ∃ ks : List (Option Kind), bits.length = parts.length ∧ ks.length = parts.length ∧ Order complete (ks.filterMap id) ∧
    ∀ (n : Nat) (b p : List Bool) (k : Option Kind), bits[n]? = some b → parts[n]? = some p → ks[n]? = some k →
      (k = none ∧ b = [] ∧ p = []) ∨ ∃ pdu' k', Joined pdu pdu' ∧ k = some k' ∧ IsPdu pdu' k' b p

theorem Sending.carried {pdu : MacResource} {sdu : List Bool} {bits : List (List Bool)} {f : Fragger}
    (hs : pdu.Sendable) (h : Sending pdu sdu bits f) :
    ∃ parts, Carried pdu sdu f.done bits parts := by
  obtain ⟨pdu', blks, hj, hb, e⟩ := h.sent
  obtain ⟨f', news, parts, ks, e', h1, h2, h3, h4, h5, h6⟩ := c19_reassembly pdu' (hj.sendable hs) sdu blks hb
  rw [e] at e'
  cases e'
  refine ⟨parts, h3, h4, ks, h1, h2, h6, fun n b p k a1 a2 a3 => ?_⟩
  rcases h5 n b p k a1 a2 a3 with h | ⟨k', hk, hp⟩
  · exact .inl h
  · exact .inr ⟨pdu', k', hj, hk, hp⟩

/-- **C23, messages.** Whatever else happens, a message queued for timeslot `t` is, at any later time, in exactly
one of three places. It has been sent completely: the PDUs on the air carry its SDU, all of it, in order and once;
it waits nowhere; its sender, if it asked, was told so once. Or it is on its way: what the PDUs on the air carry is
the beginning of the SDU, it waits in the queue of `t` and nowhere else, and its sender was told nothing. Or
it was thrown away when the hang time of `t` ended, and its sender, if it asked, was told that. All its PDUs
go out in timeslot `t`. -/
theorem c23_message (x : Time) (scramb : Nat) (pre : Precomps) (es1 es2 : List SchedEv) (t id : Nat) (rep : Bool)
    (pdu : MacResource) (sdu : List Bool) (hf : ∀ e ∈ es1 ++ .message t id rep pdu sdu :: es2, e.Fine)
    (h1 : Avoids id es1) (h2 : Avoids id es2) (s' : Sched) (tr : List (SchedEv × SchedRet))
    (h : (Sched.init x scramb pre).run (es1 ++ .message t id rep pdu sdu :: es2) = .ok (s', tr)) :
    ∃ complete parts, Carried pdu sdu complete (bitsIn id tr) parts ∧
      ((complete = true ∧ reportsIn id tr = (if rep then [.transmitted id] else []) ∧ ∀ j, here id (s'.queues j) = []) ∨
       (complete = false ∧ reportsIn id tr = [] ∧
         ∃ i : Fin 4, t = i.val + 1 ∧ (∃ e, here id (s'.queues i) = [e]) ∧ ∀ j, j ≠ i → here id (s'.queues j) = []) ∨
       (complete = false ∧ reportsIn id tr = (if rep then [.discarded id] else []) ∧ (∀ j, here id (s'.queues j) = []) ∧
         .hang t false ∈ es2)) ∧
      ∀ e x, (e, SchedRet.sent x) ∈ tr → bitsOf id x.log ≠ [] → x.slot.ts.t = t := by
  have hs : pdu.Sendable := hf (.message t id rep pdu sdu) (by simp)
  obtain ⟨i, hi, hst, ho, ht⟩ := message_stage hf h1 h2 h
  have all : here id (s'.queues i) = [] → ∀ j, here id (s'.queues j) = [] := by
    intro h j
    by_cases hj : j = i
    · rw [hj]; exact h
    · exact ho j hj
  generalize hb : bitsIn id tr = B at hst ⊢
  generalize hr : reportsIn id tr = R at hst ⊢
  generalize hq : here id (s'.queues i) = Q at hst
  cases hst with
  | queued hj =>
    obtain ⟨parts, hc⟩ := (Sending.new hj sdu).carried hs
    exact ⟨_, parts, hc, .inr (.inl ⟨rfl, rfl, i, hi, ⟨_, hq⟩, ho⟩), ht⟩
  | started hsd hd =>
    obtain ⟨parts, hc⟩ := hsd.carried hs
    exact ⟨_, parts, hc, .inr (.inl ⟨hd, rfl, i, hi, ⟨_, hq⟩, ho⟩), ht⟩
  | done hsd hd =>
    obtain ⟨parts, hc⟩ := hsd.carried hs
    exact ⟨_, parts, hc, .inl ⟨hd, by cases rep <;> rfl, all hq⟩, ht⟩
  | dropped hm hsd hd =>
    obtain ⟨parts, hc⟩ := hsd.carried hs
    refine ⟨_, parts, hc, .inr (.inr ⟨hd, by cases rep <;> rfl, all hq, ?_⟩), ht⟩
    rw [List.any_eq_true] at hm
    obtain ⟨e, he, hm⟩ := hm
    cases e <;> simp only [SchedEv.endsHang, Bool.false_eq_true] at hm
    rename_i t' b
    cases b <;> simp only [Bool.false_eq_true] at hm
    · simp at hm; subst hm; exact he

/-- **C23, stolen blocks.** A block queued to be sent in stolen half slots of timeslot `t` goes out at most once,
unchanged, and its sender, if it asked, is told when it does; until then it waits in the queue of `t`. It is never
thrown away. -/
theorem c23_stolen (x : Time) (scramb : Nat) (pre : Precomps) (es1 es2 : List SchedEv) (t id : Nat) (rep : Bool)
    (block : List Bool) (hf : ∀ e ∈ es1 ++ .steal t id rep block :: es2, e.Fine)
    (h1 : Avoids id es1) (h2 : Avoids id es2) (s' : Sched) (tr : List (SchedEv × SchedRet))
    (h : (Sched.init x scramb pre).run (es1 ++ .steal t id rep block :: es2) = .ok (s', tr)) :
    ((bitsIn id tr = [block] ∧ reportsIn id tr = (if rep then [.transmitted id] else []) ∧ ∀ j, here id (s'.queues j) = []) ∨
     (bitsIn id tr = [] ∧ reportsIn id tr = [] ∧
       ∃ i : Fin 4, t = i.val + 1 ∧ here id (s'.queues i) = [.stealing block (.msg id rep)] ∧
         ∀ j, j ≠ i → here id (s'.queues j) = [])) ∧
    ∀ e x, (e, SchedRet.sent x) ∈ tr → bitsOf id x.log ≠ [] → x.slot.ts.t = t := by
  obtain ⟨s1, tr1, tr2, r1, r2, r3⟩ := srun_append _ _ h
  have hs1 := srun_inv (sinv_init x scramb pre) (fun e he => hf e (by simp [he])) r1
  obtain ⟨a1, a2, a3, a4⟩ := srun_absent (sinv_init x scramb pre) (fun e he => hf e (by simp [he])) h1 r1
    (fun i => by simp [Sched.init])
  obtain ⟨a, tr3, c1, c2, c3⟩ := srun_cons r2
  simp only [Sched.step] at c1
  rw [Out.bind_eq_ok] at c1; obtain ⟨s2, hp, c1⟩ := c1
  cases c1
  have hfm : block.length = 124 := hf (.steal t id rep block) (by simp)
  obtain ⟨hs2, i, hi, hq⟩ := push_inv hs1 (e := .stealing block (.msg id rep)) hfm hp
  have hi0 : here id (s2.queues i) = [.stealing block (.msg id rep)] := by
    have := a1 i
    rw [hq, Slots.upd_self, here_append]
    simp only at this
    rw [this]
    simp [here, DlElem.owner, Owner.isMsg]
  have ho : ∀ j, j ≠ i → here id (s2.queues j) = [] := by
    intro j hj
    rw [hq, Slots.upd_ne _ _ hj]; exact a1 j
  obtain ⟨g1, g2, g3⟩ := srun_track (P := fun _ => StageS block (.msg id rep))
    (fun d d' bits b reps r q q' h ht => stageS_move h ht) hs2 (fun e he => hf e (by simp [he])) h2 c2 ho
    (d := false) (by rw [hi0]; exact .waiting)
  subst hi
  simp only at r3 a2 a3 a4 c3
  have e1 : bitsIn id tr = bitsIn id tr3 := by
    rw [r3, c3]
    simp only [bitsIn, List.flatMap_append, List.flatMap_cons] at a2 ⊢
    rw [a2]; rfl
  have e2 : reportsIn id tr = reportsIn id tr3 := by
    rw [r3, c3]
    simp only [reportsIn, List.flatMap_append, List.flatMap_cons] at a3 ⊢
    rw [a3]; rfl
  constructor
  · rw [e1, e2]
    simp only [List.nil_append] at g1
    generalize bitsIn id tr3 = B at g1 ⊢
    generalize reportsIn id tr3 = R at g1 ⊢
    generalize hq : here id (s'.queues i) = Q at g1
    cases g1 with
    | waiting => exact .inr ⟨rfl, rfl, i, rfl, hq, g2⟩
    | done =>
      refine .inl ⟨rfl, by cases rep <;> rfl, fun j => ?_⟩
      by_cases hj : j = i
      · rw [hj]; exact hq
      · exact g2 j hj
  · intro e y hy hne
    rw [r3, c3] at hy
    simp only [List.mem_append, List.mem_cons, Prod.mk.injEq] at hy
    rcases hy with hy | ⟨_, hy⟩ | hy
    · exact absurd (a4 e y hy) hne
    · cases hy
    · exact g3 e y hy hne

end Verif.Umac
