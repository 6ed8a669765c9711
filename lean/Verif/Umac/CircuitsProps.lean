import Verif.Umac.Circuits
/-!
# C24 — Traffic circuits: state is exactly open-minus-close
-/
namespace Verif.Umac
open CircuitMgr

/-- Does this call open or close this direction of this timeslot? -/
def CircuitOp.on (d : Dir) (ts : Nat) : CircuitOp → Prop
  | .create d' c => d' = d ∧ c.ts = ts
  | .close d' ts' => d' = d ∧ ts' = ts
  | _ => False

/-- The voice blocks put on a timeslot, in order. -/
def putsOn (ts : Nat) (ops : List CircuitOp) : List Block :=
  ops.filterMap fun op => match op with
    | .put ts' b => if ts' = ts then some b else none
    | _ => none

/-- The voice blocks taken from a timeslot, in order. -/
def takenFrom (ts : Nat) (tr : List (CircuitOp × CircuitRet)) : List Block :=
  tr.filterMap fun e => match e with
    | (.take ts', .block b) => if ts' = ts then b else none
    | _ => none

theorem run_append (c : CircuitMgr) (a b : List CircuitOp) :
    c.run (a ++ b) = (do let r ← c.run a; let q ← r.1.run b; .ok (q.1, r.2 ++ q.2)) := by
  induction a generalizing c with
  | nil => simp [CircuitMgr.run]; cases c.run b <;> rfl
  | cons op a ih =>
    simp only [List.cons_append, CircuitMgr.run]
    cases h : c.step op with
    | panic => rfl
    | ok r =>
      simp only [Res.bind_ok, ih]
      cases h2 : r.1.run a with
      | panic => rfl
      | ok q =>
        simp only [Res.bind_ok]
        cases h3 : q.1.run b <;> rfl

theorem create_eq (c : CircuitMgr) (d : Dir) (ci : Circuit) : c.create d ci = c.place d ci := by
  unfold CircuitMgr.create CircuitMgr.isActive CircuitMgr.close CircuitMgr.place
  cases d <;> simp only [Res.bind_panic]
  all_goals
    cases Slots.idx ci.ts with
    | panic => rfl
    | ok i =>
      simp only [Res.bind_ok]
      split <;> simp

/-- Effect of one call on one direction of one slot. -/
theorem step_at {c c' : CircuitMgr} {op : CircuitOp} {r : CircuitRet} (h : c.step op = .ok (c', r)) (d : Dir)
    (i : Fin 4) : (¬ op.on d (i.val + 1) → c'.at d i = c.at d i) ∧
      (∀ ci, op = .create d ci → ci.ts = i.val + 1 → c'.at d i = some ci) ∧
      (op = .close d (i.val + 1) → c'.at d i = none ∧ r = .circuit (c.at d i)) := by
  cases op with
  | create d' ci =>
    simp only [CircuitMgr.step, create_eq, CircuitMgr.place] at h
    cases d' <;> simp only [Res.bind_panic, reduceCtorEq] at h
    all_goals
      cases hi : Slots.idx ci.ts with
      | panic => simp [hi] at h
      | ok j =>
        simp only [hi, Res.bind_ok, Res.ok.injEq, Prod.mk.injEq] at h
        obtain ⟨rfl, rfl⟩ := h
        have hj := Slots.idx_ok.1 hi
        refine ⟨?_, ?_, by simp⟩
        · intro hn
          cases d <;> simp only [CircuitMgr.at]
          apply Slots.upd_ne
          intro e; apply hn; simp [CircuitOp.on, hj, e]
        · intro ci' he hts
          cases he
          have : i = j := Fin.ext (by omega)
          subst this
          simp [CircuitMgr.at]
  | close d' ts =>
    simp only [CircuitMgr.step, CircuitMgr.close] at h
    cases d' <;> simp only [Res.bind_panic, reduceCtorEq] at h
    all_goals
      cases hi : Slots.idx ts with
      | panic => simp [hi] at h
      | ok j =>
        simp only [hi, Res.bind_ok, Res.ok.injEq, Prod.mk.injEq] at h
        obtain ⟨rfl, rfl⟩ := h
        have hj := Slots.idx_ok.1 hi
        refine ⟨?_, by simp, ?_⟩
        · intro hn
          cases d <;> simp only [CircuitMgr.at]
          apply Slots.upd_ne
          intro e; apply hn; simp [CircuitOp.on, hj, e]
        · intro he
          cases he
          have : i = j := Fin.ext (by omega)
          subst this
          simp [CircuitMgr.at]
  | put ts b =>
    simp only [CircuitMgr.step, CircuitMgr.putBlock] at h
    cases hi : Slots.idx ts with
    | panic => simp [hi] at h
    | ok j =>
      simp only [hi, Res.bind_ok] at h
      refine ⟨fun _ => ?_, by simp, by simp⟩
      split at h <;> simp only [Res.bind_ok, Res.ok.injEq, Prod.mk.injEq] at h <;> obtain ⟨rfl, rfl⟩ := h <;> rfl
  | take ts =>
    simp only [CircuitMgr.step, CircuitMgr.takeBlock] at h
    cases hi : Slots.idx ts with
    | panic => simp [hi] at h
    | ok j =>
      simp only [hi, Res.bind_ok] at h
      refine ⟨fun _ => ?_, by simp, by simp⟩
      split at h <;> simp only [Res.bind_ok, Res.ok.injEq, Prod.mk.injEq] at h <;> obtain ⟨rfl, rfl⟩ := h <;> rfl

/-- Snoc induction over histories. -/
theorem run_snoc {c c' : CircuitMgr} {ops : List CircuitOp} {op : CircuitOp} {tr} (h : c.run (ops ++ [op]) = .ok (c', tr)) :
    ∃ c1 tr1 r, c.run ops = .ok (c1, tr1) ∧ c1.step op = .ok (c', r) ∧ tr = tr1 ++ [(op, r)] := by
  rw [run_append, Res.bind_eq_ok] at h
  obtain ⟨⟨c1, tr1⟩, h1, h⟩ := h
  simp only [CircuitMgr.run, Res.bind_eq_ok] at h
  obtain ⟨⟨c2, tr2⟩, ⟨⟨c3, r⟩, h3, ⟨_, h4, h5⟩⟩, h⟩ := h
  simp only [Res.ok.injEq] at h4 h5 h
  subst h4
  simp only [Prod.mk.injEq] at h5 h
  obtain ⟨rfl, rfl⟩ := h5
  exact ⟨c1, tr1, r, h1, by rw [h3, h.1], h.2.symm⟩

instance (d : Dir) (ts : Nat) (op : CircuitOp) : Decidable (op.on d ts) := by
  cases op <;> unfold CircuitOp.on <;> infer_instance

/-- **C24, state.** After any history of calls, a direction of a timeslot carries a circuit exactly when that
circuit was created there and no later call opened or closed that direction of that slot. -/
theorem c24_state {c : CircuitMgr} {ops : List CircuitOp} {tr} (h : CircuitMgr.init.run ops = .ok (c, tr))
    (d : Dir) (hd : d = .dl ∨ d = .ul) (i : Fin 4) (ci : Circuit) :
    c.at d i = some ci ↔
      ∃ pre post, ops = pre ++ .create d ci :: post ∧ ci.ts = i.val + 1 ∧ ∀ op ∈ post, ¬ op.on d (i.val + 1) := by
  induction hn : ops.length generalizing ops c tr with
  | zero =>
    have : ops = [] := List.eq_nil_of_length_eq_zero hn
    subst this
    simp only [CircuitMgr.run, Res.ok.injEq, Prod.mk.injEq] at h
    obtain ⟨rfl, _⟩ := h
    rcases hd with rfl | rfl <;> simp [CircuitMgr.at, CircuitMgr.init]
  | succ n ih =>
    rcases List.eq_nil_or_concat ops with h0 | ⟨ops', op, h0⟩
    · subst h0; simp at hn
    · subst h0
      rw [List.concat_eq_append] at h hn ⊢
      obtain ⟨c1, tr1, r, h1, h2, h3⟩ := run_snoc h
      have ih := ih h1 (by simpa using hn)
      obtain ⟨s1, s2, s3⟩ := step_at h2 d i
      by_cases ht : op.on d (i.val + 1)
      · cases op with
        | put ts b => exact absurd ht (by simp [CircuitOp.on])
        | take ts => exact absurd ht (by simp [CircuitOp.on])
        | create d' c' =>
          obtain ⟨rfl, hts⟩ := ht
          rw [s2 c' rfl hts]
          constructor
          · intro e
            cases e
            exact ⟨ops', [], rfl, hts, by simp⟩
          · rintro ⟨pre, post, e, hts', hno⟩
            rcases List.eq_nil_or_concat post with hp | ⟨post', o, hp⟩
            · subst hp
              have := List.append_inj_right' e rfl
              simp at this
              rw [this]
            · subst hp
              rw [List.concat_eq_append, ← List.cons_append, ← List.append_assoc] at e
              have := List.append_inj_right' e rfl
              simp at this
              subst this
              exact absurd ⟨rfl, hts⟩ (hno (.create d' c') (by simp))
        | close d' ts =>
          obtain ⟨rfl, rfl⟩ := ht
          rw [(s3 rfl).1]
          simp only [reduceCtorEq, false_iff]
          rintro ⟨pre, post, e, hts', hno⟩
          rcases List.eq_nil_or_concat post with hp | ⟨post', o, hp⟩
          · subst hp
            have := List.append_inj_right' e rfl
            simp at this
          · subst hp
            rw [List.concat_eq_append, ← List.cons_append, ← List.append_assoc] at e
            have := List.append_inj_right' e rfl
            simp at this
            subst this
            exact absurd ⟨rfl, rfl⟩ (hno (.close d' (i.val + 1)) (by simp))
      · rw [s1 ht, ih]
        constructor
        · rintro ⟨pre, post, rfl, hts, hno⟩
          refine ⟨pre, post ++ [op], by simp, hts, ?_⟩
          intro o ho
          rcases List.mem_append.1 ho with ho | ho
          · exact hno o ho
          · simp at ho; subst ho; exact ht
        · rintro ⟨pre, post, e, hts, hno⟩
          rcases List.eq_nil_or_concat post with hp | ⟨post', o, hp⟩
          · subst hp
            have := List.append_inj_right' e rfl
            simp at this
            subst this
            exact absurd ⟨rfl, hts⟩ ht
          · subst hp
            rw [List.concat_eq_append, ← List.cons_append, ← List.append_assoc] at e
            have e1 := List.append_inj_left' e rfl
            exact ⟨pre, post', e1, hts, fun o ho => hno o (by simp [ho])⟩

/-- **C24, queries.** Activity and usage number are those of the circuit present; closing returns it. -/
theorem c24_queries {c : CircuitMgr} (d : Dir) (hd : d = .dl ∨ d = .ul) (i : Fin 4) :
    c.isActive d (i.val + 1) = .ok (c.at d i).isSome ∧
    c.getUsage d (i.val + 1) = .ok ((c.at d i).map Circuit.usage) ∧
    ∃ c', c.close d (i.val + 1) = .ok (c', c.at d i) ∧ c'.at d i = none := by
  rcases hd with rfl | rfl <;>
    simp [CircuitMgr.isActive, CircuitMgr.getUsage, CircuitMgr.close, CircuitMgr.at]

theorem voice_aux {c c' : CircuitMgr} {ops : List CircuitOp} {tr} (i : Fin 4) (h : c.run ops = .ok (c', tr))
    (ha : (c.dl i).isSome) (hno : ∀ op ∈ ops, ¬ op.on .dl (i.val + 1)) :
    c.txData i ++ putsOn (i.val + 1) ops = takenFrom (i.val + 1) tr ++ c'.txData i := by
  induction ops generalizing c tr with
  | nil =>
    simp only [CircuitMgr.run, Res.ok.injEq, Prod.mk.injEq] at h
    obtain ⟨rfl, rfl⟩ := h
    simp [putsOn, takenFrom]
  | cons op ops ih =>
    simp only [CircuitMgr.run, Res.bind_eq_ok] at h
    obtain ⟨⟨c1, r⟩, h1, ⟨c2, tr2⟩, h2, h3⟩ := h
    simp only [Res.ok.injEq, Prod.mk.injEq] at h3
    obtain ⟨rfl, rfl⟩ := h3
    have hat := (step_at h1 .dl i).1 (hno op (by simp))
    simp only [CircuitMgr.at] at hat
    have ih := ih h2 (by rw [hat]; exact ha) (fun o ho => hno o (List.mem_cons_of_mem _ ho))
    have hop := hno op (by simp)
    cases op with
    | create d' ci =>
      have hx : c1.txData i = c.txData i := by
        simp only [CircuitMgr.step, create_eq, CircuitMgr.place] at h1
        cases d' <;> simp only [Res.bind_panic, reduceCtorEq] at h1
        all_goals
          cases hi : Slots.idx ci.ts with
          | panic => simp [hi] at h1
          | ok j =>
            simp only [hi, Res.bind_ok, Res.ok.injEq, Prod.mk.injEq] at h1
            obtain ⟨rfl, rfl⟩ := h1
            first
              | rfl
              | exact Slots.upd_ne _ _ (by intro e; apply hop; simp [CircuitOp.on, Slots.idx_ok.1 hi, e])
      rw [hx] at ih
      simpa [putsOn, takenFrom] using ih
    | close d' ts =>
      have hx : c1.txData i = c.txData i := by
        simp only [CircuitMgr.step, CircuitMgr.close] at h1
        cases d' <;> simp only [Res.bind_panic, reduceCtorEq] at h1
        all_goals
          cases hi : Slots.idx ts with
          | panic => simp [hi] at h1
          | ok j =>
            simp only [hi, Res.bind_ok, Res.ok.injEq, Prod.mk.injEq] at h1
            obtain ⟨rfl, rfl⟩ := h1
            first
              | rfl
              | exact Slots.upd_ne _ _ (by intro e; apply hop; simp [CircuitOp.on, Slots.idx_ok.1 hi, e])
      rw [hx] at ih
      simpa [putsOn, takenFrom] using ih
    | put ts b =>
      simp only [CircuitMgr.step, CircuitMgr.putBlock] at h1
      cases hi : Slots.idx ts with
      | panic => simp [hi] at h1
      | ok j =>
        simp only [hi, Res.bind_ok] at h1
        have hts := Slots.idx_ok.1 hi
        by_cases hij : j = i
        · subst hij
          simp only [ha, if_true, Res.bind_ok, Res.ok.injEq, Prod.mk.injEq] at h1
          obtain ⟨rfl, rfl⟩ := h1
          simp only [Slots.upd_self] at ih
          simpa [putsOn, takenFrom, hts] using ih
        · have hne : ts ≠ i.val + 1 := by intro e; apply hij; apply Fin.ext; omega
          have hx : c1.txData i = c.txData i := by
            split at h1 <;> simp only [Res.bind_ok, Res.ok.injEq, Prod.mk.injEq] at h1 <;> obtain ⟨rfl, rfl⟩ := h1
            · exact Slots.upd_ne _ _ (Ne.symm hij)
            · rfl
          rw [hx] at ih
          simpa [putsOn, takenFrom, hne] using ih
    | take ts =>
      simp only [CircuitMgr.step, CircuitMgr.takeBlock] at h1
      cases hi : Slots.idx ts with
      | panic => simp [hi] at h1
      | ok j =>
        simp only [hi, Res.bind_ok] at h1
        have hts := Slots.idx_ok.1 hi
        by_cases hij : j = i
        · subst hij
          simp only [ha, if_true, Res.bind_ok, Res.ok.injEq, Prod.mk.injEq] at h1
          obtain ⟨rfl, rfl⟩ := h1
          simp only [Slots.upd_self] at ih
          cases hq : c.txData j with
          | nil => rw [hq] at ih; simpa [putsOn, takenFrom, hts] using ih
          | cons b q => rw [hq] at ih; simpa [putsOn, takenFrom, hts] using ih
        · have hne : ts ≠ i.val + 1 := by intro e; apply hij; apply Fin.ext; omega
          have hx : c1.txData i = c.txData i ∧ ∃ b, r = .block b := by
            split at h1 <;> simp only [Res.bind_ok, Res.ok.injEq, Prod.mk.injEq] at h1 <;> obtain ⟨rfl, rfl⟩ := h1
            · exact ⟨Slots.upd_ne _ _ (Ne.symm hij), _, rfl⟩
            · exact ⟨rfl, _, rfl⟩
          obtain ⟨hx, b, rfl⟩ := hx
          rw [hx] at ih
          simpa [putsOn, takenFrom, hne] using ih

/-- **C24, voice.** While the circuit created by a call is up, the blocks taken from its slot since are the
blocks put there since, in order and each once; the rest is still queued. So no block ever reaches a later
circuit. -/
theorem c24_voice {c0 c : CircuitMgr} {ci : Circuit} {post : List CircuitOp} {r tr}
    (h : c0.run (.create .dl ci :: post) = .ok (c, (.create .dl ci, r) :: tr))
    (i : Fin 4) (hts : ci.ts = i.val + 1) (hno : ∀ op ∈ post, ¬ op.on .dl ci.ts) :
    putsOn ci.ts post = takenFrom ci.ts tr ++ c.txData i := by
  simp only [CircuitMgr.run, Res.bind_eq_ok] at h
  obtain ⟨⟨c1, r'⟩, h1, ⟨c2, tr2⟩, h2, h3⟩ := h
  simp only [Res.ok.injEq, Prod.mk.injEq, List.cons.injEq, true_and] at h3
  obtain ⟨rfl, rfl, rfl⟩ := h3
  simp only [CircuitMgr.step, create_eq, CircuitMgr.place, Slots.idx_ok.2 hts, Res.bind_ok, Res.ok.injEq,
    Prod.mk.injEq] at h1
  obtain ⟨rfl, rfl⟩ := h1
  have := voice_aux i h2 (by simp) (by rw [← hts]; exact hno)
  simp only [Slots.upd_self, List.nil_append] at this
  rw [hts]
  exact this

/-- **C24, no circuit.** On a slot without a downlink circuit, blocks put are dropped and nothing is taken. -/
theorem c24_no_circuit (c : CircuitMgr) (i : Fin 4) (b : Block) (h : c.dl i = none) :
    c.putBlock (i.val + 1) b = .ok c ∧ c.takeBlock (i.val + 1) = .ok (c, none) := by
  simp [CircuitMgr.putBlock, CircuitMgr.takeBlock, h]

/-- A call on a valid slot and a specific direction never aborts. -/
theorem c24_total (c : CircuitMgr) (op : CircuitOp)
    (hop : match op with
      | .create d ci => (d = .dl ∨ d = .ul) ∧ 1 ≤ ci.ts ∧ ci.ts ≤ 4
      | .close d ts => (d = .dl ∨ d = .ul) ∧ 1 ≤ ts ∧ ts ≤ 4
      | .put ts _ => 1 ≤ ts ∧ ts ≤ 4
      | .take ts => 1 ≤ ts ∧ ts ≤ 4) : ∃ r, c.step op = .ok r := by
  have key : ∀ ts, 1 ≤ ts ∧ ts ≤ 4 → ∃ i, Slots.idx ts = .ok i := by
    intro ts h; exact ⟨⟨ts - 1, by omega⟩, by simp [Slots.idx, h]⟩
  cases op with
  | create d ci =>
    obtain ⟨hd, ht⟩ := hop
    obtain ⟨i, hi⟩ := key _ ht
    rcases hd with rfl | rfl <;> simp [CircuitMgr.step, create_eq, CircuitMgr.place, hi]
  | close d ts =>
    obtain ⟨hd, ht⟩ := hop
    obtain ⟨i, hi⟩ := key _ ht
    rcases hd with rfl | rfl <;> simp [CircuitMgr.step, CircuitMgr.close, hi]
  | put ts b =>
    obtain ⟨i, hi⟩ := key _ hop
    simp only [CircuitMgr.step, CircuitMgr.putBlock, hi, Res.bind_ok]
    split <;> simp
  | take ts =>
    obtain ⟨i, hi⟩ := key _ hop
    simp only [CircuitMgr.step, CircuitMgr.takeBlock, hi, Res.bind_ok]
    split <;> simp

/-- A concrete history: two blocks put, one taken, the circuit replaced while one is queued: the second
circuit starts empty. -/
example : (match CircuitMgr.init.run [.create .dl ⟨.dl, 2, 4, 0, none, false⟩, .put 2 [1], .put 2 [2], .take 2,
      .create .dl ⟨.dl, 2, 5, 0, none, false⟩, .take 2] with
    | .ok r => some (takenFrom 2 r.2, (r.1.at .dl 1).map Circuit.usage)
    | .panic => none) = some ([[1]], some 5) := by decide +kernel

end Verif.Umac
