import Verif.Umac.SchedLive
/-!
# C23: the channel scheduler neither stops, nor starves, nor reorders

Together with `SchedProps` (what happens to each message) this file shows that the scheduler runs on as long as
its callers keep a simple discipline about stolen blocks, that every message gets onto the air, and that
messages are served in the order they were queued.
-/
namespace Verif.Umac
open Verif.Bits Verif.Codec Verif.Tdma Verif.Mle

/-! ## The scheduler does not abort -/

theorem srun_glue {s s1 s2 : Sched} {es1 es2 : List SchedEv} {tr1 tr2 : List (SchedEv × SchedRet)} (h1 : s.run es1 = .ok (s1, tr1))
    (h2 : s1.run es2 = .ok (s2, tr2)) : s.run (es1 ++ es2) = .ok (s2, tr1 ++ tr2) := by
  induction es1 generalizing s tr1 with
  | nil => cases h1; exact h2
  | cons e es1 ih =>
    obtain ⟨a, tr, c1, c2, c3⟩ := srun_cons h1
    simp only at c3
    simp only [List.cons_append, Sched.run, c1, ih c2, Out.bind_ok, c3]

theorem srun_snoc {s s1 : Sched} {es : List SchedEv} {tr : List (SchedEv × SchedRet)} (h1 : s.run es = .ok (s1, tr)) {e : SchedEv}
    {r : Sched × SchedRet} (h2 : s1.step e = .ok r) : s.run (es ++ [e]) = .ok (r.1, tr ++ [(e, r.2)]) :=
  srun_glue h1 (by simp only [Sched.run, h2, Out.bind_ok])

/-- The discipline about stolen blocks: a block is stolen on a timeslot with a downlink circuit, and a downlink
circuit is closed when no stolen block is waiting on it. -/
structure Orderly (cfg : CellCfg) (scramb : Nat) (x : Time) (es : List SchedEv) : Prop where
  steal : ∀ es1 t id rep b es2, es = es1 ++ .steal t id rep b :: es2 → (circuitAt .dl t es1).isSome = true
  close : ∀ es1 t es2, es = es1 ++ .close .dl t :: es2 →
    ∀ s tr, (Sched.init x scramb (Precomps.generate cfg)).run es1 = .ok (s, tr) →
      ∀ i : Fin 4, t = i.val + 1 → pendingStealing (s.queues i) = false

theorem push_total {s : Sched} {t : Nat} (h1 : 1 ≤ t) (h4 : t ≤ 4) (el : DlElem) :
    ∃ k : Fin 4, t = k.val + 1 ∧ s.push t el = .ok { s with queues := s.queues.upd k (s.queues k ++ [el]) } := by
  have hk : Slots.idx t = .ok (⟨t - 1, by omega⟩ : Fin 4) := Slots.idx_ok.2 (by simp; omega)
  refine ⟨⟨t - 1, by omega⟩, by simp; omega, ?_⟩
  simp [Sched.push, hk]

theorem free_push {s : Sched} (hf : s.Free) {k : Fin 4} {el : DlElem} (h : el.isStealing = false ∨ (s.circuits.dl k).isSome = true) :
    ({ s with queues := s.queues.upd k (s.queues k ++ [el]) } : Sched).Free := by
  intro i hi
  simp only at hi ⊢
  by_cases hik : i = k
  · subst hik
    rw [Slots.upd_self]
    have := hf i hi
    simp only [pendingStealing, List.any_append, List.any_cons, List.any_nil, Bool.or_false] at this ⊢
    rcases h with h | h
    · rw [this, h]; rfl
    · rw [hi] at h; simp at h
  · rw [Slots.upd_ne _ _ hik]; exact hf i hi

theorem step_total {cfg : CellCfg} (hcfg : cfg.InRange) {scramb : Nat} {x : Time} {es : List SchedEv} {s : Sched}
    (h : Env cfg scramb x es s) (hfree : s.Free) {e : SchedEv} (hf : e.Fine) (hsd : e.Sound)
    (hsteal : ∀ t id rep b, e = .steal t id rep b → (circuitAt .dl t es).isSome = true)
    (hclose : ∀ t, e = .close .dl t → ∀ i : Fin 4, t = i.val + 1 → pendingStealing (s.queues i) = false) :
    ∃ r, s.step e = .ok r ∧ r.1.Free := by
  cases e with
  | tick =>
    generalize hn : x.toInt + ticksIn es = n
    simp only [Sched.step]
    rw [h.cur, hn, fromInt_add _ _ (by omega) (by omega), Out.ofRes_ok, Out.bind_ok]
    obtain ⟨p, hp⟩ := build_total (s := ({ s with cur := fromInt (n + 1), pre := s.pre.stamp (fromInt (n + 2)) } : Sched))
      ⟨h.inv.next, h.inv.good⟩ h.circ hfree (fromInt (n + 2)) (idx_fromInt _)
    obtain ⟨s2, y2, e0, _, _, _, _, _, e6, _⟩ :=
      finalize_built (s := { s with cur := fromInt (n + 1) }) (n := n) ⟨h.inv.next, h.inv.good⟩ rfl (h.pre.ok hcfg) h.circ hp
    refine ⟨(s2, .sent y2), by rw [e0]; rfl, ?_⟩
    obtain ⟨i, _, k2, hsv⟩ := finalize_served (s := { s with cur := fromInt (n + 1) }) ⟨h.inv.next, h.inv.good⟩ e0
    intro j hj
    simp only at hj ⊢
    rw [e6] at hj
    have hfj := hfree j hj
    by_cases hji : j = i
    · subst hji
      cases hq : pendingStealing (s2.queues j) with
      | false => rfl
      | true => have := hsv.stolen hq; rw [← hfj, ← this]
    · rw [k2 j hji]; exact hfj
  | capReq t ssi code =>
    obtain ⟨h1, h2, h3⟩ := hsd
    obtain ⟨gs, hg⟩ := h.table
    obtain ⟨u', g, e1, _⟩ := processCapReq_spec s.ul (x.toInt + ticksIn es) t ssi code h1 h2 h3 hg.order
    rw [← h.cur] at e1
    exact ⟨({ s with ul := u' }, .grant g), by simp [Sched.step, e1], hfree⟩
  | grant t a g =>
    obtain ⟨k, _, e⟩ := push_total (s := s) hsd.1 hsd.2 (.grant a g)
    exact ⟨_, by simp only [Sched.step, e, Out.bind_ok]; rfl, free_push hfree (.inl rfl)⟩
  | ack t a =>
    obtain ⟨k, _, e⟩ := push_total (s := s) hsd.1 hsd.2 (.ack a)
    exact ⟨_, by simp only [Sched.step, e, Out.bind_ok]; rfl, free_push hfree (.inl rfl)⟩
  | message t id rep pdu sdu =>
    obtain ⟨k, _, e⟩ := push_total (s := s) hsd.1 hsd.2 (.resource pdu sdu (.msg id rep))
    exact ⟨_, by simp only [Sched.step, e, Out.bind_ok]; rfl, free_push hfree (.inl rfl)⟩
  | steal t id rep b =>
    obtain ⟨k, hk, e⟩ := push_total (s := s) hsd.1 hsd.2 (.stealing b (.msg id rep))
    refine ⟨_, by simp only [Sched.step, e, Out.bind_ok]; rfl, free_push hfree (.inr ?_)⟩
    rw [h.dl k, ← hk]
    exact hsteal t id rep b rfl
  | takeRa t ssi =>
    have hk : Slots.idx t = .ok (⟨t - 1, by have := hsd.2; omega⟩ : Fin 4) := Slots.idx_ok.2 (by have := hsd.1; simp; omega)
    simp only [Sched.step, Sched.takeRa, hk, Out.ofRes_ok, Out.bind_ok]
    exact ⟨_, rfl, hfree⟩
  | voice t b =>
    have hk : Slots.idx t = .ok (⟨t - 1, by have := hsd.2; omega⟩ : Fin 4) := Slots.idx_ok.2 (by have := hsd.1; simp; omega)
    simp only [Sched.step, CircuitMgr.putBlock, hk, Res.bind_ok]
    split
    · exact ⟨_, rfl, hfree⟩
    · exact ⟨_, rfl, hfree⟩
  | create d c =>
    obtain ⟨hd, h1, h2, _⟩ := hsd
    obtain ⟨_, _, _, _, u5, _, u7, _⟩ := unhang_same s c.ts
    have hk : Slots.idx c.ts = .ok (⟨c.ts - 1, by omega⟩ : Fin 4) := Slots.idx_ok.2 (by simp; omega)
    simp only [Sched.step, create_eq, CircuitMgr.place, hk, Res.bind_ok, u7]
    rcases hd with rfl | rfl
    · refine ⟨_, rfl, ?_⟩
      intro i hi
      simp only at hi ⊢
      rw [u5]
      apply hfree
      rw [upd_if _ hk] at hi
      split at hi
      · cases hi
      · exact hi
    · refine ⟨_, rfl, ?_⟩
      intro i hi
      simp only at hi ⊢
      rw [u5]
      exact hfree i hi
  | close d t =>
    obtain ⟨hd, h1, h2⟩ := hsd
    obtain ⟨_, _, _, _, u5, _, u7, _⟩ := unhang_same s t
    have hk : Slots.idx t = .ok (⟨t - 1, by omega⟩ : Fin 4) := Slots.idx_ok.2 (by simp; omega)
    rcases hd with rfl | rfl
    · simp only [Sched.step, CircuitMgr.close, hk, Res.bind_ok, Out.ofRes_ok, Out.bind_ok, u7]
      refine ⟨_, rfl, ?_⟩
      intro i hi
      simp only at hi ⊢
      rw [u5]
      rw [upd_if _ hk] at hi
      split at hi
      · rename_i hti
        exact hclose t rfl i hti
      · exact hfree i hi
    · simp only [Sched.step, CircuitMgr.close, hk, Res.bind_ok, Out.ofRes_ok, Out.bind_ok, u7]
      refine ⟨_, rfl, ?_⟩
      intro i hi
      simp only at hi ⊢
      rw [u5]
      exact hfree i hi
  | hang t active =>
    refine ⟨_, rfl, ?_⟩
    simp only
    unfold Sched.setHang
    cases hk : Slots.idx t with
    | panic => exact hfree
    | ok k =>
      simp only
      cases active with
      | true => exact hfree
      | false =>
        simp only [Bool.false_eq_true, if_false, Sched.dropAll]
        intro i hi
        have hfi := hfree i hi
        simp only at hi ⊢
        by_cases hik : i = k
        · subst hik
          rw [Slots.upd_self]
          rw [pendingStealing, Bool.eq_false_iff] at hfi ⊢
          intro hc
          rw [List.any_eq_true] at hc
          obtain ⟨e, he, hs⟩ := hc
          exact hfi (List.any_eq_true.2 ⟨e, (List.mem_filter.1 he).1, hs⟩)
        · rw [Slots.upd_ne _ _ hik]; exact hfi
  | systemWide b => exact ⟨_, rfl, hfree⟩

/-- C23. Every history of proper calls which keeps the discipline about stolen blocks runs to its end: the
scheduler aborts in none of them. -/
theorem c23_total_partial (cfg : CellCfg) (hcfg : cfg.InRange) (scramb : Nat) (x : Time) (hx : x.valid) (es : List SchedEv)
    (hp : Proper es) (ho : Orderly cfg scramb x es) :
    ∃ r, (Sched.init x scramb (Precomps.generate cfg)).run es = .ok r := by
  suffices h : ∀ es1 es2, es = es1 ++ es2 → ∀ s tr, (Sched.init x scramb (Precomps.generate cfg)).run es1 = .ok (s, tr) →
      Env cfg scramb x es1 s → s.Free → ∃ r, s.run es2 = .ok r from
    h [] es rfl _ [] rfl (Env.init cfg scramb hx) (fun i _ => by simp [Sched.init, pendingStealing])
  intro es1 es2
  induction es2 generalizing es1 with
  | nil => intro _ s tr _ _ _; exact ⟨_, rfl⟩
  | cons e es2 ih =>
    intro he s tr hr henv hfree
    have hpe := hp e (by rw [he]; simp)
    obtain ⟨r, h1, h2⟩ := step_total hcfg henv hfree hpe.1 hpe.2
      (fun t id rep b heq => ho.steal es1 t id rep b es2 (by rw [he, heq]))
      (fun t heq => ho.close es1 t es2 (by rw [he, heq]) s tr hr)
    have hrun : (Sched.init x scramb (Precomps.generate cfg)).run (es1 ++ [e]) = .ok (r.1, tr ++ [(e, r.2)]) :=
      srun_snoc hr h1
    obtain ⟨q, hq⟩ := ih (es1 ++ [e]) (by rw [he]; simp) r.1 _ hrun
      (step_env hcfg henv hpe.1 hpe.2 (s' := r.1) (r := r.2) h1).1 h2
    exact ⟨_, by simp only [Sched.run, h1, hq, Out.bind_ok]; rfl⟩

/-! ## Every message gets onto the air -/

/-- C23. A message of at most `backlog + sdu.length + 2` slots: once that many signalling slots of its timeslot were
built after it was queued, and no hang time ended there, it has been sent completely, and its sender was told.
`backlog` is the amount of work which was waiting on the timeslot when it was queued. -/
theorem c23_delivered (x : Time) (scramb : Nat) (pre : Precomps) (es1 es2 : List SchedEv) (t id : Nat) (rep : Bool)
    (pdu : MacResource) (sdu : List Bool) (hf : ∀ e ∈ es1 ++ .message t id rep pdu sdu :: es2, e.Fine)
    (h1 : Avoids id es1) (h2 : Avoids id es2) (s1 s' : Sched) (tr1 tr2 : List (SchedEv × SchedRet))
    (hr1 : (Sched.init x scramb pre).run es1 = .ok (s1, tr1))
    (hr2 : s1.run (.message t id rep pdu sdu :: es2) = .ok (s', tr2)) (i : Fin 4) (hi : t = i.val + 1)
    (hn : backlog (s1.queues i) + sdu.length + 2 ≤ signalSlots t tr2) (hh : .hang t false ∉ es2) :
    ∃ parts, Carried pdu sdu true (bitsIn id (tr1 ++ tr2)) parts ∧
      reportsIn id (tr1 ++ tr2) = (if rep then [.transmitted id] else []) ∧ ∀ j, here id (s'.queues j) = [] := by
  have hr : (Sched.init x scramb pre).run (es1 ++ .message t id rep pdu sdu :: es2) = .ok (s', tr1 ++ tr2) :=
    srun_glue hr1 hr2
  obtain ⟨complete, parts, hc, hcases, _⟩ := c23_message x scramb pre es1 es2 t id rep pdu sdu hf h1 h2 s' _ hr
  rcases hcases with ⟨rfl, hrep, hgone⟩ | ⟨_, _, i', hi', ⟨e, he⟩, _⟩ | ⟨_, _, _, hhang⟩
  · exact ⟨parts, hc, hrep, hgone⟩
  · exfalso
    have hii : i' = i := by apply Fin.ext; omega
    subst hii
    have hs1 := srun_inv (sinv_init x scramb pre) (fun e he => hf e (by simp [he])) hr1
    obtain ⟨a1, _⟩ := srun_absent (sinv_init x scramb pre) (fun e he => hf e (by simp [he])) h1 hr1
      (fun i => by simp [Sched.init])
    simp only at a1
    obtain ⟨a, tr3, c1, c2, c3⟩ := srun_cons hr2
    simp only [Sched.step] at c1
    rw [Out.bind_eq_ok] at c1; obtain ⟨s2, hp, c1⟩ := c1
    cases c1
    have hfm : pdu.Sendable := hf (.message t id rep pdu sdu) (by simp)
    obtain ⟨hs2, k, hk, hq⟩ := push_inv hs1 (e := .resource pdu sdu (.msg id rep)) hfm hp
    have hki : k = i' := by apply Fin.ext; omega
    subst hki
    simp only at hs2 hq c2 c3
    have hi0 : here id (s2.queues k) = [.resource pdu sdu (.msg id rep)] := by
      rw [hq, Slots.upd_self, here_append, a1 k]
      simp [here, DlElem.owner, Owner.isMsg]
    have ho2 : ∀ j, j ≠ k → here id (s2.queues j) = [] := by
      intro j hj
      rw [hq, Slots.upd_ne _ _ hj]; exact a1 j
    have hup : upTo id (keys (s2.queues k)) = backlog (s1.queues k) + (sdu.length + 2) := by
      rw [hq, Slots.upd_self, queue_snoc_keys _ (by rfl)]
      simp only [DlElem.isResource, if_true]
      rw [upTo_snoc]
      · simp only [keys, List.map_map, backlog, DlElem.key, DlElem.weight]
        rfl
      · simp [DlElem.key, DlElem.owner, Owner.isMsg]
      · intro k' hk'
        obtain ⟨x', hx', rfl⟩ := List.mem_map.1 hk'
        cases hm : (DlElem.key x').2.isMsg id with
        | false => rfl
        | true =>
          have hmem : x' ∈ here id (s1.queues k) := List.mem_filter.2 ⟨(workOf_mem hx').1, hm⟩
          rw [a1 k] at hmem; simp at hmem
    rcases srun_live (id := id) (i := k) hs2 (fun e he => hf e (by simp [he])) h2 c2 ho2 hi0 rfl with h3 | ⟨⟨e', he', hw'⟩, h4⟩
    · simp only at h3
      rw [he] at h3; cases h3
    · have hpos := upTo_pos he' hw'
      simp only at hpos
      simp only [c3, signalSlots, List.countP_cons, SchedRet.signalsOn] at hn h4
      rw [hup, ← hi] at h4
      simp at hn
      omega
  · exact absurd hhang hh

/-- The main timeslot never carries traffic: there every slot outside frame 18 is a signalling slot. -/
theorem main_signals {s s' : Sched} {ts : Time} {y : TickOut} (hd : s.circuits.dl 0 = none) (hts : y.slot.ts = ts) (hf : ts.f ≠ 18)
    (hcase : SlotCase s ts 0 s' y) : y.slot.signals = true := by
  rw [DlSlot.signals, Bool.and_eq_true, bne_iff_ne, hts]
  refine ⟨hf, ?_⟩
  cases hcase with
  | voice _ ho => simp [hd] at ho
  | stolen _ ho => simp [hd] at ho
  | signalling _ _ hc => rw [hc]; rfl
  | hangIdle _ ho => simp [hd] at ho
  | idleF _ _ _ hb => rw [hb]; rfl
  | idleH _ _ _ hb => rw [hb]; rfl
  | sync _ hb => rw [hb.1]; rfl

/-- How many of the `k` slots from time `n` on are on the main timeslot outside frame 18. -/
def mainSlots (n : Int) : Nat → Nat
  | 0 => 0
  | k + 1 => mainSlots n k + (if (fromInt (n + k)).t = 1 ∧ (fromInt (n + k)).f ≠ 18 then 1 else 0)

theorem mainSlots_succ (n : Int) (k : Nat) :
    mainSlots n (k + 1) = (if (fromInt n).t = 1 ∧ (fromInt n).f ≠ 18 then 1 else 0) + mainSlots (n + 1) k := by
  induction k with
  | zero => simp [mainSlots]
  | succ k ih =>
    rw [mainSlots, ih]
    conv => rhs; rw [mainSlots]
    rw [show n + ((k + 1 : Nat) : Int) = n + 1 + (k : Int) by omega]
    omega

theorem mainSlots_add (n : Int) (j k : Nat) : mainSlots n (j + k) = mainSlots n j + mainSlots (n + j) k := by
  induction k with
  | zero => simp [mainSlots]
  | succ k ih =>
    rw [← Nat.add_assoc, mainSlots, ih]
    conv => rhs; rw [mainSlots]
    rw [show n + ((j + k : Nat) : Int) = n + (j : Int) + (k : Int) by omega]
    omega

theorem mainSlots_one (n : Int) {j k : Nat} (h : j < k) (hc : (fromInt (n + j)).t = 1 ∧ (fromInt (n + j)).f ≠ 18) :
    1 ≤ mainSlots n k := by
  obtain ⟨d, rfl⟩ : ∃ d, k = j + (d + 1) := ⟨k - j - 1, by omega⟩
  rw [mainSlots_add, mainSlots_succ, if_pos hc]
  omega

theorem mainSlots_eight (n : Int) : 1 ≤ mainSlots n 8 := by
  obtain ⟨r, hr, hm⟩ : ∃ r : Nat, r < 4 ∧ (n + r) % 4 = 0 := ⟨((-n) % 4).toNat, by omega, by omega⟩
  by_cases hf : ((n + r) / 4) % 18 = 17
  · refine mainSlots_one n (j := r + 4) (by omega) ⟨?_, ?_⟩
    · simp only [fromInt]; omega
    · simp only [fromInt]; omega
  · refine mainSlots_one n (j := r) (by omega) ⟨?_, ?_⟩
    · simp only [fromInt]; omega
    · simp only [fromInt]; omega

theorem mainSlots_le (n : Int) (k : Nat) : k ≤ mainSlots n (8 * k) := by
  induction k with
  | zero => simp
  | succ k ih =>
    rw [show 8 * (k + 1) = 8 * k + 8 by omega, mainSlots_add]
    have := mainSlots_eight (n + (8 * k : Nat))
    omega

theorem mainSlots_mono (n : Int) {j k : Nat} (h : j ≤ k) : mainSlots n j ≤ mainSlots n k := by
  obtain ⟨d, rfl⟩ := Nat.exists_eq_add_of_le h
  rw [mainSlots_add]; omega

theorem srun_main {cfg : CellCfg} (hcfg : cfg.InRange) {scramb : Nat} {x : Time} {es0 es : List SchedEv} (hp : Proper es) {s : Sched}
    (henv : Env cfg scramb x es0 s) {r : Sched × List (SchedEv × SchedRet)} (h : s.run es = .ok r) :
    mainSlots (x.toInt + ticksIn es0 + 2) (ticksIn es) ≤ signalSlots 1 r.2 := by
  induction es generalizing es0 s r with
  | nil => simp [ticksIn, mainSlots]
  | cons e es ih =>
    obtain ⟨a, tr, h1, h2, h3⟩ := srun_cons h
    obtain ⟨henv', ht⟩ := step_env hcfg henv (hp e (by simp)).1 (hp e (by simp)).2 (s' := a.1) (r := a.2) h1
    have hi := ih (fun e he => hp e (by simp [he])) henv' (r := (r.1, tr)) h2
    rw [h3]
    by_cases he : e = .tick
    · obtain ⟨y, hy, hhead, hcase⟩ := ht he
      subst he
      have hcnt : ticksIn (SchedEv.tick :: es) = ticksIn es + 1 := by simp [ticksIn]
      have h0 : ticksIn (es0 ++ [SchedEv.tick]) = ticksIn es0 + 1 := by simp [ticksIn]
      rw [h0] at hi
      rw [hcnt, mainSlots_succ, show x.toInt + (ticksIn es0 : Int) + 2 + 1 = x.toInt + ((ticksIn es0 + 1 : Nat) : Int) + 2 by omega]
      simp only [signalSlots, List.countP_cons] at hi ⊢
      suffices hle : (if (fromInt (x.toInt + ticksIn es0 + 2)).t = 1 ∧ (fromInt (x.toInt + ticksIn es0 + 2)).f ≠ 18 then 1 else 0) ≤
          (if a.2.signalsOn 1 = true then 1 else 0) by omega
      split
      · rename_i hc
        have hs0 : slot (x.toInt + ticksIn es0 + 2) = 0 := by
          have := slot_val x es0
          rw [show (slotTime x es0).t = 1 from hc.1] at this
          apply Fin.ext; simp; omega
        rw [hs0] at hcase
        have hsig := main_signals (by exact henv.circ.dl0) hhead.time hc.2 hcase
        rw [hy]
        have htime := hhead.time
        simp [SchedRet.signalsOn, hsig, htime, hc.1]
      · omega
    · have hcnt : ticksIn (e :: es) = ticksIn es := by simp [ticksIn, he]
      have h0 : ticksIn (es0 ++ [e]) = ticksIn es0 := by simp [ticksIn, he]
      rw [h0] at hi
      rw [hcnt]
      simp only [signalSlots, List.countP_cons] at hi ⊢
      omega

/-- C23. A message queued on the main timeslot is on the air completely, and its sender was told, after at most
eight slots for each bit of its SDU, for each bit still waiting there, and for each message. -/
theorem c23_main (cfg : CellCfg) (hcfg : cfg.InRange) (scramb : Nat) (x : Time) (hx : x.valid) (es1 es2 : List SchedEv) (id : Nat) (rep : Bool)
    (pdu : MacResource) (sdu : List Bool) (hp : Proper (es1 ++ .message 1 id rep pdu sdu :: es2))
    (h1 : Avoids id es1) (h2 : Avoids id es2) (s1 s' : Sched) (tr1 tr2 : List (SchedEv × SchedRet))
    (hr1 : (Sched.init x scramb (Precomps.generate cfg)).run es1 = .ok (s1, tr1))
    (hr2 : s1.run (.message 1 id rep pdu sdu :: es2) = .ok (s', tr2))
    (hn : 8 * (backlog (s1.queues 0) + sdu.length + 2) ≤ ticksIn es2) (hh : .hang 1 false ∉ es2) :
    ∃ parts, Carried pdu sdu true (bitsIn id (tr1 ++ tr2)) parts ∧
      reportsIn id (tr1 ++ tr2) = (if rep then [.transmitted id] else []) ∧ ∀ j, here id (s'.queues j) = [] := by
  refine c23_delivered x scramb _ es1 es2 1 id rep pdu sdu (fun e he => (hp e he).1) h1 h2 s1 s' tr1 tr2 hr1 hr2 0 rfl ?_ hh
  have henv := srun_env hcfg (fun e he => hp e (by simp [he])) (Env.init cfg scramb hx) hr1
  have hm := srun_main hcfg (fun e he => hp e (by simp only [List.mem_append]; exact .inr he)) henv hr2
  have hcnt : ticksIn (SchedEv.message 1 id rep pdu sdu :: es2) = ticksIn es2 := by simp [ticksIn]
  rw [hcnt] at hm
  exact Nat.le_trans (Nat.le_trans (mainSlots_le _ _) (mainSlots_mono _ hn)) hm

/-! ## Messages are served in the order they were queued -/

/-- The message queued by a call on timeslot `t`. -/
def SchedEv.messageOn (t : Nat) : SchedEv → Option Nat
  | .message t' id _ _ _ => if t' = t then some id else none
  | _ => none

/-- The messages queued on timeslot `t`, in order. -/
def queuedOn (t : Nat) (es : List SchedEv) : List Nat := es.filterMap (·.messageOn t)

theorem step_order {s s' : Sched} {ev : SchedEv} {ret : SchedRet} (hs : SInv s) (h : s.step ev = .ok (s', ret)) {i : Fin 4}
    {ids : List Nat} (h0 : (idsOf (keys (s.queues i))).Sublist ids) :
    (idsOf (keys (s'.queues i))).Sublist (ids ++ (ev.messageOn (i.val + 1)).toList) := by
  have weaken : ∀ {a : List Nat}, (idsOf (keys (s'.queues i))).Sublist ids → (idsOf (keys (s'.queues i))).Sublist (ids ++ a) :=
    fun h => h.trans (List.sublist_append_left _ _)
  have pushed : ∀ {t : Nat} {el : DlElem}, s.push t el = .ok s' → el.isFrag = false →
      (el.isResource = true → ∀ k : Fin 4, t = k.val + 1 → (ev.messageOn (k.val + 1)).toList = el.owner.id?.toList) →
      (idsOf (keys (s'.queues i))).Sublist (ids ++ (ev.messageOn (i.val + 1)).toList) := by
    intro t el hp hfr hid
    unfold Sched.push at hp
    rw [Out.bind_eq_ok] at hp; obtain ⟨k, hk, hp⟩ := hp
    cases hp
    rw [Out.ofRes_eq_ok] at hk
    by_cases hi : i = k
    · subst hi
      simp only [Slots.upd_self]
      rw [queue_snoc_keys _ hfr]
      cases hr : el.isResource with
      | false => simp only [Bool.false_eq_true, if_false, List.append_nil]; exact h0.trans (List.sublist_append_left _ _)
      | true =>
        rw [hid hr i (Slots.idx_ok.1 hk)]
        simp only [if_true, idsOf, List.filterMap_append]
        refine List.Sublist.append h0 ?_
        cases ho : el.owner.id? <;> simp [DlElem.key, ho]
    · simp only [Slots.upd_ne _ _ hi]; exact h0.trans (List.sublist_append_left _ _)
  cases ev with
  | tick =>
    simp only [Sched.step] at h
    rw [Out.bind_eq_ok] at h; obtain ⟨c, hc, h⟩ := h
    rw [Out.bind_eq_ok] at h; obtain ⟨r, hr, h⟩ := h
    cases h
    obtain ⟨k, hk, k2, hsv⟩ := finalize_served (s := { s with cur := c }) ⟨hs.next, hs.good⟩ (s' := r.1) (x := r.2) hr
    apply weaken
    by_cases hi : i = k
    · subst hi; exact hsv.order.trans h0
    · rw [k2 i hi]; exact h0
  | capReq t ssi code =>
    simp only [Sched.step] at h
    rw [Out.bind_eq_ok] at h; obtain ⟨r, hr, h⟩ := h
    cases h
    exact weaken h0
  | grant t a g =>
    simp only [Sched.step] at h
    rw [Out.bind_eq_ok] at h; obtain ⟨r, hr, h⟩ := h
    cases h
    exact pushed hr rfl (by simp [DlElem.isResource])
  | ack t a =>
    simp only [Sched.step] at h
    rw [Out.bind_eq_ok] at h; obtain ⟨r, hr, h⟩ := h
    cases h
    exact pushed hr rfl (by simp [DlElem.isResource])
  | message t id rep pdu sdu =>
    simp only [Sched.step] at h
    rw [Out.bind_eq_ok] at h; obtain ⟨r, hr, h⟩ := h
    cases h
    refine pushed hr rfl ?_
    intro _ k hk
    simp [SchedEv.messageOn, hk, DlElem.owner, Owner.id?]
  | steal t id rep b =>
    simp only [Sched.step] at h
    rw [Out.bind_eq_ok] at h; obtain ⟨r, hr, h⟩ := h
    cases h
    exact pushed hr rfl (by simp [DlElem.isResource])
  | takeRa t ssi =>
    simp only [Sched.step, Sched.takeRa] at h
    rw [Out.bind_eq_ok] at h; obtain ⟨r, hr, h⟩ := h
    rw [Out.bind_eq_ok] at hr; obtain ⟨j, hj, hr⟩ := hr
    cases hr
    cases h
    exact weaken h0
  | voice t b =>
    simp only [Sched.step] at h
    rw [Out.bind_eq_ok] at h; obtain ⟨r, hr, h⟩ := h
    cases h
    exact weaken h0
  | create d c =>
    simp only [Sched.step] at h
    rw [Out.bind_eq_ok] at h; obtain ⟨r, hr, h⟩ := h
    cases h
    apply weaken
    simp only [(unhang_same s c.ts).2.2.2.2.1]; exact h0
  | close d t =>
    simp only [Sched.step] at h
    rw [Out.bind_eq_ok] at h; obtain ⟨r, hr, h⟩ := h
    cases h
    apply weaken
    simp only [(unhang_same s t).2.2.2.2.1]; exact h0
  | hang t active =>
    simp only [Sched.step, Out.ok.injEq, Prod.mk.injEq] at h
    obtain ⟨rfl, rfl⟩ := h
    apply weaken
    unfold Sched.setHang
    cases hk : Slots.idx t with
    | panic => exact h0
    | ok k =>
      simp only
      cases active with
      | true => exact h0
      | false =>
        simp only [Bool.false_eq_true, if_false, Sched.dropAll]
        by_cases hi : i = k
        · subst hi
          simp only [Slots.upd_self]
          have : keys ((s.queues i).filter (·.isStealing)) = [] := by
            have := stolen_notWork (s.queues i)
            simp only [stolenOf] at this
            simp [keys, workOf, this]
          rw [this]; exact List.nil_sublist _
        · simp only [Slots.upd_ne _ _ hi]; exact h0
  | systemWide b =>
    simp only [Sched.step, Out.ok.injEq, Prod.mk.injEq] at h
    obtain ⟨rfl, rfl⟩ := h
    exact weaken h0

theorem srun_order {es : List SchedEv} {s : Sched} (hs : SInv s) (hf : ∀ e ∈ es, e.Fine) {r : Sched × List (SchedEv × SchedRet)}
    (h : s.run es = .ok r) {i : Fin 4} {ids : List Nat} (h0 : (idsOf (keys (s.queues i))).Sublist ids) :
    (idsOf (keys (r.1.queues i))).Sublist (ids ++ queuedOn (i.val + 1) es) := by
  induction es generalizing s r ids with
  | nil => cases h; simpa [queuedOn] using h0
  | cons e es ih =>
    obtain ⟨a, tr, h1, h2, h3⟩ := srun_cons h
    have hs1 := (step_track hs (hf e (by simp)) (s' := a.1) (ret := a.2) h1).1
    have := ih (r := (r.1, tr)) hs1 (fun e he => hf e (by simp [he])) h2 (step_order hs (s' := a.1) (ret := a.2) h1 h0)
    simp only at this
    rw [List.append_assoc] at this
    have hq : queuedOn (i.val + 1) (e :: es) = (e.messageOn (i.val + 1)).toList ++ queuedOn (i.val + 1) es := by
      simp only [queuedOn, List.filterMap_cons]
      cases e.messageOn (i.val + 1) <;> rfl
    rw [hq]; exact this

/-- C23. In a slot without stolen block the messages appear in the order in which they were queued on its
timeslot: read the messages of which the slot carries a part (or which were offered room in it) from left to
right, and they are a subsequence of the messages queued. -/
theorem c23_order (x : Time) (scramb : Nat) (pre : Precomps) (es : List SchedEv) (hf : ∀ e ∈ es, e.Fine)
    (s' : Sched) (tr : List (SchedEv × SchedRet)) (y : TickOut)
    (h : (Sched.init x scramb pre).run (es ++ [.tick]) = .ok (s', tr ++ [(.tick, .sent y)])) (hst : y.slot.blk1.chan ≠ .stch) :
    (y.log.filterMap (·.1.id?)).Sublist (queuedOn y.slot.ts.t es) := by
  obtain ⟨s1, tr1, tr2, r1, r2, r3⟩ := srun_append _ _ h
  have hs1 := srun_inv (sinv_init x scramb pre) hf r1
  obtain ⟨a, tr3, c1, c2, c3⟩ := srun_cons r2
  cases c2
  have ha : a.2 = .sent y := by
    simp only at r3 c3
    rw [c3] at r3
    have := congrArg (List.getLast?) r3
    simp at this
    exact this.symm
  simp only [Sched.step] at c1
  rw [Out.bind_eq_ok] at c1; obtain ⟨c, hc, c1⟩ := c1
  rw [Out.bind_eq_ok] at c1; obtain ⟨q, hq, c1⟩ := c1
  cases c1
  simp only at ha
  cases ha
  obtain ⟨k, hk, k2, hsv⟩ := finalize_served (s := { s1 with cur := c }) ⟨hs1.next, hs1.good⟩ (s' := q.1) (x := q.2) hq
  rw [hk]
  refine (hsv.log (by simpa using hst)).trans ?_
  have := srun_order (i := k) (ids := []) (sinv_init x scramb pre) hf r1 (by simp [Sched.init, keys, workOf, idsOf])
  simpa using this

end Verif.Umac
