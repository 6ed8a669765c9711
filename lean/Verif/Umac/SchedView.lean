import Verif.Umac.SchedLiveProps
/-!
# What the scheduler knows after a history, whatever was queued

`SchedEnv.lean` follows the whole state of the scheduler for calls with well-formed content. The time, the uplink
reservations, the circuits and the hang state do not depend on what is queued; here they are followed for every history.
-/
namespace Verif.Umac
open Verif.Bits Verif.Codec Verif.Tdma Verif.Mle

/-- The part of a history which concerns the uplink. -/
def ulOf : SchedEv × SchedRet → Option (UlEv × Option SlotGrant)
  | (.tick, _) => some (.tick, none)
  | (.capReq t ssi code, .grant g) => some (.req t ssi code, g)
  | _ => none

/-- The grants made in a history which began at slot `n`. -/
def grantsIn (n : Int) (tr : List (SchedEv × SchedRet)) : List Given := given n (tr.filterMap ulOf)

/-- The slot number after a history which began at slot `n`. -/
def clockAfter (n : Int) (tr : List (SchedEv × SchedRet)) : Int := ulClock n (tr.filterMap ulOf)

theorem given_append (n : Int) (a b : List (UlEv × Option SlotGrant)) :
    given n (a ++ b) = given n a ++ given (ulClock n a) b := by
  induction a generalizing n with
  | nil => rfl
  | cons p a ih =>
    rw [List.cons_append, given_cons, given_cons n p a, clock_cons n p a, ih, List.append_assoc]

theorem ulClock_append (n : Int) (a b : List (UlEv × Option SlotGrant)) : ulClock n (a ++ b) = ulClock (ulClock n a) b := by
  induction a generalizing n with
  | nil => rfl
  | cons p a ih => rw [List.cons_append, clock_cons, clock_cons n p a, ih]

theorem clockAfter_eq (n : Int) (tr : List (SchedEv × SchedRet)) : clockAfter n tr = n + ticksIn (tr.map Prod.fst) := by
  unfold clockAfter
  induction tr generalizing n with
  | nil => simp [ulClock, ticksIn]
  | cons p tr ih =>
    obtain ⟨e, r⟩ := p
    cases e <;> cases r <;> simp [List.filterMap_cons, ulOf, ulClock, ih, ticksIn] <;> omega

/-- What is known of the scheduler after the history `tr` from time `x`. -/
structure View (x : Time) (tr : List (SchedEv × SchedRet)) (s : Sched) : Prop where
  cur : s.cur = fromInt (clockAfter x.toInt tr)
  table : UlInv (clockAfter x.toInt tr) s.ul (grantsIn x.toInt tr)
  dl : ∀ i : Fin 4, s.circuits.dl i = circuitAt .dl (i.val + 1) (tr.map Prod.fst)
  ul : ∀ i : Fin 4, s.circuits.ul i = circuitAt .ul (i.val + 1) (tr.map Prod.fst)
  hang : ∀ i : Fin 4, s.hang i = hangAt (i.val + 1) (tr.map Prod.fst)

theorem View.init (x : Time) (hx : x.valid) (scramb : Nat) (pre : Precomps) : View x [] (Sched.init x scramb pre) :=
  ⟨by simp [Sched.init, clockAfter, ulClock, fromInt_toInt hx], UlInv.start _, fun _ => rfl, fun _ => rfl, fun _ => rfl⟩

/-- A call which leaves all this alone. -/
theorem View.same {x : Time} {tr : List (SchedEv × SchedRet)} {s s' : Sched} (h : View x tr s) {e : SchedEv} {r : SchedRet}
    (h0 : ulOf (e, r) = none) (hd : ∀ d t c, circuitAfter d t c e = c) (hh : ∀ t b, hangAfter t b e = b)
    (h1 : s'.cur = s.cur) (h2 : s'.ul = s.ul) (h5 : s'.circuits.dl = s.circuits.dl) (h6 : s'.circuits.ul = s.circuits.ul)
    (h7 : s'.hang = s.hang) : View x (tr ++ [(e, r)]) s' := by
  refine ⟨?_, ?_, ?_, ?_, ?_⟩
  · rw [h1, h.cur]; simp [clockAfter, List.filterMap_append, h0]
  · rw [h2]; simpa [clockAfter, grantsIn, List.filterMap_append, h0] using h.table
  · intro i; simp only [List.map_append, List.map_cons, List.map_nil, circuitAt, List.foldl_append, List.foldl_cons, List.foldl_nil, hd, h5]
    exact h.dl i
  · intro i; simp only [List.map_append, List.map_cons, List.map_nil, circuitAt, List.foldl_append, List.foldl_cons, List.foldl_nil, hd, h6]
    exact h.ul i
  · intro i; simp only [List.map_append, List.map_cons, List.map_nil, hangAt, List.foldl_append, List.foldl_cons, List.foldl_nil, hh, h7]
    exact h.hang i

theorem part_same {s : Sched} {ts : Time} {i : Fin 4} {p : Part} (h : s.build ts i = .ok p) :
    p.s.cur = s.cur ∧ p.s.ul = s.ul ∧ p.s.circuits.dl = s.circuits.dl ∧ p.s.circuits.ul = s.circuits.ul ∧ p.s.hang = s.hang := by
  unfold Sched.build at h
  rw [Out.bind_eq_ok] at h; obtain ⟨a, _, h⟩ := h
  simp only at h
  split at h
  · unfold Sched.trafficPart at h
    rw [Out.bind_eq_ok] at h; obtain ⟨c, hc, h⟩ := h
    rw [Out.bind_eq_ok] at h; obtain ⟨v, _, h⟩ := h
    have hcc : c.1.dl = s.circuits.dl ∧ c.1.ul = s.circuits.ul := by
      rw [Out.ofRes_eq_ok] at hc
      unfold CircuitMgr.takeBlock at hc
      rw [Res.bind_eq_ok] at hc; obtain ⟨j, _, hc⟩ := hc
      split at hc <;> cases hc <;> exact ⟨rfl, rfl⟩
    split at h <;> cases h <;> exact ⟨rfl, rfl, hcc.1, hcc.2, rfl⟩
  · unfold Sched.signallingPart at h
    rw [Out.bind_eq_ok] at h; obtain ⟨c, hc, h⟩ := h
    rw [Out.bind_eq_ok] at h; obtain ⟨v, _, h⟩ := h
    rw [Out.bind_eq_ok] at h; obtain ⟨v, _, h⟩ := h
    cases h
    exact ⟨rfl, rfl, rfl, rfl, rfl⟩

theorem reqSlots_code {code n : Nat} (h : reqSlots code = .ok n) : code ≤ 14 := by
  unfold reqSlots at h
  split at h <;> first | omega | cases h

/-- One call. -/
theorem step_view {x : Time} {tr : List (SchedEv × SchedRet)} {s s' : Sched} (h : View x tr s) {e : SchedEv} {r : SchedRet}
    (hc : ∀ t ssi code, e = .capReq t ssi code → 1 ≤ t ∧ t ≤ 4) (hst : s.step e = .ok (s', r)) : View x (tr ++ [(e, r)]) s' := by
  have snocClock : ∀ p, clockAfter x.toInt (tr ++ [p]) = ulClock (clockAfter x.toInt tr) ([p].filterMap ulOf) := by
    intro p; simp only [clockAfter, List.filterMap_append, ulClock_append]
  have snocGrants : ∀ p, grantsIn x.toInt (tr ++ [p]) = grantsIn x.toInt tr ++ given (clockAfter x.toInt tr) ([p].filterMap ulOf) := by
    intro p; simp only [grantsIn, clockAfter, List.filterMap_append, given_append]
  cases e with
  | tick =>
    simp only [Sched.step] at hst
    rw [Out.bind_eq_ok] at hst; obtain ⟨c, hcc, hst⟩ := hst
    rw [Out.bind_eq_ok] at hst; obtain ⟨⟨s1, y⟩, hfin, hst⟩ := hst
    cases hst
    rw [h.cur, fromInt_add _ _ (by omega) (by omega), Out.ofRes_ok] at hcc
    cases hcc
    obtain ⟨F⟩ := finalize_inv hfin
    obtain ⟨q1, q2, q3, q4, q5⟩ := part_same F.hp
    have hts := F.hts
    simp only at hts
    rw [fromInt_add _ _ (by omega) (by omega), show clockAfter x.toInt tr + 1 + 1 = clockAfter x.toInt tr + 2 by omega] at hts
    have hu := F.hu
    cases hF : F.ts
    rw [hF] at hts
    have hu' : clearUl F.p.s.ul F.ts = .ok F.u := hu
    rw [hF, ← Res.ok.inj hts, clearUl_spec] at hu'
    rw [F.hs']
    refine ⟨?_, ?_, ?_, ?_, ?_⟩
    · rw [snocClock]; simp only [q1]; rfl
    · rw [snocClock, snocGrants, ← Res.ok.inj hu', q2]
      simpa [ulOf, ulClock, given] using h.table.tick
    · intro i
      simp only [q3, List.map_append, List.map_cons, List.map_nil, circuitAt, List.foldl_append, List.foldl_cons, List.foldl_nil, circuitAfter]
      exact h.dl i
    · intro i
      simp only [q4, List.map_append, List.map_cons, List.map_nil, circuitAt, List.foldl_append, List.foldl_cons, List.foldl_nil, circuitAfter]
      exact h.ul i
    · intro i
      simp only [q5, List.map_append, List.map_cons, List.map_nil, hangAt, List.foldl_append, List.foldl_cons, List.foldl_nil, hangAfter]
      exact h.hang i
  | capReq t ssi code =>
    obtain ⟨h1, h2⟩ := hc t ssi code rfl
    simp only [Sched.step] at hst
    rw [Out.bind_eq_ok] at hst; obtain ⟨q, hq, hst⟩ := hst
    cases hst
    rw [Out.ofRes_eq_ok] at hq
    have h3 : code ≤ 14 := by
      unfold processCapReq at hq
      by_cases h0 : code = 0
      · omega
      · rw [if_neg h0, Res.bind_eq_ok] at hq
        obtain ⟨n, hn, _⟩ := hq
        exact reqSlots_code hn
    obtain ⟨u', g, e1, hno, hyes⟩ := processCapReq_spec s.ul (clockAfter x.toInt tr) t ssi code h1 h2 h3 h.table.order
    rw [h.cur, e1] at hq
    cases hq
    have hmap : ∀ d k, circuitAt d k ((tr ++ [(SchedEv.capReq t ssi code, SchedRet.grant g)]).map Prod.fst) = circuitAt d k (tr.map Prod.fst) := by
      intro d k; simp [circuitAt, circuitAfter]
    refine ⟨?_, ?_, fun i => by rw [hmap]; exact h.dl i, fun i => by rw [hmap]; exact h.ul i, fun i => ?_⟩
    · rw [snocClock]; simpa [ulOf, ulClock] using h.cur
    · rw [snocClock, snocGrants]
      cases g with
      | none => rw [(hno rfl).1]; simpa [ulOf, ulClock, given] using h.table
      | some g => simpa [ulOf, ulClock, given] using h.table.req (hyes g rfl)
    · simpa [hangAt, hangAfter] using h.hang i
  | grant t a g =>
    simp only [Sched.step] at hst
    rw [Out.bind_eq_ok] at hst; obtain ⟨q, hq, hst⟩ := hst
    cases hst
    obtain ⟨e1, _, _, e4, e5, e6, _⟩ := push_same hq
    exact h.same rfl (fun _ _ _ => rfl) (fun _ _ => rfl) e1 e6 (by rw [e4]) (by rw [e4]) e5
  | ack t a =>
    simp only [Sched.step] at hst
    rw [Out.bind_eq_ok] at hst; obtain ⟨q, hq, hst⟩ := hst
    cases hst
    obtain ⟨e1, _, _, e4, e5, e6, _⟩ := push_same hq
    exact h.same rfl (fun _ _ _ => rfl) (fun _ _ => rfl) e1 e6 (by rw [e4]) (by rw [e4]) e5
  | message t id rep pdu sdu =>
    simp only [Sched.step] at hst
    rw [Out.bind_eq_ok] at hst; obtain ⟨q, hq, hst⟩ := hst
    cases hst
    obtain ⟨e1, _, _, e4, e5, e6, _⟩ := push_same hq
    exact h.same rfl (fun _ _ _ => rfl) (fun _ _ => rfl) e1 e6 (by rw [e4]) (by rw [e4]) e5
  | steal t id rep b =>
    simp only [Sched.step] at hst
    rw [Out.bind_eq_ok] at hst; obtain ⟨q, hq, hst⟩ := hst
    cases hst
    obtain ⟨e1, _, _, e4, e5, e6, _⟩ := push_same hq
    exact h.same rfl (fun _ _ _ => rfl) (fun _ _ => rfl) e1 e6 (by rw [e4]) (by rw [e4]) e5
  | takeRa t ssi =>
    simp only [Sched.step] at hst
    rw [Out.bind_eq_ok] at hst; obtain ⟨q, hq, hst⟩ := hst
    cases hst
    have : q.1.cur = s.cur ∧ q.1.ul = s.ul ∧ q.1.circuits = s.circuits ∧ q.1.hang = s.hang := by
      unfold Sched.takeRa at hq
      rw [Out.bind_eq_ok] at hq; obtain ⟨i, _, hq⟩ := hq
      first
        | (cases hq; exact ⟨rfl, rfl, rfl, rfl⟩)
        | (split at hq <;> cases hq <;> exact ⟨rfl, rfl, rfl, rfl⟩)
    exact h.same rfl (fun _ _ _ => rfl) (fun _ _ => rfl) this.1 this.2.1 (by rw [this.2.2.1]) (by rw [this.2.2.1]) this.2.2.2
  | voice t b =>
    simp only [Sched.step] at hst
    rw [Out.bind_eq_ok] at hst; obtain ⟨c, hq, hst⟩ := hst
    cases hst
    rw [Out.ofRes_eq_ok] at hq
    have : c.dl = s.circuits.dl ∧ c.ul = s.circuits.ul := by
      unfold CircuitMgr.putBlock at hq
      rw [Res.bind_eq_ok] at hq; obtain ⟨i, _, hq⟩ := hq
      split at hq <;> cases hq <;> exact ⟨rfl, rfl⟩
    exact h.same rfl (fun _ _ _ => rfl) (fun _ _ => rfl) rfl rfl this.1 this.2 rfl
  | create d c =>
    simp only [Sched.step] at hst
    rw [Out.bind_eq_ok] at hst; obtain ⟨cm, hq, hst⟩ := hst
    cases hst
    rw [Out.ofRes_eq_ok] at hq
    obtain ⟨u1, u2, u3, u4, u5, u6, u7, u8⟩ := unhang_same s c.ts
    rw [u7] at hq
    have key : ∃ k, Slots.idx c.ts = .ok k ∧ (∀ i, cm.dl i = if d = .dl ∧ c.ts = i.val + 1 then some c else s.circuits.dl i) ∧
        (∀ i, cm.ul i = if d = .ul ∧ c.ts = i.val + 1 then some c else s.circuits.ul i) := by
      unfold CircuitMgr.create at hq
      rw [Res.bind_eq_ok] at hq; obtain ⟨a, ha, hq⟩ := hq
      have hq : ∃ c1, (if a then (s.circuits.close d c.ts >>= fun r => Res.ok r.1) else Res.ok s.circuits) = .ok c1 ∧ c1.place d c = .ok cm := by
        cases a
        · exact ⟨_, rfl, hq⟩
        · simp only [if_true] at hq ⊢
          rw [Res.bind_eq_ok] at hq; obtain ⟨q, e1, hq⟩ := hq
          exact ⟨q.1, by rw [e1]; rfl, hq⟩
      obtain ⟨c1, hc1, hq⟩ := hq
      cases d with
      | none => simp [CircuitMgr.isActive] at ha
      | both => simp [CircuitMgr.isActive] at ha
      | dl =>
        simp only [CircuitMgr.isActive] at ha
        rw [Res.bind_eq_ok] at ha; obtain ⟨k, hk, ha⟩ := ha
        simp only [CircuitMgr.place, hk, Res.bind_ok, Res.ok.injEq] at hq
        have hcl : (∀ i, i ≠ k → c1.dl i = s.circuits.dl i) ∧ c1.ul = s.circuits.ul := by
          cases a
          · cases hc1; exact ⟨fun _ _ => rfl, rfl⟩
          · simp only [CircuitMgr.close, hk, Res.bind_ok, if_true, Res.ok.injEq] at hc1
            subst hc1
            exact ⟨fun i hi => Slots.upd_ne _ _ hi, rfl⟩
        subst hq
        refine ⟨k, hk, fun i => ?_, fun i => ?_⟩
        · simp only [upd_if _ hk, true_and]
          split
          · rfl
          · rename_i hne; exact hcl.1 i (fun h => hne ((idx_inj hk i).2 h))
        · simp [hcl.2]
      | ul =>
        simp only [CircuitMgr.isActive] at ha
        rw [Res.bind_eq_ok] at ha; obtain ⟨k, hk, ha⟩ := ha
        simp only [CircuitMgr.place, hk, Res.bind_ok, Res.ok.injEq] at hq
        have hcl : (∀ i, i ≠ k → c1.ul i = s.circuits.ul i) ∧ c1.dl = s.circuits.dl := by
          cases a
          · cases hc1; exact ⟨fun _ _ => rfl, rfl⟩
          · simp only [CircuitMgr.close, hk, Res.bind_ok, if_true, Res.ok.injEq] at hc1
            subst hc1
            exact ⟨fun i hi => Slots.upd_ne _ _ hi, rfl⟩
        subst hq
        refine ⟨k, hk, fun i => ?_, fun i => ?_⟩
        · simp [hcl.2]
        · simp only [upd_if _ hk, true_and]
          split
          · rfl
          · rename_i hne; exact hcl.1 i (fun h => hne ((idx_inj hk i).2 h))
    obtain ⟨k, hk, k1, k2⟩ := key
    refine ⟨?_, ?_, fun i => ?_, fun i => ?_, fun i => ?_⟩
    · rw [snocClock]; exact u1.trans h.cur
    · rw [snocClock, snocGrants, show List.filterMap ulOf [(SchedEv.create d c, SchedRet.none)] = [] from rfl]
      simpa [ulClock, given, u6] using h.table
    · simp only [k1, List.map_append, List.map_cons, List.map_nil, circuitAt, List.foldl_append, List.foldl_cons, List.foldl_nil, circuitAfter, h.dl i]
    · simp only [k2, List.map_append, List.map_cons, List.map_nil, circuitAt, List.foldl_append, List.foldl_cons, List.foldl_nil, circuitAfter, h.ul i]
    · simp only [unhang_hang s hk i, List.map_append, List.map_cons, List.map_nil, hangAt, List.foldl_append, List.foldl_cons, List.foldl_nil, hangAfter, h.hang i]
  | close d t =>
    simp only [Sched.step] at hst
    rw [Out.bind_eq_ok] at hst; obtain ⟨cm, hq, hst⟩ := hst
    cases hst
    rw [Out.ofRes_eq_ok] at hq
    obtain ⟨u1, u2, u3, u4, u5, u6, u7, u8⟩ := unhang_same s t
    rw [u7] at hq
    have key : ∃ k, Slots.idx t = .ok k ∧ (∀ i, cm.1.dl i = if d = .dl ∧ t = i.val + 1 then none else s.circuits.dl i) ∧
        (∀ i, cm.1.ul i = if d = .ul ∧ t = i.val + 1 then none else s.circuits.ul i) := by
      unfold CircuitMgr.close at hq
      cases d with
      | none => cases hq
      | both => cases hq
      | dl =>
        simp only at hq
        rw [Res.bind_eq_ok] at hq; obtain ⟨k, hk, hq⟩ := hq
        cases hq
        exact ⟨k, hk, fun i => by simp [upd_if _ hk], fun i => by simp⟩
      | ul =>
        simp only at hq
        rw [Res.bind_eq_ok] at hq; obtain ⟨k, hk, hq⟩ := hq
        cases hq
        exact ⟨k, hk, fun i => by simp, fun i => by simp [upd_if _ hk]⟩
    obtain ⟨k, hk, k1, k2⟩ := key
    refine ⟨?_, ?_, fun i => ?_, fun i => ?_, fun i => ?_⟩
    · rw [snocClock]; exact u1.trans h.cur
    · rw [snocClock, snocGrants, show List.filterMap ulOf [(SchedEv.close d t, SchedRet.bool cm.2.isSome)] = [] from rfl]
      simpa [ulClock, given, u6] using h.table
    · simp only [k1, List.map_append, List.map_cons, List.map_nil, circuitAt, List.foldl_append, List.foldl_cons, List.foldl_nil, circuitAfter, h.dl i]
    · simp only [k2, List.map_append, List.map_cons, List.map_nil, circuitAt, List.foldl_append, List.foldl_cons, List.foldl_nil, circuitAfter, h.ul i]
    · simp only [unhang_hang s hk i, List.map_append, List.map_cons, List.map_nil, hangAt, List.foldl_append, List.foldl_cons, List.foldl_nil, hangAfter, h.hang i]
  | hang t b =>
    simp only [Sched.step, Out.ok.injEq, Prod.mk.injEq] at hst
    obtain ⟨rfl, rfl⟩ := hst
    have key : (s.setHang t b).1.cur = s.cur ∧ (s.setHang t b).1.ul = s.ul ∧ (s.setHang t b).1.circuits = s.circuits ∧
        ∀ i : Fin 4, (s.setHang t b).1.hang i = if t = i.val + 1 then b else s.hang i := by
      unfold Sched.setHang
      cases hk : Slots.idx t with
      | panic =>
        refine ⟨rfl, rfl, rfl, fun i => ?_⟩
        rw [if_neg]
        intro h
        have := Slots.idx_ok.2 h
        rw [this] at hk; cases hk
      | ok k => cases b <;> exact ⟨rfl, rfl, rfl, fun i => upd_if _ hk _ i⟩
    obtain ⟨k1, k2, k3, k4⟩ := key
    refine ⟨?_, ?_, fun i => ?_, fun i => ?_, fun i => ?_⟩
    · rw [snocClock]; exact k1.trans h.cur
    · rw [snocClock, snocGrants, show List.filterMap ulOf [(SchedEv.hang t b, SchedRet.dropped (s.setHang t b).2)] = [] from rfl]
      simpa [ulClock, given, k2] using h.table
    · rw [k3]; simpa [circuitAt, circuitAfter] using h.dl i
    · rw [k3]; simpa [circuitAt, circuitAfter] using h.ul i
    · simp only [k4, List.map_append, List.map_cons, List.map_nil, hangAt, List.foldl_append, List.foldl_cons, List.foldl_nil, hangAfter, h.hang i]
  | systemWide b =>
    simp only [Sched.step, Out.ok.injEq, Prod.mk.injEq] at hst
    obtain ⟨rfl, rfl⟩ := hst
    exact h.same rfl (fun _ _ _ => rfl) (fun _ _ => rfl) rfl rfl rfl rfl rfl

/-- A history of calls. -/
theorem srun_view {x : Time} {tr : List (SchedEv × SchedRet)} {s : Sched} (h : View x tr s) {es : List SchedEv}
    (hc : ∀ t ssi code, .capReq t ssi code ∈ es → 1 ≤ t ∧ t ≤ 4) {s' : Sched} {tr' : List (SchedEv × SchedRet)}
    (hr : s.run es = .ok (s', tr')) : View x (tr ++ tr') s' := by
  induction es generalizing s tr tr' with
  | nil => cases hr; simpa using h
  | cons e es ih =>
    obtain ⟨a, tr1, c1, c2, c3⟩ := srun_cons hr
    have h1 := step_view h (r := a.2) (s' := a.1) (fun t ssi code he => hc t ssi code (by simp [he])) c1
    have := ih h1 (fun t ssi code he => hc t ssi code (by simp [he])) c2
    simp only at c3
    rw [c3]
    simpa using this

end Verif.Umac
