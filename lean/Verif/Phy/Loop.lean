import Verif.Umac.VoiceQueue
import Verif.Phy.UplinkTotal
/-!
# Voice through the radio side: lemmas for C91
-/
namespace Verif.Phy
open Verif.Umac Verif.Tdma Verif.Codec Verif.ErrorControl

/-- The order opens or closes the downlink of timeslot `t`. -/
def _root_.Verif.Umac.MacCtl.switches (t : Nat) : MacCtl → Bool
  | .open c => decide (c.ts = t ∧ (c.direction = .dl ∨ c.direction = .both))
  | .close d ts => decide (ts = t ∧ (d = .dl ∨ d = .both))
  | _ => false

/-- The event opens or closes the downlink of timeslot `t`. -/
def CellEv.switches (t : Nat) : CellEv → Bool
  | .control m => m.switches t
  | _ => false

variable {brew : Bool} {carrier : Nat} {x : Time} {scramb : Nat} {wide : Bool} {code : BitVec 32} {cfg : CellCfg}

/-! ## Orders -/

theorem order_inv {c c' : Cell} {ev : UmacEv} {o : CellOut} (h : c.order ev = .ok (c', o)) :
    ∃ out, c.umac.step ev = .ok (c'.umac, out) ∧ c'.lmac = c.lmac ∧ o = ⟨[(ev, out)], []⟩ := by
  unfold Cell.order at h
  rw [Out.bind_eq_ok] at h; obtain ⟨r, hr, h⟩ := h
  cases h
  exact ⟨r.2, hr, rfl, rfl⟩

/-- What the scheduler is asked at an order. -/
theorem control_es {s : UmacBs} {m : MacCtl} {es : List SchedEv} (h : Caused s (.control m) es) (t : Nat) :
    (∀ e ∈ es, e ≠ .tick ∧ ∀ b, e ≠ .voice t b) ∧ ((∃ e ∈ es, e.switches t = true) ↔ m.switches t = true) := by
  cases m with
  | «open» c =>
    obtain ⟨k, rfl⟩ := h
    cases hd : c.direction <;> simp only [Dir.split, List.flatMap_cons, List.flatMap_nil, List.append_nil, MacCtl.switches, hd] <;>
      cases k .dl <;> cases k .ul <;> simp [SchedEv.switches]
  | close d ts =>
    subst h
    cases d <;> simp [Dir.split, SchedEv.switches, MacCtl.switches]
  | released ts => subst h; simp [SchedEv.switches, MacCtl.switches]
  | granted ts => subst h; simp [SchedEv.switches, MacCtl.switches]
  | ended ts => subst h; simp [SchedEv.switches, MacCtl.switches]

/-- What an order, a request or voice for another timeslot does to the voice waiting for a timeslot. -/
theorem order_queue {c c' : Cell} {e : CellEv} {o : CellOut} (hst : c.step e = .ok (c', o)) (hd : ∀ w, e ≠ .down w) (hu : ∀ a, e ≠ .up a)
    {i : Fin 4} (hv : ∀ b, e ≠ .voice (i.val + 1) b) :
    c'.lmac = c.lmac ∧
    (c'.umac.sched.circuits.txData i = c.umac.sched.circuits.txData i ∨ c'.umac.sched.circuits.txData i = []) ∧
    (c.umac.sched.Clean i → c'.umac.sched.Clean i) ∧
    (e.switches (i.val + 1) = true → c'.umac.sched.circuits.txData i = []) ∧
    (e.switches (i.val + 1) = false → c'.umac.sched.circuits.txData i = c.umac.sched.circuits.txData i ∧
      c'.umac.sched.circuits.dl i = c.umac.sched.circuits.dl i) ∧ sentOf [(e, o)] = [] := by
  have key : ∀ ev : UmacEv, ev.isTick = false → (∀ k d, ev ≠ .block k d) → (∀ b, ev ≠ .voiceDown (i.val + 1) b) → (∀ t d, ev ≠ .voiceUp t d) →
      (∀ m, ev = .control m → e = .control m) → (e.switches (i.val + 1) = true → ∃ m, ev = .control m) → c.order ev = .ok (c', o) →
      c'.lmac = c.lmac ∧
    (c'.umac.sched.circuits.txData i = c.umac.sched.circuits.txData i ∨ c'.umac.sched.circuits.txData i = []) ∧
    (c.umac.sched.Clean i → c'.umac.sched.Clean i) ∧
    (e.switches (i.val + 1) = true → c'.umac.sched.circuits.txData i = []) ∧
    (e.switches (i.val + 1) = false → c'.umac.sched.circuits.txData i = c.umac.sched.circuits.txData i ∧
      c'.umac.sched.circuits.dl i = c.umac.sched.circuits.dl i) ∧ sentOf [(e, o)] = [] := by
    intro ev h1 h2 h3 h4 h5 h6 h
    obtain ⟨out, hs, hl, rfl⟩ := order_inv h
    have hslots : sentOf [(e, (⟨[(ev, out)], []⟩ : CellOut))] = [] := by
      have := step_slots hs h1
      simpa [sentOf, callsOf] using this
    obtain ⟨cs, fs, v, hc⟩ := step_via hs
    have hes : (∀ e' ∈ cs.map Prod.fst, e' ≠ .tick ∧ ∀ b, e' ≠ .voice (i.val + 1) b) ∧
        ((∃ e' ∈ cs.map Prod.fst, e'.switches (i.val + 1) = true) ↔ e.switches (i.val + 1) = true) := by
      have nosw : (∀ m, ev ≠ .control m) → e.switches (i.val + 1) = false := by
        intro hn
        cases hh : e.switches (i.val + 1) with
        | false => rfl
        | true => obtain ⟨m, hm⟩ := h6 hh; exact absurd hm (hn m)
      cases ev with
      | tick w => cases h1
      | block k d => exact absurd rfl (h2 k d)
      | voiceUp t d => exact absurd rfl (h4 t d)
      | request q =>
        rw [nosw (fun m h => by cases h)]
        rcases hc with ⟨ts, b, _, e⟩ | ⟨p, _, e⟩ <;> rw [e] <;> simp [SchedEv.switches]
      | voiceDown t b =>
        rw [nosw (fun m h => by cases h)]
        have ht : t ≠ i.val + 1 := fun h => h3 b (by rw [h])
        rcases hc with e | e <;> rw [e] <;> simp [SchedEv.switches, ht]
      | control m =>
        rw [h5 m rfl]
        exact control_es hc _
    obtain ⟨r1, r2, r3⟩ := run_emptied hes.1 v.run
    refine ⟨hl, r1, r2, fun hsw => r3 (hes.2.2 hsw), fun hsw => ?_, hslots⟩
    refine run_same (fun e' he' => ⟨(hes.1 e' he').1, (hes.1 e' he').2, ?_⟩) v.run
    cases hh : e'.switches (i.val + 1) with
    | false => rfl
    | true => rw [hes.2.1 ⟨e', he', hh⟩] at hsw; cases hsw
  cases e with
  | down w => exact absurd rfl (hd w)
  | up a => exact absurd rfl (hu a)
  | request q => exact key (.request q) rfl (by simp) (by simp) (by simp) (by simp) (by simp [CellEv.switches]) hst
  | voice t b =>
    refine key (.voiceDown t b) rfl (by simp) ?_ (by simp) (by simp) (by simp [CellEv.switches]) hst
    intro b' h
    cases h
    exact hv _ rfl
  | control m => exact key (.control m) rfl (by simp) (by simp) (by simp) (by simp) (by simp) hst

/-! ## Reception -/

/-- Reception on a timeslot: the blocks change nothing about voice; there is at most one frame of voice, and only in a traffic slot. -/
theorem up_voice (hx : x.valid) {pre : Precomps} {h : List (CellEv × CellOut)} {c c' : Cell}
    (hr : CellRun ⟨.init brew carrier x scramb wide pre, .init code⟩ h c) (hf : Fresh h) {a : Air} (ha : a.Sized) {calls : Calls}
    (hu : c.up a = .ok (c', calls)) :
    ∃ j : Fin 4, j = slot (x.toInt + slotsIn (callsOf h) - 2) ∧
    (∃ f v, calls = f ++ v ∧ (∀ p ∈ f, ∃ k d, p.1 = .block k d) ∧
      (v = [] ∨ (c.lmac.traffic j = true ∧ ∃ (d : List Bool) (out : List UmacOut), d.length = 274 ∧ v = [(.voiceUp (j.val + 1) (d.map Bool.toNat), out)]))) := by
  have k := cell_known hx hr
  obtain ⟨t, bs, c1, cs1, vs, cs2, u1, u2, u3, u4, rfl⟩ := up_inv hu
  rw [(k.now hx).1, fromInt_add _ _ (by omega) (by omega)] at u1
  cases u1
  have hst := fresh_stolen hx hr hf
  obtain ⟨fb, yb, zb, e, f1, f2, f3⟩ := phy_inds ha
  rw [e] at u2; cases u2
  obtain ⟨c2, x1, v1, x2, v2, w1, w2, rfl, rfl⟩ := hearAll_append u3
  obtain ⟨c3, x3, v3, x4, v4, w3, w4, rfl, rfl⟩ := hearAll_append w1
  have hi := idx_fromInt (x.toInt + slotsIn (callsOf h) + -2)
  have r1 := full_heard hi hst ha.full f1 w3
  obtain ⟨_, rfl⟩ := sub_heard hi ha.sub1 f2 w4
  obtain ⟨_, rfl⟩ := sub_heard hi ha.sub2 f3 w2
  obtain ⟨_, b2, _⟩ := voices_chain u4
  obtain ⟨_, p1, _⟩ := hearAll_chain u3
  have hts := Slots.idx_ok.1 hi
  refine ⟨_, by rw [Int.sub_eq_add_neg], _, cs2, rfl, fun p hp => ?_, ?_⟩
  · obtain ⟨k, d, e, _⟩ := p1 p hp
    exact ⟨k, d, e⟩
  · simp only [List.append_nil] at b2
    rw [← b2] at r1
    generalize hg : cs2.map Prod.fst = g at r1
    have none : g = [] → cs2 = [] := fun e => by rw [e] at hg; simpa using hg
    cases r1 with
    | silent => exact .inl (none rfl)
    | bad => exact .inl (none rfl)
    | good => exact .inl (none rfl)
    | halves => exact .inl (none rfl)
    | voice p d ok ht S hd =>
      right
      refine ⟨ht, d, ?_⟩
      obtain ⟨q, rfl, hq⟩ : ∃ q, cs2 = [q] ∧ q.1 = _ := by
        cases cs2 with
        | nil => simp at hg
        | cons q l => simp at hg; obtain ⟨h1, rfl⟩ := hg; exact ⟨q, rfl, h1⟩
      have hl := normHalf_length ha.full S.range
      obtain ⟨d', ok', e1, e2⟩ := decodeTp_total (normHalf1 a.full p ++ normHalf2 a.full p) (by
        rw [List.length_append, hl.1, hl.2]) c.lmac.code
      rw [e1] at hd; cases hd
      refine ⟨q.2, e2, ?_⟩
      rw [← hts]
      exact congrArg (fun e => [(e, q.2)]) hq

/-- Blocks of signalling leave the voice alone. -/
theorem chain_blocks {i : Fin 4} : ∀ {f : Calls} {s s' : UmacBs}, (∀ p ∈ f, ∃ k d, p.1 = .block k d) → Chain s f s' →
    s'.sched.circuits.txData i = s.sched.circuits.txData i ∧ s'.sched.circuits.dl i = s.sched.circuits.dl i
  | [], s, s', _, h => by cases h; exact ⟨rfl, rfl⟩
  | (e, out) :: f, s, s', hb, ⟨s1, h1, h2⟩ => by
    obtain ⟨k, d, he⟩ := hb _ List.mem_cons_self
    simp only at he
    subst he
    obtain ⟨cs, fs, v, hc⟩ := step_via h1
    obtain ⟨a1, a2⟩ := chain_blocks (i := i) (fun p hp => hb p (List.mem_cons_of_mem _ hp)) h2
    obtain ⟨b1, b2⟩ := run_same (i := i) (fun e he => by
      have := hc e he
      cases e <;> simp [RxCall, SchedEv.switches] at this ⊢) v.run
    exact ⟨a1.trans b1, a2.trans b2⟩

/-- A frame of voice from the air waits behind those that wait. -/
theorem voiceUp_queue {s s' : UmacBs} {j : Fin 4} {d : List Bool} {out : List UmacOut} (hd : d.length = 274)
    (h : s.step (.voiceUp (j.val + 1) (d.map Bool.toNat)) = .ok (s', out)) :
    ∃ b, voiceBits (some b) = d ∧ s'.sched.circuits.dl = s.sched.circuits.dl ∧
      (∀ i, i ≠ j → s'.sched.circuits.txData i = s.sched.circuits.txData i) ∧
      s'.sched.circuits.txData j = (if (s.sched.circuits.dl j).isSome then s.sched.circuits.txData j ++ [b] else s.sched.circuits.txData j) := by
  obtain ⟨b, hb, _, hbits⟩ := pack_bits hd
  refine ⟨b, hbits, ?_⟩
  simp only [UmacBs.step, UmacBs.voiceUp] at h
  simp only [CircuitMgr.isActive, Slots.idx_succ, Res.bind_ok, Out.ofRes_ok, Out.bind_ok] at h
  cases ho : (s.sched.circuits.dl j).isSome with
  | false =>
    simp only [ho, Bool.false_eq_true, if_false, Out.ok.injEq, Prod.mk.injEq] at h
    rw [← h.1, heard_sched]
    simp
  | true =>
    simp only [ho, if_true, hb] at h
    rw [Out.bind_eq_ok] at h; obtain ⟨r, hr, h⟩ := h
    cases h
    unfold UmacBs.call at hr
    rw [Out.bind_eq_ok] at hr; obtain ⟨q, hq, hr⟩ := hr
    cases hr
    simp only [Sched.step, heard_sched, CircuitMgr.putBlock, Slots.idx_succ, Res.bind_ok, ho, if_true, Out.ofRes_ok, Out.bind_ok, Out.ok.injEq] at hq
    subst hq
    refine ⟨rfl, fun i hi => ?_, ?_⟩
    · simp only [Slots.upd_ne _ _ hi]
    · simp only [Slots.upd_self, if_true]

/-- Reception: what waits on the timeslots. -/
theorem up_queue (hx : x.valid) {pre : Precomps} {h : List (CellEv × CellOut)} {c c' : Cell}
    (hr : CellRun ⟨.init brew carrier x scramb wide pre, .init code⟩ h c) (hf : Fresh h) {a : Air} (ha : a.Sized) {calls : Calls}
    (hu : c.up a = .ok (c', calls)) (i : Fin 4) :
    c'.umac.sched.circuits.dl i = c.umac.sched.circuits.dl i ∧ c'.lmac.traffic = c.lmac.traffic ∧
    ((∃ d b, (.voiceUp (i.val + 1) (d.map Bool.toNat)) ∈ calls.map Prod.fst ∧ d.length = 274 ∧ voiceBits (some b) = d ∧
        i = slot (x.toInt + slotsIn (callsOf h) - 2) ∧ c.lmac.traffic i = true ∧
        c'.umac.sched.circuits.txData i = (if (c.umac.sched.circuits.dl i).isSome then c.umac.sched.circuits.txData i ++ [b] else c.umac.sched.circuits.txData i)) ∨
      ((∀ d, (.voiceUp (i.val + 1) d) ∉ calls.map Prod.fst) ∧ c'.umac.sched.circuits.txData i = c.umac.sched.circuits.txData i)) := by
  obtain ⟨j, hj, f, v, rfl, hb, hv⟩ := up_voice hx hr hf ha hu
  obtain ⟨hc, _, ht, _⟩ := up_chain hu
  obtain ⟨s1, k1, k2⟩ := hc.split
  obtain ⟨q1, q2⟩ := chain_blocks (i := i) hb k1
  have nof : ∀ t d, (.voiceUp t d) ∉ f.map Prod.fst := by
    intro t d hm
    obtain ⟨p, hp, he⟩ := List.mem_map.1 hm
    obtain ⟨k, d', e⟩ := hb p hp
    rw [he] at e; cases e
  rcases hv with rfl | ⟨htr, d, out, hd, rfl⟩
  · cases k2
    exact ⟨q2, ht, .inr ⟨by intro d; simpa using nof _ d, q1⟩⟩
  · obtain ⟨s2, e1, e2⟩ := k2
    cases e2
    obtain ⟨b, v1, v2, v3, v4⟩ := voiceUp_queue hd e1
    by_cases hij : i = j
    · subst hij
      refine ⟨by rw [v2, q2], ht, .inl ⟨d, b, by simp, hd, v1, hj, htr, ?_⟩⟩
      rw [v4, q1, q2]
    · refine ⟨by rw [v2, q2], ht, .inr ⟨?_, by rw [v3 i hij, q1]⟩⟩
      intro d' hm
      rw [List.map_append, List.mem_append] at hm
      rcases hm with hm | hm
      · exact nof _ _ hm
      · simp at hm
        exact hij (Fin.ext hm.1)

/-! ## Sending -/

theorem down_inv {c c' : Cell} {w : Bool} {o : CellOut} (h : c.step (.down w) = .ok (c', o)) :
    ∃ s' out, c.umac.tick w = .ok (s', out) ∧ ({ c with umac := s' } : Cell).send (slotsOut out) = .ok (c', o.bursts) ∧ o.calls = [(.tick w, out)] := by
  simp only [Cell.step] at h
  rw [Out.bind_eq_ok] at h; obtain ⟨r, hr, h⟩ := h
  cases h
  unfold Cell.down at hr
  rw [Out.bind_eq_ok] at hr; obtain ⟨t, ht, hr⟩ := hr
  rw [Out.bind_eq_ok] at hr; obtain ⟨q, hq, hr⟩ := hr
  cases hr
  exact ⟨t.1, t.2, ht, hq, rfl⟩

/-- The slot which is sent down, and what it leaves behind. -/
structure Slotted (cfg : CellCfg) (scramb : Nat) (x : Time) (n : Int) (c c' : Cell) (y : TickOut) (b : List Bool) : Prop where
  sent : sendSlot y.slot = .ok b
  built : ∃ es, Proper es ∧ Built cfg scramb x es y
  time : y.slot.ts = fromInt (n + 2)
  traffic : c'.lmac.traffic = c.lmac.traffic.upd (slot (n + 2)) (y.slot.ulPhy == .tp)
  dl : c'.umac.sched.circuits.dl = c.umac.sched.circuits.dl
  ok : CircOk c.umac.sched.circuits
  made : ∃ s1 : Sched, s1.circuits = c.umac.sched.circuits ∧ s1.hang = c.umac.sched.hang ∧ s1.queues = c.umac.sched.queues ∧
    SlotHead s1 (fromInt (n + 2)) (slot (n + 2)) y ∧ SlotCase s1 (fromInt (n + 2)) (slot (n + 2)) c'.umac.sched y

theorem down_slot (hx : x.valid) (hcfg : cfg.InRange) {h : List (CellEv × CellOut)} {c c' : Cell}
    (hr : CellRun ⟨.init brew carrier x scramb wide (Precomps.generate cfg), .init code⟩ h c) {w : Bool} {o : CellOut}
    (hst : c.step (.down w) = .ok (c', o)) (hp : Proper (c'.umac.log.map Prod.fst)) :
    ∃ y b, sentOf [(.down w, o)] = [y.slot] ∧ o.bursts = [b] ∧ Slotted cfg scramb x (x.toInt + slotsIn (callsOf h)) c c' y b := by
  have k := cell_known hx hr
  obtain ⟨s', out, ht, hs, ho⟩ := down_inv hst
  obtain ⟨l, y, hl, hy⟩ := tick_built ht
  obtain ⟨y', hy', hts⟩ := tick_slot ht (k.now hx).2
  rw [hy] at hy'; cases hy'
  rw [hy] at hs
  obtain ⟨q1, q2, q3, _, b, q4, q5⟩ := send_lmac hs hts
  simp only at q1 q3
  have hlog := (run_log (k.run.step (e := .tick w) ht)).1
  have hB : Built cfg scramb x (l.map Prod.fst) y := ⟨s'.sched, l, by rw [hl] at hlog; simpa using hlog⟩
  have hp' : Proper (s'.log.map Prod.fst) := by rw [← q1]; exact hp
  have hpl : Proper (l.map Prod.fst) := fun e he => hp' e (by rw [hl]; simp; exact .inl (by simpa using he))
  obtain ⟨cs, v, hcs, _⟩ := tick_via ht
  have hn : x.toInt + (ticksIn (c.umac.log.map Prod.fst) : Int) = x.toInt + slotsIn (callsOf h) := by
    rw [← clockAfter_eq, run_clock k.run]
  have hp0 : Proper (c.umac.log.map Prod.fst) := fun e he => hp' e (by rw [v.log, List.map_append]; exact List.mem_append_left _ he)
  have henv : Env cfg scramb x (c.umac.log.map Prod.fst) c.umac.sched := by
    have := srun_env hcfg hp0 (Env.init cfg scramb hx) (run_log k.run).1
    simpa using this
  have key : ∃ (s1 : Sched) (es : List SchedEv) (tr : List (SchedEv × SchedRet)), s1.circuits = c.umac.sched.circuits ∧ s1.hang = c.umac.sched.hang ∧
      s1.queues = c.umac.sched.queues ∧ ticksIn es = ticksIn (c.umac.log.map Prod.fst) ∧ Env cfg scramb x es s1 ∧
      s1.run [.tick] = .ok (s'.sched, tr) ∧ ∃ l1, cs = l1 ++ tr := by
    simp only [Caused] at hcs
    have hrun := v.run
    rw [hcs] at hrun
    by_cases hw : w = c.umac.wide
    · rw [if_pos hw] at hrun
      exact ⟨_, _, _, rfl, rfl, rfl, rfl, henv, hrun, [], rfl⟩
    · rw [if_neg hw] at hrun
      obtain ⟨a, tr, h1, h2, h3⟩ := srun_cons hrun
      have henv1 := (step_env hcfg henv (e := .systemWide w) trivial trivial (s' := a.1) (r := a.2) h1).1
      simp only [Sched.step, Out.ok.injEq] at h1
      subst h1
      exact ⟨{ c.umac.sched with pre := c.umac.sched.pre.systemWide w }, _, tr, rfl, rfl, rfl, by simp [ticksIn], henv1, h2, [_], h3⟩
  obtain ⟨s1, es, tr, e1, e2, e3, e4, henv1, hrun, l1, e5⟩ := key
  obtain ⟨a, tr', h1, h2, h3⟩ := srun_cons hrun
  have ha : a.1 = s'.sched ∧ tr' = [] := by
    simp only [Sched.run, Out.ok.injEq, Prod.mk.injEq] at h2
    exact ⟨h2.1, h2.2.symm⟩
  obtain ⟨ha, rfl⟩ := ha
  obtain ⟨henv2, htick⟩ := step_env hcfg henv1 (e := .tick) trivial trivial (s' := a.1) (r := a.2) h1
  obtain ⟨y', hy', hh, hc⟩ := htick rfl
  rw [e4, hn] at hh hc
  have hyy : y' = y := by
    have h4 := v.log
    simp only at h3
    rw [hl, e5, h3, hy', ← List.append_assoc] at h4
    have := (List.append_inj' h4 rfl).2
    simp at this
    exact this.symm
  subst hyy
  refine ⟨y', b, ?_, q5, q4, ⟨_, hpl, hB⟩, hts, by rw [q3], ?_, henv.circ,
    { s1 with cur := fromInt (x.toInt + slotsIn (callsOf h) + 1) }, e1, e2, e3, hh, by rw [q1, ← ha]; exact hc⟩
  · simp [sentOf, callsOf, ho, hy]
  · rw [q1, ← e1, ← ha]
    funext i
    rw [henv2.dl, henv1.dl, circuitAt, List.foldl_append]
    rfl

/-! ## What waits -/

/-- Every reception is the first one in its slot, and has the size of a slot. -/
def Turns (h : List (CellEv × CellOut)) : Prop := ∀ h1 a o h2, h = h1 ++ (.up a, o) :: h2 → Fresh h1 ∧ a.Sized

theorem Turns.init {h : List (CellEv × CellOut)} {p : CellEv × CellOut} (ht : Turns (h ++ [p])) : Turns h := by
  intro h1 a o h2 e
  exact ht h1 a o (h2 ++ [p]) (by rw [e]; simp)

theorem Turns.last {h : List (CellEv × CellOut)} {a : Air} {o : CellOut} (ht : Turns (h ++ [(.up a, o)])) : Fresh h ∧ a.Sized := ht h a o [] rfl

theorem Fresh.back {h : List (CellEv × CellOut)} {e : CellEv} {o : CellOut} (hf : Fresh (h ++ [(e, o)])) (hd : ∀ w, e ≠ .down w) : Fresh h := by
  obtain ⟨h1, w, o', h2, e1, e2⟩ := hf
  cases h2 using List.reverseRecOn with
  | nil =>
    have := (List.append_inj' e1 rfl).2
    simp at this
    exact absurd this.1 (hd w)
  | append_singleton l p _ =>
    rw [show h1 ++ (CellEv.down w, o') :: (l ++ [p]) = (h1 ++ (CellEv.down w, o') :: l) ++ [p] by simp] at e1
    exact ⟨h1, w, o', l, (List.append_inj' e1 rfl).1, fun p hp => e2 p (List.mem_append_left _ hp)⟩

theorem not_fresh {h : List (CellEv × CellOut)} {a : Air} {o : CellOut} : ¬ Fresh (h ++ [(.up a, o)]) := by
  rintro ⟨h1, w, o', h2, e1, e2⟩
  cases h2 using List.reverseRecOn with
  | nil =>
    have := (List.append_inj' e1 rfl).2
    simp at this
  | append_singleton l p _ =>
    rw [show h1 ++ (CellEv.down w, o') :: (l ++ [p]) = (h1 ++ (CellEv.down w, o') :: l) ++ [p] by simp] at e1
    have := (List.append_inj' e1 rfl).2
    simp at this
    exact e2 p (by simp) a (by rw [← this])

/-- The log of the upper MAC only grows. -/
theorem step_log {c c' : Cell} {e : CellEv} {o : CellOut} (h : c.step e = .ok (c', o)) : ∃ l, c'.umac.log = c.umac.log ++ l := by
  have chain : ∀ {cs : Calls} {s s' : UmacBs}, Chain s cs s' → ∃ l, s'.log = s.log ++ l := by
    intro cs
    induction cs with
    | nil => intro s s' h; cases h; exact ⟨[], by simp⟩
    | cons p cs ih =>
      rintro s s' ⟨s1, h1, h2⟩
      obtain ⟨cs', fs, v, _⟩ := step_via h1
      obtain ⟨l, hl⟩ := ih h2
      exact ⟨cs' ++ l, by rw [hl, v.log, List.append_assoc]⟩
  have ord : ∀ {ev : UmacEv}, c.order ev = .ok (c', o) → ∃ l, c'.umac.log = c.umac.log ++ l := by
    intro ev h
    obtain ⟨out, hs, _⟩ := order_inv h
    obtain ⟨cs', fs, v, _⟩ := step_via hs
    exact ⟨_, v.log⟩
  cases e with
  | down w =>
    obtain ⟨s', out, ht, hs, _⟩ := down_inv h
    obtain ⟨cs', fs, v, _⟩ := step_via (e := .tick w) ht
    obtain ⟨l, y, _, hy⟩ := tick_built ht
    rw [hy] at hs
    have : c'.umac = s' := by
      unfold Cell.send at hs
      rw [Out.bind_eq_ok] at hs; obtain ⟨l, _, hs⟩ := hs
      rw [Out.bind_eq_ok] at hs; obtain ⟨b, _, hs⟩ := hs
      rw [Out.bind_eq_ok] at hs; obtain ⟨q, hq, hs⟩ := hs
      simp only [Out.ok.injEq, Prod.mk.injEq] at hs
      rw [← hs.1]; cases hq; rfl
    rw [this]
    exact ⟨_, v.log⟩
  | up a =>
    simp only [Cell.step] at h
    rw [Out.bind_eq_ok] at h; obtain ⟨r, hr, h⟩ := h
    cases h
    exact chain (up_chain (c' := r.1) (cs := r.2) hr).1
  | request q => exact ord h
  | voice t b => exact ord h
  | control m => exact ord h

theorem Proper.back {c c' : Cell} {e : CellEv} {o : CellOut} (h : c.step e = .ok (c', o)) (hp : Proper (c'.umac.log.map Prod.fst)) :
    Proper (c.umac.log.map Prod.fst) := by
  obtain ⟨l, hl⟩ := step_log h
  intro e he
  exact hp e (by rw [hl, List.map_append]; exact List.mem_append_left _ he)

/-- Voice waits only between its reception and the next slot of its timeslot which is no traffic. -/
structure Calm (i : Fin 4) (n : Int) (h : List (CellEv × CellOut)) (c : Cell) : Prop where
  clean : c.umac.sched.Clean i
  one : (c.umac.sched.circuits.txData i).length ≤ 1
  none : c.lmac.traffic i = true → (i = slot (n - 2) → Fresh h) → c.umac.sched.circuits.txData i = []

theorem slot_back (n : Int) : slot (n - 2) = slot (n + 2) := by
  apply Fin.ext; simp only [slot]; omega

theorem quiet_slots {e : CellEv} {o : CellOut} {h : List (CellEv × CellOut)} {c c' : Cell} (hst : c.step e = .ok (c', o)) (hd : ∀ w, e ≠ .down w) :
    slotsIn (callsOf (h ++ [(e, o)])) = slotsIn (callsOf h) := by
  rw [callsOf_append, slotsIn_append]
  have : slotsIn (callsOf [(e, o)]) = 0 := by
    have ord : ∀ {ev : UmacEv}, ev.isTick = false → c.order ev = .ok (c', o) → slotsIn (callsOf [(e, o)]) = 0 := by
      intro ev hev h
      obtain ⟨out, _, _, rfl⟩ := order_inv h
      simp [slotsIn, callsOf, hev]
    cases e with
    | down w => exact absurd rfl (hd w)
    | up a =>
      simp only [Cell.step] at hst
      rw [Out.bind_eq_ok] at hst; obtain ⟨r, hr, hst⟩ := hst
      cases hst
      obtain ⟨_, _, _, t, _, ht⟩ := up_chain (c' := r.1) (cs := r.2) hr
      simp only [slotsIn, callsOf, List.flatMap_cons, List.flatMap_nil, List.append_nil, List.countP_eq_zero]
      intro p hp
      rw [(ht p hp).1]; simp
    | request q => exact ord rfl hst
    | voice t b => exact ord rfl hst
    | control m => exact ord rfl hst
  omega

theorem calm_step (hx : x.valid) (hcfg : cfg.InRange) {i : Fin 4} {h : List (CellEv × CellOut)} {c c' : Cell}
    (hr : CellRun ⟨.init brew carrier x scramb wide (Precomps.generate cfg), .init code⟩ h c) {e : CellEv} {o : CellOut}
    (hst : c.step e = .ok (c', o)) (ht : Turns (h ++ [(e, o)])) (hp : Proper (c'.umac.log.map Prod.fst)) (hv : ∀ b, e ≠ .voice (i.val + 1) b)
    (hi : Calm i (x.toInt + slotsIn (callsOf h)) h c) : Calm i (x.toInt + slotsIn (callsOf (h ++ [(e, o)]))) (h ++ [(e, o)]) c' := by
  have ord : (∀ w, e ≠ .down w) → (∀ a, e ≠ .up a) → Calm i (x.toInt + slotsIn (callsOf (h ++ [(e, o)]))) (h ++ [(e, o)]) c' := by
    intro hd hu
    rw [quiet_slots hst hd]
    obtain ⟨l1, l2, l3, _⟩ := order_queue hst hd hu hv
    refine ⟨l3 hi.clean, ?_, fun htr hf => ?_⟩
    · rcases l2 with l2 | l2 <;> rw [l2]
      · exact hi.one
      · simp
    · rcases l2 with l2 | l2
      · rw [l2]
        exact hi.none (by rw [← l1]; exact htr) (fun h => (hf h).back hd)
      · exact l2
  cases e with
  | request q => exact ord (by simp) (by simp)
  | voice t b => exact ord (by simp) (by simp)
  | control m => exact ord (by simp) (by simp)
  | up a =>
    rw [quiet_slots hst (by simp)]
    simp only [Cell.step] at hst
    rw [Out.bind_eq_ok] at hst; obtain ⟨r, hr', hst⟩ := hst
    cases hst
    obtain ⟨hf, ha⟩ := ht.last
    obtain ⟨u1, u2, u3⟩ := up_queue hx hr hf ha (c' := r.1) (calls := r.2) hr' i
    rcases u3 with ⟨d, b, _, _, _, hj, htr, hq⟩ | ⟨_, hq⟩
    · have h0 := hi.none htr (fun _ => hf)
      rw [h0] at hq
      refine ⟨fun hn => ?_, ?_, fun _ hff => ?_⟩
      · rw [hq, if_neg]
        rw [u1] at hn; simp [hn]
      · rw [hq]; split <;> simp
      · exact absurd (hff hj) not_fresh
    · refine ⟨fun hn => by rw [hq]; exact hi.clean (by rw [← u1]; exact hn), by rw [hq]; exact hi.one, fun htr _ => ?_⟩
      rw [hq]
      exact hi.none (by rw [← u2]; exact htr) (fun _ => hf)
  | down w =>
    obtain ⟨y, b, hy, hb, S⟩ := down_slot hx hcfg hr hst hp
    have hn : slotsIn (callsOf (h ++ [(CellEv.down w, o)])) = slotsIn (callsOf h) + 1 := by
      rw [callsOf_append, slotsIn_append]
      obtain ⟨_, _, _, _, ho⟩ := down_inv hst
      simp [callsOf, ho, slotsIn, UmacEv.isTick]
    obtain ⟨s1, e1, e2, e3, hh, hc⟩ := S.made
    generalize hnn : x.toInt + (slotsIn (callsOf h) : Int) = n at *
    have hdl := S.dl
    by_cases his : i = slot (n + 2)
    · have htr := S.traffic
      have hcases : (c'.umac.sched.circuits.txData i = (c.umac.sched.circuits.txData i).tail) ∨
          (c'.umac.sched.circuits.txData i = c.umac.sched.circuits.txData i ∧ (y.slot.ulPhy = .tp → c.umac.sched.circuits.dl i = Option.none)) := by
        have phy := hh.phy
        rw [← his] at hc phy
        cases hc with
        | voice _ _ _ _ hv => left; rw [hv, Slots.upd_self, e1]
        | stolen _ _ _ _ _ _ _ hv => left; rw [hv, Slots.upd_self, e1]
        | signalling hf hn _ _ _ _ _ _ hv =>
          right
          refine ⟨by rw [hv, e1], fun ht => ?_⟩
          rcases hn with hn | hn
          · rw [e1] at hn; simpa using hn
          · rw [hn] at phy; simp [ht] at phy
        | hangIdle hf ho hh' _ _ _ hv =>
          right
          refine ⟨by rw [hv, e1], fun ht => ?_⟩
          rw [hh'] at phy; simp [ht] at phy
        | idleF _ _ ht1 _ _ _ hv =>
          right
          refine ⟨by rw [hv, e1], fun ht => ?_⟩
          have : i = 0 := by
            apply Fin.ext
            have := Slots.idx_ok.1 (idx_fromInt (n + 2))
            rw [← his] at this
            simp; omega
          rw [this, S.ok.dl0]
        | idleH _ _ ht1 _ _ _ _ _ hv =>
          right
          refine ⟨by rw [hv, e1], fun ht => ?_⟩
          have : i = 0 := by
            apply Fin.ext
            have := Slots.idx_ok.1 (idx_fromInt (n + 2))
            rw [← his] at this
            simp; omega
          rw [this, S.ok.dl0]
        | sync hn _ _ _ _ _ hv =>
          right
          refine ⟨by rw [hv, e1], fun ht => ?_⟩
          rcases hn with hn | hn
          · rw [hn] at phy; simp [ht] at phy
          · rw [e1] at hn; simpa using hn.2
      have hl := hi.one
      rcases hcases with hq | ⟨hq, hph⟩
      · have : c'.umac.sched.circuits.txData i = [] := by
          rw [hq]
          match hm : c.umac.sched.circuits.txData i with
          | [] => rfl
          | [_] => rfl
          | _ :: _ :: _ => rw [hm] at hl; simp at hl
        exact ⟨fun _ => this, by rw [this]; simp, fun _ _ => this⟩
      · refine ⟨fun hnone => by rw [hq]; exact hi.clean (by rw [← hdl]; exact hnone), by rw [hq]; exact hl, fun ht' _ => ?_⟩
        rw [hq]
        apply hi.clean
        apply hph
        rw [htr, his, Slots.upd_self] at ht'
        simpa using ht'
    · have hq : c'.umac.sched.circuits.txData i = c.umac.sched.circuits.txData i := by
        rcases slotCase_voice hc with ⟨hv, _⟩ | ⟨hv, _⟩
        · rw [hv, Slots.upd_ne _ _ his, e1]
        · rw [hv, e1]
      refine ⟨fun hnone => by rw [hq]; exact hi.clean (by rw [← hdl]; exact hnone), by rw [hq]; exact hi.one, fun ht' _ => ?_⟩
      rw [hq]
      rw [S.traffic, Slots.upd_ne _ _ his] at ht'
      exact hi.none ht' (fun h => absurd (h.trans (slot_back n)) his)

/-- Since the downlink of the timeslot was last switched, no voice for it has come from the network. -/
theorem calm (hx : x.valid) (hcfg : cfg.InRange) {i : Fin 4} {h0 h1 : List (CellEv × CellOut)} {m : MacCtl} {r : CellOut} {c : Cell}
    (hr : CellRun ⟨.init brew carrier x scramb wide (Precomps.generate cfg), .init code⟩ (h0 ++ (.control m, r) :: h1) c)
    (hm : m.switches (i.val + 1) = true) (ht : Turns (h0 ++ (.control m, r) :: h1)) (hp : Proper (c.umac.log.map Prod.fst))
    (hv : ∀ p ∈ h1, ∀ b, p.1 ≠ .voice (i.val + 1) b) :
    Calm i (x.toInt + slotsIn (callsOf (h0 ++ (.control m, r) :: h1))) (h0 ++ (.control m, r) :: h1) c := by
  generalize hh : h0 ++ (CellEv.control m, r) :: h1 = h at hr ht
  induction hr generalizing h1 with
  | init => simp at hh
  | @step h c c' e o hr' hst ih =>
    cases h1 using List.reverseRecOn with
    | nil =>
      obtain ⟨rfl, h2⟩ := List.append_inj' hh rfl
      cases h2
      obtain ⟨_, _, _, q, _⟩ := order_queue (i := i) hst (by simp) (by simp) (by simp)
      have := q hm
      exact ⟨fun _ => this, by rw [this]; simp, fun _ _ => this⟩
    | append_singleton l p _ =>
      rw [← List.cons_append, ← List.append_assoc] at hh
      obtain ⟨rfl, h2⟩ := List.append_inj' hh rfl
      cases h2
      exact calm_step hx hcfg hr' hst ht hp (hv (e, o) (by simp)) (ih (Proper.back hst hp) (fun p hp' => hv p (List.mem_append_left _ hp')) rfl ht.init)

end Verif.Phy
