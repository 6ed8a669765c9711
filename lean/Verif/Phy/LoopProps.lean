import Verif.Phy.Loop
import Verif.Phy.UplinkFindings
/-!
# C91: what one station says is what its group hears, one frame later
-/
namespace Verif.Phy
open Verif.Umac Verif.Tdma Verif.Codec Verif.ErrorControl Verif.Interleaver

/-! ## Specification -/

/-- The frames of voice which an event brings for timeslot `t`: one handed over by the layers above (from the network), or those
which the lower MAC heard on the air. -/
def said (t : Nat) : CellEv × CellOut → List (List Bool)
  | (.voice t' b, _) => if t' = t then [voiceBits (some b)] else []
  | (.up _, o) => o.calls.filterMap fun p => match p.1 with
    | .voiceUp t' d => if t' = t then some (d.map (· == 1)) else none
    | _ => none
  | _ => []

/-- The frames of voice sent on timeslot `t` at an event. -/
def heard (t : Nat) (p : CellEv × CellOut) : List (List Bool) :=
  (sentOf [p]).filterMap fun y => if y.ts.t = t then y.voice?.map (·.blk.bits) else none

/-- The frames which have been said and not yet sent after a history, if `q` were waiting before it. Each slot with voice takes one. -/
def backlog (t : Nat) : List (List Bool) → List (CellEv × CellOut) → List (List Bool)
  | q, [] => q
  | q, p :: h => backlog t ((q ++ said t p).drop (heard t p).length) h

variable {brew : Bool} {carrier : Nat} {x : Time} {scramb : Nat} {wide : Bool} {code : BitVec 32} {cfg : CellCfg}

/-! ## Lemmas -/

theorem backlog_append (t : Nat) : ∀ (a b : List (CellEv × CellOut)) (q : List (List Bool)), backlog t q (a ++ b) = backlog t (backlog t q a) b
  | [], _, _ => rfl
  | p :: a, b, q => by simp only [List.cons_append, backlog]; exact backlog_append t a b _

/-- While no voice is sent, what is said waits. -/
theorem backlog_quiet {t : Nat} : ∀ {h : List (CellEv × CellOut)} (q : List (List Bool)), (∀ p ∈ h, heard t p = []) →
    backlog t q h = q ++ h.flatMap (said t)
  | [], q, _ => by simp [backlog]
  | p :: h, q, hq => by
    simp only [backlog, hq p List.mem_cons_self, List.length_nil, List.drop_zero, List.flatMap_cons]
    rw [backlog_quiet _ (fun p hp => hq p (List.mem_cons_of_mem _ hp)), List.append_assoc]

/-- Reception: what is said is what the upper MAC is told. -/
theorem up_said (hx : x.valid) {pre : Precomps} {h : List (CellEv × CellOut)} {c c' : Cell}
    (hr : CellRun ⟨.init brew carrier x scramb wide pre, .init code⟩ h c) (hf : Fresh h) {a : Air} (ha : a.Sized) {calls : Calls}
    (hu : c.up a = .ok (c', calls)) (t : Nat) : (said t (.up a, ⟨calls, []⟩)).length ≤ 1 ∧
      (∀ d : List Bool, (.voiceUp t (d.map Bool.toNat)) ∈ calls.map Prod.fst → said t (.up a, ⟨calls, []⟩) = [d]) ∧
      ((∀ d, (.voiceUp t d) ∉ calls.map Prod.fst) → said t (.up a, ⟨calls, []⟩) = []) ∧ heard t (.up a, ⟨calls, []⟩) = [] := by
  obtain ⟨j, hj, f, v, rfl, hb, hv⟩ := up_voice hx hr hf ha hu
  have back : ∀ d : List Bool, (d.map Bool.toNat).map (· == 1) = d := fun d => by
    rw [List.map_map]
    conv => rhs; rw [← List.map_id d]
    apply List.map_congr_left
    intro b _; cases b <;> rfl
  have hf0 : (f.filterMap fun p => match p.1 with
    | .voiceUp t' d => if t' = t then some (d.map (· == 1)) else none
    | _ => none) = [] := by
    rw [List.filterMap_eq_nil_iff]
    intro p hp
    obtain ⟨k, d, e⟩ := hb p hp
    rw [e]
  have hfm : ∀ d, (.voiceUp t d) ∉ f.map Prod.fst := by
    intro d hm
    obtain ⟨p, hp, he⟩ := List.mem_map.1 hm
    obtain ⟨k, d', e⟩ := hb p hp
    rw [he] at e; cases e
  have h1 : (said t (.up a, ⟨f ++ v, []⟩)).length ≤ 1 := by
    simp only [said, List.filterMap_append, hf0, List.nil_append]
    refine (List.length_filterMap_le _ _).trans ?_
    rcases hv with rfl | ⟨_, d, out, _, rfl⟩ <;> simp
  refine ⟨h1, fun d hd => ?_, fun hn => ?_, ?_⟩
  · have : d ∈ said t (.up a, ⟨f ++ v, []⟩) := by
      simp only [said]
      obtain ⟨p, hp, he⟩ := List.mem_map.1 hd
      rw [List.mem_filterMap]
      exact ⟨p, hp, by rw [he]; simp [back d]⟩
    match hs : said t (.up a, ⟨f ++ v, []⟩) with
    | [] => rw [hs] at this; cases this
    | [d'] => rw [hs] at this; simp at this; rw [this]
    | _ :: _ :: _ => rw [hs] at h1; simp at h1
  · simp only [said]
    rw [List.filterMap_eq_nil_iff]
    intro p hp
    cases he : p.1 with
    | voiceUp t' d =>
      simp only
      rw [if_neg]
      rintro rfl
      exact hn d (List.mem_map.2 ⟨p, hp, he⟩)
    | _ => rfl
  · obtain ⟨hc, _, _, _, _, ht⟩ := up_chain hu
    have : sentOf [(CellEv.up a, (⟨f ++ v, []⟩ : CellOut))] = [] := by
      simp only [sentOf, callsOf, List.flatMap_cons, List.flatMap_nil, List.append_nil]
      have key : ∀ {cs : Calls} {s s' : UmacBs}, Chain s cs s' → (∀ p ∈ cs, p.1.isTick = false) → (cs.flatMap fun p => slotsOut p.2) = [] := by
        intro cs
        induction cs with
        | nil => intros; rfl
        | cons p cs ih =>
          rintro s s' ⟨s1, h1, h2⟩ hq
          simp only [List.flatMap_cons]
          rw [step_slots h1 (hq p List.mem_cons_self), ih h2 (fun p hp => hq p (List.mem_cons_of_mem _ hp))]
          rfl
      exact key hc (fun p hp => (ht p hp).1)
    simp [heard, this]

/-- Voice from the network for the timeslot. -/
theorem voice_queue {c c' : Cell} {i : Fin 4} {b : Block} {o : CellOut} (hst : c.step (.voice (i.val + 1) b) = .ok (c', o)) :
    c'.umac.sched.circuits.dl i = c.umac.sched.circuits.dl i ∧ sentOf [(.voice (i.val + 1) b, o)] = [] ∧
    c'.umac.sched.circuits.txData i = (if (c.umac.sched.circuits.dl i).isSome then c.umac.sched.circuits.txData i ++ [b] else c.umac.sched.circuits.txData i) := by
  obtain ⟨out, hs, _, rfl⟩ := order_inv (ev := .voiceDown (i.val + 1) b) hst
  have hslots := step_slots hs rfl
  simp only [UmacBs.step] at hs
  rw [Out.bind_eq_ok] at hs; obtain ⟨s1, hs, h2⟩ := hs
  simp only [Out.ok.injEq, Prod.mk.injEq] at h2
  rw [← h2.1]
  rw [UmacBs.voiceDown, Out.bind_eq_ok] at hs; obtain ⟨dl, hdl, hs⟩ := hs
  rw [Out.bind_eq_ok] at hs; obtain ⟨ul, hul, hs⟩ := hs
  rw [Out.ofRes_eq_ok] at hdl
  simp only [CircuitMgr.isActive, Slots.idx_succ, Res.bind_ok, Res.ok.injEq] at hdl
  have hs1 : (if ul = true then c.umac.heard (i.val + 1) (some c.umac.now) else c.umac).sched = c.umac.sched := by
    split
    · exact heard_sched ..
    · rfl
  have hsent : sentOf [(CellEv.voice (i.val + 1) b, (⟨[(.voiceDown (i.val + 1) b, out)], []⟩ : CellOut))] = [] := by
    simpa [sentOf, callsOf] using hslots
  subst hdl
  cases ho : (c.umac.sched.circuits.dl i).isSome with
  | false =>
    simp only [ho, Bool.false_eq_true, if_false, Out.ok.injEq] at hs
    rw [← hs, hs1]
    exact ⟨rfl, hsent, by simp⟩
  | true =>
    simp only [ho, if_true] at hs
    rw [Out.bind_eq_ok] at hs; obtain ⟨q, hq, hs⟩ := hs
    simp only [Out.ok.injEq] at hs
    rw [← hs]
    unfold UmacBs.call at hq
    rw [Out.bind_eq_ok] at hq; obtain ⟨q', hq', hq⟩ := hq
    simp only [Out.ok.injEq] at hq
    rw [← hq]
    rw [hs1] at hq'
    simp only [Sched.step, CircuitMgr.putBlock, Slots.idx_succ, Res.bind_ok, ho, if_true, Out.ofRes_ok, Out.bind_ok, Out.ok.injEq] at hq'
    rw [← hq']
    exact ⟨rfl, hsent, by simp only [Slots.upd_self, if_true]⟩

/-- The frames waiting in a cell. -/
def Cell.waiting (c : Cell) (i : Fin 4) : List (List Bool) := (c.umac.sched.circuits.txData i).map fun b => voiceBits (some b)

theorem heard_down {w : Bool} {o : CellOut} {y : TickOut} (hy : sentOf [(.down w, o)] = [y.slot]) (t : Nat) :
    heard t (.down w, o) = if y.slot.ts.t = t then (y.slot.voice?.map (·.blk.bits)).toList else [] := by
  simp only [heard, hy, List.filterMap_cons, List.filterMap_nil]
  by_cases ht : y.slot.ts.t = t
  · simp only [ht, if_true]; cases y.slot.voice? <;> rfl
  · simp [ht]

/-- One event while a circuit is open. -/
theorem step_backlog (hx : x.valid) (hcfg : cfg.InRange) {i : Fin 4} {h : List (CellEv × CellOut)} {c c' : Cell}
    (hr : CellRun ⟨.init brew carrier x scramb wide (Precomps.generate cfg), .init code⟩ h c) {e : CellEv} {o : CellOut}
    (hst : c.step e = .ok (c', o)) (ht : Turns (h ++ [(e, o)])) (hp : Proper (c'.umac.log.map Prod.fst)) (hs : e.switches (i.val + 1) = false)
    (ho : (c.umac.sched.circuits.dl i).isSome = true) :
    (c'.umac.sched.circuits.dl i).isSome = true ∧
    c'.waiting i = (c.waiting i ++ said (i.val + 1) (e, o)).drop (heard (i.val + 1) (e, o)).length ∧
    ∀ v ∈ heard (i.val + 1) (e, o), v = (c.waiting i).headD [] := by
  have ord : (∀ w, e ≠ .down w) → (∀ a, e ≠ .up a) → (∀ b, e ≠ .voice (i.val + 1) b) → said (i.val + 1) (e, o) = [] →
      (c'.umac.sched.circuits.dl i).isSome = true ∧
      c'.waiting i = (c.waiting i ++ said (i.val + 1) (e, o)).drop (heard (i.val + 1) (e, o)).length ∧
      ∀ v ∈ heard (i.val + 1) (e, o), v = (c.waiting i).headD [] := by
    intro hd hu hv hsaid
    obtain ⟨_, _, _, _, q, hsent⟩ := order_queue hst hd hu hv
    obtain ⟨q1, q2⟩ := q hs
    rw [q2]
    refine ⟨ho, ?_, ?_⟩
    · simp [Cell.waiting, q1, hsaid, heard, hsent]
    · simp [heard, hsent]
  cases e with
  | request q => exact ord (by simp) (by simp) (by simp) rfl
  | control m => exact ord (by simp) (by simp) (by simp) rfl
  | voice t b =>
    by_cases ht' : t = i.val + 1
    · subst ht'
      obtain ⟨v1, v2, v3⟩ := voice_queue hst
      rw [v1]
      refine ⟨ho, ?_, ?_⟩
      · simp [Cell.waiting, v3, ho, said, heard, v2]
      · simp [heard, v2]
    · exact ord (by simp) (by simp) (by simp [ht']) (by simp [said, ht'])
  | up a =>
    simp only [Cell.step] at hst
    rw [Out.bind_eq_ok] at hst; obtain ⟨r, hr', hst⟩ := hst
    cases hst
    obtain ⟨hf, ha⟩ := ht.last
    obtain ⟨u1, u2, u3⟩ := up_queue hx hr hf ha (c' := r.1) (calls := r.2) hr' i
    obtain ⟨_, w2, w3, w4⟩ := up_said hx hr hf ha (c' := r.1) (calls := r.2) hr' (i.val + 1)
    rw [u1]
    refine ⟨ho, ?_, by simp [w4]⟩
    rw [w4]
    rcases u3 with ⟨d, b, hm, _, hb, _, _, hq⟩ | ⟨hn, hq⟩
    · rw [w2 d hm]
      simp [Cell.waiting, hq, ho, hb]
    · rw [w3 hn]
      simp [Cell.waiting, hq]
  | down w =>
    obtain ⟨y, b, hy, hb, S⟩ := down_slot hx hcfg hr hst hp
    obtain ⟨s1, e1, e2, e3, hh, hc⟩ := S.made
    rw [heard_down hy]
    have hts := Slots.idx_ok.1 (idx_fromInt (x.toInt + slotsIn (callsOf h) + 2))
    rw [← S.time] at hts
    rw [S.dl]
    refine ⟨ho, ?_⟩
    simp only [said, List.append_nil]
    by_cases hi : i = slot (x.toInt + slotsIn (callsOf h) + 2)
    · subst hi
      rw [if_pos hts]
      rcases slotCase_voice hc with ⟨hv, r, hr1, hr2⟩ | ⟨hv, hn⟩
      · rw [hr1, e1] at *
        constructor
        · simp [Cell.waiting, hv]
        · simp only [Option.map_some, Option.toList_some, List.mem_singleton, forall_eq, hr2, Cell.waiting]
          cases c.umac.sched.circuits.txData (slot (x.toInt + slotsIn (callsOf h) + 2)) <;> rfl
      · simp [hn, Cell.waiting, hv, e1]
    · have hq : c'.umac.sched.circuits.txData i = c.umac.sched.circuits.txData i := by
        rcases slotCase_voice hc with ⟨hv, _⟩ | ⟨hv, _⟩
        · rw [hv, Slots.upd_ne _ _ hi, e1]
        · rw [hv, e1]
      rw [if_neg (fun h => hi (Fin.ext (by omega)))]
      simp [Cell.waiting, hq]

/-- The circuit has been opened and not switched since: what waits is what has been said and not sent. -/
theorem waiting_eq (hx : x.valid) (hcfg : cfg.InRange) {i : Fin 4} {k : Circuit} (hk : k.ts = i.val + 1) (hd : k.direction = .dl ∨ k.direction = .both)
    {h0 h1 : List (CellEv × CellOut)} {r : CellOut} {c : Cell}
    (hr : CellRun ⟨.init brew carrier x scramb wide (Precomps.generate cfg), .init code⟩ (h0 ++ (.control (.open k), r) :: h1) c)
    (ht : Turns (h0 ++ (.control (.open k), r) :: h1)) (hp : Proper (c.umac.log.map Prod.fst))
    (hs : ∀ p ∈ h1, p.1.switches (i.val + 1) = false) :
    (c.umac.sched.circuits.dl i).isSome = true ∧ c.waiting i = backlog (i.val + 1) [] h1 := by
  generalize hh : h0 ++ (CellEv.control (.open k), r) :: h1 = h at hr ht
  induction hr generalizing h1 with
  | init => simp at hh
  | @step h c c' e o hr' hst ih =>
    cases h1 using List.reverseRecOn with
    | nil =>
      obtain ⟨rfl, h2⟩ := List.append_inj' hh rfl
      simp only [List.cons.injEq, Prod.mk.injEq, and_true] at h2
      obtain ⟨rfl, rfl⟩ := h2
      obtain ⟨_, _, _, q, _⟩ := order_queue (i := i) hst (by simp) (by simp) (by simp)
      have hq := q (by simp [CellEv.switches, MacCtl.switches, hk, hd])
      have kn := cell_known hx (hr'.step hst)
      obtain ⟨o1, _⟩ := run_ordered hx kn.run kn.time.timed i
      obtain ⟨out, _, _, rfl⟩ := order_inv (ev := .control (.open k)) hst
      refine ⟨?_, by simp [Cell.waiting, hq, backlog]⟩
      rw [o1, callsOf_append]
      simp [orders, callsOf, circuitBy, UmacEv.order, List.foldl_append, ordered, hk, hd]
    | append_singleton l p _ =>
      rw [← List.cons_append, ← List.append_assoc] at hh
      obtain ⟨rfl, h2⟩ := List.append_inj' hh rfl
      simp only [List.cons.injEq, and_true] at h2
      subst h2
      obtain ⟨i1, i2⟩ := ih (Proper.back hst hp) (fun p hp' => hs p (List.mem_append_left _ hp')) rfl ht.init
      obtain ⟨s1, s2, _⟩ := step_backlog hx hcfg hr' hst ht hp (hs (e, o) (by simp)) i1
      refine ⟨s1, ?_⟩
      rw [s2, i2, backlog_append]
      rfl

/-- An event in the middle of a history. -/
theorem run_middle {c0 c : Cell} {h1 h2 : List (CellEv × CellOut)} {e : CellEv} {o : CellOut} (hr : CellRun c0 (h1 ++ (e, o) :: h2) c) :
    ∃ c1 c2, CellRun c0 h1 c1 ∧ c1.step e = .ok (c2, o) ∧ CellRun c0 (h1 ++ [(e, o)]) c2 ∧ ∃ l, c.umac.log = c2.umac.log ++ l := by
  rw [show h1 ++ (e, o) :: h2 = (h1 ++ [(e, o)]) ++ h2 by simp] at hr
  obtain ⟨c2, r2, g⟩ := hr.append_inv
  have hl := g (fun c => ∃ l, c.umac.log = c2.umac.log ++ l) ⟨[], by simp⟩ (fun a b e o _ hs ⟨l, hl⟩ => by
    obtain ⟨l', hl'⟩ := step_log hs
    exact ⟨l ++ l', by rw [hl', hl, List.append_assoc]⟩)
  generalize hh : h1 ++ [(e, o)] = h at r2
  cases r2 with
  | init => simp at hh
  | @step h c1 _ e' o' hr' hst =>
    obtain ⟨rfl, h2⟩ := List.append_inj' hh rfl
    simp only [List.cons.injEq, Prod.mk.injEq, and_true] at h2
    obtain ⟨rfl, rfl⟩ := h2
    exact ⟨c1, c2, hr', hst, hr'.step hst, hl⟩

theorem Turns.part {h1 h2 : List (CellEv × CellOut)} (ht : Turns (h1 ++ h2)) : Turns h1 := by
  intro a b o c e
  exact ht a b o (c ++ h2) (by rw [e]; simp)

/-- A burst with voice, on the air. -/
theorem voice_on_air (hx : x.valid) (hcfg : cfg.InRange) {h : List (CellEv × CellOut)} {c c' : Cell}
    (hr : CellRun ⟨.init brew carrier x scramb wide (Precomps.generate cfg), .init code⟩ h c) {w : Bool} {o : CellOut}
    (hst : c.step (.down w) = .ok (c', o)) (hp : Proper (c'.umac.log.map Prod.fst)) {t : Nat} {v : List Bool} (hv : v ∈ heard t (.down w, o))
    (hl : v.length = 274) : ∃ b, o.bursts = [b] ∧
    ((decodeTp (fullOf b) (BitVec.ofNat 32 scramb) = .ok (v, true) ∧ ∀ rx, FullNear rx b → findDl rx = .ok (some ⟨.norm1, rx⟩) ∧
        ∃ out chIn chOut, decodeTp (fullOf rx) (BitVec.ofNat 32 scramb) = .ok (out, true) ∧
        codecToChannel v = .ok chIn ∧ codecToChannel out = .ok chOut ∧
        chOut.drop 102 = chIn.drop 102 ∧ ∃ p, ∀ i, i < 102 → i ≠ p → chOut[i]? = chIn[i]?) ∨
      (∃ t, encodeTp v (BitVec.ofNat 32 scramb) 1 = .ok t ∧ field b 282 216 = t.drop 216)) := by
  obtain ⟨y, b, hy, hb, S⟩ := down_slot hx hcfg hr hst hp
  obtain ⟨s1, e1, e2, e3, hh, hc⟩ := S.made
  obtain ⟨es, hpr, hB⟩ := S.built
  refine ⟨b, hb, ?_⟩
  rw [heard_down hy] at hv
  split at hv
  · simp only [Option.mem_toList, Option.map_eq_some_iff] at hv
    obtain ⟨r, hr1, hr2⟩ := hv
    have wh : ∀ q : Umac.Blk, q.cap = 274 → q.bits = v → whole q = v := by
      intro q h1 h2
      simp [whole, h1, h2, hl]
    cases hc with
    | voice _ _ _ _ _ hb1 hb2 =>
      left
      have hr3 : y.slot.blk1 = r := by simpa [DlSlot.voice?, hb1] using hr1
      have hw := wh y.slot.blk1.blk (by rw [hb1]) (by rw [hr3]; exact hr2)
      obtain ⟨g1, g2⟩ := c65_voice cfg hcfg scramb x hx es hpr y hB (by rw [hb1]) b S.sent
      rw [hw] at g1
      refine ⟨g1, fun rx hrx => ?_⟩
      obtain ⟨k1, k2, _⟩ := g2 rx hrx
      rw [hw] at k2
      exact ⟨k1, k2⟩
    | stolen _ _ _ q o' ql _ _ hb1 hb2 =>
      right
      obtain ⟨⟨r', t', h1, h2, h3⟩, _⟩ := c65_stolen cfg hcfg scramb x hx es hpr y hB (by rw [hb1]) b S.sent
      have hr3 : r' = r := by
        simp only [DlSlot.voice?, hb1, h1] at hr1
        have hc : r'.chan = .tchS := by rw [hb2] at h1; cases h1; rfl
        simpa [hc] using hr1
      subst hr3
      have hw := wh r'.blk (by rw [hb2] at h1; cases h1; rfl) hr2
      rw [hw] at h2
      exact ⟨t', h2, h3⟩
    | signalling _ _ hc _ _ _ _ hb2 => simp [DlSlot.voice?, hc, hb2] at hr1
    | hangIdle _ _ _ hb hb2 => simp [DlSlot.voice?, hb, hb2] at hr1
    | idleF _ _ _ hb hb2 => simp [DlSlot.voice?, hb, hb2] at hr1
    | idleH _ _ _ hb r' hb2 hr => simp [DlSlot.voice?, hb, hb2, hr.1] at hr1
    | sync _ hs r' hb2 hr => simp [DlSlot.voice?, hs.1, hb2, hr.1] at hr1
  · cases hv

/-! ## C91 -/

/-- **C91, order.** While a circuit is open, every frame of voice sent on its timeslot is the oldest one which was said since the
opening and is not sent yet, by whomever: those heard on the air and those from the network are sent in the order in which they
came. If there is none, silence is sent. -/
theorem c91_order (hx : x.valid) (hcfg : cfg.InRange) {i : Fin 4} {k : Circuit} (hk : k.ts = i.val + 1) (hd : k.direction = .dl ∨ k.direction = .both)
    {h0 h1 : List (CellEv × CellOut)} {r : CellOut} {p : CellEv × CellOut} {c : Cell}
    (hr : CellRun ⟨.init brew carrier x scramb wide (Precomps.generate cfg), .init code⟩ (h0 ++ (.control (.open k), r) :: h1 ++ [p]) c)
    (ht : Turns (h0 ++ (.control (.open k), r) :: h1 ++ [p])) (hp : Proper (c.umac.log.map Prod.fst))
    (hs : ∀ p ∈ h1, p.1.switches (i.val + 1) = false) :
    ∀ v ∈ heard (i.val + 1) p, v = (backlog (i.val + 1) [] h1).headD [] := by
  obtain ⟨e, o⟩ := p
  generalize hh : h0 ++ (CellEv.control (.open k), r) :: h1 ++ [(e, o)] = h at hr
  cases hr with
  | init => simp at hh
  | @step h c _ e' o' hr' hst =>
    obtain ⟨rfl, h2⟩ := List.append_inj' hh rfl
    simp only [List.cons.injEq, Prod.mk.injEq, and_true] at h2
    obtain ⟨rfl, rfl⟩ := h2
    obtain ⟨i1, i2⟩ := waiting_eq hx hcfg hk hd hr' ht.init (Proper.back hst hp) hs
    cases hsw : e.switches (i.val + 1) with
    | false =>
      obtain ⟨_, _, s3⟩ := step_backlog hx hcfg hr' hst ht hp hsw i1
      rw [← i2]
      exact s3
    | true =>
      cases e with
      | control m =>
        obtain ⟨_, _, _, _, _, hsent⟩ := order_queue (i := i) hst (by simp) (by simp) (by simp)
        simp [heard, hsent]
      | _ => cases hsw

/-- **C91, no backlog.** In a call in which only stations of the cell speak, at most one frame waits. -/
theorem c91_no_backlog (hx : x.valid) (hcfg : cfg.InRange) {i : Fin 4} {k : Circuit} (hk : k.ts = i.val + 1) (hd : k.direction = .dl ∨ k.direction = .both)
    {h0 h1 : List (CellEv × CellOut)} {r : CellOut} {c : Cell}
    (hr : CellRun ⟨.init brew carrier x scramb wide (Precomps.generate cfg), .init code⟩ (h0 ++ (.control (.open k), r) :: h1) c)
    (ht : Turns (h0 ++ (.control (.open k), r) :: h1)) (hp : Proper (c.umac.log.map Prod.fst))
    (hs : ∀ p ∈ h1, p.1.switches (i.val + 1) = false) (hv : ∀ p ∈ h1, ∀ b, p.1 ≠ .voice (i.val + 1) b) :
    (backlog (i.val + 1) [] h1).length ≤ 1 := by
  obtain ⟨_, i2⟩ := waiting_eq hx hcfg hk hd hr ht hp hs
  have := (calm hx hcfg hr (by simp [MacCtl.switches, hk, hd]) ht hp hv).one
  rw [← i2, Cell.waiting, List.length_map]
  exact this

/-- **C91, a frame said is the next one heard.** In a call in which only stations of the cell speak, a frame of voice which the cell
has heard is what the next slot with voice on the timeslot carries, whatever else happens in between. -/
theorem c91_said (hx : x.valid) (hcfg : cfg.InRange) {i : Fin 4} {k : Circuit} (hk : k.ts = i.val + 1) (hd : k.direction = .dl ∨ k.direction = .both)
    {h0 h1 h2 : List (CellEv × CellOut)} {r u : CellOut} {a : Air} {p : CellEv × CellOut} {c : Cell}
    (hr : CellRun ⟨.init brew carrier x scramb wide (Precomps.generate cfg), .init code⟩
      (h0 ++ (.control (.open k), r) :: (h1 ++ (.up a, u) :: h2) ++ [p]) c)
    (ht : Turns (h0 ++ (.control (.open k), r) :: (h1 ++ (.up a, u) :: h2) ++ [p])) (hp : Proper (c.umac.log.map Prod.fst))
    (hs : ∀ p ∈ h1 ++ h2, p.1.switches (i.val + 1) = false) (hv : ∀ p ∈ h1, ∀ b, p.1 ≠ .voice (i.val + 1) b)
    {m : List Bool} (hm : (.voiceUp (i.val + 1) (m.map Bool.toNat)) ∈ u.calls.map Prod.fst)
    (hq : ∀ p ∈ h2, heard (i.val + 1) p = []) : ∀ v ∈ heard (i.val + 1) p, v = m := by
  intro v hvv
  have hs' : ∀ p ∈ h1 ++ (.up a, u) :: h2, p.1.switches (i.val + 1) = false := by
    intro p hp'
    simp only [List.mem_append, List.mem_cons] at hp'
    rcases hp' with h | rfl | h
    · exact hs p (List.mem_append_left _ h)
    · rfl
    · exact hs p (List.mem_append_right _ h)
  rw [c91_order hx hcfg hk hd hr ht hp hs' v hvv, backlog_append]
  have e : h0 ++ (CellEv.control (.open k), r) :: (h1 ++ (CellEv.up a, u) :: h2) ++ [p] =
      (h0 ++ (CellEv.control (.open k), r) :: h1) ++ (CellEv.up a, u) :: (h2 ++ [p]) := by simp
  rw [e] at hr ht
  obtain ⟨c1, c2, r1, st, r2, l, hl⟩ := run_middle hr
  obtain ⟨hf, ha⟩ := ht _ _ _ _ rfl
  have hp2 : Proper (c2.umac.log.map Prod.fst) := fun e he => hp e (by rw [hl, List.map_append]; exact List.mem_append_left _ he)
  have hp1 := Proper.back st hp2
  obtain ⟨_, w⟩ := waiting_eq hx hcfg hk hd r1 ht.part hp1 (fun p hp' => hs p (List.mem_append_left _ hp'))
  have hcalm := calm hx hcfg r1 (by simp [MacCtl.switches, hk, hd]) ht.part hp1 hv
  simp only [Cell.step] at st
  rw [Out.bind_eq_ok] at st; obtain ⟨q, hu, st⟩ := st
  simp only [Out.ok.injEq, Prod.mk.injEq] at st
  obtain ⟨rfl, rfl⟩ := st
  obtain ⟨_, _, u3⟩ := up_queue hx r1 hf ha (c' := q.1) (calls := q.2) hu i
  obtain ⟨_, s2, _, s4⟩ := up_said hx r1 hf ha (c' := q.1) (calls := q.2) hu (i.val + 1)
  have htr : c1.lmac.traffic i = true := by
    rcases u3 with ⟨_, _, _, _, _, _, h, _⟩ | ⟨h, _⟩
    · exact h
    · exact absurd hm (h _)
  have h0 := hcalm.none htr (fun _ => hf)
  have hb : backlog (i.val + 1) [] h1 = [] := by rw [← w, Cell.waiting, h0]; rfl
  simp only [backlog, hb, s2 m hm, s4, List.nil_append, List.length_nil, List.drop_zero]
  rw [backlog_quiet _ hq]
  rfl

/-- **C91, from station to station.** Of a station which speaks: its burst with the frame of voice `m` is received without error, in a
slot which the cell has given it for traffic. Then the next slot with voice on the same timeslot carries `m`: every station which
receives it decodes `m` (with single bit errors, the protected bits of `m`), and if the first half of the slot is stolen, the second
half is that of the frame `m`. -/
theorem c91_air (hx : x.valid) (hcfg : cfg.InRange) {i : Fin 4} {k : Circuit} (hk : k.ts = i.val + 1) (hd : k.direction = .dl ∨ k.direction = .both)
    {h0 h1 h2 : List (CellEv × CellOut)} {r u : CellOut} {a : Air} {w : Bool} {o : CellOut} {c : Cell}
    (hr : CellRun ⟨.init brew carrier x scramb wide (Precomps.generate cfg), .init code⟩
      (h0 ++ (.control (.open k), r) :: (h1 ++ (.up a, u) :: h2) ++ [(.down w, o)]) c)
    (ht : Turns (h0 ++ (.control (.open k), r) :: (h1 ++ (.up a, u) :: h2) ++ [(.down w, o)])) (hp : Proper (c.umac.log.map Prod.fst))
    (hs : ∀ p ∈ h1 ++ h2, p.1.switches (i.val + 1) = false) (hv : ∀ p ∈ h1, ∀ b, p.1 ≠ .voice (i.val + 1) b)
    {l : List DlSlot} {y0 y1 y2 y3 : DlSlot} (hl : sentOf (h0 ++ (.control (.open k), r) :: h1) = l ++ [y0, y1, y2, y3])
    (hphy : y0.ulPhy = .tp) (hts : y0.ts.t = i.val + 1) {j : Nat} (S : Spot a.full seqN 220 48 j) {m t : List Bool} (hm : m.length = 274)
    (hcode : encodeTp m code 1 = .ok t) (hair : normHalf1 a.full j ++ normHalf2 a.full j = t)
    (hq : ∀ p ∈ h2, heard (i.val + 1) p = []) (hnext : heard (i.val + 1) (.down w, o) ≠ []) :
    heard (i.val + 1) (.down w, o) = [m] ∧ ∃ b, o.bursts = [b] ∧
    ((decodeTp (fullOf b) (BitVec.ofNat 32 scramb) = .ok (m, true) ∧ ∀ rx, FullNear rx b → findDl rx = .ok (some ⟨.norm1, rx⟩) ∧
        ∃ out chIn chOut, decodeTp (fullOf rx) (BitVec.ofNat 32 scramb) = .ok (out, true) ∧
        codecToChannel m = .ok chIn ∧ codecToChannel out = .ok chOut ∧
        chOut.drop 102 = chIn.drop 102 ∧ ∃ p, ∀ i, i < 102 → i ≠ p → chOut[i]? = chIn[i]?) ∨
      (∃ t, encodeTp m (BitVec.ofNat 32 scramb) 1 = .ok t ∧ field b 282 216 = t.drop 216)) := by
  have e : h0 ++ (CellEv.control (.open k), r) :: (h1 ++ (CellEv.up a, u) :: h2) ++ [(CellEv.down w, o)] =
      (h0 ++ (CellEv.control (.open k), r) :: h1) ++ (CellEv.up a, u) :: (h2 ++ [(CellEv.down w, o)]) := by simp
  have hmem : (.voiceUp (i.val + 1) (m.map Bool.toNat)) ∈ u.calls.map Prod.fst := by
    rw [e] at hr ht
    obtain ⟨c1, c2, r1, st, _⟩ := run_middle hr
    obtain ⟨hf, ha⟩ := ht _ _ _ _ rfl
    simp only [Cell.step] at st
    rw [Out.bind_eq_ok] at st; obtain ⟨q, hu, st⟩ := st
    simp only [Out.ok.injEq, Prod.mk.injEq] at st
    obtain ⟨rfl, rfl⟩ := st
    rw [← hts]
    exact (c67_voice hx r1 hf hl ha (c' := q.1) (calls := q.2) hu hphy S hm hcode).1 hair
  have hall := c91_said hx hcfg hk hd hr ht hp hs hv hmem hq
  obtain ⟨cl, c', r1, st, _, l', hl'⟩ := run_middle (h2 := []) hr
  have hp' : Proper (c'.umac.log.map Prod.fst) := fun e he => hp e (by rw [hl', List.map_append]; exact List.mem_append_left _ he)
  obtain ⟨y, b, hy, hb, _⟩ := down_slot hx hcfg r1 st hp'
  have hone : heard (i.val + 1) (.down w, o) = [m] := by
    rw [heard_down hy] at hall hnext ⊢
    split at hall <;> rename_i hh
    · rw [if_pos hh] at hnext ⊢
      cases hvv : y.slot.voice?.map (·.blk.bits) with
      | none => rw [hvv] at hnext; exact absurd rfl hnext
      | some v => rw [hvv] at hall; rw [hall v (by simp)]; rfl
    · rw [if_neg hh] at hnext; exact absurd rfl hnext
  exact ⟨hone, voice_on_air hx hcfg r1 st hp' (t := i.val + 1) (by rw [hone]; simp) hm⟩

theorem sent_one {c c' : Cell} {e : CellEv} {o : CellOut} {pre : Precomps} (hx : x.valid) {h : List (CellEv × CellOut)}
    (hr : CellRun ⟨.init brew carrier x scramb wide pre, .init code⟩ h c) (hst : c.step e = .ok (c', o)) : (sentOf [(e, o)]).length ≤ 1 := by
  have k := cell_known hx hr
  have k' := cell_known hx (hr.step hst)
  have e1 := k.count
  have e2 := k'.count
  rw [sentOf_append, List.length_append] at e2
  by_cases hd : ∃ w, e = .down w
  · obtain ⟨w, rfl⟩ := hd
    rw [callsOf_append, slotsIn_append] at e2
    obtain ⟨_, _, _, _, ho⟩ := down_inv hst
    have : slotsIn (callsOf [(CellEv.down w, o)]) = 1 := by simp [callsOf, ho, slotsIn, UmacEv.isTick]
    omega
  · rw [quiet_slots hst (fun w hw => hd ⟨w, hw⟩)] at e2
    omega

/-- What waits, after some of it has been sent. -/
theorem backlog_rest (t : Nat) : ∀ (h : List (CellEv × CellOut)) (q : List (List Bool)), (h.flatMap (heard t)).length ≤ q.length →
    ∃ l, backlog t q h = q.drop (h.flatMap (heard t)).length ++ l
  | [], q, _ => ⟨[], by simp [backlog]⟩
  | p :: h, q, hl => by
    simp only [List.flatMap_cons, List.length_append] at hl
    have e : (q ++ said t p).drop (heard t p).length = q.drop (heard t p).length ++ said t p := List.drop_append_of_le_length (by omega)
    obtain ⟨l, hl'⟩ := backlog_rest t h ((q ++ said t p).drop (heard t p).length) (by rw [e]; simp only [List.length_append, List.length_drop]; omega)
    refine ⟨said t p ++ l, ?_⟩
    simp only [backlog, List.flatMap_cons, List.length_append]
    rw [hl', e, List.drop_append_of_le_length (by simp only [List.length_drop]; omega), List.drop_drop]
    simp

/-- **C91, the delay.** While a circuit is open, a frame behind `j` others is the one sent in the `j + 1`st slot with voice: nothing
which waits is ever skipped, so every frame which waits delays all that is said after it. -/
theorem c91_nth (hx : x.valid) (hcfg : cfg.InRange) {i : Fin 4} {k : Circuit} (hk : k.ts = i.val + 1) (hd : k.direction = .dl ∨ k.direction = .both)
    {h0 h1 h2 : List (CellEv × CellOut)} {r : CellOut} {c : Cell}
    (hr : CellRun ⟨.init brew carrier x scramb wide (Precomps.generate cfg), .init code⟩ (h0 ++ (.control (.open k), r) :: (h1 ++ h2)) c)
    (ht : Turns (h0 ++ (.control (.open k), r) :: (h1 ++ h2))) (hp : Proper (c.umac.log.map Prod.fst))
    (hs : ∀ p ∈ h1 ++ h2, p.1.switches (i.val + 1) = false) (j : Nat) (q v : List Bool)
    (hq : (backlog (i.val + 1) [] h1)[j]? = some q) (hv : (h2.flatMap (heard (i.val + 1)))[j]? = some v) : v = q := by
  induction h2 using List.reverseRecOn generalizing c with
  | nil => simp at hv
  | append_singleton l p ih =>
    have e : h0 ++ (CellEv.control (.open k), r) :: (h1 ++ (l ++ [p])) = (h0 ++ (CellEv.control (.open k), r) :: (h1 ++ l)) ++ (p.1, p.2) :: [] := by simp
    rw [e] at hr ht
    obtain ⟨c1, c2, r1, st, r2, l', hl'⟩ := run_middle hr
    have hp2 : Proper (c2.umac.log.map Prod.fst) := fun e he => hp e (by rw [hl', List.map_append]; exact List.mem_append_left _ he)
    have hs' : ∀ p ∈ h1 ++ l, p.1.switches (i.val + 1) = false := fun p hp' => hs p (by
      simp only [List.mem_append] at hp' ⊢
      rcases hp' with h | h
      · exact .inl h
      · exact .inr (.inl h))
    rw [List.flatMap_append, List.getElem?_append] at hv
    split at hv
    · exact ih r1 ht.part (Proper.back st hp2) hs' hv
    · rename_i hj
      have hone : (heard (i.val + 1) p).length ≤ 1 := (List.length_filterMap_le _ _).trans (sent_one hx r1 st)
      simp only [List.flatMap_cons, List.flatMap_nil, List.append_nil] at hv
      have hlt : j < (backlog (i.val + 1) [] h1).length := (List.getElem?_eq_some_iff.1 hq).1
      have hjj : j = (l.flatMap (heard (i.val + 1))).length := by
        have := (List.getElem?_eq_some_iff.1 hv).1
        omega
      obtain ⟨rest, hrest⟩ := backlog_rest (i.val + 1) l (backlog (i.val + 1) [] h1) (by omega)
      have hh := c91_order hx hcfg hk hd (p := (p.1, p.2)) hr ht hp hs' v (List.mem_of_getElem? hv)
      rw [backlog_append, hrest, ← hjj] at hh
      rw [hh, List.headD_eq_head?_getD, List.head?_append, List.head?_drop, hq]
      rfl

/-- **C91, when.** What is heard in a slot can be sent in the next slot of the same timeslot, one frame later: that is the next slot
to be sent. It carries voice, unless it is in frame 18, the circuit is closed or the call is in hang time. -/
theorem c91_next (hx : x.valid) (hcfg : cfg.InRange) {h h2 : List (CellEv × CellOut)} {a : Air} {u o : CellOut} {w : Bool} {c : Cell}
    (hr : CellRun ⟨.init brew carrier x scramb wide (Precomps.generate cfg), .init code⟩ (h ++ (.up a, u) :: h2 ++ [(.down w, o)]) c)
    (hp : Proper (c.umac.log.map Prod.fst)) (hn : ∀ p ∈ h2, ∀ w, p.1 ≠ .down w)
    {l : List DlSlot} {y0 y1 y2 y3 : DlSlot} (hl : sentOf h = l ++ [y0, y1, y2, y3]) :
    ∃ y, sentOf [(.down w, o)] = [y] ∧ y0.ts.addTimeslots 4 = .ok y.ts ∧ y.ts.t = y0.ts.t ∧
      (y.ts.f ≠ 18 → circuitBy (orders (callsOf (h ++ (.up a, u) :: h2))) .dl y.ts.t ≠ none →
        hangBy (orders (callsOf (h ++ (.up a, u) :: h2))) y.ts.t = false → heard y.ts.t (.down w, o) ≠ []) ∧
      (y.ts.f = 18 ∨ circuitBy (orders (callsOf (h ++ (.up a, u) :: h2))) .dl y.ts.t = none → heard y.ts.t (.down w, o) = []) := by
  obtain ⟨c1, c2, r1, st, r2, l', hl'⟩ := run_middle (h2 := []) hr
  have hp2 : Proper (c2.umac.log.map Prod.fst) := fun e he => hp e (by rw [hl', List.map_append]; exact List.mem_append_left _ he)
  obtain ⟨y, b, hy, hb, S⟩ := down_slot hx hcfg r1 st hp2
  obtain ⟨s1, e1, e2, e3, hh, hc⟩ := S.made
  have hcount : slotsIn (callsOf (h ++ (.up a, u) :: h2)) = slotsIn (callsOf h) := by
    have : ∀ {h2 : List (CellEv × CellOut)} {c : Cell}, CellRun ⟨.init brew carrier x scramb wide (Precomps.generate cfg), .init code⟩ (h ++ h2) c →
        (∀ p ∈ h2, ∀ w, p.1 ≠ .down w) → slotsIn (callsOf (h ++ h2)) = slotsIn (callsOf h) := by
      intro h2
      induction h2 using List.reverseRecOn with
      | nil => intros; simp
      | append_singleton l p ih =>
        intro c hr hd
        rw [← List.append_assoc] at hr ⊢
        obtain ⟨c1, c2, r1, st, _⟩ := run_middle (h2 := []) (e := p.1) (o := p.2) hr
        rw [quiet_slots st (hd p (by simp)), ih r1 (fun p hp => hd p (List.mem_append_left _ hp))]
    refine this r1 ?_
    intro p hp w
    rcases List.mem_cons.1 hp with rfl | hp
    · simp
    · exact hn p hp w
  have k := cell_known hx r1
  obtain ⟨ch, _, rh, _⟩ := run_middle (h2 := h2) (by simpa using r1)
  have kh := cell_known hx rh
  have hlen : slotsIn (callsOf h) = l.length + 4 := by rw [← kh.count, hl]; simp
  have ht0 : y0.ts = fromInt (x.toInt + l.length + 2) := by
    have hj : l.length < (sentOf h).length := by rw [hl]; simp
    have := kh.sent l.length hj
    rw [← this]
    simp [hl]
  obtain ⟨o1, _, o3, _⟩ := run_ordered hx k.run k.time.timed (slot (x.toInt + slotsIn (callsOf (h ++ (.up a, u) :: h2)) + 2))
  have hts := S.time
  have hidx := Slots.idx_ok.1 (idx_fromInt (x.toInt + slotsIn (callsOf (h ++ (.up a, u) :: h2)) + 2))
  rw [← hts] at hidx
  rw [← hidx] at o1 o3
  have ht4 : y.slot.ts = fromInt (x.toInt + l.length + 2 + 4) := by
    rw [hts, hcount, hlen]
    congr 1
    push_cast; omega
  refine ⟨y.slot, hy, ?_, ?_, ?_, ?_⟩
  · rw [ht0, ht4, fromInt_add _ _ (by omega) (by omega)]
  · rw [ht0, ht4, fromInt_t, fromInt_t]; omega
  · intro hf hcirc hhang
    rw [← o1] at hcirc
    rw [← o3] at hhang
    rw [heard_down hy, if_pos rfl]
    have he := hangEffective_false (s := s1) (t := (fromInt (x.toInt + slotsIn (callsOf (h ++ (.up a, u) :: h2)) + 2)).t) (by rw [e2]; exact hhang)
    have open' := Option.isSome_iff_ne_none.2 hcirc
    rw [← e1] at open'
    rw [hts] at hf
    rcases slotCase_voice hc with ⟨_, r, hr1, _⟩ | ⟨hv, hnone⟩
    · simp [hr1]
    · exfalso
      cases hc with
      | voice _ _ _ _ _ hb => simp [DlSlot.voice?, hb] at hnone
      | stolen _ _ _ _ _ _ _ _ hb hb2 => simp [DlSlot.voice?, hb, hb2] at hnone
      | signalling _ hn' =>
        rcases hn' with h | h
        · rw [open'] at h; cases h
        · rw [he] at h; cases h
      | hangIdle _ _ h => rw [he] at h; cases h
      | idleF _ _ ht1 =>
        have : slot (x.toInt + slotsIn (callsOf (h ++ (.up a, u) :: h2)) + 2) = 0 := by
          apply Fin.ext
          rw [← hts] at ht1
          simp; omega
        rw [this, e1, S.ok.dl0] at open'; cases open'
      | idleH _ _ ht1 =>
        have : slot (x.toInt + slotsIn (callsOf (h ++ (.up a, u) :: h2)) + 2) = 0 := by
          apply Fin.ext
          rw [← hts] at ht1
          simp; omega
        rw [this, e1, S.ok.dl0] at open'; cases open'
      | sync h =>
        rcases h with h | ⟨_, h⟩
        · exact hf h
        · rw [open'] at h; cases h
  · intro hno
    rw [heard_down hy, if_pos rfl]
    rw [← o1, ← e1] at hno
    rw [hts] at hno
    have : y.slot.voice? = none := by
      cases hc with
      | voice hf ho => rcases hno with h | h <;> [exact absurd h hf; (rw [h] at ho; cases ho)]
      | stolen hf ho => rcases hno with h | h <;> [exact absurd h hf; (rw [h] at ho; cases ho)]
      | signalling _ _ hc _ _ _ _ hb2 => simp [DlSlot.voice?, hc, hb2]
      | hangIdle _ _ _ hb hb2 => simp [DlSlot.voice?, hb, hb2]
      | idleF _ _ _ hb hb2 => simp [DlSlot.voice?, hb, hb2]
      | idleH _ _ _ hb r hb2 hr => simp [DlSlot.voice?, hb, hb2, hr.1]
      | sync _ hs r hb2 hr => simp [DlSlot.voice?, hs.1, hb2, hr.1]
    simp [this]

end Verif.Phy
