import Verif.Umac.SchedSlot
import Verif.Umac.CircuitsProps
/-!
# The state of the channel scheduler after a history of calls: lemmas

What the scheduler knows of circuits, hang time and broadcast is a function of the calls made; the functions are
here. With this, what it builds for a slot (`SchedSlot.lean`) becomes a statement about histories.
-/
namespace Verif.Umac
open Verif.Bits Verif.Codec Verif.Tdma Verif.Mle

/-! ## Specification: what a history means -/

/-- How many slots a history has built. -/
def ticksIn (es : List SchedEv) : Nat := es.countP (· == .tick)

/-- The circuit on direction `d` of timeslot `t`: the last one opened, unless it was closed. -/
def circuitAfter (d : Dir) (t : Nat) (c : Option Circuit) : SchedEv → Option Circuit
  | .create d' ci => if d' = d ∧ ci.ts = t then some ci else c
  | .close d' t' => if d' = d ∧ t' = t then none else c
  | _ => c
def circuitAt (d : Dir) (t : Nat) (es : List SchedEv) : Option Circuit := es.foldl (circuitAfter d t) none

/-- Whether timeslot `t` is in hang time: the last word on it; opening or closing a circuit there ends it. -/
def hangAfter (t : Nat) (h : Bool) : SchedEv → Bool
  | .hang t' b => if t' = t then b else h
  | .create _ c => if c.ts = t then false else h
  | .close _ t' => if t' = t then false else h
  | _ => h
def hangAt (t : Nat) (es : List SchedEv) : Bool := es.foldl (hangAfter t) false

/-- Whether the network is reachable, as last told. -/
def wideAfter (b : Bool) : SchedEv → Bool
  | .systemWide b' => b'
  | _ => b
def wideAt (cfg : CellCfg) (es : List SchedEv) : Bool := es.foldl wideAfter cfg.services.systemWideServices

/-- Configuration values which fit their fields. -/
def CellCfg.InRange (c : CellCfg) : Prop :=
  c.mcc < 1024 ∧ c.mnc < 16384 ∧ c.systemCode < 16 ∧ c.colourCode < 64 ∧ c.sharingMode < 4 ∧ c.tsReserved < 8 ∧
  c.mainCarrier < 4096 ∧ c.freqBand < 16 ∧ c.freqOffset < 4 ∧ c.duplexSpacing < 8 ∧ c.locationArea < 16384 ∧
  c.subscriberClass < 65536

/-- Calls within the limits of the scheduler: timeslots 1 to 4, circuits on traffic timeslots with a usage marker
from 4 to 63, voice blocks with all their bits, capacity requests other than the last code. -/
def SchedEv.Sound : SchedEv → Prop
  | .tick => True
  | .capReq t _ code => 1 ≤ t ∧ t ≤ 4 ∧ code ≤ 14
  | .grant t _ _ => 1 ≤ t ∧ t ≤ 4
  | .ack t _ => 1 ≤ t ∧ t ≤ 4
  | .message t _ _ _ _ => 1 ≤ t ∧ t ≤ 4
  | .steal t _ _ _ => 1 ≤ t ∧ t ≤ 4
  | .takeRa t _ => 1 ≤ t ∧ t ≤ 4
  | .voice t b => 1 ≤ t ∧ t ≤ 4 ∧ 35 ≤ b.length
  | .create d c => (d = .dl ∨ d = .ul) ∧ 2 ≤ c.ts ∧ c.ts ≤ 4 ∧ 4 ≤ c.usage ∧ c.usage ≤ 63
  | .close d t => (d = .dl ∨ d = .ul) ∧ 1 ≤ t ∧ t ≤ 4
  | .hang _ _ => True
  | .systemWide _ => True

/-! ## Broadcast PDUs -/

/-- The broadcast PDUs are those of the configuration but for the time and the network state. -/
structure PreFor (cfg : CellCfg) (wide : Bool) (p : Precomps) : Prop where
  sync : p.macSync = { (Precomps.generate cfg).macSync with t := p.macSync.t, f := p.macSync.f, m := p.macSync.m }
  sys1 : p.macSysinfo1 = { (Precomps.generate cfg).macSysinfo1 with hyperframe := p.macSysinfo1.hyperframe }
  sys2 : p.macSysinfo2 = { (Precomps.generate cfg).macSysinfo2 with hyperframe := p.macSysinfo2.hyperframe }
  mleSync : p.mleSync = (Precomps.generate cfg).mleSync
  mleSys : p.mleSysinfo = ((Precomps.generate cfg).systemWide wide).mleSysinfo

theorem PreFor.init (cfg : CellCfg) : PreFor cfg cfg.services.systemWideServices (Precomps.generate cfg) := ⟨rfl, rfl, rfl, rfl, rfl⟩

theorem PreFor.stamp {cfg : CellCfg} {w : Bool} {p : Precomps} (h : PreFor cfg w p) (ts : Time) : PreFor cfg w (p.stamp ts) := by
  obtain ⟨h1, h2, h3, h4, h5⟩ := h
  refine ⟨?_, ?_, ?_, h4, h5⟩
  · simp only [Precomps.stamp]; rw [h1]
  · simp only [Precomps.stamp]; rw [h2]
  · simp only [Precomps.stamp]; rw [h3]

theorem PreFor.wide {cfg : CellCfg} {w : Bool} {p : Precomps} (h : PreFor cfg w p) (b : Bool) : PreFor cfg b (p.systemWide b) := by
  obtain ⟨h1, h2, h3, h4, h5⟩ := h
  refine ⟨h1, h2, h3, h4, ?_⟩
  simp only [Precomps.systemWide, h5]

theorem PreFor.ok {cfg : CellCfg} (hc : cfg.InRange) {w : Bool} {p : Precomps} (h : PreFor cfg w p) : PreOk p := by
  obtain ⟨h1, h2, h3, h4, h5⟩ := h
  obtain ⟨c1, c2, c3, c4, c5, c6, c7, c8, c9, c10, c11, c12⟩ := hc
  refine ⟨?_, ?_, ?_, ?_, ?_⟩
  · rw [h1]; exact ⟨c3, c4, c5, c6⟩
  · intro x hx
    rw [h2]
    simp [Precomps.generate, MacSysinfo.InRange, DefaultAccess.InRange, c7, c8, c9, c10, hx]
  · intro x hx
    rw [h3]
    simp [Precomps.generate, MacSysinfo.InRange, ExtServices.InRange, c7, c8, c9, c10, hx]
  · rw [h4]; simp [Precomps.generate, DMleSync.InRange, c1, c2]
  · rw [h5]; exact ⟨c11, c12⟩

/-! ## Building never aborts unless a stolen block is stuck -/

/-- The next slot cannot be built: timeslot `t` has no circuit, a stolen block is waiting there and messages are
left over. -/
def Sched.Free (s : Sched) : Prop := ∀ i, s.circuits.dl i = none → pendingStealing (s.queues i) = false

theorem stolen_nil {q : List DlElem} (h : pendingStealing q = false) : stolenOf q = [] := by
  unfold stolenOf
  rw [List.filter_eq_nil_iff]
  intro x hx hs
  rw [pendingStealing, Bool.eq_false_iff] at h
  exact h (List.any_eq_true.2 ⟨x, hx, hs⟩)

theorem build_total {s : Sched} (hs : SInv s) (hc : CircOk s.circuits) (hfree : s.Free) (ts : Time) {i : Fin 4}
    (hi : Slots.idx ts.t = .ok i) : ∃ p, s.build ts i = .ok p := by
  simp only [Sched.build, CircuitMgr.isActive, hi, Res.bind_ok, Out.ofRes_ok, Out.bind_ok]
  split
  · rename_i ha
    simp only [Bool.and_eq_true, Bool.not_eq_true', bne_iff_ne] at ha
    simp only [Sched.trafficPart, CircuitMgr.takeBlock, hi, Res.bind_ok, ha.1.1, if_true, Out.ofRes_ok, Out.bind_ok]
    obtain ⟨hv, _⟩ := voice_eq (b := (s.circuits.txData i).head?) (by
      intro x hx
      exact hc.voice i x (List.mem_of_mem_head? hx))
    rw [hv, Out.bind_ok]
    split
    · exact ⟨_, rfl⟩
    · exact ⟨_, rfl⟩
  · rename_i ha
    unfold Sched.signallingPart
    obtain ⟨q', e1, e2, e3, e4, _⟩ := integrate_queue (hs.good i)
    rw [e1, Out.bind_ok, hs.next]
    have hblk : ∀ o, ∃ b, signallingBlk s.scramb (s.hangEffective ts.t i && ((s.circuits.dl i).isSome && ts.f != 18)) o = .ok b := by
      intro o
      cases o with
      | some b => exact ⟨_, rfl⟩
      | none =>
        cases s.hangEffective ts.t i && ((s.circuits.dl i).isSome && ts.f != 18) with
        | true =>
          simp only [signallingBlk, if_true, schFCap, idle_eq (show 16 ≤ 268 by decide), Out.bind_ok]
          exact ⟨_, rfl⟩
        | false => exact ⟨_, rfl⟩
    have hbb : ∃ r, buildBlock ts.f q' [] = .ok r := by
      by_cases hf : ts.f = 18
      · rw [hf, buildBlock_18]; exact ⟨_, rfl⟩
      · obtain ⟨rs, blk', _, _, _, _, h1, _⟩ := buildBlock_spec hf e3 e2
        refine ⟨_, h1 (.inl ?_)⟩
        rw [e4]
        cases ho : s.circuits.dl i with
        | none => exact stolen_nil (hfree i ho)
        | some c =>
          apply stolen_nil
          rw [ho] at ha
          simp only [Option.isSome_some, Bool.true_and, Bool.and_eq_true, bne_iff_ne, ne_eq, hf, not_false_eq_true, true_and,
            Bool.not_eq_true', Bool.not_eq_false] at ha
          simp only [Sched.hangEffective, Bool.and_eq_true, Bool.not_eq_true'] at ha
          exact ha.2.2
    obtain ⟨r, hr⟩ := hbb
    obtain ⟨b, hb⟩ := hblk r.2.buf
    rw [hr, Out.bind_ok, hb]
    exact ⟨_, rfl⟩

/-! ## One slot -/

/-- What holds of the slot built at the end of a tick, besides its blocks. -/
structure SlotHead (s : Sched) (ts : Time) (i : Fin 4) (y : TickOut) : Prop where
  time : y.slot.ts = ts
  phy : y.slot.ulPhy = (if (s.circuits.ul i).isSome && ts.f != 18 && !s.hangEffective ts.t i then .tp else .cp)
  aach : ∃ bits, y.slot.bbk = ⟨.aach, ⟨bits, 14⟩, s.scramb⟩ ∧ bits.length = 14 ∧
      (ts.f = 18 → AccessAssignFr18.dec.run bits = .ok (aach18, [])) ∧
      (ts.f ≠ 18 → AccessAssign.dec.run bits = .ok (announced ts.t (s.hang i) (s.circuits.ul i) (s.circuits.dl i), []))

theorem finalize_built {s : Sched} {n : Int} (hs : SInv s) (hcur : s.cur = fromInt (n + 1)) (hp : PreOk s.pre)
    (hc : CircOk s.circuits) {p : Part}
    (hb : ({ s with pre := s.pre.stamp (fromInt (n + 2)) } : Sched).build (fromInt (n + 2)) (slot (n + 2)) = .ok p) :
    ∃ s' y, s.finalize = .ok (s', y) ∧
      s'.ul = s.ul.put (slot (n - 2)) (pos (n - 2)) ⟨none, none⟩ ∧ s'.cur = s.cur ∧ s'.scramb = s.scramb ∧
      s'.pre = s.pre.stamp (fromInt (n + 2)) ∧ s'.hang = s.hang ∧ s'.circuits.dl = s.circuits.dl ∧
      s'.circuits.ul = s.circuits.ul ∧ s'.pendingRa = s.pendingRa ∧ s'.queues = p.s.queues ∧ CircOk s'.circuits ∧
      SlotHead s (fromInt (n + 2)) (slot (n + 2)) y ∧ SlotCase s (fromInt (n + 2)) (slot (n + 2)) s' y := by
  have hv := fromInt_valid (n + 2)
  have hi := idx_fromInt (n + 2)
  obtain ⟨hk, hpc⟩ := build_case (s := { s with pre := s.pre.stamp (fromInt (n + 2)) }) ⟨hs.next, hs.good⟩ hi hb
  obtain ⟨h18, b1, b2, c1, c2, e1, e2, e3, e4, hsl⟩ := slot_rest hp hc hv hi hk hpc
  have hcp : CircOk p.s.circuits := by
    have hdl : p.s.circuits.dl = s.circuits.dl := hk.dl
    have hul : p.s.circuits.ul = s.circuits.ul := hk.ulc
    refine ⟨by rw [hdl]; exact hc.dl0, by rw [hul]; exact hc.ul0, by rw [hdl]; exact hc.dlu, by rw [hul]; exact hc.ulu, ?_⟩
    have htail : p.s.circuits.txData = s.circuits.txData.upd (slot (n + 2)) (s.circuits.txData (slot (n + 2))).tail ∨
        p.s.circuits.txData = s.circuits.txData := by
      cases hpc with
      | traffic _ _ _ _ hv => exact .inl hv
      | stolen _ _ _ _ _ _ _ hv => exact .inl hv
      | signalling _ _ _ _ _ _ _ _ hv => exact .inr (by rw [hv])
      | idle _ _ _ _ _ _ hv => exact .inr (by rw [hv])
      | nothing _ _ _ _ hv => exact .inr (by rw [hv])
    intro j b hb
    rcases htail with ht | ht
    · rw [ht] at hb
      by_cases hj : j = slot (n + 2)
      · subst hj
        rw [Slots.upd_self] at hb
        exact hc.voice _ b (List.mem_of_mem_tail hb)
      · rw [Slots.upd_ne _ _ hj] at hb; exact hc.voice j b hb
    · rw [ht] at hb; exact hc.voice j b hb
  obtain ⟨bits, a1, a2, a3, a4⟩ := bbk_spec hcp hv hi
  have hul : p.s.ul = s.ul := hk.ul
  have hdl : p.s.circuits.dl = s.circuits.dl := hk.dl
  have hulc : p.s.circuits.ul = s.circuits.ul := hk.ulc
  have hhang : p.s.hang = s.hang := hk.hang
  have hscr : p.s.scramb = s.scramb := hk.scramb
  have hphy : ({ s with pre := s.pre.stamp (fromInt (n + 2)) } : Sched).ulPhy (fromInt (n + 2)) (slot (n + 2)) =
      .ok (if (s.circuits.ul (slot (n + 2))).isSome && (fromInt (n + 2)).f != 18 &&
        !s.hangEffective (fromInt (n + 2)).t (slot (n + 2)) then .tp else .cp) := by
    unfold Sched.ulPhy
    simp only [CircuitMgr.isActive, hi, Res.bind_ok, Out.ofRes_ok, Out.bind_ok]
    rfl
  have h18' : checkFrame18 (fromInt (n + 2)).f p.blk1 = .ok () := by
    unfold checkFrame18
    rw [if_neg]
    intro ⟨h1, h2⟩
    exact h18 h1 h2
  have key : s.finalize = .ok ({ p.s with ul := s.ul.put (slot (n - 2)) (pos (n - 2)) ⟨none, none⟩ },
      ⟨⟨fromInt (n + 2), ⟨.aach, ⟨bits, 14⟩, p.s.scramb⟩, c1, c2, if (s.circuits.ul (slot (n + 2))).isSome &&
        (fromInt (n + 2)).f != 18 && !s.hangEffective (fromInt (n + 2)).t (slot (n + 2)) then .tp else .cp⟩, p.reports, p.log⟩) := by
    unfold Sched.finalize
    rw [hcur, fromInt_add _ _ (by omega) (by omega), Out.ofRes_ok, Out.bind_ok, show n + 1 + 1 = n + 2 by omega, hi,
      Out.ofRes_ok, Out.bind_ok]
    simp only
    rw [← hcur] at *
    rw [hphy, Out.bind_ok, hb, Out.bind_ok, h18', Out.bind_ok, a1, Out.bind_ok, e1, Out.bind_ok, e2, Out.bind_ok, e3, Out.bind_ok,
      e4, Out.bind_ok, hul, clearUl_spec, Out.ofRes_ok, Out.bind_ok]
  refine ⟨_, _, key, rfl, hk.cur, hscr, hk.pre, hhang, hdl, hulc, hk.pendingRa, rfl, hcp, ⟨rfl, rfl, bits, by rw [hscr], a2, a3, ?_⟩,
    hsl _ _ rfl rfl rfl⟩
  intro hf
  have := a4 hf
  rwa [hhang, hdl, hulc] at this

/-! ## All calls -/

/-- What the scheduler knows after a history `es`. -/
structure Env (cfg : CellCfg) (scramb : Nat) (x : Time) (es : List SchedEv) (s : Sched) : Prop where
  inv : SInv s
  cur : s.cur = fromInt (x.toInt + ticksIn es)
  scr : s.scramb = scramb
  pre : PreFor cfg (wideAt cfg es) s.pre
  circ : CircOk s.circuits
  dl : ∀ i : Fin 4, s.circuits.dl i = circuitAt .dl (i.val + 1) es
  ul : ∀ i : Fin 4, s.circuits.ul i = circuitAt .ul (i.val + 1) es
  hang : ∀ i : Fin 4, s.hang i = hangAt (i.val + 1) es
  table : ∃ gs, UlInv (x.toInt + ticksIn es) s.ul gs

theorem Env.init (cfg : CellCfg) (scramb : Nat) {x : Time} (hx : x.valid) :
    Env cfg scramb x [] (Sched.init x scramb (Precomps.generate cfg)) :=
  ⟨⟨rfl, fun i e he => by simp [Sched.init] at he⟩, by simp [Sched.init, ticksIn, fromInt_toInt hx], rfl, PreFor.init cfg,
    ⟨rfl, rfl, by simp [Sched.init, CircuitMgr.init], by simp [Sched.init, CircuitMgr.init], by simp [Sched.init, CircuitMgr.init]⟩,
    fun _ => rfl, fun _ => rfl, fun _ => rfl, [], UlInv.start _⟩

/-- A call which changes neither time nor circuits, hang time or broadcast. -/
theorem Env.same {cfg : CellCfg} {scramb : Nat} {x : Time} {es : List SchedEv} {s s' : Sched} (h : Env cfg scramb x es s)
    {e : SchedEv} (hinv : SInv s') (h0 : e ≠ .tick) (hd : ∀ d t c, circuitAfter d t c e = c) (hh : ∀ t b, hangAfter t b e = b)
    (hw : ∀ b, wideAfter b e = b) (h1 : s'.cur = s.cur) (h2 : s'.scramb = s.scramb) (h3 : s'.pre = s.pre) (h4 : CircOk s'.circuits)
    (h5 : s'.circuits.dl = s.circuits.dl) (h6 : s'.circuits.ul = s.circuits.ul) (h7 : s'.hang = s.hang)
    (h8 : ∃ gs, UlInv (x.toInt + ticksIn es) s'.ul gs) : Env cfg scramb x (es ++ [e]) s' := by
  have ht : ticksIn (es ++ [e]) = ticksIn es := by
    simp [ticksIn, h0]
  refine ⟨hinv, by rw [h1, ht, h.cur], by rw [h2, h.scr], ?_, h4, ?_, ?_, ?_, by rw [ht]; exact h8⟩
  · rw [h3, wideAt, List.foldl_append]
    simp only [List.foldl_cons, List.foldl_nil, hw]
    exact h.pre
  · intro i
    rw [h5, circuitAt, List.foldl_append]
    simp only [List.foldl_cons, List.foldl_nil, hd]
    exact h.dl i
  · intro i
    rw [h6, circuitAt, List.foldl_append]
    simp only [List.foldl_cons, List.foldl_nil, hd]
    exact h.ul i
  · intro i
    rw [h7, hangAt, List.foldl_append]
    simp only [List.foldl_cons, List.foldl_nil, hh]
    exact h.hang i

theorem push_same {s s' : Sched} {t : Nat} {e : DlElem} (h : s.push t e = .ok s') :
    s'.cur = s.cur ∧ s'.scramb = s.scramb ∧ s'.pre = s.pre ∧ s'.circuits = s.circuits ∧ s'.hang = s.hang ∧ s'.ul = s.ul ∧
    s'.pendingRa = s.pendingRa := by
  unfold Sched.push at h
  rw [Out.bind_eq_ok] at h; obtain ⟨i, hi, h⟩ := h
  cases h
  exact ⟨rfl, rfl, rfl, rfl, rfl, rfl, rfl⟩

theorem Env.push {cfg : CellCfg} {scramb : Nat} {x : Time} {es : List SchedEv} {s s' : Sched} (h : Env cfg scramb x es s)
    {e : SchedEv} {t : Nat} {el : DlElem} (hg : el.Good) (hp : s.push t el = .ok s') (h0 : e ≠ .tick)
    (hd : ∀ d t c, circuitAfter d t c e = c) (hh : ∀ t b, hangAfter t b e = b) (hw : ∀ b, wideAfter b e = b) :
    Env cfg scramb x (es ++ [e]) s' := by
  obtain ⟨e1, e2, e3, e4, e5, e6, _⟩ := push_same hp
  exact h.same (push_inv h.inv hg hp).1 h0 hd hh hw e1 e2 e3 (e4 ▸ h.circ) (by rw [e4]) (by rw [e4]) e5 (e6 ▸ h.table)

/-- Opening and closing circuits, seen from one direction and one timeslot. -/
theorem unhang_hang (s : Sched) {t : Nat} {k : Fin 4} (hk : Slots.idx t = .ok k) (i : Fin 4) :
    (s.unhang t).hang i = (if t = i.val + 1 then false else s.hang i) := by
  have := Slots.idx_ok.1 hk
  simp only [Sched.unhang, hk]
  by_cases hi : i = k
  · subst hi; rw [Slots.upd_self, if_pos this]
  · rw [Slots.upd_ne _ _ hi, if_neg]
    intro h
    apply hi; apply Fin.ext; omega

theorem unhang_same (s : Sched) (t : Nat) : (s.unhang t).cur = s.cur ∧ (s.unhang t).scramb = s.scramb ∧ (s.unhang t).pre = s.pre ∧
    (s.unhang t).next = s.next ∧ (s.unhang t).queues = s.queues ∧ (s.unhang t).ul = s.ul ∧ (s.unhang t).circuits = s.circuits ∧
    (s.unhang t).pendingRa = s.pendingRa := by
  unfold Sched.unhang
  split <;> exact ⟨rfl, rfl, rfl, rfl, rfl, rfl, rfl, rfl⟩

theorem idx_inj {t : Nat} {k : Fin 4} (hk : Slots.idx t = .ok k) (i : Fin 4) : t = i.val + 1 ↔ i = k := by
  have := Slots.idx_ok.1 hk
  constructor
  · intro h; apply Fin.ext; omega
  · intro h; rw [h]; exact this

theorem upd_if {α : Type} (f : Slots α) {t : Nat} {k : Fin 4} (hk : Slots.idx t = .ok k) (a : α) (i : Fin 4) :
    f.upd k a i = (if t = i.val + 1 then a else f i) := by
  by_cases hi : i = k
  · rw [if_pos ((idx_inj hk i).2 hi), hi, Slots.upd_self]
  · rw [if_neg (fun h => hi ((idx_inj hk i).1 h)), Slots.upd_ne _ _ hi]

/-- What a tick gives. -/
def Ticked (s : Sched) (n : Int) (s' : Sched) (r : SchedRet) : Prop :=
  ∃ y, r = .sent y ∧ SlotHead s (fromInt (n + 2)) (slot (n + 2)) y ∧ SlotCase s (fromInt (n + 2)) (slot (n + 2)) s' y

/-- One call. -/
theorem step_env {cfg : CellCfg} (hcfg : cfg.InRange) {scramb : Nat} {x : Time} {es : List SchedEv} {s s' : Sched}
    (h : Env cfg scramb x es s) {e : SchedEv} (hf : e.Fine) (hsd : e.Sound) {r : SchedRet} (hst : s.step e = .ok (s', r)) :
    Env cfg scramb x (es ++ [e]) s' ∧
    (e = .tick → Ticked { s with cur := fromInt (x.toInt + ticksIn es + 1) } (x.toInt + ticksIn es) s' r) := by
  have hinv := (step_track h.inv hf hst).1
  cases e with
  | tick =>
    generalize hn : x.toInt + ticksIn es = n
    have hn' : x.toInt + ticksIn (es ++ [.tick]) = n + 1 := by
      simp [ticksIn] at hn ⊢; omega
    simp only [Sched.step] at hst
    rw [Out.bind_eq_ok] at hst; obtain ⟨c, hc, hst⟩ := hst
    rw [Out.bind_eq_ok] at hst; obtain ⟨⟨s1, y⟩, hfin, hst⟩ := hst
    cases hst
    rw [h.cur, hn, fromInt_add _ _ (by omega) (by omega), Out.ofRes_ok] at hc
    cases hc
    obtain ⟨F⟩ := finalize_inv hfin
    obtain ⟨ts, i, p, hts, hi, _, hb, _⟩ := F
    simp only at hts
    rw [fromInt_add _ _ (by omega) (by omega), show n + 1 + 1 = n + 2 by omega] at hts
    cases hts
    rw [idx_fromInt] at hi
    cases hi
    obtain ⟨s2, y2, e0, e1, e2, e3, e4, e5, e6, e7, e8, e9, e10, e11, e12⟩ :=
      finalize_built (s := { s with cur := fromInt (n + 1) }) (n := n) ⟨h.inv.next, h.inv.good⟩ rfl (h.pre.ok hcfg) h.circ hb
    rw [hfin] at e0
    cases e0
    refine ⟨⟨hinv, ?_, by rw [e3]; exact h.scr, ?_, e10, ?_, ?_, ?_, ?_⟩, fun _ => ⟨y, rfl, e11, e12⟩⟩
    · rw [e2, hn']
    · rw [e4, wideAt, List.foldl_append]
      exact h.pre.stamp _
    · intro i
      rw [e6, circuitAt, List.foldl_append]
      exact h.dl i
    · intro i
      rw [e7, circuitAt, List.foldl_append]
      exact h.ul i
    · intro i
      rw [e5, hangAt, List.foldl_append]
      exact h.hang i
    · obtain ⟨gs, hg⟩ := h.table
      rw [hn] at hg
      rw [hn', e1]
      exact ⟨gs, hg.tick⟩
  | capReq t ssi code =>
    refine ⟨?_, fun h => by cases h⟩
    simp only [Sched.step] at hst
    rw [Out.bind_eq_ok] at hst; obtain ⟨q, hq, hst⟩ := hst
    cases hst
    rw [Out.ofRes_eq_ok] at hq
    obtain ⟨h1, h2, h3⟩ := hsd
    obtain ⟨gs, hg⟩ := h.table
    obtain ⟨u', g, e1, hno, hyes⟩ := processCapReq_spec s.ul (x.toInt + ticksIn es) t ssi code h1 h2 h3 hg.order
    rw [h.cur, e1] at hq
    cases hq
    refine h.same hinv (by simp) (fun _ _ _ => rfl) (fun _ _ => rfl) (fun _ => rfl) rfl rfl rfl h.circ rfl rfl rfl ?_
    cases g with
    | none => rw [(hno rfl).1]; exact ⟨gs, hg⟩
    | some g => exact ⟨_, hg.req (hyes g rfl)⟩
  | grant t a g =>
    refine ⟨?_, fun h => by cases h⟩
    simp only [Sched.step] at hst
    rw [Out.bind_eq_ok] at hst; obtain ⟨q, hq, hst⟩ := hst
    cases hst
    exact h.push (el := .grant a g) hf hq (by simp) (fun _ _ _ => rfl) (fun _ _ => rfl) (fun _ => rfl)
  | ack t a =>
    refine ⟨?_, fun h => by cases h⟩
    simp only [Sched.step] at hst
    rw [Out.bind_eq_ok] at hst; obtain ⟨q, hq, hst⟩ := hst
    cases hst
    exact h.push (el := .ack a) hf hq (by simp) (fun _ _ _ => rfl) (fun _ _ => rfl) (fun _ => rfl)
  | message t id rep pdu sdu =>
    refine ⟨?_, fun h => by cases h⟩
    simp only [Sched.step] at hst
    rw [Out.bind_eq_ok] at hst; obtain ⟨q, hq, hst⟩ := hst
    cases hst
    exact h.push (el := .resource pdu sdu (.msg id rep)) hf hq (by simp) (fun _ _ _ => rfl) (fun _ _ => rfl) (fun _ => rfl)
  | steal t id rep b =>
    refine ⟨?_, fun h => by cases h⟩
    simp only [Sched.step] at hst
    rw [Out.bind_eq_ok] at hst; obtain ⟨q, hq, hst⟩ := hst
    cases hst
    exact h.push (el := .stealing b (.msg id rep)) hf hq (by simp) (fun _ _ _ => rfl) (fun _ _ => rfl) (fun _ => rfl)
  | takeRa t ssi =>
    refine ⟨?_, fun h => by cases h⟩
    simp only [Sched.step] at hst
    rw [Out.bind_eq_ok] at hst; obtain ⟨q, hq, hst⟩ := hst
    cases hst
    unfold Sched.takeRa at hq
    rw [Out.bind_eq_ok] at hq; obtain ⟨i, hi, hq⟩ := hq
    cases hq
    exact h.same hinv (by simp) (fun _ _ _ => rfl) (fun _ _ => rfl) (fun _ => rfl) rfl rfl rfl h.circ rfl rfl rfl h.table
  | voice t b =>
    refine ⟨?_, fun h => by cases h⟩
    simp only [Sched.step] at hst
    rw [Out.bind_eq_ok] at hst; obtain ⟨c, hc, hst⟩ := hst
    cases hst
    rw [Out.ofRes_eq_ok] at hc
    unfold CircuitMgr.putBlock at hc
    rw [Res.bind_eq_ok] at hc; obtain ⟨i, hi, hc⟩ := hc
    have hcd : c.dl = s.circuits.dl ∧ c.ul = s.circuits.ul ∧ CircOk c := by
      split at hc
      · cases hc
        refine ⟨rfl, rfl, h.circ.dl0, h.circ.ul0, h.circ.dlu, h.circ.ulu, ?_⟩
        intro j b' hb'
        simp only at hb'
        by_cases hj : j = i
        · subst hj
          rw [Slots.upd_self, List.mem_append, List.mem_singleton] at hb'
          rcases hb' with hb' | rfl
          · exact h.circ.voice _ _ hb'
          · exact hsd.2.2
        · rw [Slots.upd_ne _ _ hj] at hb'; exact h.circ.voice _ _ hb'
      · cases hc; exact ⟨rfl, rfl, h.circ⟩
    exact h.same hinv (by simp) (fun _ _ _ => rfl) (fun _ _ => rfl) (fun _ => rfl) rfl rfl rfl hcd.2.2 hcd.1 hcd.2.1 rfl h.table
  | create d c =>
    refine ⟨?_, fun h => by cases h⟩
    simp only [Sched.step] at hst
    rw [Out.bind_eq_ok] at hst; obtain ⟨cm, hc, hst⟩ := hst
    cases hst
    rw [Out.ofRes_eq_ok, create_eq] at hc
    obtain ⟨u1, u2, u3, u4, u5, u6, u7, u8⟩ := unhang_same s c.ts
    rw [u7] at hc
    obtain ⟨hd, h1, h2, h3, h4⟩ := hsd
    have ht : ticksIn (es ++ [SchedEv.create d c]) = ticksIn es := by simp [ticksIn]
    obtain ⟨k, hk⟩ : ∃ k, Slots.idx c.ts = .ok k := ⟨⟨c.ts - 1, by omega⟩, Slots.idx_ok.2 (by simp; omega)⟩
    have hk0 : (0 : Fin 4) ≠ k := by
      intro h0; have := Slots.idx_ok.1 hk; rw [← h0] at this; simp at this; omega
    have hhang : ∀ i : Fin 4, (s.unhang c.ts).hang i = hangAt (i.val + 1) (es ++ [SchedEv.create d c]) := by
      intro i
      rw [unhang_hang s hk i, hangAt, List.foldl_append]
      simp only [List.foldl_cons, List.foldl_nil, hangAfter]
      rw [h.hang i]; rfl
    have hpre : PreFor cfg (wideAt cfg (es ++ [SchedEv.create d c])) (s.unhang c.ts).pre := by
      rw [u3, wideAt, List.foldl_append]; exact h.pre
    have htab : ∃ gs, UlInv (x.toInt + ticksIn (es ++ [SchedEv.create d c])) (s.unhang c.ts).ul gs := by
      rw [ht, u6]; exact h.table
    unfold CircuitMgr.place at hc
    rcases hd with rfl | rfl
    · simp only [hk, Res.bind_ok, Res.ok.injEq] at hc
      subst hc
      refine ⟨hinv, by rw [ht]; exact u1.trans h.cur, u2.trans h.scr, hpre, ⟨?_, h.circ.ul0, ?_, h.circ.ulu, ?_⟩, ?_, ?_, hhang, htab⟩
      · simp only [Slots.upd_ne _ _ hk0]; exact h.circ.dl0
      · intro i y hy
        simp only at hy
        by_cases hi : i = k
        · subst hi; rw [Slots.upd_self] at hy; cases hy; exact ⟨h3, h4⟩
        · rw [Slots.upd_ne _ _ hi] at hy; exact h.circ.dlu i y hy
      · intro i b hb
        simp only at hb
        by_cases hi : i = k
        · subst hi; rw [Slots.upd_self] at hb; cases hb
        · rw [Slots.upd_ne _ _ hi] at hb; exact h.circ.voice i b hb
      · intro i
        simp only
        rw [upd_if _ hk, circuitAt, List.foldl_append]
        simp only [List.foldl_cons, List.foldl_nil, circuitAfter, true_and]
        rw [h.dl i]; rfl
      · intro i
        rw [circuitAt, List.foldl_append]
        simp only [List.foldl_cons, List.foldl_nil, circuitAfter, reduceCtorEq, false_and, if_false]
        exact h.ul i
    · simp only [hk, Res.bind_ok, Res.ok.injEq] at hc
      subst hc
      refine ⟨hinv, by rw [ht]; exact u1.trans h.cur, u2.trans h.scr, hpre, ⟨h.circ.dl0, ?_, h.circ.dlu, ?_, h.circ.voice⟩, ?_, ?_, hhang, htab⟩
      · simp only [Slots.upd_ne _ _ hk0]; exact h.circ.ul0
      · intro i y hy
        simp only at hy
        by_cases hi : i = k
        · subst hi; rw [Slots.upd_self] at hy; cases hy; exact ⟨h3, h4⟩
        · rw [Slots.upd_ne _ _ hi] at hy; exact h.circ.ulu i y hy
      · intro i
        rw [circuitAt, List.foldl_append]
        simp only [List.foldl_cons, List.foldl_nil, circuitAfter, reduceCtorEq, false_and, if_false]
        exact h.dl i
      · intro i
        simp only
        rw [upd_if _ hk, circuitAt, List.foldl_append]
        simp only [List.foldl_cons, List.foldl_nil, circuitAfter, true_and]
        rw [h.ul i]; rfl
  | close d t =>
    refine ⟨?_, fun h => by cases h⟩
    simp only [Sched.step] at hst
    rw [Out.bind_eq_ok] at hst; obtain ⟨cm, hc, hst⟩ := hst
    cases hst
    rw [Out.ofRes_eq_ok] at hc
    obtain ⟨u1, u2, u3, u4, u5, u6, u7, u8⟩ := unhang_same s t
    rw [u7] at hc
    obtain ⟨hd, h1, h2⟩ := hsd
    have ht : ticksIn (es ++ [SchedEv.close d t]) = ticksIn es := by simp [ticksIn]
    obtain ⟨k, hk⟩ : ∃ k, Slots.idx t = .ok k := ⟨⟨t - 1, by omega⟩, Slots.idx_ok.2 (by simp; omega)⟩
    have hhang : ∀ i : Fin 4, (s.unhang t).hang i = hangAt (i.val + 1) (es ++ [SchedEv.close d t]) := by
      intro i
      rw [unhang_hang s hk i, hangAt, List.foldl_append]
      simp only [List.foldl_cons, List.foldl_nil, hangAfter]
      rw [h.hang i]; rfl
    have hpre : PreFor cfg (wideAt cfg (es ++ [SchedEv.close d t])) (s.unhang t).pre := by
      rw [u3, wideAt, List.foldl_append]; exact h.pre
    have htab : ∃ gs, UlInv (x.toInt + ticksIn (es ++ [SchedEv.close d t])) (s.unhang t).ul gs := by
      rw [ht, u6]; exact h.table
    unfold CircuitMgr.close at hc
    rcases hd with rfl | rfl
    · simp only [hk, Res.bind_ok, Res.ok.injEq] at hc
      subst hc
      refine ⟨hinv, by rw [ht]; exact u1.trans h.cur, u2.trans h.scr, hpre, ⟨?_, h.circ.ul0, ?_, h.circ.ulu, ?_⟩, ?_, ?_, hhang, htab⟩
      · simp only [upd_if _ hk]; split
        · rfl
        · exact h.circ.dl0
      · intro i y hy
        simp only [upd_if _ hk] at hy
        split at hy
        · cases hy
        · exact h.circ.dlu i y hy
      · intro i b hb
        simp only [upd_if _ hk] at hb
        split at hb
        · cases hb
        · exact h.circ.voice i b hb
      · intro i
        simp only
        rw [upd_if _ hk, circuitAt, List.foldl_append]
        simp only [List.foldl_cons, List.foldl_nil, circuitAfter, true_and]
        rw [h.dl i]; rfl
      · intro i
        rw [circuitAt, List.foldl_append]
        simp only [List.foldl_cons, List.foldl_nil, circuitAfter, reduceCtorEq, false_and, if_false]
        exact h.ul i
    · simp only [hk, Res.bind_ok, Res.ok.injEq] at hc
      subst hc
      refine ⟨hinv, by rw [ht]; exact u1.trans h.cur, u2.trans h.scr, hpre, ⟨h.circ.dl0, ?_, h.circ.dlu, ?_, h.circ.voice⟩, ?_, ?_, hhang, htab⟩
      · simp only [upd_if _ hk]; split
        · rfl
        · exact h.circ.ul0
      · intro i y hy
        simp only [upd_if _ hk] at hy
        split at hy
        · cases hy
        · exact h.circ.ulu i y hy
      · intro i
        rw [circuitAt, List.foldl_append]
        simp only [List.foldl_cons, List.foldl_nil, circuitAfter, reduceCtorEq, false_and, if_false]
        exact h.dl i
      · intro i
        simp only
        rw [upd_if _ hk, circuitAt, List.foldl_append]
        simp only [List.foldl_cons, List.foldl_nil, circuitAfter, true_and]
        rw [h.ul i]; rfl
  | hang t b =>
    refine ⟨?_, fun h => by cases h⟩
    simp only [Sched.step, Out.ok.injEq, Prod.mk.injEq] at hst
    obtain ⟨rfl, rfl⟩ := hst
    have ht : ticksIn (es ++ [SchedEv.hang t b]) = ticksIn es := by simp [ticksIn]
    have key : (s.setHang t b).1.cur = s.cur ∧ (s.setHang t b).1.scramb = s.scramb ∧ (s.setHang t b).1.pre = s.pre ∧
        (s.setHang t b).1.ul = s.ul ∧ (s.setHang t b).1.circuits = s.circuits ∧
        ∀ i : Fin 4, (s.setHang t b).1.hang i = if t = i.val + 1 then b else s.hang i := by
      unfold Sched.setHang
      cases hk : Slots.idx t with
      | panic =>
        refine ⟨rfl, rfl, rfl, rfl, rfl, fun i => ?_⟩
        rw [if_neg]
        intro h
        have := Slots.idx_ok.2 h
        rw [this] at hk; cases hk
      | ok k => cases b <;> exact ⟨rfl, rfl, rfl, rfl, rfl, fun i => upd_if _ hk _ i⟩
    obtain ⟨k1, k2, k3, k4, k5, k6⟩ := key
    refine ⟨hinv, by rw [k1, ht, h.cur], by rw [k2, h.scr], ?_, k5 ▸ h.circ, ?_, ?_, ?_, by rw [k4, ht]; exact h.table⟩
    · rw [k3, wideAt, List.foldl_append]; exact h.pre
    · intro i
      rw [k5, circuitAt, List.foldl_append]; exact h.dl i
    · intro i
      rw [k5, circuitAt, List.foldl_append]; exact h.ul i
    · intro i
      rw [k6, hangAt, List.foldl_append, h.hang i]; rfl
  | systemWide b =>
    refine ⟨?_, fun h => by cases h⟩
    simp only [Sched.step, Out.ok.injEq, Prod.mk.injEq] at hst
    obtain ⟨rfl, rfl⟩ := hst
    have ht : ticksIn (es ++ [SchedEv.systemWide b]) = ticksIn es := by simp [ticksIn]
    refine ⟨hinv, by rw [ht]; exact h.cur, h.scr, ?_, h.circ, ?_, ?_, ?_, by rw [ht]; exact h.table⟩
    · rw [wideAt, List.foldl_append]
      exact h.pre.wide b
    · intro i
      rw [circuitAt, List.foldl_append]; exact h.dl i
    · intro i
      rw [circuitAt, List.foldl_append]; exact h.ul i
    · intro i
      rw [hangAt, List.foldl_append]; exact h.hang i

end Verif.Umac
