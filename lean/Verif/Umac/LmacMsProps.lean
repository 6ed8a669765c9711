import Verif.Umac.LmacMs
import Verif.Umac.UmacMsProps
import Verif.Phy.OnAirProps
/-!
# C81 over the air: a mobile station on the control channel, lower and upper MAC
-/
namespace Verif.Umac
open Verif.Bits Verif.Codec Verif.Tdma Verif.Phy

/-! ## Blocks of the first timeslot -/

/-- A SYSINFO block, as a station reads it at time `ts`. -/
def SysBlk (ts : Time) (bs : List Bool) : Prop :=
  (∃ l, bs = true :: false :: false :: false :: l) ∧ ∃ p rest, MacSysinfo.dec.run bs = .ok (p, rest) ∧ p.hyperframe = some ts.h

theorem sys_head {p : Precomps} {ts : Time} {scramb : Nat} {r : TmvReq} (h : IsSysinfo p ts scramb r) : SysBlk ts (whole r.blk) := by
  obtain ⟨h1, h2, h3, h4, ⟨rest, h5, _⟩, l, h6⟩ := h
  have hw : whole r.blk = r.blk.bits := by simp [whole, h3, h4]
  rw [hw]
  refine ⟨⟨l, h6⟩, _, rest, h5, ?_⟩
  split <;> rfl

/-- What is sent on the first timeslot. -/
inductive First (y : TickOut) : Prop
  | full (h : y.slot.blk1.chan = .schF)
  | half (hf : y.slot.ts.f ≠ 18) (h : y.slot.blk1.chan = .schHd) (r : TmvReq) (h2 : y.slot.blk2 = some r)
      (hr : SysBlk y.slot.ts (whole r.blk))
  | sync (h : y.slot.blk1.chan = .bsch) (p : MacSync × List Bool) (hp : MacSync.dec.run (whole y.slot.blk1.blk) = .ok p) (r : TmvReq)
      (h2 : y.slot.blk2 = some r) (hr : SysBlk y.slot.ts (whole r.blk))

theorem first_slot {cfg : CellCfg} (hcfg : cfg.InRange) {scramb : Nat} {x : Time} (hx : x.valid) {es : List SchedEv} (hp : Proper es)
    {y : TickOut} (h : Built cfg scramb x es y) (ht : y.slot.ts.t = 1) : First y := by
  have htm := c43_time cfg hcfg scramb x hx es hp y h
  obtain ⟨s, s', tr, _, henv, hh, hc⟩ := last_tick hcfg hx hp h
  rw [htm] at ht
  have h0 : slot (x.toInt + ticksIn es + 2) = 0 := by
    apply Fin.ext
    have := slot_val x es
    simp; omega
  rw [h0] at hc
  cases hc with
  | voice _ ho => simp [henv.circ.dl0] at ho
  | stolen _ ho => simp [henv.circ.dl0] at ho
  | signalling _ _ hc => exact .full hc
  | hangIdle _ ho => simp [henv.circ.dl0] at ho
  | idleF _ _ _ hb => exact .full (by rw [hb])
  | idleH hf _ _ hb r hb2 hr => exact .half (by rw [htm]; exact hf) (by rw [hb]) r hb2 (by rw [htm]; exact sys_head hr)
  | sync _ hs r hb2 hr =>
    obtain ⟨h1, _, h3, h4, rest, h5, _⟩ := hs
    refine .sync h1 ({ s.pre.macSync with t := (slotTime x es).t, f := (slotTime x es).f, m := (slotTime x es).m }, rest) ?_ r hb2
      (by rw [htm]; exact sys_head hr)
    · rw [show whole y.slot.blk1.blk = y.slot.blk1.blk.bits by simp [whole, h3, h4]]
      exact h5

/-! ## The station -/

/-- A message for the LLC. -/
def MsOut.isSdu : MsOut → Bool
  | .sdu .. => true
  | _ => false

theorem configure_sdus {l : LmacMs} {outs : List MsOut} (h : ∀ o ∈ outs, o.isSdu = true) : outs.foldl LmacMs.configure l = l := by
  induction outs with
  | nil => rfl
  | cons o os ih =>
    have ho := h o (by simp)
    have := ih fun o h' => h o (by simp [h'])
    cases o <;> first | exact this | cases ho

/-- The broadcast block leaves the upper MAC as it is and asks nothing of the lower MAC. -/
theorem call_sys {u : UmacMs} {ts : Time} {c : Chan} (hc : c = .bnch ∨ c = .schHd) {sc : Nat} {bs : List Bool} (h : SysBlk ts bs) :
    ∃ rest, u.call (.block ts c (some .block2) sc bs) = .ok (u, [.sysinfo rest]) := by
  obtain ⟨⟨l, hl⟩, p, rest, hd, hh⟩ := h
  refine ⟨rest, ?_⟩
  have hb : u.rxBroadcast ts bs = .ok (u, [.sysinfo rest], none) := by
    subst hl
    simp only [UmacMs.rxBroadcast, hd, hh]
    simp
  have : u.rxSch ts sc bs = .ok (u, [.sysinfo rest]) := by
    have hr : u.round ts sc bs = .ok (u, [.sysinfo rest], none) := by
      rw [← hb]
      subst hl
      rfl
    simp only [UmacMs.rxSch, UmacMs.loop, hr, Out.bind_ok]
  rcases hc with rfl | rfl <;> simpa [UmacMs.call] using this

/-- The access assignment of the first timeslot: signalling. -/
theorem call_aach {cfg : CellCfg} (hcfg : cfg.InRange) {scramb : Nat} {x : Time} (hx : x.valid) {es : List SchedEv} (hp : Proper es)
    {y : TickOut} (h : Built cfg scramb x es y) (ht : y.slot.ts.t = 1) (u : UmacMs) (sc : Nat) :
    u.call (.block y.slot.ts .aach none sc y.slot.bbk.blk.bits) = .ok (u, [.setTraffic false]) := by
  have htm := c43_time cfg hcfg scramb x hx es hp y h
  obtain ⟨a1, a2⟩ := c45_announced cfg hcfg scramb x hx es hp y h
  rw [htm] at ht
  rw [htm]
  simp only [UmacMs.call, UmacMs.rxAach]
  by_cases hf : (slotTime x es).f = 18
  · rw [if_neg (by simpa using hf), a2 hf]
  · rw [if_pos hf, a1 hf]
    simp [announced, ht]

theorem decode_known {c : Interleaver.Chan} {bits : List Bool} {k : Option (BitVec 32)} :
    ErrorControl.decodeCp c true bits k = ErrorControl.decodeCp c true bits none := rfl

theorem decode_bnch {sb1 : Bool} {bits : List Bool} {k : Option (BitVec 32)} :
    ErrorControl.decodeCp .schHd sb1 bits k = ErrorControl.decodeCp .bnch sb1 bits k := rfl

/-- What arrives of a slot: the burst sent, with at most one wrong bit in each of its fields. -/
def Arrives (y : TickOut) (rx : List Bool) : Prop :=
  ∃ b, sendSlot y.slot = .ok b ∧
    (match y.slot.blk1.chan with
      | .bsch => SyncNear rx b
      | .schHd => HalfNear rx b
      | _ => FullNear rx b)

/-- The station is in step with the base station and has its scrambling code. -/
structure Synced (sc : Nat) (T : Time) (st : MsStack) : Prop where
  now : st.now = T
  code : st.lmac.code = some sc
  ts : st.lmac.ts = some T

theorem blocks_cons {s : MsStack} {b : MsBlock × Option BlockNum × List Bool} {bs : List (MsBlock × Option BlockNum × List Bool)}
    {c : MsCall} {u : UmacMs} {os : List MsOut} (h1 : s.lmac.rx b.1 b.2.1 b.2.2 = .ok [c]) (h2 : s.umac.call c = .ok (u, os))
    (h3 : os.foldl LmacMs.configure s.lmac = s.lmac) :
    s.blocks (b :: bs) = (do let q ← ({ s with umac := u } : MsStack).blocks bs; .ok (q.1, os ++ q.2)) := by
  simp only [MsStack.blocks, h1, Out.ofRes_ok, Out.bind_ok, MsStack.calls, h2, h3, List.append_nil]

theorem msRun_one {u m : UmacMs} {c : MsCall} {outs : List MsOut} (h : u.run [c] = .ok (m, outs)) : u.call c = .ok (m, outs) := by
  simp only [UmacMs.run, Out.bind_ok, List.append_nil] at h
  rw [Out.bind_eq_ok] at h
  obtain ⟨a, h1, h2⟩ := h
  cases h2
  exact h1

theorem rx_bbk {sc : Nat} {T : Time} {bits a : List Bool} (h : Rm3014.decodeAach bits (BitVec.ofNat 32 sc) = .ok a) :
    (⟨some sc, some T, false⟩ : LmacMs).rx .bbk none bits = .ok [.block T .aach none sc a] := by
  simp only [LmacMs.rx, LmacMs.chan, Res.bind_ok, h]
  rfl

theorem rx_cp {sc : Nat} {T : Time} {ty : MsBlock} {num : Option BlockNum} {bits a : List Bool} {c : Chan}
    (hch : (⟨some sc, some T, false⟩ : LmacMs).chan ty num = .ok c) (hc : c = .schF ∨ c = .schHd ∨ c = .bnch)
    (hd : ErrorControl.decodeCp (codeChan c) (ty == .sb1) bits (some (BitVec.ofNat 32 sc)) = .ok (some a, true)) :
    (⟨some sc, some T, false⟩ : LmacMs).rx ty num bits = .ok [.block T c num sc a] := by
  unfold LmacMs.rx
  rw [hch, Res.bind_ok]
  rcases hc with rfl | rfl | rfl <;> (simp only [Option.map_some, hd, Res.bind_ok]; rfl)

theorem rx_sb1 {sc : Nat} {T : Time} {num : Option BlockNum} {bits a : List Bool}
    (hd : ErrorControl.decodeCp .bsch true bits none = .ok (some a, true)) :
    (⟨some sc, some T, false⟩ : LmacMs).rx .sb1 num bits = .ok [.block T .bsch num 3 a] := by
  rw [← decode_known (k := some (BitVec.ofNat 32 sc))] at hd
  have hd' : ErrorControl.decodeCp (codeChan .bsch) (MsBlock.sb1 == .sb1) bits (some (BitVec.ofNat 32 sc)) = .ok (some a, true) := hd
  simp only [LmacMs.rx, LmacMs.chan, Res.bind_ok, Option.map_some, hd']
  rfl

theorem filter_sdus {outs : List MsOut} (h : ∀ o ∈ outs, o.isSdu = true) : outs.filter MsOut.isSdu = outs :=
  List.filter_eq_self.2 h

/-- A slot of the first timeslot. -/
theorem slot_heard {cfg : CellCfg} (hcfg : cfg.InRange) {scramb : Nat} {x : Time} (hx : x.valid) {es : List SchedEv} (hp : Proper es)
    {y : TickOut} (h : Built cfg scramb x es y) (ht : y.slot.ts.t = 1) {rx : List Bool} (hrx : Arrives y rx) {st : MsStack}
    (hst : Synced scramb (fromInt (x.toInt + ticksIn es + 1)) st) {m : UmacMs} {outs : List MsOut}
    (hu : st.umac.run (listenSlot 1 scramb y) = .ok (m, outs)) (ho : ∀ o ∈ outs, o.isSdu = true) :
    ∃ st' all, st.slot (some rx) = .ok (st', all) ∧ Synced scramb (slotTime x es) st' ∧ st'.umac = m ∧ all.filter MsOut.isSdu = outs := by
  obtain ⟨now, ⟨code, ts, tf⟩, u⟩ := st
  obtain ⟨h1, h2, h3⟩ := hst
  simp only at h1 h2 h3 hu
  subst h1 h2 h3
  have htm := c43_time cfg hcfg scramb x hx es hp y h
  have hadd : (fromInt (x.toInt + ticksIn es + 1)).addTimeslots 1 = .ok (slotTime x es) := by
    rw [fromInt_add _ _ (by omega) (by omega)]
    unfold slotTime
    congr 2
    omega
  have ha := fun u => call_aach hcfg hx hp h ht u scramb
  rw [htm] at ha
  have hf := first_slot hcfg hx hp h ht
  obtain ⟨b, hb, hn⟩ := hrx
  have hslot : ∀ tr, findDl rx = .ok (some ⟨tr, rx⟩) →
      (⟨fromInt (x.toInt + ticksIn es + 1), ⟨some scramb, some (fromInt (x.toInt + ticksIn es + 1)), tf⟩, u⟩ : MsStack).slot (some rx) =
      (⟨slotTime x es, ⟨some scramb, some (slotTime x es), false⟩, u⟩ : MsStack).blocks (splitDl tr rx) := by
    intro tr hfd
    simp only [MsStack.slot, LmacMs.tick, ne_eq, not_true, if_false, hadd, Res.bind_ok, Out.ofRes_ok, Out.bind_ok, hfd]
  cases hf with
  | full hc =>
    rw [hc] at hn
    obtain ⟨f1, f2, f3⟩ := c65_full cfg hcfg scramb x hx es hp y h hc b hb rx hn
    rw [hslot _ f1]
    rw [listenSlot, if_pos ht, hc, htm] at hu
    have hu := msRun_one hu
    have r2 : (⟨some scramb, some (slotTime x es), false⟩ : LmacMs).rx .ndb (some .both) (fullOf rx) =
        .ok [.block (slotTime x es) .schF (some .both) scramb (whole y.slot.blk1.blk)] :=
      rx_cp (by simp [LmacMs.chan]) (.inl rfl) f2
    refine ⟨⟨slotTime x es, ⟨some scramb, some (slotTime x es), false⟩, m⟩, [.setTraffic false] ++ outs, ?_, ⟨rfl, rfl, rfl⟩, rfl, ?_⟩
    · rw [splitDl, blocks_cons (rx_bbk f3) (ha u) rfl, blocks_cons r2 hu (configure_sdus ho)]
      simp [MsStack.blocks]
    · rw [List.filter_append, filter_sdus ho]; rfl
  | half hf hc r h2 hr =>
    rw [hc] at hn
    obtain ⟨f1, f2, f3, r', h2', f4⟩ := c65_half cfg hcfg scramb x hx es hp y h hc b hb rx hn
    cases h2.symm.trans h2'
    rw [hslot _ f1]
    rw [htm] at hf hr
    rw [listenSlot, if_pos ht, hc, htm] at hu
    have hu := msRun_one hu
    have hm : mandatoryBsch (slotTime x es) = false := by simp [mandatoryBsch, hf]
    have r2 : (⟨some scramb, some (slotTime x es), false⟩ : LmacMs).rx .ndb (some .block1) (field rx 14 216) =
        .ok [.block (slotTime x es) .schHd (some .block1) scramb (whole y.slot.blk1.blk)] :=
      rx_cp (by simp [LmacMs.chan, LmacMs.time, hm]) (.inr (.inl rfl)) f2
    rw [← decode_bnch] at f4
    have r3 : (⟨some scramb, some (slotTime x es), false⟩ : LmacMs).rx .ndb (some .block2) (field rx 282 216) =
        .ok [.block (slotTime x es) .schHd (some .block2) scramb (whole r.blk)] :=
      rx_cp (by simp [LmacMs.chan]) (.inr (.inl rfl)) f4
    obtain ⟨rest, hs⟩ := call_sys (u := m) (.inr rfl) (sc := scramb) hr
    refine ⟨⟨slotTime x es, ⟨some scramb, some (slotTime x es), false⟩, m⟩, [.setTraffic false] ++ (outs ++ [.sysinfo rest]), ?_,
      ⟨rfl, rfl, rfl⟩, rfl, ?_⟩
    · rw [splitDl, blocks_cons (rx_bbk f3) (ha u) rfl, blocks_cons r2 hu (configure_sdus ho), blocks_cons r3 hs rfl]
      simp [MsStack.blocks]
    · rw [List.filter_append, List.filter_append, filter_sdus ho]; simp [MsOut.isSdu]
  | sync hc p hp' r h2 hr =>
    rw [hc] at hn
    obtain ⟨f1, f2, f3, r', h2', f4⟩ := c65_sync cfg hcfg scramb x hx es hp y h hc b hb rx hn
    cases h2.symm.trans h2'
    rw [hslot _ f1]
    rw [htm] at hr
    simp only [listenSlot, if_pos ht, hc, UmacMs.run] at hu
    obtain ⟨rfl, rfl⟩ : u = m ∧ [] = outs := by simpa using hu
    have r2 : (⟨some scramb, some (slotTime x es), false⟩ : LmacMs).rx .sb1 (some .block1) (field rx 94 120) =
        .ok [.block (slotTime x es) .bsch (some .block1) 3 (whole y.slot.blk1.blk)] := rx_sb1 f2
    have hs1 : u.call (.block (slotTime x es) .bsch (some .block1) 3 (whole y.slot.blk1.blk)) = .ok (u, []) := by
      simp only [UmacMs.call, UmacMs.rxBsch, hp']
    obtain ⟨c, hcc, r3⟩ : ∃ c, (c = .bnch ∨ c = .schHd) ∧
        (⟨some scramb, some (slotTime x es), false⟩ : LmacMs).rx .sb2 (some .block2) (field rx 282 216) =
        .ok [.block (slotTime x es) c (some .block2) scramb (whole r.blk)] := by
      by_cases hm : mandatoryBnch (slotTime x es) = true
      · exact ⟨.bnch, .inl rfl, rx_cp (by simp [LmacMs.chan, LmacMs.time, hm]) (.inr (.inr rfl)) f4⟩
      · rw [← decode_bnch] at f4
        exact ⟨.schHd, .inr rfl, rx_cp (by simp [LmacMs.chan, LmacMs.time, hm]) (.inr (.inl rfl)) f4⟩
    obtain ⟨rest, hs⟩ := call_sys (u := u) hcc (sc := scramb) hr
    refine ⟨⟨slotTime x es, ⟨some scramb, some (slotTime x es), false⟩, u⟩, [.setTraffic false] ++ ([] ++ [.sysinfo rest]), ?_,
      ⟨rfl, rfl, rfl⟩, rfl, rfl⟩
    rw [splitDl, blocks_cons (rx_bbk f3) (ha u) rfl, blocks_cons r2 hs1 rfl, blocks_cons r3 hs rfl]
    simp [MsStack.blocks]

/-- What the radio of a station on the first timeslot gives in a history of the base station: nothing in the slots of other
timeslots, and what arrives in its own. -/
inductive OnAir : List (SchedEv × SchedRet) → List (Option (List Bool)) → Prop
  | nil : OnAir [] []
  | mine {y : TickOut} {rx : List Bool} {tr l} (ht : y.slot.ts.t = 1) (h : Arrives y rx) (hr : OnAir tr l) :
      OnAir ((.tick, .sent y) :: tr) (some rx :: l)
  | other {y : TickOut} {tr l} (ht : y.slot.ts.t ≠ 1) (hr : OnAir tr l) : OnAir ((.tick, .sent y) :: tr) (none :: l)
  | call {e : SchedEv} {r : SchedRet} {tr l} (he : e ≠ .tick) (hr : OnAir tr l) : OnAir ((e, r) :: tr) l

theorem step_sent {s s' : Sched} {e : SchedEv} {r : SchedRet} (h : s.step e = .ok (s', r)) :
    (e = .tick ∧ ∃ y, r = .sent y) ∨ (e ≠ .tick ∧ ∀ y, r ≠ .sent y) := by
  cases e with
  | tick =>
    left
    simp only [Sched.step] at h
    rw [Out.bind_eq_ok] at h; obtain ⟨_, _, h⟩ := h
    rw [Out.bind_eq_ok] at h; obtain ⟨_, _, h⟩ := h
    cases h; exact ⟨rfl, _, rfl⟩
  | hang => right; cases h; exact ⟨by simp, by simp⟩
  | systemWide => right; cases h; exact ⟨by simp, by simp⟩
  | _ =>
    right
    simp only [Sched.step] at h
    rw [Out.bind_eq_ok] at h; obtain ⟨_, _, h⟩ := h
    cases h; exact ⟨by simp, by simp⟩

theorem ticksIn_snoc (es : List SchedEv) (e : SchedEv) : ticksIn (es ++ [e]) = ticksIn es + if e = .tick then 1 else 0 := by
  simp only [ticksIn, List.countP_append, List.countP_cons, List.countP_nil]
  by_cases h : e = .tick <;> simp [h]

theorem slot_away {sc : Nat} {n : Int} {st : MsStack} (hst : Synced sc (fromInt n) st) :
    ∃ st', st.slot none = .ok (st', []) ∧ Synced sc (fromInt (n + 1)) st' ∧ st'.umac = st.umac := by
  obtain ⟨now, ⟨code, ts, tf⟩, u⟩ := st
  obtain ⟨h1, h2, h3⟩ := hst
  simp only at h1 h2 h3
  subst h1 h2 h3
  refine ⟨⟨fromInt (n + 1), ⟨some sc, some (fromInt (n + 1)), false⟩, u⟩, ?_, ⟨rfl, rfl, rfl⟩, rfl⟩
  simp only [MsStack.slot, LmacMs.tick, ne_eq, not_true, if_false, fromInt_add _ 1 (by omega) (by omega), Res.bind_ok, Out.ofRes_ok,
    Out.bind_ok]

theorem air_run {cfg : CellCfg} (hcfg : cfg.InRange) {scramb : Nat} {x : Time} (hx : x.valid) {es0 es : List SchedEv}
    (hp : Proper (es0 ++ es)) {s s' : Sched} {tr0 tr : List (SchedEv × SchedRet)}
    (h0 : (Sched.init x scramb (Precomps.generate cfg)).run es0 = .ok (s, tr0)) (h : s.run es = .ok (s', tr))
    {l : List (Option (List Bool))} (ha : OnAir tr l) {st : MsStack} (hst : Synced scramb (fromInt (x.toInt + ticksIn es0 + 1)) st)
    {m : UmacMs} {outs : List MsOut} (hu : st.umac.run (listenOn 1 scramb tr) = .ok (m, outs)) (ho : ∀ o ∈ outs, o.isSdu = true) :
    ∃ st' all, st.run l = .ok (st', all) ∧ Synced scramb (fromInt (x.toInt + ticksIn (es0 ++ es) + 1)) st' ∧ st'.umac = m ∧
      all.filter MsOut.isSdu = outs := by
  induction es generalizing es0 s tr0 tr l st outs with
  | nil =>
    cases h; cases ha; cases hu
    exact ⟨st, [], rfl, by simpa using hst, rfl, rfl⟩
  | cons e es ih =>
    obtain ⟨a, tr1, k1, k2, k3⟩ := srun_cons h
    obtain ⟨s1, ret⟩ := a
    simp only at k2 k3
    subst k3
    have hrun1 : (Sched.init x scramb (Precomps.generate cfg)).run (es0 ++ [e]) = .ok (s1, tr0 ++ [(e, ret)]) :=
      srun_joined h0 (by simp [Sched.run, k1])
    have hp1 : Proper (es0 ++ [e] ++ es) := by simpa using hp
    rw [listenOn_cons, msRun_append, Out.bind_eq_ok] at hu
    obtain ⟨r1, u1, hu⟩ := hu
    rw [Out.bind_eq_ok] at hu
    obtain ⟨r2, u2, hu⟩ := hu
    simp only [Out.ok.injEq, Prod.mk.injEq] at hu
    obtain ⟨hm, houts⟩ := hu
    subst houts
    have hcount := ticksIn_snoc es0 e
    rw [show es0 ++ e :: es = es0 ++ [e] ++ es by simp]
    cases ha with
    | @mine y rx _ l ht har hr =>
      obtain ⟨st1, all1, q1, q2, q3, q4⟩ := slot_heard hcfg hx (fun e he => hp e (by simp [he])) ⟨s1, tr0, hrun1⟩ ht har hst u1
        (fun o h' => ho o (by simp [h']))
      rw [slotTime, show x.toInt + (ticksIn es0 : Int) + 2 = x.toInt + ticksIn (es0 ++ [.tick]) + 1 by rw [hcount]; simp; omega] at q2
      rw [← q3] at u2
      obtain ⟨st2, all2, w1, w2, w3, w4⟩ := ih hp1 hrun1 k2 hr q2 (outs := r2.2) (by rw [u2, ← hm]) (fun o h' => ho o (by simp [h']))
      refine ⟨st2, all1 ++ all2, by simp only [MsStack.run, q1, Out.bind_ok, w1], w2, w3, ?_⟩
      rw [List.filter_append, q4, w4]
    | @other y _ l ht hr =>
      obtain ⟨st1, q1, q2, q3⟩ := slot_away hst
      rw [show x.toInt + (ticksIn es0 : Int) + 1 + 1 = x.toInt + ticksIn (es0 ++ [.tick]) + 1 by rw [hcount]; simp; omega] at q2
      have : r1 = (st.umac, []) := by
        simp only [listenRet, listenSlot, if_neg ht, UmacMs.run] at u1
        exact (Out.ok.inj u1).symm
      subst this
      rw [← q3] at u2
      obtain ⟨st2, all2, w1, w2, w3, w4⟩ := ih hp1 hrun1 k2 hr q2 (outs := r2.2) (by rw [u2, ← hm]) (fun o h' => ho o (by simp [h']))
      exact ⟨st2, all2, by simp only [MsStack.run, q1, Out.bind_ok, w1, List.nil_append], w2, w3, by simpa using w4⟩
    | call he hr =>
      rcases step_sent k1 with ⟨h', _⟩ | ⟨_, hns⟩
      · exact absurd h' he
      have : r1 = (st.umac, []) := by
        have : listenRet 1 scramb ret = [] := by
          cases ret with
          | sent y => exact absurd rfl (hns y)
          | _ => rfl
        simp only [this, UmacMs.run] at u1
        exact (Out.ok.inj u1).symm
      subst this
      rw [if_neg he] at hcount
      obtain ⟨st2, all2, w1, w2, w3, w4⟩ := ih hp1 hrun1 k2 hr (st := st) (by rw [hcount]; exact hst) (outs := r2.2) (by rw [u2, ← hm])
        (fun o h' => ho o (by simp [h']))
      exact ⟨st2, all2, w1, w2, w3, by simpa using w4⟩

/-- A station which has just been told the scrambling code and the time of the cell, `now`. -/
def MsStack.camped (sc : Nat) (now : Time) : MsStack := ⟨now, ⟨some sc, some now, false⟩, .init⟩

theorem heard_sdus {sc : Nat} {ms : List Wanted} {outs : List MsOut} (h : Heard sc ms outs) : ∀ o ∈ outs, o.isSdu = true := by
  induction h with
  | nil => simp
  | whole _ ih =>
    intro o ho
    rcases List.mem_append.1 ho with ho | ho
    · split at ho <;> simp at ho
      subst ho; rfl
    · exact ih o ho
  | short _ _ _ _ _ ih =>
    intro o ho
    rcases List.mem_append.1 ho with ho | ho
    · split at ho <;> simp at ho
      subst ho; rfl
    · exact ih o ho

/-- **C81, over the air.** A station which listens on the control channel, in step with the cell and with its scrambling code, and
with at most one wrong bit in each field of each burst: lower and upper MAC do not abort, stay in step, and pass up the messages
the base station reports as transmitted, in that order. -/
theorem c81_on_air_partial (cfg : CellCfg) (hcfg : cfg.InRange) (scramb : Nat) (x : Time) (hx : x.valid) (es : List SchedEv)
    (hp : Proper es) (n : Nat) (want : Nat → Option Wanted) (hfit : ∀ e ∈ es, e.Fits 1 want) (hu : ∀ e ∈ es, e.Uniform 1 n)
    (hlen : ∀ id m, want id = some m → 4 ≤ m.sdu.length) (s' : Sched) (tr : List (SchedEv × SchedRet))
    (h : (Sched.init x scramb (Precomps.generate cfg)).run es = .ok (s', tr)) (l : List (Option (List Bool))) (ha : OnAir tr l) :
    ∃ st all, (MsStack.camped scramb (fromInt (x.toInt + 1))).run l = .ok (st, all) ∧
      Synced scramb (fromInt (x.toInt + ticksIn es + 1)) st ∧
      Heard scramb (told want (reported tr)) (all.filter MsOut.isSdu) := by
  obtain ⟨m, outs, h1, h2⟩ := c81_partial x scramb scramb _ es 1 n (by decide) want (fun e he => (hp e he).1) hfit hu hlen s' tr h
  obtain ⟨st, all, q1, q2, _, q4⟩ := air_run hcfg hx (es0 := []) hp rfl h ha (st := .camped scramb (fromInt (x.toInt + 1)))
    ⟨by simp [MsStack.camped, ticksIn], rfl, by simp [MsStack.camped, ticksIn]⟩ h1 (heard_sdus h2)
  exact ⟨st, all, q1, by simpa using q2, by rw [q4]; exact h2⟩

/-! ## Such bursts exist -/

theorem near_self (a : List Bool) : ErrorControl.AtMostOneError a a := ⟨rfl, 0, fun _ _ => rfl⟩

/-- In every history there is something to receive: the bursts themselves. -/
theorem onAir_self {cfg : CellCfg} (hcfg : cfg.InRange) {scramb : Nat} {x : Time} (hx : x.valid) {es0 es : List SchedEv}
    (hp : Proper (es0 ++ es)) {s s' : Sched} {tr0 tr : List (SchedEv × SchedRet)}
    (h0 : (Sched.init x scramb (Precomps.generate cfg)).run es0 = .ok (s, tr0)) (h : s.run es = .ok (s', tr)) : ∃ l, OnAir tr l := by
  induction es generalizing es0 s tr0 tr with
  | nil => cases h; exact ⟨[], .nil⟩
  | cons e es ih =>
    obtain ⟨a, tr1, k1, k2, k3⟩ := srun_cons h
    obtain ⟨s1, ret⟩ := a
    simp only at k2 k3
    subst k3
    have hrun1 : (Sched.init x scramb (Precomps.generate cfg)).run (es0 ++ [e]) = .ok (s1, tr0 ++ [(e, ret)]) :=
      srun_joined h0 (by simp [Sched.run, k1])
    obtain ⟨l, hl⟩ := ih (by simpa using hp) hrun1 k2
    rcases step_sent k1 with ⟨rfl, y, rfl⟩ | ⟨he, _⟩
    · by_cases ht : y.slot.ts.t = 1
      · obtain ⟨b, hb, hbl⟩ := c65_sent cfg hcfg scramb x hx es0 (fun e he => hp e (by simp [he])) y ⟨s1, tr0, hrun1⟩
        refine ⟨some b :: l, .mine ht ⟨b, hb, ?_⟩ hl⟩
        split
        · exact ⟨hbl, near_self _, near_self _, near_self _, near_self _⟩
        · exact ⟨hbl, near_self _, near_self _, near_self _, near_self _⟩
        · exact ⟨hbl, near_self _, near_self _, near_self _⟩
      · exact ⟨none :: l, .other ht hl⟩
    · exact ⟨l, .call he hl⟩

/-! ## Checksums -/

theorem decodeCp_checked {c : Interleaver.Chan} {sb1 : Bool} {bits b : List Bool} {k : Option (BitVec 32)}
    (h : ErrorControl.decodeCp c sb1 bits k = .ok (some b, true)) :
    ∃ w : List Bool, b = w.take (Interleaver.params c).type1 ∧ Crc16.check w (Interleaver.params c).type1 = true := by
  unfold ErrorControl.decodeCp at h
  rw [Res.bind_eq_ok] at h
  obtain ⟨_, _, h⟩ := h
  dsimp only at h
  split at h
  · cases h
  · simp only [Res.bind_eq_ok] at h
    obtain ⟨a, _, a2, _, a3, _, w, _, _, _, h⟩ := h
    simp only [Res.pure_eq, Res.ok.injEq, Prod.mk.injEq, Option.some.injEq] at h
    exact ⟨w, h.1.symm, h.2⟩

/-- **C81, checksums.** Whatever block the lower MAC passes up, on whatever channel but the access assignment (which has no
checksum), is what the received bits decode to with the cell's scrambling code, and its 16 bit checksum is right. -/
theorem c81_checked (s : LmacMs) (ty : MsBlock) (num : Option BlockNum) (bits : List Bool) (cs : List MsCall)
    (h : s.rx ty num bits = .ok cs) (t : Time) (c : Chan) (n : Option BlockNum) (k : Nat) (b : List Bool)
    (hb : .block t c n k b ∈ cs) (hc : c ≠ .aach) :
    ErrorControl.decodeCp (codeChan c) (ty == .sb1) bits (s.code.map (BitVec.ofNat 32)) = .ok (some b, true) ∧
      ∃ w : List Bool, b = w.take (Interleaver.params (codeChan c)).type1 ∧
        Crc16.check w (Interleaver.params (codeChan c)).type1 = true := by
  have key : ErrorControl.decodeCp (codeChan c) (ty == .sb1) bits (s.code.map (BitVec.ofNat 32)) = .ok (some b, true) := by
    unfold LmacMs.rx at h
    rw [Res.bind_eq_ok] at h
    obtain ⟨d, _, h⟩ := h
    cases d with
    | aach =>
      cases hk : s.code with
      | none => rw [hk] at h; cases h; simp at hb
      | some k' =>
        rw [hk] at h
        simp only [Res.bind_eq_ok] at h
        obtain ⟨a, _, h⟩ := h
        cases h
        simp only [List.mem_singleton, MsCall.block.injEq] at hb
        exact absurd hb.2.1 hc
    | tchS => cases h; simp at hb
    | _ =>
      simp only [Res.bind_eq_ok] at h
      obtain ⟨r, hr, h⟩ := h
      split at h
      · split at h
        · cases h
          simp only [List.mem_singleton, MsCall.block.injEq] at hb
          obtain ⟨_, rfl, _, _, rfl⟩ := hb
          exact hr
        · split at h
          · cases h
            simp only [List.mem_singleton, MsCall.block.injEq] at hb
            obtain ⟨_, rfl, _, _, rfl⟩ := hb
            exact hr
          · cases h
      · cases h; simp at hb
  exact ⟨key, decodeCp_checked key⟩

/-! ## Without the scrambling code -/

theorem rx_deaf {s : LmacMs} (hc : s.code = none) {ty : MsBlock} {num : Option BlockNum} {bits : List Bool} {cs : List MsCall}
    (h : s.rx ty num bits = .ok cs) : cs = [] ∨ ∃ b, cs = [.block s.time .bsch num 3 b] := by
  unfold LmacMs.rx at h
  rw [Res.bind_eq_ok] at h
  obtain ⟨c, hch, h⟩ := h
  have hsb : c = .bsch ∨ ty ≠ .sb1 := by
    cases ty with
    | sb1 => left; cases hch; rfl
    | _ => right; simp
  rw [hc] at h
  have other : ∀ k, ty ≠ .sb1 → ∀ r, ErrorControl.decodeCp k (ty == .sb1) bits none = .ok r → r = (none, false) := by
    intro k hty r hr
    unfold ErrorControl.decodeCp at hr
    rw [Res.bind_eq_ok] at hr
    obtain ⟨_, _, hr⟩ := hr
    simp only [beq_iff_eq, hty, if_false] at hr
    cases hr; rfl
  cases c with
  | aach => cases h; exact .inl rfl
  | tchS => cases h; exact .inl rfl
  | bsch =>
    simp only [Option.map_none] at h
    rw [Res.bind_eq_ok] at h
    obtain ⟨r, _, h⟩ := h
    split at h
    · cases h; exact .inr ⟨_, rfl⟩
    · cases h; exact .inl rfl
  | _ =>
    simp only [Option.map_none] at h
    rw [Res.bind_eq_ok] at h
    obtain ⟨r, hr, h⟩ := h
    cases other _ (by rcases hsb with hsb | hsb; cases hsb; exact hsb) r hr
    cases h; exact .inl rfl

theorem blocks_deaf {s : MsStack} (hc : s.lmac.code = none) {bs : List (MsBlock × Option BlockNum × List Bool)} {s' : MsStack}
    {all : List MsOut} (h : s.blocks bs = .ok (s', all)) : all = [] ∧ s' = s := by
  induction bs generalizing s all with
  | nil => cases h; exact ⟨rfl, rfl⟩
  | cons b bs ih =>
    simp only [MsStack.blocks] at h
    rw [Out.bind_eq_ok] at h; obtain ⟨cs, h1, h⟩ := h
    rw [Out.bind_eq_ok] at h; obtain ⟨r, h2, h⟩ := h
    rw [Out.bind_eq_ok] at h; obtain ⟨q, h3, h⟩ := h
    cases h
    have hr : r = (s, []) := by
      rcases rx_deaf hc (Out.ofRes_eq_ok.1 h1) with rfl | ⟨b, rfl⟩
      · cases h2; rfl
      · simp only [MsStack.calls, UmacMs.call] at h2
        rw [Out.bind_eq_ok] at h2; obtain ⟨w, h4, h2⟩ := h2
        cases h2
        unfold UmacMs.rxBsch at h4
        split at h4 <;> cases h4
        rfl
    subst hr
    obtain ⟨e1, e2⟩ := ih hc h3
    exact ⟨by simp [e1], e2⟩

/-- **C81, finding.** A station which has just been switched on stays deaf: it is never given the scrambling code of the cell
(`c81_never_scrambles`), and without it nothing which arrives, whatever it is, is passed up or changes its time. -/
theorem c81_deaf (now : Time) (u : UmacMs) (l : List (Option (List Bool))) (st : MsStack) (all : List MsOut)
    (h : (⟨now, .init, u⟩ : MsStack).run l = .ok (st, all)) : all = [] ∧ st.lmac = .init ∧ st.umac = u := by
  induction l generalizing now all with
  | nil => cases h; exact ⟨rfl, rfl, rfl⟩
  | cons b l ih =>
    simp only [MsStack.run] at h
    rw [Out.bind_eq_ok] at h; obtain ⟨r, h1, h⟩ := h
    rw [Out.bind_eq_ok] at h; obtain ⟨q, h2, h⟩ := h
    cases h
    have : r.2 = [] ∧ ∃ n, r.1 = ⟨n, .init, u⟩ := by
      simp only [MsStack.slot, LmacMs.tick, LmacMs.init, Out.ofRes_ok, Out.bind_ok] at h1
      rw [Out.bind_eq_ok] at h1; obtain ⟨n, _, h1⟩ := h1
      cases b with
      | none => cases h1; exact ⟨rfl, n, rfl⟩
      | some b =>
        simp only at h1
        rw [Out.bind_eq_ok] at h1; obtain ⟨f, _, h1⟩ := h1
        cases f with
        | none => cases h1; exact ⟨rfl, n, rfl⟩
        | some f =>
          obtain ⟨e1, e2⟩ := blocks_deaf rfl (s' := r.1) (all := r.2) h1
          exact ⟨e1, n, e2⟩
    obtain ⟨e1, n, e2⟩ := this
    rw [e2] at h2
    obtain ⟨w1, w2, w3⟩ := ih n q.2 h2
    exact ⟨by simp [e1, w1], w2, w3⟩

/-! ## What the lower MAC is told -/

/-- The mandatory broadcast slots of a mobile station are those of the base station (C04). -/
theorem c81_mandatory (t : Time) : mandatoryBsch t = t.isMandatoryBsch ∧ mandatoryBnch t = t.isMandatoryBnch := by
  constructor
  · unfold mandatoryBsch Time.isMandatoryBsch
    have := Nat.mod_lt (t.m + 1) (show 0 < 4 by decide)
    rw [Bool.eq_iff_iff]
    simp
    omega
  · unfold mandatoryBnch Time.isMandatoryBnch
    have := Nat.mod_lt (t.m + 3) (show 0 < 4 by decide)
    rw [Bool.eq_iff_iff]
    simp
    omega

/-- **C81.** A station which knows the colour code and is told its network descrambles with the code of that cell. -/
theorem c81_tuned (st st' : MsStack) (outs : List MsOut) (mcc mnc cc : Nat) (hcc : st.umac.cc = some cc) (h1 : 1 ≤ cc) (h2 : cc < 64)
    (hn : mnc < 16384) (hm : mcc < 1024) (h : st.calls [.configure (some (mcc, mnc))] = .ok (st', outs)) :
    st'.lmac.code = some (Scrambler.getInit mcc mnc cc).toNat := by
  simp only [MsStack.calls, UmacMs.call, Out.bind_ok, UmacMs.updateScramb, hcc] at h
  cases h
  simp only [List.foldl, LmacMs.configure, Option.some.injEq]
  rw [Scrambler.getInit_toNat _ _ _ h1 h2 hn hm]
  have e1 : (cc ||| mnc <<< 6) = mnc * 64 + cc := by
    have := Nat.two_pow_add_eq_or_of_lt (show cc < 2 ^ 6 by omega) mnc
    rw [Nat.or_comm, Nat.shiftLeft_eq, Nat.mul_comm mnc, ← this, Nat.mul_comm]
  have e2 : (cc ||| mnc <<< 6 ||| mcc <<< 20) = (mcc * 16384 + mnc) * 64 + cc := by
    rw [e1]
    have := Nat.two_pow_add_eq_or_of_lt (show mnc * 64 + cc < 2 ^ 20 by omega) mcc
    rw [Nat.or_comm, Nat.shiftLeft_eq, Nat.mul_comm mcc, ← this]; omega
  have e3 := Nat.two_pow_add_eq_or_of_lt (show 3 < 2 ^ 2 by omega) ((mcc * 16384 + mnc) * 64 + cc)
  rw [e2, Nat.shiftLeft_eq, Nat.mul_comm _ (2 ^ 2), ← e3]
  omega

/-- **C81.** The time which a station takes from a broadcast block: the hyperframe is the one announced. -/
theorem c81_hyperframe (st st' : MsStack) (outs : List MsOut) (t : Time) (sc : Nat) (p : MacSysinfo) (rest l : List Bool) (h : Nat)
    (hd : MacSysinfo.dec.run (true :: false :: false :: false :: l) = .ok (p, rest)) (hp : p.hyperframe = some h) (ht : st.lmac.ts = some t)
    (hr : st.calls [.block t .bnch (some .block2) sc (true :: false :: false :: false :: l)] = .ok (st', outs)) :
    st'.lmac.ts = some { t with h := h } := by
  have hb : st.umac.round t sc (true :: false :: false :: false :: l) =
      .ok (st.umac, (if h ≠ t.h then [MsOut.setTime { t with h := h }] else []) ++ [.sysinfo rest], none) := by
    simp only [UmacMs.round, UmacMs.rxBroadcast, hd, hp]
  simp only [MsStack.calls, UmacMs.call, or_true, if_true, UmacMs.rxSch, UmacMs.loop, hb, Out.bind_ok] at hr
  cases hr
  by_cases e : h = t.h
  · subst e
    simp [LmacMs.configure, ht]
  · simp [e, LmacMs.configure]

/-- **C81, finding.** The clock of the message router is not told: in the timeslot after such a change the station aborts. -/
theorem c81_hyperframe_aborts (st st' : MsStack) (outs : List MsOut) (t : Time) (sc : Nat) (p : MacSysinfo) (rest l : List Bool) (h : Nat)
    (hd : MacSysinfo.dec.run (true :: false :: false :: false :: l) = .ok (p, rest)) (hp : p.hyperframe = some h) (hh : h ≠ t.h)
    (ht : st.lmac.ts = some t) (hn : st.now = t)
    (hr : st.calls [.block t .bnch (some .block2) sc (true :: false :: false :: false :: l)] = .ok (st', outs)) (rx : Option (List Bool)) :
    st'.slot rx = .panic := by
  have h1 := c81_hyperframe st st' outs t sc p rest l h hd hp ht hr
  have h2 : st'.now = t := by
    simp only [MsStack.calls] at hr
    rw [Out.bind_eq_ok] at hr; obtain ⟨r, _, hr⟩ := hr
    cases hr
    exact hn
  have h3 : ({ t with h := h } : Time) ≠ t := fun e => hh (by rw [← e])
  simp [MsStack.slot, LmacMs.tick, h1, h2, h3, Out.ofRes]

/-- A broadcast block which announces hyperframe 0, heard by a station in hyperframe 5. -/
example : ∃ l p rest, MacSysinfo.dec.run (true :: false :: false :: false :: l) = .ok (p, rest) ∧ p.hyperframe = some 0 ∧
    (0 : Nat) ≠ (⟨1, 18, 3, 5⟩ : Time).h :=
  ⟨List.replicate 120 false, ⟨0, 0, 0, 0, false, 0, 0, 0, 0, 0, none, some 0, 0, none, none, none⟩, List.replicate 42 false,
    by decide +kernel⟩

end Verif.Umac
