import Verif.Station.SampleAck
import Verif.Station.Called
import Verif.Phy.LoopFindings
/-!
# The whole base station: a sample of a call

A station registers with its group in a full slot, then asks for a call to the group; the messages which connect it go out. C99 is not empty.
-/
namespace Verif.Phy
open Verif.Tdma Verif.Umac Verif.ErrorControl

variable {brew : Bool} {carrier scramb : Nat} {x : Time} {wide : Bool} {pre : Precomps} {code : BitVec 32}

/-- After every history, a station sends any block of the size of a slot and without bad PDUs outside traffic, and the rest is silence: the
upper MAC is told this block and nothing else. -/
theorem alone_full (hx : x.valid) {h : List (CellEv × CellOut)} {c : Cell} (hr : CellRun ⟨.init brew carrier x scramb wide pre, .init code⟩ h c)
    (hf : Fresh h) {l : List DlSlot} {o o1 o2 o3 : DlSlot} (hs : sentOf h = l ++ [o, o1, o2, o3]) (hcp : o.ulPhy = .cp) {m t : List Bool}
    (hm : m.length = 268) (ht : encodeCp .schF m code = .ok t) (hb : ∀ p ∈ pdusOf .schF m, ¬ p.Bad) :
    ∃ c' calls, c.up ⟨voiceAir t, silence 254, silence 254⟩ = .ok (c', calls) ∧ calls.map Prod.fst = [.block ⟨.schF, .both, o.ts⟩ m] := by
  obtain ⟨t', e1, e2, e3⟩ := c14_roundtrip .schF rfl m hm code
  rw [ht] at e1; cases e1
  have e2 : t.length = 432 := e2
  have dec : decodeCp .schF false t (some code) = .ok (some m, true) := e3 t false (some code) ⟨rfl, 0, fun _ _ => rfl⟩ rfl
  have sized : Air.Sized ⟨voiceAir t, silence 254, silence 254⟩ := ⟨voiceAir_length e2, silence_length 254, silence_length 254⟩
  have only : ∀ ch d, Carried code (o.ulPhy == .tp) ⟨voiceAir t, silence 254, silence 254⟩ ch d → ch = .schF ∧ d = m := by
    intro ch d hc
    cases hc with
    | sub rx p d hrx S hd =>
      rcases hrx with rfl | rfl <;> exact absurd silent_sub S.not
    | full p d _ S hd =>
      rw [Spot.unique S (voiceAir_spot e2), voiceAir_bits e2, dec] at hd
      cases hd; exact ⟨rfl, rfl⟩
    | half1 p d N S => exact absurd N (voiceAir_spot e2).not
    | half2 p d1 d N S => exact absurd N (voiceAir_spot e2).not
  obtain ⟨⟨c', calls⟩, hu⟩ := c68_partial hx hr hf hs sized
    (fun ch d hc => by obtain ⟨rfl, rfl⟩ := only ch d hc; exact hb)
    (fun ch d hc _ => by
      obtain ⟨rfl, rfl⟩ := only ch d hc
      exact ⟨fun h => (by cases h), silent_sub, silent_sub⟩)
  refine ⟨c', calls, hu, ?_⟩
  obtain ⟨f, y, z, v, rfl, h1, h2, h3⟩ := c67_exact hx hr hf hs sized hu
  have hz : z.map Prod.fst = [] := by
    cases h3' : z.map Prod.fst with
    | nil => rfl
    | cons e z' =>
      rw [h3'] at h3
      cases h3 with
      | good p d S => exact absurd silent_sub S.not
  have hy : y.map Prod.fst = [] := by
    cases h2' : y.map Prod.fst with
    | nil => rfl
    | cons e z' =>
      rw [h2'] at h2
      cases h2 with
      | good p d S => exact absurd silent_sub S.not
  rw [hcp] at h1
  have hfv : f.map Prod.fst = [.block ⟨.schF, .both, o.ts⟩ m] ∧ v.map Prod.fst = [] := by
    generalize v.map Prod.fst = v' at h1
    cases h1 with
    | silent N => exact absurd N (voiceAir_spot e2).not
    | voice p d ok h => cases h
    | bad p d _ S hd => rw [Spot.unique S (voiceAir_spot e2), voiceAir_bits e2, dec] at hd; cases hd
    | good p d out _ S hd => rw [Spot.unique S (voiceAir_spot e2), voiceAir_bits e2, dec] at hd; cases hd; exact ⟨rfl, rfl⟩
    | halves p d1 d2 ok1 ok2 x1 x2 N => exact absurd N (voiceAir_spot e2).not
  simp [hfv.1, hfv.2, hy, hz]

end Verif.Phy

namespace Verif.Station
open Verif.Tdma Verif.Codec
open Verif.Phy (Air Cell CellEv CellOut CellRun callsOf callsOf_append c67_history sentOf slotsOut silence ctlAir voiceAir)
open Verif.Umac (TmaReq ChanReq MacCtl UmacOut UmacEv Report Block Addr UmacRun UmacBs Precomps SchedEv SchedRet MacResource AddrOk
  Carried bitsIn reportsIn reported UmacMs Wanted Proper CellCfg)
open Verif.ErrorControl (encodeCp)
open Verif.Cmce.Pdu (USetup)
open Verif.Cmce (NoReuse heardIn updatesIn affiliated Serveable)

/-- A block in a full slot reaches the upper MAC of the base station. -/
theorem hear_full {c : Sig.Cfg} {brew : Bool} {carrier scramb : Nat} {x : Time} {wide : Bool} {cfg : CellCfg} {code : BitVec 32} (hx : x.valid)
    {ins : List In} {h u t : Trace} {s l l' : Station}
    (hr : Run c ⟨.init brew carrier x scramb wide (Precomps.generate cfg), .init code⟩ ins h s) (hl : Like s l) (ht : Same h u)
    {ka kb : List (Option Bool)} (hk : u.radio.map (kind ·.1) = ka ++ some true :: kb) (hkb : some false ∉ kb)
    {p : List (Time × Bool)} {t0 t1 t2 t3 : Time × Bool} (hsent : (sentOf u.radio).map (fun o => (o.ts, o.ulPhy == .cp)) = p ++ [t0, t1, t2, t3])
    (hcp : t0.2 = true) {m : List Bool} (hm : m.length = 268) (hb : ∀ p ∈ Umac.pdusOf .schF m, ¬ p.Bad) {a' : Air}
    (hs : liteAir c l a' ⟨.schF, .both, t0.1⟩ m = .ok (l', t)) :
    ∃ a s' h' out l0 o o1 o2 o3, Run c ⟨.init brew carrier x scramb wide (Precomps.generate cfg), .init code⟩ (ins ++ [.air a]) h' s' ∧ Like s' l' ∧
      Same h' (u.add t) ∧ h'.radio = h.radio ++ [(.up a, out)] ∧ Verif.Phy.Fresh h.radio ∧ sentOf h.radio = l0 ++ [o, o1, o2, o3] ∧ a.Sized ∧
      OnAir code o a .schF m ∧ o.ts = t0.1 := by
  have hsent' : (sentOf h.radio).map (fun o => (o.ts, o.ulPhy == .cp)) = p ++ [t0, t1, t2, t3] := by
    unfold sentOf at hsent ⊢
    rw [ht.radio]; exact hsent
  obtain ⟨l0, o, o1, o2, o3, hs0, ho⟩ : ∃ l0 o o1 o2 o3, sentOf h.radio = l0 ++ [o, o1, o2, o3] ∧ (o.ts, o.ulPhy == .cp) = t0 := by
    obtain ⟨l0, l1, e1, _, e2⟩ := List.map_eq_append_iff.1 hsent'
    match l1, e2 with
    | [o, o1, o2, o3], e2 =>
      simp only [List.map_cons, List.map_nil, List.cons.injEq] at e2
      exact ⟨l0, o, o1, o2, o3, e1, e2.1⟩
  subst ho
  have hcp : o.ulPhy = .cp := by
    simp only at hcp; revert hcp; generalize o.ulPhy = q; intro h; cases q <;> first | rfl | cases h
  obtain ⟨tb, htb, htl, _⟩ := ErrorControl.c14_roundtrip .schF rfl m hm code
  have htl : tb.length = 432 := htl
  have hf : Verif.Phy.Fresh h.radio := fresh_of (by rw [ht.what]; exact hk) hkb
  obtain ⟨c', calls, hu, hc⟩ := Verif.Phy.alone_full hx (run_both hr).cell hf hs0 hcp hm htb hb
  obtain ⟨s2, out, u2, r2, q2, p2, w2⟩ := air_like hr hl ht hu hc hs
  exact ⟨_, s2, _, out, l0, o, o1, o2, o3, r2, q2, p2, by simp [Trace.add, w2], hf, hs0,
    ⟨Verif.Phy.voiceAir_length htl, Verif.Phy.silence_length 254, Verif.Phy.silence_length 254⟩,
    .full hcp (Verif.Phy.voiceAir_spot htl) hm htb (by rw [Verif.Phy.voiceAir_bits htl]; exact ⟨rfl, 0, fun _ _ => rfl⟩), rfl⟩

/-- A message of station 1001 in a full slot. -/
def fullBlock (pdu : List Bool) : List Bool :=
  Umac.blockOf 268 (Umac.MacData.enc ⟨true, false, some regAddr, none, some 33, none, none⟩) (pdu ++ Umac.fillPattern (264 - 37 - pdu.length))

/-- It registers with group 91; it asks for a call to this group. -/
def memPdu : List Bool := Sig.blData false 1 (Sig.demand 1001)
def callPdu : List Bool := Sig.blData true 2 Sig.setup

def afterMem : List In := List.replicate 12 .deliver ++ [.llcEnd, .deliver, .deliverMac, .deliverMac, sampleTick, sampleTick, sampleTick, .llcEnd, sampleTick]
def afterCall : List In := List.replicate 16 .deliver ++ [.llcEnd] ++ List.replicate 8 .deliverMac ++
  [sampleTick, sampleTick, sampleTick, sampleTick, sampleTick, sampleTick, .llcEnd] ++ List.replicate 6 .deliver

/-- The calls before and after the request. -/
def splitAt (msg : List Bool) : List Sig.Call → Option (List Sig.Call × Sig.Stamp × List Cmce.BsOut × List Sig.Call)
  | [] => none
  | k :: l => match k with
    | .cmce p (.mobile 1001 sdu) out => if sdu = msg then some ([], p, out, l) else (splitAt msg l).map fun r => (k :: r.1, r.2)
    | _ => (splitAt msg l).map fun r => (k :: r.1, r.2)

theorem splitAt_ok {msg : List Bool} {l k1 k2 : List Sig.Call} {p : Sig.Stamp} {out : List Cmce.BsOut} (h : splitAt msg l = some (k1, p, out, k2)) :
    l = k1 ++ .cmce p (.mobile 1001 msg) out :: k2 := by
  induction l generalizing k1 with
  | nil => cases h
  | cons k l ih =>
    have key : (splitAt msg l).map (fun r => (k :: r.1, r.2)) = some (k1, p, out, k2) → k :: l = k1 ++ .cmce p (.mobile 1001 msg) out :: k2 := by
      intro h
      obtain ⟨r, h1, h2⟩ := Option.map_eq_some_iff.1 h
      obtain ⟨r1, r2, r3, r4⟩ := r
      simp only [Prod.mk.injEq] at h2
      obtain ⟨rfl, rfl, rfl, rfl⟩ := h2
      rw [ih h1]; rfl
    unfold splitAt at h
    split at h
    · split at h
      · rename_i e; cases h; rw [e]; rfl
      · exact key h
    · exact key h

/-- The events of the scheduler here: ticks, ordinary messages on the control channel, and the opening of timeslot 2. -/
def okEvent : SchedEv → Bool
  | .message t _ _ p _ => decide (t = 1) && decide (p.posOfGrant = 0) && decide (p.encryptionMode = 0) && decide (p.eventLabel = none) &&
    decide (p.powerControl = none) && decide (p.slotGrant = none) && p.usageMarker.all (fun u => decide (u < 64)) &&
    (match p.addr with | none => false | some a => decide (a.ssi < 2 ^ 24) && !a.encrypted && (decide (a.ssiType = .ssi) || decide (a.ssiType = .issi) || decide (a.ssiType = .gssi))) &&
    (match p.chanAlloc with | none => true | some a => decide (a = (chanOf (some 4, 2)).toMac 1521))
  | .tick => true
  | .create d c => (decide (d = .dl) || decide (d = .ul)) && decide (c.ts = 2) && decide (c.usage = 4)
  | _ => false

theorem okEvent_ok {e : SchedEv} (h : okEvent e = true) : (e.Fine ∧ e.Sound) ∧ Sayable e := by
  cases e with
  | tick => exact ⟨⟨trivial, trivial⟩, by simp [Sayable]⟩
  | create d c =>
    simp only [okEvent, Bool.and_eq_true, Bool.or_eq_true, decide_eq_true_eq] at h
    obtain ⟨⟨h1, h2⟩, h3⟩ := h
    refine ⟨⟨trivial, ?_⟩, by simp [Sayable]⟩
    simp [Umac.SchedEv.Sound, h2, h3]; exact h1
  | message t i r p sdu =>
    obtain ⟨fb, pg, em, ra, li, ad, el, um, pc, sg, ca⟩ := p
    simp only [okEvent, Bool.and_eq_true, decide_eq_true_eq] at h
    obtain ⟨⟨⟨⟨⟨⟨⟨⟨rfl, rfl⟩, rfl⟩, rfl⟩, rfl⟩, rfl⟩, hu⟩, ha⟩, hca⟩ := h
    refine ⟨⟨?_, by simp [Umac.SchedEv.Sound]⟩, by simp [Sayable]⟩
    cases ad with
    | none => cases ha
    | some a =>
      simp only [Bool.and_eq_true, Bool.or_eq_true, decide_eq_true_eq, Bool.not_eq_true'] at ha
      obtain ⟨⟨h1, h2⟩, h3⟩ := ha
      have hc : ∀ v, ca = some v → v.InRange := by
        rintro v rfl
        simp only [decide_eq_true_eq] at hca
        subst hca
        simp [Umac.ChanAlloc.InRange, chanOf, ChanReq.toMac]
      have hu' : ∀ v, um = some v → v < 64 := by
        rintro v rfl
        simpa using hu
      refine ⟨by simp, by simp, by simp, by simp, ?_, by simp, by simp, hc⟩
      refine ⟨h1, by simp [h2], by simp, hu', .inl rfl, ?_⟩
      rcases h3 with (h | h) | h <;> simp [h]
  | _ => cases h

/-- What is looked at after each part. -/
def callOk : Bool :=
  match liteRun Sig.sampleCfg (.init Sig.sampleCfg Verif.Phy.sampleCell) before with
  | .ok (l1, t1) =>
    l1.cell.umac.log.all (fun p => okEvent p.1) &&
    decide ((sentOf t1.radio).map (fun o => (o.ts, o.ulPhy == .cp)) = [(⟨3, 1, 1, 0⟩, true), (⟨4, 1, 1, 0⟩, true), (⟨1, 2, 1, 0⟩, true), (⟨2, 2, 1, 0⟩, true),
      (⟨3, 2, 1, 0⟩, true), (⟨4, 2, 1, 0⟩, true)]) &&
    decide (t1.radio.map (kind ·.1) = List.replicate 6 (some true)) &&
    match liteAir Sig.sampleCfg l1 ⟨[], [], []⟩ ⟨.schF, .both, ⟨1, 2, 1, 0⟩⟩ (fullBlock memPdu) with
    | .ok (l2, t2) =>
      match liteRun Sig.sampleCfg l2 afterMem with
      | .ok (l3, t3) =>
        let t := (t1.add t2).add t3
        l3.cell.umac.log.all (fun p => okEvent p.1) &&
        decide ((sentOf t.radio).map (fun o => (o.ts, o.ulPhy == .cp)) = [(⟨3, 1, 1, 0⟩, true), (⟨4, 1, 1, 0⟩, true), (⟨1, 2, 1, 0⟩, true),
          (⟨2, 2, 1, 0⟩, true), (⟨3, 2, 1, 0⟩, true), (⟨4, 2, 1, 0⟩, true)] ++ [(⟨1, 3, 1, 0⟩, true), (⟨2, 3, 1, 0⟩, true), (⟨3, 3, 1, 0⟩, true),
          (⟨4, 3, 1, 0⟩, true)]) &&
        decide (t.radio.map (kind ·.1) = List.replicate 6 (some true) ++ [some false, none] ++ List.replicate 4 (some true)) &&
        match liteAir Sig.sampleCfg l3 ⟨[], [], []⟩ ⟨.schF, .both, ⟨1, 3, 1, 0⟩⟩ (fullBlock callPdu) with
        | .ok (l4, t4) =>
          match liteRun Sig.sampleCfg l4 afterCall with
          | .ok (l5, t5) =>
            let t := (t.add t4).add t5
            l5.cell.umac.log.all (fun p => okEvent p.1) && decide (l5.sig.queue = []) && decide (l5.next = 3) &&
            (match splitAt Sig.setup t.calls with
            | some (k1, p, _, _) => decide (p.msg = 1) && decide (heardIn (Sig.bsCalls k1) = []) && affiliated (updatesIn (Sig.bsCalls k1)) 1001 91
            | none => false) &&
            (match (handed Time.default (Sig.llcTrace t.calls))[2]? with
            | some (_, Llc.Emit.udata v _) => decide (v = ⟨⟨91, .gssi, false⟩, 1, some (some 4, 2), false⟩)
            | _ => false) && decide (Umac.ticksIn (l5.cell.umac.log.map Prod.fst) = 16)
          | _ => false
        | _ => false
      | _ => false
    | _ => false
  | _ => false

theorem call_ok : callOk = true := by decide +kernel

theorem log_proper_of {log : List (SchedEv × SchedRet)} (h : log.all (fun p => okEvent p.1) = true) : Proper (log.map Prod.fst) := by
  intro e he
  obtain ⟨p, hp, rfl⟩ := List.mem_map.1 he
  exact (okEvent_ok (List.all_eq_true.1 h p hp)).1

/-- Neither the backhaul nor voice frames are needed. -/
def plainIn : In → Bool
  | .backhaul _ => false
  | .voice _ _ => false
  | _ => true

theorem plainIn_sane {c : Sig.Cfg} {i : In} (h : plainIn i = true) : i.Sane c := by
  cases i <;> first | exact True.intro | cases h

theorem plainIn_ok (a1 a2 : Air) : ∀ i ∈ [] ++ before ++ [.air a1] ++ afterMem ++ [.air a2] ++ afterCall, plainIn i = true := by
  have h1 : before.all plainIn = true := by decide
  have h2 : afterMem.all plainIn = true := by decide
  have h3 : afterCall.all plainIn = true := by decide
  intro i hi
  simp only [List.mem_append, List.not_mem_nil, false_or, List.mem_singleton] at hi
  rcases hi with (((hi | rfl) | hi) | rfl) | hi
  · exact List.all_eq_true.1 h1 _ hi
  · rfl
  · exact List.all_eq_true.1 h2 _ hi
  · rfl
  · exact List.all_eq_true.1 h3 _ hi

/-- **A call, over the air**: what C99 is about. -/
theorem sample_called : ∃ ins h s, Run Sig.sampleCfg Verif.Phy.sampleCell ins h s ∧ (∀ i ∈ ins, i.Sane Sig.sampleCfg) ∧
    (∀ ts b, In.voice ts b ∉ ins) ∧ s.sig.queue = [] ∧ s.next = 3 ∧
    (∀ e ∈ s.cell.umac.log.map Prod.fst, Sayable e) ∧
    (∃ k1 k2 p out, h.calls = k1 ++ .cmce p (.mobile 1001 Sig.setup) out :: k2 ∧ p.msg = 1 ∧ heardIn (Sig.bsCalls k1) = [] ∧
      affiliated (updatesIn (Sig.bsCalls k1)) 1001 91 = true) ∧
    (∃ now pdu, (handed Time.default (Sig.llcTrace h.calls))[2]? = some (now, .udata ⟨⟨91, .gssi, false⟩, 1, some (some 4, 2), false⟩ pdu)) ∧
    ∃ r1 r2 a out l o o1 o2 o3, h.radio = r1 ++ (.up a, out) :: r2 ∧ Verif.Phy.Fresh r1 ∧ sentOf r1 = l ++ [o, o1, o2, o3] ∧ a.Sized ∧
      OnAir 864282631#32 o a .schF (fullBlock callPdu) ∧ o.ts.t = 1 := by
  have ok := call_ok
  unfold callOk at ok
  split at ok <;> [skip; cases ok]
  rename_i l1 t1 e1
  simp only [Bool.and_eq_true, decide_eq_true_eq] at ok
  obtain ⟨⟨⟨k1, k2⟩, k3⟩, ok⟩ := ok
  split at ok <;> [skip; cases ok]
  rename_i l2 t2 e2
  split at ok <;> [skip; cases ok]
  rename_i l3 t3 e3
  simp only [Bool.and_eq_true, decide_eq_true_eq] at ok
  obtain ⟨⟨⟨j1, j2⟩, j3⟩, ok⟩ := ok
  split at ok <;> [skip; cases ok]
  rename_i l4 t4 e4
  split at ok <;> [skip; cases ok]
  rename_i l5 t5 e5
  simp only [Bool.and_eq_true, decide_eq_true_eq] at ok
  obtain ⟨⟨⟨⟨⟨m1, m2⟩, m3⟩, m4⟩, m5⟩, m6⟩ := ok
  split at m4 <;> [skip; cases m4]
  rename_i ka pa outa kb hsp
  simp only [Bool.and_eq_true, decide_eq_true_eq] at m4
  obtain ⟨⟨n1, n2⟩, n3⟩ := m4
  split at m5 <;> [skip; cases m5]
  rename_i now v pdu hh
  have m5 := of_decide_eq_true m5
  subst m5
  have hx : Umac.sampleTime.valid := by unfold Time.valid; decide
  have hcfg : Umac.sampleCfg.InRange := by unfold CellCfg.InRange; decide
  have hempty : Trace.empty.add t1 = t1 := by simp [Trace.add, Trace.empty]
  obtain ⟨s1, h1, r1, q1, p1, _⟩ := run_like (brew := true) (carrier := 1521) (scramb := 864282631) (wide := true) (code := 864282631#32) hx hcfg
    (is := before) (ins := []) (u := .empty) .init ⟨rfl, rfl, rfl, rfl, rfl⟩ (.refl _) e1 (log_proper_of k1)
  rw [hempty] at p1
  have hb1 : Umac.pdusOf .schF (fullBlock memPdu) = [.data ⟨true, false, some regAddr, none, some 33, none, none⟩] := by decide +kernel
  have hb2 : Umac.pdusOf .schF (fullBlock callPdu) = [.data ⟨true, false, some regAddr, none, some 33, none, none⟩] := by decide +kernel
  obtain ⟨a1, s2, h2, _, _, _, _, _, _, r2, q2, p2, _⟩ := hear_full hx r1 q1 p1 (ka := List.replicate 5 (some true)) (kb := []) k3 (by simp)
    (p := [(⟨3, 1, 1, 0⟩, true), (⟨4, 1, 1, 0⟩, true)]) k2 rfl (by decide +kernel) (by rw [hb1]; simp [Umac.UlPdu.Bad]) e2
  obtain ⟨s3, h3, r3, q3, p3, _⟩ := run_like hx hcfg r2 q2 p2 e3 (log_proper_of j1)
  obtain ⟨a2, s4, h4, out, l0, o, o1, o2, o3, r4, q4, p4, w4, hf, hs, ha, hm, hts⟩ := hear_full hx r3 q3 p3 (ka := List.replicate 6 (some true) ++ [some false, none] ++ List.replicate 3 (some true))
    (kb := []) j3 (by simp) j2 rfl (by decide +kernel) (by rw [hb2]; simp [Umac.UlPdu.Bad]) e4
  obtain ⟨s5, h5, r5, q5, p5, more, w5⟩ := run_like hx hcfg r4 q4 p4 e5 (log_proper_of m1)
  refine ⟨_, h5, s5, r5, ?_, ?_, by rw [q5.sig]; exact m2, by rw [q5.next]; exact m3, ?_, ?_, ?_, h3.radio, more, a2, out, l0, o, o1, o2, o3,
    by rw [w5, w4]; simp, hf, hs, ha, hm, by rw [hts]⟩
  · intro i hi
    have hp := plainIn_ok a1 a2 i hi
    exact plainIn_sane hp
  · intro ts b hi
    cases plainIn_ok a1 a2 _ hi
  · rw [q5.umac]
    intro e he
    obtain ⟨p, hp, rfl⟩ := List.mem_map.1 he
    exact (okEvent_ok (List.all_eq_true.1 m1 p hp)).2
  · rw [p5.calls]
    exact ⟨ka, kb, pa, outa, splitAt_ok hsp, n1, n2, n3⟩
  · rw [p5.calls]
    exact ⟨now, pdu, hh⟩

/-- The request of the sample, and the block it is in. -/
theorem call_setup : ∃ req rest, USetup.dec.run Sig.setup = .ok (req, rest) ∧ Serveable req ∧ req.called.ssi = some 91 := by
  have h : (match USetup.dec.run Sig.setup with
    | .ok (req, _) => decide (req = Cmce.secretCall)
    | _ => false) = true := by decide +kernel
  split at h <;> [skip; cases h]
  rename_i req rest e
  exact ⟨req, rest, e, by rw [of_decide_eq_true h]; simp [Serveable, Cmce.secretCall], by rw [of_decide_eq_true h]; rfl⟩

theorem call_reads : Umac.Reads .schF (fullBlock callPdu) [(regAddr, callPdu)] := by
  have ho : (Umac.ulPdu .schF (fullBlock callPdu)).octets = some 33 := by decide +kernel
  refine .last ?_ (by decide +kernel) (fun l hl => by rw [ho] at hl; cases hl; decide +kernel)
  have e : fullBlock callPdu = (fullBlock callPdu).take 37 ++ (callPdu ++ Umac.fillPattern 166) ++ (fullBlock callPdu).drop 264 := by decide +kernel
  rw [e]
  exact Umac.c49_sent_data .schF (by decide) regAddr (by decide) _ _ _ 166 33 (by omega) (by decide +kernel) (by decide +kernel)

/-- C99, the request, is not empty: it is in what is received, so call control handled it. -/
example : ∃ ins h s, Run Sig.sampleCfg Verif.Phy.sampleCell ins h s ∧
    ∃ k1 k2 p outs, h.calls = k1 ++ .cmce p (.mobile 1001 Sig.setup) outs :: k2 ∧ p.msg = 1 := by
  obtain ⟨ins, h, s, hr, _, _, hq, _, _, _, _, r1, r2, a, out, l, o, o1, o2, o3, he, hf, hs, ha, hm, ho⟩ := sample_called
  refine ⟨ins, h, s, hr, ?_⟩
  have := c99_requested (by unfold Time.valid; decide) hr hq he hf hs ha hm call_reads (addr := regAddr) (pdu := callPdu) (msg := Sig.setup) (by simp)
    ⟨by decide, (by
      have : callPdu = [false, false, false, true, true] ++ (Bits.toBits 3 2 ++ Sig.setup) := by decide +kernel
      rw [this]
      exact .data true _)⟩
  rw [ho] at this
  exact this

/-- C99, the call, is not empty: the group is called, in timeslot 1. -/
example : ∃ ins h s u ts' b3, Run Sig.sampleCfg Verif.Phy.sampleCell ins h s ∧ 2 ≤ ts' ∧ ts' ≤ 4 ∧
    ⟨.unacknowledged 1 (some (some u, ts')) false, ⟨91, .gssi, false⟩, Bits.toBits 3 2 ++ b3⟩ ∈ Sig.ordered h.calls := by
  obtain ⟨ins, h, s, hr, hi, _, hq, _, _, ⟨k1, k2, p, out, hk, hp, hh, haff⟩, _⟩ := sample_called
  obtain ⟨req, rest, hd, hsv, hg⟩ := call_setup
  obtain ⟨id, u, ts', b1, b2, b3, dp, dc, ds, h1, h2, _, _, _, h3, _⟩ := c99_connected (by unfold Time.valid; decide) hr hi hq hk hd hsv hg
    (by rw [hh]; intro l1 l2 d id g o ch e; simp at e) ⟨1001, haff⟩ (ts := 2) (by omega) (by rw [hh]; simp [Cmce.heard])
  rw [hp] at h3
  exact ⟨ins, h, s, u, ts', b3, hr, h1, h2, h3⟩

/-- C99, the way down and the time, are not empty: the upper MAC was given the message which calls the group. -/
example : ∃ ins h s now pdu, Run Sig.sampleCfg Verif.Phy.sampleCell ins h s ∧ (∀ i ∈ ins, i.Sane Sig.sampleCfg) ∧ (∀ ts b, In.voice ts b ∈ ins → VoiceIn ts b) ∧
    (∀ e ∈ s.cell.umac.log.map Prod.fst, Sayable e) ∧
    (handed Time.default (Sig.llcTrace h.calls))[2]? = some (now, .udata ⟨⟨91, .gssi, false⟩, 1, some (some 4, 2), false⟩ pdu) ∧ 2 < s.next := by
  obtain ⟨ins, h, s, hr, hi, hv, hq, hn, hs, _, ⟨now, pdu, hh⟩, _⟩ := sample_called
  exact ⟨ins, h, s, now, pdu, hr, hi, fun ts b hb => absurd hb (hv ts b), hs, hh, by omega⟩

end Verif.Station
