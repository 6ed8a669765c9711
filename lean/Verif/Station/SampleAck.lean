import Verif.Station.Sample
import Verif.Station.Answer
/-!
# The whole base station: a registration with its acknowledgement

The sample of Sample.lean goes on: the station acknowledges the answer in its next slot on the random access channel.
-/
namespace Verif.Station
open Verif.Tdma Verif.Codec
open Verif.Phy (Air Cell CellEv CellOut CellRun callsOf callsOf_append c67_history sentOf slotsOut silence ctlAir)
open Verif.Umac (TmaReq ChanReq MacCtl UmacOut UmacEv Report Block Addr UmacRun UmacBs Precomps SchedEv SchedRet MacResource AddrOk
  Carried bitsIn reportsIn reported UmacMs Wanted Proper CellCfg)
open Verif.ErrorControl (encodeCp)

/-- BL-ACK for the answer, in a block on the random access channel. -/
def ackBlock : List Bool := Umac.blockOf 92 (Umac.MacAccess.enc ⟨true, false, some regAddr, none, some 11, none, none⟩) (ackPdu false ++ Umac.fillPattern 47)

/-- The rest of the frame, then the acknowledgement, and what follows. -/
def after2 : List In := after ++ [sampleTick]
def after3 : List In := [.deliver, .deliver]

def ackCtx : Umac.UlCtx := ⟨.schHu, .block1, ⟨1, 3, 1, 0⟩⟩

def ackOk : Bool :=
  match liteRun Sig.sampleCfg (.init Sig.sampleCfg Verif.Phy.sampleCell) before with
  | .ok (l1, t1) =>
    decide (l1.cell.umac.log.map Prod.fst = List.replicate 6 .tick) &&
    decide ((sentOf t1.radio).map (·.ts) = [⟨3, 1, 1, 0⟩, ⟨4, 1, 1, 0⟩, ⟨1, 2, 1, 0⟩, ⟨2, 2, 1, 0⟩, ⟨3, 2, 1, 0⟩, ⟨4, 2, 1, 0⟩]) &&
    decide (t1.radio.map (kind ·.1) = List.replicate 6 (some true)) &&
    match liteAir Sig.sampleCfg l1 ⟨[], [], []⟩ regCtx regBlock with
    | .ok (l2, t2) =>
      match liteRun Sig.sampleCfg l2 after2 with
      | .ok (l3, t3) =>
        let t := (t1.add t2).add t3
        decide (l3.cell.umac.log.map Prod.fst = sampleLog ++ [.tick]) &&
        decide ((sentOf t.radio).map (·.ts) = [⟨3, 1, 1, 0⟩, ⟨4, 1, 1, 0⟩, ⟨1, 2, 1, 0⟩, ⟨2, 2, 1, 0⟩, ⟨3, 2, 1, 0⟩, ⟨4, 2, 1, 0⟩] ++
          [⟨1, 3, 1, 0⟩, ⟨2, 3, 1, 0⟩, ⟨3, 3, 1, 0⟩, ⟨4, 3, 1, 0⟩]) &&
        decide (t.radio.map (kind ·.1) = List.replicate 6 (some true) ++ [some false, none] ++ List.replicate 4 (some true)) &&
        match liteAir Sig.sampleCfg l3 ⟨[], [], []⟩ ackCtx ackBlock with
        | .ok (l4, t4) =>
          match liteRun Sig.sampleCfg l4 after3 with
          | .ok (l5, t5) =>
            let t := (t.add t4).add t5
            decide (l5.cell.umac.log.map Prod.fst = sampleLog ++ [.tick, .ack 1 regAddr]) && decide (l5.next = 1) &&
            decide (handed Time.default (Sig.llcTrace t.calls) = [(⟨3, 2, 1, 0⟩, .data 0 regAddr 1 regAnswer)]) &&
            (Sig.llcTrace t.calls).any (fun i => match i with
              | .out (.acknowledged 0) => true
              | _ => false)
          | _ => false
        | _ => false
      | _ => false
    | _ => false
  | _ => false

theorem ack_ok : ackOk = true := by decide +kernel

theorem fresh_of {h : List (CellEv × CellOut)} {a b : List (Option Bool)} (hk : h.map (kind ·.1) = a ++ some true :: b) (hb : some false ∉ b) :
    Verif.Phy.Fresh h := by
  obtain ⟨a1, a2, ha, _, h2⟩ := List.map_eq_append_iff.1 hk
  cases a2 with
  | nil => cases h2
  | cons p a2 =>
    obtain ⟨e, oo⟩ := p
    simp only [List.map_cons, List.cons.injEq] at h2
    obtain ⟨h3, h4⟩ := h2
    cases e with
    | down w =>
      refine ⟨a1, w, oo, a2, ha, fun q hq x hx => hb ?_⟩
      rw [← h4]
      exact List.mem_map.2 ⟨q, hq, by rw [hx]; rfl⟩
    | _ => cases h3

/-- A block on the random access channel reaches the upper MAC of the base station. -/
theorem hear_like {c : Sig.Cfg} {brew : Bool} {carrier scramb : Nat} {x : Time} {wide : Bool} {cfg : CellCfg} {code : BitVec 32} (hx : x.valid)
    {ins : List In} {h u t : Trace} {s l l' : Station}
    (hr : Run c ⟨.init brew carrier x scramb wide (Precomps.generate cfg), .init code⟩ ins h s) (hl : Like s l) (ht : Same h u)
    {ka kb : List (Option Bool)} (hk : u.radio.map (kind ·.1) = ka ++ some true :: kb) (hkb : some false ∉ kb)
    {p : List Time} {t0 t1 t2 t3 : Time} (hsent : (sentOf u.radio).map (·.ts) = p ++ [t0, t1, t2, t3])
    {m : List Bool} (hm : m.length = 92) (hb : ∀ p ∈ Umac.pdusOf .schHu m, ¬ p.Bad) {a' : Air}
    (hs : liteAir c l a' ⟨.schHu, .block1, t0⟩ m = .ok (l', t)) :
    ∃ a s' h', Run c ⟨.init brew carrier x scramb wide (Precomps.generate cfg), .init code⟩ (ins ++ [.air a]) h' s' ∧ Like s' l' ∧
      Same h' (u.add t) := by
  have hsent' : (sentOf h.radio).map (·.ts) = p ++ [t0, t1, t2, t3] := by
    unfold sentOf at hsent ⊢
    rw [ht.radio]; exact hsent
  obtain ⟨l0, o, o1, o2, o3, hs0, ho⟩ : ∃ l0 o o1 o2 o3, sentOf h.radio = l0 ++ [o, o1, o2, o3] ∧ o.ts = t0 := by
    obtain ⟨l0, l1, e1, _, e2⟩ := List.map_eq_append_iff.1 hsent'
    match l1, e2 with
    | [o, o1, o2, o3], e2 =>
      simp only [List.map_cons, List.map_nil, List.cons.injEq] at e2
      exact ⟨l0, o, o1, o2, o3, e1, e2.1⟩
  obtain ⟨tb, htb, _⟩ := ErrorControl.c14_roundtrip .schHu rfl m hm code
  obtain ⟨c', calls, hu, hc⟩ := Verif.Phy.c67_alone hx (run_both hr).cell (fresh_of (by rw [ht.what]; exact hk) hkb) hs0 hm htb hb
  rw [ho] at hc
  obtain ⟨s2, out, u2, r2, q2, p2, _⟩ := air_like hr hl ht hu hc hs
  exact ⟨_, s2, _, r2, q2, p2⟩

/-- **A registration which the station acknowledges**, on the air: what C98 is about. -/
theorem sample_acked : ∃ ins h s, Run Sig.sampleCfg Verif.Phy.sampleCell ins h s ∧ s.next = 1 ∧
    (∀ e ∈ s.cell.umac.log.map Prod.fst, Sayable e) ∧ handed Time.default (Sig.llcTrace h.calls) = [(⟨3, 2, 1, 0⟩, .data 0 regAddr 1 regAnswer)] ∧
    .out (.acknowledged 0) ∈ Sig.llcTrace h.calls := by
  have ok := ack_ok
  unfold ackOk at ok
  split at ok <;> [skip; cases ok]
  rename_i l1 t1 e1
  simp only [Bool.and_eq_true, decide_eq_true_eq] at ok
  obtain ⟨⟨⟨k1, k2⟩, k3⟩, ok⟩ := ok
  split at ok <;> [skip; cases ok]
  rename_i l2 t2 e2
  split at ok <;> [skip; cases ok]
  rename_i l3 t3 e3
  simp only [Bool.and_eq_true, decide_eq_true_eq] at ok
  obtain ⟨⟨⟨j1, j2⟩, j3⟩, ok⟩ := ok
  split at ok <;> [skip; cases ok]
  rename_i l4 t4 e4
  split at ok <;> [skip; cases ok]
  rename_i l5 t5 e5
  simp only [Bool.and_eq_true, decide_eq_true_eq] at ok
  obtain ⟨⟨⟨m1, m2⟩, m3⟩, m4⟩ := ok
  have hx : Umac.sampleTime.valid := by unfold Time.valid; decide
  have hcfg : Umac.sampleCfg.InRange := by unfold CellCfg.InRange; decide
  have hpa : ∀ l, Proper l → Proper (l ++ [.ack 1 regAddr]) := by
    intro l hl e he
    rcases List.mem_append.1 he with he | he
    · exact hl e he
    · cases List.mem_singleton.1 he; exact ⟨by simp [SchedEv.Fine, AddrOk, regAddr], by simp [Umac.SchedEv.Sound]⟩
  have hpt : Proper (sampleLog ++ [.tick]) := by
    intro e he
    rcases List.mem_append.1 he with he | he
    · exact sample_proper e he
    · cases List.mem_singleton.1 he; exact ⟨trivial, trivial⟩
  have hempty : Trace.empty.add t1 = t1 := by simp [Trace.add, Trace.empty]
  obtain ⟨s1, h1, r1, q1, p1, _⟩ := run_like (brew := true) (carrier := 1521) (scramb := 864282631) (wide := true) (code := 864282631#32) hx hcfg
    (is := before) (ins := []) (u := .empty) .init ⟨rfl, rfl, rfl, rfl, rfl⟩ (.refl _) e1 (by
      rw [k1]; intro e he; rw [List.eq_of_mem_replicate he]; exact ⟨trivial, trivial⟩)
  rw [hempty] at p1
  have hb1 : Umac.pdusOf .schHu regBlock = [.access ⟨true, false, some regAddr, none, some 11, none, none⟩] := by decide +kernel
  have hb2 : Umac.pdusOf .schHu ackBlock = [.access ⟨true, false, some regAddr, none, some 11, none, none⟩] := by decide +kernel
  obtain ⟨a1, s2, h2, r2, q2, p2⟩ := hear_like hx r1 q1 p1 (ka := List.replicate 5 (some true)) (kb := []) k3 (by simp)
    (p := [⟨3, 1, 1, 0⟩, ⟨4, 1, 1, 0⟩]) k2 (by decide +kernel) (by rw [hb1]; simp [Umac.UlPdu.Bad]) e2
  obtain ⟨s3, h3, r3, q3, p3, _⟩ := run_like hx hcfg r2 q2 p2 e3 (by rw [j1]; exact hpt)
  obtain ⟨a2, s4, h4, r4, q4, p4⟩ := hear_like hx r3 q3 p3 (ka := List.replicate 6 (some true) ++ [some false, none] ++ List.replicate 3 (some true))
    (kb := []) j3 (by simp) j2 (by decide +kernel) (by rw [hb2]; simp [Umac.UlPdu.Bad]) e4
  obtain ⟨s5, h5, r5, q5, p5, _⟩ := run_like hx hcfg r4 q4 p4 e5 (by
    rw [m1, show sampleLog ++ [SchedEv.tick, .ack 1 regAddr] = (sampleLog ++ [.tick]) ++ [.ack 1 regAddr] by simp]; exact hpa _ hpt)
  refine ⟨_, h5, s5, r5, by rw [q5.next]; exact m2, ?_, by rw [p5.calls]; exact m3, ?_⟩
  · rw [q5.umac, m1]
    intro e he
    simp only [sampleLog, List.mem_append, List.mem_cons, List.mem_replicate, List.not_mem_nil, or_false] at he
    rcases he with (⟨_, rfl⟩ | rfl | rfl | rfl | rfl | rfl) | rfl | rfl <;> simp [Sayable, regAddr]
  · rw [p5.calls]
    obtain ⟨i, hi, hm⟩ := List.any_eq_true.1 m4
    split at hm
    · exact hi
    · cases hm

/-- C98 is not empty: the station is accepted; the answer is on the air, complete, once; and acknowledged. -/
example : ∃ ins h s q k fb parts, Run Sig.sampleCfg Verif.Phy.sampleCell ins h s ∧ .out (.acknowledged 0) ∈ Sig.llcTrace h.calls ∧
    requestOf ⟨3, 2, 1, 0⟩ 0 (.data 0 regAddr 1 regAnswer) = some q ∧
    Carried (headerOf 1521 q k fb) regAnswer true (bitsIn 0 s.cell.umac.log) parts ∧ reportsIn 0 s.cell.umac.log = [.transmitted 0] := by
  obtain ⟨ins, h, s, hr, hn, hs, hh, hk⟩ := sample_acked
  have hd : .out (.data 0 regAddr 1 regAnswer) ∈ Sig.llcTrace h.calls := handed_out (t := Time.default) (p := (⟨3, 2, 1, 0⟩, .data 0 regAddr 1 regAnswer)) (by rw [hh]; simp)
  obtain ⟨l1, l2, e⟩ := List.append_of_mem hd
  obtain ⟨sdu, ho, _⟩ := Sig.c72_acknowledged (run_both hr).sig e
  obtain ⟨n, now, pdu, q, k, fb, parts, k1, k2, k3, k4, k5⟩ := c98_acknowledged (by unfold Time.valid; decide) (by decide) hr hs ho hk
  rw [hh] at k1
  cases n with
  | zero => cases k1; exact ⟨ins, h, s, q, k, fb, parts, hr, hk, k3, k4, k5⟩
  | succ n => cases k1

/-- The demand to register of the sample is one which is accepted. -/
theorem reg_demand : ∃ req rest, Mm.ULocationUpdateDemand.dec.run (regPdu.drop 8) = .ok (req, rest) ∧ req.Acceptable := by
  have h : (match Mm.ULocationUpdateDemand.dec.run (regPdu.drop 8) with
    | .ok (req, _) => decide (req = ⟨3, false, false, none, none, none, none, none, none, none, none, none, none, none⟩)
    | _ => false) = true := by decide +kernel
  split at h <;> [skip; cases h]
  rename_i req rest e
  exact ⟨req, rest, e, by rw [of_decide_eq_true h]; simp [Mm.ULocationUpdateDemand.Acceptable]⟩

/-- C98, the answer, is not empty: mobility management heard the demand of station 1001, so there is an acceptance for it. -/
example : ∃ ins h s, ∃ b : Nat, ∃ bits, Run Sig.sampleCfg Verif.Phy.sampleCell ins h s ∧ ⟨1, 1001, 1, regPdu.drop 8⟩ ∈ Sig.heard h.calls ∧
    (Sig.acknowledgedOrders h.calls)[b]? = some (⟨1001, .ssi, false⟩, 1, Bits.toBits 3 1 ++ bits) := by
  obtain ⟨ins, h, s, r1, r2, a, out, l, o, o1, o2, o3, hr, _, hq, _, _, he, hf, hs, ha, hm, ho, hms, _⟩ := sample_station
  have hx : Umac.sampleTime.valid := by unfold Time.valid; decide
  have := c93_reaches hx hr hq he hf hs ha hm hms (addr := regAddr) (pdu := regPdu) (d := 1) (msg := regPdu.drop 8) (by simp)
    ⟨by decide, (by
      have : regPdu = [false, false, false, true, false] ++ (Bits.toBits 3 1 ++ regPdu.drop 8) := by decide +kernel
      rw [this]
      exact .data false _)⟩ (.inl rfl)
  rw [ho] at this
  obtain ⟨req, rest, hd, hacc⟩ := reg_demand
  obtain ⟨b, bits, ans, hb, _⟩ := c98_answered hx hr hq this hd hacc
  exact ⟨ins, h, s, b, bits, hr, this, hb⟩

/-- C98, in time, is not empty: the answer of the sample was handed down for the control channel and given to the upper MAC. -/
example : ∃ ins h s, Run Sig.sampleCfg Verif.Phy.sampleCell ins h s ∧
    (handed Time.default (Sig.llcTrace h.calls))[0]? = some (⟨3, 2, 1, 0⟩, .data 0 regAddr 1 regAnswer) ∧ 0 < s.next := by
  obtain ⟨ins, h, s, hr, hn, hs, hh, hk⟩ := sample_acked
  exact ⟨ins, h, s, hr, by rw [hh]; rfl, by omega⟩

end Verif.Station
