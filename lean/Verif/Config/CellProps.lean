import Verif.Config.StackProps
import Verif.Core.FreqsProps
import Verif.Lmac.ScramblerProps
import Verif.Umac.SchedLiveProps
import Verif.Phy.OnAirProps
/-!
# C77: a configuration which is accepted goes on the air, and mobiles find the cell it describes

The property: when the base station accepts its configuration, it starts transmitting on the carrier configured and a mobile
which hears a synchronisation burst learns the network, the cell, the time and both frequencies.

It is proved for configurations whose values fit the fields broadcast, in station mode `Bs`, with a colour code other than 0, in
a band of the frequency plan and with a standard duplex spacing (`c77_found_partial`). None of these is checked: the ranges not checked are
exactly those of `c77_ranges`, and a value outside them ends the station within two timeslots (`c77_starts_iff_partial`); mode
`Ms` exchanges the two frequencies (`c77_mode_ms`); with colour code 0, which is the default, a mobile cannot read anything but
SYNC (`c77_colour_zero`).
-/
namespace Verif.Config
open Verif.Umac Verif.Mle Verif.Codec Verif.Tdma

/-! ## Specification: a mobile looking for a cell -/

/-- The scrambling code of a cell (EN 300 392-2, 8.2.5.2): the thirty bits of network and colour code followed by two ones;
thirty zeros and two ones for colour code 0. -/
def stdCode (mcc mnc cc : Nat) : BitVec 32 := if cc = 0 then 3#32 else BitVec.ofNat 32 (((mcc * 2 ^ 14 + mnc) * 2 ^ 6 + cc) * 2 ^ 2 + 3)

/-- The duplex spacing of a band in Hz (TS 100 392-15, clause 6). -/
def stdSpacing (band id : Nat) : Option Int :=
  match id, band with
  | 0, 1 => some 1600000
  | 0, 2 | 0, 3 | 0, 4 | 0, 5 | 0, 6 => some 10000000
  | 1, 1 => some 4500000
  | 1, 3 => some 36000000
  | 1, 4 => some 7000000
  | 1, 8 | 1, 9 => some 45000000
  | 2, _ => some 0
  | 3, 3 | 3, 4 => some 8000000
  | 3, 8 | 3, 9 => some 18000000
  | 4, 3 => some 18000000
  | 4, 4 => some 5000000
  | 4, 6 | 4, 7 => some 30000000
  | 4, 9 => some 39000000
  | 5, 4 => some 9500000
  | _, _ => none

/-- What a mobile finds out. -/
structure Found where
  mcc : Nat
  mnc : Nat
  colour : Nat
  area : Nat
  t : Nat
  f : Nat
  m : Nat
  h : Option Nat
  dl : Int
  ul : Int
  systemCode : Nat
  sharing : Nat
  reserved : Nat
  dtx : Bool
  ext18 : Bool
  lateEntry : Bool
  subscribers : Nat
  services : BsServiceDetails
  deriving DecidableEq, Repr

/-- A mobile hears a burst: it finds the training sequence, reads SYNC, takes the scrambling code from it, reads the network
broadcast, and works out both frequencies. -/
def acquire (rx : List Bool) : Option Found :=
  match Phy.findDl rx with
  | .ok (some ⟨.sync, _⟩) =>
    match ErrorControl.decodeCp .bsch true (Phy.field rx 94 120) none with
    | .ok (some b, true) =>
      match MacSync.dec.run b with
      | .ok (s, rest) =>
        match DMleSync.dec.run rest with
        | .ok (n, _) =>
          match ErrorControl.decodeCp .bnch false (Phy.field rx 282 216) (some (stdCode n.mcc n.mnc s.colourCode)) with
          | .ok (some b', true) =>
            match MacSysinfo.dec.run b' with
            | .ok (i, rest') =>
              match DMleSysinfo.dec.run rest' with
              | .ok (l, _) =>
                match Freqs.offsetIdToHz i.freqOffset, stdSpacing i.freqBand i.duplexSpacing with
                | some off, some sp =>
                  some ⟨n.mcc, n.mnc, s.colourCode, l.locationArea, s.t, s.f, s.m, i.hyperframe,
                    Freqs.planDl i.freqBand i.mainCarrier off,
                    if i.reverse then Freqs.planDl i.freqBand i.mainCarrier off + sp else Freqs.planDl i.freqBand i.mainCarrier off - sp,
                    s.systemCode, s.sharingMode, s.tsReserved, s.uPlaneDtx, s.frame18Ext, n.lateEntry, l.subscriberClass, l.services⟩
                | _, _ => none
              | _ => none
            | _ => none
          | _ => none
        | _ => none
      | _ => none
    | _ => none
  | _ => none

/-- A frequency of the radio is, up to a fraction of a hertz, so many hertz. -/
def F.Tuned (x : F) (hz : Int) : Prop := ∃ n e, x = .fin n e ∧ hz * 2 ^ e ≤ n ∧ n < (hz + 1) * 2 ^ e


/-! ## Starting -/

/-- What starting amounts to. -/
theorem startUp_ok {tz : String → Bool} {t : Table} {st : Station} (h : startUp tz t = .ok (some st)) :
    ∃ c s fi dl ul, fromToml t = .ok (some c) ∧ c.phy.backend = .soapy ∧ c.phy.soapy = some s ∧
      Freqs.fromComponents c.cell.freqBand c.cell.mainCarrier c.cell.freqOffset c.cell.reverse c.cell.duplexSpacing
        c.cell.customDuplex = .ok (some fi) ∧ fi.getFreqs = .ok (dl, ul) ∧ s.dlFreq.toU32 = dl ∧ s.ulFreq.toU32 = ul ∧
      c.radio s = .ok (st.tx, st.rx) ∧ c.cellCfg = .ok st.cell ∧ st.code = c.code := by
  simp only [startUp] at h
  obtain ⟨c, hc, h⟩ := Res.bind_eq_ok.1 h
  cases c with
  | none => cases h
  | some c =>
    simp only at h
    obtain ⟨ok, hv, h⟩ := Res.bind_eq_ok.1 h
    obtain ⟨_, ha, h⟩ := Res.bind_eq_ok.1 h
    cases ok with
    | false => cases ha
    | true =>
      split at h
      · rename_i s hb hs
        obtain ⟨_, _, h⟩ := Res.bind_eq_ok.1 h
        obtain ⟨⟨tx, rx⟩, hr, h⟩ := Res.bind_eq_ok.1 h
        obtain ⟨cell, hcell, h⟩ := Res.bind_eq_ok.1 h
        cases h
        simp only [StackConfig.validate, hb, hs] at hv
        obtain ⟨fi, hf, hv⟩ := Res.bind_eq_ok.1 hv
        cases fi with
        | none => cases hv
        | some fi =>
          simp only at hv
          obtain ⟨⟨dl, ul⟩, hg, hv⟩ := Res.bind_eq_ok.1 hv
          simp only [Res.ok.injEq, Bool.and_eq_true, decide_eq_true_eq] at hv
          exact ⟨c, s, fi, dl, ul, hc, hb, hs, hf, hg, hv.1.1, hv.1.2, hr, hcell, rfl⟩
      · cases h

theorem subscriber_typed {t : Table} {c : StackConfig} (h : fromToml t = .ok (some c)) : c.cell.subscriberClass < 65536 := by
  obtain ⟨r, hr, _, _, _, _, _, _, _, _, _, e, _⟩ := fromToml_ok h
  rw [e]
  simp only [RootDto.read, Option.bind_eq_bind, Option.bind_eq_some_iff] at hr
  obtain ⟨a1, h1, a2, h2, a3, h3, a4, h4, a5, h5, a6, h6, a7, h7, a8, h8, a9, h9, hr⟩ := hr
  cases hr
  obtain ⟨v, _, hv⟩ := req_some h6
  exact cell_typed hv

theorem offset_id {off : Int} {id : Nat} (h : Freqs.offsetHzToId off = some id) : id < 4 ∧ Freqs.offsetIdToHz id = some off := by
  have h1 := (Freqs.c08_offset_roundtrip.1 id off).2 h
  exact ⟨(Freqs.c08_offset_roundtrip.2 id).1 (by rw [h1]; rfl), h1⟩

/-- The services offered according to the configuration; `wide` tells whether the network behind the cell is reachable. -/
def services (c : StackConfig) (wide : Bool) : BsServiceDetails :=
  { registration := c.cell.registration, deregistration := c.cell.deregistration, priorityCell := c.cell.priorityCell,
    noMinimumMode := c.cell.noMinimumMode, migration := c.cell.migration, systemWideServices := wide, voiceService := c.cell.voice,
    circuitModeData := c.cell.circuitData, sndcpService := c.cell.sndcp, aieService := c.cell.aie, advancedLink := c.cell.advancedLink }

theorem cellCfg_ok {c : StackConfig} {cell : CellCfg} (h : c.cellCfg = .ok cell) :
    ∃ off, Freqs.offsetHzToId c.cell.freqOffset = some off ∧ cell.mcc = c.mcc ∧ cell.mnc = c.mnc ∧ cell.systemCode = c.cell.systemCode ∧
      cell.colourCode = c.cell.colourCode ∧ cell.sharingMode = c.cell.sharingMode ∧ cell.tsReserved = c.cell.tsReserved ∧
      cell.mainCarrier = c.cell.mainCarrier ∧ cell.freqBand = c.cell.freqBand ∧ cell.freqOffset = off ∧
      cell.duplexSpacing = c.cell.duplexSpacing ∧ cell.reverse = c.cell.reverse ∧ cell.locationArea = c.cell.locationArea ∧
      cell.subscriberClass = c.cell.subscriberClass ∧ cell.uPlaneDtx = c.cell.uPlaneDtx ∧ cell.frame18Ext = c.cell.frame18Ext ∧
      cell.lateEntry = c.cell.lateEntry ∧ cell.services = services c (!c.brew.isSome && c.cell.systemWide) := by
  simp only [StackConfig.cellCfg] at h
  obtain ⟨off, h1, h⟩ := Res.bind_eq_ok.1 h
  cases h
  refine ⟨off, ?_, rfl, rfl, rfl, rfl, rfl, rfl, rfl, rfl, rfl, rfl, rfl, rfl, rfl, rfl, rfl, rfl, by cases c.brew <;> rfl⟩
  cases ho : Freqs.offsetHzToId c.cell.freqOffset with
  | none => rw [ho] at h1; cases h1
  | some o => rw [ho] at h1; cases h1; rfl

/-- **C77, what is not checked.** For a configuration which is accepted, the values broadcast fit their fields exactly if these
eight do. -/
theorem c77_ranges (tz : String → Bool) (t : Table) (st : Station) (h : startUp tz t = .ok (some st)) :
    st.cell.InRange ↔ st.cell.mcc < 1024 ∧ st.cell.mnc < 16384 ∧ st.cell.systemCode < 16 ∧ st.cell.colourCode < 64 ∧
      st.cell.sharingMode < 4 ∧ st.cell.tsReserved < 8 ∧ st.cell.locationArea < 16384 ∧ st.cell.duplexSpacing < 8 := by
  obtain ⟨c, s, fi, dl, ul, hc, hb, hs, hf, hg, hd, hu, hr, hcell, hcode⟩ := startUp_ok h
  obtain ⟨off, ho, e1, e2, e3, e4, e5, e6, e7, e8, e9, e10, e11, e12, e13, e14, e15, e16, e17⟩ := cellCfg_ok hcell
  obtain ⟨b1, b2, b3, _⟩ := Freqs.fromComponents_ok hf
  have hsub := subscriber_typed hc
  have hoff := (offset_id ho).1
  simp only [CellCfg.InRange, e7, e8, e9, e13]
  constructor
  · rintro ⟨h1, h2, h3, h4, h5, h6, _, _, _, h7, h8, _⟩
    exact ⟨h1, h2, h3, h4, h5, h6, h8, h7⟩
  · rintro ⟨h1, h2, h3, h4, h5, h6, h7, h8⟩
    exact ⟨h1, h2, h3, h4, h5, h6, by omega, by omega, hoff, h8, h7, hsub⟩

/-! ## The first timeslots -/

theorem cat_mem {ws : List (Out (List Bool))} {bs : List Bool} (h : cat ws = .ok bs) : ∀ w ∈ ws, ∃ b, w = .ok b := by
  induction ws generalizing bs with
  | nil => intro w hw; cases hw
  | cons w ws ih =>
    simp only [cat] at h
    cases w with
    | ok b =>
      simp only [Out.bind_ok] at h
      cases hc : cat ws with
      | ok r =>
        intro w hw
        rcases List.mem_cons.1 hw with rfl | hw
        · exact ⟨_, rfl⟩
        · exact ih hc w hw
      | err => rw [hc] at h; cases h
      | panic => rw [hc] at h; cases h
    | err => cases h
    | panic => cases h

theorem wBits_lt {v n : Nat} (h : ∃ b, wBits v n = .ok b) : v < 2 ^ n := by
  obtain ⟨b, h⟩ := h
  unfold wBits at h
  split at h
  · rename_i hh; exact hh.2
  · cases h

theorem out_bind_ok {α β : Type} {x : Out α} {f : α → Out β} {b : β} (h : (x >>= f) = .ok b) : ∃ a, x = .ok a ∧ f a = .ok b := by
  cases x with
  | ok a => exact ⟨a, rfl, h⟩
  | err => cases h
  | panic => cases h

theorem sync_range {pre : Precomps} {r : TmvReq} (h : syncBlk pre = .ok r) :
    pre.macSync.systemCode < 16 ∧ pre.macSync.colourCode < 64 ∧ pre.macSync.sharingMode < 4 ∧ pre.macSync.tsReserved < 8 ∧
    pre.mleSync.mcc < 1024 ∧ pre.mleSync.mnc < 16384 := by
  unfold syncBlk at h
  obtain ⟨a, h1, h⟩ := out_bind_ok h
  obtain ⟨b, _, h⟩ := out_bind_ok h
  obtain ⟨c, h2, h⟩ := out_bind_ok h
  have m1 := cat_mem h1
  have m2 := cat_mem h2
  simp only [List.forall_mem_cons] at m1 m2
  obtain ⟨p1, p2, _, _, _, p6, p7, _⟩ := m1
  obtain ⟨q1, q2, _⟩ := m2
  exact ⟨wBits_lt p1, wBits_lt p2, wBits_lt p6, wBits_lt p7, wBits_lt q1, wBits_lt q2⟩

theorem sysinfo_range {pre : Precomps} {sc t : Nat} {r : TmvReq} (h : sysinfoBlk pre sc t = .ok r)
    (he : pre.macSysinfo1.duplexSpacing = pre.macSysinfo2.duplexSpacing) :
    pre.macSysinfo1.duplexSpacing < 8 ∧ pre.mleSysinfo.locationArea < 16384 := by
  have key : ∀ {a : List Bool} {x : MacSysinfo}, x.enc = .ok a → x.duplexSpacing < 8 := by
    intro a x hx
    have m1 := cat_mem hx
    simp only [List.forall_mem_cons] at m1
    exact wBits_lt m1.2.2.2.2.2.1
  have last : ∀ {a : List Bool}, (do
      let b ← (⟨[], 124⟩ : Blk).write a
      let c ← pre.mleSysinfo.enc
      let b ← b.write c
      (.ok ⟨.bnch, b, sc⟩ : Out TmvReq)) = .ok r → pre.mleSysinfo.locationArea < 16384 := by
    intro a h
    obtain ⟨b, _, h⟩ := out_bind_ok h
    obtain ⟨c, h2, _⟩ := out_bind_ok h
    have m2 := cat_mem h2
    simp only [List.forall_mem_cons] at m2
    exact wBits_lt m2.1
  unfold sysinfoBlk at h
  simp only at h
  split at h
  · obtain ⟨a, h1, h⟩ := out_bind_ok h
    exact ⟨key h1, last h⟩
  · obtain ⟨a, h1, h⟩ := out_bind_ok h
    rw [he]
    exact ⟨key h1, last h⟩

/-- A scheduler with nothing to send. -/
structure Quiet (s : Sched) : Prop where
  queues : ∀ i, s.queues i = []
  next : s.next = []
  circuits : s.circuits = .init

theorem quiet_build {s : Sched} (hq : Quiet s) {ts : Time} {i : Fin 4} {p : Part} (h : s.build ts i = .ok p) :
    p.s = s ∧ p.blk1 = none ∧ p.blk2 = none := by
  unfold Sched.build at h
  obtain ⟨o, ho, h⟩ := out_bind_ok h
  have : o = false := by
    rw [hq.circuits] at ho
    simp only [CircuitMgr.isActive, CircuitMgr.init] at ho
    cases hi : Slots.idx ts.t with
    | panic => rw [hi] at ho; cases ho
    | ok j => rw [hi] at ho; cases ho; rfl
  subst this
  simp only [Bool.false_and, Bool.and_false, Bool.false_eq_true, if_false] at h
  unfold Sched.signallingPart at h
  rw [hq.queues i, hq.next] at h
  have hu : s.queues.upd i [] = s.queues := by
    funext j
    by_cases hj : j = i
    · subst hj; rw [Slots.upd_self, hq.queues]
    · rw [Slots.upd_ne _ _ hj]
  have hn := hq.next
  cases h
  refine ⟨?_, rfl, rfl⟩
  show ({ s with queues := s.queues.upd i [], next := [] } : Sched) = s
  rw [hu, ← hn]

theorem quiet_finalize {s s' : Sched} {y : TickOut} {n : Int} (hq : Quiet s) (hcur : s.cur = fromInt n) (h : s.finalize = .ok (s', y)) :
    Quiet s' ∧ s'.cur = s.cur ∧ s'.pre = s.pre.stamp (fromInt (n + 1)) ∧
    (2 ≤ (fromInt (n + 1)).t → (∃ r, syncBlk (s.pre.stamp (fromInt (n + 1))) = .ok r) ∧
      ∃ r, sysinfoBlk (s.pre.stamp (fromInt (n + 1))) s.scramb (fromInt (n + 1)).t = .ok r) := by
  have hv := fromInt_valid (n + 1)
  unfold Sched.finalize at h
  rw [hcur, fromInt_add _ _ (by omega) (by omega), Out.ofRes_ok, Out.bind_ok] at h
  obtain ⟨i, hi, h⟩ := out_bind_ok h
  simp only at h
  obtain ⟨phy, _, h⟩ := out_bind_ok h
  obtain ⟨p, hp, h⟩ := out_bind_ok h
  obtain ⟨e1, e2, e3⟩ := quiet_build (s := { s with cur := fromInt n, pre := s.pre.stamp (fromInt (n + 1)) }) ⟨hq.queues, hq.next, hq.circuits⟩ hp
  obtain ⟨_, _, h⟩ := out_bind_ok h
  obtain ⟨bbk, _, h⟩ := out_bind_ok h
  obtain ⟨b1, hb1, h⟩ := out_bind_ok h
  obtain ⟨b2, hb2, h⟩ := out_bind_ok h
  obtain ⟨c1, _, h⟩ := out_bind_ok h
  obtain ⟨c2, _, h⟩ := out_bind_ok h
  obtain ⟨u, _, h⟩ := out_bind_ok h
  cases h
  rw [e1] at hb1 hb2
  simp only [e1]
  rw [e2] at hb1
  rw [e3] at hb2
  refine ⟨⟨hq.queues, hq.next, hq.circuits⟩, hcur.symm, trivial, ?_⟩
  intro ht
  simp only [Sched.firstBlk, defaultBlk] at hb1
  rw [if_pos (by obtain ⟨_, v2, v3, v4, _⟩ := hv; omega)] at hb1
  refine ⟨⟨_, hb1⟩, ?_⟩
  have hch : b1.chan = .bsch := by
    unfold syncBlk at hb1
    obtain ⟨a, _, hb1⟩ := out_bind_ok hb1
    obtain ⟨b, _, hb1⟩ := out_bind_ok hb1
    obtain ⟨c, _, hb1⟩ := out_bind_ok hb1
    obtain ⟨d, _, hb1⟩ := out_bind_ok hb1
    cases hb1
    rfl
  simp only [secondBlk, hch, Option.isNone_none, true_and, true_or, if_true, reduceCtorEq, if_false] at hb2
  split at hb2
  · obtain ⟨r, hr, _⟩ := out_bind_ok hb2
    exact ⟨r, hr⟩
  · cases hb2

theorem quiet_tick {s s' : Sched} {y : SchedRet} {n : Int} (hq : Quiet s) (hcur : s.cur = fromInt n) (h : s.step .tick = .ok (s', y)) :
    Quiet s' ∧ s'.cur = fromInt (n + 1) ∧ s'.pre = s.pre.stamp (fromInt (n + 2)) ∧
    (2 ≤ (fromInt (n + 2)).t → (∃ r, syncBlk (s.pre.stamp (fromInt (n + 2))) = .ok r) ∧
      ∃ r, sysinfoBlk (s.pre.stamp (fromInt (n + 2))) s.scramb (fromInt (n + 2)).t = .ok r) := by
  simp only [Sched.step] at h
  rw [hcur, fromInt_add _ _ (by omega) (by omega), Out.ofRes_ok, Out.bind_ok] at h
  obtain ⟨⟨s1, y1⟩, hf, h⟩ := out_bind_ok h
  cases h
  have := quiet_finalize (s := { s with cur := fromInt (n + 1) }) (n := n + 1) ⟨hq.queues, hq.next, hq.circuits⟩ rfl hf
  rw [show n + 1 + 1 = n + 2 by omega] at this
  exact this

theorem range_of_blocks {cfg : CellCfg} {pre : Precomps} {sc t : Nat} {ts : Time} (hp : pre = Precomps.generate cfg ∨ ∃ ts0, pre = (Precomps.generate cfg).stamp ts0)
    (h1 : ∃ r, syncBlk (pre.stamp ts) = .ok r) (h2 : ∃ r, sysinfoBlk (pre.stamp ts) sc t = .ok r) :
    cfg.mcc < 1024 ∧ cfg.mnc < 16384 ∧ cfg.systemCode < 16 ∧ cfg.colourCode < 64 ∧ cfg.sharingMode < 4 ∧ cfg.tsReserved < 8 ∧
      cfg.locationArea < 16384 ∧ cfg.duplexSpacing < 8 := by
  obtain ⟨r, h1⟩ := h1
  obtain ⟨r', h2⟩ := h2
  rcases hp with rfl | ⟨_, rfl⟩
  all_goals
    obtain ⟨a1, a2, a3, a4, a5, a6⟩ := sync_range h1
    obtain ⟨b1, b2⟩ := sysinfo_range h2 rfl
    exact ⟨a5, a6, a1, a2, a3, a4, b2, b1⟩

theorem two_slots (n : Int) : 2 ≤ (fromInt n).t ∨ 2 ≤ (fromInt (n + 1)).t := by
  simp only [fromInt]
  omega

theorem spacing_std {band id sp : Nat} (hb : band ≤ 8) (h : Freqs.getDefaultDuplexSpacing band id = .ok (some sp)) :
    stdSpacing band id = some (sp : Int) ∧ sp ≤ 45000000 := by
  have key : ∀ i : Fin 8, ∀ b : Fin 9, ∀ s, Freqs.getDefaultDuplexSpacing b i = .ok (some s) →
      stdSpacing b i = some (s : Int) ∧ s ≤ 45000000 := by
    have : ∀ i : Fin 8, ∀ b : Fin 9, (match Freqs.getDefaultDuplexSpacing b i with
        | .ok (some s) => decide (stdSpacing b i = some (s : Int) ∧ s ≤ 45000000)
        | _ => true) = true := by decide +kernel
    intro i b s e
    have := this i b
    rw [e] at this
    exact of_decide_eq_true this
  have hi : id < 8 := by
    unfold Freqs.getDefaultDuplexSpacing at h
    split at h
    · assumption
    · cases h
  exact key ⟨id, hi⟩ ⟨band, by omega⟩ sp h

theorem tuned_of {x : F} {k : Nat} (h : x.toU32 = k) (h1 : 1 ≤ k) (h2 : k < 4294967295) : x.Tuned k := by
  cases x with
  | nan => simp only [F.toU32] at h; omega
  | inf b => cases b <;> simp only [F.toU32, if_true, Bool.false_eq_true, if_false] at h <;> omega
  | fin n e =>
    simp only [F.toU32] at h
    split at h
    · omega
    · rename_i hn
      have hk : n.toNat / 2 ^ e = k := by omega
      have hp : 0 < 2 ^ e := Nat.pos_of_ne_zero (by simp)
      refine ⟨n, e, rfl, ?_, ?_⟩
      · have := Nat.div_mul_le_self n.toNat (2 ^ e)
        rw [hk] at this
        have : ((k * 2 ^ e : Nat) : Int) ≤ (n.toNat : Int) := by exact_mod_cast this
        simpa [Int.toNat_of_nonneg (show 0 ≤ n by omega)] using this
      · have := Nat.lt_div_mul_add (a := n.toNat) hp
        rw [hk] at this
        have : (n.toNat : Int) < ((k * 2 ^ e + 2 ^ e : Nat) : Int) := by exact_mod_cast this
        rw [Int.toNat_of_nonneg (show 0 ≤ n by omega)] at this
        rw [Int.add_mul]
        simpa using this

theorem std_code {mcc mnc cc : Nat} (hm : mcc < 1024) (hn : mnc < 16384) (hc : 1 ≤ cc) (hc2 : cc < 64) :
    BitVec.ofNat 32 (Scrambler.getInit mcc mnc cc).toNat = stdCode mcc mnc cc := by
  rw [Scrambler.getInit_toNat mcc mnc cc hc hc2 hn hm, stdCode, if_neg (by omega)]

/-- The blocks of a synchronisation slot are full. -/
theorem sync_full {cfg : CellCfg} (hcfg : cfg.InRange) {scramb : Nat} {x : Time} (hx : x.valid) {es : List SchedEv} (hp : Proper es)
    {y : TickOut} (h : Built cfg scramb x es y) (hb : y.slot.blk1.chan = .bsch) {r : TmvReq} (hr : y.slot.blk2 = some r) :
    Phy.whole y.slot.blk1.blk = y.slot.blk1.blk.bits ∧ Phy.whole r.blk = r.blk.bits ∧ r.chan = .bnch := by
  obtain ⟨s, s', tr, _, henv, hh, hc⟩ := last_tick hcfg hx hp h
  cases hc with
  | voice _ _ _ _ _ hb1 => rw [hb1] at hb; cases hb
  | stolen _ _ _ _ _ _ _ _ hb1 => rw [hb1] at hb; cases hb
  | signalling _ _ hc => rw [hc] at hb; cases hb
  | hangIdle _ _ _ hb1 => rw [hb1] at hb; cases hb
  | idleF _ _ _ hb1 => rw [hb1] at hb; cases hb
  | idleH _ _ _ hb1 => rw [hb1] at hb; cases hb
  | sync _ hs r' hb2 hs2 =>
    rw [hb2] at hr; cases hr
    obtain ⟨_, _, a3, a4, _⟩ := isSync_spec henv.pre hs
    obtain ⟨b1, _, b3, b4, _⟩ := isSysinfo_spec henv.pre hs2
    exact ⟨by simp [Phy.whole, a3, a4], by simp [Phy.whole, b3, b4], b1⟩

/-- **C77, a mobile finds the cell.** A file is accepted whose values fit (`c77_ranges`), with colour code and frequency band
not 0 and no spacing of its own, for a base station. Whenever the cell sends a synchronisation slot, a mobile which knows
nothing of the cell and hears it with few errors finds out the network, the colour code, the location area and the frame
number, and everything else the configuration says of the cell; the frequencies it works out are those on which the radio of the base station sends and listens. -/
theorem c77_found_partial (tz : String → Bool) (file : Table) (c : StackConfig) (st : Station) (hc : fromToml file = .ok (some c))
    (hs : startUp tz file = .ok (some st)) (hrange : st.cell.InRange) (hmode : c.mode = .bs) (hcol : 1 ≤ c.cell.colourCode)
    (hband : 1 ≤ c.cell.freqBand) (hcus : c.cell.customDuplex = none) (x : Time) (hx : x.valid) (es : List SchedEv) (hp : Proper es)
    (y : TickOut) (h : Built st.cell st.code x es y) (hy : y.slot.blk1.chan = .bsch) (b : List Bool)
    (hb : Phy.sendSlot y.slot = .ok b) (rx : List Bool) (N : Phy.SyncNear rx b) :
    ∃ dl ul, acquire rx = some ⟨c.mcc, c.mnc, c.cell.colourCode, c.cell.locationArea, (slotTime x es).t, (slotTime x es).f,
        (slotTime x es).m, some (slotTime x es).h, dl, ul, c.cell.systemCode, c.cell.sharingMode, c.cell.tsReserved, c.cell.uPlaneDtx,
        c.cell.frame18Ext, c.cell.lateEntry, c.cell.subscriberClass, services c (es.foldl wideAfter (!c.brew.isSome && c.cell.systemWide))⟩ ∧ st.tx.Tuned dl ∧ st.rx.Tuned ul := by
  obtain ⟨c', s, fi, dl, ul, hc', hback, hs, hf, hg, hd, hu, hr, hcell, hcode⟩ := startUp_ok hs
  rw [hc] at hc'; cases hc'
  obtain ⟨off, ho, e1, e2, e3, e4, e5, e6, e7, e8, e9, e10, e11, e12, e13, e14, e15, e16, e17⟩ := cellCfg_ok hcell
  obtain ⟨f1, f2, f3, g1, g2, g3, g4, g5, _, g7⟩ := Freqs.fromComponents_ok hf
  obtain ⟨q1, q2⟩ := Freqs.c08_freqs_exact _ _ _ _ _ _ _ hf hband dl ul hg
  obtain ⟨s1, s2⟩ := spacing_std f1 (g7 hcus)
  obtain ⟨t1, t2, _, r, t3, t4⟩ := Phy.c65_sync st.cell hrange st.code x hx es hp y h hy b hb rx N
  obtain ⟨w1, w2, w3⟩ := sync_full hrange hx hp h hy t3
  obtain ⟨_, rest, m1, m2⟩ := c43_sync st.cell hrange st.code x hx es hp y h hy
  obtain ⟨rest', n1, n2⟩ := c43_sysinfo st.cell hrange st.code x hx es hp y h r t3 w3
  have hdl : (dl : Int) ≤ 900000000 + 12500 ∧ 99990000 ≤ (dl : Int) := by
    unfold Freqs.planDl at q1; omega
  refine ⟨dl, ul, ?_, ?_, ?_⟩
  · have k1 : (syncOf st.cell (slotTime x es)).2.mcc = c.mcc := e1
    have k2 : (syncOf st.cell (slotTime x es)).2.mnc = c.mnc := e2
    have k3 : (syncOf st.cell (slotTime x es)).1.colourCode = c.cell.colourCode := e4
    have hcd : BitVec.ofNat 32 st.code = stdCode c.mcc c.mnc c.cell.colourCode := by
      rw [hcode, StackConfig.code]
      exact std_code (by rw [← e1]; exact hrange.1) (by rw [← e2]; exact hrange.2.1) hcol (by rw [← e4]; exact hrange.2.2.2.1)
    rw [w1] at t2
    rw [w2, hcd] at t4
    have j1 : (sysinfoOf st.cell (wideAt st.cell es) (slotTime x es)).1.freqBand = c.cell.freqBand := by
      simp only [sysinfoOf]; split <;> exact e8
    have j2 : (sysinfoOf st.cell (wideAt st.cell es) (slotTime x es)).1.mainCarrier = c.cell.mainCarrier := by
      simp only [sysinfoOf]; split <;> exact e7
    have j3 : (sysinfoOf st.cell (wideAt st.cell es) (slotTime x es)).1.freqOffset = off := by
      simp only [sysinfoOf]; split <;> exact e9
    have j4 : (sysinfoOf st.cell (wideAt st.cell es) (slotTime x es)).1.duplexSpacing = c.cell.duplexSpacing := by
      simp only [sysinfoOf]; split <;> exact e10
    have j5 : (sysinfoOf st.cell (wideAt st.cell es) (slotTime x es)).1.reverse = c.cell.reverse := by
      simp only [sysinfoOf]; split <;> exact e11
    have j6 : (sysinfoOf st.cell (wideAt st.cell es) (slotTime x es)).1.hyperframe = some (slotTime x es).h := by
      simp only [sysinfoOf]; split <;> rfl
    have j7 : (sysinfoOf st.cell (wideAt st.cell es) (slotTime x es)).2.locationArea = c.cell.locationArea := e12
    have j8 : (sysinfoOf st.cell (wideAt st.cell es) (slotTime x es)).2.subscriberClass = c.cell.subscriberClass := e13
    have j9 : (sysinfoOf st.cell (wideAt st.cell es) (slotTime x es)).2.services =
        services c (es.foldl wideAfter (!c.brew.isSome && c.cell.systemWide)) := by
      simp only [sysinfoOf, wideAt, e17, services]
    unfold acquire
    simp only [t1, t2, m1, m2, k1, k2, k3, t4, n1, n2, j1, j2, j3, j4, j5, j6, j7, (offset_id ho).2, s1, ← q1]
    rw [q2]
    simp only [syncOf, e3, e5, e6, e14, e15, e16, j8, j9]
  · simp only [StackConfig.radio, hmode, Res.ok.injEq, Prod.mk.injEq] at hr
    rw [← hr.1]
    exact tuned_of hd (by omega) (by omega)
  · simp only [StackConfig.radio, hmode, Res.ok.injEq, Prod.mk.injEq] at hr
    rw [← hr.2]
    have : 1 ≤ ul ∧ ul < 4294967295 := by
      split at q2 <;> omega
    exact tuned_of hu this.1 this.2

/-- **C77, starting.** Of the configurations which are accepted, exactly those in which the eight values of `c77_ranges` fit
live to see the third timeslot; the others stop the program while the first two are built. With values which fit the
broadcast never stops it. -/
theorem c77_starts_iff_partial (tz : String → Bool) (file : Table) (st : Station) (hs : startUp tz file = .ok (some st))
    (x : Time) (hx : x.valid) :
    ((∃ r, (Sched.init x st.code (Precomps.generate st.cell)).run [.tick, .tick] = .ok r) ↔ st.cell.InRange) ∧
    (st.cell.InRange → ∀ es, Proper es → Orderly st.cell st.code x es →
      ∃ r, (Sched.init x st.code (Precomps.generate st.cell)).run es = .ok r) := by
  have live : st.cell.InRange → ∀ es, Proper es → Orderly st.cell st.code x es →
      ∃ r, (Sched.init x st.code (Precomps.generate st.cell)).run es = .ok r :=
    fun h es hp ho => c23_total_partial st.cell h st.code x hx es hp ho
  refine ⟨⟨?_, ?_⟩, live⟩
  · rintro ⟨r, hr⟩
    rw [c77_ranges tz file st hs]
    obtain ⟨⟨a, ya⟩, tr, h1, h2, _⟩ := srun_cons hr
    obtain ⟨⟨a', yb⟩, tr', h3, h4, _⟩ := srun_cons h2
    have q0 : Quiet (Sched.init x st.code (Precomps.generate st.cell)) := ⟨fun _ => rfl, rfl, rfl⟩
    have c0 : (Sched.init x st.code (Precomps.generate st.cell)).cur = fromInt x.toInt := (fromInt_toInt hx).symm
    obtain ⟨q1, c1, p1, b1⟩ := quiet_tick q0 c0 h1
    obtain ⟨q2, c2, p2, b2⟩ := quiet_tick q1 c1 h3
    rcases two_slots (x.toInt + 2) with ht | ht
    · obtain ⟨g1, g2⟩ := b1 ht
      exact range_of_blocks (.inl rfl) g1 g2
    · obtain ⟨g1, g2⟩ := b2 (by rw [show x.toInt + 1 + 2 = x.toInt + 2 + 1 by omega]; exact ht)
      exact range_of_blocks (.inr ⟨_, p1⟩) g1 g2
  · intro h
    refine live h _ ?_ ⟨?_, ?_⟩
    · intro e he
      simp only [List.mem_cons, List.not_mem_nil, or_false, or_self] at he
      subst he
      exact ⟨trivial, trivial⟩
    · intro es1 t id rep b es2 he
      have : SchedEv.steal t id rep b ∈ [SchedEv.tick, .tick] := by rw [he]; simp
      simp at this
    · intro es1 t es2 he
      have : SchedEv.close .dl t ∈ [SchedEv.tick, .tick] := by rw [he]; simp
      simp at this

/-! ## Findings -/

/-- **Finding**: the program of the base station accepts `stack_mode = "Ms"`, and then sends on the uplink and listens on the
downlink, while what it broadcasts is that of a base station. -/
theorem c77_mode_ms (tz : String → Bool) (file : Table) (c : StackConfig) (st : Station) (hc : fromToml file = .ok (some c))
    (hs : startUp tz file = .ok (some st)) (hmode : c.mode = .ms) (hband : 1 ≤ c.cell.freqBand) (hcus : c.cell.customDuplex = none) :
    ∃ sp, stdSpacing c.cell.freqBand c.cell.duplexSpacing = some sp ∧
      st.rx.Tuned (Freqs.planDl c.cell.freqBand c.cell.mainCarrier c.cell.freqOffset) ∧
      st.tx.Tuned (if c.cell.reverse then Freqs.planDl c.cell.freqBand c.cell.mainCarrier c.cell.freqOffset + sp
        else Freqs.planDl c.cell.freqBand c.cell.mainCarrier c.cell.freqOffset - sp) := by
  obtain ⟨c', s, fi, dl, ul, hc', hback, hs, hf, hg, hd, hu, hr, hcell, hcode⟩ := startUp_ok hs
  rw [hc] at hc'; cases hc'
  obtain ⟨f1, f2, f3, g1, g2, g3, g4, g5, _, g7⟩ := Freqs.fromComponents_ok hf
  obtain ⟨q1, q2⟩ := Freqs.c08_freqs_exact _ _ _ _ _ _ _ hf hband dl ul hg
  obtain ⟨s1, s2⟩ := spacing_std f1 (g7 hcus)
  have hdl : (dl : Int) ≤ 900000000 + 12500 ∧ 99990000 ≤ (dl : Int) := by
    unfold Freqs.planDl at q1; omega
  simp only [StackConfig.radio, hmode, Res.ok.injEq, Prod.mk.injEq] at hr
  refine ⟨_, s1, ?_, ?_⟩
  · rw [← hr.2, ← q1]
    exact tuned_of hd (by omega) (by omega)
  · rw [← hr.1, ← q1, ← q2]
    have : 1 ≤ ul ∧ ul < 4294967295 := by
      split at q2 <;> omega
    exact tuned_of hu this.1 this.2

/-- The number of places where two blocks differ. -/
def differ (a b : List Bool) : Nat := (List.zipWith xor a b).countP id

theorem xor_xor (l k : List Bool) (h : l.length = k.length) : List.zipWith xor l (List.zipWith xor l k) = k := by
  induction l generalizing k with
  | nil => cases k with
    | nil => rfl
    | cons => cases h
  | cons a l ih =>
    cases k with
    | nil => cases h
    | cons b k =>
      simp only [List.zipWith_cons_cons, ih k (by simpa using h)]
      cases a <;> cases b <;> rfl

/-- **Finding**: with colour code 0, which is what an omitted `colour_code` gives, the cell does not scramble at all, while a
mobile uses the predefined code: whatever the cell sends in a block of 216 bits, after descrambling 111 of them are wrong. -/
theorem c77_colour_zero (tz : String → Bool) (file : Table) (c : StackConfig) (st : Station) (hc : fromToml file = .ok (some c))
    (hs : startUp tz file = .ok (some st)) (hcol : c.cell.colourCode = 0) :
    BitVec.ofNat 32 st.code ≠ stdCode c.mcc c.mnc c.cell.colourCode ∧
    ∀ block : List Bool, block.length = 216 →
      differ block (Scrambler.scramble (stdCode c.mcc c.mnc c.cell.colourCode) (Scrambler.scramble (BitVec.ofNat 32 st.code) block)) = 111 := by
  obtain ⟨c', s, fi, dl, ul, hc', hback, hs, hf, hg, hd, hu, hr, hcell, hcode⟩ := startUp_ok hs
  rw [hc] at hc'; cases hc'
  have hz : BitVec.ofNat 32 st.code = Scrambler.getInit c.mcc c.mnc 0 := by
    rw [hcode, StackConfig.code, hcol]; exact BitVec.ofNat_toNat _ _
  have h3 : stdCode c.mcc c.mnc c.cell.colourCode = 3#32 := by rw [hcol]; rfl
  rw [hz, h3]
  refine ⟨by rw [show Scrambler.getInit c.mcc c.mnc 0 = 0#32 from rfl]; decide, ?_⟩
  intro block hl
  rw [Scrambler.c11_colour_zero_disables, Scrambler.scramble_eq, differ, xor_xor _ _ (by rw [Scrambler.length_keystream]), hl]
  decide +kernel

instance (c : CellCfg) : Decidable c.InRange := by unfold CellCfg.InRange; infer_instance

/-- A value of a section replaced. -/
def setKey (sec key : String) (v : Value) (t : Table) : Table :=
  t.map fun p => if p.1 = sec then
    match p.2 with
    | .table u => (p.1, .table ((u.filter (·.1 ≠ key)) ++ [(key, v)]))
    | w => (p.1, w)
  else p

/-- What the example of the repository comes to. -/
def exampleStation : Station :=
  ⟨{ mcc := 204, mnc := 1337, systemCode := 3, colourCode := 1, sharingMode := 0, tsReserved := 0, uPlaneDtx := false, frame18Ext := false,
     lateEntry := false, mainCarrier := 1521, freqBand := 4, freqOffset := 0, duplexSpacing := 4, reverse := false, locationArea := 2,
     subscriberClass := 65535,
     services := ⟨true, true, false, false, false, true, true, false, false, false, false⟩ }, 855980295, .fin 438025000 0, .fin 433025000 0⟩

/-- Non-vacuity of `c77_ranges`, `c77_starts_iff_partial` and `c77_found_partial`. -/
example : startUp (fun _ => true) (exampleFile "command" exampleLink) = .ok (some exampleStation) ∧ exampleStation.cell.InRange := by
  decide +kernel

/-- Non-vacuity of `c77_mode_ms`, and `Mon` stops the program. -/
theorem c77_mode_example :
    startUp (fun _ => true) (exampleFile "command" exampleLink |>.map fun p => if p.1 = "stack_mode" then (p.1, .str "Ms") else p) =
      .ok (some { exampleStation with tx := .fin 433025000 0, rx := .fin 438025000 0 }) ∧
    startUp (fun _ => true) (exampleFile "command" exampleLink |>.map fun p => if p.1 = "stack_mode" then (p.1, .str "Mon") else p) = .panic := by
  decide +kernel

/-- Non-vacuity of `c77_colour_zero`: the key left out. -/
example : (startUp (fun _ => true) ((exampleFile "command" exampleLink).map fun p => if p.1 = "cell_info" then
      match p.2 with
      | .table u => (p.1, .table (u.filter (·.1 ≠ "colour_code")))
      | w => (p.1, w)
    else p)) = .ok (some { exampleStation with code := 0, cell := { exampleStation.cell with colourCode := 0 } }) := by
  decide +kernel

/-- **Finding**: each of the eight values of `c77_ranges` can be out of range in a file which is
accepted. (The file states the duplex spacing itself, else the number 8 for it would be noticed.) -/
theorem c77_out_of_range : ∀ p ∈ [("net_info", "mcc", 1024), ("net_info", "mnc", 16384), ("cell_info", "system_code", 16),
      ("cell_info", "colour_code", 64), ("cell_info", "sharing_mode", 4), ("cell_info", "ts_reserved_frames", 8),
      ("cell_info", "location_area", 16384), ("cell_info", "duplex_spacing", 8)],
    ∃ st, startUp (fun _ => true) (setKey p.1 p.2.1 (.int p.2.2)
      (setKey "cell_info" "custom_duplex_spacing" (.int 5000000) (exampleFile "command" exampleLink))) = .ok (some st) ∧ ¬ st.cell.InRange := by
  have key : ∀ p ∈ [("net_info", "mcc", 1024), ("net_info", "mnc", 16384), ("cell_info", "system_code", 16),
      ("cell_info", "colour_code", 64), ("cell_info", "sharing_mode", 4), ("cell_info", "ts_reserved_frames", 8),
      ("cell_info", "location_area", 16384), ("cell_info", "duplex_spacing", 8)],
    (match startUp (fun _ => true) (setKey p.1 p.2.1 (.int p.2.2)
      (setKey "cell_info" "custom_duplex_spacing" (.int 5000000) (exampleFile "command" exampleLink))) with
      | .ok (some st) => decide (¬ st.cell.InRange)
      | _ => false) = true := by decide +kernel
  intro p hp
  have := key p hp
  split at this
  · rename_i st h
    exact ⟨st, h, of_decide_eq_true this⟩
  · cases this

/-- **Finding**: with a spacing of its own the base station listens where no mobile which knows only the standard spacings
sends: here 9.4 MHz below the carrier, while a mobile takes the spacing broadcast to be 5 MHz. -/
theorem c77_custom_spacing : ∃ st, startUp (fun _ => true) (setKey "cell_info" "custom_duplex_spacing" (.int 9400000)
      (setKey "phy_io" "soapysdr" (.table [("tx_freq", .int 438025000), ("rx_freq", .int 428625000)]) (exampleFile "command" exampleLink))) = .ok (some st) ∧
    st.cell = exampleStation.cell ∧ st.rx = .fin 428625000 0 ∧ stdSpacing st.cell.freqBand st.cell.duplexSpacing = some 5000000 :=
  ⟨{ exampleStation with rx := .fin 428625000 0 }, by decide +kernel⟩

end Verif.Config
