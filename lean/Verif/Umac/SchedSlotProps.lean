import Verif.Umac.SchedEnv
import Verif.Umac.SchedProps
/-!
# C43–C46 — what each downlink slot carries, for every history of calls

`Built cfg scramb x es y`: the scheduler of a cell with configuration `cfg` was started at time `x`, the calls `es` were
made, and the tick after them produced the slot `y`. Every slot of every history arises this way, since every
beginning of a history is a history.
-/
namespace Verif.Umac
open Verif.Bits Verif.Codec Verif.Tdma Verif.Mle

/-! ## Specification -/

/-- Calls with well-formed content. -/
def Proper (es : List SchedEv) : Prop := ∀ e ∈ es, e.Fine ∧ e.Sound

/-- The slot built by the tick after `es`. -/
def Built (cfg : CellCfg) (scramb : Nat) (x : Time) (es : List SchedEv) (y : TickOut) : Prop :=
  ∃ s' tr, (Sched.init x scramb (Precomps.generate cfg)).run (es ++ [.tick]) = .ok (s', tr ++ [(.tick, .sent y)])

/-- Its place in the frame structure: two timeslots after the time reached by the ticks so far. -/
def slotTime (x : Time) (es : List SchedEv) : Time := fromInt (x.toInt + ticksIn es + 2)

/-- Network identity and cell parameters as SYNC broadcasts them for a slot. -/
def syncOf (cfg : CellCfg) (ts : Time) : MacSync × DMleSync :=
  (⟨cfg.systemCode, cfg.colourCode, ts.t, ts.f, ts.m, cfg.sharingMode, cfg.tsReserved, cfg.uPlaneDtx, cfg.frame18Ext⟩,
   ⟨cfg.mcc, cfg.mnc, 2, 0, cfg.lateEntry⟩)

/-- Cell parameters as SYSINFO broadcasts them: the default access definition on odd timeslots, the extended
services on even ones. -/
def sysinfoOf (cfg : CellCfg) (wide : Bool) (ts : Time) : MacSysinfo × DMleSysinfo :=
  (if ts.t % 2 = 1 then
    ⟨cfg.mainCarrier, cfg.freqBand, cfg.freqOffset, cfg.duplexSpacing, cfg.reverse, 0, 5, 3, 7, 3, none, some ts.h, 2,
      none, some ⟨8, 5, 5, false, 0, 0⟩, none⟩
   else
    ⟨cfg.mainCarrier, cfg.freqBand, cfg.freqOffset, cfg.duplexSpacing, cfg.reverse, 0, 5, 3, 7, 3, none, some ts.h, 3,
      none, none, some ⟨false, true, true, false, some 0, none, none, none, none, 2, false, 0, 0⟩⟩,
   ⟨cfg.locationArea, cfg.subscriberClass, { cfg.services with systemWideServices := wide }⟩)

/-! ## Histories -/

theorem srun_env {cfg : CellCfg} (hcfg : cfg.InRange) {scramb : Nat} {x : Time} {es : List SchedEv} (hp : Proper es)
    {es0 : List SchedEv} {s : Sched} (h : Env cfg scramb x es0 s) {r : Sched × List (SchedEv × SchedRet)} (hr : s.run es = .ok r) :
    Env cfg scramb x (es0 ++ es) r.1 := by
  induction es generalizing es0 s r with
  | nil => cases hr; simpa using h
  | cons e es ih =>
    obtain ⟨a, tr, h1, h2, h3⟩ := srun_cons hr
    have := ih (r := (r.1, tr)) (fun e he => hp e (by simp [he]))
      (step_env hcfg h (hp e (by simp)).1 (hp e (by simp)).2 (s' := a.1) (r := a.2) h1).1 h2
    simpa using this

/-- The last tick of a history. -/
theorem last_tick {cfg : CellCfg} (hcfg : cfg.InRange) {scramb : Nat} {x : Time} (hx : x.valid) {es : List SchedEv} (hp : Proper es)
    {y : TickOut} (h : Built cfg scramb x es y) :
    ∃ s s' tr, (Sched.init x scramb (Precomps.generate cfg)).run es = .ok (s, tr) ∧ Env cfg scramb x es s ∧
      SlotHead { s with cur := fromInt (x.toInt + ticksIn es + 1) } (slotTime x es) (slot (x.toInt + ticksIn es + 2)) y ∧
      SlotCase { s with cur := fromInt (x.toInt + ticksIn es + 1) } (slotTime x es) (slot (x.toInt + ticksIn es + 2)) s' y := by
  obtain ⟨s', tr, h⟩ := h
  obtain ⟨s1, tr1, tr2, r1, r2, r3⟩ := srun_append _ _ h
  have henv := srun_env hcfg hp (Env.init cfg scramb hx) r1
  obtain ⟨a, tr3, c1, c2, c3⟩ := srun_cons r2
  cases c2
  have hk := (step_env hcfg henv (e := .tick) trivial trivial (s' := a.1) (r := a.2) c1).2 rfl
  obtain ⟨y', h1, h2, h3⟩ := hk
  have hy : y' = y := by
    simp only at r3 c3
    rw [c3, h1] at r3
    have := congrArg (List.getLast?) r3
    simp at this
    exact this.symm
  subst hy
  exact ⟨s1, a.1, tr1, r1, henv, h2, h3⟩

theorem slot_val (x : Time) (es : List SchedEv) : (slot (x.toInt + ticksIn es + 2)).val + 1 = (slotTime x es).t :=
  (Slots.idx_ok.1 (idx_fromInt _)).symm

theorem slotTime_valid (x : Time) (es : List SchedEv) : (slotTime x es).valid := fromInt_valid _

/-- The slot as the history tells: `hang` and the circuits of its timeslot. -/
theorem Env.at {cfg : CellCfg} {scramb : Nat} {x : Time} {es : List SchedEv} {s : Sched} (h : Env cfg scramb x es s) :
    s.circuits.dl (slot (x.toInt + ticksIn es + 2)) = circuitAt .dl (slotTime x es).t es ∧
    s.circuits.ul (slot (x.toInt + ticksIn es + 2)) = circuitAt .ul (slotTime x es).t es ∧
    s.hang (slot (x.toInt + ticksIn es + 2)) = hangAt (slotTime x es).t es := by
  rw [← slot_val]
  exact ⟨h.dl _, h.ul _, h.hang _⟩

theorem isSync_spec {cfg : CellCfg} {w : Bool} {p : Precomps} (hp : PreFor cfg w p) {ts : Time} {r : TmvReq} (h : IsSync p ts r) :
    r.chan = .bsch ∧ r.scramb = 3 ∧ r.blk.cap = 60 ∧ r.blk.bits.length = 60 ∧
    Holds2 MacSync.dec DMleSync.dec (syncOf cfg ts).1 (syncOf cfg ts).2 r.blk.bits := by
  obtain ⟨h1, h2, h3, h4, h5⟩ := h
  refine ⟨h1, h2, h3, h4, ?_⟩
  rw [hp.mleSync] at h5
  rw [hp.sync] at h5
  exact h5

theorem isSysinfo_spec {cfg : CellCfg} {w : Bool} {p : Precomps} (hp : PreFor cfg w p) {ts : Time} {scramb : Nat} {r : TmvReq}
    (h : IsSysinfo p ts scramb r) :
    r.chan = .bnch ∧ r.scramb = scramb ∧ r.blk.cap = 124 ∧ r.blk.bits.length = 124 ∧
    Holds2 MacSysinfo.dec DMleSysinfo.dec (sysinfoOf cfg w ts).1 (sysinfoOf cfg w ts).2 r.blk.bits := by
  obtain ⟨h1, h2, h3, h4, h5⟩ := h
  refine ⟨h1, h2, h3, h4, ?_⟩
  rw [hp.mleSys, hp.sys1, hp.sys2] at h5
  exact h5.1

/-! ## C43: broadcast -/

/-- **C43, the time of slots.** The slots built are consecutive: the one built by the tick after `es` is
two timeslots after the time the ticks of `es` have reached. -/
theorem c43_time (cfg : CellCfg) (hcfg : cfg.InRange) (scramb : Nat) (x : Time) (hx : x.valid) (es : List SchedEv) (hp : Proper es)
    (y : TickOut) (h : Built cfg scramb x es y) : y.slot.ts = slotTime x es := by
  obtain ⟨s, s', tr, _, _, hh, _⟩ := last_tick hcfg hx hp h
  exact hh.time

/-- **C43, SYNC.** A synchronisation burst read by a station gives the place of this very slot in the frame structure, and
the network and cell identity configured. -/
theorem c43_sync (cfg : CellCfg) (hcfg : cfg.InRange) (scramb : Nat) (x : Time) (hx : x.valid) (es : List SchedEv) (hp : Proper es)
    (y : TickOut) (h : Built cfg scramb x es y) (hb : y.slot.blk1.chan = .bsch) :
    y.slot.blk1.scramb = 3 ∧ ∃ rest, MacSync.dec.run y.slot.blk1.blk.bits = .ok ((syncOf cfg (slotTime x es)).1, rest) ∧
      DMleSync.dec.run rest = .ok ((syncOf cfg (slotTime x es)).2, []) := by
  obtain ⟨s, s', tr, _, henv, hh, hc⟩ := last_tick hcfg hx hp h
  cases hc with
  | voice _ _ _ _ _ hb1 => rw [hb1] at hb; cases hb
  | stolen _ _ _ _ _ _ _ _ hb1 => rw [hb1] at hb; cases hb
  | signalling _ _ hc => rw [hc] at hb; cases hb
  | hangIdle _ _ _ hb1 => rw [hb1] at hb; cases hb
  | idleF _ _ _ hb1 => rw [hb1] at hb; cases hb
  | idleH _ _ _ hb1 => rw [hb1] at hb; cases hb
  | sync _ hs =>
    obtain ⟨_, h2, _, _, h5⟩ := isSync_spec henv.pre hs
    exact ⟨h2, h5⟩

/-- **C43, SYSINFO.** A network broadcast block read by a station gives the hyperframe of this very slot, the
carrier and the services configured; whether system-wide services are available is what the scheduler was last
told. -/
theorem c43_sysinfo (cfg : CellCfg) (hcfg : cfg.InRange) (scramb : Nat) (x : Time) (hx : x.valid) (es : List SchedEv)
    (hp : Proper es) (y : TickOut) (h : Built cfg scramb x es y) (r : TmvReq) (hb : y.slot.blk2 = some r) (hr : r.chan = .bnch) :
    ∃ rest, MacSysinfo.dec.run r.blk.bits = .ok ((sysinfoOf cfg (wideAt cfg es) (slotTime x es)).1, rest) ∧
      DMleSysinfo.dec.run rest = .ok ((sysinfoOf cfg (wideAt cfg es) (slotTime x es)).2, []) := by
  obtain ⟨s, s', tr, _, henv, hh, hc⟩ := last_tick hcfg hx hp h
  cases hc with
  | voice _ _ _ _ _ _ hb2 => rw [hb2] at hb; cases hb
  | stolen _ _ _ _ _ _ _ _ _ hb2 => rw [hb2] at hb; cases hb; cases hr
  | signalling _ _ _ _ _ _ _ hb2 => rw [hb2] at hb; cases hb
  | hangIdle _ _ _ _ hb2 => rw [hb2] at hb; cases hb
  | idleF _ _ _ _ hb2 => rw [hb2] at hb; cases hb
  | idleH _ _ _ _ r' hb2 hs => rw [hb2] at hb; cases hb; exact (isSysinfo_spec henv.pre hs).2.2.2.2
  | sync _ _ r' hb2 hs => rw [hb2] at hb; cases hb; exact (isSysinfo_spec henv.pre hs).2.2.2.2

/-- **C43, when.** In frame 18 every slot is a synchronisation burst with network broadcast, and so is every slot of a
timeslot other than the first on which no circuit is open and which has nothing to send. -/
theorem c43_when (cfg : CellCfg) (hcfg : cfg.InRange) (scramb : Nat) (x : Time) (hx : x.valid) (es : List SchedEv)
    (hp : Proper es) (y : TickOut) (h : Built cfg scramb x es y)
    (hw : (slotTime x es).f = 18 ∨ (2 ≤ (slotTime x es).t ∧ circuitAt .dl (slotTime x es).t es = none ∧ y.log = [])) :
    y.slot.blk1.chan = .bsch ∧ ∃ r, y.slot.blk2 = some r ∧ r.chan = .bnch := by
  obtain ⟨s, s', tr, _, henv, hh, hc⟩ := last_tick hcfg hx hp h
  have hat := henv.at
  cases hc with
  | voice hf ho =>
    rcases hw with hw | ⟨_, hw, _⟩
    · exact absurd hw hf
    · simp only [hat.1, hw] at ho; cases ho
  | stolen hf ho =>
    rcases hw with hw | ⟨_, hw, _⟩
    · exact absurd hw hf
    · simp only [hat.1, hw] at ho; cases ho
  | signalling hf hn _ _ _ _ _ _ _ hl =>
    rcases hw with hw | ⟨_, _, hw⟩
    · exact absurd hw hf
    · exact absurd hw hl
  | hangIdle hf ho =>
    rcases hw with hw | ⟨_, hw, _⟩
    · exact absurd hw hf
    · simp only [hat.1, hw] at ho; cases ho
  | idleF hf _ ht =>
    rcases hw with hw | ⟨hw, _⟩
    · exact absurd hw hf
    · omega
  | idleH hf _ ht =>
    rcases hw with hw | ⟨hw, _⟩
    · exact absurd hw hf
    · omega
  | sync _ hs r hb2 hr => exact ⟨hs.1, r, hb2, hr.1⟩

/-! ## C44: the shape of a slot -/

/-- The combinations of logical channels a downlink slot can carry, with the sizes of its blocks. -/
inductive Shape : DlSlot → Prop
  | traffic {y : DlSlot} (h1 : y.blk1.chan = .tchS) (c1 : y.blk1.blk.cap = 274) (h2 : y.blk2 = none) : Shape y
  | stolen {y : DlSlot} (r : TmvReq) (h1 : y.blk1.chan = .stch) (c1 : y.blk1.blk.cap = 124 ∧ y.blk1.blk.bits.length = 124)
      (h2 : y.blk2 = some r) (h3 : r.chan = .tchS) (c2 : r.blk.cap = 274) : Shape y
  | full {y : DlSlot} (h1 : y.blk1.chan = .schF) (c1 : y.blk1.blk.cap = 268) (h2 : y.blk2 = none) : Shape y
  | half {y : DlSlot} (r : TmvReq) (h1 : y.blk1.chan = .schHd) (c1 : y.blk1.blk.cap = 124) (h2 : y.blk2 = some r) (h3 : r.chan = .bnch)
      (c2 : r.blk.cap = 124) : Shape y
  | sync {y : DlSlot} (r : TmvReq) (h1 : y.blk1.chan = .bsch) (c1 : y.blk1.blk.cap = 60) (h2 : y.blk2 = some r) (h3 : r.chan = .bnch)
      (c2 : r.blk.cap = 124) : Shape y

theorem voiceBits_length (b : Option Block) : (voiceBits b).length ≤ 274 := by
  cases b with
  | none => simp [voiceBits]
  | some b => simp [voiceBits]; omega

theorem takeFirst_good {q : List DlElem} (hg : ∀ e ∈ q, e.Good) {b : List Bool} {o : Owner} {q' : List DlElem}
    (h : takeFirst (·.isStealing) q = some (.stealing b o, q')) : b.length = 124 :=
  hg _ (takeFirst_some h).2.2.2.2.2.2

/-- **C44, the shape of every slot.** Each slot is one of the five combinations of logical channels, its blocks have the
size the physical layer expects of them and hold no more bits than that; the synchronisation block is scrambled
with the fixed code, everything else with the code of the cell; the access assignment has 14 bits. -/
theorem c44_shape (cfg : CellCfg) (hcfg : cfg.InRange) (scramb : Nat) (x : Time) (hx : x.valid) (es : List SchedEv)
    (hp : Proper es) (y : TickOut) (h : Built cfg scramb x es y) :
    Shape y.slot ∧ y.slot.blk1.blk.bits.length ≤ y.slot.blk1.blk.cap ∧
    (∀ r, y.slot.blk2 = some r → r.blk.bits.length ≤ r.blk.cap ∧ r.scramb = scramb) ∧
    (y.slot.blk1.chan = .bsch → y.slot.blk1.scramb = 3) ∧ (y.slot.blk1.chan ≠ .bsch → y.slot.blk1.scramb = scramb) ∧
    y.slot.bbk.chan = .aach ∧ y.slot.bbk.scramb = scramb ∧ y.slot.bbk.blk.bits.length = 14 ∧ y.slot.bbk.blk.cap = 14 := by
  obtain ⟨s, s', tr, _, henv, hh, hc⟩ := last_tick hcfg hx hp h
  have hscr := henv.scr
  obtain ⟨bits, a1, a2, _⟩ := hh.aach
  have ha : y.slot.bbk.chan = .aach ∧ y.slot.bbk.scramb = scramb ∧ y.slot.bbk.blk.bits.length = 14 ∧ y.slot.bbk.blk.cap = 14 := by
    rw [a1]; exact ⟨rfl, hscr, a2, rfl⟩
  cases hc with
  | voice _ _ _ _ _ hb hb2 =>
    refine ⟨.traffic (by rw [hb]) (by rw [hb]) hb2, by rw [hb]; exact voiceBits_length _, by simp [hb2], by simp [hb], ?_, ha⟩
    intro _; rw [hb]; exact hscr
  | stolen _ _ _ b o q hq _ hb hb2 =>
    have h124 := takeFirst_good (henv.inv.good _) hq
    refine ⟨.stolen _ (by rw [hb]) (by rw [hb]; exact ⟨h124, h124⟩) hb2 rfl rfl, by rw [hb]; exact Nat.le_refl _, ?_, by simp [hb], ?_, ha⟩
    · intro r hr
      rw [hb2] at hr; cases hr
      exact ⟨voiceBits_length _, hscr⟩
    · intro _; rw [hb]; exact hscr
  | signalling _ _ hc hs hcap hlen _ hb2 =>
    refine ⟨.full hc hcap hb2, by rw [hcap]; exact hlen, by simp [hb2], by simp [hc], ?_, ha⟩
    intro _; rw [hs]; exact hscr
  | hangIdle _ _ _ hb hb2 =>
    refine ⟨.full (by rw [hb]) (by rw [hb]) hb2, by simp [hb, nullBits], by simp [hb2], by simp [hb], ?_, ha⟩
    intro _; rw [hb]; exact hscr
  | idleF _ _ _ hb hb2 =>
    refine ⟨.full (by rw [hb]) (by rw [hb]) hb2, by simp [hb, nullBits], by simp [hb2], by simp [hb], ?_, ha⟩
    intro _; rw [hb]; exact hscr
  | idleH _ _ _ hb r hb2 hr =>
    obtain ⟨r1, r2, r3, r4, _⟩ := hr
    refine ⟨.half r (by rw [hb]) (by rw [hb]) hb2 r1 r3, by simp [hb, nullBits], ?_, by simp [hb], ?_, ha⟩
    · intro r' hr'
      rw [hb2] at hr'; cases hr'
      exact ⟨by omega, r2.trans hscr⟩
    · intro _; rw [hb]; exact hscr
  | sync _ hs r hb2 hr =>
    obtain ⟨r1, r2, r3, r4, _⟩ := hr
    obtain ⟨q1, q2, q3, q4, _⟩ := hs
    refine ⟨.sync r q1 q3 hb2 r1 r3, by omega, ?_, fun _ => q2, fun hne => absurd q1 hne, ha⟩
    intro r' hr'
    rw [hb2] at hr'; cases hr'
    exact ⟨by omega, r2.trans hscr⟩

/-- **C44, signalling blocks.** A full signalling block is the PDUs served in this slot, one after the other, and one
null PDU if there is room for it: nothing else is on the air. Frame 18 carries none. -/
theorem c44_signalling (cfg : CellCfg) (hcfg : cfg.InRange) (scramb : Nat) (x : Time) (hx : x.valid) (es : List SchedEv)
    (hp : Proper es) (y : TickOut) (h : Built cfg scramb x es y) :
    ((slotTime x es).f = 18 → y.log = []) ∧
    (y.slot.blk1.chan = .schF → y.log ≠ [] → ∃ body, body = (y.log.map Prod.snd).flatten ∧
        (body.length + 16 ≤ 268 → y.slot.blk1.blk.bits = body ++ nullBits) ∧
        (268 < body.length + 16 → y.slot.blk1.blk.bits = body)) ∧
    (y.log ≠ [] → y.slot.blk1.chan = .schF ∨ (y.slot.blk1.chan = .stch ∧ y.log.map Prod.snd = [y.slot.blk1.blk.bits])) := by
  obtain ⟨s, s', tr, _, henv, hh, hc⟩ := last_tick hcfg hx hp h
  cases hc with
  | voice hf _ _ _ _ hb _ hl => exact ⟨fun h => absurd h hf, fun _ h => absurd hl h, fun h => absurd hl h⟩
  | stolen hf _ _ b o q hq _ hb hb2 hl =>
    exact ⟨fun h => absurd h hf, (fun h => by rw [hb] at h; cases h), fun _ => .inr (by simp [hb, hl])⟩
  | signalling hf _ hc _ _ _ hbits =>
    obtain ⟨body, b1, _, b2, b3⟩ := hbits
    exact ⟨fun h => absurd h hf, fun _ _ => ⟨body, b1, b2, b3⟩, fun _ => .inl hc⟩
  | hangIdle hf _ _ _ _ hl => exact ⟨fun h => absurd h hf, fun _ h => absurd hl h, fun h => absurd hl h⟩
  | idleF hf _ _ _ _ hl => exact ⟨fun h => absurd h hf, fun _ h => absurd hl h, fun h => absurd hl h⟩
  | idleH hf _ _ _ _ _ _ hl => exact ⟨fun h => absurd h hf, fun _ h => absurd hl h, fun h => absurd hl h⟩
  | sync _ _ _ _ _ hl => exact ⟨fun _ => hl, fun _ h => absurd hl h, fun h => absurd hl h⟩

/-- **C44, idle slots.** A full or half signalling block in which nothing was served is two null PDUs. -/
theorem c44_idle (cfg : CellCfg) (hcfg : cfg.InRange) (scramb : Nat) (x : Time) (hx : x.valid) (es : List SchedEv)
    (hp : Proper es) (y : TickOut) (h : Built cfg scramb x es y) (hl : y.log = []) (hc : y.slot.blk1.chan = .schF ∨ y.slot.blk1.chan = .schHd) :
    y.slot.blk1.blk.bits = nullBits ++ nullBits := by
  obtain ⟨s, s', tr, _, henv, hh, hcc⟩ := last_tick hcfg hx hp h
  cases hcc with
  | voice hf _ _ _ _ hb _ => rw [hb] at hc; rcases hc with hc | hc <;> cases hc
  | stolen hf _ _ b o q hq _ hb hb2 => rw [hb] at hc; rcases hc with hc | hc <;> cases hc
  | signalling _ _ _ _ _ _ _ _ _ hl' => exact absurd hl hl'
  | hangIdle hf _ _ hb _ => rw [hb]
  | idleF hf _ _ hb _ => rw [hb]
  | idleH hf _ _ hb _ _ _ => rw [hb]
  | sync _ hs _ _ _ => rw [hs.1] at hc; rcases hc with hc | hc <;> cases hc

/-! ## C45: the access assignment -/

/-- **C45, what is announced.** Outside frame 18 the access assignment read by a station is, on timeslot 1, the common
control channel, open for random access; on the others, what the open circuits say: traffic with the usage
marker of the circuit in each direction, unallocated without one, and the assigned control channel in hang time. In
frame 18 it is always the same: uplink for common use. -/
theorem c45_announced (cfg : CellCfg) (hcfg : cfg.InRange) (scramb : Nat) (x : Time) (hx : x.valid) (es : List SchedEv)
    (hp : Proper es) (y : TickOut) (h : Built cfg scramb x es y) :
    ((slotTime x es).f ≠ 18 → AccessAssign.dec.run y.slot.bbk.blk.bits =
      .ok (announced (slotTime x es).t (hangAt (slotTime x es).t es) (circuitAt .ul (slotTime x es).t es)
        (circuitAt .dl (slotTime x es).t es), [])) ∧
    ((slotTime x es).f = 18 → AccessAssignFr18.dec.run y.slot.bbk.blk.bits =
      .ok (⟨.commonOnly, some ⟨0, 1⟩, some ⟨0, 0⟩, none⟩, [])) := by
  obtain ⟨s, s', tr, _, henv, hh, _⟩ := last_tick hcfg hx hp h
  obtain ⟨bits, a1, a2, a3, a4⟩ := hh.aach
  obtain ⟨e1, e2, e3⟩ := henv.at
  rw [a1]
  refine ⟨fun hf => ?_, a3⟩
  have := a4 hf
  simp only at this
  rwa [e1, e2, e3] at this

theorem hangEffective_false {s : Sched} {t : Nat} {i : Fin 4} (h : s.hang i = false) : s.hangEffective t i = false := by
  simp [Sched.hangEffective, h]

/-- **C45, traffic is sent where it is announced.** If a slot announces downlink traffic, then it carries voice: a full
traffic block, or a stolen half and a traffic block. If it announces uplink traffic, the receiver is told to expect
traffic there. -/
theorem c45_sent (cfg : CellCfg) (hcfg : cfg.InRange) (scramb : Nat) (x : Time) (hx : x.valid) (es : List SchedEv)
    (hp : Proper es) (y : TickOut) (h : Built cfg scramb x es y) (hf : (slotTime x es).f ≠ 18) (a : AccessAssign) (rest : List Bool)
    (ha : AccessAssign.dec.run y.slot.bbk.blk.bits = .ok (a, rest)) :
    (∀ u, a.dlUsage = .traffic u → y.slot.blk1.chan = .tchS ∨ y.slot.blk1.chan = .stch) ∧
    (∀ u, a.ulUsage = .traffic u → y.slot.ulPhy = .tp) := by
  have hann := (c45_announced cfg hcfg scramb x hx es hp y h).1 hf
  rw [hann] at ha
  simp only [Out.ok.injEq, Prod.mk.injEq] at ha
  obtain ⟨rfl, _⟩ := ha
  obtain ⟨s, s', tr, _, henv, hh, hc⟩ := last_tick hcfg hx hp h
  obtain ⟨e1, e2, e3⟩ := henv.at
  constructor
  · intro u hu
    have ht1 : (slotTime x es).t ≠ 1 := by
      intro ht; simp [announced, ht] at hu
    have hd : (circuitAt .dl (slotTime x es).t es).isSome = true := by
      cases hd : circuitAt .dl (slotTime x es).t es with
      | some c => rfl
      | none =>
        simp only [announced, ht1, if_false, hd] at hu
        split at hu <;> cases hu
    have hng : hangAt (slotTime x es).t es = false := by
      cases hng : hangAt (slotTime x es).t es with
      | false => rfl
      | true => simp [announced, ht1, hng, hd] at hu
    rw [← e3] at hng
    cases hc with
    | voice _ _ _ _ _ hb => exact .inl (by rw [hb])
    | stolen _ _ _ _ _ _ _ _ hb => exact .inr (by rw [hb])
    | signalling _ hn =>
      rcases hn with hn | hn
      · simp only [e1, hd] at hn; cases hn
      · rw [hangEffective_false (s := { s with cur := fromInt (x.toInt + ticksIn es + 1) }) hng] at hn; cases hn
    | hangIdle _ _ hh =>
      rw [hangEffective_false (s := { s with cur := fromInt (x.toInt + ticksIn es + 1) }) hng] at hh; cases hh
    | idleF _ _ ht => exact absurd ht ht1
    | idleH _ _ ht => exact absurd ht ht1
    | sync hn =>
      rcases hn with hn | ⟨_, hn⟩
      · exact absurd hn hf
      · simp only [e1, hd] at hn; cases hn
  · intro u hu
    have ht1 : (slotTime x es).t ≠ 1 := by
      intro ht; simp [announced, ht] at hu
    have hd : (circuitAt .ul (slotTime x es).t es).isSome = true := by
      cases hd : circuitAt .ul (slotTime x es).t es with
      | some c => rfl
      | none =>
        simp only [announced, ht1, if_false, hd] at hu
        split at hu <;> cases hu
    have hng : hangAt (slotTime x es).t es = false := by
      cases hng : hangAt (slotTime x es).t es with
      | false => rfl
      | true => simp [announced, ht1, hng, hd] at hu
    rw [← e3] at hng
    rw [hh.phy]
    simp only [e2, hd]
    rw [hangEffective_false (s := { s with cur := fromInt (x.toInt + ticksIn es + 1) }) hng]
    simp [hf]

/-- **C45, traffic is announced where it is sent.** A slot which carries voice is outside frame 18 and on a timeslot
with an open circuit; unless the timeslot is in hang time, the slot announces traffic with the usage marker of this circuit.
A slot in which the receiver is told to expect traffic is outside frame 18 and has an open uplink circuit. -/
theorem c45_owner_partial (cfg : CellCfg) (hcfg : cfg.InRange) (scramb : Nat) (x : Time) (hx : x.valid) (es : List SchedEv)
    (hp : Proper es) (y : TickOut) (h : Built cfg scramb x es y) :
    ((y.slot.blk1.chan = .tchS ∨ y.slot.blk1.chan = .stch) → (slotTime x es).f ≠ 18 ∧
      ∃ c, circuitAt .dl (slotTime x es).t es = some c ∧ (hangAt (slotTime x es).t es = false →
        ∃ a, AccessAssign.dec.run y.slot.bbk.blk.bits = .ok (a, []) ∧ a.dlUsage = .traffic c.usage)) ∧
    (y.slot.ulPhy = .tp → (slotTime x es).f ≠ 18 ∧
      ∃ c, circuitAt .ul (slotTime x es).t es = some c ∧ (hangAt (slotTime x es).t es = false →
        ∃ a, AccessAssign.dec.run y.slot.bbk.blk.bits = .ok (a, []) ∧ a.ulUsage = .traffic c.usage)) := by
  have hann := (c45_announced cfg hcfg scramb x hx es hp y h).1
  obtain ⟨s, s', tr, _, henv, hh, hc⟩ := last_tick hcfg hx hp h
  obtain ⟨e1, e2, e3⟩ := henv.at
  have not1 : ∀ d c, (d = .dl ∨ d = .ul) → circuitAt d (slotTime x es).t es = some c → (slotTime x es).t ≠ 1 := by
    intro d c hd hcc ht
    have h0 : slot (x.toInt + ticksIn es + 2) = 0 := by
      apply Fin.ext
      have := slot_val x es
      simp; omega
    rcases hd with rfl | rfl
    · rw [← e1, h0, henv.circ.dl0] at hcc; cases hcc
    · rw [← e2, h0, henv.circ.ul0] at hcc; cases hcc
  have key : (slotTime x es).f ≠ 18 → (circuitAt .dl (slotTime x es).t es).isSome = true → (slotTime x es).f ≠ 18 ∧
      ∃ c, circuitAt .dl (slotTime x es).t es = some c ∧ (hangAt (slotTime x es).t es = false →
        ∃ a, AccessAssign.dec.run y.slot.bbk.blk.bits = .ok (a, []) ∧ a.dlUsage = .traffic c.usage) := by
    intro hf ho
    obtain ⟨c, hcc⟩ := Option.isSome_iff_exists.1 ho
    refine ⟨hf, c, hcc, fun hng => ⟨_, hann hf, ?_⟩⟩
    simp [announced, not1 _ _ (.inl rfl) hcc, hng, hcc]
  constructor
  · intro hch
    cases hc with
    | voice hf ho => simp only [e1] at ho; exact key hf ho
    | stolen hf ho => simp only [e1] at ho; exact key hf ho
    | signalling _ _ hc => rw [hc] at hch; rcases hch with h | h <;> cases h
    | hangIdle _ _ _ hb => rw [hb] at hch; rcases hch with h | h <;> cases h
    | idleF _ _ _ hb => rw [hb] at hch; rcases hch with h | h <;> cases h
    | idleH _ _ _ hb => rw [hb] at hch; rcases hch with h | h <;> cases h
    | sync _ hs => rw [hs.1] at hch; rcases hch with h | h <;> cases h
  · intro hphy
    rw [hh.phy] at hphy
    simp only [e2] at hphy
    split at hphy
    · rename_i hb
      simp only [Bool.and_eq_true, bne_iff_ne] at hb
      obtain ⟨c, hcc⟩ := Option.isSome_iff_exists.1 hb.1.1
      refine ⟨hb.1.2, c, hcc, fun hng => ⟨_, hann hb.1.2, ?_⟩⟩
      simp [announced, not1 _ _ (.inr rfl) hcc, hng, hcc]
    · cases hphy

/-! ## C46: voice -/

/-- The traffic block of a slot. -/
def DlSlot.voice? (y : DlSlot) : Option TmvReq :=
  if y.blk1.chan = .tchS then some y.blk1 else match y.blk2 with
    | some r => if r.chan = .tchS then some r else none
    | none => none

/-- What timeslot `t` may say while one call is on it: each traffic block sent there is the oldest voice block
handed over and not yet sent, silence if there is none. `q` are the blocks waiting. -/
def Speaks (t : Nat) : List Block → List (SchedEv × SchedRet) → Prop
  | _, [] => True
  | q, (.voice t' b, _) :: tr => Speaks t (if t' = t then q ++ [b] else q) tr
  | q, (.tick, .sent y) :: tr =>
    if y.slot.ts.t = t then
      match y.slot.voice? with
      | some r => r.blk.bits = voiceBits q.head? ∧ Speaks t q.tail tr
      | none => Speaks t q tr
    else Speaks t q tr
  | q, _ :: tr => Speaks t q tr

/-- The calls open or close a downlink circuit on timeslot `t`. -/
def SchedEv.switches (t : Nat) : SchedEv → Bool
  | .create .dl c => c.ts == t
  | .close .dl t' => t' == t
  | _ => false

theorem slotCase_voice {s : Sched} {ts : Time} {i : Fin 4} {s' : Sched} {y : TickOut} (h : SlotCase s ts i s' y) :
    (s'.circuits.txData = s.circuits.txData.upd i (s.circuits.txData i).tail ∧
      ∃ r, y.slot.voice? = some r ∧ r.blk.bits = voiceBits (s.circuits.txData i).head?) ∨
    (s'.circuits.txData = s.circuits.txData ∧ y.slot.voice? = none) := by
  cases h with
  | voice _ _ _ _ hv hb => exact .inl ⟨hv, y.slot.blk1, by simp [DlSlot.voice?, hb], by rw [hb]⟩
  | stolen _ _ _ _ _ _ _ hv hb hb2 => exact .inl ⟨hv, ⟨.tchS, ⟨voiceBits (s.circuits.txData i).head?, 274⟩, s.scramb⟩,
      by simp [DlSlot.voice?, hb, hb2], rfl⟩
  | signalling _ _ hc _ _ _ _ hb2 hv => exact .inr ⟨hv, by simp [DlSlot.voice?, hc, hb2]⟩
  | hangIdle _ _ _ hb hb2 _ hv => exact .inr ⟨hv, by simp [DlSlot.voice?, hb, hb2]⟩
  | idleF _ _ _ hb hb2 _ hv => exact .inr ⟨hv, by simp [DlSlot.voice?, hb, hb2]⟩
  | idleH _ _ _ hb r hb2 hr _ hv => exact .inr ⟨hv, by simp [DlSlot.voice?, hb, hb2, hr.1]⟩
  | sync _ hs r hb2 hr _ hv => exact .inr ⟨hv, by simp [DlSlot.voice?, hs.1, hb2, hr.1]⟩

theorem setHang_circuits (s : Sched) (t : Nat) (b : Bool) : (s.setHang t b).1.circuits = s.circuits := by
  unfold Sched.setHang
  cases Slots.idx t with
  | panic => rfl
  | ok i => cases b <;> rfl

theorem speaks_run {cfg : CellCfg} (hcfg : cfg.InRange) {scramb : Nat} {x : Time} {es : List SchedEv} (hp : Proper es)
    {es0 : List SchedEv} {s : Sched} (h : Env cfg scramb x es0 s) {i : Fin 4} (hn : ∀ e ∈ es, e.switches (i.val + 1) = false)
    (ho : (s.circuits.dl i).isSome = true)
    {r : Sched × List (SchedEv × SchedRet)} (hr : s.run es = .ok r) : Speaks (i.val + 1) (s.circuits.txData i) r.2 := by
  induction es generalizing es0 s r with
  | nil => cases hr; trivial
  | cons e es ih =>
    obtain ⟨a, tr, h1, h2, h3⟩ := srun_cons hr
    have henv := step_env hcfg h (hp e (by simp)).1 (hp e (by simp)).2 (s' := a.1) (r := a.2) h1
    have hopen : (a.1.circuits.dl i).isSome = true := by
      rw [henv.1.dl, circuitAt, List.foldl_append]
      simp only [List.foldl_cons, List.foldl_nil]
      have : circuitAfter .dl (i.val + 1) (circuitAt .dl (i.val + 1) es0) e = circuitAt .dl (i.val + 1) es0 := by
        have hsw := hn e (by simp)
        cases e with
        | create d c =>
          simp only [circuitAfter]
          rw [if_neg]
          rintro ⟨rfl, ht⟩
          simp [SchedEv.switches, ht] at hsw
        | close d t =>
          simp only [circuitAfter]
          rw [if_neg]
          rintro ⟨rfl, ht⟩
          simp [SchedEv.switches, ht] at hsw
        | _ => rfl
      rw [show List.foldl (circuitAfter Dir.dl (i.val + 1)) none es0 = circuitAt .dl (i.val + 1) es0 from rfl, this, ← h.dl i]
      exact ho
    have ih' := ih (r := (r.1, tr)) (fun e he => hp e (by simp [he])) henv.1 (fun e he => hn e (by simp [he])) hopen h2
    simp only at ih'
    rw [h3]
    have same : a.1.circuits = s.circuits → Speaks (i.val + 1) (s.circuits.txData i) tr := by
      intro hc; rw [hc] at ih'; exact ih'
    have pushed : ∀ {t : Nat} {el : DlElem} {q : Sched}, s.push t el = .ok q → q.circuits = s.circuits :=
      fun hq => (push_same hq).2.2.2.1
    cases e with
    | tick =>
      obtain ⟨y, hy, hh, hc⟩ := henv.2 rfl
      have hsl : (fromInt (x.toInt + ticksIn es0 + 2)).t = (slot (x.toInt + ticksIn es0 + 2)).val + 1 := Slots.idx_ok.1 (idx_fromInt _)
      rw [hy]
      simp only [Speaks, hh.time]
      by_cases hi : i = slot (x.toInt + ticksIn es0 + 2)
      · rw [if_pos (by rw [hsl, hi])]
        rcases slotCase_voice hc with ⟨hv, r', h4, h5⟩ | ⟨hv, h4⟩
        · rw [h4]
          simp only at h5 hv ⊢
          rw [← hi] at h5 hv
          rw [hv, Slots.upd_self] at ih'
          exact ⟨h5, ih'⟩
        · rw [h4]
          simp only at hv ⊢
          rw [hv] at ih'
          exact ih'
      · rw [if_neg (by rw [hsl]; intro h; apply hi; apply Fin.ext; omega)]
        rcases slotCase_voice hc with ⟨hv, _⟩ | ⟨hv, _⟩
        · simp only at hv
          rw [hv, Slots.upd_ne _ _ hi] at ih'
          exact ih'
        · simp only at hv
          rw [hv] at ih'
          exact ih'
    | voice t b =>
      simp only [Sched.step] at h1
      rw [Out.bind_eq_ok] at h1; obtain ⟨c, hc, h1⟩ := h1
      cases h1
      rw [Out.ofRes_eq_ok] at hc
      unfold CircuitMgr.putBlock at hc
      rw [Res.bind_eq_ok] at hc; obtain ⟨k, hk, hc⟩ := hc
      simp only [Speaks]
      by_cases ht : t = i.val + 1
      · have hik := (idx_inj hk i).1 ht
        subst hik
        simp only [ho, if_true, Res.ok.injEq] at hc
        subst hc
        simp only [Slots.upd_self] at ih'
        rw [if_pos ht]; exact ih'
      · have hik : i ≠ k := fun e => ht ((idx_inj hk i).2 e)
        rw [if_neg ht]
        split at hc
        · cases hc
          simp only [Slots.upd_ne _ _ hik] at ih'
          exact ih'
        · cases hc; exact ih'
    | capReq t ssi code =>
      simp only [Sched.step] at h1
      rw [Out.bind_eq_ok] at h1; obtain ⟨q, hq, h1⟩ := h1
      cases h1
      exact same rfl
    | grant t ad g =>
      simp only [Sched.step] at h1
      rw [Out.bind_eq_ok] at h1; obtain ⟨q, hq, h1⟩ := h1
      cases h1
      exact same (pushed hq)
    | ack t ad =>
      simp only [Sched.step] at h1
      rw [Out.bind_eq_ok] at h1; obtain ⟨q, hq, h1⟩ := h1
      cases h1
      exact same (pushed hq)
    | message t id rep pdu sdu =>
      simp only [Sched.step] at h1
      rw [Out.bind_eq_ok] at h1; obtain ⟨q, hq, h1⟩ := h1
      cases h1
      exact same (pushed hq)
    | steal t id rep b =>
      simp only [Sched.step] at h1
      rw [Out.bind_eq_ok] at h1; obtain ⟨q, hq, h1⟩ := h1
      cases h1
      exact same (pushed hq)
    | takeRa t ssi =>
      simp only [Sched.step, Sched.takeRa] at h1
      rw [Out.bind_eq_ok] at h1; obtain ⟨q, hq, h1⟩ := h1
      rw [Out.bind_eq_ok] at hq; obtain ⟨k, hk, hq⟩ := hq
      cases hq
      cases h1
      exact same rfl
    | create d c =>
      simp only [Sched.step] at h1
      rw [Out.bind_eq_ok] at h1; obtain ⟨cm, hc, h1⟩ := h1
      cases h1
      rw [Out.ofRes_eq_ok, create_eq, (unhang_same s c.ts).2.2.2.2.2.2.1] at hc
      have hsw := hn (.create d c) (by simp)
      simp only [Speaks]
      have : cm.txData i = s.circuits.txData i := by
        unfold CircuitMgr.place at hc
        cases d with
        | dl =>
          simp only at hc
          rw [Res.bind_eq_ok] at hc; obtain ⟨k, hk, hc⟩ := hc
          cases hc
          have hik : i ≠ k := by
            intro e
            have := (idx_inj hk i).2 e
            simp [SchedEv.switches, this] at hsw
          simp only [Slots.upd_ne _ _ hik]
        | ul =>
          simp only at hc
          rw [Res.bind_eq_ok] at hc; obtain ⟨k, hk, hc⟩ := hc
          cases hc; rfl
        | none => cases hc
        | both => cases hc
      simp only [this] at ih'
      exact ih'
    | close d t =>
      simp only [Sched.step] at h1
      rw [Out.bind_eq_ok] at h1; obtain ⟨cm, hc, h1⟩ := h1
      cases h1
      rw [Out.ofRes_eq_ok, (unhang_same s t).2.2.2.2.2.2.1] at hc
      have hsw := hn (.close d t) (by simp)
      simp only [Speaks]
      have : cm.1.txData i = s.circuits.txData i := by
        unfold CircuitMgr.close at hc
        cases d with
        | dl =>
          simp only at hc
          rw [Res.bind_eq_ok] at hc; obtain ⟨k, hk, hc⟩ := hc
          cases hc
          have hik : i ≠ k := by
            intro e
            have := (idx_inj hk i).2 e
            simp [SchedEv.switches, this] at hsw
          simp only [Slots.upd_ne _ _ hik]
        | ul =>
          simp only at hc
          rw [Res.bind_eq_ok] at hc; obtain ⟨k, hk, hc⟩ := hc
          cases hc; rfl
        | none => cases hc
        | both => cases hc
      simp only [this] at ih'
      exact ih'
    | hang t b =>
      simp only [Sched.step, Out.ok.injEq] at h1
      subst h1
      exact same (setHang_circuits s t b)
    | systemWide b =>
      simp only [Sched.step, Out.ok.injEq] at h1
      subst h1
      exact same rfl

/-- **C46.** From the opening of a downlink circuit on a timeslot, until it is closed or replaced, each traffic block
sent there is the oldest voice block handed over since the opening and not yet sent, with its first 274 bits, or
silence if there is none: no block of an earlier call, none twice, none out of order, none of another timeslot. -/
theorem c46_voice (cfg : CellCfg) (hcfg : cfg.InRange) (scramb : Nat) (x : Time) (hx : x.valid) (es1 es2 : List SchedEv) (c : Circuit)
    (hp : Proper (es1 ++ .create .dl c :: es2)) (hn : ∀ e ∈ es2, e.switches c.ts = false) (s' : Sched)
    (tr : List (SchedEv × SchedRet))
    (h : (Sched.init x scramb (Precomps.generate cfg)).run (es1 ++ .create .dl c :: es2) = .ok (s', tr)) :
    Speaks c.ts [] (tr.drop (es1.length + 1)) := by
  obtain ⟨s1, tr1, tr2, r1, r2, r3⟩ := srun_append _ _ h
  have henv := srun_env hcfg (fun e he => hp e (by simp [he])) (Env.init cfg scramb hx) r1
  obtain ⟨a, tr3, c1, c2, c3⟩ := srun_cons r2
  have hpc := hp (.create .dl c) (by simp)
  have henv1 := (step_env hcfg henv hpc.1 hpc.2 (s' := a.1) (r := a.2) c1).1
  have hlen : ∀ (es : List SchedEv) (s : Sched) (r : Sched × List (SchedEv × SchedRet)), s.run es = .ok r → r.2.length = es.length := by
    intro es
    induction es with
    | nil => intro s r h; cases h; rfl
    | cons e es ih =>
      intro s r h
      obtain ⟨a, tr, h1, h2, h3⟩ := srun_cons h
      rw [h3]; simp [ih _ _ h2]
  have hl := hlen _ _ _ r1
  simp only at hl r3 c3
  have hd : tr.drop (es1.length + 1) = tr3 := by
    rw [r3, c3, ← hl, List.drop_append]
    simp
  rw [hd]
  obtain ⟨k, hk⟩ : ∃ k, Slots.idx c.ts = .ok k := ⟨⟨c.ts - 1, by have := hpc.2; simp [SchedEv.Sound] at this; omega⟩, Slots.idx_ok.2 (by have := hpc.2; simp [SchedEv.Sound] at this; simp; omega)⟩
  have hts := Slots.idx_ok.1 hk
  simp only [Sched.step] at c1
  rw [Out.bind_eq_ok] at c1; obtain ⟨cm, hc, c1⟩ := c1
  cases c1
  rw [Out.ofRes_eq_ok, create_eq, (unhang_same s1 c.ts).2.2.2.2.2.2.1] at hc
  simp only [CircuitMgr.place, hk, Res.bind_ok, Res.ok.injEq] at hc
  subst hc
  have := speaks_run hcfg (fun e he => hp e (by simp [he])) henv1 (i := k) (by rw [← hts]; exact hn) (by simp [Slots.upd_self]) c2
  simp only [Slots.upd_self] at this
  rw [hts]; exact this

end Verif.Umac
