import Verif.Umac.SchedHistory
import Verif.Umac.SchedConfig
import Verif.Mle.BroadcastProps
/-!
# What a slot of the channel scheduler contains: lemmas
-/
namespace Verif.Umac
open Verif.Bits Verif.Codec Verif.Tdma Verif.Mle

/-- The null PDU, sixteen bits. -/
def nullBits : List Bool := List.replicate 11 false ++ [true] ++ List.replicate 4 false

theorem write_ok {b b' : Blk} {bs : List Bool} (h : b.write bs = .ok b') :
    b' = ⟨b.bits ++ bs, b.cap⟩ ∧ b'.bits.length ≤ b'.cap := by
  unfold Blk.write at h
  split at h
  · cases h; simp; omega
  · cases h

theorem write_fits {b : Blk} {bs : List Bool} (h : b.bits.length + bs.length ≤ b.cap) :
    b.write bs = .ok ⟨b.bits ++ bs, b.cap⟩ := by
  unfold Blk.write
  rw [if_pos h]

theorem null_enc : nullPdu.enc = .ok nullBits := by decide +kernel
theorem null_update : nullPdu.updateLen 0 = .ok (nullPdu, 0) := by decide +kernel
theorem idle_eq {cap : Nat} (h : 16 ≤ cap) : idleBlk cap = .ok ⟨nullBits, cap⟩ := by
  unfold idleBlk
  rw [null_enc, Out.bind_ok, write_fits (by simp [nullBits]; omega)]
  rfl

/-- Ending a block: a null PDU is appended when there is room, to signalling blocks only. -/
theorem close_ok {r : TmvReq} (h : r.blk.bits.length ≤ r.blk.cap) : ∃ r', r.close = .ok r' ∧ r'.chan = r.chan ∧ r'.scramb = r.scramb ∧
    r'.blk.cap = r.blk.cap ∧ r'.blk.bits.length ≤ r'.blk.cap ∧
    ((r.chan = .schHd ∨ r.chan = .schF) ∧ 16 ≤ r.blk.remaining → r'.blk.bits = r.blk.bits ++ nullBits) ∧
    (¬ ((r.chan = .schHd ∨ r.chan = .schF) ∧ 16 ≤ r.blk.remaining) → r' = r) := by
  unfold TmvReq.close
  by_cases hc : (r.chan = .schHd ∨ r.chan = .schF) ∧ 16 ≤ r.blk.remaining
  · have hl : r.blk.bits.length + nullBits.length ≤ r.blk.cap := by
      have := hc.2
      simp only [Blk.remaining] at this
      simp [nullBits]; omega
    rw [if_pos hc, null_update, Out.bind_ok]
    simp only
    rw [null_enc, Out.bind_ok, write_fits hl, Out.bind_ok]
    exact ⟨_, rfl, rfl, rfl, rfl, by simpa using hl, fun _ => rfl, fun h => absurd hc h⟩
  · rw [if_neg hc]
    exact ⟨r, rfl, rfl, rfl, rfl, h, fun h => absurd h hc, fun _ => rfl⟩

/-! ## Voice -/

theorem flatMap_toBits_length (l : List Nat) : (l.flatMap (toBits 8)).length = 8 * l.length := by
  induction l with
  | nil => rfl
  | cons a l ih => simp only [List.flatMap_cons, List.length_append, length_toBits, ih, List.length_cons]; omega

/-- The block sent for a piece of voice: the first 274 bits of its octets, or, if there is none, nothing (zeroes). -/
def voiceBits : Option Block → List Bool
  | some b => (b.flatMap (toBits 8)).take 274
  | none => []

theorem voice_eq {b : Option Block} (h : ∀ x, b = some x → 35 ≤ x.length) : voiceBlk b = .ok ⟨voiceBits b, 274⟩ ∧
    (voiceBits b).length ≤ 274 := by
  cases b with
  | none => exact ⟨rfl, by simp [voiceBits]⟩
  | some x =>
    have := h x rfl
    refine ⟨?_, by simp [voiceBits]; omega⟩
    unfold voiceBlk
    exact if_neg (by rw [flatMap_toBits_length, tchSCap]; omega)

theorem voice_inv {b : Option Block} {t : Blk} (h : voiceBlk b = .ok t) : t = ⟨voiceBits b, 274⟩ ∧ t.bits.length ≤ t.cap := by
  cases b with
  | none => cases h; exact ⟨rfl, by simp⟩
  | some x =>
    simp only [voiceBlk] at h
    split at h
    · cases h
    · cases h; exact ⟨rfl, by simp [tchSCap]; omega⟩

/-! ## The parts of a slot -/

/-- What stays as it is when the blocks of a slot are built. -/
structure Kept (s s' : Sched) : Prop where
  cur : s'.cur = s.cur
  scramb : s'.scramb = s.scramb
  pre : s'.pre = s.pre
  ul : s'.ul = s.ul
  hang : s'.hang = s.hang
  pendingRa : s'.pendingRa = s.pendingRa
  dl : s'.circuits.dl = s.circuits.dl
  ulc : s'.circuits.ul = s.circuits.ul

/-- The kinds of content of a slot. -/
inductive PartCase (s : Sched) (ts : Time) (i : Fin 4) (p : Part) : Prop
  | traffic (hf : ts.f ≠ 18) (ho : (s.circuits.dl i).isSome = true) (hh : s.hangEffective ts.t i = false)
      (hq : pendingStealing (s.queues i) = false)
      (hv : p.s.circuits.txData = s.circuits.txData.upd i (s.circuits.txData i).tail)
      (hb : p.blk1 = some ⟨.tchS, ⟨voiceBits (s.circuits.txData i).head?, 274⟩, s.scramb⟩) (hb2 : p.blk2 = none)
      (hl : p.log = []) (hsame : p.s.queues = s.queues)
  | stolen (hf : ts.f ≠ 18) (ho : (s.circuits.dl i).isSome = true) (hh : s.hangEffective ts.t i = false)
      (b : List Bool) (o : Owner) (q : List DlElem) (hq : takeFirst (·.isStealing) (s.queues i) = some (.stealing b o, q))
      (hv : p.s.circuits.txData = s.circuits.txData.upd i (s.circuits.txData i).tail)
      (hb : p.blk1 = some ⟨.stch, ⟨b, b.length⟩, s.scramb⟩)
      (hb2 : p.blk2 = some ⟨.tchS, ⟨voiceBits (s.circuits.txData i).head?, 274⟩, s.scramb⟩)
      (hl : p.log = [(o, b)]) (hsame : p.s.queues = s.queues.upd i q)
  | signalling (hn : (s.circuits.dl i).isSome = false ∨ s.hangEffective ts.t i = true) (hf : ts.f ≠ 18)
      (b : Blk) (hb : p.blk1 = some ⟨.schF, b, s.scramb⟩) (hb2 : p.blk2 = none) (hok : b.Ok) (hcap : b.cap = 268)
      (hbits : b.bits = (p.log.map Prod.snd).flatten) (hv : p.s.circuits = s.circuits) (hl : p.log ≠ [])
  | idle (hf : ts.f ≠ 18) (ho : (s.circuits.dl i).isSome = true) (hh : s.hangEffective ts.t i = true)
      (hb : p.blk1 = some ⟨.schF, ⟨nullBits, 268⟩, s.scramb⟩) (hb2 : p.blk2 = none) (hl : p.log = []) (hv : p.s.circuits = s.circuits)
  | nothing (hn : ts.f = 18 ∨ (s.circuits.dl i).isSome = false) (hb : p.blk1 = none) (hb2 : p.blk2 = none) (hl : p.log = [])
      (hv : p.s.circuits = s.circuits)

theorem trafficPart_case {s : Sched} {ts : Time} {i : Fin 4} (hi : Slots.idx ts.t = .ok i) {p : Part} (hf : ts.f ≠ 18)
    (ho : (s.circuits.dl i).isSome = true) (hh : s.hangEffective ts.t i = false) (h : s.trafficPart ts.t i = .ok p) :
    Kept s p.s ∧ PartCase s ts i p := by
  unfold Sched.trafficPart at h
  rw [Out.bind_eq_ok] at h; obtain ⟨c, hc, h⟩ := h
  rw [Out.bind_eq_ok] at h; obtain ⟨tch, htch, h⟩ := h
  simp only [CircuitMgr.takeBlock, hi, Res.bind_ok, ho, if_true, Out.ofRes_ok, Out.ok.injEq] at hc
  subst hc
  obtain ⟨rfl, _⟩ := voice_inv htch
  cases hq : takeFirst (·.isStealing) (s.queues i) with
  | none =>
    rw [hq] at h
    simp only [Out.ok.injEq] at h
    subst h
    refine ⟨⟨rfl, rfl, rfl, rfl, rfl, rfl, rfl, rfl⟩, .traffic hf ho hh ?_ rfl rfl rfl rfl rfl⟩
    rw [takeFirst_none] at hq
    rw [pendingStealing, Bool.eq_false_iff]
    intro ha
    rw [List.any_eq_true] at ha
    obtain ⟨x, h1, h2⟩ := ha
    rw [List.filter_eq_nil_iff] at hq
    exact hq x h1 h2
  | some r =>
    obtain ⟨e, q'⟩ := r
    rw [hq] at h
    have hst := (takeFirst_some hq).1
    cases e with
    | ack _ => simp [DlElem.isStealing] at hst
    | grant _ _ => simp [DlElem.isStealing] at hst
    | resource _ _ _ => simp [DlElem.isStealing] at hst
    | frag _ _ => simp [DlElem.isStealing] at hst
    | stealing b o =>
      simp only [Out.ok.injEq] at h
      subst h
      exact ⟨⟨rfl, rfl, rfl, rfl, rfl, rfl, rfl, rfl⟩, .stolen hf ho hh b o q' hq rfl rfl rfl rfl rfl⟩

theorem signallingPart_case {s : Sched} (hs : SInv s) {ts : Time} {i : Fin 4} {p : Part}
    (hn : ¬ ((s.circuits.dl i).isSome = true ∧ ts.f ≠ 18 ∧ s.hangEffective ts.t i = false))
    (h : s.signallingPart ts.f i (s.hangEffective ts.t i && ((s.circuits.dl i).isSome && ts.f != 18)) = .ok p) :
    Kept s p.s ∧ PartCase s ts i p := by
  unfold Sched.signallingPart at h
  rw [Out.bind_eq_ok] at h; obtain ⟨q, hq, h⟩ := h
  rw [Out.bind_eq_ok] at h; obtain ⟨r, hr, h⟩ := h
  rw [Out.bind_eq_ok] at h; obtain ⟨b, hb, h⟩ := h
  simp only [Out.ok.injEq] at h
  subst h
  refine ⟨⟨rfl, rfl, rfl, rfl, rfl, rfl, rfl, rfl⟩, ?_⟩
  rw [hs.next] at hr
  have idle : r.2.buf = none → r.2.log = [] →
      PartCase s ts i ⟨{ s with queues := s.queues.upd i r.1, next := r.2.next }, b, none, r.2.reports, r.2.log⟩ := by
    intro e1 e2
    rw [e1] at hb
    cases hid : s.hangEffective ts.t i && ((s.circuits.dl i).isSome && ts.f != 18) with
    | true =>
      rw [hid] at hb
      simp only [Bool.and_eq_true, bne_iff_ne] at hid
      simp only [signallingBlk, if_true, schFCap, idle_eq (show 16 ≤ 268 by decide), Out.bind_ok, Out.ok.injEq] at hb
      exact .idle hid.2.2 hid.2.1 hid.1 hb.symm rfl e2 rfl
    | false =>
      rw [hid] at hb
      simp only [signallingBlk, Bool.false_eq_true, if_false, Out.ok.injEq] at hb
      refine .nothing ?_ hb.symm rfl e2 rfl
      by_cases hf : ts.f = 18
      · exact .inl hf
      · refine .inr ?_
        cases ho : (s.circuits.dl i).isSome with
        | false => rfl
        | true => cases hh : s.hangEffective ts.t i <;> simp_all
  by_cases hf : ts.f = 18
  · rw [hf, buildBlock_18] at hr
    cases hr
    exact idle rfl rfl
  · obtain ⟨q', e1, e2, e3, _, _, e4, e5⟩ := integrate_queue (hs.good i)
    rw [hq] at e1; cases e1
    obtain ⟨rs, blk', hs', k1, k2, k3, h1, h2⟩ := buildBlock_spec hf e3 e2
    have hor : stolenOf q = [] ∨ leftOver (workOf q) rs = [] := by
      by_cases ha : stolenOf q = []
      · exact .inl ha
      · by_cases hb : leftOver (workOf q) rs = []
        · exact .inr hb
        · rw [h2 ha hb] at hr; cases hr
    rw [h1 hor] at hr
    cases hr
    by_cases hw : workOf q = []
    · exact idle (by simp [hw]) (by simp [hw, pieces])
    · simp only [hw, if_false, signallingBlk, Out.ok.injEq] at hb
      refine .signalling ?_ hf blk' hb.symm rfl k1 k2 k3 rfl ?_
      rotate_left
      · have h2 := round_length hs'
        cases hw' : workOf q with
        | nil => exact absurd hw' hw
        | cons a as =>
          cases rs with
          | nil => rw [hw'] at h2; cases h2
          | cons _ _ => simp [pieces]
      cases ho : (s.circuits.dl i).isSome with
      | false => exact .inl rfl
      | true => cases hh : s.hangEffective ts.t i <;> simp_all

theorem build_case {s : Sched} (hs : SInv s) {ts : Time} {i : Fin 4} (hi : Slots.idx ts.t = .ok i) {p : Part}
    (h : s.build ts i = .ok p) : Kept s p.s ∧ PartCase s ts i p := by
  rcases build_inv hi h with ⟨h1, h2, h3, h4⟩ | ⟨h1, h2⟩
  · exact trafficPart_case hi h2 h1 h3 h4
  · exact signallingPart_case hs h1 h2

/-! ## Broadcast blocks -/

/-- Broadcast PDUs whose fields fit. -/
structure PreOk (p : Precomps) : Prop where
  sync : p.macSync.systemCode < 16 ∧ p.macSync.colourCode < 64 ∧ p.macSync.sharingMode < 4 ∧ p.macSync.tsReserved < 8
  sys1 : ∀ h, h < 65536 → ({ p.macSysinfo1 with hyperframe := some h } : MacSysinfo).InRange
  sys2 : ∀ h, h < 65536 → ({ p.macSysinfo2 with hyperframe := some h } : MacSysinfo).InRange
  mleSync : p.mleSync.InRange
  mleSys : p.mleSysinfo.InRange

theorem wBits_length {v n : Nat} {b : List Bool} (h : wBits v n = .ok b) : b.length = n := by
  simp only [wBits] at h
  split at h <;> simp at h
  simp [← h]

/-- SYSINFO takes 82 bits. -/
theorem sysinfo_len (x : MacSysinfo) (h : x.InRange) : ∀ bs, x.enc = .ok bs → bs.length = 82 := by
  obtain ⟨mc, fb, fo, ds, rv, nc, tx, rx, ap, rt_, ck, hf, op, tc, da, es⟩ := x
  obtain ⟨⟨h1, h2, h3, h4, h5, h6, h7, h8, h9⟩, hk, ht, ho⟩ := h
  simp only at h1 h2 h3 h4 h5 h6 h7 h8 h9 hk ht ho
  subst ht
  intro bs hb
  rcases ho with ⟨rfl, rfl, d, rfl, hd⟩ | ⟨rfl, rfl, d, rfl, hd⟩
  · obtain ⟨d1, d2, d3, d4, d5⟩ := hd
    rcases hk with ⟨c, rfl, hc, rfl⟩ | ⟨rfl, c, rfl, hc⟩ <;>
    · simp [MacSysinfo.enc, DefaultAccess.enc, wBits_ok, *] at hb
      simp [← hb]
  · obtain ⟨au, c1, c2, c3, sck, ds, dr, lg, sv, sd, g, se, da⟩ := d
    obtain ⟨d1, d2, d3, hd⟩ := hd
    simp only at d1 d2 d3 hd
    rcases hd with ⟨rfl, rfl, ⟨v, rfl, hv⟩, rfl, rfl, rfl, rfl⟩ | ⟨rfl, rfl, rfl, e1, e2, e3, v, rfl, hv⟩
    · rcases hk with ⟨c, rfl, hc, rfl⟩ | ⟨rfl, c, rfl, hc⟩ <;>
      · simp [MacSysinfo.enc, ExtServices.enc, wBits_ok, *] at hb
        simp [← hb]
    · obtain ⟨ds, rfl⟩ := Option.isSome_iff_exists.mp e1
      obtain ⟨dr, rfl⟩ := Option.isSome_iff_exists.mp e2
      obtain ⟨lg, rfl⟩ := Option.isSome_iff_exists.mp e3
      rcases hk with ⟨c, rfl, hc, rfl⟩ | ⟨rfl, c, rfl, hc⟩ <;>
      · simp [MacSysinfo.enc, ExtServices.enc, wBits_ok, *] at hb
        simp [← hb]

/-- `bs` is read as an `a` followed by a `b`, with nothing left. -/
def Holds2 {α β : Type} (pa : Rd α) (pb : Rd β) (a : α) (b : β) (bs : List Bool) : Prop :=
  ∃ rest, pa.run bs = .ok (a, rest) ∧ pb.run rest = .ok (b, [])

/-- The SYNC block of a slot. -/
theorem sync_blk {p : Precomps} (hp : PreOk p) {ts : Time} (ht : ts.valid) :
    ∃ bs, syncBlk (p.stamp ts) = .ok ⟨.bsch, ⟨bs, 60⟩, 3⟩ ∧ bs.length = 60 ∧
      Holds2 MacSync.dec DMleSync.dec { p.macSync with t := ts.t, f := ts.f, m := ts.m } p.mleSync bs := by
  obtain ⟨h1, h2, h3, h4⟩ := hp.sync
  obtain ⟨v1, v2, v3, v4, v5, v6, v7⟩ := ht
  obtain ⟨⟨a, ea, ra⟩, la⟩ := c37_mac_sync { p.macSync with t := ts.t, f := ts.f, m := ts.m } h1 h2 ⟨v1, v2⟩
    (by simp only; omega) (by simp only; omega) h3 h4
  obtain ⟨⟨b, eb, rb⟩, lb⟩ := c38_mle_sync p.mleSync hp.mleSync
  have h31 := la a ea
  have h29 := lb b eb
  refine ⟨a ++ b, ?_, by simp [h31, h29], b, ra b, ?_⟩
  · unfold syncBlk
    rw [show (p.stamp ts).macSync = { p.macSync with t := ts.t, f := ts.f, m := ts.m } from rfl, ea, Out.bind_ok,
      write_fits (by simp [h31]), Out.bind_ok, show (p.stamp ts).mleSync = p.mleSync from rfl, eb, Out.bind_ok,
      write_fits (by simp [h31, h29])]
    rfl
  · have := rb []
    simpa using this

theorem sysinfoBlk_eq (pre : Precomps) (scramb t : Nat) : sysinfoBlk pre scramb t =
    ((if t % 2 = 1 then pre.macSysinfo1.enc else pre.macSysinfo2.enc) >>= fun a => do
      let b ← (⟨[], 124⟩ : Blk).write a
      let c ← pre.mleSysinfo.enc
      let b ← b.write c
      .ok ⟨.bnch, b, scramb⟩) := by
  unfold sysinfoBlk
  split <;> rfl

/-- The SYSINFO block of a slot. -/
theorem sysinfo_blk {p : Precomps} (hp : PreOk p) {ts : Time} (ht : ts.valid) (scramb : Nat) :
    ∃ bs, sysinfoBlk (p.stamp ts) scramb ts.t = .ok ⟨.bnch, ⟨bs, 124⟩, scramb⟩ ∧ bs.length = 124 ∧
      Holds2 MacSysinfo.dec DMleSysinfo.dec
        (if ts.t % 2 = 1 then { p.macSysinfo1 with hyperframe := some ts.h } else { p.macSysinfo2 with hyperframe := some ts.h })
        p.mleSysinfo bs ∧ ∃ l, bs = true :: false :: false :: false :: l := by
  obtain ⟨v1, v2, v3, v4, v5, v6, v7⟩ := ht
  generalize hx : (if ts.t % 2 = 1 then ({ p.macSysinfo1 with hyperframe := some ts.h } : MacSysinfo)
    else { p.macSysinfo2 with hyperframe := some ts.h }) = x
  have hr : x.InRange := by
    subst hx
    split
    · exact hp.sys1 _ (by omega)
    · exact hp.sys2 _ (by omega)
  have he : (if ts.t % 2 = 1 then (p.stamp ts).macSysinfo1.enc else (p.stamp ts).macSysinfo2.enc) = x.enc := by
    subst hx
    split <;> rfl
  obtain ⟨a, ea, ra⟩ := c37_mac_sysinfo x hr
  have la := sysinfo_len x hr a ea
  obtain ⟨⟨b, eb, rb⟩, lb⟩ := c38_mle_sysinfo p.mleSysinfo hp.mleSys
  have h42 := lb b eb
  refine ⟨a ++ b, ?_, by simp [la, h42], ⟨b, ra b, ?_⟩, ?_⟩
  · rw [sysinfoBlk_eq, he, ea, Out.bind_ok, write_fits (by simp [la]), Out.bind_ok, show (p.stamp ts).mleSysinfo = p.mleSysinfo from rfl,
      eb, Out.bind_ok, write_fits (by simp [la, h42])]
    rfl
  · have := rb []
    simpa using this
  · unfold MacSysinfo.enc at ea
    rw [cat, Out.bind_eq_ok] at ea
    obtain ⟨p1, e1, ea⟩ := ea
    rw [Out.bind_eq_ok] at ea
    obtain ⟨p2, e2, ea⟩ := ea
    rw [cat, Out.bind_eq_ok] at e2
    obtain ⟨p3, e3, e2⟩ := e2
    rw [Out.bind_eq_ok] at e2
    obtain ⟨p4, -, e2⟩ := e2
    cases e2; cases ea
    cases (show wBits 2 2 = .ok [true, false] from rfl).symm.trans e1
    cases (show wBits 0 2 = .ok [false, false] from rfl).symm.trans e3
    exact ⟨_, rfl⟩

/-! ## The access assignment -/

/-- Circuits as the upper MAC opens them: on traffic timeslots, with a usage marker that can be announced. -/
structure CircOk (c : CircuitMgr) : Prop where
  dl0 : c.dl 0 = none
  ul0 : c.ul 0 = none
  dlu : ∀ i x, c.dl i = some x → 4 ≤ x.usage ∧ x.usage ≤ 63
  ulu : ∀ i x, c.ul i = some x → 4 ≤ x.usage ∧ x.usage ≤ 63
  voice : ∀ i, ∀ b ∈ c.txData i, 35 ≤ b.length

/-- What is announced for timeslot `t` outside frame 18. -/
def announced (t : Nat) (hang : Bool) (ul dl : Option Circuit) : AccessAssign :=
  if t = 1 then ⟨.commonControl, .commonOnly, some ⟨0, 4⟩, some ⟨0, 4⟩, none⟩
  else if hang && (dl.isSome || ul.isSome) then ⟨.assignedControl, .assignedOnly, none, none, some ⟨0, 4⟩⟩
  else ⟨match dl with | some c => .traffic c.usage | none => .unallocated,
    match ul with | some c => .traffic c.usage | none => .unallocated, none, none, none⟩

theorem announced_inRange {t : Nat} {hang : Bool} {ul dl : Option Circuit} (hd : ∀ x, dl = some x → 4 ≤ x.usage ∧ x.usage ≤ 63)
    (hu : ∀ x, ul = some x → 4 ≤ x.usage ∧ x.usage ≤ 63) : (announced t hang ul dl).InRange := by
  unfold announced
  split
  · simp [AccessAssign.InRange, DlUsage.InRange, AccessField.InRange]
  · split
    · simp [AccessAssign.InRange, DlUsage.InRange, AccessField.InRange]
    · cases dl with
      | none => cases ul with
        | none => simp [AccessAssign.InRange, DlUsage.InRange]
        | some u => have := hu u rfl; simp [AccessAssign.InRange, DlUsage.InRange]; omega
      | some d => have := hd d rfl; cases ul with
        | none => simp [AccessAssign.InRange, DlUsage.InRange]; omega
        | some u => have := hu u rfl; simp [AccessAssign.InRange, DlUsage.InRange]; omega

theorem aachOf_eq {t : Nat} (h1 : 1 ≤ t) (h4 : t ≤ 4) (hang : Bool) (ul dl : Option Circuit)
    (h : t = 1 → dl = none ∧ ul = none) :
    aachOf t hang (ul.map Circuit.usage) (dl.map Circuit.usage) = .ok (announced t hang ul dl) := by
  unfold aachOf announced
  by_cases ht : t = 1
  · obtain ⟨rfl, rfl⟩ := h ht
    simp [ht]
  · have : 2 ≤ t ∧ t ≤ 4 := by omega
    rw [if_neg ht, if_neg ht, if_pos this]
    cases ul <;> cases dl <;> cases hang <;> simp

theorem bbk_spec {s : Sched} (hc : CircOk s.circuits) {ts : Time} (hv : ts.valid) {i : Fin 4} (hi : Slots.idx ts.t = .ok i) :
    ∃ bits, s.bbkBlk ts i = .ok ⟨.aach, ⟨bits, 14⟩, s.scramb⟩ ∧ bits.length = 14 ∧
      (ts.f = 18 → AccessAssignFr18.dec.run bits = .ok (aach18, [])) ∧
      (ts.f ≠ 18 → AccessAssign.dec.run bits = .ok (announced ts.t (s.hang i) (s.circuits.ul i) (s.circuits.dl i), [])) := by
  unfold Sched.bbkBlk
  by_cases hf : ts.f = 18
  · obtain ⟨bs, h1, h2⟩ := c37_access_assign_fr18 aach18 (by simp [aach18, AccessAssignFr18.InRange, AccessField.InRange])
    have hl : bs.length = 14 := by
      have e : aach18.enc = .ok (toBits 14 0b00000001000000) := by decide +kernel
      rw [h1] at e; cases e; simp
    refine ⟨bs, ?_, hl, fun _ => by simpa using h2 [], fun h => absurd hf h⟩
    rw [if_pos hf, h1, Out.bind_ok]
    simp only
    rw [write_fits (by simp [hl])]
    rfl
  · obtain ⟨bs, h1, h2⟩ := c37_access_assign _ (announced_inRange (t := ts.t) (hang := s.hang i) (hc.dlu i) (hc.ulu i))
    have hl := c37_access_assign_len _ bs h1
    refine ⟨bs, ?_, hl, fun h => absurd h hf, fun _ => by simpa using h2 []⟩
    have ha := aachOf_eq hv.1 hv.2.1 (s.hang i) (s.circuits.ul i) (s.circuits.dl i) (by
      intro ht
      have : i = 0 := by
        have := Slots.idx_ok.1 hi
        apply Fin.ext; simp; omega
      subst this
      exact ⟨hc.dl0, hc.ul0⟩)
    simp only [if_neg hf, CircuitMgr.getUsage, hi, Res.bind_ok, Out.ofRes_ok, Out.bind_ok, ha, h1]
    rw [write_fits (by simp [hl])]
    rfl

/-! ## The whole slot -/

/-- A SYNC block for time `ts`. -/
def IsSync (p : Precomps) (ts : Time) (r : TmvReq) : Prop :=
  r.chan = .bsch ∧ r.scramb = 3 ∧ r.blk.cap = 60 ∧ r.blk.bits.length = 60 ∧
  Holds2 MacSync.dec DMleSync.dec { p.macSync with t := ts.t, f := ts.f, m := ts.m } p.mleSync r.blk.bits

/-- A SYSINFO block for time `ts`. -/
def IsSysinfo (p : Precomps) (ts : Time) (scramb : Nat) (r : TmvReq) : Prop :=
  r.chan = .bnch ∧ r.scramb = scramb ∧ r.blk.cap = 124 ∧ r.blk.bits.length = 124 ∧
  Holds2 MacSysinfo.dec DMleSysinfo.dec
    (if ts.t % 2 = 1 then { p.macSysinfo1 with hyperframe := some ts.h } else { p.macSysinfo2 with hyperframe := some ts.h })
    p.mleSysinfo r.blk.bits ∧ ∃ l, r.blk.bits = true :: false :: false :: false :: l

/-- What a slot can look like. -/
inductive SlotCase (s : Sched) (ts : Time) (i : Fin 4) (s' : Sched) (y : TickOut) : Prop
  /-- voice -/
  | voice (hf : ts.f ≠ 18) (ho : (s.circuits.dl i).isSome = true) (hh : s.hangEffective ts.t i = false)
      (hq : pendingStealing (s.queues i) = false)
      (hv : s'.circuits.txData = s.circuits.txData.upd i (s.circuits.txData i).tail)
      (hb : y.slot.blk1 = ⟨.tchS, ⟨voiceBits (s.circuits.txData i).head?, 274⟩, s.scramb⟩) (hb2 : y.slot.blk2 = none)
      (hl : y.log = []) (hsame : s'.queues = s.queues)
  /-- a stolen half and voice -/
  | stolen (hf : ts.f ≠ 18) (ho : (s.circuits.dl i).isSome = true) (hh : s.hangEffective ts.t i = false)
      (b : List Bool) (o : Owner) (q : List DlElem) (hq : takeFirst (·.isStealing) (s.queues i) = some (.stealing b o, q))
      (hv : s'.circuits.txData = s.circuits.txData.upd i (s.circuits.txData i).tail)
      (hb : y.slot.blk1 = ⟨.stch, ⟨b, b.length⟩, s.scramb⟩)
      (hb2 : y.slot.blk2 = some ⟨.tchS, ⟨voiceBits (s.circuits.txData i).head?, 274⟩, s.scramb⟩)
      (hl : y.log = [(o, b)]) (hsame : s'.queues = s.queues.upd i q)
  /-- signalling -/
  | signalling (hf : ts.f ≠ 18) (hn : (s.circuits.dl i).isSome = false ∨ s.hangEffective ts.t i = true)
      (hc : y.slot.blk1.chan = .schF) (hs : y.slot.blk1.scramb = s.scramb) (hcap : y.slot.blk1.blk.cap = 268)
      (hlen : y.slot.blk1.blk.bits.length ≤ 268)
      (hbits : ∃ body, body = (y.log.map Prod.snd).flatten ∧ body.length ≤ 268 ∧
        (body.length + 16 ≤ 268 → y.slot.blk1.blk.bits = body ++ nullBits) ∧
        (268 < body.length + 16 → y.slot.blk1.blk.bits = body))
      (hb2 : y.slot.blk2 = none) (hv : s'.circuits.txData = s.circuits.txData) (hl : y.log ≠ [])
  /-- hang time with nothing to say -/
  | hangIdle (hf : ts.f ≠ 18) (ho : (s.circuits.dl i).isSome = true) (hh : s.hangEffective ts.t i = true)
      (hb : y.slot.blk1 = ⟨.schF, ⟨nullBits ++ nullBits, 268⟩, s.scramb⟩) (hb2 : y.slot.blk2 = none) (hl : y.log = [])
      (hv : s'.circuits.txData = s.circuits.txData)
  /-- the control channel with nothing to say, odd frames -/
  | idleF (hf : ts.f ≠ 18) (h2 : ts.f % 2 = 1) (ht : ts.t = 1)
      (hb : y.slot.blk1 = ⟨.schF, ⟨nullBits ++ nullBits, 268⟩, s.scramb⟩) (hb2 : y.slot.blk2 = none) (hl : y.log = [])
      (hv : s'.circuits.txData = s.circuits.txData)
  /-- the control channel with nothing to say, even frames -/
  | idleH (hf : ts.f ≠ 18) (h2 : ts.f % 2 = 0) (ht : ts.t = 1)
      (hb : y.slot.blk1 = ⟨.schHd, ⟨nullBits ++ nullBits, 124⟩, s.scramb⟩) (r : TmvReq) (hb2 : y.slot.blk2 = some r)
      (hr : IsSysinfo s.pre ts s.scramb r) (hl : y.log = []) (hv : s'.circuits.txData = s.circuits.txData)
  /-- frame 18 and unused timeslots -/
  | sync (hn : ts.f = 18 ∨ (2 ≤ ts.t ∧ (s.circuits.dl i).isSome = false)) (hb : IsSync s.pre ts y.slot.blk1)
      (r : TmvReq) (hb2 : y.slot.blk2 = some r) (hr : IsSysinfo s.pre ts s.scramb r) (hl : y.log = [])
      (hv : s'.circuits.txData = s.circuits.txData)

/-- The blocks are filled in, the second half follows from the first. -/
theorem slot_rest {s : Sched} (hp : PreOk s.pre) (hc : CircOk s.circuits) {ts : Time} (hv : ts.valid) {i : Fin 4}
    (hi : Slots.idx ts.t = .ok i) {p : Part} (hk : Kept ({ s with pre := s.pre.stamp ts } : Sched) p.s)
    (hpc : PartCase { s with pre := s.pre.stamp ts } ts i p) :
    (p.blk1.isSome → ts.f ≠ 18) ∧ ∃ b1 b2 c1 c2, p.s.firstBlk ts p.blk1 = .ok b1 ∧
      secondBlk p.s.pre p.s.scramb ts.t b1 p.blk2 = .ok b2 ∧ b1.close = .ok c1 ∧ closeOpt b2 = .ok c2 ∧
      ∀ u y, y.slot.blk1 = c1 → y.slot.blk2 = c2 → y.log = p.log → SlotCase s ts i { p.s with ul := u } y := by
  obtain ⟨v1, v2, v3, v4, v5, v6, v7⟩ := hv
  have hv : ts.valid := ⟨v1, v2, v3, v4, v5, v6, v7⟩
  obtain ⟨sysb, sys1, sys2, sys3⟩ := sysinfo_blk hp hv s.scramb
  have hsys : IsSysinfo s.pre ts s.scramb ⟨.bnch, ⟨sysb, 124⟩, s.scramb⟩ := ⟨rfl, rfl, rfl, sys2, sys3⟩
  have hpre : p.s.pre = s.pre.stamp ts := hk.pre
  have hscr : p.s.scramb = s.scramb := hk.scramb
  cases hpc with
  | traffic hf ho hh hq hvv hb hb2 hl hsame =>
    refine ⟨fun _ => hf, ⟨.tchS, ⟨voiceBits (s.circuits.txData i).head?, 274⟩, s.scramb⟩, none, _, none, by rw [hb]; rfl, ?_, rfl, rfl,
      fun u y h1 h2 h3 => .voice hf ho hh hq hvv h1 h2 (by rw [h3, hl]) hsame⟩
    rw [hb2]
    rfl
  | stolen hf ho hh b o q hq hvv hb hb2 hl hsame =>
    refine ⟨fun _ => hf, ⟨.stch, ⟨b, b.length⟩, s.scramb⟩, some _, _, some _, by rw [hb]; rfl, by rw [hb2]; rfl, rfl, rfl,
      fun u y h1 h2 h3 => .stolen hf ho hh b o q hq hvv h1 h2 (by rw [h3, hl]) hsame⟩
  | signalling hn hf b hb hb2 hok hcap hbits hvv hll =>
    have hle : b.bits.length ≤ 268 := hcap ▸ hok.1
    obtain ⟨r', e, g1, g2, g3, g4, g5, g6⟩ := close_ok (r := ⟨.schF, b, s.scramb⟩) hok.1
    refine ⟨fun _ => hf, ⟨.schF, b, s.scramb⟩, none, r', none, by rw [hb]; rfl, ?_, e, rfl,
      fun u y h1 h2 h3 => .signalling hf hn (by rw [h1, g1]) (by rw [h1, g2]) (by rw [h1, g3]; exact hcap)
        (by rw [h1]; rw [g3] at g4; simp only [hcap] at g4; exact g4) ⟨b.bits, by rw [h3, hbits], hle, ?_, ?_⟩ h2
        (by rw [← hvv] <;> rfl) (by rw [h3]; exact hll)⟩
    · rw [hb2]
      simp [secondBlk, hcap]
    · intro hx
      rw [h1, g5 ⟨.inr rfl, by simp only [Blk.remaining, hcap]; omega⟩]
    · intro hx
      rw [h1, g6 (by simp only [Blk.remaining, hcap]; omega)]
  | idle hf ho hh hb hb2 hl hvv =>
    obtain ⟨r', e, g1, g2, g3, g4, g5, g6⟩ := close_ok (r := ⟨.schF, ⟨nullBits, 268⟩, s.scramb⟩) (by simp [nullBits])
    refine ⟨fun _ => hf, ⟨.schF, ⟨nullBits, 268⟩, s.scramb⟩, none, r', none, by rw [hb]; rfl, by rw [hb2]; rfl, e, rfl,
      fun u y h1 h2 h3 => .hangIdle hf ho hh ?_ h2 (by rw [h3, hl]) (by rw [← hvv] <;> rfl)⟩
    have h5 := g5 ⟨.inr rfl, by simp [Blk.remaining, nullBits]⟩
    obtain ⟨ch, ⟨bt, cp⟩, sc⟩ := r'
    simp only at g1 g2 g3 h5
    rw [h1, g1, g2, g3, h5]
  | nothing hn hb hb2 hl hvv =>
    refine ⟨fun h => (by rw [hb] at h; cases h), ?_⟩
    have hfirst : p.s.firstBlk ts p.blk1 = defaultBlk (s.pre.stamp ts) s.scramb ts := by
      rw [hb, ← hpre, ← hscr]; rfl
    rw [hfirst, hb2, hpre, hscr]
    have hcirc : p.s.circuits = s.circuits := hvv
    by_cases h1 : ts.f = 18 ∨ (1 ≤ ts.f ∧ ts.f ≤ 17 ∧ 2 ≤ ts.t ∧ ts.t ≤ 4)
    · obtain ⟨bs, e1, e2, e3⟩ := sync_blk hp hv
      refine ⟨⟨.bsch, ⟨bs, 60⟩, 3⟩, some ⟨.bnch, ⟨sysb, 124⟩, s.scramb⟩, _, some _, by rw [defaultBlk, if_pos h1, e1], ?_, rfl, rfl,
        fun u y h2 h3 h4 => .sync ?_ (by rw [h2]; exact ⟨rfl, rfl, rfl, e2, e3⟩) _ h3 hsys (by rw [h4, hl])
          (by rw [← hcirc] <;> rfl)⟩
      · simp [secondBlk, sys1]
      · by_cases hf : ts.f = 18
        · exact .inl hf
        · refine .inr ⟨by omega, ?_⟩
          rcases hn with h | h
          · exact absurd h hf
          · exact h
    · have ht : ts.t = 1 := by omega
      have hf : ts.f ≠ 18 := fun h => h1 (.inl h)
      have h3 : 1 ≤ ts.f ∧ ts.f ≤ 17 ∧ ts.t = 1 := by omega
      rw [defaultBlk, if_neg h1, if_pos h3]
      by_cases h2 : ts.f % 2 = 0
      · obtain ⟨r', e, g1, g2, g3, g4, g5, g6⟩ := close_ok (r := ⟨.schHd, ⟨nullBits, 124⟩, s.scramb⟩) (by simp [nullBits])
        refine ⟨⟨.schHd, ⟨nullBits, 124⟩, s.scramb⟩, some ⟨.bnch, ⟨sysb, 124⟩, s.scramb⟩, r', some _, ?_, ?_, e, rfl,
          fun u y h4 h5 h6 => .idleH hf h2 ht ?_ _ h5 hsys (by rw [h6, hl]) (by rw [← hcirc] <;> rfl)⟩
        · rw [if_pos h2, schHdCap, idle_eq (by decide)]; rfl
        · simp [secondBlk, sys1]
        · have h7 := g5 ⟨.inl rfl, by simp [Blk.remaining, nullBits]⟩
          obtain ⟨ch, ⟨bt, cp⟩, sc⟩ := r'
          simp only at g1 g2 g3 h7
          rw [h4, g1, g2, g3, h7]
      · obtain ⟨r', e, g1, g2, g3, g4, g5, g6⟩ := close_ok (r := ⟨.schF, ⟨nullBits, 268⟩, s.scramb⟩) (by simp [nullBits])
        refine ⟨⟨.schF, ⟨nullBits, 268⟩, s.scramb⟩, none, r', none, ?_, ?_, e, rfl,
          fun u y h4 h5 h6 => .idleF hf (by omega) ht ?_ h5 (by rw [h6, hl]) (by rw [← hcirc] <;> rfl)⟩
        · rw [if_neg h2, schFCap, idle_eq (by decide)]; rfl
        · simp [secondBlk]
        · have h7 := g5 ⟨.inr rfl, by simp [Blk.remaining, nullBits]⟩
          obtain ⟨ch, ⟨bt, cp⟩, sc⟩ := r'
          simp only at g1 g2 g3 h7
          rw [h4, g1, g2, g3, h7]

end Verif.Umac
