import Verif.Station.Ranges
import Verif.Station.Aborts
import Verif.Phy.UplinkTotal
/-!
# The whole base station: it does not abort on harmless input

C95, the other direction: from every state which can be reached by harmless events each harmless event is handled.
-/
namespace Verif.Station
open Verif.Tdma Verif.Codec
open Verif.Phy (Air Cell CellEv CellOut CellRun callsOf callsOf_append c67_history Fresh sentOf NoSpot seqX cell_known c68_partial c68_down)
open Verif.Umac (TmaReq ChanReq MacCtl UmacOut UmacEv Block Addr UmacRun UmacBs Precomps SchedEv Proper CellCfg MacResource AddrOk stolenBlock
  stolen_headerLen stchCap c37_mac_resource)

/-! ## Stolen half slots -/

/-- A short message for any station fits into a stolen half slot. -/
theorem stolen_total (ra : Bool) {a : Addr} (ha : AddrOk a) {sdu : List Bool} (hl : sdu.length ≤ 61) : ∃ b, stolenBlock ra a none sdu = .ok b := by
  unfold stolenBlock MacResource.updateLen
  simp only [stolen_headerLen, Out.bind_ok, Out.pure_eq, stchCap, Umac.stolenHdr]
  simp only [Option.isSome_none, Bool.false_eq_true, if_false]
  generalize hn : (43 + sdu.length + 7) / 8 = n
  generalize hf : ((8 - (43 + sdu.length) % 8) % 8 != 0) = fb
  have hin : MacResource.InRange ⟨fb, 0, 0, ra, n, some a, none, none, none, none, none⟩ := by
    obtain ⟨a1, a2, a3⟩ := ha
    refine ⟨by simp, by simp, by simp; omega, by simp; omega, ⟨a1, by simp [a2], by simp, by simp, Or.inl rfl, ?_⟩, by simp, by simp, by simp⟩
    rcases a3 with k | k | k | k | k <;> simp [k]
  obtain ⟨hdr, e1, _⟩ := (c37_mac_resource _ hin).1
  have e2 := (c37_mac_resource _ hin).2 _ e1
  rw [stolen_headerLen] at e2
  have e2 : 43 = hdr.length := by simpa [Umac.stolenHdr] using e2
  have hmod : n % 256 = n := by omega
  simp only [hmod]
  rw [e1, Out.bind_ok]
  exact ⟨_, if_neg (by omega)⟩

/-! ## The signalling stack is told -/

theorem feed_total {c : Sig.Cfg} : ∀ {es : List Sig.Ev} (s : Sig.St),
    (∀ e ∈ es, (∃ a t b, e = .frame a t b) ∨ (∃ t x, e = .toCmce t x) ∨ ∃ i d, e = .mac i d) → ∃ r, feed c s es = .ok r
  | [], s, _ => ⟨_, rfl⟩
  | e :: es, s, h => by
    have one : ∃ r, s.step c e = .ok r := by
      rcases h e (by simp) with ⟨a, t, b, rfl⟩ | ⟨t, y, rfl⟩ | ⟨i, d, rfl⟩
      · exact ⟨_, rfl⟩
      · exact ⟨_, rfl⟩
      · exact ⟨_, rfl⟩
    obtain ⟨r, hr⟩ := one
    obtain ⟨q, hq⟩ := feed_total (c := c) (es := es) r.1 fun e he => h e (by simp [he])
    refine ⟨(q.1, r.2 ++ q.2), ?_⟩
    rw [feed, hr, Out.ofRes_ok, Out.bind_ok, hq, Out.bind_ok]

theorem radio_total {c : Sig.Cfg} {s : Station} {e : CellEv} (h : ∃ r, s.cell.step e = .ok r) : ∃ s' t, s.radio c e = .ok (s', t) := by
  obtain ⟨r, hr⟩ := h
  obtain ⟨q, hq⟩ := feed_total (c := c) s.sig (events_quiet (owner := s.owner) (old := s.cell) (new := r.1) (o := r.2))
  unfold Station.radio
  rw [hr, Out.bind_ok]
  simp only
  rw [hq, Out.bind_ok]
  exact ⟨_, _, rfl⟩

theorem signal_total {c : Sig.Cfg} {s : Station} {e : Sig.Ev} (h : ∃ s' k, s.sig.step c e = .ok (s', k)) : ∃ s' t, s.signal c e = .ok (s', t) := by
  obtain ⟨s', k, h⟩ := h
  unfold Station.signal
  rw [h, Out.ofRes_ok, Out.bind_ok]
  exact ⟨_, _, rfl⟩

theorem order_total {c : Cell} {u : UmacEv} (h : ∃ r, c.umac.step u = .ok r) : ∃ r, c.order u = .ok r := by
  obtain ⟨r, h⟩ := h
  unfold Cell.order
  rw [h, Out.bind_ok]
  exact ⟨_, rfl⟩

/-- The beginning of a slot in the signalling stack, whatever happened before. -/
theorem tickStart_total {c : Sig.Cfg} {evs : List Sig.Ev} {tr : List Sig.Call} {s : Sig.St} (hr : Sig.Run c evs tr s) (hs : ∀ e ∈ evs, e.Sane c)
    {now : Time} {cmds : List Cmce.Control} (hc : ¬ Sig.Harmful (.tick now cmds)) (clock : Mle.Clock) (b : Bool) :
    ∃ s' k, s.step c (.tickStart now cmds clock b) = .ok (s', k) := by
  have hbs := Sig.run_bs hr hs
  have call : ∀ {s1 : Sig.St}, s1.bs = s.bs → ∀ ts, ∃ s' k, s1.callBs c ts (.tick now cmds) = .ok (s', k) := by
    intro s1 h1 ts
    cases hstep : s1.bs.step ⟨s1.mm.registry, c.brew⟩ (.tick now cmds) with
    | panic => rw [h1] at hstep; exact (hc (Cmce.c57_total_partial hbs (e := .tick now cmds) trivial hstep)).elim
    | ok r => unfold Sig.St.callBs; rw [hstep]; exact ⟨_, _, rfl⟩
  have time : ∀ (s1 : Sig.St), ∃ s' k, s1.tickMle now clock = .ok (s', k) ∧ s'.bs = s1.bs := by
    intro s1
    obtain ⟨m, out, h⟩ := Sig.tick_ok s1.mle now clock
    exact ⟨{ s1 with mle := m, queue := s1.queue ++ out.map Sig.ofMle }, _, by simp [Sig.St.tickMle, h]; rfl, rfl⟩
  have both : ∀ (a : Res (Sig.St × List Sig.Call)) (f : Sig.St → Res (Sig.St × List Sig.Call)) s1 k1, a = .ok (s1, k1) → (∃ s' k, f s1 = .ok (s', k)) →
      ∃ s' k, Sig.andThen a f = .ok (s', k) := by
    rintro a f s1 k1 rfl ⟨s', k, h⟩
    exact ⟨s', k1 ++ k, by rw [Sig.andThen, Res.bind_ok]; simp only [h, Res.bind_ok]⟩
  simp only [Sig.St.step]
  refine both _ _ _ _ rfl ?_
  split
  · obtain ⟨s1, k1, h1, h2⟩ := time { s with llc := { s.llc with now := now }, queue := s.queue ++ [].filterMap (Sig.ofLlc now.t) }
    exact both _ _ _ _ h1 (call h2 _)
  · obtain ⟨s1, k1, h1⟩ := call (s1 := { s with llc := { s.llc with now := now }, queue := s.queue ++ [].filterMap (Sig.ofLlc now.t) }) rfl now.t
    obtain ⟨s2, k2, h2, _⟩ := time s1
    exact both _ _ _ _ h1 ⟨_, _, h2⟩

/-! ## The base station -/

variable {brew : Bool} {carrier scramb : Nat} {x : Time} {wide : Bool} {pre : Precomps} {code : BitVec 32}

/-- A message handed down can be asked for: it goes to a timeslot, and if a half slot is stolen for it, it fits. -/
theorem request_fits (hx : x.valid) {c : Sig.Cfg} {ins : List In} {h : Trace} {s : Station}
    (hr : Run c ⟨.init brew carrier x scramb wide pre, .init code⟩ ins h s) (hv : ∀ ts b, In.voice ts b ∈ ins → VoiceIn ts b)
    {now : Time} {e : Llc.Emit} (hm : Mail.request now e ∈ s.mac) {n : Nat} {q : TmaReq} (hq : requestOf now n e = some q) (u : UmacBs) :
    ∃ u', u.request q = .ok u' := by
  obtain ⟨sent, hg⟩ := run_gone hr
  have hmem : (now, e) ∈ handed Time.default (Sig.llcTrace h.calls) := by
    rw [hg.handed]; exact List.mem_append_right _ (List.mem_filterMap.2 ⟨_, hm, rfl⟩)
  have hplain : Plain e := c94_plain hx hr _ hmem
  have hsent : Sig.SentIn e := (Sig.st_in (run_both hr).sig (evs_in hx hr hv)).sent e (handed_out hmem)
  cases e with
  | data id a ts p =>
    cases hq
    exact Umac.request_total u hsent.1 hsent.2 (by simp) (by simp)
  | ack a nr ts st =>
    cases hq
    refine Umac.request_total u ?_ ?_ ?_ ?_
    · show 1 ≤ Llc.linkOf now.t; unfold Llc.linkOf; omega
    · show Llc.linkOf now.t ≤ 4; unfold Llc.linkOf; omega
    · intro r hr; cases st <;> simp at hr; rw [← hr]; simp [chanOf]
    · intro hst _ ra
      have : st = true := hst
      subst this
      exact stolen_total ra hplain (by simp [ackPdu])
  | udata v p =>
    cases hq
    refine Umac.request_total u hsent.1.1 hsent.1.2 ?_ ?_
    · intro r hr
      simp only [Option.map_eq_some_iff] at hr
      obtain ⟨y, _, rfl⟩ := hr
      simp [chanOf]
    · intro hst _ ra
      obtain ⟨f1, f2⟩ := hsent.2 hst
      have e1 : (v.chan.map chanOf).bind (·.usage) = none := by
        cases hc : v.chan with
        | none => rfl
        | some y => rw [hc] at f1; exact f1
      show ∃ b, stolenBlock ra v.addr ((v.chan.map chanOf).bind (·.usage)) p = .ok b
      rw [e1]
      exact stolen_total ra hplain.1 f2
  | _ => cases hq

/-- Input which does no harm to the base station in state `s` with history `h`. A slot can be built: no stolen half slot waits on a timeslot
without a circuit, and the commands can be carried out (C57). A reception is the first after the last slot sent, at least four slots were
sent, and it carries no block the upper MAC aborts on and no notice of a stolen second half where there is none (C68). -/
def Harmless (code : BitVec 32) (h : Trace) (s : Station) : In → Prop
  | .tick _ cmds _ _ _ => s.cell.umac.sched.Free ∧ ∀ now, ¬ Sig.Harmful (.tick now cmds)
  | .air a => a.Sized ∧ Fresh h.radio ∧ ∃ l o o1 o2 o3, sentOf h.radio = l ++ [o, o1, o2, o3] ∧
      (∀ ch d, Verif.Phy.Carried code (o.ulPhy == .tp) a ch d → ∀ p ∈ Umac.pdusOf ch d, ¬ p.Bad) ∧
      (∀ ch d, Verif.Phy.Carried code (o.ulPhy == .tp) a ch d → (∃ p ∈ Umac.pdusOf ch d, p.Steals) →
        (ch = .stch → o.ulPhy = .tp) ∧ NoSpot a.sub1 seqX 88 48 ∧ NoSpot a.sub2 seqX 88 48)
  | _ => True

theorem down_total (hx : x.valid) (hc : carrier < 4096) {cfg : CellCfg} (hcfg : cfg.InRange) {c : Sig.Cfg} {ins : List In} {h : Trace} {s : Station}
    (hr : Run c ⟨.init brew carrier x scramb wide (Precomps.generate cfg), .init code⟩ ins h s)
    (hv : ∀ ts b, In.voice ts b ∈ ins → VoiceIn ts b) (hs : ∀ e ∈ h.evs, e.Sane c) (hy : ∀ e ∈ s.cell.umac.log.map Prod.fst, Sayable e)
    (hfree : s.cell.umac.sched.Free) (w : Bool) : (∃ n, s.cell.umac.now.addTimeslots 1 = .ok n) ∧ ∃ r, s.cell.step (.down w) = .ok r := by
  have hb := run_both hr
  have hu := c67_history hx hb.cell
  have hk := Umac.run_known hx hu.1 hu.2.timed
  have hn : s.cell.umac.now.addTimeslots 1 = .ok _ := addTimeslots_ok (by rw [hk.now]; exact fromInt_valid _) (n := 1) (by decide) (by decide)
  have hp := log_proper hx hc hr hv hs hy
  have hrun := (Umac.run_log hu.1).1
  have henv := Umac.srun_env hcfg hp (Umac.Env.init cfg scramb hx) hrun
  obtain ⟨r, ht⟩ := Umac.tick_total hcfg henv hfree hn w
  refine ⟨⟨_, hn⟩, ?_⟩
  have hst : s.cell.umac.step (.tick w) = .ok (r.1, r.2) := ht
  obtain ⟨cs, fs, v, hcause⟩ := Umac.step_via hst
  have hp' : Proper (r.1.log.map Prod.fst) := by
    intro e he
    rw [v.log, List.map_append] at he
    rcases List.mem_append.1 he with he | he
    · exact hp e he
    · have hcause : cs.map Prod.fst = (if w = s.cell.umac.wide then [] else [.systemWide w]) ++ [.tick] := hcause
      rw [hcause] at he
      rcases List.mem_append.1 he with he | he
      · split at he
        · cases he
        · rw [List.mem_singleton] at he; subst he; exact ⟨trivial, trivial⟩
      · rw [List.mem_singleton] at he; subst he; exact ⟨trivial, trivial⟩
  obtain ⟨c', b, h1, _⟩ := c68_down hx hcfg hb.cell hst hp'
  exact ⟨_, h1⟩

/-- **C95, harmless input.** For every configuration in range: in every state the base station can reach without harmful events it handles
every harmless input. Events are harmful by what they say alone: frames which are fatal (C71), commands and messages of the backhaul which
cannot be carried out, and a message discarded at the end of a hang time; fewer than 2^32 messages were received (the handles of MLE), voice of
the backhaul is for a timeslot and complete, and no station was answered in a way which cannot be sent (C36, C21). -/
theorem c95_total_partial (hx : x.valid) (hc : carrier < 4096) {cfg : CellCfg} (hcfg : cfg.InRange) {c : Sig.Cfg} {ins : List In} {h : Trace}
    {s : Station} (hr : Run c ⟨.init brew carrier x scramb wide (Precomps.generate cfg), .init code⟩ ins h s)
    (hfine : ∀ e ∈ h.evs, e.Fine c) (hcount : (Sig.frames h.evs).length + 1 < 2 ^ 32) (hv : ∀ ts b, In.voice ts b ∈ ins → VoiceIn ts b)
    (hy : ∀ e ∈ s.cell.umac.log.map Prod.fst, Sayable e) {i : In} (hi : Harmless code h s i) : ∃ s' t, s.step c i = .ok (s', t) := by
  have hb := run_both hr
  have hs : ∀ e ∈ h.evs, e.Sane c := fun e he => (hfine e he).sane
  cases i with
  | tick w cmds clock b1 b2 =>
    obtain ⟨⟨n, hn⟩, hd⟩ := down_total hx hc hcfg hr hv hs hy hi.1 w
    simp only [Station.step]
    rw [hn, Out.ofRes_ok, Out.bind_ok]
    split
    · obtain ⟨s1, t1, h1⟩ := radio_total (c := c) hd
      have hb1 := hb.radio h1
      have hs1 : ∀ e ∈ (h.add t1).evs, e.Sane c := by
        intro e he
        rcases List.mem_append.1 he with he | he
        · exact hs e he
        · obtain ⟨cell, o, sig, k, g1, g2, rfl, rfl⟩ := radio_ok h1
          exact events_sane hx hb1.cell (e := .down w) (o := o) (by simp) e he
      obtain ⟨s2, t2, h2⟩ := signal_total (c := c) (s := s1) (tickStart_total hb1.sig hs1 (hi.2 n) clock b1)
      refine ⟨s2, t1.add t2, ?_⟩
      rw [andThen, h1, Out.bind_ok]
      simp only
      rw [h2, Out.bind_ok]
    · obtain ⟨s1, t1, h1⟩ := signal_total (c := c) (s := s) (tickStart_total hb.sig hs (hi.2 n) clock b1)
      have hd1 : ∃ r, s1.cell.step (.down w) = .ok r := by
        obtain ⟨sig, k, _, rfl, _⟩ := signal_ok h1
        exact hd
      obtain ⟨s2, t2, h2⟩ := radio_total (c := c) hd1
      refine ⟨s2, t1.add t2, ?_⟩
      rw [andThen, h1, Out.bind_ok]
      simp only
      rw [h2, Out.bind_ok]
  | air a =>
    obtain ⟨ha, hf, l, o, o1, o2, o3, hsent, hbad, hsteal⟩ := hi
    obtain ⟨r, hup⟩ := c68_partial hx hb.cell hf hsent ha hbad hsteal
    refine radio_total (e := .up a) ?_
    simp only [Cell.step]
    rw [hup, Out.bind_ok]
    exact ⟨_, rfl⟩
  | backhaul e => cases e <;> exact ⟨_, _, rfl⟩
  | voice ts b => exact ⟨_, _, rfl⟩
  | deliver => exact signal_total (Sig.c71_total_partial hb.sig hfine hcount trivial)
  | llcEnd => exact signal_total (Sig.c71_total_partial hb.sig hfine hcount trivial)
  | deliverMac =>
    simp only [Station.step, Station.deliverMac]
    split
    · exact ⟨_, _, rfl⟩
    · rename_i now e q hq
      split
      · rename_i r hreq
        refine radio_total (s := { s with mac := q, next := s.next + 1, owner := s.owned e }) (e := .request r) (order_total ?_)
        obtain ⟨u, hu⟩ := request_fits hx hr hv (by rw [hq]; simp) hreq s.cell.umac
        refine ⟨(u, []), ?_⟩
        simp only [UmacBs.step]; rw [hu]; rfl
      · exact ⟨_, _, rfl⟩
    · rename_i m q hq
      refine radio_total (s := { s with mac := q }) (e := .control m) (order_total ?_)
      obtain ⟨u, hu⟩ := Umac.control_total s.cell.umac (order_inRange hr hs (m := m) (by rw [hq]; simp))
      refine ⟨(u, []), ?_⟩
      simp only [UmacBs.step]; rw [hu]; rfl
    · rename_i ts b q hq
      refine radio_total (s := { s with mac := q }) (e := .voice ts b) (order_total ?_)
      obtain ⟨h1, h4, h35⟩ := (run_within hr hv).mail ts b (by rw [hq]; simp)
      obtain ⟨u, hu⟩ := Umac.voiceDown_total s.cell.umac h1 h4 h35
      refine ⟨(u, []), ?_⟩
      simp only [UmacBs.step]; rw [hu]; rfl

/-- C95 is not empty: after the registration of a station, answered on the air, the next slot is harmless, and so is everything else but a
second reception in the same slot. -/
example : ∃ ins h s, Run Sig.sampleCfg Verif.Phy.sampleCell ins h s ∧ reportsTo h.evs = [(0, false)] ∧
    ∀ i, (∀ a, i ≠ .air a) → (∀ w cmds k b1 b2, i = .tick w cmds k b1 b2 → cmds = []) → ∃ s' t, s.step Sig.sampleCfg i = .ok (s', t) := by
  obtain ⟨ins, h, s, r1, r2, a, out, l, o, o1, o2, o3, hr, _, hq, _, _, he, hf, hs, ha, hm, ho, hms, hy, _, _, _, hrep, hv, htame, hlen, hfree⟩ := sample_station
  refine ⟨ins, h, s, hr, hrep, fun i h1 h2 => ?_⟩
  refine c95_total_partial (by unfold Time.valid; decide) (by decide) (cfg := Umac.sampleCfg) (by unfold CellCfg.InRange; decide) hr ?_
    (by rw [hlen]; decide) (fun ts b hi => absurd rfl (hv _ hi ts b)) hy (code := 864282631#32) ?_
  · intro e he
    have ht := htame e he
    cases e with
    | frame a ts p =>
      simp only [tame, Bool.and_eq_true, decide_eq_true_eq] at ht
      obtain ⟨rfl, rfl⟩ := ht
      exact ⟨by decide, by decide, Sig.blData_fine (.inl ⟨rfl, Sig.mm_reads (by decide +kernel)⟩)⟩
    | tickStart now cmds k b =>
      simp only [tame, List.isEmpty_iff] at ht
      subst ht
      rintro ⟨_, hm, _⟩; cases hm
    | mac id d => show d = false; simpa [tame] using ht
    | toCmce => cases ht
    | _ => trivial
  · cases i with
    | tick w cmds k b1 b2 =>
      refine ⟨fun i _ => hfree i, fun now => ?_⟩
      rw [h2 _ _ _ _ _ rfl]
      rintro ⟨_, hm, _⟩; cases hm
    | air a => exact absurd rfl (h1 a)
    | _ => trivial

end Verif.Station
