import Verif.Station.Answer
import Verif.Cmce.Served
/-!
# The whole base station: a group call is set up over the air

C99: from the request of a station to the messages on the air which give it and the group a traffic channel.
-/
namespace Verif.Station
open Verif.Tdma Verif.Codec Verif.Bits
open Verif.Phy (Air Cell CellEv CellOut CellRun callsOf callsOf_append c67_history)
open Verif.Umac (TmaReq ChanReq MacCtl UmacOut UmacEv Report Block Addr UmacRun UmacBs Precomps SchedEv SchedRet MacResource AddrOk
  Carried bitsIn reportsIn reported CellCfg)
open Verif.Cmce.Pdu (USetup DCallProceeding DConnect DSetup)
open Verif.Cmce (NoReuse heardIn updatesIn affiliated Serveable)

variable {brew : Bool} {carrier scramb : Nat} {x : Time} {wide : Bool} {pre : Precomps} {code : BitVec 32}

/-- A message call control sent is an order for the LLC, once the queue is empty. -/
theorem sent_ordered {c : Sig.Cfg} {evs : List Sig.Ev} {tr : List Sig.Call} {s : Sig.St} (h : Sig.Run c evs tr s) (hq : s.queue = [])
    {p : Sig.Stamp} {e : Cmce.BsEv} {out : List Cmce.BsOut} (hk : .cmce p e out ∈ tr) {o : Sig.Order} (ho : o ∈ Sig.cmceSent (Sig.stampOf p e) out) :
    o ∈ Sig.ordered tr := by
  obtain ⟨rest, times, h1, _, h3⟩ := Sig.c72_ordered h
  rw [(h3 hq).1, List.append_nil] at h1
  have hw : o ∈ Sig.wanted tr := List.mem_flatMap.2 ⟨_, hk, ho⟩
  rw [h1] at hw
  exact (List.mem_filter.1 hw).1

/-- **C99, the call.** In any history of the base station at the end of which its router has delivered what there was for the signalling
entities: whenever call control has handled a request for a call to a group which is of a supported kind, at a moment when a station was
affiliated to the group and one of the three traffic timeslots had no call on it, whatever else has happened, then a call with a number `id`,
a usage marker `u` and such a free timeslot `ts'` was made of it:
* the LLC was asked to send the caller, to be acknowledged, that the call proceeds;
* and, without acknowledgement, with the allocation of this timeslot and usage marker, that it is connected, that the caller may talk and
  owns the call;
* and the group, with the same allocation, that a call with the service and priority asked for is on, and that the caller talks;
* the upper MAC was told to open this timeslot in both directions, or is about to be.
All go out in the timeslot the request came in. -/
theorem c99_connected (hx : x.valid) {c : Sig.Cfg} {ins : List In} {h : Trace} {s : Station}
    (hr : Run c ⟨.init brew carrier x scramb wide pre, .init code⟩ ins h s) (hi : ∀ i ∈ ins, i.Sane c) (hq : s.sig.queue = [])
    {k1 k2 : List Sig.Call} {p : Sig.Stamp} {caller : Nat} {msg : List Bool} {out : List Cmce.BsOut}
    (hk : h.calls = k1 ++ .cmce p (.mobile caller msg) out :: k2)
    {req : USetup} {rest : List Bool} (hd : USetup.dec.run msg = .ok (req, rest)) (hs : Serveable req) {g : Nat} (hg : req.called.ssi = some g)
    (hn : NoReuse (heardIn (Sig.bsCalls k1))) (ha : ∃ i, affiliated (updatesIn (Sig.bsCalls k1)) i g = true)
    {ts : Nat} (hts : 2 ≤ ts ∧ ts ≤ 4) (hfree : ∀ id g u, Cmce.heard (heardIn (Sig.bsCalls k1)) id ≠ some (g, u, ts)) :
    ∃ id u ts' b1 b2 b3 dp dc ds, 2 ≤ ts' ∧ ts' ≤ 4 ∧ (∀ id g u, Cmce.heard (heardIn (Sig.bsCalls k1)) id ≠ some (g, u, ts')) ∧
      ⟨.acknowledged p.msg, ⟨caller, .issi, false⟩, toBits 3 2 ++ b1⟩ ∈ Sig.ordered h.calls ∧
      ⟨.unacknowledged p.msg (some (some u, ts')) false, ⟨caller, .issi, false⟩, toBits 3 2 ++ b2⟩ ∈ Sig.ordered h.calls ∧
      ⟨.unacknowledged p.msg (some (some u, ts')) false, ⟨g, .gssi, false⟩, toBits 3 2 ++ b3⟩ ∈ Sig.ordered h.calls ∧
      DCallProceeding.dec.run b1 = .ok (dp, []) ∧ dp.callId = id ∧
      DConnect.dec.run b2 = .ok (dc, []) ∧ dc.callId = id ∧ dc.grant = 0 ∧ dc.ownership = true ∧
      DSetup.dec.run b3 = .ok (ds, []) ∧ ds.callId = id ∧ ds.grant = 3 ∧ ds.callingSsi = some caller ∧
      ds.basicService = req.basicService ∧ ds.priority = req.priority ∧
      (.open ⟨.both, ts', u, 0, some 0, false⟩ ∈ Umac.orders (callsOf h.radio) ∨ Mail.order (.open ⟨.both, ts', u, 0, some 0, false⟩) ∈ s.mac) := by
  have hsig := (run_both hr).sig
  have hbs := Sig.run_bs hsig (run_sane hx hr hi)
  have hsplit : Sig.bsCalls h.calls = Sig.bsCalls k1 ++ (.mobile caller msg, out) :: Sig.bsCalls k2 := by
    rw [hk, Sig.bsCalls_append]; rfl
  obtain ⟨b, b', v, h1, h2, h3⟩ := Cmce.bsRun_split hbs hsplit
  obtain ⟨id, u, ts', b1, b2, b3, more, dp, dc, ds, e1, t1, t2, t3, rest⟩ := Cmce.setup_served h1 h2 h3 hd hs hg hn ha hts hfree
  have hst : ∀ o, Sig.stampOf p (.mobile caller msg) o = p.msg := by
    intro o
    have := (Cmce.type_of_read hd).2
    simp [Sig.stampOf, this]
  have hmem : .cmce p (.mobile caller msg) out ∈ h.calls := by rw [hk]; simp
  have hord := fun o => sent_ordered (o := o) hsig hq hmem
  refine ⟨id, u, ts', b1, b2, b3, dp, dc, ds, t1, t2, t3, ?_, ?_, ?_, ?_⟩
  · exact hord _ (by rw [e1]; simp [Sig.cmceSent, hst, Sig.addrOf])
  · exact hord _ (by rw [e1]; simp [Sig.cmceSent, hst, Sig.addrOf])
  · exact hord _ (by rw [e1]; simp [Sig.cmceSent, hst, Sig.addrOf])
  · obtain ⟨r1, r2, r3, r4, r5, r6, r7, r8, r9, r10, r11, r12⟩ := rest
    refine ⟨r1, r2, r3, r4, r5, r6, r7, r8, r9, r10, r11, r12, ?_⟩
    obtain ⟨sent, hgone⟩ := run_gone hr
    have hm : MacCtl.open ⟨.both, ts', u, 0, some 0, false⟩ ∈ Umac.orders (callsOf h.radio) ++ waitingOrders s.mac := by
      rw [hgone.orders]
      refine List.mem_filterMap.2 ⟨.open ⟨.both, ts', u, 0, some 0, false⟩, ?_, rfl⟩
      refine List.mem_filterMap.2 ⟨.signal (.open ⟨.both, ts', u, 0, some 0, false⟩), ?_, rfl⟩
      refine List.mem_flatMap.2 ⟨(.mobile caller msg, out), by rw [hsplit]; simp, by rw [e1]; exact List.mem_cons_self⟩
    rcases List.mem_append.1 hm with hm | hm
    · exact .inl hm
    · right
      obtain ⟨m, m1, m2⟩ := List.mem_filterMap.1 hm
      split at m2
      · cases m2; exact m1
      · cases m2

/-- **C99, the request.** A request for a call which is in a block a mobile station sent, received with at most one wrong bit, is handled by
call control, under the number of the station and with the timeslot of the block. -/
theorem c99_requested (hx : x.valid) {c : Sig.Cfg} {ins : List In} {h : Trace} {s : Station}
    (hr : Run c ⟨.init brew carrier x scramb wide pre, .init code⟩ ins h s) (hq : s.sig.queue = [])
    {r1 r2 : List (CellEv × CellOut)} {a : Air} {out : CellOut} (he : h.radio = r1 ++ (.up a, out) :: r2) (hf : Verif.Phy.Fresh r1)
    {l : List Umac.DlSlot} {o o1 o2 o3 : Umac.DlSlot} (hs : Verif.Phy.sentOf r1 = l ++ [o, o1, o2, o3]) (ha : a.Sized)
    {ch : Umac.UlChan} {m : List Bool} (hm : OnAir code o a ch m) {ms : List (Addr × List Bool)} (hms : Umac.Reads ch m ms)
    {addr : Addr} {pdu msg : List Bool} (hin : (addr, pdu) ∈ ms) (hc : Sig.Carries pdu 2 msg) :
    ∃ k1 k2 p outs, h.calls = k1 ++ .cmce p (.mobile addr.ssi msg) outs :: k2 ∧ p.msg = o.ts.t := by
  obtain ⟨k, hk, e⟩ := List.mem_filterMap.1 (c93_reaches hx hr hq he hf hs ha hm hms hin hc (.inr rfl))
  split at e
  · simp at e
  · rename_i p ssi sdu outs
    simp only [Option.some.injEq, Sig.Message.mk.injEq, true_and] at e
    obtain ⟨rfl, h2, rfl⟩ := e
    obtain ⟨k1, k2, hk⟩ := List.append_of_mem hk
    exact ⟨k1, k2, p, outs, hk, h2⟩
  · cases e

/-- **C99, the messages go down.** In any history of the base station, each message the LLC was asked to send without acknowledgement, such as
those which connect a call, has been handed down, bit by bit, and waits to be delivered to the upper MAC, or has been and is on the air, waits
for it, or was thrown away (C94); or it goes down at the next end of a tick. -/
theorem c99_goes_down (hx : x.valid) (hc : carrier < 4096) {c : Sig.Cfg} {ins : List In} {h : Trace} {s : Station}
    (hr : Run c ⟨.init brew carrier x scramb wide pre, .init code⟩ ins h s) (hs : ∀ e ∈ s.cell.umac.log.map Prod.fst, Sayable e)
    {ts : Nat} {chan : Option (Option Nat × Nat)} {steal : Bool} {a : Addr} {sdu : List Bool}
    (ho : ⟨.unacknowledged ts chan steal, a, sdu⟩ ∈ Sig.ordered h.calls) :
    (∃ (n : Nat) (now : Time), (handed Time.default (Sig.llcTrace h.calls))[n]? =
        some (now, .udata ⟨a, ts, chan, steal⟩ ([false, false, true, false] ++ sdu)) ∧
      (Mail.request now (.udata ⟨a, ts, chan, steal⟩ ([false, false, true, false] ++ sdu)) ∈ s.mac ∨
        ∃ q after, requestOf now n (.udata ⟨a, ts, chan, steal⟩ ([false, false, true, false] ++ sdu)) = some q ∧
          after <:+ s.cell.umac.log.map Prod.fst ∧
          Fate carrier q after s.cell.umac.sched.queues (bitsIn n s.cell.umac.log) (reportsIn n s.cell.umac.log))) ∨
    ∀ s' t, s.step c .llcEnd = .ok (s', t) →
      ∃ now, Mail.request now (.udata ⟨a, ts, chan, steal⟩ ([false, false, true, false] ++ sdu)) ∈ s'.mac := by
  have hsig := (run_both hr).sig
  obtain ⟨h1, h2⟩ := Sig.c72_unacknowledged hsig
  have hm : (⟨a, ts, chan, steal⟩, [false, false, true, false] ++ sdu) ∈ (Sig.ordered h.calls).filterMap Sig.Order.plain :=
    List.mem_filterMap.2 ⟨_, ho, rfl⟩
  have outs : ∀ {l : List Llc.Item} {v pdu}, (v, pdu) ∈ Llc.sentU l → .out (.udata v pdu) ∈ l := by
    intro l v pdu hv
    obtain ⟨i, hi, e⟩ := List.mem_filterMap.1 hv
    split at e
    · cases e; exact hi
    · cases e
  rw [h1] at hm
  rcases List.mem_append.1 hm with hm | hm
  · left
    obtain ⟨now, hn⟩ := handed_of_out (t := Time.default) (outs hm) rfl
    obtain ⟨n, hn⟩ := List.getElem?_of_mem hn
    refine ⟨n, now, hn, ?_⟩
    by_cases hlt : n < s.next
    · right
      obtain ⟨now', e, q, after, f1, f2, f3, f4⟩ := c94_fate hx hc hr hs hlt
      rw [hn] at f1
      cases f1
      exact ⟨q, after, f2, f3, f4⟩
    · left
      obtain ⟨sent, hg⟩ := run_gone hr
      rw [hg.handed, List.getElem?_append_right (by rw [← hg.next]; omega)] at hn
      obtain ⟨m, hm, he⟩ := List.mem_filterMap.1 (List.mem_of_getElem? hn)
      split at he
      · cases he; exact hm
      · cases he
  · right
    intro s' t hst
    obtain ⟨sig, k, g1, rfl, rfl⟩ := signal_ok hst
    have g2 := h2 _ _ g1
    rw [h1, Sig.llcTrace_append, Llc.sentU_append] at g2
    have g3 := List.append_cancel_left g2
    rw [← g3] at hm
    have hout := outs hm
    obtain ⟨l, es, _, _, rfl⟩ := Sig.callLlc_ok g1
    refine ⟨sig.llc.now, ?_⟩
    simp only [List.flatMap_cons, List.flatMap_nil, List.append_nil, mailOf]
    simp only [Sig.llcTrace, List.flatMap_cons, List.flatMap_nil, List.append_nil, List.mem_cons, reduceCtorEq, false_or, List.mem_map,
      Llc.Item.out.injEq, exists_eq_right] at hout
    exact List.mem_append_right _ (List.mem_map_of_mem (List.mem_filter.2 ⟨hout, rfl⟩))

/-- **C99, in time.** Such a message for the control channel (timeslot 1) which the upper MAC was given is on the air, complete, with its channel
allocation, after at most eight slots for each bit of it, for each bit waiting before it, and for each message: whatever else happens in the
meantime. -/
theorem c99_in_time (hx : x.valid) (hc : carrier < 4096) {cfg : CellCfg} (hcfg : cfg.InRange) {c : Sig.Cfg} {ins : List In} {h : Trace} {s : Station}
    (hr : Run c ⟨.init brew carrier x scramb wide (Precomps.generate cfg), .init code⟩ ins h s)
    (hv : ∀ ts b, In.voice ts b ∈ ins → VoiceIn ts b) (hi : ∀ i ∈ ins, i.Sane c)
    (hs : ∀ e ∈ s.cell.umac.log.map Prod.fst, Sayable e) {n u ts : Nat} {now : Time} {a : Addr} {pdu : List Bool}
    (hn : (handed Time.default (Sig.llcTrace h.calls))[n]? = some (now, .udata ⟨a, 1, some (some u, ts), false⟩ pdu)) (hlt : n < s.next) :
    ∃ k fb es1 es2 s1 tr1 tr2, s.cell.umac.log = tr1 ++ tr2 ∧ tr1.map Prod.fst = es1 ∧
      tr2.map Prod.fst = .message 1 n true ⟨fb, 0, 0, decide (a.ssiType ≠ .gssi), k, some a, none, some u, none, none,
        some ((chanOf (some u, ts)).toMac carrier)⟩ pdu :: es2 ∧
      (Umac.Sched.init x scramb (Precomps.generate cfg)).run es1 = .ok (s1, tr1) ∧
      (8 * (Umac.backlog (s1.queues 0) + pdu.length + 2) ≤ Umac.ticksIn es2 →
        ∃ parts, Carried ⟨fb, 0, 0, decide (a.ssiType ≠ .gssi), k, some a, none, some u, none, none, some ((chanOf (some u, ts)).toMac carrier)⟩
          pdu true (bitsIn n s.cell.umac.log) parts ∧ reportsIn n s.cell.umac.log = [.transmitted n]) :=
  sent_in_time hx hc hcfg hr hv (run_sane hx hr hi) hs hn hlt rfl rfl rfl

end Verif.Station
