import Verif.Station.Ranges
import Verif.Mm.MmProps
import Verif.Umac.SchedLiveProps
/-!
# The whole base station: a station which registers is answered over the air

C98: from the demand mobility management hears to the acceptance on the air.
-/
namespace Verif.Station
open Verif.Tdma Verif.Codec Verif.Bits
open Verif.Phy (Air Cell CellEv CellOut CellRun callsOf callsOf_append c67_history)
open Verif.Umac (TmaReq ChanReq MacCtl UmacOut UmacEv Report Block Addr UmacRun UmacBs Precomps SchedEv SchedRet MacResource AddrOk
  Carried bitsIn reportsIn reported CellCfg)
open Verif.Sig (CarriesSdu acknowledgedOrders)

/-! ## The answer is ordered -/

theorem mmRun_mem {c : Brew.Cfg} {h : List (Mm.MmIn × List Mm.MmOut)} {s : Mm.Mm} (hr : Mm.MmRun c h s) {m : Mm.MmIn} {out : List Mm.MmOut}
    (hm : (m, out) ∈ h) : ∃ s1 s2 : Mm.Mm, s1.rx c m.handle m.issi m.bits = .ok (s2, out) := by
  induction hr with
  | start => cases hm
  | @step h s s' m' out' _ h1 ih =>
    rcases List.mem_append.1 hm with hm | hm
    · exact ih hm
    · rw [List.mem_singleton] at hm; cases hm; exact ⟨_, _, h1⟩

/-- A message mobility management heard, and what it did. -/
theorem heard_mm {c : Sig.Cfg} {evs : List Sig.Ev} {tr : List Sig.Call} {s : Sig.St} (h : Sig.Run c evs tr s) {i ts : Nat} {msg : List Bool}
    (hm : ⟨1, i, ts, msg⟩ ∈ Sig.heard tr) :
    ∃ handle addr out s1 s2, .mm handle addr ts msg out ∈ tr ∧ addr.ssi = i ∧ Mm.Mm.rx c.brew s1 handle i msg = .ok (s2, out) := by
  obtain ⟨k, hk, he⟩ := List.mem_filterMap.1 hm
  split at he
  · rename_i handle addr ts' sdu out
    simp only [Option.some.injEq, Sig.Message.mk.injEq, true_and] at he
    obtain ⟨rfl, rfl, rfl⟩ := he
    obtain ⟨s1, s2, h1⟩ := mmRun_mem (Sig.run_mm h) (m := ⟨handle, addr.ssi, sdu⟩) (out := out) (List.mem_filterMap.2 ⟨_, hk, rfl⟩)
    exact ⟨handle, addr, out, s1, s2, hk, rfl, h1⟩
  · simp at he
  · cases he

/-- What mobility management said is an order for the LLC, once the queue is empty. -/
theorem said_ordered {c : Sig.Cfg} {evs : List Sig.Ev} {tr : List Sig.Call} {s : Sig.St} (h : Sig.Run c evs tr s) (hq : s.queue = [])
    {handle : Nat} {addr : Addr} {ts : Nat} {msg : List Bool} {out : List Mm.MmOut} (hk : .mm handle addr ts msg out ∈ tr) {a b : Nat} {bs : List Bool}
    (ho : .answer a b bs ∈ out) : ∃ n : Nat, (acknowledgedOrders tr)[n]? = some (Sig.answerTo addr msg, ts, toBits 3 1 ++ bs) := by
  obtain ⟨rest, times, h1, _, h3⟩ := Sig.c72_ordered h
  rw [(h3 hq).1, List.append_nil] at h1
  have hw : ⟨.acknowledged ts, Sig.answerTo addr msg, toBits 3 1 ++ bs⟩ ∈ Sig.wanted tr :=
    List.mem_flatMap.2 ⟨_, hk, List.mem_filterMap.2 ⟨_, ho, rfl⟩⟩
  rw [h1] at hw
  have hmem : (Sig.answerTo addr msg, ts, toBits 3 1 ++ bs) ∈ acknowledgedOrders tr :=
    List.mem_filterMap.2 ⟨_, (List.mem_filter.1 hw).1, rfl⟩
  exact List.getElem?_of_mem hmem

/-- The orders are the requests of the LLC. -/
theorem order_req {c : Sig.Cfg} {evs : List Sig.Ev} {tr : List Sig.Call} {s : Sig.St} (h : Sig.Run c evs tr s) (b : Nat) (a : Addr) (ts : Nat)
    (sdu : List Bool) : (acknowledgedOrders tr)[b]? = some (a, ts, sdu) ↔ (Llc.reqs (Sig.llcTrace tr))[b]? = some ⟨a, ts, false, sdu⟩ := by
  have hr := Sig.llcTrace_reqs (Sig.plain_run h)
  rw [hr]
  unfold acknowledgedOrders
  generalize Sig.ordered tr = l
  induction l generalizing b with
  | nil => simp
  | cons o l ih =>
    cases hoa : o.acknowledged with
    | none => simpa [hoa] using ih b
    | some t =>
      simp only [List.filterMap_cons, hoa, Option.map_some]
      cases b with
      | zero => simp
      | succ b => simpa using ih b

/-- Reports the LLC had of the MAC are events of the stack. -/
theorem mac_event {c : Sig.Cfg} {evs : List Sig.Ev} {tr : List Sig.Call} {s : Sig.St} (h : Sig.Run c evs tr s) {id : Nat} {d : Bool}
    {out : List Llc.Emit} (hk : .llc (.mac id d) out ∈ tr) : .mac id d ∈ evs := by
  induction h generalizing out with
  | init => cases hk
  | reorder _ _ ih => exact ih hk
  | @step evs tr calls s s' e _ hs ih =>
    rcases List.mem_append.1 hk with hk | hk
    · exact List.mem_append_left _ (ih hk)
    · refine List.mem_append_right _ (List.mem_singleton.2 ?_)
      cases e with
      | frame => cases hs; cases hk
      | toCmce => cases hs; cases hk
      | deliver =>
        exfalso
        simp only [Sig.St.step] at hs
        split at hs
        · cases hs; cases hk
        · rename_i l q hq
          cases l with
          | frame addr ts pdu => obtain ⟨l, es, _, rfl, rfl⟩ := Sig.callLlc_ok hs; simp at hk
          | mle m => obtain ⟨l, es, _, rfl, rfl⟩ := Sig.callMle_ok hs; simp at hk
          | mm handle addr ts sdu => obtain ⟨l, es, _, rfl, rfl⟩ := Sig.callMm_ok hs; simp at hk
          | cmce ts e => obtain ⟨l, es, _, rfl, rfl⟩ := Sig.callBs_ok hs; simp at hk
          | sndcp => cases hs
          | tlData => obtain ⟨l, es, _, rfl, rfl⟩ := Sig.callLlc_ok hs; simp at hk
          | tlUnitdata => obtain ⟨l, es, _, rfl, rfl⟩ := Sig.callLlc_ok hs; simp at hk
      | tickStart now cmds clock b =>
        exfalso
        simp only [Sig.St.step] at hs
        obtain ⟨s1, k1, k2, h1, h2, rfl⟩ := Sig.andThen_ok hs
        obtain ⟨l, es, _, rfl, rfl⟩ := Sig.callLlc_ok h1
        split at h2
        · obtain ⟨s2, k3, k4, h3, h4, rfl⟩ := Sig.andThen_ok h2
          obtain ⟨_, _, _, rfl, rfl⟩ := Sig.tickMle_ok h3
          obtain ⟨_, _, _, rfl, rfl⟩ := Sig.callBs_ok h4
          simp at hk
        · obtain ⟨s2, k3, k4, h3, h4, rfl⟩ := Sig.andThen_ok h2
          obtain ⟨_, _, _, rfl, rfl⟩ := Sig.callBs_ok h3
          obtain ⟨_, _, _, rfl, rfl⟩ := Sig.tickMle_ok h4
          simp at hk
      | tickEnd =>
        obtain ⟨l, es, _, rfl, rfl⟩ := Sig.callLlc_ok hs; simp at hk
      | mac id' d' =>
        obtain ⟨l, es, _, rfl, rfl⟩ := Sig.callLlc_ok hs; simp at hk
        obtain ⟨⟨rfl, rfl⟩, _⟩ := hk; rfl

variable {brew : Bool} {carrier scramb : Nat} {x : Time} {wide : Bool} {pre : Precomps} {code : BitVec 32}

/-- **C98, the answer.** In any history of the base station at the end of which its router has delivered what there was for the signalling
entities: whenever mobility management has heard a demand to register of a kind it supports, whatever else has happened, there is among the
messages the LLC was asked to send with acknowledgement one to the station which sent it, for the timeslot it was sent in, which is the
acceptance of the same kind, with the number of the station and the groups it asked for. -/
theorem c98_answered (hx : x.valid) {c : Sig.Cfg} {ins : List In} {h : Trace} {s : Station}
    (hr : Run c ⟨.init brew carrier x scramb wide pre, .init code⟩ ins h s) (hq : s.sig.queue = []) {i ts : Nat} {msg : List Bool}
    (hm : ⟨1, i, ts, msg⟩ ∈ Sig.heard h.calls) {req : Mm.ULocationUpdateDemand} {rest : List Bool}
    (hd : Mm.ULocationUpdateDemand.dec.run msg = .ok (req, rest)) (ha : req.Acceptable) :
    ∃ (b : Nat) (bits : List Bool) (ans : Mm.DLocationUpdateAccept),
      (acknowledgedOrders h.calls)[b]? = some (⟨i, .ssi, false⟩, ts, toBits 3 1 ++ bits) ∧
      Mm.DLocationUpdateAccept.dec.run bits = .ok (ans, []) ∧ ans.acceptType = req.updateType ∧ ans.ssi = some i ∧
      ans.groupAccept = req.groupDemand.map fun d => ⟨0, d.groups.map Mm.confirm⟩ := by
  have hi : i < 2 ^ 24 := by
    obtain ⟨a, pdu, e1, e2, gs, before, k, bits, out, after, _, _, ho⟩ := c93_origin hx hr hm
    have e1 : a.ssi = i := e1
    rcases origin_addr ho with h | h
    · rw [← e1]; exact h.1
    · rw [h] at e2
      obtain ⟨_, e2⟩ := e2
      cases e2
  obtain ⟨handle, addr, out, s1, s2, h1, h2, h3⟩ := heard_mm (run_both hr).sig hm
  obtain ⟨s', out', bits, ans, k1, _, _, _, k2, k3, k4, k5, k6⟩ := Mm.c52_location_update (c := c.brew) s1 (handle := handle) hi hd ha
  rw [h3] at k1
  cases k1
  have hmem : .answer handle i bits ∈ out := by
    have : (handle, i, bits) ∈ Mm.answers out := by rw [k2]; exact List.mem_cons_self
    obtain ⟨o, ho, he⟩ := List.mem_filterMap.1 this
    split at he
    · cases he; exact ho
    · cases he
  obtain ⟨b, hb⟩ := said_ordered (run_both hr).sig hq h1 hmem
  have ht := (Mm.type_of hd).2
  have hto : Sig.answerTo addr msg = ⟨i, .ssi, false⟩ := by
    unfold Sig.answerTo
    rw [if_neg (by rw [ht]; decide), h2]
  rw [hto] at hb
  exact ⟨b, bits, ans, hb, k3, k4, k5, k6⟩

/-- **C98, from the air to the answer.** A demand to register which is in a block a mobile station sent, received with at most one wrong
bit, is answered in this way, with the number of the station and on the timeslot of the block. -/
theorem c98_registered (hx : x.valid) {c : Sig.Cfg} {ins : List In} {h : Trace} {s : Station}
    (hr : Run c ⟨.init brew carrier x scramb wide pre, .init code⟩ ins h s) (hq : s.sig.queue = [])
    {r1 r2 : List (CellEv × CellOut)} {a : Air} {out : CellOut} (he : h.radio = r1 ++ (.up a, out) :: r2) (hf : Verif.Phy.Fresh r1)
    {l : List Umac.DlSlot} {o o1 o2 o3 : Umac.DlSlot} (hs : Verif.Phy.sentOf r1 = l ++ [o, o1, o2, o3]) (ha : a.Sized)
    {ch : Umac.UlChan} {m : List Bool} (hm : OnAir code o a ch m) {ms : List (Addr × List Bool)} (hms : Umac.Reads ch m ms)
    {addr : Addr} {pdu msg : List Bool} (hin : (addr, pdu) ∈ ms) (hc : Sig.Carries pdu 1 msg)
    {req : Mm.ULocationUpdateDemand} {rest : List Bool} (hd : Mm.ULocationUpdateDemand.dec.run msg = .ok (req, rest)) (hacc : req.Acceptable) :
    ∃ (b : Nat) (bits : List Bool) (ans : Mm.DLocationUpdateAccept),
      (acknowledgedOrders h.calls)[b]? = some (⟨addr.ssi, .ssi, false⟩, o.ts.t, toBits 3 1 ++ bits) ∧
      Mm.DLocationUpdateAccept.dec.run bits = .ok (ans, []) ∧ ans.acceptType = req.updateType ∧ ans.ssi = some addr.ssi ∧
      ans.groupAccept = req.groupDemand.map fun d => ⟨0, d.groups.map Mm.confirm⟩ :=
  c98_answered hx hr hq (c93_reaches hx hr hq he hf hs ha hm hms hin hc (.inl rfl)) hd hacc

/-! ## From the order to the air -/

theorem handed_of_out {t : Time} {l : List Llc.Item} {e : Llc.Emit} (h : .out e ∈ l) (hg : goesDown e = true) : ∃ now, (now, e) ∈ handed t l := by
  induction l generalizing t with
  | nil => cases h
  | cons i l ih =>
    rcases List.mem_cons.1 h with rfl | h'
    · exact ⟨t, by simp [handed, hg]⟩
    · cases i with
      | ev e' => exact ih h'
      | out e' =>
        obtain ⟨now, hn⟩ := ih (t := t) h'
        exact ⟨now, List.mem_append_right _ hn⟩

theorem sends_mem_data {tr : List Llc.Item} {b : Nat} (h : 0 < Llc.sends tr b) : ∃ a ts pdu, .out (.data b a ts pdu) ∈ tr := by
  obtain ⟨i, hi, hs⟩ := List.countP_pos_iff.1 h
  unfold Llc.Item.isSend at hs
  split at hs
  · rename_i id a ts pdu
    rw [beq_iff_eq] at hs
    subst hs
    exact ⟨a, ts, pdu, hi⟩
  · cases hs

/-- What was handed down for an order is the order. -/
theorem data_order {c : Sig.Cfg} {evs : List Sig.Ev} {tr : List Sig.Call} {s : Sig.St} (h : Sig.Run c evs tr s) {b : Nat} {a : Addr} {ts : Nat}
    {sdu : List Bool} (ho : (acknowledgedOrders tr)[b]? = some (a, ts, sdu)) {a' : Addr} {ts' : Nat} {pdu : List Bool}
    (hd : .out (.data b a' ts' pdu) ∈ Sig.llcTrace tr) : a' = a ∧ ts' = ts ∧ CarriesSdu pdu sdu := by
  obtain ⟨l1, l2, e⟩ := List.append_of_mem hd
  obtain ⟨sdu', h1, h2⟩ := Sig.c72_acknowledged h e
  rw [ho] at h1
  cases h1
  refine ⟨rfl, rfl, ?_⟩
  rcases h2 with ⟨ns, rfl⟩ | ⟨nr, ns, rfl⟩
  · exact .data _ _
  · exact .adata _ _ _

/-- Without a transmission there is no final report. -/
theorem unsent_open {evs : List Llc.Ev} {l : Llc.Llc} {tr : List Llc.Item} (h : Llc.Llc.init.run evs = .ok (l, tr)) {b : Nat}
    (h0 : Llc.sends tr b = 0) : ¬ Llc.Reported tr b := by
  have hle : ∀ p q : List Llc.Item, Llc.sends p b ≤ Llc.sends (p ++ q) b := by
    intro p q; simp [Llc.sends, List.countP_append]
  rintro (h1 | h1)
  · obtain ⟨p, q, e⟩ := List.append_of_mem h1
    obtain ⟨_, p', _, _, _, _, e2, _, _, _, p1, p2, ⟨i, hi, e3, _⟩, _⟩ := Llc.c26_acknowledged h e
    rw [e, e2, e3] at h0
    simp [Llc.sends, List.countP_append, List.countP_cons, hi] at h0
  · obtain ⟨p, q, e⟩ := List.append_of_mem h1
    have h4 := (Llc.c26_lost h e).1
    have := hle p (.out (.lost b) :: q)
    rw [← e] at this
    omega

/-- **C98, the order goes down.** In any history of the base station, each message the LLC was asked to send with acknowledgement, such as an
acceptance (C98, the answer):
* has been handed down with its bits, and waits to be delivered to the upper MAC, or has been and is on the air, waits for it, or was thrown
  away (C94);
* or an earlier message to the same station has neither been acknowledged nor given up;
* or goes down at the next end of a tick. -/
theorem c98_goes_down (hx : x.valid) (hc : carrier < 4096) {c : Sig.Cfg} {ins : List In} {h : Trace} {s : Station}
    (hr : Run c ⟨.init brew carrier x scramb wide pre, .init code⟩ ins h s) (hs : ∀ e ∈ s.cell.umac.log.map Prod.fst, Sayable e)
    {b ts : Nat} {a : Addr} {sdu : List Bool} (ho : (acknowledgedOrders h.calls)[b]? = some (a, ts, sdu)) :
    (∃ (n : Nat) (now : Time) (pdu : List Bool), (handed Time.default (Sig.llcTrace h.calls))[n]? = some (now, .data b a ts pdu) ∧ CarriesSdu pdu sdu ∧
      (Mail.request now (.data b a ts pdu) ∈ s.mac ∨
        ∃ q after, requestOf now n (.data b a ts pdu) = some q ∧ after <:+ s.cell.umac.log.map Prod.fst ∧
          Fate carrier q after s.cell.umac.sched.queues (bitsIn n s.cell.umac.log) (reportsIn n s.cell.umac.log))) ∨
    (∃ k a' ts' sdu', k < b ∧ (acknowledgedOrders h.calls)[k]? = some (a', ts', sdu') ∧ a'.ssi = a.ssi ∧
      ¬ Llc.Reported (Sig.llcTrace h.calls) k) ∨
    ∀ s' t, s.step c .llcEnd = .ok (s', t) → ∃ now pdu, Mail.request now (.data b a ts pdu) ∈ s'.mac ∧ CarriesSdu pdu sdu := by
  have hsig := (run_both hr).sig
  have hllc := Sig.run_llc hsig
  by_cases h0 : Llc.sends (Sig.llcTrace h.calls) b = 0
  · right
    by_cases hold : ∃ k a' ts' sdu', k < b ∧ (acknowledgedOrders h.calls)[k]? = some (a', ts', sdu') ∧ a'.ssi = a.ssi ∧
      ¬ Llc.Reported (Sig.llcTrace h.calls) k
    · exact .inl hold
    right
    intro s' t hst
    obtain ⟨sig, k, h1, rfl, rfl⟩ := signal_ok hst
    obtain ⟨l, es, h2, h3, h4⟩ := Sig.callLlc_ok h1
    obtain ⟨p1, _⟩ := Llc.c26_prompt hllc h2 ((order_req hsig b a ts sdu).1 ho) (unsent_open hllc h0) (by
      intro k q hk hq hqs
      apply Classical.byContradiction
      intro hn
      obtain ⟨qa, qt, qf, qs⟩ := q
      have hf : qf = false := by
        have := List.mem_of_getElem? hq
        rw [Sig.llcTrace_reqs (Sig.plain_run hsig)] at this
        obtain ⟨o, _, ho⟩ := List.mem_filterMap.1 this
        cases hoa : o.acknowledged with
        | none => rw [hoa] at ho; cases ho
        | some t => rw [hoa] at ho; cases ho; rfl
      subst hf
      exact hold ⟨k, qa, qt, qs, hk, (order_req hsig k qa qt qs).2 hq, hqs, hn⟩)
    obtain ⟨pdu, hp⟩ := p1 h0
    subst h4
    refine ⟨sig.llc.now, pdu, ?_, ?_⟩
    · simp only [List.flatMap_cons, List.flatMap_nil, List.append_nil, mailOf]
      exact List.mem_append_right _ (List.mem_map_of_mem (List.mem_filter.2 ⟨hp, rfl⟩))
    · have hrun := Sig.Run.step hsig h1
      have ho' : (acknowledgedOrders (h.calls ++ [.llc .tickEnd es]))[b]? = some (a, ts, sdu) := by
        unfold acknowledgedOrders at ho ⊢
        rw [Sig.ordered_append, List.filterMap_append, List.getElem?_append_left (List.getElem?_eq_some_iff.1 ho).1]
        exact ho
      refine (data_order hrun ho' (a' := a) (ts' := ts) ?_).2.2
      rw [Sig.llcTrace_append]
      refine List.mem_append_right _ ?_
      simp only [Sig.llcTrace, List.flatMap_cons, List.flatMap_nil, List.append_nil]
      exact List.mem_cons_of_mem _ (List.mem_map_of_mem hp)
  · left
    obtain ⟨a', ts', pdu, hd⟩ := sends_mem_data (Nat.pos_of_ne_zero h0)
    obtain ⟨rfl, rfl, hcs⟩ := data_order hsig ho hd
    obtain ⟨now, hn⟩ := handed_of_out (t := Time.default) hd rfl
    obtain ⟨n, hn⟩ := List.getElem?_of_mem hn
    refine ⟨n, now, pdu, hn, hcs, ?_⟩
    by_cases hlt : n < s.next
    · right
      obtain ⟨now', e, q, after, f1, f2, f3, f4⟩ := c94_fate hx hc hr hs hlt
      rw [hn] at f1
      cases f1
      exact ⟨q, after, f2, f3, f4⟩
    · left
      obtain ⟨sent, hg⟩ := run_gone hr
      rw [hg.handed, List.getElem?_append_right (by rw [← hg.next]; omega)] at hn
      obtain ⟨m, hm, he⟩ := List.mem_filterMap.1 (List.mem_of_getElem? hn)
      split at he
      · cases he; exact hm
      · cases he

/-- **C98, an acknowledged answer was on the air.** If the LLC has reported such a message as acknowledged, it was handed down, sent on the
air, complete and under the address of its station, and reported as transmitted. -/
theorem c98_acknowledged (hx : x.valid) (hc : carrier < 4096) {c : Sig.Cfg} {ins : List In} {h : Trace} {s : Station}
    (hr : Run c ⟨.init brew carrier x scramb wide pre, .init code⟩ ins h s) (hs : ∀ e ∈ s.cell.umac.log.map Prod.fst, Sayable e)
    {b ts : Nat} {a : Addr} {sdu : List Bool} (ho : (acknowledgedOrders h.calls)[b]? = some (a, ts, sdu))
    (hk : .out (.acknowledged b) ∈ Sig.llcTrace h.calls) :
    ∃ (n : Nat) (now : Time) (pdu : List Bool) (q : TmaReq) (k : Nat) (fb : Bool) (parts : _),
      (handed Time.default (Sig.llcTrace h.calls))[n]? = some (now, .data b a ts pdu) ∧ CarriesSdu pdu sdu ∧
      requestOf now n (.data b a ts pdu) = some q ∧ Carried (headerOf carrier q k fb) pdu true (bitsIn n s.cell.umac.log) parts ∧
      reportsIn n s.cell.umac.log = [.transmitted n] := by
  have hsig := (run_both hr).sig
  have hllc := Sig.run_llc hsig
  obtain ⟨l1, l2, e⟩ := List.append_of_mem hk
  obtain ⟨_, p, a0, ts0, pdu0, r0, e2, _, _, _, p1, p2, ⟨i, hi, e3, _⟩, hmac⟩ := Llc.c26_acknowledged hllc e
  have hev : .ev (.mac b false) ∈ Sig.llcTrace h.calls := by rw [e, e2, e3]; simp [hmac]
  have hin : (b, false) ∈ reportsTo h.evs := by
    obtain ⟨k, hk1, hk2⟩ := List.mem_flatMap.1 hev
    cases k with
    | llc ev out =>
      simp only [List.mem_cons, Llc.Item.ev.injEq, List.mem_map, reduceCtorEq, and_false, exists_false, or_false] at hk2
      subst hk2
      exact List.mem_filterMap.2 ⟨_, mac_event hsig hk1, rfl⟩
    | _ => cases hk2
  rw [c94_reports hx hc hr hs] at hin
  obtain ⟨r, hr1, hr2⟩ := List.mem_filterMap.1 hin
  have hrn : ∃ n now a' ts' pdu, r = .transmitted n ∧ (handed Time.default (Sig.llcTrace h.calls))[n]? = some (now, .data b a' ts' pdu) := by
    cases r with
    | transmitted n =>
      simp only [reportFor] at hr2
      split at hr2
      · rename_i now id a' ts' pdu he
        cases hr2
        exact ⟨n, now, a', ts', pdu, rfl, he⟩
      · cases hr2
    | discarded n =>
      simp only [reportFor] at hr2
      split at hr2 <;> cases hr2
  obtain ⟨n, now, a', ts', pdu, rfl, hn⟩ := hrn
  obtain ⟨rfl, rfl, hcs⟩ := data_order hsig ho (handed_out (List.mem_of_getElem? hn))
  have hf := log_fine hx hr (sound_of hx hc hr hs)
  have ht := run_told hx hr
  have hlt : n < s.next := by
    apply Decidable.byContradiction
    intro hlt
    exact log_avoids hx ht.both hf (n := n) (fun e he hid => hlt (ht.ids e he _ hid)) hr1 rfl
  obtain ⟨now', e', q, after, f1, f2, f3, f4⟩ := c94_fate hx hc hr hs hlt
  rw [hn] at f1
  cases f1
  have hrep := reports_in hr1
  have hq : q.id = n ∧ q.sdu = pdu ∧ q.steal = false := by cases f2; exact ⟨rfl, rfl, rfl⟩
  refine ⟨n, now, pdu, q, ?_⟩
  generalize hbits : bitsIn n s.cell.umac.log = bits at f4
  generalize hreps : reportsIn n s.cell.umac.log = reps at f4
  have hrep : .transmitted n ∈ reps := by rw [← hreps]; exact hrep
  cases f4 with
  | done h1 h2 => exact ⟨_, _, _, hn, hcs, f2, by rw [← hq.2.1]; exact h1, by rw [hq.1]⟩
  | waits => cases hrep
  | dropped => simp at hrep
  | stolen h1 => rw [hq.2.2] at h1; cases h1
  | toSteal h1 => rw [hq.2.2] at h1; cases h1

theorem srun_evs {u v : Umac.Sched} {es : List SchedEv} {tr : List (SchedEv × Umac.SchedRet)} (h : u.run es = .ok (v, tr)) : tr.map Prod.fst = es := by
  induction es generalizing u tr with
  | nil => cases h; rfl
  | cons e es ih =>
    obtain ⟨a, tr', _, h2, h3⟩ := Umac.srun_cons h
    cases h3
    exact congrArg (e :: ·) (ih h2)

/-- A message for the control channel which the upper MAC was given is on the air after at most eight slots for each bit. -/
theorem sent_in_time (hx : x.valid) (hc : carrier < 4096) {cfg : CellCfg} (hcfg : cfg.InRange) {c : Sig.Cfg} {ins : List In} {h : Trace} {s : Station}
    (hr : Run c ⟨.init brew carrier x scramb wide (Precomps.generate cfg), .init code⟩ ins h s)
    (hv : ∀ ts b, In.voice ts b ∈ ins → VoiceIn ts b) (hsane : ∀ e ∈ h.evs, e.Sane c)
    (hs : ∀ e ∈ s.cell.umac.log.map Prod.fst, Sayable e) {n : Nat} {now : Time} {e : Llc.Emit} {q : TmaReq}
    (hn : (handed Time.default (Sig.llcTrace h.calls))[n]? = some (now, e)) (hlt : n < s.next) (hq : requestOf now n e = some q)
    (hst : q.steal = false) (h1 : q.x.t = 1) :
    ∃ k fb es1 es2 s1 tr1 tr2, s.cell.umac.log = tr1 ++ tr2 ∧ tr1.map Prod.fst = es1 ∧
      tr2.map Prod.fst = .message 1 n true (headerOf carrier q k fb) q.sdu :: es2 ∧
      (Umac.Sched.init x scramb (Precomps.generate cfg)).run es1 = .ok (s1, tr1) ∧
      (8 * (Umac.backlog (s1.queues 0) + q.sdu.length + 2) ≤ Umac.ticksIn es2 →
        ∃ parts, Carried (headerOf carrier q k fb) q.sdu true (bitsIn n s.cell.umac.log) parts ∧ reportsIn n s.cell.umac.log = [.transmitted n]) := by
  obtain ⟨sent, hg⟩ := run_gone hr
  obtain ⟨_, h2⟩ := nth_queued hx hr hg
  have hlt' : n < sent.length := by rw [← hg.next]; exact hlt
  rw [hg.handed, List.getElem?_append_left hlt'] at hn
  obtain ⟨q', ev, q1, q2, q3⟩ := h2 n _ _ hn
  rw [hq] at q1
  cases q1
  have hmem : ev ∈ s.cell.umac.log.map Prod.fst := (List.mem_filter.1 (List.mem_of_getElem? q2)).1
  have hi : q.id = n ∧ q.reported = true := by cases e <;> cases hq <;> exact ⟨rfl, rfl⟩
  rcases q3 with ⟨k, fb, rfl⟩ | ⟨hst', _⟩
  swap
  · rw [hst] at hst'; cases hst'
  rw [hi.1, hi.2, h1] at hmem
  have hnd : ((s.cell.umac.log.map Prod.fst).filterMap SchedEv.id?).Nodup := by rw [queued_ids hx hr]; exact List.nodup_range
  obtain ⟨es1, es2, hsp, a1, a2⟩ := split_unique hnd hmem (n := n) rfl
  have hrun := (Umac.run_log (c67_history hx (run_both hr).cell).1).1
  have hp := log_proper hx hc hr hv hsane hs
  have hh : .hang 1 false ∉ es2 := by
    intro hm
    have := Umac.run_hang (c67_history hx (run_both hr).cell).1 rfl (calls_kept hx hr hv hsane) 1 false (by rw [hsp]; simp [hm])
    omega
  rw [hsp] at hrun hp
  obtain ⟨s1, tr1, tr2, r1, r2, r3⟩ := Umac.srun_append _ _ hrun
  refine ⟨k, fb, es1, es2, s1, tr1, tr2, r3, srun_evs r1, srun_evs r2, r1, ?_⟩
  intro ht
  obtain ⟨parts, c1, c2, _⟩ := Umac.c23_main cfg hcfg scramb x hx es1 es2 n true _ q.sdu hp a1 a2 s1 _ tr1 tr2 r1 r2 ht hh
  have r3 : s.cell.umac.log = tr1 ++ tr2 := r3
  rw [r3]
  exact ⟨parts, c1, by rw [c2]; rfl⟩

/-- **C98, in time.** A message for the control channel (timeslot 1) which the upper MAC was given is on the air, complete, and reported, after
at most eight slots for each bit of it, for each bit waiting before it, and for each message: whatever else happens in the meantime, calls
included. -/
theorem c98_in_time (hx : x.valid) (hc : carrier < 4096) {cfg : CellCfg} (hcfg : cfg.InRange) {c : Sig.Cfg} {ins : List In} {h : Trace} {s : Station}
    (hr : Run c ⟨.init brew carrier x scramb wide (Precomps.generate cfg), .init code⟩ ins h s)
    (hv : ∀ ts b, In.voice ts b ∈ ins → VoiceIn ts b) (hsane : ∀ e ∈ h.evs, e.Sane c)
    (hs : ∀ e ∈ s.cell.umac.log.map Prod.fst, Sayable e) {n b : Nat} {now : Time} {a : Addr} {pdu : List Bool}
    (hn : (handed Time.default (Sig.llcTrace h.calls))[n]? = some (now, .data b a 1 pdu)) (hlt : n < s.next) :
    ∃ q k fb es1 es2 s1 tr1 tr2, requestOf now n (.data b a 1 pdu) = some q ∧ s.cell.umac.log = tr1 ++ tr2 ∧ tr1.map Prod.fst = es1 ∧
      tr2.map Prod.fst = .message 1 n true (headerOf carrier q k fb) pdu :: es2 ∧
      (Umac.Sched.init x scramb (Precomps.generate cfg)).run es1 = .ok (s1, tr1) ∧
      (8 * (Umac.backlog (s1.queues 0) + pdu.length + 2) ≤ Umac.ticksIn es2 →
        ∃ parts, Carried (headerOf carrier q k fb) pdu true (bitsIn n s.cell.umac.log) parts ∧ reportsIn n s.cell.umac.log = [.transmitted n]) := by
  obtain ⟨k, fb, es1, es2, s1, tr1, tr2, h1⟩ := sent_in_time hx hc hcfg hr hv hsane hs hn hlt rfl rfl rfl
  exact ⟨_, k, fb, es1, es2, s1, tr1, tr2, rfl, h1⟩

end Verif.Station
