import Verif.Station.Air
/-!
# The whole base station: from the LLC to the air

C94: every message the LLC hands down is put on the air once, complete and under its address, or is still waiting, or was thrown away;
and the LLC is told which.
-/
namespace Verif.Station
open Verif.Tdma Verif.Codec
open Verif.Phy (Air Cell CellEv CellOut CellRun callsOf callsOf_append c67_history)
open Verif.Umac (TmaReq ChanReq MacCtl UmacOut UmacEv Report Block Addr UmacRun UmacBs Precomps SchedEv SchedRet MacResource AddrOk
  Carried bitsIn reportsIn reported UmacMs Wanted)

/-! ## What can be put on the air -/

/-- A message with an address of 24 bits, in clear, and with a usage marker of 6 bits. -/
def Plain : Llc.Emit → Prop
  | .data _ a _ _ => AddrOk a
  | .ack a _ _ _ => AddrOk a
  | .udata v _ => AddrOk v.addr ∧ ∀ u t, v.chan = some (some u, t) → u < 64 ∧ (v.addr.ssiType = .ssi ∨ v.addr.ssiType = .issi ∨ v.addr.ssiType = .gssi)
  | _ => False

/-- The answers to mobile stations on the random access channel and the grants are for addresses of 24 bits in clear. -/
def RxFine (e : SchedEv) : Prop := (∀ t a, e = .ack t a → e.Fine) ∧ ∀ t a g, e = .grant t a g → e.Fine

theorem stolen_length {ra : Bool} {a : Addr} {u : Option Nat} {sdu b : List Bool} (h : Umac.stolenBlock ra a u sdu = .ok b) : b.length = 124 := by
  unfold Umac.stolenBlock at h
  rw [Out.bind_eq_ok] at h; obtain ⟨p, _, h⟩ := h
  rw [Out.bind_eq_ok] at h; obtain ⟨hd, _, h⟩ := h
  split at h
  · cases h
  · rename_i hn
    cases h
    simp only [Umac.stchCap] at hn ⊢
    simp; omega

theorem header_sendable {carrier : Nat} (hc : carrier < 4096) {now : Time} {n : Nat} {e : Llc.Emit} (he : Plain e) {q : TmaReq}
    (hq : requestOf now n e = some q) (k : Nat) (fb : Bool) : (headerOf carrier q k fb).Sendable := by
  have key : ∀ (a : Addr) (ch : Option (Option Nat × Nat)), AddrOk a →
      (∀ u t, ch = some (some u, t) → u < 64 ∧ (a.ssiType = .ssi ∨ a.ssiType = .issi ∨ a.ssiType = .gssi)) → ∀ r x rep st sdu,
      r = TmaReq.mk x n rep a st (ch.map chanOf) sdu → (headerOf carrier r k fb).Sendable := by
    intro a ch ha hu r x rep st sdu hr
    subst hr
    obtain ⟨a1, a2, a3⟩ := ha
    unfold MacResource.Sendable MacResource.InRange headerOf
    refine ⟨by simp, by simp, by simp, by simp, ?_, by simp, by simp, ?_⟩
    · cases ch with
      | none =>
        simp only [Option.map_none, Option.bind_none, MacResource.Addressed]
        refine ⟨a1, by simp [a2], by simp, by simp, by simp, ?_⟩
        rcases a3 with h | h | h | h | h <;> simp [h]
      | some p =>
        obtain ⟨u, t⟩ := p
        cases u with
        | none =>
          simp only [Option.map_some, Option.bind_some, chanOf, MacResource.Addressed]
          refine ⟨a1, by simp [a2], by simp, by simp, by simp, ?_⟩
          rcases a3 with h | h | h | h | h <;> simp [h]
        | some u =>
          obtain ⟨h1, h2⟩ := hu u t rfl
          simp only [Option.map_some, Option.bind_some, chanOf, MacResource.Addressed]
          refine ⟨a1, by simp [a2], by simp, (by simp; exact h1), by simp, ?_⟩
          rcases h2 with h | h | h <;> simp [h]
    · intro v hv
      cases ch with
      | none => cases hv
      | some p => cases hv; exact ⟨by simp [ChanReq.toMac, chanOf], by simp [ChanReq.toMac, chanOf], by simp [ChanReq.toMac, chanOf], hc, rfl, by simp [ChanReq.toMac], by simp [ChanReq.toMac], by simp [ChanReq.toMac]⟩
  cases e with
  | data id a ts p =>
    simp only [requestOf, Option.some.injEq] at hq
    exact key a none he (by simp) q _ _ _ _ hq.symm
  | ack a nr ts st =>
    simp only [requestOf, Option.some.injEq] at hq
    refine key a (if st then some (none, ts) else none) he (by cases st <;> simp) q { now with t := Llc.linkOf now.t } true st (ackPdu nr) ?_
    rw [← hq]; cases st <;> rfl
  | udata v p =>
    simp only [requestOf, Option.some.injEq] at hq
    exact key v.addr v.chan he.1 he.2 q _ _ _ _ hq.symm
  | _ => cases he

variable {brew : Bool} {carrier scramb : Nat} {x : Time} {wide : Bool} {pre : Precomps} {code : BitVec 32}

/-- What a history must bring so that everything can be put on the air. -/
structure Sound (carrier : Nat) (h : Trace) (s : Station) : Prop where
  carrier : carrier < 4096
  plain : ∀ p ∈ handed Time.default (Sig.llcTrace h.calls), Plain p.2
  rx : ∀ e ∈ s.cell.umac.log.map Prod.fst, RxFine e

theorem log_fine (hx : x.valid) {c : Sig.Cfg} {ins : List In} {h : Trace} {s : Station}
    (hr : Run c ⟨.init brew carrier x scramb wide pre, .init code⟩ ins h s) (hs : Sound carrier h s) :
    ∀ e ∈ s.cell.umac.log.map Prod.fst, e.Fine := by
  intro e he
  obtain ⟨sent, hg⟩ := run_gone hr
  obtain ⟨h1, h2⟩ := nth_queued hx hr hg
  cases hid : e.id? with
  | none =>
    obtain ⟨k1, k2⟩ := hs.rx e he
    cases e with
    | ack t a => exact k1 t a rfl
    | grant t a g => exact k2 t a g rfl
    | message => cases hid
    | steal => cases hid
    | _ => trivial
  | some n =>
    have hm : e ∈ queued (s.cell.umac.log.map Prod.fst) := List.mem_filter.2 ⟨he, by rw [hid]; rfl⟩
    obtain ⟨i, hi⟩ := List.getElem?_of_mem hm
    have hlt : i < sent.length := by rw [← h1]; exact (List.getElem?_eq_some_iff.1 hi).1
    obtain ⟨q, ev, q1, q2, q3⟩ := h2 i sent[i].1 sent[i].2 (by rw [List.getElem?_eq_getElem hlt])
    rw [hi] at q2; cases q2
    rcases q3 with ⟨n, fb, rfl⟩ | ⟨_, ts, ra, b, hb, rfl⟩
    · exact header_sendable hs.carrier (hs.plain sent[i] (by rw [hg.handed]; exact List.mem_append_left _ (List.getElem_mem hlt))) q1 n fb
    · exact stolen_length hb

/-- What became of a message for the air with the bits `bits` sent and the reports `reps`, when the LLC asked for `q`: it is on the air,
complete, in one or more parts under its header, and reported; it is not, or not complete, and waits in the queue of its timeslot; or what
was left of it was thrown away when the hang time of its timeslot ended, and that was reported. -/
inductive Fate (carrier : Nat) (q : TmaReq) (after : List SchedEv) (queues : Fin 4 → List Umac.DlElem) (bits : List (List Bool)) :
    List Report → Prop where
  | done {n fb parts} : Carried (headerOf carrier q n fb) q.sdu true bits parts → (∀ j, Umac.here q.id (queues j) = []) →
      Fate carrier q after queues bits [.transmitted q.id]
  | waits {n fb parts e} {i : Fin 4} : q.x.t = i.val + 1 → Carried (headerOf carrier q n fb) q.sdu false bits parts →
      Umac.here q.id (queues i) = [e] → (∀ j, j ≠ i → Umac.here q.id (queues j) = []) → Fate carrier q after queues bits []
  | dropped {n fb parts} : Carried (headerOf carrier q n fb) q.sdu false bits parts → (∀ j, Umac.here q.id (queues j) = []) →
      .hang q.x.t false ∈ after → Fate carrier q after queues bits [.discarded q.id]
  | stolen {ra b} : q.steal = true → Umac.stolenBlock ra q.addr (q.chan.bind (·.usage)) q.sdu = .ok b → bits = [b] →
      (∀ j, Umac.here q.id (queues j) = []) → Fate carrier q after queues bits [.transmitted q.id]
  | toSteal {ra b} {i : Fin 4} : q.steal = true → Umac.stolenBlock ra q.addr (q.chan.bind (·.usage)) q.sdu = .ok b → bits = [] →
      Umac.here q.id (queues i) = [.stealing b (.msg q.id true)] → (∀ j, j ≠ i → Umac.here q.id (queues j) = []) →
      Fate carrier q after queues bits []

/-- The fate of a message (C94). In any history of the base station: the `n`-th message the LLC handed down, when it has been delivered to
the upper MAC, is on the air once, complete and under its address, and so reported; or waits; or was thrown away and so reported. -/
theorem fate_of_sound (hx : x.valid) {c : Sig.Cfg} {ins : List In} {h : Trace} {s : Station}
    (hr : Run c ⟨.init brew carrier x scramb wide pre, .init code⟩ ins h s) (hs : Sound carrier h s) {n : Nat} (hn : n < s.next) :
    ∃ now e q after, (handed Time.default (Sig.llcTrace h.calls))[n]? = some (now, e) ∧ requestOf now n e = some q ∧
      after <:+ s.cell.umac.log.map Prod.fst ∧
      Fate carrier q after s.cell.umac.sched.queues (bitsIn n s.cell.umac.log) (reportsIn n s.cell.umac.log) := by
  obtain ⟨sent, hg⟩ := run_gone hr
  obtain ⟨h1, h2⟩ := nth_queued hx hr hg
  have hlt : n < sent.length := by rw [← hg.next]; exact hn
  obtain ⟨q, ev, q1, q2, q3⟩ := h2 n sent[n].1 sent[n].2 (by rw [List.getElem?_eq_getElem hlt])
  obtain ⟨qid, qrep⟩ := requestOf_id q1
  have hmem : ev ∈ s.cell.umac.log.map Prod.fst := (List.mem_filter.1 (List.mem_of_getElem? q2)).1
  have hid : ev.id? = some n := by rw [answers_id q3, qid]
  have hnd : ((s.cell.umac.log.map Prod.fst).filterMap SchedEv.id?).Nodup := by rw [queued_ids hx hr]; exact List.nodup_range
  obtain ⟨es1, es2, hsp, a1, a2⟩ := split_unique hnd hmem hid
  have hfine := log_fine hx hr hs
  have hrun := (Umac.run_log (c67_history hx (run_both hr).cell).1).1
  refine ⟨sent[n].1, sent[n].2, q, es2, ?_, q1, ⟨es1 ++ [ev], by rw [hsp]; simp⟩, ?_⟩
  · rw [hg.handed, List.getElem?_append_left hlt, List.getElem?_eq_getElem hlt]
  · rw [hsp] at hfine hrun
    rcases q3 with ⟨k, fb, rfl⟩ | ⟨hst, ts, ra, b, hb, rfl⟩
    · rw [qid, qrep] at hfine hrun
      obtain ⟨complete, parts, hc, hcases, _⟩ := Umac.c23_message x scramb pre es1 es2 _ n true _ q.sdu hfine a1 a2 _ _ hrun
      rcases hcases with ⟨rfl, e1, e2⟩ | ⟨rfl, e1, i, e2, ⟨el, e3⟩, e4⟩ | ⟨rfl, e1, e2, e3⟩
      · rw [e1]; simp only [if_true]
        rw [← qid] at e2 hc ⊢
        exact .done hc e2
      · rw [e1]
        rw [← qid] at e3 e4 hc ⊢
        exact .waits e2 hc e3 e4
      · rw [e1]; simp only [if_true]
        rw [← qid] at e2 hc ⊢
        exact .dropped hc e2 e3
    · rw [qid, qrep] at hfine hrun
      obtain ⟨hcases, _⟩ := Umac.c23_stolen x scramb pre es1 es2 ts n true b hfine a1 a2 _ _ hrun
      rcases hcases with ⟨e0, e1, e2⟩ | ⟨e0, e1, i, _, e3, e4⟩
      · rw [e1]; simp only [if_true]
        rw [← qid] at e0 e2 ⊢
        exact .stolen hst hb e0 e2
      · rw [e1]
        rw [← qid] at e0 e3 e4 ⊢
        exact .toSteal hst hb e0 e3 e4

/-! ## Reports -/

/-- The reports the LLC was given about its messages. -/
def reportsTo (evs : List Sig.Ev) : List (Nat × Bool) := evs.filterMap fun e => match e with
  | .mac id d => some (id, d)
  | _ => none

/-- A report about the `n`-th message handed down, if the LLC waits for it: those are the messages to be acknowledged. -/
def reportFor (sent : List (Time × Llc.Emit)) : Report → Option (Nat × Bool)
  | .transmitted n => match sent[n]? with
    | some (_, .data id _ _ _) => some (id, false)
    | _ => none
  | .discarded n => match sent[n]? with
    | some (_, .data id _ _ _) => some (id, true)
    | _ => none

theorem step_chain {c c' : Cell} {e : CellEv} {o : CellOut} (h : c.step e = .ok (c', o)) : Verif.Phy.Chain c.umac o.calls c'.umac := by
  have ord : ∀ {ev : UmacEv}, c.order ev = .ok (c', o) → Verif.Phy.Chain c.umac o.calls c'.umac := by
    intro ev h
    obtain ⟨out, hs, _, rfl⟩ := Verif.Phy.order_inv h
    exact ⟨_, hs, rfl⟩
  cases e with
  | down w =>
    obtain ⟨s', out, ht, hs, hc⟩ := Verif.Phy.down_inv h
    obtain ⟨l, y, _, hy⟩ := Verif.Phy.tick_built ht
    rw [hy] at hs
    have : c'.umac = s' := by
      unfold Cell.send at hs
      rw [Out.bind_eq_ok] at hs; obtain ⟨l, _, hs⟩ := hs
      rw [Out.bind_eq_ok] at hs; obtain ⟨b, _, hs⟩ := hs
      rw [Out.bind_eq_ok] at hs; obtain ⟨q, hq, hs⟩ := hs
      simp only [Out.ok.injEq, Prod.mk.injEq] at hs
      rw [← hs.1]; cases hq; rfl
    rw [hc, this]
    exact ⟨_, ht, rfl⟩
  | up a =>
    simp only [Cell.step] at h
    rw [Out.bind_eq_ok] at h; obtain ⟨r, hr, h⟩ := h
    cases h
    exact (Verif.Phy.up_chain (c' := r.1) (cs := r.2) hr).1
  | request q => exact ord h
  | voice t b => exact ord h
  | control m => exact ord h

/-- The numbers a step brings into the queues of the scheduler. -/
theorem step_ids {c c' : Cell} {e : CellEv} {o : CellOut} (h : c.step e = .ok (c', o)) :
    ∃ cs, c'.umac.log = c.umac.log ++ cs ∧ ∀ ev ∈ cs.map Prod.fst, ∀ n, ev.id? = some n → ∃ q ∈ requestIn e, q.id = n := by
  have hc := step_chain h
  rw [← step_requests h]
  generalize o.calls = calls at hc
  generalize c.umac = s at hc ⊢
  generalize c'.umac = s' at hc ⊢
  induction calls generalizing s with
  | nil => cases hc; exact ⟨[], by simp, by simp⟩
  | cons p calls ih =>
    obtain ⟨u, out⟩ := p
    obtain ⟨s1, h1, h2⟩ := hc
    obtain ⟨cs, i1, i2⟩ := ih s1 h2
    obtain ⟨cs1, fs, v, hcause⟩ := Umac.step_via h1
    refine ⟨cs1 ++ cs, by rw [i1, v.log, List.append_assoc], ?_⟩
    have hsplit : requestsIn ((u, out) :: calls) = requestsIn [(u, out)] ++ requestsIn calls := requestsIn_append [(u, out)] calls
    intro ev hev n hn
    rw [List.map_append] at hev
    rw [hsplit]
    rcases List.mem_append.1 hev with hev | hev
    · by_cases hq : ∃ q, u = .request q
      · obtain ⟨q, rfl⟩ := hq
        simp only [UmacBs.step] at h1
        rw [Out.bind_eq_ok] at h1; obtain ⟨r, k1, h1⟩ := h1
        cases h1
        obtain ⟨cs', e', k2, k3, k4⟩ := request_log k1
        rw [v.log] at k2
        have := List.append_cancel_left k2
        subst this
        have : ev ∈ queued (cs1.map Prod.fst) := List.mem_filter.2 ⟨hev, by rw [hn]; rfl⟩
        rw [k3, List.mem_singleton] at this
        subst this
        rw [answers_id k4] at hn
        cases hn
        exact ⟨q, by simp [requestsIn], rfl⟩
      · have : ev ∈ queued (cs1.map Prod.fst) := List.mem_filter.2 ⟨hev, by rw [hn]; rfl⟩
        rw [caused_none hcause (fun q hh => hq ⟨q, hh⟩)] at this
        cases this
    · obtain ⟨q, q1, q2⟩ := i2 ev hev n hn
      exact ⟨q, List.mem_append_right _ q1, q2⟩

/-- The number a report is about. -/
def numberOf : Report → Nat
  | .transmitted n => n
  | .discarded n => n

theorem reported_append (a b : List (SchedEv × SchedRet)) : reported (a ++ b) = reported a ++ reported b := by
  simp [reported]

theorem reports_in {tr : List (SchedEv × SchedRet)} {r : Report} (h : r ∈ reported tr) : r ∈ reportsIn (numberOf r) tr := by
  induction tr with
  | nil => cases h
  | cons p tr ih =>
    rw [Umac.reported_cons] at h
    simp only [reportsIn, List.flatMap_cons]
    rcases List.mem_append.1 h with h | h
    · refine List.mem_append_left _ ?_
      unfold Umac.reportedRet at h
      unfold SchedRet.reports Umac.about
      cases hp : p.2 <;> rw [hp] at h <;> simp only at h ⊢ <;> first
        | (refine List.mem_filter.2 ⟨h, ?_⟩; cases r <;> simp [Report.about, numberOf])
        | cases h
    · exact List.mem_append_right _ (ih h)

/-- A report as the LLC sees it. -/
def pairOf (owner : Assoc Nat Nat) : Report → Option (Nat × Bool)
  | .transmitted n => (owner.get n).map fun id => (id, false)
  | .discarded n => (owner.get n).map fun id => (id, true)

theorem reportsTo_append (a b : List Sig.Ev) : reportsTo (a ++ b) = reportsTo a ++ reportsTo b := List.filterMap_append

theorem reportsTo_reports (owner : Assoc Nat Nat) (rs : List Report) : reportsTo (rs.filterMap (reportOf owner)) = rs.filterMap (pairOf owner) := by
  induction rs with
  | nil => rfl
  | cons r rs ih =>
    cases r with
    | transmitted n =>
      cases hn : owner.get n <;> simp only [reportsTo, List.filterMap_cons, reportOf, pairOf, hn, Option.map] at ih ⊢
      · exact ih
      · rw [ih]
    | discarded n =>
      cases hn : owner.get n <;> simp only [reportsTo, List.filterMap_cons, reportOf, pairOf, hn, Option.map] at ih ⊢
      · exact ih
      · rw [ih]

theorem reportsTo_outs (t : Nat) (l : List UmacOut) : reportsTo (l.filterMap (eventOf t)) = [] := by
  unfold reportsTo
  rw [List.filterMap_eq_nil_iff]
  intro e he
  obtain ⟨r, _, hr⟩ := List.mem_filterMap.1 he
  cases r <;> simp only [eventOf, Option.some.injEq, reduceCtorEq] at hr <;> subst hr <;> rfl

theorem log_avoids {c : Sig.Cfg} {h : Trace} {s : Station} (hx : x.valid) (hb : Both c ⟨.init brew carrier x scramb wide pre, .init code⟩ h s)
    (hf : ∀ e ∈ s.cell.umac.log.map Prod.fst, e.Fine) {n : Nat} (ha : ∀ e ∈ s.cell.umac.log.map Prod.fst, e.id? ≠ some n) {r : Report}
    (hr : r ∈ reported s.cell.umac.log) : numberOf r ≠ n := by
  rintro rfl
  have hrun := (Umac.run_log (c67_history hx hb.cell).1).1
  have := (Umac.srun_absent (Umac.sinv_init x scramb pre) hf ha hrun (fun i => by simp [Umac.Sched.init])).2.2.1
  have hm := reports_in hr
  rw [this] at hm
  cases hm

/-- What is known of the reports: the numbers in the queues were given out, and the LLC was told what was reported about its messages. -/
structure Told (c : Sig.Cfg) (c0 : Cell) (h : Trace) (s : Station) : Prop where
  both : Both c c0 h s
  ids : ∀ e ∈ s.cell.umac.log.map Prod.fst, ∀ n, e.id? = some n → n < s.next
  told : (∀ e ∈ s.cell.umac.log.map Prod.fst, e.Fine) → reportsTo h.evs = (reported s.cell.umac.log).filterMap (pairOf s.owner)

theorem Told.radio {c : Sig.Cfg} {c0 : Cell} {h t : Trace} {s s' : Station} {e : CellEv} (ht : Told c c0 h s)
    (he : ∀ q ∈ requestIn e, q.id < s.next) (hs : s.radio c e = .ok (s', t)) : Told c c0 (h.add t) s' := by
  have hb := ht.both.radio hs
  obtain ⟨cell, o, sig, k, h1, h2, rfl, rfl⟩ := radio_ok hs
  obtain ⟨cs, l1, l2⟩ := step_ids h1
  refine ⟨hb, ?_, ?_⟩
  · intro ev hev n hn
    simp only [l1, List.map_append] at hev
    rcases List.mem_append.1 hev with hev | hev
    · exact ht.ids ev hev n hn
    · obtain ⟨q, q1, rfl⟩ := l2 ev hev n hn
      exact he q q1
  · intro hf
    simp only [l1, List.map_append] at hf
    rw [Trace.add_evs, reportsTo_append, ht.told fun e he => hf e (List.mem_append_left _ he)]
    simp only [l1]
    rw [reported_append, List.filterMap_append]
    congr 1
    unfold eventsOf
    rw [reportsTo_append, reportsTo_outs, List.append_nil, l1, List.drop_left, reportsTo_reports]

theorem run_told (hx : x.valid) {c : Sig.Cfg} {ins : List In} {h : Trace} {s : Station}
    (hr : Run c ⟨.init brew carrier x scramb wide pre, .init code⟩ ins h s) : Told c ⟨.init brew carrier x scramb wide pre, .init code⟩ h s := by
  have nil : ∀ {m : List Mail} {h s}, Told c ⟨.init brew carrier x scramb wide pre, .init code⟩ h s →
      Told c ⟨.init brew carrier x scramb wide pre, .init code⟩ h { s with mac := m } := fun ht => ⟨⟨ht.both.sig, ht.both.cell⟩, ht.ids, ht.told⟩
  refine run_parts (P := Told c ⟨.init brew carrier x scramb wide pre, .init code⟩) (fun _ => True) ?_ ?_ ?_ ?_ ?_ ?_ ?_ ?_ ?_ hr (fun _ _ => trivial)
  · exact ⟨⟨.init, .init⟩, fun e he => by simp [Station.init, UmacBs.init] at he, fun _ => rfl⟩
  · intro h s cc' ht hre
    exact ⟨⟨.reorder ht.both.sig hre, ht.both.cell⟩, ht.ids, ht.told⟩
  · intro h s s' e t ht he hs
    refine ht.radio ?_ hs
    rcases he with ⟨_, rfl⟩ | ⟨_, rfl⟩ <;> simp [requestIn]
  · intro h s s' e t ht hs ho
    obtain ⟨sig, k, h1, rfl, rfl⟩ := signal_ok hs
    refine ⟨⟨ht.both.sig.step h1, by simpa using ht.both.cell⟩, ht.ids, fun hf => ?_⟩
    rw [Trace.add_evs, reportsTo_append, ht.told hf]
    have : reportsTo [e] = [] := by cases e <;> first | rfl | exact ho.elim
    rw [this, List.append_nil]
  · intro h s ts b ht; exact nil ht
  · intro h s now e q r s' t ht hq hreq hs
    refine Told.radio (s := { s with mac := q, next := s.next + 1, owner := s.owned e }) ?_ ?_ hs
    · refine ⟨⟨ht.both.sig, ht.both.cell⟩, fun e he n hn => ?_, fun hf => ?_⟩
      · exact Nat.lt_succ_of_lt (ht.ids e he n hn)
      · rw [ht.told hf]
        refine List.filterMap_congr fun r hr' => ?_
        have hne : numberOf r ≠ s.next := log_avoids hx ht.both hf (fun e he hn => Nat.lt_irrefl _ (ht.ids e he _ hn)) hr'
        cases e <;> simp only [Station.owned]
        cases r <;> simp only [pairOf, numberOf] at hne ⊢ <;> rw [Assoc.get_insert_ne (h := Ne.symm hne)]
    · intro q' hq'
      simp only [requestIn, List.mem_singleton] at hq'
      subst hq'
      rw [(requestOf_id hreq).1]
      exact Nat.lt_succ_self _
  · intro h s now e q ht _ _; exact nil ht
  · intro h s m q s' t ht _ hs
    exact Told.radio (s := { s with mac := q }) (nil ht) (by simp [requestIn]) hs
  · intro h s ts b q s' t ht _ hs
    exact Told.radio (s := { s with mac := q }) (nil ht) (by simp [requestIn]) hs

/-- The LLC is told (C94). What the LLC was told of its messages to be acknowledged, in order, is what the upper MAC reported of
them, in order: no report is lost, none is given twice, and none goes to another message. -/
theorem reports_of_sound (hx : x.valid) {c : Sig.Cfg} {ins : List In} {h : Trace} {s : Station}
    (hr : Run c ⟨.init brew carrier x scramb wide pre, .init code⟩ ins h s) (hs : Sound carrier h s) :
    reportsTo h.evs = (reported s.cell.umac.log).filterMap (reportFor (handed Time.default (Sig.llcTrace h.calls))) := by
  have hf := log_fine hx hr hs
  have ht := run_told hx hr
  rw [ht.told hf]
  obtain ⟨sent, hg⟩ := run_gone hr
  refine List.filterMap_congr fun r hr' => ?_
  have hlt : numberOf r < sent.length := by
    rw [← hg.next]
    apply Decidable.byContradiction
    intro hn
    exact log_avoids hx ht.both hf (n := numberOf r) (fun e he hid => hn (ht.ids e he _ hid)) hr' rfl
  have key : ∀ n < sent.length, ∀ d : Bool, (s.owner.get n).map (fun id => (id, d)) =
      (match (sent ++ waiting s.mac)[n]? with | some (_, .data id _ _ _) => some (id, d) | _ => none) := by
    intro n hn d
    have ho := hg.owner n
    rw [List.getElem?_append_left hn]
    cases hsn : sent[n]? with
    | none => rw [List.getElem?_eq_none_iff] at hsn; omega
    | some p =>
      obtain ⟨now, e⟩ := p
      rw [hsn] at ho
      cases hget : s.owner.get n with
      | some id =>
        obtain ⟨now', a, ts, p, he⟩ := (ho id).1 hget
        cases he; rfl
      | none =>
        cases e with
        | data id a ts p => rw [(ho id).2 ⟨now, a, ts, p, rfl⟩] at hget; cases hget
        | _ => rfl
  rw [hg.handed]
  cases r with
  | transmitted n => exact key n hlt false
  | discarded n => exact key n hlt true

/-! ## A mobile station -/

/-- An address as a mobile station reads it: one cannot see whether it is of a station or of a group. -/
def onAirAddr (a : Addr) : Addr := { a with ssiType := if a.ssiType = .issi ∨ a.ssiType = .gssi then .ssi else a.ssiType }

/-- What a mobile station on timeslot `t` is to make of the request `q`. -/
def Meant (carrier t : Nat) (q : TmaReq) (w : Wanted) : Prop :=
  q.x.t = t ∧ w.addr = onAirAddr q.addr ∧ w.sdu = q.sdu ∧ ∃ n fb, (headerOf carrier q n fb).headerLen = .ok w.hdr

theorem header_length {carrier : Nat} {q : TmaReq} {n : Nat} {fb : Bool} (h : (headerOf carrier q n fb).Sendable) :
    ∃ k, (headerOf carrier q n fb).headerLen = .ok k := by
  obtain ⟨⟨bs, hb, _⟩, h2⟩ := Umac.c37_mac_resource _ h
  exact ⟨bs.length, h2 bs hb⟩

/-- The message a mobile station on timeslot `t` is to receive under the number `n`, by what the scheduler was given. -/
def wantOf (t : Nat) (es : List SchedEv) (n : Nat) : Option Wanted :=
  match (queued es)[n]? with
  | some (.message t' _ _ pdu sdu) => if t' = t then match pdu.onAir.addr, pdu.headerLen with
    | some a, .ok k => some ⟨a, k, sdu⟩
    | _, _ => none
    else none
  | _ => none

/-- Over the air (C94). A mobile station listening on a timeslot of the cell, from the first slot on: there is, for each number of a
message of the LLC, what the station is to hear of it (the message and its address, as the LLC handed them down for this timeslot), and
the station passes up what is to be heard of the messages reported as transmitted, in the order of the reports, or has aborted.
The messages sent in stolen half slots are apart (C90). -/
theorem station_of_sound (hx : x.valid) {c : Sig.Cfg} {ins : List In} {h : Trace} {s : Station}
    (hr : Run c ⟨.init brew carrier x scramb wide pre, .init code⟩ ins h s) (hs : Sound carrier h s) (i : Fin 4) (sc : Nat)
    (hlen : ∀ n now e q, (handed Time.default (Sig.llcTrace h.calls))[n]? = some (now, e) → requestOf now n e = some q → q.sdu.length ≤ 4096)
    (hone : Umac.OneAtATime (Umac.Sched.init x scramb pre) i (s.cell.umac.log.map Prod.fst)) :
    ∃ want : Nat → Option Wanted,
      (∀ n w, want n = some w → ∃ now e q, (handed Time.default (Sig.llcTrace h.calls))[n]? = some (now, e) ∧ requestOf now n e = some q ∧
        Meant carrier (i.val + 1) q w) ∧
      (∀ n now e q, n < s.next → (handed Time.default (Sig.llcTrace h.calls))[n]? = some (now, e) → requestOf now n e = some q →
        q.steal = false → q.x.t = i.val + 1 → ∃ w, want n = some w ∧ Meant carrier (i.val + 1) q w) ∧
      (UmacMs.init.run (Umac.listenOn (i.val + 1) sc s.cell.umac.log) = .panic ∨
      ∃ m outs, UmacMs.init.run (Umac.listenOn (i.val + 1) sc s.cell.umac.log) = .ok (m, outs) ∧
        Umac.Heard sc (Umac.told want (reported s.cell.umac.log)) outs) := by
  obtain ⟨sent, hg⟩ := run_gone hr
  obtain ⟨h1, h2⟩ := nth_queued hx hr hg
  have hfine := log_fine hx hr hs
  have hrun := (Umac.run_log (c67_history hx (run_both hr).cell).1).1
  have hh : ∀ (n : Nat) (p : Time × Llc.Emit), sent[n]? = some p → (handed Time.default (Sig.llcTrace h.calls))[n]? = some p := by
    intro n p hp
    rw [hg.handed, List.getElem?_append_left (List.getElem?_eq_some_iff.1 hp).1, hp]
  -- the n-th call, if it is a message
  have nth : ∀ (n t' id : Nat) (rep : Bool) (pdu : MacResource) (sdu : List Bool), (queued (s.cell.umac.log.map Prod.fst))[n]? = some (.message t' id rep pdu sdu) →
      ∃ now e q k fb, sent[n]? = some (now, e) ∧ requestOf now n e = some q ∧ t' = q.x.t ∧ id = n ∧ rep = true ∧ sdu = q.sdu ∧
        pdu = headerOf carrier q k fb := by
    intro n t' id rep pdu sdu hn
    have hlt : n < sent.length := by rw [← h1]; exact (List.getElem?_eq_some_iff.1 hn).1
    obtain ⟨q, ev, q1, q2, q3⟩ := h2 n sent[n].1 sent[n].2 (by rw [List.getElem?_eq_getElem hlt])
    rw [hn] at q2; cases q2
    obtain ⟨qid, qrep⟩ := requestOf_id q1
    rcases q3 with ⟨k, fb, q3⟩ | ⟨_, _, _, _, _, q3⟩
    · cases q3
      exact ⟨_, _, q, k, fb, by rw [List.getElem?_eq_getElem hlt], q1, rfl, qid, qrep, rfl, rfl⟩
    · cases q3
  have hdr : ∀ {n : Nat} {t' id rep pdu sdu}, (queued (s.cell.umac.log.map Prod.fst))[n]? = some (.message t' id rep pdu sdu) → pdu.Sendable := by
    intro n t' id rep pdu sdu hn
    exact hfine _ (List.mem_filter.1 (List.mem_of_getElem? hn)).1
  -- the calls of one number
  have at_id : ∀ ev ∈ s.cell.umac.log.map Prod.fst, ∀ n, ev.id? = some n → (queued (s.cell.umac.log.map Prod.fst))[n]? = some ev := by
    intro ev hev n hn
    have hm : ev ∈ queued (s.cell.umac.log.map Prod.fst) := List.mem_filter.2 ⟨hev, by rw [hn]; rfl⟩
    obtain ⟨j, hj⟩ := List.getElem?_of_mem hm
    have hlt : j < sent.length := by rw [← h1]; exact (List.getElem?_eq_some_iff.1 hj).1
    obtain ⟨q, ev', q1, q2, q3⟩ := h2 j sent[j].1 sent[j].2 (by rw [List.getElem?_eq_getElem hlt])
    rw [hj] at q2; cases q2
    rw [answers_id q3, (requestOf_id q1).1] at hn
    cases hn; exact hj
  refine ⟨wantOf (i.val + 1) (s.cell.umac.log.map Prod.fst), ?_, ?_, ?_⟩
  · intro n w hw
    unfold wantOf at hw
    split at hw
    · rename_i t' id rep pdu sdu hn
      split at hw
      · rename_i ht
        split at hw
        · rename_i a k ha hk
          cases hw
          obtain ⟨now, e, q, kk, fb, e1, e2, e3, e4, e5, e6, e7⟩ := nth n t' id rep pdu sdu hn
          refine ⟨now, e, q, hh n _ e1, e2, by rw [← e3, ht], ?_, e6, kk, fb, by rw [← e7]; exact hk⟩
          subst e7
          simp only [MacResource.onAir, headerOf, Option.map_some, Option.some.injEq] at ha
          exact ha.symm
        · cases hw
      · cases hw
    · cases hw
  · intro n now e q hn he hq hst ht
    have hlt : n < sent.length := by rw [← hg.next]; exact hn
    rw [hg.handed, List.getElem?_append_left hlt] at he
    obtain ⟨q', ev, q1, q2, q3⟩ := h2 n now e he
    rw [hq] at q1; cases q1
    rcases q3 with ⟨k, fb, rfl⟩ | ⟨hst', _⟩
    · obtain ⟨kk, hkk⟩ := header_length (hdr q2)
      refine ⟨⟨onAirAddr q.addr, kk, q.sdu⟩, ?_, ht, rfl, rfl, k, fb, hkk⟩
      unfold wantOf
      rw [q2]
      simp only [ht, if_true]
      rw [hkk]
      rfl
    · rw [hst] at hst'; cases hst'
  · refine Umac.c81_mixed_partial x scramb sc pre _ i _ hfine ?_ hone _ _ hrun
    intro ev hev
    cases ev with
    | message t' id rep pdu sdu =>
      have hn := at_id _ hev id rfl
      obtain ⟨now, e, q, k, fb, e1, e2, e3, e4, e5, e6, e7⟩ := nth _ _ _ _ _ _ hn
      obtain ⟨kk, hkk⟩ := header_length (carrier := carrier) (q := q) (n := k) (fb := fb) (by rw [← e7]; exact hdr hn)
      simp only [Umac.SchedEv.Fits]
      split
      · rename_i ht
        refine ⟨e5, by rw [e7]; rfl, by rw [e6]; exact hlen id now e q (hh id _ e1) e2, onAirAddr q.addr, kk, by rw [e7]; rfl, by rw [e7]; exact hkk, ?_⟩
        unfold wantOf
        rw [hn]
        simp only [ht, if_true, e7, hkk]
        rfl
      · rename_i ht
        unfold wantOf
        rw [hn]
        simp only [ht, if_false]
    | steal t' id rep b =>
      have hn := at_id _ hev id rfl
      simp only [Umac.SchedEv.Fits]
      unfold wantOf
      rw [hn]
    | _ => trivial

end Verif.Station
