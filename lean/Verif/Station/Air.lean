import Verif.Station.Props
import Verif.Umac.SchedProps
import Verif.Umac.UmacMsProps
import Verif.Phy.Loop
/-!
# The whole base station: what the scheduler is given

Every request of the LLC becomes one call on the downlink scheduler, under a number of its own.
-/
namespace Verif.Station
open Verif.Tdma Verif.Codec
open Verif.Phy (Air Cell CellEv CellOut CellRun callsOf callsOf_append c67_history)
open Verif.Umac (TmaReq ChanReq MacCtl UmacOut UmacEv Report Block Addr UmacRun UmacBs Precomps SchedEv SchedRet MacResource)

/-! ## The calls of a request -/

/-- The header of a request, up to the length indication and the fill bit indication (umac_bs.rs:1168-1211). -/
def headerOf (carrier : Nat) (q : TmaReq) (n : Nat) (fb : Bool) : MacResource :=
  ⟨fb, 0, 0, decide (q.addr.ssiType ≠ .gssi), n, some q.addr, none, q.chan.bind (·.usage), none, none, q.chan.map (·.toMac carrier)⟩

/-- The call on the scheduler a request leads to: a message for the timeslot of the request, or a stolen half slot. -/
def Answers (carrier : Nat) (q : TmaReq) (e : SchedEv) : Prop :=
  (∃ n fb, e = .message q.x.t q.id q.reported (headerOf carrier q n fb) q.sdu) ∨
  (q.steal = true ∧ ∃ ts ra b, Umac.stolenBlock ra q.addr (q.chan.bind (·.usage)) q.sdu = .ok b ∧ e = .steal ts q.id q.reported b)

/-- The calls which bring something for the air. -/
def queued (es : List SchedEv) : List SchedEv := es.filter (·.id?.isSome)

theorem queued_append (a b : List SchedEv) : queued (a ++ b) = queued a ++ queued b := List.filter_append ..

theorem request_log {s s' : UmacBs} {q : TmaReq} (h : s.request q = .ok s') :
    ∃ cs e, s'.log = s.log ++ cs ∧ queued (cs.map Prod.fst) = [e] ∧ Answers s.carrier q e := by
  unfold UmacBs.request at h
  split at h
  · rename_i ts hts
    rw [Out.bind_eq_ok] at h; obtain ⟨r, h1, h⟩ := h
    rw [Out.bind_eq_ok] at h; obtain ⟨b, h2, h⟩ := h
    rw [Out.bind_eq_ok] at h; obtain ⟨r2, h3, h⟩ := h
    cases h
    unfold UmacBs.call at h1 h3
    rw [Out.bind_eq_ok] at h1; obtain ⟨k1, _, h1⟩ := h1
    rw [Out.bind_eq_ok] at h3; obtain ⟨k3, _, h3⟩ := h3
    cases h1; cases h3
    have hst : q.steal = true := by
      by_cases hs : q.steal = true
      · exact hs
      · rw [if_neg hs] at hts; cases hts
    refine ⟨[(.takeRa ts q.addr.ssi, k1.2), (.steal ts q.id q.reported b, k3.2)], _, by simp, rfl, .inr ⟨hst, ts, _, b, h2, rfl⟩⟩
  · unfold UmacBs.signal at h
    rw [Out.bind_eq_ok] at h; obtain ⟨p, hp, h⟩ := h
    rw [Out.bind_eq_ok] at h; obtain ⟨r, h1, h⟩ := h
    cases h
    unfold UmacBs.call at h1
    rw [Out.bind_eq_ok] at h1; obtain ⟨k, _, h1⟩ := h1
    cases h1
    unfold MacResource.updateLen at hp
    rw [Out.bind_eq_ok] at hp; obtain ⟨hl, _, hp⟩ := hp
    cases hp
    exact ⟨_, _, rfl, rfl, .inl ⟨_, _, rfl⟩⟩

/-- The requests in a history of the upper MAC. -/
def requestsIn (h : Verif.Phy.Calls) : List TmaReq := h.filterMap fun p => match p.1 with
  | .request q => some q
  | _ => none

theorem requestsIn_append (a b : Verif.Phy.Calls) : requestsIn (a ++ b) = requestsIn a ++ requestsIn b := List.filterMap_append

theorem caused_none {s : UmacBs} {e : UmacEv} {es : List SchedEv} (h : Umac.Caused s e es) (hq : ∀ q, e ≠ .request q) : queued es = [] := by
  unfold queued
  rw [List.filter_eq_nil_iff]
  intro ev hev
  cases e with
  | tick w =>
    simp only [Umac.Caused] at h
    rw [h] at hev
    split at hev <;> simp at hev <;> (try rcases hev with rfl | rfl) <;> (try subst hev) <;> simp [SchedEv.id?]
  | block c b =>
    have := h ev hev
    cases ev <;> simp [Umac.RxCall] at this <;> simp [SchedEv.id?]
  | request q => exact absurd rfl (hq q)
  | voiceDown ts b => rcases h with rfl | rfl <;> simp at hev; subst hev; simp [SchedEv.id?]
  | voiceUp ts d => rcases h with rfl | ⟨b, _, rfl⟩ <;> simp at hev; subst hev; simp [SchedEv.id?]
  | control m =>
    cases m with
    | «open» c =>
      obtain ⟨k, rfl⟩ := h
      simp only [List.mem_flatMap, List.mem_append] at hev
      obtain ⟨d, _, hev | hev⟩ := hev
      · split at hev <;> simp at hev; subst hev; simp [SchedEv.id?]
      · simp at hev; subst hev; simp [SchedEv.id?]
    | close d ts =>
      simp only [Umac.Caused] at h
      rw [h] at hev
      simp only [List.mem_map] at hev
      obtain ⟨d, _, rfl⟩ := hev; simp [SchedEv.id?]
    | released ts => simp only [Umac.Caused] at h; rw [h] at hev; simp at hev; subst hev; simp [SchedEv.id?]
    | granted ts => simp only [Umac.Caused] at h; rw [h] at hev; simp at hev; subst hev; simp [SchedEv.id?]
    | ended ts => simp only [Umac.Caused] at h; rw [h] at hev; simp at hev; subst hev; simp [SchedEv.id?]

/-- In a history of the upper MAC, what comes into the queues of the scheduler is what was asked for, in the same order. -/
theorem umac_queued {brew : Bool} {carrier : Nat} {x : Time} {scramb : Nat} {wide : Bool} {pre : Precomps} {h : Verif.Phy.Calls} {s : UmacBs}
    (hr : UmacRun (.init brew carrier x scramb wide pre) h s) : List.Forall₂ (Answers carrier) (requestsIn h) (queued (s.log.map Prod.fst)) := by
  generalize hs0 : UmacBs.init brew carrier x scramb wide pre = s0 at hr
  induction hr with
  | init => subst hs0; exact .nil
  | @step h s s' e out hr hst ih =>
    have hc : s.carrier = carrier := by subst hs0; exact (Umac.run_log hr).2.2.2
    obtain ⟨cs, fs, v, hcause⟩ := Umac.step_via hst
    rw [v.log, List.map_append, queued_append, requestsIn_append]
    refine List.rel_append ih ?_
    by_cases hq : ∃ q, e = .request q
    · obtain ⟨q, rfl⟩ := hq
      simp only [UmacBs.step] at hst
      rw [Out.bind_eq_ok] at hst; obtain ⟨r, h1, hst⟩ := hst
      cases hst
      obtain ⟨cs', e', k1, k2, k3⟩ := request_log h1
      rw [v.log] at k1
      have := List.append_cancel_left k1
      subst this
      rw [k2, ← hc]
      exact .cons k3 .nil
    · rw [caused_none hcause (fun q hh => hq ⟨q, hh⟩)]
      have : requestsIn [(e, out)] = [] := by cases e <;> first | rfl | exact absurd ⟨_, rfl⟩ hq
      rw [this]; exact .nil

/-! ## Numbers -/

theorem step_requests {c c' : Cell} {e : CellEv} {o : CellOut} (h : c.step e = .ok (c', o)) : requestsIn o.calls = requestIn e := by
  have horder : ∀ {u : UmacEv}, c.order u = .ok (c', o) → ∃ out, o.calls = [(u, out)] := by
    intro u h
    unfold Cell.order at h
    rw [Out.bind_eq_ok] at h; obtain ⟨r, _, h⟩ := h
    cases h; exact ⟨r.2, rfl⟩
  cases e with
  | down w =>
    simp only [Cell.step] at h
    rw [Out.bind_eq_ok] at h; obtain ⟨r, h1, h⟩ := h
    cases h
    unfold Cell.down at h1
    rw [Out.bind_eq_ok] at h1; obtain ⟨q, _, h1⟩ := h1
    rw [Out.bind_eq_ok] at h1; obtain ⟨q', _, h1⟩ := h1
    cases h1; rfl
  | up a =>
    simp only [Cell.step] at h
    rw [Out.bind_eq_ok] at h; obtain ⟨r, h1, h⟩ := h
    cases h
    obtain ⟨x, bs, c1, cs1, vs, cs2, _, _, h3, h4, e⟩ := Phy.up_inv (c' := r.1) (cs := r.2) h1
    rw [e]
    show requestsIn _ = []
    unfold requestsIn
    rw [List.filterMap_eq_nil_iff]
    intro p hp
    rcases List.mem_append.1 hp with hp | hp
    · obtain ⟨k, d, e, _⟩ := (Phy.hearAll_chain h3).2.1 p hp
      rw [e]
    · have : p.1 ∈ cs2.map Prod.fst := List.mem_map_of_mem hp
      rw [(Phy.voices_chain h4).2.1] at this
      obtain ⟨v, _, e⟩ := List.mem_map.1 this
      rw [← e]
  | request q => obtain ⟨out, e⟩ := horder h; rw [e]; rfl
  | voice ts b => obtain ⟨out, e⟩ := horder h; rw [e]; rfl
  | control m => obtain ⟨out, e⟩ := horder h; rw [e]; rfl

theorem cell_asked {c0 c : Cell} {h : List (CellEv × CellOut)} (hr : CellRun c0 h c) : requestsIn (callsOf h) = asked h := by
  induction hr with
  | init => rfl
  | @step h c c' e o _ hst ih =>
    rw [callsOf_append, requestsIn_append, asked_append, ih]
    congr 1
    have := step_requests hst
    simp only [callsOf, List.flatMap_cons, List.flatMap_nil, List.append_nil]
    rw [this]
    cases e <;> rfl

theorem requestOf_id {now : Time} {n : Nat} {e : Llc.Emit} {q : TmaReq} (h : requestOf now n e = some q) : q.id = n ∧ q.reported = true := by
  cases e <;> simp only [requestOf, Option.some.injEq, reduceCtorEq] at h <;> subst h <;> exact ⟨rfl, rfl⟩

theorem answers_id {carrier : Nat} {q : TmaReq} {e : SchedEv} (h : Answers carrier q e) : e.id? = some q.id := by
  rcases h with ⟨n, fb, rfl⟩ | ⟨_, ts, ra, b, _, rfl⟩ <;> rfl

variable {brew : Bool} {carrier scramb : Nat} {x : Time} {wide : Bool} {pre : Precomps} {code : BitVec 32}

/-- The `n`-th request of the LLC, when it has been delivered, is the `n`-th call which brings the scheduler something. -/
theorem nth_queued (hx : x.valid) {c : Sig.Cfg} {ins : List In} {h : Trace} {s : Station} {sent : List (Time × Llc.Emit)}
    (hr : Run c ⟨.init brew carrier x scramb wide pre, .init code⟩ ins h s) (hg : Gone h s sent) :
    (queued (s.cell.umac.log.map Prod.fst)).length = sent.length ∧
    ∀ n now e, sent[n]? = some (now, e) → ∃ q ev, requestOf now n e = some q ∧ (queued (s.cell.umac.log.map Prod.fst))[n]? = some ev ∧
      Answers carrier q ev := by
  have hu := umac_queued (c67_history hx (run_both hr).cell).1
  have hc : (h.radio.flatMap (·.2.calls)) = callsOf h.radio := rfl
  rw [hc, cell_asked (run_both hr).cell, hg.asked] at hu
  have hdown : ∀ p ∈ sent, goesDown p.2 = true := fun p hp =>
    handed_down (by rw [hg.handed]; exact List.mem_append_left _ hp)
  have hall : ∀ (l : List ((Time × Llc.Emit) × Nat)), (∀ p ∈ l, goesDown p.1.2 = true) →
      (l.filterMap fun p => requestOf p.1.1 p.2 p.1.2).length = l.length ∧
      ∀ (n : Nat) (p : (Time × Llc.Emit) × Nat), l[n]? = some p → ∃ q, requestOf p.1.1 p.2 p.1.2 = some q ∧ (l.filterMap fun p => requestOf p.1.1 p.2 p.1.2)[n]? = some q := by
    intro l
    induction l with
    | nil => simp
    | cons p l ih =>
      intro hl
      obtain ⟨i1, i2⟩ := ih fun q hq => hl q (by simp [hq])
      obtain ⟨q, hq⟩ := requestOf_some (now := p.1.1) (n := p.2) (hl p (by simp))
      simp only [List.filterMap_cons, hq]
      refine ⟨by simp [i1], fun n p' hp' => ?_⟩
      cases n with
      | zero => simp at hp'; subst hp'; exact ⟨q, hq, rfl⟩
      | succ n => simpa using i2 n p' hp'
  obtain ⟨a1, a2⟩ := hall sent.zipIdx (by
    intro p hp
    exact hdown p.1 (List.fst_mem_of_mem_zipIdx hp))
  have hlen := hu.length_eq
  rw [a1, List.length_zipIdx] at hlen
  refine ⟨hlen.symm, fun n now e hn => ?_⟩
  obtain ⟨q, q1, q2⟩ := a2 n ((now, e), n) (by rw [List.getElem?_zipIdx, hn]; simp)
  have hlt : n < (queued (s.cell.umac.log.map Prod.fst)).length := by
    rw [← hlen]; exact (List.getElem?_eq_some_iff.1 hn).1
  refine ⟨q, _, q1, List.getElem?_eq_getElem hlt, ?_⟩
  obtain ⟨hq1, hq2⟩ := List.getElem?_eq_some_iff.1 q2
  have := (List.forall₂_iff_get.1 hu).2 n hq1 hlt
  rw [List.get_eq_getElem, List.get_eq_getElem, hq2] at this
  exact this

/-- The numbers in the calls on the scheduler: from zero upwards. -/
theorem queued_ids (hx : x.valid) {c : Sig.Cfg} {ins : List In} {h : Trace} {s : Station}
    (hr : Run c ⟨.init brew carrier x scramb wide pre, .init code⟩ ins h s) :
    (s.cell.umac.log.map Prod.fst).filterMap SchedEv.id? = List.range s.next := by
  obtain ⟨sent, hg⟩ := run_gone hr
  obtain ⟨h1, h2⟩ := nth_queued hx hr hg
  have e : (s.cell.umac.log.map Prod.fst).filterMap SchedEv.id? = (queued (s.cell.umac.log.map Prod.fst)).filterMap SchedEv.id? := by
    generalize s.cell.umac.log.map Prod.fst = l
    induction l with
    | nil => rfl
    | cons a l ih =>
      cases ha : a.id? with
      | none => simp only [queued, List.filterMap_cons, List.filter_cons, ha]; simpa [queued] using ih
      | some n => simp only [queued, List.filterMap_cons, List.filter_cons, ha]; simpa [queued, ha] using ih
  rw [e]
  have e2 : (queued (s.cell.umac.log.map Prod.fst)).filterMap SchedEv.id? = (List.range s.next).filterMap some := by
    rw [hg.next, ← h1]
    have hall : ∀ (n : Nat) (ev : SchedEv), (queued (s.cell.umac.log.map Prod.fst))[n]? = some ev → ev.id? = some n := by
      intro n ev hev
      have hlt : n < sent.length := by rw [← h1]; exact (List.getElem?_eq_some_iff.1 hev).1
      obtain ⟨q, ev', q1, q2, q3⟩ := h2 n sent[n].1 sent[n].2 (by rw [List.getElem?_eq_getElem hlt])
      rw [hev] at q2; cases q2
      rw [answers_id q3, (requestOf_id q1).1]
    have : ∀ (l : List SchedEv) k, (∀ (n : Nat) (ev : SchedEv), l[n]? = some ev → ev.id? = some (k + n)) → l.filterMap SchedEv.id? = List.range' k l.length := by
      intro l
      induction l with
      | nil => intro k _; rfl
      | cons a l ih =>
        intro k hk
        have h0 := hk 0 a rfl
        simp only [List.filterMap_cons, h0, List.length_cons, List.range'_succ, Nat.add_zero]
        rw [ih (k + 1) (fun n ev hn => by have := hk (n + 1) ev (by simpa using hn); rw [this]; congr 1; omega)]
    rw [this _ 0 (fun n ev hn => by rw [hall n ev hn, Nat.zero_add]), List.filterMap_some, List.range_eq_range']
  rw [e2, List.filterMap_some]

theorem split_unique {α : Type} {f : α → Option Nat} {l : List α} (hnd : (l.filterMap f).Nodup) {e : α} (he : e ∈ l) {n : Nat} (hf : f e = some n) :
    ∃ l1 l2, l = l1 ++ e :: l2 ∧ (∀ a ∈ l1, f a ≠ some n) ∧ ∀ a ∈ l2, f a ≠ some n := by
  obtain ⟨l1, l2, rfl⟩ := List.append_of_mem he
  refine ⟨l1, l2, rfl, ?_, ?_⟩
  · intro a ha hfa
    rw [List.filterMap_append, List.nodup_append] at hnd
    exact hnd.2.2 n (List.mem_filterMap.2 ⟨a, ha, hfa⟩) n (List.mem_filterMap.2 ⟨e, by simp, hf⟩) rfl
  · intro a ha hfa
    rw [List.filterMap_append, List.nodup_append, List.filterMap_cons, hf] at hnd
    exact (List.nodup_cons.1 hnd.2.1).1 (List.mem_filterMap.2 ⟨a, ha, hfa⟩)

end Verif.Station
