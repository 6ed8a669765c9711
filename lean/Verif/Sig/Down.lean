import Verif.Sig.Parts
import Verif.Llc.UdataProps
/-!
# What mobility management and call control send is what goes down

Property C72: every message mobility management or call control sends becomes one message of the LLC, to the same address, in the mode
asked for, for the timeslot it was sent for, with the channel allocation it has, in the order they were sent, and nothing else does but
the broadcasts of the time.
-/
namespace Verif.Sig
open Verif.Tdma Verif.Bits
open Verif.Umac (Addr SsiType)
open Verif.Cmce (BsEv BsOut Bs BsRun CcOut Party Service SdsView SubUpdate Control)
open Verif.Mm (Mm MmIn MmOut MmRun)
open Verif.Mle (Mle)
open Verif.Llc (Llc)

/-! ## Specification -/

/-- How a message is to be sent: to be acknowledged, on the link of the timeslot given; or not to be acknowledged, in the timeslot given,
with a channel allocation (usage marker and timeslot) or without, in a stolen half slot if possible or not. -/
inductive Mode where
  | acknowledged (ts : Nat)
  | unacknowledged (ts : Nat) (chan : Option (Option Nat × Nat)) (steal : Bool)
  deriving DecidableEq, Repr

/-- A message for the LLC: its mode; the address; the bits, the first three of which are the protocol (EN 300 392-2 clause 18.5.21). -/
structure Order where
  mode : Mode
  addr : Addr
  sdu : List Bool
  deriving DecidableEq, Repr

/-- The timeslot of a message to be acknowledged. -/
def Order.acknowledged (o : Order) : Option Nat := match o.mode with
  | .acknowledged ts => some ts
  | .unacknowledged .. => none

/-- An unacknowledged message as the MAC is to be asked for it: LLC type 2, no FCS. -/
def Order.plain (o : Order) : Option (Llc.Via × List Bool) := match o.mode with
  | .acknowledged _ => none
  | .unacknowledged ts chan steal => some (⟨o.addr, ts, chan, steal⟩, [false, false, true, false] ++ o.sdu)

/-- What mobility management sent: all answers are to be acknowledged. -/
def mmSent (addr : Addr) (ts : Nat) (sdu : List Bool) (out : List MmOut) : List Order := out.filterMap fun o => match o with
  | .answer _ _ bs => some ⟨.acknowledged ts, answerTo addr sdu, toBits 3 1 ++ bs⟩
  | _ => none

/-- What call control sent; `stamp` gives the timeslot of a message. -/
def cmceSent (stamp : BsOut → Nat) (out : List BsOut) : List Order := out.filterMap fun o => match o with
  | .air p service chan steal bs =>
    some ⟨if service = .unacknowledged then .unacknowledged (stamp o) chan steal else .acknowledged (stamp o), addrOf p, toBits 3 2 ++ bs⟩
  | _ => none

/-- What the two sent in a history. -/
def wanted (tr : List Call) : List Order := tr.flatMap fun k => match k with
  | .mm _ addr ts sdu out => mmSent addr ts sdu out
  | .cmce p e out => cmceSent (stampOf p e) out
  | _ => []

/-- The broadcasts of MLE. -/
def announced (tr : List Call) : List Order := tr.flatMap fun k => match k with
  | .time out => out.filterMap fun o => match o with
    | .tlUnitdata addr ts chan steal sdu => some ⟨.unacknowledged ts chan steal, addr, sdu⟩
    | _ => none
  | _ => []

/-- What the LLC was asked to send. -/
def ordered (tr : List Call) : List Order := tr.filterMap fun k => match k with
  | .llc (.dataReq addr ts _ _ _ sdu) _ => some ⟨.acknowledged ts, addr, sdu⟩
  | .llc (.unitdataReq v sdu) _ => some ⟨.unacknowledged v.ts v.chan v.steal, v.addr, sdu⟩
  | _ => none

/-- Is it a message of MLE itself? -/
def Order.ofMle (o : Order) : Bool := decide (o.sdu.take 3 = toBits 3 5)

/-! ## The queue -/

/-- A message on its way to the LLC, one delivery away or two. -/
def atLlc : Letter → Option Order
  | .tlData addr ts _ sdu => some ⟨.acknowledged ts, addr, sdu⟩
  | .tlUnitdata v sdu => some ⟨.unacknowledged v.ts v.chan v.steal, v.addr, sdu⟩
  | _ => none

def atMleDown : Letter → Option Order
  | .mle (.lmm addr ts _ sdu) => some ⟨.acknowledged ts, addr, toBits 3 1 ++ sdu⟩
  | .mle (.lcmc addr ts service chan steal sdu) =>
    some ⟨if service = .unacknowledged then .unacknowledged ts chan steal else .acknowledged ts, addr, toBits 3 2 ++ sdu⟩
  | _ => none

/-- Letters which are not on their way down. -/
def Upward (l : Letter) : Prop := atLlc l = none ∧ atMleDown l = none

/-- The invariant. -/
structure DownInv (tr : List Call) (q : List Letter) : Prop where
  up : wanted tr = (ordered tr).filter (fun o => !o.ofMle) ++ (q.filterMap atLlc).filter (fun o => !o.ofMle) ++ q.filterMap atMleDown
  time : announced tr = (ordered tr).filter Order.ofMle ++ (q.filterMap atLlc).filter Order.ofMle

theorem wanted_append (a b : List Call) : wanted (a ++ b) = wanted a ++ wanted b := by simp [wanted]
theorem announced_append (a b : List Call) : announced (a ++ b) = announced a ++ announced b := by simp [announced]
theorem ordered_append (a b : List Call) : ordered (a ++ b) = ordered a ++ ordered b := by simp [ordered]

theorem up_nil {ls : List Letter} (h : ∀ l ∈ ls, Upward l) : ls.filterMap atLlc = [] ∧ ls.filterMap atMleDown = [] :=
  ⟨List.filterMap_eq_nil_iff.2 fun l hl => (h l hl).1, List.filterMap_eq_nil_iff.2 fun l hl => (h l hl).2⟩

/-- Silent calls, which push nothing down. -/
theorem DownInv.silent {tr k : List Call} {q ls : List Letter} (h : DownInv tr q) (hw : wanted k = []) (ha : announced k = [])
    (ho : ordered k = []) (hl : ∀ l ∈ ls, Upward l) : DownInv (tr ++ k) (q ++ ls) := by
  obtain ⟨h1, h2⟩ := up_nil hl
  refine ⟨?_, ?_⟩
  · rw [wanted_append, ordered_append, hw, ho, List.filterMap_append, List.filterMap_append, h1, h2]
    simpa using h.up
  · rw [announced_append, ordered_append, ha, ho, List.filterMap_append, h1]
    simpa using h.time

theorem DownInv.pop {tr : List Call} {l : Letter} {q : List Letter} (h : DownInv tr (l :: q)) (hl : Upward l) : DownInv tr q := by
  have h1 := h.up
  have h2 := h.time
  simp only [List.filterMap_cons, hl.1, hl.2] at h1 h2
  exact ⟨h1, h2⟩

/-- What is sent to MLE. -/
theorem DownInv.send {tr k : List Call} {q ls : List Letter} (h : DownInv tr q) (hw : wanted k = ls.filterMap atMleDown) (ha : announced k = [])
    (ho : ordered k = []) (hl : ls.filterMap atLlc = []) : DownInv (tr ++ k) (q ++ ls) := by
  refine ⟨?_, ?_⟩
  · rw [wanted_append, ordered_append, hw, ho, List.filterMap_append, List.filterMap_append, hl, h.up]
    simp
  · rw [announced_append, ordered_append, ha, ho, List.filterMap_append, hl]
    simpa using h.time

/-- The LLC is asked. -/
theorem DownInv.order {tr k : List Call} {l : Letter} {q : List Letter} {o : Order} (h : DownInv tr (l :: q)) (hl : atLlc l = some o) (hm : atMleDown l = none)
    (hw : wanted k = []) (ha : announced k = []) (ho : ordered k = [o]) : DownInv (tr ++ k) q := by
  have h1 := h.up
  have h2 := h.time
  simp only [List.filterMap_cons, hl, hm, List.filter_cons] at h1 h2
  refine ⟨?_, ?_⟩
  · rw [wanted_append, ordered_append, hw, ho, h1]
    cases ht : o.ofMle <;> simp [ht]
  · rw [announced_append, ordered_append, ha, ho, h2]
    cases ht : o.ofMle <;> simp [ht]

/-- MLE passes a message on. -/
theorem DownInv.pass {tr k : List Call} {l x : Letter} {q : List Letter} {o : Order} (h : DownInv tr (l :: q)) (hl : atLlc l = none) (hm : atMleDown l = some o)
    (hx : atLlc x = some o) (hxm : atMleDown x = none) (ht : o.ofMle = false)
    (hw : wanted k = []) (ha : announced k = []) (ho : ordered k = []) : DownInv (tr ++ k) (q ++ [x]) := by
  have h1 := h.up
  have h2 := h.time
  simp only [List.filterMap_cons, hl, hm] at h1 h2
  refine ⟨?_, ?_⟩
  · rw [wanted_append, ordered_append, hw, ho, h1]
    simp [List.filterMap_append, List.filterMap_cons, hx, hxm, ht]
  · rw [announced_append, ordered_append, ha, ho, h2]
    simp [List.filterMap_append, List.filterMap_cons, hx, ht]

/-- MLE broadcasts. -/
theorem DownInv.broadcast {tr k : List Call} {q ls : List Letter} (h : DownInv tr q) (hw : wanted k = []) (ha : announced k = ls.filterMap atLlc)
    (ho : ordered k = []) (hm : ls.filterMap atMleDown = []) (ht : ∀ o ∈ ls.filterMap atLlc, o.ofMle = true) : DownInv (tr ++ k) (q ++ ls) := by
  have e1 : (ls.filterMap atLlc).filter (fun o => !o.ofMle) = [] := by
    rw [List.filter_eq_nil_iff]; intro o ho; simp [ht o ho]
  have e2 : (ls.filterMap atLlc).filter Order.ofMle = ls.filterMap atLlc := List.filter_eq_self.2 ht
  refine ⟨?_, ?_⟩
  · rw [wanted_append, ordered_append, hw, ho, List.filterMap_append, List.filterMap_append, hm, List.filter_append, List.filter_append, e1]
    simpa using h.up
  · rw [announced_append, ordered_append, ha, ho, List.filterMap_append, List.filter_append, List.filter_append, e2, h.time]
    simp

theorem ofMm_down (addr : Addr) (ts : Nat) (sdu : List Bool) (out : List MmOut) :
    mmSent addr ts sdu out = (out.filterMap (ofMm addr ts sdu)).filterMap atMleDown ∧ (out.filterMap (ofMm addr ts sdu)).filterMap atLlc = [] := by
  induction out with
  | nil => exact ⟨rfl, rfl⟩
  | cons o out ih =>
    obtain ⟨h1, h2⟩ := ih
    unfold mmSent at h1 ⊢
    cases o <;> simp [List.filterMap_cons, ofMm, atMleDown, atLlc, h1, h2]

theorem ofBs_down (ts : BsOut → Nat) (out : List BsOut) :
    cmceSent ts out = (out.filterMap (ofBs ts)).filterMap atMleDown ∧ (out.filterMap (ofBs ts)).filterMap atLlc = [] := by
  induction out with
  | nil => exact ⟨rfl, rfl⟩
  | cons o out ih =>
    obtain ⟨h1, h2⟩ := ih
    unfold cmceSent at h1 ⊢
    cases o <;> simp [List.filterMap_cons, ofBs, atMleDown, atLlc, h1, h2]

theorem DownInv.bsCall {c : Cfg} {tr k : List Call} {s s' : St} {ts : Nat} {e : BsEv} (h : DownInv tr s.queue)
    (hk : s.callBs c ts e = .ok (s', k)) : DownInv (tr ++ k) s'.queue := by
  obtain ⟨l, es, _, rfl, rfl⟩ := callBs_ok hk
  refine h.send ?_ rfl rfl (ofBs_down _ _).2
  rw [← (ofBs_down _ _).1]
  simp [wanted]

theorem DownInv.timeCall {tr k : List Call} {s s' : St} {now : Time} {clock : Mle.Clock} (h : DownInv tr s.queue)
    (hk : s.tickMle now clock = .ok (s', k)) : DownInv (tr ++ k) s'.queue := by
  obtain ⟨l, es, h1, rfl, rfl⟩ := tickMle_ok hk
  rcases mle_tick h1 with rfl | ⟨bs, rfl⟩
  · exact h.silent rfl rfl rfl (by simp)
  · refine h.broadcast rfl rfl rfl rfl ?_
    intro o ho
    simp only [List.map_cons, List.map_nil, List.filterMap_cons, ofMle, atLlc, List.filterMap_nil, List.mem_singleton] at ho
    subst ho
    simp [Order.ofMle]

theorem DownInv.llcCall {tr k : List Call} {s s' : St} {ts : Nat} {e : Llc.Ev} (h : DownInv tr s.queue)
    (hk : s.callLlc ts e = .ok (s', k)) (hi : ∀ a t p, e ≠ .ind a t p) (h1 : ∀ a t st f x p, e ≠ .dataReq a t st f x p) (h2 : ∀ a p, e ≠ .unitdataReq a p) :
    DownInv (tr ++ k) s'.queue := by
  obtain ⟨l, es, h3, rfl, rfl⟩ := callLlc_ok hk
  simp only [quiet_up h3 hi]
  refine h.silent rfl rfl ?_ (by simp)
  cases e with
  | dataReq => exact (h1 _ _ _ _ _ _ rfl).elim
  | unitdataReq => exact (h2 _ _ rfl).elim
  | _ => rfl

theorem down_inv {c : Cfg} {evs : List Ev} {tr : List Call} {s : St} (h : Run c evs tr s) : DownInv tr s.queue := by
  induction h with
  | init => exact ⟨rfl, rfl⟩
  | reorder _ _ ih => exact ih
  | @step evs tr calls s s' e _ hs ih =>
    cases e with
    | frame addr ts pdu =>
      cases hs
      exact ih.silent rfl rfl rfl (by intro l hl; simp only [List.mem_singleton] at hl; subst hl; exact ⟨rfl, rfl⟩)
    | toCmce ts e =>
      cases hs
      exact ih.silent rfl rfl rfl (by intro l hl; simp only [List.mem_singleton] at hl; subst hl; exact ⟨rfl, rfl⟩)
    | deliver =>
      simp only [St.step] at hs
      split at hs
      · cases hs; rw [List.append_nil]; exact ih
      · rename_i l q hq
        rw [hq] at ih
        cases l with
        | frame addr ts pdu =>
          obtain ⟨l, es, h1, rfl, rfl⟩ := callLlc_ok hs
          refine (ih.pop ⟨rfl, rfl⟩).silent rfl rfl rfl ?_
          intro x hx
          rw [ind_up h1] at hx
          rcases List.mem_append.1 hx with hx | hx
          · unfold upward at hx
            split at hx
            · simp only [List.mem_singleton] at hx; subst hx; exact ⟨rfl, rfl⟩
            · cases hx
          · unfold upwardU at hx
            split at hx
            · simp only [List.mem_singleton] at hx; subst hx; exact ⟨rfl, rfl⟩
            · cases hx
        | mle m =>
          obtain ⟨l, es, h1, rfl, rfl⟩ := callMle_ok hs
          cases m with
          | dataInd addr link ts sdu =>
            refine (ih.pop ⟨rfl, rfl⟩).silent rfl rfl rfl ?_
            cases sdu with
            | none => cases h1
            | some sdu =>
              simp only [Mle.Mle.rx, Mle.Mle.dataInd] at h1
              split at h1
              · cases h1; simp
              · split at h1
                · cases h1; simp
                · rename_i d _
                  cases d <;> simp only [Mle.Mle.dispatch, Res.bind_eq_ok] at h1
                  · obtain ⟨r, _, h1⟩ := h1; cases h1; intro x hx; simp at hx; subst hx; exact ⟨rfl, rfl⟩
                  · obtain ⟨r, _, h1⟩ := h1; cases h1; intro x hx; simp at hx; subst hx; exact ⟨rfl, rfl⟩
                  · cases h1; intro x hx; simp at hx; subst hx; exact ⟨rfl, rfl⟩
                  · cases h1; simp
                  · cases h1; simp
          | unitdataInd => cases h1
          | lmm addr ts service sdu =>
            simp only [Mle.Mle.rx, Mle.lmmReq, Res.bind_eq_ok] at h1
            obtain ⟨o, h1, h2⟩ := h1
            split at h1
            · cases h1
            · cases h1; cases h2
              exact ih.pass rfl rfl rfl rfl (by simp [Order.ofMle]; decide) rfl rfl rfl
          | lcmc addr ts service chan stealing sdu =>
            cases h1
            unfold Mle.lcmcReq
            split
            · rename_i hu
              exact ih.pass (x := .tlUnitdata ⟨addr, ts, chan, stealing⟩ (toBits 3 2 ++ sdu)) rfl (by simp only [atMleDown, if_pos hu]) rfl rfl
                (by simp [Order.ofMle]; decide) rfl rfl rfl
            · rename_i hu
              exact ih.pass (x := .tlData addr ts stealing (toBits 3 2 ++ sdu)) rfl (by simp only [atMleDown, if_neg hu]) rfl rfl
                (by simp [Order.ofMle]; decide) rfl rfl rfl
        | mm handle addr ts sdu =>
          obtain ⟨l, es, h1, rfl, rfl⟩ := callMm_ok hs
          refine (ih.pop ⟨rfl, rfl⟩).send ?_ rfl rfl (ofMm_down _ _ _ _).2
          rw [← (ofMm_down _ _ _ _).1]
          simp [wanted]
        | cmce ts e => exact DownInv.bsCall (s := { s with queue := q }) (ih.pop ⟨rfl, rfl⟩) hs
        | sndcp => cases hs
        | tlData addr ts st sdu =>
          obtain ⟨l, es, h1, rfl, rfl⟩ := callLlc_ok hs
          simp only [quiet_up h1 (by simp), List.append_nil]
          exact ih.order rfl rfl rfl rfl rfl
        | tlUnitdata addr sdu =>
          obtain ⟨l, es, h1, rfl, rfl⟩ := callLlc_ok hs
          simp only [quiet_up h1 (by simp), List.append_nil]
          exact ih.order rfl rfl rfl rfl rfl
    | tickStart now cmds clock b =>
      simp only [St.step] at hs
      obtain ⟨s1, k1, k2, h1, h2, rfl⟩ := andThen_ok hs
      rw [← List.append_assoc]
      have i1 := ih.llcCall h1 (by simp) (by simp) (by simp)
      split at h2
      · obtain ⟨s2, k3, k4, h3, h4, rfl⟩ := andThen_ok h2
        rw [← List.append_assoc]
        exact (i1.timeCall h3).bsCall h4
      · obtain ⟨s2, k3, k4, h3, h4, rfl⟩ := andThen_ok h2
        rw [← List.append_assoc]
        exact (i1.bsCall h3).timeCall h4
    | tickEnd => exact ih.llcCall hs (by simp) (by simp) (by simp)
    | mac id d => exact ih.llcCall hs (by simp) (by simp) (by simp)

/-- **C72.** What the LLC was asked to send, apart from messages of MLE itself, is what mobility management and call control sent, in
that order, each once; the messages of MLE are its broadcasts. What is missing is still in the queue. -/
theorem c72_ordered {c : Cfg} {evs : List Ev} {tr : List Call} {s : St} (h : Run c evs tr s) :
    ∃ rest times, wanted tr = (ordered tr).filter (fun o => !o.ofMle) ++ rest ∧ announced tr = (ordered tr).filter Order.ofMle ++ times ∧
      (s.queue = [] → rest = [] ∧ times = []) := by
  have hi := down_inv h
  exact ⟨_, _, by rw [hi.up, List.append_assoc], hi.time, fun hq => by rw [hq]; exact ⟨rfl, rfl⟩⟩

/-! ## What the MAC is handed -/

/-- MLE asks for no FCS (mle_bs.rs:313, 390). -/
def Plain (k : Call) : Prop := ∀ a t st f x p out, k = .llc (.dataReq a t st f x p) out → f = false

theorem plain_run {c : Cfg} {evs : List Ev} {tr : List Call} {s : St} (h : Run c evs tr s) : ∀ k ∈ tr, Plain k := by
  induction h with
  | init => simp
  | reorder _ _ ih => exact ih
  | @step evs tr calls s s' e _ hs ih =>
    have key : ∀ k ∈ calls, Plain k := by
      have aside : ((∃ now cmds clock b, e = .tickStart now cmds clock b) ∨ e = .tickEnd ∨ ∃ id d, e = .mac id d) → ∀ k ∈ calls, Plain k := by
        intro he
        refine step_induction (c := c) (fun _ k _ => ∀ x ∈ k, Plain x) ?_ ?_ ?_ ?_ hs he
        · intro _ _ _ k1 k2 h1 h2 x hx
          exact (List.mem_append.1 hx).elim (h1 x) (h2 x)
        · intro s s' ts e k _ hd _ h x hx
          obtain ⟨l, es, _, rfl, rfl⟩ := callLlc_ok h
          simp only [List.mem_singleton] at hx
          subst hx
          intro a t st f x p out he
          cases he
          exact (hd _ _ _ _ _ _ rfl).elim
        · intro s s' now clock k h x hx
          obtain ⟨l, es, _, rfl, rfl⟩ := tickMle_ok h
          simp only [List.mem_singleton] at hx
          subst hx
          intro a t st f x p out he; cases he
        · intro s s' ts now cmds k h x hx
          obtain ⟨l, es, _, rfl, rfl⟩ := callBs_ok h
          simp only [List.mem_singleton] at hx
          subst hx
          intro a t st f x p out he; cases he
      cases e with
      | frame => cases hs; simp
      | toCmce => cases hs; simp
      | deliver =>
        simp only [St.step] at hs
        split at hs
        · cases hs; simp
        · rename_i l q hq
          intro x hx a t st f y p out he
          cases l with
          | frame addr ts pdu => obtain ⟨l, es, _, rfl, rfl⟩ := callLlc_ok hs; simp only [List.mem_singleton] at hx; subst hx; cases he
          | mle m => obtain ⟨l, es, _, rfl, rfl⟩ := callMle_ok hs; simp only [List.mem_singleton] at hx; subst hx; cases he
          | mm handle addr ts sdu => obtain ⟨l, es, _, rfl, rfl⟩ := callMm_ok hs; simp only [List.mem_singleton] at hx; subst hx; cases he
          | cmce ts e => obtain ⟨l, es, _, rfl, rfl⟩ := callBs_ok hs; simp only [List.mem_singleton] at hx; subst hx; cases he
          | sndcp => cases hs
          | tlData => obtain ⟨l, es, _, rfl, rfl⟩ := callLlc_ok hs; simp only [List.mem_singleton] at hx; subst hx; cases he; rfl
          | tlUnitdata => obtain ⟨l, es, _, rfl, rfl⟩ := callLlc_ok hs; simp only [List.mem_singleton] at hx; subst hx; cases he
      | tickStart now cmds clock b => exact aside (.inl ⟨_, _, _, _, rfl⟩)
      | tickEnd => exact aside (.inr (.inl rfl))
      | mac id d => exact aside (.inr (.inr ⟨_, _, rfl⟩))
    intro k hk
    exact (List.mem_append.1 hk).elim (ih k) (key k)

theorem reqs_outs (es : List Llc.Emit) : Llc.reqs (es.map .out) = [] := by
  rw [Llc.reqs, List.filterMap_eq_nil_iff]
  intro i hi
  rw [List.mem_map] at hi
  obtain ⟨e, _, rfl⟩ := hi; rfl

theorem llcTrace_reqs {tr : List Call} (h : ∀ k ∈ tr, Plain k) :
    Llc.reqs (llcTrace tr) = (ordered tr).filterMap fun o => o.acknowledged.map fun ts => ⟨o.addr, ts, false, o.sdu⟩ := by
  induction tr with
  | nil => rfl
  | cons k tr ih =>
    have ih := ih fun x hx => h x (List.mem_cons_of_mem _ hx)
    have hk := h k (by simp)
    rw [show k :: tr = [k] ++ tr from rfl, llcTrace_append, ordered_append, List.filterMap_append, Llc.reqs, List.filterMap_append]
    rw [Llc.reqs] at ih
    rw [ih]
    congr 1
    cases k with
    | llc e out =>
      have e1 : List.filterMap Llc.Item.req (llcTrace [Call.llc e out]) = List.filterMap Llc.Item.req [.ev e] := by
        have : llcTrace [Call.llc e out] = [.ev e] ++ out.map .out := by simp [llcTrace]
        rw [this, List.filterMap_append]
        have := reqs_outs out
        rw [Llc.reqs] at this
        rw [this, List.append_nil]
      rw [e1]
      cases e with
      | dataReq a t st f x p =>
        have := hk a t st f x p out rfl
        subst this; rfl
      | _ => rfl
    | _ => rfl

theorem llcTrace_askedU (tr : List Call) :
    Llc.askedU (llcTrace tr) = (ordered tr).filterMap Order.plain := by
  induction tr with
  | nil => rfl
  | cons k tr ih =>
    rw [show k :: tr = [k] ++ tr from rfl, llcTrace_append, ordered_append, List.filterMap_append, Llc.askedU_append, ih]
    congr 1
    cases k with
    | llc e out =>
      have e1 : Llc.askedU (llcTrace [Call.llc e out]) = Llc.askedU [.ev e] := by
        have : llcTrace [Call.llc e out] = [.ev e] ++ out.map .out := by simp [llcTrace]
        rw [this, Llc.askedU_append, Llc.askedU_outs, List.append_nil]
      rw [e1]
      cases e <;> rfl
    | _ => rfl

/-- The orders to be acknowledged. -/
def acknowledgedOrders (tr : List Call) : List (Addr × Nat × List Bool) :=
  (ordered tr).filterMap fun o => o.acknowledged.map fun ts => (o.addr, ts, o.sdu)

/-- **C72, unacknowledged messages.** Each is handed to the MAC once, in order, as a BL-UDATA with its bits, to its address, for the
timeslot and with the channel it was sent with; what is missing waits for the end of the tick. -/
theorem c72_unacknowledged {c : Cfg} {evs : List Ev} {tr : List Call} {s : St} (h : Run c evs tr s) :
    (ordered tr).filterMap Order.plain = Llc.sentU (llcTrace tr) ++ s.llc.udata ∧
    ∀ s' k, s.step c .tickEnd = .ok (s', k) → Llc.sentU (llcTrace (tr ++ k)) =
      (ordered tr).filterMap Order.plain := by
  obtain ⟨h1, h2⟩ := Llc.c42_sent_once (run_llc h)
  rw [← llcTrace_askedU]
  refine ⟨h1, fun s' k hk => ?_⟩
  obtain ⟨l, es, h3, rfl, rfl⟩ := callLlc_ok hk
  rw [← h2 _ _ h3, llcTrace_append]
  simp [llcTrace]

/-- **C72, acknowledged messages.** Whatever the LLC hands the MAC as message `b` is the `b`-th message to be acknowledged: to its
address, on the link it is for, with its bits after the header. -/
theorem c72_acknowledged {c : Cfg} {evs : List Ev} {tr : List Call} {s : St} (h : Run c evs tr s) {pre post : List Llc.Item} {b ts : Nat}
    {addr : Addr} {pdu : List Bool} (e : llcTrace tr = pre ++ .out (.data b addr ts pdu) :: post) :
    ∃ sdu, (acknowledgedOrders tr)[b]? = some (addr, ts, sdu) ∧
      ((∃ ns, pdu = [false, false, false, true, ns] ++ sdu) ∨ ∃ nr ns, pdu = [false, false, false, false, nr, ns] ++ sdu) := by
  have hr := llcTrace_reqs (plain_run h)
  obtain ⟨r, h1, h2⟩ := Llc.c26_content (run_llc h) e
  obtain ⟨r', h1', h3, h4, _⟩ := Llc.c26_stop_and_wait (run_llc h) e
  rw [h1] at h1'
  cases h1'
  have h5 : (Llc.reqs (llcTrace tr))[b]? = some r := by
    rw [e, Llc.reqs, List.filterMap_append]
    rw [Llc.reqs] at h1
    have hb : b < (List.filterMap Llc.Item.req pre).length := by rw [List.getElem?_eq_some_iff] at h1; exact h1.1
    rw [List.getElem?_append_left hb]; exact h1
  rw [hr] at h5
  have hmap : acknowledgedOrders tr = ((ordered tr).filterMap fun o => o.acknowledged.map fun ts => (⟨o.addr, ts, false, o.sdu⟩ : Llc.Req)).map
      fun r => (r.addr, r.ts, r.sdu) := by
    rw [acknowledgedOrders, List.map_filterMap]
    congr 1
    funext o
    cases o.acknowledged <;> rfl
  have hf : r.fcs = false := by
    have := List.mem_of_getElem? h5
    rw [List.mem_filterMap] at this
    obtain ⟨o, _, ho⟩ := this
    cases hoa : o.acknowledged with
    | none => rw [hoa] at ho; cases ho
    | some t => rw [hoa] at ho; cases ho; rfl
  refine ⟨r.sdu, ?_, ?_⟩
  · rw [hmap, List.getElem?_map, h5, h3, h4]; rfl
  · rw [hf] at h2
    rcases h2 with h2 | ⟨nr, h2⟩
    · exact .inl ⟨_, h2⟩
    · exact .inr ⟨_, _, h2⟩

end Verif.Sig
