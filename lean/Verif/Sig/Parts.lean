import Verif.Sig.Heard
import Verif.Llc.AckProps
import Verif.Mm.MmSpec
/-!
# The entities in the stack behave as they do alone

The calls of each entity in a history of the stack form a history of that entity, so what is proved about it alone holds in the stack.
-/
namespace Verif.Sig
open Verif.Tdma Verif.Bits
open Verif.Umac (Addr SsiType)
open Verif.Cmce (BsEv BsOut Bs BsRun CcOut Party Service SdsView SubUpdate Control)
open Verif.Mm (Mm MmIn MmOut MmRun)
open Verif.Mle (Mle)
open Verif.Llc (Llc)

/-! ## The calls of one entity -/

/-- What happened to the LLC, and its trace. -/
def llcEvents (tr : List Call) : List Llc.Ev := tr.filterMap fun k => match k with
  | .llc e _ => some e
  | _ => none
def llcTrace (tr : List Call) : List Llc.Item := tr.flatMap fun k => match k with
  | .llc e out => .ev e :: out.map .out
  | _ => []

/-- The messages mobility management handled, with what it sent. -/
def mmCalls (tr : List Call) : List (MmIn × List MmOut) := tr.filterMap fun k => match k with
  | .mm handle addr _ sdu out => some (⟨handle, addr.ssi, sdu⟩, out)
  | _ => none

/-- What happened to call control, with what it sent. -/
def bsCalls (tr : List Call) : List (BsEv × List BsOut) := tr.filterMap fun k => match k with
  | .cmce _ e out => some (e, out)
  | _ => none

theorem llcEvents_append (a b : List Call) : llcEvents (a ++ b) = llcEvents a ++ llcEvents b := by simp [llcEvents]
theorem llcTrace_append (a b : List Call) : llcTrace (a ++ b) = llcTrace a ++ llcTrace b := by simp [llcTrace]
theorem mmCalls_append (a b : List Call) : mmCalls (a ++ b) = mmCalls a ++ mmCalls b := by simp [mmCalls]
theorem bsCalls_append (a b : List Call) : bsCalls (a ++ b) = bsCalls a ++ bsCalls b := by simp [bsCalls]

/-- What holds at the beginning, does not depend on the queue, and is kept by the calls of entities, holds always. -/
theorem run_calls {c : Cfg} {P : List Call → St → Prop} (init : P [] (.init c))
    (queue : ∀ tr s q, P tr s → P tr { s with queue := q })
    (reorder : ∀ tr s cc', P tr s → s.bs.cc.Reordered cc' → P tr { s with bs := { s.bs with cc := cc' } })
    (llc : ∀ tr s ts e s' k, P tr s → s.callLlc ts e = .ok (s', k) → P (tr ++ k) s')
    (mle : ∀ tr s m s' k, P tr s → s.callMle m = .ok (s', k) → P (tr ++ k) s')
    (mm : ∀ tr s handle addr ts sdu s' k, P tr s → s.callMm c handle addr ts sdu = .ok (s', k) → P (tr ++ k) s')
    (bs : ∀ tr s ts e s' k, P tr s → s.callBs c ts e = .ok (s', k) → P (tr ++ k) s')
    (time : ∀ tr s now clock s' k, P tr s → s.tickMle now clock = .ok (s', k) → P (tr ++ k) s')
    {evs : List Ev} {tr : List Call} {s : St} (h : Run c evs tr s) : P tr s := by
  induction h with
  | init => exact init
  | reorder _ hr ih => exact reorder _ _ _ ih hr
  | @step evs tr calls s s' e _ hs ih =>
    cases e with
    | frame addr ts pdu => cases hs; rw [List.append_nil]; exact queue _ _ _ ih
    | toCmce ts e => cases hs; rw [List.append_nil]; exact queue _ _ _ ih
    | deliver =>
      simp only [St.step] at hs
      split at hs
      · cases hs; rw [List.append_nil]; exact ih
      · rename_i l q hq
        have ih' := queue _ _ q ih
        cases l with
        | frame addr ts pdu => exact llc _ _ _ _ _ _ ih' hs
        | mle m => exact mle _ _ _ _ _ ih' hs
        | mm handle addr ts sdu => exact mm _ _ _ _ _ _ _ _ ih' hs
        | cmce ts e => exact bs _ _ _ _ _ _ ih' hs
        | sndcp => cases hs
        | tlData => exact llc _ _ _ _ _ _ ih' hs
        | tlUnitdata => exact llc _ _ _ _ _ _ ih' hs
    | tickStart now cmds clock b =>
      simp only [St.step] at hs
      obtain ⟨s1, k1, k2, h1, h2, rfl⟩ := andThen_ok hs
      rw [← List.append_assoc]
      have i1 := llc _ _ _ _ _ _ ih h1
      split at h2
      · obtain ⟨s2, k3, k4, h3, h4, rfl⟩ := andThen_ok h2
        rw [← List.append_assoc]
        exact bs _ _ _ _ _ _ (time _ _ _ _ _ _ i1 h3) h4
      · obtain ⟨s2, k3, k4, h3, h4, rfl⟩ := andThen_ok h2
        rw [← List.append_assoc]
        exact time _ _ _ _ _ _ (bs _ _ _ _ _ _ i1 h3) h4
    | tickEnd => exact llc _ _ _ _ _ _ ih hs
    | mac id d => exact llc _ _ _ _ _ _ ih hs

theorem llcRun_snoc {s0 s s' : Llc} {evs : List Llc.Ev} {tr : List Llc.Item} {e : Llc.Ev} {es : List Llc.Emit}
    (h : s0.run evs = .ok (s, tr)) (hs : s.step e = .ok (s', es)) : s0.run (evs ++ [e]) = .ok (s', tr ++ (.ev e :: es.map .out)) := by
  induction evs generalizing s0 tr with
  | nil =>
    cases h
    simp [Llc.Llc.run, hs]
  | cons e0 evs ih =>
    simp only [Llc.Llc.run, Res.bind_eq_ok] at h
    obtain ⟨r, h1, q, h2, h3⟩ := h
    cases h3
    have := ih h2
    simp [Llc.Llc.run, h1, this]

/-- The LLC in the stack. -/
theorem run_llc {c : Cfg} {evs : List Ev} {tr : List Call} {s : St} (h : Run c evs tr s) :
    Llc.Llc.init.run (llcEvents tr) = .ok (s.llc, llcTrace tr) := by
  refine run_calls (P := fun tr s => Llc.Llc.init.run (llcEvents tr) = .ok (s.llc, llcTrace tr)) rfl (fun _ _ _ h => h)
    (fun _ _ _ h _ => h) ?_ ?_ ?_ ?_ ?_ h
  · intro tr s ts e s' k ih hk
    obtain ⟨l, es, h1, rfl, rfl⟩ := callLlc_ok hk
    rw [llcEvents_append, llcTrace_append]
    have := llcRun_snoc ih h1
    simpa [llcEvents, llcTrace] using this
  · intro tr s m s' k ih hk
    obtain ⟨l, es, h1, rfl, rfl⟩ := callMle_ok hk
    rw [llcEvents_append, llcTrace_append]
    simpa [llcEvents, llcTrace] using ih
  · intro tr s handle addr ts sdu s' k ih hk
    obtain ⟨l, es, h1, rfl, rfl⟩ := callMm_ok hk
    rw [llcEvents_append, llcTrace_append]
    simpa [llcEvents, llcTrace] using ih
  · intro tr s ts e s' k ih hk
    obtain ⟨l, es, h1, rfl, rfl⟩ := callBs_ok hk
    rw [llcEvents_append, llcTrace_append]
    simpa [llcEvents, llcTrace] using ih
  · intro tr s now clock s' k ih hk
    obtain ⟨l, es, h1, rfl, rfl⟩ := tickMle_ok hk
    rw [llcEvents_append, llcTrace_append]
    simpa [llcEvents, llcTrace] using ih

/-- Mobility management in the stack. -/
theorem run_mm {c : Cfg} {evs : List Ev} {tr : List Call} {s : St} (h : Run c evs tr s) : MmRun c.brew (mmCalls tr) s.mm := by
  refine run_calls (P := fun tr s => MmRun c.brew (mmCalls tr) s.mm) .start (fun _ _ _ h => h)
    (fun _ _ _ h _ => h) ?_ ?_ ?_ ?_ ?_ h
  · intro tr s ts e s' k ih hk
    obtain ⟨l, es, h1, rfl, rfl⟩ := callLlc_ok hk
    rw [mmCalls_append]; simpa [mmCalls] using ih
  · intro tr s m s' k ih hk
    obtain ⟨l, es, h1, rfl, rfl⟩ := callMle_ok hk
    rw [mmCalls_append]; simpa [mmCalls] using ih
  · intro tr s handle addr ts sdu s' k ih hk
    obtain ⟨l, es, h1, rfl, rfl⟩ := callMm_ok hk
    rw [mmCalls_append]
    exact MmRun.step ih (m := ⟨handle, addr.ssi, sdu⟩) h1
  · intro tr s ts e s' k ih hk
    obtain ⟨l, es, h1, rfl, rfl⟩ := callBs_ok hk
    rw [mmCalls_append]; simpa [mmCalls] using ih
  · intro tr s now clock s' k ih hk
    obtain ⟨l, es, h1, rfl, rfl⟩ := tickMle_ok hk
    rw [mmCalls_append]; simpa [mmCalls] using ih

/-! ## Sane histories -/

/-- Numbers of stations have 24 bits, and calls from the network are for groups which go over it. -/
def Ev.Sane (c : Cfg) : Ev → Prop
  | .frame addr _ _ => addr.ssi < 2 ^ 24
  | .toCmce _ e => e.ev.Sane (Brew.gssiRoutable c.brew)
  | _ => True

/-- The same for what is queued. -/
def Letter.Sane (c : Cfg) : Letter → Prop
  | .frame addr _ _ => addr.ssi < 2 ^ 24
  | .mle (.dataInd addr _ _ _) => addr.ssi < 2 ^ 24
  | .mm _ addr _ _ => addr.ssi < 2 ^ 24
  | .cmce _ e => e.Sane (Brew.gssiRoutable c.brew)
  | _ => True

theorem append_sane {c : Cfg} {q ls : List Letter} (hq : ∀ l ∈ q, l.Sane c) (hl : ∀ l ∈ ls, l.Sane c) : ∀ l ∈ q ++ ls, l.Sane c := by
  intro l h
  rcases List.mem_append.1 h with h | h
  · exact hq l h
  · exact hl l h

theorem upward_sane {c : Cfg} {addr : Addr} (h : addr.ssi < 2 ^ 24) (ts : Nat) (pdu : List Bool) :
    ∀ l ∈ upward addr ts pdu ++ upwardU addr ts pdu, l.Sane c := by
  intro l hl
  rcases List.mem_append.1 hl with hl | hl
  · unfold upward at hl
    split at hl
    · simp only [List.mem_singleton] at hl; subst hl; exact h
    · cases hl
  · unfold upwardU at hl
    split at hl
    · simp only [List.mem_singleton] at hl; subst hl; trivial
    · cases hl

theorem mle_sane {c : Cfg} {s s' : Mle} {m : Mle.In} {out : List Mle.Out} (h : s.rx m = .ok (s', out)) (hs : (Letter.mle m).Sane c) :
    ∀ l ∈ out.map ofMle, l.Sane c := by
  intro l hl
  cases m with
  | dataInd addr link ts sdu =>
    cases sdu with
    | none => cases h
    | some sdu =>
      simp only [Mle.Mle.rx, Mle.Mle.dataInd] at h
      split at h
      · cases h; cases hl
      · split at h
        · cases h; cases hl
        · rename_i d _
          cases d <;> simp only [Mle.Mle.dispatch, Res.bind_eq_ok] at h
          · obtain ⟨r, _, h⟩ := h
            cases h
            simp only [List.map_cons, List.map_nil, List.mem_singleton] at hl; subst hl; exact hs
          · obtain ⟨r, _, h⟩ := h
            cases h
            simp only [List.map_cons, List.map_nil, List.mem_singleton] at hl; subst hl; exact hs
          · cases h
            simp only [List.map_cons, List.map_nil, List.mem_singleton] at hl; subst hl; trivial
          · cases h; cases hl
          · cases h; cases hl
  | unitdataInd => cases h
  | lmm addr ts service sdu =>
    simp only [Mle.Mle.rx, Mle.lmmReq, Res.bind_eq_ok] at h
    obtain ⟨o, h1, h2⟩ := h
    split at h1
    · cases h1
    · cases h1; cases h2
      simp only [List.map_cons, List.map_nil, List.mem_singleton] at hl
      subst hl; trivial
  | lcmc addr ts service chan stealing sdu =>
    cases h
    unfold Mle.lcmcReq at hl
    split at hl <;>
    · simp only [List.map_cons, List.map_nil, List.mem_singleton] at hl
      subst hl; trivial

theorem mle_tick_sane {c : Cfg} {s s' : Mle} {now : Time} {clock : Mle.Clock} {out : List Mle.Out} (h : s.tick now clock = .ok (s', out)) :
    ∀ l ∈ out.map ofMle, l.Sane c := by
  intro l hl
  rcases mle_tick h with rfl | ⟨bs, rfl⟩
  · cases hl
  · simp only [List.map_cons, List.map_nil, List.mem_singleton] at hl
    subst hl; trivial

theorem ofMm_sane {c : Cfg} {addr : Addr} {ts : Nat} {sdu : List Bool} {out : List MmOut} : ∀ l ∈ out.filterMap (ofMm addr ts sdu), l.Sane c := by
  intro l hl
  rw [List.mem_filterMap] at hl
  obtain ⟨o, _, ho⟩ := hl
  cases o <;> simp [ofMm] at ho <;> subst ho <;> trivial

theorem ofBs_sane {c : Cfg} {ts : BsOut → Nat} {out : List BsOut} : ∀ l ∈ out.filterMap (ofBs ts), l.Sane c := by
  intro l hl
  rw [List.mem_filterMap] at hl
  obtain ⟨o, _, ho⟩ := hl
  cases o <;> simp [ofBs] at ho <;> subst ho <;> trivial

/-- What is kept in sane histories. -/
structure SaneInv (c : Cfg) (tr : List Call) (s : St) : Prop where
  queue : ∀ l ∈ s.queue, l.Sane c
  bs : BsRun (Brew.gssiRoutable c.brew) (bsCalls tr) s.bs

theorem SaneInv.llc {c : Cfg} {tr k : List Call} {s s' : St} {ts : Nat} {e : Llc.Ev} (h : SaneInv c tr s)
    (hk : s.callLlc ts e = .ok (s', k)) (he : ∀ es l, s.llc.step e = .ok (l, es) → ∀ x ∈ es.filterMap (ofLlc ts), x.Sane c) :
    SaneInv c (tr ++ k) s' := by
  obtain ⟨l, es, h1, rfl, rfl⟩ := callLlc_ok hk
  refine ⟨append_sane h.queue (he _ _ h1), ?_⟩
  rw [bsCalls_append]; simpa [bsCalls] using h.bs

theorem SaneInv.bsCall {c : Cfg} {tr k : List Call} {s s' : St} {ts : Nat} {e : BsEv} (h : SaneInv c tr s)
    (hk : s.callBs c ts e = .ok (s', k)) (he : e.Sane (Brew.gssiRoutable c.brew)) : SaneInv c (tr ++ k) s' := by
  obtain ⟨l, es, h1, rfl, rfl⟩ := callBs_ok hk
  refine ⟨append_sane h.queue ofBs_sane, ?_⟩
  rw [bsCalls_append]
  exact BsRun.step h.bs he h1

theorem SaneInv.time {c : Cfg} {tr k : List Call} {s s' : St} {now : Time} {clock : Mle.Clock} (h : SaneInv c tr s)
    (hk : s.tickMle now clock = .ok (s', k)) : SaneInv c (tr ++ k) s' := by
  obtain ⟨l, es, h1, rfl, rfl⟩ := tickMle_ok hk
  refine ⟨append_sane h.queue (mle_tick_sane h1), ?_⟩
  rw [bsCalls_append]; simpa [bsCalls] using h.bs

theorem sane_inv {c : Cfg} {evs : List Ev} {tr : List Call} {s : St} (h : Run c evs tr s) (he : ∀ e ∈ evs, e.Sane c) : SaneInv c tr s := by
  induction h with
  | init => exact ⟨by simp [St.init], .init⟩
  | reorder _ hr ih => exact ⟨(ih he).queue, .reorder (ih he).bs hr⟩
  | @step evs tr calls s s' e _ hs ih =>
    have hi := ih fun x hx => he x (List.mem_append_left _ hx)
    have hse : e.Sane c := he e (by simp)
    cases e with
    | frame addr ts pdu =>
      cases hs
      rw [List.append_nil]
      exact ⟨append_sane hi.queue (by intro l hl; simp only [List.mem_singleton] at hl; subst hl; exact hse), hi.bs⟩
    | toCmce ts e =>
      cases hs
      rw [List.append_nil]
      exact ⟨append_sane hi.queue (by intro l hl; simp only [List.mem_singleton] at hl; subst hl; exact hse), hi.bs⟩
    | deliver =>
      simp only [St.step] at hs
      split at hs
      · cases hs; rw [List.append_nil]; exact hi
      · rename_i l q hq
        have hl : l.Sane c := hi.queue l (by rw [hq]; simp)
        have ih' : SaneInv c tr { s with queue := q } := ⟨fun x hx => hi.queue x (by rw [hq]; exact List.mem_cons_of_mem _ hx), hi.bs⟩
        cases l with
        | frame addr ts pdu =>
          refine ih'.llc hs fun es l h1 => ?_
          rw [ind_up h1]
          exact upward_sane hl ts pdu
        | mle m =>
          obtain ⟨l', es, h1, rfl, rfl⟩ := callMle_ok hs
          refine ⟨append_sane ih'.queue (mle_sane h1 hl), ?_⟩
          rw [bsCalls_append]; simpa [bsCalls] using hi.bs
        | mm handle addr ts sdu =>
          obtain ⟨l', es, h1, rfl, rfl⟩ := callMm_ok hs
          refine ⟨append_sane ih'.queue ofMm_sane, ?_⟩
          rw [bsCalls_append]; simpa [bsCalls] using hi.bs
        | cmce ts e => exact ih'.bsCall hs hl
        | sndcp => cases hs
        | tlData =>
          refine ih'.llc hs fun es l h1 => ?_
          rw [quiet_up h1 (by simp)]; simp
        | tlUnitdata =>
          refine ih'.llc hs fun es l h1 => ?_
          rw [quiet_up h1 (by simp)]; simp
    | tickStart now cmds clock b =>
      simp only [St.step] at hs
      obtain ⟨s1, k1, k2, h1, h2, rfl⟩ := andThen_ok hs
      rw [← List.append_assoc]
      have i1 := hi.llc h1 fun es l h1 => by rw [quiet_up h1 (by simp)]; simp
      split at h2
      · obtain ⟨s2, k3, k4, h3, h4, rfl⟩ := andThen_ok h2
        rw [← List.append_assoc]
        exact (i1.time h3).bsCall h4 trivial
      · obtain ⟨s2, k3, k4, h3, h4, rfl⟩ := andThen_ok h2
        rw [← List.append_assoc]
        exact (i1.bsCall h3 trivial).time h4
    | tickEnd => exact hi.llc hs fun es l h1 => by rw [quiet_up h1 (by simp)]; simp
    | mac id d => exact hi.llc hs fun es l h1 => by rw [quiet_up h1 (by simp)]; simp

/-- Call control in the stack. -/
theorem run_bs {c : Cfg} {evs : List Ev} {tr : List Call} {s : St} (h : Run c evs tr s) (he : ∀ e ∈ evs, e.Sane c) :
    BsRun (Brew.gssiRoutable c.brew) (bsCalls tr) s.bs := (sane_inv h he).bs

/-! ## Call control asks for acknowledgements of single stations only -/

/-- D-CALL PROCEEDING is for one station. -/
def ToOne : CcOut → Prop
  | .dCallProceeding (.group _) _ => False
  | _ => True

theorem prim_toOne {s s' : Cmce.Cc} {m : Bool} {o : List CcOut} (h : Cmce.Prim s m o s') : ∀ x ∈ o, ToOne x := by
  intro x hx
  cases h with
  | aside o ha =>
    simp only [List.mem_singleton] at hx
    subst hx
    cases x <;> simp [Cmce.CcOut.Aside, ToOne] at ha ⊢
  | members => cases hx
  | start a i comm k c p =>
    unfold Cmce.startOut at hx
    split at hx <;> simp at hx
    · rcases hx with rfl | rfl | rfl | rfl | ⟨_, rfl⟩ <;> trivial
    · rcases hx with rfl | rfl | rfl | rfl <;> trivial
  | stop id c i cause =>
    unfold Cmce.endOut at hx
    simp at hx
    rcases hx with rfl | rfl | rfl | hx
    · trivial
    · trivial
    · trivial
    · split at hx
      · split at hx <;> simp at hx
        subst hx; trivial
      · cases hx
  | expire i k =>
    simp only [List.mem_append, List.mem_singleton] at hx
    rcases hx with hx | rfl
    · split at hx <;> simp at hx
      subst hx; trivial
    · trivial
  | cease id c brew net _ _ hb =>
    simp only [List.mem_append, List.mem_cons, List.not_mem_nil, or_false] at hx
    rcases hx with (rfl | rfl) | hx
    · trivial
    · trivial
    · rcases hb with ⟨_, rfl⟩ | ⟨_, rfl⟩
      · split at hx <;> simp at hx
        subst hx; trivial
      · cases hx
  | grant id c ssi =>
    simp only [List.mem_append, List.mem_cons, List.not_mem_nil, or_false] at hx
    rcases hx with (rfl | rfl | rfl) | hx
    · trivial
    · trivial
    · trivial
    · split at hx <;> simp at hx
      subst hx; trivial
  | netGrant =>
    simp only [List.mem_cons, List.not_mem_nil, or_false] at hx
    rcases hx with rfl | rfl | rfl <;> trivial
  | announce =>
    simp only [List.mem_singleton] at hx
    subst hx; trivial

theorem ccRun_toOne {r : Nat → Bool} {h : List (Cmce.CcEv × List CcOut)} {s : Cmce.Cc} (hr : Cmce.CcRun r h s) :
    ∀ o ∈ Cmce.messages h, ToOne o :=
  Cmce.run_induct (P := fun l _ => ∀ o ∈ l, ToOne o) (by simp) (fun _ _ _ h => h) (fun _ _ _ h => h)
    (fun l s o s' _ h hp x hx => (List.mem_append.1 hx).elim (h x) (prim_toOne hp x)) (fun _ _ _ _ h _ => h) hr

/-- A message which is to be acknowledged is for one station, and not sent by stealing. -/
def Single : BsOut → Prop
  | .air p service _ stealing _ => service ≠ .unacknowledged → stealing = false ∧ ∃ i, p = .station i
  | _ => True

theorem wire_single {a : Cmce.Asked} {o : CcOut} (ho : ToOne o) {b : BsOut} (h : o.wire a = .ok b) : Single b := by
  cases o with
  | dCallProceeding p id =>
    simp only [Cmce.CcOut.wire, Res.bind_eq_ok] at h
    obtain ⟨bs, _, h⟩ := h
    cases h
    cases p with
    | group g => cases ho
    | station i => exact fun _ => ⟨rfl, i, rfl⟩
  | dConnect | dSetup | dRelease | dTxCeased | dTxGranted =>
    simp only [Cmce.CcOut.wire, Res.bind_eq_ok] at h
    obtain ⟨bs, _, h⟩ := h
    cases h
    exact fun h => (h rfl).elim
  | _ => cases h; trivial

theorem wireAll_single {asked : Assoc Nat Cmce.Asked} {os : List CcOut} (ho : ∀ o ∈ os, ToOne o) {bs : List BsOut}
    (h : Cmce.wireAll asked os = .ok bs) : ∀ b ∈ bs, Single b := by
  induction os generalizing bs with
  | nil => cases h; simp
  | cons o os ih =>
    simp only [Cmce.wireAll, Res.bind_eq_ok] at h
    obtain ⟨b, h1, bs', h2, h3⟩ := h
    cases h3
    intro x hx
    rcases List.mem_cons.1 hx with rfl | hx
    · exact wire_single (ho o (by simp)) h1
    · exact ih (fun x hx => ho x (List.mem_cons_of_mem _ hx)) h2 x hx

/-- The same for short data. -/
theorem sendSds_single {source dest : Nat} {group : Bool} {data : Cmce.Pdu.Sds} {out : List Cmce.SdsOut}
    (h : Cmce.sendSds source dest group data = .ok out) : ∀ b ∈ out.map Cmce.SdsOut.wire, Single b := by
  unfold Cmce.sendSds at h
  generalize (Cmce.dSdsData source data).enc = e at h
  cases e with
  | ok bs =>
    cases h
    intro b hb
    simp only [List.map_cons, List.map_nil, List.mem_singleton] at hb
    subst hb
    cases group
    · exact fun _ => ⟨rfl, dest, rfl⟩
    · exact fun h => (h rfl).elim
  | err => cases h; simp
  | panic => cases h

theorem sendStatus_single {source dest : Nat} {st : Cmce.Pdu.Status} {out : List Cmce.SdsOut}
    (h : Cmce.sendStatus source dest st = .ok out) : ∀ b ∈ out.map Cmce.SdsOut.wire, Single b := by
  unfold Cmce.sendStatus at h
  generalize (Cmce.dStatus source st).enc = e at h
  cases e with
  | ok bs =>
    cases h
    intro b hb
    simp only [List.map_cons, List.map_nil, List.mem_singleton] at hb
    subst hb
    exact fun _ => ⟨rfl, dest, rfl⟩
  | err => cases h; simp
  | panic => cases h

theorem brew_single (source dest : Nat) (data : Cmce.Pdu.Sds) : ∀ b ∈ [Cmce.SdsOut.brew source dest data].map Cmce.SdsOut.wire, Single b := by
  intro b hb
  simp only [List.map_cons, List.map_nil, List.mem_singleton] at hb
  subst hb; trivial

theorem controls_single {v : SdsView} {cmds : List Control} {out : List BsOut} (h : Cmce.controls v cmds = .ok out) : ∀ b ∈ out, Single b := by
  induction cmds generalizing out with
  | nil => cases h; simp
  | cons k cs ih =>
    cases k with
    | other => cases h
    | sendSds x =>
      simp only [Cmce.controls, Res.bind_eq_ok] at h
      obtain ⟨r, h1, rest, h2, h3⟩ := h
      cases h3
      intro b hb
      rcases List.mem_append.1 hb with hb | hb
      · unfold Cmce.rxSdsFromControl at h1
        split at h1
        · simp only [Res.bind_eq_ok] at h1
          obtain ⟨o, h4, h5⟩ := h1
          cases h5
          exact sendSds_single h4 b hb
        · cases h1; cases hb
      · rcases List.mem_cons.1 hb with rfl | hb
        · trivial
        · exact ih h2 b hb

theorem call_single {r : Nat → Bool} {h : List (BsEv × List BsOut)} {s s' : Bs} (hr : BsRun r h s) {e : Cmce.CcEv} {a : Cmce.Asked}
    {out : List BsOut} (hs : s.call e a = .ok (s', out)) : ∀ b ∈ out, Single b := by
  obtain ⟨h', _, hrun⟩ := (Cmce.bsRun_inv hr).reads
  simp only [Cmce.Bs.call, Res.bind_eq_ok] at hs
  obtain ⟨q, h1, bs, h2, h3⟩ := hs
  cases h3
  refine wireAll_single ?_ h2
  have := ccRun_toOne (hrun.step h1)
  intro o ho
  exact this o (by rw [Cmce.messages_append]; exact List.mem_append_right _ (by simpa [Cmce.messages] using ho))

theorem step_single {r : Nat → Bool} {h : List (BsEv × List BsOut)} {s s' : Bs} (hr : BsRun r h s) {v : SdsView} {e : BsEv}
    {out : List BsOut} (hs : s.step v e = .ok (s', out)) : ∀ b ∈ out, Single b := by
  cases e with
  | tick now cmds =>
    simp only [Cmce.Bs.step, Res.bind_eq_ok] at hs
    obtain ⟨q, h1, o, h2, h3⟩ := hs
    cases h3
    intro b hb
    rcases List.mem_append.1 hb with hb | hb
    · exact call_single hr h1 b hb
    · exact controls_single h2 b hb
  | mobile ssi sdu =>
    simp only [Cmce.Bs.step, Res.bind_eq_ok] at hs
    obtain ⟨u, _, hs⟩ := hs
    cases u with
    | ignored => cases hs; simp
    | call e a => exact call_single hr hs
    | status =>
      simp only [Res.bind_eq_ok] at hs
      obtain ⟨o, h1, h2⟩ := hs
      cases h2
      unfold Cmce.rxUStatus at h1
      split at h1
      · cases h1
      · cases h1; simp
      · split at h1
        · cases h1; simp
        · unfold Cmce.deliverStatus at h1
          split at h1
          · exact sendStatus_single h1
          · split at h1
            · cases h1; exact brew_single _ _ _
            · cases h1; simp
    | sds =>
      simp only [Res.bind_eq_ok] at hs
      obtain ⟨o, h1, h2⟩ := hs
      cases h2
      unfold Cmce.rxUSdsData at h1
      split at h1
      · cases h1
      · cases h1; simp
      · split at h1
        · cases h1; simp
        · unfold Cmce.deliverSds at h1
          split at h1
          · exact sendSds_single h1
          · split at h1
            · exact sendSds_single h1
            · split at h1
              · cases h1; exact brew_single _ _ _
              · cases h1; simp
  | update u => exact call_single hr hs
  | netStart uuid speaker gssi => exact call_single hr hs
  | netEnd uuid => exact call_single hr hs
  | inactive ts => exact call_single hr hs
  | sdsFromBrew source dest data =>
    simp only [Cmce.Bs.step, Res.bind_eq_ok] at hs
    obtain ⟨o, h1, h2⟩ := hs
    cases h2
    unfold Cmce.rxSdsFromBrew at h1
    split at h1
    · exact sendSds_single h1
    · cases h1; simp

end Verif.Sig
