import Verif.Llc.OweProps
/-!
# C42 — unacknowledged messages are sent once, in order
-/
namespace Verif.Llc
open Verif.Tdma Verif.TxReceipt
open Verif.Umac (Addr SsiType)

/-- The unacknowledged requests in a trace, each as the BL-UDATA it asks for: link type 0, no FCS, type 2, SDU. -/
def askedU (tr : List Item) : List (Via × List Bool) :=
  tr.filterMap fun i => match i with | .ev (.unitdataReq to sdu) => some (to, [false, false, true, false] ++ sdu) | _ => none
/-- The BL-UDATA PDUs handed to the MAC. -/
def sentU (tr : List Item) : List (Via × List Bool) :=
  tr.filterMap fun i => match i with | .out (.udata to pdu) => some (to, pdu) | _ => none

theorem askedU_append (a b : List Item) : askedU (a ++ b) = askedU a ++ askedU b := by simp [askedU]
theorem sentU_append (a b : List Item) : sentU (a ++ b) = sentU a ++ sentU b := by simp [sentU]
theorem askedU_outs (es : List Emit) : askedU (es.map .out) = [] := by
  rw [askedU, List.filterMap_eq_nil_iff]
  intro i hi
  rw [List.mem_map] at hi
  obtain ⟨e, _, rfl⟩ := hi; rfl
theorem sentU_none (es : List Emit) (h : ∀ e ∈ es, ∀ a p, e ≠ .udata a p) : sentU (es.map .out) = [] := by
  rw [sentU, List.filterMap_eq_nil_iff]
  intro i hi
  rw [List.mem_map] at hi
  obtain ⟨e, he, rfl⟩ := hi
  have := h e he
  cases e <;> first | rfl | exact absurd rfl (this _ _)

theorem unitdataInd_udata {s s' : Llc} {addr : Addr} {ts : Nat} {pdu : List Bool} {es : List Emit} (h : s.unitdataInd addr ts pdu = .ok (s', es)) :
    s'.udata = s.udata ∧ ∀ e ∈ es, ∀ a p, e ≠ .udata a p := by
  have hp : ∀ (s : Llc) ssi nr s' es, s.processAck ssi nr = .ok (s', es) → s'.udata = s.udata := by
    intro s ssi nr s' es h
    unfold Llc.processAck at h
    split at h
    · cases h; rfl
    · split at h
      · cases h; rfl
      · split at h
        · simp only [Res.bind_eq_ok] at h
          obtain ⟨_, _, h⟩ := h; cases h; rfl
        · cases h; rfl
  have hbl : ∀ k, s.rxBl k addr ts pdu = .ok (s', es) → s'.udata = s.udata ∧ ∀ e ∈ es, ∀ a p, e ≠ .udata a p := by
    intro k h
    unfold Llc.rxBl at h
    split at h
    · cases h; simp
    · rename_i f ns nr body _
      rw [Res.bind_eq_ok] at h
      obtain ⟨good, _, h⟩ := h
      cases good with
      | false => simp at h; obtain ⟨rfl, rfl⟩ := h; simp
      | true =>
        simp only [if_true, Llc.acceptBl, Res.bind_eq_ok] at h
        obtain ⟨⟨s1, es1⟩, h1, h2⟩ := h
        cases h2
        have ho : (s.owe addr ts ns).udata = s.udata := by cases ns <;> rfl
        have hd : ∀ e ∈ deliver k addr ts f body, ∀ a p, e ≠ .udata a p := by
          intro e he; unfold deliver at he; split at he
          · cases he
          · simp at he; subst he; simp
        cases nr with
        | none =>
          cases h1
          exact ⟨ho, by simpa using hd⟩
        | some nr =>
          refine ⟨by rw [hp _ _ _ _ _ h1, ho], ?_⟩
          intro e he
          rw [List.mem_append] at he
          rcases he with he | he
          · obtain ⟨b, rfl⟩ := (processAck_balance h1).2.2 e he; simp
          · exact hd e he
  unfold Llc.unitdataInd at h
  split at h
  · cases h; simp
  · cases h; simp
  · cases h
  · exact hbl _ h

theorem tickEnd_udata {s s' : Llc} {es : List Emit} (h : s.tickEnd = .ok (s', es)) : s'.udata = [] ∧ sentU (es.map .out) = s.udata := by
  simp only [Llc.tickEnd, Llc.retransmit, Res.bind_eq_ok] at h
  obtain ⟨⟨s1, es1⟩, ⟨⟨d1, d2⟩, hd, h1⟩, he⟩ := h
  cases h1; cases he
  refine ⟨rfl, ?_⟩
  have hfree : ∀ (out : List Msg) (b : List Nat), ∀ e ∈ (sendFree b out).2, ∃ m : Msg, e = m.emit := by
    intro out
    induction out with
    | nil => simp [sendFree]
    | cons m out ih =>
      intro b e he
      unfold sendFree at he
      split at he
      · exact ih _ e he
      · split at he
        · exact ih _ e he
        · rcases List.mem_cons.1 he with rfl | he
          · exact ⟨m, rfl⟩
          · exact ih _ e he
  have hpre : ∀ e ∈ (((s.out.map fun m => m.retry s.now).map fun r => r.2.1).flatten ++ d2) ++ (sendFree [] d1).2 ++ s.acks.map OwedAck.emit,
      ∀ a p, e ≠ .udata a p := by
    intro e he a p
    simp only [List.mem_append] at he
    rcases he with ((he | he) | he) | he
    · rw [List.mem_flatten] at he
      obtain ⟨l, hl, he⟩ := he
      rw [List.map_map, List.mem_map] at hl
      obtain ⟨m, _, rfl⟩ := hl
      simp only [Function.comp, Msg.retry] at he
      split at he
      · split at he
        · simp at he; subst he; simp [Msg.emit]
        · cases he
      · cases he
    · obtain ⟨b, rfl⟩ := (drops_balance _ hd ⟨0, 0, false⟩).2 e he; simp
    · obtain ⟨m, rfl⟩ := hfree _ _ e he; simp [Msg.emit]
    · rw [List.mem_map] at he
      obtain ⟨x, _, rfl⟩ := he; simp [OwedAck.emit]
  rw [List.map_append, sentU_append, sentU_none _ hpre, List.nil_append]
  simp [sentU, List.filterMap_map, Function.comp_def]

/-- Sent so far, in order, are exactly the unacknowledged requests up to the latest tick end, each as one BL-UDATA to
its address; what is left waits for the next tick end. -/
theorem c42_sent_once {evs : List Ev} {s : Llc} {tr : List Item} (h : Llc.init.run evs = .ok (s, tr)) :
    askedU tr = sentU tr ++ s.udata ∧
    ∀ s' es, s.step .tickEnd = .ok (s', es) → sentU (tr ++ [.ev .tickEnd] ++ es.map .out) = askedU tr := by
  have key : ∀ (evs : List Ev) (s0 : Llc) (tr0 : List Item), askedU tr0 = sentU tr0 ++ s0.udata → ∀ s tr, s0.run evs = .ok (s, tr) →
      askedU (tr0 ++ tr) = sentU (tr0 ++ tr) ++ s.udata := by
    intro evs
    induction evs with
    | nil => intro s0 tr0 h0 s tr h; simp [Llc.run] at h; obtain ⟨rfl, rfl⟩ := h; simpa using h0
    | cons e evs ih =>
      intro s0 tr0 h0 s tr h
      simp only [Llc.run, Res.bind_eq_ok] at h
      obtain ⟨⟨s1, es⟩, h1, ⟨s2, tr2⟩, h2, h3⟩ := h
      cases h3
      have hstep : askedU (tr0 ++ [.ev e] ++ es.map .out) = sentU (tr0 ++ [.ev e] ++ es.map .out) ++ s1.udata := by
        rw [askedU_append, askedU_append, sentU_append, sentU_append, askedU_outs, h0, List.append_nil]
        have hev : sentU [.ev e] = [] := rfl
        rw [hev, List.append_nil]
        cases e with
        | dataReq addr ts st fcs ea sdu =>
          simp only [Llc.step, Res.bind_eq_ok] at h1
          obtain ⟨s', h1, h4⟩ := h1
          cases h4
          have : s1.udata = s0.udata := by
            unfold Llc.dataReq at h1
            split at h1
            · cases h1
            · cases h1; rfl
          rw [this]; simp [askedU, sentU]
        | unitdataReq addr sdu => cases h1; simp [askedU, sentU, Llc.unitdataReq]
        | ind addr ts pdu =>
          obtain ⟨h5, h6⟩ := unitdataInd_udata h1
          rw [h5, sentU_none _ h6]; simp [askedU]
        | mac id d => cases h1; simp [askedU, sentU]
        | tickStart t => cases h1; simp [askedU, sentU]
        | tickEnd =>
          obtain ⟨h5, h6⟩ := tickEnd_udata h1
          rw [h5, h6]; simp [askedU]
      have := ih s1 _ hstep s2 tr2 h2
      simpa using this
  have hrun := key evs Llc.init [] rfl s tr h
  rw [List.nil_append] at hrun
  refine ⟨hrun, ?_⟩
  intro s' es he
  obtain ⟨_, h6⟩ := tickEnd_udata he
  rw [sentU_append, sentU_append, h6, hrun]
  simp [sentU]

example : outputs [.unitdataReq ⟨st1, 1, none, false⟩ [true], .unitdataReq ⟨st2, 3, some (some 5, 3), false⟩ [false], .tickEnd, .tickEnd] =
    some [.udata ⟨st1, 1, none, false⟩ [false, false, true, false, true],
      .udata ⟨st2, 3, some (some 5, 3), false⟩ [false, false, true, false, false]] := by decide +kernel

end Verif.Llc
