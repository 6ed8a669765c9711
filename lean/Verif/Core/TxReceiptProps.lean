import Verif.Core.TxReceipt
/-! # Property C06: transmission receipts -/
namespace Verif.TxReceipt

/-- The documented state machine (tx_receipt.rs:31-49), as a relation on observed states. -/
inductive Legal (expectsAck : Bool) : TxState → TxState → Prop where
  | transmit : Legal expectsAck .pending .transmitted
  | discard : Legal expectsAck .pending .discarded
  | ack : expectsAck = true → Legal expectsAck .transmitted .acknowledged
  | lose : expectsAck = true → Legal expectsAck .transmitted .lost

/-- Documented final states. -/
def Final (expectsAck : Bool) (s : TxState) : Prop :=
  s = .discarded ∨ s = .lost ∨ s = .acknowledged ∨ (s = .transmitted ∧ expectsAck = false)

/-- The byte always holds one of the five codes (true of `new`, kept by every step). -/
def Wf (c : Cell) : Prop := c.raw ≤ 4 ∧ (c.expectsAck = false → c.raw ≤ 2)
instance (c : Cell) : Decidable (Wf c) := by unfold Wf; infer_instance

private theorem raw_cases {c : Cell} (h : Wf c) :
    c.raw = 0 ∨ c.raw = 1 ∨ c.raw = 2 ∨ c.raw = 3 ∨ c.raw = 4 := by
  have := h.1; omega

/-- C06: each call either performs one legal transition, or is a reset, or aborts and leaves the cell
as it was. -/
theorem c06_step (c : Cell) (h : Wf c) (op : Op) :
    Wf (step c op).1 ∧ (step c op).1.expectsAck = c.expectsAck ∧
    ((op = .reset ∧ (step c op).1.getState = .pending ∧ (step c op).2 = false) ∨
     (op ≠ .reset ∧ (step c op).2 = false ∧ Legal c.expectsAck c.getState (step c op).1.getState) ∨
     (op ≠ .reset ∧ (step c op).2 = true ∧ (step c op).1 = c)) := by
  obtain ⟨e, r⟩ := c
  have hr := raw_cases h
  simp only at hr
  have h2 := h.2
  simp only at h2
  cases op <;> cases e <;>
    rcases hr with rfl | rfl | rfl | rfl | rfl <;>
    simp_all [step, step.lift, Cell.markTransmitted, Cell.markDiscarded, Cell.markAcknowledged, Cell.markLost,
      Cell.mark, Cell.reset, TxState.raw, Cell.getState, TxState.fromRaw, Wf, Res.assert] <;>
    constructor <;> rfl

/-- C06: a call that does not fit the present state aborts its caller: it never succeeds silently. -/
theorem c06_illegal_aborts (c : Cell) (h : Wf c) :
    ((step c .markTransmitted).2 = true ↔ c.getState ≠ .pending) ∧
    ((step c .markDiscarded).2 = true ↔ c.getState ≠ .pending) ∧
    ((step c .markAcknowledged).2 = true ↔ ¬ (c.getState = .transmitted ∧ c.expectsAck = true)) ∧
    ((step c .markLost).2 = true ↔ ¬ (c.getState = .transmitted ∧ c.expectsAck = true)) := by
  obtain ⟨e, r⟩ := c
  have hr := raw_cases h
  simp only at hr
  cases e <;> rcases hr with rfl | rfl | rfl | rfl | rfl <;>
    simp [step, step.lift, Cell.markTransmitted, Cell.markDiscarded, Cell.markAcknowledged, Cell.markLost,
      Cell.mark, TxState.raw, Cell.getState, TxState.fromRaw, Res.assert]

private theorem states_wf (ops : List Op) (c : Cell) (h : Wf c) :
    ∀ d ∈ states c ops, Wf d ∧ d.expectsAck = c.expectsAck := by
  induction ops generalizing c with
  | nil => intro d hd; simp [states] at hd; subst hd; exact ⟨h, rfl⟩
  | cons op rest ih =>
    intro d hd
    simp only [states, List.mem_cons] at hd
    rcases hd with rfl | hd
    · exact ⟨h, rfl⟩
    · have hs := c06_step c h op
      have := ih _ hs.1 d hd
      exact ⟨this.1, this.2.trans hs.2.1⟩

/-- C06: in every interleaving of calls by any holders, starting from a fresh receipt, a receipt that
expects no acknowledgement is never seen acknowledged or lost. -/
theorem c06_unacked_never_acked (ops : List Op) :
    ∀ d ∈ states Cell.newUnacked ops, d.getState ≠ .acknowledged ∧ d.getState ≠ .lost ∧
      d.isAcknowledged = false := by
  intro d hd
  have hw : Wf Cell.newUnacked := by decide
  obtain ⟨h, he⟩ := states_wf ops _ hw d hd
  have := h.2 he
  obtain ⟨e, r⟩ := d
  simp only at this
  have hr : r = 0 ∨ r = 1 ∨ r = 2 := by omega
  rcases hr with rfl | rfl | rfl <;> simp [Cell.getState, TxState.fromRaw, Cell.isAcknowledged, TxState.raw]

/-- C06: once a receipt reports a final state, every later observation without a reset reports that
same state. -/
theorem c06_final_is_stable (c : Cell) (h : Wf c) (hf : c.isFinal = true) (ops : List Op)
    (hnr : Op.reset ∉ ops) : ∀ d ∈ states c ops, d = c := by
  induction ops with
  | nil => intro d hd; simpa [states] using hd
  | cons op rest ih =>
    have hop : op ≠ .reset := fun e => hnr (by simp [e])
    have hs : (step c op).1 = c := by
      rcases (c06_step c h op).2.2 with ⟨e, _⟩ | ⟨_, _, hl⟩ | ⟨_, _, e⟩
      · exact absurd e hop
      · exfalso
        unfold Cell.isFinal at hf
        generalize c.getState = a at *
        generalize (step c op).1.getState = b at *
        cases hl <;> simp_all
      · exact e
    intro d hd
    simp only [states, List.mem_cons] at hd
    rcases hd with rfl | hd
    · rfl
    · rw [hs] at hd; exact ih (fun hm => hnr (List.mem_cons_of_mem _ hm)) d hd

/-- C06: the "final" query answers exactly the documented final states. -/
theorem c06_final_spec (c : Cell) (h : Wf c) : c.isFinal = true ↔ Final c.expectsAck c.getState := by
  obtain ⟨e, r⟩ := c
  have hr := raw_cases h
  simp only at hr
  cases e <;> rcases hr with rfl | rfl | rfl | rfl | rfl <;>
    simp [Cell.isFinal, Cell.getState, TxState.fromRaw, Final]

/-- C06: the raw-value queries agree with the state they name: discarded, "sent over the air or
further", and acknowledged. -/
theorem c06_queries (c : Cell) (h : Wf c) :
    (c.isDiscarded = true ↔ c.getState = .discarded) ∧
    (c.isTransmitted = true ↔ c.getState = .transmitted ∨ c.getState = .lost ∨ c.getState = .acknowledged) ∧
    (c.isAcknowledged = true ↔ c.getState = .acknowledged) := by
  obtain ⟨e, r⟩ := c
  have hr := raw_cases h
  simp only at hr
  rcases hr with rfl | rfl | rfl | rfl | rfl <;>
    simp [Cell.isDiscarded, Cell.isTransmitted, Cell.isAcknowledged, Cell.getState, TxState.fromRaw, TxState.raw]

/-- C06: consecutive observations in any interleaving without reset from a fresh receipt follow the
documented machine (or are equal). -/
theorem c06_history (c : Cell) (h : Wf c) (ops : List Op) (hnr : Op.reset ∉ ops)
    (l1 l2 : List Cell) (a b : Cell) (hl : states c ops = l1 ++ a :: b :: l2) :
    b = a ∨ Legal c.expectsAck a.getState b.getState := by
  induction ops generalizing c l1 with
  | nil =>
    have := congrArg List.length hl
    simp [states] at this; omega
  | cons op rest ih =>
    have hop : op ≠ .reset := fun e => hnr (by simp [e])
    have hs := c06_step c h op
    cases l1 with
    | nil =>
      simp only [states, List.nil_append, List.cons.injEq] at hl
      obtain ⟨rfl, hl⟩ := hl
      have hb : b = (step c op).1 := by
        cases rest <;> simp [states] at hl <;> first | exact hl.1.symm | exact hl.symm
      subst hb
      rcases hs.2.2 with ⟨e, _⟩ | ⟨_, _, hlg⟩ | ⟨_, _, e⟩
      · exact absurd e hop
      · exact .inr hlg
      · exact .inl e
    | cons x l1 =>
      simp only [states, List.cons_append, List.cons.injEq] at hl
      have := ih _ hs.1 (fun hm => hnr (List.mem_cons_of_mem _ hm)) l1 hl.2
      rwa [hs.2.1] at this

example : Wf Cell.new ∧ Wf Cell.newUnacked := by decide
example : (states Cell.new [.markTransmitted, .markAcknowledged, .markLost]).map Cell.getState =
    [.pending, .transmitted, .acknowledged, .acknowledged] := by decide

end Verif.TxReceipt
