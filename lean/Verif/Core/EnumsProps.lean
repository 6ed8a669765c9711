import Verif.Core.Enums
/-!
# C106 — The numbers of a message stand for what is written
-/
namespace Verif.Enums

/-- What one relies on: a number which is read is written again as itself; what is written is read as itself; the number written is the
one of the declaration; and it fits. -/
def Coding.Faithful (c : Coding) : Prop :=
  (∀ x v, c.tryFrom x = some v → c.raw v = x) ∧ (∀ v, c.tryFrom (c.raw v) = some v) ∧ (∀ v, c.raw v = c.number v) ∧
    ∀ v, c.raw v < 2 ^ c.bits

/-- An enumeration all of whose numbers are read. -/
def Coding.Full (c : Coding) : Prop := ∀ x, x < 2 ^ c.bits → ∃ v, c.tryFrom x = some v

macro "faithful" n:ident c:ident : tactic => `(tactic|
  (refine ⟨fun x v h => ?_, fun v => ?_, fun v => ?_, fun v => ?_⟩
   · simp only [$c:ident] at h
     split at h <;> first | (cases h; rfl) | cases h
   · change $n at v; cases v <;> rfl
   · change $n at v; cases v <;> rfl
   · change $n at v; cases v <;> exact of_decide_eq_true rfl))

theorem CallStatus.faithful : CallStatus.coding.Faithful := by
  faithful CallStatus CallStatus.coding
theorem CallTimeout.faithful : CallTimeout.coding.Faithful := by
  faithful CallTimeout CallTimeout.coding
theorem CallTimeoutSetupPhase.faithful : CallTimeoutSetupPhase.coding.Faithful := by
  faithful CallTimeoutSetupPhase CallTimeoutSetupPhase.coding
theorem CmcePduTypeDl.faithful : CmcePduTypeDl.coding.Faithful := by
  faithful CmcePduTypeDl CmcePduTypeDl.coding
theorem CmcePduTypeUl.faithful : CmcePduTypeUl.coding.Faithful := by
  faithful CmcePduTypeUl CmcePduTypeUl.coding
theorem DisconnectCause.faithful : DisconnectCause.coding.Faithful := by
  faithful DisconnectCause DisconnectCause.coding
theorem PartyTypeIdentifier.faithful : PartyTypeIdentifier.coding.Faithful := by
  faithful PartyTypeIdentifier PartyTypeIdentifier.coding
theorem SdsProtocolId.faithful : SdsProtocolId.coding.Faithful := by
  faithful SdsProtocolId SdsProtocolId.coding
theorem ShortReportType.faithful : ShortReportType.coding.Faithful := by
  faithful ShortReportType ShortReportType.coding
theorem TransmissionGrant.faithful : TransmissionGrant.coding.Faithful := by
  faithful TransmissionGrant TransmissionGrant.coding
theorem CmceType3ElemId.faithful : CmceType3ElemId.coding.Faithful := by
  faithful CmceType3ElemId CmceType3ElemId.coding
theorem LlcPduType.faithful : LlcPduType.coding.Faithful := by
  faithful LlcPduType LlcPduType.coding
theorem MlePduTypeDl.faithful : MlePduTypeDl.coding.Faithful := by
  faithful MlePduTypeDl MlePduTypeDl.coding
theorem MlePduTypeUl.faithful : MlePduTypeUl.coding.Faithful := by
  faithful MlePduTypeUl MlePduTypeUl.coding
theorem MleProtocolDiscriminator.faithful : MleProtocolDiscriminator.coding.Faithful := by
  faithful MleProtocolDiscriminator MleProtocolDiscriminator.coding
theorem EnergySavingMode.faithful : EnergySavingMode.coding.Faithful := by
  faithful EnergySavingMode EnergySavingMode.coding
theorem LocationUpdateAcceptType.faithful : LocationUpdateAcceptType.coding.Faithful := by
  faithful LocationUpdateAcceptType LocationUpdateAcceptType.coding
theorem LocationUpdateType.faithful : LocationUpdateType.coding.Faithful := by
  faithful LocationUpdateType LocationUpdateType.coding
theorem MmPduTypeDl.faithful : MmPduTypeDl.coding.Faithful := by
  faithful MmPduTypeDl MmPduTypeDl.coding
theorem MmPduTypeUl.faithful : MmPduTypeUl.coding.Faithful := by
  faithful MmPduTypeUl MmPduTypeUl.coding
theorem StatusDownlink.faithful : StatusDownlink.coding.Faithful := by
  faithful StatusDownlink StatusDownlink.coding
theorem StatusUplink.faithful : StatusUplink.coding.Faithful := by
  faithful StatusUplink StatusUplink.coding
theorem MmType34ElemIdDl.faithful : MmType34ElemIdDl.coding.Faithful := by
  faithful MmType34ElemIdDl MmType34ElemIdDl.coding
theorem MmType34ElemIdUl.faithful : MmType34ElemIdUl.coding.Faithful := by
  faithful MmType34ElemIdUl MmType34ElemIdUl.coding
theorem BasicSlotgrantCapAlloc.faithful : BasicSlotgrantCapAlloc.coding.Faithful := by
  faithful BasicSlotgrantCapAlloc BasicSlotgrantCapAlloc.coding
theorem BroadcastType.faithful : BroadcastType.coding.Faithful := by
  faithful BroadcastType BroadcastType.coding
theorem MacPduType.faithful : MacPduType.coding.Faithful := by
  faithful MacPduType MacPduType.coding
theorem MacResourceAddrType.faithful : MacResourceAddrType.coding.Faithful := by
  faithful MacResourceAddrType MacResourceAddrType.coding
theorem ReservationRequirement.faithful : ReservationRequirement.coding.Faithful := by
  faithful ReservationRequirement ReservationRequirement.coding
theorem SysinfoOptFieldFlag.faithful : SysinfoOptFieldFlag.coding.Faithful := by
  faithful SysinfoOptFieldFlag SysinfoOptFieldFlag.coding
theorem CircuitModeType.faithful : CircuitModeType.coding.Faithful := by
  faithful CircuitModeType CircuitModeType.coding
theorem CommunicationType.faithful : CommunicationType.coding.Faithful := by
  faithful CommunicationType CommunicationType.coding
theorem ChanAllocType.faithful : ChanAllocType.coding.Faithful := by
  faithful ChanAllocType ChanAllocType.coding
theorem UlDlAssignment.faithful : UlDlAssignment.coding.Faithful := by
  faithful UlDlAssignment UlDlAssignment.coding

/-! ## C106 -/

/-- **C106**: the laws hold for every coded enumeration. -/
theorem c106_faithful : ∀ c ∈ all, c.Faithful := by
  simp only [all, List.forall_mem_cons, List.not_mem_nil, false_implies, implies_true, and_true]
  exact ⟨CallStatus.faithful, CallTimeout.faithful, CallTimeoutSetupPhase.faithful, CmcePduTypeDl.faithful,
    CmcePduTypeUl.faithful, DisconnectCause.faithful, PartyTypeIdentifier.faithful, SdsProtocolId.faithful,
    ShortReportType.faithful, TransmissionGrant.faithful, CmceType3ElemId.faithful, LlcPduType.faithful,
    MlePduTypeDl.faithful, MlePduTypeUl.faithful, MleProtocolDiscriminator.faithful, EnergySavingMode.faithful,
    LocationUpdateAcceptType.faithful, LocationUpdateType.faithful, MmPduTypeDl.faithful, MmPduTypeUl.faithful,
    StatusDownlink.faithful, StatusUplink.faithful, MmType34ElemIdDl.faithful, MmType34ElemIdUl.faithful,
    BasicSlotgrantCapAlloc.faithful, BroadcastType.faithful, MacPduType.faithful, MacResourceAddrType.faithful,
    ReservationRequirement.faithful, SysinfoOptFieldFlag.faithful, CircuitModeType.faithful, CommunicationType.faithful,
    ChanAllocType.faithful, UlDlAssignment.faithful⟩

/-- **C106, what is known**: exactly the numbers of the declaration are read, and no two of its names have the same number. -/
theorem c106_known (c : Coding) (hc : c ∈ all) :
    (∀ x, (∃ v, c.tryFrom x = some v) ↔ ∃ v, c.number v = x) ∧ ∀ v w, c.number v = c.number w → v = w := by
  obtain ⟨h1, h2, h3, _⟩ := c106_faithful c hc
  refine ⟨fun x => ⟨?_, ?_⟩, fun v w h => ?_⟩
  · rintro ⟨v, h⟩; exact ⟨v, by rw [← h3, h1 x v h]⟩
  · rintro ⟨v, rfl⟩; exact ⟨v, by rw [← h3, h2]⟩
  · rw [← h3, ← h3] at h
    have := h2 v
    rw [h, h2 w] at this
    exact (Option.some.inj this).symm

/-- **C106, no number unknown**: these are read whatever the bits are. -/
def fullOnes : List Coding := [CallTimeout.coding, CallTimeoutSetupPhase.coding, PartyTypeIdentifier.coding, ShortReportType.coding,
  TransmissionGrant.coding, LlcPduType.coding, MlePduTypeDl.coding, EnergySavingMode.coding,
  LocationUpdateAcceptType.coding, LocationUpdateType.coding, BasicSlotgrantCapAlloc.coding, MacPduType.coding,
  MacResourceAddrType.coding, ReservationRequirement.coding, SysinfoOptFieldFlag.coding, CircuitModeType.coding,
  CommunicationType.coding, ChanAllocType.coding, UlDlAssignment.coding]

theorem c106_full : ∀ c ∈ fullOnes, c ∈ all ∧ c.Full := by
  simp only [fullOnes, List.forall_mem_cons, List.not_mem_nil, false_implies, implies_true, and_true]
  refine ⟨⟨by simp [all], ?_⟩, ⟨by simp [all], ?_⟩, ⟨by simp [all], ?_⟩, ⟨by simp [all], ?_⟩, ⟨by simp [all], ?_⟩, ⟨by simp [all], ?_⟩, ⟨by simp [all], ?_⟩, ⟨by simp [all], ?_⟩, ⟨by simp [all], ?_⟩, ⟨by simp [all], ?_⟩, ⟨by simp [all], ?_⟩, ⟨by simp [all], ?_⟩, ⟨by simp [all], ?_⟩, ⟨by simp [all], ?_⟩, ⟨by simp [all], ?_⟩, ⟨by simp [all], ?_⟩, ⟨by simp [all], ?_⟩, ⟨by simp [all], ?_⟩, ⟨by simp [all], ?_⟩⟩ <;> intro x hx
  · have : ∀ y : Fin (2 ^ CallTimeout.coding.bits), (CallTimeout.coding.tryFrom y).isSome := by decide +kernel
    exact Option.isSome_iff_exists.1 (this ⟨x, hx⟩)
  · have : ∀ y : Fin (2 ^ CallTimeoutSetupPhase.coding.bits), (CallTimeoutSetupPhase.coding.tryFrom y).isSome := by decide +kernel
    exact Option.isSome_iff_exists.1 (this ⟨x, hx⟩)
  · have : ∀ y : Fin (2 ^ PartyTypeIdentifier.coding.bits), (PartyTypeIdentifier.coding.tryFrom y).isSome := by decide +kernel
    exact Option.isSome_iff_exists.1 (this ⟨x, hx⟩)
  · have : ∀ y : Fin (2 ^ ShortReportType.coding.bits), (ShortReportType.coding.tryFrom y).isSome := by decide +kernel
    exact Option.isSome_iff_exists.1 (this ⟨x, hx⟩)
  · have : ∀ y : Fin (2 ^ TransmissionGrant.coding.bits), (TransmissionGrant.coding.tryFrom y).isSome := by decide +kernel
    exact Option.isSome_iff_exists.1 (this ⟨x, hx⟩)
  · have : ∀ y : Fin (2 ^ LlcPduType.coding.bits), (LlcPduType.coding.tryFrom y).isSome := by decide +kernel
    exact Option.isSome_iff_exists.1 (this ⟨x, hx⟩)
  · have : ∀ y : Fin (2 ^ MlePduTypeDl.coding.bits), (MlePduTypeDl.coding.tryFrom y).isSome := by decide +kernel
    exact Option.isSome_iff_exists.1 (this ⟨x, hx⟩)
  · have : ∀ y : Fin (2 ^ EnergySavingMode.coding.bits), (EnergySavingMode.coding.tryFrom y).isSome := by decide +kernel
    exact Option.isSome_iff_exists.1 (this ⟨x, hx⟩)
  · have : ∀ y : Fin (2 ^ LocationUpdateAcceptType.coding.bits), (LocationUpdateAcceptType.coding.tryFrom y).isSome := by decide +kernel
    exact Option.isSome_iff_exists.1 (this ⟨x, hx⟩)
  · have : ∀ y : Fin (2 ^ LocationUpdateType.coding.bits), (LocationUpdateType.coding.tryFrom y).isSome := by decide +kernel
    exact Option.isSome_iff_exists.1 (this ⟨x, hx⟩)
  · have : ∀ y : Fin (2 ^ BasicSlotgrantCapAlloc.coding.bits), (BasicSlotgrantCapAlloc.coding.tryFrom y).isSome := by decide +kernel
    exact Option.isSome_iff_exists.1 (this ⟨x, hx⟩)
  · have : ∀ y : Fin (2 ^ MacPduType.coding.bits), (MacPduType.coding.tryFrom y).isSome := by decide +kernel
    exact Option.isSome_iff_exists.1 (this ⟨x, hx⟩)
  · have : ∀ y : Fin (2 ^ MacResourceAddrType.coding.bits), (MacResourceAddrType.coding.tryFrom y).isSome := by decide +kernel
    exact Option.isSome_iff_exists.1 (this ⟨x, hx⟩)
  · have : ∀ y : Fin (2 ^ ReservationRequirement.coding.bits), (ReservationRequirement.coding.tryFrom y).isSome := by decide +kernel
    exact Option.isSome_iff_exists.1 (this ⟨x, hx⟩)
  · have : ∀ y : Fin (2 ^ SysinfoOptFieldFlag.coding.bits), (SysinfoOptFieldFlag.coding.tryFrom y).isSome := by decide +kernel
    exact Option.isSome_iff_exists.1 (this ⟨x, hx⟩)
  · have : ∀ y : Fin (2 ^ CircuitModeType.coding.bits), (CircuitModeType.coding.tryFrom y).isSome := by decide +kernel
    exact Option.isSome_iff_exists.1 (this ⟨x, hx⟩)
  · have : ∀ y : Fin (2 ^ CommunicationType.coding.bits), (CommunicationType.coding.tryFrom y).isSome := by decide +kernel
    exact Option.isSome_iff_exists.1 (this ⟨x, hx⟩)
  · have : ∀ y : Fin (2 ^ ChanAllocType.coding.bits), (ChanAllocType.coding.tryFrom y).isSome := by decide +kernel
    exact Option.isSome_iff_exists.1 (this ⟨x, hx⟩)
  · have : ∀ y : Fin (2 ^ UlDlAssignment.coding.bits), (UlDlAssignment.coding.tryFrom y).isSome := by decide +kernel
    exact Option.isSome_iff_exists.1 (this ⟨x, hx⟩)

/-- **C106, granting delay**: every number of four bits is read and written again as itself; of the delays those from 1 to 13 are read as
written, the others (which the comment of the enum excludes) are read as something else or not at all. -/
theorem c106_delay :
    (∀ x d, Delay.tryFrom x = some d → d.raw = x) ∧ (∀ x, (∃ d, Delay.tryFrom x = some d) ↔ x < 16) ∧
      ∀ d : Delay, Delay.tryFrom d.raw = some d ↔ ∀ n, d = .opportunities n → 1 ≤ n ∧ n ≤ 13 := by
  refine ⟨fun x d h => ?_, fun x => ⟨?_, fun h => ?_⟩, fun d => ?_⟩
  · simp only [Delay.tryFrom] at h
    split at h
    · cases h; simp_all [Delay.raw]
    split at h
    · cases h; rfl
    split at h
    · cases h; simp_all [Delay.raw]
    split at h
    · cases h; simp_all [Delay.raw]
    · cases h
  · rintro ⟨d, h⟩
    simp only [Delay.tryFrom] at h
    repeat' split at h
    all_goals first | omega | cases h
  · simp only [Delay.tryFrom]
    repeat' split
    all_goals first | exact ⟨_, rfl⟩ | omega
  · cases d with
    | opportunities n =>
      show Delay.tryFrom n = some (.opportunities n) ↔ _
      simp only [Delay.tryFrom, Delay.opportunities.injEq, forall_eq']
      constructor
      · intro h
        repeat' split at h
        all_goals first | assumption | cases h
      · intro h
        rw [if_neg (by omega), if_pos h]
    | atNext => simp [Delay.raw, Delay.tryFrom]
    | inFrame18 => simp [Delay.raw, Delay.tryFrom]
    | wait => simp [Delay.raw, Delay.tryFrom]

/-- A number not known, and one which is. -/
example : StatusDownlink.coding.tryFrom 6 = none ∧ StatusDownlink.coding.tryFrom 24 = some .commandToStopDmGatewayOperation := ⟨rfl, rfl⟩

end Verif.Enums
