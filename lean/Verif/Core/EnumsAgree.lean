import Verif.Core.EnumsProps
import Verif.Cmce.CmceBs
import Verif.Llc.Pdus
import Verif.Mle.MleBs
import Verif.Mm.Pdus
import Verif.Umac.MacPdus
/-!
# C106 — The layers use the numbers of the tables

The models of the layers have an enumeration as its number, or only the values a layer uses. Here they are compared with the tables.
-/
namespace Verif.Enums
open Verif

/-- Which protocol of mobility link entity is which. -/
def discName : Mle.Disc → MleProtocolDiscriminator
  | .mm => .mm
  | .cmce => .cmce
  | .sndcp => .sndcp
  | .mle => .mle
  | .management => .tetraManagementEntity

/-- Which type of link layer is handled as what. -/
def llcKind : LlcPduType → Llc.Kind
  | .blAdata | .blAdataFcs => .adata
  | .blData | .blDataFcs => .data
  | .blUdata | .blUdataFcs => .udata
  | .blAck | .blAckFcs => .ack
  | .suppLlcPdu | .l2SigPdu => .other
  | _ => .advanced

/-- Which delay is which. -/
def delayName : Umac.GrantDelay → Delay
  | .nextOpportunity => .atNext
  | .delay n => .opportunities n
  | .inFrame18 => .inFrame18
  | .waitForAnother => .wait

/-- Which cause and which grant is which. -/
def causeName : Cmce.Cause → DisconnectCause
  | .userRequested => .userRequestedDisconnection
  | .notAvailable => .requestedServiceNotAvailable
  | .expiryOfTimer => .expiryOfTimer
  | .swmiRequested => .swmiRequestedDisconnection

def grantName : Cmce.TxGrant → TransmissionGrant
  | .granted => .granted
  | .notGranted => .notGranted
  | .grantedToOther => .grantedToOtherUser

/-- **C106, known numbers**: mobility management refuses exactly the status numbers that are not in the table; call control exactly the
causes and states of a call that are not. -/
theorem c106_refused (n : Nat) :
    (Mm.statusKnown n = true ↔ ∃ v, StatusUplink.coding.tryFrom n = some v) ∧
      (n ≤ 23 ↔ ∃ v, DisconnectCause.coding.tryFrom n = some v) ∧ (n ≤ 4 ↔ ∃ v, CallStatus.coding.tryFrom n = some v) := by
  have big : ∀ c ∈ all, ∀ x v, c.tryFrom x = some v → x < 2 ^ c.bits := by
    intro c hc x v h
    obtain ⟨h1, _, _, h4⟩ := c106_faithful c hc
    rw [← h1 x v h]; exact h4 v
  have key : ∀ (c : Coding) (p : Nat → Bool), c ∈ all → (∀ x, p x = true → x < 2 ^ c.bits) →
      (∀ x : Fin (2 ^ c.bits), p x = (c.tryFrom x).isSome) → (p n = true ↔ ∃ v, c.tryFrom n = some v) := by
    intro c p hc hp h
    rw [← Option.isSome_iff_exists]
    constructor
    · intro hn; have := h ⟨n, hp n hn⟩; simp only at this; rw [← this, hn]
    · intro hs
      obtain ⟨v, hv⟩ := Option.isSome_iff_exists.1 hs
      have := h ⟨n, big c hc n v hv⟩; simp only at this; rw [this, hs]
  refine ⟨key StatusUplink.coding _ (by simp [all]) ?_ (by decide +kernel), ?_, ?_⟩
  · intro x hx
    have hb : StatusUplink.coding.bits = 6 := rfl
    simp only [Mm.statusKnown, Bool.or_eq_true, Bool.and_eq_true, decide_eq_true_eq] at hx
    rw [hb]; omega
  · have := key DisconnectCause.coding (fun n => decide (n ≤ 23)) (by simp [all]) (fun x hx => ?_) (by decide +kernel)
    · simpa using this
    · have hb : DisconnectCause.coding.bits = 5 := rfl
      have := of_decide_eq_true hx
      rw [hb]; omega
  · have := key CallStatus.coding (fun n => decide (n ≤ 4)) (by simp [all]) (fun x hx => ?_) (by decide +kernel)
    · simpa using this
    · have hb : CallStatus.coding.bits = 3 := rfl
      have := of_decide_eq_true hx
      rw [hb]; omega

/-- **C106, the same numbers in the layers**: protocols above the mobility link entity, causes, grants and times of call control, granting
delays and the types of the link layer are read and written as in the tables. -/
theorem c106_layers :
    (∀ x, (Mle.Disc.ofRaw x).map discName = MleProtocolDiscriminator.coding.tryFrom x) ∧
    (∀ d, d.raw = MleProtocolDiscriminator.coding.raw (discName d)) ∧
    (∀ c, c.raw = DisconnectCause.coding.raw (causeName c)) ∧ (∀ g, g.raw = TransmissionGrant.coding.raw (grantName g)) ∧
    Cmce.timeout5m = CallTimeout.coding.raw .t5m ∧ Cmce.setup10s = CallTimeoutSetupPhase.coding.raw .t10s ∧
    (∀ x, x < 16 → Delay.tryFrom x = some (delayName (.ofRaw x))) ∧ (∀ d, d.raw = (delayName d).raw) ∧
    ∀ a b c d r, Llc.kindOf (a :: b :: c :: d :: r) = (LlcPduType.coding.tryFrom (Bits.ofBits [a, b, c, d])).map llcKind := by
  refine ⟨fun x => ?_, fun d => by cases d <;> rfl, fun c => by cases c <;> rfl, fun g => by cases g <;> rfl, rfl, rfl, ?_,
    fun d => by cases d <;> rfl, ?_⟩
  · simp only [Mle.Disc.ofRaw, MleProtocolDiscriminator.coding]
    split <;> first | rfl | (split <;> first | rfl | simp_all)
  · have : ∀ x : Fin 16, Delay.tryFrom x = some (delayName (.ofRaw x)) := by decide +kernel
    exact fun x hx => this ⟨x, hx⟩
  · intro a b c d r
    cases a <;> cases b <;> cases c <;> cases d <;> rfl

/-- A status which is not known, though it has six bits. -/
example : Mm.statusKnown 8 = false ∧ Mm.statusKnown 24 = true := by decide

end Verif.Enums
