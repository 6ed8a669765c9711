import Verif.Dsp.Modem
import Verif.Dsp.TransmitProps
/-!
# The samples of a slot are those of its bits

`Dsp/Transmit.lean` keeps of a sample only its place in a slot; here is what the modulator feeds to its filter there.
-/
namespace Verif.Dsp.Slots
open Verif Verif.Tdma

/-- **C86, the modulator.** A slot is offered for the sample with counter `c`. The modulator asks for more data exactly when
`sampleAt` does; before the slot it is silent; at sample `k` of the slot it takes bits `k / 2` and `k / 2 + 1` if `k` is a
multiple of four, and feeds zero to its filter otherwise. -/
theorem c86_modulator (m : Modulator) (time : Time) (c : Int) (bits : List Bool) :
    (sampleAt time c = none ∧ m.input c time (some bits) = .ok none) ∨
    (sampleAt time c = some none ∧ m.input c time (some bits) = .ok (some (Cx.zero, m.phase))) ∨
    ∃ k : Nat, sampleAt time c = some (some (time, (k : Int))) ∧ k < 1020 ∧ time.toInt * 1020 + k = c + 16 ∧
      (k % 4 ≠ 0 → m.input c time (some bits) = .ok (some (Cx.zero, m.phase))) ∧
      ∀ b0 b1, k % 4 = 0 → bits[k / 2]? = some b0 → bits[k / 2 + 1]? = some b1 →
        m.input c time (some bits) = (dqpskSymbol m.phase b0 b1).bind fun p => .ok (some p) := by
  have htaps : (channelTaps.length : Int) = 16 := by decide
  rw [sampleAt_eq]
  unfold Modulator.input
  simp only [htaps, samplesSlot, sps]
  by_cases h0 : c + 16 - time.toInt * (4 * 255) < 0
  · rw [if_pos h0]
    exact .inr (.inl ⟨if_pos (by omega), rfl⟩)
  · rw [if_neg h0]
    by_cases h1 : c + 16 - time.toInt * (4 * 255) ≥ 4 * 255
    · rw [if_pos h1]
      exact .inl ⟨by rw [if_neg (by omega), if_pos (by omega)], rfl⟩
    · rw [if_neg h1]
      refine .inr (.inr ⟨(c + 16 - time.toInt * 1020).toNat, ?_, by omega, by omega, ?_, ?_⟩)
      · rw [if_neg (by omega), if_neg (by omega), show (((c + 16 - time.toInt * 1020).toNat : Nat) : Int) = c + 16 - time.toInt * 1020 by omega]
      · intro hk
        rw [if_neg (by omega)]
      · intro b0 b1 hk e0 e1
        rw [if_pos (by omega)]
        have hi : ((c + 16 - time.toInt * (4 * 255)) / 4).toNat * 2 = (c + 16 - time.toInt * 1020).toNat / 2 := by omega
        rw [hi]
        simp only [bitAt, e0, e1, Res.bind_ok]
        cases dqpskSymbol m.phase b0 b1 <;> rfl

end Verif.Dsp.Slots
