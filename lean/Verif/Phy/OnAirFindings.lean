import Verif.Phy.OnAirProps
import Verif.Umac.SchedFindings
/-!
# C65, C66: concrete slots
-/
namespace Verif.Phy
open Verif.Umac Verif.Tdma Verif.ErrorControl Verif.ConvEnc Verif.Interleaver Verif.Arr

theorem built_first {x : Time} {scramb : Nat} {cfg : CellCfg} {y : TickOut}
    (h : slotsOf ((Sched.init x scramb (Precomps.generate cfg)).run [.tick]) = [y]) : Built cfg scramb x [] y := by
  cases hr : (Sched.init x scramb (Precomps.generate cfg)).step .tick with
  | ok r =>
    have e : (Sched.init x scramb (Precomps.generate cfg)).run [.tick] = .ok (r.1, [(.tick, r.2)]) := by
      simp [Sched.run, hr, bind, Codec.Out.bind]
    rw [e] at h
    cases hq : r.2 with
    | sent y' =>
      rw [hq] at h e
      simp only [slotsOf, List.filterMap_cons, List.filterMap_nil, List.cons.injEq, and_true] at h
      subst h
      exact ⟨r.1, [], e⟩
    | _ => rw [hq] at h; simp [slotsOf] at h
  | err => simp [Sched.run, hr, slotsOf, bind, Codec.Out.bind] at h
  | panic => simp [Sched.run, hr, slotsOf, bind, Codec.Out.bind] at h

/-! ### Coding in steps -/

/-- Of every eight bits the first, second and fifth: what puncturing at two thirds keeps. -/
def kept {α : Type} : List α → List α
  | a :: b :: _ :: _ :: e :: _ :: _ :: _ :: rest => a :: b :: e :: kept rest
  | _ => []

theorem kept_spec {α : Type} : ∀ (k : Nat) (l : List α), 8 * k ≤ l.length →
    3 * k ≤ (kept l).length ∧ ∀ i, i < 3 * k → (kept l)[i]? = l[rate2_3.pos i]?
  | 0, l, _ => ⟨by omega, fun i hi => by omega⟩
  | k + 1, a :: b :: c :: d :: e :: f :: g :: h :: rest, hl => by
    obtain ⟨h1, h2⟩ := kept_spec k rest (by simp at hl; omega)
    refine ⟨by simp [kept]; omega, fun i hi => ?_⟩
    match i, hi with
    | 0, _ => rfl
    | 1, _ => rfl
    | 2, _ => rfl
    | i + 3, hi =>
      have e : rate2_3.pos (i + 3) = rate2_3.pos i + 8 := by
        have : (i + 3) / 3 = i / 3 + 1 := by omega
        have hm : i + 3 + 1 - 3 * ((i + 3 + 1 - 1) / 3) = i + 1 - 3 * ((i + 1 - 1) / 3) := by omega
        simp only [Puncturer.pos, rate2_3, hm]
        have : 1 ≤ [0, 1, 2, 5].getD (i + 1 - 3 * ((i + 1 - 1) / 3)) 0 := by
          have : i + 1 - 3 * ((i + 1 - 1) / 3) = 1 ∨ i + 1 - 3 * ((i + 1 - 1) / 3) = 2 ∨ i + 1 - 3 * ((i + 1 - 1) / 3) = 3 := by omega
          rcases this with h | h | h <;> rw [h] <;> decide
        omega
      rw [e]
      simpa [kept] using h2 i (by omega)
  | k + 1, [], hl | k + 1, [_], hl | k + 1, [_, _], hl | k + 1, [_, _, _], hl | k + 1, [_, _, _, _], hl | k + 1, [_, _, _, _, _], hl
  | k + 1, [_, _, _, _, _, _], hl | k + 1, [_, _, _, _, _, _, _], hl => by simp at hl; try omega

theorem puncture_eq {α : Type} {input out : List α} {k : Nat} (ho : out.length = 3 * k) (hi : 8 * k ≤ input.length) :
    puncture rate2_3 input out = .ok ((kept input).take (3 * k)) := by
  obtain ⟨h1, h2⟩ := kept_spec k input hi
  have hp : ∀ i, i < 3 * k → rate2_3.pos i < input.length := by
    intro i hi'
    have := h2 i hi'
    rw [List.getElem?_eq_getElem (by omega)] at this
    exact (List.getElem?_eq_some_iff.1 this.symm).1
  obtain ⟨r, e, hl, _, hw⟩ := moveLoop_ok id rate2_3.pos input out.length out (by rw [ho]; exact hp) (fun i hi => hi)
  have : r = (kept input).take (3 * k) := by
    apply List.ext_getElem?
    intro i
    by_cases h : i < 3 * k
    · rw [List.getElem?_take, if_pos h, h2 i h]
      exact hw (fun _ _ _ _ h => h) i (by omega)
    · rw [List.getElem?_eq_none (by omega), List.getElem?_eq_none (by simp; omega)]
  rw [← this]; exact e

/-- The coding chain in steps. -/
theorem encodeCp_steps {c : Interleaver.Chan} {t1 t3 t4 : List Bool} {code : BitVec 32} (h1 : isCp c = true) (h2 : t1.length = (params c).type1)
    (h3 : (params c).crc = true) (h4 : 4 * ((type2Arr t1).take (params c).type2).length ≤ 1728)
    (h5 : (kept ((encodeLoop cchTaps Enc.zero ((type2Arr t1).take (params c).type2)).1 ++
      List.replicate (1728 - 4 * ((type2Arr t1).take (params c).type2).length) false)).take 432 = t3)
    (h6 : blockInterleave (params c).type345 (params c).a t3 (List.replicate 432 false) = .ok t4) :
    encodeCp c t1 code = .ok (Scrambler.scramble code (t4.take (params c).type345)) := by
  have hlen : ∀ (l : List Bool) (s : Enc), (encodeLoop cchTaps s l).1.length = 4 * l.length := by
    intro l
    induction l with
    | nil => intro s; rfl
    | cons b bs ih => intro s; simp [encodeLoop, ih, cchTaps]; omega
  have hp := puncture_eq (input := (encodeLoop cchTaps Enc.zero ((type2Arr t1).take (params c).type2)).1 ++
      List.replicate (1728 - 4 * ((type2Arr t1).take (params c).type2).length) false) (out := List.replicate 432 false) (k := 144)
      (by rw [List.length_replicate]) (by rw [List.length_append, hlen, List.length_replicate]; omega)
  rw [h5] at hp
  have he : encode cchTaps 4 Enc.zero ((type2Arr t1).take (params c).type2) (List.replicate 1728 false) =
      .ok ((encodeLoop cchTaps Enc.zero ((type2Arr t1).take (params c).type2)).1 ++
        List.replicate (1728 - 4 * ((type2Arr t1).take (params c).type2).length) false,
        (encodeLoop cchTaps Enc.zero ((type2Arr t1).take (params c).type2)).2) := by
    unfold encode
    rw [List.length_replicate, List.drop_replicate, Nat.mul_comm ((type2Arr t1).take (params c).type2).length 4]
    simp only [Res.assert, ge_iff_le, h4, decide_true, if_true, Res.bind_ok]
    rfl
  unfold encodeCp
  simp only [h1, h2, h3, he, hp, h6, Res.assert, beq_self_eq_true, if_true, Res.bind_ok]
  rfl


/-! ### The blocks of the first slot -/

theorem first_aach : Rm3014.encodeAach (Bits.toBits 14 0x3000) (BitVec.ofNat 32 864282631) = .ok (Bits.toBits 30 0x155dc18a) := by
  decide +kernel

theorem first_sync_mixed : blockInterleave 120 11
    (Bits.toBits 432 0x1b52ceeb758c4c53bdb2bd23c43835000000000000000000000000000000000000000000000000000000000000000000000000000000)
    (List.replicate 432 false) = .ok
    (Bits.toBits 432 0xa08f406c1b6e316852cf9c95e5fbbb000000000000000000000000000000000000000000000000000000000000000000000000000000) := by
  decide +kernel

theorem first_sync : encodeCp .bsch (Bits.toBits 60 0x30608204660a731) (BitVec.ofNat 32 3) =
    .ok (Bits.toBits 120 0x1f7bb1f6db2993c6f16d6cba5ab102) := by
  rw [encodeCp_steps (c := .bsch) rfl (by decide +kernel) rfl (by decide +kernel) (by decide +kernel) first_sync_mixed]
  decide +kernel

theorem first_net_mixed : blockInterleave 216 101
    (Bits.toBits 432 0xebd2dcbd803db7fd4e00003d9eedd80000079adb6da8c5d91a283b000000000000000000000000000000000000000000000000000000)
    (List.replicate 432 false) = .ok
    (Bits.toBits 432 0xbfd80f68509d6a5228dcc366844655e95b0d6652ac84c570cdafe2000000000000000000000000000000000000000000000000000000) := by
  decide +kernel

theorem first_net : encodeCp .bnch (Bits.toBits 124 0x85f1400a6e60000a15400002ffffd21) (BitVec.ofNat 32 864282631) =
    .ok (Bits.toBits 216 0x2aadd34200182851c9c9bd767dcec69819e6268a1c51800ce99c8b) := by
  rw [encodeCp_steps (c := .bnch) rfl (by decide +kernel) rfl (by decide +kernel) (by decide +kernel) first_net_mixed]
  decide +kernel

/-- The first slot of the sample cell. -/
def firstSlot : List TickOut := slotsOf (sampleRun [.tick])

/-- Kind of a slot and how its two windows turn the carrier. -/
def windows (y : TickOut) : Bool × Int × Int :=
  match sendSlot y.slot with
  | .ok b => (y.slot.blk1.chan == .bsch, carrier 0 (field b 14 202) % 4, carrier 0 (field b 216 282) % 4)
  | .panic => (false, 0, 0)

theorem windows_spec {y : TickOut} {i j : Int} (h : windows y = (true, i, j)) : ∃ b, y.slot.blk1.chan = .bsch ∧ sendSlot y.slot = .ok b ∧
    carrier 0 (field b 14 202) % 4 = i ∧ carrier 0 (field b 216 282) % 4 = j := by
  unfold windows at h
  split at h
  · rename_i b hb
    simp only [Prod.mk.injEq, beq_iff_eq] at h
    exact ⟨b, h.1, hb, h.2.1, h.2.2⟩
  · simp at h

theorem windows_one {l : List TickOut} {i j : Int} (hf : l.map windows = [(true, i, j)]) : ∃ y b, l = [y] ∧
    y.slot.blk1.chan = .bsch ∧ sendSlot y.slot = .ok b ∧
    carrier 0 (field b 14 202) % 4 = i ∧ carrier 0 (field b 216 282) % 4 = j := by
  match l, hf with
  | [y], hf =>
    simp only [List.map_cons, List.map_nil, List.cons.injEq, and_true] at hf
    obtain ⟨b, h⟩ := windows_spec hf
    exact ⟨y, b, rfl, h⟩
  | [], hf => simp at hf
  | _ :: _ :: _, hf => simp at hf

/-- What a slot is sent from. -/
structure Parts where
  kinds : List Umac.Chan
  codes : List Nat
  bits : List (List Bool)
  deriving DecidableEq

def parts (y : DlSlot) : Option Parts := y.blk2.map fun r =>
  ⟨[y.blk1.chan, r.chan], [y.bbk.scramb, y.blk1.scramb, r.scramb], [whole y.bbk.blk, whole y.blk1.blk, whole r.blk]⟩

theorem first_parts : firstSlot.map (fun y => parts y.slot) = [some ⟨[.bsch, .bnch], [864282631, 3, 864282631],
    [Bits.toBits 14 0x3000, Bits.toBits 60 0x30608204660a731, Bits.toBits 124 0x85f1400a6e60000a15400002ffffd21]⟩] := by decide +kernel

theorem sendSlot_parts {y : DlSlot} (h : parts y = some ⟨[.bsch, .bnch], [864282631, 3, 864282631],
    [Bits.toBits 14 0x3000, Bits.toBits 60 0x30608204660a731, Bits.toBits 124 0x85f1400a6e60000a15400002ffffd21]⟩) :
    y.blk1.chan = .bsch ∧ sendSlot y = phySlot ⟨.sync, Bits.toBits 30 0x155dc18a, Bits.toBits 120 0x1f7bb1f6db2993c6f16d6cba5ab102,
      some (Bits.toBits 216 0x2aadd34200182851c9c9bd767dcec69819e6268a1c51800ce99c8b)⟩ := by
  unfold parts at h
  cases hr : y.blk2 with
  | none => rw [hr] at h; cases h
  | some r =>
    rw [hr] at h
    simp only [Option.map_some, Option.some.injEq, Parts.mk.injEq, List.cons.injEq, and_true] at h
    obtain ⟨⟨h1, h2⟩, ⟨h3, h4, h5⟩, h6, h7, h8⟩ := h
    refine ⟨h1, ?_⟩
    have e1 : codeBlock y.blk1 1 = .ok (Bits.toBits 120 0x1f7bb1f6db2993c6f16d6cba5ab102) := by
      unfold codeBlock; rw [h1, h4, h7]; exact first_sync
    have e2 : codeBlock r 2 = .ok (Bits.toBits 216 0x2aadd34200182851c9c9bd767dcec69819e6268a1c51800ce99c8b) := by
      unfold codeBlock; rw [h2, h5, h8]; exact first_net
    unfold sendSlot lmacSlot
    rw [h1, hr, h3, h6, first_aach, e1]
    simp only [burstKind, Res.bind_ok, Option.isSome_some, Res.assert, beq_self_eq_true, if_true, e2]

theorem phy_windows : (match phySlot ⟨.sync, Bits.toBits 30 0x155dc18a, Bits.toBits 120 0x1f7bb1f6db2993c6f16d6cba5ab102,
      some (Bits.toBits 216 0x2aadd34200182851c9c9bd767dcec69819e6268a1c51800ce99c8b)⟩ with
    | .ok b => (carrier 0 (field b 14 202) % 4, carrier 0 (field b 216 282) % 4)
    | .panic => (0, 0)) = (1, 1) := by decide +kernel

theorem first_windows : firstSlot.map windows = [(true, 1, 1)] := by
  have h := first_parts
  revert h
  generalize firstSlot = l
  intro h
  match l, h with
  | [y], h =>
    simp only [List.map_cons, List.map_nil, List.cons.injEq, and_true] at h
    obtain ⟨h1, h2⟩ := sendSlot_parts h
    have hw := phy_windows
    rw [List.map_cons, List.map_nil]
    unfold windows
    rw [h1, h2]
    revert hw
    generalize phySlot _ = r
    intro hw
    cases r with
    | ok b =>
      simp only [Prod.mk.injEq] at hw
      simp [hw.1, hw.2]
    | panic => simp at hw
  | [], h => simp at h
  | _ :: _ :: _, h => simp at h

/-- It is a synchronisation slot; both windows of its burst turn the carrier by one eighth more than a multiple of a half
turn. -/
theorem first_burst : ∃ y b, firstSlot = [y] ∧ y.slot.blk1.chan = .bsch ∧ sendSlot y.slot = .ok b ∧
    carrier 0 (field b 14 202) % 4 = 1 ∧ carrier 0 (field b 216 282) % 4 = 1 := windows_one first_windows

/-- **C66 does not hold.** In the very first slot of a cell both phase adjustment symbols are half a turn off (their two bits
are in the wrong order). -/
theorem c66_half_turn_off : ∃ y b, Built sampleCfg 864282631 sampleTime [] y ∧ sendSlot y.slot = .ok b ∧
    Opposite b 12 216 ∧ Opposite b 216 500 ∧ ¬ Aligned b 12 216 ∧ ¬ Aligned b 216 500 := by
  obtain ⟨y, b, hy, hc, hb, h1, h2⟩ := first_burst
  have hB : Built sampleCfg 864282631 sampleTime [] y := built_first hy
  have H := (c66_partial sampleCfg (by unfold CellCfg.InRange; decide) 864282631 sampleTime (by unfold Time.valid; decide) []
    (by intro e he; cases he) y hB b hb).1 hc
  have ho : Opposite b 12 216 := H.firstOff (by rw [show (216 : Nat) - 14 = 202 from rfl, h1]; decide)
  have ho2 : Opposite b 216 500 := H.secondOff (by rw [show (498 : Nat) - 216 = 282 from rfl, h2]; decide)
  refine ⟨y, b, hB, hb, ho, ho2, fun ha => ?_, fun ha => ?_⟩
  · have := ho 0 (by decide) (by decide)
    have := ha 0 (by decide) (by decide)
    omega
  · have := ho2 0 (by decide) (by decide)
    have := ha 0 (by decide) (by decide)
    omega

/-- The hypotheses of `c65_sync` are met: the first slot, received with one bit of the synchronisation block and one of the
training sequence wrong. -/
example : ∃ y b rx, Built sampleCfg 864282631 sampleTime [] y ∧ y.slot.blk1.chan = .bsch ∧ sendSlot y.slot = .ok b ∧ SyncNear rx b ∧ rx ≠ b := by
  obtain ⟨y, b, hy, hc, hb, _⟩ := first_burst
  have hB : Built sampleCfg 864282631 sampleTime [] y := built_first hy
  obtain ⟨b', hb', hl⟩ := c65_sent sampleCfg (by unfold CellCfg.InRange; decide) 864282631 sampleTime (by unfold Time.valid; decide) []
    (by intro e he; cases he) y hB
  rw [hb] at hb'; cases hb'
  have one : ∀ (o n p : Nat), ErrorControl.AtMostOneError (field (b.set p (!b[p]!)) o n) (field b o n) := by
    intro o n p
    refine ⟨by simp [field], p - o, fun i hi => ?_⟩
    simp only [field, List.getElem?_take, List.getElem?_drop]
    split
    · by_cases hp : o + i = p
      · omega
      · rw [List.getElem?_set_ne (Ne.symm hp)]
    · rfl
  refine ⟨y, b, b.set 100 (!b[100]!), hB, hc, hb, ⟨by simp [hl], one _ _ _, one _ _ _, one _ _ _, one _ _ _⟩, fun h => ?_⟩
  have := congrArg (·[100]?) h
  simp [hl] at this

end Verif.Phy
