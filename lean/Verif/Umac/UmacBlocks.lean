import Verif.Umac.UmacLog
/-!
# The PDUs in an uplink block

A specification of the sequence of PDUs a block contains, by their headers and length fields, and facts about the
readers of the headers.
-/
namespace Verif.Umac
open Verif.Tdma Verif.Codec Verif.Bits

/-! ## Specification -/

/-- An uplink PDU, by its header. `other` is a PDU which is ignored, or without a complete header, or which is the
last one of its block whatever it says. -/
inductive UlPdu where
  | access (p : MacAccess)
  | data (p : MacData)
  | endUl (p : MacEndUl)
  | endHu (p : MacEndHu)
  | blck (p : MacUBlck)
  | other
  deriving DecidableEq

/-- The header read, if it can be read. -/
def headed {α : Type} (f : α → UlPdu) : Out (α × List Bool) → UlPdu
  | .ok (p, _) => f p
  | _ => .other

/-- The PDU a string of bits begins with: MAC-ACCESS (0) and MAC-END-HU (1) on SCH/HU; MAC-DATA (00), MAC-END (011) and, on
SCH/F, MAC-U-BLCK (110) elsewhere. -/
def ulPdu : UlChan → List Bool → UlPdu
  | .schHu, false :: r => headed .access (MacAccess.dec.run (false :: r))
  | .schHu, true :: r => headed .endHu (MacEndHu.dec.run (true :: r))
  | _, false :: false :: r => headed .data (MacData.dec.run (false :: false :: r))
  | _, false :: true :: true :: r => headed .endUl (MacEndUl.dec.run (false :: true :: true :: r))
  | .schF, true :: true :: false :: r => headed .blck (MacUBlck.dec.run (true :: true :: false :: r))
  | _, _ => .other

/-- The number of octets the PDU says it has. -/
def UlPdu.octets : UlPdu → Option Nat
  | .access p => p.lengthInd
  | .data p => if p.lengthInd = some 62 ∨ p.lengthInd = some 63 then none else p.lengthInd
  | .endUl p => p.lengthInd
  | .endHu p => p.lengthInd
  | _ => none

/-- The PDUs of a block: the next one begins where the length of the previous one says, if at least sixteen bits are left.
The first argument bounds their number. -/
def pdusIn : Nat → UlChan → List Bool → List UlPdu
  | 0, _, _ => []
  | n + 1, ch, bits => ulPdu ch bits :: match (ulPdu ch bits).octets with
    | some l => if 16 ≤ (bits.drop (l * 8)).length then pdusIn n ch (bits.drop (l * 8)) else []
    | none => []

/-- The PDUs of a block. -/
def pdusOf (ch : UlChan) (bits : List Bool) : List UlPdu := pdusIn bits.length ch bits

/-- The PDUs which abort the process: MAC-ACCESS and MAC-DATA shorter than their own header, or with one of the reserved
lengths, or asking for more than 68 slots; a MAC-END shorter than its header or asking for more than 68 slots; every MAC-U-BLCK. -/
def UlPdu.Bad : UlPdu → Prop
  | .access p => p.eventLabel = none ∧
      (p.lengthInd = some 1 ∨ p.lengthInd = some 2 ∨ p.lengthInd = some 3 ∨ p.lengthInd = some 4 ∨
        p.encrypted = false ∧ p.reservation = some 15)
  | .data p => p.eventLabel = none ∧
      ((∃ l, p.lengthInd = some l ∧ (1 ≤ l ∧ l ≤ 4 ∨ 56 ≤ l ∧ l ≤ 61)) ∨ p.encrypted = false ∧ p.reservation = some 15)
  | .endUl p => p.lengthInd = some 1
  | .endHu p => p.reservation = some 15
  | .blck _ => True
  | .other => False

/-! ## Readers -/

theorem bits_inv {n v : Nat} {bs r : List Bool} (h : (Rd.bits n).run bs = .ok (v, r)) : n ≤ bs.length ∧ r = bs.drop n ∧ v < 2 ^ n := by
  simp only [Rd.bits] at h
  split at h
  · rename_i hc
    simp only [Out.ok.injEq, Prod.mk.injEq] at h
    refine ⟨hc.2, h.2.symm, ?_⟩
    rw [← h.1]
    have := ofBits_lt (bs.take n)
    rwa [List.length_take, Nat.min_eq_left hc.2] at this
  · cases h

theorem flag_inv {b : Bool} {bs r : List Bool} (h : Rd.flag.run bs = .ok (b, r)) : bs = b :: r := by
  cases bs with
  | nil => simp [Rd.flag] at h
  | cons c bs => simp at h; rw [h.1, h.2]

/-- An address read from an uplink header. -/
theorem ulAddr_inv {e : Bool} {bs r : List Bool} {a : Option Addr × Option Nat} (h : (rdUlAddr e).run bs = .ok (a, r)) :
    (∃ ssi ty, a = (some ⟨ssi, ty, e⟩, none) ∧ ssi < 2 ^ 24 ∧ (ty = .ssi ∨ ty = .ussi ∨ ty = .smi) ∧ 26 ≤ bs.length ∧ r = bs.drop 26) ∨
    (∃ l, a = (none, some l) ∧ 12 ≤ bs.length ∧ r = bs.drop 12) := by
  unfold rdUlAddr at h
  rw [Rd.run_bind, Out.bind_eq_ok] at h
  obtain ⟨⟨t, r1⟩, h1, h⟩ := h
  obtain ⟨b1, rfl, _⟩ := bits_inv h1
  simp only at h
  have key : ∀ ty, ((fun v => (some (⟨v, ty, e⟩ : Addr), (none : Option Nat))) <$> Rd.bits 24).run (bs.drop 2) = .ok (a, r) →
      ∃ ssi, a = (some ⟨ssi, ty, e⟩, none) ∧ ssi < 2 ^ 24 ∧ 26 ≤ bs.length ∧ r = bs.drop 26 := by
    intro ty h
    rw [Rd.run_map, Out.bind_eq_ok] at h
    obtain ⟨⟨v, r2⟩, h2, h⟩ := h
    obtain ⟨b2, rfl, hv⟩ := bits_inv h2
    simp only [Out.ok.injEq, Prod.mk.injEq] at h
    refine ⟨v, h.1.symm, hv, by rw [List.length_drop] at b2; omega, by rw [← h.2, List.drop_drop]⟩
  rw [Rd.run_ite] at h
  split at h
  · obtain ⟨ssi, e1, e2, e3, e4⟩ := key .ssi h
    exact Or.inl ⟨ssi, .ssi, e1, e2, by simp, e3, e4⟩
  · rw [Rd.run_ite] at h
    split at h
    · rw [Rd.run_map, Out.bind_eq_ok] at h
      obtain ⟨⟨v, r2⟩, h2, h⟩ := h
      obtain ⟨b2, rfl, _⟩ := bits_inv h2
      simp only [Out.ok.injEq, Prod.mk.injEq] at h
      exact Or.inr ⟨v, h.1.symm, by rw [List.length_drop] at b2; omega, by rw [← h.2, List.drop_drop]⟩
    · rw [Rd.run_ite] at h
      split at h
      · obtain ⟨ssi, e1, e2, e3, e4⟩ := key .ussi h
        exact Or.inl ⟨ssi, .ussi, e1, e2, by simp, e3, e4⟩
      · obtain ⟨ssi, e1, e2, e3, e4⟩ := key .smi h
        exact Or.inl ⟨ssi, .smi, e1, e2, by simp, e3, e4⟩

/-- The address of a header: one a base station can use, or an event label. -/
def UlAddrOk (encrypted : Bool) (addr : Option Addr) (label : Option Nat) : Prop :=
  (∃ a : Addr, addr = some a ∧ label = none ∧ a.ssi < 2 ^ 24 ∧ a.encrypted = encrypted ∧
    (a.ssiType = .ssi ∨ a.ssiType = .ussi ∨ a.ssiType = .smi)) ∨ (addr = none ∧ ∃ l, label = some l)

/-- What can be read as a MAC-ACCESS header. -/
structure AccessRead (bits : List Bool) (p : MacAccess) (rest : List Bool) : Prop where
  addr : UlAddrOk p.encrypted p.addr p.eventLabel
  size : rest.length ≤ bits.length
  len : ∀ l, p.lengthInd = some l → l < 32 ∧ p.reservation = none ∧ p.fragFlag = none ∧
    (p.eventLabel = none → bits.length = rest.length + 36)
  res : ∀ r, p.reservation = some r → r < 16 ∧ p.lengthInd = none ∧ p.fragFlag.isSome = true

theorem access_inv {bits : List Bool} {p : MacAccess} {rest : List Bool} (h : MacAccess.dec.run bits = .ok (p, rest)) :
    AccessRead bits p rest := by
  unfold MacAccess.dec at h
  rw [Rd.run_bind, Out.bind_eq_ok] at h
  obtain ⟨⟨ty, r1⟩, h1, h⟩ := h
  obtain ⟨b1, rfl, _⟩ := bits_inv h1
  simp only at h
  rw [Rd.run_ite] at h
  split at h
  · cases h
  rw [Rd.run_bind, Out.bind_eq_ok] at h
  obtain ⟨⟨fill, r2⟩, h2, h⟩ := h
  simp only at h h2
  rw [Rd.run_bind, Out.bind_eq_ok] at h
  obtain ⟨⟨enc, r3⟩, h3, h⟩ := h
  simp only at h h3
  rw [Rd.run_bind, Out.bind_eq_ok] at h
  obtain ⟨⟨a, r4⟩, h4, h⟩ := h
  simp only at h h4
  rw [Rd.run_bind, Out.bind_eq_ok] at h
  obtain ⟨⟨opt, r5⟩, h5, h⟩ := h
  simp only at h h5
  have l1 : bits.length = (bits.drop 1).length + 1 := by rw [List.length_drop]; omega
  have l2 := congrArg List.length (flag_inv h2)
  have l3 := congrArg List.length (flag_inv h3)
  have l5 := congrArg List.length (flag_inv h5)
  simp only [List.length_cons] at l2 l3 l5
  have ha : UlAddrOk enc a.1 a.2 ∧ (a.2 = none → r3.length = r4.length + 26) ∧ r4.length ≤ r3.length := by
    rcases ulAddr_inv h4 with ⟨ssi, ty, rfl, q1, q2, q3, rfl⟩ | ⟨l, rfl, q3, rfl⟩
    · exact ⟨Or.inl ⟨_, rfl, rfl, q1, rfl, q2⟩, fun _ => by simp only [List.length_drop]; omega, by simp only [List.length_drop]; omega⟩
    · exact ⟨Or.inr ⟨rfl, l, rfl⟩, fun h => by simp at h, by simp only [List.length_drop]; omega⟩
  obtain ⟨ha1, ha2, ha3⟩ := ha
  rw [Rd.run_ite] at h
  split at h
  · rw [Rd.run_bind, Out.bind_eq_ok] at h
    obtain ⟨⟨cap, r6⟩, h6, h⟩ := h
    simp only at h h6
    have l6 := congrArg List.length (flag_inv h6)
    simp only [List.length_cons] at l6
    rw [Rd.run_ite] at h
    split at h
    · rw [Rd.run_bind, Out.bind_eq_ok] at h
      obtain ⟨⟨frag, r7⟩, h7, h⟩ := h
      simp only at h h7
      have l7 := congrArg List.length (flag_inv h7)
      simp only [List.length_cons] at l7
      rw [Rd.run_bind, Out.bind_eq_ok] at h
      obtain ⟨⟨v, r8⟩, h8, h⟩ := h
      obtain ⟨b8, rfl, hv⟩ := bits_inv h8
      simp only [Rd.run_pure, Out.ok.injEq, Prod.mk.injEq] at h
      obtain ⟨rfl, rfl⟩ := h
      refine ⟨ha1, by rw [List.length_drop]; omega, by intro l hl; simp at hl, ?_⟩
      intro r hr
      simp only [Option.some.injEq] at hr
      exact ⟨by omega, rfl, rfl⟩
    · rw [Rd.run_bind, Out.bind_eq_ok] at h
      obtain ⟨⟨v, r8⟩, h8, h⟩ := h
      obtain ⟨b8, rfl, hv⟩ := bits_inv h8
      simp only [Rd.run_pure, Out.ok.injEq, Prod.mk.injEq] at h
      obtain ⟨rfl, rfl⟩ := h
      refine ⟨ha1, by rw [List.length_drop]; omega, ?_, by intro r hr; simp at hr⟩
      intro l hl
      simp only [Option.some.injEq] at hl
      refine ⟨by omega, rfl, rfl, ?_⟩
      intro he
      have := ha2 he
      rw [List.length_drop]
      omega
  · simp only [Rd.run_pure, Out.ok.injEq, Prod.mk.injEq] at h
    obtain ⟨rfl, rfl⟩ := h
    exact ⟨ha1, by omega, by intro l hl; simp at hl, by intro r hr; simp at hr⟩

/-- What can be read as a MAC-DATA header. -/
structure DataRead (bits : List Bool) (p : MacData) (rest : List Bool) : Prop where
  addr : UlAddrOk p.encrypted p.addr p.eventLabel
  size : rest.length ≤ bits.length
  len : ∀ l, p.lengthInd = some l → l < 64 ∧ p.reservation = none ∧ p.fragFlag = none ∧
    (p.eventLabel = none → bits.length = rest.length + 37)
  res : p.lengthInd = none → ∃ f r, p.fragFlag = some f ∧ p.reservation = some r ∧ r < 16

theorem reserved_inv {bs r : List Bool} {u : Unit} (h : rdReserved.run bs = .ok (u, r)) : r.length ≤ bs.length := by
  unfold rdReserved at h
  rw [Rd.run_bind, Rd.run_look, Out.bind_ok] at h
  simp only at h
  rw [Rd.run_ite] at h
  split at h
  · simp only [Rd.run_pure, Out.ok.injEq, Prod.mk.injEq] at h
    rw [h.2]; omega
  · simp only [Rd.skip] at h
    split at h
    · simp only [Out.ok.injEq, Prod.mk.injEq] at h
      rw [← h.2, List.length_drop]; omega
    · cases h

theorem data_inv {bits : List Bool} {p : MacData} {rest : List Bool} (h : MacData.dec.run bits = .ok (p, rest)) :
    DataRead bits p rest := by
  unfold MacData.dec at h
  rw [Rd.run_bind, Out.bind_eq_ok] at h
  obtain ⟨⟨ty, r1⟩, h1, h⟩ := h
  obtain ⟨b1, rfl, _⟩ := bits_inv h1
  simp only at h
  rw [Rd.run_ite] at h
  split at h
  · cases h
  rw [Rd.run_bind, Out.bind_eq_ok] at h
  obtain ⟨⟨fill, r2⟩, h2, h⟩ := h
  simp only at h h2
  rw [Rd.run_bind, Out.bind_eq_ok] at h
  obtain ⟨⟨enc, r3⟩, h3, h⟩ := h
  simp only at h h3
  rw [Rd.run_bind, Out.bind_eq_ok] at h
  obtain ⟨⟨a, r4⟩, h4, h⟩ := h
  simp only at h h4
  rw [Rd.run_bind, Out.bind_eq_ok] at h
  obtain ⟨⟨cap, r5⟩, h5, h⟩ := h
  simp only at h h5
  have l1 : bits.length = (bits.drop 2).length + 2 := by rw [List.length_drop]; omega
  have l2 := congrArg List.length (flag_inv h2)
  have l3 := congrArg List.length (flag_inv h3)
  have l5 := congrArg List.length (flag_inv h5)
  simp only [List.length_cons] at l2 l3 l5
  have ha : UlAddrOk enc a.1 a.2 ∧ (a.2 = none → r3.length = r4.length + 26) ∧ r4.length ≤ r3.length := by
    rcases ulAddr_inv h4 with ⟨ssi, ty, rfl, q1, q2, q3, rfl⟩ | ⟨l, rfl, q3, rfl⟩
    · exact ⟨Or.inl ⟨_, rfl, rfl, q1, rfl, q2⟩, fun _ => by simp only [List.length_drop]; omega, by simp only [List.length_drop]; omega⟩
    · exact ⟨Or.inr ⟨rfl, l, rfl⟩, fun h => by simp at h, by simp only [List.length_drop]; omega⟩
  obtain ⟨ha1, ha2, ha3⟩ := ha
  rw [Rd.run_ite] at h
  split at h
  · rw [Rd.run_bind, Out.bind_eq_ok] at h
    obtain ⟨⟨frag, r7⟩, h7, h⟩ := h
    simp only at h h7
    have l7 := congrArg List.length (flag_inv h7)
    simp only [List.length_cons] at l7
    rw [Rd.run_bind, Out.bind_eq_ok] at h
    obtain ⟨⟨v, r8⟩, h8, h⟩ := h
    obtain ⟨b8, rfl, hv⟩ := bits_inv h8
    simp only at h b8
    rw [Rd.run_bind, Out.bind_eq_ok] at h
    obtain ⟨⟨u, r9⟩, h9, h⟩ := h
    have l9 := reserved_inv h9
    rw [List.length_drop] at l9
    simp only [Rd.run_pure, Out.ok.injEq, Prod.mk.injEq] at h
    obtain ⟨rfl, rfl⟩ := h
    exact ⟨ha1, by omega, by intro l hl; simp at hl, fun _ => ⟨frag, v, rfl, rfl, by omega⟩⟩
  · rw [Rd.run_bind, Out.bind_eq_ok] at h
    obtain ⟨⟨v, r8⟩, h8, h⟩ := h
    obtain ⟨b8, rfl, hv⟩ := bits_inv h8
    simp only [Rd.run_pure, Out.ok.injEq, Prod.mk.injEq] at h
    obtain ⟨rfl, rfl⟩ := h
    refine ⟨ha1, by rw [List.length_drop]; omega, ?_, by intro hr; simp at hr⟩
    intro l hl
    simp only [Option.some.injEq] at hl
    refine ⟨by omega, rfl, rfl, ?_⟩
    intro he
    have := ha2 he
    rw [List.length_drop]
    omega

/-- What can be read as a MAC-END-HU header. -/
theorem endHu_inv {bits : List Bool} {p : MacEndHu} {rest : List Bool} (h : MacEndHu.dec.run bits = .ok (p, rest)) :
    bits.length = rest.length + 7 ∧ (∀ l, p.lengthInd = some l → l < 16 ∧ p.reservation = none) ∧
    (∀ r, p.reservation = some r → r < 16 ∧ p.lengthInd = none) := by
  unfold MacEndHu.dec at h
  rw [Rd.run_bind, Out.bind_eq_ok] at h
  obtain ⟨⟨ty, r1⟩, h1, h⟩ := h
  obtain ⟨b1, rfl, _⟩ := bits_inv h1
  simp only at h
  rw [Rd.run_ite] at h
  split at h
  · cases h
  rw [Rd.run_bind, Out.bind_eq_ok] at h
  obtain ⟨⟨fill, r2⟩, h2, h⟩ := h
  simp only at h h2
  rw [Rd.run_bind, Out.bind_eq_ok] at h
  obtain ⟨⟨cap, r3⟩, h3, h⟩ := h
  simp only at h h3
  have l1 : bits.length = (bits.drop 1).length + 1 := by rw [List.length_drop]; omega
  have l2 := congrArg List.length (flag_inv h2)
  have l3 := congrArg List.length (flag_inv h3)
  simp only [List.length_cons] at l2 l3
  rw [Rd.run_ite] at h
  split at h
  all_goals
    rw [Rd.run_bind, Out.bind_eq_ok] at h
    obtain ⟨⟨v, r8⟩, h8, h⟩ := h
    obtain ⟨b8, rfl, hv⟩ := bits_inv h8
    simp only [Rd.run_pure, Out.ok.injEq, Prod.mk.injEq] at h
    obtain ⟨rfl, rfl⟩ := h
    refine ⟨by rw [List.length_drop]; omega, ?_, ?_⟩
  · intro l hl; simp at hl
  · intro r hr; simp only [Option.some.injEq] at hr; exact ⟨by omega, rfl⟩
  · intro r hr; simp only [Option.some.injEq] at hr; exact ⟨by omega, rfl⟩
  · intro l hl; simp at hl

/-- What can be read as a MAC-END header. -/
theorem endUl_inv {bits : List Bool} {p : MacEndUl} {rest : List Bool} (h : MacEndUl.dec.run bits = .ok (p, rest)) :
    bits.length = rest.length + 10 ∧ p.reservation = none ∧ ∃ l, p.lengthInd = some l ∧ 1 ≤ l ∧ l ≤ 46 := by
  unfold MacEndUl.dec at h
  rw [Rd.run_bind, Out.bind_eq_ok] at h
  obtain ⟨⟨ty, r1⟩, h1, h⟩ := h
  obtain ⟨b1, rfl, _⟩ := bits_inv h1
  simp only at h
  rw [Rd.run_ite] at h
  split at h
  · cases h
  rw [Rd.run_bind, Out.bind_eq_ok] at h
  obtain ⟨⟨sub, r2⟩, h2, h⟩ := h
  obtain ⟨b2, rfl, _⟩ := bits_inv h2
  simp only at h b2
  rw [Rd.run_ite] at h
  split at h
  · cases h
  rw [Rd.run_bind, Out.bind_eq_ok] at h
  obtain ⟨⟨fill, r3⟩, h3, h⟩ := h
  simp only at h h3
  have l3 := congrArg List.length (flag_inv h3)
  simp only [List.length_cons, List.length_drop] at l3 b2
  rw [Rd.run_bind, Out.bind_eq_ok] at h
  obtain ⟨⟨v, r8⟩, h8, h⟩ := h
  obtain ⟨b8, rfl, hv⟩ := bits_inv h8
  simp only at h b8
  rw [Rd.run_ite] at h
  split at h
  · cases h
  rw [Rd.run_ite] at h
  split at h
  · simp only [Rd.run_pure, Out.ok.injEq, Prod.mk.injEq] at h
    obtain ⟨rfl, rfl⟩ := h
    exact ⟨by rw [List.length_drop]; omega, rfl, v, rfl, by omega, by omega⟩
  · rw [Rd.run_ite] at h
    split at h
    · cases h
    · omega

theorem frag_inv {bits : List Bool} {p : MacFrag} {rest : List Bool} (h : MacFrag.dec.run bits = .ok (p, rest)) :
    bits.length = rest.length + 4 := by
  unfold MacFrag.dec at h
  rw [Rd.run_bind, Out.bind_eq_ok] at h
  obtain ⟨⟨ty, r1⟩, h1, h⟩ := h
  obtain ⟨b1, rfl, _⟩ := bits_inv h1
  simp only at h
  rw [Rd.run_ite] at h
  split at h
  · cases h
  rw [Rd.run_bind, Out.bind_eq_ok] at h
  obtain ⟨⟨sub, r2⟩, h2, h⟩ := h
  obtain ⟨b2, rfl, _⟩ := bits_inv h2
  simp only at h b2
  rw [Rd.run_ite] at h
  split at h
  · cases h
  rw [Rd.run_bind, Out.bind_eq_ok] at h
  obtain ⟨⟨fill, r3⟩, h3, h⟩ := h
  simp only at h h3
  have l3 := congrArg List.length (flag_inv h3)
  simp only [List.length_cons, List.length_drop] at l3 b2
  simp only [Rd.run_pure, Out.ok.injEq, Prod.mk.injEq] at h
  rw [h.2] at l3
  omega

end Verif.Umac
