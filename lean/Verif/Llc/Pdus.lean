import Verif.Codec
/-!
# LLC basic link PDU headers

Models crates/tetra-pdus/src/llc/pdus/bl_ack.rs, bl_adata.rs, bl_data.rs, bl_udata.rs. The one-bit sequence
numbers, `u8` in the code, are booleans: the reader only produces 0 and 1, and the writer aborts on anything else.
-/
namespace Verif.Llc
open Verif.Bits Verif.Codec

/-- bl_adata.rs:8-16. -/
structure BlAdata where
  fcs : Bool
  nr : Bool
  ns : Bool
  deriving DecidableEq, Repr

/-- bl_data.rs:7-13. -/
structure BlData where
  fcs : Bool
  ns : Bool
  deriving DecidableEq, Repr

/-- bl_udata.rs:8-12. -/
structure BlUdata where
  fcs : Bool
  deriving DecidableEq, Repr

/-- bl_ack.rs:8-17. -/
structure BlAck where
  fcs : Bool
  nr : Bool
  deriving DecidableEq, Repr

/-- The common start of the four readers: link type 0, FCS flag, PDU type (`expect_value!` gives an error). -/
def rdHead (type : Nat) : Rd Bool := do
  let link ← Rd.bits 1
  if link ≠ 0 then Rd.fail
  else
    let fcs ← Rd.flag
    let ty ← Rd.bits 2
    if ty ≠ type then Rd.fail else pure fcs

/-- The common start of the four writers. -/
def wHead (fcs : Bool) (type : Nat) : Out (List Bool) := cat [wBits 0 1, wFlag fcs, wBits type 2]

/-- bl_adata.rs:18-40. -/
def BlAdata.dec : Rd BlAdata := do
  let fcs ← rdHead 0
  let nr ← Rd.flag
  let ns ← Rd.flag
  pure ⟨fcs, nr, ns⟩
/-- bl_adata.rs:42-51. -/
def BlAdata.enc (p : BlAdata) : Out (List Bool) := cat [wHead p.fcs 0, wFlag p.nr, wFlag p.ns]

/-- bl_data.rs:16-34. -/
def BlData.dec : Rd BlData := do
  let fcs ← rdHead 1
  let ns ← Rd.flag
  pure ⟨fcs, ns⟩
/-- bl_data.rs:36-44. -/
def BlData.enc (p : BlData) : Out (List Bool) := cat [wHead p.fcs 1, wFlag p.ns]

/-- bl_udata.rs:15-27. -/
def BlUdata.dec : Rd BlUdata := do
  let fcs ← rdHead 2
  pure ⟨fcs⟩
/-- bl_udata.rs:29-36. -/
def BlUdata.enc (p : BlUdata) : Out (List Bool) := wHead p.fcs 2

/-- bl_ack.rs:19-37. -/
def BlAck.dec : Rd BlAck := do
  let fcs ← rdHead 3
  let nr ← Rd.flag
  pure ⟨fcs, nr⟩
/-- bl_ack.rs:39-47. -/
def BlAck.enc (p : BlAck) : Out (List Bool) := cat [wHead p.fcs 3, wFlag p.nr]

/-- `LlcPduType::try_from` (llc_pdu_type.rs:25-47) on the first four bits, as far as the code tells types apart:
basic link types by their two type bits, advanced link, and the two types the receiver has no arm for. -/
inductive Kind where
  | adata | data | udata | ack | advanced | other
  deriving DecidableEq, Repr

/-- `peek_bits(4)` and `LlcPduType::try_from` (llc_bs_ms.rs:367-377). -/
def kindOf : List Bool → Option Kind
  | false :: _ :: false :: false :: _ => some .adata
  | false :: _ :: false :: true :: _ => some .data
  | false :: _ :: true :: false :: _ => some .udata
  | false :: _ :: true :: true :: _ => some .ack
  | true :: true :: false :: true :: _ => some .other
  | true :: true :: true :: false :: _ => some .other
  | true :: _ :: _ :: _ :: _ => some .advanced
  | _ => none

/-! ## What the headers look like -/

theorem rdHead_run (type : Nat) (b0 f b1 b2 : Bool) (r : List Bool) (ht : type < 4) :
    (rdHead type).run (b0 :: f :: b1 :: b2 :: r) =
      if b0 = false ∧ type = 2 * b1.toNat + b2.toNat then .ok (f, r) else .err := by
  have h4 : type = 0 ∨ type = 1 ∨ type = 2 ∨ type = 3 := by omega
  rcases h4 with rfl | rfl | rfl | rfl <;> cases b0 <;> cases b1 <;> cases b2 <;> simp [rdHead, Rd.bits, ofBits]

theorem BlAdata.enc_eq (p : BlAdata) : p.enc = .ok [false, p.fcs, false, false, p.nr, p.ns] := by
  simp [BlAdata.enc, wHead, wBits, toBits]
theorem BlData.enc_eq (p : BlData) : p.enc = .ok [false, p.fcs, false, true, p.ns] := by
  simp [BlData.enc, wHead, wBits, toBits]; decide
theorem BlUdata.enc_eq (p : BlUdata) : p.enc = .ok [false, p.fcs, true, false] := by
  simp [BlUdata.enc, wHead, wBits, toBits]; decide
theorem BlAck.enc_eq (p : BlAck) : p.enc = .ok [false, p.fcs, true, true, p.nr] := by
  simp [BlAck.enc, wHead, wBits, toBits]; decide

/-! ## C38: round trips -/

/-- **C38, LLC.** The header of every basic link PDU reads back as written, whatever follows it. -/
theorem c38_llc_adata (p : BlAdata) : RoundTrip BlAdata.enc BlAdata.dec p :=
  ⟨_, p.enc_eq, fun rest => by simp [BlAdata.dec, rdHead_run]⟩
theorem c38_llc_data (p : BlData) : RoundTrip BlData.enc BlData.dec p :=
  ⟨_, p.enc_eq, fun rest => by simp [BlData.dec, rdHead_run]⟩
theorem c38_llc_udata (p : BlUdata) : RoundTrip BlUdata.enc BlUdata.dec p :=
  ⟨_, p.enc_eq, fun rest => by simp [BlUdata.dec, rdHead_run]⟩
theorem c38_llc_ack (p : BlAck) : RoundTrip BlAck.enc BlAck.dec p :=
  ⟨_, p.enc_eq, fun rest => by simp [BlAck.dec, rdHead_run]⟩

/-- **C38, LLC.** No reader takes another PDU type's header for its own: what one reader accepts, the others
refuse. -/
theorem c38_llc_types_distinct (bs : List Bool) :
    (∀ p r, BlAdata.dec.run bs = .ok (p, r) → kindOf bs = some .adata) ∧
    (∀ p r, BlData.dec.run bs = .ok (p, r) → kindOf bs = some .data) ∧
    (∀ p r, BlUdata.dec.run bs = .ok (p, r) → kindOf bs = some .udata) ∧
    (∀ p r, BlAck.dec.run bs = .ok (p, r) → kindOf bs = some .ack) := by
  match bs with
  | [] => simp [BlAdata.dec, BlData.dec, BlUdata.dec, BlAck.dec, rdHead, Rd.bits]
  | [a] => cases a <;> simp [BlAdata.dec, BlData.dec, BlUdata.dec, BlAck.dec, rdHead, Rd.bits, Rd.flag, ofBits]
  | [a, b] => cases a <;> simp [BlAdata.dec, BlData.dec, BlUdata.dec, BlAck.dec, rdHead, Rd.bits, ofBits]
  | [a, b, c] => cases a <;> simp [BlAdata.dec, BlData.dec, BlUdata.dec, BlAck.dec, rdHead, Rd.bits, ofBits]
  | a :: b :: c :: d :: r =>
    cases a <;> cases c <;> cases d <;>
      simp [BlAdata.dec, BlData.dec, BlUdata.dec, BlAck.dec, rdHead_run, kindOf]

/-- The readers never abort. -/
theorem c38_llc_safe : BlAdata.dec.Safe ∧ BlData.dec.Safe ∧ BlUdata.dec.Safe ∧ BlAck.dec.Safe := by
  have h : ∀ n, (rdHead n).Safe := by intro n; unfold rdHead; safe_rd
  refine ⟨?_, ?_, ?_, ?_⟩
  · have := h 0; unfold BlAdata.dec; safe_rd
  · have := h 1; unfold BlData.dec; safe_rd
  · have := h 2; unfold BlUdata.dec; safe_rd
  · have := h 3; unfold BlAck.dec; safe_rd

example : (⟨true, false, true⟩ : BlAdata).enc = .ok [false, true, false, false, false, true] := by decide +kernel

end Verif.Llc
