import Verif.Codec
/-!
# Optional elements of MLE/CMCE/MM PDUs

Models crates/tetra-core/src/typed_pdu_fields.rs (modules `delimiters` and `typed`).

A PDU is: type 1 (mandatory) fields, one o-bit, and, when the o-bit is one, for each type 2 element a
p-bit and the element, then each present type 3/4 element with an m-bit one, a 4-bit element
identifier, an 11-bit length (and a 6-bit count for type 4) and its payload, then an m-bit zero.

Simplification: the `tracing` output is left out; an `E: Into<u64>` element identifier is its number.
-/
namespace Verif.TypedFields
open Verif.Bits Verif.Codec

/-- typed_pdu_fields.rs lines 10-16 `Type3FieldGeneric`. `fieldId` is the identifier asked for. -/
structure Type3Generic where
  fieldId : Nat
  len : Nat
  data : Nat
  deriving DecidableEq, Repr

/-- typed_pdu_fields.rs lines 1-8 `Type4FieldGeneric`. -/
structure Type4Generic where
  fieldId : Nat
  len : Nat
  elems : Nat
  data : Nat
  deriving DecidableEq, Repr

/-- typed_pdu_fields.rs `parse_type2_struct`; with `p := bits n` it is `parse_type2_generic`. -/
def rdType2 {α : Type} (obit : Bool) (p : Rd α) : Rd (Option α) :=
  if obit then do
    let present ← Rd.flag
    if present then some <$> p else pure none
  else pure none

/-- typed_pdu_fields.rs `write_type2_struct`; with `w := (wBits · n)` it is `write_type2_generic`. -/
def wType2 {α : Type} (obit : Bool) (w : α → Out (List Bool)) (v : Option α) : Out (List Bool) :=
  if obit then
    match v with
    | some x => cat [wFlag true, w x]
    | none => wFlag false
  else
    match v with
    | some _ => .panic
    | none => .ok []

/-- typed_pdu_fields.rs `peek_type34_mbit_and_id`: looks at the m-bit and the identifier, without
advancing. -/
def peekId (id : Nat) : Rd Bool := do
  let bs ← Rd.look
  match bs with
  | [] => Rd.fail
  | false :: _ => pure false
  | true :: r => if r.length < 4 then Rd.fail else pure (ofBits (r.take 4) == id)

/-- typed_pdu_fields.rs `parse_type3_generic`. -/
def rdType3Generic (obit : Bool) (id : Nat) : Rd (Option Type3Generic) :=
  if obit then do
    let present ← peekId id
    if present then do
      Rd.skip 5
      let len ← Rd.bits 11
      let data ← Rd.bits (min len 64)
      if 64 < len then Rd.skip (len - 64) else pure ()
      pure (some ⟨id, len, data⟩)
    else pure none
  else pure none

/-- Runs `p` and insists that it consumed exactly `len` bits: the position comparison in
`parse_type3_struct` and `parse_type4_struct`. -/
def exactly {α : Type} (len : Nat) (p : Rd α) : Rd α := do
  let before ← Rd.look
  let x ← p
  let after ← Rd.look
  if before.length = after.length + len then pure x else Rd.fail

/-- typed_pdu_fields.rs `parse_type3_struct`. -/
def rdType3 {α : Type} (obit : Bool) (id : Nat) (p : Rd α) : Rd (Option α) :=
  if obit then do
    let present ← peekId id
    if present then do
      Rd.skip 5
      let len ← Rd.bits 11
      some <$> exactly len p
    else pure none
  else pure none

/-- typed_pdu_fields.rs `write_type34_header_generic`. -/
def wHeader (id : Nat) : Out (List Bool) := cat [wFlag true, wBits id 4]

/-- typed_pdu_fields.rs `write_type3_struct`, as the bits it appends. That the code's way of doing it
(a zero length, the payload, then going back to fill in the length) gives the same bits is
`Verif.TypedFields.backfill_type3`. -/
def wType3 {α : Type} (obit : Bool) (id : Nat) (w : α → Out (List Bool)) (v : Option α) : Out (List Bool) :=
  match v with
  | none => .ok []
  | some x => if obit then do
      let h ← wHeader id
      let body ← w x
      let l ← wBits body.length 11
      pure (h ++ (l ++ body))
    else .err

/-- typed_pdu_fields.rs `write_type3_generic`. -/
def wType3Generic (obit : Bool) (id : Nat) (v : Option Type3Generic) : Out (List Bool) :=
  match v with
  | none => .ok []
  | some x => if obit then cat [wHeader id, wBits x.len 11, wBits x.data x.len] else .err

/-- typed_pdu_fields.rs `parse_type4_header`: `len_bits - 6` aborts (checked subtraction) when the length
is below six. -/
def rdType4Header (id : Nat) : Rd (Option (Nat × Nat)) := do
  let present ← peekId id
  if present then do
    Rd.skip 5
    let len ← Rd.bits 11
    let count ← Rd.bits 6
    if len < 6 then Rd.abort else pure (some (count, len - 6))
  else pure none

/-- `for _ in 0..n { parser(buffer)? }`. -/
def rdMany {α : Type} (p : Rd α) : Nat → Rd (List α)
  | 0 => pure []
  | n + 1 => do
    let x ← p
    let xs ← rdMany p n
    pure (x :: xs)

/-- typed_pdu_fields.rs `parse_type4_struct`. -/
def rdType4 {α : Type} (obit : Bool) (id : Nat) (p : Rd α) : Rd (Option (List α)) :=
  if obit then do
    match ← rdType4Header id with
    | none => pure none
    | some (n, len) => some <$> exactly len (rdMany p n)
  else pure none

/-- typed_pdu_fields.rs `parse_type4_generic`. -/
def rdType4Generic (obit : Bool) (id : Nat) : Rd (Option Type4Generic) :=
  if obit then do
    match ← rdType4Header id with
    | none => pure none
    | some (n, len) => do
      let data ← Rd.bits (min len 64)
      if 64 < len then Rd.skip (len - 64) else pure ()
      pure (some ⟨id, len, n, data⟩)
  else pure none

/-- typed_pdu_fields.rs `write_type4_struct`, as the bits it appends (see `backfill_type4`). -/
def wType4 {α : Type} (obit : Bool) (id : Nat) (w : α → Out (List Bool)) (v : Option (List α)) : Out (List Bool) :=
  match v with
  | none => .ok []
  | some xs => if obit then do
      let h ← wHeader id
      let body ← cat (xs.map w)
      let l ← wBits (6 + body.length) 11
      let n ← wBits xs.length 6
      pure (h ++ (l ++ (n ++ body)))
    else .err

/-- typed_pdu_fields.rs `write_type4_todo`: `unimplemented!` for any present element. -/
def wType4Todo (obit : Bool) (v : Option Type4Generic) : Out (List Bool) :=
  match v with
  | none => .ok []
  | some _ => if obit then .panic else .err

/-- End of the optional part, as written in every PDU: m-bit zero when the o-bit is set, else nothing. -/
def wEnd (obit : Bool) : Out (List Bool) := if obit then wFlag false else .ok []

/-- End of the optional part, as read in every PDU: the trailing m-bit must be zero. -/
def rdEnd (obit : Bool) : Rd Unit :=
  if obit then do
    let m ← Rd.flag
    if m then Rd.fail else pure ()
  else pure ()

end Verif.TypedFields
