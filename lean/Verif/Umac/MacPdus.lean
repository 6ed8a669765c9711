import Verif.Codec
/-!
# MAC PDU headers

Models crates/tetra-pdus/src/umac/pdus/*.rs and crates/tetra-pdus/src/umac/fields/*.rs: for each header a
writer (`to_bitbuf`) and a reader (`from_bitbuf`), field by field in source order.

Simplifications: fields are natural numbers (the widths of the Rust integer types never matter: every
field is narrower on the wire). Enumerations whose code is their discriminant
(`ReservationRequirement`, `BasicSlotgrantCapAlloc`, `ChanAllocType`, `UlDlAssignment`,
`SysinfoOptFieldFlag`) are represented by that code; their `try_from` accepts all codes of the field
width. `Display` implementations and logging (`assert_warn!`, `unimplemented_log!`) are left out.
-/
namespace Verif.Umac
open Verif.Bits Verif.Codec

/-- crates/tetra-core/src/address.rs lines 3-15. -/
inductive SsiType where
  | unknown | ssi | issi | gssi | ussi | smi | eventLabel
  deriving DecidableEq, Repr

/-- crates/tetra-core/src/address.rs `TetraAddress`. -/
structure Addr where
  ssi : Nat
  ssiType : SsiType
  encrypted : Bool
  deriving DecidableEq, Repr

/-! ## Elements -/

/-- umac/enums/basic_slotgrant_granting_delay.rs. -/
inductive GrantDelay where
  | nextOpportunity
  | delay (n : Nat)
  | inFrame18
  | waitForAnother
  deriving DecidableEq, Repr

/-- basic_slotgrant_granting_delay.rs `try_from`. -/
def GrantDelay.ofRaw (x : Nat) : GrantDelay :=
  if x = 0 then .nextOpportunity else if x = 14 then .inFrame18 else if x = 15 then .waitForAnother else .delay x

/-- basic_slotgrant_granting_delay.rs `into_raw`. -/
def GrantDelay.raw : GrantDelay → Nat
  | .nextOpportunity => 0
  | .delay n => n
  | .inFrame18 => 14
  | .waitForAnother => 15

/-- umac/fields/basic_slotgrant.rs. -/
structure SlotGrant where
  capAlloc : Nat
  delay : GrantDelay
  deriving DecidableEq, Repr

/-- umac/fields/basic_slotgrant.rs `to_bitbuf`. -/
def SlotGrant.enc (x : SlotGrant) : Out (List Bool) := cat [wBits x.capAlloc 4, wBits x.delay.raw 4]

/-- umac/fields/basic_slotgrant.rs `from_bitbuf`. -/
def SlotGrant.dec : Rd SlotGrant := do
  let c ← Rd.bits 4
  let d ← Rd.bits 4
  pure ⟨c, GrantDelay.ofRaw d⟩

/-- umac/fields/channel_allocation.rs `ChanAllocElement`. `ext` is `Option<Todo>`. -/
structure ChanAlloc where
  allocType : Nat
  ts1 : Bool
  ts2 : Bool
  ts3 : Bool
  ts4 : Bool
  ulDl : Nat
  clch : Bool
  cellChange : Bool
  carrier : Nat
  ext : Option Nat
  mon : Nat
  fr18Mon : Option Nat
  deriving DecidableEq, Repr

/-- umac/fields/channel_allocation.rs `to_bitbuf` (the extended and augmented forms are `unimplemented!`). -/
def ChanAlloc.enc (x : ChanAlloc) : Out (List Bool) :=
  cat [wBits x.allocType 2, wFlag x.ts1, wFlag x.ts2, wFlag x.ts3, wFlag x.ts4, wBits x.ulDl 2, wFlag x.clch,
    wFlag x.cellChange, wBits x.carrier 12,
    (match x.ext with | some _ => .panic | none => wFlag false),
    wBits x.mon 2,
    (if x.mon = 0 then (match x.fr18Mon with | some v => wBits v 2 | none => .panic) else .ok []),
    (if x.ulDl = 0 then .panic else .ok [])]

/-- umac/fields/channel_allocation.rs `from_bitbuf`. -/
def ChanAlloc.dec : Rd ChanAlloc := do
  let allocType ← Rd.bits 2
  let bitmap ← Rd.bits 4
  let ulDl ← Rd.bits 2
  let clch ← Rd.flag
  let cellChange ← Rd.flag
  let carrier ← Rd.bits 12
  let extFlag ← Rd.flag
  if extFlag then Rd.abort else do
    let mon ← Rd.bits 2
    let fr18Mon ← (if mon = 0 then some <$> Rd.bits 2 else pure none : Rd (Option Nat))
    if ulDl = 0 then Rd.abort else
      pure ⟨allocType, bitmap.testBit 3, bitmap.testBit 2, bitmap.testBit 1, bitmap.testBit 0, ulDl, clch, cellChange,
        carrier, none, mon, fr18Mon⟩

/-- umac/fields/channel_allocation.rs `compute_len`. -/
def ChanAlloc.computeLen (x : ChanAlloc) : Out Nat :=
  if x.ext.isSome then .panic else
    if x.ulDl = 0 then .panic else .ok (2 + 4 + 2 + 1 + 1 + 12 + 1 + 2 + (if x.mon = 0 then 2 else 0))

/-! ## Downlink headers -/

/-- umac/pdus/mac_resource.rs `MacResource`. -/
structure MacResource where
  fillBits : Bool
  posOfGrant : Nat
  encryptionMode : Nat
  randomAccess : Bool
  lengthInd : Nat
  addr : Option Addr
  eventLabel : Option Nat
  usageMarker : Option Nat
  powerControl : Option Nat
  slotGrant : Option SlotGrant
  chanAlloc : Option ChanAlloc
  deriving DecidableEq, Repr

namespace MacResource

/-- mac_resource.rs lines 285-287 `is_null_pdu`. -/
def isNull (x : MacResource) : Bool := x.addr.isNone && x.eventLabel.isNone && x.usageMarker.isNone

/-- mac_resource.rs lines 56-70 `null_pdu`. -/
def null : MacResource := ⟨false, 0, 0, false, 2, none, none, none, none, none, none⟩

/-- mac_resource.rs lines 193-239: derivation of the 3-bit address type. -/
def addrType (x : MacResource) : Out Nat :=
  if x.isNull then
    if !x.fillBits && x.posOfGrant == 0 && x.encryptionMode == 0 && !x.randomAccess then .ok 0 else .panic
  else match x.addr with
    | some a =>
      match a.ssiType with
      | .ssi | .gssi | .issi =>
        match x.eventLabel, x.usageMarker with
        | none, none => .ok 1
        | some _, none => .ok 5
        | none, some _ => .ok 6
        | some _, some _ => .panic
      | .ussi => if x.eventLabel.isNone && x.usageMarker.isNone then .ok 3 else .panic
      | .smi =>
        if x.usageMarker.isSome then .panic else if x.eventLabel.isSome then .ok 7 else .ok 4
      | _ => .panic
    | none => if x.usageMarker.isSome then .panic else if x.eventLabel.isNone then .panic else .ok 2

/-- mac_resource.rs lines 241-261: the address fields; `assert!(addr.encrypted == (encryption_mode != 0))`. -/
def addrBits (x : MacResource) (t : Nat) : Out (List Bool) :=
  let ssi : Out (List Bool) := match x.addr with
    | some a => if a.encrypted == (x.encryptionMode != 0) then wBits a.ssi 24 else .panic
    | none => .panic
  let label : Out (List Bool) := match x.eventLabel with | some l => wBits l 10 | none => .panic
  let usage : Out (List Bool) := match x.usageMarker with | some u => wBits u 6 | none => .panic
  if t = 0 then .ok []
  else if t = 1 ∨ t = 3 ∨ t = 4 then ssi
  else if t = 2 then label
  else if t = 5 ∨ t = 7 then cat [ssi, label]
  else cat [ssi, usage]

/-- mac_resource.rs lines 183-283 `to_bitbuf`. -/
def enc (x : MacResource) : Out (List Bool) :=
  if x.lengthInd = 0 then .panic else do
    let t ← x.addrType
    cat [wBits 0 2, wFlag x.fillBits, wBits x.posOfGrant 1, wBits x.encryptionMode 2, wFlag x.randomAccess,
      wBits x.lengthInd 6, wBits t 3, x.addrBits t,
      (if t = 0 then .ok [] else
        cat [wPresent (wBits · 4) x.powerControl, wPresent SlotGrant.enc x.slotGrant,
          wPresent ChanAlloc.enc x.chanAlloc])]

/-- mac_resource.rs lines 98-155: reading of the address fields after the 3-bit type. -/
def decAddr (t mode : Nat) : Rd (Option Addr × Option Nat × Option Nat) :=
  let ssi (ty : SsiType) : Rd Addr := (fun v => ⟨v, ty, mode != 0⟩) <$> Rd.bits 24
  if t = 0 then pure (none, none, none)
  else if t = 1 then (fun a => (some a, none, none)) <$> ssi .ssi
  else if t = 2 then (fun l => (none, some l, none)) <$> Rd.bits 10
  else if t = 3 then (fun a => (some a, none, none)) <$> ssi .ussi
  else if t = 4 then (fun a => (some a, none, none)) <$> ssi .smi
  else if t = 5 then do
    let a ← ssi .ssi
    let l ← Rd.bits 10
    pure (some a, some l, none)
  else if t = 6 then do
    let a ← ssi .ssi
    let u ← Rd.bits 6
    pure (some a, none, some u)
  else do
    let a ← ssi .smi
    let l ← Rd.bits 10
    pure (some a, some l, none)

/-- mac_resource.rs lines 72-181 `from_bitbuf`. -/
def dec : Rd MacResource := do
  let ty ← Rd.bits 2
  if ty ≠ 0 then Rd.abort else do
    let fillBits ← Rd.flag
    let pos ← Rd.bits 1
    let mode ← Rd.bits 2
    let ra ← Rd.flag
    let len ← Rd.bits 6
    let t ← Rd.bits 3
    let a ← decAddr t mode
    if t = 0 then pure ⟨false, 0, 0, false, len, none, none, none, none, none, none⟩
    else do
      let pc ← rdPresent (Rd.bits 4)
      let sg ← rdPresent SlotGrant.dec
      let ca ← rdPresent ChanAlloc.dec
      pure ⟨fillBits, pos, mode, ra, len, a.1, a.2.1, a.2.2, pc, sg, ca⟩

/-- mac_resource.rs lines 312-316: length of the channel allocation element, if any. -/
def chanLen : Option ChanAlloc → Out Nat
  | some c => c.computeLen
  | none => .ok 0

/-- mac_resource.rs lines 289-319 `compute_header_len`. -/
def headerLen (x : MacResource) : Out Nat :=
  if x.isNull then .ok 16 else do
    let ca ← chanLen x.chanAlloc
    pure (16 + (if x.eventLabel.isSome then 10 else 0) + (if x.usageMarker.isSome then 6 else 0)
      + (if x.addr.isSome then 24 else 0) + 1 + (if x.powerControl.isSome then 4 else 0)
      + 1 + (if x.slotGrant.isSome then 8 else 0) + 1 + ca)

/-- mac_resource.rs lines 323-332 `update_len_and_fill_ind`; `as u8` truncates. -/
def updateLen (x : MacResource) (sduLen : Nat) : Out (MacResource × Nat) := do
  let h ← x.headerLen
  let total := h + sduLen
  let fill := (8 - total % 8) % 8
  pure ({ x with lengthInd := (total + 7) / 8 % 256, fillBits := fill != 0 }, fill)

end MacResource

/-- umac/pdus/mac_end_dl.rs. -/
structure MacEndDl where
  fillBits : Bool
  posOfGrant : Nat
  lengthInd : Nat
  slotGrant : Option SlotGrant
  chanAlloc : Option ChanAlloc
  deriving DecidableEq, Repr

/-- mac_end_dl.rs lines 65-88 `to_bitbuf`. -/
def MacEndDl.enc (x : MacEndDl) : Out (List Bool) :=
  cat [wBits 1 2, wBits 1 1, wFlag x.fillBits, wBits x.posOfGrant 1, wBits x.lengthInd 6,
    wPresent SlotGrant.enc x.slotGrant, wPresent ChanAlloc.enc x.chanAlloc]

/-- mac_end_dl.rs lines 29-58 `from_bitbuf`. -/
def MacEndDl.dec : Rd MacEndDl := do
  let ty ← Rd.bits 2
  if ty ≠ 1 then Rd.abort else do
    let sub ← Rd.bits 1
    if sub ≠ 1 then Rd.abort else do
      let fill ← Rd.flag
      let pos ← Rd.bits 1
      let len ← Rd.bits 6
      let sg ← rdPresent SlotGrant.dec
      let ca ← rdPresent ChanAlloc.dec
      pure ⟨fill, pos, len, sg, ca⟩

/-- mac_end_dl.rs lines 60-63 `compute_hdr_len`. -/
def MacEndDl.computeHdrLen (hasSlotgrant hasChanalloc : Bool) : Out Nat :=
  if hasChanalloc then .panic else .ok (2 + 1 + 1 + 1 + 6 + 1 + (if hasSlotgrant then 6 else 0) + 1)

/-- umac/pdus/mac_frag_dl.rs and mac_frag_ul.rs: the same four bits. -/
structure MacFrag where
  fillBits : Bool
  deriving DecidableEq, Repr

/-- mac_frag_dl.rs / mac_frag_ul.rs `to_bitbuf`. -/
def MacFrag.enc (x : MacFrag) : Out (List Bool) := cat [wBits 1 2, wBits 0 1, wFlag x.fillBits]

/-- mac_frag_dl.rs / mac_frag_ul.rs `from_bitbuf`. -/
def MacFrag.dec : Rd MacFrag := do
  let ty ← Rd.bits 2
  if ty ≠ 1 then Rd.abort else do
    let sub ← Rd.bits 1
    if sub ≠ 0 then Rd.abort else do
      let fill ← Rd.flag
      pure ⟨fill⟩

/-- umac/pdus/mac_d_blck.rs. -/
structure MacDBlck where
  fillBits : Bool
  encryptionMode : Nat
  eventLabel : Nat
  immNapping : Bool
  slotGrant : Option SlotGrant
  deriving DecidableEq, Repr

/-- mac_d_blck.rs `to_bitbuf`. -/
def MacDBlck.enc (x : MacDBlck) : Out (List Bool) :=
  cat [wBits 3 2, wBits 0 1, wFlag x.fillBits, wBits x.encryptionMode 2, wBits x.eventLabel 10, wFlag x.immNapping,
    wPresent SlotGrant.enc x.slotGrant]

/-- mac_d_blck.rs `from_bitbuf`. -/
def MacDBlck.dec : Rd MacDBlck := do
  let ty ← Rd.bits 2
  if ty ≠ 3 then Rd.abort else do
    let sub ← Rd.bits 1
    if sub ≠ 0 then Rd.abort else do
      let fill ← Rd.flag
      let mode ← Rd.bits 2
      let label ← Rd.bits 10
      let nap ← Rd.flag
      let sg ← rdPresent SlotGrant.dec
      pure ⟨fill, mode, label, nap, sg⟩

/-! ## Uplink headers -/

/-- umac/pdus/mac_access.rs. -/
structure MacAccess where
  fillBits : Bool
  encrypted : Bool
  addr : Option Addr
  eventLabel : Option Nat
  lengthInd : Option Nat
  fragFlag : Option Bool
  reservation : Option Nat
  deriving DecidableEq, Repr

/-- mac_access.rs lines 111-133 and mac_data.rs lines 112-139: address of an uplink header.
`individual` says whether ISSI/GSSI typed addresses are accepted (they are in MAC-DATA only). -/
def ulAddr (individual : Bool) (encrypted : Bool) (addr : Option Addr) (label : Option Nat) : Out (List Bool) :=
  match addr with
  | some a =>
    if a.encrypted == encrypted then
      match a.ssiType with
      | .ssi => cat [wBits 0 2, wBits a.ssi 24]
      | .issi => if individual then cat [wBits 0 2, wBits a.ssi 24] else .panic
      | .gssi => if individual then cat [wBits 0 2, wBits a.ssi 24] else .panic
      | .ussi => cat [wBits 2 2, wBits a.ssi 24]
      | .smi => cat [wBits 3 2, wBits a.ssi 24]
      | _ => .panic
    else .panic
  | none =>
    match label with
    | some l => cat [wBits 1 2, wBits l 10]
    | none => .panic

/-- mac_access.rs lines 42-77, mac_data.rs lines 36-74: the address of an uplink header. -/
def rdUlAddr (encrypted : Bool) : Rd (Option Addr × Option Nat) := do
  let t ← Rd.bits 2
  if t = 0 then (fun v => (some ⟨v, .ssi, encrypted⟩, none)) <$> Rd.bits 24
  else if t = 1 then (fun l => (none, some l)) <$> Rd.bits 10
  else if t = 2 then (fun v => (some ⟨v, .ussi, encrypted⟩, none)) <$> Rd.bits 24
  else (fun v => (some ⟨v, .smi, encrypted⟩, none)) <$> Rd.bits 24

/-- mac_access.rs lines 104-150 `to_bitbuf`. -/
def MacAccess.enc (x : MacAccess) : Out (List Bool) :=
  cat [wBits 0 1, wFlag x.fillBits, wFlag x.encrypted, ulAddr false x.encrypted x.addr x.eventLabel,
    (if x.lengthInd.isSome || x.fragFlag.isSome || x.reservation.isSome then
      if x.lengthInd.isSome && x.fragFlag.isSome && x.reservation.isSome then .panic else
        match x.lengthInd with
        | some l => cat [wFlag true, wFlag false, wBits l 5]
        | none => match x.fragFlag, x.reservation with
          | some f, some r => cat [wFlag true, wFlag true, wFlag f, wBits r 4]
          | _, _ => .panic
    else wFlag false)]

/-- mac_access.rs lines 35-102 `from_bitbuf`. -/
def MacAccess.dec : Rd MacAccess := do
  let ty ← Rd.bits 1
  if ty ≠ 0 then Rd.abort else do
    let fill ← Rd.flag
    let encrypted ← Rd.flag
    let a ← rdUlAddr encrypted
    let opt ← Rd.flag
    if opt then do
      let cap ← Rd.flag
      if cap then do
        let frag ← Rd.flag
        let r ← Rd.bits 4
        pure ⟨fill, encrypted, a.1, a.2, none, some frag, some r⟩
      else do
        let l ← Rd.bits 5
        pure ⟨fill, encrypted, a.1, a.2, some l, none, none⟩
    else pure ⟨fill, encrypted, a.1, a.2, none, none, none⟩

/-- umac/pdus/mac_data.rs. -/
structure MacData where
  fillBits : Bool
  encrypted : Bool
  addr : Option Addr
  eventLabel : Option Nat
  lengthInd : Option Nat
  fragFlag : Option Bool
  reservation : Option Nat
  deriving DecidableEq, Repr

/-- mac_data.rs lines 100-151 `to_bitbuf`. -/
def MacData.enc (x : MacData) : Out (List Bool) :=
  if x.addr.isSome == x.eventLabel.isSome then .panic else
  cat [wBits 0 2, wFlag x.fillBits, wFlag x.encrypted, ulAddr true x.encrypted x.addr x.eventLabel,
    (match x.lengthInd with
      | some l => cat [wFlag false, wBits l 6]
      | none => match x.fragFlag, x.reservation with
        | some f, some r => cat [wFlag true, wFlag f, wBits r 4, wFlag false]
        | _, _ => .panic)]

/-- `buf.read_bits(1)` with the result ignored: at the end of the window it does nothing. -/
def rdReserved : Rd Unit := do
  let bs ← Rd.look
  if bs.length = 0 then pure () else Rd.skip 1

/-- mac_data.rs lines 31-98 `from_bitbuf`. -/
def MacData.dec : Rd MacData := do
  let ty ← Rd.bits 2
  if ty ≠ 0 then Rd.abort else do
    let fill ← Rd.flag
    let encrypted ← Rd.flag
    let a ← rdUlAddr encrypted
    let cap ← Rd.flag
    if cap then do
      let frag ← Rd.flag
      let r ← Rd.bits 4
      rdReserved
      pure ⟨fill, encrypted, a.1, a.2, none, some frag, some r⟩
    else do
      let l ← Rd.bits 6
      pure ⟨fill, encrypted, a.1, a.2, some l, none, none⟩

/-- umac/pdus/mac_end_hu.rs. -/
structure MacEndHu where
  fillBits : Bool
  lengthInd : Option Nat
  reservation : Option Nat
  deriving DecidableEq, Repr

/-- mac_end_hu.rs lines 48-64 `to_bitbuf`. -/
def MacEndHu.enc (x : MacEndHu) : Out (List Bool) :=
  match x.lengthInd, x.reservation with
  | some l, none => cat [wBits 1 1, wFlag x.fillBits, wFlag false, wBits l 4]
  | none, some r => cat [wBits 1 1, wFlag x.fillBits, wFlag true, wBits r 4]
  | _, _ => .panic

/-- mac_end_hu.rs lines 22-46 `from_bitbuf`. -/
def MacEndHu.dec : Rd MacEndHu := do
  let ty ← Rd.bits 1
  if ty ≠ 1 then Rd.abort else do
    let fill ← Rd.flag
    let cap ← Rd.flag
    if cap then do
      let r ← Rd.bits 4
      pure ⟨fill, none, some r⟩
    else do
      let l ← Rd.bits 4
      pure ⟨fill, some l, none⟩

/-- umac/pdus/mac_end_ul.rs. -/
structure MacEndUl where
  fillBits : Bool
  lengthInd : Option Nat
  reservation : Option Nat
  deriving DecidableEq, Repr

/-- mac_end_ul.rs lines 56-77 `to_bitbuf`. -/
def MacEndUl.enc (x : MacEndUl) : Out (List Bool) :=
  match x.lengthInd, x.reservation with
  | some l, none =>
    if 0 < l ∧ l < 0b101110 then cat [wBits 1 2, wBits 1 1, wFlag x.fillBits, wBits l 6] else .err
  | none, some r => cat [wBits 1 2, wBits 1 1, wFlag x.fillBits, wBits 0b11 2, wBits r 4]
  | _, _ => .err

/-- mac_end_ul.rs lines 21-54 `from_bitbuf`. The third comparison is with hexadecimal `0x110000`. -/
def MacEndUl.dec : Rd MacEndUl := do
  let ty ← Rd.bits 2
  if ty ≠ 1 then Rd.abort else do
    let sub ← Rd.bits 1
    if sub ≠ 1 then Rd.abort else do
      let fill ← Rd.flag
      let v ← Rd.bits 6
      if v = 0 then Rd.fail
      else if v < 0b101111 then pure ⟨fill, some v, none⟩
      else if v < 0x110000 then Rd.fail
      else pure ⟨fill, none, some (v % 16)⟩

/-- umac/pdus/mac_u_blck.rs. -/
structure MacUBlck where
  fillBits : Bool
  encrypted : Bool
  eventLabel : Nat
  reservation : Nat
  deriving DecidableEq, Repr

/-- mac_u_blck.rs `to_bitbuf`. -/
def MacUBlck.enc (x : MacUBlck) : Out (List Bool) :=
  cat [wBits 3 2, wBits 0 1, wFlag x.fillBits, wFlag x.encrypted, wBits x.eventLabel 10, wBits x.reservation 4]

/-- mac_u_blck.rs `from_bitbuf`. -/
def MacUBlck.dec : Rd MacUBlck := do
  let ty ← Rd.bits 2
  if ty ≠ 3 then Rd.abort else do
    let sub ← Rd.bits 1
    if sub ≠ 0 then Rd.abort else do
      let fill ← Rd.flag
      let encrypted ← Rd.flag
      let label ← Rd.bits 10
      let r ← Rd.bits 4
      pure ⟨fill, encrypted, label, r⟩

/-- umac/pdus/mac_u_signal.rs. -/
structure MacUSignal where
  secondHalfStolen : Bool
  deriving DecidableEq, Repr

/-- mac_u_signal.rs `to_bitbuf`. -/
def MacUSignal.enc (x : MacUSignal) : Out (List Bool) := cat [wBits 3 2, wFlag x.secondHalfStolen]

/-- mac_u_signal.rs `from_bitbuf`. -/
def MacUSignal.dec : Rd MacUSignal := do
  let ty ← Rd.bits 2
  if ty ≠ 3 then Rd.abort else do
    let s ← Rd.flag
    pure ⟨s⟩

/-! ## Access assignment -/

/-- umac/pdus/access_assign.rs `AccessField`. -/
structure AccessField where
  accessCode : Nat
  baseFrameLen : Nat
  deriving DecidableEq, Repr

/-- umac/enums/access_assign_dl_usage.rs. -/
inductive DlUsage where
  | unallocated | assignedControl | commonControl | commonAndAssigned
  | traffic (n : Nat)
  deriving DecidableEq, Repr

/-- access_assign_dl_usage.rs `from_usage_marker`. -/
def DlUsage.ofMarker (n : Nat) : DlUsage :=
  if n = 0 then .unallocated else if n = 1 then .assignedControl else if n = 2 then .commonControl
  else if n = 3 then .commonAndAssigned else .traffic n

/-- access_assign_dl_usage.rs `to_usage_marker`. -/
def DlUsage.marker : DlUsage → Nat
  | .unallocated => 0
  | .assignedControl => 1
  | .commonControl => 2
  | .commonAndAssigned => 3
  | .traffic n => n

/-- umac/enums/access_assign_ul_usage.rs. -/
inductive UlUsage where
  | commonOnly | commonAndAssigned | assignedOnly | unallocated
  | traffic (n : Nat)
  deriving DecidableEq, Repr

/-- access_assign_ul_usage.rs `from_usage_marker`. -/
def UlUsage.ofMarker (n : Nat) : Option UlUsage :=
  if n = 0 then some .unallocated else if n < 4 then none else some (.traffic n)

/-- access_assign_ul_usage.rs `to_usage_marker`. -/
def UlUsage.marker : UlUsage → Option Nat
  | .unallocated => some 0
  | .traffic n => some n
  | _ => none

/-- access_assign_ul_usage.rs `is_traffic`. -/
def UlUsage.isTraffic : UlUsage → Bool
  | .traffic _ => true
  | _ => false

/-- umac/pdus/access_assign.rs `AccessAssign`; the `_header` kept "for debugging purposes" is omitted. -/
structure AccessAssign where
  dlUsage : DlUsage
  ulUsage : UlUsage
  f1af1 : Option AccessField
  f2af2 : Option AccessField
  f2af : Option AccessField
  deriving DecidableEq, Repr

def wField (a : AccessField) : Out (List Bool) := cat [wBits a.accessCode 2, wBits a.baseFrameLen 4]
def wField? (a : Option AccessField) : Out (List Bool) := match a with | some a => wField a | none => .panic

/-- `(field >> 4) & 3`, `field & 15`. -/
def fieldOf (v : Nat) : AccessField := ⟨(v >>> 4) % 4, v % 16⟩

/-- access_assign.rs lines 126-179 `to_bitbuf`. -/
def AccessAssign.enc (x : AccessAssign) : Out (List Bool) :=
  if x.dlUsage = .commonControl ∧ x.ulUsage = .commonOnly then
    if x.f2af.isSome then .panic else cat [wBits 0 2, wField? x.f1af1, wField? x.f2af2]
  else if x.ulUsage = .commonAndAssigned then
    cat [wBits 1 2, wBits x.dlUsage.marker 6, wField (x.f2af.getD ⟨0, 4⟩)]
  else if x.ulUsage = .assignedOnly then
    cat [wBits 2 2, wBits x.dlUsage.marker 6, wField (x.f2af.getD ⟨0, 4⟩)]
  else match x.ulUsage.marker with
    | some u => cat [wBits 3 2, wBits x.dlUsage.marker 6, wBits u 6]
    | none => .panic

/-- access_assign.rs lines 63-124 `from_bitbuf`. -/
def AccessAssign.dec : Rd AccessAssign := do
  let h ← Rd.bits 2
  let f1 ← Rd.bits 6
  let f2 ← Rd.bits 6
  if h = 0 then pure ⟨.commonControl, .commonOnly, some (fieldOf f1), some (fieldOf f2), none⟩
  else if h = 1 then pure ⟨DlUsage.ofMarker f1, .commonAndAssigned, none, none, some (fieldOf f2)⟩
  else if h = 2 then pure ⟨DlUsage.ofMarker f1, .assignedOnly, none, none, some (fieldOf f2)⟩
  else match UlUsage.ofMarker f2 with
    | some u => pure ⟨DlUsage.ofMarker f1, u, none, none, none⟩
    | none => Rd.fail

/-- umac/pdus/access_assign_fr18.rs `AccessAssignFr18`; `_header` and the never populated `f1_traf_um`
are omitted. -/
structure AccessAssignFr18 where
  ulUsage : UlUsage
  f1af1 : Option AccessField
  f2af2 : Option AccessField
  f2af : Option AccessField
  deriving DecidableEq, Repr

/-- access_assign_fr18.rs lines 116-154 `to_bitbuf`. -/
def AccessAssignFr18.enc (x : AccessAssignFr18) : Out (List Bool) :=
  let two (h : Nat) : Out (List Bool) :=
    if x.f2af.isSome then .panic else cat [wBits h 2, wField? x.f1af1, wField? x.f2af2]
  match x.ulUsage with
  | .commonOnly => two 0
  | .commonAndAssigned => two 1
  | .assignedOnly => two 2
  | .traffic n =>
    if x.f1af1.isSome || x.f2af2.isSome then .panic else cat [wBits 3 2, wBits n 6, wField? x.f2af]
  | .unallocated => .panic

/-- access_assign_fr18.rs lines 51-114 `from_bitbuf`. -/
def AccessAssignFr18.dec : Rd AccessAssignFr18 := do
  let h ← Rd.bits 2
  let f1 ← Rd.bits 6
  let f2 ← Rd.bits 6
  if h = 0 then pure ⟨.commonOnly, some (fieldOf f1), some (fieldOf f2), none⟩
  else if h = 1 then pure ⟨.commonAndAssigned, some (fieldOf f1), some (fieldOf f2), none⟩
  else if h = 2 then pure ⟨.assignedOnly, some (fieldOf f1), some (fieldOf f2), none⟩
  else match UlUsage.ofMarker f1 with
    | some u => if u.isTraffic then pure ⟨u, none, none, some (fieldOf f2)⟩ else Rd.abort
    | none => Rd.fail

/-! ## Broadcast -/

/-- umac/pdus/mac_sync.rs `MacSync`; the hyperframe number of `time` is not carried. -/
structure MacSync where
  systemCode : Nat
  colourCode : Nat
  t : Nat
  f : Nat
  m : Nat
  sharingMode : Nat
  tsReserved : Nat
  uPlaneDtx : Bool
  frame18Ext : Bool
  deriving DecidableEq, Repr

/-- mac_sync.rs lines 63-74 `to_bitbuf`; `time.t - 1` is a checked subtraction. -/
def MacSync.enc (x : MacSync) : Out (List Bool) :=
  cat [wBits x.systemCode 4, wBits x.colourCode 6, (if x.t = 0 then .panic else wBits (x.t - 1) 2), wBits x.f 5,
    wBits x.m 6, wBits x.sharingMode 2, wBits x.tsReserved 3, wFlag x.uPlaneDtx, wFlag x.frame18Ext, wBits 0 1]

/-- mac_sync.rs lines 33-61 `from_bitbuf`. -/
def MacSync.dec : Rd MacSync := do
  let sc ← Rd.bits 4
  let cc ← Rd.bits 6
  let t ← Rd.bits 2
  let f ← Rd.bits 5
  let m ← Rd.bits 6
  let sm ← Rd.bits 2
  let tr ← Rd.bits 3
  let dtx ← Rd.flag
  let ext ← Rd.flag
  let _ ← Rd.bits 1
  pure ⟨sc, cc, t + 1, f, m, sm, tr, dtx, ext⟩

/-- umac/fields/sysinfo_default_def_for_access_code_a.rs. -/
structure DefaultAccess where
  imm : Nat
  wt : Nat
  nu : Nat
  flFactor : Bool
  tsPtr : Nat
  minPduPrio : Nat
  deriving DecidableEq, Repr

def DefaultAccess.enc (x : DefaultAccess) : Out (List Bool) :=
  cat [wBits x.imm 4, wBits x.wt 4, wBits x.nu 4, wFlag x.flFactor, wBits x.tsPtr 4, wBits x.minPduPrio 3]

def DefaultAccess.dec : Rd DefaultAccess := do
  let imm ← Rd.bits 4
  let wt ← Rd.bits 4
  let nu ← Rd.bits 4
  let fl ← Rd.flag
  let ts ← Rd.bits 4
  let pr ← Rd.bits 3
  pure ⟨imm, wt, nu, fl, ts, pr⟩

/-- umac/fields/sysinfo_ext_services.rs. -/
structure ExtServices where
  authRequired : Bool
  class1 : Bool
  class2 : Bool
  class3 : Bool
  sckN : Option Nat
  dckSelect : Option Bool
  dckReselect : Option Bool
  linkedGck : Option Bool
  shortGckVn : Option Nat
  sdstlAddressing : Nat
  gckSupported : Bool
  section_ : Nat
  sectionData : Nat
  deriving DecidableEq, Repr

/-- sysinfo_ext_services.rs `to_bitbuf`. -/
def ExtServices.enc (x : ExtServices) : Out (List Bool) :=
  if x.class2 && x.class3 then .panic else
  cat [wFlag x.authRequired, wFlag x.class1, wFlag x.class3,
    (if x.class2 then (match x.sckN with | some v => wBits v 5 | none => .panic)
     else if x.class3 then
      (match x.dckSelect, x.dckReselect, x.linkedGck, x.shortGckVn with
        | some a, some b, some c, some d => cat [wFlag a, wFlag b, wFlag c, wBits d 2]
        | _, _, _, _ => .panic)
     else wBits 0 5),
    wBits x.sdstlAddressing 2, wFlag x.gckSupported, wBits x.section_ 2, wBits x.sectionData 7]

/-- sysinfo_ext_services.rs `from_bitbuf` with `aie_enabled = true`, the only way it is called
(mac_sysinfo.rs line 115): the class 2 flag is the negation of the third bit. -/
def ExtServices.dec : Rd ExtServices := do
  let auth ← Rd.flag
  let c1 ← Rd.flag
  let c3 ← Rd.flag
  if !c3 then do
    let sck ← Rd.bits 5
    let sd ← Rd.bits 2
    let g ← Rd.flag
    let s ← Rd.bits 2
    let d ← Rd.bits 7
    pure ⟨auth, c1, true, false, some sck, none, none, none, none, sd, g, s, d⟩
  else do
    let ds ← Rd.flag
    let dr ← Rd.flag
    let lg ← Rd.flag
    let sv ← Rd.bits 2
    let sd ← Rd.bits 2
    let g ← Rd.flag
    let s ← Rd.bits 2
    let d ← Rd.bits 7
    pure ⟨auth, c1, false, true, none, some ds, some dr, some lg, some sv, sd, g, s, d⟩

/-- umac/fields/ts_common_frames.rs: eighteen flags, kept as one 18-bit number (most significant first). -/
def wCommonFrames (v : Nat) : Out (List Bool) := cat [wBits v 18, wBits 0 2]

/-- umac/pdus/mac_sysinfo.rs `MacSysinfo`. -/
structure MacSysinfo where
  mainCarrier : Nat
  freqBand : Nat
  freqOffset : Nat
  duplexSpacing : Nat
  reverse : Bool
  numCsch : Nat
  msTxpwrMax : Nat
  rxlevAccessMin : Nat
  accessParameter : Nat
  radioDlTimeout : Nat
  cckId : Option Nat
  hyperframe : Option Nat
  optionField : Nat
  tsCommonFrames : Option Nat
  defaultAccess : Option DefaultAccess
  extServices : Option ExtServices
  deriving DecidableEq, Repr

/-- mac_sysinfo.rs lines 123-175 `to_bitbuf`. For the even multiframe definition nothing is written. -/
def MacSysinfo.enc (x : MacSysinfo) : Out (List Bool) :=
  cat [wBits 2 2, wBits 0 2, wBits x.mainCarrier 12, wBits x.freqBand 4, wBits x.freqOffset 2, wBits x.duplexSpacing 3,
    wFlag x.reverse, wBits x.numCsch 2, wBits x.msTxpwrMax 3, wBits x.rxlevAccessMin 4, wBits x.accessParameter 4,
    wBits x.radioDlTimeout 4,
    (match x.cckId, x.hyperframe with
      | some c, none => cat [wFlag true, wBits c 16]
      | none, some h => cat [wFlag false, wBits h 16]
      | _, _ => .panic),
    wBits x.optionField 2,
    (if x.optionField = 0 then
      (if x.defaultAccess.isSome || x.extServices.isSome then .panic else .ok [])
     else if x.optionField = 1 then
      (if x.defaultAccess.isSome || x.extServices.isSome then .panic else
        match x.tsCommonFrames with | some v => wCommonFrames v | none => .panic)
     else if x.optionField = 2 then
      (if x.tsCommonFrames.isSome || x.extServices.isSome then .panic else
        match x.defaultAccess with | some v => v.enc | none => .panic)
     else
      (if x.tsCommonFrames.isSome || x.defaultAccess.isSome then .panic else
        match x.extServices with | some v => v.enc | none => .panic))]

/-- mac_sysinfo.rs lines 52-121 `from_bitbuf`; PDU type and subtype are only warned about. -/
def MacSysinfo.dec : Rd MacSysinfo := do
  let _ ← Rd.bits 2
  let _ ← Rd.bits 2
  let mc ← Rd.bits 12
  let fb ← Rd.bits 4
  let fo ← Rd.bits 2
  let ds ← Rd.bits 3
  let rv ← Rd.flag
  let nc ← Rd.bits 2
  let tx ← Rd.bits 3
  let rx ← Rd.bits 4
  let ap ← Rd.bits 4
  let rt ← Rd.bits 4
  let hasCck ← Rd.flag
  let idn ← Rd.bits 16
  let cck := if hasCck then some idn else none
  let hfn := if hasCck then none else some idn
  let opt ← Rd.bits 2
  if opt = 0 ∨ opt = 1 then do
    Rd.skip 20
    pure ⟨mc, fb, fo, ds, rv, nc, tx, rx, ap, rt, cck, hfn, opt, none, none, none⟩
  else if opt = 2 then do
    let d ← DefaultAccess.dec
    pure ⟨mc, fb, fo, ds, rv, nc, tx, rx, ap, rt, cck, hfn, opt, none, some d, none⟩
  else do
    let e ← ExtServices.dec
    pure ⟨mc, fb, fo, ds, rv, nc, tx, rx, ap, rt, cck, hfn, opt, none, none, some e⟩

/-- umac/pdus/access_define.rs. -/
structure AccessDefine where
  commonOrAssigned : Bool
  accessCode : Nat
  imm : Nat
  wt : Nat
  nu : Nat
  frameLenFactor : Bool
  tsPointer : Nat
  minPduPrio : Nat
  optFieldFlag : Nat
  subscriberClass : Option Nat
  gssi : Option Nat
  deriving DecidableEq, Repr

/-- access_define.rs lines 75-99 `to_bitbuf`. -/
def AccessDefine.enc (x : AccessDefine) : Out (List Bool) :=
  cat [wBits 2 2, wBits 1 2, wFlag x.commonOrAssigned, wBits x.accessCode 2, wBits x.imm 4, wBits x.wt 4, wBits x.nu 4,
    wFlag x.frameLenFactor, wBits x.tsPointer 4, wBits x.minPduPrio 3, wBits x.optFieldFlag 2,
    (match x.subscriberClass with | some v => wBits v 16 | none => .ok []),
    (match x.gssi with | some v => wBits v 24 | none => .ok []),
    wBits 4 3]

/-- access_define.rs lines 33-73 `from_bitbuf`. -/
def AccessDefine.dec : Rd AccessDefine := do
  let ty ← Rd.bits 2
  if ty ≠ 2 then Rd.abort else do
    let bt ← Rd.bits 2
    if bt ≠ 1 then Rd.abort else do
      let co ← Rd.flag
      let ac ← Rd.bits 2
      let imm ← Rd.bits 4
      let wt ← Rd.bits 4
      let nu ← Rd.bits 4
      let fl ← Rd.flag
      let ts ← Rd.bits 4
      let pr ← Rd.bits 3
      let op ← Rd.bits 2
      let sc ← (if op = 1 then some <$> Rd.bits 16 else pure none : Rd (Option Nat))
      let gs ← (if op = 2 then some <$> Rd.bits 24 else pure none : Rd (Option Nat))
      let filler ← Rd.bits 3
      if filler ≠ 4 then Rd.abort else
        pure ⟨co, ac, imm, wt, nu, fl, ts, pr, op, sc, gs⟩

end Verif.Umac
