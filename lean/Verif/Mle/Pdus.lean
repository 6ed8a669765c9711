import Verif.Mle.MleBs
import Verif.Core.PduForm
/-!
# MLE PDUs: model of `crates/tetra-pdus/src/mle/pdus`

D-NWRK-BROADCAST is in `Verif.Mle.MleBs`, D-MLE-SYNC and D-MLE-SYSINFO are in `Verif.Mle.Broadcast`. File names without a path are those
of that directory. Most readers end in `unimplemented!()`.
-/
namespace Verif.Mle
open Verif.Bits Verif.Codec Verif.TypedFields

/-- `if buffer.get_len_remaining() > 0 { Some(buffer.read_field(buffer.get_len_remaining() - 1)?) }` and `unimplemented!()`. -/
def rdSduThenAbort {α : Type} : Rd α := do
  let r ← Rd.look
  let _ ← rdIf (decide (0 < r.length)) (Rd.bits (r.length - 1))
  Rd.abort

/-- `if let Some(ref value) = self.sdu { unimplemented!() }`. -/
def wSdu (x : Option Nat) : Codec.Out (List Bool) := if x.isSome then .panic else .ok []

/-- d_new_cell.rs:15-20 (PDU type 0). -/
structure DNewCell where
  valid : Nat
  sdu : Option Nat
  deriving DecidableEq, Repr

/-- d_new_cell.rs:26-56. -/
def DNewCell.dec : Rd DNewCell := do
  expectType 3 0
  let _ ← Rd.bits 2
  let _ ← Rd.flag
  rdSduThenAbort

/-- d_new_cell.rs:59-73. -/
def DNewCell.enc (x : DNewCell) : Codec.Out (List Bool) := cat [wBits 0 3, wBits x.valid 2, wSdu x.sdu, wFlag false]

/-- d_prepare_fail.rs (PDU type 1). -/
structure DPrepareFail where
  cause : Nat
  sdu : Option Nat
  deriving DecidableEq, Repr

/-- d_prepare_fail.rs `from_bitbuf`. -/
def DPrepareFail.dec : Rd DPrepareFail := do
  expectType 3 1
  let _ ← Rd.bits 2
  let _ ← Rd.flag
  rdSduThenAbort

/-- d_prepare_fail.rs `to_bitbuf`. -/
def DPrepareFail.enc (x : DPrepareFail) : Codec.Out (List Bool) := cat [wBits 1 3, wBits x.cause 2, wSdu x.sdu, wFlag false]

/-- d_restore_ack.rs (PDU type 4). -/
structure DRestoreAck where
  sdu : Option Nat
  deriving DecidableEq, Repr

/-- d_restore_ack.rs `from_bitbuf`. -/
def DRestoreAck.dec : Rd DRestoreAck := do
  expectType 3 4
  let _ ← Rd.flag
  rdSduThenAbort

/-- d_restore_ack.rs `to_bitbuf`. -/
def DRestoreAck.enc (x : DRestoreAck) : Codec.Out (List Bool) := cat [wBits 4 3, wSdu x.sdu, wFlag false]

/-- d_restore_fail.rs (PDU type 5). -/
structure DRestoreFail where
  cause : Nat
  deriving DecidableEq, Repr

/-- d_restore_fail.rs `from_bitbuf`. -/
def DRestoreFail.dec : Rd DRestoreFail := do
  expectType 3 5
  let c ← Rd.bits 2
  let _ ← rdOptional []
  pure ⟨c⟩

/-- d_restore_fail.rs `to_bitbuf`. -/
def DRestoreFail.enc (x : DRestoreFail) : Codec.Out (List Bool) := cat [wBits 5 3, wBits x.cause 2, wFlag false]

/-- d_channel_response.rs (PDU type 6). -/
structure DChannelResponse where
  accepted : Bool
  reason : Nat
  delay : Nat
  reserved1 : Option Nat
  reserved2 : Option Nat
  deriving DecidableEq, Repr

abbrev DChannelResponse.fields : List Field := [num2 8, num2 8]

/-- d_channel_response.rs `from_bitbuf`. -/
def DChannelResponse.dec : Rd DChannelResponse := do
  expectType 3 6
  let a ← Rd.flag
  let r ← Rd.bits 3
  let d ← Rd.bits 4
  let v ← rdOptional DChannelResponse.fields
  pure ⟨a, r, d, v.1, v.2.1⟩

/-- d_channel_response.rs `to_bitbuf`. -/
def DChannelResponse.enc (x : DChannelResponse) : Codec.Out (List Bool) :=
  cat [wBits 6 3, wFlag x.accepted, wBits x.reason 3, wBits x.delay 4, wOptional DChannelResponse.fields (x.reserved1, x.reserved2, ())]

/-- u_prepare.rs (PDU type 0). -/
structure UPrepare where
  cell : Option Nat
  sdu : Option Nat
  deriving DecidableEq, Repr

/-- u_prepare.rs `from_bitbuf`. -/
def UPrepare.dec : Rd UPrepare := do
  expectType 3 0
  let o ← Rd.flag
  let _ ← rdType2 o (Rd.bits 5)
  Rd.abort

/-- u_prepare.rs `to_bitbuf`: without a cell the SDU is left out. -/
def UPrepare.enc (x : UPrepare) : Codec.Out (List Bool) :=
  if x.cell.isSome then cat [wBits 0 3, wFlag true, wType2 true (wBits · 5) x.cell, wSdu x.sdu, wFlag false]
  else cat [wBits 0 3, wFlag false]

/-- u_restore.rs (PDU type 4). -/
structure URestore where
  mcc : Option Nat
  mnc : Option Nat
  la : Option Nat
  sdu : Option Nat
  deriving DecidableEq, Repr

/-- u_restore.rs `from_bitbuf`. -/
def URestore.dec : Rd URestore := do
  expectType 3 4
  let o ← Rd.flag
  let _ ← rdType2 o (Rd.bits 10)
  let _ ← rdType2 o (Rd.bits 14)
  let _ ← rdType2 o (Rd.bits 14)
  Rd.abort

/-- u_restore.rs `to_bitbuf`: without an element the SDU is left out. -/
def URestore.enc (x : URestore) : Codec.Out (List Bool) :=
  if x.mcc.isSome || x.mnc.isSome || x.la.isSome then
    cat [wBits 4 3, wFlag true, wType2 true (wBits · 10) x.mcc, wType2 true (wBits · 14) x.mnc, wType2 true (wBits · 14) x.la, wSdu x.sdu, wFlag false]
  else cat [wBits 4 3, wFlag false]

/-- u_channel_class_advice.rs (PDU type 3). -/
structure UChannelClassAdvice where
  number : Nat
  classId : Option Nat
  hasDiscriminator : Bool
  discriminator : Option Nat
  priority : Option Nat
  sdu : Option Nat
  deriving DecidableEq, Repr

/-- u_channel_class_advice.rs `from_bitbuf`. -/
def UChannelClassAdvice.dec : Rd UChannelClassAdvice := do
  expectType 3 3
  let _ ← Rd.bits 2
  Rd.abort

/-- u_channel_class_advice.rs `to_bitbuf`. -/
def UChannelClassAdvice.enc (x : UChannelClassAdvice) : Codec.Out (List Bool) :=
  if x.priority.isSome then
    cat [wBits 3 3, wBits x.number 2, wOpt x.classId 4, wFlag x.hasDiscriminator, wOpt x.discriminator 3, wFlag true,
      wType2 true (wBits · 3) x.priority, wSdu x.sdu, wFlag false]
  else cat [wBits 3 3, wBits x.number 2, wOpt x.classId 4, wFlag x.hasDiscriminator, wOpt x.discriminator 3, wFlag false]

/-- d_nwrk_broadcast_remove.rs (PDU type 7, extended). -/
structure DNwrkBroadcastRemove where
  extension : Nat
  caCells : Option Nat
  caData : Option Nat
  daCells : Option Nat
  daData : Option Nat
  servingData : Option Nat
  reserved1 : Option Nat
  reserved2 : Option Nat
  reserved3 : Option Nat
  reserved4 : Option Nat
  deriving DecidableEq, Repr

/-- d_nwrk_broadcast_remove.rs:47-97. -/
def DNwrkBroadcastRemove.dec : Rd DNwrkBroadcastRemove := do
  expectType 3 7
  let _ ← Rd.bits 4
  let o ← Rd.flag
  let _ ← rdType2 o (Rd.bits 5)
  Rd.abort

/-- d_nwrk_broadcast_remove.rs:100-154. -/
def DNwrkBroadcastRemove.enc (x : DNwrkBroadcastRemove) : Codec.Out (List Bool) :=
  if x.caCells.isSome || x.daCells.isSome || x.reserved1.isSome || x.reserved2.isSome || x.reserved3.isSome || x.reserved4.isSome then
    cat [wBits 7 3, wBits x.extension 4, wFlag true, wType2 true (wBits · 5) x.caCells, wSdu x.caData, wType2 true (wBits · 8) x.daCells,
      wSdu x.daData, wSdu x.servingData, wType2 true (wBits · 8) x.reserved1, wType2 true (wBits · 8) x.reserved2,
      wType2 true (wBits · 16) x.reserved3, wType2 true (wBits · 32) x.reserved4, wFlag false]
  else cat [wBits 7 3, wBits x.extension 4, wFlag false]

end Verif.Mle
