import Verif.Core.PduForm
/-!
# Elements of CMCE PDUs

Models crates/tetra-pdus/src/cmce/fields/*.rs, the enumerations of crates/tetra-pdus/src/cmce/enums which occur in PDUs, and
crates/tetra-saps/src/control/enums/sds_user_data.rs. An enumeration is its number; where some numbers have no value the
reader refuses them.
-/
namespace Verif.Cmce.Pdu
open Verif.Bits Verif.Codec Verif.TypedFields

/-- An enumeration read from `n` bits by `try_from(..).map_err(..)?`: the values up to `top` exist. -/
def rdUpTo (n top : Nat) : Rd Nat := do
  let v ← Rd.bits n
  if v ≤ top then pure v else Rd.fail

/-- enums/disconnect_cause.rs lines 5-66 `DisconnectCause`: the values 0 to 23 of five bits. -/
abbrev rdCause : Rd Nat := rdUpTo 5 23

/-- enums/call_status.rs lines 5-25 `CallStatus`: the values 0 to 4 of three bits, as a type 2 element. -/
abbrev callStatus : Field := .type2 (wBits · 3) (rdUpTo 3 4)

/-! ## Basic service information -/

/-- fields/basic_service_information.rs lines 8-19; circuit mode 0 is `TchS`. -/
structure BasicService where
  circuitMode : Nat
  encryption : Bool
  communication : Nat
  slots : Option Nat
  speech : Option Nat
  deriving DecidableEq, Repr

/-- basic_service_information.rs lines 22-53 `from_bitbuf`. -/
def BasicService.dec : Rd BasicService := do
  let m ← Rd.bits 3
  let e ← Rd.flag
  let c ← Rd.bits 2
  let v ← Rd.bits 2
  pure (if m = 0 then ⟨m, e, c, none, some v⟩ else ⟨m, e, c, some v, none⟩)

/-- basic_service_information.rs lines 60-80: the check and the last two bits. -/
def BasicService.tail (x : BasicService) : Out (List Bool) :=
  match x.slots, x.speech with
  | none, some v => if x.circuitMode = 0 then wBits v 2 else .err
  | some v, none => wBits v 2
  | _, _ => .err

/-- basic_service_information.rs lines 55-83 `to_bitbuf`. -/
def BasicService.enc (x : BasicService) : Out (List Bool) :=
  cat [wBits x.circuitMode 3, wFlag x.encryption, wBits x.communication 2, x.tail]

/-! ## Addresses -/

/-- The address of the called party in U-SETUP, U-SDS-DATA and U-STATUS and of the other party in U-CALL RESTORE: four
consecutive fields of each of these PDUs. -/
structure Called where
  kind : Nat
  sna : Option Nat
  ssi : Option Nat
  ext : Option Nat
  deriving DecidableEq, Repr

/-- u_sds_data.rs lines 47-70, u_status.rs 45-68, u_setup.rs 81-104, u_call_restore.rs 52-70. -/
def Called.dec : Rd Called := do
  let k ← Rd.bits 2
  let sna ← rdIf (k == 0) (Rd.bits 8)
  let ssi ← rdIf (k == 1 || k == 2) (Rd.bits 24)
  let ext ← rdIf (k == 2) (Rd.bits 24)
  pure ⟨k, sna, ssi, ext⟩

/-- u_sds_data.rs lines 126-139, u_status.rs 107-119, u_setup.rs 165-177, u_call_restore.rs 116-128. -/
def Called.enc (x : Called) : Out (List Bool) := cat [wBits x.kind 2, wOpt x.sna 8, wOpt x.ssi 24, wOpt x.ext 24]

/-- The address of the calling party in D-SDS-DATA and D-STATUS (three consecutive fields), and the address following a type
identifier in D-SETUP and D-TX GRANTED. -/
structure Calling where
  kind : Nat
  ssi : Option Nat
  ext : Option Nat
  deriving DecidableEq, Repr

/-- d_sds_data.rs lines 38-55, d_status.rs 38-55, d_setup.rs 92-104, d_tx_granted.rs 69-82. -/
def Calling.dec : Rd Calling := do
  let k ← Rd.bits 2
  let ssi ← rdIf (k == 1 || k == 2) (Rd.bits 24)
  let ext ← rdIf (k == 2) (Rd.bits 24)
  pure ⟨k, ssi, ext⟩

/-- d_sds_data.rs lines 107-116, d_status.rs 90-98, d_setup.rs 198-207, d_tx_granted.rs 150-159. -/
def Calling.enc (x : Calling) : Out (List Bool) := cat [wBits x.kind 2, wOpt x.ssi 24, wOpt x.ext 24]

/-! ## Short data -/

/-- sds_user_data.rs lines 2-11 `SdsUserData`; bytes are numbers. -/
inductive Sds where
  | type1 (v : Nat)
  | type2 (v : Nat)
  | type3 (v : Nat)
  | type4 (len : Nat) (data : List Nat)
  deriving DecidableEq, Repr

/-- crates/tetra-core/src/bitbuffer.rs lines 212-224 `read_bits_into_slice` into `count` bytes, `rem` bits being left: the last
byte is filled up with zeroes on the right. -/
def rdOctets : (count rem : Nat) → Rd (List Nat)
  | 0, _ => pure []
  | n + 1, rem => do
    let v ← Rd.bits (min rem 8)
    let vs ← rdOctets n (rem - min rem 8)
    pure (v * 2 ^ (8 - min rem 8) :: vs)

/-- u_sds_data.rs lines 73-90 and d_sds_data.rs lines 58-75. -/
def Sds.dec : Rd Sds := do
  let t ← Rd.bits 2
  if t = 0 then .type1 <$> Rd.bits 16
  else if t = 1 then .type2 <$> Rd.bits 32
  else if t = 2 then .type3 <$> Rd.bits 64
  else do
    let len ← Rd.bits 11
    let data ← rdOctets ((len + 7) / 8) len
    pure (.type4 len data)

/-- u_sds_data.rs lines 148-158 and d_sds_data.rs lines 125-135: `full` whole bytes and the upper `rem` bits of the next;
a byte which is not there aborts. -/
def wOctets : (data : List Nat) → (full rem : Nat) → Out (List Bool)
  | data, 0, rem =>
    if rem = 0 then .ok []
    else match data with
      | [] => .panic
      | d :: _ => wBits (d / 2 ^ (8 - rem)) rem
  | [], _ + 1, _ => .panic
  | d :: ds, n + 1, rem => cat [wBits d 8, wOctets ds n rem]

/-- u_sds_data.rs lines 141-160 and d_sds_data.rs lines 118-137; sds_user_data.rs lines 14-21. -/
def Sds.enc : Sds → Out (List Bool)
  | .type1 v => cat [wBits 0 2, wBits v 16]
  | .type2 v => cat [wBits 1 2, wBits v 32]
  | .type3 v => cat [wBits 2 2, wBits v 64]
  | .type4 len data => cat [wBits 3 2, wBits len 11, wOctets data (len / 8) (len % 8)]

/-! ## Status -/

/-- enums/pre_coded_status.rs lines 9-14 `PreCodedStatus`, with fields/sds_short_report.rs lines 10-15 and
enums/short_report_type.rs lines 6-11. -/
inductive Status where
  | emergency
  | reserved (v : Nat)
  | report (type ref : Nat)
  | user (v : Nat)
  deriving DecidableEq, Repr

/-- sds_short_report.rs lines 27-39 `from_u16`. -/
def shortReport (v : Nat) : Out Status := if v / 1024 = 31 then .ok (.report (v / 256 % 4) (v % 256)) else .err

/-- pre_coded_status.rs lines 16-25 `from`, where a failing `from_u16` is unwrapped. -/
def Status.ofRaw (v : Nat) : Res Status :=
  if v = 0 then .ok .emergency
  else if v ≤ 31742 then .ok (.reserved v)
  else if v ≤ 32767 then
    match shortReport v with
    | .ok s => .ok s
    | _ => .panic
  else .ok (.user v)

/-- pre_coded_status.rs lines 29-36 `into_raw`; sds_short_report.rs lines 41-45 `to_u16`, whose assertion cannot fail for a
`ShortReportType`. -/
def Status.toRaw : Status → Nat
  | .emergency => 0
  | .reserved v => v
  | .report t r => 31 * 1024 + t * 256 + r
  | .user v => v

/-- u_status.rs lines 70-71, d_status.rs lines 57-58. -/
def Status.dec : Rd Status := do
  let v ← Rd.bits 16
  match Status.ofRaw v with
  | .ok s => pure s
  | .panic => Rd.abort

/-- u_status.rs line 121, d_status.rs line 100. -/
def Status.enc (s : Status) : Out (List Bool) := wBits s.toRaw 16

end Verif.Cmce.Pdu
