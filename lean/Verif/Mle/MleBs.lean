import Verif.Umac.MacPdus
import Verif.Cmce.Sds
import Verif.Core.Tdma
import Verif.Core.TypedFields
/-!
# The MLE entity of the base station: model of `crates/tetra-entities/src/mle/mle_bs.rs`

With `mle/components/mle_router.rs`, `broadcast.rs` and `network_time.rs`. Line numbers without a file name are those of mle_bs.rs.

Left out: logging; the fields of primitives which are constant or copied and not looked at by the layers modelled (endpoint,
subscriber class, encryption, data class, handles of requests). Of the time stamp of a message only the timeslot is kept.
-/
namespace Verif.Mle
open Verif.Bits Verif.Codec Verif.Tdma
open Verif.Umac (Addr SsiType)
open Verif.Cmce (Service)

/-- crates/tetra-pdus/src/mle/enums/mle_protocol_discriminator.rs: `try_from` refuses 0, 3 and 7. -/
inductive Disc where
  | mm | cmce | sndcp | mle | management
  deriving DecidableEq, Repr

/-- `MleProtocolDiscriminator::try_from`. -/
def Disc.ofRaw : Nat → Option Disc
  | 1 => some .mm
  | 2 => some .cmce
  | 4 => some .sndcp
  | 5 => some .mle
  | 6 => some .management
  | _ => none

/-- `into_raw`. -/
def Disc.raw : Disc → Nat
  | .mm => 1
  | .cmce => 2
  | .sndcp => 4
  | .mle => 5
  | .management => 6

/-- Channel allocation of a request: usage marker and timeslot. -/
abbrev Chan := Option (Option Nat × Nat)

/-- What MLE is handed by the LLC, by mobility management and by call control. -/
inductive In where
  /-- `TlaTlDataIndBl` -/
  | dataInd (addr : Addr) (link ts : Nat) (sdu : Option (List Bool))
  /-- `TlaTlUnitdataIndBl` -/
  | unitdataInd (addr : Addr) (link ts : Nat) (sdu : Option (List Bool))
  /-- `LmmMleUnitdataReq` -/
  | lmm (addr : Addr) (ts : Nat) (service : Service) (sdu : List Bool)
  /-- `LcmcMleUnitdataReq` -/
  | lcmc (addr : Addr) (ts : Nat) (service : Service) (chan : Chan) (stealing : Bool) (sdu : List Bool)
  deriving DecidableEq, Repr

/-- What MLE pushes. -/
inductive Out where
  /-- `LmmMleUnitdataInd` to mobility management -/
  | mm (handle : Nat) (addr : Addr) (ts : Nat) (sdu : List Bool)
  /-- `LcmcMleUnitdataInd` to call control -/
  | cmce (handle : Nat) (addr : Addr) (link ts : Nat) (sdu : List Bool)
  /-- `LtpdMleUnitdataInd`, on the service access point of call control and addressed to it -/
  | sndcp (addr : Addr) (link ts : Nat) (sdu : List Bool)
  /-- `TlaTlDataReqBl` -/
  | tlData (addr : Addr) (ts : Nat) (chan : Chan) (stealing : Bool) (sdu : List Bool)
  /-- `TlaTlUnitdataReqBl` -/
  | tlUnitdata (addr : Addr) (ts : Nat) (chan : Chan) (stealing : Bool) (sdu : List Bool)
  deriving DecidableEq, Repr

/-- `MleBs` (lines 16-20) with `MleRouter::next_handle` (mle_router.rs:15-18) and `MleBroadcast` (broadcast.rs:15-19): the
time zone, if one is configured, and whether the latest broadcast was the time. -/
structure Mle where
  next : Nat
  zone : Bool
  time : Bool
  deriving DecidableEq, Repr

/-- `MleBs::new` (lines 29-36), mle_router.rs:21-26, broadcast.rs:22-29. -/
def Mle.new (zone : Bool) : Mle := ⟨1, zone, false⟩

/-- `create_handle` (mle_router.rs:28-42): a `u32` counter, aborting when it overflows. -/
def Mle.createHandle (s : Mle) : Res (Mle × Nat) :=
  if s.next + 1 < 2 ^ 32 then .ok ({ s with next := s.next + 1 }, s.next) else .panic

/-- Lines 130-188, the dispatch. The SDU of an MLE message was taken before `rx_tla_mle_pdu` (lines 38-90) looks for it, so that
function returns at once. -/
def Mle.dispatch (s : Mle) (addr : Addr) (link ts : Nat) (sdu : List Bool) : Disc → Res (Mle × List Out)
  | .mm => do
    let r ← s.createHandle
    .ok (r.1, [.mm r.2 addr ts sdu])
  | .cmce => do
    let r ← s.createHandle
    .ok (r.1, [.cmce r.2 addr link ts sdu])
  | .sndcp => .ok (s, [.sndcp addr link ts sdu])
  | .mle => .ok (s, [])
  | .management => .ok (s, [])

/-- `rx_tla_data_ind_bl` (lines 109-190). The buffer was cut by the LLC to start at the SDU (llc_bs_ms.rs:500), so its position
is 0 and the assertion of line 115 holds. -/
def Mle.dataInd (s : Mle) (addr : Addr) (link ts : Nat) : Option (List Bool) → Res (Mle × List Out)
  | none => .panic
  | some sdu =>
    if sdu.length < 3 then .ok (s, [])
    else match Disc.ofRaw (ofBits (sdu.take 3)) with
      | none => .ok (s, [])
      | some d => s.dispatch addr link ts (sdu.drop 3) d

/-- `rx_lmm_mle_unitdata_req` (lines 285-339): always acknowledged; the unacknowledged service aborts (line 299). -/
def lmmReq (addr : Addr) (ts : Nat) (service : Service) (sdu : List Bool) : Res (List Out) :=
  if service = .unacknowledged then .panic
  else .ok [.tlData addr ts none false (toBits 3 (Disc.raw .mm) ++ sdu)]

/-- `rx_lcmc_mle_unitdata_req` (lines 362-431). -/
def lcmcReq (addr : Addr) (ts : Nat) (service : Service) (chan : Chan) (stealing : Bool) (sdu : List Bool) : List Out :=
  if service = .unacknowledged then [.tlUnitdata addr ts chan stealing (toBits 3 (Disc.raw .cmce) ++ sdu)]
  else [.tlData addr ts chan stealing (toBits 3 (Disc.raw .cmce) ++ sdu)]

/-- `rx_prim` (lines 460-486) with `rx_tla_prim` (92-107), `rx_lmm_prim` and `rx_lcmc_prim`. -/
def Mle.rx (s : Mle) : In → Res (Mle × List Out)
  | .dataInd addr link ts sdu => s.dataInd addr link ts sdu
  | .unitdataInd .. => .panic
  | .lmm addr ts service sdu => do
    let o ← lmmReq addr ts service sdu
    .ok (s, o)
  | .lcmc addr ts service chan stealing sdu => .ok (s, lcmcReq addr ts service chan stealing sdu)

/-! ## The broadcast of the network time -/

/-- What `Utc::now()` and the time zone give: the year, the seconds since it began, and the local time minus UTC in seconds. -/
structure Clock where
  year : Int
  secs : Nat
  offset : Int
  deriving DecidableEq, Repr

/-- `encode_tetra_network_time_inner` (network_time.rs:22-48). The cast of a negative year difference to `u64` keeps its low bits. -/
def Clock.encode (c : Clock) : Nat :=
  (c.secs / 2) % 2 ^ 24 * 2 ^ 24 + (if c.offset < 0 then 1 else 0) * 2 ^ 23 + (c.offset.natAbs / 900) % 2 ^ 6 * 2 ^ 17 +
    ((c.year - 2000) % 2 ^ 6).toNat * 2 ^ 11 + 0x7FF

/-- `DNwrkBroadcast` (tetra-pdus/src/mle/pdus/d_nwrk_broadcast.rs:16-28). -/
structure DNwrkBroadcast where
  reselect : Nat
  load : Nat
  time : Option Nat
  neighbours : Option Nat
  neighbourInfo : Option Nat
  deriving DecidableEq, Repr

/-- `to_bitbuf` (d_nwrk_broadcast.rs:73-102). `MlePduTypeDl::DNwrkBroadcast` is 2. -/
def DNwrkBroadcast.enc (x : DNwrkBroadcast) : Codec.Out (List Bool) :=
  if x.time.isSome || x.neighbours.isSome then
    cat [wBits 2 3, wBits x.reselect 16, wBits x.load 2, wFlag true, TypedFields.wType2 true (wBits · 48) x.time,
      TypedFields.wType2 true (wBits · 3) x.neighbours, if x.neighbourInfo.isSome then .panic else .ok []]
  else cat [wBits 2 3, wBits x.reselect 16, wBits x.load 2, wFlag false]

/-- `from_bitbuf` (d_nwrk_broadcast.rs:33-70); neighbour cells are `unimplemented!` (line 54). -/
def DNwrkBroadcast.dec : Rd DNwrkBroadcast := do
  let ty ← Rd.bits 3
  if ty ≠ 2 then Rd.fail
  else do
    let reselect ← Rd.bits 16
    let load ← Rd.bits 2
    let obit ← Rd.flag
    let time ← TypedFields.rdType2 obit (Rd.bits 48)
    let neighbours ← TypedFields.rdType2 obit (Rd.bits 3)
    if obit = true ∧ 0 < neighbours.getD 0 then Rd.abort else pure ⟨reselect, load, time, neighbours, none⟩

/-- broadcast.rs:65-71: the contents. -/
def timeBroadcast (c : Clock) : DNwrkBroadcast := ⟨0, 0, some c.encode, some 0, none⟩

/-- broadcast.rs:90-94. -/
def everyone : Addr := ⟨0xFFFFFF, .gssi, false⟩

/-- broadcast.rs:73-126: the buffer holds 128 bits; a refused encoding is logged. -/
def pushTime (ts : Nat) : Codec.Out (List Bool) → Res (List Out)
  | .ok bs => .ok [.tlUnitdata everyone ts none false (toBits 3 (Disc.raw .mle) ++ bs)]
  | .err => .ok []
  | .panic => .panic

/-- `send_d_nwrk_broadcast` (broadcast.rs:60-126). -/
def sendTime (ts : Nat) (c : Clock) : Res (List Out) := pushTime ts (timeBroadcast c).enc

/-- `send_broadcast` (broadcast.rs:32-58). -/
def Mle.broadcast (s : Mle) (ts : Nat) (c : Clock) : Res (Mle × List Out) :=
  if s.time = true ∨ s.zone = true then do
    let o ← sendTime ts c
    .ok ({ s with time := true }, o)
  else .ok ({ s with time := false }, [])

/-- `tick_start` (lines 450-457): frame 1, timeslot 1 of multiframe 20. -/
def Mle.tick (s : Mle) (now : Time) (c : Clock) : Res (Mle × List Out) :=
  if now.m = 20 ∧ now.f = 1 ∧ now.t = 1 then s.broadcast now.t c else .ok (s, [])

end Verif.Mle
