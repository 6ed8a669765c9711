import Verif.Umac.Sched
import Verif.Umac.Defrag
/-!
# The upper MAC of a mobile station: model of `crates/tetra-entities/src/umac/umac_ms.rs`

A block is the bit string from `raw_start` to `raw_end`; a round which moves `raw_start` gives the bits that are left.
Fill bits, cutting and the PDU readers are those of `Verif.Umac.Fragger` and `Verif.Umac.MacPdus`, reassembly is that of
`Verif.Umac.Defrag`. Logging is not modelled. The priority of a message in the queue is not modelled: each call gives the
messages it queues, in order.
-/
namespace Verif.Umac
open Verif.Bits Verif.Codec Verif.Tdma

/-- Messages the upper MAC of a mobile station queues. The fields of `TmaUnitdataInd` which are constants are left out. -/
inductive MsOut where
  /-- `TmaUnitdataInd` to the LLC -/
  | sdu (a : Addr) (bits : List Bool) (scramb : Nat)
  /-- `TlmbSysinfoInd` to the MLE -/
  | sysinfo (bits : List Bool)
  /-- `TmvConfigureReq` to the lower MAC, with a time -/
  | setTime (t : Time)
  /-- with `is_traffic` -/
  | setTraffic (b : Bool)
  /-- with a scrambling code -/
  | setScramb (c : Nat)
  deriving DecidableEq, Repr

/-- `UmacMs` (umac_ms.rs:27-41), without its configuration, which is never read. -/
structure UmacMs where
  defrag : MsDefrag
  mcc : Option Nat
  mnc : Option Nat
  cc : Option Nat
  scramb : Option Nat

/-- `UmacMs::new` (umac_ms.rs:44-55). -/
def UmacMs.init : UmacMs := ⟨MsDefrag.new, none, none, none, none⟩

/-- What a round of `rx_tmv_sch` leaves: the state, the messages queued, and the rest of the block if `raw_start` was moved. -/
abbrev MsRound := UmacMs × List MsOut × Option (List Bool)

/-- The length of a MAC-RESOURCE in a block of `avail` bits (umac_ms.rs:279-310). -/
def resourceLen (lengthInd avail : Nat) : Out Nat :=
  if 1 ≤ lengthInd ∧ lengthInd < 58 then .ok (min (lengthInd * 8) avail)
  else if lengthInd = 62 ∨ lengthInd = 63 then .ok avail
  else .panic

/-- `rx_mac_resource` (umac_ms.rs:254-404). -/
def UmacMs.rxResource (s : UmacMs) (t : Time) (scramb : Nat) (bs : List Bool) : Out MsRound :=
  match MacResource.dec.run bs with
  | .panic => .panic
  | .err => .ok (s, [], none)
  | .ok (r, rest) => do
    let len ← resourceLen r.lengthInd bs.length
    let body ← cutPdu bs (bs.length - rest.length) len r.fillBits
    match r.addr with
    | none => .ok (s, [], none)
    | some a =>
      if r.encryptionMode > 0 then .ok (s, [], none)
      else if r.lengthInd = 63 then do
        let d ← Out.ofRes (s.defrag.insertFirst body t a)
        .ok ({ s with defrag := d }, [], some (bs.drop len))
      else if r.lengthInd = 62 then .ok (s, [], some (bs.drop len))
      else .ok (s, if body = [] then [] else [.sdu a body scramb], some (bs.drop len))

/-- `rx_mac_frag` (umac_ms.rs:406-447); the encryption information of a reassembly is `None` at every call site. -/
def UmacMs.rxFrag (s : UmacMs) (t : Time) (bs : List Bool) : Out MsRound :=
  match MacFrag.dec.run bs with
  | .panic => .panic
  | .err => .ok (s, [], none)
  | .ok (p, rest) => do
    let body ← cutPdu bs (bs.length - rest.length) bs.length p.fillBits
    let d ← Out.ofRes (s.defrag.insertNext body t)
    .ok ({ s with defrag := d }, [], none)

/-- `rx_mac_end` (umac_ms.rs:449-531). -/
def UmacMs.rxEnd (s : UmacMs) (t : Time) (scramb : Nat) (bs : List Bool) : Out MsRound :=
  match MacEndDl.dec.run bs with
  | .panic => .panic
  | .err => .ok (s, [], none)
  | .ok (p, rest) =>
    if p.lengthInd = 0 then .panic else do
      let body ← cutPdu bs (bs.length - rest.length) (p.lengthInd * 8) p.fillBits
      let d ← Out.ofRes (s.defrag.insertLast body t)
      let r ← Out.ofRes (d.take t)
      match r.2 with
      | none => .ok ({ s with defrag := r.1 }, [], none)
      | some b => .ok ({ s with defrag := r.1 }, [.sdu b.addr b.bits scramb], some (bs.drop (p.lengthInd * 8)))

/-- `rx_broadcast` and `rx_broadcast_sysinfo` (umac_ms.rs:167-250): only SYSINFO is known, anything else aborts. -/
def UmacMs.rxBroadcast (s : UmacMs) (t : Time) (bs : List Bool) : Out MsRound :=
  match bs with
  | true :: false :: false :: false :: _ =>
    match MacSysinfo.dec.run bs with
    | .panic => .panic
    | .err => .ok (s, [], none)
    | .ok (p, rest) =>
      let conf := match p.hyperframe with
        | some h => if h ≠ t.h then [MsOut.setTime { t with h := h }] else []
        | none => []
      .ok (s, conf ++ [.sysinfo rest], none)
  | _ => .panic

/-- One round of the loop of `rx_tmv_sch` (umac_ms.rs:113-152). SUPPLEMENTARY and U-SIGNAL PDUs abort
(umac_ms.rs:533-551). -/
def UmacMs.round (s : UmacMs) (t : Time) (scramb : Nat) (bs : List Bool) : Out MsRound :=
  match bs with
  | false :: false :: _ :: _ => s.rxResource t scramb bs
  | false :: true :: false :: _ => s.rxFrag t bs
  | false :: true :: true :: _ => s.rxEnd t scramb bs
  | true :: false :: _ :: _ => s.rxBroadcast t bs
  | true :: true :: _ :: _ => .panic
  | _ => .ok (s, [], none)

/-- `rx_tmv_sch` (umac_ms.rs:106-163): rounds as long as `raw_start` was moved and 16 bits are left. Each such round takes
bits away, so as many rounds as there are bits are enough (`rxSch_fuel`). -/
def UmacMs.loop (t : Time) (scramb : Nat) : Nat → UmacMs → List Bool → Out (UmacMs × List MsOut)
  | 0, s, _ => .ok (s, [])
  | n + 1, s, bs => do
    let r ← s.round t scramb bs
    match r.2.2 with
    | none => .ok (r.1, r.2.1)
    | some rest =>
      if rest.length < bs.length ∧ 16 ≤ rest.length then do
        let q ← UmacMs.loop t scramb n r.1 rest
        .ok (q.1, r.2.1 ++ q.2)
      else .ok (r.1, r.2.1)

def UmacMs.rxSch (s : UmacMs) (t : Time) (scramb : Nat) (bs : List Bool) : Out (UmacMs × List MsOut) :=
  UmacMs.loop t scramb (bs.length + 1) s bs

/-- `rx_tmv_aach` (umac_ms.rs:553-599). -/
def UmacMs.rxAach (s : UmacMs) (t : Time) (bs : List Bool) : Out (UmacMs × List MsOut) :=
  if t.f ≠ 18 then
    match AccessAssign.dec.run bs with
    | .panic => .panic
    | .err => .ok (s, [])
    | .ok (p, _) => .ok (s, [.setTraffic (match p.dlUsage with | .traffic _ => true | _ => false)])
  else
    match AccessAssignFr18.dec.run bs with
    | .panic => .panic
    | .err => .ok (s, [])
    | .ok _ => .ok (s, [.setTraffic false])

/-- `rx_tmv_bsch` (umac_ms.rs:601-680): the SYNC PDU is parsed and nothing is done with it. -/
def UmacMs.rxBsch (s : UmacMs) (bs : List Bool) : Out (UmacMs × List MsOut) :=
  match MacSync.dec.run bs with
  | .panic => .panic
  | _ => .ok (s, [])

/-- `update_scrambing_and_submit_to_lmac` (umac_ms.rs:692-719). -/
def UmacMs.updateScramb (s : UmacMs) : UmacMs × List MsOut :=
  match s.mcc, s.mnc, s.cc with
  | some mcc, some mnc, some cc =>
    let c := ((cc ||| mnc <<< 6 ||| mcc <<< 20) <<< 2 ||| 3) % 2 ^ 32
    ({ s with scramb := some c }, [.setScramb c])
  | _, _, _ => (s, [])

/-- Calls of the upper MAC (umac_ms.rs:57-103, 682-760). -/
inductive MsCall where
  /-- `TmvUnitdataInd` -/
  | block (t : Time) (chan : Chan) (num : Option BlockNum) (scramb : Nat) (bits : List Bool)
  /-- `TlmcConfigureReq` with the network of the valid addresses, if any -/
  | configure (net : Option (Nat × Nat))
  /-- anything over the TMA or TLMB service access point -/
  | request
  deriving DecidableEq, Repr

/-- `rx_prim` (umac_ms.rs:768-794). Requests of the upper layers abort. -/
def UmacMs.call (s : UmacMs) : MsCall → Out (UmacMs × List MsOut)
  | .block t chan num scramb bits =>
    match chan with
    | .aach => s.rxAach t bits
    | .bsch => s.rxBsch bits
    | .schF => if num = some .both then s.rxSch t scramb bits else .panic
    | .bnch | .stch | .schHd => if num = some .block1 ∨ num = some .block2 then s.rxSch t scramb bits else .panic
    | .tchS => .panic
  | .configure none => .ok (s, [])
  | .configure (some (mcc, mnc)) => .ok ({ s with mcc := some mcc, mnc := some mnc } : UmacMs).updateScramb
  | .request => .panic

/-- A history. -/
def UmacMs.run (s : UmacMs) : List MsCall → Out (UmacMs × List MsOut)
  | [] => .ok (s, [])
  | c :: cs => do
    let r ← s.call c
    let q ← r.1.run cs
    .ok (q.1, r.2 ++ q.2)

end Verif.Umac
