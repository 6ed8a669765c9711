import Verif.Umac.UmacMs
import Verif.Phy.Finder
/-!
# The lower MAC of a mobile station: model of `crates/tetra-entities/src/lmac/lmac_ms.rs`

The channel decoders are those of `Verif.Lmac`. The traffic channels (`tchans`) and the configuration are never read. Traffic is
logged and dropped (lmac_ms.rs:146-148).
-/
namespace Verif.Umac
open Verif.Bits Verif.Codec Verif.Tdma Verif.Phy

/-- `PhyBlockType` (tetra-core/src/phy_types.rs:22-32), those of the downlink. -/
inductive MsBlock where
  | bbk | sb1 | sb2 | ndb
  deriving DecidableEq, Repr

/-- `LmacMs` (lmac_ms.rs:35-52). Of `cur_burst` only `is_traffic` is ever set. -/
structure LmacMs where
  code : Option Nat
  ts : Option Time
  traffic : Bool
  deriving DecidableEq, Repr

/-- `LmacMs::new` (lmac_ms.rs:54-64). -/
def LmacMs.init : LmacMs := ⟨none, none, false⟩

/-- `TdmaTime::default` (tetra-core/src/tdma_time.rs). -/
def LmacMs.time (s : LmacMs) : Time := s.ts.getD ⟨1, 1, 1, 0⟩

/-- `is_mandatory_bsch` (tdma_time.rs:110-112). -/
def mandatoryBsch (t : Time) : Bool := t.f == 18 && (t.t : Int) == 4 - ((t.m + 1) % 4 : Nat)

/-- `is_mandatory_bnch` (tdma_time.rs:115-117). -/
def mandatoryBnch (t : Time) : Bool := t.f == 18 && (t.t : Int) == 4 - ((t.m + 3) % 4 : Nat)

/-- `determine_logical_channel_dl` (lmac_ms.rs:103-144): the flags for stolen blocks are never set. -/
def LmacMs.chan (s : LmacMs) (ty : MsBlock) (num : Option BlockNum) : Res Chan :=
  match ty with
  | .bbk => .ok .aach
  | .sb1 => .ok .bsch
  | _ =>
    if mandatoryBsch s.time && num == some .block1 then .panic
    else if ty = .sb2 ∧ mandatoryBnch s.time then .ok .bnch
    else if s.traffic then .ok .tchS
    else if num = some .both then .ok .schF
    else .ok .schHd

/-- `rx_tp_prim` with `rx_bbk` and `rx_blk_cp` (lmac_ms.rs:66-101, 150-197, 199-217): what is passed to the upper MAC. -/
def LmacMs.rx (s : LmacMs) (ty : MsBlock) (num : Option BlockNum) (bits : List Bool) : Res (List MsCall) := do
  let c ← s.chan ty num
  match c with
  | .aach =>
    match s.code with
    | none => .ok []
    | some k => do
      let b ← Rm3014.decodeAach bits (BitVec.ofNat 32 k)
      .ok [.block s.time .aach none k b]
  | .tchS => .ok []
  | _ => do
    let r ← ErrorControl.decodeCp (codeChan c) (ty == .sb1) bits (s.code.map (BitVec.ofNat 32))
    match r with
    | (some b, true) =>
      if c = .bsch then .ok [.block s.time c num 3 b]
      else match s.code with
        | some k => .ok [.block s.time c num k b]
        | none => .panic
    | _ => .ok []

/-- `rx_tmv_configure_req` (lmac_ms.rs:219-241). Messages to other layers are not for it. -/
def LmacMs.configure (s : LmacMs) : MsOut → LmacMs
  | .setTime t => { s with ts := some t }
  | .setScramb c => { s with code := some c }
  | .setTraffic b => { s with traffic := b }
  | _ => s

/-- `tick_start` (lmac_ms.rs:281-293). -/
def LmacMs.tick (s : LmacMs) (now : Time) : Res LmacMs :=
  match s.ts with
  | none => .ok { s with traffic := false }
  | some t => if t ≠ now then .panic else do
    let t ← t.addTimeslots 1
    .ok { s with traffic := false, ts := some t }

/-! ## The two layers together -/

/-- Lower and upper MAC, and the clock of the message router. -/
structure MsStack where
  now : Time
  lmac : LmacMs
  umac : UmacMs

/-- Calls of the upper MAC; what it asks of the lower MAC is done before the next. (The access assignment and its consequence go
before everything else, `MessagePrio::Immediate`; a new time, which the code puts at the end of the queue, is taken at once.) -/
def MsStack.calls (s : MsStack) : List MsCall → Out (MsStack × List MsOut)
  | [] => .ok (s, [])
  | c :: cs => do
    let r ← s.umac.call c
    let q ← ({ s with umac := r.1, lmac := r.2.foldl LmacMs.configure s.lmac } : MsStack).calls cs
    .ok (q.1, r.2 ++ q.2)

/-- Blocks of a burst, one after the other. -/
def MsStack.blocks (s : MsStack) : List (MsBlock × Option BlockNum × List Bool) → Out (MsStack × List MsOut)
  | [] => .ok (s, [])
  | b :: bs => do
    let cs ← Out.ofRes (s.lmac.rx b.1 b.2.1 b.2.2)
    let r ← s.calls cs
    let q ← r.1.blocks bs
    .ok (q.1, r.2 ++ q.2)

/-- Bits `o` to `o + n` of a burst. -/
def part (b : List Bool) (o n : Nat) : List Bool := (b.drop o).take n

/-- The blocks of a burst (EN 300 392-2 clause 9.4.4). The repository has no physical layer for mobile stations; this is what
one gives to the lower MAC, access assignment first. -/
def splitDl : Train → List Bool → List (MsBlock × Option BlockNum × List Bool)
  | .sync, b => [(.bbk, none, part b 252 30), (.sb1, some .block1, part b 94 120), (.sb2, some .block2, part b 282 216)]
  | .norm1, b => [(.bbk, none, part b 230 14 ++ part b 266 16), (.ndb, some .both, part b 14 216 ++ part b 282 216)]
  | .norm2, b => [(.bbk, none, part b 230 14 ++ part b 266 16), (.ndb, some .block1, part b 14 216),
      (.ndb, some .block2, part b 282 216)]
  | .ext, _ => []

/-- One timeslot (`tick_start` and `tick_end`, messagerouter.rs:137-183): the clock, then what was received, if the station
listens. -/
def MsStack.slot (s : MsStack) (rx : Option (List Bool)) : Out (MsStack × List MsOut) := do
  let l ← Out.ofRes (s.lmac.tick s.now)
  let n ← Out.ofRes (s.now.addTimeslots 1)
  let s : MsStack := { s with lmac := l, now := n }
  match rx with
  | none => .ok (s, [])
  | some b => do
    let f ← Out.ofRes (findDl b)
    match f with
    | none => .ok (s, [])
    | some r => s.blocks (splitDl r.train r.bits)

/-- A number of timeslots. -/
def MsStack.run (s : MsStack) : List (Option (List Bool)) → Out (MsStack × List MsOut)
  | [] => .ok (s, [])
  | b :: bs => do
    let r ← s.slot b
    let q ← r.1.run bs
    .ok (q.1, r.2 ++ q.2)

end Verif.Umac
