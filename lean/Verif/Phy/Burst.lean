import Verif.Umac.Sched
import Verif.Lmac.ErrorControl
import Verif.Lmac.Rm3014
/-!
# Downlink bursts

Model of the downlink of the lower MAC and the physical layer: `rx_tmv_unitdata_req_slot` in
`crates/tetra-entities/src/lmac/lmac_bs.rs`, `rx_tpsap_prim` in `crates/tetra-entities/src/phy/phy_bs.rs` (up to the call of
the radio) and `crates/tetra-entities/src/phy/components/slotter.rs`.

Simplifications: bits are booleans; copies into disjoint slices of the burst array are written as one concatenation; a
`BitBuffer` holding an encoded block is the list of its bits. Replaying from and logging to files (test modes) is left out.
-/
namespace Verif.Phy
open Verif.ErrorControl

/-- Bits written as numbers, as in the tables of the code. -/
def bitList (xs : List Nat) : List Bool := xs.map (· == 1)

/-- `bitseq::n`, `SEQ_NORM1_AS_ARR` (slotter.rs:8, train_consts.rs:12). -/
def seqN : List Bool := bitList [1, 1, 0, 1, 0, 0, 0, 0, 1, 1, 1, 0, 1, 0, 0, 1, 1, 1, 0, 1, 0, 0]
/-- `bitseq::p`, `SEQ_NORM2_AS_ARR` (slotter.rs:10, train_consts.rs:14). -/
def seqP : List Bool := bitList [0, 1, 1, 1, 1, 0, 1, 0, 0, 1, 0, 0, 0, 0, 1, 1, 0, 1, 1, 1, 1, 0]
/-- `bitseq::q` (slotter.rs:12). -/
def seqQ : List Bool := bitList [1, 0, 1, 1, 0, 1, 1, 1, 0, 0, 0, 0, 0, 1, 1, 0, 1, 0, 1, 1, 0, 1]
/-- `bitseq::x`, `SEQ_EXT_AS_ARR` (slotter.rs:14-16, train_consts.rs:18-20). -/
def seqX : List Bool :=
  bitList [1, 0, 0, 1, 1, 1, 0, 1, 0, 0, 0, 0, 1, 1, 1, 0, 1, 0, 0, 1, 1, 1, 0, 1, 0, 0, 0, 0, 1, 1]
/-- `bitseq::y`, `SEQ_SYNC_AS_ARR` (slotter.rs:18-20, train_consts.rs:22-24). -/
def seqY : List Bool :=
  bitList [1, 1, 0, 0, 0, 0, 0, 1, 1, 0, 0, 1, 1, 1, 0, 0, 1, 1, 1, 0, 1, 0, 0, 1, 1, 1, 0, 0, 0, 0, 0, 1, 1, 0, 0, 1, 1, 1]
/-- `bitseq::f` (slotter.rs:24-27). -/
def freqCorr : List Bool := List.replicate 8 true ++ List.replicate 64 false ++ List.replicate 8 true

/-- `TrainingSequence` (tetra-core/src/phy_types.rs), those which are used. -/
inductive Train where
  | norm1 | norm2 | ext | sync
  deriving DecidableEq, Repr

/-! ## Phase adjustment (slotter.rs:45-118) -/

/-- `BITS2PHASE`, indexed by the first bit plus twice the second (slotter.rs:73, 97-98). -/
def bits2phase (b0 b1 : Bool) : Int :=
  match b0, b1 with
  | false, false => 1
  | true, false => -1
  | false, true => 3
  | true, true => -3

/-- The loop of `sum_up_phase` (slotter.rs:93-103) from the first bit of the window on; past the end it aborts. -/
def sumLoop : Nat → List Bool → Res Int
  | 0, _ => .ok 0
  | n + 1, b0 :: b1 :: rest => do let s ← sumLoop n rest; .ok (bits2phase b0 b1 + s)
  | _ + 1, _ => .panic

/-- `calc_phase_adj` (slotter.rs:61-70). `%` of Rust is the remainder with the sign of the dividend. -/
def calcPhaseAdj (phase : Int) : Int :=
  let a := -(phase.tmod 8)
  if a > 3 then a - 8 else if a < -3 then a + 8 else a

/-- `PHASE2BITS` and the search in it (slotter.rs:77-87, 116): an amount which is not there aborts. -/
def phase2bits (a : Int) : Res (List Bool) :=
  if a = -3 then .ok [true, true]
  else if a = 0 then .ok [false, false]
  else if a = -1 then .ok [false, true]
  else if a = 1 then .ok [false, false]
  else if a = 3 then .ok [true, false]
  else .panic

/-- `compute_phase_adj_bits` (slotter.rs:109-119) for the window of symbols `n1` to `n2`. -/
def phaseAdj (burst : List Bool) (n1 n2 : Nat) : Res (List Bool) := do
  let s ← sumLoop (n2 - n1 + 1) (burst.drop ((n1 - 1) * 2))
  phase2bits (calcPhaseAdj s)

/-! ## Bursts -/

/-- The bits of a synchronisation burst (slotter.rs:126-147) with the given adjustment bits. -/
def sdbBits (adj1 adj2 blk1 bbk blk2 : List Bool) : List Bool :=
  seqQ.drop 10 ++ adj1 ++ freqCorr ++ blk1 ++ seqY ++ bbk ++ blk2 ++ adj2 ++ seqQ.take 10

/-- `build_sdb` (slotter.rs:125-151): the adjustment bits are computed while they are zero (HC: 8 to 108, HD: 109 to 249). -/
def buildSdb (blk1 bbk blk2 : List Bool) : Res (List Bool) := do
  let z := sdbBits [false, false] [false, false] blk1 bbk blk2
  let a ← phaseAdj z 8 108
  let b ← phaseAdj z 109 249
  .ok (sdbBits a b blk1 bbk blk2)

/-- The bits of a normal burst (slotter.rs:165-190). -/
def ndbBits (adj1 adj2 train blk1 bbk blk2 : List Bool) : List Bool :=
  seqQ.drop 10 ++ adj1 ++ blk1 ++ bbk.take 14 ++ train ++ bbk.drop 14 ++ blk2 ++ adj2 ++ seqQ.take 10

/-- `build_ndb` (slotter.rs:158-202; HA: 8 to 122, HB: 123 to 249). -/
def buildNdb (tr : Train) (blk1 bbk blk2 : List Bool) : Res (List Bool) := do
  let train ← match tr with
    | .norm1 => .ok seqN
    | .norm2 => .ok seqP
    | _ => (.panic : Res (List Bool))
  let z := ndbBits [false, false] [false, false] train blk1 bbk blk2
  let a ← phaseAdj z 8 122
  let b ← phaseAdj z 123 249
  .ok (ndbBits a b train blk1 bbk blk2)

/-! ## Modulation -/

/-- The phase change of one symbol (modulator.rs:92-98), in eighths of a turn. -/
def symbolStep (b0 b1 : Bool) : Int :=
  match b0, b1 with
  | true, true => -3
  | true, false => -1
  | false, false => 1
  | false, true => 3

/-- `DqpskMapper`: the phase of the carrier, in eighths of a turn, after sending `bits` (modulator.rs:90-99, 70-73). -/
def carrier (phase : Int) : List Bool → Int
  | b0 :: b1 :: rest => carrier ((phase + symbolStep b0 b1) % 8) rest
  | _ => phase

/-! ## Lower MAC -/

/-- The names of the channels in the coding chains. -/
def codeChan : Umac.Chan → Interleaver.Chan
  | .aach => .aach
  | .schHd => .schHd
  | .schF => .schF
  | .stch => .stch
  | .tchS => .tchS
  | .bsch => .bsch
  | .bnch => .bnch

/-- The whole of a block of the upper MAC: what has been written and zeros up to its size. -/
def whole (b : Umac.Blk) : List Bool := b.bits ++ List.replicate (b.cap - b.bits.length) false

/-- `TpUnitdataReqSlot` (tetra-saps/src/tp). The burst type follows from the training sequence: `sync` is SDB, else NDB. -/
structure PhyReq where
  train : Train
  bbk : List Bool
  blk1 : List Bool
  blk2 : Option (List Bool)
  deriving DecidableEq, Repr

/-- Coding of one block (lmac_bs.rs:360-371). -/
def codeBlock (r : Umac.TmvReq) (num : Nat) : Res (List Bool) :=
  if r.chan = .tchS then encodeTp (whole r.blk) (BitVec.ofNat 32 r.scramb) num
  else encodeCp (codeChan r.chan) (whole r.blk) (BitVec.ofNat 32 r.scramb)

/-- Training sequence and whether a second block is needed (lmac_bs.rs:324-349). -/
def burstKind : Umac.Chan → Res (Train × Bool)
  | .bsch => .ok (.sync, true)
  | .schF => .ok (.norm1, false)
  | .tchS => .ok (.norm1, false)
  | .schHd => .ok (.norm2, true)
  | .stch => .ok (.norm2, true)
  | .bnch => .ok (.norm2, true)
  | .aach => .panic

/-- `rx_tmv_unitdata_req_slot` (lmac_bs.rs:304-383), what it sends to the physical layer. The access assignment block and the
first block are always there in the model of the scheduler. -/
def lmacSlot (y : Umac.DlSlot) : Res PhyReq := do
  let k ← burstKind y.blk1.chan
  Res.assert (y.blk2.isSome == k.2)
  let bbk ← Rm3014.encodeAach (whole y.bbk.blk) (BitVec.ofNat 32 y.bbk.scramb)
  let blk1 ← codeBlock y.blk1 1
  match y.blk2 with
  | none => .ok ⟨k.1, bbk, blk1, none⟩
  | some r => do
    let blk2 ← codeBlock r 2
    .ok ⟨k.1, bbk, blk1, some blk2⟩

/-! ## Physical layer -/

/-- `to_bitarr` into an array of `n` bits: the bits and what is left of the buffer (bitbuffer.rs:138-151). -/
def takeBits (bits : List Bool) (n : Nat) : Res (List Bool × List Bool) :=
  if n ≤ bits.length then .ok (bits.take n, bits.drop n) else .panic

/-- `rx_tpsap_prim` (phy_bs.rs:157-225): the bits given to the radio. -/
def phySlot (p : PhyReq) : Res (List Bool) := do
  let bbk ← takeBits p.bbk 30
  match p.train, p.blk2 with
  | .sync, some b2 => do
    let blk1 ← takeBits p.blk1 120
    let blk2 ← takeBits b2 216
    buildSdb blk1.1 bbk.1 blk2.1
  | .norm1, none => do
    let blk1 ← takeBits p.blk1 216
    let blk2 ← takeBits blk1.2 216
    buildNdb .norm1 blk1.1 bbk.1 blk2.1
  | .norm2, some b2 => do
    let blk1 ← takeBits p.blk1 216
    let blk2 ← takeBits b2 216
    buildNdb .norm2 blk1.1 bbk.1 blk2.1
  | _, _ => .panic

/-- From the upper MAC to the radio. -/
def sendSlot (y : Umac.DlSlot) : Res (List Bool) := do
  let p ← lmacSlot y
  phySlot p

end Verif.Phy
