import Verif.Phy.Finder
import Verif.Umac.UmacBs
/-!
# The uplink and the whole radio side of the base station

Model of the uplink of the physical layer (`crates/tetra-entities/src/phy/phy_bs.rs`) and of the lower MAC
(`crates/tetra-entities/src/lmac/lmac_bs.rs`), joined with the downlink (`Burst.lean`), the burst finder (`Finder.lean`) and
the upper MAC (`UmacBs.lean`) in the order in which the router delivers their messages
(`crates/tetra-entities/src/messagerouter.rs`).

Order of messages: the physical layer appends all blocks of a slot to the queue in one go (phy_bs.rs:247-291). For each of them
the lower MAC puts the decoded block, and the upper MAC puts the notice about the second half, at the front of the queue
(lmac_bs.rs:257, umac_bs.rs:1314), so a block is handled completely before the next one; everything else is appended. Voice is
appended (lmac_bs.rs:213) and so is handled after the blocks of the slot and before anything that follows from them.

Simplifications: bits are booleans; logging, and replaying from and recording to files (test modes) are left out; the number of
received carriers is one.
-/
namespace Verif.Phy
open Verif.Umac Verif.Tdma Verif.Codec Verif.ErrorControl

/-! ## Physical layer -/

/-- What the demodulator made of one slot: the bits of the whole slot and of each half (demodulator.rs:260-283). -/
structure Air where
  full : List Bool
  sub1 : List Bool
  sub2 : List Bool
  deriving DecidableEq, Repr

/-- `TpUnitdataInd` (tetra-saps/src/tp). The burst type follows from the training sequence: `ext` is CUB, else NUB. -/
structure TpInd where
  train : Train
  num : BlockNum
  bits : List Bool
  deriving DecidableEq, Repr

/-- `bits[o..o + n]`. -/
def cut (b : List Bool) (o n : Nat) : List Bool := (b.drop o).take n

/-- `split_rxslot_and_send_to_lmac` (phy_bs.rs:102-165) with the offsets of burst_consts.rs. -/
def splitBurst (b : RxBurst) : Res (List TpInd) :=
  match b.train with
  | .norm1 => do
    Res.assert (b.bits.length == 462)
    .ok [⟨.norm1, .both, cut b.bits 4 216 ++ cut b.bits 242 216⟩]
  | .norm2 => do
    Res.assert (b.bits.length == 462)
    .ok [⟨.norm2, .block1, cut b.bits 4 216⟩, ⟨.norm2, .block2, cut b.bits 242 216⟩]
  | .ext => do
    Res.assert (b.bits.length == 206)
    .ok [⟨.ext, .block1, cut b.bits 4 84 ++ cut b.bits 118 84⟩]
  | .sync => .panic

/-- A burst, if one was found. -/
def splitFound : Option RxBurst → Res (List TpInd)
  | none => .ok []
  | some b => splitBurst b

/-- The end of `rx_tpsap_prim` (phy_bs.rs:247-291): whole slot, first half, second half. -/
def phyRx (a : Air) : Res (List TpInd) := do
  let f ← findUlFull a.full
  let s1 ← findUlSub a.sub1
  let s2 ← findUlSub a.sub2
  let x ← splitFound f
  let y ← splitFound s1
  let z ← splitFound s2
  .ok (x ++ y ++ z)

/-! ## Lower MAC -/

/-- The state of `LmacBs` (lmac_bs.rs:36-58): the scrambling code, for each timeslot whether its uplink is a traffic channel,
and whether the second half of the slot in reception has been announced as stolen. -/
structure LmacUl where
  code : BitVec 32
  traffic : Slots Bool
  stolen : Bool

/-- `LmacBs::new` (lmac_bs.rs:61-87). -/
def LmacUl.init (code : BitVec 32) : LmacUl := ⟨code, fun _ => false, false⟩

/-- `determine_logical_channel_ul` (lmac_bs.rs:117-168). -/
def ulChannel (b : TpInd) (traffic stolen : Bool) : Res Interleaver.Chan :=
  match b.train, b.num with
  | .ext, _ => .ok .schHu
  | .norm1, .both => .ok (if traffic then .tchS else .schF)
  | .norm1, _ => .panic
  | .norm2, .block1 => .ok .stch
  | .norm2, .block2 => .ok (if !traffic || stolen then .stch else .tchS)
  | .norm2, .both => .panic
  | .sync, _ => .panic

/-- What the lower MAC makes of a block. -/
inductive LmacUp where
  | nothing
  | block (c : UlCtx) (bits : List Bool)
  | voice (ts : Nat) (bits : List Bool)
  deriving DecidableEq, Repr

/-- `rx_blk_control` (lmac_bs.rs:216-258): blocks with a wrong checksum are dropped. -/
def LmacUl.control (s : LmacUl) (k : UlCtx) (ch : Interleaver.Chan) (bits : List Bool) : Res LmacUp := do
  let r ← decodeCp ch false bits (some s.code)
  match r.1 with
  | none => .panic
  | some d => .ok (if r.2 then .block k d else .nothing)

/-- `rx_blk_traffic` (lmac_bs.rs:170-214): bad frames are passed on. -/
def LmacUl.voice (s : LmacUl) (ts : Nat) (num : BlockNum) (bits : List Bool) : Res LmacUp :=
  if num = .both then do
    let r ← decodeTp bits s.code
    .ok (.voice ts r.1)
  else .ok .nothing

/-- `rx_tp_prim` (lmac_bs.rs:260-294) for a block of slot `x`. -/
def LmacUl.rx (s : LmacUl) (x : Time) (b : TpInd) : Res LmacUp := do
  let i ← Slots.idx x.t
  let ch ← ulChannel b (s.traffic i) s.stolen
  Res.assert (b.num != .block1 || !s.stolen)
  Res.assert (s.traffic i || !s.stolen)
  match ch with
  | .tchS => s.voice x.t b.num b.bits
  | .schF => s.control ⟨.schF, b.num, x⟩ .schF b.bits
  | .schHu => s.control ⟨.schHu, b.num, x⟩ .schHu b.bits
  | .stch => s.control ⟨.stch, b.num, x⟩ .stch b.bits
  | _ => .panic

/-- `rx_tmv_unitdata_req_slot`, the part about the uplink (lmac_bs.rs:310-312), and `tick_start` (lmac_bs.rs:440-443). -/
def LmacUl.slot (s : LmacUl) (y : DlSlot) : Res LmacUl := do
  let i ← Slots.idx y.ts.t
  .ok { s with traffic := s.traffic.upd i (y.ulPhy == .tp), stolen := false }

/-! ## The radio side -/

/-- Physical layer, lower MAC and upper MAC. -/
structure Cell where
  umac : UmacBs
  lmac : LmacUl

/-- What the upper MAC was asked, and what it answered. -/
abbrev Calls := List (UmacEv × List UmacOut)

/-- One block: lower MAC, upper MAC, and the notice about the second half (umac_bs.rs:1297-1315, lmac_bs.rs:296-303). The
voice is returned, to be handled later. -/
def Cell.hear (c : Cell) (x : Time) (b : TpInd) : Out (Cell × Calls × List (Nat × List Bool)) := do
  let u ← Out.ofRes (c.lmac.rx x b)
  match u with
  | .nothing => .ok (c, [], [])
  | .voice ts d => .ok (c, [], [(ts, d)])
  | .block k d => do
    let r ← c.umac.step (.block k d)
    .ok (⟨r.1, { c.lmac with stolen := c.lmac.stolen || r.2.contains .secondHalf }⟩, [(.block k d, r.2)], [])

/-- The blocks of a slot, one after the other. -/
def Cell.hearAll (c : Cell) (x : Time) : List TpInd → Out (Cell × Calls × List (Nat × List Bool))
  | [] => .ok (c, [], [])
  | b :: bs => do
    let r ← c.hear x b
    let q ← r.1.hearAll x bs
    .ok (q.1, r.2.1 ++ q.2.1, r.2.2 ++ q.2.2)

/-- Voice: one number per bit (lmac_bs.rs:199-203). -/
def Cell.voices (c : Cell) : List (Nat × List Bool) → Out (Cell × Calls)
  | [] => .ok (c, [])
  | (ts, d) :: vs => do
    let r ← c.umac.step (.voiceUp ts (d.map Bool.toNat))
    let q ← Cell.voices { c with umac := r.1 } vs
    .ok (q.1, (.voiceUp ts (d.map Bool.toNat), r.2) :: q.2)

/-- The reception of one slot. It was sent two slots before the present one (phy_bs.rs:86-87). -/
def Cell.up (c : Cell) (a : Air) : Out (Cell × Calls) := do
  let x ← Out.ofRes (c.umac.now.addTimeslots (-2))
  let bs ← Out.ofRes (phyRx a)
  let r ← c.hearAll x bs
  let v ← r.1.voices r.2.2
  .ok (v.1, r.2.1 ++ v.2)

/-- The slots among what the upper MAC sends. -/
def slotsOut (out : List UmacOut) : List DlSlot :=
  out.filterMap fun o => match o with
    | .slot y => some y.slot
    | _ => none

/-- A slot on its way to the radio: the lower MAC notes what it expects in the uplink, the physical layer gets the burst. -/
def Cell.send (c : Cell) : List DlSlot → Out (Cell × List (List Bool))
  | [] => .ok (c, [])
  | y :: ys => do
    let l ← Out.ofRes (c.lmac.slot y)
    let b ← Out.ofRes (sendSlot y)
    let q ← Cell.send { c with lmac := l } ys
    .ok (q.1, b :: q.2)

/-- The beginning of a slot: the upper MAC builds the next slot and it goes down to the radio. -/
def Cell.down (c : Cell) (wide : Bool) : Out (Cell × Calls × List (List Bool)) := do
  let r ← c.umac.step (.tick wide)
  let q ← Cell.send { c with umac := r.1 } (slotsOut r.2)
  .ok (q.1, [(.tick wide, r.2)], q.2)

/-- What can happen to the radio side: the beginning of a slot, its reception, and the orders of the layers above. -/
inductive CellEv where
  | down (wide : Bool)
  | up (a : Air)
  | request (q : TmaReq)
  | voice (ts : Nat) (b : Block)
  | control (m : MacCtl)
  deriving DecidableEq

/-- What happens: calls of the upper MAC, bursts for the radio. -/
structure CellOut where
  calls : Calls
  bursts : List (List Bool)

/-- An order of the layers above. -/
def Cell.order (c : Cell) (e : UmacEv) : Out (Cell × CellOut) := do
  let r ← c.umac.step e
  .ok ({ c with umac := r.1 }, ⟨[(e, r.2)], []⟩)

/-- One event. -/
def Cell.step (c : Cell) : CellEv → Out (Cell × CellOut)
  | .down w => do let r ← c.down w; .ok (r.1, ⟨r.2.1, r.2.2⟩)
  | .up a => do let r ← c.up a; .ok (r.1, ⟨r.2, []⟩)
  | .request q => c.order (.request q)
  | .voice ts b => c.order (.voiceDown ts b)
  | .control m => c.order (.control m)

/-- The radio side after a history. -/
inductive CellRun (c0 : Cell) : List (CellEv × CellOut) → Cell → Prop where
  | init : CellRun c0 [] c0
  | step {h : List (CellEv × CellOut)} {c c' : Cell} {e : CellEv} {o : CellOut} :
      CellRun c0 h c → c.step e = .ok (c', o) → CellRun c0 (h ++ [(e, o)]) c'

end Verif.Phy
