import Verif.Umac.MacPdus
import Verif.Umac.FillBits
/-!
# Downlink fragmentation: model of `crates/tetra-entities/src/umac/subcomp/bs_frag.rs`
and of the receiving side in `crates/tetra-entities/src/umac/umac_ms.rs`

Blocks and SDUs are bit strings. That a `BitBuffer` written from its cursor on behaves like a bit string
appended to is property C01; fill bits on a `BitBuffer` are property C18.
-/
namespace Verif.Umac
open Verif.Bits Verif.Codec

/-- A MAC block under construction: a fixed-size `BitBuffer` with the bits written so far. -/
structure Blk where
  bits : List Bool
  cap : Nat
  deriving DecidableEq, Repr

/-- `get_len_remaining`. -/
def Blk.remaining (b : Blk) : Nat := b.cap - b.bits.length

/-- Writing to a fixed-size buffer; past the end it aborts. -/
def Blk.write (b : Blk) (bs : List Bool) : Out Blk :=
  if b.bits.length + bs.length ≤ b.cap then .ok { b with bits := b.bits ++ bs } else .panic

/-- `n` fill bits: a one, then zeroes (fillbits.rs:60-63, bs_frag.rs:164-167, 195-198). -/
def fillPattern : Nat → List Bool
  | 0 => []
  | n + 1 => true :: List.replicate n false

/-- `BsFragger` (bs_frag.rs:10-16). The SDU buffer is its content and its cursor. The transmission reporter
is told when `nextChunk` returns true; its own life cycle is property C06. -/
structure Fragger where
  resource : MacResource
  hdrWritten : Bool
  done : Bool
  sdu : List Bool
  pos : Nat
  deriving DecidableEq, Repr

/-- `BsFragger::new` (bs_frag.rs:25-36), given an SDU buffer at its start. -/
def Fragger.new (r : MacResource) (sdu : List Bool) : Fragger := ⟨r, false, false, sdu, 0⟩

/-- The SDU bits not sent yet. -/
def Fragger.left (f : Fragger) : List Bool := f.sdu.drop f.pos

/-- bs_frag.rs:62-89: everything fits. `as u8` keeps the low eight bits. -/
def Fragger.wholeChunk (f : Fragger) (b : Blk) (fill total : Nat) : Out (Fragger × Blk × Bool) :=
  if total % 8 = 0 ∨ total = b.remaining then do
    let res := { f.resource with lengthInd := total / 8 % 256, fillBits := decide (fill > 0) }
    let h ← res.enc
    let b ← b.write h
    let b ← b.write f.left
    let b ← b.write (fillPattern fill)
    .ok ({ f with resource := res, hdrWritten := true, pos := f.pos + f.left.length }, b, true)
  else .panic

/-- bs_frag.rs:101-120: start of fragmentation. The last `fillbits` call finds the block full. -/
def Fragger.startChunk (f : Fragger) (b : Blk) (hdr fill : Nat) : Out (Fragger × Blk × Bool) := do
  let res := { f.resource with lengthInd := 63, fillBits := false }
  if fill ≠ 0 then .panic else do
    let n := b.remaining - hdr
    let h ← res.enc
    let b ← b.write h
    if f.left.length < n then .panic else do
      let b ← b.write (f.left.take n)
      let b ← b.write (fillPattern b.remaining)
      .ok ({ f with resource := res, hdrWritten := true, pos := f.pos + n }, b, false)

/-- `get_resource_chunk` (bs_frag.rs:42-122). -/
def Fragger.resourceChunk (f : Fragger) (b : Blk) : Out (Fragger × Blk × Bool) :=
  if f.pos ≠ 0 ∨ f.hdrWritten = true ∨ (f.resource.isNull = true ∧ f.left.length > 0) then .panic
  else do
    let hdr ← f.resource.headerLen
    let fill := FillBits.required (hdr + f.left.length) b.remaining
    let total := hdr + f.left.length + fill
    if total ≤ b.remaining then f.wholeChunk b fill total
    else if b.remaining < 32 ∨ b.remaining < hdr then .ok (f, b, false)
    else f.startChunk b hdr fill

/-- bs_frag.rs:141-169: the rest fits a MAC-END. -/
def Fragger.endChunk (f : Fragger) (b : Blk) (lenBits lenBytes : Nat) : Out (Fragger × Blk × Bool) := do
  let fill := FillBits.required lenBits b.remaining
  let h ← (⟨decide (fill > 0), 0, lenBytes % 256, none, none⟩ : MacEndDl).enc
  let b ← b.write h
  let b ← b.write f.left
  let b ← b.write (fillPattern fill)
  .ok ({ f with pos := f.pos + f.left.length }, b, true)

/-- bs_frag.rs:175-200: a MAC-FRAG. -/
def Fragger.fragChunk (f : Fragger) (b : Blk) : Out (Fragger × Blk × Bool) := do
  let n := min (b.remaining - 4) f.left.length
  let fill := b.remaining - 4 - n
  let h ← (⟨decide (fill > 0)⟩ : MacFrag).enc
  let b ← b.write h
  let b ← b.write (f.left.take n)
  let b ← b.write (fillPattern fill)
  .ok ({ f with pos := f.pos + n }, b, false)

/-- `get_frag_or_end_chunk` (bs_frag.rs:129-202). -/
def Fragger.nextPart (f : Fragger) (b : Blk) : Out (Fragger × Blk × Bool) :=
  if f.hdrWritten = false then .panic
  else do
    let h ← MacEndDl.computeHdrLen false false
    let lenBits := h + f.left.length
    let lenBytes := (lenBits + 7) / 8
    if lenBytes * 8 ≤ b.remaining then f.endChunk b lenBits lenBytes
    else if b.remaining < 16 then .ok (f, b, false)
    else f.fragChunk b

/-- `get_next_chunk` (bs_frag.rs:208-231). -/
def Fragger.nextChunk (f : Fragger) (b : Blk) : Out (Fragger × Blk × Bool) :=
  if f.done = true then .panic
  else if ¬ (b.bits.length % 8 = 0 ∨ b.remaining = 0) then .panic
  else do
    let r ← if f.hdrWritten then f.nextPart b else f.resourceChunk b
    .ok ({ r.1 with done := r.2.2 }, r.2.1, r.2.2)

/-! ## The receiving side -/

/-- Number of fill bits at the end of a PDU body: `get_num_fill_bits` (fillbits.rs:5-23) on the bits from
the cursor to the end of the PDU. -/
def fillCount (l : List Bool) : Nat :=
  match l.reverse.dropWhile (fun b => !b) with
  | [] => 0
  | _ :: r => l.length - r.length

/-- What the receiver makes of a PDU. -/
inductive Rx where
  | nothing
  /-- a complete SDU is passed up -/
  | whole (r : MacResource) (sdu : List Bool)
  | first (r : MacResource) (part : List Bool)
  | next (part : List Bool)
  | last (part : List Bool)
  deriving DecidableEq, Repr

/-- Cut the PDU to `len` bits and strip fill bits (umac_ms.rs:311-322, 425-435, 472-482): the body after a
header of `hdr` bits. `set_raw_end` aborts before the cursor or past the buffer. -/
def cutPdu (bs : List Bool) (hdr len : Nat) (fill : Bool) : Out (List Bool) :=
  if len < hdr ∨ bs.length < len then .panic
  else
    let body := (bs.take len).drop hdr
    .ok (if fill then body.take (body.length - fillCount body) else body)

/-- `rx_mac_resource` (umac_ms.rs:254-404) on the bits from the PDU to the end of the block. -/
def rxResource (bs : List Bool) : Out Rx :=
  match MacResource.dec.run bs with
  | .panic => .panic
  | .err => .ok .nothing
  | .ok (r, rest) => do
    let len0 ← if 1 ≤ r.lengthInd ∧ r.lengthInd < 58 then Out.ok (r.lengthInd * 8)
      else if r.lengthInd = 62 ∨ r.lengthInd = 63 then .ok bs.length else .panic
    let body ← cutPdu bs (bs.length - rest.length) (min len0 bs.length) r.fillBits
    if r.addr.isNone ∨ r.encryptionMode > 0 ∨ r.lengthInd = 62 then .ok .nothing
    else if r.lengthInd = 63 then .ok (.first r body)
    else if body.length = 0 then .ok .nothing
    else .ok (.whole r body)

/-- `rx_mac_frag` (umac_ms.rs:406-447), for unencrypted reassembly. -/
def rxFrag (bs : List Bool) : Out Rx :=
  match MacFrag.dec.run bs with
  | .panic => .panic
  | .err => .ok .nothing
  | .ok (p, rest) => do
    let body ← cutPdu bs (bs.length - rest.length) bs.length p.fillBits
    .ok (.next body)

/-- `rx_mac_end` (umac_ms.rs:449-531), for unencrypted reassembly. -/
def rxEnd (bs : List Bool) : Out Rx :=
  match MacEndDl.dec.run bs with
  | .panic => .panic
  | .err => .ok .nothing
  | .ok (p, rest) =>
    if p.lengthInd = 0 then .panic else do
      let body ← cutPdu bs (bs.length - rest.length) (p.lengthInd * 8) p.fillBits
      .ok (.last body)

/-- One round of `rx_tmv_sch` (umac_ms.rs:113-152) for the PDU types above; the others are not
modelled. -/
def rxPdu (bs : List Bool) : Out Rx :=
  match bs with
  | false :: false :: _ :: _ => rxResource bs
  | false :: true :: false :: _ => rxFrag bs
  | false :: true :: true :: _ => rxEnd bs
  | _ => .ok .nothing

end Verif.Umac
