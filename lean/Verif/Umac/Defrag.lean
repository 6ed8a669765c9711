import Verif.Umac.MacPdus
import Verif.Core.Tdma
import Verif.Assoc
import Verif.Slots
/-!
# Reassembly of fragmented SDUs

Models `crates/tetra-entities/src/umac/subcomp/defrag.rs`, `bs_defrag.rs` (base station: per timeslot and
subscriber) and `ms_defrag.rs` (mobile station: per timeslot).

Simplifications: the buffer of a reassembly is the bit string written to it (C01); a fragment is the bit
string from the cursor to the end of the PDU. The encryption information, `None` at every call site, is left
out. Logging is left out.
-/
namespace Verif.Umac
open Verif.Tdma

/-- defrag.rs:5-10. -/
inductive DefragState where
  | inactive | active | complete
  deriving DecidableEq, Repr

/-- defrag.rs:12-20. -/
structure DefragBuf where
  state : DefragState
  addr : Addr
  tFirst : Time
  tLast : Time
  numFrags : Nat
  bits : List Bool
  deriving DecidableEq, Repr

/-- `DefragBuffer::new` and `reset` (defrag.rs:23-51). -/
def DefragBuf.new : DefragBuf := ⟨.inactive, ⟨0, .unknown, false⟩, Time.default, Time.default, 0, []⟩

/-- bs_defrag.rs:7, ms_defrag.rs:5. -/
def defragMaxLen : Nat := 4096
/-- bs_defrag.rs:8, ms_defrag.rs:6. -/
def defragTimeout : Int := 40

/-- A fresh reassembly with its first fragment (bs_defrag.rs:55-64, ms_defrag.rs:46-55). -/
def DefragBuf.begin (addr : Addr) (t : Time) (bits : List Bool) : DefragBuf := ⟨.active, addr, t, t, 1, bits⟩

/-- Append a fragment (bs_defrag.rs:89-104, ms_defrag.rs:70-85). -/
def DefragBuf.add (b : DefragBuf) (t : Time) (bits : List Bool) : DefragBuf :=
  if b.state ≠ .active then b
  else if b.bits.length + bits.length > defragMaxLen then DefragBuf.new
  else { b with tLast := t, numFrags := b.numFrags + 1, bits := b.bits ++ bits }

/-- One buffer in `age_buffers` (bs_defrag.rs:33-36, ms_defrag.rs:30-33). -/
def DefragBuf.aged (b : DefragBuf) (t : Time) : DefragBuf :=
  if b.state ≠ .inactive ∧ t.diff b.tLast > defragTimeout then DefragBuf.new else b

/-! ## Base station -/

/-- `BsDefrag` (bs_defrag.rs:13-15). -/
abbrev BsDefrag := Slots (Assoc Nat DefragBuf)

namespace BsDefrag

/-- bs_defrag.rs:18-22. -/
def new : BsDefrag := fun _ => []

/-- `age_buffers` (bs_defrag.rs:30-39). -/
def age (d : BsDefrag) (t : Time) : BsDefrag := fun i => (d i).map fun e => (e.1, e.2.aged t)

/-- `insert_first` (bs_defrag.rs:42-77): an old reassembly under the same key is dropped. -/
def insertFirst (d : BsDefrag) (bits : List Bool) (t : Time) (addr : Addr) : Res BsDefrag := do
  let i ← Slots.idx t.t
  .ok (d.upd i ((d i).insert addr.ssi (.begin addr t bits)))

/-- `insert_next` (bs_defrag.rs:79-115). -/
def insertNext (d : BsDefrag) (bits : List Bool) (ssi : Nat) (t : Time) : Res BsDefrag := do
  let i ← Slots.idx t.t
  match (d i).get ssi with
  | none => .ok d
  | some b => .ok (d.upd i ((d i).insert ssi (b.add t bits)))

/-- `insert_last` (bs_defrag.rs:118-136). -/
def insertLast (d : BsDefrag) (bits : List Bool) (ssi : Nat) (t : Time) : Res (BsDefrag × Option DefragBuf) := do
  let d ← d.insertNext bits ssi t
  let i ← Slots.idx t.t
  match (d i).get ssi with
  | none => .ok (d, none)
  | some b => .ok (d.upd i ((d i).erase ssi), some { b with state := .complete })

end BsDefrag

/-! ## Mobile station -/

/-- `MsDefrag` (ms_defrag.rs:11-13). -/
abbrev MsDefrag := Slots DefragBuf

namespace MsDefrag

/-- ms_defrag.rs:16-20. -/
def new : MsDefrag := fun _ => DefragBuf.new

/-- `age_buffers` (ms_defrag.rs:28-35). -/
def age (d : MsDefrag) (t : Time) : MsDefrag := fun i => (d i).aged t

/-- `insert_first` (ms_defrag.rs:38-66): the bits are appended to the buffer, which is emptied before only when it is
not inactive. -/
def insertFirst (d : MsDefrag) (bits : List Bool) (t : Time) (addr : Addr) : Res MsDefrag := do
  let i ← Slots.idx t.t
  let old := if (d i).state ≠ .inactive then DefragBuf.new else d i
  .ok (d.upd i ⟨.active, addr, t, t, 1, old.bits ++ bits⟩)

/-- `insert_next` (ms_defrag.rs:68-96). -/
def insertNext (d : MsDefrag) (bits : List Bool) (t : Time) : Res MsDefrag := do
  let i ← Slots.idx t.t
  .ok (d.upd i ((d i).add t bits))

/-- `insert_last` (ms_defrag.rs:98-127). -/
def insertLast (d : MsDefrag) (bits : List Bool) (t : Time) : Res MsDefrag := do
  let i ← Slots.idx t.t
  let b := d i
  .ok (d.upd i (if b.state ≠ .active then b
    else if b.bits.length + bits.length > defragMaxLen then DefragBuf.new
    else { b with state := .complete, tLast := t, numFrags := b.numFrags + 1, bits := b.bits ++ bits }))

/-- `take_defragged_buf` (ms_defrag.rs:140-154). -/
def take (d : MsDefrag) (t : Time) : Res (MsDefrag × Option DefragBuf) := do
  let i ← Slots.idx t.t
  if (d i).state ≠ .complete then .ok (d, none)
  else .ok (d.upd i DefragBuf.new, some (d i))

end MsDefrag
end Verif.Umac
