import Verif.Common
/-!
# Recording to files and replaying from them

Model of `crates/tetra-entities/src/phy/components/phy_io_file.rs` and of its use in `PhyBs` (`crates/tetra-entities/src/phy/phy_bs.rs`).
Bytes are numbers.

Simplifications: reading a file which exists does not fail. A file does not change while it is replayed.
-/
namespace Verif.Phy.Record

/-! ## Replaying -/

/-- A file which is replayed (mode `ReadRepeat`), in the middle of `read_block`: `pos` is the position in the file, `got` are the bytes
of the block read so far, and `out` the blocks returned by earlier calls. -/
structure Player where
  content : List Nat
  block : Nat
  pos : Nat
  got : List Nat
  out : List (List Nat)
  deriving DecidableEq, Repr

/-- `PhyIoFile::new` (phy_io_file.rs:45-54) and the beginning of the first `read_block` with a buffer of `block` bytes
(phy_bs.rs:176-179). -/
def Player.new (content : List Nat) (block : Nat) : Player := ⟨content, block, 0, [], []⟩

/-- One round of the loop of `read_block` (phy_io_file.rs:66-101). A read gets at least one byte, but not necessarily all there are:
`upTo` is how many the system is willing to give. When the block is complete the function returns, and is called again for the next
slot. -/
def Player.step (s : Player) (upTo : Nat) : Player :=
  if s.got.length < s.block then
    if s.pos ≥ s.content.length then { s with pos := 0, got := [] }
    else
      let n := max 1 (min upTo (min (s.block - s.got.length) (s.content.length - s.pos)))
      { s with pos := s.pos + n, got := s.got ++ (s.content.drop s.pos).take n }
  else { s with got := [], out := s.out ++ [s.got] }

/-- A number of rounds. -/
def Player.run (s : Player) (reads : List Nat) : Player := reads.foldl Player.step s

/-! ## Recording -/

/-- `FileWriteMsg` (phy_io_file.rs:7-12) without `Shutdown`, which nobody sends. -/
inductive Msg
  | block (data : List Nat)
  | headed (kind : Nat) (timestamp : Nat) (data : List Nat)
  deriving DecidableEq, Repr

/-- `u64::to_be_bytes`. -/
def be64 (x : Nat) : List Nat := (List.range 8).map fun i => x / 256 ^ (7 - i) % 256

/-- What `write_block` and `write_header_and_block` append to a file (phy_io_file.rs:103-135). -/
def Msg.bytes : Msg → List Nat
  | .block data => data
  | .headed kind timestamp data => kind :: be64 timestamp ++ data

/-- `create_async_writer` (phy_io_file.rs:159-183): the file, and the messages in the channel. `opened` is false if the file could not
be created: then the thread ends and the channel is closed. -/
structure Recorder where
  opened : Bool
  file : List Nat
  queue : List Msg
  deriving DecidableEq, Repr

/-- The stack sends a message (phy_bs.rs:235-237, 257-286), or the thread handles one. Writing may stop in the middle, if there is no
more room: `accepted` is the number of bytes written, if not all are. -/
inductive Event
  | send (m : Msg)
  | write (accepted : Option Nat)
  deriving DecidableEq, Repr

/-- See `Event`. Errors are ignored by both sides. -/
def Recorder.step (s : Recorder) : Event → Recorder
  | .send m => if s.opened then { s with queue := s.queue ++ [m] } else s
  | .write accepted =>
    match s.queue with
    | [] => s
    | m :: queue => { s with queue := queue, file := s.file ++ m.bytes.take (accepted.getD m.bytes.length) }

/-- A new file. -/
def Recorder.new (opened : Bool) : Recorder := ⟨opened, [], []⟩

/-- A history. -/
def Recorder.run (s : Recorder) (es : List Event) : Recorder := es.foldl Recorder.step s

/-- The messages sent in a history. -/
def sentIn (es : List Event) : List Msg := es.filterMap fun | .send m => some m | .write _ => none

end Verif.Phy.Record
