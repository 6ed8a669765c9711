import Verif.Net.Digest
/-!
# The telemetry receiver: model of the connections of bins/bluestation-telemetry/src/main.rs

Each connection has its thread. An event is what a thread does between two moments at which others can see it: each time it holds the
lock of the set of names. The name is the one the credentials give (C103) or `anonymousN`; requests which fail before there is a name
change nothing and are left out, and so are the messages read.
-/
namespace Verif.Net.Receiver
open Verif.Net.Digest (Str)

/-- Where a connection is: `checking`, its name is in the set, the protocols offered are looked at next (main.rs:327-332); `replying`,
the callback agreed and the answer is written; `failing`, the callback refused and the refusal is written; `live`; `over`. -/
inductive Phase where
  | checking | replying | failing | live | over
  deriving DecidableEq, Repr

structure Conn where
  name : Str
  phase : Phase
  deriving DecidableEq, Repr

/-- `SharedState` (main.rs:284-287) and the connections, numbered as they come. -/
structure Recv where
  connected : List Str
  conns : Nat → Option Conn
  next : Nat

def Recv.start : Recv := ⟨[], fun _ => none, 0⟩

inductive Ev where
  /-- A request with this name (main.rs:314-322). -/
  | named (name : Str)
  /-- The protocols it offers (main.rs:327-350). -/
  | offered (i : Nat) (good : Bool)
  /-- `accept_hdr` returns (main.rs:353-363); whether the answer could be written. -/
  | answered (i : Nat) (written : Bool)
  /-- The connection ends (main.rs:371-416). -/
  | closed (i : Nat)
  deriving DecidableEq, Repr

/-- The phase of a connection changes. -/
def Recv.put (s : Recv) (i : Nat) (c : Conn) : Recv := { s with conns := fun j => if j = i then some c else s.conns j }

/-- `remove` of a set. -/
def Recv.free (s : Recv) (name : Str) : Recv := { s with connected := s.connected.filter (· ≠ name) }

/-- main.rs:314-416. A connection whose protocol is refused gives its name back twice: in the callback (main.rs:339-341), and again when
`accept_hdr` has returned the error (main.rs:357-359). One refused for its name does not give it back (`display_name` is not set). -/
def Recv.step (s : Recv) : Ev → Recv
  | .named name =>
    if name ∈ s.connected then { s.put s.next ⟨name, .over⟩ with next := s.next + 1 }
    else { s.put s.next ⟨name, .checking⟩ with connected := name :: s.connected, next := s.next + 1 }
  | .offered i good =>
    match s.conns i with
    | some ⟨name, .checking⟩ => if good then s.put i ⟨name, .replying⟩ else (s.free name).put i ⟨name, .failing⟩
    | _ => s
  | .answered i written =>
    match s.conns i with
    | some ⟨name, .replying⟩ => if written then s.put i ⟨name, .live⟩ else (s.free name).put i ⟨name, .over⟩
    | some ⟨name, .failing⟩ => (s.free name).put i ⟨name, .over⟩
    | _ => s
  | .closed i =>
    match s.conns i with
    | some ⟨name, .live⟩ => (s.free name).put i ⟨name, .over⟩
    | _ => s

def Recv.run (s : Recv) (evs : List Ev) : Recv := evs.foldl Recv.step s

end Verif.Net.Receiver
