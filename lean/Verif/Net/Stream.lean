import Verif.Common
/-!
# Messages over a stream: model of `crates/tetra-entities/src/network/transports/tcp.rs` and of the reliable channel of `quic.rs`

The connection is a list of bytes which have arrived and are not yet read; the network appends to it in pieces of any size.
`read_exact` takes bytes as they are there; when it ends with an error (nothing there on a non-blocking socket, a timeout, or a future
dropped by `tokio::time::timeout`), the bytes it took are gone (`std::io::default_read_exact`, `quinn::RecvStream::read_exact`, which is
not cancel-safe). Failing connections are left out.
-/
namespace Verif.Net.Stream

/-- `u32::to_be_bytes`. -/
def be32 (n : Nat) : List Nat := [n / 2 ^ 24 % 256, n / 2 ^ 16 % 256, n / 2 ^ 8 % 256, n % 256]

/-- `u32::from_be_bytes`. -/
def fromBe : List Nat → Nat
  | [a, b, c, d] => a * 2 ^ 24 + b * 2 ^ 16 + c * 2 ^ 8 + d
  | _ => 0

/-- What is written for a message: `TcpTransport::try_send` (tcp.rs:76-98), `send_on_channel` (quic.rs:206-214). -/
def frame (p : List Nat) : List Nat := be32 (p.length % 2 ^ 32) ++ p

/-- The limit of tcp.rs:157, tcp.rs:225 and quic.rs:241. -/
def limit : Nat := 1024 * 1024

/-- `TcpTransport::receive_reliable` (tcp.rs:137-194): the messages and the bytes left. -/
def recv (buf : List Nat) : List (List Nat) × List Nat :=
  if h : buf.length < 4 then ([], [])
  else
    let n := fromBe (buf.take 4)
    let r := buf.drop 4
    if limit < n then ([], r)
    else if r.length < n then ([], [])
    else
      let x := recv (r.drop n)
      (r.take n :: x.1, x.2)
termination_by buf.length
decreasing_by simp only [r, List.length_drop]; omega

/-- `TcpTransport::wait_for_response_reliable` (tcp.rs:202-246), with the bytes which have arrived when it returns; also one message of
the reliable channel of QUIC (`receive_from_channel`, quic.rs:231-259), which waits 10 ms for the length but for the payload until it
is there, so that there the second case of too few bytes does not arise. -/
def recvOne (buf : List Nat) : Option (List Nat) × List Nat :=
  if buf.length < 4 then (none, [])
  else
    let n := fromBe (buf.take 4)
    let r := buf.drop 4
    if limit < n then (none, r)
    else if r.length < n then (none, [])
    else (some (r.take n), r.drop n)

/-- What happens to the receiver. -/
inductive Ev where
  | arrive (bytes : List Nat)
  /-- `receive_reliable` of TCP -/
  | poll
  /-- `wait_for_response_reliable`, and every receive of QUIC -/
  | wait
  deriving DecidableEq, Repr

/-- The bytes which wait, and the messages handed over. -/
structure Rx where
  buf : List Nat
  got : List (List Nat)
  deriving DecidableEq, Repr

def Rx.step (r : Rx) : Ev → Rx
  | .arrive bs => { r with buf := r.buf ++ bs }
  | .poll => let x := recv r.buf; ⟨x.2, r.got ++ x.1⟩
  | .wait => let x := recvOne r.buf; ⟨x.2, r.got ++ x.1.toList⟩

def Rx.run (r : Rx) (evs : List Ev) : Rx := evs.foldl Rx.step r

end Verif.Net.Stream
