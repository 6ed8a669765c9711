import Verif.Common
/-!
# The websocket transport: model of `crates/tetra-entities/src/network/transports/websocket.rs`, connection and heartbeat

Times are in milliseconds since some moment. The websocket library and the network are the environment: frames which have
arrived wait in a queue until they are read, and whether connecting, a ping or a pong works is told by the event. Reading goes on
until nothing waits (`WouldBlock` or `TimedOut`, lines 576-581) or the connection is given up; a server which sends faster than
the frames are read, so that `receive_reliable` does not return, is left out. One time is used for all of `receive_reliable`,
which takes it again for each frame (lines 505, 537, 545, 553). The library answers pings on its own as well, which is left out.
-/
namespace Verif.Net.Ws

/-- What `read` gives (tungstenite `Message` and `Error`). -/
inductive Frame where
  | binary (payload : List Nat)
  | ping (payload : List Nat)
  | pong (payload : List Nat)
  | close
  /-- text and other messages -/
  | other
  /-- `ConnectionClosed` and every other error -/
  | error
  deriving DecidableEq, Repr

/-- Lines 54-57. -/
structure Cfg where
  interval : Nat
  timeout : Nat
  deriving DecidableEq, Repr

/-- `WebSocketTransport` (lines 224-232) with the frames which wait in the socket. `lastPingSentAt` and `lastPingId` serve
logging only and are left out. -/
structure Ws where
  isOpen : Bool
  lastActivity : Nat
  lastPing : Nat
  seq : Nat
  queue : List Frame
  deriving DecidableEq, Repr

/-- `new` (lines 235-246). -/
def Ws.new (now : Nat) : Ws := ⟨false, now, now, 0, []⟩

/-- `connect` (lines 388-483). -/
def Ws.connect (w : Ws) (now : Nat) (works : Bool) : Ws :=
  if works then ⟨true, now, now, 0, []⟩ else { w with isOpen := false, queue := [] }

/-- What the transport does: hand a message to its caller, or send a ping or a pong. -/
inductive Act where
  | message (payload : List Nat)
  | ping (id : Nat)
  | pong (payload : List Nat)
  deriving DecidableEq, Repr

/-- The loop of `receive_reliable` (lines 534-593). -/
def Ws.readAll (now : Nat) (pongOk : Bool) : Ws → List Frame → Ws × List Act
  | w, [] => ({ w with queue := [] }, [])
  | w, .binary p :: fs =>
    let r := Ws.readAll now pongOk { w with lastActivity := now } fs
    (r.1, .message p :: r.2)
  | w, .ping p :: fs =>
    if pongOk then
      let r := Ws.readAll now pongOk { w with lastActivity := now } fs
      (r.1, .pong p :: r.2)
    else ({ w with lastActivity := now, isOpen := false, queue := [] }, [])
  | w, .pong _ :: fs => Ws.readAll now pongOk { w with lastActivity := now } fs
  | w, .close :: _ => ({ w with isOpen := false, queue := [] }, [])
  | w, .other :: fs => Ws.readAll now pongOk w fs
  | w, .error :: _ => ({ w with isOpen := false, queue := [] }, [])

/-- Whether a ping is due (line 508). -/
def Ws.pingDue (w : Ws) (c : Cfg) (now : Nat) : Bool := decide (c.interval ≤ now - w.lastPing)

/-- `receive_reliable` (lines 499-596). -/
def Ws.poll (w : Ws) (c : Cfg) (now : Nat) (pingOk pongOk : Bool) : Ws × List Act :=
  if w.isOpen = false then (w, [])
  else if w.pingDue c now then
    let w := { w with seq := (w.seq + 1) % 2 ^ 64 }
    if pingOk then
      if c.timeout ≤ now - w.lastActivity then ({ w with lastPing := now, isOpen := false, queue := [] }, [.ping w.seq])
      else
        let r := Ws.readAll now pongOk { w with lastPing := now } w.queue
        (r.1, .ping w.seq :: r.2)
    else ({ w with isOpen := false, queue := [] }, [])
  else if c.timeout ≤ now - w.lastActivity then ({ w with isOpen := false, queue := [] }, [])
  else Ws.readAll now pongOk w w.queue

/-- What happens. -/
inductive Ev where
  | connect (works : Bool)
  | arrive (f : Frame)
  | poll (pingOk pongOk : Bool)
  /-- `disconnect` (lines 623-628) -/
  | disconnect
  deriving DecidableEq, Repr

/-- One event at a time `now`. -/
def Ws.step (c : Cfg) (w : Ws) (now : Nat) : Ev → Ws × List Act
  | .connect works => (w.connect now works, [])
  | .arrive f => (if w.isOpen then { w with queue := w.queue ++ [f] } else w, [])
  | .poll pingOk pongOk => w.poll c now pingOk pongOk
  | .disconnect => ({ w with isOpen := false, queue := [] }, [])

/-- An event, its time and what the transport did. -/
structure Item where
  at_ : Nat
  ev : Ev
  acts : List Act
  deriving DecidableEq, Repr

/-- The time of the last event. -/
def lastTime (t0 : Nat) (h : List Item) : Nat := (h.getLast?.map (·.at_)).getD t0

/-- Histories of a transport made at `t0`: time does not go back. -/
inductive Run (c : Cfg) (t0 : Nat) : List Item → Ws → Prop where
  | start : Run c t0 [] (Ws.new t0)
  | step {h : List Item} {w : Ws} {now : Nat} {e : Ev} : Run c t0 h w → lastTime t0 h ≤ now →
      Run c t0 (h ++ [⟨now, e, (w.step c now e).2⟩]) (w.step c now e).1

end Verif.Net.Ws
