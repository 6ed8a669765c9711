import Verif.Cmce.CmceBs
/-!
# The control link: model of `crates/tetra-entities/src/net_control`

The worker thread, the two links (`build_all_control_links`, of which bins/bluestation-bs/src/main.rs:136-161 keeps those of mobility
management and call control), and the two entities at their ends. The transport is the environment: what it receives, whether a message
can be sent, whether a connection can be made. JSON (`serde_json`) is a function from payloads to commands, given with the run; what
is written back is the response itself.

The worker and the stack are threads. An event here is what one of them does between two moments at which the other can see it: the
channels are unbounded FIFO queues (crossbeam), so that a whole `while let Some(cmd) = try_recv()` is one event (what arrives during it
arrives before it). The loop of the worker (worker.rs:46-73) fixes the order of its events more than the model does.
-/
namespace Verif.Net
open Verif.Cmce (SendSds SdsView Bs BsEv BsOut Control)

/-- `ControlCommand` (commands.rs:13-35). -/
inductive Command where
  | sendSds (c : SendSds)
  | commandA (handle parameter : Nat)
  | testB (handle source : Nat) (group : Bool) (payload : List Nat)
  deriving DecidableEq, Repr

/-- The entities with a link (main.rs:143, 145). -/
inductive Target where
  | mm | cmce
  deriving DecidableEq, Repr

/-- worker.rs:112-118 `route_control_command`. -/
def Command.route : Command → Target
  | .sendSds _ => .cmce
  | .commandA _ _ => .mm
  | .testB _ _ _ _ => .cmce

/-- The command as the entity behind the link of call control sees it (cmce_bs.rs:98-108). -/
def Command.control : Command → Control
  | .sendSds c => .sendSds c
  | _ => .other

/-- `SendSdsResponse` (commands.rs:39-42). Nothing makes a `CommandAResponse`. -/
structure Response where
  handle : Nat
  success : Bool
  deriving DecidableEq, Repr

/-- `ControlWorker` (worker.rs:29-34) with the queues of its links (channel.rs:15-18, 50-53). `batch` is what was collected and not yet
sent (`responses` in worker.rs:122-129). -/
structure Worker where
  connected : Bool
  toMm : List Command
  toCmce : List Command
  fromCmce : List Response
  batch : List Response
  deriving DecidableEq, Repr

def Worker.start : Worker := ⟨false, [], [], [], []⟩

/-- worker.rs:96-108 `dispatch_command`, channel.rs:23-25 `send`. -/
def Worker.dispatch (w : Worker) (c : Command) : Worker :=
  match c.route with
  | .mm => { w with toMm := w.toMm ++ [c] }
  | .cmce => { w with toCmce := w.toCmce ++ [c] }

/-- Base station and worker. -/
structure Site where
  worker : Worker
  bs : Bs

/-- What happens. `P` are the payloads of the transport. -/
inductive Ev (P : Type) where
  /-- the worker takes the next message of `receive_reliable` (worker.rs:77-92) -/
  | receive (p : P)
  /-- the worker drains the links (worker.rs:122) -/
  | collect
  /-- `send_response` for the next one (worker.rs:131-144): whether the transport took it, and else whether connecting again worked -/
  | send (ok again : Bool)
  /-- the rest of the loop (worker.rs:56-72): whether the transport is connected, whether it is time to try again, and whether that
  works. Also `try_connect` at the start (line 43), with `retry = true`. -/
  | check (alive retry works : Bool)
  /-- `MmBs::tick_start` (mm_bs.rs:686-699) -/
  | mmTick
  /-- `CmceBs::tick_start` (cmce_bs.rs:91-110) -/
  | cmceTick (v : SdsView) (now : Tdma.Time)
  /-- anything else for call control -/
  | cmce (v : SdsView) (e : BsEv)

/-- What comes out. -/
inductive NetOut where
  /-- a response handed to the transport, or dropped -/
  | sent (r : Response)
  | lost (r : Response)
  /-- an entity takes the commands waiting for it -/
  | took (t : Target) (cs : List Command)
  /-- from call control -/
  | bs (o : BsOut)
  deriving DecidableEq, Repr

/-- The responses among the messages of call control. -/
def responses (out : List BsOut) : List Response := out.filterMap fun o => match o with
  | .response h s => some ⟨h, s⟩
  | _ => none

/-- When the worker can do this: it receives and collects when connected (worker.rs:47-49), and comes to the rest of its loop, or to
receiving and collecting again, when all collected responses are dealt with. A tick with commands is `cmceTick`. -/
def Site.enabled {P : Type} (s : Site) : Ev P → Bool
  | .receive _ => s.worker.connected && s.worker.batch.isEmpty
  | .collect => s.worker.connected && s.worker.batch.isEmpty
  | .send _ _ => !s.worker.batch.isEmpty
  | .check _ _ _ => s.worker.batch.isEmpty
  | .mmTick => true
  | .cmceTick _ _ => true
  | .cmce _ (.tick _ _) => false
  | .cmce _ _ => true

/-- One event. -/
def Site.step {P : Type} (dec : P → Option Command) (s : Site) : Ev P → Res (Site × List NetOut)
  | .receive p =>
    match dec p with
    | some c => .ok ({ s with worker := s.worker.dispatch c }, [])
    | none => .ok (s, [])
  | .collect => .ok ({ s with worker := { s.worker with batch := s.worker.fromCmce, fromCmce := [] } }, [])
  | .send ok again =>
    match s.worker.batch with
    | [] => .ok (s, [])
    | r :: rs =>
      if s.worker.connected = false then .ok ({ s with worker := { s.worker with batch := rs } }, [.lost r])
      else if ok then .ok ({ s with worker := { s.worker with batch := rs } }, [.sent r])
      else .ok ({ s with worker := { s.worker with batch := rs, connected := again } }, [.lost r])
  | .check alive retry works =>
    let c := s.worker.connected && alive
    .ok ({ s with worker := { s.worker with connected := if !c && retry then works else c } }, [])
  | .mmTick =>
    match s.worker.toMm with
    | [] => .ok (s, [.took .mm []])
    | _ :: _ => .panic
  | .cmceTick v now => do
    let r ← s.bs.step v (.tick now (s.worker.toCmce.map Command.control))
    .ok (⟨{ s.worker with toCmce := [], fromCmce := s.worker.fromCmce ++ responses r.2 }, r.1⟩,
      .took .cmce s.worker.toCmce :: r.2.map .bs)
  | .cmce v e => do
    let r ← s.bs.step v e
    .ok ({ s with bs := r.1 }, r.2.map .bs)

end Verif.Net
