import Verif.Assoc
import Verif.Brew.Protocol
import Verif.Brew.Routable
/-!
# The thread which talks to the backhaul

Models crates/tetra-entities/src/net_brew/worker.rs. The loop of `message_loop` (lines 221-387) is a sequence of the steps
below: expire, receive messages, execute commands; the theorems hold for any order of these. Instants are milliseconds since
an arbitrary moment. Whether the transport takes the i-th message handed to it during a step is an argument; what a step gives
are the messages it took. Connecting, reconnecting and the delay between attempts (lines 155-194) are events of the system in
`Verif.Brew.Link`.
-/
namespace Verif.Brew
open Codec (Out)

/-- worker.rs:23-62 `BrewEvent`. -/
inductive BrewEvent where
  | connected
  | disconnected
  | groupCallStart (uuid source gssi priority service : Nat)
  | groupCallEnd (uuid cause : Nat)
  | voice (uuid bits : Nat) (data : List Nat)
  | subscriber (type issi : Nat) (groups : List Nat)
  | sds (uuid source dest : Nat) (data : List Nat) (bits : Nat)
  | sdsReport (uuid status : Nat)
  | serverError (type : Nat) (data : List Nat)
  deriving DecidableEq, Repr

/-- worker.rs:66-106 `BrewCommand`. -/
inductive BrewCmd where
  | register (issi : Nat)
  | deregister (issi : Nat)
  | affiliate (issi : Nat) (groups : List Nat)
  | deaffiliate (issi : Nat) (groups : List Nat)
  | groupTx (uuid source gssi priority service : Nat)
  | voice (uuid bits : Nat) (data : List Nat)
  | groupIdle (uuid cause : Nat)
  | sds (uuid source dest : Nat) (data : List Nat) (bits : Nat)
  | sdsReport (uuid status : Nat)
  | disconnect
  deriving DecidableEq, Repr

/-- worker.rs:113-119 `PendingSds`. -/
structure PendingSds where
  source : Nat
  dest : Nat
  since : Nat
  deriving DecidableEq, Repr

/-- worker.rs:125-138 `BrewWorker`: the state that changes, and the configuration. -/
structure Worker where
  cfg : Cfg
  groups : Assoc Nat (List Nat)
  pending : Assoc Nat PendingSds
  deriving DecidableEq, Repr

/-- worker.rs:141-152 `new`. -/
def Worker.init (cfg : Cfg) : Worker := ⟨cfg, [], []⟩

/-- worker.rs:225-234: stale headers of short data are forgotten. -/
def Worker.expire (s : Worker) (now : Nat) : Worker :=
  { s with pending := s.pending.filter fun e => ¬ now - e.2.since > 30000 }

/-- worker.rs:422-489 `handle_call_control`. -/
def Worker.handleCall (s : Worker) (now state uuid : Nat) (p : CallPayload) : Worker × List BrewEvent :=
  let cause := match p with
    | .cause c => c
    | _ => 0
  if state = 2 then
    match p with
    | .groupTx source dest priority _ service =>
      if gssiRoutable s.cfg dest then (s, [.groupCallStart uuid source dest priority service]) else (s, [])
    | _ => (s, [])
  else if state = 3 then (s, [.groupCallEnd uuid cause])
  else if state = 10 then (s, [.groupCallEnd uuid cause])
  else if state = 11 then
    match p with
    | .shortTransfer source dest => ({ s with pending := s.pending.insert uuid ⟨source, dest, now⟩ }, [])
    | _ => (s, [])
  else (s, [])

/-- worker.rs:491-558 `handle_frame`. -/
def Worker.handleFrame (s : Worker) (type uuid bits : Nat) (data : List Nat) : Worker × List BrewEvent :=
  if type = 0 then (s, [.voice uuid bits data])
  else if type = 1 then
    if featureSdsEnabled s.cfg then
      if bits > 2047 then (s, [])
      else match s.pending.get uuid with
        | some p => ({ s with pending := s.pending.erase uuid }, [.sds uuid p.source p.dest data bits])
        | none => (s, [])
    else (s, [])
  else if type = 2 then (s, [.sdsReport uuid (data.head?.getD 0)])
  else (s, [])

/-- worker.rs:389-420 `handle_incoming_binary`. -/
def Worker.receive (utf8 : List Nat → Bool) (s : Worker) (now : Nat) (data : List Nat) : Res (Worker × List BrewEvent) :=
  match parseBrew utf8 data with
  | .panic => .panic
  | .err => .ok (s, [])
  | .ok (.call st u p) => .ok (s.handleCall now st u p)
  | .ok (.frame t u bits d) => .ok (s.handleFrame t u bits d)
  | .ok (.subscriber t n _ _ gs) => .ok (s, [.subscriber t n gs])
  | .ok (.error t d) => .ok (s, [.serverError t d])
  | .ok (.service _ _) => .ok (s, [])

/-- `HashSet::insert` of several values. -/
def insertAll (set : List Nat) (gs : List Nat) : List Nat := gs.foldl (fun l g => if l.contains g then l else g :: l) set

/-- `HashSet::remove` of several values. -/
def removeAll (set : List Nat) (gs : List Nat) : List Nat := set.filter fun g => ¬ gs.contains g

/-- `HashMap::entry(..).or_insert_with(HashSet::new)`. -/
def orEmpty (m : Assoc Nat (List Nat)) (k : Nat) : Assoc Nat (List Nat) :=
  match m.get k with
  | some _ => m
  | none => m.insert k []

/-- `send_reliable`: the messages the transport takes of those handed to it. -/
def took (ok : Nat → Bool) (msgs : List (List Nat)) : List (List Nat) :=
  (msgs.zipIdx.filter fun e => ok e.2).map Prod.fst

/-- worker.rs:196-218 `graceful_teardown`: the messages handed to the transport. -/
def Worker.teardown (s : Worker) (now : Clock) : List (List Nat) :=
  s.groups.flatMap fun e =>
    (if e.2.isEmpty then [] else [buildDeaffiliate now e.1 (e.2.mergeSort (· ≤ ·))]) ++ [buildDeregister now e.1]

/-- worker.rs:259-384: a command. -/
def Worker.command (s : Worker) (now : Clock) (ok : Nat → Bool) : BrewCmd → Worker × List (List Nat)
  | .register issi =>
    ({ s with groups := orEmpty s.groups issi },
      took ok [match s.groups.get issi with
        | some _ => buildReregister now issi
        | none => buildRegister now issi []])
  | .deregister issi => ({ s with groups := s.groups.erase issi }, took ok [buildDeregister now issi])
  | .affiliate issi gs =>
    ({ s with groups := s.groups.insert issi (insertAll ((s.groups.get issi).getD []) gs) }, took ok [buildAffiliate now issi gs])
  | .deaffiliate issi gs =>
    ({ s with groups := match s.groups.get issi with
        | some set => s.groups.insert issi (removeAll set gs)
        | none => s.groups }, took ok [buildDeaffiliate now issi gs])
  | .groupTx u source gssi priority service => (s, took ok [buildGroupTx u source gssi priority service])
  | .voice u bits data => (s, took ok [buildVoice u bits data])
  | .groupIdle u cause => (s, took ok [buildIdle u cause])
  | .sds u source dest data bits =>
    if featureSdsEnabled s.cfg then
      (s, if ok 0 then buildShort u source dest :: (if ok 1 then [buildSds u bits data] else []) else [])
    else (s, [])
  | .sdsReport u status => if featureSdsEnabled s.cfg then (s, took ok [buildReport u status]) else (s, [])
  | .disconnect => (s, took ok (s.teardown now))

end Verif.Brew
