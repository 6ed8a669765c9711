import Verif.Core.Tdma
import Verif.Cmce.CallControl
import Verif.Cmce.PduElems
import Verif.Brew.Worker
import Verif.Brew.Jitter
/-!
# The entity which bridges the backhaul and the base station

Models crates/tetra-entities/src/net_brew/entity.rs. `tick_start` (lines 670-678) is the steps `clock`, `event` for each event
waiting, `playout` and `expire`, in this order; `rx_prim` (lines 680-725) is one step per message. Instants are milliseconds.
A new UUID (`Uuid::new_v4`) is an argument of the step which draws it. The jitter estimate of the play-out buffer is an argument
as in `Verif.Brew.Jitter`. Left out: logging, the flag `network_connected` of the shared state (it equals `connected`), the
frame counters (only logged), `maybe_warn_unhealthy`, shutting down.
-/
namespace Verif.Brew
open Tdma

/-- entity.rs:30-47 `ActiveCall`. -/
structure NetCall where
  callId : Option Nat
  ts : Option Nat
  usage : Option Nat
  source : Nat
  gssi : Nat
  deriving DecidableEq, Repr

/-- entity.rs:49-69 `HangingCall`. -/
structure Hanging where
  uuid : Nat
  callId : Nat
  ts : Nat
  usage : Nat
  source : Nat
  gssi : Nat
  since : Nat
  deriving DecidableEq, Repr

/-- entity.rs:71-83 `UlForwardedCall`. -/
structure Fwd where
  uuid : Nat
  callId : Nat
  source : Nat
  gssi : Nat
  deriving DecidableEq, Repr

/-- entity.rs:87-119 `BrewEntity`; `latency` is `jitter_initial_latency_frames`. -/
structure Ent where
  cfg : Cfg
  latency : Nat
  now : Time
  active : Assoc Nat NetCall
  jitter : Assoc Nat Jitter
  hanging : Assoc Nat Hanging
  fwd : Assoc Nat Fwd
  subs : Assoc Nat (List Nat)
  connected : Bool

/-- entity.rs:122-162 `new`. -/
def Ent.init (cfg : Cfg) (latency : Nat) : Ent := ⟨cfg, latency, Time.default, [], [], [], [], [], false⟩

/-- What the entity sends: commands to the worker, `NetworkCallStart`, `NetworkCallEnd` and short data to CMCE, voice to the
MAC (the UUID of a voice block is not part of the message; the code logs it, lines 574-582). -/
inductive EntOut where
  | cmd (c : BrewCmd)
  | callStart (uuid source gssi priority : Nat)
  | callEnd (uuid : Nat)
  | sds (source dest : Nat) (data : Cmce.Pdu.Sds)
  | voice (uuid ts : Nat) (data : List Nat)
  deriving DecidableEq, Repr

/-! ## Subscribers -/

/-- entity.rs:218-295 `handle_subscriber_update`. -/
def Ent.update (s : Ent) : Cmce.SubUpdate → Ent × List EntOut
  | .register issi =>
    ({ s with subs := orEmpty s.subs issi }, if issiRoutable s.cfg issi then [.cmd (.register issi)] else [])
  | .deregister issi =>
    let gs := (s.subs.get issi).getD []
    ({ s with subs := s.subs.erase issi },
      if issiRoutable s.cfg issi then
        (if gs.isEmpty then [] else [.cmd (.deaffiliate issi gs)]) ++ [.cmd (.deregister issi)]
      else [])
  | .affiliate issi gs =>
    let r := Cmce.addGroups ((s.subs.get issi).getD []) gs
    ({ s with subs := s.subs.insert issi r.1 },
      if !r.2.isEmpty && issiRoutable s.cfg issi then [.cmd (.affiliate issi r.2)] else [])
  | .deaffiliate issi gs =>
    match s.subs.get issi with
    | some set =>
      let r := Cmce.removeGroups set gs
      ({ s with subs := s.subs.insert issi r.1 },
        if !r.2.isEmpty && issiRoutable s.cfg issi then [.cmd (.deaffiliate issi r.2)] else [])
    | none => (s, [])

/-- entity.rs:297-320 `resync_subscribers`. -/
def Ent.resync (s : Ent) : List EntOut :=
  s.subs.flatMap fun e =>
    if issiRoutable s.cfg e.1 then
      .cmd (.register e.1) :: (if e.2.isEmpty then [] else [.cmd (.affiliate e.1 e.2)])
    else []

/-! ## Calls from the network -/

/-- The play-out buffer of a session, made if it is not there (e.g. lines 384-386). -/
def Ent.buffer (s : Ent) (uuid : Nat) : Jitter := (s.jitter.get uuid).getD (.withInitialLatency s.latency)

/-- entity.rs:331-440 `handle_group_call_start`. The two branches for a new session, with and without a hanging call of the
group, differ in the hanging call removed and in logging. -/
def Ent.callStart (s : Ent) (uuid source gssi priority : Nat) : Ent × List EntOut :=
  match s.active.get uuid with
  | some c =>
    if c.source ≠ source then
      ({ s with active := s.active.insert uuid { c with source := source } }, [.callStart uuid source gssi priority])
    else (s, [])
  | none =>
    ({ s with
        hanging := s.hanging.erase gssi
        active := s.active.insert uuid ⟨none, none, none, source, gssi⟩
        jitter := s.jitter.insert uuid (s.buffer uuid) },
      [.callStart uuid source gssi priority])

/-- entity.rs:442-483 `handle_group_call_end`. -/
def Ent.callEnd (s : Ent) (uuid now : Nat) : Ent × List EntOut :=
  match s.active.get uuid with
  | none => (s, [])
  | some c =>
    ({ s with
        active := s.active.erase uuid
        jitter := s.jitter.erase uuid
        hanging := match c.callId, c.ts, c.usage with
          | some id, some ts, some usage => s.hanging.insert c.gssi ⟨uuid, id, ts, usage, c.source, c.gssi, now⟩
          | _, _, _ => s.hanging },
      [.callEnd uuid])

/-- entity.rs:485-500 `expire_hanging_calls`: `GROUP_CALL_HANGTIME` is five seconds. -/
def Ent.expire (s : Ent) (now : Nat) : Ent := { s with hanging := s.hanging.filter fun e => ¬ now - e.2.since ≥ 5000 }

/-- entity.rs:502-547 `handle_voice_frame`; `j` is the jitter estimate. -/
def Ent.voice (s : Ent) (uuid : Nat) (data : List Nat) (j : Nat) : Ent :=
  match s.active.get uuid with
  | none => s
  | some c =>
    match c.ts with
    | none => s
    | some _ =>
      if data.length < 36 then s
      else { s with jitter := s.jitter.insert uuid ((s.buffer uuid).push (data.drop 1) j) }

/-- The loop of `drain_jitter_playout` (entity.rs:556-572) over the active calls; `j` gives the jitter estimates. -/
def playLoop (t : Nat) (j : Nat → Nat) (jit : Assoc Nat Jitter) : List (Nat × NetCall) → Assoc Nat Jitter × List EntOut
  | [] => (jit, [])
  | (u, c) :: rest =>
    match c.ts with
    | none => playLoop t j jit rest
    | some ts =>
      if ts ≠ t then playLoop t j jit rest
      else match jit.get u with
        | none => playLoop t j jit rest
        | some b =>
          let r := b.popReady (j u)
          let q := playLoop t j (jit.insert u r.2) rest
          (q.1, (match r.1 with
            | some f => [.voice u ts f.data]
            | none => []) ++ q.2)

/-- entity.rs:549-592 `drain_jitter_playout`. -/
def Ent.playout (s : Ent) (j : Nat → Nat) : Ent × List EntOut :=
  if s.now.f = 18 then (s, [])
  else
    let r := playLoop s.now.t j s.jitter s.active
    ({ s with jitter := r.1 }, r.2)

/-- entity.rs:594-612 `release_all_calls`, with the flag (line 176). -/
def Ent.linkDown (s : Ent) : Ent × List EntOut :=
  ({ s with connected := false, active := [], hanging := [], jitter := [] }, s.active.map fun e => .callEnd e.1)

/-- entity.rs:614-632 `rx_network_call_ready`. -/
def Ent.ready (s : Ent) (uuid id ts usage : Nat) : Ent :=
  match s.active.get uuid with
  | some c => { s with active := s.active.insert uuid { c with callId := some id, ts := some ts, usage := some usage } }
  | none => s

/-- entity.rs:634-656 `drop_network_call`. -/
def Ent.dropCall (s : Ent) (uuid : Nat) : Ent :=
  match s.active.get uuid with
  | some c => { s with active := s.active.erase uuid, jitter := s.jitter.erase uuid, hanging := s.hanging.erase c.gssi }
  | none =>
    match s.hanging.find? fun e => e.2.uuid = uuid with
    | some e => { s with hanging := s.hanging.erase e.1 }
    | none => s

/-! ## Local calls -/

/-- entity.rs:730-815 `handle_local_call_start`; `fresh` is the UUID drawn. -/
def Ent.localStart (s : Ent) (id source gssi ts fresh : Nat) : Ent × List EntOut :=
  if !s.connected then (s, [])
  else if !issiRoutable s.cfg source then (s, [])
  else match s.fwd.get ts with
    | some f => ({ s with fwd := s.fwd.insert ts ⟨f.uuid, id, source, gssi⟩ }, [.cmd (.groupTx f.uuid source gssi 0 0)])
    | none => ({ s with fwd := s.fwd.insert ts ⟨fresh, id, source, gssi⟩ }, [.cmd (.groupTx fresh source gssi 0 0)])

/-- entity.rs:817-838 `handle_local_call_tx_stopped`. -/
def Ent.localStop (s : Ent) (ts : Nat) : Ent × List EntOut :=
  match s.fwd.get ts with
  | some f => ({ s with fwd := s.fwd.erase ts }, [.cmd (.groupIdle f.uuid 0)])
  | none => (s, [])

/-- entity.rs:840-859 `handle_local_call_end`. -/
def Ent.localEnd (s : Ent) (ts : Nat) : Ent := { s with fwd := s.fwd.erase ts }

/-- entity.rs:896-905: eight of the 274 bits, the first in the most significant position; positions from 274 on are 0. -/
def packByte (bits : List Nat) (chunk : Nat) : Nat :=
  (List.range 8).foldl (fun b i => if chunk * 8 + i < 274 then b + (bits.getD (chunk * 8 + i) 0 % 2) * 2 ^ (7 - i) else b) 0

/-- entity.rs:875-907: a voice block in the format of the network, if it has a supported length. -/
def toSte (bits : List Nat) : Option (List Nat) :=
  if bits.length = 36 then some bits
  else if bits.length = 35 then some (0 :: bits)
  else if bits.length < 274 then none
  else some (0 :: (List.range 35).map (packByte bits))

/-- entity.rs:861-914 `handle_ul_voice`. The length is computed as `(len * 8) as u16`. -/
def Ent.ulVoice (s : Ent) (ts : Nat) (bits : List Nat) : List EntOut :=
  match s.fwd.get ts with
  | none => []
  | some f =>
    match toSte bits with
    | none => []
    | some d => [.cmd (.voice f.uuid (d.length * 8 % 2 ^ 16) d)]

/-! ## Short data -/

/-- sds_user_data.rs:33-40 `to_arr`: numbers as bytes, most significant first. -/
def sdsBytes : Cmce.Pdu.Sds → List Nat
  | .type1 v => (leBytes 2 v).reverse
  | .type2 v => (leBytes 4 v).reverse
  | .type3 v => (leBytes 8 v).reverse
  | .type4 _ d => d

/-- sds_user_data.rs:24-31 `length_bits`. -/
def sdsBits : Cmce.Pdu.Sds → Nat
  | .type1 _ => 16
  | .type2 _ => 32
  | .type3 _ => 64
  | .type4 n _ => n

/-- entity.rs:917-970 `handle_sds_transfer`; `registered` is what the subscriber registry says of the destination. -/
def Ent.sdsIn (_s : Ent) (registered : Bool) (uuid source dest : Nat) (data : List Nat) (bits : Nat) : List EntOut :=
  if registered then [.sds source dest (.type4 bits data), .cmd (.sdsReport uuid 0)] else []

/-- entity.rs:972-1000 `handle_sds_send`; `fresh` is the UUID drawn. -/
def Ent.sdsOut (s : Ent) (source dest : Nat) (data : Cmce.Pdu.Sds) (fresh : Nat) : List EntOut :=
  if s.connected then [.cmd (.sds fresh source dest (sdsBytes data) (sdsBits data))] else []

/-! ## Steps -/

/-- entity.rs:164-216 `process_events`, one event. -/
def Ent.event (s : Ent) (registered : Nat → Bool) (now j : Nat) : BrewEvent → Ent × List EntOut
  | .connected => ({ s with connected := true }, s.resync)
  | .disconnected => s.linkDown
  | .groupCallStart u source gssi priority _ => s.callStart u source gssi priority
  | .groupCallEnd u _ => s.callEnd u now
  | .voice u _ data => (s.voice u data j, [])
  | .sds u source dest data bits => (s, s.sdsIn (registered dest) u source dest data bits)
  | .sdsReport _ _ => (s, [])
  | .subscriber _ _ _ => (s, [])
  | .serverError _ _ => (s, [])

/-- What happens to the entity. -/
inductive EntEv where
  | clock (t : Time)
  | event (e : BrewEvent) (registered : Nat → Bool) (now j : Nat)
  | playout (j : Nat → Nat)
  | expire (now : Nat)
  | granted (id source gssi ts fresh : Nat)
  | released (id ts : Nat)
  | ended (id ts : Nat)
  | netEnd (uuid : Nat)
  | netReady (uuid id ts usage : Nat)
  | update (u : Cmce.SubUpdate)
  | ulVoice (ts : Nat) (bits : List Nat)
  | sds (source dest : Nat) (data : Cmce.Pdu.Sds) (fresh : Nat)

/-- One step. Nothing in this entity can abort. -/
def Ent.step (s : Ent) : EntEv → Ent × List EntOut
  | .clock t => ({ s with now := t }, [])
  | .event e registered now j => s.event registered now j e
  | .playout j => s.playout j
  | .expire now => (s.expire now, [])
  | .granted id source gssi ts fresh => s.localStart id source gssi ts fresh
  | .released _ ts => s.localStop ts
  | .ended _ ts => (s.localEnd ts, [])
  | .netEnd u => (s.dropCall u, [])
  | .netReady u id ts usage => (s.ready u id ts usage, [])
  | .update u => s.update u
  | .ulVoice ts bits => (s, s.ulVoice ts bits)
  | .sds source dest data fresh => (s, s.sdsOut source dest data fresh)

end Verif.Brew
