import Verif.Brew.Entity
/-!
# Entity, worker and the channels between them

Models how `BrewEntity` (entity.rs) and `BrewWorker` (worker.rs) are wired: two unbounded first-in-first-out channels
(entity.rs:127-128), and the connection, which comes and goes (worker.rs:155-194). The steps of entity and worker may come in any
order which the channels allow, so every schedule of the two threads is covered.
-/
namespace Verif.Brew

/-- The whole: entity, worker, commands and events under way. `up`: the worker is in `message_loop`. `whole`: the transport took
every message handed to it on the present connection. `heard`: the messages the server got on the present connection. -/
structure Link where
  ent : Ent
  worker : Worker
  cmds : List BrewCmd
  evs : List BrewEvent
  up : Bool
  whole : Bool
  heard : List (List Nat)

/-- entity.rs:127-162, worker.rs:141-152. -/
def Link.init (cfg : Cfg) (latency : Nat) : Link := ⟨.init cfg latency, .init cfg, [], [], false, false, []⟩

/-- The commands among what the entity sends. -/
def cmdsOf (out : List EntOut) : List BrewCmd := out.filterMap fun
  | .cmd c => some c
  | _ => none

/-- What happens. -/
inductive LinkEv where
  /-- the entity does something of its own accord or for the base station -/
  | entity (e : EntEv)
  /-- the entity takes the next event from the worker (entity.rs:165) -/
  | deliver (registered : Nat → Bool) (now j : Nat)
  /-- worker.rs:159-163 -/
  | connect
  /-- worker.rs:164-173 -/
  | refused
  /-- worker.rs:181-190 -/
  | lost
  /-- worker.rs:236-240, one message -/
  | receive (now : Nat) (data : List Nat)
  /-- worker.rs:225-234 -/
  | expire (now : Nat)
  /-- worker.rs:248-384, the next command; not `Disconnect`, which ends the thread -/
  | exec (clock : Clock) (ok : Nat → Bool)

/-- One step; `none` if it is not possible in this state. -/
def Link.step (utf8 : List Nat → Bool) (s : Link) : LinkEv → Option Link
  | .entity (.event _ _ _ _) => none
  | .entity e =>
    let r := s.ent.step e
    some { s with ent := r.1, cmds := s.cmds ++ cmdsOf r.2 }
  | .deliver registered now j =>
    match s.evs with
    | [] => none
    | e :: evs =>
      let r := s.ent.event registered now j e
      some { s with ent := r.1, evs := evs, cmds := s.cmds ++ cmdsOf r.2 }
  | .connect => if s.up then none else some { s with up := true, whole := true, heard := [], evs := s.evs ++ [.connected] }
  | .refused => if s.up then none else some { s with evs := s.evs ++ [.disconnected] }
  | .lost => if s.up then some { s with up := false, evs := s.evs ++ [.disconnected] } else none
  | .receive now data =>
    if s.up then
      match s.worker.receive utf8 now data with
      | .ok r => some { s with worker := r.1, evs := s.evs ++ r.2 }
      | .panic => none
    else none
  | .expire now => if s.up then some { s with worker := s.worker.expire now } else none
  | .exec clock ok =>
    if s.up then
      match s.cmds with
      | [] => none
      | .disconnect :: _ => none
      | c :: cmds =>
        let r := s.worker.command clock ok c
        some { s with
          worker := r.1, cmds := cmds, heard := s.heard ++ r.2
          whole := s.whole && decide (r.2 = (s.worker.command clock (fun _ => true) c).2) }
    else none

end Verif.Brew
