/-!
# Message queue and router

Models crates/tetra-entities/src/messagerouter.rs. The entities behind the router are arbitrary: each is
a state and functions which, given a message or a tick, give the next state and the messages they push,
in order, with their priority. `HashMap` iteration over the entities (ticks) is in an arbitrary order,
given as a parameter. Logging and the shutdown flag are left out.
-/
namespace Verif.Router

/-- messagerouter.rs lines 12-16. -/
inductive Prio where
  | immediate | normal
  deriving DecidableEq, Repr

/-- messagerouter.rs lines 31-42 `push_prio` (`push_back` is the normal priority). -/
def pushPrio {M : Type} (q : List M) (m : M) : Prio → List M
  | .immediate => m :: q
  | .normal => q ++ [m]

/-- messagerouter.rs lines 44-46 `pop_front`. -/
def popFront {M : Type} : List M → Option (M × List M)
  | [] => none
  | m :: q => some (m, q)

/-- The pushes one call of an entity makes, in order. -/
def pushAll {M : Type} (q : List M) : List (Prio × M) → List M
  | [] => q
  | (p, m) :: r => pushAll (pushPrio q m p) r

/-- What the stack is made of: destinations (`TetraEntity`), messages, the joint state of the entities,
the destination of a message, and how entities react. -/
structure Stack where
  Dest : Type
  M : Type
  St : Type
  dest : M → Dest
  /-- entity registered under this name -/
  registered : Dest → Bool
  /-- `rx_prim` of the destination entity -/
  rx : St → Dest → M → St × List (Prio × M)
  /-- `tick_start` -/
  tickStart : St → Dest → Int → St × List (Prio × M)
  /-- `tick_end` -/
  tickEnd : St → Dest → Int → St × List (Prio × M)

variable (S : Stack)

/-- messagerouter.rs lines 49-60, with a record of the deliveries made and of the pushes made so far. -/
structure World where
  st : S.St
  queue : List S.M
  ts : Int
  delivered : List S.M
  pushed : List (Prio × S.M)

variable {S}

/-- An entity pushing messages onto the queue. -/
def World.push (w : World S) (ps : List (Prio × S.M)) : World S :=
  { w with queue := pushAll w.queue ps, pushed := w.pushed ++ ps }

/-- messagerouter.rs lines 89-97 `submit_message`. -/
def World.submit (w : World S) (m : S.M) : World S := w.push [(.normal, m)]

/-- messagerouter.rs lines 99-125 `deliver_message`: an unregistered destination drops the message. -/
def World.deliver (w : World S) : World S :=
  match popFront w.queue with
  | none => w
  | some (m, q) =>
    let w := { w with queue := q, delivered := w.delivered ++ [m] }
    if S.registered (S.dest m) then
      let r := S.rx w.st (S.dest m) m
      ({ w with st := r.1 } : World S).push r.2
    else w

/-- messagerouter.rs lines 127-131 `deliver_all_messages`: `while` the queue is not empty. The relation
holds between a state before the loop and one after it, if the loop terminates. -/
inductive DeliverAll : World S → World S → Prop where
  | done {w : World S} : w.queue = [] → DeliverAll w w
  | step {w w' : World S} : w.queue ≠ [] → DeliverAll w.deliver w' → DeliverAll w w'

/-- messagerouter.rs lines 143-145 and 172-178: a tick function over entities in iteration order. -/
def World.ticks (f : S.St → S.Dest → Int → S.St × List (Prio × S.M)) (w : World S) : List S.Dest → World S
  | [] => w
  | d :: ds =>
    let r := f w.st d w.ts
    World.ticks f (({ w with st := r.1 } : World S).push r.2) ds

/-- messagerouter.rs lines 137-146 `tick_start`. -/
def World.tickStart (w : World S) (order : List S.Dest) : World S := w.ticks S.tickStart order

/-- messagerouter.rs lines 152-183 `tick_end`: `first` is the link layer entity (if registered), `second`
the upper MAC, `others` the remaining ones in iteration order. -/
def TickEnd (first second others : List S.Dest) (w w' : World S) : Prop :=
  ∃ a b c, DeliverAll (w.ticks S.tickEnd first) a ∧ DeliverAll (a.ticks S.tickEnd second) b ∧
    DeliverAll (b.ticks S.tickEnd others) c ∧ w' = { c with ts := c.ts + 1 }

/-- messagerouter.rs lines 200-209: one iteration of `run_stack`. -/
def Tick (order first second others : List S.Dest) (w w' : World S) : Prop :=
  ∃ a, DeliverAll (w.tickStart order) a ∧ TickEnd first second others a w'

end Verif.Router
