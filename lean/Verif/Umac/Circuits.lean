import Verif.Slots
/-!
# Traffic circuits of the upper MAC: model of `crates/tetra-entities/src/umac/subcomp/circuit_mgr.rs`
-/
namespace Verif

/-- `Direction` (tetra-core/src/direction.rs:2-9). -/
inductive Dir where
  | none | ul | dl | both
  deriving DecidableEq, Repr

/-- `Direction::includes_ul` (direction.rs:13-15). -/
def Dir.includesUl : Dir → Bool
  | .ul => true
  | .both => true
  | _ => false

/-- `Direction::includes_dl` (direction.rs:18-20). -/
def Dir.includesDl : Dir → Bool
  | .dl => true
  | .both => true
  | _ => false

/-- `Circuit` (tetra-saps/src/control/call_control.rs:6-28). The circuit mode is its number. -/
structure Circuit where
  direction : Dir
  ts : Nat
  usage : Nat
  circuitMode : Nat
  speechService : Option Nat
  eteeEncrypted : Bool
  deriving DecidableEq, Repr

namespace Umac

/-- A voice block, `Vec<u8>`. -/
abbrev Block := List Nat

/-- `CircuitMgr` (circuit_mgr.rs:6-12). -/
structure CircuitMgr where
  dl : Slots (Option Circuit)
  ul : Slots (Option Circuit)
  txData : Slots (List Block)

/-- `CircuitMgr::new` (circuit_mgr.rs:15-21). -/
def CircuitMgr.init : CircuitMgr := ⟨fun _ => none, fun _ => none, fun _ => []⟩

/-- `is_active` (circuit_mgr.rs:23-29). -/
def CircuitMgr.isActive (c : CircuitMgr) (d : Dir) (ts : Nat) : Res Bool :=
  match d with
  | .dl => do let i ← Slots.idx ts; .ok (c.dl i).isSome
  | .ul => do let i ← Slots.idx ts; .ok (c.ul i).isSome
  | _ => .panic

/-- `get_usage` (circuit_mgr.rs:31-49). -/
def CircuitMgr.getUsage (c : CircuitMgr) (d : Dir) (ts : Nat) : Res (Option Nat) :=
  match d with
  | .dl => do let i ← Slots.idx ts; .ok ((c.dl i).map Circuit.usage)
  | .ul => do let i ← Slots.idx ts; .ok ((c.ul i).map Circuit.usage)
  | _ => .panic

/-- `close_circuit` (circuit_mgr.rs:52-61). -/
def CircuitMgr.close (c : CircuitMgr) (d : Dir) (ts : Nat) : Res (CircuitMgr × Option Circuit) :=
  match d with
  | .dl => do
    let i ← Slots.idx ts
    .ok ({ c with txData := c.txData.upd i [], dl := c.dl.upd i none }, c.dl i)
  | .ul => do
    let i ← Slots.idx ts
    .ok ({ c with ul := c.ul.upd i none }, c.ul i)
  | _ => .panic

/-- The second half of `create_circuit` (circuit_mgr.rs:74-84); clearing an empty queue changes nothing,
so the test at line 76 is dropped. -/
def CircuitMgr.place (c : CircuitMgr) (d : Dir) (circuit : Circuit) : Res CircuitMgr :=
  match d with
  | .dl => do
    let i ← Slots.idx circuit.ts
    .ok { c with txData := c.txData.upd i [], dl := c.dl.upd i (some circuit) }
  | .ul => do
    let i ← Slots.idx circuit.ts
    .ok { c with ul := c.ul.upd i (some circuit) }
  | _ => .panic

/-- `create_circuit` (circuit_mgr.rs:65-85). -/
def CircuitMgr.create (c : CircuitMgr) (d : Dir) (circuit : Circuit) : Res CircuitMgr := do
  let active ← c.isActive d circuit.ts
  let c ← if active then do let r ← c.close d circuit.ts; .ok r.1 else .ok c
  c.place d circuit

/-- `put_block` (circuit_mgr.rs:88-94). -/
def CircuitMgr.putBlock (c : CircuitMgr) (ts : Nat) (b : Block) : Res CircuitMgr := do
  let i ← Slots.idx ts
  if (c.dl i).isSome then .ok { c with txData := c.txData.upd i (c.txData i ++ [b]) } else .ok c

/-- `take_block` (circuit_mgr.rs:97-103). -/
def CircuitMgr.takeBlock (c : CircuitMgr) (ts : Nat) : Res (CircuitMgr × Option Block) := do
  let i ← Slots.idx ts
  if (c.dl i).isSome then .ok ({ c with txData := c.txData.upd i (c.txData i).tail }, (c.txData i).head?)
  else .ok (c, none)

/-- The calls made on the manager. -/
inductive CircuitOp where
  | create (d : Dir) (c : Circuit)
  | close (d : Dir) (ts : Nat)
  | put (ts : Nat) (b : Block)
  | take (ts : Nat)
  deriving DecidableEq

/-- What a call returns. -/
inductive CircuitRet where
  | unit
  | circuit (c : Option Circuit)
  | block (b : Option Block)
  deriving DecidableEq

/-- One call. -/
def CircuitMgr.step (c : CircuitMgr) : CircuitOp → Res (CircuitMgr × CircuitRet)
  | .create d ci => do let c ← c.create d ci; .ok (c, .unit)
  | .close d ts => do let r ← c.close d ts; .ok (r.1, .circuit r.2)
  | .put ts b => do let c ← c.putBlock ts b; .ok (c, .unit)
  | .take ts => do let r ← c.takeBlock ts; .ok (r.1, .block r.2)

/-- A history of calls, with what each returned. -/
def CircuitMgr.run (c : CircuitMgr) : List CircuitOp → Res (CircuitMgr × List (CircuitOp × CircuitRet))
  | [] => .ok (c, [])
  | op :: ops => do
    let r ← c.step op
    let q ← r.1.run ops
    .ok (q.1, (op, r.2) :: q.2)

/-- The circuit on a direction of a slot, as the users of the manager see it (`dl`/`ul` are public). -/
def CircuitMgr.at (c : CircuitMgr) (d : Dir) (i : Fin 4) : Option Circuit :=
  match d with
  | .dl => c.dl i
  | .ul => c.ul i
  | _ => none

end Umac
end Verif
