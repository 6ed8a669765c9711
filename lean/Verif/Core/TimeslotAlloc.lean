import Verif.Common
/-!
# Timeslot allocator: model of `crates/tetra-core/src/timeslot_alloc.rs`
-/
namespace Verif.TsAlloc

/-- `TimeslotOwner` (timeslot_alloc.rs:2-5). -/
inductive Owner where
  | brew | cmce
  deriving DecidableEq, Repr

/-- `TimeslotAllocErr` (timeslot_alloc.rs:8-22). -/
inductive Err where
  | invalidTimeslot (ts : Nat)
  | inUse (ts : Nat) (owner : Owner)
  | notAllocated (ts : Nat)
  | ownerMismatch (ts : Nat) (owner actual : Owner)
  deriving DecidableEq, Repr

/-- `TimeslotAllocator` (timeslot_alloc.rs:25-28): index 0 is TS2, 1 is TS3, 2 is TS4. The fixed-size
array is a list; `init` has length 3 and every operation keeps it. -/
structure Alloc where
  owners : List (Option Owner)
  deriving DecidableEq, Repr

/-- `TimeslotAllocator::default` (timeslot_alloc.rs:30-36). -/
def Alloc.init : Alloc := { owners := [none, none, none] }

/-- `idx` (timeslot_alloc.rs:39-45). -/
def idx (ts : Nat) : Except Err Nat :=
  if 2 ≤ ts ∧ ts ≤ 4 then .ok (ts - 2) else .error (.invalidTimeslot ts)

/-- The loop of `allocate_any` (timeslot_alloc.rs:48-53) from index `i` on. -/
def allocLoop (owner : Owner) (i : Nat) : List (Option Owner) → List (Option Owner) × Option Nat
  | [] => ([], none)
  | none :: rest => (some owner :: rest, some (i + 2))
  | some o :: rest => let r := allocLoop owner (i + 1) rest; (some o :: r.1, r.2)

/-- `allocate_any` (timeslot_alloc.rs:47-55). -/
def Alloc.allocateAny (a : Alloc) (owner : Owner) : Alloc × Option Nat :=
  let r := allocLoop owner 0 a.owners
  ({ owners := r.1 }, r.2)

/-- Array read `self.owners[idx]`; out of range cannot happen (`idx ≤ 2`), so the default is never used. -/
def Alloc.at (a : Alloc) (i : Nat) : Option Owner := a.owners.getD i none

/-- `reserve` (timeslot_alloc.rs:57-66). -/
def Alloc.reserve (a : Alloc) (owner : Owner) (ts : Nat) : Alloc × Except Err Unit :=
  match idx ts with
  | .error e => (a, .error e)
  | .ok i =>
    match a.at i with
    | none => ({ owners := a.owners.set i (some owner) }, .ok ())
    | some existing => (a, .error (.inUse ts existing))

/-- `release` (timeslot_alloc.rs:68-82). -/
def Alloc.release (a : Alloc) (owner : Owner) (ts : Nat) : Alloc × Except Err Unit :=
  match idx ts with
  | .error e => (a, .error e)
  | .ok i =>
    match a.at i with
    | none => (a, .error (.notAllocated ts))
    | some existing =>
      if existing ≠ owner then (a, .error (.ownerMismatch ts owner existing))
      else ({ owners := a.owners.set i none }, .ok ())

/-- `owner` (timeslot_alloc.rs:84-86). -/
def Alloc.owner (a : Alloc) (ts : Nat) : Option Owner :=
  match idx ts with
  | .ok i => a.at i
  | .error _ => none

/-- `is_free` (timeslot_alloc.rs:88-90). -/
def Alloc.isFree (a : Alloc) (ts : Nat) : Bool := (a.owner ts).isNone

/-- The calls a client can make. -/
inductive Op where
  | allocateAny (o : Owner)
  | reserve (o : Owner) (ts : Nat)
  | release (o : Owner) (ts : Nat)
  deriving DecidableEq, Repr

/-- What a call returns. -/
inductive Out where
  | slot (r : Option Nat)
  | unit (r : Except Err Unit)

/-- One call. -/
def step (a : Alloc) : Op → Alloc × Out
  | .allocateAny o => let r := a.allocateAny o; (r.1, .slot r.2)
  | .reserve o ts => let r := a.reserve o ts; (r.1, .unit r.2)
  | .release o ts => let r := a.release o ts; (r.1, .unit r.2)

/-- Run a history of calls; the second component is the log of calls with their results. -/
def run (a : Alloc) : List Op → Alloc × List (Op × Out)
  | [] => (a, [])
  | op :: rest => let s := step a op; let r := run s.1 rest; (r.1, (op, s.2) :: r.2)

theorem allocLoop_length (o : Owner) (i : Nat) (l : List (Option Owner)) :
    (allocLoop o i l).1.length = l.length := by
  induction l generalizing i with
  | nil => rfl
  | cons x xs ih => cases x <;> simp [allocLoop, ih]

theorem step_length (a : Alloc) (op : Op) (h : a.owners.length = 3) :
    (step a op).1.owners.length = 3 := by
  cases op <;> simp only [step, Alloc.allocateAny, Alloc.reserve, Alloc.release]
  · simpa [allocLoop_length] using h
  · split <;> (try split) <;> simp [h]
  · split <;> (try split) <;> (try split) <;> simp [h]

end Verif.TsAlloc
