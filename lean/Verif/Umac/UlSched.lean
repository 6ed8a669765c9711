import Verif.Core.Tdma
import Verif.Slots
import Verif.Umac.MacPdus
/-!
# Uplink reservations: model of the uplink part of
`crates/tetra-entities/src/umac/subcomp/bs_sched.rs`
-/
namespace Verif.Umac
open Verif.Tdma

/-- `TimeslotSchedule` (bs_sched.rs:51-56): the owners of the two halves of an uplink slot. -/
structure UlElem where
  ul1 : Option Nat
  ul2 : Option Nat
  deriving DecidableEq, Repr

/-- `ulsched: [[TimeslotSchedule; MACSCHED_NUM_FRAMES]; 4]` (bs_sched.rs:69). -/
abbrev UlTable := Slots (Fin 18 → UlElem)

/-- `EMPTY_SCHED` (bs_sched.rs:109-115). -/
def UlTable.empty : UlTable := fun _ _ => ⟨none, none⟩

/-- Assignment to one entry. -/
def UlTable.put (u : UlTable) (s : Fin 4) (i : Fin 18) (e : UlElem) : UlTable :=
  u.upd s (fun j => if j = i then e else u s j)

/-- `ul_ts_to_sched_index` (bs_sched.rs:220-223). The subtractions abort on underflow. -/
def schedIndex (x : Time) : Res (Fin 18) :=
  if x.f = 0 ∨ x.m = 0 then .panic
  else .ok ⟨((x.f - 1) + (x.m - 1) * 18 + x.h * 18 * 60) % 18, by omega⟩

/-- The condition at bs_sched.rs:266: the slot can still take this reservation. -/
def UlElem.free (e : UlElem) (half : Bool) : Bool :=
  (e.ul1.isNone && e.ul2.isNone) || (half && (e.ul1.isNone || e.ul2.isNone))

/-- bs_sched.rs:238-279: the loop over the candidate slots. `skipped` and `acc` are
`opportunities_skipped` and `grant_timeslots`. -/
def findLoop (u : UlTable) (t : Nat) (first : Time) (num : Nat) (half : Bool) :
    List Nat → Nat → List Time → Res (Option (Nat × List Time))
  | [], _, _ => .ok none
  | d :: ds, skipped, acc => do
    let c ← first.addTimeslots ((d : Int) * 4)
    if c.t ≠ first.t then .panic
    else if c.isMandatoryClch then findLoop u t first num half ds skipped acc
    else do
      let i ← schedIndex c
      let s ← Slots.idx t
      if (u s i).free half then
        if acc.length + 1 = num then .ok (some (skipped, acc ++ [c]))
        else findLoop u t first num half ds skipped (acc ++ [c])
      else
        if num = 0 then .ok (some (skipped + acc.length + 1, []))
        else findLoop u t first num half ds (skipped + acc.length + 1) []

/-- `ul_find_grant_opportunity` (bs_sched.rs:231-283). -/
def findGrant (u : UlTable) (cur : Time) (t num : Nat) (half : Bool) : Res (Option (Nat × List Time)) := do
  let first ← cur.forwardToTimeslot t
  if half ∧ num ≠ 1 then .panic
  else findLoop u t first num half (List.range 17) 0 []

/-- `ul_reserve_grant` (bs_sched.rs:286-313) for a half slot: the table and which half. -/
def reserveHalf (u : UlTable) (ssi : Nat) (x : Time) : Res (UlTable × Nat) := do
  let i ← schedIndex x
  let s ← Slots.idx x.t
  let e := u s i
  if e.ul1.isNone then .ok (u.put s i { e with ul1 := some ssi }, 1)
  else if e.ul2.isNone then .ok (u.put s i { e with ul2 := some ssi }, 2)
  else .panic

/-- `ul_reserve_grant` (bs_sched.rs:286-313) for full slots. -/
def reserveFull (u : UlTable) (ssi : Nat) : List Time → Res UlTable
  | [] => .ok u
  | x :: xs => do
    let i ← schedIndex x
    let s ← Slots.idx x.t
    let e := u s i
    if e.ul1.isNone ∧ e.ul2.isNone then reserveFull (u.put s i ⟨some ssi, some ssi⟩) ssi xs
    else .panic

/-- `ReservationRequirement::to_req_slotcount` (reservation_requirement.rs:110-138), by code; code 0 and code
15 are `unimplemented!()`. -/
def reqSlots : Nat → Res Nat
  | 1 => .ok 1 | 2 => .ok 2 | 3 => .ok 3 | 4 => .ok 4 | 5 => .ok 5 | 6 => .ok 6 | 7 => .ok 8 | 8 => .ok 10
  | 9 => .ok 13 | 10 => .ok 17 | 11 => .ok 24 | 12 => .ok 34 | 13 => .ok 51 | 14 => .ok 68
  | _ => .panic

/-- `BasicSlotgrantCapAlloc::from_req_slotcount` (basic_slotgrant_cap_alloc.rs:75-98): the code. -/
def capAllocOf (n : Nat) : Res Nat :=
  if n ≤ 6 then .ok n else if n ≤ 8 then .ok 7 else if n ≤ 10 then .ok 8 else if n ≤ 13 then .ok 9
  else if n ≤ 17 then .ok 10 else if n ≤ 24 then .ok 11 else if n ≤ 34 then .ok 12 else if n ≤ 51 then .ok 13
  else if n ≤ 68 then .ok 14 else if n = 99 then .ok 15 else .panic

/-- bs_sched.rs:350-354: `skips as u8`. -/
def grantDelayOf (skips : Nat) : GrantDelay :=
  if skips = 0 then .nextOpportunity else .delay (skips % 256)

/-- bs_sched.rs:334-358 for a half slot. -/
def grantHalf (u : UlTable) (ssi : Nat) : Option (Nat × List Time) → Res (UlTable × Option SlotGrant)
  | none => .ok (u, none)
  | some (skips, [x]) => do
    let r ← reserveHalf u ssi x
    .ok (r.1, some ⟨if r.2 = 1 then 0 else 15, grantDelayOf skips⟩)
  | some _ => .panic

/-- bs_sched.rs:334-358 for full slots. -/
def grantFull (u : UlTable) (ssi num : Nat) : Option (Nat × List Time) → Res (UlTable × Option SlotGrant)
  | none => .ok (u, none)
  | some (_, []) => .panic
  | some (skips, xs) => do
    let u ← reserveFull u ssi xs
    let c ← capAllocOf num
    .ok (u, some ⟨c, grantDelayOf skips⟩)

/-- `ul_process_cap_req` (bs_sched.rs:317-367); `req` is the code of the reservation requirement, 0 for one
half slot. -/
def processCapReq (u : UlTable) (cur : Time) (t ssi req : Nat) : Res (UlTable × Option SlotGrant) :=
  if req = 0 then do
    let g ← findGrant u cur t 1 true
    grantHalf u ssi g
  else do
    let n ← reqSlots req
    let g ← findGrant u cur t n false
    grantFull u ssi n g

/-- `PhyBlockNum` (tetra-core/src/phy_types.rs), the values that occur here. -/
inductive BlockNum where
  | block1 | block2 | both
  deriving DecidableEq, Repr

/-- `ul_get_slot_owner` (bs_sched.rs:373-387). -/
def slotOwner (u : UlTable) (x : Time) (b : BlockNum) : Res (Option Nat) := do
  let s ← Slots.idx x.t
  let i ← schedIndex x
  let e := u s i
  match b with
  | .block1 => .ok e.ul1
  | .block2 => .ok e.ul2
  | .both => .ok (if e.ul1 = e.ul2 then e.ul1 else none)

/-- `ul_get_usage` (bs_sched.rs:389-397). -/
def ulUsage (u : UlTable) (x : Time) : Res UlUsage := do
  let s ← Slots.idx x.t
  let i ← schedIndex x
  match (u s i).ul1, (u s i).ul2 with
  | some _, some _ => .ok .assignedOnly
  | some _, none => .ok .commonAndAssigned
  | none, none => .ok .commonOnly
  | none, some _ => .panic

/-- End of `finalize_ts_for_tick` (bs_sched.rs:1040-1043): forget the reservations one frame before the slot
being finalised. -/
def clearUl (u : UlTable) (ts : Time) : Res UlTable := do
  let y ← ts.addTimeslots (-4)
  let i ← schedIndex y
  let s ← Slots.idx ts.t
  .ok (u.put s i ⟨none, none⟩)

/-- The part of the scheduler the uplink uses. -/
structure UlState where
  cur : Time
  table : UlTable

/-- What can happen to it. -/
inductive UlEv where
  /-- `tick_start` and `finalize_ts_for_tick` -/
  | tick
  /-- a capacity request of `ssi` on timeslot `t` -/
  | req (t ssi code : Nat)
  deriving DecidableEq, Repr

/-- `tick_start` (bs_sched.rs:842-851) for the next timeslot, then `finalize_ts_for_tick`
(bs_sched.rs:858-1048) as far as the uplink table is concerned. -/
def UlState.tick (s : UlState) : Res UlState := do
  let cur ← s.cur.addTimeslots 1
  let ts ← cur.addTimeslots 1
  let u ← clearUl s.table ts
  .ok ⟨cur, u⟩

/-- One event and the grant it returned. -/
def UlState.step (s : UlState) : UlEv → Res (UlState × Option SlotGrant)
  | .tick => do let s ← s.tick; .ok (s, none)
  | .req t ssi code => do
    let r ← processCapReq s.table s.cur t ssi code
    .ok (⟨s.cur, r.1⟩, r.2)

/-- A history. -/
def UlState.run (s : UlState) : List UlEv → Res (UlState × List (UlEv × Option SlotGrant))
  | [] => .ok (s, [])
  | e :: es => do
    let r ← s.step e
    let q ← r.1.run es
    .ok (q.1, (e, r.2) :: q.2)

/-- The state after the first tick, at time `x`: `set_dl_time` (bs_sched.rs:215-218), and the clearing at the
end of `finalize_ts_for_tick` finds the table empty. -/
def UlState.start (x : Time) : UlState := ⟨x, .empty⟩

end Verif.Umac
