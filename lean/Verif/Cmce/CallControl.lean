import Verif.Assoc
import Verif.Cmce.Circuits
/-!
# Call control: model of `crates/tetra-entities/src/cmce/subentities/cc_bs.rs`

PDUs received are represented by the fields call control looks at, PDUs sent by the fields which differ between calls.
Their bit layout is not part of this model. A PDU that cannot be parsed, or of a type call control does not handle,
changes nothing (cc_bs.rs:404-416, 612-646) and has no event here.
-/
namespace Verif.Cmce
open Tdma

/-- `TransmissionGrant` (tetra-pdus/src/cmce/enums/transmission_grant.rs), the values used. -/
inductive TxGrant where
  | granted | notGranted | grantedToOther
  deriving DecidableEq, Repr

/-- `DisconnectCause`, the values used. -/
inductive Cause where
  | userRequested | swmiRequested | expiryOfTimer | notAvailable
  deriving DecidableEq, Repr

/-- `TetraAddress`: a station or a group. The address a PDU was received from is taken to be a station's. -/
inductive Party where
  | station (issi : Nat)
  | group (gssi : Nat)
  deriving DecidableEq, Repr

/-- `CallOrigin` (cc_bs.rs:56-66). A UUID is a number. -/
inductive Origin where
  | ms (caller : Nat)
  | net (uuid : Nat)
  deriving DecidableEq, Repr

/-- `ActiveCall` (cc_bs.rs:68-83). -/
structure Call where
  origin : Origin
  gssi : Nat
  speaker : Nat
  ts : Nat
  usage : Nat
  tx : Bool
  hang : Option Time
  brew : Option Nat
  deriving DecidableEq, Repr

/-- An entry of `cached_setups` (cc_bs.rs:44): the D-SETUP, its destination group and the receipt of the last time it was
sent. A receipt is represented by whether it is in a final state. -/
structure Setup where
  callId : Nat
  grant : TxGrant
  caller : Nat
  gssi : Nat
  receipt : Option Bool
  deriving DecidableEq, Repr

/-- What call control sends. -/
inductive CcOut where
  /-- `CallControl::Open` to the MAC (cc_bs.rs:370-389) -/
  | open (c : Circuit)
  /-- `CallControl::Close` to the MAC (cc_bs.rs:391-400) -/
  | close (d : Dir) (ts : Nat)
  /-- `CallControl::FloorGranted`, `FloorReleased`, `CallEnded` to the MAC -/
  | macGranted (callId speaker gssi ts : Nat)
  | macReleased (callId ts : Nat)
  | macEnded (callId ts : Nat)
  /-- the same and the `NetworkCall` messages to the backhaul -/
  | netGranted (callId speaker gssi ts : Nat)
  | netReleased (callId ts : Nat)
  | netEnded (callId ts : Nat)
  | netCallEnd (uuid : Nat)
  | netReady (uuid callId ts usage : Nat)
  /-- PDUs; `chan` is the usage marker and the timeslot of a channel allocation -/
  | dCallProceeding (to : Party) (callId : Nat)
  | dConnect (to : Party) (callId : Nat) (grant : TxGrant) (owner : Bool) (chan : Option (Nat × Nat))
  | dSetup (to : Party) (callId : Nat) (grant : TxGrant) (caller : Nat) (chan : Nat × Nat)
  | dRelease (to : Party) (callId : Nat) (cause : Cause)
  /-- PDUs sent by stealing on a traffic timeslot -/
  | dTxCeased (to : Party) (callId ts : Nat)
  | dTxGranted (to : Party) (callId : Nat) (grant : TxGrant) (speaker ts : Nat)
  deriving DecidableEq, Repr

/-- `CcBsSubentity` (cc_bs.rs:39-53) and the timeslot allocator of the shared state (state.rs:94), which nothing else
uses. `routable` is `is_brew_gssi_routable` for the configuration, which does not change. -/
structure Cc where
  routable : Nat → Bool
  now : Time
  setups : Assoc Nat Setup
  mgr : Mgr
  alloc : TsAlloc.Alloc
  calls : Assoc Nat Call
  groups : Assoc Nat (List Nat)
  listeners : Assoc Nat Nat

/-- `CcBsSubentity::new` (cc_bs.rs:86-96). -/
def Cc.init (routable : Nat → Bool) : Cc := ⟨routable, Time.default, [], .init, .init, [], [], []⟩

/-! ## Listeners -/

/-- `has_listener` (cc_bs.rs:203-205). -/
def Cc.hasListener (s : Cc) (g : Nat) : Bool := decide ((s.listeners.get g).getD 0 > 0)

/-- `inc_group_listener` (cc_bs.rs:207-210). -/
def incListener (l : Assoc Nat Nat) (g : Nat) : Assoc Nat Nat := l.insert g ((l.get g).getD 0 + 1)

/-- `dec_group_listener` (cc_bs.rs:212-220). -/
def decListener (l : Assoc Nat Nat) (g : Nat) : Assoc Nat Nat :=
  match l.get g with
  | some n => if n ≤ 1 then l.erase g else l.insert g (n - 1)
  | none => l

/-! ## Ending a call -/

/-- The circuit part of `release_call` (cc_bs.rs:788-820). -/
def Cc.freeCall (s : Cc) (id : Nat) (c : Call) : Res (Cc × List CcOut) := do
  let r ← s.mgr.close .both c.ts
  .ok ({ s with mgr := r.1, alloc := (s.alloc.release .cmce c.ts).1 },
    (match r.2 with
      | .ok k => [.close k.direction k.ts]
      | .error _ => []) ++
    [.macEnded id c.ts] ++
    (match c.origin with
      | .ms _ => if s.routable c.gssi then [.netEnded id c.ts] else []
      | .net _ => []))

/-- `release_call` (cc_bs.rs:774-825). -/
def Cc.release (s : Cc) (id : Nat) (cause : Cause) : Res (Cc × List CcOut) :=
  match s.setups.get id with
  | none => .ok (s, [])
  | some p =>
    match s.calls.get id with
    | none => .ok ({ s with setups := s.setups.erase id }, [.dRelease (.group p.gssi) p.callId cause])
    | some c => do
      let r ← s.freeCall id c
      .ok ({ r.1 with setups := r.1.setups.erase id, calls := r.1.calls.erase id },
        .dRelease (.group p.gssi) p.callId cause :: r.2)

/-- Release several calls, in order. -/
def Cc.releaseAll (s : Cc) (cause : Cause) : List Nat → Res (Cc × List CcOut)
  | [] => .ok (s, [])
  | id :: ids => do
    let r ← s.release id cause
    let q ← r.1.releaseAll cause ids
    .ok (q.1, r.2 ++ q.2)

/-- The loop of `drop_group_calls_if_unlistened` (cc_bs.rs:234-248). -/
def Cc.dropLoop (s : Cc) (g : Nat) : List (Nat × Call) → Res (Cc × List CcOut)
  | [] => .ok (s, [])
  | (id, c) :: rest => do
    let r ← s.release id .swmiRequested
    let q ← r.1.dropLoop g rest
    .ok (q.1, (match c.origin with
      | .net u => if s.routable g then [.netCallEnd u] else []
      | .ms _ => []) ++ r.2 ++ q.2)

/-- `drop_group_calls_if_unlistened` (cc_bs.rs:222-249). -/
def Cc.dropUnlistened (s : Cc) (g : Nat) : Res (Cc × List CcOut) :=
  if s.hasListener g then .ok (s, []) else s.dropLoop g (s.calls.filter (·.2.gssi = g))

/-! ## Subscriber updates -/

/-- `HashSet::insert` for a list of values: the set and the values that were new, in order (cc_bs.rs:272-277). -/
def addGroups (set : List Nat) : List Nat → List Nat × List Nat
  | [] => (set, [])
  | g :: gs =>
    if set.contains g then addGroups set gs
    else
      let r := addGroups (g :: set) gs
      (r.1, g :: r.2)

/-- `HashSet::remove` for a list of values: the set and the values that were there, in order (cc_bs.rs:293-298). -/
def removeGroups (set : List Nat) : List Nat → List Nat × List Nat
  | [] => (set, [])
  | g :: gs =>
    if set.contains g then
      let r := removeGroups (set.filter (· ≠ g)) gs
      (r.1, g :: r.2)
    else removeGroups set gs

/-- The loop at cc_bs.rs:264-267. -/
def Cc.leaveLoop (s : Cc) : List Nat → Res (Cc × List CcOut)
  | [] => .ok (s, [])
  | g :: gs => do
    let r ← ({ s with listeners := decListener s.listeners g } : Cc).dropUnlistened g
    let q ← r.1.leaveLoop gs
    .ok (q.1, r.2 ++ q.2)

/-- The loop at cc_bs.rs:313-315. -/
def Cc.dropAllUnlistened (s : Cc) : List Nat → Res (Cc × List CcOut)
  | [] => .ok (s, [])
  | g :: gs => do
    let r ← s.dropUnlistened g
    let q ← r.1.dropAllUnlistened gs
    .ok (q.1, r.2 ++ q.2)

/-- `MmSubscriberUpdate` (tetra-saps/src/control/brew.rs). -/
inductive SubUpdate where
  | register (issi : Nat)
  | deregister (issi : Nat)
  | affiliate (issi : Nat) (gs : List Nat)
  | deaffiliate (issi : Nat) (gs : List Nat)
  deriving DecidableEq, Repr

/-- `handle_subscriber_update` (cc_bs.rs:251-319). -/
def Cc.update (s : Cc) : SubUpdate → Res (Cc × List CcOut)
  | .register issi =>
    .ok ({ s with groups := match s.groups.get issi with
      | some _ => s.groups
      | none => s.groups.insert issi [] }, [])
  | .deregister issi =>
    match s.groups.get issi with
    | some gs => ({ s with groups := s.groups.erase issi } : Cc).leaveLoop gs
    | none => .ok (s, [])
  | .affiliate issi gs =>
    let r := addGroups ((s.groups.get issi).getD []) gs
    .ok ({ s with groups := s.groups.insert issi r.1, listeners := r.2.foldl incListener s.listeners }, [])
  | .deaffiliate issi gs =>
    match s.groups.get issi with
    | some set =>
      let r := removeGroups set gs
      ({ s with groups := s.groups.insert issi r.1, listeners := r.2.foldl decListener s.listeners } : Cc).dropAllUnlistened r.2
    | none => s.dropAllUnlistened gs

/-! ## Setting up a call -/

/-- The `Circuit` for the MAC (cc_bs.rs:371-378): mode TCH/S is number 0, speech service 0, not encrypted. -/
def CmceCircuit.mac (c : CmceCircuit) : Circuit := ⟨c.direction, c.ts, c.usage, 0, some 0, false⟩

/-- cc_bs.rs:440-612: after `allocate_circuit_with_allocator`. The index expression `timeslots[ts - 1]` aborts outside 1
to 4. -/
def Cc.openLocal (s : Cc) (caller gssi : Nat) (k : CmceCircuit) : Res (Cc × List CcOut) := do
  let _ ← Slots.idx k.ts
  .ok ({ s with
      setups := s.setups.insert k.callId ⟨k.callId, .grantedToOther, caller, gssi, none⟩
      calls := s.calls.insert k.callId ⟨.ms caller, gssi, caller, k.ts, k.usage, true, none, none⟩ },
    [.open k.mac, .dCallProceeding (.station caller) k.callId,
      .dConnect (.station caller) k.callId .granted true (some (k.usage, k.ts)),
      .dSetup (.group gssi) k.callId .grantedToOther caller (k.usage, k.ts)] ++
    (if s.routable gssi then [.netGranted k.callId caller gssi k.ts] else []))

/-- `rx_u_setup` (cc_bs.rs:402-612). `supported` is the result of `feature_check_u_setup` (cc_bs.rs:827-869), `called` the
called party's SSI, `comm` the communication type asked for. -/
def Cc.setup (s : Cc) (caller : Nat) (supported : Bool) (called : Option Nat) (comm : Nat) : Res (Cc × List CcOut) :=
  if supported then
    match called with
    | none => .ok (s, [])
    | some gssi =>
      if s.hasListener gssi then do
        let r ← s.mgr.allocateWith .both comm s.alloc .cmce
        match r.2.2 with
        | .error _ => .ok ({ s with mgr := r.1, alloc := r.2.1 }, [])
        | .ok k => ({ s with mgr := r.1, alloc := r.2.1 } : Cc).openLocal caller gssi k
      else .ok (s, [])
  else .ok (s, [])

/-- cc_bs.rs:1316-1470: a new network call, after `allocate_circuit_with_allocator`. -/
def Cc.openNet (s : Cc) (uuid speaker gssi : Nat) (k : CmceCircuit) : Res (Cc × List CcOut) := do
  let _ ← Slots.idx k.ts
  .ok ({ s with
      setups := s.setups.insert k.callId ⟨k.callId, .grantedToOther, speaker, gssi, none⟩
      calls := s.calls.insert k.callId ⟨.net uuid, gssi, speaker, k.ts, k.usage, true, none, some uuid⟩ },
    [.open k.mac, .dSetup (.group gssi) k.callId .grantedToOther speaker (k.usage, k.ts),
      .dConnect (.group gssi) k.callId .grantedToOther false none, .netReady uuid k.callId k.ts k.usage])

/-- The second field of `CallOrigin::Network` follows the speaker (cc_bs.rs:1268-1274). -/
def Origin.speak (uuid : Nat) : Origin → Origin
  | .net _ => .net uuid
  | .ms c => .ms c

/-- `rx_network_call_start` (cc_bs.rs:1213-1470). -/
def Cc.netStart (s : Cc) (uuid speaker gssi : Nat) : Res (Cc × List CcOut) :=
  if s.routable gssi then
    if s.hasListener gssi then
      match s.calls.find? (fun e => e.2.gssi = gssi) with
      | some (id, c) =>
        if c.tx then .ok (s, [.netCallEnd uuid])
        else do
          let _ ← Slots.idx c.ts
          .ok ({ s with calls := s.calls.insert id { c with
              speaker := speaker, tx := true, hang := none, brew := some uuid, origin := c.origin.speak uuid } },
            [.dTxGranted (.group gssi) id .grantedToOther speaker c.ts, .macGranted id speaker gssi c.ts,
              .netReady uuid id c.ts c.usage])
      | none => do
        let r ← s.mgr.allocateWith .both 1 s.alloc .cmce
        match r.2.2 with
        | .error _ => .ok ({ s with mgr := r.1, alloc := r.2.1 }, [])
        | .ok k => ({ s with mgr := r.1, alloc := r.2.1 } : Cc).openNet uuid speaker gssi k
    else do
      let r ← s.dropUnlistened gssi
      .ok (r.1, r.2 ++ [.netCallEnd uuid])
  else .panic

/-! ## The floor -/

/-- The floor becomes free: the state and the messages of `rx_u_tx_ceased` (cc_bs.rs:902-956), `rx_network_call_end`
(cc_bs.rs:1496-1513) and `handle_ul_inactivity_timeout` (cc_bs.rs:1567-1596). -/
def Cc.toHang (s : Cc) (id : Nat) (c : Call) : Cc := { s with calls := s.calls.insert id { c with tx := false, hang := some s.now } }

/-- `rx_u_tx_ceased` (cc_bs.rs:873-956). -/
def Cc.ceased (s : Cc) (id : Nat) : Res (Cc × List CcOut) :=
  match s.calls.get id with
  | none => .ok (s, [])
  | some c =>
    if !c.tx && c.hang.isSome then .ok (s, [])
    else match s.setups.get id with
      | none => .ok (s.toHang id c, [])
      | some p => do
        let _ ← Slots.idx c.ts
        .ok (s.toHang id c,
          [.dTxCeased (.group p.gssi) id c.ts, .macReleased id c.ts] ++
          (if s.routable c.gssi then [.netReleased id c.ts] else []))

/-- cc_bs.rs:997-1000: a local call's caller is now the party which got the floor. -/
def Origin.demanded (ssi : Nat) : Origin → Origin
  | .ms _ => .ms ssi
  | .net u => .net u

/-- `rx_u_tx_demand` (cc_bs.rs:960-1076). -/
def Cc.demand (s : Cc) (ssi id : Nat) : Res (Cc × List CcOut) :=
  match s.calls.get id with
  | none => .ok (s, [])
  | some c =>
    if c.tx then .ok (s, [])
    else
      let s' := { s with calls := s.calls.insert id { c with
        tx := true, hang := none, speaker := ssi, origin := c.origin.demanded ssi } }
      match s.setups.get id with
      | none => .ok (s', [])
      | some p => do
        let _ ← Slots.idx c.ts
        .ok (s',
          [.dTxGranted (.station ssi) id .granted ssi c.ts, .dTxGranted (.group p.gssi) id .grantedToOther ssi c.ts,
            .macGranted id ssi p.gssi c.ts] ++
          (if s.routable p.gssi then [.netGranted id ssi p.gssi c.ts] else []))

/-- `rx_u_disconnect` (cc_bs.rs:1103-1183). -/
def Cc.disconnect (s : Cc) (ssi id : Nat) : Res (Cc × List CcOut) :=
  match s.calls.get id with
  | none => .ok (s, [])
  | some c => if c.origin = .ms ssi then s.release id .userRequested else .ok (s, [.dRelease (.station ssi) id .notAvailable])

/-- `rx_network_call_end` (cc_bs.rs:1473-1518). -/
def Cc.netEnd (s : Cc) (uuid : Nat) : Res (Cc × List CcOut) :=
  match s.calls.find? (fun e => e.2.brew = some uuid) with
  | none => .ok (s, [])
  | some (id, c) =>
    if c.tx then do
      let _ ← Slots.idx c.ts
      .ok (s.toHang id { c with brew := none }, [.dTxCeased (.group c.gssi) id c.ts, .macReleased id c.ts])
    else s.release id .swmiRequested

/-- `handle_ul_inactivity_timeout` (cc_bs.rs:1550-1597). -/
def Cc.inactive (s : Cc) (ts : Nat) : Res (Cc × List CcOut) :=
  match s.calls.find? (fun e => e.2.ts = ts ∧ e.2.tx = true) with
  | none => .ok (s, [])
  | some (id, c) => do
    let _ ← Slots.idx ts
    .ok (s.toHang id c, [.dTxCeased (.group c.gssi) id ts, .macReleased id ts] ++
      (if s.routable c.gssi then [.netReleased id ts] else []))

/-! ## Ticks -/

/-- The limit in `check_hangtime_expiry` (cc_bs.rs:745). -/
def hangLimit : Int := 5 * 18 * 4

/-- The calls whose hang time is over (cc_bs.rs:747-758). -/
def Cc.hangExpired (s : Cc) : List Nat :=
  (s.calls.filter fun e => match e.2.hang with
    | some h => decide (h.age s.now > hangLimit)
    | none => false).map Prod.fst

/-- `CircuitMgrCmd::SendDSetup` (cc_bs.rs:656-712). The receipt of the new transmission is not put into the cache. -/
def Cc.announce (s : Cc) (id usage ts : Nat) : Res (Cc × List CcOut) :=
  let quiet := match s.calls.get id with
    | some c => c.hang.isSome
    | none => false
  if quiet then .ok (s, [])
  else match s.setups.get id with
    | none => .ok (s, [])
    | some p =>
      if p.receipt = some false then .ok (s, [])
      else do
        let _ ← Slots.idx ts
        let g := match s.calls.get id with
          | some c => if c.tx then .grantedToOther else .notGranted
          | none => p.grant
        .ok ({ s with setups := s.setups.insert id { p with grant := g } },
          [.dSetup (.group p.gssi) p.callId g p.caller (usage, ts)])

/-- `CircuitMgrCmd::SendClose` (cc_bs.rs:714-737). -/
def Cc.expire (s : Cc) (id : Nat) (k : CmceCircuit) : Cc × List CcOut :=
  ({ s with setups := s.setups.erase id, calls := s.calls.erase id, alloc := (s.alloc.release .cmce k.ts).1 },
    (match s.setups.get id with
      | some p => [.dRelease (.group p.gssi) p.callId .expiryOfTimer]
      | none => []) ++ [.close k.direction k.ts])

/-- The loop at cc_bs.rs:655-738. -/
def Cc.tasks (s : Cc) : List Cmd → Res (Cc × List CcOut)
  | [] => .ok (s, [])
  | .sendDSetup id usage ts :: rest => do
    let r ← s.announce id usage ts
    let q ← r.1.tasks rest
    .ok (q.1, r.2 ++ q.2)
  | .sendClose id k :: rest => do
    let r := s.expire id k
    let q ← r.1.tasks rest
    .ok (q.1, r.2 ++ q.2)

/-- `tick_start` (cc_bs.rs:648-740) with `check_hangtime_expiry` (cc_bs.rs:743-764). -/
def Cc.tick (s : Cc) (now : Time) : Res (Cc × List CcOut) := do
  let s := { s with now := now }
  let r ← s.releaseAll .expiryOfTimer s.hangExpired
  let m ← r.1.mgr.tick now
  let q ← ({ r.1 with mgr := m.1 } : Cc).tasks m.2
  .ok (q.1, r.2 ++ q.2)

/-! ## Histories -/

/-- What happens to call control. -/
inductive CcEv where
  | tick (now : Time)
  | update (u : SubUpdate)
  | uSetup (caller : Nat) (supported : Bool) (called : Option Nat) (comm : Nat)
  | uTxCeased (ssi id : Nat)
  | uTxDemand (ssi id : Nat)
  | uRelease (ssi id : Nat)
  | uDisconnect (ssi id : Nat)
  | netStart (uuid speaker gssi : Nat)
  | netEnd (uuid : Nat)
  | inactive (ts : Nat)
  deriving DecidableEq, Repr

/-- One event. U-TX CEASED and U-RELEASE take no notice of who sent them. -/
def Cc.step (s : Cc) : CcEv → Res (Cc × List CcOut)
  | .tick now => s.tick now
  | .update u => s.update u
  | .uSetup caller ok called comm => s.setup caller ok called comm
  | .uTxCeased _ id => s.ceased id
  | .uTxDemand ssi id => s.demand ssi id
  | .uRelease _ id => s.release id .userRequested
  | .uDisconnect ssi id => s.disconnect ssi id
  | .netStart uuid speaker gssi => s.netStart uuid speaker gssi
  | .netEnd uuid => s.netEnd uuid
  | .inactive ts => s.inactive ts

/-- The same state, but for the order in which the hash tables and sets are iterated. -/
def Cc.Reordered (s s' : Cc) : Prop :=
  ∃ calls' : Assoc Nat Call, ∃ f : Nat → List Nat → List Nat, calls'.Perm s.calls ∧ (∀ k l, (f k l).Perm l) ∧
    s' = { s with calls := calls', groups := s.groups.map fun e => (e.1, f e.1 e.2) }

/-- Call control after a history of events, each with what was sent. The iteration order of hash tables is unspecified
and may change at any time. -/
inductive CcRun (routable : Nat → Bool) : List (CcEv × List CcOut) → Cc → Prop where
  | init : CcRun routable [] (.init routable)
  | step {h : List (CcEv × List CcOut)} {s s' : Cc} {e : CcEv} {out : List CcOut} :
      CcRun routable h s → s.step e = .ok (s', out) → CcRun routable (h ++ [(e, out)]) s'
  | reorder {h : List (CcEv × List CcOut)} {s s' : Cc} : CcRun routable h s → s.Reordered s' → CcRun routable h s'

/-- Run a list of events, for concrete histories. -/
def Cc.run (s : Cc) : List CcEv → Res (Cc × List (CcEv × List CcOut))
  | [] => .ok (s, [])
  | e :: es => do
    let r ← s.step e
    let q ← r.1.run es
    .ok (q.1, (e, r.2) :: q.2)

end Verif.Cmce
