import Verif.Mm.Pdus
import Verif.Config.Registry
import Verif.Brew.Routable
import Verif.Cmce.CallControl
/-!
# Mobility management of the base station

Models crates/tetra-entities/src/mm/mm_bs.rs (line numbers without a file name) and
crates/tetra-entities/src/mm/components/client_state.rs. Hash sets and hash maps are lists tested by membership; the order in
which a hash set lists its groups is that of the list. The attachment state kept with a client
(client_state.rs:76-83) is never read and left out, as are the logging and the stubs which always give `true`
(client_state.rs:38-53).
-/
namespace Verif.Mm
open Verif.Bits Verif.Codec Verif.TypedFields

/-- net_telemetry/events.rs lines 6-25, the events sent by mobility management. -/
inductive TelEvent where
  | registration (issi : Nat)
  | deregistration (issi : Nat)
  | groupAttach (issi : Nat) (gs : List Nat)
  | groupDetach (issi : Nat) (gs : List Nat)
  deriving DecidableEq, Repr

/-- What leaves mobility management, in order: subscriber updates to the backhaul and to call control, messages to a mobile, and
telemetry. -/
inductive MmOut where
  | brew (u : Cmce.SubUpdate)
  | cmce (u : Cmce.SubUpdate)
  | answer (handle ssi : Nat) (sdu : List Bool)
  | telemetry (e : TelEvent)
  deriving DecidableEq, Repr

/-- lines 28-33 `MmBs` with client_state.rs:55-58 `MmClientMgr`; the registry is the one in the shared state of the
configuration. A client is its number and its groups. -/
structure Mm where
  clients : Assoc Nat (List Nat)
  registry : Config.Registry
  deriving DecidableEq, Repr

/-- lines 36-45 `new`, with a fresh registry. -/
def Mm.new : Mm := ⟨[], Config.Registry.new⟩

/-- client_state.rs:72-74 `client_is_known`. -/
def Mm.known (s : Mm) (issi : Nat) : Bool := (s.clients.get issi).isSome

/-! ## Telling the others -/

/-- lines 46-96 `emit_subscriber_update`: to the backhaul, if there is one, the routable part; to call control everything. -/
def emit (c : Brew.Cfg) (u : Cmce.SubUpdate) : List MmOut :=
  let toBrew := match u with
    | .register i => if Brew.issiRoutable c i then [.brew u] else []
    | .deregister i => if Brew.issiRoutable c i then [.brew u] else []
    | .affiliate i gs =>
      let r := gs.filter (Brew.gssiRoutable c)
      if r.isEmpty then [] else [.brew (.affiliate i r)]
    | .deaffiliate i gs =>
      let r := gs.filter (Brew.gssiRoutable c)
      if r.isEmpty then [] else [.brew (.deaffiliate i r)]
  (if Brew.isActive c then toBrew else []) ++ [.cmce u]

/-- An update for call control only if its group list is not empty. -/
def emitGroups (c : Brew.Cfg) (u : List Nat → Cmce.SubUpdate) (gs : List Nat) : List MmOut :=
  if gs.isEmpty then [] else emit c (u gs)

/-! ## Clients -/

/-- client_state.rs:87-110 `try_register_client` with the registry entry and the update which always follow it
(lines 181-185 and 361-365). -/
def Mm.addClient (c : Brew.Cfg) (s : Mm) (issi : Nat) : Mm × List MmOut :=
  (⟨(s.clients.erase issi).insert issi [], s.registry.register issi⟩, .telemetry (.registration issi) :: emit c (.register issi))

/-- client_state.rs:143-172 `client_group_attach` on a known client with groups `gs`: the new groups, and whether they changed. -/
def attachGroup (gs : List Nat) (gssi : Nat) (attach : Bool) : List Nat × Bool :=
  if attach then (Config.Registry.setInsert gs gssi, !gs.contains gssi)
  else (Config.Registry.setRemove gs gssi, gs.contains gssi)

/-- The running values of the loop of `try_attach_detach_groups`. -/
structure Attaching where
  mm : Mm
  events : List MmOut
  accepted : List GroupDownlink
  aff : List Nat
  deaff : List Nat
  deriving DecidableEq, Repr

/-- lines 485-537: one entry. Entries with anything but a plain group number are passed over, and so are all entries of an
unknown client. -/
def Attaching.entry (issi : Nat) (a : Attaching) (x : GroupUplink) : Attaching :=
  match x.gssi with
  | none => a
  | some gssi =>
    if x.vgssi.isSome || x.addressExtension.isSome then a
    else match a.mm.clients.get issi with
      | none => a
      | some gs =>
        match x.detachment with
        | some d =>
          let r := attachGroup gs gssi false
          { mm := ⟨a.mm.clients.insert issi r.1, if r.2 then a.mm.registry.deaffiliate issi gssi else a.mm.registry⟩
            events := a.events
            accepted := a.accepted ++ [⟨none, some d, some gssi, none, none⟩]
            aff := a.aff
            deaff := if r.2 then a.deaff ++ [gssi] else a.deaff }
        | none =>
          let r := attachGroup gs gssi true
          { mm := ⟨a.mm.clients.insert issi r.1, if r.2 then a.mm.registry.affiliate issi gssi else a.mm.registry⟩
            events := a.events ++ [.telemetry (.groupAttach issi [gssi])]
            accepted := a.accepted ++ [⟨some ⟨1, x.classOfUsage.getD 0⟩, none, some gssi, none, none⟩]
            aff := if r.2 then a.aff ++ [gssi] else a.aff
            deaff := a.deaff }

/-- lines 474-549 `try_attach_detach_groups`: the client and registry after it, what is sent, and the accepted entries. -/
def Mm.attachDetach (c : Brew.Cfg) (s : Mm) (issi : Nat) (xs : List GroupUplink) : Mm × List MmOut × List GroupDownlink :=
  let a := xs.foldl (Attaching.entry issi) ⟨s, [], [], [], []⟩
  (a.mm, a.events ++ emitGroups c (.affiliate issi) a.aff ++ emitGroups c (.deaffiliate issi) a.deaff, a.accepted)

/-! ## Messages from mobiles -/

/-- `to_bitbuf(..).unwrap()`. -/
def unwrapOut : Out (List Bool) → Res (List Bool)
  | .ok bs => .ok bs
  | _ => .panic

/-- What a failed or successful parse leads to: `Err` is logged and the message dropped. -/
def onParsed {α β : Type} (s : β) (o : Out (α × List Bool)) (f : α → Res (β × List MmOut)) : Res (β × List MmOut) :=
  match o with
  | .ok (x, _) => f x
  | .err => .ok (s, [])
  | .panic => .panic

/-- lines 98-134 `rx_u_itsi_detach`; client_state.rs:113-123. -/
def Mm.itsiDetach (c : Brew.Cfg) (s : Mm) (issi : Nat) : Mm × List MmOut :=
  match s.clients.get issi with
  | some gs => (⟨s.clients.erase issi, s.registry.deregister issi⟩,
      .telemetry (.deregistration issi) :: (emitGroups c (.deaffiliate issi) gs ++ emit c (.deregister issi)))
  | none => (s, [])

/-- lines 604-622: what is required of a location update demand. Types 1 (migrating) and 7 (disabled MS) are not supported. -/
def ULocationUpdateDemand.supported (x : ULocationUpdateDemand) : Bool :=
  x.updateType ≠ 1 && x.updateType ≠ 7 && !x.appendLa && !x.cipherControl && x.cipheringParameters.isNone

/-- lines 553-591: the contents of the D-LOCATION UPDATE COMMAND. -/
def updateCommand : DLocationUpdateCommand := ⟨true, false, none, none, none, none⟩

/-- lines 213-230: the contents of the D-LOCATION UPDATE ACCEPT. -/
def updateAccept (updateType issi : Nat) (groups : Option LocationAccept) : DLocationUpdateAccept :=
  ⟨updateType, some issi, none, none, none, none, none, none, groups, none, none, none, none, none⟩

/-- lines 192-210: the accepted groups for the answer. -/
def Mm.demandGroups (c : Brew.Cfg) (s : Mm) (issi : Nat) : Option LocationDemand → Mm × List MmOut × Option LocationAccept
  | none => (s, [], none)
  | some d => match d.groups with
    | none => (s, [], some ⟨0, none⟩)
    | some xs =>
      let r := s.attachDetach c issi xs
      (r.1, r.2.1, some ⟨0, some r.2.2⟩)

/-- lines 266-271 and 553-591 `send_d_location_update_command`. -/
def sendCommand (wanted : Bool) (handle issi : Nat) : Res (List MmOut) :=
  if wanted then do
    let b ← unwrapOut updateCommand.enc
    .ok [.answer handle issi b]
  else .ok []

/-- lines 136-272 `rx_u_location_update_demand` after the parse. Type 3 is ITSI attach. -/
def Mm.locationUpdate (c : Brew.Cfg) (s : Mm) (handle issi : Nat) (x : ULocationUpdateDemand) : Res (Mm × List MmOut) :=
  if x.supported then do
    let isNew := !s.known issi
    let r := if isNew then s.addClient c issi else (s, [])
    let g := r.1.demandGroups c issi x.groupDemand
    let sdu ← unwrapOut (updateAccept x.updateType issi g.2.2).enc
    let cmd ← sendCommand (isNew && x.updateType ≠ 3) handle issi
    .ok (g.1, r.2 ++ g.2.1 ++ [.answer handle issi sdu] ++ cmd)
  else .ok (s, [])

/-- lines 274-329 `rx_u_mm_status` with components/not_supported.rs:6-45: every status is answered as not supported. -/
def Mm.status (s : Mm) (handle issi : Nat) (x : UMmStatus) : Res (Mm × List MmOut) := do
  let sdu ← unwrapOut (NotSupported.enc ⟨3, some (6, x.status)⟩)
  .ok (s, [.answer handle issi sdu])

/-- lines 353-397: mode one starts from no groups. -/
def Mm.startOver (c : Brew.Cfg) (s : Mm) (issi : Nat) : Mm × List MmOut :=
  match s.clients.get issi with
  | none => s.addClient c issi
  | some gs => (⟨s.clients.insert issi [], gs.foldl (fun r g => r.deaffiliate issi g) s.registry⟩,
      .telemetry (.groupDetach issi gs) :: emitGroups c (.deaffiliate issi) gs)

/-- lines 331-440 `rx_u_attach_detach_group_identity` after the parse. -/
def Mm.groupReport (c : Brew.Cfg) (s : Mm) (handle issi : Nat) (x : UAttachDetach) : Res (Mm × List MmOut) :=
  match x.groups with
  | none => .ok (s, [])
  | some xs => do
    let r := if x.mode then s.startOver c issi else (s, [])
    let g := r.1.attachDetach c issi xs
    let sdu ← unwrapOut (DAttachDetachAck.enc ⟨0, false, none, some g.2.2, none⟩)
    .ok (g.1, r.2 ++ g.2.1 ++ [.answer handle issi sdu])

/-- lines 442-472 `rx_lmm_mle_unitdata_ind`: the first four bits choose the handler; other types are logged or refused. -/
def Mm.rx (c : Brew.Cfg) (s : Mm) (handle issi : Nat) (bits : List Bool) : Res (Mm × List MmOut) :=
  if bits.length < 4 then .ok (s, [])
  else
    let t := ofBits (bits.take 4)
    if t = 1 then onParsed s (UItsiDetach.dec.run bits) fun _ => .ok (s.itsiDetach c issi)
    else if t = 2 then onParsed s (ULocationUpdateDemand.dec.run bits) fun x => s.locationUpdate c handle issi x
    else if t = 3 then onParsed s (UMmStatus.dec.run bits) fun x => s.status handle issi x
    else if t = 7 then onParsed s (UAttachDetach.dec.run bits) fun x => s.groupReport c handle issi x
    else .ok (s, [])

end Verif.Mm
