import Verif.Mm.MmBs
import Verif.Cmce.CallMembers
/-!
# Mobility management: specification

What others can know from what mobility management sends them, and what the messages of a mobile ask for.
-/
namespace Verif.Mm
open Verif.Bits Verif.Codec Verif.TypedFields

/-! ## What the others know -/

/-- The updates call control, and the backhaul, receive. -/
def toCmce (out : List MmOut) : List Cmce.SubUpdate := out.filterMap fun o => match o with
  | .cmce u => some u
  | _ => none
def toBrew (out : List MmOut) : List Cmce.SubUpdate := out.filterMap fun o => match o with
  | .brew u => some u
  | _ => none
def toTelemetry (out : List MmOut) : List TelEvent := out.filterMap fun o => match o with
  | .telemetry e => some e
  | _ => none
/-- Messages to mobiles: handle, address and contents. -/
def answers (out : List MmOut) : List (Nat × Nat × List Bool) := out.filterMap fun o => match o with
  | .answer h i b => some (h, i, b)
  | _ => none

/-- Which stations are registered, from the updates alone. -/
def registeredAfter (t : Nat → Bool) : Cmce.SubUpdate → Nat → Bool
  | .register i => fun j => if j = i then true else t j
  | .deregister i => fun j => if j = i then false else t j
  | _ => t
def registered (us : List Cmce.SubUpdate) : Nat → Bool := us.foldl registeredAfter fun _ => false

/-- Which stations are registered, and which are attached to which group, from the telemetry alone; a deregistration counts
for all groups (net_telemetry/events.rs line 11). -/
def telRegisteredAfter (t : Nat → Bool) : TelEvent → Nat → Bool
  | .registration i => fun j => if j = i then true else t j
  | .deregistration i => fun j => if j = i then false else t j
  | _ => t
def telRegistered (es : List TelEvent) : Nat → Bool := es.foldl telRegisteredAfter fun _ => false
def telAttachedAfter (t : Nat → Nat → Bool) : TelEvent → Nat → Nat → Bool
  | .registration _ => t
  | .deregistration i => fun j g => if j = i then false else t j g
  | .groupAttach i gs => fun j g => if j = i ∧ g ∈ gs then true else t j g
  | .groupDetach i gs => fun j g => if j = i ∧ g ∈ gs then false else t j g
def telAttached (es : List TelEvent) : Nat → Nat → Bool := es.foldl telAttachedAfter fun _ _ => false

/-- What the backhaul is to hear of an update: nothing without a backhaul; else the update if its station is routable, or with
the routable groups only, if there are any. -/
def brewPart (c : Brew.Cfg) : Cmce.SubUpdate → List Cmce.SubUpdate
  | .register i => if Brew.issiRoutable c i then [.register i] else []
  | .deregister i => if Brew.issiRoutable c i then [.deregister i] else []
  | .affiliate i gs => if gs.filter (Brew.gssiRoutable c) = [] then [] else [.affiliate i (gs.filter (Brew.gssiRoutable c))]
  | .deaffiliate i gs => if gs.filter (Brew.gssiRoutable c) = [] then [] else [.deaffiliate i (gs.filter (Brew.gssiRoutable c))]

/-! ## What mobility management holds -/

def Mm.groups (s : Mm) (i : Nat) : List Nat := (s.clients.get i).getD []
def Mm.attached (s : Mm) (i g : Nat) : Bool := (s.groups i).contains g

/-! ## What a message asks for -/

/-- An entry naming a plain group: the group, and whether to attach to it. -/
def GroupUplink.word (x : GroupUplink) : Option (Nat × Bool) :=
  match x.gssi, x.vgssi, x.addressExtension with
  | some g, none, none => some (g, x.detachment.isNone)
  | _, _, _ => none

/-- How an entry naming a plain group is confirmed: a detachment as it was asked for; an attachment with lifetime one (to be
renewed after the next ITSI attach) and the class of usage asked for. -/
def acceptEntry (x : GroupUplink) (g : Nat) : GroupDownlink :=
  match x.detachment with
  | some d => ⟨none, some d, some g, none, none⟩
  | none => ⟨some ⟨1, x.classOfUsage.getD 0⟩, none, some g, none, none⟩

/-- The confirmations of a list of entries: of those naming a plain group, in order. -/
def confirm (xs : List GroupUplink) : List GroupDownlink := xs.filterMap fun x => x.word.map fun w => acceptEntry x w.1

/-- The last entry about a group decides; without one the group keeps its state. -/
def afterWords (before : Bool) : List (Nat × Bool) → Nat → Bool
  | [], _ => before
  | (h, b) :: ws, g => afterWords (if h = g then b else before) ws g

/-- The group entries of a message. -/
def demandEntries : Option LocationDemand → List GroupUplink
  | some ⟨_, some xs⟩ => xs
  | _ => []

/-- No group is first detached and later attached by the same message. -/
def NoReattach (xs : List GroupUplink) : Prop :=
  ∀ g, ¬ List.Sublist [(g, false), (g, true)] (xs.filterMap GroupUplink.word)

/-- The group entries in a message as received, if it is one of the two messages with such entries. -/
def entriesOf (bits : List Bool) : List GroupUplink :=
  if ofBits (bits.take 4) = 2 then
    match ULocationUpdateDemand.dec.run bits with
    | .ok (x, _) => demandEntries x.groupDemand
    | _ => []
  else if ofBits (bits.take 4) = 7 then
    match UAttachDetach.dec.run bits with
    | .ok (x, _) => x.groups.getD []
    | _ => []
  else []

/-- The kinds of location update the station serves: no migrating (1) and no disabled mobile (7), no forward registration
(append LA), no encryption. -/
def ULocationUpdateDemand.Acceptable (x : ULocationUpdateDemand) : Prop :=
  x.updateType ∉ [1, 7] ∧ x.appendLa = false ∧ x.cipherControl = false ∧ x.cipheringParameters = none

theorem ULocationUpdateDemand.supported_iff (x : ULocationUpdateDemand) : x.supported = true ↔ x.Acceptable := by
  obtain ⟨ut, la, cc, cp, _⟩ := x
  simp [ULocationUpdateDemand.supported, ULocationUpdateDemand.Acceptable, and_assoc]

/-! ## Histories -/

/-- A message from a mobile: handle, sender and contents. -/
structure MmIn where
  handle : Nat
  issi : Nat
  bits : List Bool
  deriving DecidableEq, Repr

/-- Mobility management after a history of messages, with what it sent on each, oldest first. -/
inductive MmRun (c : Brew.Cfg) : List (MmIn × List MmOut) → Mm → Prop
  | start : MmRun c [] Mm.new
  | step {h : List (MmIn × List MmOut)} {s s' : Mm} {m : MmIn} {out : List MmOut} :
      MmRun c h s → s.rx c m.handle m.issi m.bits = .ok (s', out) → MmRun c (h ++ [(m, out)]) s'

/-- Everything sent during a history. -/
def sent (h : List (MmIn × List MmOut)) : List MmOut := h.flatMap Prod.snd

end Verif.Mm
