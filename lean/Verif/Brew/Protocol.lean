import Verif.Codec
/-!
# The messages on the backhaul link

Models crates/tetra-entities/src/net_brew/protocol.rs. Bytes are numbers below 256. An index or a slice outside the
message is an abort; `Err(BrewParseError)` is `Out.err`, without its text. A UUID is the number whose sixteen bytes, most
significant first, are the bytes of the UUID. The time a message is built at is an argument of its builder.

Not modelled: `build_query_subscribers` (no caller).
-/
namespace Verif.Brew
open Codec (Out)

/-- protocol.rs:90-102 `BrewCallPayload`, with 71-79 `BrewGroupTransmission`. -/
inductive CallPayload where
  | groupTx (source destination priority access service : Nat)
  | cause (c : Nat)
  | empty
  | shortTransfer (source destination : Nat)
  | raw (data : List Nat)
  deriving DecidableEq, Repr

/-- protocol.rs:51-59 `BrewMessage`, with 61-69, 81-87, 104-126 (the five structures in it). -/
inductive BrewMsg where
  | subscriber (type number time fraction : Nat) (groups : List Nat)
  | call (state uuid : Nat) (payload : CallPayload)
  | frame (type uuid lengthBits : Nat) (data : List Nat)
  | error (type : Nat) (data : List Nat)
  | service (type : Nat) (json : List Nat)
  deriving DecidableEq, Repr

/-! ## Reading -/

/-- `data[i]`. -/
def byteAt (data : List Nat) (i : Nat) : Out Nat :=
  match data[i]? with
  | some b => .ok b
  | none => .panic

/-- `&data[a..b]`. -/
def slice (data : List Nat) (a b : Nat) : Out (List Nat) :=
  if a ≤ b ∧ b ≤ data.length then .ok ((data.drop a).take (b - a)) else .panic

/-- protocol.rs:149-171 `read_u16_le`, `read_u32_le`, `read_u64_le`: `n` bytes, least significant first. -/
def readLe (data : List Nat) (off : Nat) : Nat → Out Nat
  | 0 => .ok 0
  | n + 1 => do
    let b ← byteAt data off
    let r ← readLe data (off + 1) n
    .ok (b + 256 * r)

/-- `Uuid::from_bytes`. -/
def uuidOf (bytes : List Nat) : Nat := bytes.foldl (fun n b => 256 * n + b) 0

/-- protocol.rs:217-223: the groups at the end of a subscriber message. -/
def readGroups (data : List Nat) (off : Nat) : Out (List Nat) :=
  if off + 4 ≤ data.length then do
    let g ← readLe data off 4
    let r ← readGroups data (off + 4)
    .ok (g :: r)
  else .ok []
termination_by data.length - off

/-- protocol.rs:207-232 `parse_subscriber`. -/
def parseSubscriber (type : Nat) (data : List Nat) : Out BrewMsg :=
  if data.length < 18 then .err
  else do
    let number ← readLe data 2 4
    let time ← readLe data 6 8
    let fraction ← readLe data 14 4
    let groups ← readGroups data 18
    .ok (.subscriber type number time fraction groups)

/-- protocol.rs:245-288: the payload of a call control message by call state. -/
def parsePayload (state : Nat) (p : List Nat) : Out CallPayload :=
  if state = 2 then
    if p.length < 12 then .err
    else do
      let source ← readLe p 0 4
      let destination ← readLe p 4 4
      let priority ← byteAt p 8
      let access ← byteAt p 9
      let service ← readLe p 10 2
      .ok (.groupTx source destination priority access service)
  else if state = 3 ∨ state = 6 ∨ state = 10 then
    if p.isEmpty then .err
    else do
      let c ← byteAt p 0
      .ok (.cause c)
  else if state = 5 ∨ state = 7 then .ok .empty
  else if state = 11 then
    if p.length < 8 then .err
    else do
      let source ← readLe p 0 4
      let destination ← readLe p 4 4
      .ok (.shortTransfer source destination)
  else .ok (.raw p)

/-- protocol.rs:234-295 `parse_call_control`. The conversion to `[u8; 16]` cannot fail on a slice of sixteen bytes. -/
def parseCall (state : Nat) (data : List Nat) : Out BrewMsg :=
  if data.length < 18 then .err
  else do
    let u ← slice data 2 18
    let rest ← slice data 18 data.length
    let p ← parsePayload state rest
    .ok (.call state (uuidOf u) p)

/-- protocol.rs:297-315 `parse_frame`. -/
def parseFrame (type : Nat) (data : List Nat) : Out BrewMsg :=
  if data.length < 20 then .err
  else do
    let u ← slice data 2 18
    let bits ← readLe data 18 2
    let d ← slice data 20 data.length
    .ok (.frame type (uuidOf u) bits d)

/-- protocol.rs:317-322 `parse_error`. -/
def parseError (type : Nat) (data : List Nat) : Out BrewMsg := do
  let d ← slice data 2 data.length
  .ok (.error type d)

/-- protocol.rs:324-335 `parse_service`. `utf8` stands for `std::str::from_utf8`: whether bytes are valid UTF-8. -/
def parseService (utf8 : List Nat → Bool) (type : Nat) (data : List Nat) : Out BrewMsg := do
  let j ← slice data 2 data.length
  let text ← slice j 0 ((j.findIdx? (· = 0)).getD j.length)
  if utf8 text then .ok (.service type text) else .err

/-- protocol.rs:188-205 `parse_brew_message`. -/
def parseBrew (utf8 : List Nat → Bool) (data : List Nat) : Out BrewMsg :=
  if data.length < 2 then .err
  else do
    let kind ← byteAt data 0
    let type ← byteAt data 1
    if kind = 0xf0 then parseSubscriber type data
    else if kind = 0xf1 then parseCall type data
    else if kind = 0xf2 then parseFrame type data
    else if kind = 0xf3 then parseError type data
    else if kind = 0xf4 then parseService utf8 type data
    else .err

/-! ## Building -/

/-- protocol.rs:173-186 `write_u16_le`, `write_u32_le`, `write_u64_le`: the bytes appended. -/
def leBytes : Nat → Nat → List Nat
  | 0, _ => []
  | n + 1, v => v % 256 :: leBytes n (v / 256)

/-- `Uuid::as_bytes`. -/
def uuidBytes (u : Nat) : List Nat := (leBytes 16 u).reverse

/-- `SystemTime::now` since the epoch: seconds and nanoseconds. -/
structure Clock where
  secs : Nat
  nanos : Nat
  deriving DecidableEq, Repr

/-- The first eighteen bytes of every subscriber message, e.g. protocol.rs:345-350. -/
def subHead (type issi : Nat) (now : Clock) : List Nat :=
  [0xf0, type] ++ leBytes 4 issi ++ leBytes 8 now.secs ++ leBytes 4 now.nanos

/-- protocol.rs:340-352 `build_subscriber_register`: the groups are not written. -/
def buildRegister (now : Clock) (issi : Nat) (_groups : List Nat) : List Nat := subHead 1 issi now
/-- protocol.rs:355-367 `build_subscriber_reregister`. -/
def buildReregister (now : Clock) (issi : Nat) : List Nat := subHead 2 issi now
/-- protocol.rs:370-385 `build_subscriber_affiliate`. -/
def buildAffiliate (now : Clock) (issi : Nat) (groups : List Nat) : List Nat := subHead 8 issi now ++ groups.flatMap (leBytes 4)
/-- protocol.rs:388-403 `build_subscriber_deaffiliate`. -/
def buildDeaffiliate (now : Clock) (issi : Nat) (groups : List Nat) : List Nat := subHead 9 issi now ++ groups.flatMap (leBytes 4)
/-- protocol.rs:406-418 `build_subscriber_deregister`. -/
def buildDeregister (now : Clock) (issi : Nat) : List Nat := subHead 0 issi now
/-- protocol.rs:422-434 `build_group_tx`. -/
def buildGroupTx (uuid source dest priority service : Nat) : List Nat :=
  [0xf1, 2] ++ uuidBytes uuid ++ leBytes 4 source ++ leBytes 4 dest ++ [priority, 0] ++ leBytes 2 service
/-- protocol.rs:439-448 `build_voice_frame`. -/
def buildVoice (uuid bits : Nat) (data : List Nat) : List Nat := [0xf2, 0] ++ uuidBytes uuid ++ leBytes 2 bits ++ data
/-- protocol.rs:451-458 `build_group_idle`. -/
def buildIdle (uuid cause : Nat) : List Nat := [0xf1, 3] ++ uuidBytes uuid ++ [cause]
/-- protocol.rs:461-472 `build_short_transfer`. -/
def buildShort (uuid source dest : Nat) : List Nat :=
  [0xf1, 11] ++ uuidBytes uuid ++ leBytes 4 source ++ leBytes 4 dest ++ List.replicate 32 0
/-- protocol.rs:475-484 `build_sds_frame`. -/
def buildSds (uuid bits : Nat) (data : List Nat) : List Nat := [0xf2, 1] ++ uuidBytes uuid ++ leBytes 2 bits ++ data
/-- protocol.rs:488-496 `build_sds_report`. -/
def buildReport (uuid status : Nat) : List Nat := [0xf2, 2] ++ uuidBytes uuid ++ leBytes 2 8 ++ [status]

end Verif.Brew
