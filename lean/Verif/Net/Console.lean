import Verif.Net.Control
import Verif.Net.Digest
/-!
# The control console: model of bins/bluestation-control/src/main.rs

The program which listens for base stations and sends them the commands typed into it. Texts are lists of characters. What Argon2 and
Base64 do is given with the run (`Hashing`), and so is the environment: connections, what is typed, which messages can be sent. Each
client has an unbounded queue (crossbeam). Not modelled: TLS, the log, and the counter of clients running through all 2^32 numbers.
-/
namespace Verif.Net.Console
open Verif.Cmce (SendSds)
open Verif.Net.Digest (Str ws trim cutAt splitAt)

/-- `char::len_utf8`, the bytes of a character. -/
def charLen (c : Char) : Nat := c.utf8Size

/-- `split_once(char::is_whitespace)`, the first step of `splitn`. -/
def cutWs : Str → Option (Str × Str)
  | [] => none
  | c :: s => if ws c then some ([], s) else (cutWs s).map fun x => (c :: x.1, x.2)

/-- `splitn(n, char::is_whitespace)`. -/
def splitN : Nat → Str → List Str
  | 0, _ => []
  | 1, s => [s]
  | n + 2, s =>
    match cutWs s with
    | none => [s]
    | some (a, b) => a :: splitN (n + 1) b

/-- `char::to_digit`. -/
def digitOf (radix : Nat) (c : Char) : Option Nat :=
  let n := c.toNat
  let d := if 48 ≤ n ∧ n ≤ 57 then n - 48 else if 97 ≤ n ∧ n ≤ 122 then n - 87 else if 65 ≤ n ∧ n ≤ 90 then n - 55 else radix
  if d < radix then some d else none

/-- The digits of a number, most significant first, on top of what was read before. -/
def digits (radix : Nat) : Nat → Str → Option Nat
  | acc, [] => some acc
  | acc, c :: s => (digitOf radix c).bind fun d => digits radix (acc * radix + d) s

/-- One plus sign may stand in front of a number. -/
def stripPlus : Str → Str
  | '+' :: t => t
  | t => t

/-- `from_str_radix` of an unsigned type with values below `limit` (core::num); there must be a digit. (The code of the library stops as soon as a value is too large; the answer is the same.) -/
def parseUnsigned (radix limit : Nat) (s : Str) : Option Nat :=
  let body := stripPlus s
  if body = [] then none else (digits radix 0 body).filter (· < limit)

/-- main.rs:240, from the start of a character on: the next two bytes as a number. `none` inside is the `None` which ends `collect`.
A slice which ends inside a character panics. The number of bytes left is even. -/
def hexPairs : Str → Res (Option (List Nat))
  | [] => .ok (some [])
  | [c] => if charLen c = 2 then .ok none else .panic
  | a :: b :: s =>
    if charLen a = 1 then
      if charLen b = 1 then
        match parseUnsigned 16 256 [a, b] with
        | none => .ok none
        | some v => (hexPairs s).bind fun r => .ok (r.map (v :: ·))
      else .panic
    else if charLen a = 2 then .ok none
    else .panic

/-- main.rs:236. -/
def strip0x : Str → Str
  | '0' :: 'x' :: t => t
  | '0' :: 'X' :: t => t
  | t => t

/-- main.rs:233-241 `hex_decode`. -/
def hexDecode (s : Str) : Res (Option (List Nat)) :=
  let s := strip0x (s.filter fun c => !ws c)
  if (s.map charLen).sum % 2 ≠ 0 then .ok none else hexPairs s

/-- main.rs:183-231 `parse_sendsds`; `handle` is the one `next_handle` gives. -/
def parseSendSds (handle : Nat) (args : Str) : Res (Option SendSds) :=
  match splitN 4 args with
  | [a, b, c, d] =>
    match parseUnsigned 10 4294967296 a, parseUnsigned 10 4294967296 b with
    | some source, some dest =>
      if c = "true".toList ∨ c = "1".toList ∨ c = "false".toList ∨ c = "0".toList then
        (hexDecode (trim d)).bind fun
          | none => .ok none
          | some payload =>
            .ok (some ⟨handle, source, dest, decide (c = "true".toList ∨ c = "1".toList), payload.length * 8 % 65536, payload⟩)
      else .ok none
    | _, _ => .ok none
  | _ => .ok none

/-- main.rs:156-181 `parse_command`. -/
def parseCommand (handle : Nat) (line : Str) : Res (Option SendSds) :=
  match splitN 2 (trim line) with
  | [] => .ok none
  | verb :: rest =>
    if verb = "sendsds".toList then parseSendSds handle ((rest.headD []).dropWhile ws) else .ok none

/-! ## Who is told -/

/-- A connection: what waits in its queue, whether the handshake is done, what was sent to it. -/
structure Client where
  id : Nat
  queue : List SendSds
  open' : Bool
  sent : List SendSds
  deriving DecidableEq, Repr

/-- The console (main.rs:143-154, 290-293). `alive`: the thread reading what is typed still runs. `gone`: connections which ended. -/
structure Console where
  alive : Bool
  handle : Nat
  nextId : Nat
  clients : List Client
  gone : List Client
  deriving DecidableEq, Repr

def Console.start : Console := ⟨true, 1, 0, [], []⟩

inductive Ev where
  /-- A line is typed. -/
  | line (text : Str)
  /-- A connection is accepted (main.rs:320-333). -/
  | accept
  /-- The handshake of a client is done (main.rs:488-494). -/
  | opened (id : Nat)
  /-- The thread of a client takes a command from its queue and sends it (main.rs:500-507). -/
  | send (id : Nat)
  /-- The thread of a client ends (main.rs:353-354), for whatever reason. -/
  | ended (id : Nat)
  deriving DecidableEq, Repr

/-- main.rs:245-276, 320-361, 500-507. A panic ends the thread which reads what is typed, before it takes the lock. -/
def Console.step (s : Console) : Ev → Console
  | .line text =>
    if s.alive then
      match parseCommand s.handle text with
      | .ok none => s
      | .ok (some c) =>
        { s with handle := (s.handle + 1) % 4294967296, clients := s.clients.map fun x => { x with queue := x.queue ++ [c] } }
      | _ => { s with alive := false }
    else s
  | .accept => { s with nextId := s.nextId + 1, clients := s.clients ++ [⟨s.nextId, [], false, []⟩] }
  | .opened id => { s with clients := s.clients.map fun x => if x.id = id then { x with open' := true } else x }
  | .send id =>
    { s with clients := s.clients.map fun x =>
        if x.id = id ∧ x.open' then
          match x.queue with
          | [] => x
          | c :: r => { x with queue := r, sent := x.sent ++ [c] }
        else x }
  | .ended id =>
    { s with clients := s.clients.filter (·.id ≠ id), gone := s.gone ++ s.clients.filter (·.id = id) }

def Console.run (s : Console) (evs : List Ev) : Console := evs.foldl Console.step s

/-! ## Who is let in -/

/-- Argon2 and Base64: whether a text is a hash (`PasswordHash::new`), whether a password belongs to it (`verify_password`), the hash of
a password with a salt, and the text a Base64 text stands for (`decode`, then `from_utf8`). -/
structure Hashing where
  isHash : Str → Bool
  verify : Str → Str → Bool
  hash : Str → Str → Str
  decode : Str → Option Str

/-- One line of the file of credentials (main.rs:67-94): `none` ends the program, `some none` is a line without credentials. -/
def Hashing.readLine (H : Hashing) (line : Str) : Option (Option (Str × Str)) :=
  let line := trim line
  if line = [] ∨ line.head? = some '#' then some none
  else match cutAt ':' line with
    | none => none
    | some (u, h) => if H.isHash (trim h) then some (some (trim u, trim h)) else none

/-- main.rs:56-102 `load_auth_db` (bins/bluestation-telemetry/src/main.rs:56-102 is the same). The newest entry is first, and `get`
finds the first (`HashMap::insert` replaces). -/
def Hashing.load (H : Hashing) : List Str → List (Str × Str) → Option (List (Str × Str))
  | [], db => if db = [] then none else some db
  | l :: ls, db =>
    match H.readLine l with
    | none => none
    | some none => H.load ls db
    | some (some e) => H.load ls (e :: db)

/-- main.rs:104-141 `generate_credential`: the line printed for what is typed as name and password. -/
def Hashing.generate (H : Hashing) (salt user password : Str) : Option Str :=
  let user := trim user
  let password := trim password
  if user = [] ∨ ':' ∈ user then none
  else if password = [] then none
  else some (user ++ ':' :: H.hash salt password)

/-- `strip_prefix("Basic ")`. -/
def stripBasic : Str → Option Str
  | 'B' :: 'a' :: 's' :: 'i' :: 'c' :: ' ' :: e => some e
  | _ => none

/-- main.rs:403-451 `check_basic_auth` (telemetry: 261-287). `header` is the `Authorization` header, if it is there and is text. -/
def Hashing.check (H : Hashing) (db : Option (List (Str × Str))) (header : Option Str) : Bool :=
  match db with
  | none => true
  | some db =>
    match header.bind stripBasic with
    | none => false
    | some e =>
      match (H.decode e).bind (cutAt ':') with
      | none => false
      | some (user, password) =>
        match db.lookup user with
        | none => false
        | some h => H.isHash h && H.verify h password

/-- `CONTROL_PROTOCOL_VERSION` (net_control/mod.rs:20). -/
def protocol : Str := "bluestation-control-v1".toList

/-- The callback of the handshake (main.rs:454-486): the credentials, then the protocols offered. -/
def Hashing.letIn (H : Hashing) (db : Option (List (Str × Str))) (header proto : Option Str) : Bool :=
  H.check db header && (splitAt ',' (proto.getD [])).any fun p => trim p = protocol

end Verif.Net.Console
