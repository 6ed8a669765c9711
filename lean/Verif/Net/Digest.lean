import Verif.Common
/-!
# Logging in to a server: model of HTTP Digest authentication in `crates/tetra-entities/src/network/transports/websocket.rs`

Texts are lists of characters; `to_lowercase` is modelled for ASCII only (header names, schemes and parameter names are ASCII). MD5 in
hexadecimal is an arbitrary function `H`, the client nonce an arbitrary text. The network gives the first segment of the answer, since
the code reads once; connections which fail are left out, and errors are `none`.
-/
namespace Verif.Net.Digest

abbrev Str := List Char

/-- `char::is_whitespace`. -/
def ws (c : Char) : Bool :=
  let n := c.toNat
  (decide (9 ≤ n) && decide (n ≤ 13)) || n == 32 || n == 0x85 || n == 0xa0 || n == 0x1680 || (decide (0x2000 ≤ n) && decide (n ≤ 0x200a)) ||
    n == 0x2028 || n == 0x2029 || n == 0x202f || n == 0x205f || n == 0x3000

/-- `trim_matches`: drop characters from both ends. -/
def trimBy (p : Char → Bool) (s : Str) : Str := ((s.dropWhile p).reverse.dropWhile p).reverse

/-- `trim`. -/
def trim (s : Str) : Str := trimBy ws s

/-- `to_lowercase`, ASCII. -/
def lower (s : Str) : Str := s.map fun c => if 65 ≤ c.toNat ∧ c.toNat ≤ 90 then Char.ofNat (c.toNat + 32) else c

/-- `split` at a character. -/
def splitAt (sep : Char) : Str → List Str
  | [] => [[]]
  | c :: s => if c = sep then [] :: splitAt sep s else
    match splitAt sep s with
    | l :: ls => (c :: l) :: ls
    | [] => [[c]]

/-- `split("\r\n")`. -/
def splitLines : Str → List Str
  | [] => [[]]
  | '\r' :: '\n' :: s => [] :: splitLines s
  | c :: s =>
    match splitLines s with
    | l :: ls => (c :: l) :: ls
    | [] => [[c]]

/-- `contains`. -/
def contains (pat : Str) : Str → Bool
  | [] => pat.isEmpty
  | c :: s => pat.isPrefixOf (c :: s) || contains pat s

/-- `find`, giving what comes before and after the first `=`. -/
def cutAt (sep : Char) : Str → Option (Str × Str)
  | [] => none
  | c :: s => if c = sep then some ([], s) else (cutAt sep s).map fun x => (c :: x.1, x.2)

/-- One part of a challenge (lines 170-174). -/
def readPart (part : Str) : Option (Str × Str) :=
  (cutAt '=' (trim part)).map fun x => (lower (trim x.1), trimBy (· == '"') (trim x.2))

def digestSp : Str := "Digest ".toList

/-- `parse_digest_challenge` (lines 166-178): what was inserted, in order. -/
def parseChallenge (header : Str) : List (Str × Str) :=
  let s := if digestSp.isPrefixOf header then header.drop 7 else header
  (splitAt ',' s).filterMap readPart

/-- `HashMap::get`: a later insertion replaces an earlier one. -/
def get (key : Str) (ps : List (Str × Str)) : Option Str := (ps.reverse.find? fun p => p.1 == key).map (·.2)

def nc1 : Str := "00000001".toList
def auth : Str := "auth".toList

/-- A parameter in quotes, as the code writes it. -/
def quotedField (name value : Str) : Str := name ++ "=\"".toList ++ value ++ "\"".toList

def sepSp : Str := ", ".toList

/-- `build_digest_response` (lines 181-220), with the client nonce (lines 195-201) given. -/
def digestResponse (H : Str → Str) (cnonce : Str) (username password realm nonce qop uri method : Str) (opaque_ : Option Str) : Str :=
  let ha1 := H (username ++ ':' :: realm ++ ':' :: password)
  let ha2 := H (method ++ ':' :: uri)
  let response := if contains auth qop then H (ha1 ++ ':' :: nonce ++ ':' :: nc1 ++ ':' :: cnonce ++ ':' :: auth ++ ':' :: ha2)
    else H (ha1 ++ ':' :: nonce ++ ':' :: ha2)
  digestSp ++ quotedField "username".toList username ++ sepSp ++ quotedField "realm".toList realm ++ sepSp ++ quotedField "nonce".toList nonce ++ sepSp ++
    quotedField "uri".toList uri ++ sepSp ++ quotedField "response".toList response ++
    (if contains auth qop then sepSp ++ "qop=auth".toList ++ sepSp ++ "nc=".toList ++ nc1 ++ sepSp ++ quotedField "cnonce".toList cnonce else []) ++
    (match opaque_ with | some o => sepSp ++ quotedField "opaque".toList o | none => [])

/-- What the transport is configured with (lines 25-58). -/
structure Cfg where
  host : Str
  path : Str
  agent : Str
  username : Str
  password : Str
  deriving DecidableEq, Repr

def crlf : Str := "\r\n".toList

/-- The first request (lines 258-264). -/
def Cfg.request (c : Cfg) : Str :=
  "GET ".toList ++ c.path ++ " HTTP/1.1\r\n".toList ++ "Host: ".toList ++ c.host ++ crlf ++ "User-Agent: ".toList ++ c.agent ++ crlf ++ crlf

/-- The second request (lines 336-343). -/
def Cfg.authRequest (c : Cfg) (header : Str) : Str :=
  "GET ".toList ++ c.path ++ " HTTP/1.1\r\n".toList ++ "Host: ".toList ++ c.host ++ crlf ++ "User-Agent: ".toList ++ c.agent ++ crlf ++
    "Authorization: ".toList ++ header ++ crlf ++ crlf

/-- What follows the first empty line (line 374). -/
def afterBlank : Str → Option Str
  | [] => none
  | c :: s => if "\r\n\r\n".toList.isPrefixOf (c :: s) then some ((c :: s).drop 4) else afterBlank s

/-- `extract_endpoint` (lines 373-384). -/
def endpointOf (response : Str) : Option Str :=
  match afterBlank response with
  | none => none
  | some body =>
    let e := trim body
    if e.head? = some '/' then some e else none

def wwwAuth : Str := "www-authenticate".toList

/-- The header of the second request, from the first answer with status 401 (lines 297-329). -/
def authHeader (H : Str → Str) (cnonce : Str) (c : Cfg) (lines : List Str) : Option Str :=
  match lines.find? fun l => wwwAuth.isPrefixOf (lower l) with
  | none => none
  | some l =>
    match cutAt ':' l with
    | none => none
    | some x =>
      let challenge := trim x.2
      if "digest".toList.isPrefixOf (lower challenge) then
        let ps := parseChallenge challenge
        let val := fun (k : Str) => (get k ps).getD []
        some (digestResponse H cnonce c.username c.password (val "realm".toList) (val "nonce".toList) (val "qop".toList) c.path "GET".toList
          (get "opaque".toList ps))
      else none

/-- `authenticate` (lines 249-370): the endpoint, if it gets one. `net` gives what is read after a request; nothing read is an error
(lines 274-276, 353-355). -/
def authenticate (H : Str → Str) (cnonce : Str) (c : Cfg) (net : Str → Str) : Option Str :=
  let response := net c.request
  if response = [] then none
  else
    let lines := splitLines response
    let status := lines.headD []
    if contains "200".toList status then endpointOf response
    else if contains "401".toList status then
      match authHeader H cnonce c lines with
      | none => none
      | some header =>
        let response := net (c.authRequest header)
        if response = [] then none
        else if contains "200".toList ((splitLines response).headD []) then endpointOf response
        else none
    else none

end Verif.Net.Digest
