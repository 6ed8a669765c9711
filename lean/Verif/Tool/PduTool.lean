import Verif.Umac.UmacTotal
/-!
# The PDU tool

Models bins/pdu-tool/src/main.rs and bins/pdu-tool/src/entities/umac.rs: a program which is given a string of bits, a
direction and a channel, and prints the PDU in it. What it prints is represented by values: the header, the part of the SDU
which is shown, and what is said about the end of the PDU and the next block.

Simplifications: the texts around the values and the dumps of the buffer are left out. After a header which cannot be read
the position of the buffer does not matter (nothing is read afterwards) and is left as it was.
-/
namespace Verif.Tool
open Verif.Bits Verif.Codec Verif.Umac

/-- The channels which can be named on the command line (main.rs:49-64). -/
inductive Chan where
  | schF | schHu | schHd | stch | bnch | bsch | aach
  deriving DecidableEq, Repr

/-- The `BitBuffer` made from the bits given (`from_bitstr`, bitbuffer.rs:77-90): its end is the end of the bits. -/
structure Win where
  bits : List Bool
  start : Nat
  pos : Nat
  deriving DecidableEq, Repr

/-- bitbuffer.rs:77-90. -/
def Win.of (bits : List Bool) : Win := ⟨bits, 0, 0⟩

/-- `get_len_remaining` (bitbuffer.rs:468-470). -/
def Win.left (w : Win) : Nat := w.bits.length - w.pos

/-- `get_len` (bitbuffer.rs:463-465). -/
def Win.len (w : Win) : Nat := w.bits.length - w.start

/-- `peek_bits_startoffset` (bitbuffer.rs:182-191), as bits. -/
def Win.peekStart (w : Win) (offset n : Nat) : Option (List Bool) :=
  if n > 64 ∨ w.start + offset + n > w.bits.length then none else some ((w.bits.drop (w.start + offset)).take n)

/-- `peek_bits` (bitbuffer.rs:165-177), as bits. -/
def Win.peek (w : Win) (n : Nat) : Option (List Bool) := w.peekStart (w.pos - w.start) n

/-- `read_bits` (bitbuffer.rs:194-198): nothing is skipped if there are too few bits, or more than 64 are asked for. -/
def Win.read (w : Win) (n : Nat) : Win := if (w.peek n).isSome then { w with pos := w.pos + n } else w

/-- `from_bitbuf` of a header: the header and the buffer behind it, or nothing. -/
def Win.header {α : Type} (w : Win) (p : Rd α) : Out (Option α × Win) :=
  match p.run (w.bits.drop w.pos) with
  | .ok (a, r) => .ok (some a, { w with pos := w.bits.length - r.length })
  | .err => .ok (none, w)
  | .panic => .panic

/-- A header which has been read. -/
inductive Hdr where
  | access (p : MacAccess) | data (p : MacData) | fragUl (p : MacFrag) | endUl (p : MacEndUl) | endHu (p : MacEndHu)
  | uBlck (p : MacUBlck) | uSignal (p : MacUSignal)
  | resource (p : MacResource) | fragDl (p : MacFrag) | endDl (p : MacEndDl) | dBlck (p : MacDBlck)
  | sync (p : MacSync) | sysinfo (p : MacSysinfo) | accessDefine (p : AccessDefine)
  deriving DecidableEq, Repr

/-- `LengthIndInfo` (umac.rs:26-37). -/
structure LenInfo where
  bits : Nat
  null : Bool
  frag : Bool
  stolen : Bool
  deriving DecidableEq, Repr

/-- `interpret_length_ind` (umac.rs:485-555). -/
def interpret (l remaining : Nat) : LenInfo :=
  if l = 0 then ⟨0, true, false, false⟩
  else if l = 1 then ⟨0, false, false, false⟩
  else if l ≤ 57 then ⟨min (l * 8) remaining, false, false, false⟩
  else if l ≤ 61 then ⟨0, false, false, false⟩
  else if l = 62 then ⟨remaining, false, false, true⟩
  else if l = 63 then ⟨remaining, false, true, false⟩
  else ⟨0, false, false, false⟩

/-- The loop of `count_fill_bits` (umac.rs:558-582); the last argument is `index + 1`. -/
def countFillFrom (w : Win) (len : Nat) : Nat → Nat
  | 0 => 0
  | k + 1 => match w.peekStart (w.start + k) 1 with
    | some [false] => countFillFrom w len k
    | some _ => len - k
    | none => 0

/-- `count_fill_bits` (umac.rs:558-582). -/
def countFill (w : Win) (len : Nat) : Nat := countFillFrom w len len

/-- What is said about the end of a PDU: its length, the length of its SDU, and the block said to follow. -/
structure Assoc where
  len : Nat
  sduLen : Nat
  next : Option (List Bool)
  deriving DecidableEq, Repr

/-- `apply_pdu_association` (umac.rs:584-666). -/
def associate (w : Win) (lengthInd : Option Nat) (fill : Bool) : Option Assoc :=
  match lengthInd with
  | none => none
  | some l =>
    let info := interpret l w.left
    if info.null || info.frag || info.stolen then none
    else
      let fillBits := if fill then countFill w info.bits else 0
      let after := w.bits.length - (w.start + info.bits)
      some ⟨info.bits, info.bits - fillBits,
        if 16 ≤ after then some ((w.bits.drop (w.start + (w.start + info.bits))).take after) else none⟩

/-- `print_sdu` (umac.rs:685-693): the number of bits said to be shown, the bits if they are shown, the buffer behind them. -/
def printSdu (w : Win) (n : Nat) : (Nat × Option (List Bool)) × Win := ((n, w.peek n), w.read n)

/-- A PDU as it is shown. -/
structure Shown where
  hdr : Hdr
  sdu : Option (Nat × Option (List Bool)) := none
  assoc : Option Assoc := none
  deriving DecidableEq, Repr

/-- What follows a header with a length (e.g. umac.rs:217-228): the SDU, then the end of the PDU. -/
def showSdu (h : Hdr) (w : Win) (lengthInd : Option Nat) (fill : Bool) : Shown × Win :=
  match lengthInd with
  | none => (⟨h, none, associate w none fill⟩, w)
  | some l =>
    let info := interpret l w.left
    if !info.null && !info.frag && !info.stolen && info.bits > 0 then
      let r := printSdu w (min info.bits w.left)
      (⟨h, some r.1, associate r.2 (some l) fill⟩, r.2)
    else (⟨h, none, associate w (some l) fill⟩, w)

/-- A parser of one PDU (umac.rs:211-479): the header read, if any, then `f`. -/
def parse {α : Type} (w : Win) (p : Rd α) (f : α → Win → Shown × Win) : Out (Option Shown × Win) :=
  match w.header p with
  | .ok (some a, w') => .ok (some (f a w').1, (f a w').2)
  | .ok (none, w') => .ok (none, w')
  | .err => .err
  | .panic => .panic

/-- A PDU of which only the header is shown. -/
def plain {α : Type} (c : α → Hdr) (a : α) (w : Win) : Shown × Win := (⟨c a, none, none⟩, w)

/-- `parse_mac_data`, `parse_mac_access`, `parse_mac_end_ul`, `parse_mac_end_hu`, `parse_mac_resource`, `parse_mac_end_dl`
(umac.rs:211-255, 275-319, 349-369, 384-403). -/
def parseAccess (w : Win) := parse w MacAccess.dec fun p w' => showSdu (.access p) w' p.lengthInd p.fillBits
def parseData (w : Win) := parse w MacData.dec fun p w' => showSdu (.data p) w' p.lengthInd p.fillBits
def parseEndUl (w : Win) := parse w MacEndUl.dec fun p w' => showSdu (.endUl p) w' p.lengthInd p.fillBits
def parseEndHu (w : Win) := parse w MacEndHu.dec fun p w' => showSdu (.endHu p) w' p.lengthInd p.fillBits
def parseResource (w : Win) := parse w MacResource.dec fun p w' => showSdu (.resource p) w' (some p.lengthInd) p.fillBits
def parseEndDl (w : Win) := parse w MacEndDl.dec fun p w' => showSdu (.endDl p) w' (some p.lengthInd) p.fillBits

/-- The result of looking at one PDU: what is shown and the buffer, or the end of the program (`return`). -/
abbrev Turn := Option (Option Shown × Win)

/-- A PDU parsed. -/
def turn (x : Out (Option Shown × Win)) : Out Turn :=
  match x with
  | .ok r => .ok (some r)
  | .err => .err
  | .panic => .panic

/-- One turn of the loop of `parse_ul` (umac.rs:50-122). -/
def turnUl (ch : Chan) (w : Win) : Out Turn :=
  match w.peek 3 with
  | some [a, b, c] =>
    match ch with
    | .schHu => if a then turn (parseEndHu w) else turn (parseAccess w)
    | .schF | .stch =>
      match a, b with
      | false, false => turn (parseData w)
      | false, true => if c then turn (parseEndUl w) else turn (parse w MacFrag.dec (plain .fragUl))
      | true, true =>
        if ch = .stch then turn (parse w MacUSignal.dec (plain .uSignal))
        else if c then .ok none else turn (parse w MacUBlck.dec (plain .uBlck))
      | true, false => .ok none
    | _ => .ok none
  | _ => .ok none

/-- `parse_broadcast` (umac.rs:422-442): the type is read two bits behind the position. -/
def parseBroadcast (w : Win) : Out (Option Shown × Win) :=
  match w.peekStart (w.pos - w.start + 2) 2 with
  | some [false, false] => parse w MacSysinfo.dec (plain .sysinfo)
  | some [false, true] => parse w AccessDefine.dec (plain .accessDefine)
  | _ => .ok (none, w)

/-- One turn of the loop of `parse_dl` (umac.rs:158-203). -/
def turnDl (w : Win) : Out Turn :=
  match w.peek 3 with
  | some [a, b, c] =>
    match a, b with
    | false, false => turn (parseResource w)
    | false, true => if c then turn (parseEndDl w) else turn (parse w MacFrag.dec (plain .fragDl))
    | true, false => turn (parseBroadcast w)
    | true, true => if c then .ok none else turn (parse w MacDBlck.dec (plain .dBlck))
  | _ => .ok none

/-- `check_continue` (umac.rs:668-683). -/
def goesOn (w : Win) (origStart : Nat) : Bool := w.start != origStart && decide (16 ≤ w.len)

/-- The loops of `parse_ul` and `parse_dl`. The first argument bounds the number of turns; a turn after which the loop goes on
would be the second (see `c100_one_pdu`). -/
def rounds (f : Win → Out Turn) : Nat → Win → Out (List Shown)
  | 0, _ => .ok []
  | n + 1, w => do
    match ← f w with
    | none => .ok []
    | some (s, w') =>
      if goesOn w' w.start then do
        let r ← rounds f n w'
        .ok (s.toList ++ r)
      else .ok s.toList

/-- `parse_ul` (umac.rs:43-125). -/
def parseUl (ch : Chan) (bits : List Bool) : Out (List Shown) := rounds (turnUl ch) (bits.length + 1) (Win.of bits)

/-- `parse_dl` (umac.rs:127-204): AACH is not parsed, BSCH is one SYNC PDU, all others but SCH/F and SCH/HD fail an `assert!`. -/
def parseDl (ch : Chan) (bits : List Bool) : Out (List Shown) :=
  match ch with
  | .aach => .ok []
  | .bsch => match parse (Win.of bits) MacSync.dec (plain .sync) with
    | .ok r => .ok r.1.toList
    | .err => .err
    | .panic => .panic
  | .schF | .schHd => rounds turnDl (bits.length + 1) (Win.of bits)
  | _ => .panic

end Verif.Tool
