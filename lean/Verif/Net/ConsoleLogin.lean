import Verif.Net.ConsoleAuth
/-!
# C107 — A base station gets into the console with the name and password of its configuration

What the base station sends when it connects, and what the console makes of it (C103).
-/
namespace Verif.Net.Console
open Verif.Net.Digest (Str ws trim cutAt splitAt cutAt_append)

/-- The `Authorization` header of the request (network/transports/websocket.rs:428-431); `encode` is Base64 (`STANDARD.encode`). -/
def baseHeader (encode : Str → Str) (credentials : Option (Str × Str)) : Option Str :=
  credentials.map fun c => "Basic ".toList ++ encode (c.1 ++ ':' :: c.2)

/-- The `Sec-WebSocket-Protocol` header (websocket.rs:424-426; bins/bluestation-bs/src/main.rs:96, `CONTROL_PROTOCOL_VERSION`). -/
def baseProtocol : Option Str := some protocol

/-- A base station with these credentials comes to a console with this file of passwords. -/
def Hashing.baseLogsIn (H : Hashing) (encode : Str → Str) (db : Option (List (Str × Str))) (credentials : Option (Str × Str)) : Bool :=
  H.letIn db (baseHeader encode credentials) baseProtocol

/-! ## Lemmas -/

theorem split_unique {a b c d : Str} {x : Char} (ha : x ∉ a) (hc : x ∉ c) (h : a ++ x :: b = c ++ x :: d) : a = c ∧ b = d := by
  have e : cutAt x (a ++ x :: b) = cutAt x (c ++ x :: d) := by rw [h]
  rw [cutAt_append ha, cutAt_append hc] at e
  simpa using e

theorem offers_protocol : ∃ offers, baseProtocol = some offers ∧ ∃ p ∈ splitAt ',' offers, trim p = "bluestation-control-v1".toList :=
  ⟨_, rfl, protocol, by decide +kernel, by decide +kernel⟩

/-! ## C107 -/

/-- **C107**: a base station whose name has no colon is let in exactly if the password of its configuration belongs to the hash on the last
line of the file for its name. -/
theorem c107_exact_partial (H : Hashing) (encode : Str → Str) (hd : ∀ t, H.decode (encode t) = some t) (lines : List Str)
    (db : List (Str × Str)) (hl : H.load lines [] = some db) (user password : Str) (hu : ':' ∉ user) :
    H.baseLogsIn encode (some db) (some (user, password)) = true ↔ ∃ hash, HasHash lines user hash ∧ H.verify hash password = true := by
  unfold Hashing.baseLogsIn
  rw [c103_exact H lines db hl]
  constructor
  · rintro ⟨⟨text, u, p, hash, h1, h2, h3, h4, h5⟩, _⟩
    simp only [baseHeader, Option.map_some, Option.some.injEq] at h1
    rw [← List.append_cancel_left h1, hd, Option.some.injEq] at h2
    obtain ⟨rfl, rfl⟩ := split_unique hu h3 h2
    exact ⟨hash, h4, h5⟩
  · rintro ⟨hash, h4, h5⟩
    exact ⟨⟨encode (user ++ ':' :: password), user, password, hash, rfl, hd _, hu, h4, h5⟩, offers_protocol⟩

/-- **C107, no credentials**: with a file of passwords a base station without credentials is not let in; without a file every base station
is. -/
theorem c107_none (H : Hashing) (encode : Str → Str) (db : List (Str × Str)) (credentials : Option (Str × Str)) :
    H.baseLogsIn encode (some db) none = false ∧ H.baseLogsIn encode none credentials = true := by
  have : ((splitAt ',' protocol).any fun p => trim p = protocol) = true := by decide +kernel
  refine ⟨rfl, ?_⟩
  simp only [Hashing.baseLogsIn, Hashing.letIn, Hashing.check, baseProtocol, Option.getD_some, this, Bool.and_self]

/-- **C107, from the program which makes credentials to the console**: the line it prints for a name and a password, put anywhere in a file
with no later line for this name, lets in the base station which has this name and password in its configuration. Blanks at the ends of
name and password are left out (in the configuration, too: see `c103_blank_password`); the name does not begin with `#`. -/
theorem c107_made_partial (H : Hashing) (encode : Str → Str) (hd : ∀ t, H.decode (encode t) = some t)
    (hv : ∀ salt p, H.verify (H.hash salt p) p = true) (salt user password line : Str) (hg : H.generate salt user password = some line)
    (ht : trim (H.hash salt (trim password)) = H.hash salt (trim password)) (h0 : H.hash salt (trim password) ≠ [])
    (hn : (trim user).head? ≠ some '#') (before after : List Str) (ha : ∀ l ∈ after, ∀ h, ¬ Gives l (trim user) h)
    (db : List (Str × Str)) (hl : H.load (before ++ line :: after) [] = some db) :
    H.baseLogsIn encode (some db) (some (trim user, trim password)) = true := by
  have hu : ':' ∉ trim user := by
    intro hc
    unfold Hashing.generate at hg
    simp only [hc, or_true, if_true] at hg
    cases hg
  rw [c107_exact_partial H encode hd _ db hl _ _ hu]
  exact ⟨_, ⟨before, line, after, rfl, c103_generated_partial H salt user password line hg ht h0 hn, ha⟩, hv salt _⟩

/-- **C107 finding: a colon in the name.** The configuration takes any name. One with a colon is split at the colon: the base station is
taken for another one, with a password nobody chose. It is let in exactly if that password fits, and never by the password of its
configuration alone. -/
theorem c107_colon (H : Hashing) (encode : Str → Str) (hd : ∀ t, H.decode (encode t) = some t) (lines : List Str)
    (db : List (Str × Str)) (hl : H.load lines [] = some db) (first second password : Str) (hu : ':' ∉ first) :
    H.baseLogsIn encode (some db) (some (first ++ ':' :: second, password)) =
      H.baseLogsIn encode (some db) (some (first, second ++ ':' :: password)) ∧
    (H.baseLogsIn encode (some db) (some (first ++ ':' :: second, password)) = true ↔
      ∃ hash, HasHash lines first hash ∧ H.verify hash (second ++ ':' :: password) = true) := by
  have e : H.baseLogsIn encode (some db) (some (first ++ ':' :: second, password)) =
      H.baseLogsIn encode (some db) (some (first, second ++ ':' :: password)) := by
    simp only [Hashing.baseLogsIn, baseHeader, Option.map_some, List.append_assoc, List.cons_append]
  exact ⟨e, by rw [e]; exact c107_exact_partial H encode hd lines db hl first _ hu⟩

/-- The toy hash of C103 meets the conditions; a base station gets in, one with another password does not. -/
example : (∀ t, toy.decode (id t) = some t) ∧ (∀ salt p, toy.verify (toy.hash salt p) p = true) ∧
    toy.generate [] "bob ".toList "a:b".toList = some "bob:$a:b".toList ∧
    ∃ db, toy.load ["eve:$x".toList, "bob:$a:b".toList] [] = some db ∧
      toy.baseLogsIn id (some db) (some ("bob".toList, "a:b".toList)) = true ∧
      toy.baseLogsIn id (some db) (some ("bob".toList, "ab".toList)) = false ∧
      toy.baseLogsIn id (some db) (some ("bob:a".toList, "b".toList)) = true := by
  refine ⟨fun t => rfl, fun _ p => ?_, by decide +kernel, _, rfl, ?_, ?_, ?_⟩
  · simp [toy]
  all_goals decide +kernel

end Verif.Net.Console
