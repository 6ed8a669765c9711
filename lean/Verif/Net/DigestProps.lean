import Verif.Net.Digest
/-!
# C80: a base station with the right password gets in, and only then

The property: a server which asks for Digest authentication (RFC 7616 with MD5) lets the base station in if the password configured is
the one the server knows, and tells it where to connect; the password itself is not sent.

The specification is a server: it writes its challenge with parameters in any order, quoted or not, and reads the answer by the grammar of
the RFC. `c80_logs_in_partial`: for every such server whose values have no comma, quote or backslash, and whose answers arrive in one
piece, the base station gets the endpoint. `c80_wrong_password`: with another password it does not, if the hash tells them apart.
`c80_password_hidden`: the password enters only by the hash of the RFC.

Without the conditions the property is false: a comma in the realm (`c80_comma`), the scheme in small letters (`c80_scheme_case`), an
answer in two segments (`c80_split`, where the base station takes half of the path for the path).
-/
namespace Verif.Net.Digest

/-! ## Specification: a server -/

/-- Characters of a token (RFC 9110). -/
def tokenChar (c : Char) : Bool :=
  let n := c.toNat
  (decide (48 ≤ n) && decide (n ≤ 57)) || (decide (65 ≤ n) && decide (n ≤ 90)) || (decide (97 ≤ n) && decide (n ≤ 122)) ||
    n == 33 || (decide (35 ≤ n) && decide (n ≤ 39)) || n == 42 || n == 43 || n == 45 || n == 46 || n == 94 || n == 95 || n == 96 || n == 124 ||
    n == 126

/-- Optional white space. -/
def ows (c : Char) : Bool := c == ' ' || c == '\t'

/-- The rest of a quoted string: its content, and what follows. -/
def rfcQuoted : Str → Option (Str × Str)
  | [] => none
  | '"' :: s => some ([], s)
  | '\\' :: c :: s => (rfcQuoted s).map fun x => (c :: x.1, x.2)
  | c :: s => (rfcQuoted s).map fun x => (c :: x.1, x.2)

/-- `token "=" ( token / quoted-string )`. -/
def rfcParam (s : Str) : Option ((Str × Str) × Str) :=
  let name := s.takeWhile tokenChar
  match s.dropWhile tokenChar with
  | '=' :: '"' :: r => (rfcQuoted r).map fun x => ((lower name, x.1), x.2)
  | '=' :: r => some ((lower name, r.takeWhile tokenChar), r.dropWhile tokenChar)
  | _ => none

/-- A list of parameters with commas. -/
def rfcParams : Nat → Str → Option (List (Str × Str))
  | 0, _ => none
  | n + 1, s =>
    match rfcParam s with
    | none => none
    | some (p, r) =>
      match r.dropWhile ows with
      | [] => some [p]
      | ',' :: r => (rfcParams n (r.dropWhile ows)).map (p :: ·)
      | _ => none

/-- A parameter of a challenge: white space before it, its name, and its value with or without quotes. -/
structure Param where
  pre : Str
  name : Str
  value : Str
  quoted : Bool
  deriving DecidableEq, Repr

def Param.text (p : Param) : Str := p.pre ++ p.name ++ '=' :: (if p.quoted then '"' :: p.value ++ ['"'] else p.value)

/-- The parameters, with commas between them. -/
def paramsText : List Param → Str
  | [] => []
  | [p] => p.text
  | p :: ps => p.text ++ ',' :: paramsText ps

def lookup (key : Str) (fs : List (Str × Str)) : Option Str := (fs.find? fun f => f.1 == key).map (·.2)

/-- The value of a parameter; names do not depend on case. -/
def Param.value? (key : Str) (ps : List Param) : Option Str := lookup key (ps.map fun p => (lower p.name, p.value))

/-- A server. -/
structure Server where
  /-- the scheme as it writes it -/
  scheme : Str
  params : List Param
  /-- the name of the header of the challenge as it writes it, white space after the colon, and other headers before and after -/
  header : Str
  gap : Str
  before : List Str
  after : List Str
  /-- the page which comes with the challenge -/
  page : Str
  password : Str → Option Str
  okHeaders : List Str
  endpoint : Str

def joinLines (ls : List Str) : Str := ls.flatMap fun l => l ++ crlf

def Server.challengeLine (s : Server) : Str := s.header ++ ':' :: s.gap ++ s.scheme ++ ' ' :: paramsText s.params

def Server.challenge (s : Server) : Str :=
  joinLines ("HTTP/1.1 401 Unauthorized".toList :: s.before ++ s.challengeLine :: s.after) ++ crlf ++ s.page

def Server.success (s : Server) : Str := joinLines ("HTTP/1.1 200 OK".toList :: s.okHeaders) ++ crlf ++ s.endpoint

/-- The response of RFC 7616, section 3.4.1, with MD5 and `qop` "auth", or without `qop` (RFC 2069). -/
def rfcResponse (H : Str → Str) (user realm password nonce method uri : Str) : Option (Str × Str) → Str
  | some (nc, cnonce) => H (H (user ++ ':' :: realm ++ ':' :: password) ++ ':' :: nonce ++ ':' :: nc ++ ':' :: cnonce ++ ':' ::
      "auth".toList ++ ':' :: H (method ++ ':' :: uri))
  | none => H (H (user ++ ':' :: realm ++ ':' :: password) ++ ':' :: nonce ++ ':' :: H (method ++ ':' :: uri))

/-- Whether the fields of an `Authorization` header let somebody in. The nonce is new, so that the request is the first with it (RFC 7616,
section 3.4: `nc` is 00000001). -/
def Server.check (H : Str → Str) (s : Server) (uri : Str) (fs : List (Str × Str)) : Bool :=
  match lookup "username".toList fs with
  | none => false
  | some user =>
    match s.password user with
    | none => false
    | some password =>
      lookup "realm".toList fs == Param.value? "realm".toList s.params &&
      lookup "nonce".toList fs == Param.value? "nonce".toList s.params &&
      lookup "opaque".toList fs == Param.value? "opaque".toList s.params &&
      lookup "uri".toList fs == some uri &&
      (match Param.value? "qop".toList s.params with
       | none =>
         lookup "response".toList fs == some (rfcResponse H user ((Param.value? "realm".toList s.params).getD [])
           password ((Param.value? "nonce".toList s.params).getD []) "GET".toList uri none)
       | some _ =>
         lookup "qop".toList fs == some "auth".toList &&
         (match lookup "nc".toList fs, lookup "cnonce".toList fs with
          | some nc, some cnonce =>
            nc == "00000001".toList &&
            lookup "response".toList fs == some (rfcResponse H user ((Param.value? "realm".toList s.params).getD [])
              password ((Param.value? "nonce".toList s.params).getD []) "GET".toList uri (some (nc, cnonce)))
          | _, _ => false))

/-- The target of a request. -/
def targetOf (request : Str) : Str := (request.drop 4).takeWhile (· != ' ')

def authPrefix : Str := "Authorization: Digest ".toList

/-- What a server answers. -/
def Server.answer (H : Str → Str) (s : Server) (request : Str) : Str :=
  match (splitLines request).find? fun l => authPrefix.isPrefixOf l with
  | none => s.challenge
  | some l =>
    match rfcParams l.length (l.drop authPrefix.length) with
    | none => s.challenge
    | some fs => if s.check H (targetOf request) fs then s.success else s.challenge

/-! ### Well-formed servers and configurations -/

/-- Characters which do not end a quoted string, a line or a part. -/
def plain (c : Char) : Bool := c != '"' && c != '\\' && c != '\r' && c != ','

def Param.Ok (p : Param) : Prop :=
  p.pre.all ows = true ∧ p.name ≠ [] ∧ p.name.all tokenChar = true ∧ p.value.all plain = true ∧
  (p.quoted = false → p.value ≠ [] ∧ p.value.all tokenChar = true)

instance (p : Param) : Decidable p.Ok := by unfold Param.Ok; infer_instance

structure Server.Ok (s : Server) : Prop where
  scheme : s.scheme = "Digest".toList
  params : ∀ p ∈ s.params, p.Ok
  names : (s.params.map fun p => lower p.name).Nodup
  realm : ∃ v, Param.value? "realm".toList s.params = some v
  nonce : ∃ v, Param.value? "nonce".toList s.params = some v
  qop : ∀ v, Param.value? "qop".toList s.params = some v → v = "auth".toList
  header : lower s.header = wwwAuth
  gap : s.gap.all ows = true
  before : ∀ l ∈ s.before, '\r' ∉ l ∧ wwwAuth.isPrefixOf (lower l) = false
  okHeaders : ∀ l ∈ s.okHeaders, '\r' ∉ l ∧ l ≠ []
  endpoint : s.endpoint.head? = some '/' ∧ trim s.endpoint = s.endpoint

structure Cfg.Ok (c : Cfg) : Prop where
  host : '\r' ∉ c.host
  agent : '\r' ∉ c.agent
  path : ∀ x ∈ c.path, x ≠ ' ' ∧ x ≠ '\r' ∧ x ≠ '"' ∧ x ≠ '\\'
  username : ∀ x ∈ c.username, x ≠ '\r' ∧ x ≠ '"' ∧ x ≠ '\\'

/-- Texts such as hexadecimal numbers. -/
def Tame (s : Str) : Prop := ∀ x ∈ s, x ≠ '\r' ∧ x ≠ '"' ∧ x ≠ '\\'

/-! ## Texts -/

theorem tokenChar_ws {c : Char} (h : tokenChar c = true) : ws c = false := by
  simp only [tokenChar, ws, Bool.or_eq_true, Bool.and_eq_true, decide_eq_true_eq, beq_iff_eq, Bool.or_eq_false_iff, Bool.and_eq_false_imp,
    decide_eq_false_iff_not, beq_eq_false_iff_ne] at *
  refine ⟨⟨⟨⟨⟨⟨⟨⟨⟨⟨?_, ?_⟩, ?_⟩, ?_⟩, ?_⟩, ?_⟩, ?_⟩, ?_⟩, ?_⟩, ?_⟩, ?_⟩ <;> first | (intro _; omega) | omega

theorem tokenChar_ne {c d : Char} (h : tokenChar c = true) (hd : tokenChar d = false) : c ≠ d := by
  rintro rfl; rw [h] at hd; cases hd

theorem ows_ws {c : Char} (h : ows c = true) : ws c = true := by
  simp only [ows, Bool.or_eq_true, beq_iff_eq] at h
  rcases h with rfl | rfl <;> decide

theorem dropWhile_all {p : Char → Bool} {a b : Str} (h : ∀ c ∈ a, p c = true) : (a ++ b).dropWhile p = b.dropWhile p := by
  induction a with
  | nil => rfl
  | cons c a ih =>
    simp only [List.cons_append, List.dropWhile_cons, h c List.mem_cons_self, if_true]
    exact ih fun d hd => h d (List.mem_cons_of_mem _ hd)

theorem dropWhile_head {p : Char → Bool} {s : Str} (h : ∀ c, s.head? = some c → p c = false) : s.dropWhile p = s := by
  cases s with
  | nil => rfl
  | cons c s => simp [h c rfl]

theorem trimBy_core {p : Char → Bool} {a core b : Str} (ha : ∀ c ∈ a, p c = true) (hb : ∀ c ∈ b, p c = true)
    (h1 : ∀ c, core.head? = some c → p c = false) (h2 : ∀ c, core.getLast? = some c → p c = false) :
    trimBy p (a ++ core ++ b) = core := by
  unfold trimBy
  rw [List.append_assoc, dropWhile_all ha]
  cases core with
  | nil =>
    simp only [List.nil_append]
    have : b.dropWhile p = [] := by have := dropWhile_all (b := []) hb; simpa using this
    rw [this]; rfl
  | cons c core =>
    rw [List.cons_append, List.dropWhile_cons, h1 c rfl]
    simp only [Bool.false_eq_true, if_false]
    rw [← List.cons_append, List.reverse_append, dropWhile_all (by simpa using hb), dropWhile_head, List.reverse_reverse]
    intro d hd
    exact h2 d (by rw [← List.head?_reverse]; exact hd)

theorem cutAt_append {sep : Char} {a b : Str} (h : sep ∉ a) : cutAt sep (a ++ sep :: b) = some (a, b) := by
  induction a with
  | nil => simp [cutAt]
  | cons c a ih =>
    simp only [List.mem_cons, not_or] at h
    simp only [List.cons_append, cutAt, if_neg (fun hc => h.1 (Eq.symm hc) : ¬ c = sep), ih h.2]; rfl

theorem splitAt_append {sep : Char} {a b : Str} (h : sep ∉ a) : splitAt sep (a ++ sep :: b) = a :: splitAt sep b := by
  induction a with
  | nil => simp [splitAt]
  | cons c a ih =>
    simp only [List.mem_cons, not_or] at h
    simp only [List.cons_append, splitAt, if_neg (fun hc => h.1 (Eq.symm hc) : ¬ c = sep), ih h.2]

theorem splitAt_none {sep : Char} {a : Str} (h : sep ∉ a) : splitAt sep a = [a] := by
  induction a with
  | nil => rfl
  | cons c a ih =>
    simp only [List.mem_cons, not_or] at h
    simp only [splitAt, if_neg (fun hc => h.1 (Eq.symm hc) : ¬ c = sep), ih h.2]

theorem splitLines_append {a b : Str} (h : '\r' ∉ a) : splitLines (a ++ '\r' :: '\n' :: b) = a :: splitLines b := by
  induction a with
  | nil => simp [splitLines]
  | cons c a ih =>
    simp only [List.mem_cons, not_or] at h
    rw [List.cons_append, splitLines, ih h.2]
    rintro _ rfl; exact absurd rfl h.1

theorem splitLines_joined {ls : List Str} (h : ∀ l ∈ ls, '\r' ∉ l) (b : Str) : splitLines (joinLines ls ++ b) = ls ++ splitLines b := by
  induction ls with
  | nil => rfl
  | cons l ls ih =>
    have : joinLines (l :: ls) ++ b = l ++ '\r' :: '\n' :: (joinLines ls ++ b) := by
      simp [joinLines, crlf]
    rw [this, splitLines_append (h l List.mem_cons_self), ih fun x hx => h x (List.mem_cons_of_mem _ hx)]; rfl

/-! ## Reading the challenge -/

theorem all_mem {p : Char → Bool} {s : Str} (h : s.all p = true) : ∀ c ∈ s, p c = true := by simpa using h

theorem token_edges {s : Str} (h : s.all tokenChar = true) :
    (∀ c, s.head? = some c → ws c = false) ∧ (∀ c, s.getLast? = some c → ws c = false) :=
  ⟨fun _ hc => tokenChar_ws (all_mem h _ (List.mem_of_mem_head? hc)), fun _ hc => tokenChar_ws (all_mem h _ (List.mem_of_getLast? hc))⟩

theorem trim_of_edges {s : Str} (h1 : ∀ c, s.head? = some c → ws c = false) (h2 : ∀ c, s.getLast? = some c → ws c = false) :
    trim s = s := by
  have := trimBy_core (p := ws) (a := []) (b := []) (core := s) (by simp) (by simp) h1 h2
  simpa [trim] using this

/-- The value as written. -/
def Param.raw (p : Param) : Str := if p.quoted then '"' :: p.value ++ ['"'] else p.value

theorem Param.raw_edges {p : Param} (h : p.Ok) : p.raw ≠ [] ∧ (∀ c, p.raw.head? = some c → ws c = false) ∧
    (∀ c, p.raw.getLast? = some c → ws c = false) := by
  obtain ⟨_, _, _, _, h5⟩ := h
  unfold Param.raw
  cases hq : p.quoted with
  | true =>
    simp only [if_true]
    refine ⟨by simp, ?_, ?_⟩
    · intro c hc; simp at hc; subst hc; decide
    · intro c hc
      rw [List.getLast?_concat] at hc
      cases hc; decide
  | false =>
    simp only [Bool.false_eq_true, if_false]
    exact ⟨(h5 hq).1, token_edges (h5 hq).2⟩

theorem Param.text_eq (p : Param) : p.text = p.pre ++ (p.name ++ '=' :: p.raw) := by
  simp [Param.text, Param.raw]

theorem Param.core_edges {p : Param} (h : p.Ok) : (∀ c, (p.name ++ '=' :: p.raw).head? = some c → ws c = false) ∧
    (∀ c, (p.name ++ '=' :: p.raw).getLast? = some c → ws c = false) := by
  have hr := Param.raw_edges h
  obtain ⟨_, h2, h3, _, _⟩ := h
  constructor
  · intro c hc
    obtain ⟨d, ds, hd⟩ := List.exists_cons_of_ne_nil h2
    rw [hd] at hc h3
    simp at hc; subst hc
    exact tokenChar_ws (all_mem h3 _ List.mem_cons_self)
  · intro c hc
    rw [List.getLast?_append] at hc
    obtain ⟨d, ds, hd⟩ := List.exists_cons_of_ne_nil hr.1
    have h7 : ('=' :: p.raw).getLast? = p.raw.getLast? := by rw [hd]; rfl
    rw [h7] at hc
    apply hr.2.2 c
    rw [hd] at hc ⊢
    simpa using hc

theorem readPart_param {p : Param} (h : p.Ok) : readPart p.text = some (lower p.name, p.value) := by
  obtain ⟨c1, c2⟩ := Param.core_edges h
  obtain ⟨r1, r2, r3⟩ := Param.raw_edges h
  obtain ⟨h1, h2, h3, h4, h5⟩ := h
  have ht : trim p.text = p.name ++ '=' :: p.raw := by
    rw [Param.text_eq]
    have := trimBy_core (p := ws) (a := p.pre) (b := []) (core := p.name ++ '=' :: p.raw)
      (fun c hc => ows_ws (all_mem h1 c hc)) (by simp) c1 c2
    simpa [trim] using this
  unfold readPart
  rw [ht, cutAt_append (fun hm => tokenChar_ne (all_mem h3 _ hm) (by decide) rfl)]
  simp only [Option.map_some]
  rw [trim_of_edges (token_edges h3).1 (token_edges h3).2, trim_of_edges r2 r3]
  congr 2
  unfold Param.raw
  cases hq : p.quoted with
  | true =>
    simp only [if_true]
    have hne : ∀ c ∈ p.value, (c == '"') = false := by
      intro c hc
      have := all_mem h4 c hc
      simp only [plain, Bool.and_eq_true, bne_iff_ne] at this
      simpa using this.1.1.1
    exact trimBy_core (a := ['"']) (b := ['"']) (by simp) (by simp) (fun c hc => hne c (List.mem_of_mem_head? hc))
      (fun c hc => hne c (List.mem_of_getLast? hc))
  | false =>
    simp only [Bool.false_eq_true, if_false]
    have hne : ∀ c ∈ p.value, (c == '"') = false := by
      intro c hc
      have := tokenChar_ne (all_mem (h5 hq).2 c hc) (d := '"') (by decide)
      simpa using this
    have := trimBy_core (p := (· == '"')) (a := []) (b := []) (core := p.value) (by simp) (by simp)
      (fun c hc => hne c (List.mem_of_mem_head? hc)) (fun c hc => hne c (List.mem_of_getLast? hc))
    simpa using this

theorem Param.text_mem {p : Param} (h : p.Ok) {c : Char} (hc : c ∈ p.text) : c ≠ ',' ∧ c ≠ '\r' := by
  obtain ⟨h1, h2, h3, h4, h5⟩ := h
  have hv : ∀ c ∈ p.value, c ≠ ',' ∧ c ≠ '\r' := by
    intro c hc
    have := all_mem h4 c hc
    simp only [plain, Bool.and_eq_true, bne_iff_ne] at this
    exact ⟨this.2, this.1.2⟩
  rw [Param.text_eq] at hc
  simp only [List.mem_append, List.mem_cons] at hc
  rcases hc with hc | hc | hc | hc
  · have := all_mem h1 c hc
    simp only [ows, Bool.or_eq_true, beq_iff_eq] at this
    rcases this with rfl | rfl <;> decide
  · have := all_mem h3 c hc
    exact ⟨tokenChar_ne this (by decide), tokenChar_ne this (by decide)⟩
  · subst hc; decide
  · unfold Param.raw at hc
    split at hc
    · simp only [List.cons_append, List.mem_cons, List.mem_append, List.not_mem_nil, or_false] at hc
      rcases hc with rfl | hc | rfl
      · decide
      · exact hv c hc
      · decide
    · exact hv c hc

theorem paramsText_cons (p q : Param) (ps : List Param) : paramsText (p :: q :: ps) = p.text ++ ',' :: paramsText (q :: ps) := rfl

theorem splitAt_params (ps : List Param) (hne : ps ≠ []) (h : ∀ p ∈ ps, p.Ok) : splitAt ',' (paramsText ps) = ps.map Param.text := by
  induction ps with
  | nil => exact absurd rfl hne
  | cons p ps ih =>
    have hp : ',' ∉ p.text := fun hm => (Param.text_mem (h p List.mem_cons_self) hm).1 rfl
    cases ps with
    | nil => simpa [paramsText] using splitAt_none hp
    | cons q ps =>
      rw [paramsText_cons, splitAt_append hp, ih (by simp) (fun x hx => h x (List.mem_cons_of_mem _ hx))]; rfl

theorem parseChallenge_params (ps : List Param) (hne : ps ≠ []) (h : ∀ p ∈ ps, p.Ok) :
    parseChallenge (digestSp ++ paramsText ps) = ps.map fun p => (lower p.name, p.value) := by
  unfold parseChallenge
  have h1 : digestSp.isPrefixOf (digestSp ++ paramsText ps) = true := by rw [List.isPrefixOf_iff_prefix]; exact List.prefix_append ..
  have h2 : (digestSp ++ paramsText ps).drop 7 = paramsText ps := by
    have : digestSp.length = 7 := by decide
    rw [← this]; exact List.drop_left
  simp only [h1, if_true, h2, splitAt_params ps hne h]
  clear h1 h2 hne
  induction ps with
  | nil => rfl
  | cons p ps ih =>
    simp only [List.map_cons, List.filterMap_cons, readPart_param (h p List.mem_cons_self)]
    rw [ih fun x hx => h x (List.mem_cons_of_mem _ hx)]

theorem get_eq_lookup (key : Str) (fs : List (Str × Str)) (h : (fs.map (·.1)).Nodup) : get key fs = lookup key fs := by
  unfold get lookup
  congr 1
  induction fs with
  | nil => rfl
  | cons f fs ih =>
    simp only [List.map_cons, List.nodup_cons] at h
    rw [List.reverse_cons, List.find?_append, ih h.2, List.find?_cons]
    by_cases hk : (f.1 == key) = true
    · have : fs.find? (fun p => p.1 == key) = none := by
        rw [List.find?_eq_none]
        intro x hx hxk
        apply h.1
        have : x.1 = f.1 := by rw [eq_of_beq hxk, eq_of_beq hk]
        rw [← this]; exact List.mem_map_of_mem hx
      simp [this, hk]
    · simp [hk]

theorem paramsText_mem {ps : List Param} (h : ∀ p ∈ ps, p.Ok) : '\r' ∉ paramsText ps := by
  induction ps with
  | nil => simp [paramsText]
  | cons p ps ih =>
    have hp : '\r' ∉ p.text := fun hm => (Param.text_mem (h p List.mem_cons_self) hm).2 rfl
    cases ps with
    | nil => simpa [paramsText] using hp
    | cons q ps =>
      rw [paramsText_cons]
      simp only [List.mem_append, List.mem_cons, not_or]
      exact ⟨hp, by decide, ih fun x hx => h x (List.mem_cons_of_mem _ hx)⟩

theorem paramsText_last {ps : List Param} (hne : ps ≠ []) (h : ∀ p ∈ ps, p.Ok) :
    ∃ c, (paramsText ps).getLast? = some c ∧ ws c = false := by
  induction ps with
  | nil => exact absurd rfl hne
  | cons p ps ih =>
    cases ps with
    | nil =>
      have hp := h p List.mem_cons_self
      have hc := (Param.core_edges hp).2
      have : (p.name ++ '=' :: p.raw) ≠ [] := by simp
      obtain ⟨c, hcl⟩ : ∃ c, (p.name ++ '=' :: p.raw).getLast? = some c := ⟨_, List.getLast?_eq_some_getLast this⟩
      refine ⟨c, ?_, hc c hcl⟩
      show p.text.getLast? = _
      rw [Param.text_eq, List.getLast?_append, hcl]; rfl
    | cons q ps =>
      obtain ⟨c, h1, h2⟩ := ih (by simp) (fun x hx => h x (List.mem_cons_of_mem _ hx))
      refine ⟨c, ?_, h2⟩
      rw [paramsText_cons, List.getLast?_append]
      have : (',' :: paramsText (q :: ps)).getLast? = (paramsText (q :: ps)).getLast? := by
        cases hh : paramsText (q :: ps) with
        | nil => rw [hh] at h1; cases h1
        | cons x xs => rfl
      rw [this, h1]; rfl

theorem lower_append (a b : Str) : lower (a ++ b) = lower a ++ lower b := by simp [lower]

theorem not_mem_header {s : Server} (h : s.Ok) {c : Char} (h1 : lower [c] = [c]) (h2 : c ∉ wwwAuth) : c ∉ s.header := by
  intro hm
  apply h2
  rw [← h.header]
  have : (if 65 ≤ c.toNat ∧ c.toNat ≤ 90 then Char.ofNat (c.toNat + 32) else c) = c := by simpa [lower] using h1
  exact List.mem_map.2 ⟨c, hm, this⟩

theorem params_ne {s : Server} (h : s.Ok) : s.params ≠ [] := by
  intro he
  obtain ⟨v, hv⟩ := h.realm
  simp [he, Param.value?, lookup] at hv

theorem challengeLine_eq {s : Server} (h : s.Ok) : s.challengeLine = s.header ++ ':' :: (s.gap ++ (digestSp ++ paramsText s.params)) := by
  simp only [Server.challengeLine, h.scheme]
  show _ = s.header ++ ':' :: (s.gap ++ ("Digest".toList ++ ' ' :: paramsText s.params))
  simp

theorem challenge_lines {s : Server} (h : s.Ok) :
    ∃ rest, splitLines s.challenge = "HTTP/1.1 401 Unauthorized".toList :: s.before ++ s.challengeLine :: rest := by
  refine ⟨splitLines (joinLines s.after ++ crlf ++ s.page), ?_⟩
  have : s.challenge = joinLines ("HTTP/1.1 401 Unauthorized".toList :: s.before ++ [s.challengeLine]) ++ (joinLines s.after ++ crlf ++ s.page) := by
    simp [Server.challenge, joinLines]
  rw [this, splitLines_joined]
  · simp
  · intro l hl
    simp only [List.cons_append, List.mem_cons, List.mem_append, List.not_mem_nil, or_false] at hl
    rcases hl with rfl | hl | rfl
    · decide
    · exact (h.before l hl).1
    · rw [challengeLine_eq h]
      simp only [List.mem_append, List.mem_cons, not_or]
      refine ⟨not_mem_header h (by decide) (by decide), by decide, ?_, by decide, paramsText_mem h.params⟩
      intro hm
      have := all_mem h.gap _ hm
      revert this; decide

/-- The client reads the challenge as the server means it. -/
theorem authHeader_challenge (H : Str → Str) (cnonce : Str) (c : Cfg) {s : Server} (h : s.Ok) :
    authHeader H cnonce c (splitLines s.challenge) =
      some (digestResponse H cnonce c.username c.password ((Param.value? "realm".toList s.params).getD [])
        ((Param.value? "nonce".toList s.params).getD []) ((Param.value? "qop".toList s.params).getD []) c.path "GET".toList
        (Param.value? "opaque".toList s.params)) := by
  obtain ⟨rest, hl⟩ := challenge_lines h
  unfold authHeader
  have hf : (splitLines s.challenge).find? (fun l => wwwAuth.isPrefixOf (lower l)) = some s.challengeLine := by
    rw [hl, List.cons_append, List.find?_cons_of_neg (by decide), List.find?_append]
    rw [List.find?_eq_none.2 (fun x hx => by simp [(h.before x hx).2])]
    rw [Option.none_or, List.find?_cons_of_pos]
    rw [List.isPrefixOf_iff_prefix, challengeLine_eq h, lower_append, h.header]
    exact List.prefix_append ..
  rw [hf]
  simp only
  rw [challengeLine_eq h, cutAt_append (not_mem_header h (by decide) (by decide))]
  simp only
  obtain ⟨lc, l1, l2⟩ := paramsText_last (params_ne h) h.params
  have ht : trim (s.gap ++ (digestSp ++ paramsText s.params)) = digestSp ++ paramsText s.params := by
    have := trimBy_core (p := ws) (a := s.gap) (b := []) (core := digestSp ++ paramsText s.params)
      (fun c hc => ows_ws (all_mem h.gap c hc)) (by simp)
      (by
        intro c hc
        have : (digestSp ++ paramsText s.params).head? = some 'D' := rfl
        rw [this] at hc; cases hc; decide)
      (by
        intro c hc
        rw [List.getLast?_append, l1] at hc
        cases hc; exact l2)
    simpa [trim] using this
  rw [ht]
  have hp : "digest".toList.isPrefixOf (lower (digestSp ++ paramsText s.params)) = true := by
    rw [List.isPrefixOf_iff_prefix, lower_append]
    exact (show "digest".toList <+: lower digestSp by decide).trans (List.prefix_append ..)
  rw [if_pos hp, parseChallenge_params s.params (params_ne h) h.params]
  have hg : ∀ k, get k (s.params.map fun p => (lower p.name, p.value)) = Param.value? k s.params := by
    intro k
    rw [get_eq_lookup]
    · rfl
    · simpa [Function.comp_def] using h.names
  simp only [hg]

/-! ## Reading the answer -/

/-- A field of the `Authorization` header: name, value, and whether it is in quotes. -/
abbrev Field := Str × Str × Bool

def Field.text (f : Field) : Str := f.1 ++ '=' :: (if f.2.2 then '"' :: f.2.1 ++ ['"'] else f.2.1)

def Field.Ok (f : Field) : Prop :=
  f.1 ≠ [] ∧ f.1.all tokenChar = true ∧ Tame f.2.1 ∧ (f.2.2 = false → f.2.1.all tokenChar = true ∧ f.2.1 ≠ [])

def fieldsText : List Field → Str
  | [] => []
  | [f] => Field.text f
  | f :: fs => Field.text f ++ sepSp ++ fieldsText fs

theorem fieldsText_cons (f g : Field) (fs : List Field) : fieldsText (f :: g :: fs) = Field.text f ++ sepSp ++ fieldsText (g :: fs) := rfl

theorem rfcQuoted_tame {v : Str} (h : Tame v) (r : Str) : rfcQuoted (v ++ '"' :: r) = some (v, r) := by
  induction v with
  | nil => rfl
  | cons c v ih =>
    have hc := h c List.mem_cons_self
    have ih := ih fun x hx => h x (List.mem_cons_of_mem _ hx)
    rw [List.cons_append, rfcQuoted, ih]
    · rfl
    · exact hc.2.1
    · intro d s he; exact absurd he hc.2.2

theorem takeWhile_token {a b : Str} (h : a.all tokenChar = true) (hb : ∀ c, b.head? = some c → tokenChar c = false) :
    (a ++ b).takeWhile tokenChar = a ∧ (a ++ b).dropWhile tokenChar = b := by
  induction a with
  | nil =>
    cases b with
    | nil => exact ⟨rfl, rfl⟩
    | cons c b => simp [hb c rfl]
  | cons c a ih =>
    simp only [List.all_cons, Bool.and_eq_true] at h
    simp [h.1, ih h.2]

theorem rfcParam_field {f : Field} (h : f.Ok) {r : Str} (hr : ∀ c, r.head? = some c → tokenChar c = false) :
    rfcParam (Field.text f ++ r) = some ((lower f.1, f.2.1), r) := by
  obtain ⟨n, v, q⟩ := f
  obtain ⟨h1, h2, h3, h4⟩ := h
  simp only at h1 h2 h3 h4
  unfold rfcParam Field.text
  simp only [List.append_assoc, List.cons_append]
  obtain ⟨t1, t2⟩ := takeWhile_token (b := '=' :: ((if q then '"' :: (v ++ ['"']) else v) ++ r)) h2
    (by intro c hc; simp at hc; subst hc; decide)
  rw [t1, t2]
  cases q with
  | true =>
    simp only [if_true, List.cons_append, List.append_assoc, List.nil_append]
    rw [rfcQuoted_tame h3]; rfl
  | false =>
    simp only [Bool.false_eq_true, if_false]
    obtain ⟨h5, h6⟩ := h4 rfl
    obtain ⟨t3, t4⟩ := takeWhile_token (b := r) h5 hr
    split
    · rename_i r' he
      simp only [List.cons.injEq, true_and] at he
      cases v with
      | nil => exact absurd rfl h6
      | cons c v =>
        simp only [List.cons_append, List.cons.injEq] at he
        exact absurd he.1 (tokenChar_ne (all_mem h5 c List.mem_cons_self) (by decide))
    · rename_i r' hn he
      simp only [List.cons.injEq, true_and] at he
      subst he
      rw [t3, t4]
    · rename_i hn; exact absurd rfl (hn _)

theorem rfcParams_fields (fs : List Field) (hne : fs ≠ []) (h : ∀ f ∈ fs, Field.Ok f) : ∀ n, fs.length ≤ n →
    rfcParams n (fieldsText fs) = some (fs.map fun f => (lower f.1, f.2.1)) := by
  induction fs with
  | nil => exact absurd rfl hne
  | cons f fs ih =>
    intro n hn
    cases n with
    | zero => simp at hn
    | succ n =>
      have hf := h f List.mem_cons_self
      cases fs with
      | nil =>
        have := rfcParam_field hf (r := []) (by simp)
        rw [List.append_nil] at this
        rw [rfcParams, show fieldsText [f] = Field.text f from rfl, this]
        rfl
      | cons g fs =>
        have hg := h g (by simp)
        rw [rfcParams, fieldsText_cons, List.append_assoc, rfcParam_field hf (r := sepSp ++ fieldsText (g :: fs))
          (by intro c hc; have : (sepSp ++ fieldsText (g :: fs)).head? = some ',' := rfl
              rw [this] at hc; cases hc; decide)]
        simp only
        have h1 : (sepSp ++ fieldsText (g :: fs)).dropWhile ows = ',' :: ' ' :: fieldsText (g :: fs) := rfl
        rw [h1]
        simp only
        have h2 : (' ' :: fieldsText (g :: fs)).dropWhile ows = fieldsText (g :: fs) := by
          rw [List.dropWhile_cons]
          rw [if_pos (by decide)]
          apply dropWhile_head
          intro c hc
          obtain ⟨d, ds, hd⟩ := List.exists_cons_of_ne_nil hg.1
          have hh : (fieldsText (g :: fs)).head? = some d := by
            cases fs with
            | nil => simp [fieldsText, Field.text, hd]
            | cons k fs => simp [fieldsText_cons, Field.text, hd]
          rw [hh] at hc
          cases hc
          have hd2 : tokenChar c = true := all_mem hg.2.1 c (by rw [hd]; exact List.mem_cons_self)
          cases ho : ows c with
          | false => rfl
          | true => have := tokenChar_ws hd2; rw [ows_ws ho] at this; cases this
        rw [h2, ih (by simp) (fun x hx => h x (List.mem_cons_of_mem _ hx)) n (by simp at hn ⊢; omega)]
        rfl

/-- The fields the client writes. -/
def clientFields (H : Str → Str) (cnonce : Str) (c : Cfg) (realm nonce : Str) (qop : Bool) (opaque_ : Option Str) : List Field :=
  [("username".toList, c.username, true), ("realm".toList, realm, true), ("nonce".toList, nonce, true), ("uri".toList, c.path, true),
   ("response".toList, rfcResponse H c.username realm c.password nonce "GET".toList c.path (if qop then some (nc1, cnonce) else none), true)] ++
  (if qop then [("qop".toList, auth, false), ("nc".toList, nc1, false), ("cnonce".toList, cnonce, true)] else []) ++
  (match opaque_ with | some o => [("opaque".toList, o, true)] | none => [])

theorem digestResponse_eq (H : Str → Str) (cnonce : Str) (c : Cfg) (realm nonce qop : Str) (opaque_ : Option Str) :
    digestResponse H cnonce c.username c.password realm nonce qop c.path "GET".toList opaque_ =
      digestSp ++ fieldsText (clientFields H cnonce c realm nonce (contains auth qop) opaque_) := by
  unfold digestResponse clientFields
  cases hq : contains auth qop <;> cases opaque_ <;>
    simp only [rfcResponse, fieldsText, Field.text, quotedField, if_true, Bool.false_eq_true, if_false, List.append_assoc, List.append_nil,
      List.cons_append, List.nil_append] <;> rfl

/-! ## The exchange -/

theorem afterBlank_skip {a b : Str} (h : '\r' ∉ a) : afterBlank (a ++ b) = afterBlank b := by
  induction a with
  | nil => rfl
  | cons c a ih =>
    simp only [List.mem_cons, not_or] at h
    rw [List.cons_append, afterBlank, if_neg, ih h.2]
    show ¬ (List.isPrefixOf ('\r' :: _) (c :: (a ++ b)) = true)
    simp [List.isPrefixOf_cons_cons, h.1]

theorem afterBlank_joined {ls : List Str} (h : ∀ l ∈ ls, '\r' ∉ l ∧ l ≠ []) (hne : ls ≠ []) (b : Str) :
    afterBlank (joinLines ls ++ crlf ++ b) = some b := by
  induction ls with
  | nil => exact absurd rfl hne
  | cons l ls ih =>
    have he : joinLines (l :: ls) ++ crlf ++ b = l ++ ('\r' :: '\n' :: (joinLines ls ++ crlf ++ b)) := by
      have : crlf = ['\r', '\n'] := rfl
      simp [joinLines, this]
    rw [he, afterBlank_skip (h l List.mem_cons_self).1]
    cases ls with
    | nil => rfl
    | cons m ls =>
      have hm := h m (by simp)
      obtain ⟨c, cs, hc⟩ := List.exists_cons_of_ne_nil hm.2
      have hj : joinLines (m :: ls) ++ crlf ++ b = c :: (cs ++ crlf ++ joinLines ls ++ crlf ++ b) := by simp [joinLines, hc]
      have hcr : ¬ '\r' = c := by rintro rfl; exact hm.1 (by rw [hc]; exact List.mem_cons_self)
      have ih := ih (fun x hx => h x (List.mem_cons_of_mem _ hx)) (by simp)
      rw [afterBlank, if_neg, afterBlank, if_neg, ih]
      · show ¬ (List.isPrefixOf ('\r' :: _) ('\n' :: _) = true)
        simp [List.isPrefixOf_cons_cons]
      · rw [hj]
        show ¬ (List.isPrefixOf ['\r', '\n', '\r', '\n'] ('\r' :: '\n' :: c :: _) = true)
        simp [List.isPrefixOf_cons_cons, hcr]

theorem value_plain {ps : List Param} (h : ∀ p ∈ ps, p.Ok) {k v : Str} (hv : Param.value? k ps = some v) : Tame v := by
  simp only [Param.value?, lookup, Option.map_eq_some_iff] at hv
  obtain ⟨f, hf, rfl⟩ := hv
  have := List.mem_of_find?_eq_some hf
  obtain ⟨p, hp, rfl⟩ := List.mem_map.1 this
  intro x hx
  have := all_mem (h p hp).2.2.2.1 x hx
  simp only [plain, Bool.and_eq_true, bne_iff_ne] at this
  exact ⟨this.1.2, this.1.1.1, this.1.1.2⟩

theorem getD_tame {o : Option Str} (h : ∀ v, o = some v → Tame v) : Tame (o.getD []) := by
  cases o with
  | none => intro x hx; simp at hx
  | some v => exact h v rfl

theorem Field.ok_mk {n v : Str} (h1 : n ≠ []) (h2 : n.all tokenChar = true) (hv : Tame v) : Field.Ok (n, v, true) :=
  ⟨h1, h2, hv, by simp⟩

theorem http_line : " HTTP/1.1\r\n".toList = " HTTP/1.1".toList ++ crlf := by decide

theorem clientFields_ok {H : Str → Str} (hH : ∀ x, Tame (H x)) {cnonce : Str} (hcn : Tame cnonce) {c : Cfg} (hc : c.Ok) {realm nonce : Str}
    (hr : Tame realm) (hn : Tame nonce) (qop : Bool) {opaque_ : Option Str} (ho : ∀ v, opaque_ = some v → Tame v) :
    ∀ f ∈ clientFields H cnonce c realm nonce qop opaque_, Field.Ok f := by
  have hu : Tame c.username := hc.username
  have hp : Tame c.path := fun x hx => ⟨(hc.path x hx).2.1, (hc.path x hx).2.2⟩
  have hresp : Tame (rfcResponse H c.username realm c.password nonce "GET".toList c.path (if qop then some (nc1, cnonce) else none)) := by
    cases qop <;> exact hH _
  have htok : ∀ {s : Str}, s.all tokenChar = true → Tame s := fun hs x hx =>
    ⟨tokenChar_ne (all_mem hs x hx) (by decide), tokenChar_ne (all_mem hs x hx) (by decide), tokenChar_ne (all_mem hs x hx) (by decide)⟩
  intro f hf
  simp only [clientFields, List.mem_append, List.mem_cons, List.not_mem_nil, or_false] at hf
  rcases hf with (hf | hf) | hf
  · rcases hf with rfl | rfl | rfl | rfl | rfl
    · exact Field.ok_mk (by decide) (by decide) (hu)
    · exact Field.ok_mk (by decide) (by decide) (hr)
    · exact Field.ok_mk (by decide) (by decide) (hn)
    · exact Field.ok_mk (by decide) (by decide) (hp)
    · exact Field.ok_mk (by decide) (by decide) (hresp)
  · cases qop with
    | false => simp at hf
    | true =>
      simp only [if_true, List.mem_cons, List.not_mem_nil, or_false] at hf
      rcases hf with rfl | rfl | rfl
      · exact ⟨by decide, by decide, htok (by decide), fun _ => by decide⟩
      · exact ⟨by decide, by decide, htok (by decide), fun _ => by decide⟩
      · exact Field.ok_mk (by decide) (by decide) (hcn)
  · cases hopq : opaque_ with
    | none => simp [hopq] at hf
    | some o =>
      simp only [hopq, List.mem_cons, List.not_mem_nil, or_false] at hf
      subst hf
      exact Field.ok_mk (by decide) (by decide) (ho o hopq)

theorem fieldsText_tame {fs : List Field} (h : ∀ f ∈ fs, Field.Ok f) : '\r' ∉ fieldsText fs := by
  have h1 : ∀ f ∈ fs, '\r' ∉ Field.text f := by
    intro f hf hm
    obtain ⟨_, h2, h3, _⟩ := h f hf
    simp only [Field.text, List.mem_append, List.mem_cons] at hm
    rcases hm with hm | hm | hm
    · exact tokenChar_ne (all_mem h2 _ hm) (by decide) rfl
    · revert hm; decide
    · split at hm
      · simp only [List.cons_append, List.mem_cons, List.mem_append, List.not_mem_nil, or_false] at hm
        rcases hm with hm | hm | hm
        · revert hm; decide
        · exact (h3 _ hm).1 rfl
        · revert hm; decide
      · exact (h3 _ hm).1 rfl
  clear h
  induction fs with
  | nil => simp [fieldsText]
  | cons f fs ih =>
    cases fs with
    | nil => exact h1 f (by simp)
    | cons g fs =>
      rw [fieldsText_cons]
      simp only [List.mem_append, not_or]
      exact ⟨⟨h1 f (by simp), by decide⟩, ih fun x hx => h1 x (List.mem_cons_of_mem _ hx)⟩

theorem request_lines {c : Cfg} (hc : c.Ok) : splitLines c.request =
    ["GET ".toList ++ c.path ++ " HTTP/1.1".toList, "Host: ".toList ++ c.host, "User-Agent: ".toList ++ c.agent, [], []] := by
  have : c.request = joinLines ["GET ".toList ++ c.path ++ " HTTP/1.1".toList, "Host: ".toList ++ c.host, "User-Agent: ".toList ++ c.agent, []] ++ [] := by
    unfold Cfg.request joinLines
    rw [http_line]
    generalize "GET ".toList = a1
    generalize " HTTP/1.1".toList = a2
    generalize "Host: ".toList = a3
    generalize "User-Agent: ".toList = a4
    simp
  rw [this, splitLines_joined]
  · rfl
  · intro l hl
    simp only [List.mem_cons, List.not_mem_nil, or_false] at hl
    rcases hl with rfl | rfl | rfl | rfl
    · simp only [List.mem_append, not_or]
      exact ⟨⟨by decide, fun hm => (hc.path _ hm).2.1 rfl⟩, by decide⟩
    · simp only [List.mem_append, not_or]; exact ⟨by decide, hc.host⟩
    · simp only [List.mem_append, not_or]; exact ⟨by decide, hc.agent⟩
    · simp

theorem authRequest_lines {c : Cfg} (hc : c.Ok) {h : Str} (hh : '\r' ∉ h) : splitLines (c.authRequest h) =
    ["GET ".toList ++ c.path ++ " HTTP/1.1".toList, "Host: ".toList ++ c.host, "User-Agent: ".toList ++ c.agent,
      "Authorization: ".toList ++ h, [], []] := by
  have : c.authRequest h = joinLines ["GET ".toList ++ c.path ++ " HTTP/1.1".toList, "Host: ".toList ++ c.host, "User-Agent: ".toList ++ c.agent,
      "Authorization: ".toList ++ h, []] ++ [] := by
    unfold Cfg.authRequest joinLines
    rw [http_line]
    generalize "GET ".toList = a1
    generalize " HTTP/1.1".toList = a2
    generalize "Host: ".toList = a3
    generalize "User-Agent: ".toList = a4
    generalize "Authorization: ".toList = a5
    simp
  rw [this, splitLines_joined]
  · rfl
  · intro l hl
    simp only [List.mem_cons, List.not_mem_nil, or_false] at hl
    rcases hl with rfl | rfl | rfl | rfl | rfl
    · simp only [List.mem_append, not_or]
      exact ⟨⟨by decide, fun hm => (hc.path _ hm).2.1 rfl⟩, by decide⟩
    · simp only [List.mem_append, not_or]; exact ⟨by decide, hc.host⟩
    · simp only [List.mem_append, not_or]; exact ⟨by decide, hc.agent⟩
    · simp only [List.mem_append, not_or]; exact ⟨by decide, hh⟩
    · simp

theorem answer_first (H : Str → Str) (s : Server) {c : Cfg} (hc : c.Ok) : s.answer H c.request = s.challenge := by
  unfold Server.answer
  rw [request_lines hc]
  rfl

theorem targetOf_auth {c : Cfg} (hc : c.Ok) (h : Str) : targetOf (c.authRequest h) = c.path := by
  have : ∃ r, (c.authRequest h).drop 4 = c.path ++ ' ' :: r := by
    unfold Cfg.authRequest
    rw [http_line, show " HTTP/1.1".toList = ' ' :: "HTTP/1.1".toList from rfl, show "GET ".toList = ['G', 'E', 'T', ' '] from rfl]
    generalize "HTTP/1.1".toList = a2
    generalize "Host: ".toList = a3
    generalize "User-Agent: ".toList = a4
    generalize "Authorization: ".toList = a5
    simp
  obtain ⟨r, hr⟩ := this
  unfold targetOf
  rw [hr]
  have hp : ∀ x ∈ c.path, x ≠ ' ' := fun x hx => (hc.path x hx).1
  generalize c.path = p at hp
  induction p with
  | nil => rfl
  | cons a p ih =>
    have := hp a List.mem_cons_self
    simp [this, ih fun x hx => hp x (List.mem_cons_of_mem _ hx)]

/-- What the server makes of the second request. -/
theorem answer_second {H : Str → Str} (hH : ∀ x, Tame (H x)) {cnonce : Str} (hcn : Tame cnonce) {c : Cfg} (hc : c.Ok) {s : Server} (hs : s.Ok) :
    ∃ fs : List (Str × Str), fs = (clientFields H cnonce c ((Param.value? "realm".toList s.params).getD [])
        ((Param.value? "nonce".toList s.params).getD []) (Param.value? "qop".toList s.params).isSome
        (Param.value? "opaque".toList s.params)).map (fun f => (lower f.1, f.2.1)) ∧
      ∃ h, authHeader H cnonce c (splitLines s.challenge) = some h ∧
        s.answer H (c.authRequest h) = if s.check H c.path fs then s.success else s.challenge := by
  have hq : contains auth ((Param.value? "qop".toList s.params).getD []) = (Param.value? "qop".toList s.params).isSome := by
    cases hv : Param.value? "qop".toList s.params with
    | none => decide
    | some v => rw [hs.qop v hv]; decide
  refine ⟨_, rfl, _, authHeader_challenge H cnonce c hs, ?_⟩
  rw [digestResponse_eq, hq]
  have hf := clientFields_ok hH hcn hc (getD_tame fun v hv => value_plain hs.params hv) (getD_tame fun v hv => value_plain hs.params hv)
    (Param.value? "qop".toList s.params).isSome (fun v hv => value_plain hs.params (k := "opaque".toList) hv)
    (realm := (Param.value? "realm".toList s.params).getD []) (nonce := (Param.value? "nonce".toList s.params).getD [])
  have hne : clientFields H cnonce c ((Param.value? "realm".toList s.params).getD []) ((Param.value? "nonce".toList s.params).getD [])
      (Param.value? "qop".toList s.params).isSome (Param.value? "opaque".toList s.params) ≠ [] := by simp [clientFields]
  generalize clientFields H cnonce c _ _ _ _ = fs at hf hne ⊢
  unfold Server.answer
  have hr : '\r' ∉ digestSp ++ fieldsText fs := by
    simp only [List.mem_append, not_or]; exact ⟨by decide, fieldsText_tame hf⟩
  have hap : authPrefix = "Authorization: ".toList ++ digestSp := by decide
  have hfind : (splitLines (c.authRequest (digestSp ++ fieldsText fs))).find? (fun l => authPrefix.isPrefixOf l) =
      some (authPrefix ++ fieldsText fs) := by
    rw [authRequest_lines hc hr, List.find?_cons_of_neg, List.find?_cons_of_neg, List.find?_cons_of_neg, List.find?_cons_of_pos, hap,
      List.append_assoc]
    · rw [hap, ← List.append_assoc, List.isPrefixOf_iff_prefix]; exact List.prefix_append ..
    · show ¬ (List.isPrefixOf ('A' :: _) ('U' :: _) = true)
      simp [List.isPrefixOf_cons_cons]
    · show ¬ (List.isPrefixOf ('A' :: _) ('H' :: _) = true)
      simp [List.isPrefixOf_cons_cons]
    · show ¬ (List.isPrefixOf ('A' :: _) ('G' :: _) = true)
      simp [List.isPrefixOf_cons_cons]
  rw [hfind]
  simp only [List.drop_left]
  rw [rfcParams_fields fs hne hf _ (by
    rw [List.length_append]
    have : ∀ l : List Field, l.length ≤ (fieldsText l).length := by
      intro l
      induction l with
      | nil => simp
      | cons f l ih =>
        cases l with
        | nil => simp [fieldsText, Field.text]; omega
        | cons g l => rw [fieldsText_cons]; simp [Field.text] at ih ⊢; omega
    have := this fs
    omega), targetOf_auth hc]

theorem success_endpoint {s : Server} (hs : s.Ok) : endpointOf s.success = some s.endpoint := by
  unfold endpointOf Server.success
  rw [afterBlank_joined]
  · simp only [hs.endpoint.2, hs.endpoint.1, if_true]
  · intro l hl
    rcases List.mem_cons.1 hl with rfl | hl
    · decide
    · exact hs.okHeaders l hl
  · simp

theorem success_status {s : Server} (hs : s.Ok) : (splitLines s.success).headD [] = "HTTP/1.1 200 OK".toList := by
  unfold Server.success
  rw [List.append_assoc, splitLines_joined]
  · rfl
  · intro l hl
    rcases List.mem_cons.1 hl with rfl | hl
    · decide
    · exact (hs.okHeaders l hl).1

theorem challenge_status {s : Server} (hs : s.Ok) : (splitLines s.challenge).headD [] = "HTTP/1.1 401 Unauthorized".toList := by
  obtain ⟨r, hr⟩ := challenge_lines hs
  rw [hr]; rfl

theorem challenge_ne (s : Server) : s.challenge ≠ [] := by simp [Server.challenge, crlf]
theorem success_ne (s : Server) : s.success ≠ [] := by simp [Server.success, crlf]

theorem authenticate_eq {H : Str → Str} (hH : ∀ x, Tame (H x)) {cnonce : Str} (hcn : Tame cnonce) {c : Cfg} (hc : c.Ok) {s : Server} (hs : s.Ok) :
    authenticate H cnonce c (s.answer H) =
      if s.check H c.path ((clientFields H cnonce c ((Param.value? "realm".toList s.params).getD [])
        ((Param.value? "nonce".toList s.params).getD []) (Param.value? "qop".toList s.params).isSome
        (Param.value? "opaque".toList s.params)).map (fun f => (lower f.1, f.2.1))) then some s.endpoint else none := by
  obtain ⟨fs, rfl, h, hh, ha⟩ := answer_second hH hcn hc hs
  unfold authenticate
  simp only
  rw [answer_first H s hc, if_neg (challenge_ne s), challenge_status hs, if_neg (by decide), if_pos (by decide), hh]
  simp only
  rw [ha]
  split
  · rw [if_neg (success_ne s), success_status hs, if_pos (by decide), success_endpoint hs]
  · rw [if_neg (challenge_ne s), challenge_status hs, if_neg (by decide)]

section
variable (H : Str → Str) (cnonce : Str) (c : Cfg) (realm nonce : Str) (qop : Bool) (opaque_ : Option Str)

theorem look_fields : let fs := (clientFields H cnonce c realm nonce qop opaque_).map (fun f => (lower f.1, f.2.1))
    lookup "username".toList fs = some c.username ∧ lookup "realm".toList fs = some realm ∧ lookup "nonce".toList fs = some nonce ∧
    lookup "uri".toList fs = some c.path ∧
    lookup "response".toList fs =
      some (rfcResponse H c.username realm c.password nonce "GET".toList c.path (if qop then some (nc1, cnonce) else none)) ∧
    lookup "opaque".toList fs = opaque_ ∧
    (qop = true → lookup "qop".toList fs = some auth ∧ lookup "nc".toList fs = some nc1 ∧ lookup "cnonce".toList fs = some cnonce) := by
  cases qop <;> cases opaque_ <;> refine ⟨rfl, rfl, rfl, rfl, rfl, rfl, ?_⟩
  · simp
  · simp
  · exact fun _ => ⟨rfl, rfl, rfl⟩
  · exact fun _ => ⟨rfl, rfl, rfl⟩
end

theorem check_iff {H : Str → Str} {cnonce : Str} {c : Cfg} {s : Server} (hs : s.Ok) :
    s.check H c.path ((clientFields H cnonce c ((Param.value? "realm".toList s.params).getD [])
        ((Param.value? "nonce".toList s.params).getD []) (Param.value? "qop".toList s.params).isSome
        (Param.value? "opaque".toList s.params)).map (fun f => (lower f.1, f.2.1))) = true ↔
    ∃ password, s.password c.username = some password ∧
      ∀ x, x = (if (Param.value? "qop".toList s.params).isSome then some (nc1, cnonce) else none) →
        rfcResponse H c.username ((Param.value? "realm".toList s.params).getD []) c.password
          ((Param.value? "nonce".toList s.params).getD []) "GET".toList c.path x =
        rfcResponse H c.username ((Param.value? "realm".toList s.params).getD []) password
          ((Param.value? "nonce".toList s.params).getD []) "GET".toList c.path x := by
  obtain ⟨l1, l2, l3, l4, l5, l6, l7⟩ := look_fields H cnonce c ((Param.value? "realm".toList s.params).getD [])
    ((Param.value? "nonce".toList s.params).getD []) (Param.value? "qop".toList s.params).isSome (Param.value? "opaque".toList s.params)
  obtain ⟨r, hr⟩ := hs.realm
  obtain ⟨n, hn⟩ := hs.nonce
  generalize (clientFields H cnonce c ((Param.value? "realm".toList s.params).getD [])
        ((Param.value? "nonce".toList s.params).getD []) (Param.value? "qop".toList s.params).isSome
        (Param.value? "opaque".toList s.params)).map (fun f => (lower f.1, f.2.1)) = fs at *
  unfold Server.check
  rw [l1]
  simp only
  cases hp : s.password c.username with
  | none => simp
  | some password =>
    simp only [l2, l3, l4, l6, hr, hn, Option.getD_some, beq_self_eq_true, Bool.true_and, Option.some.injEq, exists_eq_left', forall_eq]
    cases hq : Param.value? "qop".toList s.params with
    | none =>
      simp only [hq, Option.isSome_none, Bool.false_eq_true, if_false, hr, hn, Option.getD_some] at l5 ⊢
      rw [l5]
      simp
    | some v =>
      simp only [hq, Option.isSome_some, if_true, hr, hn, Option.getD_some, forall_const] at l5 l7 ⊢
      have hnc : (nc1 == "00000001".toList) = true := by decide +kernel
      rw [l5, l7.1, l7.2.1, l7.2.2]
      show (some auth == some "auth".toList && (nc1 == "00000001".toList && _)) = true ↔ _
      rw [hnc]
      simp [auth]

/-- **C80, getting in.** A base station whose name and password the server knows gets the endpoint: for every well-formed server which asks
for Digest authentication, every configuration and every hash. What is missing are servers whose values have a comma, a quote or a
backslash (`c80_comma`) and answers in more than one piece (`c80_split`). -/
theorem c80_logs_in_partial {H : Str → Str} (hH : ∀ x, Tame (H x)) {cnonce : Str} (hcn : Tame cnonce) {c : Cfg} (hc : c.Ok) {s : Server}
    (hs : s.Ok) (hp : s.password c.username = some c.password) : authenticate H cnonce c (s.answer H) = some s.endpoint := by
  rw [authenticate_eq hH hcn hc hs, if_pos]
  rw [check_iff hs]
  exact ⟨c.password, hp, fun _ _ => rfl⟩

/-- **C80, not getting in.** With a name the server does not know, or another password than it knows, the base station gets nothing, if the
hash tells texts apart. -/
theorem c80_wrong_password {H : Str → Str} (hH : ∀ x, Tame (H x)) (hinj : ∀ x y, H x = H y → x = y) {cnonce : Str} (hcn : Tame cnonce)
    {c : Cfg} (hc : c.Ok) {s : Server} (hs : s.Ok) (hp : s.password c.username ≠ some c.password) :
    authenticate H cnonce c (s.answer H) = none := by
  rw [authenticate_eq hH hcn hc hs, if_neg]
  rw [check_iff hs]
  rintro ⟨password, h1, h2⟩
  apply hp
  rw [h1]
  have h3 := h2 _ rfl
  have key : H (c.username ++ ':' :: ((Param.value? "realm".toList s.params).getD []) ++ ':' :: c.password) =
      H (c.username ++ ':' :: ((Param.value? "realm".toList s.params).getD []) ++ ':' :: password) := by
    split at h3
    · have h4 := hinj _ _ h3
      simp only [List.append_assoc] at h4
      simpa only [List.append_assoc] using List.append_cancel_right h4
    · have h4 := hinj _ _ h3
      simp only [List.append_assoc] at h4
      simpa only [List.append_assoc] using List.append_cancel_right h4
  have h5 := hinj _ _ key
  have h6 := List.append_cancel_left h5
  simp only [List.cons.injEq, true_and] at h6
  rw [h6]

/-- **C80, the password is not sent**: what is sent depends on it only by the hash the RFC asks for. -/
theorem c80_password_hidden (H : Str → Str) (cnonce : Str) (c : Cfg) (password : Str)
    (h : ∀ realm, H (c.username ++ ':' :: realm ++ ':' :: c.password) = H (c.username ++ ':' :: realm ++ ':' :: password)) (net : Str → Str) :
    authenticate H cnonce { c with password := password } net = authenticate H cnonce c net := by
  have ha : ∀ lines, authHeader H cnonce { c with password := password } lines = authHeader H cnonce c lines := by
    intro lines
    unfold authHeader
    split
    · rfl
    · split
      · rfl
      · simp only [digestResponse, h]
  unfold authenticate
  simp only [ha]
  rfl

/-! ## Examples and witnesses -/

/-- A hash for examples: every character as two hexadecimal digits. -/
def hexOf (s : Str) : Str := s.flatMap fun c => [Nat.digitChar (c.toNat / 16 % 16), Nat.digitChar (c.toNat % 16)]

def exampleServer : Server where
  scheme := "Digest".toList
  params := [⟨[], "Realm".toList, "Brew north".toList, true⟩, ⟨[' '], "nonce".toList, "abc123==".toList, true⟩,
    ⟨[' ', ' '], "algorithm".toList, "MD5".toList, false⟩, ⟨[], "qop".toList, "auth".toList, true⟩, ⟨[' '], "opaque".toList, "77".toList, true⟩]
  header := "WWW-Authenticate".toList
  gap := [' ']
  before := ["Server: brew".toList]
  after := ["Content-Length: 0".toList]
  page := []
  password := fun u => if u = "bs1".toList then some "se,c\"ret".toList else none
  okHeaders := ["Content-Type: text/plain".toList]
  endpoint := "/brew/v1/abcd".toList

def exampleCfg : Cfg := ⟨"host".toList, "/brew/".toList, "BlueStation/1".toList, "bs1".toList, "se,c\"ret".toList⟩

theorem exampleServer_ok : exampleServer.Ok where
  scheme := rfl
  params := by decide
  names := by decide
  realm := ⟨"Brew north".toList, by decide⟩
  nonce := ⟨"abc123==".toList, by decide⟩
  qop := by decide
  header := by decide
  gap := by decide
  before := by decide
  okHeaders := by decide
  endpoint := by decide

theorem exampleCfg_ok : exampleCfg.Ok where
  host := by decide
  agent := by decide
  path := by decide
  username := by decide

theorem hexOf_tame (x : Str) : Tame (hexOf x) := by
  intro c hc
  simp only [hexOf, List.mem_flatMap, List.mem_cons, List.not_mem_nil, or_false] at hc
  have key : ∀ n : Nat, n < 16 → Nat.digitChar n ≠ '\r' ∧ Nat.digitChar n ≠ '"' ∧ Nat.digitChar n ≠ '\\' := by decide
  obtain ⟨d, _, rfl | rfl⟩ := hc
  · exact key _ (Nat.mod_lt _ (by decide))
  · exact key _ (Nat.mod_lt _ (by decide))

example : authenticate hexOf "0badcafe".toList exampleCfg (exampleServer.answer hexOf) = some "/brew/v1/abcd".toList :=
  c80_logs_in_partial hexOf_tame (by unfold Tame; decide) exampleCfg_ok exampleServer_ok (by decide)

/-- A hash which tells all texts apart. -/
def unary (s : Str) : Str := s.flatMap fun c => List.replicate c.toNat 'a' ++ ['b']

theorem unary_tame (x : Str) : Tame (unary x) := by
  intro c hc
  simp only [unary, List.mem_flatMap, List.mem_append, List.mem_replicate, List.mem_cons, List.not_mem_nil, or_false] at hc
  obtain ⟨d, _, ⟨_, rfl⟩ | rfl⟩ := hc <;> decide

theorem unary_inj : ∀ x y : Str, unary x = unary y → x = y := by
  have key : ∀ (m n : Nat) (r t : Str), List.replicate m 'a' ++ 'b' :: r = List.replicate n 'a' ++ 'b' :: t → m = n ∧ r = t := by
    intro m
    induction m with
    | zero =>
      intro n r t h
      cases n with
      | zero => simpa using h
      | succ n => simp [List.replicate_succ] at h
    | succ m ih =>
      intro n r t h
      cases n with
      | zero => simp [List.replicate_succ] at h
      | succ n =>
        simp only [List.replicate_succ, List.cons_append, List.cons.injEq, true_and] at h
        have := ih n r t h
        exact ⟨by rw [this.1], this.2⟩
  intro x
  induction x with
  | nil =>
    intro y h
    cases y with
    | nil => rfl
    | cons d y => simp [unary] at h
  | cons c x ih =>
    intro y h
    cases y with
    | nil => simp [unary] at h
    | cons d y =>
      have h' : List.replicate c.toNat 'a' ++ 'b' :: unary x = List.replicate d.toNat 'a' ++ 'b' :: unary y := by
        simpa [unary] using h
      obtain ⟨h1, h2⟩ := key _ _ _ _ h'
      rw [ih y h2, Char.toNat_inj.1 h1]

def wrongCfg : Cfg := { exampleCfg with password := "secret".toList }

theorem wrongCfg_ok : wrongCfg.Ok := ⟨exampleCfg_ok.1, exampleCfg_ok.2, exampleCfg_ok.3, exampleCfg_ok.4⟩

example : authenticate unary "0badcafe".toList wrongCfg (exampleServer.answer unary) = none :=
  c80_wrong_password unary_tame unary_inj (by unfold Tame; decide) wrongCfg_ok exampleServer_ok (by decide)

/-- The same, computed; and with another password. -/
example : authenticate hexOf "0badcafe".toList exampleCfg (exampleServer.answer hexOf) = some "/brew/v1/abcd".toList ∧
    authenticate hexOf "0badcafe".toList wrongCfg (exampleServer.answer hexOf) = none := by decide +kernel

/-- A list of qualities of protection is cut at its comma, which does no harm. -/
example : authenticate hexOf "0badcafe".toList exampleCfg
    (Server.answer hexOf { exampleServer with params := [⟨[], "qop".toList, "auth,auth-int".toList, true⟩,
      ⟨[], "realm".toList, "r".toList, true⟩, ⟨[], "nonce".toList, "n".toList, true⟩] }) = some "/brew/v1/abcd".toList := by decide +kernel

/-- **C80 is false of a realm with a comma**: it is cut there, and the right password is refused. -/
theorem c80_comma : ∃ s c, s = { exampleServer with params := [⟨[], "realm".toList, "Brew, north".toList, true⟩,
      ⟨[' '], "nonce".toList, "abc".toList, true⟩] } ∧ s.password c.username = some c.password ∧
    authenticate hexOf "0badcafe".toList c (s.answer hexOf) = none :=
  ⟨_, exampleCfg, rfl, by decide, by decide +kernel⟩

/-- **C80 is false of a scheme in small letters**, which is the same scheme: it passes the test for it, but is then taken for a part of the
first name, and the right password is refused. -/
theorem c80_scheme_case : ∃ s c, s = { exampleServer with scheme := "digest".toList } ∧ s.password c.username = some c.password ∧
    authenticate hexOf "0badcafe".toList c (s.answer hexOf) = none :=
  ⟨_, exampleCfg, rfl, by decide, by decide +kernel⟩

/-- **C80 is false of an answer in two segments**: cut within the endpoint, the base station takes the first part for all of it; cut before
it, it takes it for an error. -/
theorem c80_split : ∃ net1 net2 : Str → Str,
    (∀ r, net1 r <+: exampleServer.answer hexOf r) ∧ (∀ r, net2 r <+: exampleServer.answer hexOf r) ∧
    authenticate hexOf "0badcafe".toList exampleCfg net1 = some "/brew/v1/ab".toList ∧
    authenticate hexOf "0badcafe".toList exampleCfg net2 = none :=
  ⟨fun r => let a := exampleServer.answer hexOf r; if a = exampleServer.challenge then a else a.take (a.length - 2),
    fun r => let a := exampleServer.answer hexOf r; if a = exampleServer.challenge then a else a.take (a.length - 13),
    fun r => by simp only; split; exact List.prefix_rfl; exact List.take_prefix ..,
    fun r => by simp only; split; exact List.prefix_rfl; exact List.take_prefix ..,
    by decide +kernel, by decide +kernel⟩

/-- **C80 is false of a name with a quote**: it is not escaped, and the server reads another name. -/
theorem c80_quote : ∃ s c, s = { exampleServer with password := fun u => if u = "b\"s".toList then some "x".toList else none } ∧
    c = { exampleCfg with username := "b\"s".toList, password := "x".toList } ∧ s.password c.username = some c.password ∧
    authenticate hexOf "0badcafe".toList c (s.answer hexOf) = none :=
  ⟨_, _, rfl, rfl, by decide, by decide +kernel⟩

end Verif.Net.Digest
