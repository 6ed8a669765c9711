import Verif.Brew.Protocol
/-!
# C58: what is written on the backhaul link is what is read

The specification is a table of layouts, `BrewMsg.wire`: the bytes of each message, field by field.
-/
namespace Verif.Brew
open Codec (Out)

/-! ## Specification -/

/-- Bytes. -/
def Bytes (l : List Nat) : Prop := ∀ b ∈ l, b < 256

instance (l : List Nat) : Decidable (Bytes l) := by unfold Bytes; infer_instance

/-- The payload bytes of a call control message. -/
def CallPayload.wire : CallPayload → List Nat
  | .groupTx s d p a v => leBytes 4 s ++ leBytes 4 d ++ [p, a] ++ leBytes 2 v
  | .cause c => [c]
  | .empty => []
  | .shortTransfer s d => leBytes 4 s ++ leBytes 4 d
  | .raw l => l

/-- The bytes of a message: class, type, then its fields. Numbers have their least significant byte first, UUIDs their most
significant byte first. -/
def BrewMsg.wire : BrewMsg → List Nat
  | .subscriber t n time f gs => [0xf0, t] ++ leBytes 4 n ++ leBytes 8 time ++ leBytes 4 f ++ gs.flatMap (leBytes 4)
  | .call st u p => [0xf1, st] ++ uuidBytes u ++ p.wire
  | .frame t u bits d => [0xf2, t] ++ uuidBytes u ++ leBytes 2 bits ++ d
  | .error t d => [0xf3, t] ++ d
  | .service t j => [0xf4, t] ++ j

/-- Which payload belongs to which call state: 2 is GROUP_TX; 3, 6 and 10 are GROUP_IDLE, SETUP_REJECT and CALL_RELEASE; 5
and 7 are SETUP_ACCEPT and CALL_ALERT; 11 is SHORT_TRANSFER. The fields are within their ranges. -/
def CallPayload.Fits (state : Nat) : CallPayload → Prop
  | .groupTx s d p a v => state = 2 ∧ s < 2 ^ 32 ∧ d < 2 ^ 32 ∧ p < 256 ∧ a < 256 ∧ v < 2 ^ 16
  | .cause c => state ∈ [3, 6, 10] ∧ c < 256
  | .empty => state ∈ [5, 7]
  | .shortTransfer s d => state = 11 ∧ s < 2 ^ 32 ∧ d < 2 ^ 32
  | .raw l => state ∉ [2, 3, 5, 6, 7, 10, 11] ∧ Bytes l

/-- A message of the protocol: every field is within its range. The text of a service message is UTF-8 without NUL. -/
def BrewMsg.Fits (utf8 : List Nat → Bool) : BrewMsg → Prop
  | .subscriber t n time f gs => t < 256 ∧ n < 2 ^ 32 ∧ time < 2 ^ 64 ∧ f < 2 ^ 32 ∧ ∀ g ∈ gs, g < 2 ^ 32
  | .call st u p => st < 256 ∧ u < 2 ^ 128 ∧ p.Fits st
  | .frame t u bits d => t < 256 ∧ u < 2 ^ 128 ∧ bits < 2 ^ 16 ∧ Bytes d
  | .error t d => t < 256 ∧ Bytes d
  | .service t j => t < 256 ∧ Bytes j ∧ 0 ∉ j ∧ utf8 j = true

/-- What may follow a message in the bytes received without being part of it: fewer than four bytes after the groups,
anything after a call control payload of fixed length, anything after the NUL of a text. -/
def BrewMsg.Ignores : BrewMsg → List Nat → Prop
  | .subscriber _ _ _ _ _, rest => rest.length < 4
  | .call _ _ (.raw _), rest => rest = []
  | .call _ _ _, _ => True
  | .frame _ _ _ _, rest => rest = []
  | .error _ _, rest => rest = []
  | .service _ _, rest => rest = [] ∨ rest.head? = some 0

/-! ## Numbers and bytes -/

/-- The number with these bytes, least significant first. -/
def leVal : List Nat → Nat
  | [] => 0
  | b :: r => b + 256 * leVal r

theorem leBytes_length (n v : Nat) : (leBytes n v).length = n := by
  induction n generalizing v with
  | zero => rfl
  | succ n ih => simp [leBytes, ih]

theorem leBytes_bytes (n v : Nat) : Bytes (leBytes n v) := by
  induction n generalizing v with
  | zero => intro b hb; simp [leBytes] at hb
  | succ n ih =>
    intro b hb
    rw [leBytes, List.mem_cons] at hb
    rcases hb with rfl | hb
    · omega
    · exact ih _ b hb

theorem leVal_leBytes (n : Nat) {v : Nat} (h : v < 256 ^ n) : leVal (leBytes n v) = v := by
  induction n generalizing v with
  | zero => simp at h; simp [leBytes, leVal, h]
  | succ n ih =>
    have hd : v / 256 < 256 ^ n := by
      rw [Nat.pow_succ] at h
      exact Nat.div_lt_of_lt_mul (by rw [Nat.mul_comm]; exact h)
    rw [leBytes, leVal, ih hd]; omega

theorem leBytes_leVal {l : List Nat} (h : Bytes l) : leBytes l.length (leVal l) = l := by
  induction l with
  | nil => rfl
  | cons b r ih =>
    have hb : b < 256 := h b (by simp)
    have hr : Bytes r := fun x hx => h x (by simp [hx])
    simp only [List.length_cons, leBytes, leVal]
    rw [show (b + 256 * leVal r) % 256 = b by omega, show (b + 256 * leVal r) / 256 = leVal r by omega, ih hr]

theorem leVal_lt {l : List Nat} (h : Bytes l) : leVal l < 256 ^ l.length := by
  induction l with
  | nil => simp [leVal]
  | cons b r ih =>
    have hb : b < 256 := h b (by simp)
    have hr := ih fun x hx => h x (by simp [hx])
    simp only [List.length_cons, leVal, Nat.pow_succ]
    omega

theorem foldl_be (l : List Nat) (a : Nat) :
    l.foldl (fun n b => 256 * n + b) a = 256 ^ l.length * a + leVal l.reverse := by
  induction l generalizing a with
  | nil => simp [leVal]
  | cons b r ih =>
    have happ : ∀ (x : List Nat) (y : Nat), leVal (x ++ [y]) = leVal x + 256 ^ x.length * y := by
      intro x y
      induction x with
      | nil => simp [leVal]
      | cons z w ihw =>
        have e : 256 ^ (w.length + 1) * y = 256 * (256 ^ w.length * y) := by rw [Nat.pow_succ, Nat.mul_comm (256 ^ w.length) 256, Nat.mul_assoc]
        simp only [List.cons_append, leVal, ihw, List.length_cons, e]; omega
    rw [List.foldl_cons, ih, List.reverse_cons, happ, List.length_cons, List.length_reverse, Nat.pow_succ, Nat.mul_add]
    rw [Nat.mul_assoc]; omega

theorem uuidOf_eq (l : List Nat) : uuidOf l = leVal l.reverse := by
  rw [uuidOf, foldl_be]; simp

theorem uuidBytes_length (u : Nat) : (uuidBytes u).length = 16 := by simp [uuidBytes, leBytes_length]

theorem uuidBytes_bytes (u : Nat) : Bytes (uuidBytes u) := by
  intro b hb
  rw [uuidBytes, List.mem_reverse] at hb
  exact leBytes_bytes _ _ b hb

theorem uuidOf_uuidBytes {u : Nat} (h : u < 2 ^ 128) : uuidOf (uuidBytes u) = u := by
  rw [uuidOf_eq, uuidBytes, List.reverse_reverse]
  exact leVal_leBytes 16 (by simpa using h)

theorem uuidBytes_uuidOf {l : List Nat} (h : Bytes l) (hl : l.length = 16) : uuidBytes (uuidOf l) = l ∧ uuidOf l < 2 ^ 128 := by
  have hr : Bytes l.reverse := fun b hb => h b (List.mem_reverse.1 hb)
  have h1 := leBytes_leVal hr
  have h2 := leVal_lt hr
  rw [List.length_reverse, hl] at h1 h2
  refine ⟨?_, by rw [uuidOf_eq]; simpa using h2⟩
  rw [uuidOf_eq, uuidBytes, h1, List.reverse_reverse]

/-! ## Readers on a list split into its fields -/

theorem byteAt_append (a : List Nat) (b : Nat) (r : List Nat) {i : Nat} (h : i = a.length) : byteAt (a ++ b :: r) i = .ok b := by
  subst h; simp [byteAt]

theorem readLe_append (n : Nat) (a x r : List Nat) {i : Nat} (hi : i = a.length) (hn : n = x.length) :
    readLe (a ++ (x ++ r)) i n = .ok (leVal x) := by
  induction n generalizing a x i with
  | zero =>
    cases x with
    | nil => rfl
    | cons _ _ => simp at hn
  | succ n ih =>
    cases x with
    | nil => simp at hn
    | cons b x =>
      have h1 := ih (a := a ++ [b]) (x := x) (i := i + 1) (by simp [hi]) (by simpa using hn)
      rw [List.append_assoc, List.singleton_append] at h1
      rw [readLe, List.cons_append, byteAt_append a b _ hi, Out.bind_ok, h1]
      rfl

theorem slice_append (a x r : List Nat) {i j : Nat} (hi : i = a.length) (hj : j = a.length + x.length) :
    slice (a ++ (x ++ r)) i j = .ok x := by
  subst hi hj
  rw [slice, if_pos (by simp only [List.length_append]; omega)]
  simp

theorem slice_end (a x : List Nat) {i j : Nat} (hi : i = a.length) (hj : j = (a ++ x).length) :
    slice (a ++ x) i j = .ok x := by
  have := slice_append a x [] hi (by simpa using hj)
  simpa using this

theorem readGroups_append (x : List Nat) (a : List Nat) {i : Nat} (hi : i = a.length) (hx : Bytes x) :
    ∃ gs rest, readGroups (a ++ x) i = .ok gs ∧ x = gs.flatMap (leBytes 4) ++ rest ∧ rest.length < 4 ∧ ∀ g ∈ gs, g < 2 ^ 32 := by
  induction hn : x.length using Nat.strongRecOn generalizing x a i with
  | ind n ih =>
    subst hn
    by_cases h4 : x.length < 4
    · refine ⟨[], x, ?_, by simp, h4, by simp⟩
      rw [readGroups, if_neg (by simp only [List.length_append]; omega)]
    · have hsplit : x = x.take 4 ++ x.drop 4 := (List.take_append_drop 4 x).symm
      have hl : (x.take 4).length = 4 := by rw [List.length_take]; omega
      have hb4 : Bytes (x.take 4) := fun b hb => hx b (List.mem_of_mem_take hb)
      obtain ⟨gs, rest, h1, h2, h3, h5⟩ := ih (x.drop 4).length (by rw [List.length_drop]; omega) (x.drop 4) (a ++ x.take 4)
        (i := i + 4) (by simp [hi, hl]) (fun b hb => hx b (List.mem_of_mem_drop hb)) rfl
      have hv := leBytes_leVal hb4
      have hlt := leVal_lt hb4
      rw [hl] at hv hlt
      refine ⟨leVal (x.take 4) :: gs, rest, ?_, ?_, h3, ?_⟩
      · rw [readGroups, if_pos (by simp only [List.length_append]; omega)]
        conv => lhs; rw [hsplit]
        rw [readLe_append 4 a (x.take 4) (x.drop 4) hi hl.symm, Out.bind_ok]
        rw [List.append_assoc] at h1
        rw [h1]; rfl
      · rw [List.flatMap_cons, hv, List.append_assoc, ← h2, List.take_append_drop]
      · intro g hg
        rcases List.mem_cons.1 hg with rfl | hg
        · simpa using hlt
        · exact h5 g hg

theorem flatMap_le_inj {gs gs' : List Nat} {r r' : List Nat} (hr : r.length < 4) (hr' : r'.length < 4)
    (hg : ∀ g ∈ gs, g < 2 ^ 32) (hg' : ∀ g ∈ gs', g < 2 ^ 32)
    (h : gs.flatMap (leBytes 4) ++ r = gs'.flatMap (leBytes 4) ++ r') : gs = gs' := by
  have hlen : ∀ l : List Nat, (l.flatMap (leBytes 4)).length = 4 * l.length := by
    intro l; induction l with
    | nil => rfl
    | cons a l ih => simp only [List.flatMap_cons, List.length_append, leBytes_length, ih, List.length_cons]; omega
  induction gs generalizing gs' with
  | nil =>
    cases gs' with
    | nil => rfl
    | cons g gs' =>
      have := congrArg List.length h
      simp only [List.length_append, hlen, List.length_nil, List.length_cons] at this; omega
  | cons g gs ih =>
    cases gs' with
    | nil =>
      have := congrArg List.length h
      simp only [List.length_append, hlen, List.length_nil, List.length_cons] at this; omega
    | cons g' gs' =>
      simp only [List.flatMap_cons, List.append_assoc] at h
      obtain ⟨h1, h2⟩ := List.append_inj h (by simp [leBytes_length])
      have h3 := congrArg leVal h1
      rw [leVal_leBytes 4 (by simpa using hg g (by simp)), leVal_leBytes 4 (by simpa using hg' g' (by simp))] at h3
      rw [h3, ih (fun x hx => hg x (by simp [hx])) (fun x hx => hg' x (by simp [hx])) h2]

/-! ## Completeness: what is written is read -/

theorem parsePayload_wire {st : Nat} {p : CallPayload} (h : p.Fits st) {rest : List Nat}
    (hr : ∀ l, p = .raw l → rest = []) : parsePayload st (p.wire ++ rest) = .ok p := by
  cases p with
  | groupTx s d p a v =>
    obtain ⟨rfl, hs, hd, hp, ha, hv⟩ := h
    have e : (CallPayload.groupTx s d p a v).wire ++ rest =
        leBytes 4 s ++ (leBytes 4 d ++ (p :: a :: (leBytes 2 v ++ rest))) := by simp [CallPayload.wire]
    rw [e, parsePayload, if_pos rfl, if_neg (by simp only [List.length_append, leBytes_length, List.length_cons]; omega)]
    have h0 := readLe_append 4 [] (leBytes 4 s) (leBytes 4 d ++ (p :: a :: (leBytes 2 v ++ rest))) (i := 0) rfl (by simp [leBytes_length])
    have h4 := readLe_append 4 (leBytes 4 s) (leBytes 4 d) (p :: a :: (leBytes 2 v ++ rest)) (i := 4) (by simp [leBytes_length]) (by simp [leBytes_length])
    have h8 := byteAt_append (leBytes 4 s ++ leBytes 4 d) p (a :: (leBytes 2 v ++ rest)) (i := 8) (by simp [leBytes_length])
    have h9 := byteAt_append (leBytes 4 s ++ leBytes 4 d ++ [p]) a (leBytes 2 v ++ rest) (i := 9) (by simp [leBytes_length])
    have h10 := readLe_append 2 (leBytes 4 s ++ leBytes 4 d ++ [p, a]) (leBytes 2 v) rest (i := 10) (by simp [leBytes_length]) (by simp [leBytes_length])
    simp only [List.nil_append, List.append_assoc, List.cons_append] at h0 h4 h8 h9 h10
    rw [h0, Out.bind_ok, h4, Out.bind_ok, h8, Out.bind_ok, h9, Out.bind_ok, h10, Out.bind_ok]
    rw [leVal_leBytes 4 (by simpa using hs), leVal_leBytes 4 (by simpa using hd), leVal_leBytes 2 (by simpa using hv)]
  | cause c =>
    obtain ⟨hst, hc⟩ := h
    have h3 : st = 3 ∨ st = 6 ∨ st = 10 := by simpa using hst
    rw [parsePayload, if_neg (by omega), if_pos h3]
    simp [CallPayload.wire, byteAt]
  | empty =>
    have h5 : st = 5 ∨ st = 7 := by simpa [CallPayload.Fits] using h
    rw [parsePayload, if_neg (by omega), if_neg (by omega), if_pos h5]
  | shortTransfer s d =>
    obtain ⟨rfl, hs, hd⟩ := h
    have e : (CallPayload.shortTransfer s d).wire ++ rest = leBytes 4 s ++ (leBytes 4 d ++ rest) := by simp [CallPayload.wire]
    rw [e, parsePayload, if_neg (by omega), if_neg (by omega), if_neg (by omega), if_pos rfl,
      if_neg (by simp only [List.length_append, leBytes_length]; omega)]
    have h0 := readLe_append 4 [] (leBytes 4 s) (leBytes 4 d ++ rest) (i := 0) rfl (by simp [leBytes_length])
    have h4 := readLe_append 4 (leBytes 4 s) (leBytes 4 d) rest (i := 4) (by simp [leBytes_length]) (by simp [leBytes_length])
    rw [List.nil_append] at h0
    rw [h0, Out.bind_ok, h4, Out.bind_ok, leVal_leBytes 4 (by simpa using hs), leVal_leBytes 4 (by simpa using hd)]
  | raw l =>
    obtain ⟨hst, -⟩ := h
    simp only [List.mem_cons, List.not_mem_nil, or_false, not_or] at hst
    rw [parsePayload, if_neg (by omega), if_neg (by omega), if_neg (by omega), if_neg (by omega), hr l rfl]
    simp [CallPayload.wire]

theorem parseBrew_cons (utf8 : List Nat → Bool) (k t : Nat) (r : List Nat) :
    parseBrew utf8 (k :: t :: r) =
      if k = 0xf0 then parseSubscriber t (k :: t :: r)
      else if k = 0xf1 then parseCall t (k :: t :: r)
      else if k = 0xf2 then parseFrame t (k :: t :: r)
      else if k = 0xf3 then parseError t (k :: t :: r)
      else if k = 0xf4 then parseService utf8 t (k :: t :: r)
      else .err := by
  rw [parseBrew, if_neg (by simp)]; rfl

theorem findIdx_zero {j rest : List Nat} (hj : 0 ∉ j) (hr : rest = [] ∨ rest.head? = some 0) :
    (((j ++ rest).findIdx? (· = 0)).getD (j ++ rest).length) = j.length := by
  rw [List.findIdx?_append]
  have h1 : j.findIdx? (· = 0) = none := by
    rw [List.findIdx?_eq_none_iff]
    intro x hx
    have : x ≠ 0 := fun h => hj (h ▸ hx)
    simpa using this
  rw [h1]
  rcases hr with rfl | hr
  · simp
  · cases rest with
    | nil => simp at hr
    | cons a r =>
      simp only [List.head?_cons, Option.some.injEq] at hr
      subst hr
      simp [List.findIdx?_cons]

theorem parse_wire {utf8 : List Nat → Bool} {m : BrewMsg} (h : m.Fits utf8) {rest : List Nat} (hb : Bytes rest)
    (hr : m.Ignores rest) : parseBrew utf8 (m.wire ++ rest) = .ok m := by
  cases m with
  | subscriber t n time f gs =>
    obtain ⟨ht, hn, htime, hf, hg⟩ := h
    have e : (BrewMsg.subscriber t n time f gs).wire ++ rest =
        [0xf0, t] ++ (leBytes 4 n ++ (leBytes 8 time ++ (leBytes 4 f ++ (gs.flatMap (leBytes 4) ++ rest)))) := by simp [BrewMsg.wire]
    have hx : Bytes (gs.flatMap (leBytes 4) ++ rest) := by
      intro b hm
      rcases List.mem_append.1 hm with hm | hm
      · obtain ⟨g, -, hg2⟩ := List.mem_flatMap.1 hm
        exact leBytes_bytes _ _ b hg2
      · exact hb b hm
    have h2 := readLe_append 4 [0xf0, t] (leBytes 4 n) (leBytes 8 time ++ (leBytes 4 f ++ (gs.flatMap (leBytes 4) ++ rest))) (i := 2) rfl (by simp [leBytes_length])
    have h6 := readLe_append 8 ([0xf0, t] ++ leBytes 4 n) (leBytes 8 time) (leBytes 4 f ++ (gs.flatMap (leBytes 4) ++ rest)) (i := 6) (by simp [leBytes_length]) (by simp [leBytes_length])
    have h14 := readLe_append 4 ([0xf0, t] ++ leBytes 4 n ++ leBytes 8 time) (leBytes 4 f) (gs.flatMap (leBytes 4) ++ rest) (i := 14) (by simp [leBytes_length]) (by simp [leBytes_length])
    obtain ⟨gs', rest', h18, hs, hl, hg'⟩ := readGroups_append (gs.flatMap (leBytes 4) ++ rest)
      ([0xf0, t] ++ leBytes 4 n ++ leBytes 8 time ++ leBytes 4 f) (i := 18) (by simp [leBytes_length]) hx
    have hgs := flatMap_le_inj hr hl hg hg' hs
    subst hgs
    simp only [List.append_assoc, List.cons_append, List.nil_append] at e h2 h6 h14 h18
    rw [e, parseBrew_cons, if_pos rfl, parseSubscriber,
      if_neg (by simp only [List.length_append, leBytes_length, List.length_cons]; omega),
      h2, Out.bind_ok, h6, Out.bind_ok, h14, Out.bind_ok, h18, Out.bind_ok,
      leVal_leBytes 4 (by simpa using hn), leVal_leBytes 8 (by simpa using htime), leVal_leBytes 4 (by simpa using hf)]
  | call st u p =>
    obtain ⟨hst, hu, hp⟩ := h
    have e : (BrewMsg.call st u p).wire ++ rest = [0xf1, st] ++ (uuidBytes u ++ (p.wire ++ rest)) := by simp [BrewMsg.wire]
    have h1 := slice_append [0xf1, st] (uuidBytes u) (p.wire ++ rest) (i := 2) (j := 18) rfl (by simp [uuidBytes_length])
    have h2 := slice_end ([0xf1, st] ++ uuidBytes u) (p.wire ++ rest) (i := 18) (by simp [uuidBytes_length]) rfl
    have h3 := parsePayload_wire hp (rest := rest) (by intro l hl; subst hl; exact hr)
    simp only [List.append_assoc, List.cons_append, List.nil_append] at e h1 h2
    rw [e, parseBrew_cons, if_neg (by decide), if_pos rfl, parseCall,
      if_neg (by simp only [List.length_append, uuidBytes_length, List.length_cons]; omega),
      h1, Out.bind_ok, h2, Out.bind_ok, h3, Out.bind_ok, uuidOf_uuidBytes hu]
  | frame t u bits d =>
    obtain ⟨ht, hu, hbits, hd⟩ := h
    have hr : rest = [] := hr
    subst hr
    have e : (BrewMsg.frame t u bits d).wire ++ [] = [0xf2, t] ++ (uuidBytes u ++ (leBytes 2 bits ++ d)) := by simp [BrewMsg.wire]
    have h1 := slice_append [0xf2, t] (uuidBytes u) (leBytes 2 bits ++ d) (i := 2) (j := 18) rfl (by simp [uuidBytes_length])
    have h2 := readLe_append 2 ([0xf2, t] ++ uuidBytes u) (leBytes 2 bits) d (i := 18) (by simp [uuidBytes_length]) (by simp [leBytes_length])
    have h3 := slice_end ([0xf2, t] ++ uuidBytes u ++ leBytes 2 bits) d (i := 20) (by simp [uuidBytes_length, leBytes_length]) rfl
    simp only [List.append_assoc, List.cons_append, List.nil_append] at e h1 h2 h3
    rw [e, parseBrew_cons, if_neg (by decide), if_neg (by decide), if_pos rfl, parseFrame,
      if_neg (by simp only [List.length_append, uuidBytes_length, leBytes_length, List.length_cons]; omega),
      h1, Out.bind_ok, h2, Out.bind_ok, h3, Out.bind_ok, uuidOf_uuidBytes hu, leVal_leBytes 2 (by simpa using hbits)]
  | error t d =>
    have hr : rest = [] := hr
    subst hr
    have h3 := slice_end [0xf3, t] d (i := 2) rfl rfl
    simp only [List.cons_append, List.nil_append] at h3
    simp only [BrewMsg.wire, List.append_nil, List.cons_append, List.nil_append]
    rw [parseBrew_cons, if_neg (by decide), if_neg (by decide), if_neg (by decide), if_pos rfl, parseError, h3]
    rfl
  | service t j =>
    obtain ⟨ht, hj, h0, hu⟩ := h
    have h3 := slice_end [0xf4, t] (j ++ rest) (i := 2) rfl rfl
    have h4 := slice_append [] j rest (i := 0) (j := j.length) rfl (by simp)
    simp only [List.cons_append, List.nil_append] at h3 h4
    simp only [BrewMsg.wire, List.cons_append, List.nil_append]
    rw [parseBrew_cons, if_neg (by decide), if_neg (by decide), if_neg (by decide), if_neg (by decide), if_pos rfl,
      parseService, h3, Out.bind_ok, findIdx_zero h0 hr, h4, Out.bind_ok, hu]
    rfl

/-! ## Soundness: what is read was written -/

theorem Bytes.append {a b : List Nat} : Bytes (a ++ b) ↔ Bytes a ∧ Bytes b := by
  unfold Bytes
  constructor
  · intro h; exact ⟨fun x hx => h x (List.mem_append.2 (.inl hx)), fun x hx => h x (List.mem_append.2 (.inr hx))⟩
  · rintro ⟨h1, h2⟩ x hx
    rcases List.mem_append.1 hx with hx | hx
    · exact h1 x hx
    · exact h2 x hx

/-- Split off the first `n` bytes. -/
theorem cut {l : List Nat} (n : Nat) (h : n ≤ l.length) : ∃ a r, l = a ++ r ∧ a.length = n :=
  ⟨l.take n, l.drop n, (List.take_append_drop n l).symm, by rw [List.length_take]; omega⟩

theorem le_field {n : Nat} {a : List Nat} (ha : Bytes a) (hn : a.length = n) : ∃ v, a = leBytes n v ∧ v < 256 ^ n := by
  subst hn
  exact ⟨leVal a, (leBytes_leVal ha).symm, leVal_lt ha⟩

theorem uuid_field {a : List Nat} (ha : Bytes a) (hn : a.length = 16) : ∃ u, a = uuidBytes u ∧ u < 2 ^ 128 :=
  ⟨uuidOf a, (uuidBytes_uuidOf ha hn).1.symm, (uuidBytes_uuidOf ha hn).2⟩

theorem payload_split {st : Nat} {l : List Nat} (hl : Bytes l) :
    parsePayload st l = .err ∨ ∃ (p : CallPayload) (rest : List Nat), p.Fits st ∧ l = p.wire ++ rest ∧ (∀ x, p = .raw x → rest = []) := by
  by_cases h2 : st = 2
  · by_cases hlen : l.length < 12
    · left; rw [parsePayload, if_pos h2, if_pos hlen]
    · right
      obtain ⟨a, r, rfl, ha⟩ := cut 4 (by omega : 4 ≤ l.length)
      simp only [List.length_append] at hlen
      obtain ⟨b, r, rfl, hb⟩ := cut 4 (by omega : 4 ≤ r.length)
      simp only [List.length_append] at hlen
      match r, hlen with
      | p :: x :: r, hlen =>
        simp only [List.length_cons] at hlen
        obtain ⟨c, r, rfl, hc⟩ := cut 2 (by omega : 2 ≤ r.length)
        obtain ⟨h1, hl⟩ := Bytes.append.1 hl
        obtain ⟨h3, hl⟩ := Bytes.append.1 hl
        have hp : p < 256 := hl p (by simp)
        have hx : x < 256 := hl x (by simp)
        have hc2 : Bytes c := fun y hy => hl y (by simp [hy])
        obtain ⟨s, rfl, hs⟩ := le_field h1 ha
        obtain ⟨d, rfl, hd⟩ := le_field h3 hb
        obtain ⟨v, rfl, hv⟩ := le_field hc2 hc
        refine ⟨.groupTx s d p x v, r, ⟨h2, by simpa using hs, by simpa using hd, hp, hx, by simpa using hv⟩, ?_, by simp⟩
        simp [CallPayload.wire]
      | [_], hlen => simp only [List.length_cons, List.length_nil] at hlen; omega
      | [], hlen => simp only [List.length_nil] at hlen; omega
  · by_cases h3 : st = 3 ∨ st = 6 ∨ st = 10
    · cases l with
      | nil => left; rw [parsePayload, if_neg h2, if_pos h3]; rfl
      | cons c r => right; exact ⟨.cause c, r, ⟨by simpa using h3, hl c (by simp)⟩, rfl, by simp⟩
    · by_cases h5 : st = 5 ∨ st = 7
      · right; exact ⟨.empty, l, by simpa [CallPayload.Fits] using h5, rfl, by simp⟩
      · by_cases h11 : st = 11
        · by_cases hlen : l.length < 8
          · left; rw [parsePayload, if_neg h2, if_neg h3, if_neg h5, if_pos h11, if_pos hlen]
          · right
            obtain ⟨a, r, rfl, ha⟩ := cut 4 (by omega : 4 ≤ l.length)
            simp only [List.length_append] at hlen
            obtain ⟨b, r, rfl, hb⟩ := cut 4 (by omega : 4 ≤ r.length)
            obtain ⟨h1, hl⟩ := Bytes.append.1 hl
            obtain ⟨h3, hl⟩ := Bytes.append.1 hl
            obtain ⟨s, rfl, hs⟩ := le_field h1 ha
            obtain ⟨d, rfl, hd⟩ := le_field h3 hb
            refine ⟨.shortTransfer s d, r, ⟨h11, by simpa using hs, by simpa using hd⟩, ?_, by simp⟩
            simp [CallPayload.wire]
        · right
          refine ⟨.raw l, [], ⟨?_, hl⟩, by simp [CallPayload.wire], fun _ _ => rfl⟩
          simp only [List.mem_cons, List.not_mem_nil, or_false, not_or]
          omega

/-- Every received byte string is refused or is a message, followed by what that message ignores. -/
theorem parse_split (utf8 : List Nat → Bool) {data : List Nat} (hd : Bytes data) :
    parseBrew utf8 data = .err ∨ ∃ (m : BrewMsg) (rest : List Nat), m.Fits utf8 ∧ data = m.wire ++ rest ∧ m.Ignores rest := by
  match data, hd with
  | [], _ => exact .inl rfl
  | [_], _ => exact .inl rfl
  | k :: t :: r, hd =>
    have ht : t < 256 := hd t (by simp)
    have hr : Bytes r := fun b hb => hd b (by simp [hb])
    by_cases h0 : k = 0xf0
    · subst h0
      by_cases hlen : r.length < 16
      · left; rw [parseBrew_cons, if_pos rfl, parseSubscriber, if_pos (by simp only [List.length_cons]; omega)]
      · right
        obtain ⟨a, r, rfl, ha⟩ := cut 4 (by omega : 4 ≤ r.length)
        simp only [List.length_append] at hlen
        obtain ⟨b, r, rfl, hb⟩ := cut 8 (by omega : 8 ≤ r.length)
        simp only [List.length_append] at hlen
        obtain ⟨c, r, rfl, hc⟩ := cut 4 (by omega : 4 ≤ r.length)
        obtain ⟨h1, hr1⟩ := Bytes.append.1 hr
        obtain ⟨h2, hr2⟩ := Bytes.append.1 hr1
        obtain ⟨h3, hr3⟩ := Bytes.append.1 hr2
        obtain ⟨n, rfl, hn⟩ := le_field h1 ha
        obtain ⟨time, rfl, htime⟩ := le_field h2 hb
        obtain ⟨f, rfl, hf⟩ := le_field h3 hc
        obtain ⟨gs, rest, -, rfl, hlt, hg⟩ := readGroups_append r [] (i := 0) rfl hr3
        refine ⟨.subscriber t n time f gs, rest, ⟨ht, by simpa using hn, by simpa using htime, by simpa using hf, hg⟩, ?_, hlt⟩
        simp [BrewMsg.wire]
    · by_cases h1 : k = 0xf1
      · subst h1
        by_cases hlen : r.length < 16
        · left; rw [parseBrew_cons, if_neg h0, if_pos rfl, parseCall, if_pos (by simp only [List.length_cons]; omega)]
        · obtain ⟨a, r, rfl, ha⟩ := cut 16 (by omega : 16 ≤ r.length)
          obtain ⟨hab, hr1⟩ := Bytes.append.1 hr
          obtain ⟨u, rfl, hu⟩ := uuid_field hab ha
          rcases payload_split (st := t) hr1 with he | ⟨p, rest, hp, rfl, hraw⟩
          · left
            have h1 := slice_append [0xf1, t] (uuidBytes u) r (i := 2) (j := 18) rfl (by simp [uuidBytes_length])
            have h2 := slice_end ([0xf1, t] ++ uuidBytes u) r (i := 18) (by simp [uuidBytes_length]) rfl
            simp only [List.append_assoc, List.cons_append, List.nil_append] at h1 h2
            rw [parseBrew_cons, if_neg h0, if_pos rfl, parseCall,
              if_neg (by simp only [List.length_append, uuidBytes_length, List.length_cons]; omega),
              h1, Out.bind_ok, h2, Out.bind_ok, he]
            rfl
          · right
            refine ⟨.call t u p, rest, ⟨ht, hu, hp⟩, by simp [BrewMsg.wire], ?_⟩
            cases p with
            | raw l => exact hraw l rfl
            | _ => trivial
      · by_cases h2 : k = 0xf2
        · subst h2
          by_cases hlen : r.length < 18
          · left; rw [parseBrew_cons, if_neg h0, if_neg h1, if_pos rfl, parseFrame, if_pos (by simp only [List.length_cons]; omega)]
          · right
            obtain ⟨a, r, rfl, ha⟩ := cut 16 (by omega : 16 ≤ r.length)
            simp only [List.length_append] at hlen
            obtain ⟨b, r, rfl, hb⟩ := cut 2 (by omega : 2 ≤ r.length)
            obtain ⟨hab, hr1⟩ := Bytes.append.1 hr
            obtain ⟨hbb, hr2⟩ := Bytes.append.1 hr1
            obtain ⟨u, rfl, hu⟩ := uuid_field hab ha
            obtain ⟨v, rfl, hv⟩ := le_field hbb hb
            exact ⟨.frame t u v r, [], ⟨ht, hu, by simpa using hv, hr2⟩, by simp [BrewMsg.wire], rfl⟩
        · by_cases h3 : k = 0xf3
          · subst h3
            exact .inr ⟨.error t r, [], ⟨ht, hr⟩, by simp [BrewMsg.wire], rfl⟩
          · by_cases h4 : k = 0xf4
            · subst h4
              obtain ⟨j, rest, rfl, hz, hrest⟩ : ∃ j rest, r = j ++ rest ∧ 0 ∉ j ∧ (rest = [] ∨ rest.head? = some 0) := by
                clear hr hd
                induction r with
                | nil => exact ⟨[], [], rfl, by simp, .inl rfl⟩
                | cons b r ih =>
                  by_cases hb : b = 0
                  · exact ⟨[], b :: r, rfl, by simp, .inr (by simp [hb])⟩
                  · obtain ⟨j, rest, rfl, hz, hrest⟩ := ih
                    exact ⟨b :: j, rest, rfl, by simp [hz, Ne.symm hb], hrest⟩
              by_cases hu : utf8 j = true
              · exact .inr ⟨.service t j, rest, ⟨ht, (Bytes.append.1 hr).1, hz, hu⟩, by simp [BrewMsg.wire], hrest⟩
              · left
                have h3' := slice_end [0xf4, t] (j ++ rest) (i := 2) rfl rfl
                have h4' := slice_append [] j rest (i := 0) (j := j.length) rfl (by simp)
                simp only [List.cons_append, List.nil_append] at h3' h4'
                rw [parseBrew_cons, if_neg (by decide), if_neg (by decide), if_neg (by decide), if_neg (by decide), if_pos rfl,
                  parseService, h3', Out.bind_ok, findIdx_zero hz hrest, h4', Out.bind_ok, if_neg hu]
            · left; rw [parseBrew_cons, if_neg h0, if_neg h1, if_neg h2, if_neg h3, if_neg h4]

/-! ## C58 -/

/-- C58: a byte string is read as a message if and only if it is that message, field by field, followed by nothing but what
this kind of message ignores. -/
theorem c58_read (utf8 : List Nat → Bool) {data : List Nat} (hd : Bytes data) (m : BrewMsg) :
    parseBrew utf8 data = .ok m ↔ m.Fits utf8 ∧ ∃ rest, data = m.wire ++ rest ∧ m.Ignores rest := by
  constructor
  · intro h
    rcases parse_split utf8 hd with he | ⟨m', rest, hf, rfl, hi⟩
    · rw [he] at h; cases h
    · rw [parse_wire hf (Bytes.append.1 hd).2 hi] at h
      cases h
      exact ⟨hf, rest, rfl, hi⟩
  · rintro ⟨hf, rest, rfl, hi⟩
    exact parse_wire hf (Bytes.append.1 hd).2 hi

/-- C58: no bytes received from the network abort the reader. -/
theorem c58_total (utf8 : List Nat → Bool) {data : List Nat} (hd : Bytes data) : parseBrew utf8 data ≠ .panic := by
  rcases parse_split utf8 hd with he | ⟨m', rest, hf, rfl, hi⟩
  · rw [he]; simp
  · rw [parse_wire hf (Bytes.append.1 hd).2 hi]; simp

/-- C58: what the base station sends is read by a peer with the same reader as what was meant: subscriber messages. -/
theorem c58_subscriber (utf8 : List Nat → Bool) (now : Clock) (issi : Nat) (gs : List Nat) (hi : issi < 2 ^ 32)
    (hs : now.secs < 2 ^ 64) (hn : now.nanos < 2 ^ 32) (hg : ∀ g ∈ gs, g < 2 ^ 32) :
    parseBrew utf8 (buildRegister now issi gs) = .ok (.subscriber 1 issi now.secs now.nanos []) ∧
    parseBrew utf8 (buildReregister now issi) = .ok (.subscriber 2 issi now.secs now.nanos []) ∧
    parseBrew utf8 (buildAffiliate now issi gs) = .ok (.subscriber 8 issi now.secs now.nanos gs) ∧
    parseBrew utf8 (buildDeaffiliate now issi gs) = .ok (.subscriber 9 issi now.secs now.nanos gs) ∧
    parseBrew utf8 (buildDeregister now issi) = .ok (.subscriber 0 issi now.secs now.nanos []) := by
  have key : ∀ t gs', t < 256 → (∀ g ∈ gs', g < 2 ^ 32) →
      parseBrew utf8 (subHead t issi now ++ gs'.flatMap (leBytes 4)) = .ok (.subscriber t issi now.secs now.nanos gs') := by
    intro t gs' ht hg'
    have := parse_wire (utf8 := utf8) (m := .subscriber t issi now.secs now.nanos gs') (rest := []) ⟨ht, hi, hs, hn, hg'⟩
      (by intro b hb; simp at hb) (by simp [BrewMsg.Ignores])
    rwa [List.append_nil] at this
  refine ⟨?_, ?_, key 8 gs (by decide) hg, key 9 gs (by decide) hg, ?_⟩
  · simpa [buildRegister] using key 1 [] (by decide) (by simp)
  · simpa [buildReregister] using key 2 [] (by decide) (by simp)
  · simpa [buildDeregister] using key 0 [] (by decide) (by simp)

/-- C58: the same for calls, voice and short data. -/
theorem c58_traffic (utf8 : List Nat → Bool) {u a b c d : Nat} {data : List Nat} (hu : u < 2 ^ 128) (ha : a < 2 ^ 32) (hb : b < 2 ^ 32)
    (hc : c < 256) (hd : d < 2 ^ 16) (hdata : Bytes data) :
    parseBrew utf8 (buildGroupTx u a b c d) = .ok (.call 2 u (.groupTx a b c 0 d)) ∧
    parseBrew utf8 (buildIdle u c) = .ok (.call 3 u (.cause c)) ∧
    parseBrew utf8 (buildShort u a b) = .ok (.call 11 u (.shortTransfer a b)) ∧
    parseBrew utf8 (buildVoice u d data) = .ok (.frame 0 u d data) ∧
    parseBrew utf8 (buildSds u d data) = .ok (.frame 1 u d data) ∧
    parseBrew utf8 (buildReport u c) = .ok (.frame 2 u 8 [c]) := by
  have nil : Bytes [] := by intro b hb; simp at hb
  refine ⟨?_, ?_, ?_, ?_, ?_, ?_⟩
  · have := parse_wire (utf8 := utf8) (m := .call 2 u (.groupTx a b c 0 d)) (rest := [])
      ⟨by decide, hu, rfl, ha, hb, hc, by decide, hd⟩ nil trivial
    simpa [BrewMsg.wire, CallPayload.wire, buildGroupTx] using this
  · have := parse_wire (utf8 := utf8) (m := .call 3 u (.cause c)) (rest := []) ⟨by decide, hu, by decide, hc⟩ nil trivial
    simpa [BrewMsg.wire, CallPayload.wire, buildIdle] using this
  · have := parse_wire (utf8 := utf8) (m := .call 11 u (.shortTransfer a b)) (rest := List.replicate 32 0)
      ⟨by decide, hu, rfl, ha, hb⟩ (by intro b hb; rw [List.mem_replicate] at hb; omega) trivial
    simpa [BrewMsg.wire, CallPayload.wire, buildShort] using this
  · have := parse_wire (utf8 := utf8) (m := .frame 0 u d data) (rest := []) ⟨by decide, hu, hd, hdata⟩ nil rfl
    simpa [BrewMsg.wire, buildVoice] using this
  · have := parse_wire (utf8 := utf8) (m := .frame 1 u d data) (rest := []) ⟨by decide, hu, hd, hdata⟩ nil rfl
    simpa [BrewMsg.wire, buildSds] using this
  · have := parse_wire (utf8 := utf8) (m := .frame 2 u 8 [c]) (rest := [])
      ⟨by decide, hu, by decide, by intro b hb; simp at hb; omega⟩ nil rfl
    simpa [BrewMsg.wire, buildReport] using this

/-- A voice frame of three bytes for session 5, and what is read from it. -/
example : buildVoice 5 24 [7, 8, 9] = [0xf2, 0, 0, 0, 0, 0, 0, 0, 0, 0, 0, 0, 0, 0, 0, 0, 0, 5, 24, 0, 7, 8, 9] ∧
    parseBrew (fun _ => true) (buildVoice 5 24 [7, 8, 9]) = .ok (.frame 0 5 24 [7, 8, 9]) := by decide +kernel

end Verif.Brew
