import Verif.Net.Console
import Verif.Net.DigestProps
/-!
# C102 — What is typed into the control console is what the base stations are told
-/
namespace Verif.Net.Console
open Verif.Cmce (SendSds)
open Verif.Net.Digest (Str ws trim trimBy cutAt splitAt trimBy_core dropWhile_all)

/-! ## Specification: commands as typed -/

def Blank (s : Str) : Prop := ∀ c ∈ s, ws c = true

/-- The text is the number in decimal, perhaps with zeros in front. -/
def Decimal (s : Str) (n : Nat) : Prop :=
  s ≠ [] ∧ (∀ c ∈ s, '0' ≤ c ∧ c ≤ '9') ∧ s.foldl (fun v c => 10 * v + (c.toNat - '0'.toNat)) 0 = n

/-- The character is the hexadecimal digit of the value, in either case. -/
def Nibble (c : Char) (v : Nat) : Prop := "0123456789abcdef".toList[v]? = some c ∨ "0123456789ABCDEF".toList[v]? = some c

/-- Bytes as pairs of hexadecimal digits. -/
inductive Pairs : Str → List Nat → Prop
  | nil : Pairs [] []
  | cons {a b : Char} {x y : Nat} {s : Str} {bs : List Nat} :
    Nibble a x → Nibble b y → Pairs s bs → Pairs (a :: b :: s) ((16 * x + y) :: bs)

/-- The words of a command. -/
structure Words where
  lead : Str
  gap : Str
  source : Str
  w2 : Char
  dest : Str
  w3 : Char
  group : Str
  w4 : Char
  hex : Str
  trail : Str

def Words.args (w : Words) : Str := w.source ++ w.w2 :: (w.dest ++ w.w3 :: (w.group ++ w.w4 :: w.hex))

def Words.text (w : Words) : Str := w.lead ++ ("sendsds".toList ++ (w.gap ++ w.args)) ++ w.trail

/-- The line is a command to send `payload` from `source` to `dest`: the word `sendsds`, two decimal numbers below 2^32, `true`, `1`,
`false` or `0`, and the bytes in hexadecimal, after `0x` or not, with blanks between the digits or not; one blank between the words
(more after the first and before the bytes), and blanks at the ends. -/
def Says (line : Str) (source dest : Nat) (group : Bool) (payload : List Nat) : Prop :=
  ∃ w : Words, line = w.text ∧ Blank w.lead ∧ Blank w.trail ∧ Blank w.gap ∧ w.gap ≠ [] ∧
    ws w.w2 = true ∧ ws w.w3 = true ∧ ws w.w4 = true ∧
    Decimal w.source source ∧ source < 2 ^ 32 ∧ Decimal w.dest dest ∧ dest < 2 ^ 32 ∧
    (group = true ∧ (w.group = "true".toList ∨ w.group = "1".toList) ∨
      group = false ∧ (w.group = "false".toList ∨ w.group = "0".toList)) ∧
    (∃ c, w.hex.getLast? = some c ∧ ws c = false) ∧
    ∃ t, Pairs t payload ∧ (w.hex.filter (fun c => !ws c) = t ∨ w.hex.filter (fun c => !ws c) = '0' :: 'x' :: t ∨
      w.hex.filter (fun c => !ws c) = '0' :: 'X' :: t)

/-! ## Words -/

theorem cutWs_append {a b : Str} {w : Char} (ha : ∀ c ∈ a, ws c = false) (hw : ws w = true) : cutWs (a ++ w :: b) = some (a, b) := by
  induction a with
  | nil => simp [cutWs, hw]
  | cons c a ih =>
    rw [List.cons_append, cutWs, ha c List.mem_cons_self, ih fun x hx => ha x (List.mem_cons_of_mem _ hx)]
    rfl

theorem cutWs_some {s a b : Str} (h : cutWs s = some (a, b)) : ∃ w, ws w = true ∧ s = a ++ w :: b ∧ ∀ c ∈ a, ws c = false := by
  induction s generalizing a with
  | nil => cases h
  | cons c s ih =>
    rw [cutWs] at h
    split at h
    · rename_i hc
      cases h
      exact ⟨c, hc, rfl, by simp⟩
    · rename_i hc
      obtain ⟨x, hx, e⟩ := Option.map_eq_some_iff.1 h
      cases e
      obtain ⟨w, h1, h2, h3⟩ := ih hx
      refine ⟨w, h1, by rw [h2]; rfl, fun y hy => ?_⟩
      rcases List.mem_cons.1 hy with rfl | hy
      · simpa using hc
      · exact h3 y hy

theorem dropWhile_split (s : Str) : ∃ a, Blank a ∧ s = a ++ s.dropWhile ws ∧ ∀ c, (s.dropWhile ws).head? = some c → ws c = false := by
  induction s with
  | nil => exact ⟨[], by simp [Blank], rfl, by simp⟩
  | cons c s ih =>
    by_cases hc : ws c = true
    · obtain ⟨a, h1, h2, h3⟩ := ih
      refine ⟨c :: a, ?_, ?_, ?_⟩
      · intro x hx
        rcases List.mem_cons.1 hx with rfl | hx
        · exact hc
        · exact h1 x hx
      · rw [List.dropWhile_cons, if_pos hc, List.cons_append, ← h2]
      · rw [List.dropWhile_cons, if_pos hc]; exact h3
    · refine ⟨[], by simp [Blank], ?_, ?_⟩
      · rw [List.dropWhile_cons, if_neg hc]; rfl
      · rw [List.dropWhile_cons, if_neg hc]
        intro x hx
        cases hx
        simpa using hc

theorem trim_split (s : Str) : ∃ a b, Blank a ∧ Blank b ∧ s = a ++ trim s ++ b ∧ ∀ c, (trim s).getLast? = some c → ws c = false := by
  obtain ⟨a, h1, h2, _⟩ := dropWhile_split s
  obtain ⟨b, h4, h5, h6⟩ := dropWhile_split (s.dropWhile ws).reverse
  refine ⟨a, b.reverse, h1, ?_, ?_, ?_⟩
  · intro c hc; exact h4 c (by simpa using hc)
  · have : s.dropWhile ws = trim s ++ b.reverse := by
      have := congrArg List.reverse h5
      simpa [trim, trimBy] using this
    rw [List.append_assoc, ← this, ← h2]
  · intro c hc
    apply h6
    rw [← hc, trim, trimBy, List.getLast?_reverse]

theorem filter_dropWhile (s : Str) : (s.dropWhile ws).filter (fun c => !ws c) = s.filter fun c => !ws c := by
  induction s with
  | nil => rfl
  | cons c s ih =>
    by_cases hc : ws c = true
    · rw [List.dropWhile_cons, if_pos hc, ih]; simp [hc]
    · rw [List.dropWhile_cons, if_neg hc]

theorem filter_trim (s : Str) : (trim s).filter (fun c => !ws c) = s.filter fun c => !ws c := by
  rw [trim, trimBy, List.filter_reverse, filter_dropWhile, List.filter_reverse, List.reverse_reverse, filter_dropWhile]

/-! ## Numbers -/

theorem char_le {a b : Char} : a ≤ b ↔ a.toNat ≤ b.toNat := by
  rw [Char.le_def, UInt32.le_iff_toNat_le]; rfl

theorem digitOf_ten (c : Char) : digitOf 10 c = if '0' ≤ c ∧ c ≤ '9' then some (c.toNat - 48) else none := by
  simp only [char_le, show ('0' : Char).toNat = 48 from rfl, show ('9' : Char).toNat = 57 from rfl, digitOf]
  repeat' split
  all_goals first
    | rfl
    | omega

theorem digits_ten (s : Str) (acc n : Nat) :
    digits 10 acc s = some n ↔ (∀ c ∈ s, '0' ≤ c ∧ c ≤ '9') ∧ s.foldl (fun v c => 10 * v + (c.toNat - '0'.toNat)) acc = n := by
  induction s generalizing acc with
  | nil => simp [digits]
  | cons c s ih =>
    rw [digits, digitOf_ten]
    by_cases hc : '0' ≤ c ∧ c ≤ '9'
    · rw [if_pos hc, Option.bind_some, ih, List.foldl_cons, Nat.mul_comm]
      simp only [List.mem_cons, forall_eq_or_imp, hc, true_and, and_true]
      rfl
    · rw [if_neg hc]
      simp only [Option.bind_none, reduceCtorEq, false_iff, not_and, List.mem_cons, forall_eq_or_imp]
      intro h; exact absurd h.1 hc

theorem stripPlus_id {s : Str} (h : s.head? ≠ some '+') : stripPlus s = s := by
  unfold stripPlus
  split
  · exact absurd rfl h
  · rfl

theorem number_iff {s : Str} (hp : '+' ∉ s) (n : Nat) : parseUnsigned 10 4294967296 s = some n ↔ Decimal s n ∧ n < 2 ^ 32 := by
  have e : parseUnsigned 10 4294967296 s = if s = [] then none else (digits 10 0 s).filter (· < 4294967296) := by
    rw [parseUnsigned, stripPlus_id fun h => hp (List.mem_of_mem_head? h)]
  rw [e]
  by_cases h0 : s = []
  · subst h0; simp [Decimal]
  · rw [if_neg h0, Option.filter_eq_some_iff, digits_ten]
    simp only [Decimal, decide_eq_true_eq, Nat.reducePow]
    constructor
    · rintro ⟨⟨a, b⟩, c⟩; exact ⟨⟨h0, a, b⟩, c⟩
    · rintro ⟨⟨_, a, b⟩, c⟩; exact ⟨⟨a, b⟩, c⟩

theorem decimal_plus {s : Str} {n : Nat} (h : Decimal s n) : '+' ∉ s := fun hm => absurd (h.2.1 _ hm) (by decide)

theorem digit_ws {c : Char} (h : '0' ≤ c ∧ c ≤ '9') : ws c = false := by
  simp only [char_le, show ('0' : Char).toNat = 48 from rfl, show ('9' : Char).toNat = 57 from rfl] at h
  simp only [ws, Bool.or_eq_false_iff, Bool.and_eq_false_iff, decide_eq_false_iff_not, beq_eq_false_iff_ne]
  omega

/-! ## Bytes -/

theorem charLen_one {c : Char} (h : c.toNat < 128) : charLen c = 1 := by
  have : c.val ≤ 0x7f := by
    rw [UInt32.le_iff_toNat_le]; show c.toNat ≤ 127; omega
  simp [charLen, Char.utf8Size, this]

theorem nibble_iff (c : Char) (v : Nat) : Nibble c v ↔ digitOf 16 c = some v := by
  constructor
  · intro h
    have hv : v < 16 := by
      rcases h with h | h <;> exact (List.getElem?_eq_some_iff.1 h).1
    have key : ∀ i : Fin 16, ∀ c : Char, ("0123456789abcdef".toList[i.1]? = some c ∨ "0123456789ABCDEF".toList[i.1]? = some c) →
        digitOf 16 c = some i.1 := by
      have k1 : ∀ i : Fin 16, ("0123456789abcdef".toList[i.1]?).all (fun c => digitOf 16 c == some i.1) = true := by decide +kernel
      have k2 : ∀ i : Fin 16, ("0123456789ABCDEF".toList[i.1]?).all (fun c => digitOf 16 c == some i.1) = true := by decide +kernel
      intro i c h
      rcases h with h | h
      · have := k1 i; rw [h] at this; simpa using this
      · have := k2 i; rw [h] at this; simpa using this
    exact key ⟨v, hv⟩ c h
  · intro h
    have hn : (48 ≤ c.toNat ∧ c.toNat ≤ 57 ∧ v = c.toNat - 48) ∨ (97 ≤ c.toNat ∧ c.toNat ≤ 102 ∧ v = c.toNat - 87) ∨
        (65 ≤ c.toNat ∧ c.toNat ≤ 70 ∧ v = c.toNat - 55) := by
      simp only [digitOf] at h
      repeat' split at h
      all_goals first
        | (injection h with h; omega)
        | cases h
    have key : ∀ n : Fin 128, ((48 ≤ n.1 ∧ n.1 ≤ 57) → "0123456789abcdef".toList[n.1 - 48]? = some (Char.ofNat n.1)) ∧
        ((97 ≤ n.1 ∧ n.1 ≤ 102) → "0123456789abcdef".toList[n.1 - 87]? = some (Char.ofNat n.1)) ∧
        ((65 ≤ n.1 ∧ n.1 ≤ 70) → "0123456789ABCDEF".toList[n.1 - 55]? = some (Char.ofNat n.1)) := by decide +kernel
    have lt : c.toNat < 128 := by omega
    have := key ⟨c.toNat, lt⟩
    simp only [Char.ofNat_toNat] at this
    rcases hn with ⟨h1, h2, rfl⟩ | ⟨h1, h2, rfl⟩ | ⟨h1, h2, rfl⟩
    · exact Or.inl (this.1 ⟨h1, h2⟩)
    · exact Or.inl (this.2.1 ⟨h1, h2⟩)
    · exact Or.inr (this.2.2 ⟨h1, h2⟩)

theorem digit16 {c : Char} {v : Nat} (h : digitOf 16 c = some v) : c.toNat < 128 ∧ v < 16 ∧ c ≠ '+' ∧ c ≠ 'x' ∧ c ≠ 'X' ∧ ws c = false := by
  have hn : v < 16 ∧ ((48 ≤ c.toNat ∧ c.toNat ≤ 57) ∨ (97 ≤ c.toNat ∧ c.toNat ≤ 102) ∨ (65 ≤ c.toNat ∧ c.toNat ≤ 70)) := by
    simp only [digitOf] at h
    repeat' split at h
    all_goals first
      | (injection h with h; omega)
      | cases h
  refine ⟨by omega, hn.1, ?_, ?_, ?_, ?_⟩
  · rintro rfl; exact absurd hn.2 (by decide)
  · rintro rfl; exact absurd hn.2 (by decide)
  · rintro rfl; exact absurd hn.2 (by decide)
  · simp only [ws, Bool.or_eq_false_iff, Bool.and_eq_false_iff, decide_eq_false_iff_not, beq_eq_false_iff_ne]
    omega

theorem pair_eq {a b : Char} (ha : a ≠ '+') :
    parseUnsigned 16 256 [a, b] = (digitOf 16 a).bind fun x => (digitOf 16 b).bind fun y => some (16 * x + y) := by
  have e : parseUnsigned 16 256 [a, b] = (digits 16 0 [a, b]).filter (· < 256) := by
    rw [parseUnsigned, stripPlus_id (by simpa using ha)]
    rfl
  rw [e]
  cases hx : digitOf 16 a with
  | none => simp [digits, hx]
  | some x =>
    cases hy : digitOf 16 b with
    | none => simp [digits, hx, hy]
    | some y =>
      have h1 := (digit16 hx).2.1
      have h2 := (digit16 hy).2.1
      have : 0 * 16 + x = x := by omega
      simp only [digits, hx, hy, Option.bind_some, this, Option.filter_some, decide_eq_true_eq]
      rw [if_pos (by omega), Nat.mul_comm]

theorem pairs_read {s : Str} {bs : List Nat} (h : Pairs s bs) : hexPairs s = .ok (some bs) ∧ (s.map charLen).sum % 2 = 0 := by
  induction h with
  | nil => exact ⟨rfl, rfl⟩
  | @cons a b x y s bs ha hb _ ih =>
    rw [nibble_iff] at ha hb
    obtain ⟨a1, _, a3, _⟩ := digit16 ha
    obtain ⟨b1, _⟩ := digit16 hb
    refine ⟨?_, ?_⟩
    · rw [hexPairs, if_pos (charLen_one a1), if_pos (charLen_one b1), pair_eq a3, ha, hb]
      simp only [Option.bind_some]
      rw [ih.1]; rfl
    · simp only [List.map_cons, List.sum_cons, charLen_one a1, charLen_one b1]
      omega

theorem pairs_of {s : Str} (hp : '+' ∉ s) {bs : List Nat} (h : hexPairs s = .ok (some bs)) : Pairs s bs := by
  induction s using hexPairs.induct generalizing bs with
  | case1 => cases h; exact .nil
  | case2 c hc => rw [hexPairs, if_pos hc] at h; cases h
  | case3 c hc => rw [hexPairs, if_neg hc] at h; cases h
  | case4 a b s h1 h2 hn => rw [hexPairs, if_pos h1, if_pos h2, hn] at h; cases h
  | case5 a b s h1 h2 v hv ih =>
    rw [hexPairs, if_pos h1, if_pos h2, hv] at h
    simp only [List.mem_cons, not_or] at hp
    rw [pair_eq (fun e => hp.1 e.symm)] at hv
    obtain ⟨x, hx, hv⟩ := Option.bind_eq_some_iff.1 hv
    obtain ⟨y, hy, hv⟩ := Option.bind_eq_some_iff.1 hv
    cases hv
    cases hr : hexPairs s with
    | panic => rw [hr] at h; cases h
    | ok r =>
      rw [hr] at h
      cases r with
      | none => cases h
      | some r =>
        cases h
        exact .cons ((nibble_iff _ _).2 hx) ((nibble_iff _ _).2 hy) (ih hp.2.2 hr)
  | case6 a b s h1 h2 => rw [hexPairs, if_pos h1, if_neg h2] at h; cases h
  | case7 a b s h1 h2 => rw [hexPairs, if_neg h1, if_pos h2] at h; cases h
  | case8 a b s h1 h2 => rw [hexPairs, if_neg h1, if_neg h2] at h; cases h

theorem strip0x_pairs {t : Str} {bs : List Nat} (h : Pairs t bs) : strip0x t = t := by
  cases h with
  | nil => rfl
  | @cons a b x y s bs ha hb _ =>
    obtain ⟨_, _, _, b4, b5, _⟩ := digit16 ((nibble_iff _ _).1 hb)
    unfold strip0x
    split
    · rename_i e; injection e with _ e; injection e with e _; exact absurd e b4
    · rename_i e; injection e with _ e; injection e with e _; exact absurd e b5
    · rfl

theorem strip0x_cases (s : Str) : s = strip0x s ∨ s = '0' :: 'x' :: strip0x s ∨ s = '0' :: 'X' :: strip0x s := by
  unfold strip0x
  split
  · exact Or.inr (Or.inl rfl)
  · exact Or.inr (Or.inr rfl)
  · exact Or.inl rfl

/-! ## Commands -/

theorem splitN_append {n : Nat} {a b : Str} {w : Char} (ha : ∀ c ∈ a, ws c = false) (hw : ws w = true) :
    splitN (n + 2) (a ++ w :: b) = a :: splitN (n + 1) b := by
  rw [splitN, cutWs_append ha hw]

theorem decimal_ws {s : Str} {n : Nat} (h : Decimal s n) : ∀ c ∈ s, ws c = false := fun c hc => digit_ws (h.2.1 c hc)

theorem says_parse {line : Str} {source dest : Nat} {group : Bool} {payload : List Nat} (h : Says line source dest group payload)
    (handle : Nat) :
    parseCommand handle line = .ok (some ⟨handle, source, dest, group, 8 * payload.length % 65536, payload⟩) := by
  obtain ⟨w, rfl, hl, ht, hg, hg0, h2, h3, h4, hs, hs', hd, hd', hgr, ⟨e, he, hew⟩, t, hp, hh⟩ := h
  have hlast : ∀ (pre : Str), (pre ++ w.hex).getLast? = some e := by
    intro pre; rw [List.getLast?_append, he]; rfl
  have htrim : trim w.text = "sendsds".toList ++ (w.gap ++ w.args) := by
    refine trimBy_core hl ht ?_ ?_
    · intro c hc
      have : c = 's' := by simpa using hc.symm
      subst this; decide
    · intro c hc
      have := hlast ("sendsds".toList ++ (w.gap ++ (w.source ++ w.w2 :: (w.dest ++ w.w3 :: (w.group ++ [w.w4])))))
      have e2 : "sendsds".toList ++ (w.gap ++ (w.source ++ w.w2 :: (w.dest ++ w.w3 :: (w.group ++ [w.w4])))) ++ w.hex =
          "sendsds".toList ++ (w.gap ++ w.args) := by simp [Words.args, List.append_assoc]
      rw [e2, hc] at this
      cases this
      exact hew
  obtain ⟨g0, gs, hgap⟩ : ∃ g0 gs, w.gap = g0 :: gs := by
    cases hgg : w.gap with
    | nil => exact absurd hgg hg0
    | cons a b => exact ⟨a, b, rfl⟩
  have hverb : splitN 2 ("sendsds".toList ++ (w.gap ++ w.args)) = ["sendsds".toList, gs ++ w.args] := by
    rw [hgap, List.cons_append, splitN_append (by decide) (hg g0 (by rw [hgap]; exact List.mem_cons_self))]
    rfl
  have hargs : (gs ++ w.args).dropWhile ws = w.args := by
    rw [dropWhile_all fun c hc => hg c (by rw [hgap]; exact List.mem_cons_of_mem _ hc)]
    unfold Words.args
    cases hsrc : w.source with
    | nil => exact absurd hsrc hs.1
    | cons c cs =>
      rw [List.cons_append, List.dropWhile_cons, decimal_ws hs c (by rw [hsrc]; exact List.mem_cons_self)]
      rfl
  have hgw : ∀ c ∈ w.group, ws c = false := by
    rcases hgr with ⟨_, h | h⟩ | ⟨_, h | h⟩ <;> rw [h] <;> decide
  have hsplit : splitN 4 w.args = [w.source, w.dest, w.group, w.hex] := by
    unfold Words.args
    rw [splitN_append (decimal_ws hs) h2, splitN_append (decimal_ws hd) h3, splitN_append hgw h4]
    rfl
  have hhex : hexDecode (trim w.hex) = .ok (some payload) := by
    have hstrip : strip0x (w.hex.filter fun c => !ws c) = t := by
      rcases hh with h | h | h <;> rw [h]
      · exact strip0x_pairs hp
      · rfl
      · rfl
    unfold hexDecode
    simp only [filter_trim, hstrip]
    rw [if_neg (by have := (pairs_read hp).2; omega), (pairs_read hp).1]
  unfold parseCommand
  rw [htrim, hverb]
  simp only [if_true, List.headD_cons, hargs]
  unfold parseSendSds
  rw [hsplit]
  simp only [(number_iff (decimal_plus hs) source).2 ⟨hs, hs'⟩, (number_iff (decimal_plus hd) dest).2 ⟨hd, hd'⟩]
  rw [if_pos (by rcases hgr with ⟨_, h | h⟩ | ⟨_, h | h⟩ <;> simp only [h, true_or, or_true]), hhex, Nat.mul_comm 8]
  simp only [Res.bind]
  rcases hgr with ⟨rfl, h | h⟩ | ⟨rfl, h | h⟩ <;> rw [h] <;> rfl

theorem parse_says {line : Str} (hp : '+' ∉ line) {handle : Nat} {c : SendSds} (h : parseCommand handle line = .ok (some c)) :
    ∃ source dest group payload, Says line source dest group payload ∧
      c = ⟨handle, source, dest, group, 8 * payload.length % 65536, payload⟩ := by
  obtain ⟨lead, trail, hl, ht, hline, hend⟩ := trim_split line
  unfold parseCommand at h
  generalize trim line = core at h hline hend
  rw [splitN] at h
  cases hc : cutWs core with
  | none =>
    rw [hc] at h
    simp only at h
    split at h
    · simp [parseSendSds, splitN, cutWs] at h
    · cases h
  | some x =>
    obtain ⟨verb, rest⟩ := x
    rw [hc] at h
    simp only [splitN, List.headD_cons] at h
    obtain ⟨w1, hw1, hcore, _⟩ := cutWs_some hc
    split at h
    · rename_i hv
      obtain ⟨gap, hg1, hg2, _⟩ := dropWhile_split rest
      generalize rest.dropWhile ws = args at h hg2
      unfold parseSendSds at h
      split at h
      · rename_i a b g d hs
        -- the four words
        rw [splitN] at hs
        cases ca : cutWs args with
        | none => rw [ca] at hs; simp at hs
        | some x =>
          obtain ⟨a', r1⟩ := x
          rw [ca] at hs
          simp only [List.cons.injEq] at hs
          obtain ⟨rfl, hs⟩ := hs
          rw [splitN] at hs
          cases cb : cutWs r1 with
          | none => rw [cb] at hs; simp at hs
          | some x =>
            obtain ⟨b', r2⟩ := x
            rw [cb] at hs
            simp only [List.cons.injEq] at hs
            obtain ⟨rfl, hs⟩ := hs
            rw [splitN] at hs
            cases cg : cutWs r2 with
            | none => rw [cg] at hs; simp at hs
            | some x =>
              obtain ⟨g', r3⟩ := x
              rw [cg] at hs
              simp only [splitN, List.cons.injEq, and_true] at hs
              obtain ⟨rfl, rfl⟩ := hs
              obtain ⟨w2, hw2, e1, _⟩ := cutWs_some ca
              obtain ⟨w3, hw3, e2, _⟩ := cutWs_some cb
              obtain ⟨w4, hw4, e3, _⟩ := cutWs_some cg
              let w : Words := ⟨lead, w1 :: gap, a', w2, b', w3, g', w4, r3, trail⟩
              have htext : line = w.text := by
                rw [hline, hcore, hv, hg2, e1, e2, e3]
                simp [w, Words.text, Words.args]
              have pa : '+' ∉ a' := fun hx => hp (by rw [htext]; simp [w, Words.text, Words.args, hx])
              have pb : '+' ∉ b' := fun hx => hp (by rw [htext]; simp [w, Words.text, Words.args, hx])
              have pd : '+' ∉ r3 := fun hx => hp (by rw [htext]; simp [w, Words.text, Words.args, hx])
              split at h
              · rename_i source dest hsrc hdst
                rw [number_iff pa] at hsrc
                rw [number_iff pb] at hdst
                split at h
                · rename_i hgr
                  cases hx : hexDecode (trim r3) with
                  | panic => rw [hx] at h; cases h
                  | ok o =>
                    rw [hx] at h
                    cases o with
                    | none => cases h
                    | some payload =>
                      simp only [Res.bind, Res.ok.injEq, Option.some.injEq] at h
                      unfold hexDecode at hx
                      simp only [filter_trim] at hx
                      split at hx
                      · cases hx
                      · have hsub : '+' ∉ strip0x (r3.filter fun c => !ws c) := by
                          intro hm
                          have : '+' ∈ r3.filter fun c => !ws c := by
                            rcases strip0x_cases (r3.filter fun c => !ws c) with e | e | e
                            · rw [e]; exact hm
                            · rw [e]; exact List.mem_cons_of_mem _ (List.mem_cons_of_mem _ hm)
                            · rw [e]; exact List.mem_cons_of_mem _ (List.mem_cons_of_mem _ hm)
                          exact pd (List.mem_filter.1 this).1
                        have hpairs := pairs_of hsub hx
                        refine ⟨source, dest, decide (g' = "true".toList ∨ g' = "1".toList), payload,
                          ⟨w, htext, hl, ht, ?_, by simp [w], hw2, hw3, hw4, hsrc.1, hsrc.2, hdst.1, hdst.2, ?_, ?_,
                            strip0x (r3.filter fun c => !ws c), hpairs, strip0x_cases _⟩, ?_⟩
                        · intro c hc
                          rcases List.mem_cons.1 hc with rfl | hc
                          · exact hw1
                          · exact hg1 c hc
                        · rcases hgr with h | h | h | h <;> simp only [w, h] <;> decide
                        · cases hr : r3.getLast? with
                          | none =>
                            have : r3 = [] := by simpa using hr
                            have e4 : core = (verb ++ w1 :: (gap ++ (a' ++ w2 :: (b' ++ w3 :: g')))) ++ [w4] := by
                              rw [hcore, hg2, e1, e2, e3, this]; simp
                            have hl4 := hend w4 (by rw [e4, List.getLast?_append]; rfl)
                            rw [hl4] at hw4; cases hw4
                          | some z =>
                            refine ⟨z, rfl, hend z ?_⟩
                            have e4 : core = (verb ++ w1 :: (gap ++ (a' ++ w2 :: (b' ++ w3 :: (g' ++ [w4]))))) ++ r3 := by
                              rw [hcore, hg2, e1, e2, e3]; simp
                            rw [e4, List.getLast?_append, hr]; rfl
                        · rw [← h, Nat.mul_comm 8]
                · cases h
              · cases h
      · cases h
    · cases h

/-- **C102, one line**: of the lines without a plus sign, those and only those which say a command, as documented, are read as one, with
the next handle, and the numbers and the payload which were typed. The length in bits is kept modulo 2^16. -/
theorem c102_exact_partial (line : Str) (hp : '+' ∉ line) (handle : Nat) (c : SendSds) :
    parseCommand handle line = .ok (some c) ↔ ∃ source dest group payload, Says line source dest group payload ∧
      c = ⟨handle, source, dest, group, 8 * payload.length % 65536, payload⟩ :=
  ⟨parse_says hp, fun ⟨_, _, _, _, h, e⟩ => e ▸ says_parse h handle⟩

/-- **C102, payloads which fit**: what was typed is what is sent, with its length, when it has fewer than 8192 bytes. -/
theorem c102_typed {line : Str} {source dest : Nat} {group : Bool} {payload : List Nat} (h : Says line source dest group payload)
    (hn : payload.length < 8192) (handle : Nat) :
    parseCommand handle line = .ok (some ⟨handle, source, dest, group, 8 * payload.length, payload⟩) := by
  rw [says_parse h, Nat.mod_eq_of_lt (by omega)]

theorem hexPairs_ascii {s : Str} (h : ∀ c ∈ s, charLen c = 1) (he : s.length % 2 = 0) : hexPairs s ≠ .panic := by
  induction s using hexPairs.induct with
  | case1 => simp [hexPairs]
  | case2 c hc => rw [hexPairs, if_pos hc]; simp
  | case3 c hc => simp at he
  | case4 a b s h1 h2 hn => rw [hexPairs, if_pos h1, if_pos h2, hn]; simp
  | case5 a b s h1 h2 v hv ih =>
    rw [hexPairs, if_pos h1, if_pos h2, hv]
    have := ih (fun c hc => h c (List.mem_cons_of_mem _ (List.mem_cons_of_mem _ hc))) (by simp only [List.length_cons] at he; omega)
    cases hr : hexPairs s with
    | panic => exact absurd hr this
    | ok r => simp [Res.bind]
  | case6 a b s h1 h2 => exact absurd (h b (by simp)) h2
  | case7 a b s h1 h2 => rw [hexPairs, if_neg h1, if_pos h2]; simp
  | case8 a b s h1 h2 => exact absurd (h a (by simp)) h1

theorem strip0x_mem {s : Str} {c : Char} (h : c ∈ strip0x s) : c ∈ s := by
  rcases strip0x_cases s with e | e | e
  · rw [e]; exact h
  · rw [e]; exact List.mem_cons_of_mem _ (List.mem_cons_of_mem _ h)
  · rw [e]; exact List.mem_cons_of_mem _ (List.mem_cons_of_mem _ h)

theorem hexDecode_ascii {s : Str} (h : ∀ c ∈ s, c.toNat < 128) : hexDecode s ≠ .panic := by
  have hall : ∀ c ∈ strip0x (s.filter fun c => !ws c), charLen c = 1 :=
    fun c hc => charLen_one (h c (List.mem_filter.1 (strip0x_mem hc)).1)
  unfold hexDecode
  simp only
  split
  · simp
  · rename_i hs
    refine hexPairs_ascii hall ?_
    have : ∀ l : Str, (∀ c ∈ l, charLen c = 1) → (l.map charLen).sum = l.length := by
      intro l
      induction l with
      | nil => intro _; rfl
      | cons c l ih =>
        intro h
        rw [List.map_cons, List.sum_cons, h c List.mem_cons_self, ih fun x hx => h x (List.mem_cons_of_mem _ hx), List.length_cons]
        omega
    rw [this _ hall] at hs
    omega

theorem splitN_mem {n : Nat} {s x : Str} (h : x ∈ splitN n s) : ∀ c ∈ x, c ∈ s := by
  induction n, s using splitN.induct with
  | case1 => simp [splitN] at h
  | case2 s => simp only [splitN, List.mem_singleton] at h; subst h; exact fun _ h => h
  | case3 n s hc =>
    rw [splitN, hc] at h
    simp only [List.mem_singleton] at h; subst h; exact fun _ h => h
  | case4 n s a b hc ih =>
    rw [splitN, hc] at h
    obtain ⟨w, _, e, _⟩ := cutWs_some hc
    rcases List.mem_cons.1 h with rfl | h
    · intro c hc; rw [e]; simp [hc]
    · intro c hc; rw [e]; have := ih h c hc; simp [this]

theorem trim_mem {s : Str} {c : Char} (h : c ∈ trim s) : c ∈ s := by
  obtain ⟨a, b, _, _, e, _⟩ := trim_split s
  rw [e]; simp [h]

theorem dropWhile_mem {s : Str} {c : Char} (h : c ∈ s.dropWhile ws) : c ∈ s := by
  obtain ⟨a, _, e, _⟩ := dropWhile_split s
  rw [e]; simp [h]

/-- **C102, plain text never stops the console**: a line of ASCII characters is read as a command or refused. -/
theorem c102_ascii (line : Str) (h : ∀ c ∈ line, c.toNat < 128) (handle : Nat) : ∃ r, parseCommand handle line = .ok r := by
  unfold parseCommand
  split
  · exact ⟨_, rfl⟩
  · rename_i verb rest hs
    split
    · have hrest : ∀ c ∈ rest.headD [], c.toNat < 128 := by
        cases rest with
        | nil => simp
        | cons r rs =>
          intro c hc
          exact h c (trim_mem (splitN_mem (n := 2) (x := r) (by rw [hs]; simp) c hc))
      unfold parseSendSds
      split
      · rename_i a b g d hs2
        split
        · split
          · have := hexDecode_ascii (s := trim d) fun c hc =>
              hrest c (dropWhile_mem (splitN_mem (n := 4) (x := d) (by rw [hs2]; simp) c (trim_mem hc)))
            cases hx : hexDecode (trim d) with
            | panic => exact absurd hx this
            | ok o => cases o <;> exact ⟨_, rfl⟩
          · exact ⟨_, rfl⟩
        · exact ⟨_, rfl⟩
      · exact ⟨_, rfl⟩
    · exact ⟨_, rfl⟩

/-- A command as one types it. -/
example : parseCommand 7 " sendsds 2040001 91 true  0x82 0A fF".toList = .ok (some ⟨7, 2040001, 91, true, 24, [130, 10, 255]⟩) := by
  decide +kernel

/-! ## Findings -/

/-- **C102 finding: a stray character stops the console.** A payload with a letter which is not ASCII can abort the thread reading what
is typed. From then on no base station is told anything, whatever is typed. -/
theorem c102_stray_letter (evs : List Ev) :
    ∀ x ∈ (Console.start.run (.line "sendsds 1 2 0 aéb".toList :: evs)).clients, x.sent = [] ∧ x.queue = [] := by
  have h0 : Console.start.step (.line "sendsds 1 2 0 aéb".toList) = ⟨false, 1, 0, [], []⟩ := by decide +kernel
  have main : ∀ (evs : List Ev) (s : Console), s.alive = false → (∀ x ∈ s.clients, x.sent = [] ∧ x.queue = []) →
      ∀ x ∈ (s.run evs).clients, x.sent = [] ∧ x.queue = [] := by
    intro evs
    induction evs with
    | nil => intro s _ h; exact h
    | cons e r ih =>
      intro s ha h
      have hs : (s.step e).alive = false ∧ ∀ x ∈ (s.step e).clients, x.sent = [] ∧ x.queue = [] := by
        cases e with
        | line t => simp only [Console.step, ha, Bool.false_eq_true, if_false, true_and]; exact h
        | accept =>
          refine ⟨ha, fun x hx => ?_⟩
          rcases List.mem_append.1 hx with hx | hx
          · exact h x hx
          · rw [List.mem_singleton.1 hx]; exact ⟨rfl, rfl⟩
        | opened id =>
          refine ⟨ha, fun x hx => ?_⟩
          obtain ⟨y, hy, rfl⟩ := List.mem_map.1 hx
          split
          · exact h y hy
          · exact h y hy
        | send id =>
          refine ⟨ha, fun x hx => ?_⟩
          obtain ⟨y, hy, rfl⟩ := List.mem_map.1 hx
          rw [(h y hy).2]
          split
          · exact h y hy
          · exact h y hy
        | ended id => exact ⟨ha, fun x hx => h x (List.mem_filter.1 hx).1⟩
      exact ih _ hs.1 hs.2
  intro x hx
  refine main evs ⟨false, 1, 0, [], []⟩ rfl (by simp) x ?_
  rw [← h0]
  exact hx

/-- **C102 finding: a plus sign is taken for a digit of a byte**, and in front of the numbers. -/
theorem c102_plus_sign : parseCommand 1 "sendsds +1 2 0 +f".toList = .ok (some ⟨1, 1, 2, false, 8, [15]⟩) := by decide +kernel

theorem pairs_zeros (n : Nat) : Pairs (List.replicate (2 * n) '0') (List.replicate n 0) := by
  induction n with
  | zero => exact .nil
  | succ n ih =>
    rw [Nat.mul_succ, List.replicate_succ, List.replicate_succ, List.replicate_succ]
    exact .cons (x := 0) (y := 0) (Or.inl rfl) (Or.inl rfl) ih

/-- **C102 finding: a payload of 8192 bytes is announced as empty.** -/
theorem c102_long_payload (handle : Nat) : ∃ line payload, Says line 1 2 false payload ∧ payload.length = 8192 ∧
    parseCommand handle line = .ok (some ⟨handle, 1, 2, false, 0, payload⟩) := by
  have h : Says (Words.text ⟨[], [' '], ['1'], ' ', ['2'], ' ', ['0'], ' ', List.replicate (2 * 8192) '0', []⟩) 1 2 false
      (List.replicate 8192 0) := by
    refine ⟨_, rfl, by simp [Blank], by simp [Blank], by simp [Blank]; decide, by simp, by decide, by decide, by decide,
      by refine ⟨by simp, by decide, by decide⟩, by decide, by refine ⟨by simp, by decide, by decide⟩, by decide, Or.inr ⟨rfl, Or.inr rfl⟩, ⟨'0', ?_, by decide⟩,
      _, pairs_zeros 8192, Or.inl ?_⟩
    · rw [List.getLast?_replicate]; rfl
    · rw [List.filter_eq_self]
      intro c hc
      rw [List.eq_of_mem_replicate hc]; decide
  refine ⟨_, _, h, List.length_replicate, ?_⟩
  rw [says_parse h, List.length_replicate]

/-! ## Histories -/

/-- The commands said by what is typed, in order, numbered from `handle` on. -/
def said (handle : Nat) : List Ev → List SendSds
  | [] => []
  | .line t :: evs =>
    match parseCommand handle t with
    | .ok (some c) => c :: said ((handle + 1) % 4294967296) evs
    | _ => said handle evs
  | _ :: evs => said handle evs

/-- No line typed stops the console (see `c102_ascii`). -/
def Calm (evs : List Ev) : Prop := ∀ t, Ev.line t ∈ evs → ∀ h, parseCommand h t ≠ .panic

/-- The number of connections accepted. -/
def accepted (evs : List Ev) : Nat := evs.countP (· == .accept)

structure Sound (s : Console) : Prop where
  ids : ∀ x ∈ s.clients, x.id < s.nextId
  shut : ∀ x ∈ s.clients, x.open' = false → x.sent = []

theorem sound_step {s : Console} (h : Sound s) (e : Ev) : Sound (s.step e) := by
  cases e with
  | line t =>
    simp only [Console.step]
    split
    · split
      · exact h
      · refine ⟨fun x hx => ?_, fun x hx => ?_⟩ <;> obtain ⟨y, hy, rfl⟩ := List.mem_map.1 hx
        · exact h.ids y hy
        · exact h.shut y hy
      · exact ⟨h.ids, h.shut⟩
    · exact h
  | accept =>
    refine ⟨fun x hx => ?_, fun x hx => ?_⟩ <;> rcases List.mem_append.1 hx with hx | hx
    · exact Nat.lt_succ_of_lt (h.ids x hx)
    · rw [List.mem_singleton.1 hx]; exact Nat.lt_succ_self _
    · exact h.shut x hx
    · rw [List.mem_singleton.1 hx]; exact fun _ => rfl
  | opened id =>
    refine ⟨fun x hx => ?_, fun x hx => ?_⟩ <;> obtain ⟨y, hy, rfl⟩ := List.mem_map.1 hx <;> split
    · exact h.ids y hy
    · exact h.ids y hy
    · intro h; cases h
    · exact h.shut y hy
  | send id =>
    refine ⟨fun x hx => ?_, fun x hx => ?_⟩ <;> obtain ⟨y, hy, rfl⟩ := List.mem_map.1 hx <;> split
    · split <;> exact h.ids y hy
    · exact h.ids y hy
    · rename_i ho
      split
      · exact h.shut y hy
      · intro hc
        exact absurd (hc.symm.trans ho.2) (by decide)
    · exact h.shut y hy
  | ended id =>
    exact ⟨fun x hx => h.ids x (List.mem_filter.1 hx).1, fun x hx => h.shut x (List.mem_filter.1 hx).1⟩

theorem sound_run {s : Console} (h : Sound s) (evs : List Ev) : Sound (s.run evs) := by
  induction evs generalizing s with
  | nil => exact h
  | cons e r ih => exact ih (sound_step h e)

theorem sound_start : Sound Console.start := ⟨by simp [Console.start], by simp [Console.start]⟩

theorem run_append (s : Console) (a b : List Ev) : s.run (a ++ b) = (s.run a).run b := List.foldl_append ..

theorem nextId_run (s : Console) (evs : List Ev) : (s.run evs).nextId = s.nextId + accepted evs := by
  induction evs generalizing s with
  | nil => rfl
  | cons e r ih =>
    show ((s.step e).run r).nextId = _
    rw [ih]
    cases e with
    | line t =>
      have : (s.step (.line t)).nextId = s.nextId := by
        simp only [Console.step]; split
        · split <;> rfl
        · rfl
      rw [this]; rfl
    | accept => simp only [Console.step, accepted, List.countP_cons, beq_self_eq_true, if_true]; omega
    | opened id => rfl
    | send id => rfl
    | ended id => rfl

/-- What a run says of one client still connected. -/
theorem client_run {evs : List Ev} (hc : Calm evs) : ∀ {s : Console} {x : Client}, s.alive = true → x ∈ s.clients →
    Ev.ended x.id ∉ evs → ∃ y ∈ (s.run evs).clients, y.id = x.id ∧ y.sent ++ y.queue = x.sent ++ x.queue ++ said s.handle evs := by
  induction evs with
  | nil => intro s x _ hx _; exact ⟨x, hx, rfl, by simp [said]⟩
  | cons e r ih =>
    intro s x ha hx hn
    have hc' : Calm r := fun t ht => hc t (List.mem_cons_of_mem _ ht)
    have hn' : Ev.ended x.id ∉ r := fun h => hn (List.mem_cons_of_mem _ h)
    have step : ∀ (s' : Console) (z : Client), s.step e = s' → s'.alive = true → z ∈ s'.clients → z.id = x.id →
        z.sent ++ z.queue ++ said s'.handle r = x.sent ++ x.queue ++ said s.handle (e :: r) →
        ∃ y ∈ (s.run (e :: r)).clients, y.id = x.id ∧ y.sent ++ y.queue = x.sent ++ x.queue ++ said s.handle (e :: r) := by
      intro s' z hs h1 h2 h3 h4
      obtain ⟨y, hy, hy2, hy3⟩ := ih hc' h1 h2 (by rw [h3]; exact hn')
      refine ⟨y, ?_, hy2.trans h3, hy3.trans h4⟩
      show y ∈ ((s.step e).run r).clients
      rw [hs]; exact hy
    cases e with
    | line t =>
      cases hp : parseCommand s.handle t with
      | panic => exact absurd hp (hc t List.mem_cons_self _)
      | ok o =>
        cases o with
        | none => exact step s x (by simp [Console.step, ha, hp]) ha hx rfl (by simp [said, hp])
        | some c =>
          refine step { s with
              handle := (s.handle + 1) % 4294967296, clients := s.clients.map fun x => { x with queue := x.queue ++ [c] } }
            { x with queue := x.queue ++ [c] } (by simp only [Console.step, ha, hp, if_true]) ha (List.mem_map.2 ⟨x, hx, rfl⟩) rfl ?_
          simp [said, hp]
    | accept => exact step _ x rfl ha (List.mem_append_left _ hx) rfl (by simp only [said, Console.step])
    | opened id =>
      by_cases h : x.id = id
      · exact step _ { x with open' := true } rfl ha (List.mem_map.2 ⟨x, hx, by rw [if_pos h]⟩) rfl (by simp only [said, Console.step])
      · exact step _ x rfl ha (List.mem_map.2 ⟨x, hx, by rw [if_neg h]⟩) rfl (by simp only [said, Console.step])
    | send id =>
      by_cases h : x.id = id ∧ x.open' = true
      · cases hq : x.queue with
        | nil => exact hq ▸ step _ x rfl ha (List.mem_map.2 ⟨x, hx, by rw [if_pos h, hq]⟩) rfl (by simp only [said, Console.step])
        | cons c q =>
          have := step _ { x with queue := q, sent := x.sent ++ [c] } rfl ha (List.mem_map.2 ⟨x, hx, by rw [if_pos h, hq]⟩) rfl
            (by simp [said, Console.step, hq])
          rw [hq] at this; exact this
      · exact step _ x rfl ha (List.mem_map.2 ⟨x, hx, by rw [if_neg h]⟩) rfl (by simp only [said, Console.step])
    | ended id =>
      have : x.id ≠ id := fun h => hn (by rw [h]; exact List.mem_cons_self)
      exact step _ x rfl ha (List.mem_filter.2 ⟨hx, by simpa using this⟩) rfl (by simp only [said, Console.step])

/-- The console after a run: it goes on, and has counted the commands said. -/
theorem calm_run {evs : List Ev} (hc : Calm evs) : ∀ {s : Console}, s.alive = true → (s.run evs).alive = true ∧
    (s.handle < 4294967296 → (s.run evs).handle = (s.handle + (said s.handle evs).length) % 4294967296) := by
  induction evs with
  | nil => intro s ha; exact ⟨ha, fun h => (Nat.mod_eq_of_lt h).symm⟩
  | cons e r ih =>
    intro s ha
    have hc' : Calm r := fun t ht => hc t (List.mem_cons_of_mem _ ht)
    have hr : s.run (e :: r) = (s.step e).run r := rfl
    rw [hr]
    cases e with
    | line t =>
      cases hp : parseCommand s.handle t with
      | panic => exact absurd hp (hc t List.mem_cons_self _)
      | ok o =>
        cases o with
        | none =>
          have : s.step (.line t) = s := by simp [Console.step, ha, hp]
          rw [this, said, hp]; exact ih hc' ha
        | some c =>
          have e1 : s.step (.line t) = { s with
            handle := (s.handle + 1) % 4294967296, clients := s.clients.map fun x => { x with queue := x.queue ++ [c] } } := by
            simp only [Console.step, ha, hp, if_true]
          rw [e1, said, hp]
          have := ih hc' (s := { s with
            handle := (s.handle + 1) % 4294967296, clients := s.clients.map fun x => { x with queue := x.queue ++ [c] } }) ha
          refine ⟨this.1, fun _ => ?_⟩
          rw [this.2 (Nat.mod_lt _ (by decide))]
          simp only [List.length_cons]
          omega
    | accept => exact ih hc' (s := s.step .accept) ha
    | opened id => exact ih hc' (s := s.step (.opened id)) ha
    | send id => exact ih hc' (s := s.step (.send id)) ha
    | ended id => exact ih hc' (s := s.step (.ended id)) ha

theorem said_append (h : Nat) (a b : List Ev) (hh : h < 4294967296) :
    said h (a ++ b) = said h a ++ said ((h + (said h a).length) % 4294967296) b := by
  induction a generalizing h with
  | nil => simp [said, Nat.mod_eq_of_lt hh]
  | cons e a ih =>
    rw [List.cons_append]
    cases e with
    | line t =>
      simp only [said]
      split
      · rw [ih _ (Nat.mod_lt _ (by decide)), List.cons_append, List.length_cons]
        congr 2
        congr 1
        omega
      · exact ih h hh
    | accept => exact ih h hh
    | opened id => exact ih h hh
    | send id => exact ih h hh
    | ended id => exact ih h hh

/-- **C102, every base station is told everything**: in every history in which no line stops the console, a base station which is
connected (the one accepted after `before`) was sent, or waits to be sent, all the commands typed since it connected and nothing else,
in their order, the same commands every other base station is told; and nothing is sent to it before its handshake is done. -/
theorem c102_told (before after : List Ev) (hc : Calm (before ++ .accept :: after)) (hn : Ev.ended (accepted before) ∉ after) :
    ∃ x ∈ (Console.start.run (before ++ .accept :: after)).clients, x.id = accepted before ∧
      said 1 (before ++ .accept :: after) = said 1 before ++ (x.sent ++ x.queue) ∧ (x.open' = false → x.sent = []) := by
  have hb : Calm before := fun t ht => hc t (List.mem_append_left _ ht)
  have haf : Calm after := fun t ht => hc t (List.mem_append_right _ (List.mem_cons_of_mem _ ht))
  obtain ⟨h1, h2⟩ := calm_run hb (s := Console.start) rfl
  have hid : (Console.start.run before).nextId = accepted before := by
    rw [nextId_run]; exact Nat.zero_add _
  have hrun : Console.start.run (before ++ .accept :: after) = ((Console.start.run before).step .accept).run after := by
    rw [run_append]; rfl
  obtain ⟨y, hy, hy1, hy2⟩ := client_run haf (s := (Console.start.run before).step .accept) (x := ⟨accepted before, [], false, []⟩) h1
    (List.mem_append_right _ (by rw [hid]; exact List.mem_singleton.2 rfl)) hn
  refine ⟨y, by rw [hrun]; exact hy, hy1, ?_, ?_⟩
  · rw [hy2, said_append 1 _ _ (by decide)]
    simp only [List.nil_append, said, Console.step]
    rw [h2 (by decide)]
    rfl
  · exact (sound_run sound_start (before ++ .accept :: after)).shut y (by rw [hrun]; exact hy)

/-- **C102, handles**: the first 2^32 - 1 commands are numbered 1, 2, 3 and so on, so that no two have the same handle. -/
theorem c102_handles (evs : List Ev) (h : (said 1 evs).length < 2 ^ 32) : (said 1 evs).map (·.handle) = List.range' 1 (said 1 evs).length := by
  have key : ∀ (handle : Nat) (t : Str) (c : SendSds), parseCommand handle t = .ok (some c) → c.handle = handle := by
    intro handle t c h
    unfold parseCommand at h
    split at h
    · cases h
    · split at h
      · unfold parseSendSds at h
        split at h
        · split at h
          · split at h
            · rename_i d _ _ _ _ _ _ _
              revert h
              generalize hexDecode _ = o
              intro h
              cases o with
              | panic => cases h
              | ok o =>
                cases o with
                | none => cases h
                | some p => cases h; rfl
            · cases h
          · cases h
        · cases h
      · cases h
  have main : ∀ (evs : List Ev) (n : Nat), n + (said n evs).length ≤ 2 ^ 32 → n < 2 ^ 32 →
      (said n evs).map (·.handle) = List.range' n (said n evs).length := by
    intro evs
    induction evs with
    | nil => intro n _ _; rfl
    | cons e r ih =>
      intro n hn hn2
      cases e with
      | line t =>
        cases hp : parseCommand n t with
        | panic => simp only [said, hp] at hn ⊢; exact ih n hn hn2
        | ok o =>
          cases o with
          | none => simp only [said, hp] at hn ⊢; exact ih n hn hn2
          | some c =>
            simp only [said, hp, List.length_cons, List.map_cons] at hn ⊢
            rw [List.range'_succ, key n t c hp]
            by_cases hlast : n + 1 < 2 ^ 32
            · rw [Nat.mod_eq_of_lt hlast] at hn ⊢
              rw [ih (n + 1) (by omega) hlast]
            · have : (said ((n + 1) % 4294967296) r).length = 0 := by omega
              rw [List.length_eq_zero_iff.1 this]; rfl
      | accept => exact ih n hn hn2
      | opened id => exact ih n hn hn2
      | send id => exact ih n hn hn2
      | ended id => exact ih n hn hn2
  exact main evs 1 (by omega) (by decide)

/-- Two base stations, the second of which connects between two commands. -/
example :
    let evs : List Ev := [.accept, .line "sendsds 1 2 0 ab".toList, .accept, .opened 0, .send 0, .line "sendsds 3 4 1 cd".toList]
    (Console.start.run evs).clients = [⟨0, [⟨2, 3, 4, true, 8, [205]⟩], true, [⟨1, 1, 2, false, 8, [171]⟩]⟩,
      ⟨1, [⟨2, 3, 4, true, 8, [205]⟩], false, []⟩] := by decide +kernel

end Verif.Net.Console
