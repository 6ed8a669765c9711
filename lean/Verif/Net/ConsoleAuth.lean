import Verif.Net.ConsoleProps
/-!
# C103 — Who is let in to the control console and the telemetry receiver
-/
namespace Verif.Net.Console
open Verif.Net.Digest (Str ws trim cutAt splitAt cutAt_append trim_of_edges)

/-! ## Specification -/

/-- The line of the file gives the user this hash: name, colon, hash, blanks around them; lines which begin with `#` do not count. -/
def Gives (line user hash : Str) : Prop :=
  ∃ u h, trim line = u ++ ':' :: h ∧ ':' ∉ u ∧ (trim line).head? ≠ some '#' ∧ trim u = user ∧ trim h = hash

/-- The hash of the user: the one on the last line for this user. -/
def HasHash (lines : List Str) (user hash : Str) : Prop :=
  ∃ before line after, lines = before ++ line :: after ∧ Gives line user hash ∧ ∀ l ∈ after, ∀ h, ¬ Gives l user h

/-! ## The file -/

theorem cutAt_some {sep : Char} {s a b : Str} (h : cutAt sep s = some (a, b)) : s = a ++ sep :: b ∧ sep ∉ a := by
  induction s generalizing a with
  | nil => cases h
  | cons c s ih =>
    rw [cutAt] at h
    split at h
    · rename_i hc; cases h; exact ⟨by rw [hc]; rfl, by simp⟩
    · rename_i hc
      obtain ⟨x, hx, e⟩ := Option.map_eq_some_iff.1 h
      cases e
      obtain ⟨h1, h2⟩ := ih hx
      refine ⟨by rw [h1]; rfl, ?_⟩
      simp only [List.mem_cons, not_or]
      exact ⟨fun e => hc e.symm, h2⟩

theorem cutAt_iff {sep : Char} {s a b : Str} : cutAt sep s = some (a, b) ↔ s = a ++ sep :: b ∧ sep ∉ a :=
  ⟨cutAt_some, fun ⟨h1, h2⟩ => h1 ▸ cutAt_append h2⟩

/-- A line which is read gives what `Gives` says, or nothing. -/
theorem readLine_some {H : Hashing} {line : Str} {r : Option (Str × Str)} (hr : H.readLine line = some r) (u h : Str) :
    (r = some (u, h) → H.isHash h = true) ∧ (r = some (u, h) ↔ Gives line u h) := by
  unfold Hashing.readLine at hr
  simp only at hr
  split at hr
  · rename_i hc
    cases hr
    refine ⟨fun h => (by cases h), fun h => (by cases h), ?_⟩
    rintro ⟨a, b, h1, _, h3, _⟩
    rcases hc with hc | hc
    · rw [hc] at h1; simp at h1
    · exact absurd hc h3
  · rename_i hc
    simp only [not_or] at hc
    split at hr
    · cases hr
    · rename_i a b hcut
      split at hr
      · rename_i hh
        cases hr
        obtain ⟨e1, e2⟩ := cutAt_some hcut
        refine ⟨fun h => (by cases h; exact hh), fun h => (by cases h; exact ⟨a, b, e1, e2, hc.2, rfl, rfl⟩), ?_⟩
        rintro ⟨a', b', h1, h2, _, rfl, rfl⟩
        have := cutAt_append (b := b') h2
        rw [← h1, hcut] at this
        cases this
        rfl
      · cases hr

theorem load_lookup {H : Hashing} {lines : List Str} {db0 db : List (Str × Str)} (h : H.load lines db0 = some db)
    (h0 : ∀ u x, db0.lookup u = some x → H.isHash x = true) (user hash : Str) :
    (db.lookup user = some hash ↔ HasHash lines user hash ∨ (db0.lookup user = some hash ∧ ∀ l ∈ lines, ∀ h, ¬ Gives l user h)) ∧
      (db.lookup user = some hash → H.isHash hash = true) := by
  induction lines generalizing db0 with
  | nil =>
    rw [Hashing.load] at h
    split at h
    · cases h
    · cases h
      refine ⟨⟨fun h => Or.inr ⟨h, by simp⟩, ?_⟩, h0 user hash⟩
      rintro (⟨a, l, b, e, _⟩ | h)
      · simp at e
      · exact h.1
  | cons l ls ih =>
    rw [Hashing.load] at h
    have cons_iff : HasHash (l :: ls) user hash ↔ HasHash ls user hash ∨ (Gives l user hash ∧ ∀ x ∈ ls, ∀ h, ¬ Gives x user h) := by
      constructor
      · rintro ⟨a, x, b, e, h1, h2⟩
        cases a with
        | nil => cases e; exact Or.inr ⟨h1, h2⟩
        | cons y a => cases e; exact Or.inl ⟨a, x, b, rfl, h1, h2⟩
      · rintro (⟨a, x, b, rfl, h1, h2⟩ | ⟨h1, h2⟩)
        · exact ⟨l :: a, x, b, rfl, h1, h2⟩
        · exact ⟨[], l, ls, rfl, h1, h2⟩
    split at h
    · cases h
    · rename_i hr
      obtain ⟨i1, i2⟩ := ih h h0
      refine ⟨?_, i2⟩
      have none_given : ∀ x, ¬ Gives l user x := fun x hx => by
        have := (readLine_some hr user x).2.2 hx
        cases this
      rw [i1, cons_iff]
      constructor
      · rintro (h | ⟨h1, h2⟩)
        · exact Or.inl (Or.inl h)
        · refine Or.inr ⟨h1, fun y hy => ?_⟩
          rcases List.mem_cons.1 hy with rfl | hy
          · exact none_given
          · exact h2 y hy
      · rintro ((h | h) | ⟨h1, h2⟩)
        · exact Or.inl h
        · exact absurd h.1 (none_given hash)
        · exact Or.inr ⟨h1, fun y hy => h2 y (List.mem_cons_of_mem _ hy)⟩
    · rename_i e hr
      obtain ⟨eu, eh⟩ := e
      have he := (readLine_some hr eu eh)
      have hgive := he.2.1 rfl
      obtain ⟨i1, i2⟩ := ih h (by
        intro u x hx
        rw [List.lookup_cons] at hx
        split at hx
        · cases hx; exact he.1 rfl
        · exact h0 u x hx)
      refine ⟨?_, i2⟩
      rw [i1, cons_iff, List.lookup_cons]
      by_cases hu : user = eu
      · subst hu
        simp only [beq_self_eq_true, Option.some.injEq]
        constructor
        · rintro (h | ⟨rfl, h2⟩)
          · exact Or.inl (Or.inl h)
          · exact Or.inl (Or.inr ⟨hgive, h2⟩)
        · rintro ((h | ⟨h1, h2⟩) | ⟨_, h2⟩)
          · exact Or.inl h
          · have := (readLine_some hr user hash).2.2 h1
            cases this
            exact Or.inr ⟨rfl, h2⟩
          · exact absurd hgive (h2 l List.mem_cons_self _)
      · have none_given : ∀ x, ¬ Gives l user x := fun x hx => by
          have := (readLine_some hr user x).2.2 hx
          cases this
          exact hu rfl
        rw [show (user == eu) = false from by simpa using hu]
        simp only
        constructor
        · rintro (h | ⟨h1, h2⟩)
          · exact Or.inl (Or.inl h)
          · refine Or.inr ⟨h1, fun y hy => ?_⟩
            rcases List.mem_cons.1 hy with rfl | hy
            · exact none_given
            · exact h2 y hy
        · rintro ((h | h) | ⟨h1, h2⟩)
          · exact Or.inl h
          · exact absurd h.1 (none_given hash)
          · exact Or.inr ⟨h1, fun y hy => h2 y (List.mem_cons_of_mem _ hy)⟩

theorem stripBasic_iff {s e : Str} : stripBasic s = some e ↔ s = "Basic ".toList ++ e := by
  unfold stripBasic
  split
  · simp
  · rename_i h
    constructor
    · intro h; cases h
    · intro hs; exact absurd hs (h e)

/-- **C103**: with a file of credentials, a client is let in exactly if it offers the protocol and sends `Basic` credentials which
decode to name, colon and password, where the password belongs to the hash on the last line of the file for this name. Names have no
colon, passwords may. -/
theorem c103_exact (H : Hashing) (lines : List Str) (db : List (Str × Str)) (hl : H.load lines [] = some db) (header proto : Option Str) :
    H.letIn (some db) header proto = true ↔
      (∃ text user password hash, header = some ("Basic ".toList ++ text) ∧ H.decode text = some (user ++ ':' :: password) ∧ ':' ∉ user ∧
        HasHash lines user hash ∧ H.verify hash password = true) ∧
      ∃ offers, proto = some offers ∧ ∃ p ∈ splitAt ',' offers, trim p = "bluestation-control-v1".toList := by
  unfold Hashing.letIn
  rw [Bool.and_eq_true]
  refine and_congr ?_ ?_
  · unfold Hashing.check
    simp only
    constructor
    · intro h
      split at h
      · cases h
      · rename_i e he
        split at h
        · cases h
        · rename_i user password hd
          split at h
          · cases h
          · rename_i hash hlook
            rw [Bool.and_eq_true] at h
            obtain ⟨x, hx, hx2⟩ := Option.bind_eq_some_iff.1 he
            obtain ⟨y, hy, hy2⟩ := Option.bind_eq_some_iff.1 hd
            obtain ⟨e1, e2⟩ := cutAt_some hy2
            rw [stripBasic_iff] at hx2
            refine ⟨e, user, password, hash, by rw [hx, hx2], by rw [hy, e1], e2, ?_, h.2⟩
            rcases ((load_lookup hl (by simp) user hash).1).1 hlook with h | h
            · exact h
            · simp at h
    · rintro ⟨e, user, password, hash, rfl, hd, hu, hh, hv⟩
      have h1 : ((some ("Basic ".toList ++ e)).bind stripBasic) = some e := by
        rw [Option.bind_some, stripBasic_iff]
      have hlook := ((load_lookup hl (by simp) user hash).1).2 (Or.inl hh)
      have hi := (load_lookup hl (by simp) user hash).2 hlook
      rw [h1]
      simp only [hd, Option.bind_some, cutAt_append hu, hlook, hi, hv, Bool.and_self]
  · rw [List.any_eq_true]
    constructor
    · rintro ⟨p, hp, ht⟩
      cases proto with
      | none => simp [splitAt] at hp; subst hp; exact absurd ht (by decide +kernel)
      | some o => exact ⟨o, rfl, p, hp, of_decide_eq_true ht⟩
    · rintro ⟨o, rfl, p, hp, ht⟩
      exact ⟨p, hp, decide_eq_true ht⟩

/-- **C103, without a file** everyone who offers the protocol is let in. -/
theorem c103_open (H : Hashing) (header : Option Str) : H.letIn none header (some "bluestation-control-v1".toList) = true := by
  have : ((splitAt ',' "bluestation-control-v1".toList).any fun p => trim p = protocol) = true := by decide +kernel
  simp only [Hashing.letIn, Hashing.check, Option.getD_some, this, Bool.and_self]

theorem trim_edges (s : Str) : (∀ c, (trim s).head? = some c → ws c = false) ∧ ∀ c, (trim s).getLast? = some c → ws c = false := by
  refine ⟨fun c hc => ?_, ?_⟩
  · obtain ⟨_, _, _, h3⟩ := dropWhile_split s
    obtain ⟨b, _, h5, _⟩ := dropWhile_split (s.dropWhile ws).reverse
    apply h3
    have : s.dropWhile ws = trim s ++ b.reverse := by
      have := congrArg List.reverse h5
      simpa [trim, Digest.trimBy] using this
    rw [this, List.head?_append, hc]; rfl
  · obtain ⟨_, _, _, _, _, h⟩ := trim_split s
    exact h

/-- **C103, credentials made by the program** (`--generate-credential`): the line printed gives the name typed the hash of the password
typed, blanks at the ends left out, unless the name begins with `#`. The hash is a text without blanks at its ends. -/
theorem c103_generated_partial (H : Hashing) (salt user password line : Str) (hg : H.generate salt user password = some line)
    (hh : trim (H.hash salt (trim password)) = H.hash salt (trim password)) (h0 : H.hash salt (trim password) ≠ [])
    (hn : (trim user).head? ≠ some '#') : Gives line (trim user) (H.hash salt (trim password)) := by
  unfold Hashing.generate at hg
  simp only at hg
  split at hg
  · cases hg
  · rename_i h1
    simp only [not_or] at h1
    split at hg
    · cases hg
    · cases hg
      have hu0 : ∃ c cs, trim user = c :: cs := by
        cases h : trim user with
        | nil => exact absurd h h1.1
        | cons c cs => exact ⟨c, cs, rfl⟩
      obtain ⟨c, cs, hc⟩ := hu0
      have ht : trim (trim user ++ ':' :: H.hash salt (trim password)) = trim user ++ ':' :: H.hash salt (trim password) := by
        refine trim_of_edges (fun x hx => ?_) (fun x hx => ?_)
        · refine (trim_edges user).1 x ?_
          rw [hc] at hx ⊢; exact hx
        · refine (trim_edges (H.hash salt (trim password))).2 x ?_
          rw [hh]
          cases hz : H.hash salt (trim password) with
          | nil => exact absurd hz h0
          | cons a as =>
            rw [hz, List.getLast?_append] at hx
            simpa using hx
      refine ⟨trim user, H.hash salt (trim password), ht, h1.2, ?_, ?_, hh⟩
      · rw [ht, hc]; rw [hc] at hn; exact hn
      · exact trim_of_edges (trim_edges user).1 (trim_edges user).2

/-- **C103 finding: a name which begins with `#`** is accepted by the program which makes credentials, but its line is a comment: the
user is never let in, whatever the file, the password and the hash. -/
theorem c103_hash_name (H : Hashing) (salt : Str) : ∃ line, H.generate salt "#bob".toList "secret".toList = some line ∧
    H.readLine line = some none := by
  have h1 : trim "#bob".toList = "#bob".toList := by decide +kernel
  have h2 : trim "secret".toList = "secret".toList := by decide +kernel
  refine ⟨"#bob".toList ++ ':' :: H.hash salt "secret".toList, ?_, ?_⟩
  · unfold Hashing.generate
    simp only [h1, h2]
    rw [if_neg (by decide +kernel), if_neg (by decide +kernel)]
  · obtain ⟨a, b, ha, hb, e, _⟩ := trim_split ("#bob".toList ++ ':' :: H.hash salt "secret".toList)
    have ha0 : a = [] := by
      cases a with
      | nil => rfl
      | cons c a =>
        have : c = '#' := by
          have := congrArg List.head? e
          simpa using this.symm
        have hw := ha c List.mem_cons_self
        rw [this] at hw
        exact absurd hw (by decide)
    have hhead : (trim ("#bob".toList ++ ':' :: H.hash salt "secret".toList)).head? = some '#' := by
      rw [ha0, List.nil_append] at e
      cases ht : trim ("#bob".toList ++ ':' :: H.hash salt "secret".toList) with
      | nil =>
        rw [ht, List.nil_append] at e
        have hw := hb '#' (by rw [← e]; exact List.mem_append_left _ (by decide))
        exact absurd hw (by decide)
      | cons c cs =>
        rw [ht] at e
        have := congrArg List.head? e
        simpa using this.symm
    unfold Hashing.readLine
    simp only
    rw [if_pos (Or.inr hhead)]

/-- **C103 finding: blanks at the ends of a password are left out** when its hash is made, but not when it is checked: with hashes which
only their own password fits, the very password typed is refused. -/
theorem c103_blank_password (H : Hashing) (salt user password : Str) (hb : trim password ≠ password)
    (hv : ∀ p q, H.verify (H.hash salt p) q = true ↔ p = q) (line : Str) (hg : H.generate salt user password = some line) :
    ∃ hash, line = trim user ++ ':' :: hash ∧ H.verify hash password = false := by
  unfold Hashing.generate at hg
  simp only at hg
  split at hg
  · cases hg
  · split at hg
    · cases hg
    · cases hg
      refine ⟨_, rfl, ?_⟩
      rw [Bool.eq_false_iff]
      exact fun h => hb ((hv _ _).1 h)

/-- A toy hash: the text behind a dollar sign, and Base64 which changes nothing. -/
def toy : Hashing := ⟨fun s => s.head? == some '$', fun h p => h == '$' :: p, fun _ p => '$' :: p, some⟩

example : ∃ db, toy.load ["# users".toList, "bob:$old".toList, " bob : $a:b ".toList, "eve:$x".toList] [] = some db ∧
    toy.letIn (some db) (some "Basic bob:a:b".toList) (some "v0, bluestation-control-v1".toList) = true ∧
    toy.letIn (some db) (some "Basic bob:old".toList) (some "bluestation-control-v1".toList) = false ∧
    toy.letIn (some db) none (some "bluestation-control-v1".toList) = false := by
  refine ⟨_, rfl, ?_, ?_, ?_⟩ <;> decide +kernel

end Verif.Net.Console
