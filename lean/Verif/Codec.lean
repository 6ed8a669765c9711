import Verif.Bits
/-!
# Reading and writing of PDUs as bit strings

Vocabulary shared by the PDU models. A PDU reader takes the bits left in the window of a `BitBuffer`
and gives a value and the bits it did not consume; a PDU writer gives the bits it appends. That a
`BitBuffer` behaves like such a bit string is property C01 (`Verif.Core.BitBufferProps`).

Three outcomes are kept apart, as in the Rust code: a normal return, an `Err(PduParseErr)` return and
an abort of the process.

Models: crates/tetra-core/src/bitbuffer.rs `read_bits`, `read_field` (Err when the window does not hold
`n` more bits), `read_bits_generic` (None when `n > 64`), `peek_bits`, `write_bits` (abort when the
value does not fit or `n > 64`), `seek_rel`.
-/
namespace Verif.Codec
open Verif.Bits

/-- Outcome of a fallible function: value, `Err(..)`, or abort. -/
inductive Out (α : Type) where
  | ok (a : α)
  | err
  | panic
  deriving DecidableEq, Repr

namespace Out

def bind {α β : Type} (x : Out α) (f : α → Out β) : Out β :=
  match x with
  | .ok a => f a
  | .err => .err
  | .panic => .panic

instance : Monad Out where
  pure := Out.ok
  bind := Out.bind

@[simp] theorem pure_eq {α : Type} (a : α) : (pure a : Out α) = .ok a := rfl
@[simp] theorem bind_ok {α β : Type} (a : α) (f : α → Out β) : (Out.ok a >>= f) = f a := rfl
@[simp] theorem bind_err {α β : Type} (f : α → Out β) : ((Out.err : Out α) >>= f) = .err := rfl
@[simp] theorem bind_panic {α β : Type} (f : α → Out β) : ((Out.panic : Out α) >>= f) = .panic := rfl

theorem bind_eq_ok {α β : Type} {x : Out α} {f : α → Out β} {b : β} :
    (x >>= f) = .ok b ↔ ∃ a, x = .ok a ∧ f a = .ok b := by
  cases x <;> simp

theorem bind_eq_panic {α β : Type} {x : Out α} {f : α → Out β} :
    (x >>= f) = .panic ↔ x = .panic ∨ ∃ a, x = .ok a ∧ f a = .panic := by
  cases x <;> simp

end Out

/-- A reader: from the bits left to a value and the bits still left. -/
structure Rd (α : Type) where
  run : List Bool → Out (α × List Bool)

namespace Rd

instance : Monad Rd where
  pure a := ⟨fun bs => .ok (a, bs)⟩
  bind p f := ⟨fun bs => p.run bs >>= fun r => (f r.1).run r.2⟩

@[simp] theorem run_pure {α : Type} (a : α) (bs : List Bool) : (pure a : Rd α).run bs = .ok (a, bs) := rfl
@[simp] theorem run_bind {α β : Type} (p : Rd α) (f : α → Rd β) (bs : List Bool) :
    (p >>= f).run bs = (p.run bs >>= fun r => (f r.1).run r.2) := rfl
@[simp] theorem run_map {α β : Type} (p : Rd α) (f : α → β) (bs : List Bool) :
    (f <$> p).run bs = (p.run bs >>= fun r => .ok (f r.1, r.2)) := rfl
@[simp] theorem run_ite {α : Type} (c : Prop) [Decidable c] (p q : Rd α) (bs : List Bool) :
    (if c then p else q).run bs = if c then p.run bs else q.run bs := by split <;> rfl

/-- `return Err(..)`. -/
def fail {α : Type} : Rd α := ⟨fun _ => .err⟩
/-- `panic!` and friends. -/
def abort {α : Type} : Rd α := ⟨fun _ => .panic⟩

@[simp] theorem run_fail {α : Type} (bs : List Bool) : (fail : Rd α).run bs = .err := rfl
@[simp] theorem run_abort {α : Type} (bs : List Bool) : (abort : Rd α).run bs = .panic := rfl

/-- crates/tetra-core/src/bitbuffer.rs `read_field`: `n` bits, most significant first. -/
def bits (n : Nat) : Rd Nat :=
  ⟨fun bs => if n ≤ 64 ∧ n ≤ bs.length then .ok (ofBits (bs.take n), bs.drop n) else .err⟩

/-- A one-bit field compared with one (`== 1`). -/
def flag : Rd Bool :=
  ⟨fun bs => match bs with | [] => .err | b :: r => .ok (b, r)⟩

/-- The bits left, without consuming them (`get_len_remaining`, `peek_bits`). -/
def look : Rd (List Bool) := ⟨fun bs => .ok (bs, bs)⟩

/-- crates/tetra-core/src/bitbuffer.rs `seek_rel` forward: aborts when it would leave the window. -/
def skip (n : Nat) : Rd Unit :=
  ⟨fun bs => if n ≤ bs.length then .ok ((), bs.drop n) else .panic⟩

@[simp] theorem run_look (bs : List Bool) : look.run bs = .ok (bs, bs) := rfl

theorem run_bits_append {n v : Nat} (hn : n ≤ 64) (hv : v < 2 ^ n) (r : List Bool) :
    (bits n).run (toBits n v ++ r) = .ok (v, r) := by
  have h1 : (toBits n v ++ r).take n = toBits n v := by
    rw [List.take_append_of_le_length (by simp)]; exact List.take_of_length_le (by simp)
  have h2 : (toBits n v ++ r).drop n = r := by
    have := List.drop_left (l₁ := toBits n v) (l₂ := r)
    simpa using this
  simp only [bits, h1, h2, ofBits_toBits hv]
  rw [if_pos ⟨hn, by simp⟩]

@[simp] theorem run_flag_cons (b : Bool) (r : List Bool) : flag.run (b :: r) = .ok (b, r) := rfl

theorem run_bits_one (b : Bool) (r : List Bool) : (bits 1).run (b :: r) = .ok (b.toNat, r) := by
  cases b <;> simp [bits, ofBits]

/-- `flag` is a one-bit field compared with one. -/
theorem run_flag_eq (bs : List Bool) :
    flag.run bs = ((bits 1).run bs >>= fun r => .ok (r.1 == 1, r.2)) := by
  cases bs with
  | nil => simp [flag, bits]
  | cons b r => rw [run_bits_one]; cases b <;> rfl

theorem run_skip_append (l r : List Bool) {n : Nat} (h : l.length = n) : (skip n).run (l ++ r) = .ok ((), r) := by
  subst h; simp [skip]

/-! ### Readers which never abort -/

/-- The reader never aborts the process, whatever the bits are. -/
def Safe {α : Type} (p : Rd α) : Prop := ∀ bs, p.run bs ≠ .panic

theorem safe_pure {α : Type} (a : α) : Safe (pure a : Rd α) := by intro bs; simp
theorem safe_fail {α : Type} : Safe (fail : Rd α) := by intro bs; simp
theorem safe_look : Safe look := by intro bs; simp
theorem safe_bits (n : Nat) : Safe (bits n) := by intro bs; simp only [bits]; split <;> simp
theorem safe_flag : Safe flag := by intro bs; cases bs <;> simp [flag]
theorem safe_bind {α β : Type} {p : Rd α} {f : α → Rd β} (hp : Safe p) (hf : ∀ a, Safe (f a)) : Safe (p >>= f) := by
  intro bs h
  rw [run_bind, Out.bind_eq_panic] at h
  rcases h with h | ⟨a, _, h⟩
  · exact hp bs h
  · exact hf _ _ h
theorem safe_map {α β : Type} {p : Rd α} {f : α → β} (hp : Safe p) : Safe (f <$> p) := by
  intro bs h
  rw [run_map, Out.bind_eq_panic] at h
  rcases h with h | ⟨a, _, h⟩
  · exact hp bs h
  · simp at h
theorem safe_ite {α : Type} {c : Prop} [Decidable c] {p q : Rd α} (hp : c → Safe p) (hq : ¬ c → Safe q) :
    Safe (if c then p else q) := by
  split
  · exact hp ‹_›
  · exact hq ‹_›

/-! ### Readers which consume a prefix -/

/-- On success the reader has consumed a prefix of its input. -/
def Eats {α : Type} (p : Rd α) : Prop := ∀ bs a r, p.run bs = .ok (a, r) → ∃ l, bs = l ++ r

theorem eats_pure {α : Type} (a : α) : Eats (pure a : Rd α) := by
  intro bs a r h; simp at h; exact ⟨[], by simp [h.2]⟩
theorem eats_fail {α : Type} : Eats (fail : Rd α) := by intro bs a r h; simp at h
theorem eats_abort {α : Type} : Eats (abort : Rd α) := by intro bs a r h; simp at h
theorem eats_look : Eats look := by intro bs a r h; simp at h; exact ⟨[], by simp [h.2]⟩
theorem eats_bits (n : Nat) : Eats (bits n) := by
  intro bs a r h
  simp only [bits] at h
  split at h
  · simp at h; exact ⟨bs.take n, by rw [← h.2, List.take_append_drop]⟩
  · simp at h
theorem eats_skip (n : Nat) : Eats (skip n) := by
  intro bs a r h
  simp only [skip] at h
  split at h
  · simp at h; exact ⟨bs.take n, by rw [← h, List.take_append_drop]⟩
  · simp at h
theorem eats_flag : Eats flag := by
  intro bs a r h
  cases bs with
  | nil => simp [flag] at h
  | cons b bs => simp at h; exact ⟨[b], by simp [h.2]⟩
theorem eats_bind {α β : Type} {p : Rd α} {f : α → Rd β} (hp : Eats p) (hf : ∀ a, Eats (f a)) : Eats (p >>= f) := by
  intro bs a r h
  rw [run_bind, Out.bind_eq_ok] at h
  obtain ⟨⟨x, r1⟩, h1, h2⟩ := h
  obtain ⟨l1, e1⟩ := hp _ _ _ h1
  obtain ⟨l2, e2⟩ := hf _ _ _ _ h2
  exact ⟨l1 ++ l2, by simp only at e2; rw [e1, e2, List.append_assoc]⟩
theorem eats_map {α β : Type} {p : Rd α} {f : α → β} (hp : Eats p) : Eats (f <$> p) := by
  intro bs a r h
  rw [run_map, Out.bind_eq_ok] at h
  obtain ⟨⟨x, r1⟩, h1, h2⟩ := h
  simp at h2
  obtain ⟨l, e⟩ := hp _ _ _ h1
  exact ⟨l, by rw [e, h2.2]⟩
theorem eats_ite {α : Type} {c : Prop} [Decidable c] {p q : Rd α} (hp : c → Eats p) (hq : ¬ c → Eats q) :
    Eats (if c then p else q) := by
  split
  · exact hp ‹_›
  · exact hq ‹_›

end Rd

/-! ## Writers -/

/-- crates/tetra-core/src/bitbuffer.rs `write_bits`: aborts when the width exceeds 64 or the value does
not fit in it. -/
def wBits (v n : Nat) : Out (List Bool) := if n ≤ 64 ∧ v < 2 ^ n then .ok (toBits n v) else .panic

/-- crates/tetra-core/src/bitbuffer.rs `write_bit` with a boolean. -/
def wFlag (b : Bool) : Out (List Bool) := .ok [b]

/-- Writers run one after another. -/
def cat : List (Out (List Bool)) → Out (List Bool)
  | [] => .ok []
  | w :: ws => do
    let a ← w
    let b ← cat ws
    pure (a ++ b)

@[simp] theorem cat_nil : cat [] = .ok [] := rfl
@[simp] theorem cat_cons (w : Out (List Bool)) (ws : List (Out (List Bool))) :
    cat (w :: ws) = (w >>= fun a => cat ws >>= fun b => .ok (a ++ b)) := rfl
@[simp] theorem wFlag_eq (b : Bool) : wFlag b = .ok [b] := rfl
theorem wBits_ok {v n : Nat} (hn : n ≤ 64) (hv : v < 2 ^ n) : wBits v n = .ok (toBits n v) := if_pos ⟨hn, hv⟩

/-- Written one after another, when each of them succeeds. -/
theorem cat_append (a b : List (Out (List Bool))) :
    cat (a ++ b) = (cat a >>= fun x => cat b >>= fun y => .ok (x ++ y)) := by
  induction a with
  | nil =>
    simp only [List.nil_append, cat_nil, Out.bind_ok]
    cases cat b <;> simp
  | cons w ws ih =>
    simp only [List.cons_append, cat_cons, ih]
    cases w <;> simp
    cases cat ws <;> simp
    cases cat b <;> simp

/-! ## What it means for a writer and a reader to fit together -/

/-- The writer succeeds on `x` and, whatever bits follow, the reader gives `x` back and leaves exactly
those bits. -/
def RoundTrip {α : Type} (w : α → Out (List Bool)) (p : Rd α) (x : α) : Prop :=
  ∃ bs, w x = .ok bs ∧ ∀ rest, p.run (bs ++ rest) = .ok (x, rest)

/-- The writer succeeds on `x` and, whatever bits follow, the reader gives `y` and leaves exactly those
bits. Used where the code itself normalises a field. -/
def ReadsAs {α : Type} (w : α → Out (List Bool)) (p : Rd α) (x y : α) : Prop :=
  ∃ bs, w x = .ok bs ∧ ∀ rest, p.run (bs ++ rest) = .ok (y, rest)

theorem roundTrip_of {α : Type} {w : α → Out (List Bool)} {p : Rd α} {x : α}
    (h : match w x with | .ok bs => ∀ rest, p.run (bs ++ rest) = .ok (x, rest) | _ => False) : RoundTrip w p x := by
  unfold RoundTrip
  revert h
  cases w x with
  | ok bs => intro h; exact ⟨bs, rfl, h⟩
  | err => intro h; exact h.elim
  | panic => intro h; exact h.elim

theorem readsAs_of {α : Type} {w : α → Out (List Bool)} {p : Rd α} {x y : α}
    (h : match w x with | .ok bs => ∀ rest, p.run (bs ++ rest) = .ok (y, rest) | _ => False) : ReadsAs w p x y := by
  unfold ReadsAs
  revert h
  cases w x with
  | ok bs => intro h; exact ⟨bs, rfl, h⟩
  | err => intro h; exact h.elim
  | panic => intro h; exact h.elim

/-- An optional part announced by one flag bit. -/
def wPresent {α : Type} (w : α → Out (List Bool)) : Option α → Out (List Bool)
  | some x => cat [wFlag true, w x]
  | none => wFlag false

/-- Reading an optional part announced by one flag bit. -/
def rdPresent {α : Type} (p : Rd α) : Rd (Option α) := do
  let f ← Rd.flag
  if f then some <$> p else pure none

theorem present_roundTrip {α : Type} {w : α → Out (List Bool)} {p : Rd α} (v : Option α)
    (h : ∀ x, v = some x → RoundTrip w p x) : RoundTrip (wPresent w) (rdPresent p) v := by
  cases v with
  | none => exact ⟨[false], rfl, fun rest => by simp [rdPresent]⟩
  | some x =>
    obtain ⟨bs, hw, hr⟩ := h x rfl
    exact ⟨true :: bs, by simp [wPresent, hw], fun rest => by simp [rdPresent, hr]⟩

theorem safe_present {α : Type} {p : Rd α} (hp : p.Safe) : (rdPresent p).Safe := by
  intro bs h
  simp only [rdPresent, Rd.run_bind, Out.bind_eq_panic] at h
  rcases h with h | ⟨⟨b, r⟩, _, h2⟩
  · exact Rd.safe_flag _ h
  · cases b
    · simp at h2
    · exact Rd.safe_map hp _ (by simpa using h2)

/-- Fails to abort: the safe-reader tactic. -/
macro "safe_rd" : tactic => `(tactic| repeat' (first
  | exact Rd.safe_pure _ | exact Rd.safe_fail | exact Rd.safe_look | exact Rd.safe_bits _ | exact Rd.safe_flag
  | assumption
  | apply Rd.safe_bind | apply Rd.safe_map | apply Rd.safe_ite | intro _ | split))

macro "eats_rd" : tactic => `(tactic| repeat' (first
  | exact Rd.eats_pure _ | exact Rd.eats_fail | exact Rd.eats_abort | exact Rd.eats_look | exact Rd.eats_bits _
  | exact Rd.eats_flag | exact Rd.eats_skip _
  | assumption
  | apply Rd.eats_bind | apply Rd.eats_map | apply Rd.eats_ite | intro _ | split))

end Verif.Codec
