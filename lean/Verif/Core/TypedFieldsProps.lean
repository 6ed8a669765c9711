import Verif.Core.TypedFieldsLemmas
/-!
# C09: optional PDU elements survive encode/decode

A PDU description lists its type 2 elements and then its type 3/4 elements, each with the writer and the
reader of its contents. `wOptional`/`rdOptional` run the code of typed_pdu_fields.rs over such a
description in the order in which every `to_bitbuf`/`from_bitbuf` of the MLE, CMCE and MM PDUs does:
o-bit, type 2 elements, type 3/4 elements, terminating m-bit.
-/
namespace Verif.TypedFields
open Verif.Bits Verif.Codec

/-- One optional element of a PDU description. -/
inductive Field : Type 1 where
  | type2 {α : Type} (w : α → Out (List Bool)) (p : Rd α)
  | type3 {α : Type} (id : Nat) (w : α → Out (List Bool)) (p : Rd α)
  | type4 {α : Type} (id : Nat) (w : α → Out (List Bool)) (p : Rd α)
  /-- Read and written by `parse_type3_generic`/`write_type3_generic`. -/
  | generic3 (id : Nat)
  /-- Read by `parse_type4_generic`; its writer `write_type4_todo` is not implemented. -/
  | todo4 (id : Nat)

namespace Field
/-- Content of the element when present: a value, or for type 4 a repetition of values. -/
def Val : Field → Type
  | @type2 α _ _ => α
  | @type3 α _ _ _ => α
  | @type4 α _ _ _ => List α
  | generic3 _ => Type3Generic
  | todo4 _ => Type4Generic

def write (obit : Bool) : (f : Field) → Option f.Val → Out (List Bool)
  | type2 w _, v => wType2 obit w v
  | type3 id w _, v => wType3 obit id w v
  | type4 id w _, v => wType4 obit id w v
  | generic3 id, v => wType3Generic obit id v
  | todo4 _, v => wType4Todo obit v

def read (obit : Bool) : (f : Field) → Rd (Option f.Val)
  | type2 _ p => rdType2 obit p
  | type3 id _ p => rdType3 obit id p
  | type4 id _ p => rdType4 obit id p
  | generic3 id => rdType3Generic obit id
  | todo4 id => rdType4Generic obit id

/-- Identifier of a type 3/4 element. -/
def id? : Field → Option Nat
  | type2 _ _ => none
  | type3 id _ _ => some id
  | type4 id _ _ => some id
  | generic3 id => some id
  | todo4 id => some id

/-- A repetition which fits in the 11-bit length (which includes the count) and the 6-bit count. -/
def CarriesMany {α : Type} (w : α → Out (List Bool)) (p : Rd α) (xs : List α) : Prop :=
  xs.length < 64 ∧ (∀ x ∈ xs, RoundTrip w p x) ∧ ∀ bs, cat (xs.map w) = .ok bs → 6 + bs.length < 2048

/-- The content can be carried: the writer and reader of the contents fit together on it, and its
length and count fit in the 11-bit length and 6-bit count. -/
def Carries : (f : Field) → f.Val → Prop
  | type2 w p, x => RoundTrip w p x
  | type3 _ w p, x => RoundTrip w p x ∧ ∀ bs, w x = .ok bs → bs.length < 2048
  | type4 _ w p, xs => CarriesMany w p xs
  | generic3 id, x => x.fieldId = id ∧ x.len ≤ 64 ∧ x.data < 2 ^ x.len
  | todo4 _, _ => False
end Field

/-- Values (present or absent) of all elements of a description. -/
def Vals : List Field → Type
  | [] => Unit
  | f :: fs => Option f.Val × Vals fs

/-- Some element is present: the o-bit each `to_bitbuf` computes. -/
def anyPresent : (fs : List Field) → Vals fs → Bool
  | [], _ => false
  | _ :: fs, (v, vs) => v.isSome || anyPresent fs vs

def writeAll (obit : Bool) : (fs : List Field) → Vals fs → Out (List Bool)
  | [], _ => .ok []
  | f :: fs, (v, vs) => do
    let a ← f.write obit v
    let b ← writeAll obit fs vs
    pure (a ++ b)

def readAll (obit : Bool) : (fs : List Field) → Rd (Vals fs)
  | [] => pure ()
  | f :: fs => do
    let v ← f.read obit
    let vs ← readAll obit fs
    pure (v, vs)

/-- Every present element can be carried. -/
def AllCarry : (fs : List Field) → Vals fs → Prop
  | [], _ => True
  | f :: fs, (v, vs) => (∀ x, v = some x → f.Carries x) ∧ AllCarry fs vs

/-- The optional part of a PDU as its `to_bitbuf` writes it: `write_obit`, `if !obit { return }`, the
elements, `write_mbit(0)`. -/
def wOptional (fs : List Field) (vs : Vals fs) : Out (List Bool) :=
  if anyPresent fs vs then cat [wFlag true, writeAll true fs vs, wEnd true] else wFlag false

/-- The optional part of a PDU as its `from_bitbuf` reads it: `read_obit`, the elements, the trailing m-bit. -/
def rdOptional (fs : List Field) : Rd (Vals fs) := do
  let obit ← Rd.flag
  let vs ← readAll obit fs
  rdEnd obit
  pure vs

/-- A PDU description: type 2 elements first, then type 3/4 elements with distinct 4-bit identifiers. -/
structure Valid (fs2 fs34 : List Field) : Prop where
  type2 : ∀ f ∈ fs2, f.id? = none
  type34 : ∀ f ∈ fs34, ∃ id, f.id? = some id ∧ id < 16
  distinct : (fs34.filterMap Field.id?).Nodup

theorem readAll_false (fs : List Field) (vs : Vals fs) (h : anyPresent fs vs = false) (rest : List Bool) :
    (readAll false fs).run rest = .ok (vs, rest) := by
  induction fs with
  | nil => rfl
  | cons f fs ih =>
    obtain ⟨v, vs⟩ := vs
    simp only [anyPresent, Bool.or_eq_false_iff, Option.isSome_eq_false_iff, Option.isNone_iff_eq_none] at h
    obtain ⟨rfl, h⟩ := h
    cases f <;>
    · show ((pure none : Rd (Option _)) >>= fun v => readAll false fs >>= fun vs => pure (v, vs)).run rest = _
      simp [ih vs h]
      rfl

theorem field34_fits (f : Field) (id : Nat) (hid : f.id? = some id) (hlt : id < 16) (v : Option f.Val)
    (hc : ∀ x, v = some x → f.Carries x) : ∃ bs, Fits id (f.write true) (f.read true) v bs := by
  cases f with
  | type2 w p => simp [Field.id?] at hid
  | type3 i w p =>
    simp only [Field.id?, Option.some.injEq] at hid
    subst hid
    refine fits_type3 hlt v ?_
    intro x hx
    obtain ⟨⟨bs, h1, h2⟩, h3⟩ := hc x hx
    exact ⟨bs, h1, h3 bs h1, h2⟩
  | type4 i w p =>
    simp only [Field.id?, Option.some.injEq] at hid
    subst hid
    exact fits_type4 hlt v fun xs hx => hc xs hx
  | generic3 i =>
    simp only [Field.id?, Option.some.injEq] at hid
    subst hid
    exact fits_type3Generic hlt v fun x hx => hc x hx
  | todo4 i =>
    cases v with
    | some x => exact (hc x rfl).elim
    | none =>
      simp only [Field.id?, Option.some.injEq] at hid
      subst hid
      refine ⟨[], rfl, ?_, fun id' rest _ h => h⟩
      intro rest hr
      simp only [Field.read, rdType4Generic, rdType4Header, if_true, Rd.run_bind, List.nil_append, peekId_absent hr, Out.bind_ok]
      rfl

/-- Type 3/4 part: read back, and elements not listed are absent at its start. -/
theorem all34 (fs : List Field) (vs : Vals fs) (h34 : ∀ f ∈ fs, ∃ id, f.id? = some id ∧ id < 16)
    (hd : (fs.filterMap Field.id?).Nodup) (hc : AllCarry fs vs) :
    ∃ bs, writeAll true fs vs = .ok bs ∧
      (∀ rest, (∀ id, Absent id rest) → (readAll true fs).run (bs ++ rest) = .ok (vs, rest)) ∧
      (∀ rest id, (∀ id, Absent id rest) → id ∉ fs.filterMap Field.id? → Absent id (bs ++ rest)) := by
  induction fs with
  | nil => exact ⟨[], rfl, fun rest _ => rfl, fun rest id h _ => h id⟩
  | cons f fs ih =>
    obtain ⟨v, vs⟩ := vs
    obtain ⟨hcv, hc⟩ := hc
    obtain ⟨id, hid, hlt⟩ := h34 f (by simp)
    rw [List.filterMap_cons_some hid, List.nodup_cons] at hd
    obtain ⟨b2, hw2, hr2, ha2⟩ := ih vs (fun g hg => h34 g (by simp [hg])) hd.2 hc
    obtain ⟨b1, hf⟩ := field34_fits f id hid hlt v hcv
    refine ⟨b1 ++ b2, ?_, ?_, ?_⟩
    · simp [writeAll, hf.wrote, hw2]
    · intro rest hrest
      have h1 := hf.read (b2 ++ rest) (ha2 rest id hrest hd.1)
      simp only [readAll, Rd.run_bind, List.append_assoc, h1, Out.bind_ok, hr2 rest hrest]
      rfl
    · intro rest id' hrest hn
      rw [List.filterMap_cons_some hid, List.mem_cons, not_or] at hn
      rw [List.append_assoc]
      exact hf.other id' _ (fun e => hn.1 e.symm) (ha2 rest id' hrest hn.2)

theorem all2 (fs gs : List Field) (vs : Vals (fs ++ gs)) (h2 : ∀ f ∈ fs, f.id? = none)
    (h34 : ∀ f ∈ gs, ∃ id, f.id? = some id ∧ id < 16)
    (hd : (gs.filterMap Field.id?).Nodup) (hc : AllCarry (fs ++ gs) vs) :
    ∃ bs, writeAll true (fs ++ gs) vs = .ok bs ∧
      ∀ rest, (∀ id, Absent id rest) → (readAll true (fs ++ gs)).run (bs ++ rest) = .ok (vs, rest) := by
  induction fs with
  | nil =>
    obtain ⟨bs, h1, h2, _⟩ := all34 gs vs h34 hd hc
    exact ⟨bs, h1, h2⟩
  | cons f fs ih =>
    obtain ⟨v, vs⟩ := vs
    obtain ⟨hcv, hc⟩ := hc
    obtain ⟨b2, hw2, hr2⟩ := ih vs (fun g hg => h2 g (by simp [hg])) hc
    have hf := h2 f (by simp)
    cases f with
    | type3 i w p => simp [Field.id?] at hf
    | type4 i w p => simp [Field.id?] at hf
    | generic3 i => simp [Field.id?] at hf
    | todo4 i => simp [Field.id?] at hf
    | type2 w p =>
      obtain ⟨b1, hw1, hr1⟩ := type2_roundTrip (w := w) (p := p) v hcv
      refine ⟨b1 ++ b2, ?_, ?_⟩
      · show (do let a ← wType2 true w v; let b ← writeAll true (fs ++ gs) vs; pure (a ++ b)) = _
        simp [hw1, hw2]
      · intro rest hrest
        show ((rdType2 true p >>= fun v => readAll true (fs ++ gs) >>= fun vs => pure (v, vs)) : Rd _).run _ = _
        simp only [Rd.run_bind, List.append_assoc, hr1, Out.bind_ok, hr2 rest hrest]
        rfl

/-- **C09.** For every PDU description, every combination of present and absent elements whose contents
can be carried, and whatever follows in the buffer: writing the optional part succeeds, and reading it
gives the same presence pattern and values and leaves exactly what followed. -/
theorem c09_optional_part (fs2 fs34 : List Field) (hv : Valid fs2 fs34) (vs : Vals (fs2 ++ fs34))
    (hc : AllCarry (fs2 ++ fs34) vs) :
    RoundTrip (wOptional (fs2 ++ fs34)) (rdOptional (fs2 ++ fs34)) vs := by
  unfold RoundTrip wOptional
  by_cases ha : anyPresent (fs2 ++ fs34) vs = true
  · obtain ⟨bs, hw, hr⟩ := all2 fs2 fs34 vs hv.type2 hv.type34 hv.distinct hc
    refine ⟨true :: (bs ++ [false]), ?_, ?_⟩
    · simp [ha, hw, wEnd]
    · intro rest
      have := hr (false :: rest) (fun id => absent_end id rest)
      simp only [rdOptional, Rd.run_bind, List.cons_append, List.append_assoc, Rd.run_flag_cons, Out.bind_ok,
        List.nil_append, this, rdEnd_true, Rd.run_pure]
  · have ha' : anyPresent (fs2 ++ fs34) vs = false := by simpa using ha
    refine ⟨[false], by simp [ha'], ?_⟩
    intro rest
    simp only [rdOptional, Rd.run_bind, List.cons_append, Rd.run_flag_cons, Out.bind_ok, List.nil_append,
      readAll_false _ _ ha', rdEnd_false, Rd.run_pure]

/-- A non-trivial description: a 24-bit type 2 element, a type 3 element of 7 bits with identifier 5 and
a type 4 repetition of 10-bit values with identifier 9; the type 3 element absent, the repetition present. -/
example :
    let fs2 : List Field := [.type2 (wBits · 24) (Rd.bits 24)]
    let fs34 : List Field := [.type3 5 (wBits · 7) (Rd.bits 7), .type4 9 (wBits · 10) (Rd.bits 10)]
    Valid fs2 fs34 ∧ ∃ bs, wOptional (fs2 ++ fs34) (some (91 : Nat), none, some [(3 : Nat), 1023], ()) = .ok bs ∧ bs.length = 69 := by
  refine ⟨⟨?_, ?_, ?_⟩, ?_⟩
  · simp [Field.id?]
  · simp [Field.id?]
  · simp [Field.id?]
  · exact ⟨_, rfl, rfl⟩

/-! ## The back-filled length fields

`write_type3_struct` writes an 11-bit zero, the payload, goes back, writes the length, and returns to the
end (`write_type4_struct` likewise with length and count). -/

open Verif.BitBuffer.Spec

/-- A call whose answer is not used. -/
def act (t : Tape) (op : Op) : Res Tape := do
  let r ← step t op
  pure r.2

/-- typed_pdu_fields.rs `write_type3_struct`, present element, on the tape of C01: `payload` is what the
element's writer puts. -/
def backfill3 (t : Tape) (id : Nat) (payload : List Bool) : Res Tape := do
  let t ← act t (.writeBit 1)
  let t ← act t (.write id 4)
  let posLen := t.cur
  let t ← act t (.write 0 11)
  let t ← t.put payload
  let posEnd := t.cur
  let t ← act t (.seek posLen)
  let t ← act t (.write (posEnd - posLen - 11) 11)
  act t (.seek posEnd)

/-- typed_pdu_fields.rs `write_type4_struct`, present element with `count` repetitions. -/
def backfill4 (t : Tape) (id count : Nat) (payload : List Bool) : Res Tape := do
  let t ← act t (.writeBit 1)
  let t ← act t (.write id 4)
  let posLen := t.cur
  let t ← act t (.write 0 17)
  let t ← t.put payload
  let posEnd := t.cur
  let t ← act t (.seek posLen)
  let t ← act t (.write (posEnd - posLen - 11) 11)
  let t ← act t (.write count 6)
  act t (.seek posEnd)

theorem put_ok (t : Tape) (x : List Bool) (h : t.cur + x.length ≤ t.bits.length ∨ t.growable) :
    t.put x = .ok { t with bits := t.bits.take t.cur ++ x ++ t.bits.drop (t.cur + x.length), cur := t.cur + x.length } :=
  if_pos h

theorem put_panic (t : Tape) (x : List Bool) (h : ¬ (t.cur + x.length ≤ t.bits.length ∨ t.growable)) :
    t.put x = .panic := if_neg h

/-- Writing one string after another is writing their concatenation. -/
theorem put_put (t : Tape) (h : t.cur ≤ t.bits.length) (x y : List Bool) :
    (t.put x >>= fun t => t.put y) = t.put (x ++ y) := by
  by_cases h1 : t.cur + x.length ≤ t.bits.length ∨ t.growable
  · rw [put_ok t x h1, Res.bind_ok]
    by_cases h2 : t.cur + (x ++ y).length ≤ t.bits.length ∨ t.growable
    · rw [put_ok t _ h2, put_ok]
      · have hl : (t.bits.take t.cur ++ x).length = t.cur + x.length := by simp; omega
        simp only [List.length_append, Nat.add_assoc]
        congr 2
        rw [List.take_left' hl, List.drop_append, List.drop_of_length_le (by rw [hl]; omega), List.drop_drop, hl]
        simp only [List.nil_append, List.append_assoc]
        congr 4
        omega
      · rcases h2 with h2 | h2
        · left; simp at h2 ⊢; omega
        · exact Or.inr h2
    · rw [put_panic t _ h2, put_panic]
      rw [not_or] at h2 ⊢
      refine ⟨?_, h2.2⟩
      rcases h1 with h1 | h1
      · have := h2.1; simp at this ⊢; omega
      · exact absurd h1 h2.2
  · rw [put_panic t x h1, put_panic]
    · rfl
    · rw [not_or] at h1 ⊢
      exact ⟨by have := h1.1; simp at this ⊢; omega, h1.2⟩

/-- Going back and overwriting a part of what was written with as many other bits. -/
theorem put_over (t t' : Tape) (a z l b : List Bool) (hc : t.cur ≤ t.bits.length) (hz : z.length = l.length)
    (h : t.put (a ++ (z ++ b)) = .ok t') :
    ({ t' with cur := t.cur + a.length } : Tape).put l =
      .ok { t' with bits := t.bits.take t.cur ++ (a ++ (l ++ b)) ++ t.bits.drop (t.cur + (a ++ (z ++ b)).length),
                    cur := t.cur + a.length + l.length } := by
  by_cases h1 : t.cur + (a ++ (z ++ b)).length ≤ t.bits.length ∨ t.growable
  · rw [put_ok t _ h1] at h
    cases h
    have hl : (t.bits.take t.cur ++ a).length = t.cur + a.length := by simp; omega
    have hl2 : (t.bits.take t.cur ++ a ++ z).length = t.cur + a.length + l.length := by simp; omega
    generalize t.bits.drop (t.cur + (a ++ (z ++ b)).length) = d
    rw [put_ok]
    · simp only
      congr 2
      have e1 : t.bits.take t.cur ++ (a ++ (z ++ b)) ++ d = (t.bits.take t.cur ++ a) ++ (z ++ b ++ d) := by simp
      have e2 : t.bits.take t.cur ++ (a ++ (z ++ b)) ++ d = (t.bits.take t.cur ++ a ++ z) ++ (b ++ d) := by simp
      rw [show List.take (t.cur + a.length) (t.bits.take t.cur ++ (a ++ (z ++ b)) ++ d) = t.bits.take t.cur ++ a by
        rw [e1, List.take_left' hl]]
      rw [show List.drop (t.cur + a.length + l.length) (t.bits.take t.cur ++ (a ++ (z ++ b)) ++ d) = b ++ d by
        rw [e2, List.drop_left' hl2]]
      simp
    · left; simp; omega
  · rw [put_panic t _ h1] at h; cases h

theorem put_cur (t t' : Tape) (x : List Bool) (hc : t.cur ≤ t.bits.length) (h : t.put x = .ok t') :
    t'.cur = t.cur + x.length ∧ t'.cur ≤ t'.bits.length := by
  by_cases h1 : t.cur + x.length ≤ t.bits.length ∨ t.growable
  · rw [put_ok t x h1] at h; cases h; simp; omega
  · rw [put_panic t x h1] at h; cases h

theorem act_write (t : Tape) {v n : Nat} (hn : n ≤ 64) (hv : v < 2 ^ n) : act t (.write v n) = t.put (toBits n v) := by
  simp only [act, step]; rw [if_pos ⟨hn, hv⟩]
  cases t.put (toBits n v) <;> rfl

theorem act_seek (t : Tape) {o : Nat} (ho : o ≤ t.bits.length) : act t (.seek o) = .ok { t with cur := o } := by
  simp only [act, step]; rw [if_pos ho]; rfl

theorem act_header (t : Tape) (hc : t.cur ≤ t.bits.length) {id : Nat} (hid : id < 16) (k : Tape → Res Tape) :
    (act t (.writeBit 1) >>= fun t => act t (.write id 4) >>= k) = (t.put (true :: toBits 4 id) >>= k) := by
  have h1 : act t (.writeBit 1) = t.put [true] := by
    simp only [act, step, Nat.lt_add_one, if_true, beq_self_eq_true]
    cases t.put [true] <;> rfl
  have := put_put t hc [true] (toBits 4 id)
  rw [List.singleton_append] at this
  rw [← this, h1]
  cases t.put [true] with
  | panic => rfl
  | ok t1 => simp only [Res.bind_ok]; rw [act_write t1 (by omega) (by simpa using hid)]

theorem put_same (t : Tape) {x y : List Bool} (h : x.length = y.length) : t.put x = .panic ↔ t.put y = .panic := by
  by_cases hx : t.cur + x.length ≤ t.bits.length ∨ t.growable
  · rw [put_ok _ _ hx, put_ok t y (by rw [← h]; exact hx)]; simp
  · rw [put_panic _ _ hx, put_panic t y (by rw [← h]; exact hx)]

/-- Zeroes, payload, back, the patch, forward again. -/
theorem patch (t : Tape) (hc : t.cur ≤ t.bits.length) (z l payload : List Bool) (hz : z.length = l.length)
    (k : Tape → Nat → Res Tape)
    (hk : ∀ t3 : Tape, t.cur + (z.length + payload.length) ≤ t3.bits.length →
      k t3 (t.cur + (z.length + payload.length)) =
      (({ t3 with cur := t.cur } : Tape).put l >>= fun t => act t (.seek (t.cur + payload.length)))) :
    (t.put z >>= fun t => t.put payload >>= fun t => k t t.cur) = t.put (l ++ payload) := by
  rw [show (t.put z >>= fun t => t.put payload >>= fun t => k t t.cur)
      = ((t.put z >>= fun t => t.put payload) >>= fun t => k t t.cur) by cases t.put z <;> rfl]
  rw [put_put t hc]
  cases h3 : t.put (z ++ payload) with
  | panic =>
    rw [(put_same t (by simp [hz])).1 h3]; rfl
  | ok t3 =>
    obtain ⟨c3, l3⟩ := put_cur t t3 _ hc h3
    rw [List.length_append] at c3
    rw [Res.bind_ok, c3, hk t3 (by omega)]
    have := put_over t t3 [] z l payload hc hz h3
    simp only [List.length_nil, Nat.add_zero, List.nil_append] at this
    rw [this, Res.bind_ok, act_seek]
    · by_cases h : t.cur + (z ++ payload).length ≤ t.bits.length ∨ t.growable
      · rw [put_ok t _ h] at h3
        cases h3
        rw [put_ok t _ (by simpa [← hz] using h)]
        simp [hz, Nat.add_assoc]
      · rw [put_panic _ _ h] at h3; cases h3
    · simp; omega

/-- **C09.** The way `write_type3_struct` fills in the length afterwards leaves exactly: m-bit one, the
identifier, the true length of the payload, the payload; and nothing else is touched. -/
theorem c09_backfill_type3 (t : Tape) (hc : t.cur ≤ t.bits.length) (id : Nat) (hid : id < 16) (payload : List Bool)
    (hl : payload.length < 2048) :
    backfill3 t id payload = t.put (true :: toBits 4 id ++ (toBits 11 payload.length ++ payload)) := by
  unfold backfill3
  rw [act_header t hc hid, ← put_put t hc]
  cases h1 : t.put (true :: toBits 4 id) with
  | panic => rfl
  | ok t1 =>
    obtain ⟨c1, l1⟩ := put_cur t t1 _ hc h1
    simp only [Res.bind_ok]
    rw [act_write t1 (by omega) (by omega)]
    refine patch t1 l1 (toBits 11 0) (toBits 11 payload.length) payload (by simp)
      (fun t e => act t (.seek t1.cur) >>= fun t => act t (.write (e - t1.cur - 11) 11) >>= fun t => act t (.seek e)) ?_
    intro t3 h
    simp only [length_toBits] at h ⊢
    rw [act_seek t3 (by omega), Res.bind_ok, show t1.cur + (11 + payload.length) - t1.cur - 11 = payload.length by omega,
      act_write _ (by omega) (by simpa using hl)]
    cases hp : ({ t3 with cur := t1.cur } : Tape).put (toBits 11 payload.length) with
    | panic => rfl
    | ok t4 =>
      obtain ⟨c4, _⟩ := put_cur _ _ _ (by simp; omega) hp
      simp only [length_toBits] at c4
      simp only [Res.bind_ok]
      rw [show t1.cur + (11 + payload.length) = t4.cur + payload.length by omega]

/-- **C09.** Likewise for `write_type4_struct`: the length counts the six bits of the count. -/
theorem c09_backfill_type4 (t : Tape) (hc : t.cur ≤ t.bits.length) (id : Nat) (hid : id < 16) (count : Nat)
    (hn : count < 64) (payload : List Bool) (hl : 6 + payload.length < 2048) :
    backfill4 t id count payload =
      t.put (true :: toBits 4 id ++ (toBits 11 (6 + payload.length) ++ toBits 6 count ++ payload)) := by
  unfold backfill4
  rw [act_header t hc hid, ← put_put t hc]
  cases h1 : t.put (true :: toBits 4 id) with
  | panic => rfl
  | ok t1 =>
    obtain ⟨c1, l1⟩ := put_cur t t1 _ hc h1
    simp only [Res.bind_ok]
    rw [act_write t1 (by omega) (by omega)]
    refine patch t1 l1 (toBits 17 0) (toBits 11 (6 + payload.length) ++ toBits 6 count) payload (by simp)
      (fun t e => act t (.seek t1.cur) >>= fun t => act t (.write (e - t1.cur - 11) 11) >>= fun t =>
        act t (.write count 6) >>= fun t => act t (.seek e)) ?_
    intro t3 h
    simp only [length_toBits] at h ⊢
    rw [act_seek t3 (by omega), Res.bind_ok,
      show t1.cur + (17 + payload.length) - t1.cur - 11 = 6 + payload.length by omega,
      act_write _ (by omega) (by simpa using hl), ← put_put _ (by simp; omega)]
    cases hp : ({ t3 with cur := t1.cur } : Tape).put (toBits 11 (6 + payload.length)) with
    | panic => rfl
    | ok t4 =>
      obtain ⟨c4, l4⟩ := put_cur _ _ _ (by simp; omega) hp
      simp only [length_toBits] at c4
      simp only [Res.bind_ok]
      rw [act_write _ (by omega) (by simpa using hn)]
      cases hq : t4.put (toBits 6 count) with
      | panic => rfl
      | ok t5 =>
        obtain ⟨c5, _⟩ := put_cur _ _ _ l4 hq
        simp only [length_toBits] at c5
        simp only [Res.bind_ok]
        rw [show t1.cur + (17 + payload.length) = t5.cur + payload.length by omega]

/-- The tape starts empty, a type 3 element of ten bits is written: 26 bits result. -/
example : backfill3 { bits := [], cur := 0, growable := true } 5 (List.replicate 10 true) =
    .ok { bits := true :: toBits 4 5 ++ (toBits 11 10 ++ List.replicate 10 true), cur := 26, growable := true } := by
  decide

/-! ## Decoding of arbitrary received bits -/

/-- A reader of a type 2 or type 3 element never aborts on any received bits, if the reader of its
contents does not. -/
theorem c09_type23_total {α : Type} (p : Rd α) (hp : p.Safe) (obit : Bool) (id : Nat) :
    (rdType2 obit p).Safe ∧ (rdType3 obit id p).Safe := ⟨safe_type2 obit hp, safe_type3 obit id hp⟩

/-- What it does accept it has read in full: a type 3 element is reported present only if the bits are an
m-bit, the identifier, a length, and exactly that many bits which its contents' reader consumed. -/
theorem c09_type3_length_honoured {α : Type} (p : Rd α) (hp : p.Eats) (id : Nat) (bs rest : List Bool) (x : α)
    (h : (rdType3 true id p).run bs = .ok (some x, rest)) :
    ∃ payload, bs.length = 16 + payload.length + rest.length ∧
      bs = bs.take 16 ++ (payload ++ rest) ∧ bs.head? = some true ∧ ofBits ((bs.drop 1).take 4) = id ∧
      ofBits ((bs.drop 5).take 11) = payload.length ∧ p.run (payload ++ rest) = .ok (x, rest) := by
  simp only [rdType3, if_true, Rd.run_bind] at h
  rw [Out.bind_eq_ok] at h
  obtain ⟨⟨b, r⟩, h1, h2⟩ := h
  cases b with
  | false => simp at h2
  | true =>
    have hpk := h1
    obtain ⟨rfl, h5⟩ := peekId_true h1
    simp only [if_true, Rd.run_bind, Rd.skip] at h2
    rw [if_pos h5, Out.bind_ok, Out.bind_eq_ok] at h2
    obtain ⟨⟨n, r2⟩, h3, h4⟩ := h2
    simp only [Rd.bits] at h3
    split at h3
    · rename_i hb
      simp only [Out.ok.injEq, Prod.mk.injEq] at h3
      obtain ⟨rfl, rfl⟩ := h3
      simp only [Rd.run_map, Out.bind_eq_ok, Out.ok.injEq, Prod.mk.injEq, Option.some.injEq] at h4
      obtain ⟨⟨y, r3⟩, h6, rfl, rfl⟩ := h4
      simp only [exactly, Rd.run_bind, Rd.run_look, Out.bind_ok] at h6
      rw [Out.bind_eq_ok] at h6
      obtain ⟨⟨z, r4⟩, h7, h8⟩ := h6
      simp only [Rd.run_ite] at h8
      split at h8
      · rename_i hl
        simp only [Rd.run_pure, Out.ok.injEq, Prod.mk.injEq] at h8
        obtain ⟨rfl, rfl⟩ := h8
        dsimp only at hl h7 ⊢
        obtain ⟨l, el⟩ := hp _ _ _ h7
        simp only [List.drop_drop, Nat.reduceAdd] at h7 el hl
        have ll : (r.drop 16).length = l.length + r4.length := by rw [el, List.length_append]
        simp only [List.length_drop] at ll hb
        refine ⟨l, by omega, ?_, ?_, ?_, ?_, ?_⟩
        · rw [← el, List.take_append_drop]
        · unfold peekId at hpk
          match r, hpk with
          | true :: t, _ => rfl
        · unfold peekId at hpk
          match r, hpk with
          | true :: t, hpk =>
            simp only [Rd.run_bind, Rd.run_look, Out.bind_ok, Rd.run_ite] at hpk
            split at hpk
            · simp at hpk
            · simpa using hpk
        · simp only [List.length_drop] at hl ll; omega
        · rw [← el]; exact h7
      · simp at h8
    · simp at h3

/-- **Finding.** A received type 4 element whose length field is below six makes the reader abort
(`len_bits - 6`): m-bit one, the expected identifier, length 0 and a count are enough. -/
theorem c09_type4_short_length_aborts {α : Type} (p : Rd α) (id : Nat) (hid : id < 16) (len count : Nat) (hl : len < 6)
    (hn : count < 64) (rest : List Bool) :
    (rdType4 true id p).run (true :: (toBits 4 id ++ (toBits 11 len ++ (toBits 6 count ++ rest)))) = .panic := by
  simp only [rdType4, rdType4Header, if_true, Rd.run_bind, peekId_present hid, Out.bind_ok, skip_header, Rd.run_ite,
    Rd.run_bits_append (show 11 ≤ 64 by omega) (show len < 2 ^ 11 by omega),
    Rd.run_bits_append (show 6 ≤ 64 by omega) (show count < 2 ^ 6 by omega)]
  rw [if_pos hl]
  rfl

/-- **Finding.** A received type 3 element read by `parse_type3_generic` whose length field exceeds both 64
and what the buffer holds makes the reader abort (`seek_rel` beyond the window) instead of reporting an
error. -/
theorem c09_type3_generic_overlong_aborts (id : Nat) (hid : id < 16) (len : Nat) (hl : 64 < len) (hl2 : len < 2048)
    (rest : List Bool) (h64 : 64 ≤ rest.length) (hr : rest.length < len) :
    (rdType3Generic true id).run (true :: (toBits 4 id ++ (toBits 11 len ++ rest))) = .panic := by
  simp only [rdType3Generic, if_true, Rd.run_bind, peekId_present hid, Out.bind_ok, skip_header, Rd.run_ite,
    Rd.run_bits_append (show 11 ≤ 64 by omega) (show len < 2 ^ 11 by omega)]
  rw [Nat.min_eq_right (by omega)]
  have : (Rd.bits 64).run rest = .ok (ofBits (rest.take 64), rest.drop 64) := by
    simp only [Rd.bits]; rw [if_pos ⟨by omega, h64⟩]
  rw [this]
  simp only [Out.bind_ok]
  rw [if_pos hl]
  simp only [Rd.skip]
  rw [if_neg (by simp; omega)]
  rfl

/-- Elements the reader does not know are not ignored: when the m-bit after the known elements is one, reading fails. -/
theorem c09_unknown_elements_rejected (fs : List Field) (bs : List Bool) (vs : Vals fs) (rest : List Bool)
    (h : (readAll true fs).run bs = .ok (vs, true :: rest)) : (rdOptional fs).run (true :: bs) = .err := by
  simp [rdOptional, h, rdEnd, Rd.run_bind]

/-- A type 3 element longer than 64 bits is passed over as a whole: the first 64 bits are returned and reading goes on
right after the element. -/
theorem c09_type3_generic_long (id : Nat) (hid : id < 16) (body rest : List Bool) (hl : 64 < body.length) (hl2 : body.length < 2048) :
    (rdType3Generic true id).run (true :: (toBits 4 id ++ (toBits 11 body.length ++ (body ++ rest)))) =
      .ok (some ⟨id, body.length, ofBits (body.take 64)⟩, rest) := by
  simp only [rdType3Generic, if_true, Rd.run_bind, peekId_present hid, Out.bind_ok, skip_header, Rd.run_ite,
    Rd.run_bits_append (show 11 ≤ 64 by omega) (show body.length < 2 ^ 11 by omega)]
  rw [Nat.min_eq_right (by omega)]
  have : (Rd.bits 64).run (body ++ rest) = .ok (ofBits (body.take 64), (body ++ rest).drop 64) := by
    simp only [Rd.bits]; rw [if_pos ⟨by omega, by simp; omega⟩, List.take_append_of_le_length (by omega)]
  rw [this]
  simp only [Out.bind_ok]
  rw [if_pos hl]
  simp only [Rd.skip]
  rw [if_pos (by simp; omega)]
  simp only [Out.bind_ok, Rd.run_pure, List.drop_drop]
  rw [show 64 + (body.length - 64) = body.length by omega, List.drop_left]

example : ∃ body : List Bool, 64 < body.length ∧ body.length < 2048 := ⟨List.replicate 70 true, by simp⟩

end Verif.TypedFields
