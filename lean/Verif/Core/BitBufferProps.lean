import Verif.Core.BitBufferOps
/-!
# C01 / C02: the bit buffer is a bit tape

## Specification
A tape is a string of bits and a cursor. `growable` says whether a write past the end extends it. This is
the whole specification: no bytes, no alignment, no masks.
-/
namespace Verif.BitBuffer
open Verif.Bits

namespace Spec
structure Tape where
  bits : List Bool
  cur : Nat
  growable : Bool
  deriving DecidableEq, Repr

/-- Put `x` at the cursor, over whatever was there, and step behind it. -/
def Tape.put (t : Tape) (x : List Bool) : Res Tape :=
  if t.cur + x.length ≤ t.bits.length ∨ t.growable then
    .ok { t with bits := t.bits.take t.cur ++ x ++ t.bits.drop (t.cur + x.length), cur := t.cur + x.length }
  else .panic

/-- The calls a client makes. -/
inductive Op where
  | write (value width : Nat)
  | writeBit (value : Nat)
  | writeZeroes (n : Nat)
  | read (width : Nat)
  | peek (width : Nat)
  | seek (offset : Nat)
  | seekRel (offset : Int)
  | len
  | lenRemaining

/-- What each call does to the tape and what it answers. -/
def step (t : Tape) : Op → Res (Option Nat × Tape)
  | .write v n =>
    if n ≤ 64 ∧ v < 2 ^ n then do
      let t ← t.put (toBits n v)
      pure (none, t)
    else .panic
  | .writeBit v =>
    if v < 2 then do
      let t ← t.put [v == 1]
      pure (none, t)
    else .panic
  | .writeZeroes n => do
      let t ← t.put (List.replicate n false)
      pure (none, t)
  | .read n =>
    if n ≤ 64 ∧ t.cur + n ≤ t.bits.length then
      .ok (some (ofBits ((t.bits.drop t.cur).take n)), { t with cur := t.cur + n })
    else .ok (none, t)
  | .peek n =>
    if n ≤ 64 ∧ t.cur + n ≤ t.bits.length then .ok (some (ofBits ((t.bits.drop t.cur).take n)), t)
    else .ok (none, t)
  | .seek o => if o ≤ t.bits.length then .ok (none, { t with cur := o }) else .panic
  | .seekRel o =>
    if 0 ≤ (t.cur : Int) + o ∧ (t.cur : Int) + o ≤ t.bits.length then
      .ok (none, { t with cur := ((t.cur : Int) + o).toNat })
    else .panic
  | .len => .ok (some t.bits.length, t)
  | .lenRemaining => .ok (some (t.bits.length - t.cur), t)

/-- A write on a growable tape that begins before the end and finishes after it. -/
def Straddles (t : Tape) : Op → Prop
  | .write _ n => t.growable = true ∧ t.cur < t.bits.length ∧ t.bits.length < t.cur + n
  | .writeBit _ => False
  | .writeZeroes n => t.growable = true ∧ t.cur < t.bits.length ∧ t.bits.length < t.cur + n
  | _ => False

/-- Run a list of calls, collecting the answers. -/
def run (t : Tape) : List Op → Res (List (Option Nat) × Tape)
  | [] => .ok ([], t)
  | op :: ops => do
    let (o, t) ← step t op
    let (os, t) ← run t ops
    pure (o :: os, t)

/-- No call of the history straddles the end. -/
def Clean (t : Tape) : List Op → Prop
  | [] => True
  | op :: ops => ¬ Straddles t op ∧ ∀ o t', step t op = .ok (o, t') → Clean t' ops
end Spec

open Spec

/-- The tape a buffer stands for. -/
def abs (b : Buf) : Tape := { bits := b.window, cur := b.pos - b.start, growable := b.autoexpand }

/-- The same calls on the model of the code. Values are `u64` (`write`) and `u8` (`writeBit`). -/
def step (b : Buf) : Op → Res (Option Nat × Buf)
  | .write v n => do let b ← b.writeBits v n; pure (none, b)
  | .writeBit v => do let b ← b.writeBit v; pure (none, b)
  | .writeZeroes n => do let b ← b.writeZeroes n; pure (none, b)
  | .read n => b.readBits n
  | .peek n => do let v ← b.peekBits n; pure (v, b)
  | .seek o => do let b ← b.seek o; pure (none, b)
  | .seekRel o => do let b ← b.seekRel o; pure (none, b)
  | .len => .ok (some b.len, b)
  | .lenRemaining => .ok (some b.lenRemaining, b)

def run (b : Buf) : List Op → Res (List (Option Nat) × Buf)
  | [] => .ok ([], b)
  | op :: ops => do
    let (o, b) ← step b op
    let (os, b) ← run b ops
    pure (o :: os, b)

/-- A 64-bit argument is below `2^64`. -/
def OpOk : Op → Prop
  | .write v _ => v < 2 ^ 64
  | _ => True

theorem abs_len (b : Buf) : (abs b).bits.length = b.end - b.start := by simp [abs, Buf.window]

theorem sim_put {b : Buf} (h : Wf b) {n : Nat} {x : List Bool} (hx : x.length = n) {r : Res Buf}
    (hs : ¬ (b.autoexpand = true ∧ (abs b).cur < (abs b).bits.length ∧ (abs b).bits.length < (abs b).cur + n))
    (hok : (b.autoexpand = true ∧ b.pos = b.end) ∨ b.pos + n ≤ b.end → ∃ b', r = .ok b' ∧ Wrote b b' n x)
    (hbad : ¬ (b.autoexpand = true ∨ b.pos + n ≤ b.end) → r = .panic) :
    (∃ b', r = .ok b' ∧ Wf b' ∧ (abs b).put x = .ok (abs b')) ∨ (r = .panic ∧ (abs b).put x = .panic) := by
  have hsl := h.start_le; have hpl := h.pos_le
  have hlen := abs_len b
  have hcur : (abs b).cur = b.pos - b.start := rfl
  have hg : (abs b).growable = b.autoexpand := rfl
  rw [hlen, hcur] at hs
  by_cases hr : b.autoexpand = true ∨ b.pos + n ≤ b.end
  · have hr' : (b.autoexpand = true ∧ b.pos = b.end) ∨ b.pos + n ≤ b.end := by
      rcases hr with ha | hf
      · by_cases hf : b.pos + n ≤ b.end
        · exact .inr hf
        · exact .inl ⟨ha, by have := hs; simp only [ha, true_and] at this; omega⟩
      · exact .inr hf
    obtain ⟨b', e, w⟩ := hok hr'
    left
    refine ⟨b', e, w.wf, ?_⟩
    unfold Tape.put
    rw [if_pos (by rw [hlen, hcur, hx, hg]; rcases hr with ha | hf; exact .inr ha; left; omega)]
    have hw := w.window h (by rcases hr' with ⟨_, hh⟩ | hh <;> omega)
    simp only [abs, hx]
    rw [hw, w.start, w.pos, w.auto]
    have : b.pos - b.start + n = b.pos + n - b.start := by omega
    rw [this]
  · right
    refine ⟨hbad hr, ?_⟩
    unfold Tape.put
    rw [if_neg]
    rw [hlen, hcur, hx, hg]
    intro hc
    exact hr (hc.symm.imp id (fun hh => by omega))

theorem rest_take (b : Buf) (h : Wf b) (n : Nat) (hn : b.pos + n ≤ b.end) :
    (b.window.drop (b.pos - b.start)).take n = slice b.buffer b.pos n := by
  have := h.start_le
  unfold Buf.window
  rw [slice_drop _ _ _ _ (by omega), slice_take _ _ _ _ (by omega)]
  congr 1; omega

/-- **C01/C02, one call.** Every call on a buffer in a legal state has exactly the effect and the answer the
tape specification gives it, and aborts exactly when the specification does. The one exception is a write
which starts before the end of a growable buffer and runs past it. -/
theorem c01_step_refines (b : Buf) (h : Wf b) (op : Op) (hop : OpOk op) (hs : ¬ Straddles (abs b) op) :
    (∃ o b', step b op = .ok (o, b') ∧ Wf b' ∧ Spec.step (abs b) op = .ok (o, abs b')) ∨
    (step b op = .panic ∧ Spec.step (abs b) op = .panic) := by
  have hsl := h.start_le; have hpl := h.pos_le
  have hlen := abs_len b
  have hcur : (abs b).cur = b.pos - b.start := rfl
  cases op with
  | write v n =>
    simp only [step, Spec.step]
    by_cases hv : n ≤ 64 ∧ v < 2 ^ n
    · rw [if_pos hv]
      rcases sim_put h (length_toBits n v) (r := b.writeBits v n) hs
        (fun hr => writeBits_spec b v n h hv.1 hv.2 (hr.imp And.left id))
        (fun hr => writeBits_panic b v n hop (fun hc => hr hc.2.2)) with ⟨b', e, w, p⟩ | ⟨e, p⟩
      · left; exact ⟨none, b', by rw [e]; rfl, w, by rw [p]; rfl⟩
      · right; exact ⟨by rw [e]; rfl, by rw [p]; rfl⟩
    · right
      rw [if_neg hv]
      exact ⟨by rw [writeBits_panic b v n hop (fun hc => hv ⟨hc.1, hc.2.1⟩)]; rfl, rfl⟩
  | writeBit v =>
    simp only [step, Spec.step]
    by_cases hv : v < 2
    · rw [if_pos hv]
      have e1 : [v == 1] = toBits 1 v := by
        have : v = 0 ∨ v = 1 := by omega
        rcases this with rfl | rfl <;> rfl
      rw [e1]
      rcases sim_put h (length_toBits 1 v) (r := b.writeBit v) (by omega)
        (fun hr => writeBit_spec b v h hv (hr.imp And.left id))
        (fun hr => writeBit_panic b v (fun hc => hr hc.2)) with ⟨b', e, w, p⟩ | ⟨e, p⟩
      · left; exact ⟨none, b', by rw [e]; rfl, w, by rw [p]; rfl⟩
      · right; exact ⟨by rw [e]; rfl, by rw [p]; rfl⟩
    · right
      rw [if_neg hv]
      exact ⟨by rw [writeBit_panic b v (fun hc => hv hc.1)]; rfl, rfl⟩
  | writeZeroes n =>
    simp only [step, Spec.step]
    rcases sim_put h (List.length_replicate (n := n) (a := false)) (r := b.writeZeroes n) hs
        (fun hr => writeZeroes_spec b n h hr)
        (fun hr => writeZeroes_panic b n h (by
          cases ha : b.autoexpand <;> simp [ha] at hr ⊢) (fun hc => hr (.inr hc))) with ⟨b', e, w, p⟩ | ⟨e, p⟩
    · left; exact ⟨none, b', by rw [e]; rfl, w, by rw [p]; rfl⟩
    · right; exact ⟨by rw [e]; rfl, by rw [p]; rfl⟩
  | read n =>
    left
    simp only [step, Spec.step]
    rw [readBits_spec b n h, hlen, hcur]
    by_cases hc : n ≤ 64 ∧ b.pos + n ≤ b.end
    · rw [if_pos hc, if_pos ⟨hc.1, by omega⟩]
      refine ⟨_, _, rfl, readBits_wf b n h hc.2, ?_⟩
      have : (List.drop (b.pos - b.start) (abs b).bits).take n = slice b.buffer b.pos n := rest_take b h n hc.2
      rw [this]
      simp only [abs, Buf.window]
      rw [show b.pos - b.start + n = b.pos + n - b.start by omega]
    · rw [if_neg hc, if_neg (by omega)]
      exact ⟨_, _, rfl, h, rfl⟩
  | peek n =>
    left
    simp only [step, Spec.step]
    rw [peekBits_spec b n h, hlen, hcur]
    by_cases hc : n ≤ 64 ∧ b.pos + n ≤ b.end
    · rw [if_pos hc, if_pos ⟨hc.1, by omega⟩]
      refine ⟨_, _, rfl, h, ?_⟩
      have : (List.drop (b.pos - b.start) (abs b).bits).take n = slice b.buffer b.pos n := rest_take b h n hc.2
      rw [this]
    · rw [if_neg hc, if_neg (by omega)]
      exact ⟨_, _, rfl, h, rfl⟩
  | seek o =>
    simp only [step, Spec.step, Buf.seek]
    rw [hlen]
    by_cases hc : b.start + o ≤ b.end
    · left
      rw [if_pos hc, if_pos (by omega)]
      refine ⟨_, _, rfl, ⟨by simp, by simpa using hc, h.end_le, h.byte⟩, ?_⟩
      simp [abs, Buf.window]
    · right
      rw [if_neg hc, if_neg (by omega)]
      exact ⟨rfl, rfl⟩
  | seekRel o =>
    simp only [step, Spec.step, Buf.seekRel]
    rw [hlen, hcur]
    by_cases hc : (b.start : Int) ≤ b.pos + o ∧ (b.pos : Int) + o ≤ b.end
    · left
      rw [if_pos hc, if_pos (by omega)]
      refine ⟨_, _, rfl, ⟨by simp; omega, by simp; omega, h.end_le, h.byte⟩, ?_⟩
      simp only [abs, Buf.window]
      congr 4
      omega
    · right
      rw [if_neg hc, if_neg (by omega)]
      exact ⟨rfl, rfl⟩
  | len =>
    left
    refine ⟨_, b, rfl, h, ?_⟩
    simp only [Spec.step, hlen, Buf.len]
  | lenRemaining =>
    left
    refine ⟨_, b, rfl, h, ?_⟩
    simp only [Spec.step, hlen, hcur, Buf.lenRemaining]
    congr 3
    omega

/-- **C01/C02, whole histories.** From any legal buffer, any finite sequence of calls gives exactly the answers
and the final contents the tape specification gives, and aborts exactly when it does. -/
theorem c01_history_refines (b : Buf) (h : Wf b) (ops : List Op) (hops : ∀ op ∈ ops, OpOk op)
    (hs : Clean (abs b) ops) :
    (∃ os b', run b ops = .ok (os, b') ∧ Wf b' ∧ Spec.run (abs b) ops = .ok (os, abs b')) ∨
    (run b ops = .panic ∧ Spec.run (abs b) ops = .panic) := by
  induction ops generalizing b with
  | nil => left; exact ⟨[], b, rfl, h, rfl⟩
  | cons op ops ih =>
    simp only [run, Spec.run]
    rcases c01_step_refines b h op (hops op (by simp)) hs.1 with ⟨o, b', e, w, p⟩ | ⟨e, p⟩
    · rw [e, p]
      simp only [Res.bind_ok]
      rcases ih b' w (fun op hm => hops op (by simp [hm])) (hs.2 o (abs b') p) with ⟨os, b2, e2, w2, p2⟩ | ⟨e2, p2⟩
      · left; rw [e2, p2]; exact ⟨o :: os, b2, rfl, w2, rfl⟩
      · right; rw [e2, p2]; exact ⟨rfl, rfl⟩
    · right; rw [e, p]; exact ⟨rfl, rfl⟩

theorem put_growable (t t' : Tape) (x : List Bool) (e : t.put x = .ok t') : t'.growable = t.growable := by
  unfold Tape.put at e
  split at e
  · cases e; rfl
  · cases e

theorem step_growable (t : Tape) (op : Op) (o : Option Nat) (t' : Tape) (e : Spec.step t op = .ok (o, t')) :
    t'.growable = t.growable := by
  have put : ∀ x, (do let t ← t.put x; pure ((none : Option Nat), t) : Res _) = .ok (o, t') →
      t'.growable = t.growable := by
    intro x hx
    rw [Res.bind_eq_ok] at hx
    obtain ⟨a, h1, h2⟩ := hx
    cases h2
    exact put_growable _ _ _ h1
  cases op <;> simp only [Spec.step] at e
  case write => split at e; exact put _ e; cases e
  case writeBit => split at e; exact put _ e; cases e
  case writeZeroes => exact put _ e
  all_goals first
    | (split at e <;> cases e <;> rfl)
    | (cases e; rfl)

/-- A fixed-size buffer never straddles: the refinement is unconditional. -/
theorem clean_of_fixed (t : Tape) (ht : t.growable = false) (ops : List Op) : Clean t ops := by
  induction ops generalizing t with
  | nil => trivial
  | cons op ops ih =>
    refine ⟨?_, ?_⟩
    · cases op <;> simp [Straddles, ht]
    · intro o t' e
      apply ih
      rw [← ht]
      exact step_growable t op o t' e

theorem c01_fixed_history_refines (b : Buf) (h : Wf b) (hf : b.autoexpand = false) (ops : List Op)
    (hops : ∀ op ∈ ops, OpOk op) :
    (∃ os b', run b ops = .ok (os, b') ∧ Wf b' ∧ Spec.run (abs b) ops = .ok (os, abs b')) ∨
    (run b ops = .panic ∧ Spec.run (abs b) ops = .panic) :=
  c01_history_refines b h ops hops (clean_of_fixed _ hf ops)

/-- The buffers a client can start from are legal, so the refinement applies to every reachable buffer. -/
theorem c01_constructors (n : Nat) (data : List Nat) (hd : ∀ x ∈ data, x < 256) :
    (Wf (Buf.new n) ∧ abs (Buf.new n) = ⟨List.replicate n false, 0, false⟩) ∧
    (Wf (Buf.newAutoexpand n) ∧ abs (Buf.newAutoexpand n) = ⟨[], 0, true⟩) ∧
    (Wf (Buf.fromVec data) ∧ (abs (Buf.fromVec data)).bits = (data.map (toBits 8)).flatten) := by
  have hz : ∀ k, ∀ x ∈ List.replicate k 0, x < 256 := by
    intro k x hx; rw [List.mem_replicate] at hx; omega
  refine ⟨⟨⟨by simp [Buf.new], by simp [Buf.new], by simp [Buf.new]; omega, hz _⟩, ?_⟩,
    ⟨⟨by simp [Buf.newAutoexpand], by simp [Buf.newAutoexpand], by simp [Buf.newAutoexpand], hz _⟩, ?_⟩,
    ⟨⟨by simp [Buf.fromVec], by simp [Buf.fromVec], by simp [Buf.fromVec]; omega, hd⟩, ?_⟩⟩
  · simp only [abs, Buf.window, Buf.new, Tape.mk.injEq, and_true, Nat.sub_zero]
    apply List.ext_getElem (by simp)
    intro i h1 h2
    rw [getElem_slice]
    have := bitAt_append_zero [] ((n + 7) / 8) (0 + i)
    rw [List.nil_append] at this
    rw [this]; simp [bitAt]
  · simp [abs, Buf.window, Buf.newAutoexpand, slice]
  · simp only [abs, Buf.window, Buf.fromVec, Nat.sub_zero]
    have key : ∀ (pre data : List Nat), (∀ x ∈ data, x < 256) →
        slice (pre ++ data) (8 * pre.length) (data.length * 8) = (data.map (toBits 8)).flatten := by
      intro pre data hd
      induction data generalizing pre with
      | nil => simp [slice]
      | cons x xs ih =>
        rw [List.length_cons, show (xs.length + 1) * 8 = 8 + xs.length * 8 by omega, slice_add,
          List.map_cons, List.flatten_cons]
        congr 1
        · apply slice_eq_toBits
          intro i hi
          unfold bitAt
          rw [show (8 * pre.length + i) / 8 = pre.length by omega,
            show 7 - (8 * pre.length + i) % 8 = 8 - 1 - i by omega]
          simp [List.getD_eq_getElem?_getD]
        · have := ih (pre ++ [x]) (fun y hy => hd y (by simp [hy]))
          simpa [Nat.mul_add] using this
    have := key [] data hd
    simpa using this

/-- Non-vacuity: a history on a fresh growable buffer mixing writes, seeks and reads, with its answers. -/
example : Clean (abs (Buf.newAutoexpand 8)) [.write 5 3, .writeZeroes 70, .seek 1, .read 2, .seekRel (-3), .peek 65] ∧
    Spec.run (abs (Buf.newAutoexpand 8)) [.write 5 3, .writeZeroes 70, .seek 1, .read 2, .seekRel (-3), .peek 65] =
      .ok ([none, none, none, some 1, none, none],
        ⟨true :: false :: true :: List.replicate 70 false, 0, true⟩) := by
  constructor
  · have h0 : abs (Buf.newAutoexpand 8) = ⟨[], 0, true⟩ := by decide
    rw [h0]
    refine ⟨by simp [Straddles], ?_⟩
    rintro o t' e; cases e
    refine ⟨by simp [Straddles], ?_⟩
    rintro o t' e; cases e
    refine ⟨by simp [Straddles], ?_⟩
    rintro o t' e; cases e
    refine ⟨by simp [Straddles], ?_⟩
    rintro o t' e; cases e
    refine ⟨by simp [Straddles], ?_⟩
    rintro o t' e; cases e
    refine ⟨by simp [Straddles], ?_⟩
    rintro o t' e; trivial
  · decide

/-! ## Round trip -/

/-- Write a list of `(value, width)` fields. -/
def writeFields (b : Buf) : List (Nat × Nat) → Res Buf
  | [] => .ok b
  | (v, n) :: fs => do let b ← b.writeBits v n; writeFields b fs

/-- Read fields of the given widths. -/
def readFields (b : Buf) : List Nat → Res (List (Option Nat) × Buf)
  | [] => .ok ([], b)
  | n :: ns => do
    let (v, b) ← b.readBits n
    let (vs, b) ← readFields b ns
    pure (v :: vs, b)

/-- Total number of bits of a field list. -/
def bitsOf (fs : List (Nat × Nat)) : Nat := (fs.map Prod.snd).sum

/-- The fields as one bit string. -/
def encode (fs : List (Nat × Nat)) : List Bool := (fs.map fun f => toBits f.2 f.1).flatten

theorem writeFields_wrote (fs : List (Nat × Nat)) (b : Buf) (h : Wf b)
    (hf : ∀ f ∈ fs, f.2 ≤ 64 ∧ f.1 < 2 ^ f.2)
    (hroom : (b.autoexpand = true ∧ b.pos = b.end) ∨ b.pos + bitsOf fs ≤ b.end) :
    ∃ b', writeFields b fs = .ok b' ∧ Wrote b b' (bitsOf fs) (encode fs) := by
  induction fs generalizing b with
  | nil => exact ⟨b, rfl, Wrote.refl b h⟩
  | cons f fs ih =>
    obtain ⟨v, n⟩ := f
    have hv := hf (v, n) (by simp)
    have hpl := h.pos_le
    have hb : bitsOf ((v, n) :: fs) = n + bitsOf fs := by simp [bitsOf]
    rw [hb] at hroom ⊢
    obtain ⟨b1, e1, w1⟩ := writeBits_spec b v n h hv.1 hv.2 (hroom.imp And.left (fun hh => by omega))
    have f1 := w1.fin; have p1 := w1.pos
    obtain ⟨b2, e2, w2⟩ := ih b1 w1.wf (fun f hm => hf f (by simp [hm])) (by
      rw [w1.auto]
      by_cases hfit : b.pos + (n + bitsOf fs) ≤ b.end
      · right; rw [if_pos (by omega)] at f1; omega
      · rcases hroom with ⟨ha, hp⟩ | hf
        · left; refine ⟨ha, ?_⟩
          by_cases hn : b.pos + n ≤ b.end
          · rw [if_pos hn] at f1; omega
          · rw [if_neg hn] at f1; omega
        · omega)
    refine ⟨b2, ?_, ?_⟩
    · simp only [writeFields, e1, Res.bind_ok, e2]
    · have := w1.trans w2 (by rcases hroom with ⟨_, hp⟩ | hf <;> omega) hpl
      simpa [encode] using this

theorem readFields_ok (fs : List (Nat × Nat)) (b : Buf) (h : Wf b)
    (hf : ∀ f ∈ fs, f.2 ≤ 64 ∧ f.1 < 2 ^ f.2) (hroom : b.pos + bitsOf fs ≤ b.end)
    (hbits : slice b.buffer b.pos (bitsOf fs) = encode fs) :
    readFields b (fs.map Prod.snd) = .ok (fs.map (fun f => some f.1), { b with pos := b.pos + bitsOf fs }) := by
  induction fs generalizing b with
  | nil => simp [readFields, bitsOf]
  | cons f fs ih =>
    obtain ⟨v, n⟩ := f
    have hv := hf (v, n) (by simp)
    have hb : bitsOf ((v, n) :: fs) = n + bitsOf fs := by simp [bitsOf]
    have he : encode ((v, n) :: fs) = toBits n v ++ encode fs := by simp [encode]
    rw [hb] at hroom hbits
    rw [he, slice_add] at hbits
    have h2 := List.append_inj hbits (by simp)
    simp only [List.map_cons, readFields]
    rw [readBits_spec b n h, if_pos ⟨hv.1, by omega⟩]
    simp only [Res.bind_ok]
    rw [ih { b with pos := b.pos + n } (readBits_wf b n h (by omega)) (fun f hm => hf f (by simp [hm]))
      (by simp; omega) h2.2]
    simp only [Res.bind_ok, Res.pure_eq, h2.1, ofBits_toBits hv.2, hb]
    congr 3
    omega

/-- **C01, round trip.** Any list of fields, each at most 64 bits wide and holding a value of that width, written
at any bit position of a buffer which either has the room or is growable and positioned at its end, is read
back value for value after seeking back; nothing outside the written range changes. -/
theorem c01_roundtrip (b : Buf) (h : Wf b) (fs : List (Nat × Nat)) (hf : ∀ f ∈ fs, f.2 ≤ 64 ∧ f.1 < 2 ^ f.2)
    (hroom : (b.autoexpand = true ∧ b.pos = b.end) ∨ b.pos + bitsOf fs ≤ b.end) :
    ∃ b1 b2 b3, writeFields b fs = .ok b1 ∧ b1.seek (b.pos - b.start) = .ok b2 ∧
      readFields b2 (fs.map Prod.snd) = .ok (fs.map (fun f => some f.1), b3) ∧
      b1.written = b.written ++ encode fs ∧ b3 = b1 ∧
      ∀ p, ¬ (b.pos ≤ p ∧ p < b.pos + bitsOf fs) → bitAt b1.buffer p = bitAt b.buffer p := by
  obtain ⟨b1, e1, w⟩ := writeFields_wrote fs b h hf hroom
  have hp := w.pos; have hs := w.start; have hsl := h.start_le; have hpe := w.wf.pos_le
  refine ⟨b1, { b1 with pos := b.pos }, b1, e1, ?_, ?_, w.written h, rfl, w.frame⟩
  · unfold Buf.seek
    rw [if_pos (by omega)]
    have : b1.start + (b.pos - b.start) = b.pos := by omega
    rw [this]
  · have h2 : Wf { b1 with pos := b.pos } := ⟨by simp; omega, by simp; omega, w.wf.end_le, w.wf.byte⟩
    rw [readFields_ok fs { b1 with pos := b.pos } h2 hf (by simp; omega) w.put]
    simp only [← hp]

/-- Non-vacuity: a growable buffer holding three bits, five fields of odd widths (one of 64 bits). -/
example : ∃ b : Buf, Wf b ∧ b.pos % 8 = 3 ∧ (b.autoexpand = true ∧ b.pos = b.end) ∧
    (∀ f ∈ [(5, 3), (0, 0), (2 ^ 64 - 1, 64), (1, 1), (77, 13)], f.2 ≤ 64 ∧ f.1 < 2 ^ f.2) :=
  ⟨{ buffer := [0xA0], start := 0, pos := 3, «end» := 3, autoexpand := true },
    ⟨by simp, by simp, by simp, by simp⟩, rfl, ⟨rfl, rfl⟩, by decide⟩

/-- **C01, zero width and refusal.** A write aborts exactly when the width is over 64, the value needs more bits
than the width, or a fixed buffer has no room; it never truncates silently. -/
theorem c01_write_refuses (b : Buf) (h : Wf b) (v n : Nat) (hv : v < 2 ^ 64) :
    b.writeBits v n = .panic ↔ ¬ (n ≤ 64 ∧ v < 2 ^ n ∧ (b.autoexpand = true ∨ b.pos + n ≤ b.end)) := by
  constructor
  · intro hp hc
    obtain ⟨b', e, _⟩ := writeBits_spec b v n h hc.1 hc.2.1 hc.2.2
    rw [e] at hp; cases hp
  · exact writeBits_panic b v n hv

/-- **C02, a read never leaves the window.** It answers none, without moving, exactly when more bits are asked for
than remain (or more than 64); otherwise the answer is the value of exactly the next bits and only the cursor
moves. -/
theorem c02_read_window (b : Buf) (h : Wf b) (n : Nat) :
    b.readBits n = .ok (if n ≤ 64 ∧ n ≤ b.rest.length
      then (some (ofBits (b.rest.take n)), { b with pos := b.pos + n }) else (none, b)) := by
  rw [readBits_spec b n h]
  have hpl := h.pos_le
  have hl : b.rest.length = b.end - b.pos := by simp [Buf.rest]
  rw [hl]
  by_cases hc : n ≤ 64 ∧ b.pos + n ≤ b.end
  · rw [if_pos hc, if_pos ⟨hc.1, by omega⟩]
    unfold Buf.rest
    rw [slice_take _ _ _ _ (by omega)]
  · rw [if_neg hc, if_neg (by omega)]

/-- **C02, frame.** A write changes no bit outside the written range, whatever the alignment. -/
theorem c02_write_frame (b b' : Buf) (h : Wf b) (v n : Nat) (hv : v < 2 ^ 64) (e : b.writeBits v n = .ok b') :
    (∀ p, ¬ (b.pos ≤ p ∧ p < b.pos + n) → bitAt b'.buffer p = bitAt b.buffer p) ∧
    slice b'.buffer b.pos n = toBits n v := by
  have hc : n ≤ 64 ∧ v < 2 ^ n ∧ (b.autoexpand = true ∨ b.pos + n ≤ b.end) := by
    apply Classical.byContradiction
    intro hc
    rw [writeBits_panic b v n hv hc] at e; cases e
  obtain ⟨b2, e2, w⟩ := writeBits_spec b v n h hc.1 hc.2.1 hc.2.2
  rw [e2] at e; cases e
  exact ⟨w.frame, w.put⟩

/-- **C02, bit copy.** Copying `n` bits puts exactly the next `n` unread bits of the source at the destination's
cursor, whatever the two alignments, and consumes exactly them. -/
theorem c02_copy (b src : Buf) (n : Nat) (h : Wf b) (hs : Wf src) (hsrc : n ≤ src.rest.length)
    (hroom : (b.autoexpand = true ∧ b.pos = b.end) ∨ b.pos + n ≤ b.end) :
    ∃ b' src', b.copyBits src n = .ok (b', src') ∧ b'.written = b.written ++ src.rest.take n ∧
      src'.rest = src.rest.drop n ∧ src'.window = src.window ∧
      ∀ p, ¬ (b.pos ≤ p ∧ p < b.pos + n) → bitAt b'.buffer p = bitAt b.buffer p := by
  have hl : src.rest.length = src.end - src.pos := by simp [Buf.rest]
  have := hs.pos_le
  obtain ⟨b', e, w⟩ := copyBits_spec b src n h hs (by omega) hroom
  refine ⟨b', _, e, ?_, ?_, rfl, w.frame⟩
  · rw [w.written h]
    unfold Buf.rest
    rw [slice_take _ _ _ _ (by omega)]
  · unfold Buf.rest
    rw [slice_drop _ _ _ _ (by omega)]
    simp only
    congr 1; omega

theorem bitAt_sub (buf : List Nat) (s n p : Nat) (hp : p / 8 < n) :
    bitAt ((buf.drop s).take n) p = bitAt buf (8 * s + p) := by
  unfold bitAt
  simp only [List.getD_eq_getElem?_getD, List.getElem?_take, List.getElem?_drop]
  rw [if_pos hp, show (8 * s + p) / 8 = s + p / 8 by omega, show (8 * s + p) % 8 = p % 8 by omega]

/-- **C02, sub-buffers.** The buffer handed on to the next layer holds exactly the unread bits, is positioned at
their start, and is well formed. -/
theorem c02_sub_buffer (b : Buf) (h : Wf b) :
    ∃ c, b.fromBitbufferPos = .ok c ∧ Wf c ∧ c.window = b.rest ∧ c.rest = b.rest ∧ c.written = [] := by
  have hsl := h.start_le; have hpl := h.pos_le; have hel := h.end_le
  unfold Buf.fromBitbufferPos
  simp only
  rw [if_pos (by omega)]
  have hwin : slice ((b.buffer.drop (b.pos / 8)).take ((b.end + 7) / 8 - b.pos / 8)) (b.pos % 8)
      (b.pos % 8 + (b.end - b.pos) - b.pos % 8) = slice b.buffer b.pos (b.end - b.pos) := by
    rw [show b.pos % 8 + (b.end - b.pos) - b.pos % 8 = b.end - b.pos by omega]
    apply slice_congr
    intro i hi
    rw [bitAt_sub _ _ _ _ (by omega)]
    congr 1; omega
  refine ⟨_, rfl, ⟨by simp, by simp, ?_, ?_⟩, hwin, hwin, by simp [Buf.written, slice]⟩
  · simp; omega
  · intro x hx
    exact h.byte x (List.mem_of_mem_drop (List.mem_of_mem_take hx))

/-- **C02, whole-window copy** (`from_bitbuffer`). -/
theorem c02_window_copy (b : Buf) (h : Wf b) :
    ∃ c, b.fromBitbuffer = .ok c ∧ Wf c ∧ c.window = b.window ∧ c.rest = b.window := by
  have hsl := h.start_le; have hpl := h.pos_le; have hel := h.end_le
  unfold Buf.fromBitbuffer
  simp only
  rw [if_pos (by omega)]
  have hwin : slice ((b.buffer.drop (b.start / 8)).take ((b.end + 7) / 8 - b.start / 8)) (b.start % 8)
      (b.start % 8 + (b.end - b.start) - b.start % 8) = slice b.buffer b.start (b.end - b.start) := by
    rw [show b.start % 8 + (b.end - b.start) - b.start % 8 = b.end - b.start by omega]
    apply slice_congr
    intro i hi
    rw [bitAt_sub _ _ _ _ (by omega)]
    congr 1; omega
  refine ⟨_, rfl, ⟨by simp, by simp, ?_, ?_⟩, hwin, hwin⟩
  · simp; omega
  · intro x hx
    exact h.byte x (List.mem_of_mem_drop (List.mem_of_mem_take hx))

theorem collect_spec (f : Nat → Res Nat) (g : Nat → Nat) (n : Nat) (h : ∀ i, i < n → f i = .ok (g i)) :
    collect f n = .ok ((List.range n).map g) := by
  induction n with
  | zero => rfl
  | succ n ih =>
    simp only [collect]
    rw [ih (fun i hi => h i (by omega)), h n (by omega)]
    simp [List.range_succ]

theorem readBitAt_spec (buf : List Nat) (p : Nat) (hp : p / 8 < buf.length) :
    readBitAt buf p = .ok (bitAt buf p).toNat := by
  unfold readBitAt
  rw [getByte_ok hp]
  simp only [Res.bind_ok, Res.pure_eq, bitAt]
  rw [Nat.testBit_eq_decide_div_mod_eq, Nat.and_one_is_mod, Nat.shiftRight_eq_div_pow]
  generalize buf.getD (p / 8) 0 / 2 ^ (7 - p % 8) = x
  have : x % 2 = 0 ∨ x % 2 = 1 := by omega
  rcases this with h | h <;> simp [h]

theorem slice_eq_map (buf : List Nat) (p n : Nat) : slice buf p n = (List.range n).map (fun i => bitAt buf (p + i)) := by
  apply List.ext_getElem (by simp)
  intro i h1 h2
  rw [getElem_slice]; simp

/-- **C02, bit-string dump** shows exactly the window. -/
theorem c02_bitstr (b : Buf) (h : Wf b) : b.toBitstr = .ok (b.window.map Bool.toNat) := by
  have hsl := h.start_le; have hpl := h.pos_le; have hel := h.end_le
  unfold Buf.toBitstr
  rw [collect_spec _ (fun i => (bitAt b.buffer (b.start + i)).toNat) _ (fun i hi => by
    apply readBitAt_spec; unfold Buf.len at hi; omega)]
  unfold Buf.window Buf.len
  rw [slice_eq_map, List.map_map]
  rfl

/-- Cursor and window moves. -/
inductive Move where
  | seek (offset : Nat)
  | seekRel (delta : Int)
  | rawStart (s : Nat)
  | rawEnd (e : Nat)
  | rawPos (p : Nat)

/-- The `(start, cursor, end)` a move asks for, in absolute bit numbers. -/
def Move.target (b : Buf) : Move → Int × Int × Int
  | .seek o => (b.start, b.start + o, b.end)
  | .seekRel d => (b.start, b.pos + d, b.end)
  | .rawStart s => (s, b.pos, b.end)
  | .rawEnd e => (b.start, b.pos, e)
  | .rawPos p => (b.start, p, b.end)

/-- `start ≤ cursor ≤ end ≤ capacity`. -/
def Move.InWindow (b : Buf) (t : Int × Int × Int) : Prop := t.1 ≤ t.2.1 ∧ t.2.1 ≤ t.2.2 ∧ t.2.2 ≤ 8 * b.buffer.length

/-- Which call performs a move. -/
def Move.apply (b : Buf) : Move → Res Buf
  | .seek o => b.seek o
  | .seekRel d => b.seekRel d
  | .rawStart s => b.setRawStart s
  | .rawEnd e => b.setRawEnd e
  | .rawPos p => b.setRawPos p

/-- **C02, cursor and window moves.** A move succeeds exactly when it asks for `start ≤ cursor ≤ end ≤ capacity`; it then
sets precisely what was asked, touching neither the contents nor the growth mode. Otherwise it aborts. -/
theorem c02_moves (b : Buf) (h : Wf b) (m : Move) :
    (Move.InWindow b (m.target b) → ∃ b', m.apply b = .ok b' ∧ Wf b' ∧
      ((b'.start : Int), (b'.pos : Int), (b'.end : Int)) = m.target b ∧ b'.buffer = b.buffer ∧ b'.autoexpand = b.autoexpand) ∧
    (¬ Move.InWindow b (m.target b) → m.apply b = .panic) := by
  simp only [Move.InWindow]
  have h1 := h.start_le
  have h2 := h.pos_le
  have h3 := h.end_le
  have h4 := h.byte
  cases m with
  | seek o =>
    simp only [Move.target, Move.apply, Buf.seek]
    by_cases hc : b.start + o ≤ b.end
    · rw [if_pos hc]
      refine ⟨fun _ => ?_, fun hn => absurd hn (by omega)⟩
      · exact ⟨_, rfl, ⟨by simp, by simpa using hc, by simpa using h3, h4⟩, by simp, rfl, rfl⟩
    · rw [if_neg hc]
      exact ⟨fun hn => absurd hn (by omega), fun _ => rfl⟩
  | seekRel d =>
    simp only [Move.target, Move.apply, Buf.seekRel]
    by_cases hc : (b.start : Int) ≤ b.pos + d ∧ (b.pos : Int) + d ≤ b.end
    · rw [if_pos hc]
      refine ⟨fun _ => ?_, fun hn => absurd hn (by omega)⟩
      · exact ⟨_, rfl, ⟨by simp; omega, by simp; omega, by simpa using h3, h4⟩, by simp; omega, rfl, rfl⟩
    · rw [if_neg hc]
      exact ⟨fun hn => absurd hn (by omega), fun _ => rfl⟩
  | rawStart s =>
    simp only [Move.target, Move.apply, Buf.setRawStart]
    by_cases hc : s ≤ b.end ∧ s ≤ b.pos
    · rw [if_pos hc]
      refine ⟨fun _ => ?_, fun hn => absurd hn (by omega)⟩
      · exact ⟨_, rfl, ⟨by simpa using hc.2, by simpa using h2, by simpa using h3, h4⟩, rfl, rfl, rfl⟩
    · rw [if_neg hc]
      exact ⟨fun hn => absurd hn (by omega), fun _ => rfl⟩
  | rawEnd e =>
    simp only [Move.target, Move.apply, Buf.setRawEnd]
    by_cases hc : e ≤ b.buffer.length * 8 ∧ e ≥ b.start ∧ e ≥ b.pos
    · rw [if_pos hc]
      refine ⟨fun _ => ?_, fun hn => absurd hn (by omega)⟩
      · exact ⟨_, rfl, ⟨by simpa using h1, by simpa using hc.2.2, by simp; omega, h4⟩, rfl, rfl, rfl⟩
    · rw [if_neg hc]
      exact ⟨fun hn => absurd hn (by omega), fun _ => rfl⟩
  | rawPos p =>
    simp only [Move.target, Move.apply, Buf.setRawPos]
    by_cases hc : b.start ≤ p ∧ p ≤ b.end
    · rw [if_pos hc]
      refine ⟨fun _ => ?_, fun hn => absurd hn (by omega)⟩
      · exact ⟨_, rfl, ⟨by simpa using hc.1, by simpa using hc.2, by simpa using h3, h4⟩, rfl, rfl, rfl⟩
    · rw [if_neg hc]
      exact ⟨fun hn => absurd hn (by omega), fun _ => rfl⟩

/-- Non-vacuity: narrowing the window of a two-byte buffer, then an end before the cursor is refused. -/
example : (Move.rawEnd 12).apply { buffer := [0xAB, 0xCD], start := 4, pos := 4, «end» := 16, autoexpand := false } =
      .ok { buffer := [0xAB, 0xCD], start := 4, pos := 4, «end» := 12, autoexpand := false } ∧
    (Move.rawEnd 3).apply { buffer := [0xAB, 0xCD], start := 0, pos := 4, «end» := 16, autoexpand := false } = .panic := by
  decide

/-- **C02, conversion to a bit vector**, for windows beginning at the start of the storage. -/
theorem c02_bitvec_partial (b : Buf) (h : Wf b) (h0 : b.start = 0) : b.intoBitvec = .ok (b.window.map Bool.toNat) := by
  have := c02_bitstr b h
  unfold Buf.toBitstr at this
  unfold Buf.intoBitvec
  rw [← this, h0]
  congr 1
  funext i
  rw [Nat.zero_add]

/-- **Finding**: the conversion to a bit vector ignores the start of the window. A buffer whose window is the single bit
`1` yields the vector `[0]`. -/
theorem c02_bitvec_ignores_start :
    ∃ b, Wf b ∧ b.window = [true] ∧ b.intoBitvec = .ok [0] :=
  ⟨{ buffer := [0x01], start := 7, pos := 7, «end» := 8, autoexpand := false },
    ⟨by decide, by decide, by decide, by decide⟩, by decide, by decide⟩

/-- **Finding**: a write which starts before the end of a growable buffer and runs past it leaves stray zero bits
after the written data: after writing 4 bits, seeking to bit 2 and writing 8 bits, the buffer is 12 bits long where
the tape is 10 bits long. -/
theorem c01_straddling_write_overshoots :
    ∃ b b', Wf b ∧ b.autoexpand = true ∧ b.pos = 2 ∧ b.window.length = 4 ∧
      b.writeBits 0xFF 8 = .ok b' ∧ b'.pos = 10 ∧ b'.window.length = 12 := by
  have h : Wf { buffer := [0xF0, 0], start := 0, pos := 2, «end» := 4, autoexpand := true } :=
    ⟨by decide, by decide, by decide, by decide⟩
  obtain ⟨b', e, w⟩ := writeBits_spec _ 0xFF 8 h (by decide) (by decide) (.inl rfl)
  refine ⟨_, b', h, rfl, rfl, by decide, e, w.pos, ?_⟩
  simp [Buf.window, w.fin, w.start]

end Verif.BitBuffer
