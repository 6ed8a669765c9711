import Verif.Core.PduForm
/-!
# What readers can give

Bounds on the values read, whatever the bits.
-/
namespace Verif.Codec
open Verif.Bits

/-- Whatever the reader gives satisfies `P`. -/
def Rd.Gives {α : Type} (p : Rd α) (P : α → Prop) : Prop := ∀ bs x r, p.run bs = .ok (x, r) → P x

namespace Rd

theorem gives_bind {α β : Type} {p : Rd α} {f : α → Rd β} {P : α → Prop} {Q : β → Prop} (hp : p.Gives P)
    (hf : ∀ x, P x → (f x).Gives Q) : (p >>= f).Gives Q := by
  intro bs x r h
  simp only [run_bind, Out.bind_eq_ok] at h
  obtain ⟨⟨y, r1⟩, h1, h2⟩ := h
  exact hf y (hp _ _ _ h1) _ _ _ h2

theorem gives_any {α : Type} (p : Rd α) : p.Gives fun _ => True := fun _ _ _ _ => trivial

theorem gives_pure {α : Type} {a : α} {P : α → Prop} (h : P a) : (pure a : Rd α).Gives P := by
  intro bs x r e
  simp only [run_pure, Out.ok.injEq, Prod.mk.injEq] at e
  exact e.1 ▸ h

theorem gives_map {α β : Type} {p : Rd α} {f : α → β} {P : α → Prop} {Q : β → Prop} (hp : p.Gives P) (h : ∀ x, P x → Q (f x)) :
    (f <$> p).Gives Q := by
  intro bs x r e
  simp only [run_map, Out.bind_eq_ok, Out.ok.injEq, Prod.mk.injEq] at e
  obtain ⟨⟨y, r1⟩, h1, h2, _⟩ := e
  exact h2 ▸ h _ (hp _ _ _ h1)

theorem gives_ite {α : Type} {c : Prop} [Decidable c] {p q : Rd α} {P : α → Prop} (hp : c → p.Gives P) (hq : ¬ c → q.Gives P) :
    (if c then p else q).Gives P := by
  split
  · exact hp ‹_›
  · exact hq ‹_›

theorem gives_fail {α : Type} {P : α → Prop} : (fail : Rd α).Gives P := by intro bs x r h; simp at h

theorem gives_bits (n : Nat) : (bits n).Gives fun v => v < 2 ^ n := fun _ _ _ h => (TypedFields.run_bits_ok h).1

theorem gives_mono {α : Type} {p : Rd α} {P Q : α → Prop} (hp : p.Gives P) (h : ∀ x, P x → Q x) : p.Gives Q :=
  fun bs x r e => h x (hp bs x r e)

end Rd
end Verif.Codec

namespace Verif.TypedFields
open Verif.Bits Verif.Codec

theorem gives_rdIf {α : Type} (c : Bool) {p : Rd α} {P : α → Prop} (hp : p.Gives P) :
    (rdIf c p).Gives fun v => ∀ x, v = some x → P x := by
  unfold rdIf
  refine Rd.gives_ite (fun _ => Rd.gives_map hp fun x hx y e => ?_) fun _ => Rd.gives_pure (by simp)
  simp only [Option.some.injEq] at e; exact e ▸ hx

theorem gives_many {α : Type} {p : Rd α} {P : α → Prop} (hp : p.Gives P) (n : Nat) :
    (rdMany p n).Gives fun xs => xs.length = n ∧ ∀ x ∈ xs, P x := by
  induction n with
  | zero => exact Rd.gives_pure (by simp)
  | succ n ih =>
    refine Rd.gives_bind hp fun x hx => Rd.gives_bind ih fun xs hxs => Rd.gives_pure ?_
    refine ⟨by simp [hxs.1], ?_⟩
    intro y hy
    rcases List.mem_cons.1 hy with rfl | hy
    · exact hx
    · exact hxs.2 y hy

theorem gives_exactly {α : Type} {p : Rd α} {P : α → Prop} (hp : p.Gives P) (n : Nat) : (exactly n p).Gives P :=
  Rd.gives_bind (Rd.gives_any _) fun _ _ => Rd.gives_bind hp fun _ hx => Rd.gives_bind (Rd.gives_any _) fun _ _ =>
    Rd.gives_ite (fun _ => Rd.gives_pure hx) fun _ => Rd.gives_fail

theorem gives_type3 {α : Type} {p : Rd α} {P : α → Prop} (obit : Bool) (id : Nat) (hp : p.Gives P) :
    (rdType3 obit id p).Gives fun v => ∀ x, v = some x → P x := by
  unfold rdType3
  refine Rd.gives_ite (fun _ => ?_) fun _ => Rd.gives_pure (by simp)
  refine Rd.gives_bind (Rd.gives_any _) fun _ _ => Rd.gives_ite (fun _ => ?_) fun _ => Rd.gives_pure (by simp)
  refine Rd.gives_bind (Rd.gives_any _) fun _ _ => Rd.gives_bind (Rd.gives_any _) fun _ _ => ?_
  refine Rd.gives_map (gives_exactly hp _) fun x hx y e => ?_
  simp only [Option.some.injEq] at e; exact e ▸ hx

theorem gives_header4 (id : Nat) : (rdType4Header id).Gives fun v => ∀ n len, v = some (n, len) → n < 64 := by
  unfold rdType4Header
  refine Rd.gives_bind (Rd.gives_any _) fun _ _ => Rd.gives_ite (fun _ => ?_) fun _ => Rd.gives_pure (by simp)
  refine Rd.gives_bind (Rd.gives_any _) fun _ _ => Rd.gives_bind (Rd.gives_any _) fun _ _ =>
    Rd.gives_bind (Rd.gives_bits 6) fun k hk => Rd.gives_ite (fun _ => ?_) fun _ => Rd.gives_pure ?_
  · intro bs x r h; simp at h
  · intro n len e
    simp only [Option.some.injEq, Prod.mk.injEq] at e
    omega

theorem gives_type4 {α : Type} {p : Rd α} {P : α → Prop} (obit : Bool) (id : Nat) (hp : p.Gives P) :
    (rdType4 obit id p).Gives fun v => ∀ xs, v = some xs → xs.length < 64 ∧ ∀ x ∈ xs, P x := by
  unfold rdType4
  refine Rd.gives_ite (fun _ => ?_) fun _ => Rd.gives_pure (by simp)
  refine Rd.gives_bind (gives_header4 id) fun a ha => ?_
  match a, ha with
  | none, _ => exact Rd.gives_pure (by simp)
  | some (n, len), ha =>
    refine Rd.gives_map (gives_exactly (gives_many hp n) len) fun xs hxs ys e => ?_
    simp only [Option.some.injEq] at e
    subst e
    exact ⟨by rw [hxs.1]; exact ha n len rfl, hxs.2⟩

/-- Every value came from its field's reader. -/
def Came (obit : Bool) : (fs : List Field) → Vals fs → Prop
  | [], _ => True
  | f :: fs, (v, vs) => (∃ a b, (f.read obit).run a = .ok (v, b)) ∧ Came obit fs vs

theorem gives_readAll (obit : Bool) (fs : List Field) : (readAll obit fs).Gives (Came obit fs) := by
  induction fs with
  | nil => exact Rd.gives_pure trivial
  | cons f fs ih =>
    intro bs x r h
    simp only [readAll, Rd.run_bind, Out.bind_eq_ok, Rd.run_pure, Out.ok.injEq, Prod.mk.injEq] at h
    obtain ⟨⟨v, r1⟩, h1, ⟨vs, r2⟩, h2, rfl, _⟩ := h
    exact ⟨⟨_, _, h1⟩, ih _ _ _ h2⟩

theorem gives_optional (fs : List Field) : (rdOptional fs).Gives fun vs => ∃ obit, Came obit fs vs :=
  Rd.gives_bind (Rd.gives_any _) fun o _ => Rd.gives_bind (gives_readAll o fs) fun _ hv =>
    Rd.gives_bind (Rd.gives_any _) fun _ _ => Rd.gives_pure ⟨o, hv⟩

end Verif.TypedFields
