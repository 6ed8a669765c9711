/-!
# Shared vocabulary of the model

`Res α` is the result of a Rust function which may abort the process: `ok a` is a normal return,
`panic` stands for any abort (`panic!`, failed `assert!`, `unwrap` on `None`, out-of-range index,
integer overflow with overflow checks, `unreachable!`, `unimplemented!`).
-/

namespace Verif

/-- Result of a function which may abort. Models every Rust panic path as a value. -/
inductive Res (α : Type) where
  | ok (a : α)
  | panic
  deriving DecidableEq, Repr

namespace Res

/-- Sequencing: a panic aborts everything after it. -/
def bind {α β : Type} (x : Res α) (f : α → Res β) : Res β :=
  match x with
  | .ok a => f a
  | .panic => .panic

instance : Monad Res where
  pure := Res.ok
  bind := Res.bind

@[simp] theorem pure_eq {α : Type} (a : α) : (pure a : Res α) = .ok a := rfl
@[simp] theorem bind_ok {α β : Type} (a : α) (f : α → Res β) : (Res.ok a >>= f) = f a := rfl
@[simp] theorem bind_panic {α β : Type} (f : α → Res β) : ((Res.panic : Res α) >>= f) = .panic := rfl

theorem bind_eq_ok {α β : Type} {x : Res α} {f : α → Res β} {b : β} :
    (x >>= f) = .ok b ↔ ∃ a, x = .ok a ∧ f a = .ok b := by
  cases x <;> simp

/-- Rust `assert!(c)`: continue or abort. -/
def assert (c : Bool) : Res Unit := if c then .ok () else .panic

/-- Rust `Option::unwrap`. -/
def ofOption {α : Type} : Option α → Res α
  | some a => .ok a
  | none => .panic

@[simp] theorem assert_true : assert true = .ok () := rfl
@[simp] theorem assert_false : assert false = .panic := rfl
@[simp] theorem ofOption_some {α : Type} (a : α) : ofOption (some a) = .ok a := rfl
@[simp] theorem ofOption_none {α : Type} : ofOption (none : Option α) = .panic := rfl

end Res
end Verif
