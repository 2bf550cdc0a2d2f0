/-!
# Basic representations shared by the whole model

Rust `String`/`&str` values are modelled as lists of characters (`Str`).
A Rust panic is the explicit outcome `Out.panic`; running out of model fuel is `Out.fuel`
(it has no counterpart in the Rust program and is proved irrelevant where it occurs).
-/
namespace Zh

/-- Rust `String` / `&str` as the list of its characters. -/
abbrev Str := List Char

/-- `c!"text"` is the explicit character list of a string literal (so that the kernel can
compute with it without unfolding `String`). -/
syntax:max "c!" str : term
macro_rules
  | `(c! $s:str) => do
    let cs := s.getString.toList.toArray.map fun c => Lean.Syntax.mkCharLit c
    `(([$(cs),*] : List Char))

/-- Outcome of a Rust computation: a value, a panic, or (model only) not enough fuel. -/
inductive Out (α : Type) where
  | ok (a : α)
  | panic
  | fuel
deriving Repr, DecidableEq

namespace Out
/-- Sequencing of outcomes: the first panic or fuel exhaustion wins. -/
@[inline] def bind {α β : Type} : Out α → (α → Out β) → Out β
  | ok a, f => f a
  | panic, _ => panic
  | fuel, _ => fuel
instance : Monad Out where
  pure := Out.ok
  bind := Out.bind

@[simp] theorem pure_def {α} (a : α) : (pure a : Out α) = ok a := rfl
@[simp] theorem ok_bind {α β} (a : α) (f : α → Out β) : (ok a >>= f) = f a := rfl
@[simp] theorem panic_bind {α β} (f : α → Out β) : ((panic : Out α) >>= f) = panic := rfl
@[simp] theorem fuel_bind {α β} (f : α → Out β) : ((fuel : Out α) >>= f) = fuel := rfl

/-- Is the outcome a panic. -/
def isPanic {α : Type} : Out α → Bool
  | panic => true
  | _ => false

theorem eq_panic_of_isPanic {α : Type} {x : Out α} (h : x.isPanic = true) : x = panic := by
  cases x <;> simp_all [isPanic]

theorem bind_eq_ok {α β} {m : Out α} {f : α → Out β} {b : β} :
    (m >>= f) = ok b ↔ ∃ a, m = ok a ∧ f a = ok b := by
  cases m <;> simp
end Out

/-- The four blanks `' '`, `'\t'`, `'\r'`, `'\n'`. -/
def isBlank (c : Char) : Bool := c == ' ' || c == '\t' || c == '\r' || c == '\n'

end Zh
