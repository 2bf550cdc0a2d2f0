import Verif.Model.Expl
/-!
# Specification of arithmetic: expression trees, their value and their rendering
-/
namespace Zh.Spec

/-- Binary operators. -/
inductive BinOp where
  | add | sub | mul | div | rem | pow
deriving DecidableEq, Repr

/-- Expression trees over number literals (`lit` is the literal's text). -/
inductive Expr where
  | lit (s : Str)
  | bin (op : BinOp) (l r : Expr)
  | neg (e : Expr)
  | pos (e : Expr)
  | par (e : Expr)

def BinOp.char : BinOp → Char
  | .add => '+' | .sub => '-' | .mul => '*' | .div => '/' | .rem => '%' | .pow => '^'

/-- Binding strength: sums 1, signs 2, products 3, powers 4, atoms 5. -/
def BinOp.prec : BinOp → Nat
  | .add | .sub => 1
  | .mul | .div | .rem => 3
  | .pow => 4
def Expr.prec : Expr → Nat
  | .lit _ => 5 | .par _ => 5 | .neg _ => 2 | .pos _ => 2 | .bin op _ _ => op.prec

/-- Required strength of the operands: sums and products group to the left, powers to the right. -/
def BinOp.left : BinOp → Nat
  | .add | .sub => 1
  | .mul | .div | .rem => 3
  | .pow => 5
def BinOp.right : BinOp → Nat
  | .add | .sub => 2
  | .mul | .div | .rem => 4
  | .pow => 4

/-- Text of a tree at required strength `p`: parentheses exactly where the tree binds weaker. -/
def Expr.text : Expr → Nat → Str
  | .lit s, _ => s
  | .par e, _ => '(' :: e.text 1 ++ [')']
  | .neg e, p => if p ≤ 2 then '-' :: e.text 2 else '(' :: '-' :: e.text 2 ++ [')']
  | .pos e, p => if p ≤ 2 then '+' :: e.text 2 else '(' :: '+' :: e.text 2 ++ [')']
  | .bin op l r, p =>
    let s := l.text op.left ++ op.char :: r.text op.right
    if p ≤ op.prec then s else '(' :: s ++ [')']

/-- What one operator does: division and remainder by zero are reported; a remainder whose divisor
truncates to 0 crashes. -/
def BinOp.apply {F : Type} (o : F64 F) : BinOp → F → F → R F
  | .add, a, b => R.ret (o.add a b)
  | .sub, a, b => R.ret (o.sub a b)
  | .mul, a, b => R.ret (o.mul a b)
  | .pow, a, b => R.ret (o.pow a b)
  | .div, a, b => if o.isZero b then R.err c!"除零" else R.ret (o.div a b)
  | .rem, a, b =>
    if o.isZero b then R.err c!"除零"
    else if o.toI64 b = 0 ∨ (o.toI64 b = -1 ∧ o.toI64 a = i64Min) then .panic
    else R.ret (o.ofI64 (Int.tmod (o.toI64 a) (o.toI64 b)))

/-- The value of a tree, operands evaluated left to right.  Literals that are not numbers are excluded
by `Expr.Ok`. -/
def Expr.eval {F : Type} (o : F64 F) : Expr → R F
  | .lit s => match o.parse s with
    | some f => R.ret f
    | none => R.err []
  | .par e => e.eval o
  | .neg e => (e.eval o).bind fun v => R.ret (o.neg v)
  | .pos e => e.eval o
  | .bin op l r => (l.eval o).bind fun a => (r.eval o).bind fun b => op.apply o a b

/-- All literals are number texts: digits and points that parse. -/
def Expr.Ok {F : Type} (o : F64 F) : Expr → Prop
  | .lit s => s ≠ [] ∧ (∀ c ∈ s, ('0' ≤ c ∧ c ≤ '9') ∨ c = '.') ∧ (o.parse s).isSome
  | .par e => e.Ok o
  | .neg e => e.Ok o
  | .pos e => e.Ok o
  | .bin _ l r => l.Ok o ∧ r.Ok o

/-- No remainder operator. -/
def Expr.NoRem : Expr → Prop
  | .lit _ => True
  | .par e => e.NoRem
  | .neg e => e.NoRem
  | .pos e => e.NoRem
  | .bin op l r => op ≠ .rem ∧ l.NoRem ∧ r.NoRem

end Zh.Spec
