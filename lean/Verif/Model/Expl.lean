import Verif.Model.Str
/-!
# `u_/expl_.rs` and the text side of `expl_.rs`: arithmetic
-/
namespace Zh

/-- The floating-point operations used by the interpreter, as parameters: the theorems hold for every
behaviour of `f64`.  `toI64`/`ofI64` are Rust's `as` casts. -/
structure F64 (F : Type) where
  parse : Str → Option F
  add : F → F → F
  sub : F → F → F
  mul : F → F → F
  div : F → F → F
  pow : F → F → F
  neg : F → F
  isZero : F → Bool
  isInf : F → Bool
  lt : F → F → Bool
  toI64 : F → Int
  ofI64 : Int → F
  /-- `format!("{}", n)`, `format!("{}", n.floor())`, `format!("{:.i$}", n)`; the last one panics
  (`none`) for widths the standard library does not support. -/
  str : F → Str
  strFloor : F → Str
  strFixed : F → Nat → Option Str

/-- `expl_::Item_` (`src/u_/expl_.rs:2-5`). -/
inductive Tok (F : Type) where
  | n (f : F)
  | c (c : Char)
deriving Repr

/-- A computation that may also report an error message. -/
abbrev R (α : Type) := Out (Except Str α)

/-- Rust's `?`. -/
def R.bind {α β : Type} (x : R α) (f : α → R β) : R β :=
  match x with
  | .ok (.ok a) => f a
  | .ok (.error e) => .ok (.error e)
  | .panic => .panic
  | .fuel => .fuel

/-- A finished computation. -/
def R.ret {α : Type} (a : α) : R α := .ok (.ok a)
def R.err {α : Type} (s : Str) : R α := .ok (.error s)

/-- `(a as i64 % b as i64) as f64` (`src/u_/expl_.rs:60`).  Rust panics on a zero divisor and on
`i64::MIN % -1`, in release builds too. -/
def F64.rem {F : Type} (o : F64 F) (a b : F) : Out F :=
  if o.toI64 b = 0 ∨ (o.toI64 b = -1 ∧ o.toI64 a = i64Min) then .panic
  else .ok (o.ofI64 (Int.tmod (o.toI64 a) (o.toI64 b)))

/-- The multiplication-level operators (`src/u_/expl_.rs:54-61`). -/
def F64.mulOp {F : Type} (o : F64 F) (c : Char) (a b : F) : R F :=
  if o.isZero b && c != '*' then R.err c!"除零"
  else if c = '*' then R.ret (o.mul a b)
  else if c = '/' then R.ret (o.div a b)
  else match o.rem a b with
    | .ok v => R.ret v
    | .panic => .panic
    | .fuel => .fuel

/-- The addition-level operators (`src/u_/expl_.rs:35-39`). -/
def F64.addOp {F : Type} (o : F64 F) (c : Char) (a b : F) : F := if c = '+' then o.add a b else o.sub a b

section
variable {F : Type} (o : F64 F)

/-! The recursive descent.  The index `idx` into the token vector is represented by the remaining
tokens; the character half of the results is never used and left out.  `z2L`, `z3L`, `z4L` are the
`while` loops.  The first argument bounds the recursion depth; `explFuel` is always enough
(`explFuel_enough`). -/
mutual
/-- `z2__` (`src/u_/expl_.rs:27-45`). -/
def z2 : Nat → List (Tok F) → R (F × List (Tok F))
  | 0, _ => .fuel
  | n + 1, ts => (z3 n ts).bind fun p => z2L n p.1 p.2
def z2L : Nat → F → List (Tok F) → R (F × List (Tok F))
  | 0, _, _ => .fuel
  | n + 1, v, ts =>
    match ts with
    | .c c :: ts' =>
      if c = '+' ∨ c = '-' then (z3 n ts').bind fun p => z2L n (o.addOp c v p.1) p.2
      else R.ret (v, ts)
    | ts => R.ret (v, ts)
/-- `z3__` (`src/u_/expl_.rs:46-67`). -/
def z3 : Nat → List (Tok F) → R (F × List (Tok F))
  | 0, _ => .fuel
  | n + 1, ts => (z4 n ts).bind fun p => z3L n p.1 p.2
def z3L : Nat → F → List (Tok F) → R (F × List (Tok F))
  | 0, _, _ => .fuel
  | n + 1, v, ts =>
    match ts with
    | .c c :: ts' =>
      if c = '*' ∨ c = '/' ∨ c = '%' then
        (z4 n ts').bind fun p => (o.mulOp c v p.1).bind fun w => z3L n w p.2
      else R.ret (v, ts)
    | ts => R.ret (v, ts)
/-- `z4__` (`src/u_/expl_.rs:68-82`). -/
def z4 : Nat → List (Tok F) → R (F × List (Tok F))
  | 0, _ => .fuel
  | n + 1, ts => (z5 n ts).bind fun p => z4L n p.1 p.2
def z4L : Nat → F → List (Tok F) → R (F × List (Tok F))
  | 0, _, _ => .fuel
  | n + 1, v, ts =>
    match ts with
    | .c c :: ts' =>
      if c = '^' then (z4 n ts').bind fun p => z4L n (o.pow v p.1) p.2
      else R.ret (v, ts)
    | ts => R.ret (v, ts)
/-- `z5__` (`src/u_/expl_.rs:83-111`) with `item__` (`src/u_/expl_.rs:15-26`). -/
def z5 : Nat → List (Tok F) → R (F × List (Tok F))
  | 0, _ => .fuel
  | n + 1, ts =>
    match ts with
    | [] => R.err c!"缺"
    | .n f :: ts' => R.ret (f, ts')
    | .c c :: ts' =>
      if c = '(' then
        (z2 n ts').bind fun p =>
          match p.2 with
          | [] => R.err c!"缺"
          | .c c2 :: ts'' => if c2 = ')' then R.ret (p.1, ts'') else R.err c!"应遇 )"
          | .n _ :: _ => R.err c!"应遇 )"
      else if c = '-' ∨ c = '+' then
        (z3 n ts').bind fun p => R.ret (if c = '-' then o.neg p.1 else p.1, p.2)
      else R.err c!"错遇 "
end

/-- Enough recursion depth for a token list. -/
def explFuel (ts : List (Tok F)) : Nat := 4 * ts.length + 4

/-- `z2__(&mut 0)`: the value of a token list; what is left over is ignored (`src/expl_.rs:79-80`). -/
def explTokens (ts : List (Tok F)) : R F := (z2 o (explFuel ts) ts).bind fun p => R.ret p.1

/-- The operator characters (`src/expl_.rs:55`). -/
def isOpChar (c : Char) : Bool := ['+', '-', '*', '/', '%', '^', '(', ')'].contains c
/-- Number characters (`src/expl_.rs:59`). -/
def isNumChar (c : Char) : Bool := (decide ('0' ≤ c) && decide (c ≤ '9')) || c == '.'

/-- `add_n__` (`src/expl_.rs:15-25`). -/
def addNum (buf : Str) : Except Str (List (Tok F)) :=
  if buf.isEmpty then .ok []
  else match o.parse buf with
    | some f => .ok [.n f]
    | none => .error (buf ++ c!"非数字")

/-- The tokenizer loop (`src/expl_.rs:53-67`); `text__` quotes the illegal text. -/
def explLex (quote : Str → Str) : Str → (buf : Str) → Except Str (List (Tok F))
  | [], buf => addNum o buf
  | c :: cs, buf =>
    if isOpChar c then
      match addNum o buf with
      | .error e => .error e
      | .ok ts => match explLex quote cs [] with
        | .error e => .error e
        | .ok ts2 => .ok (ts ++ .c c :: ts2)
    else if isNumChar c then explLex quote cs (buf ++ [c])
    else .error (quote (buf ++ [c]) ++ c!"表达式非法")

/-- Lexing and evaluation (`src/expl_.rs:46-89`, `105`): the value of an expression text. -/
def explVal (quote : Str → Str) (src : Str) : R F :=
  match explLex o quote src [] with
  | .error e => R.err e
  | .ok ts => (explTokens o ts).bind fun v => if o.isInf v then R.err c!"溢出" else R.ret v

/-- `hello__` (`src/expl_.rs:41-107`) from the evaluated strings `v` to the text appended. -/
def expl (quote : Str → Str) (v : List Str) : R Str :=
  match v with
  | [] => R.err c!"缺"
  | src :: more => (explVal o quote src).bind fun n =>
    match more with
    | [] => R.ret (o.str n)
    | s2 :: _ =>
      if s2.isEmpty then R.ret (o.strFloor n)
      else match parseUsize s2 with
        | some i => match o.strFixed n i with
          | some s => R.ret s
          | none => .panic
        | none => R.err (quote s2 ++ c!"点后位数非法")
end
end Zh
