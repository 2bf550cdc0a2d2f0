import Verif.Model.Basic
/-!
# `u2_/str_.rs`, `u_/t_.rs`, `u_/result2_.rs`
-/
namespace Zh

/-- The loop of `split2__` (`src/u2_/str_.rs:12-43`).

State: `q` is the open quote character while inside the inner `while` loop of lines 23-28
(`none` outside), `cur` is `s2`, `b` is `b`.  The result is the vector `v` from here on.  The inner
loop and the outer loop are merged into one recursion over the remaining characters; at the end
of input inside a quote the inner loop ends and `b` becomes true (line 29). -/
def split2Go (seps : List Char) (spYes yange yangend : Bool) :
    List Char → Option Char → Str → Bool → List Str
  | [], q, cur, b =>
    if (yange && yangend) || (b || q.isSome) then [cur] else []
  | c :: cs, some q, cur, b =>
    if c = q then split2Go seps spYes yange yangend cs none cur true
    else split2Go seps spYes yange yangend cs (some q) (cur ++ [c]) b
  | c :: cs, none, cur, b =>
    if seps.contains c then
      (if yange || b then [cur] else []) ++ split2Go seps spYes yange yangend cs none [] false
    else if c = '"' ∨ c = '\'' then
      split2Go seps spYes yange yangend cs (some c) cur b
    else if isBlank c && !spYes then
      split2Go seps spYes yange yangend cs none cur b
    else
      split2Go seps spYes yange yangend cs none (cur ++ [c]) true

/-- `split2__` (`src/u2_/str_.rs:7-44`): `s` is the text, `seps` the separator characters `s3`. -/
def split2 (s : Str) (seps : List Char) (spYes yange yangend : Bool) : List Str :=
  split2Go seps spYes yange yangend s none [] false

/-- `split__` (`src/u2_/str_.rs:3-5`). -/
def split (s : Str) : List Str := split2 s [' ', '\t', '\r', '\n'] false false false

/-! ## Integer parsing (`str::parse` as used by `s2n__`, `src/u_/t_.rs:18-20`)

Rust's integer `FromStr`: an optional sign (`-` for signed types only), then at least one ASCII
digit, nothing else; values outside the type's range are errors. -/

/-- Value of a decimal digit. -/
def digitVal (c : Char) : Option Nat :=
  if '0' ≤ c ∧ c ≤ '9' then some (c.toNat - '0'.toNat) else none

/-- Value of a digit string, continuing from `acc`. -/
def digitsVal (acc : Nat) : Str → Option Nat
  | [] => some acc
  | c :: cs => match digitVal c with
    | some d => digitsVal (acc * 10 + d) cs
    | none => none

/-- An unsigned decimal number: at least one digit. -/
def parseDigits (s : Str) : Option Nat := if s.isEmpty then none else digitsVal 0 s

/-- `parse::<uN>()` with upper bound `max` (inclusive). -/
def parseUnsigned (max : Nat) (s : Str) : Option Nat :=
  let r := match s with
    | '+' :: cs => parseDigits cs
    | cs => parseDigits cs
  match r with
  | some n => if n ≤ max then some n else none
  | none => none

/-- `parse::<iN>()` with inclusive bounds. -/
def parseSigned (min max : Int) (s : Str) : Option Int :=
  let r : Option Int := match s with
    | '-' :: cs => (parseDigits cs).map fun n => - (n : Int)
    | '+' :: cs => (parseDigits cs).map fun n => (n : Int)
    | cs => (parseDigits cs).map fun n => (n : Int)
  match r with
  | some i => if min ≤ i ∧ i ≤ max then some i else none
  | none => none

def i32Min : Int := -2147483648
def i32Max : Int := 2147483647
def i64Min : Int := -9223372036854775808
def i64Max : Int := 9223372036854775807
/-- `core::usize::MAX` on a 64-bit target. -/
def usizeMax : Nat := 18446744073709551615

/-- `parse::<i32>()`. -/
def parseI32 : Str → Option Int := parseSigned i32Min i32Max
/-- `parse::<i64>()`. -/
def parseI64 : Str → Option Int := parseSigned i64Min i64Max
/-- `parse::<usize>()` on a 64-bit target. -/
def parseUsize : Str → Option Nat := parseUnsigned usizeMax

/-- Decimal digits of a natural number (`to_string()`). -/
def natStr (n : Nat) : Str := (Nat.toDigits 10 n)
/-- `to_string()` of an integer. -/
def intStr (i : Int) : Str :=
  match i with
  | .ofNat n => natStr n
  | .negSucc n => '-' :: natStr (n + 1)

/-- `i2u__` (`src/u_/t_.rs:22-31`).  `ovf` says whether the build has overflow checks (debug
profile): then `-i` of `i32::MIN` panics; without them it wraps to `i32::MIN`, which as `usize`
exceeds every list length, so the result is 0.  Lists longer than `2^63` do not exist. -/
def i2u (ovf : Bool) (i : Int) (max : Nat) : Out Nat :=
  if 0 ≤ i then .ok i.toNat
  else if i = i32Min then (if ovf then .panic else .ok 0)
  else
    let i1 := (-i).toNat
    .ok (if i1 ≤ max then max - i1 + 1 else 0)

/-- `true__` (`src/u_/t_.rs:41-46`). -/
def truthy (s : Str) : Bool :=
  !(s == [] || s == c!"0" || s == c!"false" || s == c!"NULL")

/-- The loop of `with__` (`src/u_/t_.rs:54-66`): `cs` is the rest of the text from
`from + idx2`, `s2` the rest of the name, `idx2` the number of matched characters.  An offset
`from` past the end of the text is represented by `atEnd = false` with an empty rest. -/
def withGo : (cs s2 : List Char) → (idx2 : Nat) → Option (Nat × Bool)
  | cs, [], idx2 => some (idx2, cs.isEmpty)
  | [], _ :: _, _ => none
  | c :: cs, d :: s2, idx2 => if c = d then withGo cs s2 (idx2 + 1) else none

/-- `with__` (`src/u_/t_.rs:48-68`).  For `from` beyond the text, the end flag `idx == len` is
false and only the empty name matches. -/
def withAt (cs : List Char) (s2 : Str) (from_ : Nat) : Option (Nat × Bool) :=
  if from_ ≤ cs.length then withGo (cs.drop from_) s2 0
  else if s2.isEmpty then some (0, false) else none

/-! ## `u_/result2_.rs` -/

/-- `ERR_` (`src/u_/result2_.rs:1`). -/
def ERR : Int := 1000

/-- `Err_` (`src/u_/result2_.rs:29`): code, second code, message, trace. -/
structure Err where
  i : Int
  i2 : Int
  s : Str
  s2 : Str
deriving Repr, DecidableEq

/-- `err__`/`err2__` (`src/u_/result2_.rs:7-10`). -/
def Err.msg (s : Str) : Err := ⟨ERR, 0, s, []⟩
/-- `qve__` (`src/u_/result2_.rs:16`). -/
def Err.qve : Err := Err.msg c!"缺"
/-- `n__` (`src/u_/result2_.rs:18-19`). -/
def Err.n (i : Int) : Err := ⟨i, 0, [], []⟩

/-- `exitcode__` (`src/u_/result2_.rs:21-23`). -/
def exitcode (i : Int) : Int := if 0 ≤ i ∧ i ≤ 255 then i else 254

end Zh
