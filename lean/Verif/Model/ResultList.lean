import Verif.Model.Str
import Verif.Model.Keyword
/-!
# `u_/result_.rs`, `u_/def_/backarg_.rs` and the argument readers of `var_/`

The values (`Val_`) of result items are never mutated after creation, so items are immutable
values here; what Rust mutates in place is only the annotation list `rem_` of an item, which lives
in the evaluator's heap under the item's `ref`.
-/
namespace Zh

/-- `Val_` (`src/u_/result_.rs:41-45`).  The only `O` objects of this crate are the pipes of a child
process (`src/exec_.rs:240-245`), named by the process `h`. -/
inductive Val where
  | s (s : Str)
  | k (kw : Kw)
  | o (h : Nat)
deriving Repr, DecidableEq

/-- `I_`, a shared reference to an `Item_` (`src/u_/result_.rs:48-51`): `ref` identifies the shared
cell (its `rem_` is in the evaluator's heap), `val` is its immutable value. -/
structure Item where
  ref : Nat
  val : Val
deriving Repr, DecidableEq

/-- `is_kw__`, `dunhao__`, `jvhao__` (`src/u_/result_.rs:109-122`). -/
def Item.isKw (i : Item) (id : KwId) : Bool :=
  match i.val with
  | .k kw => kw.id == id
  | _ => false
def Item.dunhao (i : Item) : Bool := i.isKw .dunhao
def Item.jvhao (i : Item) : Bool := i.isKw .jvhao

/-- The `u8` returned by `Item_::s3__`: `0`, `1`, or `b','`. -/
inductive S3 where
  | zero | one | comma
deriving Repr, DecidableEq

/-- `s2.replace("\"", "\\\"")` (`src/u_/result_.rs:74`). -/
def escQuote (s : Str) : Str := s.flatMap fun c => if c = '"' then ['\\', '"'] else [c]

/-- `Item_::s3__` (`src/u_/result_.rs:69-104`): the text appended and the code returned. -/
def Val.s3 (v : Val) (yin ma kw2 kw3 kw4 kw5 : Bool) : Str × S3 :=
  match v with
  | .s s2 =>
    let s2 := if ma then escQuote s2 else s2
    let s2 := if yin then '"' :: s2 ++ ['"'] else s2
    (s2, .one)
  | .k kw =>
    if kw2 then
      if !kw3 && kw.id == .jvhao then ([], .zero)
      else if kw4 && (kw.id == .jvhao || kw.id == .dunhao) then ([], .comma)
      else if kw4 && !kw5 then ([], .zero)
      else (kw.s, .one)
    else ([], .zero)
  | .o _ => (c!"obj", .one)

/-- `Item_::s__` (`src/u_/result_.rs:63-65`): plain text of one item. -/
def Val.plain (v : Val) : Str := (v.s3 false false false false false false).1
/-- `Item_::s_inc_some_kw__` (`src/u_/result_.rs:105-107`). -/
def Val.plainKw (v : Val) : Str := (v.s3 false false true false false false).1

/-- `List_` (`src/u_/result_.rs:133-137`). -/
structure RList where
  a : List Item
  dun : List Nat
deriving Repr, DecidableEq

namespace RList

/-- `List_::new`, `clear` (`src/u_/result_.rs:145-149`). -/
def empty : RList := ⟨[], []⟩

/-- `add4__` (`src/u_/result_.rs:168-173`). -/
def add (l : RList) (i : Item) : RList :=
  ⟨l.a ++ [i], if i.dunhao then l.dun ++ [l.a.length] else l.dun⟩

/-- Appending several items one by one. -/
def addAll (l : RList) (is : List Item) : RList := is.foldl add l

/-- `ins__` (`src/u_/result_.rs:174-187`). -/
def ins (l : RList) (i : Item) : RList :=
  ⟨i :: l.a, if i.dunhao then 0 :: l.dun.map (· + 1) else l.dun.map (· + 1)⟩

/-- `rm__` (`src/u_/result_.rs:188-204`), for `idx < a_.len()` (all callers ensure it): the new
list; the removed item is `a_[idx]`. -/
def rm (l : RList) (idx : Nat) : RList :=
  ⟨l.a.eraseIdx idx,
    (l.dun.filter (· ≠ idx)).map fun i => if i > idx then i - 1 else i⟩

/-- `len__` (`src/u_/result_.rs:206-208`). -/
def len (l : RList) : Nat := if l.a.isEmpty then 0 else l.dun.length + 1

/-- The loop of `to_vec0__` (`src/u_/result_.rs:248-259`): remaining items, current text, flag `b`. -/
def toVecGo (otherkw : Bool) : List Item → Str → Bool → List Str
  | [], s, b => if b || !s.isEmpty then [s] else []
  | i :: is, s, b =>
    match i.val.s3 false false true true true otherkw with
    | (t, .one) => toVecGo otherkw is (s ++ t) true
    | (t, .comma) => (s ++ t) :: toVecGo otherkw is [] true
    | (t, .zero) => toVecGo otherkw is (s ++ t) b

/-- `to_vec0__` (`src/u_/result_.rs:244-264`), for `start ≤ len ≤ a_.len()`. -/
def toVec0 (l : RList) (start len : Nat) (otherkw : Bool) : List Str :=
  toVecGo otherkw ((l.a.take len).drop start) [] false
/-- `to_vec__`, `to_vec2__`, `to_vec4__` (`src/u_/result_.rs:228-239`). -/
def toVec (l : RList) : List Str := l.toVec0 0 l.a.length true
def toVec2 (l : RList) (otherkw : Bool) : List Str := l.toVec0 0 l.a.length otherkw
def toVec4 (l : RList) (len : Nat) (otherkw : Bool) : List Str := l.toVec0 0 len otherkw

/-- The control byte of `s2__`: `b'j'`, `b'0'`, anything else (`b'1'`). -/
inductive Ctl where
  | j | zero | one
deriving Repr, DecidableEq

/-- The characters that need no quotes in an argument line (`src/u_/result_.rs:281-285`).  The Rust
code looks at bytes; every byte of a non-ASCII character is outside the set. -/
def bareChar (c : Char) : Bool :=
  ('0' ≤ c && c ≤ '9') || c == '.' || ('a' ≤ c && c ≤ 'z') || ('A' ≤ c && c ≤ 'Z') ||
    c == '-' || c == '_'

/-- Does a field need quotes (`src/u_/result_.rs:267-295`). -/
def needYin (ctl : Ctl) (s2 : Str) : Bool :=
  match ctl with
  | .zero => false
  | .j => s2.isEmpty || !(s2 == c!"true" || s2 == c!"false" || s2 == c!"null" || s2 == c!"undefined")
  | .one => s2.isEmpty || !s2.all bareChar

/-- `s2s__` (`src/u_/result_.rs:266-307`): the new `s1` (and `s2` is cleared). -/
def s2s (ctl : Ctl) (s2 s1 : Str) : Str :=
  let yin := needYin ctl s2
  let sep : Str := if s1.isEmpty then [] else match ctl with
    | .j => [','] | .zero => ['|', '\x0c'] | .one => [' ']
  let q : Str := if yin then ['"'] else []
  s1 ++ sep ++ q ++ s2 ++ q

/-- The loop of `s2__` (`src/u_/result_.rs:314-326`): remaining items, `s2`, `s1`. -/
def lineGo (ctl : Ctl) : List Item → (s2 s1 : Str) → Str
  | [], s2, s1 => s2s ctl s2 s1
  | i :: is, s2, s1 =>
    match i.val with
    | .k kw =>
      if kw.id == .dunhao || kw.id == .jvhao then lineGo ctl is [] (s2s ctl s2 s1)
      else lineGo ctl is s2 s1
    | v => lineGo ctl is (s2 ++ (v.s3 false (ctl ≠ .zero) false false false false).1) s1

/-- `List_::s2__` (`src/u_/result_.rs:308-330`) starting from the text `s1`. -/
def line (l : RList) (ctl : Ctl) (s1 : Str) : Str :=
  if l.a.isEmpty then s1
  else
    let s1 := lineGo ctl l.a [] s1
    if ctl == .j && decide (l.len > 1) then '[' :: s1 ++ [']'] else s1

/-- `to1__` (`src/u_/result_.rs:331-333`) from an empty text: the argument line. -/
def to1 (l : RList) : Str := l.line .one []

/-- `List_::s__` (`src/u_/result_.rs:335-341`). -/
def text (l : RList) : Str := l.a.flatMap fun i => i.val.plain

/-- `posi__` (`src/u_/result_.rs:366-381`).  Indexing `dunhao_` cannot fail: both indices are below
its length (`i - 1 < end2`, `i < end2`, `end2 = dunhao_.len()`). -/
def posi (l : RList) (i : Nat) : Option (Nat × Nat) :=
  if l.len > 0 then
    let end2 := l.len - 1
    let start := if i > 0 ∧ i ≤ end2 then l.dun.getD (i - 1) 0 + 1 else 0
    let end_ := if i ≥ end2 then l.a.length else l.dun.getD i 0
    if start < end_ then some (start, end_) else none
  else none

/-- `a_[start..end]`; Rust panics when `end` exceeds the length (only possible when the separator
index is out of step with the items). -/
def slice (l : RList) (start end_ : Nat) : Out (List Item) :=
  if end_ ≤ l.a.length then .ok ((l.a.take end_).drop start) else .panic

/-- `List_::s3__` (`src/u_/result_.rs:343-356`): text of argument `i`, if it is all plain strings.
(A panic of the indexing would only come after all strings before it; modelled eagerly.) -/
def s3 (l : RList) (i : Nat) : Out (Option Str) :=
  match l.posi i with
  | none => .ok none
  | some (st, en) => do
    let is ← l.slice st en
    .ok (is.foldr (fun i acc => match i.val, acc with
      | .s s2, some t => some (s2 ++ t)
      | _, _ => none) (some []))

/-- `List_::ret__` (`src/u_/result_.rs:358-364`): append argument `i` to `ret`. -/
def retArg (l : RList) (i : Nat) (ret : RList) : Out RList :=
  match l.posi i with
  | none => .ok ret
  | some (st, en) => do
    let is ← l.slice st en
    .ok (ret.addAll is)

/-- `end__` (`src/u_/result_.rs:383-389`). -/
def last? (l : RList) : Option Item := l.a.getLast?

/-- `pop_end__` (`src/u_/result_.rs:390-397`). -/
def popEnd (l : RList) : RList :=
  match l.a.getLast? with
  | some i => if i.dunhao then ⟨l.a.dropLast, l.dun.dropLast⟩ else l
  | none => l

/-! ## `u_/def_/backarg_.rs` -/

/-- The moving loop of `backarg__` (`src/u_/def_/backarg_.rs:21-40`): `n` is `idx` before the
decrement; items from the end down to (not including) position `i2` are moved in front of `ret`,
stopping at a `。` item. -/
def backGo (i2 : Int) : Nat → RList → RList → RList × RList
  | 0, self4, ret => (self4, ret)
  | idx + 1, self4, ret =>
    if (idx : Int) ≤ i2 then (self4, ret)
    else match self4.a[idx]? with
      | none => (self4, ret)   -- not reached: `idx < a_.len()`
      | some it =>
        if it.jvhao then (self4, ret)
        else backGo i2 idx (self4.rm idx) (ret.ins it)

/-- `backarg__` (`src/u_/def_/backarg_.rs:3-42`): `sepItem` is the freshly created separator item.
`none` is the error `倒挂不足`; `n = 0` indexes `dunhao_` out of bounds (panic). -/
def backarg (self4 : RList) (n : Nat) (sepItem : Item) (ret : RList) :
    Out (Option (RList × RList)) :=
  if self4.dun.length + 1 < n then .ok none
  else
    let i := if self4.dun.length < n then 0 else self4.dun.length - n
    let i2? : Option Int :=
      if self4.dun.length < n then some (-1) else self4.dun[i]?.map Int.ofNat
    match i2? with
    | none => .panic
    | some i2 =>
      let self4 := { self4 with dun := self4.dun.take i }
      let ret := ret.ins sepItem
      .ok (some (backGo i2 self4.a.length self4 ret))

end RList

/-! ## Argument readers: `var_/arg_.rs`, `var_/args_.rs`, `var_/argc_.rs` -/

/-- What `Argi_::hello__` (`src/var_/arg_.rs:24-49`) does when `equ_name` is set and the argument is
a plain string is to look the name up in the string (`equ_name__`); that part is in
`Model/Vars.lean`.  This is the part without `equ_name`: `a` are the arguments of the scope, `fresh`
the item created for `ret.add__("1")`.  `i - 1` underflows for `i = 0`: a panic with overflow checks,
`usize::MAX` without. -/
def argIndex (ovf : Bool) (i : Int) (a : RList) : Out (Option Nat) := do
  let i ← i2u ovf i a.len
  if i ≤ a.len then
    if i = 0 then (if ovf then .panic else .ok (some usizeMax))
    else .ok (some (i - 1))
  else .ok none

/-- `Argi_::hello__` with `is_has = true`, `equ_name = false` (`src/var_/arg_.rs:24-34`). -/
def argHas (ovf : Bool) (i : Int) (a : RList) (one : Item) (ret : RList) : Out RList := do
  let i ← i2u ovf i a.len
  if i ≤ a.len then .ok (ret.add one) else .ok ret

/-- `Argi_::hello__` with `is_has = false`, `equ_name = false` (`src/var_/arg_.rs:24-49`). -/
def argGet (ovf : Bool) (i : Int) (a : RList) (ret : RList) : Out RList := do
  match ← argIndex ovf i a with
  | none => .ok ret
  | some i => a.retArg i ret

/-- The loop of the list form of `Args_::hello__` (`src/var_/args_.rs:108-125`): current group number
`i2`; the items appended. -/
def argsPick (begin2 end2 : Nat) : List Item → Nat → List Item
  | [], _ => []
  | i :: is, i2 =>
    if i.dunhao then
      let i2 := i2 + 1
      if i2 = begin2 then argsPick begin2 end2 is i2
      else if i2 < begin2 then argsPick begin2 end2 is i2
      else if i2 > end2 then []
      else i :: argsPick begin2 end2 is i2
    else if i2 < begin2 then argsPick begin2 end2 is i2
    else if i2 > end2 then []
    else i :: argsPick begin2 end2 is i2

/-- The loop of the line form of `Args_::hello__` (`src/var_/args_.rs:77-103`): group number `i2`,
`s2`, `b`, `s`. -/
def argsLineGo (begin2 end2 : Nat) : List Item → Nat → Str → Bool → Str → Str
  | [], _, s2, b, s => if b then RList.s2s .one s2 s else s
  | i :: is, i2, s2, b, s =>
    if i.dunhao then
      argsLineGo begin2 end2 is (i2 + 1) (if b then [] else s2) false
        (if b then RList.s2s .one s2 s else s)
    else if i2 < begin2 then argsLineGo begin2 end2 is i2 s2 b s
    else if i2 > end2 then (if b then RList.s2s .one s2 s else s)
    else argsLineGo begin2 end2 is i2 (s2 ++ i.val.plain) true s

/-- What `Args_::hello__` does with the result list (`src/var_/args_.rs:61-140`). -/
inductive ArgsAct where
  /-- append the text `"1"` (existence test) -/
  | has
  /-- append this text (line form, part of the arguments) -/
  | addText (s : Str)
  /-- append the whole argument line `args_1__` (line form, all arguments or none selected) -/
  | addLine
  /-- append these items; if there are none, remove a trailing separator (list form) -/
  | addItems (is : List Item)
  /-- remove a trailing separator (list form, nothing selected) -/
  | popEnd
deriving Repr, DecidableEq

/-- `Args_::hello__` (`src/var_/args_.rs:61-140`) as a decision on the scope's arguments `ls`. -/
def argsAct (ovf : Bool) (isHas : Bool) (ls : RList) (begin_ end_ : Int) (line : Bool) :
    Out ArgsAct := do
  if !ls.a.isEmpty then
    let begin2 ← i2u ovf begin_ ls.len
    let end2 ← i2u ovf end_ ls.len
    if end2 ≥ begin2 then
      if isHas then return .has
      if line then
        if begin2 = 1 ∧ end2 ≥ ls.a.length then return .addLine
        else return .addText (argsLineGo begin2 end2 ls.a 1 [] false [])
      else return .addItems (argsPick begin2 end2 ls.a 1)
  if line then return .addLine
  return .popEnd

/-- The list form applied to a result list (`src/var_/args_.rs:123-139`). -/
def argsList (ovf : Bool) (ls : RList) (begin_ end_ : Int) (ret : RList) : Out RList := do
  match ← argsAct ovf false ls begin_ end_ false with
  | .addItems is => return (if is.isEmpty then (ret.addAll is).popEnd else ret.addAll is)
  | _ => return ret.popEnd

end Zh
