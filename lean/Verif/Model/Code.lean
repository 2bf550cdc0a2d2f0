import Verif.Model.ResultList
import Verif.Model.Jump
/-!
# Parsed programs: the code items (`src/*.rs`, `u_/code_.rs`, `u_/code_/item1_.rs`)

The Rust program keeps a parsed program as a vector of trait objects; here the statement kinds are the
constructors of one inductive type.  Only the data that the constructors and `add__` functions store is
kept.  An `Option<List_>` that is `None` exactly when the list is empty is modelled by the list.
-/
namespace Zh

/-- `Cnt_` (`src/for_.rs:58-64`); `no_` is a function of the statement kind. -/
structure Cnt where
  max : Option Int
  start : Option Int
  name : Option Str
deriving Repr, DecidableEq

/-- A code item. -/
inductive Code where
  /-- `src/undef_.rs` -/
  | undef (s : Str)
  /-- `src/text_.rs` -/
  | text (s : Str)
  /-- `Item1_` (`src/u_/code_/item1_.rs:53-136`): `。`, `、`, break point -/
  | kw1 (id : KwId)
  /-- `Item2_` (`src/u_/code_/item1_.rs:138-153`): comparison and connective words -/
  | kw2 (id : KwId)
  /-- `rem2_::SimpItem_` (`src/rem2_.rs:60-79`) -/
  | remS (s : Str)
  /-- `rem2_::Item_` (`src/rem2_.rs:36-58`) -/
  | rem (a : List Code)
  /-- `var_::simp_::Item_` (`src/var_/simp_.rs`) -/
  | simp (name : Str) (rems : List Str)
  /-- `var_::Args_` (`src/var_/args_.rs`) -/
  | args (rems : List Str) (begin_ end_ : Int) (line : Bool)
  /-- `var_::Argc_` (`src/var_/argc_.rs`) -/
  | argc (rems : List Str)
  /-- `var_::Argi_` (`src/var_/arg_.rs:7-65`) -/
  | argi (rems : List Str) (i : Int)
  /-- `var_::Arg0_` (`src/var_/arg_.rs:67-116`) -/
  | arg0 (rems : List Str) (zero : Str)
  /-- `var_::Item_` (`src/var_.rs:200-233`) -/
  | var (rems : List Str) (a : List Code)
  /-- `src/block_.rs` -/
  | block (a : List Code)
  /-- `src/for_.rs`; `range`: the word is `圈子`; no `codes` at all is the empty list -/
  | for_ (range : Bool) (cnt : Cnt) (rems codes : List Code)
  /-- `src/break_.rs`, `src/continue_.rs`, `src/return_.rs`, `src/quit_.rs` -/
  | jump (k : JumpKind) (a : List Code)
  /-- `src/if_.rs` -/
  | if_ (a th el : List Code)
  /-- `src/switch_.rs`; `case` is the list inside the block kept in `case_` -/
  | switch (one : Bool) (a case : List Code) (from_ : List (Nat × Nat)) (default : Option Nat)
  /-- `src/guandaodu_.rs` -/
  | du (a : List Code)
  /-- `src/guandaojie_.rs`; no `rems` is the empty list -/
  | jie (rems a : List Code)
  /-- `src/guandaojie2_.rs` -/
  | jie2 (a : List Code)
  /-- `src/mod_.rs`, `src/mod_free_.rs`, `src/name_.rs` -/
  | mod_ (a : List Code)
  | modFree (a : List Code)
  | name (a : List Code)
  /-- `src/set_.rs`, `src/alias_.rs`, `src/def_.rs` -/
  | set_ (names vals : List Code)
  | alias (names vals : List Code)
  | def_ (names vals : List Code) (sp : Nat)
  /-- `src/has_.rs` -/
  | has (a : List Code)
  /-- `src/eval_.rs`, `src/load_.rs` (`load`: no `arg0`); `iArg0` has at most one item -/
  | eval (load inCurQv : Bool) (arg0 : Str) (iArg0 : List Code) (a : List Code) (sp : Nat) (spInEnd : Bool)
  /-- `src/print_.rs`, `src/expl_.rs`, `src/exec_.rs` -/
  | print (a : List Code)
  | expl (a : List Code)
  | exec (a : List Code)
deriving Repr

/-- The keyword of a jump statement. -/
def JumpKind.kw : JumpKind → KwId
  | .break_ => .break_ | .continue_ => .continue_ | .break2 => .break2 | .continue2 => .continue2
  | .return_ => .return_ | .quit => .quit

/-- `kw__` (`src/u_/code_.rs:83` and the implementations). -/
def Code.id : Code → KwId
  | .undef _ => .undef
  | .text _ => .beginText
  | .kw1 id => id
  | .kw2 id => id
  | .remS _ => .beginRem2
  | .rem _ => .beginRem2
  | .simp .. => .beginVar
  | .args .. => .beginVar
  | .argc _ => .beginVar
  | .argi .. => .beginVar
  | .arg0 .. => .beginVar
  | .var .. => .beginVar
  | .block _ => .beginBlock
  | .for_ range .. => if range then .range else .for_
  | .jump k _ => k.kw
  | .if_ .. => .if_
  | .switch one .. => if one then .switch2 else .switch
  | .du _ => .guandaodu
  | .jie .. => .guandaojie
  | .jie2 _ => .guandaojie2
  | .mod_ _ => .mod_
  | .modFree _ => .modFree
  | .name _ => .name
  | .set_ .. => .set_
  | .alias .. => .alias
  | .def_ .. => .def_
  | .has _ => .has
  | .eval load .. => if load then .load else .eval_
  | .print _ => .print_
  | .expl _ => .expl
  | .exec _ => .exec

/-- `rem__` (`src/u_/world_.rs:98-102`). -/
def remStr (s : Str) : Str := kwStr .beginRem2 ++ s ++ kwStr .endRem2

/-- `var_::Item1_::s__` (`src/var_.rs:74-79`). -/
def varStr (name : Str) (rems : List Str) : Str :=
  kwStr .beginVar ++ (name ++ rems.flatMap remStr) ++ kwStr .endVar

/-- The words for arguments (`src/var_/arg_.rs:3-5`). -/
def ARG : Str := c!"参数"
def ARGS : Str := c!"参数栈"
def ARGC : Str := c!"参数数目"
/-- `IN_CUR_QV_` (`src/eval_.rs:3`). -/
def IN_CUR_QV : Str := c!"在当前区"

/-- `name__` of `Args_` (`src/var_/args_.rs:156-166`). -/
def argsName (begin_ end_ : Int) (line : Bool) : Str :=
  (if line then ARG else ARGS) ++ (if begin_ = 1 then [] else remStr (intStr begin_)) ++
    (if end_ = i32Max then [] else remStr (intStr end_))

/-- The annotations written by `s__` of a loop (`src/for_.rs:166-174`). -/
def Cnt.str (c : Cnt) : Str :=
  (match c.max with | some i => remStr (intStr i) | none => []) ++
  (match c.start with | some i => remStr (intStr i) | none => []) ++
  (match c.name with | some s => remStr s | none => [])

mutual
/-- `List_::s_i__` with `for_i__` (`src/u_/code_.rs:34-54`, `129-135`): the item written back as text.
The order is `s__`, `a__`, `kw2__`, `a2__`, `kw3__`, `a3__`. -/
def Code.show : Code → Str
  | .undef s => s
  | .text s => kwStr .beginText ++ s ++ kwStr .endText
  | .kw1 id => kwStr id
  | .kw2 id => kwStr id
  | .remS s => remStr s
  | .rem a => kwStr .beginRem2 ++ showL a ++ kwStr .endRem2
  | .simp name rems => varStr name rems
  | .args rems b e line => varStr (argsName b e line) rems
  | .argc rems => varStr ARGC rems
  | .argi rems i => varStr (ARG ++ intStr i) rems
  | .arg0 rems z => varStr (ARG ++ z) rems
  | .var _ a => kwStr .beginVar ++ showL a ++ kwStr .endVar
  | .block a => kwStr .beginBlock ++ showL a ++ kwStr .endBlock
  | .for_ range cnt rems codes =>
    kwStr (if range then .range else .for_) ++ cnt.str ++ showL rems ++ showL codes
  | .jump k a => kwStr k.kw ++ showL a
  | .if_ a th el => kwStr .if_ ++ showL a ++ kwStr .then_ ++ showL th ++ kwStr .else_ ++ showL el
  | .switch one a case _ _ =>
    kwStr (if one then .switch2 else .switch) ++ showL a ++
      (kwStr .beginBlock ++ showL case ++ kwStr .endBlock)
  | .du a => kwStr .guandaodu ++ showL a
  | .jie rems a => kwStr .guandaojie ++ showL rems ++ showL a
  | .jie2 a => kwStr .guandaojie2 ++ showL a
  | .mod_ a => kwStr .mod_ ++ showL a
  | .modFree a => kwStr .modFree ++ showL a
  | .name a => kwStr .name ++ showL a
  | .set_ names vals => kwStr .set_ ++ showL names ++ kwStr .equ ++ showL vals
  | .alias names vals => kwStr .alias ++ showL names ++ kwStr .equ ++ showL vals
  | .def_ names vals _ => kwStr .def_ ++ showL names ++ kwStr .equ ++ showL vals
  | .has a => kwStr .has ++ showL a
  | .eval load inCur _ iArg0 a _ _ =>
    kwStr (if load then .load else .eval_) ++ (if inCur then remStr IN_CUR_QV else []) ++
      showL iArg0 ++ showL a
  | .print a => kwStr .print_ ++ showL a
  | .expl a => kwStr .expl ++ showL a
  | .exec a => kwStr .exec ++ showL a
/-- `List_::s__` (`src/u_/code_.rs:136-140`). -/
def showL : List Code → Str
  | [] => []
  | c :: cs => c.show ++ showL cs
end

/-! ## Texts -/

/-- The continuation marks (`src/text_.rs:10-11`). -/
def CONT1 : Str := ['续', '\n']
def CONT2 : Str := ['\n', '续']

/-- `text_::Item_::new` (`src/text_.rs:9-18`): the slice panics when its start is after its end, which
happens when both marks share the newline.  The sum is over characters instead of bytes; both marks
have the same characters, so the order of the two bounds is the same. -/
def textNew (s : Str) : Out Str :=
  let starts := CONT1.isPrefixOf s
  let ends := CONT2.isSuffixOf s
  if starts || ends then
    let from_ := if starts then CONT1.length else 0
    let to := s.length - (if ends then CONT2.length else 0)
    if from_ ≤ to then .ok ((s.take to).drop from_) else .panic
  else .ok s

/-! ## Annotations and variables -/

/-- The loop of `rem2_::text__` (`src/rem2_.rs:7-15`): the text, or `none` if some item is not a text. -/
def textsOf : List Code → Option Str
  | [] => some []
  | .text s :: cs => (textsOf cs).map (s ++ ·)
  | _ :: _ => none

/-- `rem2_::text__` (`src/rem2_.rs:3-23`): `none` for "not an annotation", `some none` for an annotation
that is not a plain text. -/
def remText : Code → Option (Option Str)
  | .remS s => some (some s)
  | .rem a => some (textsOf a)
  | _ => none

/-- `rem2_::new` followed by `add__` (`src/rem2_.rs:25-47`). -/
def remNew : List Code → Code
  | [.text s] => .remS s
  | a => .rem a

/-- The loop of `var_::new` (`src/var_.rs:18-38`): the name (unless the item is not simple) and the
plain annotations met. -/
def varScan : List Code → (name : Str) → (rems : List Str) → Option Str × List Str
  | [], name, rems => (some name, rems)
  | c :: cs, name, rems =>
    match remText c with
    | some (some r) => varScan cs name (rems ++ [r])
    | some none => (none, rems)
    | none =>
      match c with
      | .text s => varScan cs (name ++ s) rems
      | _ => (none, rems)

/-- The loop of `Args_::with__` (`src/var_/args_.rs:22-34`) over the annotations: first and second
number with their positions. -/
def argsScan : List Str → (idx : Nat) → Option (Nat × Int) → Option (Nat × Int) →
    Option (Nat × Int) × Option (Nat × Int)
  | [], _, b, e => (b, e)
  | r :: rs, idx, b, e =>
    match parseI32 r with
    | none => argsScan rs (idx + 1) b e
    | some i =>
      match b, e with
      | none, _ => argsScan rs (idx + 1) (some (idx, i)) e
      | some _, none => argsScan rs (idx + 1) b (some (idx, i))
      | some _, some _ => (b, e)

/-- `Args_::with__` (`src/var_/args_.rs:14-45`): begin, end, line form, remaining annotations. -/
def argsWith (name : Str) (rems : List Str) : Option (Int × Int × Bool × List Str) :=
  if name = ARGS ∨ name = ARG then
    let (b, e) := argsScan rems 0 none none
    let rems := match e with | some (k, _) => rems.eraseIdx k | none => rems
    let rems := match b with | some (k, _) => rems.eraseIdx k | none => rems
    some ((b.map (·.2)).getD 1, (e.map (·.2)).getD i32Max, decide (name = ARG), rems)
  else none

/-- `Argi_::with__` (`src/var_/arg_.rs:15-22`). -/
def argiWith (name : Str) : Option Int :=
  if ARG.isPrefixOf name then parseI32 (name.drop ARG.length) else none

/-- `var_::new` followed by `add__` (`src/var_.rs:13-56`, `219-222`). -/
def varNew (a : List Code) : Code :=
  match varScan a [] [] with
  | (none, rems) => .var rems a
  | (some name, rems) =>
    match argsWith name rems with
    | some (b, e, line, rems) => .args rems b e line
    | none =>
      if name = ARGC then .argc rems
      else match argiWith name with
        | some i => if i = 0 then .arg0 rems (name.drop ARG.length) else .argi rems i
        | none => .simp name rems

/-! ## The `add__` functions that inspect their list -/

/-- `split2_0__` (`src/u_/code_/item1_.rs:5`). -/
def SPLIT0 : Nat := usizeMax - 1

/-- `split2_1__` (`src/u_/code_/item1_.rs:6-13`). -/
def split21 (a : List Code) : Nat := (a.findIdx? fun c => c.id == .dunhao).getD SPLIT0

/-- `Cnt_::hello__` (`src/for_.rs:85-112`): the flag is `has`. -/
def Cnt.hello (no : Bool) (c : Cnt) (rem : Str) (idx : Nat) : Except Err (Cnt × Bool) :=
  if !no && idx == 0 && c.max.isNone && ((parseI64 rem).isSome || rem.isEmpty) then
    .ok ({ c with max := some ((parseI64 rem).getD i64Max) }, true)
  else if !no && c.start.isNone && (parseI64 rem).isSome then
    .ok ({ c with start := parseI64 rem }, true)
  else if c.name.isNone then
    if rem.isEmpty then .error (.msg c!"名非法") else .ok ({ c with name := some rem }, true)
  else .ok (c, false)

/-- The loop of `add__` of a loop statement (`src/for_.rs:129-140`): the counter, and the items that are
not taken as counter annotations. -/
def forScan (no : Bool) : List Code → (idx : Nat) → Cnt → Except Err (Cnt × List Code)
  | [], _, c => .ok (c, [])
  | i :: is, idx, c =>
    match remText i with
    | some (some r) =>
      match c.hello no r idx with
      | .error e => .error e
      | .ok (c, true) => forScan no is (idx + 1) c
      | .ok (c, false) => .ok (c, i :: is)
    | _ =>
      match forScan no is (idx + 1) c with
      | .error e => .error e
      | .ok (c, rest) => .ok (c, i :: rest)

/-- `add__` of a loop statement (`src/for_.rs:123-161`). -/
def forAdd (range : Bool) (a : List Code) : Except Err Code :=
  match forScan range a 0 ⟨none, none, none⟩ with
  | .error e => .error e
  | .ok (c, a) =>
    .ok (.for_ range c (a.filter fun i => i.id == .beginRem2) (a.filter fun i => i.id != .beginRem2))

/-- State of the loop in `add__` of a switch (`src/switch_.rs:34-68`). -/
structure SwSt where
  from_ : List (Nat × Nat)
  default : Option Nat
  i2 : Nat
  i3 : Nat
deriving Repr, DecidableEq

/-- `defaultf` (`src/switch_.rs:41-47`). -/
def SwSt.setDefault (st : SwSt) (idx : Nat) : Except Err SwSt :=
  match st.default with
  | some _ => .error (.msg c!"只能有一个其他")
  | none => .ok { st with default := some (idx - 1) }

/-- `add` (`src/switch_.rs:48-51`). -/
def SwSt.add (st : SwSt) (i3 idx : Nat) : SwSt := { st with from_ := st.from_ ++ [(i3, idx - 1)] }

/-- The loop and the end of it (`src/switch_.rs:52-74`); `len` is `a3.len()`. -/
def switchScan (len : Nat) : List Code → (idx : Nat) → SwSt → Except Err SwSt
  | [], _, st =>
    if st.i3 < len then
      if st.i2 = 1 then st.setDefault (st.i3 + 1) else .ok (st.add st.i3 len)
    else .ok st
  | c :: cs, idx, st =>
    if c.id = .jvhao then
      let st1 := if st.i2 = 0 then .ok st
        else if st.i2 = 1 then st.setDefault idx
        else .ok (st.add st.i3 idx)
      match st1 with
      | .error e => .error e
      | .ok st => switchScan len cs (idx + 1) { st with i2 := 0, i3 := idx + 1 }
    else switchScan len cs (idx + 1) { st with i2 := st.i2 + 1 }

/-- `add__` of a switch (`src/switch_.rs:24-83`). -/
def switchAdd (one : Bool) (a : List Code) : Except Err Code :=
  if a.length < 2 then .error .qve
  else match a.getLast? with
    | some (.block body) =>
      match switchScan body.length body 0 ⟨[], none, 0, 0⟩ with
      | .error e => .error e
      | .ok st => .ok (.switch one a.dropLast body st.from_ st.default)
    | _ => .error (.msg c!"无体")

/-- The loop of `add__` of `解释` and `加载` (`src/eval_.rs:76-107`): "in the current scope", the item
taken as argument 0, the rest. -/
def evalScan : List Code → Bool → Bool × Option Code × List Code
  | [], cur => (cur, none, [])
  | i :: is, cur =>
    if i.id = .beginRem2 then
      if remText i = some (some IN_CUR_QV) then evalScan is true
      else (cur, some i, is)
    else
      let (cur, x, rest) := evalScan is cur
      (cur, x, i :: rest)

/-- `add__` of `解释` and `加载` (`src/eval_.rs:73-119`, `arg02__` 48-58, 70). -/
def evalAdd (load : Bool) (a : List Code) : Except Err Code :=
  let (cur, x, a) := evalScan a false
  match load, x with
  | true, some _ => .error (.msg c!"不能设参数0")
  | _, _ =>
    if a.isEmpty then .error .qve
    else
      let arg0 := match x with
        | some i => (match remText i with | some (some r) => r | _ => [])
        | none => []
      .ok (.eval load cur arg0 x.toList a (split21 a) (decide (split21 a = a.length - 1)))

/-- `err__` of `Item1_` (`src/u_/code_/item1_.rs:76-78`): the message starts with the keyword. -/
def errKw (id : KwId) (s : Str) : Err := .msg (kwStr id ++ s)

/-- `code2__` followed by `add__`, `add2__`, `add3__` (`src/u_/pars_/add_.rs:32-101`,
`src/u_/pars_.rs:294-302`): the code item built for a keyword from its three lists. -/
def mkCode (id : KwId) (a a2 a3 : List Code) : Option (Except Err Code) :=
  let nonEmpty (e : Err) (c : Code) : Option (Except Err Code) :=
    some (if a.isEmpty then .error e else .ok c)
  match id with
  | .beginRem2 => some (.ok (remNew a))
  | .beginVar => some (.ok (varNew a))
  | .beginBlock => some (.ok (.block a))
  | .for_ => some (forAdd false a)
  | .break_ => some (.ok (.jump .break_ a))
  | .continue_ => some (.ok (.jump .continue_ a))
  | .range => some (forAdd true a)
  | .break2 => some (.ok (.jump .break2 a))
  | .continue2 => some (.ok (.jump .continue2 a))
  | .return_ => some (.ok (.jump .return_ a))
  | .quit => some (.ok (.jump .quit a))
  | .if_ => some (.ok (.if_ a a2 a3))
  | .switch => some (switchAdd false a)
  | .switch2 => some (switchAdd true a)
  | .guandaodu => nonEmpty (errKw .guandaodu c!"缺") (.du a)
  | .guandaojie =>
    let rems := a.filter fun i => i.id == .beginRem2
    let a := a.filter fun i => i.id != .beginRem2
    some (if a.isEmpty then .error (errKw .guandaojie c!"缺") else .ok (.jie rems a))
  | .guandaojie2 => nonEmpty (errKw .guandaojie2 c!"缺") (.jie2 a)
  | .mod_ => some (.ok (.mod_ a))
  | .modFree => some (.ok (.modFree a))
  | .name => some (.ok (.name a))
  | .set_ => some (.ok (.set_ a a2))
  | .alias => some (.ok (.alias a a2))
  | .def_ => nonEmpty (errKw .def_ c!"名缺") (.def_ a a2 (split21 a))
  | .has => some (.ok (.has a))
  | .eval_ => some (evalAdd false a)
  | .load => some (evalAdd true a)
  | .print_ => nonEmpty .qve (.print a)
  | .expl => nonEmpty .qve (.expl a)
  | .exec => nonEmpty (errKw .exec c!"缺") (.exec a)
  | _ => none

end Zh
