import Verif.Model.Code
/-!
# The tree of a program (`u_/dbg_.rs:100-185`)

What the option `-zhscript-d-tree` prints after every parse (`src/u_/world_.rs:85-87`), also in release builds.  Only the whole tree
is modelled (`tree6__`); the pieces that debug builds print are not.  `p__!` also flushes the output, which is left out.
-/
namespace Zh

/-- What the printing asks of a code item: `s__`, `a__`, `kw2__`, `a2__`, `kw3__`, `a3__` (`src/u_/code_.rs:83-98`).  A missing list
prints nothing, like an empty one. -/
inductive Tr where
  | node (s : Str) (a : List Tr) (kw2 : Option Str) (a2 : List Tr) (kw3 : Option Str) (a3 : List Tr)

mutual
/-- The answers of the code items; the files are those of the constructors of `Code`, the text `s__` is the beginning of
`Code.show`. -/
def Code.tr : Code → Tr
  | .undef s => .node s [] none [] none []
  | .text s => .node (kwStr .beginText ++ s ++ kwStr .endText) [] none [] none []
  | .kw1 id => .node (kwStr id) [] none [] none []
  | .kw2 id => .node (kwStr id) [] none [] none []
  | .remS s => .node (remStr s) [] none [] none []
  | .rem a => .node (kwStr .beginRem2) (trL a) (some (kwStr .endRem2)) [] none []
  | .simp name rems => .node (varStr name rems) [] none [] none []
  | .args rems b e line => .node (varStr (argsName b e line) rems) [] none [] none []
  | .argc rems => .node (varStr ARGC rems) [] none [] none []
  | .argi rems i => .node (varStr (ARG ++ intStr i) rems) [] none [] none []
  | .arg0 rems z => .node (varStr (ARG ++ z) rems) [] none [] none []
  | .var _ a => .node (kwStr .beginVar) (trL a) (some (kwStr .endVar)) [] none []
  | .block a => .node (kwStr .beginBlock) (trL a) (some (kwStr .endBlock)) [] none []
  | .for_ range cnt rems codes =>
    .node (kwStr (if range then .range else .for_) ++ cnt.str) (trL rems) none (trL codes) none []
  | .jump k a => .node (kwStr k.kw) (trL a) none [] none []
  | .if_ a th el => .node (kwStr .if_) (trL a) (some (kwStr .then_)) (trL th) (some (kwStr .else_)) (trL el)
  | .switch one a case _ _ =>
    .node (kwStr (if one then .switch2 else .switch)) (trL a) none
      [.node (kwStr .beginBlock) (trL case) (some (kwStr .endBlock)) [] none []] none []
  | .du a => .node (kwStr .guandaodu) (trL a) none [] none []
  | .jie rems a => .node (kwStr .guandaojie) (trL rems) none (trL a) none []
  | .jie2 a => .node (kwStr .guandaojie2) (trL a) none [] none []
  | .mod_ a => .node (kwStr .mod_) (trL a) none [] none []
  | .modFree a => .node (kwStr .modFree) (trL a) none [] none []
  | .name a => .node (kwStr .name) (trL a) none [] none []
  | .set_ names vals => .node (kwStr .set_) (trL names) (some (kwStr .equ)) (trL vals) none []
  | .alias names vals => .node (kwStr .alias) (trL names) (some (kwStr .equ)) (trL vals) none []
  | .def_ names vals _ => .node (kwStr .def_) (trL names) (some (kwStr .equ)) (trL vals) none []
  | .has a => .node (kwStr .has) (trL a) none [] none []
  | .eval load inCur _ iArg0 a _ _ =>
    .node (kwStr (if load then .load else .eval_) ++ (if inCur then remStr IN_CUR_QV else []) ++ showL iArg0) (trL a) none [] none []
  | .print a => .node (kwStr .print_) (trL a) none [] none []
  | .expl a => .node (kwStr .expl) (trL a) none [] none []
  | .exec a => .node (kwStr .exec) (trL a) none [] none []
def trL : List Code → List Tr
  | [] => []
  | c :: cs => c.tr :: trL cs
end

/-- What was printed, and the array `wei`; `none` is a panic. -/
abbrev TreeOut := Str × Option (List Char)

/-- First one, then the other. -/
def TreeOut.seq (x : TreeOut) (f : List Char → TreeOut) : TreeOut :=
  match x.2 with
  | none => x
  | some wei => (x.1 ++ (f wei).1, (f wei).2)

/-- `b__` (`src/u_/t_.rs:37-39`). -/
def yn (b : Bool) : Str := if b then c!"y" else c!"n"

/-- `{:2}` of a number. -/
def pad2 (n : Nat) : Str := List.replicate (2 - (natStr n).length) ' ' ++ natStr n

/-- `begin_ansi_kw__` with `U2`, `end_ansi__` (`src/u_/dbg_.rs:18-36`, 271-273). -/
def ansiOn : Str := c!"\x1b[0;32m"
def ansiOff : Str := c!"\x1b[0m"

/-- `sp1` (`src/u_/dbg_.rs:157-165`). -/
def treeMark (d : Nat) (isEnd isBegin isEnd2 : Bool) : Char :=
  if d == 0 && isEnd && isBegin then '<'
  else if d == 0 && isBegin then '/'
  else if d == 0 && (isEnd || isEnd2) then '\\'
  else if d == 0 then '|'
  else if isEnd2 && isEnd then '\\'
  else if isEnd2 then '|'
  else if isEnd then '\\'
  else '|'

/-- One column of a line (`src/u_/dbg_.rs:168-174`). -/
def treeCol (c : Char) : Str := (if c == '\\' || c == '<' then ' ' else '|') :: c!"  "

/-- `tree_line__` (`src/u_/dbg_.rs:153-179`). -/
def treeLine (sp3 s : Str) (d : Nat) (wei : List Char) (isEnd isBegin isEnd2 : Bool) : TreeOut :=
  let head := pad2 d ++ yn isEnd2 ++ yn isBegin ++ yn isEnd ++ c!" " ++ ansiOn
  let sp1 := treeMark d isEnd isBegin isEnd2
  if d < wei.length then
    let wei := wei.set d sp1
    (head ++ ((wei.take d).flatMap treeCol ++ [sp1] ++ sp3 ++ s) ++ ansiOff ++ c!"\n", some wei)
  else (head, none)

/-- A line for a keyword inside a statement (`src/u_/dbg_.rs:138-140`, 145-147). -/
def treeKw (kw : Option Str) (d : Nat) (wei : List Char) (isEnd isEnd2 : Bool) : TreeOut :=
  match kw with
  | some k => treeLine c!" " k d wei isEnd false isEnd2
  | none => ([], some wei)

/-- `end2__` (`src/u_/dbg_.rs:121-123`). -/
def treeEnd2 (d : Nat) (last isEnd2 isEnd : Bool) : Bool := if d == 0 then last && isEnd else isEnd2

mutual
/-- One turn of the loop of `tree2__` (`src/u_/dbg_.rs:128-150`); `first`: `i2 == 1`, `last`: `i2 == len`. -/
def Tr.dump : Tr → (d : Nat) → (isEnd2 first last : Bool) → List Char → TreeOut
  | .node s a kw2 a2 kw3 a3, d, isEnd2, first, last, wei =>
    let e1 := kw2.isNone && last
    let t1 := treeEnd2 d last isEnd2 e1
    let e2 := kw3.isNone && last
    let t2 := treeEnd2 d last isEnd2 e2
    TreeOut.seq (TreeOut.seq (TreeOut.seq (TreeOut.seq (TreeOut.seq
      (treeLine c!"-" s d wei e1 first t1)
      (dumpL a (d + 1) t1 true))
      (fun wei => treeKw kw2 d wei e2 t2))
      (dumpL a2 (d + 1) t2 true))
      (fun wei => treeKw kw3 d wei last t2))
      (dumpL a3 (d + 1) t2 true)
/-- The loop of `tree2__` (`src/u_/dbg_.rs:115-152`) with `from = 0` and no `to`. -/
def dumpL : List Tr → (d : Nat) → (isEnd2 first : Bool) → List Char → TreeOut
  | [], _, _, _, wei => ([], some wei)
  | t :: ts, d, isEnd2, first, wei =>
    TreeOut.seq (t.dump d isEnd2 first ts.isEmpty wei) (dumpL ts d isEnd2 false)
end

/-- `tree6__`, `tree5__` (`src/u_/dbg_.rs:105-111`). -/
def treeDump (l : List Code) : Str × Out Unit :=
  let r := dumpL (trL l) 0 false true (List.replicate 64 '*')
  ('\n' :: r.1, match r.2 with | some _ => .ok () | none => .panic)

end Zh
