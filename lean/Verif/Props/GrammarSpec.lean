import Verif.Props.Nesting
import Verif.Props.Basics
/-!
# C60: the grammar

How scripts are written and which program they are.  This is the specification for C60; it does not use the parser.
-/
namespace Zh

/-- The text is not a number. -/
def Spec.NotNum (s : Str) : Prop := ∀ i, ¬ Spec.Denotes s i

/-- The text is a number of the given size. -/
def Spec.IsNum (bits : Nat) (s : Str) (i : Int) : Prop := Spec.Denotes s i ∧ -2 ^ (bits - 1) ≤ i ∧ i < 2 ^ (bits - 1)

/-- What stands in `‘…’`. -/
inductive Spec.Name where
  /-- a name -/
  | plain (s : Str)
  /-- `参数`, `参数栈` with at most two numbers in `【…】`: the arguments from the one to the other, as one line or one by one -/
  | args (line : Bool) (bounds : List (Str × Int))
  /-- `参数数目` -/
  | argc
  /-- `参数3` -/
  | arg (s : Str) (i : Int)

def Spec.Name.text : Spec.Name → Str
  | .plain s => s
  | .args line _ => if line then c!"参数" else c!"参数栈"
  | .argc => c!"参数数目"
  | .arg s _ => c!"参数" ++ s

/-- The annotations that belong to it. -/
def Spec.Name.own : Spec.Name → List Str
  | .args _ bs => bs.map (·.1)
  | _ => []

/-- What it becomes, with other annotations. -/
def Spec.Name.item (n : Spec.Name) (notes : List Str) : Code :=
  match n with
  | .plain s => .simp (Spec.printable s) notes
  | .args line bs => .args notes ((bs[0]?.map (·.2)).getD 1) ((bs[1]?.map (·.2)).getD (2 ^ 31 - 1)) line
  | .argc => .argc notes
  | .arg s i => if i = 0 then .arg0 notes (Spec.printable s) else .argi notes i

def Spec.Name.Ok : Spec.Name → List Str → Prop
  | .plain s, _ => Spec.Free inVar s ∧ Spec.printable s ≠ [] ∧ Spec.printable s ∉ [c!"参数", c!"参数栈", c!"参数数目"] ∧
      ∀ t, Spec.printable s = c!"参数" ++ t → Spec.NotNum t
  | .args _ bs, ns => bs.length ≤ 2 ∧ (∀ b ∈ bs, Spec.IsNum 32 (Spec.printable b.1) b.2) ∧ (bs.length < 2 → ∀ n ∈ ns, Spec.NotNum (Spec.printable n))
  | .argc, _ => True
  | .arg s i, _ => Spec.Free inVar (c!"参数" ++ s) ∧ Spec.IsNum 32 (Spec.printable s) i

/-! ## Long texts -/

/-- What stands in a long text `下文本…上文本`: characters, marks of other quotes, names. -/
inductive Spec.LongBit where
  | chars (s : Str)
  | mark (id : KwId)
  | name (n : Spec.Name)

/-- In how many inner `下文本`, `“` and `下原样` a place is. -/
structure Spec.LongAt where
  long : Nat
  quote : Nat
  verb : Nat

/-- After a mark; none if the mark means nothing here. -/
def Spec.LongAt.after (a : Spec.LongAt) : KwId → Option Spec.LongAt
  | .beginText => if a.verb = 0 then some { a with quote := a.quote + 1 } else none
  | .endText => if a.verb = 0 ∧ 0 < a.quote then some { a with quote := a.quote - 1 } else none
  | .beginYuanyang => if a.quote = 0 then some { a with verb := a.verb + 1 } else none
  | .endYuanyang => if a.quote = 0 ∧ 0 < a.verb then some { a with verb := a.verb - 1 } else none
  | .beginText2 => if a.quote = 0 ∧ a.verb = 0 then some { a with long := a.long + 1 } else none
  | .endText2 => if a.quote = 0 ∧ a.verb = 0 ∧ 0 < a.long then some { a with long := a.long - 1 } else none
  | _ => none

/-- The marks that mean something at a place. -/
def Spec.LongAt.marks (a : Spec.LongAt) (id : KwId) : Bool :=
  if 0 < a.quote then inText id else if 0 < a.verb then inYuan id else inText2 id

/-- The characters that are kept at a place: all, but in inner quotes no tabs and line ends. -/
def Spec.LongAt.kept (a : Spec.LongAt) (s : Str) : Str := if 0 < a.quote ∧ a.verb = 0 then Spec.printable s else s

def Spec.LongBit.src : Spec.LongBit → Str
  | .chars s => s
  | .mark id => kwStr id
  | .name n => c!"‘" ++ n.text ++ c!"’"

def Spec.LongBit.isChars : Spec.LongBit → Bool
  | .chars _ => true
  | _ => false

/-- A text; an empty one is nothing. -/
def Spec.textItem (s : Str) : List Code := if s = [] then [] else [.text s]

/-- What the rest of a long text becomes: the texts between the names (`acc`: what came since the last name), with the marks of the
inner quotes in them, and the names. -/
def Spec.longItems (a : Spec.LongAt) (acc : Str) : List Spec.LongBit → List Code
  | [] => Spec.textItem acc
  | .chars s :: bs => Spec.longItems a (acc ++ a.kept s) bs
  | .mark id :: bs => Spec.longItems ((a.after id).getD a) (acc ++ kwStr id) bs
  | .name n :: bs => Spec.textItem acc ++ n.item [] :: Spec.longItems a [] bs

/-- No continuation marks (see C50). -/
def Spec.NoCont (s : Str) : Prop := ¬ ['续', '\n'] <+: s ∧ ¬ ['\n', '续'] <:+ s

/-- How a long text must be written: inner marks in pairs; a mark at the beginning or after a name has characters after it; names
not in an inner `下原样`. -/
def Spec.LongOk (a : Spec.LongAt) (acc : Str) : List Spec.LongBit → Prop
  | [] => a = ⟨0, 0, 0⟩ ∧ Spec.NoCont acc
  | .chars s :: bs => (Spec.Free a.marks s ∧ a.kept s ≠ [] ∧ bs.head?.all (fun b => !b.isChars) = true) ∧ Spec.LongOk a (acc ++ a.kept s) bs
  | .mark id :: bs => ((a.after id).isSome = true ∧ (acc = [] → bs.head?.any Spec.LongBit.isChars = true)) ∧
      Spec.LongOk ((a.after id).getD a) (acc ++ kwStr id) bs
  | .name n :: bs => (a.verb = 0 ∧ Spec.NoCont acc ∧ n.Ok [] ∧ n.own = []) ∧ Spec.LongOk a [] bs

/-- A piece of a sentence. -/
inductive Spec.Atom where
  /-- a quoted text with names in it: `“…‘甲’…”` -/
  | quote (parts : List (Str × Spec.Name)) (last : Str)
  /-- a long text with names in it: `下文本…‘甲’…上文本` -/
  | long (bs : List Spec.LongBit)
  /-- a verbatim text `下原样…上原样` -/
  | verb (s : Str)
  /-- code kept as a text `下代码…上代码` -/
  | kept (ps : List Spec.CodePiece)
  /-- an unquoted word -/
  | word (s : Str)
  /-- a name with annotations `‘甲【乙】…’` -/
  | var (n : Spec.Name) (notes : List Str)
  /-- an annotation `【s】` -/
  | note (s : Str)
  /-- the separator `、` -/
  | sep

def Spec.quoteParts (ps : List (Str × Spec.Name)) : List (Str × Str) := ps.map fun p => (p.1, p.2.text)

/-- How it is written. -/
def Spec.Atom.src : Spec.Atom → Str
  | .quote ps l => c!"“" ++ Spec.partsSrc (Spec.quoteParts ps) l ++ c!"”"
  | .long bs => c!"下文本" ++ bs.flatMap Spec.LongBit.src ++ c!"上文本"
  | .verb s => c!"下原样" ++ s ++ c!"上原样"
  | .kept ps => c!"下代码" ++ Spec.piecesSrc ps ++ c!"上代码"
  | .word s => s
  | .var n ns => c!"‘" ++ n.text ++ ((n.own ++ ns).flatMap fun s => c!"【" ++ s ++ c!"】") ++ c!"’"
  | .note s => c!"【" ++ s ++ c!"】"
  | .sep => c!"、"

/-- An annotation. -/
def Spec.noteItem (s : Str) : Code := if s = [] then .rem [] else .remS s

/-- What it becomes. -/
def Spec.Atom.items : Spec.Atom → List Code
  | .quote ps l => (ps.flatMap fun p => Spec.textItem (Spec.printable p.1) ++ [p.2.item []]) ++ Spec.textItem (Spec.printable l)
  | .long bs => Spec.longItems ⟨0, 0, 0⟩ [] bs
  | .verb s => [.text s]
  | .kept ps => [.text (Spec.piecesSrc (Spec.piecesKept ps))]
  | .word s => [.undef (Spec.strip s)]
  | .var n ns => [n.item (ns.map Spec.printable)]
  | .note s => [Spec.noteItem (Spec.strip s)]
  | .sep => [.kw1 .dunhao]

def Spec.anyKw (id : KwId) : Bool := decide (id ≠ .undef)

/-- What may be written in it. -/
def Spec.Atom.Ok : Spec.Atom → Prop
  | .quote ps l => (∀ p ∈ ps, Spec.Free inText p.1 ∧ p.2.Ok [] ∧ p.2.own = []) ∧ Spec.Free inText l
  | .long bs => Spec.LongOk ⟨0, 0, 0⟩ [] bs
  | .verb s => Spec.Free inYuan s ∧ s ≠ [] ∧ Spec.NoCont s
  | .kept ps => Spec.CodePieces 0 ps ∧ Spec.Opens ps ∧ Spec.NoCont (Spec.piecesSrc (Spec.piecesKept ps))
  | .word s => Spec.Free Spec.anyKw s ∧ Spec.strip s ≠ []
  | .var n ns => n.Ok ns ∧ ∀ s ∈ ns, Spec.Free inVar s
  | .note s => Spec.Free inVar s
  | .sep => True

def Spec.Atom.isText : Spec.Atom → Bool
  | .quote .. | .long _ | .verb _ | .kept _ | .word _ => true
  | _ => false

def Spec.Atom.isWord : Spec.Atom → Bool
  | .word _ => true
  | _ => false

def Spec.Atom.isQuote : Spec.Atom → Bool
  | .quote .. => true
  | _ => false

/-- What is written side by side: keywords and pieces. -/
inductive Spec.Frag where
  | kw (id : KwId)
  | atom (a : Spec.Atom)

def Spec.Frag.src : Spec.Frag → Str
  | .kw id => kwStr id
  | .atom a => a.src

def Spec.Frag.isText : Spec.Frag → Bool
  | .kw _ => false
  | .atom a => a.isText

def Spec.unitsSrc (us : List Spec.Frag) : Str := us.flatMap Spec.Frag.src

/-- It begins with `等`. -/
def Spec.Frag.deng : Spec.Frag → Bool
  | .kw id => decide (id = .dengyu)
  | .atom (.word s) => decide ((Spec.strip s).head? = some '等')
  | _ => false

/-- What may follow a piece: after a text or word no other, but a quoted text may follow a word; after an unquoted word not `模块` or `释放模块` (with the end of the
word they could form another keyword); after `小于` and `大于` nothing that begins with `等`. -/
def Spec.Frag.before : Spec.Frag → Spec.Frag → Bool
  | .atom a, .atom b => !(a.isText && b.isText) || (a.isWord && b.isQuote)
  | .atom a, .kw id => !(a.isText && (decide (id = .mod_) || decide (id = .modFree)))
  | .kw id, v => !((decide (id = .xiaoyu) || decide (id = .dayu)) && v.deng)

/-- The pieces are as they should be. -/
def Spec.Clear : List Spec.Frag → Prop
  | [] => True
  | u :: us => (∀ a, u = .atom a → a.Ok) ∧ (∀ v ∈ us.head?, u.before v = true) ∧ Spec.Clear us

/-! ## Statements -/

/-- The annotations of a counted loop: how many turns (none for `【】`: without end), the first number, the name of the counter,
and others. -/
structure Spec.Counter where
  max : Option (Option (Str × Int))
  start : Option (Str × Int)
  name : Option Str
  more : List Str

/-- The statements that take one list of pieces. -/
inductive Spec.Cmd where
  | print | has | expl | exec | du | jie | jie2 | mod_ | modFree | name
  | eval (cur : Bool) (arg0 : Option Str)
  | load (cur : Bool)
  | jump (k : JumpKind)
  | loop (range : Bool) (c : Spec.Counter)

/-- The statements that take two lists, `… 以 …`. -/
inductive Spec.Asg where
  | set_ | «alias» | def_

def Spec.Cmd.kw : Spec.Cmd → KwId
  | .print => .print_ | .has => .has | .expl => .expl | .exec => .exec | .du => .guandaodu | .jie => .guandaojie
  | .jie2 => .guandaojie2 | .mod_ => .mod_ | .modFree => .modFree | .name => .name | .eval .. => .eval_ | .load _ => .load
  | .jump .break_ => .break_ | .jump .continue_ => .continue_ | .jump .break2 => .break2 | .jump .continue2 => .continue2
  | .jump .return_ => .return_ | .jump .quit => .quit
  | .loop r _ => if r then .range else .for_

def Spec.Asg.kw : Spec.Asg → KwId
  | .set_ => .set_ | .«alias» => .alias | .def_ => .def_

/-- The annotations after the keyword. -/
def Spec.Cmd.notes : Spec.Cmd → List Str
  | .eval cur arg0 => (if cur then [c!"在当前区"] else []) ++ arg0.toList
  | .load cur => if cur then [c!"在当前区"] else []
  | .loop _ c => (match c.max with | none => [] | some none => [[]] | some (some n) => [n.1]) ++ (c.start.toList.map (·.1)) ++
      c.name.toList ++ c.more
  | _ => []

/-- Is the item an annotation. -/
def Spec.isNote : Code → Bool
  | .remS _ | .rem _ => true
  | _ => false

/-- Position of the first `、`. -/
def Spec.firstSep : List Code → Option Nat
  | [] => none
  | .kw1 .dunhao :: _ => some 0
  | _ :: l => (Spec.firstSep l).map (· + 1)

/-- The same as the program stores it: `usize::MAX - 1` if there is none. -/
def Spec.sepAt (l : List Code) : Nat := (Spec.firstSep l).getD (2 ^ 64 - 2)

/-- The statement with its list. -/
def Spec.Cmd.build : Spec.Cmd → List Code → Code
  | .print, l => .print l
  | .has, l => .has l
  | .expl, l => .expl l
  | .exec, l => .exec l
  | .du, l => .du l
  | .jie, l => .jie (l.filter Spec.isNote) (l.filter fun c => !Spec.isNote c)
  | .jie2, l => .jie2 l
  | .mod_, l => .mod_ l
  | .modFree, l => .modFree l
  | .name, l => .name l
  | .eval cur arg0, l => .eval false cur ((arg0.map Spec.strip).getD []) (arg0.toList.map fun s => Spec.noteItem (Spec.strip s)) l
      (Spec.sepAt l) (decide (Spec.sepAt l = l.length - 1))
  | .load cur, l => .eval true cur [] [] l (Spec.sepAt l) (decide (Spec.sepAt l = l.length - 1))
  | .jump k, l => .jump k l
  | .loop r c, l => .for_ r ⟨c.max.map fun n => (n.map (·.2)).getD (2 ^ 63 - 1), c.start.map (·.2), c.name.map Spec.strip⟩
      (c.more.map fun s => Spec.noteItem (Spec.strip s)) l

def Spec.Asg.build : Spec.Asg → List Code → List Code → Code
  | .set_, a, b => .set_ a b
  | .«alias», a, b => .«alias» a b
  | .def_, a, b => .def_ a b (Spec.sepAt a)

/-- The annotations of a loop in the right order, so that they are not taken for each other. -/
structure Spec.Counter.Ok (c : Spec.Counter) (range : Bool) : Prop where
  max : ∀ s i, c.max = some (some (s, i)) → Spec.IsNum 64 (Spec.strip s) i
  start : ∀ s i, c.start = some (s, i) → Spec.IsNum 64 (Spec.strip s) i ∧ c.max ≠ none
  name : ∀ s, c.name = some s → Spec.strip s ≠ [] ∧ (c.start = none → range = false → Spec.NotNum (Spec.strip s))
  more : ∀ s, c.more.head? = some s → c.name ≠ none ∧ (c.start = none → range = false → Spec.NotNum (Spec.strip s))
  range : range = true → c.max = none ∧ c.start = none

/-- What the list of a statement has to be. -/
def Spec.Cmd.Ok : Spec.Cmd → List Code → Prop
  | .print, l | .expl, l | .exec, l | .du, l | .jie2, l => l ≠ []
  | .jie, l => ∃ c ∈ l, Spec.isNote c = false
  | .eval _ none, l => l ≠ [] ∧ ∀ c ∈ l, Spec.isNote c = false
  | .eval _ (some s), l => l ≠ [] ∧ Spec.strip s ≠ c!"在当前区"
  | .load _, l => l ≠ [] ∧ ∀ c ∈ l, Spec.isNote c = false
  | .loop r c, l => c.Ok r ∧ ∀ c ∈ l, Spec.isNote c = false
  | _, _ => True

def Spec.Asg.Ok : Spec.Asg → List Code → Prop
  | .def_, a => a ≠ []
  | _, _ => True

/-! ## Scripts -/

mutual
/-- What stands in a sentence side by side. -/
inductive Spec.El where
  | atom (a : Spec.Atom)
  /-- `先 … 了` -/
  | block (b : Spec.Script)
  /-- `如果 c 那么 t 否则 e 先 … 了` -/
  | cond (c : Spec.Condition) (t e : Spec.Phrase) (b : Spec.Script)
  /-- `循环 a 先 … 了`, `圈子 a 先 … 了` -/
  | loop (range : Bool) (k : Spec.Counter) (a : Spec.Phrase) (b : Spec.Script)
  /-- `分叉 a 先 … 了`, `分支 a 先 … 了` -/
  | switch (one : Bool) (a : List Spec.Atom) (b : Spec.Script)
/-- A sentence: what stands side by side, at last a statement that takes the rest of the sentence. -/
inductive Spec.Phrase where
  | nil
  | el (e : Spec.El) (p : Spec.Phrase)
  /-- `显示 p` and so on -/
  | cmd (k : Spec.Cmd) (p : Spec.Phrase)
  /-- `赋予 a 以 p` and so on -/
  | asg (k : Spec.Asg) (a p : Spec.Phrase)
  /-- `如果 c 那么 t` -/
  | cond (c : Spec.Condition) (t : Spec.Phrase)
  /-- `如果 c 那么 t 否则 e` -/
  | cond2 (c : Spec.Condition) (t e : Spec.Phrase)
/-- A condition: parts with comparisons and connectives between them. -/
inductive Spec.Condition where
  | last (p : Spec.Phrase)
  | more (p : Spec.Phrase) (id : KwId) (c : Spec.Condition)
/-- Sentences; the last one without `。`. -/
inductive Spec.Script where
  | done (p : Spec.Phrase)
  | sent (p : Spec.Phrase) (q : Spec.Script)
end

def Spec.atoms (a : List Spec.Atom) : List Spec.Frag := a.map .atom
def Spec.noteUnits (ns : List Str) : List Spec.Frag := ns.map fun s => .atom (.note s)

mutual
/-- How it is written. -/
def Spec.El.units : Spec.El → List Spec.Frag
  | .atom a => [.atom a]
  | .block b => .kw .beginBlock :: (b.units ++ [.kw .endBlock])
  | .cond c t e b => .kw .if_ :: (c.units ++ .kw .then_ :: (t.units ++ .kw .else_ :: (e.units ++ .kw .beginBlock ::
      (b.units ++ [.kw .endBlock]))))
  | .loop r k a b => .kw (Spec.Cmd.loop r k).kw :: (Spec.noteUnits (Spec.Cmd.loop r k).notes ++ (a.units ++ .kw .beginBlock ::
      (b.units ++ [.kw .endBlock])))
  | .switch one a b => .kw (if one then .switch2 else .switch) :: (Spec.atoms a ++ .kw .beginBlock :: (b.units ++ [.kw .endBlock]))
def Spec.Phrase.units : Spec.Phrase → List Spec.Frag
  | .nil => []
  | .el e p => e.units ++ p.units
  | .cmd k p => .kw k.kw :: (Spec.noteUnits k.notes ++ p.units)
  | .asg k a p => .kw k.kw :: (a.units ++ .kw .equ :: p.units)
  | .cond c t => .kw .if_ :: (c.units ++ .kw .then_ :: t.units)
  | .cond2 c t e => .kw .if_ :: (c.units ++ .kw .then_ :: (t.units ++ .kw .else_ :: e.units))
def Spec.Condition.units : Spec.Condition → List Spec.Frag
  | .last p => p.units
  | .more p id c => p.units ++ .kw id :: c.units
def Spec.Script.units : Spec.Script → List Spec.Frag
  | .done p => p.units
  | .sent p q => p.units ++ .kw .jvhao :: q.units
end

def Spec.Script.src (p : Spec.Script) : Str := Spec.unitsSrc p.units

/-- The branches of a switch: the sentences of several items, from the first to the last item. -/
def Spec.branches : Nat → List (List Code) → List (Nat × Nat)
  | _, [] => []
  | n, l :: ls => (if l.length < 2 then [] else [(n, n + l.length - 1)]) ++ Spec.branches (n + l.length + 1) ls

/-- The defaults of a switch: the sentences of one item. -/
def Spec.others : Nat → List (List Code) → List Nat
  | _, [] => []
  | n, l :: ls => (if l.length = 1 then [n] else []) ++ Spec.others (n + l.length + 1) ls

mutual
/-- The program it is. -/
def Spec.El.code : Spec.El → List Code
  | .atom a => a.items
  | .block b => [.block b.code]
  | .cond c t e b => [.if_ c.code t.code (e.code ++ [.block b.code])]
  | .loop r k a b => [(Spec.Cmd.loop r k).build (a.code ++ [.block b.code])]
  | .switch one a b => [.switch one (a.flatMap Spec.Atom.items) b.code (Spec.branches 0 b.lines) (Spec.others 0 b.lines).head?]
def Spec.Phrase.code : Spec.Phrase → List Code
  | .nil => []
  | .el e p => e.code ++ p.code
  | .cmd k p => [k.build p.code]
  | .asg k a p => [k.build a.code p.code]
  | .cond c t => [.if_ c.code t.code []]
  | .cond2 c t e => [.if_ c.code t.code e.code]
def Spec.Condition.code : Spec.Condition → List Code
  | .last p => p.code
  | .more p id c => p.code ++ .kw2 id :: c.code
def Spec.Script.code : Spec.Script → List Code
  | .done p => p.code
  | .sent p q => p.code ++ .kw1 .jvhao :: q.code
/-- The sentences. -/
def Spec.Script.lines : Spec.Script → List (List Code)
  | .done p => [p.code]
  | .sent p q => p.code :: q.lines
end

/-- Nothing in it takes the rest of the sentence. -/
def Spec.Phrase.closed : Spec.Phrase → Bool
  | .nil => true
  | .el _ p => p.closed
  | _ => false

def Spec.El.isBlock : Spec.El → Bool
  | .block _ => true
  | _ => false

/-- No `先 … 了` directly in it (it would end a loop, an `否则` or a switch). -/
def Spec.Phrase.noBlock : Spec.Phrase → Bool
  | .el e p => !e.isBlock && p.noBlock
  | _ => true

/-- No `如果` that is open at the end (it would take the next `那么` or `否则`). -/
def Spec.Phrase.noIf : Spec.Phrase → Bool
  | .nil => true
  | .el _ p => p.noIf
  | .cmd _ p => p.noIf
  | .asg _ _ p => p.noIf
  | _ => false

def Spec.Cmd.isLoop : Spec.Cmd → Bool
  | .loop .. => true
  | _ => false

mutual
/-- What is required: the statements have the pieces they need, and nothing is open that would take what is not meant for it. -/
def Spec.El.Ok : Spec.El → Prop
  | .atom _ => True
  | .block b => b.Ok
  | .cond c t e b => c.Ok ∧ t.Ok ∧ t.noIf = true ∧ e.Ok ∧ e.closed = true ∧ e.noBlock = true ∧ b.Ok
  | .loop r k a b => a.Ok ∧ a.closed = true ∧ a.noBlock = true ∧ b.Ok ∧ (Spec.Cmd.loop r k).Ok a.code
  | .switch _ a b => a.flatMap Spec.Atom.items ≠ [] ∧ b.Ok ∧ (Spec.others 0 b.lines).length ≤ 1
def Spec.Phrase.Ok : Spec.Phrase → Prop
  | .nil => True
  | .el e p => e.Ok ∧ p.Ok
  | .cmd k p => k.Ok p.code ∧ p.Ok ∧ (k.isLoop = true → p.noBlock = true)
  | .asg k a p => k.Ok a.code ∧ a.Ok ∧ a.closed = true ∧ p.Ok
  | .cond c t => c.Ok ∧ t.Ok
  | .cond2 c t e => c.Ok ∧ t.Ok ∧ t.noIf = true ∧ e.Ok ∧ e.noBlock = true
def Spec.Condition.Ok : Spec.Condition → Prop
  | .last p => p.Ok ∧ p.noIf = true
  | .more p id c => p.Ok ∧ inIf id = true ∧ c.Ok
def Spec.Script.Ok : Spec.Script → Prop
  | .done p => p.Ok
  | .sent p q => p.Ok ∧ q.Ok
end

end Zh
