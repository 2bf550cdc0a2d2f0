import Verif.Props.GrammarSpec
import Verif.Props.Conds
import Verif.Props.Started
/-!
# C68: a small language

Plainly written scripts as programs of a small language: assignments, printing, arithmetic, conditions, loops (endless or counted) and procedures
with arguments.  How they are written and what they do.  This is the specification for C68; it uses neither the parser nor the evaluator.
-/
namespace Zh

/-! ## Programs -/

/-- A name in a text: a variable, an argument of the procedure (its number, as it is written and as a number), or how many arguments
there are. -/
inductive Spec.Ref where
  | var (x : Str)
  | arg (s : Str) (i : Int)
  | count

/-- A text with names in it: `“…‘甲’…‘参数1’…”`. -/
structure Spec.Txt where
  parts : List (Str × Spec.Ref)
  last : Str

/-- A value: a text, or the value of the arithmetic expression a text spells. -/
inductive Spec.Value where
  | text (t : Spec.Txt)
  | sum (t : Spec.Txt)

/-- A comparison of two texts. -/
structure Spec.Compare where
  left : Spec.Txt
  op : KwId
  right : Spec.Txt

/-- Comparisons with `并且` (`both = true`) and `或者` between them. -/
inductive Spec.Test where
  | one (c : Spec.Compare)
  | more (c : Spec.Compare) (both : Bool) (t : Spec.Test)

mutual
/-- A statement. -/
inductive Spec.Stmt where
  /-- `赋予x以v。` -/
  | assign (x : Str) (v : Spec.Value)
  /-- `显示v。` -/
  | print (v : Spec.Value)
  /-- `如果t那么先a了否则先b了。` -/
  | cond (t : Spec.Test) (a b : Spec.Core)
  /-- `循环先a了。`, or with annotations `循环【3】先a了。`, `循环【3】【甲】先a了。`, `循环【3】【10】【甲】先a了。`: how many turns, the number
  before that of the first one, and the name of the counter. -/
  | loop (c : Spec.Counter) (a : Spec.Core)
  /-- `跳出。` -/
  | brk
  /-- `再来。` -/
  | cont
  /-- `返回。` -/
  | ret
  /-- `f。` or `f“…”、“…”。` -/
  | call (f : Str) (ts : List Spec.Txt)
/-- Statements, one after the other. -/
inductive Spec.Core where
  | nil
  | cons (x : Spec.Stmt) (k : Spec.Core)
end

/-! ## How they are written -/

/-- What stands in `‘…’`. -/
def Spec.Ref.name : Spec.Ref → Spec.Name
  | .var x => .plain x
  | .arg s i => .arg s i
  | .count => .argc

/-- The text as a piece of a sentence. -/
def Spec.Txt.atom (t : Spec.Txt) : Spec.Atom := .quote (t.parts.map fun p => (p.1, p.2.name)) t.last

def Spec.Txt.phrase (t : Spec.Txt) : Spec.Phrase := .el (.atom t.atom) .nil

def Spec.Value.phrase : Spec.Value → Spec.Phrase
  | .text t => t.phrase
  | .sum t => .cmd .expl t.phrase

def Spec.Test.condition : Spec.Test → Spec.Condition
  | .one c => .more c.left.phrase c.op (.last c.right.phrase)
  | .more c both t => .more c.left.phrase c.op (.more c.right.phrase (if both then .and_ else .or_) t.condition)

/-- Arguments, with `、` between them. -/
def Spec.argsPhrase : List Spec.Txt → Spec.Phrase
  | [] => .nil
  | [t] => t.phrase
  | t :: ts => .el (.atom t.atom) (.el (.atom .sep) (Spec.argsPhrase ts))

mutual
def Spec.Stmt.phrase : Spec.Stmt → Spec.Phrase
  | .assign x v => .asg .set_ (.el (.atom (.word x)) .nil) v.phrase
  | .print v => .cmd .print v.phrase
  | .cond t a b => .el (.cond t.condition (.el (.block a.script) .nil) .nil b.script) .nil
  | .loop c a => .el (.loop false c .nil a.script) .nil
  | .brk => .cmd (.jump .break_) .nil
  | .cont => .cmd (.jump .continue_) .nil
  | .ret => .cmd (.jump .return_) .nil
  | .call f ts => .el (.atom (.word f)) (Spec.argsPhrase ts)
def Spec.Core.script : Spec.Core → Spec.Script
  | .nil => .done .nil
  | .cons x k => .sent x.phrase k.script
end

/-- The source text of a program. -/
def Spec.Core.src (k : Spec.Core) : Str := k.script.src

/-- A text that is not empty. -/
def Spec.Txt.Solid (t : Spec.Txt) : Prop := t.parts ≠ [] ∨ Spec.printable t.last ≠ []

/-- Arguments are counted from 1. -/
def Spec.Ref.Ok (r : Spec.Ref) : Prop := r.name.Ok [] ∧ ∀ s i, r = .arg s i → 1 ≤ i

/-- The marks are in their places. -/
def Spec.Txt.Ok (t : Spec.Txt) : Prop :=
  (∀ p ∈ t.parts, Spec.Free inText p.1 ∧ p.2.Ok) ∧ Spec.Free inText t.last

def Spec.Value.Solid : Spec.Value → Prop
  | .text t => t.Solid
  | .sum _ => True

def Spec.Value.Ok : Spec.Value → Prop
  | .text t => t.Ok
  | .sum t => t.Ok ∧ t.Solid

def Spec.Compare.Ok (c : Spec.Compare) : Prop :=
  c.left.Ok ∧ c.left.Solid ∧ c.op ∈ Spec.cmpWords ∧ c.right.Ok ∧ c.right.Solid

def Spec.Test.Ok : Spec.Test → Prop
  | .one c => c.Ok
  | .more c _ t => c.Ok ∧ t.Ok

/-- A name that can be written without quotes: no keyword and no blank in it. -/
def Spec.Plainly (x : Str) : Prop := x ≠ [] ∧ Spec.strip x = x ∧ Spec.Free Spec.anyKw x

/-- The definitions that are there from the beginning: characters that are hard to write. -/
def Spec.chars : List (Str × Str) := [(c!"换行", c!"\n"), (c!"回车", c!"\r"), (c!"制表符", c!"\t"), (c!"ESC", ['\x1b'])]

mutual
/-- `procs` are the procedures: their names, and whether they take arguments.  The name of a variable contains none of the names, nor that
of a character: it would be called. -/
def Spec.Stmt.Ok (procs : List (Str × Bool)) : Spec.Stmt → Prop
  | .assign x v => Spec.Plainly x ∧ (∀ d ∈ procs.map (·.1) ++ Spec.chars.map (·.1), ¬ d <:+: x) ∧ v.Ok
  | .print v => v.Ok ∧ v.Solid
  | .cond t a b => t.Ok ∧ a.Ok procs ∧ b.Ok procs
  | .loop c a => (c.Ok false ∧ c.more = [] ∧ ∀ s ∈ (Spec.Cmd.loop false c).notes, Spec.Free inVar s) ∧ a.Ok procs
  | .call f ts => (∃ b, (f, b) ∈ procs ∧ (b = false → ts = [])) ∧ ∀ t ∈ ts, t.Ok
  | _ => True
def Spec.Core.Ok (procs : List (Str × Bool)) : Spec.Core → Prop
  | .nil => True
  | .cons x k => x.Ok procs ∧ k.Ok procs
end

/-! ## What they do -/

/-- The values of the variables of a procedure, and its arguments.  An argument can be nothing at all. -/
structure Spec.Store where
  vars : Str → Option Str
  args : List (Option Str)

instance : CoeFun Spec.Store fun _ => Str → Option Str := ⟨Spec.Store.vars⟩

/-- At the beginning of a procedure. -/
def Spec.Store.enter (args : List (Option Str)) : Spec.Store := ⟨fun _ => none, args⟩

def Spec.Store.set (σ : Spec.Store) (x t : Str) : Spec.Store := ⟨fun y => if y = x then some t else σ y, σ.args⟩

/-- The counter of a loop, if it has one, shows a number. -/
def Spec.Store.count (σ : Spec.Store) (x : Option Str) (i : Int) : Spec.Store := match x with
  | none => σ
  | some x => σ.set x (intStr i)

/-- How many turns a loop makes at most; without annotations there is no end.  `【】` is as good as no end. -/
def Spec.Counter.turns (c : Spec.Counter) : Option Nat := match c.max, c.name with
  | some (some n), _ => some n.2.toNat
  | some none, _ => some (2 ^ 63 - 1)
  | none, some _ => some (2 ^ 64 - 2)
  | none, none => none

/-- The value of a name: in the first store that has it. -/
def Spec.look (ρ : List Spec.Store) (x : Str) : Option Str := ρ.findSome? fun σ => σ x

/-- The arguments are those of the procedure itself. -/
def Spec.args (ρ : List Spec.Store) : List (Option Str) := (ρ.head?.map (·.args)).getD []

/-- What a name stands for: an error (`none`), nothing or a text.  An argument that is not there is nothing. -/
def Spec.read (ρ : List Spec.Store) : Spec.Ref → Option (Option Str)
  | .var x => (Spec.look ρ (Spec.printable x)).map some
  | .arg _ i => some ((Spec.args ρ).getD (i.toNat - 1) none)
  | .count => some (some (natStr (Spec.args ρ).length))

/-- Texts written side by side. -/
def Spec.beside : Option Str → Option Str → Option Str
  | none, b => b
  | some a, b => some (a ++ b.getD [])

/-- An empty text is nothing. -/
def Spec.lit (s : Str) : Option Str := if Spec.printable s = [] then none else some (Spec.printable s)

/-- The text with the values of the names. -/
def Spec.fill (ρ : List Spec.Store) : List (Str × Spec.Ref) → Str → Option (Option Str)
  | [], last => some (Spec.lit last)
  | p :: ps, last => (Spec.read ρ p.2).bind fun v =>
      (Spec.fill ρ ps last).map fun r => Spec.beside (Spec.lit p.1) (Spec.beside v r)

def Spec.Txt.val (ρ : List Spec.Store) (t : Spec.Txt) : Option (Option Str) := Spec.fill ρ t.parts t.last

/-- A value (a text or nothing), or an error (`none`).  Arithmetic is that of C33 and C34. -/
inductive Spec.Gives (H : Host) (ρ : List Spec.Store) : Spec.Value → Option (Option Str) → Prop where
  | text {t} : Gives H ρ (.text t) (t.val ρ)
  | noText {t} : t.val ρ = none → Gives H ρ (.sum t) none
  | sum {t u r} : t.val ρ = some u → expl H.f64 Zh.quote u.toList = .ok (.ok r) → Gives H ρ (.sum t) (some (some r))
  | noSum {t u e} : t.val ρ = some u → expl H.f64 Zh.quote u.toList = .ok (.error e) → Gives H ρ (.sum t) none

/-- A comparison is true, false or an error (`none`).  Texts are compared as C29 and C30 say.  `k` is the left side of the last
comparison: it is compared again if there is nothing on the left side; nothing on the right side counts as an empty text.  `k'` is the left
side of this one. -/
inductive Spec.Compares (H : Host) (ρ : List Spec.Store) (k : Str) (c : Spec.Compare) : Option Bool → Str → Prop where
  | value {l r b} : c.left.val ρ = some l → c.right.val ρ = some r →
    (b = true ↔ Spec.holds c.op (cmp2 H.f64 (l.getD k) (r.getD []))) → Compares H ρ k c (some b) (l.getD k)
  | error : c.left.val ρ = none ∨ c.right.val ρ = none → Compares H ρ k c none k

/-- What stands after the next `或者`. -/
def Spec.Test.orElse : Spec.Test → Option Spec.Test
  | .one _ => none
  | .more _ false t => some t
  | .more _ true t => t.orElse

/-- `并且` binds tighter than `或者`, and nothing is evaluated that does not matter. -/
inductive Spec.Tests (H : Host) (ρ : List Spec.Store) : Str → Spec.Test → Option Bool → Prop where
  | one {k c o k'} : Spec.Compares H ρ k c o k' → Tests H ρ k (.one c) o
  | error {k c b t k'} : Spec.Compares H ρ k c none k' → Tests H ρ k (.more c b t) none
  | orTrue {k c t k'} : Spec.Compares H ρ k c (some true) k' → Tests H ρ k (.more c false t) (some true)
  | orFalse {k c t o k'} : Spec.Compares H ρ k c (some false) k' → Tests H ρ k' t o → Tests H ρ k (.more c false t) o
  | andTrue {k c t o k'} : Spec.Compares H ρ k c (some true) k' → Tests H ρ k' t o → Tests H ρ k (.more c true t) o
  | andFalse {k c t t' o k'} : Spec.Compares H ρ k c (some false) k' → t.orElse = some t' → Tests H ρ k' t' o →
    Tests H ρ k (.more c true t) o
  | andEnd {k c t k'} : Spec.Compares H ρ k c (some false) k' → t.orElse = none → Tests H ρ k (.more c true t) (some false)

/-- The values of several texts. -/
def Spec.vals (ρ : List Spec.Store) : List Spec.Txt → Option (List (Option Str))
  | [] => some []
  | t :: ts => (t.val ρ).bind fun v => (Spec.vals ρ ts).map (v :: ·)

/-- The values of the arguments of a call; a single one that is nothing is no argument. -/
def Spec.pass (ρ : List Spec.Store) (ts : List Spec.Txt) : Option (List (Option Str)) :=
  (Spec.vals ρ ts).map fun vs => if vs = [none] then [] else vs

/-- How a statement ends: the next one is due, it leaves a loop, begins the next turn of a loop, leaves a procedure, or it is an error. -/
inductive Spec.Flow where
  | next | brk | cont | ret | fail

mutual
/-- `Does H D ρ k σ w f σ'`: with the variables `σ` (and further out those of `ρ`) the program `k` writes `w` and ends with `f` and the
variables `σ'`.  `D` are the procedures.  A procedure runs with variables and arguments of its own; it sees the variables of its caller, but
does not change them.  The counter of a loop is a variable like others.  `跳出` and `再来` in a procedure act on the loop in which it is called.  `返回` is an error if just 998 calls are
under way, within each other (`C26_depth_999`). -/
inductive Spec.Does (H : Host) (D : Str → Option Spec.Core) : List Spec.Store → Spec.Core → Spec.Store → List Str → Spec.Flow →
    Spec.Store → Prop where
  | nil {ρ σ} : Does H D ρ .nil σ [] .next σ
  | next {ρ x k σ w σ1 w' f σ'} : Spec.DoesOne H D ρ x σ w .next σ1 → Does H D ρ k σ1 w' f σ' → Does H D ρ (.cons x k) σ (w ++ w') f σ'
  | stop {ρ x k σ w f σ'} : Spec.DoesOne H D ρ x σ w f σ' → f ≠ .next → Does H D ρ (.cons x k) σ w f σ'
inductive Spec.DoesOne (H : Host) (D : Str → Option Spec.Core) : List Spec.Store → Spec.Stmt → Spec.Store → List Str → Spec.Flow →
    Spec.Store → Prop where
  | assign {ρ x v σ t} : Spec.Gives H (σ :: ρ) v (some t) → DoesOne H D ρ (.assign x v) σ [] .next (σ.set x (t.getD []))
  | assignFail {ρ x v σ} : Spec.Gives H (σ :: ρ) v none → DoesOne H D ρ (.assign x v) σ [] .fail σ
  | print {ρ v σ t} : Spec.Gives H (σ :: ρ) v (some t) → DoesOne H D ρ (.print v) σ t.toList .next σ
  | printFail {ρ v σ} : Spec.Gives H (σ :: ρ) v none → DoesOne H D ρ (.print v) σ [] .fail σ
  | cond {ρ t a b σ c w f σ'} : Spec.Tests H (σ :: ρ) [] t (some c) → Spec.Does H D ρ (if c then a else b) σ w f σ' →
    DoesOne H D ρ (.cond t a b) σ w f σ'
  | condFail {ρ t a b σ} : Spec.Tests H (σ :: ρ) [] t none → DoesOne H D ρ (.cond t a b) σ [] .fail σ
  | loop {ρ c a σ w f σ'} : Spec.Repeats H D ρ (c.name.map Spec.strip) c.turns ((c.start.map (·.2)).getD 0) a σ w f σ' →
    DoesOne H D ρ (.loop c a) σ w f σ'
  | brk {ρ σ} : DoesOne H D ρ .brk σ [] .brk σ
  | cont {ρ σ} : DoesOne H D ρ .cont σ [] .cont σ
  | ret {ρ σ} : ρ.length ≠ 999 → DoesOne H D ρ .ret σ [] .ret σ
  | retDeep {ρ σ} : ρ.length = 999 → DoesOne H D ρ .ret σ [] .fail σ
  | call {ρ p k ts as σ w f σ'} : D p = some k → Spec.pass (σ :: ρ) ts = some as → Spec.Does H D (σ :: ρ) k (.enter as) w f σ' →
    f = .next ∨ f = .ret → DoesOne H D ρ (.call p ts) σ w .next σ
  | callOut {ρ p k ts as σ w f σ'} : D p = some k → Spec.pass (σ :: ρ) ts = some as → Spec.Does H D (σ :: ρ) k (.enter as) w f σ' →
    f = .brk ∨ f = .cont ∨ f = .fail → DoesOne H D ρ (.call p ts) σ w f σ
  | callFail {ρ p k ts σ} : D p = some k → Spec.pass (σ :: ρ) ts = none → DoesOne H D ρ (.call p ts) σ [] .fail σ
/-- A loop with the counter `x` that makes at most `n` more turns, when the number of the last one was `i`. -/
inductive Spec.Repeats (H : Host) (D : Str → Option Spec.Core) : List Spec.Store → Option Str → Option Nat → Int → Spec.Core → Spec.Store →
    List Str → Spec.Flow → Spec.Store → Prop where
  | over {ρ x i a σ} : Repeats H D ρ x (some 0) i a σ [] .next σ
  | again {ρ x n i a σ w f σ1 w' f' σ'} : n ≠ some 0 → Spec.Does H D ρ a (σ.count x (i + 1)) w f σ1 → f = .next ∨ f = .cont →
    Repeats H D ρ x (n.map (· - 1)) (i + 1) a σ1 w' f' σ' → Repeats H D ρ x n i a σ (w ++ w') f' σ'
  | leave {ρ x n i a σ w σ'} : n ≠ some 0 → Spec.Does H D ρ a (σ.count x (i + 1)) w .brk σ' → Repeats H D ρ x n i a σ w .next σ'
  | out {ρ x n i a σ w f σ'} : n ≠ some 0 → Spec.Does H D ρ a (σ.count x (i + 1)) w f σ' → f = .ret ∨ f = .fail →
    Repeats H D ρ x n i a σ w f σ'
end

/-! ## Whole scripts -/

/-- The definition of a procedure: its name, whether it takes arguments, its body, and the body in pieces, as C59 cuts it. -/
structure Spec.Proc where
  name : Str
  args : Bool
  body : Spec.Core
  pieces : List Spec.CodePiece

/-- `定义f以下代码…上代码。`, or without arguments `定义f【无参】以下代码…上代码。` -/
def Spec.Proc.phrase (p : Spec.Proc) : Spec.Phrase :=
  .asg .def_ (.el (.atom (.word p.name)) (if p.args then .nil else .el (.atom (.note c!"无参")) .nil)) (.el (.atom (.kept p.pieces)) .nil)

/-- The text kept for it. -/
def Spec.Proc.text (p : Spec.Proc) : Str := Spec.piecesSrc (Spec.piecesKept p.pieces)

/-- A script: procedures, then statements. -/
structure Spec.Prg where
  procs : List Spec.Proc
  main : Spec.Core

def Spec.Prg.script (g : Spec.Prg) : Spec.Script := g.procs.foldr (fun p q => .sent p.phrase q) g.main.script

def Spec.Prg.src (g : Spec.Prg) : Str := g.script.src

/-- The names of the procedures. -/
def Spec.Prg.names (g : Spec.Prg) : List Str := g.procs.map (·.name)

/-- The names, and whether they take arguments. -/
def Spec.Prg.sigs (g : Spec.Prg) : List (Str × Bool) := g.procs.map fun p => (p.name, p.args)

/-- All definitions. -/
def Spec.Prg.defs (g : Spec.Prg) : List Str := g.names ++ Spec.chars.map (·.1)

/-- The procedure of a name. -/
def Spec.Prg.proc (g : Spec.Prg) (f : Str) : Option Spec.Core := (g.procs.find? fun p => p.name == f).map (·.body)

/-- The variables outside of the script: the program it is run with, the kind of system, and the characters. -/
def Spec.outer (shl : Str) : Spec.Store where
  vars x := if x = c!"外壳" then some shl else if x = c!"窗口" then some c!"linux" else Spec.chars.lookup x
  args := []

/-- At first a name of a procedure stands for its text.  The arguments are the words on the command line after the script. -/
def Spec.Prg.start (g : Spec.Prg) (ws : List Str) : Spec.Store where
  vars x := (g.procs.find? fun p => p.name == x).map (·.text)
  args := ws.map some

structure Spec.Proc.Ok (p : Spec.Proc) (procs : List (Str × Bool)) : Prop where
  name : Spec.Plainly p.name
  src : Spec.piecesSrc p.pieces = p.body.src
  pieces : Spec.CodePieces 0 p.pieces
  opens : Spec.Opens p.pieces
  cont : Spec.NoCont p.text
  body : p.body.Ok procs

structure Spec.Prg.Ok (g : Spec.Prg) : Prop where
  procs : ∀ p ∈ g.procs, p.Ok g.sigs
  main : g.main.Ok g.sigs
  /-- no definition has the name of another one in its name -/
  apart : g.defs.Pairwise fun a b => ¬ a <:+: b ∧ ¬ b <:+: a
  small : g.src.length < 2 ^ 64

end Zh
