import Verif.Model.Code
import Verif.Model.Vars
import Verif.Model.World0
import Verif.Model.Cmp
import Verif.Model.Clpars
import Verif.Model.Pars
/-!
# The evaluator's state, its host, its primitive operations and its programs

Rust's evaluator mutates cells (`Rc<RefCell<..>>`): result items, result lists, scopes, the world and
the stack of loop labels.  Here these cells live in one state `St`; a reference is a number.  What one
evaluation function does is a *program* (`Prog`): a tree of primitive operations (`Op`) and of calls of
other evaluation functions (`Call`).  `Model/Eval.lean` writes the evaluation functions as programs,
`interp` runs them.  The only writes to the state are the operations below.

A `RefCell` panics when it is borrowed in two incompatible ways.  The borrows that are kept while
something else is evaluated are recorded in `held`; the operations that borrow mutably check it.  No
mutable borrow of a reachable scope, definition, list or item is kept across an evaluation.
-/
namespace Zh

/-- `Opt_` (`src/u_/code_.rs:15-24`). -/
structure Opt where
  jvhao : Bool := false
  dunhao : Bool := false
  du : Bool := false
  jie : Str := []
  undefEqText : Bool := false
  vals : Bool := false
  names : Bool := false
deriving Repr, DecidableEq

/-- `Env_` (`src/u_/code_/env_.rs:7-13`): `gd`, `q`, `ret`, `in_q_`.  The world `w` and the label stack
`jump_` are shared by all environments of a run and are in the state; the attribute chain `fa` is
always empty in this crate (`Env_::new`, line 17). -/
structure Env where
  gd : Opt
  q : Nat
  ret : Nat
  inq : Option Nat
deriving Repr, DecidableEq

/-- `EquName_` (`src/u_/equ_name_.rs:11-22`). -/
structure EquName where
  equ : Bool := false
  name : Str := []
deriving Repr, DecidableEq

/-- A shared borrow that is kept during an evaluation: of a scope, or of the `k`-th definition of a
scope. -/
inductive Held where
  | scope (q : Nat)
  | def_ (q k : Nat)
deriving Repr, DecidableEq

/-- A command to be run (`src/exec_.rs:33-70`). -/
structure Cmd where
  prog : Str
  args : List Str
  cd : Option Str := none
  env : List (Str × Str) := []
  noOut : Bool := false
  noErr : Bool := false
deriving Repr, DecidableEq

/-- How a command is started (`src/exec_.rs:116-233`): `status`, `output`, `spawn`, `spawn` with pipes. -/
inductive ExecKind where
  | status | output | spawn | pipes
deriving Repr, DecidableEq

/-- What a host was asked to do, in order. -/
inductive Event where
  | out (s : Str)
  | err (s : Str)
  | flush
  | outBytes (b : List Nat)
  | errBytes (b : List Nat)
  | open_ (file : Str)
  | read (file : Str)
  | exec (k : ExecKind) (c : Cmd)
  | write (h : Nat) (s : Str)
  | readLine (h : Nat) (err : Bool)
deriving Repr, DecidableEq

/-- Captured output: the bytes, their UTF-8 decoding (or the error text) and the decoded lines
(`BufRead::lines`). -/
structure Captured where
  bytes : List Nat
  text : Except Str Str
  lines : List (Except Str Str)

/-- The answer to a command: failure to start, exit status (`none`: ended by a signal), captured output,
process number. -/
inductive ExecRes where
  | fail (e : Str)
  | status (code : Option Int)
  | output (code : Option Int) (out err : Captured)
  | child (pid : Nat)

/-- The parts of the standard library and the operating system that are not modelled: the theorems
hold for every behaviour of them.  Answers of the operating system may depend on everything that was
asked before (`List Event`). -/
structure Host where
  F : Type
  f64 : F64 F
  /-- `id__` of the code cache (`DefaultHasher`) -/
  hash : Str → Nat
  /-- `PathBuf::from(p).set_file_name(src).to_str()` -/
  fileName : Str → Str → Option Str
  open_ : List Event → Str → Bool
  read : List Event → Str → Except Str Str
  exec : List Event → ExecKind → Cmd → ExecRes
  /-- `stdin.write_all`: the error text, if any -/
  write : List Event → Nat → Str → Option Str
  /-- `read_line`: the line with its end (empty at the end of the output), or the error text -/
  readLine : List Event → Nat → Bool → Except Str Str

/-- The state. -/
structure St where
  /-- the annotations `rem_` of result items, by reference; `nitem` is the next free reference -/
  items : Nat → List Str
  nitem : Nat
  /-- result lists -/
  lists : Nat → RList
  nlist : Nat
  /-- scopes; scope 0 is `top_q_` -/
  scopes : Nat → Scope
  nscope : Nat
  /-- `mods_`, `datas_`, `path_`, `cfg_` and the code cache of the world
  (`src/u_/world_.rs:18-34`, `src/u_/cfg_.rs:3-7`) -/
  mods : List Nat
  datas : List Nat
  path : List Str
  shl : Str
  srcIsFile : Bool
  jhdh : Bool
  cache : Cache (List Code)
  /-- `Jump_::a_` (`src/u_/code_/env_.rs:3-5`), innermost label last -/
  labels : List Str
  /-- borrows kept by the evaluations going on -/
  held : List Held
  /-- what the host was asked to do so far -/
  trace : List Event
  /-- whether integer overflow is checked (debug profile) -/
  ovf : Bool

/-- A heap with one cell changed. -/
def upd {α : Type} (f : Nat → α) (k : Nat) (v : α) : Nat → α := fun n => if n = k then v else f n

/-- The result of an evaluation function: the updated `&mut` arguments and the `Result2_`. -/
structure Res where
  idx : Nat := 0
  idx2 : Nat := 0
  has : Bool := false
  r : Except Err Unit := .ok ()

/-- The variables of the loop of `z4__` (`src/u_/code_.rs:243-250`). -/
structure Z4 where
  idx2 : Nat
  has : Bool
  idx : Nat
  paichu : List Str
  buf : Str
deriving Repr, DecidableEq

/-- The variables of `b2__` (`src/if_.rs:158-165`), `Cmp_` (236-243). -/
structure CondSt where
  idx : Nat := 0
  left : List Str := []
  val : List Str := []
  op : KwId := .undef
  not : Bool := false
  from_ : Nat := 0
  end_ : Nat := 0
  b : Bool := false
  kuo : Bool := false
deriving Repr, DecidableEq

/-- The evaluation functions that are called recursively. -/
inductive Call where
  /-- `List_::hello2__` (`src/u_/code_.rs:145-169`) -/
  | codes (a : List Code) (idx end_ : Nat) (env : Env)
  /-- `z2__` (175-240) from position `idx` -/
  | z2 (a : List Code) (idx end_ : Nat) (env : Env)
  /-- the loop of `z4__` (243-476) -/
  | z4 (a : List Code) (cs : Str) (end2 end_ : Nat) (env : Env) (st : Z4)
  /-- `hello__` of a code item -/
  | item (c : Code) (env : Env)
  /-- `eval_::hello__` (`src/u_/eval_.rs:100-119`) -/
  | src (s : Str) (env : Env)
  /-- the loop of `hello__` of a loop (`src/for_.rs:187-253`) -/
  | loop (range : Bool) (codes : List Code) (max : Nat) (useI : Bool) (cnt : Cnt) (env : Env) (i : Nat)
      (hasName : Bool)
  /-- the loop of `b2__` (`src/if_.rs:173-232`) -/
  | cond (codes : List Code) (env2 : Env) (st : CondSt)
  /-- `get2__` (`src/var_.rs:85-170`) -/
  | get (l : List Item) (isHas : Bool) (equ : EquName) (env : Env)
  /-- the loop over the output of a passive process (`src/exec_.rs:137-158`) -/
  | slave (h : Nat) (outSrc errSrc : Str) (buf : Str) (env : Env)

/-- The primitive operations. -/
inductive Op where
  /-- read the state -/
  | st
  /-- `Rc::new(RefCell::new(Item_ {..}))` -/
  | newItem (v : Val) (rems : List Str)
  /-- `rem_.push` of several texts -/
  | addRems (ref : Nat) (rems : List Str)
  /-- `t__(result_::List_::new())` -/
  | newList
  /-- replace the contents of a result list -/
  | setList (r : Nat) (l : RList)
  /-- `t__(Qv_::new6(..))` with a parent (`src/u_/qv_.rs:161-170`) -/
  | newScope (arg0 : Str) (argnames : Option ArgNames) (up : Nat)
  /-- `as_mut_ref__!(q)` -/
  | touch (q : Nat)
  /-- `vars_.val2__` (`src/u_/qv_.rs:10-16`, `src/u_/var_.rs:39-49`) -/
  | setVar (q : Nat) (v : Var)
  /-- `defs_.val2__` (`src/u_/def_.rs:84-102`) -/
  | setDef (q : Nat) (d : Def)
  /-- `name_.push`, `on_free_.push_str` (`src/name_.rs:51-55`) -/
  | addName (q : Nat) (name onFree : Str)
  | setSrc (q : Nat) (src : Str)
  | setIsFile (q : Nat)
  | setArg0 (q : Nat) (s : Str)
  /-- `args_1clear__`, `args_1__` (`src/u_/qv_.rs:179-189`) -/
  | clearArgs1 (q : Nat)
  | argsLine (q : Nat)
  /-- `mods_.push`, `datas_.push`, `mods_.remove`, `datas_.remove` -/
  | addMod (data : Bool) (q : Nat)
  | rmMod (data : Bool) (i : Nat)
  /-- `path2__`, and the assignments to `cfg_` -/
  | path (s : Str)
  | shl (s : Str)
  | srcIsCode
  | jhdh
  /-- `codes_cache__` (`src/u_/world_.rs:53-62`) -/
  | parse (src : Str)
  /-- `jump_.a_.push`, `jump_.a_.pop` -/
  | pushLabel (s : Str)
  | popLabel
  /-- computations with `f64` -/
  | cmp (op : KwId) (not : Bool) (left val : List Str)
  | expl (v : List Str)
  /-- `print!`, `eprint!`, `flush` and so on -/
  | emit (e : Event)
  | fileName (p src : Str)
  | open_ (file : Str)
  | read (file : Str)
  | exec (k : ExecKind) (c : Cmd)
  | write (h : Nat) (s : Str)
  | readLine (h : Nat) (err : Bool)

/-- The type of the answer of an operation. -/
@[reducible] def Op.Res : Op → Type
  | .st => St
  | .newItem .. => Item
  | .newList => Nat
  | .newScope .. => Nat
  | .argsLine _ => Str
  | .parse _ => Except Err (List Code)
  | .cmp .. => Bool
  | .expl _ => Except Str Str
  | .fileName .. => Option Str
  | .open_ _ => Bool
  | .read _ => Except Str Str
  | .exec .. => ExecRes
  | .write .. => Option Str
  | .readLine .. => Except Str Str
  | _ => Unit

/-- Change a scope; panics when it is borrowed. -/
def St.modScope (s : St) (q : Nat) (f : Scope → Scope) : Out Unit × St :=
  if s.held.contains (.scope q) then (.panic, s)
  else (.ok (), { s with scopes := upd s.scopes q (f (s.scopes q)) })

/-- `text__` (`src/u_/world_.rs:91-93`). -/
def quote (s : Str) : Str := kwStr .beginText ++ s ++ kwStr .endText

/-- The operations on the state. -/
def Op.run (H : Host) : (o : Op) → St → Out o.Res × St
  | .st, s => (.ok s, s)
  | .newItem v rems, s =>
    (.ok ⟨s.nitem, v⟩, { s with items := upd s.items s.nitem rems, nitem := s.nitem + 1 })
  | .addRems ref rems, s => (.ok (), { s with items := upd s.items ref (s.items ref ++ rems) })
  | .newList, s =>
    (.ok s.nlist, { s with lists := upd s.lists s.nlist .empty, nlist := s.nlist + 1 })
  | .setList r l, s => (.ok (), { s with lists := upd s.lists r l })
  | .newScope arg0 argnames up, s =>
    (.ok s.nscope,
      { s with
        lists := upd s.lists s.nlist .empty, nlist := s.nlist + 1
        scopes := upd s.scopes s.nscope
          (Scope.new [] [] arg0 argnames (some (up, (s.scopes up).i)) s.nlist)
        nscope := s.nscope + 1 })
  | .touch q, s => s.modScope q id
  | .setVar q v, s => s.modScope q fun c => { c with vars := Zh.setVar v c.vars }
  | .setDef q d, s =>
    match findDefName d.name (s.scopes q).defs with
    | some k =>
      if s.held.contains (.def_ q k) then (.panic, s)
      else s.modScope q fun c => { c with defs := Zh.setDef d c.defs }
    | none => s.modScope q fun c => { c with defs := Zh.setDef d c.defs }
  | .addName q name onFree, s =>
    s.modScope q fun c => { c with name := c.name ++ [name], onFree := c.onFree ++ onFree }
  | .setSrc q src, s => s.modScope q fun c => { c with src }
  | .setIsFile q, s => s.modScope q fun c => { c with srcIsFile := true }
  | .setArg0 q arg0, s => s.modScope q fun c => { c with arg0 }
  | .clearArgs1 q, s => s.modScope q fun c => { c with argsTo1 := false, args1 := [] }
  | .argsLine q, s =>
    let c := s.scopes q
    let t := if c.argsTo1 then c.args1 else (s.lists c.args).line .one c.args1
    match s.modScope q fun c => { c with argsTo1 := true, args1 := t } with
    | (.ok (), s) => (.ok t, s)
    | (.panic, s) => (.panic, s)
    | (.fuel, s) => (.fuel, s)
  | .addMod data q, s =>
    (.ok (), if data then { s with datas := s.datas ++ [q] } else { s with mods := s.mods ++ [q] })
  | .rmMod data i, s =>
    if data then
      if i < s.datas.length then (.ok (), { s with datas := s.datas.eraseIdx i }) else (.panic, s)
    else
      if i < s.mods.length then (.ok (), { s with mods := s.mods.eraseIdx i }) else (.panic, s)
  | .path p, s => (.ok (), { s with path := path2 s.path p })
  | .shl x, s => (.ok (), { s with shl := x })
  | .srcIsCode, s => (.ok (), { s with srcIsFile := false })
  | .jhdh, s => (.ok (), { s with jhdh := true })
  | .parse src, s =>
    match codesCache H.hash Zh.parse s.cache src with
    | .ok (r, cache) => (.ok r, { s with cache })
    | .panic => (.panic, s)
    | .fuel => (.fuel, s)
  | .pushLabel x, s => (.ok (), { s with labels := s.labels ++ [x] })
  | .popLabel, s => (.ok (), { s with labels := s.labels.dropLast })
  | .cmp op not left val, s => (.ok (Zh.cmp H.f64 op not left val), s)
  | .expl v, s => (Zh.expl H.f64 quote v, s)
  | .emit e, s => (.ok (), { s with trace := s.trace ++ [e] })
  | .fileName p src, s => (.ok (H.fileName p src), s)
  | .open_ f, s => (.ok (H.open_ s.trace f), { s with trace := s.trace ++ [.open_ f] })
  | .read f, s => (.ok (H.read s.trace f), { s with trace := s.trace ++ [.read f] })
  | .exec k c, s => (.ok (H.exec s.trace k c), { s with trace := s.trace ++ [.exec k c] })
  | .write h t, s => (.ok (H.write s.trace h t), { s with trace := s.trace ++ [.write h t] })
  | .readLine h e, s => (.ok (H.readLine s.trace h e), { s with trace := s.trace ++ [.readLine h e] })

/-- Programs: what an evaluation function does.  A call keeps the borrows `held` while it runs. -/
inductive Prog (α : Type) where
  | ret (a : α)
  | panic
  | op (o : Op) (k : o.Res → Prog α)
  | call (held : List Held) (c : Call) (k : Res → Prog α)

namespace Prog

/-- Sequencing. -/
def bind {α β : Type} : Prog α → (α → Prog β) → Prog β
  | .ret a, f => f a
  | .panic, _ => .panic
  | .op o k, f => .op o fun a => (k a).bind f
  | .call h c k, f => .call h c fun r => (k r).bind f

instance : Monad Prog where
  pure := Prog.ret
  bind := Prog.bind

/-- Run a program; `rec` runs the calls. -/
def interp {α : Type} (H : Host) (rec : Call → St → Out Res × St) : Prog α → St → Out α × St
  | .ret a, s => (.ok a, s)
  | .panic, s => (.panic, s)
  | .op o k, s =>
    match o.run H s with
    | (.ok a, s) => (k a).interp H rec s
    | (.panic, s) => (.panic, s)
    | (.fuel, s) => (.fuel, s)
  | .call h c k, s =>
    match rec c { s with held := h ++ s.held } with
    | (.ok r, s') => (k r).interp H rec { s' with held := s.held }
    | (.panic, s') => (.panic, s')
    | (.fuel, s') => (.fuel, s')

end Prog

/-- Evaluation with Rust's `?`. -/
abbrev E := ExceptT Err Prog

end Zh
