import Verif.Model.State
/-!
# The evaluator: `u_/code_.rs`, `u_/eval_.rs` and the `hello__` functions of the statements

Not modelled: debug output (`#[cfg(debug_assertions)]`, `dbg_`), definitions with a native function
(`Val_::F`, only for host programs), the attribute chain `fa` (always empty in this crate), the
`thread` feature.
-/
namespace Zh
open Prog

/-! ## Small programs -/

/-- The current state. -/
def getSt : Prog St := .op .st .ret
/-- An operation without an answer. -/
def doOp (o : Op) : Prog o.Res := .op o .ret
/-- A call of another evaluation function. -/
def callP (held : List Held) (c : Call) : Prog Res := .call held c .ret
/-- A call followed by `?`. -/
def callE (held : List Held) (c : Call) : E Unit := do
  let r ← (callP held c : Prog Res)
  ExceptT.mk (pure r.r)
/-- A computation that may panic. -/
def ofOut {α : Type} : Out α → Prog α
  | .ok a => .ret a
  | _ => .panic

/-- `hello__` of a code list (`src/u_/code_.rs:142-144`). -/
def hello (held : List Held) (a : List Code) (env : Env) : E Unit :=
  callE held (.codes a 0 usizeMax env)

/-- `add4__`: append an item to a result list. -/
def addItem (ret : Nat) (i : Item) : Prog Unit := do
  let s ← getSt
  doOp (.setList ret ((s.lists ret).add i))
/-- `add_r__`: append a fresh item. -/
def addVal (ret : Nat) (v : Val) (rems : List Str) : Prog Unit := do
  let i ← doOp (.newItem v rems)
  addItem ret i
/-- `add__`: append a text. -/
def addT (ret : Nat) (t : Str) : Prog Unit := addVal ret (.s t) []
/-- `add2__`: append a keyword. -/
def addKwI (ret : Nat) (id : KwId) : Prog Unit := addVal ret (.k (kw id)) []
/-- `dunhao__` (`src/u_/world_.rs:109-111`). -/
def addDun (ret : Nat) : Prog Unit := addKwI ret .dunhao
/-- Append several texts, each as an item. -/
def addTs (ret : Nat) : List Str → Prog Unit
  | [] => pure ()
  | t :: ts => do
    addT ret t
    addTs ret ts

/-- The contents of a result list. -/
def getList (r : Nat) : Prog RList := do
  let s ← getSt
  return s.lists r

/-- Evaluate code into a fresh result list. -/
def helloNew (held : List Held) (a : List Code) (env : Env) : E Nat := do
  let r ← doOp .newList
  hello held a { env with ret := r }
  return r

/-- Evaluate code into a fresh result list and split it (`to_vec__`). -/
def helloVec (a : List Code) (env : Env) : E (List Str) := do
  let r ← helloNew [] a env
  let l ← getList r
  return l.toVec

/-- `Err(e)`. -/
def fail {α : Type} (e : Err) : E α := ExceptT.mk (pure (.error e))

/-! ## Scope annotations: `u_/qv_/rem4_.rs` -/

/-- `TOP_`, `IN_` (`src/u_/qv_/rem4_.rs:3-5`; `UP_` is in `Model/Jump.lean`). -/
def TOP : Str := c!"顶"
def IN_ : Str := c!"所"

/-- What an annotation denotes: a scope (`none`: no such scope, when testing for existence), or it is
left to the statement. -/
inductive Rem4 where
  | scope (q : Option Nat)
  | other
deriving Repr, DecidableEq

/-- `z__` (`src/u_/qv_/rem4_.rs:7-49`) up to the call of `shou`. -/
def rem4Z (s : St) (rem : Str) (isHas : Bool) (inq : Option Nat) (q : Nat) : Except Err Rem4 :=
  if rem = TOP then .ok (.scope (some 0))
  else if rem = UP then
    match (s.scopes q).up with
    | some p => .ok (.scope (some p))
    | none => if isHas then .ok (.scope none) else .error (.msg c!"无上")
  else if rem = IN_ then
    match inq with
    | some p => .ok (.scope (some p))
    | none => .error (errNoRem2 rem)
  else
    match namedScope s.scopes s.mods q rem with
    | some p => .ok (.scope (some p))
    | none =>
      match s.datas.find? fun p => (s.scopes p).name.contains rem with
      | some p => .ok (.scope (some p))
      | none => .ok .other

/-- `hello2__` (`src/u_/qv_/rem4_.rs:50-61`): `shou` is asked about annotations that name no scope; it
may change the state `σ` of its statement.  `unwrap` on a missing scope panics. -/
def rem4 {σ : Type} (s : St) (isHas : Bool) (inq : Option Nat) (shou : σ → Str → Option σ) :
    List Str → Option Nat → σ → Out (Except Err (Option Nat × σ))
  | [], q, x => .ok (.ok (q, x))
  | rem :: rems, q, x =>
    match q with
    | none => .panic
    | some q0 =>
      match rem4Z s rem isHas inq q0 with
      | .error e => .ok (.error e)
      | .ok (.scope q1) => rem4 s isHas inq shou rems q1 x
      | .ok .other =>
        match shou x rem with
        | some x => rem4 s isHas inq shou rems (some q0) x
        | none => .ok (.error (errNoRem2 rem))

/-! ## Reading variables and arguments: `var_.rs`, `var_/`, `u_/qv_.rs` -/

/-- `WITH_NAME_` (`src/var_.rs:11`). -/
def WITH_NAME : Str := c!"与名"

/-- `rem1__` (`src/u_/world_.rs:94-97`). -/
def rem1 (s : Str) : Str := kwStr .beginRem ++ s ++ kwStr .endRem

/-- `Argi_::hello__` (`src/var_/arg_.rs:24-49`).  The result list is borrowed mutably while the
arguments are read. -/
def argiP (i : Int) (isHas equ : Bool) (name : Str) (q ret : Nat) : Prog Unit := do
  let s ← getSt
  if (s.scopes q).args = ret then .panic
  else
    let a := s.lists (s.scopes q).args
    if isHas then
      let i ← ofOut (i2u s.ovf i a.len)
      if i ≤ a.len then addT ret c!"1" else pure ()
    else
      match ← ofOut (argIndex s.ovf i a) with
      | none => pure ()
      | some k =>
        match ← (if equ then ofOut (a.s3 k) else pure none) with
        | some t => addT ret (if equName t then name else t)
        | none =>
          let l ← ofOut (a.retArg k (s.lists ret))
          doOp (.setList ret l)

/-- `Arg0_::hello__` (`src/var_/arg_.rs:75-103`). -/
def arg0P (zero : Str) (isHas : Bool) (q ret : Nat) : Prog Unit := do
  if isHas then addT ret c!"1"
  else
    let s ← getSt
    let c := s.scopes q
    if zero = c!"0" ∨ zero = c!"00" then
      if !c.arg0.isEmpty then addT ret c.arg0
      else if zero = c!"0" ∨ c.srcIsFile then addT ret c.src
      else pure ()
    else if zero = c!"000" then addTs ret (c.name.intersperse c!"+")
    else pure ()

/-- `Argc_::hello__` (`src/var_/argc_.rs:13-20`). -/
def argcP (isHas : Bool) (q ret : Nat) : Prog Unit := do
  if isHas then addT ret c!"1"
  else
    let s ← getSt
    if (s.scopes q).args = ret then .panic
    else addT ret (natStr (s.lists (s.scopes q).args).len)

/-- `Args_::hello__` (`src/var_/args_.rs:61-140`). -/
def argsP (isHas : Bool) (q : Nat) (begin_ end_ : Int) (line : Bool) (ret : Nat) : Prog Unit := do
  let s ← getSt
  if (s.scopes q).args = ret then .panic
  else
    match ← ofOut (argsAct s.ovf isHas (s.lists (s.scopes q).args) begin_ end_ line) with
    | .has => addT ret c!"1"
    | .addText t => addT ret t
    | .addLine =>
      let t ← doOp (.argsLine q)
      addT ret t
    | .addItems is =>
      doOp (.setList ret (if is.isEmpty then ((s.lists ret).addAll is).popEnd else (s.lists ret).addAll is))
    | .popEnd => doOp (.setList ret (s.lists ret).popEnd)

/-- `get__` (`src/u_/qv_.rs:24-52`): `none` when nothing is found; an alias is returned with the scope
it was found in and whether `ret_equ_name.by__` was called. -/
def getP (name : Str) (isHas equ canUp noSelf : Bool) (env : Env) :
    Prog (Option (Option (Item × Bool × Nat))) := do
  let s ← getSt
  match getName s.scopes s.mods env.q name isHas equ canUp noSelf with
  | none => return none
  | some (q, act) =>
    match act with
    | .alias it byName => return some (some (it, byName, q))
    | .hasVar it =>
      addVal env.ret (.s c!"1") (s.items it.ref)
      return some none
    | .name =>
      addT env.ret name
      return some none
    | .nothing => return some none
    | .val it =>
      addItem env.ret it
      return some none
    | .text t =>
      addT env.ret t
      return some none
    | .arg i e =>
      argiP i isHas e name q env.ret
      return some none

/-- `not_exist__` (`src/var_.rs:81-83`). -/
def errNoVar (name : Str) : Err := .msg (c!"变量" ++ quote name ++ c!"不存在")

/-- The inner closure `get__` of `get2__` (`src/var_.rs:123-135`): was the name found. -/
def getAliasP (name : Str) (isHas : Bool) (equ : EquName) (canUp : Bool) (q2 : Nat) (env : Env) :
    E Bool := do
  match ← (getP name isHas equ.equ canUp canUp { env with q := q2 } : Prog _) with
  | none => return false
  | some none => return true
  | some (some (it, byName, q)) =>
    callE [] (.get [it] isHas (if byName then ⟨true, name⟩ else {}) { env with q })
    return true

/-- `Args_::with2__` (`src/var_/args_.rs:46-59`). -/
def argsWith2 (name : Str) (rems : List Str) : Bool :=
  (name == ARGS || name == ARG) && rems.all (fun r => (parseI32 r).isSome) && decide (rems.length ≤ 2)

/-- The loop over the items of the name (`src/var_.rs:90-106`): name, annotations that name no scope,
`与名` seen, the scope.  The result `none` is the early `return ok__()`. -/
def nameScan (s : St) (isHas : Bool) (inq : Option Nat) :
    List Item → (name : Str) → (rems : List Str) → (withName : Bool) → (q : Nat) →
      Out (Except Err (Option (Str × List Str × Bool × Nat)))
  | [], name, rems, withName, q => .ok (.ok (some (name, rems, withName, q)))
  | it :: its, name, rems, withName, q =>
    match rem4 s isHas inq
        (fun (x : List Str × Bool) r => some (if r = WITH_NAME then (x.1, true) else (x.1 ++ [r], x.2)))
        (s.items it.ref) (some q) (rems, withName) with
    | .ok (.error e) => .ok (.error e)
    | .ok (.ok (none, _)) => .ok (.ok none)
    | .ok (.ok (some q, x)) => nameScan s isHas inq its (name ++ it.val.plain) x.1 x.2 q
    | .panic => .panic
    | .fuel => .fuel

/-- The part of `get2__` after the name is known to be neither a variable of the scope itself nor empty
(`src/var_.rs:146-169`). -/
def getArgs (name : Str) (rems : List Str) (isHas : Bool) (equ : EquName) (q2 : Nat) (env : Env) :
    E Unit := do
  match argsWith name rems with
  | some (begin_, end_, line, _) => argsP isHas q2 begin_ end_ line env.ret
  | none =>
    if name = ARGC then argcP isHas q2 env.ret
    else
      match argiWith name with
      | some i =>
        if i = 0 then arg0P (name.drop ARG.length) isHas q2 env.ret
        else argiP i isHas equ.equ equ.name q2 env.ret
      | none =>
        if ← getAliasP name isHas equ true q2 env then return ()
        else if isHas then return ()
        else fail (errNoVar name)

/-- `get2__` (`src/var_.rs:85-170`). -/
def get2P (l : List Item) (isHas : Bool) (equ : EquName) (env : Env) : E Unit := do
  let s ← (getSt : Prog St)
  match ← ExceptT.mk (ofOut (nameScan s isHas env.inq l [] [] false env.q)) with
  | none => return ()
  | some (name, rems, withName, q2) =>
    if withName then addT env.ret (rem1 name)
    if !rems.isEmpty && !argsWith2 name rems then
      if isHas then return () else fail (errNoRem2 (rems.getLast?.getD []))
    else if ← getAliasP name isHas equ false q2 env then return ()
    else if name.isEmpty then
      if ← getAliasP name isHas equ true q2 env then return ()
      else if isHas then return ()
      else fail (errNoVar name)
    else getArgs name rems isHas equ q2 env

/-- `Item1_::hello__` of `var_.rs` (`src/var_.rs:175-197`): the scope given by the annotations. -/
def var1P (rems : List Str) (name : Str) (env : Env) : E Nat := do
  let s ← (getSt : Prog St)
  let x ← ExceptT.mk (ofOut (rem4 s false env.inq
      (fun (_ : Bool) r => if r = WITH_NAME then some true else none) rems (some env.q) false))
  if x.2 then addT env.ret (rem1 name)
  match x.1 with
  | some q => return q
  | none => (Prog.panic : Prog Nat)

/-- `hello__` of a simple variable (`src/var_/simp_.rs:17-36`). -/
def simpP (name : Str) (rems : List Str) (env : Env) : E Unit := do
  let q2 ← var1P rems name env
  match ← (getP name false false true false { env with q := q2 } : Prog _) with
  | none => fail (errNoVar name)
  | some none => return ()
  | some (some (it, byName, q)) =>
    callE [] (.get [it] false (if byName then ⟨true, name⟩ else {}) { env with q })

/-! ## Annotations: `rem2_.rs`, `rems__` -/

/-- The item that gets the annotations (`src/rem2_.rs:94-114`). -/
def remTarget (env : Env) : Prog Item := do
  let fresh : Prog Item := do
    let i ← doOp (.newItem (.s []) [])
    addItem env.ret i
    return i
  if env.gd.names || env.gd.vals then fresh
  else
    let l ← getList env.ret
    match l.last? with
    | some i => if i.dunhao || i.jvhao then fresh else return i
    | none => fresh

/-- `hello__` of an annotation (`src/rem2_.rs:84-121`) from the list of its texts. -/
def remP (r2 : Nat) (env : Env) : Prog Unit := do
  let i ← remTarget env
  let l ← getList r2
  doOp (.addRems i.ref (l.a.map (·.val.plain)))

/-- `rems__` (`src/u_/code_/item1_.rs:31-45`): evaluate annotations; the texts found. -/
def remsP (rems : List Code) (env : Env) : E (List Str) := do
  let r3 ← doOp .newList
  addKwI r3 .beginText
  hello [] rems { env with ret := r3 }
  let s ← (getSt : Prog St)
  match (s.lists r3).last? with
  | some i => return s.items i.ref
  | none => (Prog.panic : Prog _)

/-- The loop of `rems__` for a loop statement (`src/for_.rs:179`). -/
def cntRems (range : Bool) : List Str → (idx : Nat) → Cnt → Except Err Cnt
  | [], _, c => .ok c
  | r :: rs, idx, c =>
    match c.hello range r idx with
    | .error e => .error e
    | .ok (c, true) => cntRems range rs (idx + 1) c
    | .ok (_, false) => .error (errNoRem2 r)

/-! ## `split2_2__` (`src/u_/code_/item1_.rs:14-29`) -/

/-- The first half (lines 16-26): the text before the first `、` and its annotations, in order. -/
def split2a (held : List Held) (a : List Code) (sp : Nat) (env : Env) : E (Str × List Str) := do
  let r4 ← doOp .newList
  callE held (.codes a 0 sp { env with ret := r4 })
  let s ← (getSt : Prog St)
  let l := s.lists r4
  return (l.text, l.a.flatMap fun i => s.items i.ref)
/-- The second half (lines 27-28). -/
def split2b (held : List Held) (a : List Code) (sp : Nat) (env : Env) : E Unit :=
  callE held (.codes a (sp + 1) usizeMax env)

/-! ## Statement lists: `u_/code_.rs` -/

/-- The jump codes are not given a trace (`src/u_/code_.rs:151`). -/
def isJump (i : Int) : Bool :=
  i = QUIT || i = RETURN || i = BREAK || i = BREAK2 || i = CONTINUE || i = CONTINUE2

/-- `hello2__` (`src/u_/code_.rs:145-169`). -/
def codesP (a : List Code) (idx end_ : Nat) (env : Env) : Prog Res := do
  let r ← callP [] (.z2 a idx (min end_ a.length) env)
  match r.r with
  | .ok () => return { idx := r.idx }
  | .error e =>
    return { idx := r.idx,
             r := .error (if isJump e.i then e
               else { e with s2 := e.s2 ++ ('\n' :: quote (showL (a.take (r.idx + 1)))) }) }

/-- `s2__` (`src/u_/code_.rs:85` and the implementations in `undef_.rs`, `text_.rs`, `rem2_.rs`). -/
def Code.s2 : Code → Str
  | .undef s => s
  | .text s => s
  | .remS s => s
  | _ => []

/-- Whether a `。` is added to the results (`src/u_/code_.rs:198-215`). -/
def addsJvhao (s : St) (a : List Code) (idx : Nat) (env : Env) : Bool :=
  !s.jhdh &&
  (match idx with
    | 0 => true
    | k + 1 => match a[k]? with
      | some c => c.id == .dunhao || c.id == .beginVar || c.id == .beginText || c.id == .undef
      | none => false) &&
  (match (s.lists env.ret).last? with
    | some i => !i.jvhao
    | none => false)

/-- Evaluate one item, then go on with the next (`src/u_/code_.rs:192-237`). -/
def z2Item (a : List Code) (idx end_ : Nat) (env : Env) (c : Code) : Prog Res := do
  let r ← callP [] (.item c env)
  match r.r with
  | .ok () => callP [] (.z2 a (idx + 1) end_ env)
  | .error e => return { idx, r := .error e }

/-- One turn of the loop of `z2__` (`src/u_/code_.rs:175-240`). -/
def z2P (a : List Code) (idx end_ : Nat) (env : Env) : Prog Res :=
  if idx < end_ then
    match a[idx]? with
    | none => .panic
    | some c =>
      match c.id with
      | .undef =>
        if env.gd.undefEqText then z2Item a idx end_ env c
        else do
          let r ← callP [] (.z4 a c.s2 c.s2.length end_ env ⟨0, false, idx, [], []⟩)
          match r.r with
          | .error e => return { idx := r.idx, r := .error e }
          | .ok () =>
            if r.has then callP [] (.z2 a r.idx end_ env)
            else z2Item a r.idx end_ env c
      | .jvhao =>
        if env.gd.jvhao then return { idx }
        else do
          let s ← getSt
          if addsJvhao s a idx env then z2Item a idx end_ env c
          else callP [] (.z2 a (idx + 1) end_ env)
      | .dunhao =>
        if env.gd.dunhao then return { idx := idx + 1 }
        else z2Item a idx end_ env c
      | _ => z2Item a idx end_ env c
  else return { idx }

/-! ### Arguments written between the words of a definition: `z4__` 259-401 -/

/-- `f__` (`src/u_/code_.rs:271-304`): the first place from `from_` on, `n` places at most, where the
separator `s` is found. -/
def findSep (cs : Str) (s : Str) : (from_ n : Nat) → Option (Nat × Nat)
  | _, 0 => none
  | idx, n + 1 =>
    match withAt cs s idx with
    | some (len, _) => some (idx, len)
    | none => findSep cs s (idx + 1) n

/-- `f__` with the running number of the argument name; the result and the new number. -/
def sepAt (names : List ArgName) (end2 : Nat) (cs : Str) (from_ i : Nat) (plus : Bool) :
    Option (Nat × Nat) × Nat :=
  match names[i]? with
  | none => (none, i)
  | some nm =>
    if nm.ge then
      match findSep cs nm.s from_ (end2 - from_) with
      | some r => (some r, i + 2)
      | none => (if plus then some (0, 0) else none, i)
    else (none, i)

/-- `dunhao3` (`src/u_/code_.rs:305-323`): the items pushed; `cs` is the text of the item `i`, slicing
beyond it panics. -/
def dunhao3 (idx2 idx4 len : Nat) (cs : Str) : Out (List Code) :=
  if idx4 > idx2 ∧ cs.length < idx4 then .panic
  else .ok ((if idx4 > idx2 then [Code.undef ((cs.take idx4).drop idx2)] else []) ++
    (if idx4 < len then [Code.kw1 .dunhao] else []))

/-- The first loop (`src/u_/code_.rs:329-352`) over the word of the definition itself; `word` is the text
of `a[*idx]`.  At most `fuel` turns: every turn raises `i`, and the loop ends when `i` has passed
both the number of names and `backarg`. -/
def sparg1 (names : List ArgName) (backarg end2 : Nat) (cs word : Str) :
    Nat → (idx2m i : Nat) → (a2 : List Code) → Out (Nat × List Code)
  | 0, _, _, _ => .fuel
  | fuel + 1, idx2m, i, a2 =>
    match sepAt names end2 cs idx2m i true with
    | (some (idx4, len), i) =>
      if len = 0 then .ok (i, a2)
      else match dunhao3 idx2m idx4 cs.length word with
        | .ok l => sparg1 names backarg end2 cs word fuel (idx4 + len) i (a2 ++ l)
        | .panic => .panic
        | .fuel => .fuel
    | (none, i) =>
      if i ≤ backarg then sparg1 names backarg end2 cs word fuel idx2m (i + 1) a2
      else if idx2m < end2 then
        match dunhao3 idx2m end2 cs.length word with
        | .ok l => .ok (i, a2 ++ l)
        | .panic => .panic
        | .fuel => .fuel
      else .ok (i, a2)

/-- The inner loop over one word after the definition's word (`src/u_/code_.rs:363-368`). -/
def spargWord (names : List ArgName) (end2 : Nat) (cs2 : Str) :
    Nat → (idx2 i : Nat) → (a2 : List Code) → Out (Nat × Nat × List Code)
  | 0, _, _, _ => .fuel
  | fuel + 1, idx2, i, a2 =>
    match sepAt names end2 cs2 idx2 i false with
    | (some (idx4, len), i) =>
      match dunhao3 idx2 idx4 cs2.length cs2 with
      | .ok l => spargWord names end2 cs2 fuel (idx4 + len) i (a2 ++ l)
      | .panic => .panic
      | .fuel => .fuel
    | (none, i) => .ok (idx2, i, a2)

/-- The loop over the items after the definition's word (`src/u_/code_.rs:353-396`): `rest` are the
items from position `idx` up to `end`.  `none`: the definition does not apply (`paichu`). -/
def sparg2 (names : List ArgName) (end2 : Nat) :
    List Code → (idx i : Nat) → (a2 : List Code) → Out (Option (Nat × Nat × List Code))
  | [], idx, i, a2 => .ok (some (idx, i, a2))
  | c :: rest, idx, i, a2 =>
    match c.id with
    | .undef =>
      match spargWord names end2 c.s2 (names.length + 1) 0 i a2 with
      | .ok (idx2, i, a2) =>
        if idx2 > 0 then
          match dunhao3 idx2 c.s2.length c.s2.length c.s2 with
          | .ok l => sparg2 names end2 rest (idx + 1) i (a2 ++ l)
          | .panic => .panic
          | .fuel => .fuel
        else sparg2 names end2 rest (idx + 1) i (a2 ++ [c])
      | .panic => .panic
      | .fuel => .fuel
    | .dunhao =>
      match names[i]? with
      | some nm =>
        if nm.ge then .ok none
        else sparg2 names end2 rest (idx + 1) (i + 1) (a2 ++ [c])
      | none => .ok (some (idx, i, a2))
    | .jvhao => .ok (some (idx, i, a2))
    | _ => sparg2 names end2 rest (idx + 1) i (a2 ++ [c])

/-- `src/u_/code_.rs:259-406`: the arguments `a2` and the position `end2a` after them; `end2a = 0` when
the definition has no separators.  `none`: the definition does not apply. -/
def sparg (d : Def) (a : List Code) (cs : Str) (end2 end_ idx idx2m : Nat) :
    Out (Option (List Code × Nat)) :=
  if d.names.hasGe then
    let names := d.names.a
    let word := match a[idx]? with | some c => c.s2 | none => []
    match sparg1 names d.backarg end2 cs word (names.length + d.backarg + 2) idx2m 0 [] with
    | .ok (i, a2) =>
      match sparg2 names end2 ((a.take end_).drop (idx + 1)) (idx + 1) i a2 with
      | .ok (some (idx', i, a2)) => if i < names.length then .ok none else .ok (some (a2, idx'))
      | .ok none => .ok none
      | .panic => .panic
      | .fuel => .fuel
    | .panic => .panic
    | .fuel => .fuel
  else .ok (some ([], 0))

/-- The arguments of a called definition (`src/u_/code_.rs:420-439`) are evaluated into the list
`args`; `h` is the borrow of the definition. -/
def z4Args (h : Held) (d : Def) (a : List Code) (cs : Str) (end2 end_ : Nat) (env : Env)
    (idx2 idx : Nat) (a2 : List Code) (end2a : Nat) (args : Nat) : Prog Res :=
  if d.argc = 0 then return { idx, idx2 }
  else do
    let r ← (if end2a = 0 then
        callP [h] (.z4 a cs end2 end_ { env with ret := args } ⟨idx2, true, idx, [], []⟩)
      else do
        let r ← callP [h] (.z2 a2 0 a2.length { env with ret := args })
        match r.r with
        | .ok () => return { idx := end2a, idx2 := end2 }
        | .error e => return { idx, idx2, r := .error e })
    match r.r with
    | .error e => return { idx := r.idx, idx2 := r.idx2, r := .error e }
    | .ok () =>
      let r' ← callP [h] (.z2 a r.idx end_ { env with gd := { env.gd with jvhao := true }, ret := args })
      match r'.r with
      | .error e => return { idx := r'.idx, idx2 := r.idx2, r := .error e }
      | .ok () => return { idx := if r'.idx ≥ end_ then r'.idx - 1 else r'.idx, idx2 := r.idx2 }

/-- Parsing through the cache, with `?`. -/
def parseE (src : Str) : E (List Code) := ExceptT.mk (doOp (.parse src))

/-- `jump_::return__` (`src/u_/jump_.rs:36-49`) at the end of an evaluation in scope `q`. -/
def returnP (q : Nat) (r : Except Err Unit) : E Unit := do
  let s ← (getSt : Prog St)
  ExceptT.mk (pure (jumpReturn (s.scopes q).i r))

/-- The body of a called definition found in scope `p`, in the fresh scope `q2`
(`src/u_/code_.rs:441-452`). -/
def z4Body (h : Held) (d : Def) (src : Str) (env : Env) (p q2 args : Nat) : E Unit := do
  let codes ← parseE src
  if d.backarg > 0 then
    let sep ← doOp (.newItem (.k (kw .dunhao)) [])
    let s ← (getSt : Prog St)
    match ← (ofOut (RList.backarg (s.lists env.ret) d.backarg sep (s.lists args)) : Prog _) with
    | none => fail (.msg c!"倒挂不足")
    | some (l, largs) =>
      doOp (.setList env.ret l)
      doOp (.setList args largs)
  let r ← callP [h] (.codes codes 0 usizeMax
    ⟨{ env.gd with jvhao := false }, q2, env.ret, some p⟩)
  returnP q2 r.r

/-- A definition with source `src` that was found at `idx3` is called
(`src/u_/code_.rs:417-460`). -/
def z4Call (a : List Code) (cs : Str) (end2 end_ : Nat) (env : Env) (st : Z4) (idx2 p k : Nat) (d : Def)
    (src : Str) (a2 : List Code) (end2a : Nat) : Prog Res := do
  let q2 ← doOp (.newScope d.name (some d.names) env.q)
  let s ← getSt
  let args := (s.scopes q2).args
  let r ← z4Args (.def_ p k) d a cs end2 end_ env idx2 st.idx a2 end2a args
  match r.r with
  | .error e => return { idx := r.idx, idx2 := r.idx2, has := true, r := .error e }
  | .ok () =>
    match ← (z4Body (.def_ p k) d src env p q2 args).run with
    | .error e => return { idx := r.idx, idx2 := r.idx2, has := true, r := .error e }
    | .ok () => callP [] (.z4 a cs end2 end_ env ⟨r.idx2, true, r.idx, [], st.buf⟩)

/-- One turn of the loop of `z4__` (`src/u_/code_.rs:250-475`). -/
def z4P (a : List Code) (cs : Str) (end2 end_ : Nat) (env : Env) (st : Z4) : Prog Res :=
  if st.idx2 < end2 then do
    let s ← getSt
    match findDef s.scopes s.mods cs st.idx2 end2 st.paichu env.q with
    | none =>
      match cs[st.idx2]? with
      | none => .panic
      | some c =>
        callP [] (.z4 a cs end2 end_ env
          { st with idx2 := st.idx2 + 1, buf := if st.has then st.buf ++ [c] else st.buf })
    | some (idx3, len, p, k) =>
      match (s.scopes p).defs[k]? with
      | none => .panic
      | some d =>
        match ← ofOut (sparg d a cs end2 end_ st.idx (idx3 + len)) with
        | none => callP [] (.z4 a cs end2 end_ env { st with paichu := st.paichu ++ [d.name] })
        | some (a2, end2a) =>
          addTs env.ret (((cs.take idx3).drop st.idx2).map fun c => [c])
          match d.val with
          | .si t =>
            addT env.ret t
            callP [] (.z4 a cs end2 end_ env ⟨idx3 + len, true, st.idx, [], st.buf⟩)
          | .s src => z4Call a cs end2 end_ env st (idx3 + len) p k d src a2 end2a
  else if st.has then do
    if !st.buf.isEmpty then addT env.ret st.buf
    return { idx := st.idx + 1, idx2 := st.idx2, has := true }
  else return { idx := st.idx, idx2 := st.idx2 }

/-! ## `u_/eval_.rs` -/

/-- `hello__` (`src/u_/eval_.rs:100-119`). -/
def srcP (src : Str) (env : Env) : E Unit := do
  let codes ← parseE src
  let r ← callP [] (.codes codes 0 usizeMax { env with gd := { du := env.gd.du, jie := env.gd.jie } })
  returnP env.q r.r

/-- `op__` of `ok_src2__` (`src/u_/eval_.rs:8-21`). -/
def openP (file : Str) (src2 : Bool) (q : Nat) : Prog Bool := do
  if ← doOp (.open_ file) then
    if src2 then doOp (.setSrc q file)
    doOp (.setIsFile q)
    return true
  else return false

/-- `op2__` of `ok_src2__` for several places (`src/u_/eval_.rs:24-45`). -/
def openFirst (src : Str) (src2 : Bool) (q : Nat) : List Str → Prog Bool
  | [] => return false
  | p :: ps => do
    match ← doOp (.fileName p src) with
    | some f =>
      if ← openP f src2 q then return true
      else openFirst src src2 q ps
    | none => openFirst src src2 q ps

/-- The places where a relative file name is looked up (`src/u_/eval_.rs:31-44`): the path of the
world, then the files of the enclosing scopes, nearest first. -/
def srcPlaces (s : St) (q : Nat) : List Str :=
  s.path ++ (visits s.scopes s.mods q true true false).filterMap fun (p, _) =>
    if (s.scopes p).srcIsFile then some (s.scopes p).src else none

/-- `ok_src2__` (`src/u_/eval_.rs:4-48`). -/
def okSrcP (src : Str) (src2 : Bool) (q : Nat) : Prog Bool := do
  match src with
  | [] => return false
  | c :: _ =>
    if c = '/' then openP src src2 q
    else
      let s ← getSt
      if ← openFirst src src2 q (srcPlaces s q) then return true
      else openP src src2 q

/-! ## Options of the interpreter: `clpars__` (`src/u_/world_.rs:198-353`) -/

/-- `shebang_flag_` (`src/u_/world_.rs:38`). -/
def SHEBANG : Str := c!"--。"

/-- Byte length and dropping bytes from the end: `&s[0..n]` panics inside a character. -/
def takeBytes : Nat → Str → Option Str
  | 0, _ => some []
  | _ + 1, [] => none
  | n + 1, c :: s =>
    let k := (encChar c).length
    if k ≤ n + 1 then (takeBytes (n + 1 - k) s).map (c :: ·) else none
termination_by _ s => s.length

/-- `add` (`src/u_/world_.rs:214-221`): the options written before the shebang flag. -/
def shebangOpts (plus : Bool) (s : Str) : Out (List Str) :=
  if !plus then .ok []
  else
    let n := (utf8 s).length
    let m := (utf8 SHEBANG).length
    if n ≤ m then .ok []
    else match takeBytes (n - 1 - m) s with
      | some s3 => .ok (split s3)
      | none => .panic

/-- The loop over the words (`src/u_/world_.rs:213-243`): the words kept, `has_src`, the source. -/
def shebangScan (otherZ plus : Bool) :
    List Str → (hasSrc is1 : Bool) → (src : Option Str) → Out (List Str × Bool × Option Str)
  | [], hasSrc, _, src => .ok ([], hasSrc, src)
  | s :: ws, hasSrc, is1, src => do
    if SHEBANG.isSuffixOf s then
      let opts ← shebangOpts plus s
      let (r, h, src) ← shebangScan otherZ plus ws hasSrc (hasSrc || is1) src
      return ((if hasSrc && otherZ then [[]] else []) ++ opts ++ r, h, src)
    else if hasSrc && is1 then shebangScan otherZ plus ws false false (some s)
    else
      let (r, h, src) ← shebangScan otherZ plus ws hasSrc is1 src
      return (s :: r, h, src)

/-- What the callback of `clpars__` does. -/
inductive CliAct where
  | src (s : Str)
  | arg (s : Str)
  | isCode
  | path (s : Str)
  | jhdh
  | ignore (s : Str)
deriving Repr, DecidableEq

/-- The option table (`src/u_/world_.rs:249-284`), release build. -/
def cliTable (otherZ : Bool) : List Clpars.Item :=
  [ .new c!"-zhscript-src-is-code" 0 .full [],
    .new c!"-zhscript-path" 1 .full [],
    .new c!"-zhscript-jhdh" 0 .full [],
    .new c!"-zhscript-d-tree" 0 .full [],
    .new c!"-zhscript-help" 0 .full [],
    .new c!"-zhscript-" 0 .starts c!"以此为头之其他将忽略",
    .new [] (if otherZ then Clpars.ARGC_Z else 0) .full [] ]

/-- The callback (`src/u_/world_.rs:286-352`), release build: state is `has_src` and the actions so
far.  `-zhscript-d-tree` switches on the printing of every parsed program as a tree, which is modelled on its own
(`Model/Tree.lean`) and left out of the runs. -/
def cliCb (otherZ : Bool) (st : Bool × List CliAct) (c : Clpars.Call) : Int × (Bool × List CliAct) :=
  let (hasSrc, acts) := st
  if c.item.typ = .starts then (0, (hasSrc, if c.i3 = 1 then acts ++ [.ignore c.word] else acts))
  else if c.word = c!"-zhscript-src-is-code" then (0, (hasSrc, acts ++ [.isCode]))
  else if c.word = c!"-zhscript-path" then (0, (hasSrc, acts ++ [.path (c.argv.headD [] ++ c!"/0")]))
  else if c.word = c!"-zhscript-jhdh" then (0, (hasSrc, acts ++ [.jhdh]))
  else if c.word = c!"-zhscript-d-tree" then (0, (hasSrc, acts))
  else if c.word = c!"-zhscript-help" then (Clpars.HELP, (hasSrc, acts))
  else
    (0, (false, acts ++
      (if hasSrc then [if c.word.head? = some '-' then .arg c.word else .src c.word] else []) ++
      (if otherZ then c.argv.map .arg else if hasSrc then [] else [.arg c.word])))

/-- `args.add__` of the callback (`src/u_/world_.rs:326-331`). -/
def cliArg (args : Nat) (t : Str) : Prog Unit := do
  let l ← getList args
  if !l.a.isEmpty then addDun args
  addT args t

/-- The actions, in order. -/
def cliActs (q : Nat) : List CliAct → Prog Unit
  | [] => pure ()
  | act :: acts => do
    match act with
    | .src s => doOp (.setSrc q s)
    | .arg t =>
      let s ← getSt
      cliArg (s.scopes q).args t
    | .isCode => doOp .srcIsCode
    | .path p => doOp (.path p)
    | .jhdh => doOp .jhdh
    | .ignore t => doOp (.emit (.err (c!"忽略 " ++ t ++ ['\n'])))
    cliActs q acts

/-- `clpars_ret__` (`src/u_/world_.rs:354-373`). -/
def clparsRet (r : Option (Int × Str)) : Except Err Unit :=
  match r with
  | none => .ok ()
  | some (c, s) =>
    if c = Clpars.ARG_NE then .error (.msg (quote s ++ c!"参数不足"))
    else if c = Clpars.TAG_NO then .error (.msg (quote s ++ c!"无效选项"))
    else if c = Clpars.HELP then .error (.msg s)
    else .ok ()

/-- `issue__` (`src/u_/world_.rs:194-196`): name and version of the package (`Cargo.toml:2-3`). -/
def issue : Str := c!"zhscript2 4.10.29" ++ ['\n']

/-- The first word (`src/u_/world_.rs:201-207`). -/
def shlP (hasShl : Bool) (a : List Str) : Prog (List Str) := do
  if hasShl then
    match a with
    | [] => .panic
    | shl :: a =>
      let s ← getSt
      if s.shl.head? ≠ some '/' then doOp (.shl shl)
      doOp (.path shl)
      return a
  else return a

/-- `clpars__` (`src/u_/world_.rs:198-353`). -/
def clparsP (a : List Str) (hasShl hasSrc otherZ plus : Bool) (q : Nat) : E Unit := do
  let a ← shlP hasShl a
  let (a2, hasSrc, src) ← (ofOut (shebangScan otherZ plus a hasSrc false none) : Prog _)
  match src with
  | some s => doOp (.setSrc q s)
  | none => pure ()
  let (r, (_, acts)) := Clpars.for3 (cliCb otherZ) (fun st _ => (0, st)) (cliTable otherZ) issue a2
    (hasSrc, [])
  cliActs q acts
  ExceptT.mk (pure (clparsRet r))

/-- `src2__` (`src/u_/eval_.rs:53-76`): the text of a file without its `#!` line. -/
def src2P (src : Str) (q : Nat) : E Str := do
  match ← doOp (.read src) with
  | .error e => fail (.msg (c!"\"" ++ src ++ c!"\" " ++ e))
  | .ok t =>
    if c!"#!".isPrefixOf t && t.contains '\n' then
      doOp (.touch q)
      clparsP (split ((t.takeWhile (· ≠ '\n')).drop 2)) true false false true q
      return (t.dropWhile (· ≠ '\n')).drop 1
    else return t

/-! ## Statements -/

/-- `src__` of `加载` (`src/load_.rs:29-40`): `none` when the module is already loaded. -/
def loadP (src : Str) (inCurQv : Bool) (q : Nat) : E (Option Str) := do
  let _ ← (okSrcP src (!inCurQv) q : Prog Bool)
  let s ← (getSt : Prog St)
  if s.mods.any fun m => (s.scopes m).src == (s.scopes q).src then return none
  else
    let t ← src2P (if inCurQv then src else (s.scopes q).src) q
    return some t

/-- `arg0_` (`src/eval_.rs:164-174`). -/
def evalArg0 (arg0 : Str) (iArg0 : List Code) (env : Env) : E Str := do
  if !arg0.isEmpty then return arg0
  else
    match iArg0 with
    | [.rem a] =>
      let r ← helloNew [] a env
      let l ← getList r
      return l.text
    | _ => return []

/-- `hello__` of `解释` and `加载` (`src/eval_.rs:129-180`). -/
def evalP (load inCurQv : Bool) (arg0 : Str) (iArg0 a : List Code) (sp : Nat) (spInEnd : Bool)
    (env : Env) : E Unit := do
  let q2 ← (if inCurQv then pure env.q else doOp (.newScope [] none env.q) : Prog Nat)
  doOp (.clearArgs1 q2)
  let s ← (getSt : Prog St)
  let args := (s.scopes q2).args
  if inCurQv && !(s.lists args).a.isEmpty && decide (a.length > 1) then addDun args
  let (src, rems) ← split2a [.scope q2] a sp { env with ret := args }
  match rems with
  | r :: _ => fail (errNoRem2 r)
  | [] =>
    split2b [.scope q2] a sp { env with ret := args }
    let l ← getList args
    if l.a.isEmpty && spInEnd then addT args []
    if !inCurQv then doOp (.setSrc q2 src)
    match ← (if load then loadP src inCurQv q2 else pure (some src) : E (Option Str)) with
    | none => return ()
    | some src2 =>
      if !inCurQv then
        let arg0 ← evalArg0 arg0 iArg0 env
        if !arg0.isEmpty then doOp (.setArg0 q2 arg0)
      callE [] (.src src2 { env with q := q2 })

/-- The names of an assignment in groups (`src/set_.rs:54-59` and 122-124): separated by `、`, a
separator at the end opens no further group. -/
def nameGroups : List Item → List Item → List (List Item)
  | [], cur => [cur]
  | i :: is, cur =>
    if i.dunhao then (if is.isEmpty then [cur] else cur :: nameGroups is [])
    else nameGroups is (cur ++ [i])

/-- The variables of the loop of `hello2__` of `赋予` (`src/set_.rs:40-50`); `obj` is `val2` when
`yes_val2`. -/
structure SetSt where
  vals : List Item
  dunEnd : Bool := false
  val : Str := []
  valRem : List Str := []
  obj : Option Item := none
  priv : Bool := false
  equ : Bool := false
  cnt : Nat := 0

/-- The loop over the values (`src/set_.rs:85-104`): the rest, whether a `、` at the end was seen, text,
annotations, object. -/
def takeVal (rems : Nat → List Str) : List Item → Str → List Str → Option Item →
    List Item × Bool × Str × List Str × Option Item
  | [], v, r, o => ([], false, v, r, o)
  | i :: is, v, r, o =>
    if i.dunhao then (is, is.isEmpty, v, r, o)
    else match i.val with
      | .o _ => takeVal rems is v r (some i)
      | _ => takeVal rems is (v ++ i.val.plainKw) (r ++ rems i.ref) o

/-- The value of the next assignment (`src/set_.rs:78-106`). -/
def SetSt.next (rems : Nat → List Str) (st : SetSt) : SetSt :=
  if st.dunEnd then { st with dunEnd := false, val := [], valRem := [], obj := none }
  else if st.vals.isEmpty then st
  else
    let (vals, dunEnd, val, valRem, obj) := takeVal rems st.vals [] [] none
    { st with vals, dunEnd, val, valRem, obj }

/-- `PRIV_` (`src/set_.rs:3`); `equ_name_::REM_` is `REM`. -/
def PRIV : Str := c!"私"

/-- The loop over the items of one name (`src/set_.rs:54-77`): name, scope, `is_priv`,
`gang_equ_name`. -/
def setName (s : St) (inq : Option Nat) : List Item → Str → Option Nat → Bool × Bool →
    Out (Except Err (Str × Option Nat × Bool × Bool))
  | [], name, q, x => .ok (.ok (name, q, x))
  | i :: is, name, q, x =>
    match rem4 s false inq
        (fun (x : Bool × Bool) r =>
          if r = PRIV then some (true, x.2) else if r = REM then some (x.1, true) else none)
        (s.items i.ref) q x with
    | .ok (.error e) => .ok (.error e)
    | .ok (.ok (q, x)) => setName s inq is (name ++ i.val.plainKw) q x
    | .panic => .panic
    | .fuel => .fuel

/-- `no_guandaojie__` (`src/u_/world_.rs:106-108`). -/
def errNoJie (c : Char) : Err := .msg (kwStr .guandaojie ++ quote [c] ++ c!"不支持")

/-- The piped results of an assignment (`src/set_.rs:109-121`); the new `cnt`. -/
def setJie (ret : Nat) (name : Str) (val : Item) : Str → (cnt : Nat) → E Nat
  | [], cnt => return cnt
  | c :: cs, cnt => do
    if cnt + 1 > 1 then addDun ret
    if c = '1' ∨ c = '名' then addT ret name
    else if c = '值' then addItem ret val
    else fail (errNoJie c)
    setJie ret name val cs (cnt + 1)

/-- The loop of `hello2__` of `赋予` (`src/set_.rs:51-125`) over the groups of names. -/
def setGo (isAlias : Bool) (env : Env) : List (List Item) → SetSt → E Unit
  | [], _ => return ()
  | g :: gs, st => do
    let s ← (getSt : Prog St)
    let (name, q, priv, equ) ← ExceptT.mk (ofOut (setName s env.inq g [] (some env.q) (st.priv, st.equ)))
    let st := { st with priv, equ }.next s.items
    let val ← (match st.obj with
      | some o => pure o
      | none => doOp (.newItem (.s st.val) st.valRem) : Prog Item)
    match q with
    | none => (Prog.panic : Prog Unit)
    | some q =>
      doOp (.setVar q ⟨name, val, isAlias, priv, equ⟩)
      let cnt ← setJie env.ret name val env.gd.jie st.cnt
      setGo isAlias env gs { st with cnt }

/-- `hello2__` of `赋予` and `别名` (`src/set_.rs:29-127`). -/
def setP (isAlias : Bool) (names vals : List Code) (env : Env) : E Unit := do
  let rn ← doOp .newList
  let rv ← doOp .newList
  hello [] names { env with gd := { env.gd with names := true }, ret := rn }
  hello [] vals { env with gd := { env.gd with vals := true }, ret := rv }
  let ln ← getList rn
  let lv ← getList rv
  setGo isAlias env (nameGroups ln.a []) { vals := lv.a }

/-- `NO_ARG_`, `BACK_ARG_` (`src/def_.rs:3-4`). -/
def NO_ARG : Str := c!"无参"
def BACK_ARG : Str := c!"倒挂"

/-- The digit loop of a failed `parse::<usize>` of the standard library: the first character that is
no digit or makes the number too large. -/
def usizeErrGo : Str → Nat → Str
  | [], _ => c!"number too large to fit in target type"
  | c :: cs, n =>
    if !c.isDigit then c!"invalid digit found in string"
    else if n * 10 + (c.toNat - 48) > usizeMax then c!"number too large to fit in target type"
    else usizeErrGo cs (n * 10 + (c.toNat - 48))

/-- `e.to_string()` of a failed `parse::<usize>` (`src/def_.rs:43-46`) for a text that is not empty; the
texts are those of the standard library's `ParseIntError`. -/
def usizeErr (s : Str) : Str :=
  if s = ['+'] ∨ s = ['-'] then c!"invalid digit found in string"
  else usizeErrGo (if s.head? = some '+' then s.tail else s) 0

/-- The annotations of a definition's name (`src/def_.rs:36-58`): `argc`, `backarg`, scope. -/
def defRems (s : St) : List Str → (argc : Nat) → (backarg : Nat) → (q : Option Nat) →
    Out (Except Err (Nat × Nat × Option Nat))
  | [], argc, backarg, q => .ok (.ok (argc, backarg, q))
  | r :: rs, argc, backarg, q =>
    if r = NO_ARG then defRems s rs 0 backarg q
    else if BACK_ARG.isPrefixOf r then
      match r.drop BACK_ARG.length with
      | [] => defRems s rs argc 1 q
      | t => match parseUsize t with
        | some n => defRems s rs argc n q
        | none => .ok (.error (.msg (usizeErr t)))
    else match rem4 s false none (fun (_ : Unit) _ => none) [r] q () with
      | .ok (.error e) => .ok (.error e)
      | .ok (.ok (q, _)) => defRems s rs argc backarg q
      | .panic => .panic
      | .fuel => .fuel

/-- `find__` with `can_eq = false` (`src/u_/def_.rs:122-140`): the first definition whose base name is a
proper prefix of the text. -/
def findCover (cs : Str) (ds : List Def) : Option Def :=
  ds.find? fun d => match withAt cs d.name0 0 with
    | some (_, eq) => !eq
    | none => false

/-- `hello__` of `定义` (`src/def_.rs:30-83`). -/
def defP (names vals : List Code) (sp : Nat) (env : Env) : E Unit := do
  let r2 ← doOp .newList
  let env2 := { env with gd := { env.gd with undefEqText := true }, ret := r2 }
  let (name, rems) ← split2a [] names sp env2
  let s ← (getSt : Prog St)
  let (argc, backarg, q2) ← ExceptT.mk (ofOut (defRems s rems usizeMax 0 (some env.q)))
  split2b [] names sp env2
  if name.isEmpty then fail (errKw .def_ c!"名空")
  else
    let s ← (getSt : Prog St)
    match (visits s.scopes s.mods env.q true false true).findSome? fun (p, _) =>
        findCover name (s.scopes p).defs with
    | some d => fail (errKw .def_ (c!"名" ++ quote name ++ c!"被" ++ quote d.name ++ c!"覆盖"))
    | none =>
      let r3 ← helloNew [] vals env
      let s ← (getSt : Prog St)
      let l2 := s.lists r2
      let argc := if l2.a.isEmpty then argc else l2.len
      match q2 with
      | none => (Prog.panic : Prog Unit)
      | some q =>
        doOp (.touch q)
        match ArgNames.new (l2.a.map fun i => (i, s.items i.ref)) with
        | .error e => fail e
        | .ok names => doOp (.setDef q (Def.mk' name (.s (s.lists r3).text) argc backarg names))

/-- Whether a module may get a name (`src/mod_.rs:26-46`). -/
def modCan (s : St) (name : Str) (v : List Str) : Option Bool :=
  if (v.drop 2).any (· ≠ c!"数据") then none
  else if s.mods.any fun q => (s.scopes q).name.contains name then none
  else if s.datas.any fun q => (s.scopes q).name.contains name then none
  else some !(v.drop 2).isEmpty

/-- `hello__` of `命名` and `模块` (`src/name_.rs:43-57`). -/
def nameP (isMod : Bool) (a : List Code) (env : Env) : E Unit := do
  let v ← helloVec a env
  let name := v.headD []
  let s ← (getSt : Prog St)
  let bad : E Unit := fail (.msg (c!"无法命名为" ++ quote name))
  let go : E Unit := doOp (.addName env.q name (v.tail.headD []))
  if name.isEmpty then bad
  else if isMod then
    match modCan s name v with
    | none => bad
    | some data =>
      doOp (.addMod data env.q)
      go
  else if v.length > 2 then bad
  else go

/-- The module with a name (`src/mod_free_.rs:26-47`): is it in `datas_`, position, scope. -/
def findMod (s : St) (name : Str) : Option (Bool × Nat × Nat) :=
  let f (l : List Nat) : Option (Nat × Nat) :=
    (l.zipIdx.find? fun (q, _) => (s.scopes q).name.contains name).map fun (q, i) => (i, q)
  match f s.mods with
  | some (i, q) => some (false, i, q)
  | none => (f s.datas).map fun (i, q) => (true, i, q)

/-- The loop of `hello__` of `释放模块` (`src/mod_free_.rs:25-60`). -/
def modFreeGo (env : Env) : List Str → E Unit
  | [] => return ()
  | name :: names => do
    let s ← (getSt : Prog St)
    match findMod s name with
    | none => modFreeGo env names
    | some (data, i, q2) =>
      let onFree := (s.scopes q2).onFree
      if !onFree.isEmpty then
        callE [.scope q2] (.src onFree { env with q := q2, inq := some q2 })
      doOp (.rmMod data i)
      modFreeGo env names

/-- The places of a `分叉` whose labels match (`src/switch_.rs:123-135`): `next` is where the next branch
starts. -/
def labelHits (target : Str) (range : Nat × Nat) : List Item → Str → List (Nat × Nat)
  | [], _ => []
  | i :: is, s2 =>
    let s2 := if i.dunhao then s2 else s2 ++ i.val.plainKw
    if i.dunhao || is.isEmpty then
      (if s2 = target then [range] else []) ++ labelHits target range is []
    else labelHits target range is s2

/-- The labels of one branch (`src/switch_.rs:120-138`). -/
def labelRanges (target : Str) (range : Nat × Nat) (l : List Item) : List (Nat × Nat) :=
  if l.isEmpty then (if target = [] then [range] else []) else labelHits target range l []

/-- The loop over the branches (`src/switch_.rs:97-141`): the ranges to be run. -/
def switchHits (case : List Code) (target : Str) (env : Env) : List (Nat × Nat) → E (List (Nat × Nat))
  | [] => return []
  | (from_, to) :: rest => do
    let r3 ← doOp .newList
    callE [] (.codes case from_ to { env with ret := r3 })
    let l ← getList r3
    let next := match rest with | [] => usizeMax | (f, _) :: _ => f
    let hs ← switchHits case target env rest
    return labelRanges target (to, next) l.a ++ hs

/-- The matching branches are run in order (`src/switch_.rs:150-152`). -/
def switchRun (case : List Code) (env : Env) : List (Nat × Nat) → E Unit
  | [] => return ()
  | (from_, to) :: rest => do
    callE [] (.codes case from_ to env)
    switchRun case env rest

/-- `hello__` of `分叉` and `分支` (`src/switch_.rs:87-155`). -/
def switchP (one : Bool) (a case : List Code) (from_ : List (Nat × Nat)) (default : Option Nat)
    (env : Env) : E Unit := do
  let v ← helloVec a env
  let env3 := { env with gd := { env.gd with jvhao := true, dunhao := false } }
  let hits ← switchHits case (v.headD []) env3 from_
  if hits.isEmpty then
    match default with
    | some i => callE [] (.codes case i usizeMax env3)
    | none => return ()
  else if one && decide (hits.length > 1) then fail (.msg c!"非唯一")
  else switchRun case env3 hits

/-- `OK_`, `CT_` (`src/if_.rs:5-6`). -/
def COND_OK : Int := 3000
def COND_CT : Int := 3001

/-- The comparison words (`src/if_.rs:36-45`). -/
def isCondKw (id : KwId) : Bool :=
  id == .or_ || id == .and_ || id == .not_ || id == .dengyu || id == .xiaoyudengyu || id == .xiaoyu ||
    id == .dayudengyu || id == .dayu

/-- `mv__` (`src/if_.rs:246-262`). -/
def condMv (can : Bool) (codes : List Code) (env2 : Env) (st : CondSt) : Prog (Except Err Unit × CondSt) := do
  let r ← callP [] (.codes codes st.from_ st.end_ { env2 with gd := {} })
  match r.r with
  | .error e => return (.error e, { st with from_ := r.idx })
  | .ok () =>
    let l ← getList env2.ret
    doOp (.setList env2.ret .empty)
    return (.ok (), { st with
      from_ := r.idx
      left := if can && !st.val.isEmpty then st.val else st.left
      val := l.toVec2 false })

/-- `fcmp` (`src/if_.rs:164-172`) with `cmp__`. -/
def condCmp (codes : List Code) (env2 : Env) (st : CondSt) : Prog (Except Err Unit × CondSt) := do
  if st.kuo then return (.ok (), { st with kuo := false })
  else
    match ← condMv true codes env2 st with
    | (.error e, st) => return (.error e, st)
    | (.ok (), st) =>
      let b ← doOp (.cmp st.op st.not st.left st.val)
      return (.ok (), { st with b, not := false, op := .undef })

/-- The next `或者` after position `idx`, or the end (`src/if_.rs:200-204`); `rest` are the items after
`idx`. -/
def nextOr : List Code → (idx : Nat) → Nat
  | [], idx => idx + 1
  | c :: rest, idx => if c.id = .or_ then idx + 1 else nextOr rest (idx + 1)

/-- One turn of the loop of `b2__` (`src/if_.rs:173-232`); the answer is `b`, in `has`. -/
def condP (codes : List Code) (env2 : Env) (st : CondSt) : Prog Res :=
  match codes[st.idx]? with
  | none => do
    let (r, st) ← condCmp codes env2 st
    match r with
    | .error e => return { has := st.b, r := .error e }
    | .ok () => return { has := st.b, r := .error (.n COND_CT) }
  | some c =>
    match c with
    | .block a => do
      let r3 ← doOp .newList
      let r ← callP [] (.cond a { env2 with ret := r3 } { b := st.b })
      let next := callP [] (.cond codes env2
        { st with kuo := true, b := r.has, from_ := st.from_ + 1, idx := st.idx + 1 })
      match r.r with
      | .error e => if e.i = COND_CT then next else return { has := r.has, r := .error e }
      | .ok () => next
    | _ =>
      if c.id = .or_ ∨ c.id = .and_ then do
        let (r, st) ← condCmp codes env2 { st with end_ := st.idx }
        match r with
        | .error e => return { has := st.b, r := .error e }
        | .ok () =>
          if c.id = .or_ ∧ st.b = true then return { has := st.b, r := .error (.n COND_OK) }
          else if c.id = .and_ ∧ st.b = false then
            let k := nextOr (codes.drop (st.idx + 1)) st.idx
            callP [] (.cond codes env2 { st with end_ := 0, from_ := k, idx := k, kuo := true })
          else
            callP [] (.cond codes env2 { st with end_ := 0, from_ := st.idx + 1, idx := st.idx + 1 })
      else if c.id = .not_ then
        callP [] (.cond codes env2 { st with
          not := !st.not
          from_ := if st.end_ = 0 then st.idx + 1 else st.from_
          end_ := if st.end_ = usizeMax then st.idx else st.end_
          idx := st.idx + 1 })
      else if isCondKw c.id then do
        let (r, st) ← condMv false codes env2
          { st with op := c.id, end_ := if st.end_ = usizeMax then st.idx else st.end_ }
        match r with
        | .error e => return { has := st.b, r := .error e }
        | .ok () => callP [] (.cond codes env2 { st with from_ := st.idx + 1, idx := st.idx + 1 })
      else callP [] (.cond codes env2 { st with end_ := usizeMax, idx := st.idx + 1 })

/-- `hello__` of `如果` (`src/if_.rs:286-315`). -/
def ifP (a th el : List Code) (env : Env) : E Unit := do
  let r2 ← doOp .newList
  let r ← (callP [] (.cond a { env with ret := r2 } {}) : Prog Res)
  let branch : E Unit := if r.has then hello [] th env else hello [] el env
  match r.r with
  | .error e => if e.i = COND_OK ∨ e.i = COND_CT then branch else fail e
  | .ok () => branch

/-- The value given to a loop variable (`src/for_.rs:195-203`).  The sum is exact: the counter stays far below
`2^63`. -/
def Cnt.value (cnt : Cnt) (i : Nat) : Str :=
  match cnt.start with
  | some i2 => intStr (i + i2)
  | none => natStr i

/-- `break__`, `continue__` (`src/for_.rs:13-30`). -/
def loopBreak (range : Bool) : Int := if range then BREAK2 else BREAK
def loopContinue (range : Bool) : Int := if range then CONTINUE2 else CONTINUE

/-- Does the loop take the jump (`src/for_.rs:221-236`). -/
def loopTakes (range : Bool) (name : Option Str) (e : Err) : Bool :=
  (decide (e.i = loopBreak range) || decide (e.i = loopContinue range)) &&
    (e.s.isEmpty || name == some e.s)

/-- One turn of the loop (`src/for_.rs:187-253`); the answer `has` is `has_name`. -/
def loopP (range : Bool) (codes : List Code) (max : Nat) (useI : Bool) (cnt : Cnt) (env : Env) (i : Nat)
    (hasName : Bool) : Prog Res :=
  let i := if useI then i + 1 else i
  if useI && decide (i > max) then return { has := hasName }
  else do
    match cnt.name with
    | some name =>
      let v ← doOp (.newItem (.s (cnt.value i)) [])
      doOp (.setVar env.q ⟨name, v, false, false, false⟩)
      if !hasName then doOp (.pushLabel name)
    | none => pure ()
    let hasName := cnt.name.isSome
    let again := callP [] (.loop range codes max useI cnt env i hasName)
    let stop (r : Except Err Unit) : Prog Res := return { has := hasName, r }
    if codes.isEmpty then (if range then stop (.ok ()) else again)
    else
      let r ← callP [] (.codes codes 0 usizeMax env)
      match r.r with
      | .ok () => if range then stop (.ok ()) else again
      | .error e =>
        if loopTakes range cnt.name e then
          (if e.i = loopBreak range then stop (.ok ()) else again)
        else stop (.error e)

/-- `hello__` of `循环` and `圈子` (`src/for_.rs:177-258`). -/
def forP (range : Bool) (cnt : Cnt) (rems codes : List Code) (env : Env) : E Unit := do
  let rs ← remsP rems env
  let cnt ← ExceptT.mk (pure (cntRems range rs 0 cnt))
  let (max, useI) := match cnt.max with
    | some i => (i.toNat, true)
    | none => (usizeMax - 1, cnt.name.isSome)
  let r ← callP [] (.loop range codes max useI cnt env 0 false)
  if r.has then doOp .popLabel
  ExceptT.mk (pure r.r)

/-- `hello__` of the jump statements (`src/u_/jump_.rs:55-127`). -/
def jumpP (k : JumpKind) (a : List Code) (env : Env) : E Unit := do
  let v ← helloVec a env
  let s ← (getSt : Prog St)
  fail (jumpErr k (fun w => (namedScope s.scopes s.mods env.q w).map fun p => (s.scopes p).i) s.labels
    (s.scopes env.q).i v)

/-- `hello__` of `管道接` (`src/guandaojie_.rs:38-52`). -/
def jieP (rems a : List Code) (env : Env) : E Unit := do
  let rs ← (if rems.isEmpty then pure [] else remsP rems env : E (List Str))
  let t := rs.flatten
  hello [] a { env with gd := { env.gd with jie := if t.isEmpty then c!"1" else t } }

/-- `hello__` of `管道节` (`src/guandaojie2_.rs:22-36`). -/
def jie2P (a : List Code) (env : Env) : E Unit := do
  let r ← (ExceptT.lift (hello [] a env).run : E (Except Err Unit))
  addDun env.ret
  match r with
  | .ok () => return ()
  | .error e =>
    addT env.ret (intStr e.i)
    addDun env.ret
    addT env.ret (intStr e.i2)
    addDun env.ret
    addT env.ret e.s
    addDun env.ret
    addT env.ret e.s2

/-- The options of `显示` (`src/print_.rs:33-41`): flush, to stderr, may be redirected. -/
def printOpts : List Str → Bool × Bool × Bool → Except Err (Bool × Bool × Bool)
  | [], x => .ok x
  | o :: os, (pf, ep, redir) =>
    if o = [] then printOpts os (true, ep, redir)
    else if o = c!"错" then printOpts os (pf, true, redir)
    else if o = c!"原" then printOpts os (pf, ep, false)
    else .error (errKw .print_ (quote o ++ c!"无效选项"))

/-- The nearest scope with a definition of `显示` and its text (`src/print_.rs:42-58`). -/
def printHandler (s : St) (q : Nat) : Option (Nat × Str) :=
  (chain s.scopes q).findSome? fun p =>
    ((s.scopes p).defs.find? fun d => d.name == kwStr .print_).map fun d => (p, d.val.text)

/-- The piped results of `显示` (`src/print_.rs:67-73`). -/
def printJie (ret : Nat) (t : Str) : Str → E Unit
  | [] => return ()
  | c :: cs => do
    if c = '1' then addT ret t else fail (errNoJie c)
    printJie ret t cs

/-- `hello__` of `显示` (`src/print_.rs:24-76`). -/
def printP (a : List Code) (env : Env) : E Unit := do
  let v ← helloVec a env
  match v with
  | [] => return ()
  | t :: opts =>
    let (pf, ep, redir) ← ExceptT.mk (pure (printOpts opts (false, false, true)))
    let s ← (getSt : Prog St)
    match (if redir then printHandler s env.q else none) with
    | some (p, src) =>
      let q ← doOp (.newScope [] none env.q)
      let s ← (getSt : Prog St)
      addT (s.scopes q).args t
      callE [.scope p] (.src src { env with q })
    | none =>
      doOp (.emit (if ep then .err t else .out t))
      if pf then doOp (.emit .flush)
      printJie env.ret t env.gd.jie

/-- `hello__` of `算术` (`src/expl_.rs:38-107`). -/
def explP (a : List Code) (env : Env) : E Unit := do
  let v ← helloVec a env
  match ← doOp (.expl v) with
  | .ok t => addT env.ret t
  | .error e => fail (.msg e)

/-! ### `执行` -/

/-- The options of `执行` (`src/exec_.rs:35-39`). -/
structure ExecOpts where
  cmd : Cmd
  out : Str := []
  err : Str := []
  mode : Option Char := none
  init : Str := []
  mode2 : Bool := false

/-- The option table (`src/exec_.rs:41-54`). -/
def execTable : List Clpars.Item :=
  [ .new c!"-cd" 1 .full c!"工作目录",
    .new c!"-env" 2 .full c!"环境变量",
    .new c!"-出" 1 .full c!"重定向之 stdout 用代码",
    .new c!"-错" 1 .full c!"重定向之 stderr 用代码",
    .new c!"-堵出" 0 .full [],
    .new c!"-堵错" 0 .full [],
    .new c!"-重定向" 0 .full [],
    .new c!"-被动者" 1 .full c!"后为初始化代码",
    .new c!"-被动者2" 1 .full [],
    .new c!"-并" 0 .full [],
    .new c!"-h|--help" 0 .full [],
    .new [] 0 .full [] ]

/-- The callback (`src/exec_.rs:55-76`). -/
def execCb (o : ExecOpts) (c : Clpars.Call) : Int × ExecOpts :=
  let w := c.word
  let x := c.argv.headD []
  if w = c!"-cd" then (0, { o with cmd := { o.cmd with cd := some x } })
  else if w = c!"-env" then (0, { o with cmd := { o.cmd with env := o.cmd.env ++ [(x, c.argv.tail.headD [])] } })
  else if w = c!"-出" then (0, { o with out := o.out ++ x })
  else if w = c!"-错" then (0, { o with err := o.err ++ x })
  else if w = c!"-堵出" then (0, { o with cmd := { o.cmd with noOut := true } })
  else if w = c!"-堵错" then (0, { o with cmd := { o.cmd with noErr := true } })
  else if w = c!"-重定向" then (0, { o with mode := some 'r' })
  else if w = c!"-被动者" ∨ w = c!"-被动者2" then
    (0, { o with init := x, mode := some 's', mode2 := o.mode2 || decide (w = c!"-被动者2") })
  else if w = c!"-并" then (0, { o with mode := some 'p' })
  else if w = c!"-h" ∨ w = c!"--help" then (Clpars.HELP, o)
  else (Clpars.TAG_NO, o)

/-- `exitcode__` (`src/exec_.rs:14-25`). -/
def exitcodeP (code : Option Int) (ret : Nat) : Prog Unit := do
  match code with
  | some i =>
    addT ret (intStr i)
    addDun ret
  | none =>
    addDun ret
    addT ret c!"Process terminated by signal"

/-- `err__` (`src/exec_.rs:91-96`). -/
def execErr (e : Str) (ret : Nat) : Prog Unit := do
  addT ret c!"255"
  addDun ret
  addT ret e

/-- Strip one line end (`src/exec_.rs:84-86`). -/
def chopLine (s : Str) : Str :=
  if ['\r', '\n'].isSuffixOf s then s.take (s.length - 2)
  else if ['\n'].isSuffixOf s then s.take (s.length - 1)
  else s

/-- `f3__` (`src/exec_.rs:79-90`) with one argument. -/
def execCode (src arg : Str) (env : Env) : E Unit := do
  let q ← doOp (.newScope [] none env.q)
  let s ← (getSt : Prog St)
  addT (s.scopes q).args (chopLine arg)
  callE [] (.src src { env with q })

/-- Write texts to the process (`src/exec_.rs:116-121`): stop at the first error. -/
def writeAll (h : Nat) : List Str → Prog Unit
  | [] => pure ()
  | t :: ts => do
    match ← doOp (.write h t) with
    | some e => doOp (.emit (.err (e ++ ['\n'])))
    | none => writeAll h ts

/-- `f2__` (`src/exec_.rs:112-123`). -/
def execPipe (h : Nat) (src arg : Str) (env : Env) : E Unit := do
  let r3 ← doOp .newList
  execCode src arg { env with ret := r3 }
  let l ← getList r3
  writeAll h l.toVec

/-- One stream of the loop (`src/exec_.rs:138-147`, 148-157): the rest of the buffer, or `none` to leave
the loop. -/
def slaveStream (h : Nat) (err : Bool) (src buf : Str) (env : Env) : Prog (Option Str) := do
  if src.isEmpty then return some buf
  else
    match ← doOp (.readLine h err) with
    | .ok t =>
      if t.isEmpty then return none
      else
        let _ ← (execPipe h src (buf ++ t) env).run
        return some []
    | .error e =>
      doOp (.emit (.err (e ++ ['\n'])))
      return some buf

/-- One turn of the loop over the output of a passive process (`src/exec_.rs:137-158`). -/
def slaveP (h : Nat) (outSrc errSrc buf : Str) (env : Env) : Prog Res := do
  match ← slaveStream h false outSrc buf env with
  | none => return {}
  | some buf =>
    match ← slaveStream h true errSrc buf env with
    | none => return {}
    | some buf => callP [] (.slave h outSrc errSrc buf env)

/-- The lines of captured output (`src/exec_.rs:178-185`). -/
def execLines (src : Str) (env : Env) : List (Except Str Str) → E Unit
  | [] => return ()
  | .ok t :: ls => do
    let r ← doOp .newList
    execCode src t { env with ret := r }
    execLines src env ls
  | .error e :: ls => do
    doOp (.emit (.err (e ++ ['\n'])))
    execLines src env ls

/-- `f__` (`src/exec_.rs:170-189`) for one captured stream, and the case `"0"` (190-199). -/
def execOut (src : Str) (c : Captured) (err : Bool) (env : Env) : E Unit := do
  if src = c!"0" then doOp (.emit (if err then .errBytes c.bytes else .outBytes c.bytes))
  else
    if src.isEmpty then
      match c.text with
      | .ok t => addT env.ret t
      | .error e => doOp (.emit (.err (e ++ ['\n'])))
    else execLines src env c.lines
    addDun env.ret

/-- Running the command (`src/exec_.rs:99-224`). -/
def execRun (o : ExecOpts) (env : Env) : E Unit := do
  let mode := if o.mode = none ∧ (o.out ≠ [] ∨ o.err ≠ []) then some 'r' else o.mode
  match mode with
  | some 's' =>
    match ← doOp (.exec .pipes o.cmd) with
    | .child pid =>
      execPipe pid o.init (natStr pid) env
      if o.mode2 then addVal env.ret (.o pid) []
      else
        let _ ← (callP [] (.slave pid o.out o.err [] env) : Prog Res)
      addDun env.ret
    | .fail e => execErr e env.ret
    | _ => (Prog.panic : Prog Unit)
  | some 'r' =>
    match ← doOp (.exec .output o.cmd) with
    | .output code out err =>
      exitcodeP code env.ret
      execOut o.out out false env
      execOut o.err err true env
    | .fail e => execErr e env.ret
    | _ => (Prog.panic : Prog Unit)
  | some 'p' =>
    match ← doOp (.exec .spawn o.cmd) with
    | .child pid =>
      addDun env.ret
      addT env.ret (natStr pid)
    | .fail e => execErr e env.ret
    | _ => (Prog.panic : Prog Unit)
  | _ =>
    match ← doOp (.exec .status o.cmd) with
    | .status code => exitcodeP code env.ret
    | .fail e => execErr e env.ret
    | _ => (Prog.panic : Prog Unit)

/-- `hello2__` of `执行` (`src/exec_.rs:27-225`). -/
def exec2P (v : List Str) (env : Env) : E Unit := do
  match v with
  | [] => fail .qve
  | w :: opts =>
    match split w with
    | [] => fail .qve
    | prog :: args =>
      let (r, o) := Clpars.for3 execCb (fun o _ => (0, o)) execTable [] opts { cmd := { prog, args } }
      let _ ← ExceptT.mk (pure (clparsRet r))
      execRun o env

/-- Writing to a passive process (`src/exec_.rs:271-280`). -/
def objWrite (h ret : Nat) : List Str → Prog Unit
  | [] => pure ()
  | t :: ts => do
    match ← doOp (.write h t) with
    | some e => addT ret e
    | none => pure ()
    objWrite h ret ts

/-- `hello__` of `执行` (`src/exec_.rs:261-287`). -/
def execP (a : List Code) (env : Env) : E Unit := do
  let r2 ← helloNew [] a env
  let l ← getList r2
  match l.last? with
  | some ⟨_, .o h⟩ => objWrite h env.ret (l.toVec4 (l.a.length - 1) true)
  | _ => exec2P l.toVec env

/-- `hello__` of a code item. -/
def itemP (c : Code) (env : Env) : E Unit :=
  match c with
  | .undef s => addT env.ret s
  | .text s => addT env.ret s
  | .kw1 id => if id = .brkpoint then pure () else addKwI env.ret id
  | .kw2 id => addT env.ret (kwStr id)
  | .remS s => do
    let r2 ← doOp .newList
    addT r2 s
    remP r2 env
  | .rem a => do
    let r2 ← helloNew [] a env
    remP r2 env
  | .simp name rems => simpP name rems env
  | .args rems begin_ end_ line => do
    let q ← var1P rems (argsName begin_ end_ line) env
    argsP false q begin_ end_ line env.ret
  | .argc rems => do
    let q ← var1P rems ARGC env
    argcP false q env.ret
  | .argi rems i => do
    let q ← var1P rems (ARG ++ intStr i) env
    argiP i false false [] q env.ret
  | .arg0 rems zero => do
    let q ← var1P rems (ARG ++ zero) env
    arg0P zero false q env.ret
  | .var _ a => do
    let r2 ← helloNew [] a env
    let l ← getList r2
    callE [] (.get l.a false {} env)
  | .has a => do
    let r2 ← helloNew [] a env
    let l ← getList r2
    callE [] (.get l.a true {} env)
  | .block a => hello [] a { env with gd := { env.gd with jvhao := false } }
  | .for_ range cnt rems codes => forP range cnt rems codes env
  | .jump k a => jumpP k a env
  | .if_ a th el => ifP a th el env
  | .switch one a case from_ default => switchP one a case from_ default env
  | .du a => do
    let r ← doOp .newList
    hello [] a { env with gd := { env.gd with du := true }, ret := r }
  | .jie rems a => jieP rems a env
  | .jie2 a => jie2P a env
  | .mod_ a => nameP true a env
  | .name a => nameP false a env
  | .modFree a => do
    let v ← helloVec a env
    modFreeGo env v
  | .set_ names vals => setP false names vals env
  | .alias names vals => setP true names vals env
  | .def_ names vals sp => defP names vals sp env
  | .eval load inCurQv arg0 iArg0 a sp spInEnd => evalP load inCurQv arg0 iArg0 a sp spInEnd env
  | .print a => printP a env
  | .expl a => explP a env
  | .exec a => execP a env

/-- The program of an evaluation with `?` as the program of a call. -/
def resE (p : E Unit) : Prog Res := do
  let r ← p.run
  return { r }

/-- The evaluation functions. -/
def evalF : Call → Prog Res
  | .codes a idx end_ env => codesP a idx end_ env
  | .z2 a idx end_ env => z2P a idx end_ env
  | .z4 a cs end2 end_ env st => z4P a cs end2 end_ env st
  | .item c env => resE (itemP c env)
  | .src s env => resE (srcP s env)
  | .loop range codes max useI cnt env i hasName => loopP range codes max useI cnt env i hasName
  | .cond codes env2 st => condP codes env2 st
  | .get l isHas equ env => resE (get2P l isHas equ env)
  | .slave h o e buf env => slaveP h o e buf env

/-- Evaluation with at most `n` nested calls. -/
def run (H : Host) : Nat → Call → St → Out Res × St
  | 0, _, s => (.fuel, s)
  | n + 1, c, s => (evalF c).interp H (run H n) s

/-! ## The whole run: `u_/world_.rs`, `main.rs` -/

/-- `World_::new` (`src/u_/world_.rs:36-51`) and `World_::hello__` (152-156): scope 0 is the top scope with
the four built-in names, scope 1 the scope of the script; list 2 collects the results. -/
def St.init (ovf : Bool) : St :=
  let d (name v : Str) : Def := Def.mk' name (.si v) 0 0 ⟨[], false⟩
  { items := fun _ => [], nitem := 0
    lists := fun _ => .empty, nlist := 3
    scopes := fun n =>
      if n = 0 then
        { Scope.new [TOP] [] [] none none 0 with
          defs := [d c!"换行" ['\n'], d c!"回车" ['\r'], d c!"制表符" ['\t'], d c!"ESC" ['\x1b']] }
      else Scope.new [] [] [] none (some (0, 0)) 1
    nscope := 2
    mods := [], datas := [], path := [], shl := [], srcIsFile := true, jhdh := false, cache := []
    labels := [], held := [], trace := [], ovf }

/-- The environment of the script (`src/u_/world_.rs:191`, `src/u_/code_/env_.rs:15-18`). -/
def Env.init : Env := ⟨{}, 1, 2, none⟩

/-- `val__` of the top scope (`src/u_/world_.rs:170-175`). -/
def topVal (name val : Str) : Prog Unit := do
  let v ← doOp (.newItem (.s val) [])
  doOp (.setVar 0 ⟨name, v, false, false, false⟩)

/-- `hello__` (`src/u_/world_.rs:166-192`) as started by `main` (`src/main.rs`). -/
def mainP (argv : List Str) : E Unit := do
  clparsP argv true true true false 1
  let s ← (getSt : Prog St)
  topVal c!"外壳" s.shl
  topVal c!"窗口" c!"linux"
  let q := s.scopes 1
  let src ← (if s.srcIsFile then do
      let _ ← (okSrcP q.src true 1 : Prog Bool)
      let s ← (getSt : Prog St)
      src2P (s.scopes 1).src 1
    else pure q.src : E Str)
  callE [] (.src src Env.init)

/-- A run of the interpreter with the words `argv` (the first one is the interpreter itself): the
`Result2_` of `hello__` and the final state.  The exit status is `worldRet` of the result. -/
def runMain (H : Host) (n : Nat) (ovf : Bool) (argv : List Str) : Out (Except Err Unit) × St :=
  (mainP argv).run.interp H (run H n) (St.init ovf)

end Zh
