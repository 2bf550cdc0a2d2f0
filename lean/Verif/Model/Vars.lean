import Verif.Model.ResultList
/-!
# Variables, definitions and scope lookup

`u_/var_.rs`, `u_/def_.rs`, `u_/def_/argname_.rs`, `u_/equ_name_.rs` and the lookups of `u_/qv_.rs`.
-/
namespace Zh

/-! ## Variables: `u_/var_.rs` -/

/-- `Item_` (`src/u_/var_.rs:13-19`). -/
structure Var where
  name : Str
  val : Item
  alias : Bool
  priv : Bool
  equ : Bool
deriving Repr, DecidableEq

/-- `val2__` (`src/u_/var_.rs:39-49`): replace the first variable of that name in place, or append. -/
def setVar (v : Var) : List Var → List Var
  | [] => [v]
  | w :: ws => if w.name = v.name then v :: ws else w :: setVar v ws

/-- The search of `get2__` (`src/u_/var_.rs:52-58`); `noSelf`: looking from another scope. -/
def findVar (noSelf : Bool) (name : Str) (vs : List Var) : Option Var :=
  vs.find? fun v => !(noSelf && v.priv) && v.name == name

/-- `equ_name__` (`src/u_/equ_name_.rs:3-9`): does the value stand for the name itself. -/
def equName (s : Str) : Bool := s == c!"-" || s == c!"true"

/-- What reading a name does. -/
inductive GetAct where
  /-- follow an alias: the item is added to the alias list; the flag: `ret_equ_name.by__(name)` -/
  | alias (it : Item) (byName : Bool)
  /-- append the text `"1"` with a copy of this item's annotations -/
  | hasVar (it : Item)
  /-- append the name, and `ret_equ_name.by__(name)` -/
  | name
  /-- found, append nothing -/
  | nothing
  /-- append this very item -/
  | val (it : Item)
  /-- append a fresh item with this text -/
  | text (s : Str)
  /-- an argument name: read argument `i` of the scope -/
  | arg (i : Nat) (equ : Bool)
deriving Repr, DecidableEq

/-- What `get2__` does with the variable found (`src/u_/var_.rs:59-85`); `equ` is `equ_name.equ_`. -/
def Var.act (v : Var) (isHas equ : Bool) : GetAct :=
  if v.alias then .alias v.val v.equ
  else if isHas then .hasVar v.val
  else if v.equ && (match v.val.val with | .s s => equName s | _ => false) then .name
  else if equ then .nothing
  else .val v.val

/-! ## Definitions: `u_/def_.rs`, `u_/def_/argname_.rs` -/

/-- `ArgName_` (`src/u_/def_/argname_.rs:7-12`). -/
structure ArgName where
  s : Str
  i : Nat
  ge : Bool
  equ : Bool
deriving Repr, DecidableEq

/-- `ArgNames_` (`src/u_/def_/argname_.rs:15-18`). -/
structure ArgNames where
  a : List ArgName
  hasGe : Bool
deriving Repr, DecidableEq

/-- The annotation words (`src/u_/def_/argname_.rs:4`, `src/u_/equ_name_.rs:1`). -/
def SP : Str := c!"隔"
def REM : Str := c!"值"

/-- The local variables of `ArgNames_::new`. -/
structure ArgNamesSt where
  a : List ArgName
  hasGe : Bool
  s : Str
  isGe : Bool
  equ : Bool
  cnt : Nat
  empty : Bool
deriving Repr, DecidableEq

/-- The closure `add__` (`src/u_/def_/argname_.rs:37-48`).  `equ_name_` is not reset. -/
def ArgNamesSt.push (st : ArgNamesSt) : ArgNamesSt :=
  if st.empty then st
  else
    let cnt := if st.isGe then st.cnt else st.cnt + 1
    { st with a := st.a ++ [⟨st.s, if st.isGe then 0 else cnt, st.isGe, st.equ⟩], s := [], cnt := cnt,
              isGe := false, empty := true }

/-- `no_rem2__` (`src/u_/world_.rs:103-105`). -/
def errNoRem2 (s : Str) : Err :=
  .msg (c!"注解" ++ kwStr .beginText ++ s ++ kwStr .endText ++ c!"不支持")

/-- The loop over the annotations of one item (`src/u_/def_/argname_.rs:57-68`). -/
def argNamesRems : List Str → ArgNamesSt → Except Err ArgNamesSt
  | [], st => .ok st
  | r :: rs, st =>
    if r = SP then argNamesRems rs { st with isGe := true, hasGe := true }
    else if r = REM then argNamesRems rs { st with equ := true }
    else .error (errNoRem2 r)

/-- The loop over the items (`src/u_/def_/argname_.rs:49-69`): items with their annotations. -/
def argNamesGo : List (Item × List Str) → ArgNamesSt → Except Err ArgNamesSt
  | [], st => .ok st.push
  | (i, rems) :: is, st =>
    if i.dunhao then argNamesGo is st.push
    else match argNamesRems rems { st with empty := false, s := st.s ++ i.val.plain } with
      | .error e => .error e
      | .ok st => argNamesGo is st

/-- `ArgNames_::new` (`src/u_/def_/argname_.rs:26-73`); no names at all is the empty list. -/
def ArgNames.new (is : List (Item × List Str)) : Except Err ArgNames :=
  match argNamesGo is ⟨[], false, [], false, false, 0, true⟩ with
  | .ok st => .ok ⟨st.a, st.hasGe⟩
  | .error e => .error e

/-- `Val_` (`src/u_/def_.rs:12-16`) without the native functions `F`. -/
inductive DefVal where
  | s (src : Str)
  | si (s : Str)
deriving Repr, DecidableEq

/-- `Item_` (`src/u_/def_.rs:20-28`).  `names_` is always `Some` (see `val2__`). -/
structure Def where
  name : Str
  name0 : Str
  names : ArgNames
  val : DefVal
  argc : Nat
  backarg : Nat
deriving Repr, DecidableEq

/-- `mk_arg0__`, `ch_arg0__` (`src/u_/def_.rs:38-56`): the full pattern of a definition. -/
def mkArg0 (name : Str) (names : ArgNames) : Str :=
  if names.hasGe then name ++ names.a.flatMap fun i => if i.ge then i.s else ['.'] else name

/-- The update of `val2__` (`src/u_/def_.rs:91-100`): replace the first definition with the same full
pattern in place (keeping its names `name_`, `name0_`), or append.  The index is the cell written or
the new one. -/
def setDef (d : Def) : List Def → List Def
  | [] => [d]
  | e :: es =>
    if e.name = d.name then { d with name := e.name, name0 := e.name0 } :: es else e :: setDef d es

/-- The search of `val2__` and `get__` (`src/u_/def_.rs:92`, `105`). -/
def findDefName (name : Str) (ds : List Def) : Option Nat := ds.findIdx? fun d => d.name == name

/-- A definition as `val2__` builds it (`src/u_/def_.rs:85-99`). -/
def Def.mk' (name : Str) (val : DefVal) (argc backarg : Nat) (names : ArgNames) : Def :=
  ⟨mkArg0 name names, name, names, val, argc, backarg⟩

/-- The text of a definition's body (`src/u_/def_.rs:110-114`). -/
def DefVal.text : DefVal → Str
  | .s t => t
  | .si t => t

/-- `find__` (`src/u_/def_.rs:122-140`) with `can_eq = true`: index of the definition and matched
length; `paichu` are the excluded patterns. -/
def findDefAt (cs : List Char) (from_ : Nat) (paichu : List Str) (ds : List Def) : Option (Nat × Nat) :=
  (ds.zipIdx.findSome? fun (d, k) =>
    if paichu.contains d.name then none
    else (withAt cs d.name0 from_).map fun (len, _) => (k, len))

/-! ## Scopes: `u_/qv_.rs` -/

/-- `Qv_` (`src/u_/qv_.rs:125-143`) without the native objects.  `up` and `args` are references. -/
structure Scope where
  name : List Str
  src : Str
  srcIsFile : Bool
  vars : List Var
  defs : List Def
  up : Option Nat
  i : Int
  onFree : Str
  arg0 : Str
  args : Nat
  argnames : Option ArgNames
  argsTo1 : Bool
  args1 : Str
deriving Repr, DecidableEq

/-- `new6` (`src/u_/qv_.rs:161-170`): `upi` is the depth of the parent; `args` a fresh list. -/
def Scope.new (name : List Str) (src arg0 : Str) (argnames : Option ArgNames) (up : Option (Nat × Int))
    (args : Nat) : Scope :=
  { name, src, srcIsFile := false, vars := [], defs := [], up := up.map (·.1),
    i := match up with | some (_, i) => i + 1 | none => 0,
    onFree := [], arg0, args, argnames, argsTo1 := false, args1 := [] }

/-- The scopes from `q` upwards.  Parents are older than children (`C42`), so the recursion is on the
reference; for a parent that is not older (never the case) the chain would end. -/
def chain (scopes : Nat → Scope) (q : Nat) : List Nat :=
  q :: match (scopes q).up with
    | some p => if _h : p < q then chain scopes p else []
    | none => []
termination_by q

/-- The scopes visited by `for3__` (`src/u_/qv_.rs:72-98`), in order, with the flag given to the
callback. -/
def visits (scopes : Nat → Scope) (mods : List Nat) (q : Nat) (next noSelf incMod : Bool) :
    List (Nat × Bool) :=
  (if noSelf then [] else [(q, false)]) ++
    (if next then
      ((chain scopes q).tail.map fun p => (p, true)) ++
        (if incMod then mods.map fun m => (m, true) else [])
     else [])

/-- What one scope answers in `get__` (`src/u_/qv_.rs:26-49`). -/
def Scope.get (q : Scope) (name : Str) (isHas equ noSelf : Bool) : Option GetAct :=
  match findVar noSelf name q.vars with
  | some v => some (v.act isHas equ)
  | none =>
    match q.defs.find? fun d => d.name == name with
    | some d => some (if isHas then .text c!"1" else .text d.val.text)
    | none =>
      match q.argnames with
      | some names => (names.a.find? fun i => !i.ge && i.s == name).map fun i => .arg i.i i.equ
      | none => none

/-- The search of `get__` (`src/u_/qv_.rs:24-52`): the scope found and what to do. -/
def getName (scopes : Nat → Scope) (mods : List Nat) (q : Nat) (name : Str)
    (isHas equ canUp noSelf : Bool) : Option (Nat × GetAct) :=
  (visits scopes mods q (!isHas && canUp) noSelf true).findSome? fun (p, ns) =>
    ((scopes p).get name isHas equ ns).map fun a => (p, a)

/-- `find_def__` (`src/u_/qv_.rs:54-64`): position, matched length, scope and index of the definition;
`n` is the number of positions left. -/
def findDefGo (scopes : Nat → Scope) (mods : List Nat) (cs : List Char) (paichu : List Str) (q : Nat) :
    (idx n : Nat) → Option (Nat × Nat × Nat × Nat)
  | _, 0 => none
  | idx, n + 1 =>
    match (visits scopes mods q true false true).findSome? fun (p, _) =>
        (findDefAt cs idx paichu (scopes p).defs).map fun (k, len) => (idx, len, p, k) with
    | some r => some r
    | none => findDefGo scopes mods cs paichu q (idx + 1) n

/-- `find_def__` (`src/u_/qv_.rs:54-64`). -/
def findDef (scopes : Nat → Scope) (mods : List Nat) (cs : List Char) (from_ end_ : Nat)
    (paichu : List Str) (q : Nat) : Option (Nat × Nat × Nat × Nat) :=
  findDefGo scopes mods cs paichu q from_ (end_ - from_)

/-- The scope in which an assignment or definition started at `q` is stored: `for__` with a callback
that answers at once (`src/u_/qv_.rs:10-22`), so `q` itself. -/
def scopeOfSet (q : Nat) : Nat := q

/-- The nearest scope with a name (`src/u_/qv_/rem4_.rs:30-35`, `src/u_/jump_.rs:72-81`). -/
def namedScope (scopes : Nat → Scope) (mods : List Nat) (q : Nat) (s : Str) : Option Nat :=
  (visits scopes mods q true false true).findSome? fun (p, _) =>
    if (scopes p).name.contains s then some p else none

end Zh
