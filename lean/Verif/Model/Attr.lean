import Verif.Model.Str
/-!
# Attributes (`u_/code_/attr_.rs`)

Nothing in this crate creates attribute sets (`Env_::new` starts with none, `src/u_/code_/env_.rs:16`, and
no code item replaces `fa`); the module is meant for code items that a host program adds.
-/
namespace Zh

/-- `ATTR_`, `ATTRNAME_` (`src/u_/code_/attr_.rs:6-7`). -/
def ATTR : Str := c!"属性"
def ATTRNAME : Str := c!"属性名"

/-- `Item_` (`src/u_/code_/attr_.rs:62-66`) without `up_`: a chain is a list of sets, nearest first.  The
`HashMap` is a list of pairs with one pair for each key. -/
structure AttrSet where
  a : List (Str × Str)
  idx : List Str
deriving Repr, DecidableEq

/-- `new` (`src/u_/code_/attr_.rs:69-71`). -/
def AttrSet.empty : AttrSet := ⟨[], []⟩

/-- `HashMap::insert`. -/
def mapInsert (n v : Str) : List (Str × Str) → List (Str × Str)
  | [] => [(n, v)]
  | (m, w) :: r => if m = n then (n, v) :: r else (m, w) :: mapInsert n v r

/-- `HashMap::get`. -/
def mapGet (n : Str) (l : List (Str × Str)) : Option Str := (l.find? fun p => p.1 == n).map (·.2)

/-- `add__` (`src/u_/code_/attr_.rs:72-78`). -/
def AttrSet.add (s : AttrSet) (n v : Str) : AttrSet :=
  ⟨mapInsert n v s.a, if s.idx.contains n then s.idx else s.idx ++ [n]⟩

/-- The text appended for an attribute (`src/u_/code_/attr_.rs:26-30`, `50-54`). -/
def attrText (isHas : Bool) (t : Str) : Str := if isHas then c!"1" else t

/-- The first loop of `get__` (`src/u_/code_/attr_.rs:22-35`), for `idx1 > 0`. -/
def attrName (isHas : Bool) (idx1 : Nat) : List AttrSet → Option Str
  | [] => none
  | s :: up => match s.idx[idx1 - 1]? with
    | some n => some (attrText isHas n)
    | none => attrName isHas idx1 up

/-- The name after a number was looked up in one set (`src/u_/code_/attr_.rs:43-48`). -/
def attrResolve (s : AttrSet) (name : Str) : Str :=
  match parseUsize name with
  | some k => if 0 < k ∧ k ≤ s.idx.length then s.idx.getD (k - 1) [] else name
  | none => name

/-- The second loop (`src/u_/code_/attr_.rs:41-57`); a name found for a number is kept for the sets further
up. -/
def attrVal (isHas : Bool) : Str → List AttrSet → Option Str
  | _, [] => none
  | name, s :: up =>
    let name := attrResolve s name
    match mapGet name s.a with
    | some t => some (attrText isHas t)
    | none => attrVal isHas name up

/-- `get__` (`src/u_/code_/attr_.rs:16-60`): the text appended to `ret`, or `none` for the answer `false`. -/
def attrGet (chain : List AttrSet) (name : Str) (isHas : Bool) : Option Str :=
  let first : Option Str :=
    if ATTRNAME.isPrefixOf name then
      match parseUsize (name.drop ATTRNAME.length) with
      | some k => if 0 < k then attrName isHas k chain else none
      | none => none
    else none
  match first with
  | some t => some t
  | none => if ATTR.isPrefixOf name then attrVal isHas (name.drop ATTR.length) chain else none

end Zh
