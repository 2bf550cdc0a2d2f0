import Verif.Model.Str
/-!
# `u2_/clpars_.rs`: the option parser
-/
namespace Zh.Clpars

/-- `Typ_` (`src/u2_/clpars_.rs:15-21`).  The `X` variant (host-supplied matcher) is not used in this
crate and is left out. -/
inductive Typ where
  | full | starts | ends | has
deriving Repr, DecidableEq

/-- `Item_` (`src/u2_/clpars_.rs:31-38`) without the callback field `cb_` (only used by `for2__`,
which nothing calls). -/
structure Item where
  tag : Str
  tagv : List Str
  argc : Nat
  typ : Typ
  rem : Str
deriving Repr, DecidableEq

/-- Constants (`src/u2_/clpars_.rs:43-47`). -/
def ARGC_Z : Nat := 1000000000
def ARG_NE : Int := 250
def HELP : Int := 251
def TAG_NO : Int := 252

/-- `new__` (`src/u2_/clpars_.rs:111-118`). -/
def Item.new (tag : Str) (argc : Nat) (typ : Typ) (rem : Str) : Item :=
  ⟨tag, split2 tag ['|'] false true true, argc, typ, rem⟩

/-- `tag.contains(i)` on strings. -/
def isInfix (i : Str) : Str → Bool
  | [] => i.isEmpty
  | c :: cs => i.isPrefixOf (c :: cs) || isInfix i cs

/-- One tag spelling against a word (`src/u2_/clpars_.rs:124-130`). -/
def Typ.hit (t : Typ) (tag i : Str) : Bool :=
  match t with
  | .full => tag == i
  | .starts => i.isPrefixOf tag
  | .ends => i.isSuffixOf tag
  | .has => isInfix i tag

/-- `tag__` (`src/u2_/clpars_.rs:119-135`) as used (`i4 >= 0`): does the word match a non-empty
spelling. -/
def Item.hit (it : Item) (word : Str) : Bool :=
  it.tagv.any fun i => !i.isEmpty && it.typ.hit word i

/-- `can_1__` (`src/u2_/clpars_.rs:175-177`). -/
def Item.can1 (it : Item) : Bool := it.tag.isEmpty && decide (it.argc > 0) && decide (it.argc < ARGC_Z)

/-- The number of words `add__` takes (`src/u2_/clpars_.rs:160-166`). -/
def Item.cnt (it : Item) : Nat := if it.can1 then it.argc - 1 else it.argc

/-- The number of words that must be there (`src/u2_/clpars_.rs:198-204`). -/
def Item.need (it : Item) (argc0 : Nat) : Nat :=
  let argc := (if it.argc ≥ ARGC_Z then it.argc - ARGC_Z else it.argc) + argc0
  if argc = 0 then 0 else if it.can1 then argc - 1 else argc

/-- The arguments given to the callback `cb__`: word, its following words, `argc0`, item, running
number `i3` of the callback for this word, number `no0` of the untagged word (0 for tagged). -/
structure Call where
  word : Str
  argv : List Str
  argc0 : Nat
  item : Item
  i3 : Nat
  no0 : Nat
deriving Repr, DecidableEq

section
variable {σ : Type} (cb : σ → Call → Int × σ) (cb2 : σ → Str → Int × σ)

/-- The loops over the items (`src/u2_/clpars_.rs:215-223` and `226-233`) for the items `its` that are
to be called; `rest` are the words after the current one.  Returns the error code (0: none), `i3`,
`argv` and the state. -/
def callItems (word : Str) (rest : List Str) (no0 : Nat) :
    List Item → (i3 : Nat) → (argv : List Str) → σ → Int × Nat × List Str × σ
  | [], i3, argv, st => (0, i3, argv, st)
  | it :: its, i3, argv, st =>
    let argc0 := argv.length
    let i3 := i3 + 1
    let argv := if i3 = 1 then argv ++ rest.take it.cnt else argv
    if i3 = 1 ∧ argv.length < it.need argc0 then (ARG_NE, i3, argv, st)
    else
      let (c, st) := cb st ⟨word, argv, argc0, it, i3, no0⟩
      if c ≠ 0 then (c, i3, argv, st)
      else callItems word rest no0 its i3 argv st

/-- The outer loop of `for3__` (`src/u2_/clpars_.rs:189-241`).  `skip` words of the iterator have been
taken as arguments of an earlier word.  The result is `none` (`Ok`) or the code and the word. -/
def for3Go (items : List Item) : List Str → (skip : Nat) → (no0 : Nat) → σ → Option (Int × Str) × σ
  | [], _, _, st => (none, st)
  | _ :: ws, skip + 1, no0, st => for3Go items ws skip no0 st
  | w :: ws, 0, no0, st =>
    let (c, i3, argv, st) := callItems cb w ws 0 (items.filter (·.hit w)) 0 [] st
    if c ≠ 0 then (some (c, w), st)
    else if i3 ≠ 0 then for3Go items ws argv.length no0 st
    else
      let (c, i3, argv, st) := callItems cb w ws (no0 + 1) (items.filter (·.tag.isEmpty)) 0 [] st
      if c ≠ 0 then (some (c, w), st)
      else if i3 ≠ 0 then for3Go items ws argv.length (no0 + 1) st
      else
        let (c, st) := cb2 st w
        if c ≠ 0 then (some (c, w), st)
        else for3Go items ws 0 (no0 + 1) st

end

/-- `{:?}` of `Typ_`. -/
def Typ.debug : Typ → Str
  | .full => c!"Full" | .starts => c!"Starts" | .ends => c!"Ends" | .has => c!"Has"

/-- One line of `help__` (`src/u2_/clpars_.rs:286-313`). -/
def Item.help (i : Item) : Str :=
  '\n' :: (if i.tag.isEmpty then (if i.argc = ARGC_Z then c!"..." else c!"..") else i.tag)
  ++ (match i.typ with | .full => [] | t => c!" (" ++ t.debug ++ c!")")
  ++ (if i.argc = 0 then []
      else if i.tag.isEmpty && i.argc == ARGC_Z then []
      else c!" (" ++ (if i.argc ≥ ARGC_Z then
          (if i.argc - ARGC_Z > 0 then natStr (i.argc - ARGC_Z) else []) ++ c!"..."
        else natStr i.argc) ++ c!")")
  ++ (if i.rem.isEmpty then [] else ' ' :: i.rem)

/-- `help__` (`src/u2_/clpars_.rs:284-316`). -/
def help (rem : Str) (items : List Item) : Str := rem ++ items.flatMap Item.help ++ ['\n']

/-- `for3__` (`src/u2_/clpars_.rs:184-243`) with `err__` (245-250). -/
def for3 {σ : Type} (cb : σ → Call → Int × σ) (cb2 : σ → Str → Int × σ) (items : List Item)
    (rem : Str) (words : List Str) (st : σ) : Option (Int × Str) × σ :=
  match for3Go cb cb2 items words 0 0 st with
  | (some (c, w), st) => (some (c, if c = HELP then help rem items else w), st)
  | r => r

end Zh.Clpars
