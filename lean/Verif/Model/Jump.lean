import Verif.Model.World0
/-!
# Jumps (`u_/jump_.rs`)
-/
namespace Zh

/-- The kinds of jump statement (`i__`: `src/break_.rs`, `src/continue_.rs`, `src/return_.rs`,
`src/quit_.rs`). -/
inductive JumpKind where
  | break_ | continue_ | break2 | continue2 | return_ | quit
deriving Repr, DecidableEq

/-- `i__`. -/
def JumpKind.code : JumpKind → Int
  | .break_ => BREAK | .continue_ => CONTINUE | .break2 => BREAK2 | .continue2 => CONTINUE2
  | .return_ => RETURN | .quit => QUIT

/-- The word "up" (`src/u_/qv_/rem4_.rs:4`). -/
def UP : Str := c!"上"

/-- State of the loop over the words: last word, `i`, `q_i`, `up`. -/
structure JumpSt where
  s : Str
  i : Int
  qi : Int
  up : Int
deriving Repr, DecidableEq

/-- One turn of the loop (`src/u_/jump_.rs:64-112`); the flag says whether the loop was left.
`named s` is the depth of the nearest visible scope named `s` (the search in lines 72-81), `labels`
the active loop labels (innermost last). -/
def jumpWord (k : JumpKind) (named : Str → Option Int) (labels : List Str) (w : Str) (st : JumpSt) :
    JumpSt × Bool :=
  match k with
  | .return_ =>
    if w = UP then ({ st with s := w, up := st.up + 1 }, false)
    else if st.qi < 0 then ({ st with s := w, qi := (named w).getD st.qi }, false)
    else ({ st with s := w }, false)
  | .quit =>
    if w = [] then ({ st with s := w, i := 0 }, true)
    else match parseI32 w with
      | some n => ({ st with s := [], i := n }, true)
      | none => ({ st with s := w }, false)
  | _ => (if w ∈ labels then { st with s := w, i := 0 } else { st with s := w }, false)

/-- The loop over the words. -/
def jumpWords (k : JumpKind) (named : Str → Option Int) (labels : List Str) : List Str → JumpSt → JumpSt
  | [], st => st
  | w :: ws, st =>
    match jumpWord k named labels w st with
    | (st, true) => st
    | (st, false) => jumpWords k named labels ws st

/-- The state after the words have been looked at (`src/u_/jump_.rs:59-121`); `depth` is the depth
`i_` of the current scope. -/
def jumpEnd (k : JumpKind) (named : Str → Option Int) (labels : List Str) (depth : Int) :
    List Str → JumpSt
  | [] => (match k with
    | .return_ => ⟨[], NO, depth, 0⟩
    | _ => ⟨[], 0, -1, 0⟩)
  | w :: v =>
    let st := jumpWords k named labels (w :: v) ⟨[], NO, -1, 0⟩
    if 0 < st.up ∧ st.qi < 0 then { st with qi := depth } else st

/-- The second code of the jump (`src/u_/jump_.rs:122-125`). -/
def jumpI (k : JumpKind) (st : JumpSt) : Int :=
  match k with
  | .return_ => if st.up ≤ st.qi then st.qi + 1 - st.up else st.i
  | _ => st.i

/-- `hello__` after the words `v` have been evaluated (`src/u_/jump_.rs:58-126`).  A jump always is an
`Err`. -/
def jumpErr (k : JumpKind) (named : Str → Option Int) (labels : List Str) (depth : Int)
    (v : List Str) : Err :=
  let st := jumpEnd k named labels depth v
  let i := jumpI k st
  ⟨if i = NO then ERR else k.code, i, st.s, []⟩

/-- `return__` (`src/u_/jump_.rs:36-49`): `depth` is the depth of the scope whose evaluation ended. -/
def jumpReturn (depth : Int) (r : Except Err Unit) : Except Err Unit :=
  match r with
  | .error e => if e.i = RETURN ∧ depth ≤ e.i2 then .ok () else .error e
  | .ok () => .ok ()

end Zh
