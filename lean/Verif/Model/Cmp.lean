import Verif.Model.Expl
import Verif.Model.Utf8
import Verif.Model.Keyword
/-!
# Comparison (`if_.rs:50-153`)
-/
namespace Zh

/-- The byte loop of `cmp2__` (`src/if_.rs:65-91`). -/
def cmpBytes : List Nat → List Nat → Int
  | [], [] => 0
  | [], _ :: _ => -1
  | _ :: _, [] => 1
  | c :: l, c2 :: r => if c < c2 then -1 else if c > c2 then 1 else cmpBytes l r

/-- `cmp2__` (`src/if_.rs:50-92`). -/
def cmp2 {F : Type} (o : F64 F) (lv rv : Str) : Int :=
  if lv = rv then 0
  else match o.parse lv with
    | some n => match o.parse rv with
      | some n2 => if o.lt n n2 then -1 else if o.lt n2 n then 1 else 0
      | none => cmpBytes (utf8 lv) (utf8 rv)
    | none => cmpBytes (utf8 lv) (utf8 rv)

/-- One test of `cmp__` (`src/if_.rs:100-133`): the operator is `Undef` when there was none. -/
def cmpTest {F : Type} (o : F64 F) (op : KwId) (not : Bool) (lv rv : Str) : Bool :=
  let b :=
    if op = .undef then truthy rv
    else
      let r := cmp2 o lv rv
      if op = .dengyu then decide (r = 0)
      else if op = .xiaoyudengyu then decide (r ≤ 0)
      else if op = .xiaoyu then decide (r < 0)
      else if op = .dayudengyu then decide (r ≥ 0)
      else if op = .dayu then decide (r > 0)
      else false
  if not then !b else b

/-- The loop of `cmp__` (`src/if_.rs:99-150`).  The indices `i`, `i2` are represented by the current
element and the elements after it; both advance, each staying at its last element. -/
def cmpGo (test : Str → Str → Bool) (l : Str) (ls : List Str) (r : Str) (rs : List Str) : Bool :=
  if test l r then true
  else match ls, rs with
    | [], [] => false
    | l' :: ls', [] => cmpGo test l' ls' r []
    | [], r' :: rs' => cmpGo test l [] r' rs'
    | l' :: ls', r' :: rs' => cmpGo test l' ls' r' rs'
termination_by ls.length + rs.length

/-- `cmp__` (`src/if_.rs:93-153`): an empty list (`NO`) counts as one empty string. -/
def cmp {F : Type} (o : F64 F) (op : KwId) (not : Bool) (left val : List Str) : Bool :=
  cmpGo (cmpTest o op not) (left.headD []) left.tail (val.headD []) val.tail

end Zh
