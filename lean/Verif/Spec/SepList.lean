import Verif.Model.ResultList
import Verif.Spec.Groups
/-!
# Specification vocabulary for result lists

`sepPos k a` lists, in increasing order, the positions (counted from `k`) at which a separator item
(`、`) stands in `a`.  A list is *well formed* if its recorded separator positions are exactly these.
-/
namespace Zh.Spec

/-- A separator item: the keyword `、`. -/
def isSep (i : Item) : Bool :=
  match i.val with
  | .k kw => kw.id == .dunhao
  | _ => false

/-- A sentence end item: the keyword `。`. -/
def isStop (i : Item) : Bool :=
  match i.val with
  | .k kw => kw.id == .jvhao
  | _ => false

/-- Positions of separator items. -/
def sepPos : Nat → List Item → List Nat
  | _, [] => []
  | k, i :: is => if isSep i then k :: sepPos (k + 1) is else sepPos (k + 1) is

/-- The recorded positions are exactly the separators' positions. -/
def WF (l : RList) : Prop := l.dun = sepPos 0 l.a

/-- The weaker fact: recorded positions are increasing and each holds a separator (but separators
may be missing from the record). -/
def WeakWF (l : RList) : Prop :=
  l.dun.Pairwise (· < ·) ∧ ∀ p ∈ l.dun, ∃ i, l.a[p]? = some i ∧ isSep i = true

/-- The arguments of a list: the groups between separators; an empty list has none. -/
def argsOf (l : RList) : List (List Item) := if l.a = [] then [] else groups isSep l.a

/-- Operations on a single result list. -/
inductive ListOp where
  | add (i : Item)
  | ins (i : Item)
  | rm (idx : Nat)
  | clear
  | popEnd

/-- Running an operation; removing outside the list is not allowed (a crash). -/
def ListOp.run (l : RList) : ListOp → Option RList
  | .add i => some (l.add i)
  | .ins i => some (l.ins i)
  | .rm idx => if idx < l.a.length then some (l.rm idx) else none
  | .clear => some RList.empty
  | .popEnd => some l.popEnd

/-- Running a history of operations. -/
def runOps : RList → List ListOp → Option RList
  | l, [] => some l
  | l, op :: ops => match op.run l with
    | some l' => runOps l' ops
    | none => none

end Zh.Spec
