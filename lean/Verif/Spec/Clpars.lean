import Verif.Model.Clpars
/-!
# Specification vocabulary for option parsing

The callbacks of the parser are observed through a log of the calls made.  What a callback answers
may depend on everything called so far.
-/
namespace Zh.Spec
open Clpars

/-- An observable event: a callback call, or the fallback for a word nothing takes. -/
inductive Ev where
  | call (c : Call)
  | miss (w : Str)

/-- Logging callbacks answering with `ans`. -/
def logCb (ans : List Ev → Ev → Int) (log : List Ev) (c : Call) : Int × List Ev :=
  (ans log (.call c), log ++ [.call c])
def logCb2 (ans : List Ev → Ev → Int) (log : List Ev) (w : Str) : Int × List Ev :=
  (ans log (.miss w), log ++ [.miss w])

/-- The items that take a word, in table order: those one of whose non-empty spellings matches; if
there are none, the catch-all items (empty tag). -/
def takers (items : List Item) (w : Str) : List Item :=
  let m := items.filter fun it => it.tagv.any fun t => !t.isEmpty && it.typ.hit w t
  if m.isEmpty then items.filter fun it => it.tag.isEmpty else m

/-- One dispatched word with the words it took. -/
structure Step where
  word : Str
  argv : List Str
  no0 : Nat

/-- The calls made for one word: every taker once, in order, all with the same words; the fallback if
nobody takes it. -/
def Step.events (items : List Item) (s : Step) : List Ev :=
  match takers items s.word with
  | [] => [.miss s.word]
  | f :: ts => .call ⟨s.word, s.argv, 0, f, 1, s.no0⟩ ::
      ts.mapIdx fun k it => .call ⟨s.word, s.argv, s.argv.length, it, k + 2, s.no0⟩

/-- Every word took what its first taker asks for: at least the needed words, at most its count, and
fewer than its count only if no words were left. -/
def StepsOk (items : List Item) : List Step → List Str → Prop
  | [], _ => True
  | s :: ss, tail =>
    (match takers items s.word with
      | [] => s.argv = []
      | f :: _ => f.need 0 ≤ s.argv.length ∧ s.argv.length ≤ f.cnt ∧
          (s.argv.length < f.cnt → ss = [] ∧ tail = [])) ∧ StepsOk items ss tail

end Zh.Spec
