import Verif.Props.CompleteRun
/-!
# C77: concrete cases
-/
namespace Zh
open Spec (Complete)

/-- A run reaches a loop that has an annotation and a body, in a text that the script itself evaluates, and the loop is complete. -/
theorem C77_witness : ∃ cnt rems codes env s, Reached H0 false (demoArgv c!"解释“循环【2】显示一。了。”。")
      (.item (.for_ false cnt rems codes) env) s ∧ Complete (.for_ false cnt rems codes) ∧ codes.length = 1 := by
  obtain ⟨c, s, hr, h⟩ := demoB_sound (n := 7) (src := c!"解释“循环【2】显示一。了。”。")
    (P := fun c _ => match c with
    | .item (.for_ false _ _ codes) _ => codes.length == 1
    | _ => false) (by decide +kernel)
  split at h
  · rename_i cnt rems codes env
    exact ⟨cnt, rems, codes, env, s, hr, C77_run hr _ (List.mem_singleton.2 rfl), by simpa using h⟩
  · cases h

/-- What is excluded: statements with nothing to work on, at any depth, a loop with something else among its annotations, a switch
whose table names a place that is not in its body. -/
theorem C77_excludes : ¬ Complete (.print []) ∧ ¬ Complete (.block [.block [.expl []]]) ∧ ¬ Complete (.undef []) ∧
    (∀ cnt codes, ¬ Complete (.for_ false cnt [.text c!"一"] codes)) ∧ (∀ rems names, ¬ Complete (.def_ [.kw1 .dunhao, .text names] rems 1)) ∧
    ¬ Complete (.argi [] 0) := by
  refine ⟨fun h => ?_, fun h => ?_, fun h => ?_, fun _ _ h => ?_, fun _ _ h => ?_, fun h => ?_⟩
  · cases h; contradiction
  · cases h with
    | block h =>
      have h := h _ (List.mem_singleton.2 rfl)
      cases h with
      | block h =>
        have h := h _ (List.mem_singleton.2 rfl)
        cases h; contradiction
  · cases h; contradiction
  · cases h with
    | loop h => have := h _ (List.mem_singleton.2 rfl); cases this
  · cases h with
    | def_ _ h => cases h
  · cases h; contradiction

end Zh
