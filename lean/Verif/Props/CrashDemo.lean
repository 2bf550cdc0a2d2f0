import Verif.Props.Crash3
/-!
# C44: scripts that crash the interpreter

Each script is in one of the situations of `Cause`; the property C44 ("no script crashes the interpreter") is false.
-/
namespace Zh
open Spec

/-- A host that refuses everything. -/
def H1 : Host := { H0 with exec := fun _ _ _ => .fail [] }

theorem H1_ok : HostOk H1 := fun _ _ _ => trivial

/-- How a run of the script ends. -/
def demo1 (n : Nat) (src : Str) : Out (Except Err _root_.Unit) := (runMain H1 n false (demoArgv src)).1

/-- The code a module has for its release runs while the scope of the module is borrowed: it cannot assign. -/
theorem C44_release_assigns_counterexample : demo1 15 c!"模块“甲”、“赋予乙以1”。释放模块“甲”。" = .panic := by
  decide +kernel

/-- The code a module has for its release releases another module: the position of the first one is no longer right. -/
theorem C44_release_counterexample :
    demo1 17 c!"解释下代码模块“丙”。上代码。模块“甲”、“释放模块丙”。释放模块“甲”。" = .panic := by
  decide +kernel

/-- A definition that redefines itself. -/
theorem C44_redefine_counterexample : demo1 14 c!"定义甲以“定义甲【上】以1”。甲。" = .panic := by
  decide +kernel

/-- `解释` in the current scope: the scope is borrowed while the arguments are evaluated. -/
theorem C44_current_scope_counterexample : demo1 15 c!"解释【在当前区】“”、先赋予乙以1了。" = .panic := by
  decide +kernel

/-- `解释` in the current scope: the arguments cannot be read while they are set. -/
theorem C44_own_arguments_counterexample : demo1 8 c!"解释【在当前区】“”、‘参数1’。" = .panic := by
  decide +kernel

/-- `存在` with more `上` than there are scopes. -/
theorem C44_up_counterexample : demo1 11 c!"存在乙【上】【上】【上】。" = .panic := by
  decide +kernel

/-- A handler for `显示` that assigns in the scope of the handler. -/
theorem C44_handler_counterexample : demo1 20 c!"定义“显示”以“赋予乙【上】以1”。显示乙。" = .panic := by
  decide +kernel

/-- A verbatim text that consists of two marks for continued lines. -/
theorem C44_continued_counterexample : demo1 3 c!"下原样续\n续上原样" = .panic :=
  Out.eq_panic_of_isPanic (by decide +kernel)

/-- The conclusion of `C44_crash_partial` for one of them. -/
example : ∃ c s, HappensMain H1 14 false (demoArgv c!"定义甲以“定义甲【上】以1”。甲。") c s ∧ Cause H1 c s := by
  rcases C44_crash_partial H1_ok 14 false (demoArgv c!"定义甲以“定义甲【上】以1”。甲。") C44_redefine_counterexample with
    h | ⟨t, p, text, -, h, -⟩ | h
  · cases h
  · cases h
  · obtain ⟨c, s, h, hc, -⟩ := h
    exact ⟨c, s, h, hc⟩

end Zh
