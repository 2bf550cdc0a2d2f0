import Verif.Props.NoText2
import Verif.Props.CrashDemo
import Verif.Props.Expl
/-!
# C78: a concrete case
-/
namespace Zh
open Spec (runsText sumOrHas)

/-- Whether none of the items `bad` occurs in the code, up to a depth. -/
def noneIn (bad : Code → Bool) : Nat → List Code → Bool
  | 0, _ => false
  | n + 1, l => l.all fun c => !bad c && noneIn bad n (Spec.parts c)

theorem noneIn_sound {bad : Code → Bool} {n : Nat} {l : List Code} (h : noneIn bad n l = true) : AllW bad l := by
  intro c hc y hy
  induction hy generalizing n l with
  | self =>
    cases n with
    | zero => cases h
    | succ n =>
      have := List.all_eq_true.1 h _ hc
      simp only [Bool.and_eq_true, Bool.not_eq_true'] at this
      exact this.1
  | part h1 h2 ih =>
    cases n with
    | zero => cases h
    | succ n =>
      have := List.all_eq_true.1 h _ hc
      simp only [Bool.and_eq_true] at this
      exact ih this.2 h1

/-- Assignments, a counted loop, a condition, arguments, an alias. -/
def plainDemo : Str :=
  c!"赋予甲以一。循环【3】如果‘甲’等于一那么先显示“甲‘参数1’”。赋予甲以二。了否则先显示‘甲’。跳出。了。了。别名乙以甲。显示‘乙’。"

theorem plainDemo_text : parse plainDemo ≠ .panic ∧ Spec.TextWithout (fun c => runsText c || sumOrHas c) plainDemo := by
  have h : (match parse plainDemo with | .ok (.ok l) => noneIn (fun c => runsText c || sumOrHas c) 7 l | _ => false) = true := by
    decide +kernel
  revert h
  cases hp : parse plainDemo with
  | ok x =>
    cases x with
    | ok l =>
      intro h
      refine ⟨nofun, fun l' hl => ?_⟩
      rw [hp] at hl
      cases hl
      exact noneIn_sound h
    | error e => nofun
  | panic => nofun
  | fuel => nofun

/-- **C78.**  The script above never crashes, whatever words it is given on whatever host; given one it prints what it should. -/
theorem C78_witness :
    (∀ H, HostOk H → ∀ n (ws : List Str), Spec.Unmarked ws → ws.length ≤ 1000000000 →
      (runMain H n false (c!"/b/zs" :: c!"-zhscript-src-is-code" :: plainDemo :: ws)).1 ≠ .panic) ∧ HostOk H1 ∧
    demoLine [] 25 [c!"/b/zs", c!"-zhscript-src-is-code", plainDemo, c!"甲"] =
      (.ok (.ok ()), [.out c!"甲甲", .out c!"二", .out c!"二"]) := by
  refine ⟨fun H hH n ws hw hl => ?_, H1_ok, by decide +kernel⟩
  refine C78_never_code hH (.plain c!"/b/zs" [.isCode] plainDemo ws ?_ ?_ (by decide +kernel) hl) (by simp)
    plainDemo_text.1 plainDemo_text.2 n
  · intro x hx hm
    rcases List.mem_append.1 (show x ∈ [c!"-zhscript-src-is-code", plainDemo] ++ ws from hx) with hx | hx
    · have h : ([c!"-zhscript-src-is-code", plainDemo] : List Str).all (fun w => !Spec.MARK.isSuffixOf w) = true := by decide +kernel
      have := List.all_eq_true.1 h x hx
      rw [List.isSuffixOf_iff_suffix.2 hm] at this
      cases this
    · exact hw x hx hm
  · rw [← List.isPrefixOf_iff_prefix]; decide +kernel

/-- A host whose numbers have one decimal. -/
def H1t : Host := { H1 with f64 := tenths }

/-- **C78.**  The exceptions of `C78_code` are real: an `算术` and a `存在` that crash, in scripts that run no text. -/
theorem C78_exceptions : (runMain H1t 7 false (demoArgv c!"算术“5%0.5”。")).1 = .panic ∧ demo1 11 c!"存在乙【上】【上】【上】。" = .panic ∧
    Spec.TextWithout runsText c!"算术“5%0.5”。" ∧ Spec.TextWithout runsText c!"存在乙【上】【上】【上】。" := by
  have key : ∀ x : Str, (match parse x with | .ok (.ok l) => noneIn runsText 7 l | _ => false) = true → Spec.TextWithout runsText x := by
    intro x h l hl
    rw [hl] at h
    exact noneIn_sound h
  exact ⟨Out.eq_panic_of_isPanic (by decide +kernel), C44_up_counterexample, key _ (by decide +kernel), key _ (by decide +kernel)⟩

end Zh
