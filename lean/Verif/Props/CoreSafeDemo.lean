import Verif.Props.CoreSafe
import Verif.Props.CoreDemo
/-!
# C70: examples

The script of `C68_witness` meets the hypotheses of `C70_code`.  A script that prints without end meets them too, and the rules give it no
end.  A script with `%` crashes.
-/
namespace Zh

/-- Decimal numbers have no sign `%`. -/
theorem plain_numbers0 : Spec.PlainNumbers H0 := by
  intro x
  exact intStr_clean x

/-- `循环先显示“嗯”。了。` -/
def coreLoop : Spec.Prg where
  procs := []
  main := .cons (.loop ⟨none, none, none, []⟩ (.cons (.print (.text ⟨[], c!"嗯"⟩)) .nil)) .nil

theorem coreLoop_src : coreLoop.src = c!"循环先显示“嗯”。了。" := by decide +kernel

theorem coreLoop_ok : coreLoop.Ok where
  procs := nofun
  main := ⟨⟨⟨⟨nofun, nofun, nofun, nofun, nofun⟩, rfl, nofun⟩, ⟨txt_lit (by decide +kernel), .inr (by decide +kernel)⟩, trivial⟩, trivial⟩
  apart := by decide +kernel
  small := by rw [coreLoop_src]; decide +kernel

/-- A loop without a limit whose body only ever goes on has no end. -/
theorem no_end {H : Host} {D : Str → Option Spec.Core} {ρ : List Spec.Store} {k : Spec.Core}
    (hk : ∀ σ w f σ', Spec.Does H D ρ k σ w f σ' → f = .next ∨ f = .cont) {x : Option Str} {n : Option Nat} {i : Int} {σ : Spec.Store} {w : List Str}
    {f : Spec.Flow} {σ' : Spec.Store} (h : Spec.Repeats H D ρ x n i k σ w f σ') (hn : n = none) : False := by
  refine Spec.Repeats.rec (H := H) (D := D) (motive_1 := fun _ _ _ _ _ _ _ => True) (motive_2 := fun _ _ _ _ _ _ _ => True)
    (motive_3 := fun ρ' _ n _ k' _ _ _ _ _ => ρ' = ρ → k' = k → n = none → False)
    ?_ ?_ ?_ ?_ ?_ ?_ ?_ ?_ ?_ ?_ ?_ ?_ ?_ ?_ ?_ ?_ ?_ ?over ?again ?leave ?out h rfl rfl hn
  case over =>
    intro _ _ _ _ _ _ _ h
    cases h
  case again =>
    intro _ _ _ _ _ _ _ _ _ _ _ _ _ _ _ _ _ ih h1 h2 h3
    exact ih h1 h2 (by rw [h3]; rfl)
  case leave =>
    intro _ _ _ _ _ _ _ _ _ h1 _ e1 e2 _
    subst e1 e2
    rcases hk _ _ _ _ h1 with h | h <;> cases h
  case out =>
    intro _ _ _ _ _ _ _ _ _ _ h1 hf _ e1 e2 _
    subst e1 e2
    rcases hk _ _ _ _ h1 with rfl | rfl <;> rcases hf with h | h <;> cases h
  all_goals
    intros
    trivial

theorem coreLoop_line : Spec.CliLine (demoArgv coreLoop.src) [.isCode] coreLoop.src [] := by
  rw [coreLoop_src]
  refine .plain c!"zs" [.isCode] _ [] ?_ ?_ (by decide +kernel) (by decide)
  · intro w hw hm
    have h : ([c!"-zhscript-src-is-code", c!"循环先显示“嗯”。了。"] : List Str).all (fun w => !Spec.MARK.isSuffixOf w) = true := by decide +kernel
    have := List.all_eq_true.1 h w hw
    rw [List.isSuffixOf_iff_suffix.2 hm] at this
    cases this
  · rw [← List.isPrefixOf_iff_prefix]; decide +kernel

/-- The endless script meets the hypotheses of `C70_code`, and so never ends. -/
theorem C70_witness_endless : '%' ∉ coreLoop.src ∧ ∀ n, (runMain H0 n false (demoArgv coreLoop.src)).1 = .fuel := by
  have hp : '%' ∉ coreLoop.src := by rw [coreLoop_src]; decide +kernel
  refine ⟨hp, (C70_code (ws := []) coreLoop_ok ⟨fun _ h => hash0_inj h, fun _ _ _ h => hash0_inj h⟩ plain_numbers0 hp (by decide) (fun _ h => nomatch h) coreLoop_line
    (List.mem_singleton.2 rfl)).2 ?_⟩
  rintro ⟨w, f, σ', h⟩
  have hk : ∀ σ w f σ', Spec.Does H0 coreLoop.proc [Spec.outer c!"zs"] (.cons (.print (.text ⟨[], c!"嗯"⟩)) .nil) σ w f σ' →
      f = .next ∨ f = .cont := by
    intro σ w f σ' h
    cases h with
    | next h1 h2 => cases h2; exact .inl rfl
    | stop h1 h2 =>
      cases h1 with
      | print _ => exact absurd rfl h2
      | printFail h3 =>
        generalize ho : (none : Option (Option Str)) = o at h3
        cases h3
        cases ho
  cases h with
  | next h1 _ => cases h1 with | loop h1 => exact no_end hk h1 rfl
  | stop h1 _ => cases h1 with | loop h1 => exact no_end hk h1 rfl

/-- The script of `C68_witness` meets the hypotheses of `C70_code`. -/
theorem C70_witness : coreDemo.Ok ∧ coreDemo.Hashes H0 ∧ Spec.PlainNumbers H0 ∧ '%' ∉ coreDemo.src ∧
    Spec.CliLine (demoArgv coreDemo.src) [.isCode] coreDemo.src [] :=
  ⟨coreDemo_ok, C68_witness.2.1, plain_numbers0, by rw [coreDemo_src]; decide +kernel, C68_witness.2.2.1⟩

/-- The script of `C68_witness_args` meets the hypotheses of `C70_code`, with any words without `%` after it. -/
theorem C70_witness_args (w : Str) (ws : List Str) (hm : Spec.Unmarked (w :: ws)) (hn : ws.length < 1000000000) (hw : ∀ x ∈ w :: ws, '%' ∉ x) (n : Nat) :
    (runMain H0 n false (demoArgv argsDemo.src ++ w :: ws)).1 ≠ .panic :=
  (C70_code argsDemo_ok (C68_witness_args w ws hm hn).2.1 plain_numbers0 (by rw [argsDemo_src]; decide +kernel) (by decide) hw
    (C68_witness_args w ws hm hn).2.2.1 (List.mem_singleton.2 rfl)).1 n

/-- `显示算术“5%0.5”。` -/
def coreRest : Spec.Prg where
  procs := []
  main := .cons (.print (.sum ⟨[], c!"5%0.5"⟩)) .nil

theorem coreRest_src : coreRest.src = c!"显示算术“5%0.5”。" := by decide +kernel

/-- **C70, the sign `%` matters.**  A program of the small language with it, on a host whose numbers have tenths, crashes. -/
theorem C70_percent_counterexample : coreRest.Ok ∧
    (runMain { H0 with F := Int, f64 := tenths } 10 false (demoArgv coreRest.src)).1 = .panic := by
  refine ⟨⟨nofun, ⟨⟨⟨txt_lit (by decide +kernel), .inr (by decide +kernel)⟩, trivial⟩, trivial⟩, by decide +kernel, by rw [coreRest_src]; decide +kernel⟩, ?_⟩
  rw [coreRest_src]
  decide +kernel

end Zh
