import Verif.Props.Exec
import Verif.Props.Expl
/-!
# C33: the statement `算术`
-/
namespace Zh

variable {H : Host}

/-! ## Specification -/

/-- How a value is written: the number as it is, rounded down when the second word is empty, or with as many digits after the point as the
second word says. -/
inductive Spec.Written {F : Type} (o : F64 F) (x : F) : List Str → Except Str Str → Prop where
  | plain : Written o x [] (.ok (o.str x))
  | floor {more} : Written o x ([] :: more) (.ok (o.strFloor x))
  | digits {w more n t} : w ≠ [] → parseUsize w = some n → o.strFixed x n = some t → Written o x (w :: more) (.ok t)
  | bad {w more} : w ≠ [] → parseUsize w = none → Written o x (w :: more) (.error (Zh.quote w ++ c!"点后位数非法"))

/-- What `算术` makes of the text of an expression and the further words: the value of the expression, written; or why there is none. -/
inductive Spec.Summed {F : Type} (o : F64 F) (e : Spec.Expr) (more : List Str) : Except Str Str → Prop where
  | value {x r} : e.eval o = R.ret x → o.isInf x = false → Spec.Written o x more r → Summed o e more r
  | overflow {x} : e.eval o = R.ret x → o.isInf x = true → Summed o e more (.error c!"溢出")
  | error {m} : e.eval o = R.err m → Summed o e more (.error m)

/-- The statement `算术` when its words are the text of an expression and `more`. -/
inductive Spec.Sum (o : F64 H.F) (e : Spec.Expr) (more : List Str) (env : Env) (s : St) : Except Err Unit → St → Prop where
  | value {t} : Spec.Summed o e more (.ok t) → Sum o e more env s (.ok ()) (s.push env.ret (.s t))
  | error {m} : Spec.Summed o e more (.error m) → Sum o e more env s (.error (.msg m)) s

/-! ## Proofs -/

theorem expl_summed {F : Type} {o : F64 F} {e : Spec.Expr} (hok : e.Ok o) {more : List Str} {r : Except Str Str} :
    expl o quote (e.text 1 :: more) = .ok r ↔ Spec.Summed o e more r := by
  unfold expl
  simp only [C33_arithmetic quote e hok]
  rcases he : e.eval o with (m | x) | _ | _
  · constructor
    · intro h
      cases h
      exact .error he
    · intro h
      cases h with
      | value h => rw [he] at h; cases h
      | overflow h => rw [he] at h; cases h
      | error h => rw [he] at h; cases h; rfl
  · have hv : ∀ {y}, e.eval o = R.ret y → y = x := by
      intro y h; rw [he] at h; cases h; rfl
    have hm : ∀ {m}, e.eval o ≠ R.err m := by
      intro y h; rw [he] at h; cases h
    cases hi : o.isInf x with
    | true =>
      simp only [R.ok_bind, hi, if_true]
      constructor
      · intro h
        cases h
        exact .overflow he hi
      · intro h
        cases h with
        | value h h' => rw [hv h, hi] at h'; cases h'
        | overflow h => rfl
        | error h => exact absurd h hm
    | false =>
      have key : Spec.Summed o e more r ↔ Spec.Written o x more r := by
        constructor
        · intro h
          cases h with
          | value h _ h' => rw [← hv h]; exact h'
          | overflow h h' => rw [hv h, hi] at h'; cases h'
          | error h => exact absurd h hm
        · exact .value he hi
      rw [key]
      simp only [R.ok_bind, R.ret_bind, hi, Bool.false_eq_true, if_false]
      cases more with
      | nil =>
        constructor
        · intro h; cases h; exact .plain
        · intro h; cases h; rfl
      | cons w more =>
        cases w with
        | nil =>
          constructor
          · intro h; cases h; exact .floor
          · intro h
            cases h with
            | floor => rfl
            | digits h => exact absurd rfl h
            | bad h => exact absurd rfl h
        | cons c w =>
          simp only [List.isEmpty_cons, Bool.false_eq_true, if_false]
          cases hp : parseUsize (c :: w) with
          | none =>
            constructor
            · intro h; cases h; exact .bad nofun hp
            · intro h
              cases h with
              | digits _ h => rw [hp] at h; cases h
              | bad => rfl
          | some n =>
            cases hf : o.strFixed x n with
            | none =>
              simp only [hf]
              constructor
              · intro h; cases h
              · intro h
                cases h with
                | digits _ h h' => rw [hp] at h; cases h; rw [hf] at h'; cases h'
                | bad _ h => rw [hp] at h; cases h
            | some t =>
              simp only [hf]
              constructor
              · intro h; cases h; exact .digits nofun hp hf
              · intro h
                cases h with
                | digits _ h h' => rw [hp] at h; cases h; rw [hf] at h'; cases h'; rfl
                | bad _ h => rw [hp] at h; cases h
  all_goals
    constructor
    · intro h; cases h
    · intro h
      cases h with
      | value h => rw [he] at h; cases h
      | overflow h => rw [he] at h; cases h
      | error h => rw [he] at h; cases h

/-- What `算术` does with its words. -/
def explEnd (env : Env) (v : List Str) : E Unit := do
  match ← doOp (.expl v) with
  | .ok t => addT env.ret t
  | .error e => fail (.msg e)

theorem explP_eq (a : List Code) (env : Env) : explP a env = helloVec a env >>= explEnd env := rfl

/-- **C33.**  `算术` with the text of an expression appends its value, or fails with the reason why there is none; nothing else happens. -/
theorem C33_statement {e : Spec.Expr} {more : List Str} {a : List Code} {env : Env} {s s1 s' : St} {r : Res} (hok : e.Ok H.f64)
    (hw : Spec.Words H a env s (e.text 1 :: more) s1) :
    Evals H (.item (.expl a) env) s r s' ↔ Spec.Sum (H := H) H.f64 e more env s1 r.r s' ∧ r = { r := r.r } := by
  rw [evals_item]
  have key : ∀ {x : Except Err Unit}, EvE H (Evals H) (itemP (.expl a) env) s x s' ↔ Spec.Sum (H := H) H.f64 e more env s1 x s' := by
    intro x
    show EvE H (Evals H) (explP a env) s x s' ↔ _
    rw [explP_eq, evE_helloVec_bind]
    have tail : EvE H (Evals H) (explEnd env (e.text 1 :: more)) s1 x s' ↔ Spec.Sum (H := H) H.f64 e more env s1 x s' := by
      unfold explEnd
      rw [evE_lift_bind]
      have run : ∀ {y s2}, Ev H (Evals H) (doOp (.expl (e.text 1 :: more))) s1 y s2 ↔ Spec.Summed H.f64 e more y ∧ s2 = s1 := by
        intro y s2
        rw [ev_doOp, ← expl_summed hok]
        exact ⟨fun h => ⟨(Prod.mk.inj h).1, (Prod.mk.inj h).2.symm⟩, fun h => Prod.ext h.1 h.2.symm⟩
      constructor
      · rintro ⟨y, s2, h1, h2⟩
        obtain ⟨h3, rfl⟩ := run.1 h1
        cases y with
        | ok t =>
          obtain ⟨rfl, rfl⟩ := evE_addVal.1 h2
          exact .value h3
        | error m =>
          obtain ⟨rfl, rfl⟩ := evE_fail.1 h2
          exact .error h3
      · intro h
        cases h with
        | value h => exact ⟨_, _, run.2 ⟨h, rfl⟩, evE_addVal.2 ⟨rfl, rfl⟩⟩
        | error h => exact ⟨_, _, run.2 ⟨h, rfl⟩, evE_fail.2 ⟨rfl, rfl⟩⟩
    constructor
    · rintro (⟨v, s2, h1, h2⟩ | ⟨y, m, h1, h2, rfl⟩)
      · obtain ⟨y, g1, g2, g3⟩ := h1
        obtain ⟨z, f1, f2, f3⟩ := hw
        obtain ⟨rfl, rfl⟩ := Evals.unique g1 f1
        rw [← f3] at g3
        subst g3
        exact tail.1 h2
      · obtain ⟨z, f1, f2, f3⟩ := hw
        obtain ⟨rfl, rfl⟩ := Evals.unique h1 f1
        rw [h2] at f2; cases f2
    · intro h
      exact .inl ⟨_, _, hw, tail.2 h⟩
  constructor
  · rintro ⟨x, h, rfl⟩
    exact ⟨key.1 h, rfl⟩
  · rintro ⟨h, e⟩
    exact ⟨r.r, key.2 h, e⟩

/-- The expression of the example. -/
def sumExpr : Spec.Expr := .bin .sub (.bin .mul (.bin .add (.lit c!"2") (.lit c!"3")) (.lit c!"4")) (.lit c!"1")

/-- The hypotheses of `C33_statement` are met. -/
theorem C33_statement_witness : sumExpr.Ok H0.f64 ∧ sumExpr.text 1 = c!"(2+3)*4-1" ∧
    ∃ a env s s1, Reached H0 false (demoArgv c!"显示算术“(2+3)*4-1”、“”。") (.item (.expl a) env) s ∧
      Spec.Words H0 a env s [sumExpr.text 1, []] s1 ∧ Spec.Summed H0.f64 sumExpr [[]] (.ok c!"19") := by
  have hok : sumExpr.Ok H0.f64 := by
    refine ⟨⟨⟨⟨?_, ?_, ?_⟩, ?_, ?_, ?_⟩, ?_, ?_, ?_⟩, ?_, ?_, ?_⟩ <;> decide +kernel
  refine ⟨hok, by decide +kernel, ?_⟩
  obtain ⟨c, s, hr, h⟩ := demoB_sound (n := 16) (src := c!"显示算术“(2+3)*4-1”、“”。")
    (P := fun c s => match c with
    | .item (.expl a) env => (match run H0 16 (.codes a 0 usizeMax { env with ret := s.nlist }) (Spec.fresh s) with
      | (.ok ⟨_, _, _, .ok ()⟩, s1) => decide ((s1.lists s.nlist).toVec = [sumExpr.text 1, []])
      | _ => false)
    | _ => false) (by decide +kernel)
  split at h
  · rename_i a env
    split at h
    · rename_i s1 hrun
      exact ⟨a, env, s, s1, hr, ⟨_, ⟨16, hrun⟩, rfl, (of_decide_eq_true h).symm⟩,
        .value (x := (19 : Int)) (by decide +kernel) rfl .floor⟩
    · cases h
  · cases h

/-- What a script sees. -/
theorem C33_example :
    demo 40 c!"显示算术“2+3*4”。" = (.ok (.ok ()), [.out c!"14"]) ∧
    demo 40 c!"显示算术“(2+3)*4-1”、“”。" = (.ok (.ok ()), [.out c!"19"]) ∧
    (demo 40 c!"显示算术“2/0”。").2 = [] := by
  decide +kernel

end Zh
