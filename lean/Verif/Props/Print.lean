import Verif.Props.Assign
/-!
# C48: printing and its redirection
-/
namespace Zh

variable {H : Host}

/-! ## Specification -/

/-- The word `显示`. -/
def Spec.printWord : Str := c!"显示"

/-- The scope defines a word. -/
def Spec.Defines (s : St) (word : Str) (q : Nat) : Prop := ∃ d ∈ (s.scopes q).defs, d.name = word

/-- The options after the text that is printed. -/
def Spec.flush : Str := []
def Spec.toErr : Str := c!"错"
def Spec.raw : Str := c!"原"
def Spec.GoodOpts (opts : List Str) : Prop := ∀ o ∈ opts, o = Spec.flush ∨ o = Spec.toErr ∨ o = Spec.raw

/-- A new scope below `q` with the one argument `t`, the scope `p` being read. -/
def Spec.called (q p : Nat) (t : Str) (s : St) : St :=
  { s with
    items := upd s.items s.nitem [], nitem := s.nitem + 1
    lists := upd s.lists s.nlist { RList.empty with a := [⟨s.nitem, .s t⟩] }, nlist := s.nlist + 1
    scopes := upd s.scopes s.nscope (Scope.new [] [] [] none (some (q, (s.scopes q).i)) s.nlist)
    nscope := s.nscope + 1
    held := .scope p :: s.held }

/-- Something is written to the standard output or the standard error output, and possibly flushed. -/
def Spec.written (t : Str) (opts : List Str) (s : St) : St :=
  { s with trace := s.trace ++ [if Spec.toErr ∈ opts then .err t else .out t] ++ if Spec.flush ∈ opts then [.flush] else [] }

/-- What a pipe after `显示` asks for: each `1` is one copy of the text; the first other character is an error. -/
inductive Spec.Copied (ret : Nat) (t : Str) : Str → St → Except Err Unit → St → Prop where
  | nil {s} : Spec.Copied ret t [] s (.ok ()) s
  | one {cs s r s'} : Spec.Copied ret t cs (s.push ret (.s t)) r s' → Spec.Copied ret t ('1' :: cs) s r s'
  | bad {c cs s} : c ≠ '1' → Spec.Copied ret t (c :: cs) s (.error (errNoJie c)) s

/-! ## Proofs -/

theorem printOpts_cons (o : Str) (os : List Str) (pf ep rd : Bool) : printOpts (o :: os) (pf, ep, rd) =
    if o = Spec.flush then printOpts os (true, ep, rd) else if o = Spec.toErr then printOpts os (pf, true, rd)
    else if o = Spec.raw then printOpts os (pf, ep, false) else .error (errKw .print_ (quote o ++ c!"无效选项")) := rfl

theorem printOpts_good {opts : List Str} (h : Spec.GoodOpts opts) (x : Bool × Bool × Bool) :
    printOpts opts x = .ok (x.1 || decide (Spec.flush ∈ opts), x.2.1 || decide (Spec.toErr ∈ opts), x.2.2 && decide (Spec.raw ∉ opts)) := by
  induction opts generalizing x with
  | nil => simp [printOpts]
  | cons o os ih =>
    obtain ⟨pf, ep, rd⟩ := x
    have ih := ih fun o ho => h o (by simp [ho])
    have e1 : Spec.flush ≠ Spec.toErr := by decide
    have e2 : Spec.flush ≠ Spec.raw := by decide
    have e3 : Spec.toErr ≠ Spec.raw := by decide
    rw [printOpts_cons]
    rcases h o (by simp) with rfl | rfl | rfl
    · rw [if_pos rfl, ih]; simp [e1.symm, e2.symm]
    · rw [if_neg (by decide), if_pos rfl, ih]; simp [e1, e3.symm]
    · rw [if_neg (by decide), if_neg (by decide), if_pos rfl, ih]; simp [e2, e3]

theorem printOpts_bad {opts : List Str} {o : Str} (rest : List Str) (h : Spec.GoodOpts opts)
    (ho : ¬ (o = Spec.flush ∨ o = Spec.toErr ∨ o = Spec.raw)) (x : Bool × Bool × Bool) :
    printOpts (opts ++ o :: rest) x = .error (errKw .print_ (quote o ++ c!"无效选项")) := by
  induction opts generalizing x with
  | nil =>
    obtain ⟨pf, ep, rd⟩ := x
    rw [List.nil_append, printOpts_cons, if_neg (fun e => ho (.inl e)), if_neg (fun e => ho (.inr (.inl e))),
      if_neg (fun e => ho (.inr (.inr e)))]
  | cons o os ih =>
    obtain ⟨pf, ep, rd⟩ := x
    have ih := ih fun o ho => h o (by simp [ho])
    rw [List.cons_append, printOpts_cons]
    rcases h o (by simp) with rfl | rfl | rfl
    · rw [if_pos rfl, ih]
    · rw [if_neg (by decide), if_pos rfl, ih]
    · rw [if_neg (by decide), if_neg (by decide), if_pos rfl, ih]

theorem printHandler_none {s : St} {q : Nat} {ps : List Nat} (ho : Spec.ParentsOlder s.scopes) (hp : Spec.Path s.scopes q ps)
    (h : ∀ p ∈ ps, ¬ Spec.Defines s Spec.printWord p) : printHandler s q = none := by
  unfold printHandler
  rw [path_chain _ ho hp, List.findSome?_eq_none_iff]
  intro p hp
  rw [Option.map_eq_none_iff, List.find?_eq_none]
  intro d hd
  have : kwStr .print_ = Spec.printWord := by decide
  rw [this]
  intro e
  exact h p hp ⟨d, hd, by simpa using e⟩

theorem printHandler_some {s : St} {q : Nat} {near far : List Nat} {p : Nat} {d : Def} (ho : Spec.ParentsOlder s.scopes)
    (hp : Spec.Path s.scopes q (near ++ p :: far)) (h : ∀ p ∈ near, ¬ Spec.Defines s Spec.printWord p)
    (hd : (s.scopes p).defs.find? (fun d => d.name == Spec.printWord) = some d) : printHandler s q = some (p, d.val.text) := by
  unfold printHandler
  have e : kwStr .print_ = Spec.printWord := by decide
  rw [path_chain _ ho hp, e, List.findSome?_append]
  rw [List.findSome?_eq_none_iff.2, List.findSome?_cons, hd]
  · rfl
  · intro p hp
    rw [Option.map_eq_none_iff, List.find?_eq_none]
    intro d hd e
    exact h p hp ⟨d, hd, by simpa using e⟩

section
variable {R : Call → St → Res → St → Prop}

theorem evE_callE_held {hd : List Held} {c : Call} {s s' : St} {r : Except Err Unit} :
    EvE H R (callE hd c) s r s' ↔ ∃ x s1, R c (s.hold hd) x s1 ∧ x.r = r ∧ s' = { s1 with held := s.held } := by
  unfold callE
  rw [evE_lift_bind]
  constructor
  · rintro ⟨a, s1, h1, h2⟩
    obtain ⟨r', s2, h3, h4⟩ := ev_call.1 h1
    obtain ⟨rfl, rfl⟩ := ev_ret.1 h4
    obtain ⟨rfl, rfl⟩ := evE_mk.1 h2
    exact ⟨_, _, h3, rfl, rfl⟩
  · rintro ⟨x, s1, h1, rfl, rfl⟩
    exact ⟨x, _, ev_call.2 ⟨x, s1, h1, ev_ret.2 ⟨rfl, rfl⟩⟩, evE_mk.2 ⟨rfl, rfl⟩⟩

theorem evE_printJie {ret : Nat} {t cs : Str} {s s' : St} {r : Except Err Unit} :
    EvE H R (printJie ret t cs) s r s' ↔ Spec.Copied ret t cs s r s' := by
  induction cs generalizing s with
  | nil =>
    rw [printJie, evE_pure]
    constructor
    · rintro ⟨rfl, rfl⟩; exact .nil
    · intro h; cases h; exact ⟨rfl, rfl⟩
  | cons c cs ih =>
    rw [printJie]
    by_cases hc : c = '1'
    · subst hc
      rw [if_pos rfl, evE_lift_bind]
      constructor
      · rintro ⟨_, s1, h1, h2⟩
        rw [ev_addT] at h1
        subst h1
        exact .one (ih.1 h2)
      · intro h
        cases h with
        | one h => exact ⟨(), _, ev_addT.2 rfl, ih.2 h⟩
        | bad h => exact absurd rfl h
    · rw [if_neg hc, evE_bind]
      constructor
      · rintro (⟨_, _, h, _⟩ | ⟨e, h, rfl⟩)
        · cases (evE_fail.1 h).1
        · obtain ⟨h, h'⟩ := evE_fail.1 h
          cases h
          rw [h']
          exact .bad hc
      · intro h
        cases h with
        | one h => exact absurd rfl hc
        | bad h => exact .inr ⟨_, evE_fail.2 ⟨rfl, rfl⟩, rfl⟩

theorem evE_getSt_bind {β : Type} {f : St → E β} {s s' : St} {r : Except Err β} :
    EvE H R ((liftM (getSt : Prog St) : E St) >>= f) s r s' ↔ EvE H R (f s) s r s' := by
  rw [evE_lift_bind]
  exact ⟨fun ⟨a, s1, h1, h2⟩ => by obtain ⟨rfl, rfl⟩ := ev_getSt.1 h1; exact h2, fun h => ⟨s, s, ev_getSt.2 ⟨rfl, rfl⟩, h⟩⟩

theorem evE_op_bind {β : Type} {o : Op} {f : o.Res → E β} {s s' : St} {r : Except Err β} {a : o.Res} {s1 : St}
    (ho : o.run H s = (.ok a, s1)) :
    EvE H R ((liftM (doOp o) : E o.Res) >>= f) s r s' ↔ EvE H R (f a) s1 r s' := by
  rw [evE_lift_bind]
  constructor
  · rintro ⟨b, s2, h1, h2⟩
    have h1 := ev_doOp.1 h1
    rw [ho] at h1
    simp only [Prod.mk.injEq, Out.ok.injEq] at h1
    obtain ⟨rfl, rfl⟩ := h1
    exact h2
  · intro h
    exact ⟨a, s1, ev_doOp.2 ho, h⟩

theorem evE_mk_bind {α β : Type} {y : Except Err α} {f : α → E β} {s s' : St} {r : Except Err β} :
    EvE H R ((ExceptT.mk (pure y) : E α) >>= f) s r s' ↔
      (∃ a, y = .ok a ∧ EvE H R (f a) s r s') ∨ ∃ e, y = .error e ∧ r = .error e ∧ s' = s := evE_ofOut_bind

end

/-- What follows the evaluation of the words. -/
def printRest (env : Env) : List Str → E Unit
  | [] => return ()
  | t :: opts => do
    let (pf, ep, redir) ← ExceptT.mk (pure (printOpts opts (false, false, true)))
    let s ← (getSt : Prog St)
    match (if redir then printHandler s env.q else none) with
    | some (p, src) =>
      let q ← doOp (.newScope [] none env.q)
      let s ← (getSt : Prog St)
      addT (s.scopes q).args t
      callE [.scope p] (.src src { env with q })
    | none =>
      doOp (.emit (if ep then .err t else .out t))
      if pf then doOp (.emit .flush)
      printJie env.ret t env.gd.jie

theorem printP_eq (a : List Code) (env : Env) : printP a env = helloVec a env >>= printRest env := by
  unfold printP
  congr 1

theorem printRest_iff {a : List Code} {env : Env} {s s' s1 : St} {r : Res} {v : List Str} (hw : Spec.Words H a env s v s1) :
    Evals H (.item (.print a) env) s r s' ↔ ∃ x, EvE H (Evals H) (printRest env v) s1 x s' ∧ r = { r := x } := by
  rw [evals_item]
  refine exists_congr fun x => and_congr_left fun _ => ?_
  change EvE H (Evals H) (printP a env) s x s' ↔ _
  rw [printP_eq, evE_helloVec_bind]
  obtain ⟨y, h1, h2, rfl⟩ := hw
  constructor
  · rintro (⟨v, s2, ⟨z, h3, h4, rfl⟩, h5⟩ | ⟨z, e, h3, h4, rfl⟩)
    · obtain ⟨rfl, rfl⟩ := Evals.unique h1 h3
      exact h5
    · obtain ⟨rfl, rfl⟩ := Evals.unique h1 h3
      rw [h2] at h4
      cases h4
  · intro h
    exact .inl ⟨_, s1, ⟨y, h1, h2, rfl⟩, h⟩

/-! ## The property -/

/-- **C48.** Let the words after `显示` be the text `t` and valid options, without `原`; let `d` be the
definition of `显示` in the nearest scope `p` that has one.  Then printing runs the text of `d` in a new scope
whose only argument is `t`, and does nothing else: in particular nothing is written before or after. -/
theorem C48_redirected {a : List Code} {env : Env} {s s1 s' : St} {r : Res} {t : Str} {opts : List Str} {near far : List Nat}
    {p : Nat} {d : Def} (hw : Spec.Words H a env s (t :: opts) s1) (hopts : Spec.GoodOpts opts) (hraw : Spec.raw ∉ opts)
    (ho : Spec.ParentsOlder s1.scopes) (hp : Spec.Path s1.scopes env.q (near ++ p :: far))
    (hnear : ∀ p ∈ near, ¬ Spec.Defines s1 Spec.printWord p)
    (hd : (s1.scopes p).defs.find? (fun d => d.name == Spec.printWord) = some d) :
    Evals H (.item (.print a) env) s r s' ↔
      ∃ x s2, Evals H (.src d.val.text { env with q := s1.nscope }) (Spec.called env.q p t s1) x s2 ∧
        r = { r := x.r } ∧ s' = { s2 with held := s1.held } := by
  rw [printRest_iff hw]
  have key : ∀ x, EvE H (Evals H) (printRest env (t :: opts)) s1 x s' ↔
      ∃ y s2, Evals H (.src d.val.text { env with q := s1.nscope }) (Spec.called env.q p t s1) y s2 ∧
        y.r = x ∧ s' = { s2 with held := s1.held } := by
    intro x
    rw [printRest, printOpts_good hopts, evE_mk_bind]
    rw [or_iff_left (by rintro ⟨e, h, -⟩; cases h)]
    have e1 : ∀ P : Bool × Bool × Bool → Prop, (∃ a, (Except.ok (false || decide (Spec.flush ∈ opts), false || decide (Spec.toErr ∈ opts),
        true && decide (Spec.raw ∉ opts)) : Except Err _) = .ok a ∧ P a) ↔ P (decide (Spec.flush ∈ opts), decide (Spec.toErr ∈ opts), true) := by
      intro P
      constructor
      · rintro ⟨a, h1, h2⟩
        cases h1
        simpa [hraw] using h2
      · intro h
        exact ⟨_, rfl, by simpa [hraw] using h⟩
    rw [e1]
    dsimp only
    rw [evE_getSt_bind, if_pos rfl, printHandler_some ho hp hnear hd]
    dsimp only
    rw [evE_op_bind (by rfl), evE_getSt_bind, evE_lift_bind]
    have e2 : (Scope.new [] [] [] none (some (env.q, (s1.scopes env.q).i)) s1.nlist).args = s1.nlist := rfl
    simp only [upd_same, e2]
    have e3 : (St.push s1.nlist (.s t) { s1 with
          lists := upd s1.lists s1.nlist .empty, nlist := s1.nlist + 1
          scopes := upd s1.scopes s1.nscope (Scope.new [] [] [] none (some (env.q, (s1.scopes env.q).i)) s1.nlist)
          nscope := s1.nscope + 1 }).hold [.scope p] = Spec.called env.q p t s1 := by
      simp only [St.push, St.hold, Spec.called, upd_same, upd_upd, List.cons_append, List.nil_append]
      rfl
    constructor
    · rintro ⟨_, s3, h3, h4⟩
      rw [ev_addT] at h3
      subst h3
      obtain ⟨y, s4, h5, rfl, rfl⟩ := evE_callE_held.1 h4
      rw [e3] at h5
      exact ⟨y, s4, h5, rfl, rfl⟩
    · rintro ⟨y, s2, h1, rfl, rfl⟩
      rw [← e3] at h1
      exact ⟨(), _, ev_addT.2 rfl, evE_callE_held.2 ⟨y, s2, h1, rfl, rfl⟩⟩
  simp only [key]
  constructor
  · rintro ⟨x, ⟨y, s2, h1, rfl, h2⟩, rfl⟩
    exact ⟨y, s2, h1, rfl, h2⟩
  · rintro ⟨y, s2, h1, rfl, h2⟩
    exact ⟨y.r, ⟨y, s2, h1, rfl, h2⟩, rfl⟩

/-- **C48.** If `原` is among the options, or no scope on the way to the top defines `显示`, the text is written to
the standard output (with `错` to the standard error output), flushed if asked for, and copied into a pipe. -/
theorem C48_written {a : List Code} {env : Env} {s s1 s' : St} {r : Res} {t : Str} {opts : List Str} {ps : List Nat}
    (hw : Spec.Words H a env s (t :: opts) s1) (hopts : Spec.GoodOpts opts)
    (ho : Spec.ParentsOlder s1.scopes) (hp : Spec.Path s1.scopes env.q ps)
    (h : Spec.raw ∈ opts ∨ ∀ p ∈ ps, ¬ Spec.Defines s1 Spec.printWord p) :
    Evals H (.item (.print a) env) s r s' ↔
      ∃ x, Spec.Copied env.ret t env.gd.jie (Spec.written t opts s1) x s' ∧ r = { r := x } := by
  rw [printRest_iff hw]
  refine exists_congr fun x => and_congr_left fun _ => ?_
  rw [printRest, printOpts_good hopts, evE_mk_bind]
  rw [or_iff_left (by rintro ⟨e, h, -⟩; cases h)]
  have e1 : ∀ P : Bool × Bool × Bool → Prop, (∃ a, (Except.ok (false || decide (Spec.flush ∈ opts), false || decide (Spec.toErr ∈ opts),
      true && decide (Spec.raw ∉ opts)) : Except Err _) = .ok a ∧ P a) ↔
        P (decide (Spec.flush ∈ opts), decide (Spec.toErr ∈ opts), decide (Spec.raw ∉ opts)) := by
    intro P
    constructor
    · rintro ⟨a, h1, h2⟩
      cases h1
      simpa using h2
    · intro h
      exact ⟨_, rfl, by simpa using h⟩
  rw [e1]
  dsimp only
  have e2 : (if decide (Spec.raw ∉ opts) = true then printHandler s1 env.q else none) = none := by
    rcases h with h | h
    · simp [h]
    · rw [printHandler_none ho hp h]; simp
  rw [evE_getSt_bind, e2]
  dsimp only
  rw [evE_op_bind (by rfl)]
  have e3 : ∀ s : St, EvE H (Evals H) (if decide (Spec.flush ∈ opts) = true then (liftM (doOp (.emit .flush)) : E Unit) >>= fun _ =>
        printJie env.ret t env.gd.jie else printJie env.ret t env.gd.jie) s x s' ↔
      EvE H (Evals H) (printJie env.ret t env.gd.jie) { s with trace := s.trace ++ if Spec.flush ∈ opts then [.flush] else [] } x s' := by
    intro s
    by_cases hf : Spec.flush ∈ opts
    · rw [if_pos (by simpa using hf), if_pos hf, evE_op_bind (by rfl)]
    · rw [if_neg (by simpa using hf), if_neg hf, List.append_nil]
  rw [show EvE H (Evals H) _ _ x s' ↔ _ from e3 _, evE_printJie]
  unfold Spec.written
  by_cases hf : Spec.toErr ∈ opts <;> simp [hf]

/-- **C48.** A word that is no option is an error; nothing is written or run. -/
theorem C48_bad_option {a : List Code} {env : Env} {s s1 s' : St} {r : Res} {t o : Str} {opts rest : List Str}
    (hw : Spec.Words H a env s (t :: (opts ++ o :: rest)) s1) (hopts : Spec.GoodOpts opts)
    (ho : ¬ (o = Spec.flush ∨ o = Spec.toErr ∨ o = Spec.raw)) :
    Evals H (.item (.print a) env) s r s' ↔
      r = { r := .error (errKw .print_ (quote o ++ c!"无效选项")) } ∧ s' = s1 := by
  rw [printRest_iff hw]
  simp only [printRest, printOpts_bad rest hopts ho, evE_mk_bind]
  constructor
  · rintro ⟨x, ⟨a, h, -⟩ | ⟨e, h, rfl, rfl⟩, rfl⟩
    · cases h
    · cases h; exact ⟨rfl, rfl⟩
  · rintro ⟨rfl, rfl⟩
    exact ⟨_, .inr ⟨_, rfl, rfl, rfl⟩, rfl⟩

/-! ## The assumptions hold in every run -/

/-- After any evaluation in a run of the interpreter parents are older than their children. -/
theorem older_after_run {ovf : Bool} {argv : List Str} {c : Call} {s s' : St} {r : Res} (h : Reached H ovf argv c s)
    (he : Evals H c s r s') : Spec.ParentsOlder s'.scopes := by
  obtain ⟨n, hn⟩ := he
  obtain ⟨C, hp⟩ := reached_frame h
  have hf := (run_frame H n C c s hp).1.1
  rw [hn] at hf
  intro q p hu
  by_cases hq : q < s'.nscope
  · exact (hf.up q hq p hu).1
  · have h1 := (kept_unused H).reached h
    have h2 := (kept_unused H).run n c s
    rw [hn] at h2
    dsimp only at h2
    have h0 : 2 ≤ s.nscope := h1.1
    have h3 : s.nscope ≤ s'.nscope := h2.1
    rw [h2.2 q (by omega), h1.2 q (by omega)] at hu
    simp only [St.init] at hu
    rw [if_neg (by omega)] at hu
    simp only [Scope.new, Option.map_some, Option.some.injEq] at hu
    omega

/-- Whenever a run of the interpreter has evaluated the words after `显示`, there is a way from the current
scope to the top, and the assumptions of `C48_redirected` and `C48_written` about it hold. -/
theorem C48_reachable {ovf : Bool} {argv : List Str} {a : List Code} {env : Env} {s s1 : St} {v : List Str}
    (h : Reached H ovf argv (.item (.print a) env) s) (hw : Spec.Words H a env s v s1) :
    Spec.ParentsOlder s1.scopes ∧ ∃ ps, Spec.Path s1.scopes env.q ps := by
  obtain ⟨x, h1, -, -⟩ := hw
  have hr : Reached H ovf argv (.codes a 0 usizeMax { env with ret := s.nlist }) (Spec.fresh s) :=
    .step 0 h ⟨s.nlist, Spec.fresh s, rfl, .inl ⟨rfl, rfl⟩⟩
  have ho := older_after_run hr h1
  exact ⟨ho, _, chain_path _ ho _⟩

/-! ## Concrete cases -/

/-- A definition of `显示` in the scope of the script; raw printing. -/
theorem C48_example :
    demo 20 c!"定义“显示”以下代码显示甲‘参数1’、原上代码。显示乙。" = (.ok (.ok ()), [.out c!"甲乙"]) ∧
    demo 20 c!"定义“显示”以“显示甲、原”。显示乙、原。" = (.ok (.ok ()), [.out c!"乙"]) ∧
    demo 20 c!"显示乙、、错。" = (.ok (.ok ()), [.err c!"乙", .flush]) := by
  decide +kernel

/-- The test of `C48_witness`. -/
def printB (n : Nat) (a : List Code) (env : Env) (s : St) : Bool :=
  match run H0 n (.codes a 0 usizeMax { env with ret := s.nlist }) (Spec.fresh s) with
  | (.ok ⟨_, _, _, .ok ()⟩, s1) => decide ((s1.lists s.nlist).toVec = [c!"乙"]) &&
      ((s1.scopes env.q).defs.find? fun d => d.name == Spec.printWord).isSome
  | _ => false

/-- A run reaches a statement that prints, with a handler in the current scope. -/
theorem C48_witness : ∃ a env s s1 d far, Reached H0 false (demoArgv c!"定义“显示”以“显示甲、原”。显示乙。") (.item (.print a) env) s ∧
    Spec.Words H0 a env s [c!"乙"] s1 ∧ Spec.ParentsOlder s1.scopes ∧ Spec.Path s1.scopes env.q (env.q :: far) ∧
    (s1.scopes env.q).defs.find? (fun d => d.name == Spec.printWord) = some d := by
  obtain ⟨c, s, hr, h⟩ := demoB_sound (n := 9) (src := c!"定义“显示”以“显示甲、原”。显示乙。")
    (P := fun c s => match c with
    | .item (.print a) env => printB 9 a env s
    | _ => false) (by decide +kernel)
  split at h
  · rename_i a env
    unfold printB at h
    split at h
    · rename_i i j b s1 h1
      rw [Bool.and_eq_true, decide_eq_true_eq, Option.isSome_iff_exists] at h
      obtain ⟨h2, d, h3⟩ := h
      have hw : Spec.Words H0 a env s [c!"乙"] s1 := ⟨_, ⟨9, h1⟩, rfl, h2.symm⟩
      obtain ⟨ho, ps, hp⟩ := C48_reachable hr hw
      have : ∃ far, ps = env.q :: far := by
        cases hp with
        | top => exact ⟨[], rfl⟩
        | up => exact ⟨_, rfl⟩
      obtain ⟨far, rfl⟩ := this
      exact ⟨a, env, s, s1, d, far, hr, hw, ho, hp, h3⟩
    · cases h
  · cases h

/-- Found: the scope with the handler is borrowed while the handler runs; a handler that assigns a variable
there crashes the interpreter. -/
theorem C48_handler_assigns_counterexample :
    (demo 20 c!"定义“显示”以“赋予乙【上】以1”。显示乙。").1 = .panic := by
  decide +kernel

end Zh
