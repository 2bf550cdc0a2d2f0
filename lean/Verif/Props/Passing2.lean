import Verif.Props.Passing
/-!
# Which evaluations catch a jump

`Spec.Catches c e c' s`: the evaluation `c` does not hand on the jump `e` with which its part `c'` ended in
the state `s`.  `passes_eval`: everything else is handed on at once.
-/
namespace Zh

variable {α β : Type}

/-- The places where a jump ends.  A loop or a circle takes its own two jumps, unlabelled or with its own
counter name, from its body; `管道节` takes everything from its body; the evaluation of a script and of
the body of a definition take a `返回` whose depth reaches their scope; what the handlers of a passive
process do is not looked at. -/
def Spec.Catches : Call → Err → Call → St → Prop
  | .loop range _ _ _ cnt _ _ _, e, .codes .., _ => Spec.Consumes range cnt.name e
  | .item (.jie2 _) _, _, .codes .., _ => True
  | .src .., e, .codes _ _ _ env, s => e.i = RETURN ∧ (s.scopes env.q).i ≤ e.i2
  | .z4 .., e, .codes _ _ _ env, s => e.i = RETURN ∧ (s.scopes env.q).i ≤ e.i2
  | .slave .., _, .src .., _ => True
  | .item (.exec _) _, _, .slave .., _ => True
  | _, _, _, _ => False

/-- The error is a jump: `退出`, `返回`, `跳出`, `再来`, `遁出`, `重来`. -/
def Spec.Jump (e : Err) : Prop := isJump e.i = true

/-- Programs that leave the labels alone, in any scope. -/
def Quieter : Allow := ⟨Op.NoLabel, Call.NotLoop⟩

theorem Call.Stays.notLoop {q : Nat} {c : Call} (h : c.Stays q) : c.NotLoop := by
  cases c <;> first | trivial | exact h.elim

/-- Programs of every kind. -/
def Anything : Allow := ⟨fun _ => True, fun _ => True⟩

variable {e : Err} {X : Call → St → Prop} {q0 : Nat}

/-- The call is evaluated in the scope `q` (or is the evaluation of a source or the look-up of a variable). -/
def Call.In (q : Nat) : Call → Prop
  | .loop _ _ _ _ _ env _ _ => env.q = q
  | c => c.Stays q

theorem Call.Stays.in_ {q : Nat} {c : Call} (h : c.Stays q) : c.In q := by
  cases c <;> first | exact h | exact h.elim

/-- The call evaluates a list of statements. -/
def Call.IsCodes : Call → Prop
  | .codes .. => True
  | _ => False

/-- Programs that leave the labels alone and stay in the scope `q`, but for lists of statements. -/
def Called (q : Nat) : Allow := ⟨Op.NoLabel, fun c => c.Stays q ∨ c.IsCodes⟩

/-- Programs that stay in the scope `q`. -/
def Inside (q : Nat) : Allow := ⟨fun _ => True, Call.In q⟩

theorem passes_weaken {O O' : Allow} {B : α → Prop} {p : Prog α} (hO : ∀ o, O.op o → O'.op o)
    (hC : ∀ c, O.call c → O'.call c) (h : Passes O e X B p) : Passes O' e X B p :=
  Passes.mono hO hC (fun _ h => h) h
theorem any_of (O : Allow) {B : α → Prop} {p : Prog α} (h : Passes O e X B p) : Passes Anything e X B p :=
  passes_weaken (fun _ _ => trivial) (fun _ _ => trivial) h
theorem passes_quieter {q : Nat} {B : α → Prop} {p : Prog α} (h : Passes (Quiet q) e X B p) : Passes Quieter e X B p :=
  passes_weaken (O := Quiet q) (fun _ h => h) (fun _ h => Call.Stays.notLoop (q := q) h) h
theorem passes_called {q : Nat} {B : α → Prop} {p : Prog α} (h : Passes (Quiet q) e X B p) : Passes (Called q) e X B p :=
  passes_weaken (O := Quiet q) (fun _ h => h) (fun _ h => .inl h) h
theorem passE_called {q : Nat} {p : E α} (h : PassE (Quiet q) e X p) : PassE (Called q) e X p := passes_called h
theorem called_quieter {q : Nat} {B : α → Prop} {p : Prog α} (h : Passes (Called q) e X B p) : Passes Quieter e X B p :=
  passes_weaken (O := Called q) (fun _ h => h)
    (fun c h => h.elim (fun h => Call.Stays.notLoop (q := q) h) (fun h => by cases c <;> first | exact h.elim | trivial)) h
theorem passE_quieter {q : Nat} {p : E α} (h : PassE (Quiet q) e X p) : PassE Quieter e X p := passes_quieter h
theorem passes_inside {q : Nat} {B : α → Prop} {p : Prog α} (h : Passes (Quiet q) e X B p) : Passes (Inside q) e X B p :=
  passes_weaken (O := Quiet q) (fun _ _ => trivial) (fun _ h => Call.Stays.in_ (q := q) h) h
theorem passE_inside {q : Nat} {p : E α} (h : PassE (Quiet q) e X p) : PassE (Inside q) e X p := passes_inside h

theorem passes_resE {O : Allow} {p : E Unit} (h : PassE O e X p) :
    Passes O e X (fun r => r.r = .error e) (resE p) :=
  Passes.bind' h (fun _ hb _ => hb) fun _ => trivial

theorem p_codesP (hj : Spec.Jump e) {a : List Code} {i j : Nat} {env : Env} (hq : env.q = q0) :
    Passes (Quiet q0) e X (fun r => r.r = .error e) (codesP a i j env) := by
  subst hq
  unfold codesP
  refine passes_call rfl ?_ ?_
  · intro r hr s _
    simp only [hr]
    unfold Spec.Jump at hj
    rw [if_pos hj]
    exact rfl
  · intro r; split <;> trivial

theorem p_z2Item {a : List Code} {i j : Nat} {env : Env} {c : Code} (hq : env.q = q0) :
    Passes (Quiet q0) e X (fun r => r.r = .error e) (z2Item a i j env c) := by
  subst hq
  unfold z2Item
  refine passes_call rfl ?_ ?_
  · intro r hr s _
    simp only [hr]
    exact rfl
  · intro r; split
    · exact passes_callP rfl fun _ h => h
    · trivial

theorem p_z2P {a : List Code} {i j : Nat} {env : Env} (hq : env.q = q0) :
    Passes (Quiet q0) e X (fun r => r.r = .error e) (z2P a i j env) := by
  subst hq
  unfold z2P
  split
  · split
    · trivial
    · split
      · split
        · exact (p_z2Item rfl)
        · refine passes_call rfl ?_ ?_
          · intro r hr s _
            simp only [hr]
            exact rfl
          · intro r
            split
            · trivial
            · split
              · exact passes_callP rfl fun _ h => h
              · exact (p_z2Item rfl)
      · split
        · trivial
        · refine Passes.bind ⟨trivial, fun _ => trivial⟩ fun s => ?_
          split
          · exact (p_z2Item rfl)
          · exact passes_callP rfl fun _ h => h
      · split
        · trivial
        · exact (p_z2Item rfl)
      · exact (p_z2Item rfl)
  · trivial

theorem p_z4Args {h : Held} {d : Def} {a : List Code} {cs : Str} {end2 end_ : Nat} {env : Env}
    {idx2 idx : Nat} {a2 : List Code} {end2a : Nat} {args : Nat} (hq : env.q = q0) :
    Passes (Quiet q0) e X (fun r => r.r = .error e) (z4Args h d a cs end2 end_ env idx2 idx a2 end2a args) := by
  subst hq
  unfold z4Args
  split
  · trivial
  · refine Passes.bind' (B := fun r => r.r = .error e) ?_ ?_ ?_
    · split
      · exact passes_callP rfl fun _ h => h
      · refine passes_call rfl ?_ ?_
        · intro r hr s _
          simp only [hr]
          exact rfl
        · intro r; split <;> trivial
    · intro r hr s
      simp only [hr]
      exact rfl
    · intro r
      split
      · trivial
      · refine passes_call rfl ?_ ?_
        · intro r hr s _
          simp only [hr]
          exact rfl
        · intro r; split <;> trivial

/-- `返回` at the end of the evaluation of a scope. -/
theorem ends_returnP {r : Except Err Unit} {q : Nat} {s : St} (hr : r = .error e)
    (h : ¬ (e.i = RETURN ∧ (s.scopes q).i ≤ e.i2)) : Ends (fun b => b = .error e) (returnP q r).run s := by
  subst hr
  change jumpReturn (s.scopes q).i (.error e) = .error e
  simp only [jumpReturn, if_neg h]

theorem p_z4Body {h : Held} {d : Def} {src : Str} {env : Env} {p q2 args : Nat}
    (hX : ∀ a i j env' s, ¬ X (.codes a i j env') s → ¬ (e.i = RETURN ∧ (s.scopes env'.q).i ≤ e.i2)) :
    PassE (Called env.q) e X (z4Body h d src env p q2 args) := by
  have tail : ∀ codes : List Code, PassE (Called env.q) e X ((callP [h] (.codes codes 0 usizeMax
      ⟨{ env.gd with jvhao := false }, q2, env.ret, some p⟩) : Prog Res) >>= fun r => returnP q2 r.r : E Unit) := by
    intro codes
    refine passE_call (.inr trivial) ?_ fun r => passE_called (p_returnP e X)
    intro r hr s hx
    exact ends_returnP hr (hX _ _ _ _ s hx)
  unfold z4Body
  refine PassE.bind (passE_called (p_parseE e X)) fun codes => ?_
  dsimp only
  split
  · refine PassE.bind (PassE.lift (passes_doOp trivial)) fun sep => ?_
    refine PassE.bind (PassE.lift ⟨trivial, fun _ => trivial⟩) fun s => ?_
    refine PassE.bind (PassE.lift passes_ofOut) fun x => ?_
    split
    · refine PassE.bind passE_fail fun _ => tail codes
    · refine PassE.bind (PassE.lift (passes_doOp trivial)) fun _ => ?_
      refine PassE.bind (PassE.lift (passes_doOp trivial)) fun _ => tail codes
  · exact tail codes

theorem p_z4Call {a : List Code} {cs : Str} {end2 end_ : Nat} {env : Env} {st : Z4} {idx2 p k : Nat} {d : Def}
    {src : Str} {a2 : List Code} {end2a : Nat}
    (hX : ∀ a i j env' s, ¬ X (.codes a i j env') s → ¬ (e.i = RETURN ∧ (s.scopes env'.q).i ≤ e.i2)) :
    Passes (Called env.q) e X (fun r => r.r = .error e) (z4Call a cs end2 end_ env st idx2 p k d src a2 end2a) := by
  unfold z4Call
  refine Passes.bind (passes_doOp trivial) fun q2 => ?_
  refine Passes.bind ⟨trivial, fun _ => trivial⟩ fun s => ?_
  refine Passes.bind' (passes_called (p_z4Args rfl)) ?_ ?_
  · intro r hr s
    simp only [hr]
    exact rfl
  · intro r
    split
    · trivial
    · refine Passes.bind' (p_z4Body hX) ?_ ?_
      · rintro b rfl s; exact rfl
      · intro b
        split
        · trivial
        · exact passes_callP (.inl rfl) fun _ h => h

theorem p_z4P {a : List Code} {cs : Str} {end2 end_ : Nat} {env : Env} {st : Z4}
    (hX : ∀ a i j env' s, ¬ X (.codes a i j env') s → ¬ (e.i = RETURN ∧ (s.scopes env'.q).i ≤ e.i2)) :
    Passes (Called env.q) e X (fun r => r.r = .error e) (z4P a cs end2 end_ env st) := by
  unfold z4P
  split
  · refine Passes.bind ⟨trivial, fun _ => trivial⟩ fun s => ?_
    split
    · split
      · trivial
      · exact passes_callP (.inl rfl) fun _ h => h
    · split
      · trivial
      · refine Passes.bind passes_ofOut fun x => ?_
        split
        · exact passes_callP (.inl rfl) fun _ h => h
        · refine Passes.bind (passes_called (p_addTs e X)) fun _ => ?_
          split
          · exact Passes.bind (passes_called (p_addT e X)) fun _ => passes_callP (.inl rfl) fun _ h => h
          · exact p_z4Call hX
  · split
    · split
      · exact Passes.bind (passes_called (p_addT e X)) fun _ => trivial
      · trivial
    · trivial

theorem p_srcP {src : Str} {env : Env}
    (hX : ∀ a i j env' s, ¬ X (.codes a i j env') s → ¬ (e.i = RETURN ∧ (s.scopes env'.q).i ≤ e.i2)) (hq : env.q = q0) :
    PassE (Quiet q0) e X (srcP src env) := by
  subst hq
  unfold srcP
  refine PassE.bind (p_parseE e X) fun codes => ?_
  refine passE_call rfl ?_ fun r => p_returnP e X
  intro r hr s hx
  exact ends_returnP hr (hX _ _ _ { env with gd := { du := env.gd.du, jie := env.gd.jie } } s hx)

theorem jump_not_cond (hj : Spec.Jump e) : e.i ≠ COND_OK ∧ e.i ≠ COND_CT := by
  constructor <;> (intro h; unfold Spec.Jump at hj; rw [h] at hj; revert hj; decide)

theorem p_condMv {can : Bool} {codes : List Code} {env2 : Env} {st : CondSt} (hq : env2.q = q0) :
    Passes (Quiet q0) e X (fun x => x.1 = .error e) (condMv can codes env2 st) := by
  subst hq
  unfold condMv
  refine passes_call rfl ?_ ?_
  · intro r hr s _
    simp only [hr]
    exact rfl
  · intro r; split
    · trivial
    · refine Passes.bind (p_getList e X) fun l => ?_
      exact Passes.bind (passes_doOp trivial) fun _ => trivial

theorem p_condCmp {codes : List Code} {env2 : Env} {st : CondSt} (hq : env2.q = q0) :
    Passes (Quiet q0) e X (fun x => x.1 = .error e) (condCmp codes env2 st) := by
  subst hq
  unfold condCmp
  split
  · trivial
  · refine Passes.bind' (p_condMv rfl) ?_ ?_
    · rintro ⟨b, st⟩ rfl s; exact rfl
    · intro x
      split
      · trivial
      · exact Passes.bind (passes_doOp trivial) fun _ => trivial

theorem p_condP (hj : Spec.Jump e) {codes : List Code} {env2 : Env} {st : CondSt} (hq : env2.q = q0) :
    Passes (Quiet q0) e X (fun r => r.r = .error e) (condP codes env2 st) := by
  subst hq
  unfold condP
  split
  · refine Passes.bind' (p_condCmp rfl) ?_ ?_
    · rintro ⟨b, st⟩ rfl s; exact rfl
    · rintro ⟨b, st⟩; dsimp only; split <;> trivial
  · split
    · refine Passes.bind (passes_doOp trivial) fun r3 => ?_
      refine passes_call rfl ?_ ?_
      · intro r hr s _
        simp only [hr, if_neg (jump_not_cond hj).2]
        exact rfl
      · intro r
        dsimp only
        split
        · split
          · exact passes_callP rfl fun _ h => h
          · trivial
        · exact passes_callP rfl fun _ h => h
    · split
      · refine Passes.bind' (p_condCmp rfl) ?_ ?_
        · rintro ⟨b, st⟩ rfl s; exact rfl
        · rintro ⟨b, st⟩
          dsimp only
          split
          · trivial
          · split
            · trivial
            · split
              · exact passes_callP rfl fun _ h => h
              · exact passes_callP rfl fun _ h => h
      · split
        · exact passes_callP rfl fun _ h => h
        · split
          · refine Passes.bind' (p_condMv rfl) ?_ ?_
            · rintro ⟨b, st⟩ rfl s; exact rfl
            · rintro ⟨b, st⟩
              dsimp only
              split
              · trivial
              · exact passes_callP rfl fun _ h => h
          · exact passes_callP rfl fun _ h => h

theorem p_ifP (hj : Spec.Jump e) {a th el : List Code} {env : Env} (hq : env.q = q0) : PassE (Quiet q0) e X (ifP a th el env) := by
  subst hq
  unfold ifP
  refine PassE.bind (PassE.lift (passes_doOp trivial)) fun r2 => ?_
  refine passE_call rfl ?_ ?_
  · intro r hr s _
    simp only [hr, if_neg (not_or.mpr (jump_not_cond hj))]
    exact rfl
  · intro r
    dsimp only
    have hb : PassE (Quiet env.q) e X (if r.has then hello [] th env else hello [] el env) := by
      split <;> exact passE_hello rfl
    split
    · split
      · exact hb
      · exact passE_fail
    · exact hb

theorem p_loopP {range : Bool} {codes : List Code} {max : Nat} {useI : Bool} {cnt : Cnt} {env : Env} {i : Nat}
    {hasName : Bool} (hX : ∀ a i j env' s, ¬ X (.codes a i j env') s → ¬ Spec.Consumes range cnt.name e) :
    Passes (Inside env.q) e X (fun r => r.r = .error e) (loopP range codes max useI cnt env i hasName) := by
  rw [loopP_eq]
  generalize (if useI = true then i + 1 else i) = j
  split
  · trivial
  · refine Passes.bind (f := fun _ => loopTail range codes max useI cnt env j) ?_ fun _ => ?_
    · unfold loopSet
      split
      · refine Passes.bind (passes_doOp trivial) fun v => ?_
        refine Passes.bind (passes_doOp trivial) fun _ => ?_
        split
        · exact passes_doOp trivial
        · trivial
      · trivial
    · unfold loopTail
      dsimp only
      split
      · split
        · trivial
        · exact passes_callP rfl fun _ h => h
      · refine passes_call rfl ?_ ?_
        · intro r hr s hx
          simp only [hr]
          rw [if_neg (fun h => hX _ _ _ _ s hx ((loopTakes_iff _ _ _).1 h))]
          exact rfl
        · intro r
          split
          · split
            · trivial
            · exact passes_callP rfl fun _ h => h
          · split
            · split
              · trivial
              · exact passes_callP rfl fun _ h => h
            · trivial

theorem p_forP {range : Bool} {cnt : Cnt} {rems codes : List Code} {env : Env} :
    PassE (Inside env.q) e X (forP range cnt rems codes env) := by
  unfold forP
  refine PassE.bind (passE_inside (p_remsP e X rfl)) fun rs => ?_
  refine PassE.bind passE_mk fun cnt' => ?_
  have hl : ∀ x : Nat × Bool, PassE (Inside env.q) e X (do
      let r ← (callP [] (.loop range codes x.1 x.2 cnt' env 0 false) : Prog Res)
      if r.has then doOp .popLabel
      ExceptT.mk (pure r.r)) := fun x => by
   refine passE_call rfl ?_ ?_
   · intro r hr s _
     cases hh : r.has with
     | false =>
       simp only [Bool.false_eq_true, if_false, hr]
       exact rfl
     | true =>
       simp only [if_true, hr]
       exact rfl
   · intro r
     split
     · exact PassE.bind (PassE.lift (passes_doOp trivial)) fun _ => passE_mk
     · exact passE_mk
  exact hl _

theorem p_jie2P {a : List Code} {env : Env} (hX : ∀ a i j env' s, X (.codes a i j env') s) (hq : env.q = q0) :
    PassE (Quiet q0) e X (jie2P a env) := by
  subst hq
  unfold jie2P
  refine PassE.bind (p := (ExceptT.lift (hello [] a env).run : E (Except Err Unit))) ?_ ?_
  · change Passes _ e X _ ((callP [] (.codes a 0 usizeMax env)).bind _)
    exact ⟨rfl, fun r => ⟨fun _ s hx => absurd (hX _ _ _ _ s) hx, trivial⟩⟩
  · intro r
    refine PassE.bind (PassE.lift (p_addDun e X)) fun _ => ?_
    split
    · trivial
    · refine PassE.bind (PassE.lift (p_addT e X)) fun _ => ?_
      refine PassE.bind (PassE.lift (p_addDun e X)) fun _ => ?_
      refine PassE.bind (PassE.lift (p_addT e X)) fun _ => ?_
      refine PassE.bind (PassE.lift (p_addDun e X)) fun _ => ?_
      refine PassE.bind (PassE.lift (p_addT e X)) fun _ => ?_
      refine PassE.bind (PassE.lift (p_addDun e X)) fun _ => ?_
      exact PassE.lift (p_addT e X)

theorem passes_bindE {O : Allow} {p : E α} {f : α → E β} {B : Except Err β → Prop}
    (h : Passes O e X (fun _ => False) p.run) (hf : ∀ a, Passes O e X B (f a).run) :
    Passes O e X B (p >>= f : E β).run := by
  refine Passes.bind' (p := p.run) h (fun _ h _ => h.elim) fun a => ?_
  cases a with
  | ok a => exact hf a
  | error e => trivial

theorem passes_liftE {O : Allow} {p : Prog α} {B : Except Err α → Prop} (h : Passes O e X (fun _ => False) p) :
    Passes O e X B (liftM p : E α).run :=
  Passes.bind' h (fun _ h _ => h.elim) fun _ => trivial

/-- The handler of a passive process, whose failure is dropped. -/
theorem p_execPipe' {h : Nat} {src arg : Str} {env : Env} {B : Except Err Unit → Prop}
    (hX : ∀ t env' s, X (.src t env') s) (hq : env.q = q0) : Passes (Quiet q0) e X B (execPipe h src arg env).run := by
  subst hq
  unfold execPipe execCode
  refine passes_bindE (passes_liftE (passes_doOp trivial)) fun r3 => ?_
  refine passes_bindE ?_ fun _ => passes_bindE (passes_liftE (p_getList e X)) fun l => passes_liftE (p_writeAll e X)
  refine passes_bindE (passes_liftE (passes_doOp trivial)) fun q => ?_
  refine passes_bindE (passes_liftE ⟨trivial, fun _ => trivial⟩) fun s => ?_
  refine passes_bindE (passes_liftE (p_addT e X)) fun _ => ?_
  exact ⟨trivial, fun r => ⟨fun _ s hx => absurd (hX _ _ s) hx, trivial⟩⟩

theorem p_slaveStream {h : Nat} {err : Bool} {src buf : Str} {env : Env} {B : Option Str → Prop}
    (hX : ∀ t env' s, X (.src t env') s) (hq : env.q = q0) : Passes (Quiet q0) e X B (slaveStream h err src buf env) := by
  subst hq
  unfold slaveStream
  split
  · trivial
  · refine Passes.bind (passes_doOp trivial) fun x => ?_
    split
    · split
      · trivial
      · exact Passes.bind (p_execPipe' hX rfl) fun _ => trivial
    · exact Passes.bind (passes_doOp trivial) fun _ => trivial

theorem p_slaveP {h : Nat} {o er buf : Str} {env : Env} (hX : ∀ t env' s, X (.src t env') s) (hq : env.q = q0) :
    Passes (Quiet q0) e X (fun r => r.r = .error e) (slaveP h o er buf env) := by
  subst hq
  unfold slaveP
  refine Passes.bind (p_slaveStream hX rfl) fun x => ?_
  split
  · trivial
  · refine Passes.bind (p_slaveStream hX rfl) fun x => ?_
    split
    · trivial
    · exact passes_callP rfl fun _ h => h

theorem p_execRun {o : ExecOpts} {env : Env} (hX : ∀ h o er buf env' s, X (.slave h o er buf env') s) (hq : env.q = q0) :
    PassE (Quiet q0) e X (execRun o env) := by
  subst hq
  unfold execRun
  dsimp only
  split
  · refine PassE.bind (PassE.lift (passes_doOp trivial)) fun x => ?_
    split
    · refine PassE.bind (p_execPipe e X rfl) fun _ => ?_
      split
      · pass
      · refine PassE.bind (PassE.lift (passes_callX rfl (hX _ _ _ _ _))) fun _ => ?_
        pass
    · pass
    · pass
  · pass
  · pass
  · pass

theorem p_exec2P {v : List Str} {env : Env} (hX : ∀ h o er buf env' s, X (.slave h o er buf env') s) (hq : env.q = q0) :
    PassE (Quiet q0) e X (exec2P v env) := by
  subst hq
  unfold exec2P
  split
  · pass
  · split
    · pass
    · dsimp only
      exact PassE.bind passE_mk fun _ => p_execRun hX rfl

theorem p_execP {a : List Code} {env : Env} (hX : ∀ h o er buf env' s, X (.slave h o er buf env') s) (hq : env.q = q0) :
    PassE (Quiet q0) e X (execP a env) := by
  subst hq
  unfold execP
  refine PassE.bind (p_helloNew e X rfl) fun _ => ?_
  refine PassE.bind (PassE.lift (p_getList e X)) fun _ => ?_
  split
  · pass
  · exact p_exec2P hX rfl

/-- The call is a loop or circle construct, the only ones that handle labels. -/
def Call.OfLoop : Call → Prop
  | .loop .. => True
  | .item (.for_ ..) _ => True
  | _ => False

/-- The scope in which a call is evaluated. -/
def Call.scope : Call → Nat
  | .codes _ _ _ env => env.q
  | .z2 _ _ _ env => env.q
  | .z4 _ _ _ _ env _ => env.q
  | .item _ env => env.q
  | .cond _ env _ => env.q
  | .get _ _ _ env => env.q
  | .slave _ _ _ _ env => env.q
  | .src _ env => env.q
  | .loop _ _ _ _ _ env _ _ => env.q

/-- The call is a step of a call of a definition. -/
def Call.OfDef : Call → Prop
  | .z4 .. => True
  | _ => False

/-- Programs that, as parts of `c`, stay in the scope of `c`, but for the bodies of definitions. -/
def Inner (c : Call) : Allow := ⟨fun _ => True, fun c' => c'.In c.scope ∨ (c.OfDef ∧ c'.IsCodes)⟩

theorem inside_inner {c : Call} {B : α → Prop} {p : Prog α} (h : Passes (Inside c.scope) e X B p) :
    Passes (Inner c) e X B p :=
  passes_weaken (O := Inside c.scope) (fun _ h => h) (fun _ h => .inl h) h

theorem p_itemP (hj : Spec.Jump e) {c : Code} {env : Env} :
    PassE (Inside env.q) e (Spec.Catches (.item c env) e) (itemP c env) ∧
      (¬ (Call.item c env).OfLoop → PassE (Quiet env.q) e (Spec.Catches (.item c env) e) (itemP c env)) := by
  suffices h : ∀ X : Call → St → Prop, X = Spec.Catches (.item c env) e →
      (Call.item c env).OfLoop ∨ PassE (Quiet env.q) e X (itemP c env) by
    rcases h _ rfl with h | h
    · refine ⟨?_, fun h' => absurd h h'⟩
      cases c <;> first | exact h.elim | exact p_forP
    · exact ⟨passE_inside h, fun _ => h⟩
  intro X hX
  cases c with
  | for_ range cnt rems codes => exact .inl trivial
  | if_ a th el => exact .inr (p_ifP hj rfl)
  | jie2 a => exact .inr (p_jie2P (fun _ _ _ _ _ => by rw [hX]; trivial) rfl)
  | exec a => exact .inr (p_execP (fun _ _ _ _ _ _ => by rw [hX]; trivial) rfl)
  | _ => exact .inr (by dsimp only [itemP]; pass)

/-- **Everything else is handed on at once**; outside of loops and circles no label is touched, and only
calls of definitions, `解释` and the like leave the scope. -/
theorem passes_eval (hj : Spec.Jump e) (c : Call) :
    Passes Anything e (Spec.Catches c e) (fun r => r.r = .error e) (evalF c) ∧
      (¬ c.OfLoop → Passes Quieter e (Spec.Catches c e) (fun r => r.r = .error e) (evalF c)) ∧
      Passes (Inner c) e (Spec.Catches c e) (fun r => r.r = .error e) (evalF c) := by
  have both : ∀ {p : Prog Res}, Passes (Quiet c.scope) e (Spec.Catches c e) (fun r => r.r = .error e) p →
      Passes Anything e (Spec.Catches c e) (fun r => r.r = .error e) p ∧
      (¬ c.OfLoop → Passes Quieter e (Spec.Catches c e) (fun r => r.r = .error e) p) ∧
      Passes (Inner c) e (Spec.Catches c e) (fun r => r.r = .error e) p :=
    fun h => ⟨any_of _ h, fun _ => passes_quieter h, inside_inner (passes_inside h)⟩
  cases c with
  | codes a i j env => exact both (p_codesP hj rfl)
  | z2 a i j env => exact both (p_z2P rfl)
  | z4 a cs end2 end_ env st =>
    have h := p_z4P (e := e) (X := Spec.Catches (.z4 a cs end2 end_ env st) e) (a := a) (cs := cs) (end2 := end2)
      (end_ := end_) (env := env) (st := st) fun _ _ _ _ _ h => h
    exact ⟨any_of _ h, fun _ => called_quieter h, passes_weaken (O := Called env.q) (fun _ _ => trivial)
      (fun _ h => h.elim (fun h => .inl (Call.Stays.in_ (q := env.q) h)) (fun h => .inr ⟨trivial, h⟩)) h⟩
  | item c env =>
    exact ⟨any_of _ (passes_resE (p_itemP hj).1), fun h => passes_quieter (passes_resE ((p_itemP hj).2 h)),
      inside_inner (passes_resE (p_itemP hj).1)⟩
  | src t env => exact both (passes_resE (p_srcP (fun _ _ _ _ _ h => h) rfl))
  | loop range codes max useI cnt env i hasName =>
    have h := p_loopP (e := e) (X := Spec.Catches (.loop range codes max useI cnt env i hasName) e) (range := range)
      (codes := codes) (max := max) (useI := useI) (cnt := cnt) (env := env) (i := i) (hasName := hasName)
      fun _ _ _ _ _ h => h
    exact ⟨any_of _ h, fun h => absurd trivial h, inside_inner h⟩
  | cond codes env2 st => exact both (p_condP hj rfl)
  | get l isHas equ env => exact both (passes_resE (p_get2P _ _))
  | slave h o er buf env => exact both (p_slaveP (fun _ _ _ => trivial) rfl)

end Zh
