import Verif.Props.Jumps
/-!
# Which construct a jump statement ends (C24)
-/
namespace Zh

variable {H : Host} {α β : Type}

/-! ## The jump statements -/

/-- The state with one more empty result list. -/
def Spec.fresh (s : St) : St := { s with lists := upd s.lists s.nlist .empty, nlist := s.nlist + 1 }

/-- The words `v` written after a statement: its code is evaluated into a fresh result list, which is
then split. -/
def Spec.Words (H : Host) (a : List Code) (env : Env) (s : St) (v : List Str) (t : St) : Prop :=
  ∃ x, Evals H (.codes a 0 usizeMax { env with ret := s.nlist }) (Spec.fresh s) x t ∧ x.r = .ok () ∧
    v = (t.lists s.nlist).toVec

theorem evE_helloVec_ok {a : List Code} {env : Env} {s t : St} {v : List Str} :
    EvE H (Evals H) (helloVec a env) s (.ok v) t ↔ Spec.Words H a env s v t := by
  unfold helloVec helloNew Spec.Words
  constructor
  · intro h
    rcases evE_bind.1 h with ⟨r, s1, h1, h2⟩ | ⟨_, _, h⟩
    · rcases evE_bind.1 h1 with ⟨r', s2, h3, h4⟩ | ⟨_, _, h⟩
      · obtain ⟨x, hx, h3⟩ := evE_lift.1 h3
        cases hx
        have h3 := ev_doOp.1 h3
        simp only [Op.run, Prod.mk.injEq, Out.ok.injEq] at h3
        obtain ⟨rfl, rfl⟩ := h3
        rcases evE_bind.1 h4 with ⟨u, s3, h5, h6⟩ | ⟨_, _, h⟩
        · obtain ⟨x, hx, hx2⟩ := evE_hello.1 h5
          obtain ⟨h6', rfl⟩ := evE_pure.1 h6
          clear h6
          obtain rfl : r = s.nlist := by injection h6'
          rcases evE_bind.1 h2 with ⟨l, s4, h7, h8⟩ | ⟨_, _, h⟩
          · obtain ⟨x', hx', h7⟩ := evE_lift.1 h7
            cases hx'
            unfold getList at h7
            obtain ⟨st, s5, h9, h10⟩ := ev_bind.1 h7
            obtain ⟨rfl, rfl⟩ := ev_getSt.1 h9
            obtain ⟨rfl, rfl⟩ := ev_pure.1 h10
            obtain ⟨h8, rfl⟩ := evE_pure.1 h8
            cases h8
            exact ⟨x, hx, hx2, rfl⟩
          · cases h
        · cases h
      · cases h
    · cases h
  · rintro ⟨x, h1, h2, rfl⟩
    refine evE_bind.2 (.inl ⟨s.nlist, t, ?_, ?_⟩)
    · refine evE_bind.2 (.inl ⟨s.nlist, Spec.fresh s, evE_lift.2 ⟨_, rfl, ev_doOp.2 rfl⟩, ?_⟩)
      exact evE_bind.2 (.inl ⟨(), t, evE_hello.2 ⟨x, h1, h2⟩, evE_pure.2 ⟨rfl, rfl⟩⟩)
    · refine evE_bind.2 (.inl ⟨t.lists s.nlist, t, evE_lift.2 ⟨_, rfl, ?_⟩, evE_pure.2 ⟨rfl, rfl⟩⟩)
      unfold getList
      exact ev_bind.2 ⟨t, t, ev_getSt.2 ⟨rfl, rfl⟩, ev_pure.2 ⟨rfl, rfl⟩⟩

theorem words_nil {env : Env} {s : St} : Spec.Words H [] env s [] (Spec.fresh s) :=
  ⟨_, codes_nil, rfl, by simp only [Spec.fresh, upd_same]; rfl⟩

/-- A jump statement whose words have been evaluated. -/
theorem jump_item {k : JumpKind} {a : List Code} {env : Env} {s t : St} {v : List Str} (h : Spec.Words H a env s v t) :
    Evals H (.item (.jump k a) env) s { r := .error (jumpErr k (fun w =>
      (namedScope t.scopes t.mods env.q w).map fun p => (t.scopes p).i) t.labels (t.scopes env.q).i v) } t := by
  refine evals_item.2 ⟨_, ?_, rfl⟩
  change EvE H _ (jumpP k a env) s _ t
  unfold jumpP
  refine evE_bind.2 (.inl ⟨v, t, evE_helloVec_ok.2 h, ?_⟩)
  refine evE_bind.2 (.inl ⟨t, t, evE_lift.2 ⟨_, rfl, ev_getSt.2 ⟨rfl, rfl⟩⟩, evE_fail.2 ⟨rfl, rfl⟩⟩)

/-- **C24.**  A break or continue without words is the unlabelled jump. -/
theorem C24_statement_plain (range brk : Bool) (env : Env) (s : St) :
    Evals H (.item (.jump (Spec.kind range brk) []) env) s
      { r := .error ⟨Spec.code range brk, 0, [], []⟩ } (Spec.fresh s) := by
  have := jump_item (k := Spec.kind range brk) (words_nil (H := H) (env := env) (s := s))
  revert this
  cases range <;> cases brk <;> exact id

theorem jumpErr_one (range brk : Bool) (named : Str → Option Int) (labels : List Str) (depth : Int) (w : Str) :
    jumpErr (Spec.kind range brk) named labels depth [w] =
      if w ∈ labels then ⟨Spec.code range brk, 0, w, []⟩ else ⟨ERR, NO, w, []⟩ := by
  by_cases h : w ∈ labels
  · cases range <;> cases brk <;>
      simp [jumpErr, jumpEnd, jumpI, jumpWords, jumpWord, Spec.kind, Spec.code, JumpKind.code, h, NO, BREAK, BREAK2,
        CONTINUE, CONTINUE2]
  · cases range <;> cases brk <;>
      simp [jumpErr, jumpEnd, jumpI, jumpWords, jumpWord, Spec.kind, h]

/-- **C24.**  A break or continue with the label `w` is the jump with that label if the label is active, and
an error (not a jump) if it is not. -/
theorem C24_statement_label (range brk : Bool) {a : List Code} {env : Env} {s t : St} {w : Str}
    (h : Spec.Words H a env s [w] t) :
    Evals H (.item (.jump (Spec.kind range brk) a) env) s
      { r := .error (if w ∈ t.labels then ⟨Spec.code range brk, 0, w, []⟩ else ⟨ERR, NO, w, []⟩) } t := by
  have := jump_item (k := Spec.kind range brk) h
  rw [jumpErr_one] at this
  exact this

/-! ## Which construct consumes it -/

/-- No construct that consumes a break or continue of a loop (`range = false`) or circle (`range = true`) with
the label `w` (`[]`: without label) is passed on this step; `管道节` and the handlers of passive processes
are not passed either. -/
def Spec.Between (range : Bool) (w : Str) : Call → Call → Prop
  | .loop range' _ _ _ cnt _ _ _, .codes .. => range' ≠ range ∨ (w ≠ [] ∧ cnt.name ≠ some w)
  | .item (.jie2 _) _, .codes .. => False
  | .slave .., .src .. => False
  | .item (.exec _) _, .slave .. => False
  | _, _ => True

theorem between_catches {range brk : Bool} {w : Str} {c c' : Call} {t : St} {i2 : Int} {s2 : Str}
    (h : Spec.Between range w c c') : ¬ Spec.Catches c ⟨Spec.code range brk, i2, w, s2⟩ c' t := by
  have hr : Spec.code range brk ≠ RETURN := by cases range <;> cases brk <;> decide
  cases c with
  | loop range' codes max useI cnt env i hn =>
    cases c' with
    | codes a x y env' =>
      intro hc
      obtain ⟨⟨brk', h1⟩, h2⟩ := consumes_iff.1 (show Spec.Consumes range' cnt.name _ from hc)
      have h1 := (Spec.code_inj h1).1
      rcases (show range' ≠ range ∨ (w ≠ [] ∧ cnt.name ≠ some w) from h) with h | ⟨h, h'⟩
      · exact h h1.symm
      · exact h2.elim h h'
    | _ => exact id
  | item c env => cases c <;> cases c' <;> first | exact h.elim | exact id
  | slave _ _ _ _ _ => cases c' <;> first | exact h.elim | exact id
  | src _ _ => cases c' <;> first | exact id | exact fun h => hr h.1
  | z4 _ _ _ _ _ _ => cases c' <;> first | exact id | exact fun h => hr h.1
  | _ => exact id

theorem Spec.Within.mono {P Q : Call → Call → Prop} (hPQ : ∀ c c', P c c' → Q c c') {c c' : Call} {s s' : St}
    (h : Spec.Within H P c s c' s') : Spec.Within H Q c s c' s' := by
  induction h with
  | here => exact .here
  | step h1 h2 _ ih => exact .step h1 (hPQ _ _ h2) ih

theorem Spec.code_jump (range brk : Bool) (i2 : Int) (w s2 : Str) : Spec.Jump ⟨Spec.code range brk, i2, w, s2⟩ := by
  unfold Spec.Jump; cases range <;> cases brk <;> rfl

/-- What the construct does with its own jump: it ends normally in the state `t`, or it makes its next turn. -/
def Spec.Takes (H : Host) (range : Bool) (codes : List Code) (max : Nat) (useI : Bool) (cnt : Cnt) (env : Env)
    (i : Nat) (hn : Bool) (s : St) (brk : Bool) (t : St) : Prop :=
  if brk then ∃ r, Evals H (.loop range codes max useI cnt env i hn) s r t ∧ r.r = .ok ()
  else ∀ r t', Evals H (.loop range codes max useI cnt env i hn) s r t' ↔
    Evals H (.loop range codes max useI cnt env (Spec.next useI i) cnt.name.isSome) t r t'

/-- **C24.**  An unlabelled break or continue statement is consumed by the innermost enclosing construct of
its kind: when no construct of that kind (and no `管道节`) lies between the body of the construct and the
statement, then the construct ends normally at once, or makes its next turn, with nothing else evaluated
in between. -/
theorem C24_innermost {range brk : Bool} {codes : List Code} {max : Nat} {useI : Bool} {cnt : Cnt} {env env' : Env}
    {i : Nat} {hn : Bool} {s s1 s2 : St}
    (hL : Spec.Part H (.loop range codes max useI cnt env i hn) s (.codes codes 0 usizeMax env) s1)
    (hp : Spec.Within H (Spec.Between range []) (.codes codes 0 usizeMax env) s1
      (.item (.jump (Spec.kind range brk) []) env') s2) :
    ∃ t, Spec.Same (Spec.fresh s2) t ∧ Spec.Takes H range codes max useI cnt env i hn s brk t := by
  obtain ⟨r, t, h1, h2, h3⟩ := C24_through (Spec.code_jump range brk 0 [] [])
    (hp.mono fun _ _ h => between_catches h) (C24_statement_plain range brk env' s2) rfl
  exact ⟨t, h3, C24_taken hL h1 h2 rfl (.inl rfl)⟩

/-! ### The label of an enclosing loop is active -/

theorem Passes.notLoop {e : Err} {X : Call → St → Prop} {B : α → Prop} {p : Prog α} (h : Passes Quieter e X B p)
    {rec : Call → St → Out Res × St} {s : St} {c : Call} {t : St} (hc : Calls H rec p s c t) : c.NotLoop := by
  induction p generalizing s with
  | ret a => exact hc.elim
  | panic => exact hc.elim
  | op o k ih => obtain ⟨a, s1, -, hc⟩ := hc; exact ih a (h.2 a) hc
  | call hd c0 k ih =>
    rcases hc with ⟨rfl, rfl⟩ | ⟨r, s1, -, hc⟩
    · exact h.1
    · exact ih r (h.2 r).2 hc

theorem p_topVal {e : Err} {X : Call → St → Prop} {n v : Str} {q : Nat} {B : Unit → Prop} :
    Passes (Quiet q) e X B (topVal n v) := by
  unfold topVal; pass
macro_rules | `(tactic| pass_rule) => `(tactic| with_reducible exact p_topVal)

theorem p_mainP {e : Err} {X : Call → St → Prop} {argv : List Str} : PassE Quieter e X (mainP argv) := by
  refine passE_quieter (q := 0) ?_
  unfold mainP; pass

/-- Where loops come from: their statement, or their previous turn. -/
theorem part_loop {c : Call} {s : St} {range : Bool} {codes : List Code} {max : Nat} {useI : Bool} {cnt : Cnt} {env : Env}
    {i : Nat} {s' : St} (hp : Spec.Part H c s (.loop range codes max useI cnt env i true) s') :
    ∃ i' hn, c = .loop range codes max useI cnt env i' hn := by
  obtain ⟨n, hp⟩ := hp
  by_cases hq : c.OfLoop
  · cases c with
    | loop range' codes' max' useI' cnt' env' i' hn =>
      change Calls H _ (loopP range' codes' max' useI' cnt' env' i' hn) _ _ _ at hp
      rw [loopP_eq] at hp
      generalize (if useI' = true then i' + 1 else i') = j at hp
      have again : ∀ {u : St}, Calls H (run H n) (callP [] (.loop range' codes' max' useI' cnt' env' j cnt'.name.isSome)) u
          (.loop range codes max useI cnt env i true) s' →
          ∃ i'' hn', (.loop range' codes' max' useI' cnt' env' i' hn : Call) = .loop range codes max useI cnt env i'' hn' := by
        rintro u (⟨h5, -⟩ | ⟨_, _, _, h5⟩)
        · simp only [Call.loop.injEq] at h5
          obtain ⟨rfl, rfl, rfl, rfl, rfl, rfl, -, -⟩ := h5
          exact ⟨_, _, rfl⟩
        · exact h5.elim
      split at hp
      · exact hp.elim
      · rcases calls_bind (f := fun _ => loopTail range' codes' max' useI' cnt' env' j) hp with hp | ⟨v, s2, h1, h2⟩
        · exact absurd hp loopSet_noCalls
        · unfold loopTail at h2
          dsimp only at h2
          split at h2
          · split at h2
            · exact h2.elim
            · exact again h2
          · rcases h2 with ⟨h2, -⟩ | ⟨r, s3, h3, h4⟩
            · cases h2
            · dsimp only [Prog.bind] at h4
              cases hr : r.r with
              | ok u =>
                rw [hr] at h4
                dsimp only at h4
                split at h4
                · exact h4.elim
                · exact again h4
              | error e =>
                rw [hr] at h4
                dsimp only at h4
                split at h4
                · split at h4
                  · exact h4.elim
                  · exact again h4
                · exact h4.elim
    | item c env' =>
      cases c with
      | for_ range' cnt' rems codes' =>
        exfalso
        change Calls H _ ((forP range' cnt' rems codes' env').run.bind _) _ _ _ at hp
        rcases calls_bind hp with hp | ⟨_, _, _, hp⟩
        · unfold forP at hp
          rcases calls_bind hp with hp | ⟨a, s2, -, hp⟩
          · exact Passes.notLoop (passE_quieter (p_remsP .qve (fun _ _ => True) rfl)) hp
          · cases a with
            | error e => exact hp
            | ok a =>
              rcases calls_bind hp with hp | ⟨a, s2, -, hp⟩
              · exact hp
              · cases a with
                | error e => exact hp
                | ok a =>
                  have hl : ∀ (x : Nat × Bool) (u : St), ¬ Calls H (run H n) (ExceptT.run (do
                      let r ← (callP [] (.loop range' codes' x.1 x.2 a env' 0 false) : Prog Res)
                      if r.has then doOp .popLabel
                      ExceptT.mk (pure r.r) : E Unit)) u (.loop range codes max useI cnt env i true) s' := by
                    rintro x u (⟨h, -⟩ | ⟨r, _, _, h⟩)
                    · cases h
                    · exact noCalls_forEnd.calls h
                  exact hl _ _ hp
        · exact hp
      | _ => exact hq.elim
    | _ => exact hq.elim
  · exact (((passes_eval (e := ⟨BREAK, 0, [], []⟩) rfl c).2.1 hq).notLoop hp).elim

/-- A loop that has entered its label: the label is active. -/
theorem loop_label {ovf : Bool} {argv : List Str} {range : Bool} {codes : List Code} {max : Nat} {useI : Bool} {cnt : Cnt}
    {env : Env} {i : Nat} {hn : Bool} {s : St} {w : Str}
    (hR : Reached H ovf argv (.loop range codes max useI cnt env i hn) s) (hw : cnt.name = some w) (ht : hn = true) :
    w ∈ s.labels := by
  generalize hc : (Call.loop range codes max useI cnt env i hn) = c at hR
  induction hR generalizing i hn with
  | main n h =>
    subst hc
    exact (Passes.notLoop (p_mainP (e := .qve) (X := fun _ _ => True)) h).elim
  | step n hR h ih =>
    subst hc ht
    obtain ⟨i', hn', rfl⟩ := part_loop ⟨n, h⟩
    have hl := C24_labels hR ⟨n, h⟩
    rw [hl]
    cases hn' with
    | false => simp [Spec.entered, hw]
    | true => exact List.mem_append_left _ (ih (hn := true) rfl rfl)

theorem Spec.Within.reached {P : Call → Call → Prop} {ovf : Bool} {argv : List Str} {c c' : Call} {s s' : St}
    (h : Spec.Within H P c s c' s') (hR : Reached H ovf argv c s) : Reached H ovf argv c' s' := by
  induction h with
  | here => exact hR
  | step h1 _ _ ih => obtain ⟨n, h1⟩ := h1; exact ih (.step n hR h1)

theorem Spec.Within.labels {P : Call → Call → Prop} {ovf : Bool} {argv : List Str} {c c' : Call} {s s' : St} {w : Str}
    (h : Spec.Within H P c s c' s') (hR : Reached H ovf argv c s) (hw : w ∈ s.labels) : w ∈ s'.labels := by
  induction h with
  | here => exact hw
  | step h1 _ _ ih =>
    have hl := C24_labels hR h1
    obtain ⟨n, h1⟩ := h1
    exact ih (.step n hR h1) (by rw [hl]; exact List.mem_append_left _ hw)

/-- **C24.**  In the body of a loop or circle with a named counter, that name is an active label, however deep
inside. -/
theorem C24_label_active {P : Call → Call → Prop} {ovf : Bool} {argv : List Str} {range : Bool} {codes : List Code}
    {max : Nat} {useI : Bool} {cnt : Cnt} {env : Env} {i : Nat} {hn : Bool} {s s1 s2 : St} {w : Str} {c : Call}
    (hR : Reached H ovf argv (.loop range codes max useI cnt env i hn) s) (hw : cnt.name = some w)
    (hL : Spec.Part H (.loop range codes max useI cnt env i hn) s (.codes codes 0 usizeMax env) s1)
    (hp : Spec.Within H P (.codes codes 0 usizeMax env) s1 c s2) : w ∈ s2.labels := by
  have hl := C24_labels hR hL
  obtain ⟨n, hL⟩ := hL
  refine hp.labels (.step n hR hL) ?_
  rw [hl]
  cases hn with
  | false => simp [Spec.entered, hw]
  | true => exact List.mem_append_left _ (loop_label hR hw rfl)

/-- **C24.**  A labelled break or continue statement passes through every construct with another counter name
or of the other kind and is consumed by the nearest one of its kind with that counter name. -/
theorem C24_labelled {ovf : Bool} {argv : List Str} {range brk : Bool} {codes a : List Code} {max : Nat} {useI : Bool}
    {cnt : Cnt} {env env' : Env} {i : Nat} {hn : Bool} {s s1 s2 t0 : St} {w : Str}
    (hR : Reached H ovf argv (.loop range codes max useI cnt env i hn) s) (hw : cnt.name = some w)
    (hL : Spec.Part H (.loop range codes max useI cnt env i hn) s (.codes codes 0 usizeMax env) s1)
    (hp : Spec.Within H (Spec.Between range w) (.codes codes 0 usizeMax env) s1
      (.item (.jump (Spec.kind range brk) a) env') s2)
    (ha : Spec.Words H a env' s2 [w] t0) :
    ∃ t, Spec.Same t0 t ∧ Spec.Takes H range codes max useI cnt env i hn s brk t := by
  have hin : w ∈ t0.labels := by
    have h1 := C24_label_active hR hw hL hp
    obtain ⟨x, ⟨n, h2⟩, -, -⟩ := ha
    have hR2 : Reached H ovf argv (.item (.jump (Spec.kind range brk) a) env') s2 := by
      obtain ⟨m, hL⟩ := hL
      exact hp.reached (.step m hR hL)
    have hR3 : Reached H ovf argv (.codes a 0 usizeMax { env' with ret := s2.nlist }) (Spec.fresh s2) := by
      refine .step n hR2 ?_
      change Calls H _ ((jumpP (Spec.kind range brk) a env').run.bind _) _ _ _
      exact ⟨s2.nlist, Spec.fresh s2, rfl, .inl ⟨rfl, rfl⟩⟩
    rw [C25_labels_restored hR3 trivial n x t0 h2]
    exact h1
  have hs := C24_statement_label (H := H) range brk ha
  rw [if_pos hin] at hs
  obtain ⟨r, t, h1, h2, h3⟩ := C24_through (Spec.code_jump range brk 0 w [])
    (hp.mono fun _ _ h => between_catches h) hs rfl
  exact ⟨t, h3, C24_taken hL h1 h2 rfl (.inr hw)⟩

/-! ### Concrete cases -/

/-- Whether `P` holds for the call or for one within it, with `E` for each step. -/
def withinB (H : Host) (n : Nat) (E : Call → Call → Bool) (P : Call → St → Bool) : Nat → Call → St → Bool
  | 0, c, s => P c s
  | d + 1, c, s => P c s || callsB H (run H n) (fun c' s' => E c c' && withinB H n E P d c' s') (evalF c) s

theorem withinB_sound {n : Nat} {E : Call → Call → Bool} {P : Call → St → Bool} {Q : Call → Call → Prop}
    (hE : ∀ c c', E c c' = true → Q c c') (d : Nat) {c : Call} {s : St} (h : withinB H n E P d c s = true) :
    ∃ c' s', Spec.Within H Q c s c' s' ∧ P c' s' = true := by
  induction d generalizing c s with
  | zero => exact ⟨c, s, .here, h⟩
  | succ d ih =>
    simp only [withinB, Bool.or_eq_true] at h
    rcases h with h | h
    · exact ⟨c, s, .here, h⟩
    · obtain ⟨c', t, h1, h2⟩ := callsB_sound _ _ h
      simp only [Bool.and_eq_true] at h2
      obtain ⟨c2, s2, h3, h4⟩ := ih h2.2
      exact ⟨c2, s2, .step ⟨n, h1⟩ (hE _ _ h2.1) h3, h4⟩

/-- `Spec.Between`, computed. -/
def betweenB (range : Bool) (w : Str) : Call → Call → Bool
  | .loop range' _ _ _ cnt _ _ _, .codes .. => range' != range || (!w.isEmpty && cnt.name != some w)
  | .item (.jie2 _) _, .codes .. => false
  | .slave .., .src .. => false
  | .item (.exec _) _, .slave .. => false
  | _, _ => true

theorem betweenB_sound {range : Bool} {w : Str} (c c' : Call) (h : betweenB range w c c' = true) :
    Spec.Between range w c c' := by
  cases c with
  | loop range' codes max useI cnt env i hn =>
    cases c' with
    | codes a x y env' =>
      simp only [betweenB, Bool.or_eq_true, bne_iff_ne, Bool.and_eq_true, Bool.not_eq_true', List.isEmpty_eq_false_iff] at h
      exact h
    | _ => trivial
  | item c env => cases c <;> cases c' <;> trivial
  | slave _ _ _ _ _ => cases c' <;> trivial
  | _ => trivial

/-- `Spec.Words`, computed. -/
def wordsB (H : Host) (n : Nat) (a : List Code) (env : Env) (s : St) (v : List Str) : Bool :=
  match run H n (.codes a 0 usizeMax { env with ret := s.nlist }) (Spec.fresh s) with
  | (.ok x, t) => (match x.r with | .ok _ => true | .error _ => false) && (t.lists s.nlist).toVec == v
  | _ => false

theorem wordsB_sound {n : Nat} {a : List Code} {env : Env} {s : St} {v : List Str} (h : wordsB H n a env s v = true) :
    ∃ t, Spec.Words H a env s v t := by
  unfold wordsB at h
  split at h
  · rename_i x t hr
    simp only [Bool.and_eq_true, beq_iff_eq] at h
    refine ⟨t, x, ⟨n, hr⟩, ?_, h.2.symm⟩
    rcases hx : x.r with _ | _
    · simp [hx] at h
    · rfl
  · cases h

/-- The loop `i` of a run has a break of the loop `w` in its body. -/
def breakB (n : Nat) (w : Str) (ls : List Str) (c : Call) (s : St) : Bool :=
  match c with
  | .loop false _ _ _ cnt _ _ _ => cnt.name == some w &&
    callsB H0 (run H0 n) (fun c' s' => match c' with
      | .codes .. => withinB H0 n (betweenB false w) (fun c s => match c with
        | .item (.jump .break_ a) env' => s.labels == ls && wordsB H0 n a env' s [w]
        | _ => false) n c' s'
      | _ => false) (evalF c) s
  | _ => false

/-- A break of the loop `i` from inside a circle `j` and a loop `k`: the hypotheses of `C24_labelled` are met
by a run of the interpreter. -/
theorem C24_witness : ∃ codes a max useI cnt env env' i hn s s1 s2 t0,
    Reached H0 false (demoArgv c!"循环【2】【i】先圈子【j】循环【2】【k】跳出i。。了。")
      (.loop false codes max useI cnt env i hn) s ∧ cnt.name = some c!"i" ∧
    Spec.Part H0 (.loop false codes max useI cnt env i hn) s (.codes codes 0 usizeMax env) s1 ∧
    Spec.Within H0 (Spec.Between false c!"i") (.codes codes 0 usizeMax env) s1
      (.item (.jump (Spec.kind false true) a) env') s2 ∧
    Spec.Words H0 a env' s2 [c!"i"] t0 ∧ s2.labels = [c!"i", c!"j", c!"k"] := by
  obtain ⟨c, s, hR, h⟩ := demoB_sound (n := 22) (src := c!"循环【2】【i】先圈子【j】循环【2】【k】跳出i。。了。")
    (P := breakB 22 c!"i" [c!"i", c!"j", c!"k"]) (by decide +kernel)
  unfold breakB at h
  split at h
  · rename_i codes max useI cnt env i hn
    simp only [Bool.and_eq_true, beq_iff_eq] at h
    obtain ⟨c', s1, h1, h2⟩ := callsB_sound _ _ h.2
    split at h2
    · obtain ⟨-, hcall, -, -⟩ := loop_body h1
      obtain ⟨c2, s2, h3, h4⟩ := withinB_sound betweenB_sound _ h2
      rw [hcall] at h1 h3
      split at h4
      · rename_i a env'
        simp only [Bool.and_eq_true, beq_iff_eq] at h4
        obtain ⟨t0, ht⟩ := wordsB_sound h4.2
        exact ⟨codes, a, max, useI, cnt, env, env', i, hn, s, s1, s2, t0, hR, h.1, ⟨_, h1⟩, h3, ht, h4.1⟩
      · cases h4
    · cases h2
  · cases h

/-- The hypotheses of `C24_innermost` are met: a continue of a loop from inside a circle. -/
theorem C24_innermost_witness : ∃ codes max useI cnt env env' i hn s s1 s2,
    Reached H0 false (demoArgv c!"循环【2】先圈子先再来。了。了。") (.loop false codes max useI cnt env i hn) s ∧
    Spec.Part H0 (.loop false codes max useI cnt env i hn) s (.codes codes 0 usizeMax env) s1 ∧
    Spec.Within H0 (Spec.Between false []) (.codes codes 0 usizeMax env) s1
      (.item (.jump (Spec.kind false false) []) env') s2 := by
  obtain ⟨c, s, hR, h⟩ := demoB_sound (n := 22) (src := c!"循环【2】先圈子先再来。了。了。")
    (P := fun c s => match c with
      | .loop false .. => callsB H0 (run H0 22) (fun c' s' => match c' with
        | .codes .. => withinB H0 22 (betweenB false []) (fun c _ => match c with
          | .item (.jump .continue_ []) _ => true
          | _ => false) 22 c' s'
        | _ => false) (evalF c) s
      | _ => false) (by decide +kernel)
  split at h
  · rename_i codes max useI cnt env i hn
    obtain ⟨c', s1, h1, h2⟩ := callsB_sound _ _ h
    split at h2
    · obtain ⟨-, hcall, -, -⟩ := loop_body h1
      obtain ⟨c2, s2, h3, h4⟩ := withinB_sound betweenB_sound _ h2
      rw [hcall] at h1 h3
      split at h4
      · rename_i env'
        exact ⟨codes, max, useI, cnt, env, env', i, hn, s, s1, s2, hR, ⟨_, h1⟩, h3⟩
      · cases h4
    · cases h2
  · cases h

/-- The break of `C24_witness` at work: the two inner constructs and the loop end, what follows the loop is
evaluated, once. -/
theorem C24_example : demo 40 c!"循环【2】【i】先圈子【j】循环【2】【k】跳出i。。显示“内”。了。显示“外”。" =
    (.ok (.ok ()), [.out c!"外"]) := by decide +kernel

/-- **C24**, a deviation: with several words after a break only the last one is the label, but it is enough that
one of them is active.  Such a jump is consumed by no loop and ends the script with the raw jump. -/
theorem C24_several_counterexample : demo 40 c!"循环【2】【i】跳出i、x。。显示“外”。" =
    (.ok (.error ⟨Spec.code false true, 0, c!"x", []⟩), []) := by decide +kernel

end Zh
