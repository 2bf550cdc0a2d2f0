import Verif.Props.Jumps2
/-!
# C28: the catching pipe `管道节`
-/
namespace Zh

variable {H : Host}

/-! ## Specification -/

/-- From `s` to `s'` exactly the values `vs` are appended to the result list `r`, as fresh items without
annotations; nothing else changes. -/
structure Spec.Appended (r : Nat) (vs : List Val) (s s' : St) : Prop where
  items : ((s'.lists r).a = (s.lists r).a ++ vs.mapIdx fun k v => ⟨s.nitem + k, v⟩)
  fresh : ∀ k, s'.items k = if s.nitem ≤ k ∧ k < s.nitem + vs.length then [] else s.items k
  lists : ∀ k, k ≠ r → s'.lists k = s.lists k
  rest : s' = { s with lists := s'.lists, items := s'.items, nitem := s.nitem + vs.length }

/-- The separator `、`. -/
def Spec.sep : Val := .k (kw .dunhao)

/-- What a catching pipe appends. -/
def Spec.report : Except Err Unit → List Val
  | .ok () => [Spec.sep]
  | .error e => [Spec.sep, .s (intStr e.i), Spec.sep, .s (intStr e.i2), Spec.sep, .s e.s, Spec.sep, .s e.s2]

/-! ## Appending -/

/-- A fresh item with value `v` at the end of the list `r`. -/
def St.push (r : Nat) (v : Val) (s : St) : St :=
  { s with items := upd s.items s.nitem [], nitem := s.nitem + 1, lists := upd s.lists r ((s.lists r).add ⟨s.nitem, v⟩) }

variable {R : Call → St → Res → St → Prop}

theorem ev_addVal {r : Nat} {v : Val} {s s' : St} {u : Unit} :
    Ev H R (addVal r v []) s u s' ↔ s' = s.push r v := by
  constructor
  · intro h
    obtain ⟨a, s1, h1, h⟩ := ev_bind.1 h
    obtain ⟨b, s2, h2, h3⟩ := ev_bind.1 h
    have h1 := ev_doOp.1 h1
    obtain ⟨rfl, rfl⟩ := ev_getSt.1 h2
    have h3 := ev_doOp.1 h3
    simp only [Op.run, Prod.mk.injEq, Out.ok.injEq] at h1 h3
    obtain ⟨rfl, rfl⟩ := h1
    exact h3.2.symm
  · rintro rfl
    exact ev_bind.2 ⟨_, _, ev_doOp.2 rfl, ev_bind.2 ⟨_, _, ev_getSt.2 ⟨rfl, rfl⟩, ev_doOp.2 rfl⟩⟩

theorem ev_addT {r : Nat} {t : Str} {s s' : St} {u : Unit} : Ev H R (addT r t) s u s' ↔ s' = s.push r (.s t) := ev_addVal
theorem ev_addDun {r : Nat} {s s' : St} {u : Unit} : Ev H R (addDun r) s u s' ↔ s' = s.push r Spec.sep := ev_addVal

theorem evE_addVal {r : Nat} {v : Val} {s s' : St} {x : Except Err Unit} :
    EvE H R (liftM (addVal r v []) : E Unit) s x s' ↔ x = .ok () ∧ s' = s.push r v := by
  rw [evE_lift]
  simp only [ev_addVal]
  exact ⟨fun ⟨_, h⟩ => h, fun h => ⟨(), h⟩⟩

/-- Several values, in order. -/
def St.pushs (r : Nat) : List Val → St → St
  | [], s => s
  | v :: vs, s => (s.push r v).pushs r vs

theorem St.push_list (r : Nat) (v : Val) (s : St) : ((s.push r v).lists r).a = (s.lists r).a ++ [⟨s.nitem, v⟩] := by
  simp [St.push, upd, RList.add]

theorem appended_pushs (r : Nat) (vs : List Val) (s : St) : Spec.Appended r vs s (s.pushs r vs) := by
  induction vs generalizing s with
  | nil => exact ⟨by simp [St.pushs], by intro k; simp [St.pushs]; omega, fun _ _ => rfl, rfl⟩
  | cons v vs ih =>
    obtain ⟨h1, h2, h3, h4⟩ := ih (s.push r v)
    refine ⟨?_, ?_, ?_, ?_⟩
    · rw [St.pushs, h1, St.push_list, List.append_assoc]
      congr 1
      simp only [List.mapIdx_cons, List.singleton_append]
      congr 1
      apply List.ext_getElem? ; intro i
      simp [St.push, Nat.add_assoc, Nat.add_comm 1]
    · intro k
      rw [St.pushs, h2]
      change (if s.nitem + 1 ≤ k ∧ k < s.nitem + 1 + vs.length then [] else if k = s.nitem then [] else s.items k) = _
      rw [List.length_cons]
      by_cases h : s.nitem + 1 ≤ k ∧ k < s.nitem + 1 + vs.length
      · rw [if_pos h, if_pos (by omega)]
      · rw [if_neg h]
        by_cases hk : k = s.nitem
        · rw [if_pos hk, if_pos (by omega)]
        · rw [if_neg hk, if_neg (by omega)]
    · intro k hk
      rw [St.pushs, h3 k hk]
      simp [St.push, upd, hk]
    · rw [St.pushs, h4]
      simp only [St.push, List.length_cons]
      congr 1
      omega

/-! ## The property -/

theorem evE_run_lift {a : List Code} {env : Env} {s s' : St} {x : Except Err (Except Err Unit)} :
    EvE H (Evals H) (ExceptT.lift (hello [] a env).run : E (Except Err Unit)) s x s' ↔
      ∃ y, Evals H (.codes a 0 usizeMax env) s y s' ∧ x = .ok y.r := by
  rw [evE_lift']
  constructor
  · rintro ⟨b, rfl, h⟩
    obtain ⟨y, h1, h2⟩ := evE_hello.1 h
    exact ⟨y, h1, by rw [h2]⟩
  · rintro ⟨y, h, rfl⟩
    exact ⟨y.r, rfl, evE_hello.2 ⟨y, h, rfl⟩⟩

/-- When the body ends, whether normally, with an error or with a jump, the pipe ends normally, and has
appended the report to the results. -/
theorem jie2_ends {a : List Code} {env : Env} {s s1 : St} {x : Res} (h : Evals H (.codes a 0 usizeMax env) s x s1) :
    Evals H (.item (.jie2 a) env) s { r := .ok () } (s1.pushs env.ret (Spec.report x.r)) := by
  refine evals_item.2 ⟨.ok (), ?_, rfl⟩
  change EvE H (Evals H) (jie2P a env) _ _ _
  unfold jie2P
  refine evE_bind.2 (.inl ⟨x.r, s1, evE_run_lift.2 ⟨x, h, rfl⟩, ?_⟩)
  refine evE_bind.2 (.inl ⟨(), s1.push env.ret Spec.sep, evE_addVal.2 ⟨rfl, rfl⟩, ?_⟩)
  rcases x.r with e | ⟨⟩
  · refine evE_bind.2 (.inl ⟨(), _, evE_addVal.2 ⟨rfl, rfl⟩, ?_⟩)
    refine evE_bind.2 (.inl ⟨(), _, evE_addVal.2 ⟨rfl, rfl⟩, ?_⟩)
    refine evE_bind.2 (.inl ⟨(), _, evE_addVal.2 ⟨rfl, rfl⟩, ?_⟩)
    refine evE_bind.2 (.inl ⟨(), _, evE_addVal.2 ⟨rfl, rfl⟩, ?_⟩)
    refine evE_bind.2 (.inl ⟨(), _, evE_addVal.2 ⟨rfl, rfl⟩, ?_⟩)
    refine evE_bind.2 (.inl ⟨(), _, evE_addVal.2 ⟨rfl, rfl⟩, ?_⟩)
    exact evE_addVal.2 ⟨rfl, rfl⟩
  · exact evE_pure.2 ⟨rfl, rfl⟩

/-- The body of a pipe that ends has ended. -/
theorem jie2_body {a : List Code} {env : Env} {s s' : St} {r : Res} (h : Evals H (.item (.jie2 a) env) s r s') :
    ∃ x s1, Evals H (.codes a 0 usizeMax env) s x s1 := by
  obtain ⟨x, h, -⟩ := evals_item.1 h
  change EvE H (Evals H) (jie2P a env) _ _ _ at h
  unfold jie2P at h
  rcases evE_bind.1 h with ⟨y, s1, h1, -⟩ | ⟨e, h1, -⟩
  · obtain ⟨y, h1, -⟩ := evE_run_lift.1 h1
    exact ⟨y, s1, h1⟩
  · obtain ⟨y, -, h2⟩ := evE_run_lift.1 h1
    cases h2

/-- C28: a catching pipe ends exactly when its body ends, whatever way; it ends normally; and what it does
to the state after the body is to append a separator and, after an error or jump, the code, the detail,
the message and the trace, separated, to the results. -/
theorem C28_catching_pipe {a : List Code} {env : Env} {s s' : St} {r : Res} :
    Evals H (.item (.jie2 a) env) s r s' ↔
      r = { r := .ok () } ∧ ∃ x s1, Evals H (.codes a 0 usizeMax env) s x s1 ∧
        s' = s1.pushs env.ret (Spec.report x.r) := by
  constructor
  · intro h
    obtain ⟨x, s1, h1⟩ := jie2_body h
    obtain ⟨rfl, rfl⟩ := h.unique (jie2_ends h1)
    exact ⟨rfl, x, s1, h1, rfl⟩
  · rintro ⟨rfl, x, s1, h1, rfl⟩
    exact jie2_ends h1

/-- C28, the form in the words of the property. -/
theorem C28_never_fails {a : List Code} {env : Env} {s s' : St} {r : Res} (h : Evals H (.item (.jie2 a) env) s r s') :
    r.r = .ok () ∧ ∃ x s1, Evals H (.codes a 0 usizeMax env) s x s1 ∧ Spec.Appended env.ret (Spec.report x.r) s1 s' := by
  obtain ⟨rfl, x, s1, h1, rfl⟩ := C28_catching_pipe.1 h
  exact ⟨rfl, x, s1, h1, appended_pushs _ _ _⟩

/-- Every body that ends is caught. -/
theorem C28_ends {a : List Code} {env : Env} {s s1 : St} {x : Res} (h : Evals H (.codes a 0 usizeMax env) s x s1) :
    ∃ s', Evals H (.item (.jie2 a) env) s { r := .ok () } s' ∧ Spec.Appended env.ret (Spec.report x.r) s1 s' :=
  ⟨_, jie2_ends h, appended_pushs _ _ _⟩

/-- A run reaches a pipe whose body fails after it has appended a result. -/
theorem C28_witness : ∃ a env s x s1 e, Reached H0 false
      (demoArgv c!"管道节先一。显示‘无’。了") (.item (.jie2 a) env) s ∧
    Evals H0 (.codes a 0 usizeMax env) s x s1 ∧ x.r = .error e ∧ e.s2 ≠ [] ∧ (s.lists env.ret).a = [] ∧
    (s1.lists env.ret).a ≠ [] := by
  obtain ⟨c, s, hr, h⟩ := demoB_sound (n := 14)
    (src := c!"管道节先一。显示‘无’。了")
    (P := fun c s => match c with
    | .item (.jie2 a) env => (match run H0 14 (.codes a 0 usizeMax env) s with
      | (.ok x, s1) => (match x.r with
        | .error e => !e.s2.isEmpty && (s.lists env.ret).a.isEmpty && !(s1.lists env.ret).a.isEmpty
        | .ok _ => false)
      | _ => false)
    | _ => false) (by decide +kernel)
  split at h
  · rename_i a env
    split at h
    · rename_i x s1 hx
      split at h
      · rename_i e he
        simp only [Bool.and_eq_true, Bool.not_eq_true'] at h
        exact ⟨a, env, s, x, s1, e, hr, ⟨14, hx⟩, he, by have := h.1.1; intro h; simp [h] at this,
          by simpa using h.1.2, by simpa using h.2⟩
      · cases h
    · cases h
  · cases h

/-- What a script sees of an error and of a jump. -/
example : demo 30 c!"赋予甲、乙、丙、丁以管道节先一。显示‘无’。了。显示‘甲’|‘乙’|‘丙’|‘丁’" =
      (.ok (.ok ()), [.out c!"一|1000|0|变量“无”不存在"]) ∧
    demo 30 c!"赋予甲、乙、丙、丁、戊以管道节先一。跳出。了。显示‘甲’|‘乙’|‘丙’|‘丁’|‘戊’" =
      (.ok (.ok ()), [.out c!"一|11032|0||"]) := by
  decide +kernel

end Zh
