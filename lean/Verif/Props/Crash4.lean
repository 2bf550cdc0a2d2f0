import Verif.Props.CrashDemo
/-!
# C44: the causes are causes

A run in which an evaluation is in a situation of `Cause` crashes when it is given enough steps, except for the causes that are wider than
the situations that crash: arguments read with overflow checks or into the list of arguments itself, and unreadable `#!` lines.
-/
namespace Zh
open Spec

variable {α β : Type} {H : Host}

section
variable {rec : Call → St → Out Res × St}

/-- An operation that crashes takes the program with it. -/
theorem doesOp_panic {p : Prog α} {s t : St} {o : Op} (h : DoesOp H rec p s o t) (ho : (o.run H t).1 = .panic) :
    (p.interp H rec s).1 = .panic := by
  induction p generalizing s with
  | ret a => exact h.elim
  | panic => exact h.elim
  | op o0 k ih =>
    rcases h with ⟨rfl, rfl⟩ | ⟨a, s1, e, h⟩
    · simp only [Prog.interp]
      rcases hx : o.run H t with ⟨a | _ | _, s1⟩ <;> rw [hx] at ho <;> first | rfl | cases ho
    · simp only [Prog.interp, e]
      exact ih a h
  | call hd c0 k ih =>
    obtain ⟨r, s1, e, h⟩ := h
    simp only [St.hold] at e
    simp only [Prog.interp, e]
    exact ih r h

/-- A call that crashes takes the program with it. -/
theorem calls_panic {p : Prog α} {s t : St} {c : Call} (h : Calls H rec p s c t) (hc : (rec c t).1 = .panic) :
    (p.interp H rec s).1 = .panic := by
  induction p generalizing s with
  | ret a => exact h.elim
  | panic => exact h.elim
  | op o0 k ih =>
    obtain ⟨a, s1, e, h⟩ := h
    simp only [Prog.interp, e]
    exact ih a h
  | call hd c0 k ih =>
    rcases h with ⟨rfl, rfl⟩ | ⟨r, s1, e, h⟩
    · simp only [Prog.interp]
      simp only [St.hold] at hc
      rcases hx : rec c { s with held := hd ++ s.held } with ⟨a | _ | _, s1⟩ <;> rw [hx] at hc <;> first | rfl | cases hc
    · simp only [St.hold] at e
      simp only [Prog.interp, e]
      exact ih r h

/-- What is borrowed does not change while a program runs. -/
theorem doesOp_held {p : Prog α} {s t : St} {o : Op} (h : DoesOp H rec p s o t) : t.held = s.held := by
  induction p generalizing s with
  | ret a => exact h.elim
  | panic => exact h.elim
  | op o0 k ih =>
    rcases h with ⟨-, rfl⟩ | ⟨a, s1, e, h⟩
    · rfl
    · have := o0.held (H := H) s
      rw [e] at this
      exact (ih a h).trans this
  | call hd c0 k ih =>
    obtain ⟨r, s1, e, h⟩ := h
    have := ih r h
    exact this

end

theorem Op.blocked_panic {o : Op} {t : St} (h : o.Blocked H t) : (o.run H t).1 = .panic := by
  rcases h with ⟨src, rfl, h1, h2⟩ | ⟨q, h1, h2⟩ | ⟨q, d, k, rfl, h1, h2⟩
  · simp [Op.run, codesCache, h1, h2]
  · have hh : t.held.contains (.scope q) = true := by simpa using h2
    have sc : ∀ f, t.modScope q f = (.panic, t) := fun f => by unfold St.modScope; rw [if_pos hh]
    cases o <;> simp only [Op.scope?, Option.some.injEq] at h1 <;> first | subst h1 | cases h1
    case setDef d =>
      simp only [Op.run]
      split
      · split
        · rfl
        · rw [sc]
      · rw [sc]
    case argsLine => simp only [Op.run, sc]
    all_goals simp only [Op.run, sc]
  · have hh : t.held.contains (.def_ q k) = true := by simpa using h2
    simp only [Op.run, h1, hh, if_true]

theorem calls_more {n m : Nat} (hnm : n ≤ m) {p : Prog α} {s t : St} {c : Call} (h : Calls H (run H n) p s c t) :
    Calls H (run H m) p s c t := by
  induction p generalizing s with
  | ret a => exact h.elim
  | panic => exact h.elim
  | op o0 k ih =>
    obtain ⟨a, s1, e, h⟩ := h
    exact ⟨a, s1, e, ih a h⟩
  | call hd c0 k ih =>
    rcases h with h | ⟨r, s1, e, h⟩
    · exact .inl h
    · refine .inr ⟨r, s1, ?_, ih r h⟩
      rw [C40_more_steps H n m hnm _ _ (by rw [e]; nofun), e]

theorem run_panic_more {n m : Nat} (hnm : n ≤ m) {c : Call} {s : St} (h : (run H n c s).1 = .panic) : (run H m c s).1 = .panic := by
  rw [C40_more_steps H n m hnm _ _ (by rw [h]; nofun), h]

theorem happens_panic {n k : Nat} {c c' : Call} {s s' : St} (h : Happens H n c s c' s') (hp : (run H k c' s').1 = .panic) :
    ∃ m, (run H m c s).1 = .panic := by
  induction h with
  | self => exact ⟨k, hp⟩
  | @step n c c1 c' s s1 s' hc _ ih =>
    obtain ⟨m, hm⟩ := ih hp
    exact ⟨max n m + 1, calls_panic (calls_more (Nat.le_max_left n m) hc) (run_panic_more (Nat.le_max_right n m) hm)⟩

/-- When an evaluation that happens crashes, the interpreter crashes. -/
theorem happensMain_panic {n k : Nat} {ovf : Bool} {argv : List Str} {c : Call} {s : St} (h : HappensMain H n ovf argv c s)
    (hp : (run H k c s).1 = .panic) : ∃ m, (runMain H m ovf argv).1 = .panic := by
  obtain ⟨c1, s1, hc, hh⟩ := h
  obtain ⟨m, hm⟩ := happens_panic hh hp
  exact ⟨max n m, calls_panic (calls_more (Nat.le_max_left n m) hc) (run_panic_more (Nat.le_max_right n m) hm)⟩

theorem expl_bad {F : Type} {o : F64 F} {q : Str → Str} {src : Str} {more : List Str}
    (h : '%' ∈ src ∧ explVal o q src = .panic ∨
      ∃ s2 i x, more.head? = some s2 ∧ parseUsize s2 = some i ∧ explVal o q src = .ok (.ok x) ∧ o.strFixed x i = none) :
    expl o q (src :: more) = .panic := by
  unfold expl
  rcases h with ⟨-, h⟩ | ⟨s2, i, x, h1, h2, h3, h4⟩
  · simp only [h]; rfl
  · cases more with
    | nil => cases h1
    | cons s3 more =>
      cases h1
      simp only [h3, R.ok_bind]
      split
      · rename_i he
        rw [List.isEmpty_iff.1 he] at h2
        cases h2
      · simp only [h2, h4]

/-- A run in which an evaluation is in a situation of `Cause` crashes, except where the cause is an unreadable `#!` line, or
arguments read with overflow checks or into the list of arguments itself. -/
theorem causes_most {n : Nat} {ovf : Bool} {argv : List Str} {c : Call} {s : St} (h : HappensMain H n ovf argv c s) (hc : Cause H c s) :
    (∃ m, (runMain H m ovf argv).1 = .panic) ∨ (∃ k t p text, c.Loads ∧ DoesOp H (run H k) (evalF c) s (.read p) t ∧ H.read t.trace p = .ok text ∧ BadFirstLine text) ∨
      c.ReadsArgs ∧ (s.ovf = true ∨ ∃ env q, c.env = some env ∧ (s.scopes q).args = env.ret) := by
  have op : ∀ {k : Nat} {o : Op} {t : St}, DoesOp H (run H k) (evalF c) s o t → (o.run H t).1 = .panic →
      ∃ m, (runMain H m ovf argv).1 = .panic := fun {k} _ _ h1 h2 => happensMain_panic (k := k + 1) h (doesOp_panic h1 h2)
  cases hc with
  | text h1 h2 h3 => exact .inl (op h1 (Op.blocked_panic (.inl ⟨_, rfl, h2, h3⟩)))
  | own h1 =>
    cases h1 with
    | ownArgs h1 h2 h3 => exact .inr (.inr ⟨h1, .inr ⟨_, _, h2, h3⟩⟩)
    | overflow h1 h2 => exact .inr (.inr ⟨h1, .inl h2⟩)
    | @up l equ env _ it a b r h1 h2 h3 =>
      refine .inl (happensMain_panic (k := 1) h ?_)
      change ((resE (ExceptT.mk (ofOut (nameScan s true env.inq l [] [] false env.q)) >>= _)).interp H (run H 0) s).1 = _
      rw [h3]
      rfl
  | scope h1 h2 h3 => exact .inl (op h1 (Op.blocked_panic (.inr (.inl ⟨_, h2, (doesOp_held h1).symm ▸ h3⟩))))
  | definition h1 h2 h3 => exact .inl (op h1 (Op.blocked_panic (.inr (.inr ⟨_, _, _, rfl, h2, (doesOp_held h1).symm ▸ h3⟩))))
  | @arithmetic a env _ s' k v h1 h2 =>
    cases v with
    | nil => exact h2.elim
    | cons src more =>
      have h3 : DoesOp H (run H k) (evalF (.item (.expl a) env)) s (.expl (src :: more)) s' :=
        doesOp_resE (doesOpE_right h1 (doesOpE_left (.inl ⟨rfl, rfl⟩)))
      exact .inl (op h3 (expl_bad h2))
  | @free a env env' _ t t' t2 k i d src r h1 h2 h3 h4 h5 =>
    refine .inl (op h4 ?_)
    simp only [Op.run]
    cases d <;> simp only [Bool.false_eq_true, if_false, if_true] at h5 ⊢ <;> rw [if_neg (Nat.not_lt.2 h5)]
  | line h1 h2 h3 h4 => exact .inr (.inl ⟨_, _, _, _, h1, h2, h3, h4⟩)

end Zh
