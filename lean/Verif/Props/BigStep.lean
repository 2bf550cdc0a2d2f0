import Verif.Props.Runs
/-!
# Big-step reading of the evaluator

`Evals H c s r s'`: the evaluation `c` started in `s` ends with the result `r` in `s'` (within some
number of steps).  The lemmas of this file compute `Evals` from the evaluation functions, so that the
property files need not speak about step numbers and interpreters.
-/
namespace Zh

variable {H : Host} {α β : Type}

/-- The evaluation ends with the result `r` in `s'`. -/
def Evals (H : Host) (c : Call) (s : St) (r : Res) (s' : St) : Prop := ∃ n, run H n c s = (.ok r, s')

/-- The program ends with `a` in `s'`, where `R` tells how its calls end. -/
def Ev (H : Host) (R : Call → St → Res → St → Prop) : Prog α → St → α → St → Prop
  | .ret b, s, a, s' => a = b ∧ s' = s
  | .panic, _, _, _ => False
  | .op o k, s, a, s' => ∃ b s1, o.run H s = (.ok b, s1) ∧ Ev H R (k b) s1 a s'
  | .call h c k, s, a, s' => ∃ r s1, R c (s.hold h) r s1 ∧ Ev H R (k r) { s1 with held := s.held } a s'

/-- The program with `?` ends with `r` in `s'`. -/
def EvE (H : Host) (R : Call → St → Res → St → Prop) (p : E α) (s : St) (r : Except Err α) (s' : St) : Prop :=
  Ev H R p.run s r s'

/-! ## Borrows are given back -/

theorem modScope_held (s : St) (q : Nat) (f : Scope → Scope) : (s.modScope q f).2.held = s.held := by
  unfold St.modScope; split <;> rfl

theorem op_held (o : Op) (s : St) : (o.run H s).2.held = s.held := by
  cases o with
  | setDef q d =>
    simp only [Op.run]
    split
    · split
      · rfl
      · exact modScope_held ..
    · exact modScope_held ..
  | argsLine q =>
    simp only [Op.run]
    have h := modScope_held s q fun c =>
      { c with argsTo1 := true, args1 := if (s.scopes q).argsTo1 then (s.scopes q).args1 else
          (s.lists (s.scopes q).args).line .one (s.scopes q).args1 }
    revert h
    generalize s.modScope q _ = x
    intro h
    rcases x with ⟨x, s1⟩
    cases x <;> exact h
  | addMod d q => simp only [Op.run]; split <;> rfl
  | rmMod d i => simp only [Op.run]; split <;> split <;> rfl
  | parse src => simp only [Op.run]; split <;> rfl
  | touch q => exact modScope_held ..
  | setVar q v => exact modScope_held ..
  | addName q n f => exact modScope_held ..
  | setSrc q n => exact modScope_held ..
  | setIsFile q => exact modScope_held ..
  | setArg0 q n => exact modScope_held ..
  | clearArgs1 q => exact modScope_held ..
  | _ => rfl

theorem interp_held {rec : Call → St → Out Res × St} (p : Prog α) (s : St) (a : α) (s' : St)
    (h : p.interp H rec s = (.ok a, s')) : s'.held = s.held := by
  induction p generalizing s with
  | ret b => simp only [Prog.interp, Prod.mk.injEq] at h; rw [← h.2]
  | panic => simp [Prog.interp] at h
  | op o k ih =>
    simp only [Prog.interp] at h
    have ho := op_held (H := H) o s
    rcases hx : o.run H s with ⟨x, s1⟩
    rw [hx] at h ho
    cases x with
    | ok b => exact (ih b s1 h).trans ho
    | panic => simp at h
    | fuel => simp at h
  | call hd c k ih =>
    simp only [Prog.interp] at h
    rcases hx : rec c { s with held := hd ++ s.held } with ⟨x, s1⟩
    rw [hx] at h
    cases x with
    | ok b => exact (ih b { s1 with held := s.held } h :)
    | panic => simp at h
    | fuel => simp at h

theorem Evals.held {c : Call} {s : St} {r : Res} {s' : St} (h : Evals H c s r s') : s'.held = s.held := by
  obtain ⟨n, h⟩ := h
  cases n with
  | zero => simp [run] at h
  | succ n => exact interp_held _ _ _ _ h

theorem St.hold_nil (s : St) : s.hold [] = s := rfl

theorem St.held_eta {s s' : St} (h : s'.held = s.held) : { s' with held := s.held } = s' := by
  rw [← h]

/-! ## Computing `Ev` -/

theorem interp_more {n m : Nat} (hnm : n ≤ m) {p : Prog α} {s : St} {a : α} {s' : St}
    (h : p.interp H (run H n) s = (.ok a, s')) : p.interp H (run H m) s = (.ok a, s') := by
  obtain ⟨k, rfl⟩ := Nat.le.dest hnm
  have := (interp_agree (H := H) (run_agree' H n k) ((kept_trace H).run (n + k)) p s).2
    (by rw [h]; simp)
  rw [this, h]

theorem run_more {n m : Nat} (hnm : n ≤ m) {c : Call} {s : St} {r : Res} {s' : St}
    (h : run H n c s = (.ok r, s')) : run H m c s = (.ok r, s') := by
  rw [C40_more_steps H n m hnm c s (by rw [h]; simp), h]

theorem ev_of_interp {n : Nat} {R : Call → St → Res → St → Prop} (hR : ∀ c s r s', run H n c s = (.ok r, s') → R c s r s')
    {p : Prog α} {s : St} {a : α} {s' : St} (h : p.interp H (run H n) s = (.ok a, s')) : Ev H R p s a s' := by
  induction p generalizing s with
  | ret b =>
    simp only [Prog.interp, Prod.mk.injEq, Out.ok.injEq] at h
    exact ⟨h.1.symm, h.2.symm⟩
  | panic => simp [Prog.interp] at h
  | op o k ih =>
    simp only [Prog.interp] at h
    rcases hx : o.run H s with ⟨x, s1⟩
    rw [hx] at h
    cases x with
    | ok b => exact ⟨b, s1, hx, ih b h⟩
    | panic => simp at h
    | fuel => simp at h
  | call hd c k ih =>
    simp only [Prog.interp] at h
    rcases hx : run H n c { s with held := hd ++ s.held } with ⟨x, s1⟩
    rw [hx] at h
    cases x with
    | ok b => exact ⟨b, s1, hR _ _ _ _ hx, ih b h⟩
    | panic => simp at h
    | fuel => simp at h

theorem interp_of_ev {p : Prog α} {s : St} {a : α} {s' : St} (h : Ev H (Evals H) p s a s') :
    ∃ n, p.interp H (run H n) s = (.ok a, s') := by
  induction p generalizing s with
  | ret b => obtain ⟨rfl, rfl⟩ := h; exact ⟨0, rfl⟩
  | panic => exact h.elim
  | op o k ih =>
    obtain ⟨b, s1, h1, h2⟩ := h
    obtain ⟨n, h2⟩ := ih b h2
    exact ⟨n, by simp only [Prog.interp]; rw [h1]; exact h2⟩
  | call hd c k ih =>
    obtain ⟨b, s1, ⟨m, h1⟩, h2⟩ := h
    obtain ⟨n, h2⟩ := ih b h2
    refine ⟨max m n, ?_⟩
    simp only [Prog.interp]
    have h1' := run_more (Nat.le_max_left m n) h1
    simp only [St.hold] at h1'
    rw [h1']
    exact interp_more (Nat.le_max_right m n) h2

theorem evals_iff {c : Call} {s : St} {r : Res} {s' : St} :
    Evals H c s r s' ↔ Ev H (Evals H) (evalF c) s r s' := by
  constructor
  · rintro ⟨n, h⟩
    cases n with
    | zero => simp [run] at h
    | succ n => exact ev_of_interp (fun _ _ _ _ h => ⟨n, h⟩) h
  · intro h
    obtain ⟨n, h⟩ := interp_of_ev h
    exact ⟨n + 1, h⟩

/-- Induction over an evaluation: the property may be assumed for the calls it makes. -/
theorem Evals.ind {P : Call → St → Res → St → Prop}
    (hP : ∀ c s r s', Ev H (fun c s r s' => Evals H c s r s' ∧ P c s r s') (evalF c) s r s' → P c s r s')
    {c : Call} {s : St} {r : Res} {s' : St} (h : Evals H c s r s') : P c s r s' := by
  obtain ⟨n, h⟩ := h
  induction n generalizing c s r s' with
  | zero => simp [run] at h
  | succ n ih => exact hP _ _ _ _ (ev_of_interp (fun _ _ _ _ h => ⟨⟨n, h⟩, ih h⟩) h)

/-- A relation that is about evaluations. -/
class Sub (H : Host) (R : Call → St → Res → St → Prop) : Prop where
  evals : ∀ {c s r s'}, R c s r s' → Evals H c s r s'

theorem Sub.held {R : Call → St → Res → St → Prop} [Sub H R] {c s r s'} (h : R c s r s') : s'.held = s.held :=
  (Sub.evals (H := H) h).held

instance : Sub H (Evals H) := ⟨id⟩
instance {P : Call → St → Res → St → Prop} : Sub H (fun c s r s' => Evals H c s r s' ∧ P c s r s') :=
  ⟨And.left⟩

variable {R : Call → St → Res → St → Prop}

theorem ev_ret {a b : α} {s s' : St} : Ev H R (Prog.ret a) s b s' ↔ b = a ∧ s' = s := Iff.rfl

theorem ev_pure {a b : α} {s s' : St} : Ev H R (pure a : Prog α) s b s' ↔ b = a ∧ s' = s := Iff.rfl

theorem ev_panic {b : α} {s s' : St} : ¬ Ev H R (Prog.panic : Prog α) s b s' := id

theorem ev_op {o : Op} {k : o.Res → Prog α} {s s' : St} {b : α} :
    Ev H R (Prog.op o k) s b s' ↔ ∃ a s1, o.run H s = (.ok a, s1) ∧ Ev H R (k a) s1 b s' := Iff.rfl

theorem ev_call {h : List Held} {c : Call} {k : Res → Prog α} {s s' : St} {b : α} :
    Ev H R (Prog.call h c k) s b s' ↔
      ∃ r s1, R c (s.hold h) r s1 ∧ Ev H R (k r) { s1 with held := s.held } b s' := Iff.rfl

theorem ev_bind' {p : Prog α} {f : α → Prog β} {s s' : St} {b : β} :
    Ev H R (p.bind f) s b s' ↔ ∃ a s1, Ev H R p s a s1 ∧ Ev H R (f a) s1 b s' := by
  induction p generalizing s with
  | ret a =>
    simp only [Prog.bind, ev_ret]
    constructor
    · intro h; exact ⟨a, s, ⟨rfl, rfl⟩, h⟩
    · rintro ⟨_, _, ⟨rfl, rfl⟩, h⟩; exact h
  | panic =>
    simp only [Prog.bind]
    constructor
    · intro h; exact absurd h ev_panic
    · rintro ⟨_, _, h, _⟩; exact absurd h ev_panic
  | op o k ih =>
    simp only [Prog.bind, ev_op]
    constructor
    · rintro ⟨a, s1, h1, h2⟩
      obtain ⟨a', s2, h3, h4⟩ := ih a |>.1 h2
      exact ⟨a', s2, ⟨a, s1, h1, h3⟩, h4⟩
    · rintro ⟨a', s2, ⟨a, s1, h1, h3⟩, h4⟩
      exact ⟨a, s1, h1, (ih a).2 ⟨a', s2, h3, h4⟩⟩
  | call hd c k ih =>
    simp only [Prog.bind, ev_call]
    constructor
    · rintro ⟨a, s1, h1, h2⟩
      obtain ⟨a', s2, h3, h4⟩ := ih a |>.1 h2
      exact ⟨a', s2, ⟨a, s1, h1, h3⟩, h4⟩
    · rintro ⟨a', s2, ⟨a, s1, h1, h3⟩, h4⟩
      exact ⟨a, s1, h1, (ih a).2 ⟨a', s2, h3, h4⟩⟩

theorem ev_bind {p : Prog α} {f : α → Prog β} {s s' : St} {b : β} :
    Ev H R (p >>= f) s b s' ↔ ∃ a s1, Ev H R p s a s1 ∧ Ev H R (f a) s1 b s' := ev_bind'

theorem ev_doOp {o : Op} {s s' : St} {b : o.Res} : Ev H R (doOp o) s b s' ↔ o.run H s = (.ok b, s') := by
  unfold doOp
  rw [ev_op]
  constructor
  · rintro ⟨a, s1, h, h'⟩
    obtain ⟨rfl, rfl⟩ := ev_ret.1 h'
    exact h
  · intro h; exact ⟨b, s', h, ev_ret.2 ⟨rfl, rfl⟩⟩

theorem ev_getSt {s s' t : St} : Ev H R getSt s t s' ↔ t = s ∧ s' = s := by
  unfold getSt
  rw [ev_op]
  constructor
  · rintro ⟨a, s1, h, h'⟩
    obtain ⟨rfl, rfl⟩ := ev_ret.1 h'
    simp only [Op.run, Prod.mk.injEq, Out.ok.injEq] at h
    exact ⟨h.1.symm, h.2.symm⟩
  · rintro ⟨rfl, rfl⟩; exact ⟨_, _, rfl, ev_ret.2 ⟨rfl, rfl⟩⟩

/-- A call without borrows. -/
theorem ev_callP [Sub H R] {c : Call} {s s' : St} {r : Res} : Ev H R (callP [] c) s r s' ↔ R c s r s' := by
  unfold callP
  rw [ev_call]
  constructor
  · rintro ⟨r', s1, h, h'⟩
    obtain ⟨rfl, rfl⟩ := ev_ret.1 h'
    rw [St.hold_nil] at h
    rw [St.held_eta (Sub.held (H := H) h)]
    exact h
  · intro h
    refine ⟨r, s', h, ev_ret.2 ⟨rfl, ?_⟩⟩
    exact (St.held_eta (Sub.held (H := H) h)).symm

theorem ev_ofOut {x : Out α} {s s' : St} {a : α} : Ev H R (ofOut x) s a s' ↔ x = .ok a ∧ s' = s := by
  cases x with
  | ok b =>
    simp only [ofOut, Out.ok.injEq]
    rw [ev_ret]
    exact ⟨fun h => ⟨h.1.symm, h.2⟩, fun h => ⟨h.1.symm, h.2⟩⟩
  | panic => simp only [ofOut]; exact ⟨fun h => absurd h ev_panic, fun h => by simp at h⟩
  | fuel => simp only [ofOut]; exact ⟨fun h => absurd h ev_panic, fun h => by simp at h⟩

/-! ## Programs with `?` -/

theorem evE_bind {p : E α} {f : α → E β} {s s' : St} {r : Except Err β} :
    EvE H R (p >>= f) s r s' ↔
      (∃ a s1, EvE H R p s (.ok a) s1 ∧ EvE H R (f a) s1 r s') ∨ ∃ e, EvE H R p s (.error e) s' ∧ r = .error e := by
  unfold EvE
  change Ev H R (p.run.bind _) s r s' ↔ _
  rw [ev_bind']
  constructor
  · rintro ⟨a, s1, h, h'⟩
    cases a with
    | ok a => exact .inl ⟨a, s1, h, h'⟩
    | error e =>
      obtain ⟨rfl, rfl⟩ := ev_ret.1 h'
      exact .inr ⟨e, h, rfl⟩
  · rintro (⟨a, s1, h, h'⟩ | ⟨e, h, rfl⟩)
    · exact ⟨.ok a, s1, h, h'⟩
    · exact ⟨.error e, s', h, ev_ret.2 ⟨rfl, rfl⟩⟩

theorem evE_pure {a : α} {s s' : St} {r : Except Err α} :
    EvE H R (pure a) s r s' ↔ r = .ok a ∧ s' = s := ev_ret

theorem evE_fail {e : Err} {s s' : St} {r : Except Err α} :
    EvE H R (fail e) s r s' ↔ r = .error e ∧ s' = s := ev_ret

theorem evE_mk {x : Except Err α} {s s' : St} {r : Except Err α} :
    EvE H R (ExceptT.mk (pure x) : E α) s r s' ↔ r = x ∧ s' = s := ev_ret

theorem evE_lift {p : Prog α} {s s' : St} {r : Except Err α} :
    EvE H R (liftM p : E α) s r s' ↔ ∃ a, r = .ok a ∧ Ev H R p s a s' := by
  unfold EvE
  change Ev H R (p.bind _) s r s' ↔ _
  rw [ev_bind']
  constructor
  · rintro ⟨a, s1, h, h'⟩
    obtain ⟨rfl, rfl⟩ := ev_ret.1 h'
    exact ⟨a, rfl, h⟩
  · rintro ⟨a, rfl, h⟩
    exact ⟨a, s', h, ev_ret.2 ⟨rfl, rfl⟩⟩

theorem evE_lift' {p : Prog α} {s s' : St} {r : Except Err α} :
    EvE H R (ExceptT.lift p : E α) s r s' ↔ ∃ a, r = .ok a ∧ Ev H R p s a s' := evE_lift

theorem evE_callE [Sub H R] {c : Call} {s s' : St} {r : Except Err Unit} :
    EvE H R (callE [] c) s r s' ↔ ∃ x, R c s x s' ∧ x.r = r := by
  unfold callE
  rw [evE_bind]
  constructor
  · rintro (⟨a, s1, h, h'⟩ | ⟨e, h, rfl⟩)
    · obtain ⟨a', ha, h⟩ := evE_lift.1 h
      cases ha
      obtain ⟨rfl, rfl⟩ := evE_mk.1 h'
      exact ⟨_, ev_callP.1 h, rfl⟩
    · obtain ⟨a', ha, -⟩ := evE_lift.1 h
      cases ha
  · rintro ⟨x, h, rfl⟩
    exact .inl ⟨x, s', evE_lift.2 ⟨x, rfl, ev_callP.2 h⟩, evE_mk.2 ⟨rfl, rfl⟩⟩

theorem evE_hello [Sub H R] {a : List Code} {env : Env} {s s' : St} {r : Except Err Unit} :
    EvE H R (hello [] a env) s r s' ↔ ∃ x, R (.codes a 0 usizeMax env) s x s' ∧ x.r = r := evE_callE

/-- A statement. -/
theorem evals_item {c : Code} {env : Env} {s s' : St} {r : Res} :
    Evals H (.item c env) s r s' ↔ ∃ x, EvE H (Evals H) (itemP c env) s x s' ∧ r = { r := x } := by
  rw [evals_iff]
  change Ev H (Evals H) (resE (itemP c env)) s r s' ↔ _
  unfold resE
  rw [ev_bind]
  constructor
  · rintro ⟨a, s1, h, h'⟩
    obtain ⟨rfl, rfl⟩ := ev_pure.1 h'
    exact ⟨a, h, rfl⟩
  · rintro ⟨x, h, rfl⟩
    exact ⟨x, s', h, ev_pure.2 ⟨rfl, rfl⟩⟩

/-- An evaluation has one result. -/
theorem Evals.unique {c : Call} {s : St} {r r' : Res} {s' s'' : St} (h : Evals H c s r s') (h' : Evals H c s r' s'') :
    r = r' ∧ s' = s'' := by
  obtain ⟨n, h⟩ := h
  obtain ⟨m, h'⟩ := h'
  have := C40_deterministic H n m c s (by rw [h]; simp) (by rw [h']; simp)
  rw [h, h'] at this
  simp only [Prod.mk.injEq, Out.ok.injEq] at this
  exact this

end Zh
