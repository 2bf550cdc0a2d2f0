import Verif.Props.Effects
import Verif.Props.Jumps2
/-!
# C38: names of modules
-/
namespace Zh

variable {H : Host} {α β : Type}

/-- The registered modules: those whose definitions and variables are found from everywhere, and the data modules. -/
def Spec.registered (s : St) : List Nat := s.mods ++ s.datas

/-- Different registered modules have no name in common.  (Scope 0 is the top scope.) -/
def Spec.NamesUnique (s : St) : Prop :=
  ∀ p ∈ Spec.registered s, ∀ q ∈ Spec.registered s, p ≠ 0 → q ≠ 0 → p ≠ q →
    ∀ x ∈ (s.scopes p).name, x ∉ (s.scopes q).name

/-- Only registered modules (and the top scope) have names. -/
def Spec.NamedRegistered (s : St) : Prop :=
  ∀ q, q ≠ 0 → (s.scopes q).name ≠ [] → q ∈ Spec.registered s

/-- The statements `命名` and `释放模块`. -/
def Call.NamesOrFrees : Call → Prop
  | .item (.name _) _ => True
  | .item (.modFree _) _ => True
  | _ => False

/-- The invariant. -/
def ModInv (s : St) : Prop := Spec.NamesUnique s ∧ Spec.NamedRegistered s

/-- Making names fewer keeps the invariant. -/
theorem ModInv.of_names {s s' : St} (h : ModInv s) (hm : s'.mods = s.mods) (hd : s'.datas = s.datas)
    (hn : ∀ q, (s'.scopes q).name = (s.scopes q).name ∨ (s'.scopes q).name = []) : ModInv s' := by
  have hr : Spec.registered s' = Spec.registered s := by unfold Spec.registered; rw [hm, hd]
  constructor
  · intro p hp q hq p0 q0 hpq x hx hx'
    rw [hr] at hp hq
    rcases hn p with e | e <;> rw [e] at hx
    · rcases hn q with e | e <;> rw [e] at hx'
      · exact h.1 p hp q hq p0 q0 hpq x hx hx'
      · cases hx'
    · cases hx
  · intro q q0 hq
    rw [hr]
    rcases hn q with e | e <;> rw [e] at hq
    · exact h.2 q q0 hq
    · exact absurd rfl hq

theorem modScope_lists (s : St) (q : Nat) (f : Scope → Scope) :
    (s.modScope q f).2.mods = s.mods ∧ (s.modScope q f).2.datas = s.datas := by
  unfold St.modScope; split <;> exact ⟨rfl, rfl⟩

theorem ModInv.modScope {s : St} (h : ModInv s) (q : Nat) (f : Scope → Scope) (hf : ∀ c, (f c).name = c.name) :
    ModInv (s.modScope q f).2 :=
  h.of_names (modScope_lists s q f).1 (modScope_lists s q f).2 fun p =>
    .inl (modScope_part (·.name) s q p f hf)

theorem modInv_op (o : Op) (s : St) (h1 : o.kind ≠ .name) (h2 : o.kind ≠ .mods) (h : ModInv s) :
    ModInv (o.run H s).2 := by
  cases o with
  | touch q => exact h.modScope _ _ fun _ => rfl
  | setVar q v => exact h.modScope _ _ fun _ => rfl
  | addName q n f => exact absurd rfl h1
  | setSrc q n => exact h.modScope _ _ fun _ => rfl
  | setIsFile q => exact h.modScope _ _ fun _ => rfl
  | setArg0 q n => exact h.modScope _ _ fun _ => rfl
  | clearArgs1 q => exact h.modScope _ _ fun _ => rfl
  | argsLine q =>
    obtain ⟨t, ht⟩ := argsLine_snd (H := H) s q
    rw [ht]; exact h.modScope _ _ fun _ => rfl
  | setDef q d =>
    rcases setDef_snd (H := H) s q d with e | e <;> rw [e]
    · exact h
    · exact h.modScope _ _ fun _ => rfl
  | parse src =>
    obtain ⟨c, hc⟩ := parse_snd (H := H) s src
    rw [hc]; exact h
  | rmMod d i => exact absurd rfl h2
  | addMod d q => exact absurd rfl h2
  | newScope a b c =>
    refine h.of_names rfl rfl fun q => ?_
    simp only [Op.run, upd]
    by_cases hq : q = s.nscope
    · rw [if_pos hq]; exact .inr rfl
    · rw [if_neg hq]; exact .inl rfl
  | _ => exact h

theorem interp_bind {rec : Call → St → Out Res × St} (p : Prog α) (f : α → Prog β) (s : St) :
    (p.bind f).interp H rec s = match p.interp H rec s with
      | (.ok a, s') => (f a).interp H rec s'
      | (.panic, s') => (.panic, s')
      | (.fuel, s') => (.fuel, s') := by
  induction p generalizing s with
  | ret a => rfl
  | panic => rfl
  | op o k ih =>
    simp only [Prog.bind, Prog.interp]
    rcases o.run H s with ⟨x, s1⟩
    cases x with
    | ok a => exact ih a s1
    | panic => rfl
    | fuel => rfl
  | call hd c k ih =>
    simp only [Prog.bind, Prog.interp]
    rcases rec c { s with held := hd ++ s.held } with ⟨x, s1⟩
    cases x with
    | ok a => exact ih a _
    | panic => rfl
    | fuel => rfl

theorem calls_bind_left {rec : Call → St → Out Res × St} {p : Prog α} {f : α → Prog β} {s : St} {c : Call} {t : St}
    (h : Calls H rec p s c t) : Calls H rec (p.bind f) s c t := by
  induction p generalizing s with
  | ret a => exact h.elim
  | panic => exact h.elim
  | op o k ih =>
    obtain ⟨a, s1, ho, h⟩ := h
    exact ⟨a, s1, ho, ih a h⟩
  | call hd c0 k ih =>
    rcases h with h | ⟨r, s1, hr, h⟩
    · exact .inl h
    · exact .inr ⟨r, s1, hr, ih r h⟩

/-- The end of `模块`: the scope is registered and gets the name, if no registered module has it. -/
theorem modInv_mod {s : St} (h : ModInv s) (q : Nat) (name f : Str) (v : List Str) (d : Bool)
    (hc : modCan s name v = some d) :
    ModInv ((Op.addMod d q).run H s).2 ∧
      ModInv ((Op.addName q name f).run H ((Op.addMod d q).run H s).2).2 := by
  have hfresh : ∀ p ∈ Spec.registered s, name ∉ (s.scopes p).name := by
    unfold modCan at hc
    intro p hp hn
    split at hc
    · cases hc
    · split at hc
      · cases hc
      · rename_i h1
        split at hc
        · cases hc
        · rename_i h2
          rcases List.mem_append.1 hp with hp | hp
          · exact h1 (List.any_eq_true.2 ⟨p, hp, by simpa using hn⟩)
          · exact h2 (List.any_eq_true.2 ⟨p, hp, by simpa using hn⟩)
  have hreg : ∀ p, p ∈ Spec.registered ((Op.addMod d q).run H s).2 ↔ p ∈ Spec.registered s ∨ p = q := by
    intro p
    cases d <;> simp only [Op.run, Spec.registered, if_true, Bool.false_eq_true, if_false, List.mem_append, List.mem_singleton]
    · constructor
      · rintro ((h | h) | h) <;> simp [h]
      · rintro ((h | h) | h) <;> simp [h]
    · constructor
      · rintro (h | (h | h)) <;> simp [h]
      · rintro ((h | h) | h) <;> simp [h]
  have hsc : ((Op.addMod d q).run H s).2.scopes = s.scopes := by cases d <;> rfl
  generalize hs1 : ((Op.addMod d q).run H s).2 = s1 at *
  have h1 : ModInv s1 := by
    constructor
    · intro p hp r hr p0 r0 hpr x hx hx'
      rw [hsc] at hx hx'
      have hp' : p ∈ Spec.registered s := h.2 p p0 fun e => by rw [e] at hx; cases hx
      have hr' : r ∈ Spec.registered s := h.2 r r0 fun e => by rw [e] at hx'; cases hx'
      exact h.1 p hp' r hr' p0 r0 hpr x hx hx'
    · intro p p0 hp
      rw [hsc] at hp
      exact (hreg p).2 (.inl (h.2 p p0 hp))
  refine ⟨h1, ?_⟩
  have hl := modScope_lists s1 q fun c => { c with name := c.name ++ [name], onFree := c.onFree ++ f }
  have hr2 : Spec.registered ((Op.addName q name f).run H s1).2 = Spec.registered s1 := by
    simp only [Spec.registered, Op.run]; rw [hl.1, hl.2]
  have hnm : ∀ p, (((Op.addName q name f).run H s1).2.scopes p).name = (s.scopes p).name ∨
      (p = q ∧ (((Op.addName q name f).run H s1).2.scopes p).name = (s.scopes p).name ++ [name]) := by
    intro p
    rcases modScope_get s1 q p fun c => { c with name := c.name ++ [name], onFree := c.onFree ++ f } with e | ⟨rfl, e⟩
    · left; simp only [Op.run]; rw [e, hsc]
    · right; refine ⟨rfl, ?_⟩
      simp only [Op.run]; rw [e, hsc]
  constructor
  · intro p hp r hr p0 r0 hpr x hx hx'
    have old : ∀ t, t ≠ 0 → t ∈ Spec.registered ((Op.addName q name f).run H s1).2 → x ∈ (s.scopes t).name →
        t ∈ Spec.registered s := fun t t0 _ ht => h.2 t t0 fun e => by rw [e] at ht; cases ht
    rcases hnm p with e | ⟨rfl, e⟩ <;> rw [e] at hx
    · rcases hnm r with e | ⟨rfl, e⟩ <;> rw [e] at hx'
      · exact h.1 p (old p p0 hp hx) r (old r r0 hr hx') p0 r0 hpr x hx hx'
      · rcases List.mem_append.1 hx' with hx' | hx'
        · exact h.1 p (old p p0 hp hx) r (old r r0 hr hx') p0 r0 hpr x hx hx'
        · rw [List.mem_singleton.1 hx'] at hx
          exact hfresh p (h.2 p p0 fun e => by rw [e] at hx; cases hx) hx
    · rcases hnm r with e' | ⟨rfl, -⟩
      · rw [e'] at hx'
        rcases List.mem_append.1 hx with hx | hx
        · exact h.1 p (old p p0 hp hx) r (old r r0 hr hx') p0 r0 hpr x hx hx'
        · rw [List.mem_singleton.1 hx] at hx'
          exact hfresh r (h.2 r r0 fun e => by rw [e] at hx'; cases hx') hx'
      · exact hpr rfl
  · intro p p0 hp
    rw [hr2]
    rcases hnm p with e | ⟨rfl, -⟩
    · rw [e] at hp
      exact (hreg p).2 (.inl (h.2 p p0 hp))
    · exact (hreg p).2 (.inr rfl)

/-- What `模块` does with the evaluated words. -/
def modEnd (env : Env) (v : List Str) : E Unit := do
  let s ← (getSt : Prog St)
  if (v.headD []).isEmpty then fail (.msg (c!"无法命名为" ++ quote (v.headD [])))
  else
    match modCan s (v.headD []) v with
    | none => fail (.msg (c!"无法命名为" ++ quote (v.headD [])))
    | some data => do
      doOp (.addMod data env.q)
      doOp (.addName env.q (v.headD []) (v.tail.headD []))

theorem nameP_mod (a : List Code) (env : Env) : nameP true a env = (helloVec a env >>= modEnd env) := rfl

theorem modEnd_noCalls {rec : Call → St → Out Res × St} (env : Env) (v : List Str) {s : St} {c : Call} {t : St}
    (h : Calls H rec (modEnd env v).run s c t) : False := by
  obtain ⟨x, s1, -, h⟩ := h
  change Calls H rec (ExceptT.run (if (v.headD []).isEmpty then _ else _)) s1 c t at h
  split at h
  · exact h
  · split at h
    · exact h
    · obtain ⟨_, _, -, _, _, -, h⟩ := h
      exact h

theorem modInv_modEnd {rec : Call → St → Out Res × St} (env : Env) {s : St} (h : ModInv s) (v : List Str) :
    ModInv ((modEnd env v).run.interp H rec s).2 := by
  change ModInv ((ExceptT.run (if (v.headD []).isEmpty then _ else _) : Prog _).interp H rec s).2
  split
  · exact h
  · split
    · exact h
    · rename_i data hc
      obtain ⟨h1, h2⟩ := modInv_mod (H := H) h env.q (v.headD []) (v.tail.headD []) v data hc
      change ModInv (Prog.interp H rec (Prog.op (.addMod data env.q) fun _ =>
        Prog.op (.addName env.q (v.headD []) (v.tail.headD [])) fun x => Prog.ret (Except.ok x : Except Err Unit)) s).2
      simp only [Prog.interp]
      rcases hx : (Op.addMod data env.q).run H s with ⟨x, s1⟩
      rw [hx] at h1 h2
      cases x with
      | panic => exact h1
      | fuel => exact h1
      | ok u =>
        dsimp only
        rcases hy : (Op.addName env.q (v.headD []) (v.tail.headD [])).run H s1 with ⟨y, s2⟩
        rw [hy] at h2
        cases y <;> exact h2

theorem modInv_modP {rec : Call → St → Out Res × St} (a : List Code) (env : Env) (s : St)
    (hrec : ∀ c' s', Calls H rec (evalF (.item (.mod_ a) env)) s c' s' → ModInv s' → ModInv (rec c' s').2)
    (h : ModInv s) : ModInv ((evalF (.item (.mod_ a) env)).interp H rec s).2 := by
  change ModInv (((nameP true a env).run.bind _).interp H rec s).2
  rw [interp_bind]
  have key : ModInv ((nameP true a env).run.interp H rec s).2 := by
    change ModInv (((helloVec a env).run.bind _).interp H rec s).2
    rw [interp_bind]
    have hv : ModInv ((helloVec a env).run.interp H rec s).2 :=
      only_inv (K := fun k => k = .plain) (fun o s hk h => modInv_op o s (by rw [hk]; decide) (by rw [hk]; decide) h)
        (fun _ _ h => h) (helloVec a env).run (o_helloVec (K := fun k => k = .plain) rfl) s
        (fun c' s' hc hi => hrec c' s' (calls_bind_left (calls_bind_left hc)) hi) h
    rcases hp : (helloVec a env).run.interp H rec s with ⟨x, s1⟩
    rw [hp] at hv
    cases x with
    | panic => exact hv
    | fuel => exact hv
    | ok v =>
      cases v with
      | error e => exact hv
      | ok v =>
        change ModInv s1 at hv
        exact modInv_modEnd env hv v
  rcases hp : (nameP true a env).run.interp H rec s with ⟨x, s1⟩
  rw [hp] at key
  cases x <;> exact key

/-- A property of states kept by the operations of some kinds and by the calls made holds where calls are made. -/
theorem only_calls {K : Kind → Prop} {I : St → Prop} (hop : ∀ (o : Op) s, K o.kind → I s → I (o.run H s).2)
    (hh : ∀ s h, I s → I { s with held := h }) {rec : Call → St → Out Res × St} (p : Prog α) (hp : Only K p) (s : St)
    (hrec : ∀ c' s', Calls H rec p s c' s' → I s' → I (rec c' s').2) (h : I s) {c : Call} {t : St}
    (hc : Calls H rec p s c t) : I t := by
  induction p generalizing s with
  | ret a => exact hc.elim
  | panic => exact hc.elim
  | op o f ih =>
    obtain ⟨a, s1, ho, hc⟩ := hc
    have h1 := hop o s hp.1 h
    rw [ho] at h1
    exact ih a (hp.2 a) s1 (fun c' s' hc => hrec c' s' ⟨a, s1, ho, hc⟩) h1 hc
  | call hd c0 f ih =>
    rcases hc with ⟨rfl, rfl⟩ | ⟨r, s1, hr, hc⟩
    · exact hh s _ h
    · have h1 := hrec c0 (s.hold hd) (.inl ⟨rfl, rfl⟩) (hh s _ h)
      rw [hr] at h1
      exact ih r (hp r) _ (fun c' s' hc => hrec c' s' (.inr ⟨r, s1, hr, hc⟩)) (hh s1 _ h1) hc

theorem not_may_names {c : Call} (h : ¬ c.NamesOrFrees) (hm : ∀ a env, c ≠ .item (.mod_ a) env) :
    ¬ c.may .name ∧ ¬ c.may .mods := by
  cases c with
  | item c env => cases c <;> simp_all [Call.may, Call.NamesOrFrees]
  | _ => simp_all [Call.may, Call.NamesOrFrees]

theorem modInv_run (n : Nat) (c : Call) (s : St) (h : ∀ c' s', Happens H n c s c' s' → ¬ c'.NamesOrFrees)
    (hi : ModInv s) : ModInv (run H n c s).2 := by
  induction n generalizing c s with
  | zero => exact hi
  | succ n ih =>
    have hrec : ∀ c' s', Calls H (run H n) (evalF c) s c' s' → ModInv s' → ModInv (run H n c' s').2 :=
      fun c' s' hc hi => ih c' s' (fun c2 s2 h2 => h c2 s2 (.step hc h2)) hi
    by_cases hm : ∃ a env, c = .item (.mod_ a) env
    · obtain ⟨a, env, rfl⟩ := hm
      exact modInv_modP a env s hrec hi
    · have hk := not_may_names (h c s (.self n c s)) fun a env e => hm ⟨a, env, e⟩
      exact only_inv (K := c.may) (fun o s ho => modInv_op o s (fun e => hk.1 (e ▸ ho)) (fun e => hk.2 (e ▸ ho)))
        (fun _ _ h => h) (evalF c) (only_evalF c) s hrec hi

theorem modInv_calls (n : Nat) (c : Call) (s : St)
    (h : ∀ c' s', Happens H (n + 1) c s c' s' → ¬ c'.NamesOrFrees) (hi : ModInv s) {c1 : Call} {s1 : St}
    (hc1 : Calls H (run H n) (evalF c) s c1 s1) : ModInv s1 := by
  have hrec : ∀ c' s', Calls H (run H n) (evalF c) s c' s' → ModInv s' → ModInv (run H n c' s').2 :=
    fun c' s' hc hi => modInv_run n c' s' (fun c2 s2 h2 => h c2 s2 (.step hc h2)) hi
  by_cases hm : ∃ a env, c = .item (.mod_ a) env
  · obtain ⟨a, env, rfl⟩ := hm
    have hc2 := hc1
    change Calls H (run H n) ((nameP true a env).run.bind _) s c1 s1 at hc2
    rcases calls_bind hc2 with hc2 | ⟨_, _, -, hc2⟩
    · change Calls H (run H n) ((helloVec a env).run.bind _) s c1 s1 at hc2
      rcases calls_bind hc2 with hc2 | ⟨v, _, -, hc2⟩
      · exact only_calls (K := fun k => k = .plain)
          (fun o s hk h => modInv_op o s (by rw [hk]; decide) (by rw [hk]; decide) h)
          (fun _ _ h => h) (helloVec a env).run (o_helloVec (K := fun k => k = .plain) rfl) s
          (fun c' s' hc hi => hrec c' s' (calls_bind_left (calls_bind_left hc)) hi) hi hc2
      · cases v with
        | error e => exact hc2.elim
        | ok v => exact (modEnd_noCalls env v hc2).elim
    · exact hc2.elim
  · have hk := not_may_names (h c s (.self n c s)) fun a env e => hm ⟨a, env, e⟩
    exact only_calls (K := c.may) (fun o s ho => modInv_op o s (fun e => hk.1 (e ▸ ho)) (fun e => hk.2 (e ▸ ho)))
      (fun _ _ h => h) (evalF c) (only_evalF c) s hrec hi hc1

theorem modInv_happens {n : Nat} {c c' : Call} {s s' : St} (hh : Happens H n c s c' s')
    (h : ∀ c' s', Happens H n c s c' s' → ¬ c'.NamesOrFrees) (hi : ModInv s) : ModInv s' := by
  induction hh with
  | self n c s => exact hi
  | step hc _ ih => exact ih (fun c' s' h' => h c' s' (.step hc h')) (modInv_calls _ _ _ h hi hc)

/-- The kinds of operations used at the start. -/
theorem only_mainP (argv : List Str) : OnlyE (fun k => k ≠ .name ∧ k ≠ .mods) (mainP argv) := by
  generalize hK : (fun k : Kind => k ≠ .name ∧ k ≠ .mods) = K
  have h1 : K .plain := by rw [← hK]; decide
  have h2 : K .src := by rw [← hK]; decide
  have h3 : K .world := by rw [← hK]; decide
  have h4 : K .emit := by rw [← hK]; decide
  have h5 : K .file := by rw [← hK]; decide
  have h6 : K .var := by rw [← hK]; decide
  have tv : ∀ a b, Only K (topVal a b) := by
    intro a b; unfold topVal; only
  unfold mainP
  refine OnlyE.bind (by only) fun _ => OnlyE.bind (by only) fun s => ?_
  refine OnlyE.bind (.lift (tv _ _)) fun _ => OnlyE.bind (.lift (tv _ _)) fun _ => ?_
  only

theorem modInv_init (ovf : Bool) : ModInv (St.init ovf) := by
  constructor
  · intro p hp; cases hp
  · intro q q0 hq
    exact absurd (by simp [St.init, q0, Scope.new]) hq

/-- **C38 (partial).**  If neither `命名` nor `释放模块` is evaluated in a run, then at every moment of the run and at
its end no two registered modules have a name in common.  (Missing: runs with these statements, for which it is
false, see the counterexamples; and the top scope 0 is left out.) -/
theorem C38_names_partial {n : Nat} {ovf : Bool} {argv : List Str}
    (h : ∀ c s, HappensMain H n ovf argv c s → ¬ c.NamesOrFrees) :
    (∀ c s, HappensMain H n ovf argv c s → Spec.NamesUnique s) ∧ Spec.NamesUnique (runMain H n ovf argv).2 := by
  have hop : ∀ (o : Op) s, (o.kind ≠ .name ∧ o.kind ≠ .mods) → ModInv s → ModInv (o.run H s).2 :=
    fun o s hk => modInv_op o s hk.1 hk.2
  have hrec : ∀ c' s', Calls H (run H n) (mainP argv).run (St.init ovf) c' s' → ModInv s' →
      ModInv (run H n c' s').2 := fun c' s' hc hi =>
    modInv_run n c' s' (fun c2 s2 h2 => h c2 s2 ⟨c', s', hc, h2⟩) hi
  constructor
  · rintro c s ⟨c1, s1, hc, hh⟩
    have h1 : ModInv s1 := only_calls (K := fun k => k ≠ .name ∧ k ≠ .mods) hop (fun _ _ h => h) (mainP argv).run
      (only_mainP argv) (St.init ovf) hrec (modInv_init ovf) hc
    exact (modInv_happens hh (fun c2 s2 h2 => h c2 s2 ⟨c1, s1, hc, h2⟩) h1).1
  · exact (only_inv (K := fun k => k ≠ .name ∧ k ≠ .mods) hop (fun _ _ h => h) (mainP argv).run (only_mainP argv)
        (St.init ovf) hrec (modInv_init ovf)).1

/-! A concrete run that meets the hypothesis, and the counterexamples. -/

/-- The statements of the hypothesis, as a check. -/
def Call.namesOrFreesB : Call → Bool
  | .item (.name _) _ => true
  | .item (.modFree _) _ => true
  | _ => false

theorem namesOrFreesB_iff {c : Call} : c.namesOrFreesB = true ↔ c.NamesOrFrees := by
  cases c with
  | item c env => cases c <;> simp [Call.namesOrFreesB, Call.NamesOrFrees]
  | _ => simp [Call.namesOrFreesB, Call.NamesOrFrees]

/-- A data module `甲` made by evaluated text, and the script itself as the module `乙`. -/
def modDemo : Str := c!"解释下代码模块“甲”、“”、“数据”。上代码。模块“乙”。"

/-- The names of the registered modules. -/
def registeredNames (s : St) : List (List Str) := (Spec.registered s).map fun q => (s.scopes q).name

theorem C38_names_witness :
    (∀ c s, HappensMain H0 14 false (demoArgv modDemo) c s → ¬ c.NamesOrFrees) ∧
      registeredNames (runMain H0 14 false (demoArgv modDemo)).2 = [[c!"乙"], [c!"甲"]] := by
  refine ⟨?_, by decide +kernel⟩
  rintro c s ⟨c1, s1, hc, hh⟩ hn
  have h1 := happensB_complete (P := fun c _ => c.namesOrFreesB) hh (namesOrFreesB_iff.2 hn)
  have h2 := callsB_complete (P := happensB H0 (fun c _ => c.namesOrFreesB) 14) _ _ hc h1
  have h3 : callsB H0 (run H0 14) (happensB H0 (fun c _ => c.namesOrFreesB) 14) (mainP (demoArgv modDemo)).run
      (St.init false) = false := by decide +kernel
  rw [h3] at h2
  cases h2

/-- Whether two different registered modules (other than the top scope) share a name. -/
def sharedName (s : St) : Bool :=
  (Spec.registered s).any fun p => (Spec.registered s).any fun q =>
    p != 0 && q != 0 && p != q && (s.scopes p).name.any fun x => (s.scopes q).name.contains x

theorem not_unique {s : St} (h : sharedName s = true) : ¬ Spec.NamesUnique s := by
  simp only [sharedName, List.any_eq_true, Bool.and_eq_true, bne_iff_ne, ne_eq, List.contains_iff_mem] at h
  obtain ⟨p, hp, q, hq, ⟨⟨p0, q0⟩, hpq⟩, x, hx, hx'⟩ := h
  exact fun hu => hu p hp q hq p0 q0 hpq x hx hx'

/-- `命名` gives a module the name another module has. -/
theorem C38_name_counterexample :
    ¬ Spec.NamesUnique
      (runMain H0 14 false (demoArgv c!"解释下代码模块“甲”。上代码。模块“乙”。命名“甲”。")).2 :=
  not_unique (by decide +kernel)

/-- A freed module keeps its name.  After another module has got that name, registering the first one again under
a new name registers both. -/
theorem C38_free_counterexample :
    ¬ Spec.NamesUnique (runMain H0 15 false
      (demoArgv c!"模块“甲”。释放模块“甲”。解释下代码模块“甲”。上代码。模块“丙”。")).2 :=
  not_unique (by decide +kernel)

end Zh
