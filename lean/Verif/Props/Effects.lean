import Verif.Props.Only
import Verif.Props.Runs
import Verif.Props.Demo
/-!
# Which statements change what

`Happens H n c s c' s'`: in the evaluation `c` started in state `s` the evaluation `c'` happens, started in
state `s'` (it may be `c` itself).
-/
namespace Zh

variable {H : Host} {α : Type}

/-- See above; `n` is the number of nested calls allowed, as in `run`. -/
inductive Happens (H : Host) : Nat → Call → St → Call → St → Prop
  | self (n : Nat) (c : Call) (s : St) : Happens H (n + 1) c s c s
  | step {n : Nat} {c c1 c' : Call} {s s1 s' : St} :
    Calls H (run H n) (evalF c) s c1 s1 → Happens H n c1 s1 c' s' → Happens H (n + 1) c s c' s'

/-- The same for a run of the whole interpreter with the words `argv`. -/
def HappensMain (H : Host) (n : Nat) (ovf : Bool) (argv : List Str) (c : Call) (s : St) : Prop :=
  ∃ c1 s1, Calls H (run H n) (mainP argv).run (St.init ovf) c1 s1 ∧ Happens H n c1 s1 c s

/-- A computable check whether an evaluation with a property happens. -/
def happensB (H : Host) (P : Call → St → Bool) : Nat → Call → St → Bool
  | 0, _, _ => false
  | n + 1, c, s => P c s || callsB H (run H n) (happensB H P n) (evalF c) s

theorem callsB_complete {rec : Call → St → Out Res × St} {P : Call → St → Bool} (p : Prog α) (s : St) {c : Call}
    {t : St} (h : Calls H rec p s c t) (hp : P c t = true) : callsB H rec P p s = true := by
  induction p generalizing s with
  | ret a => exact h.elim
  | panic => exact h.elim
  | op o k ih =>
    obtain ⟨a, s1, ho, h⟩ := h
    simp only [callsB]
    rw [ho]; exact ih a s1 h
  | call hd c0 k ih =>
    simp only [callsB, Bool.or_eq_true]
    rcases h with ⟨rfl, rfl⟩ | ⟨r, s1, hr, h⟩
    · exact .inl hp
    · right; rw [hr]; exact ih r _ h

theorem happensB_complete {P : Call → St → Bool} {n : Nat} {c c' : Call} {s s' : St} (h : Happens H n c s c' s')
    (hp : P c' s' = true) : happensB H P n c s = true := by
  induction h with
  | self n c s => simp [happensB, hp]
  | step hc _ ih =>
    simp only [happensB, Bool.or_eq_true]
    exact .inr (callsB_complete _ _ hc (ih hp))

/-- A property of states kept by the operations of some kinds and by the calls made is kept by the program. -/
theorem only_inv {K : Kind → Prop} {I : St → Prop} (hop : ∀ (o : Op) s, K o.kind → I s → I (o.run H s).2)
    (hh : ∀ s h, I s → I { s with held := h }) {rec : Call → St → Out Res × St} (p : Prog α) (hp : Only K p) (s : St)
    (hrec : ∀ c' s', Calls H rec p s c' s' → I s' → I (rec c' s').2) (h : I s) : I (p.interp H rec s).2 := by
  induction p generalizing s with
  | ret a => exact h
  | panic => exact h
  | op o f ih =>
    have h1 := hop o s hp.1 h
    simp only [Prog.interp]
    rcases ho : o.run H s with ⟨x, s1⟩
    rw [ho] at h1
    cases x with
    | ok a => exact ih a (hp.2 a) s1 (fun c' s' hc => hrec c' s' ⟨a, s1, ho, hc⟩) h1
    | panic => exact h1
    | fuel => exact h1
  | call hd c f ih =>
    have h1 := hrec c (s.hold hd) (.inl ⟨rfl, rfl⟩) (hh s _ h)
    simp only [Prog.interp]
    unfold St.hold at h1
    rcases ho : rec c { s with held := hd ++ s.held } with ⟨x, s1⟩
    rw [ho] at h1
    cases x with
    | ok a => exact ih a (hp a) _ (fun c' s' hc => hrec c' s' (.inr ⟨a, s1, ho, hc⟩)) (hh s1 _ h1)
    | panic => exact h1
    | fuel => exact h1

/-- A property of states kept by all operations the evaluations inside `c` may use is kept by `c`. -/
theorem happens_inv {I : St → Prop} (hh : ∀ s h, I s → I { s with held := h }) (n : Nat) (c : Call) (s : St)
    (hop : ∀ c' s', Happens H n c s c' s' → ∀ (o : Op) t, c'.may o.kind → I t → I (o.run H t).2)
    (h : I s) : I (run H n c s).2 := by
  induction n generalizing c s with
  | zero => exact h
  | succ n ih =>
    refine only_inv (K := c.may) (hop c s (.self n c s)) hh (evalF c) (only_evalF c) s (fun c' s' hc hi => ?_) h
    exact ih c' s' (fun c2 s2 h2 => hop c2 s2 (.step hc h2)) hi

/-! ## Variables -/

/-- The evaluations that may assign a variable: the statements `赋予` and `别名`, and the turns of a loop with
a counter. -/
def Call.Assigns : Call → Prop
  | .item (.set_ ..) _ => True
  | .item (.alias ..) _ => True
  | .loop _ _ _ _ cnt .. => cnt.name ≠ none
  | _ => False

theorem not_may_var {c : Call} (h : ¬ c.Assigns) : ¬ c.may .var := by
  cases c with
  | item c env => cases c <;> simp_all [Call.may, Call.Assigns]
  | _ => simp_all [Call.may, Call.Assigns]

theorem modScope_get (s : St) (q p : Nat) (f : Scope → Scope) :
    (s.modScope q f).2.scopes p = s.scopes p ∨ (p = q ∧ (s.modScope q f).2.scopes p = f (s.scopes q)) := by
  unfold St.modScope
  split
  · exact .inl rfl
  · by_cases hp : p = q
    · exact .inr ⟨hp, by simp [upd, hp]⟩
    · exact .inl (by simp [upd, hp])

theorem modScope_nscope (s : St) (q : Nat) (f : Scope → Scope) : (s.modScope q f).2.nscope = s.nscope := by
  unfold St.modScope; split <;> rfl

/-- A part of the scopes that an operation leaves alone. -/
theorem modScope_part {β : Type} (g : Scope → β) (s : St) (q p : Nat) (f : Scope → Scope)
    (hf : ∀ c, g (f c) = g c) : g ((s.modScope q f).2.scopes p) = g (s.scopes p) := by
  rcases modScope_get s q p f with h | ⟨rfl, h⟩ <;> rw [h]
  exact hf _

theorem argsLine_snd (s : St) (q : Nat) : ∃ t, ((Op.argsLine q).run H s).2 =
    (s.modScope q fun c => { c with argsTo1 := true, args1 := t }).2 := by
  simp only [Op.run]
  generalize (if (s.scopes q).argsTo1 = true then (s.scopes q).args1
    else (s.lists (s.scopes q).args).line _ (s.scopes q).args1) = t
  refine ⟨t, ?_⟩
  rcases s.modScope q fun c => { c with argsTo1 := true, args1 := t } with ⟨x, s1⟩
  cases x <;> rfl

theorem setDef_snd (s : St) (q : Nat) (d : Def) : ((Op.setDef q d).run H s).2 = s ∨
    ((Op.setDef q d).run H s).2 = (s.modScope q fun c => { c with defs := Zh.setDef d c.defs }).2 := by
  simp only [Op.run]
  split
  · split
    · exact .inl rfl
    · exact .inr rfl
  · exact .inr rfl

theorem parse_snd (s : St) (src : Str) : ∃ c, ((Op.parse src).run H s).2 = { s with cache := c } := by
  simp only [Op.run]
  split
  · exact ⟨_, rfl⟩
  · exact ⟨s.cache, rfl⟩
  · exact ⟨s.cache, rfl⟩

theorem rmMod_snd (s : St) (d : Bool) (i : Nat) :
    ∃ m m', ((Op.rmMod d i).run H s).2 = { s with mods := m, datas := m' } ∧ m.Sublist s.mods ∧ m'.Sublist s.datas := by
  simp only [Op.run]
  split <;> split
  · exact ⟨s.mods, _, rfl, List.Sublist.refl _, List.eraseIdx_sublist ..⟩
  · exact ⟨s.mods, s.datas, rfl, List.Sublist.refl _, List.Sublist.refl _⟩
  · exact ⟨_, s.datas, rfl, List.eraseIdx_sublist .., List.Sublist.refl _⟩
  · exact ⟨s.mods, s.datas, rfl, List.Sublist.refl _, List.Sublist.refl _⟩

/-- Which part of a scope operations of other kinds leave alone. -/
theorem op_part {β : Type} (g : Scope → β) (k : Kind) (o : Op) (s : St) (hk : o.kind ≠ k)
    (hv : k ≠ .var → ∀ c v, g { c with vars := v } = g c)
    (hd : k ≠ .def_ → ∀ c v, g { c with defs := v } = g c)
    (hn : k ≠ .name → ∀ c v w, g { c with name := v, onFree := w } = g c)
    (hs : k ≠ .src → (∀ c v, g { c with src := v } = g c) ∧ (∀ c v, g { c with srcIsFile := v } = g c) ∧
      ∀ c v, g { c with arg0 := v } = g c)
    (ha : k ≠ .args1 → ∀ c v w, g { c with argsTo1 := v, args1 := w } = g c)
    (p : Nat) (hp : p < s.nscope) : g ((o.run H s).2.scopes p) = g (s.scopes p) ∧ p < (o.run H s).2.nscope := by
  cases o with
  | touch q => exact ⟨modScope_part g s q p _ fun _ => rfl, by simpa only [Op.run, modScope_nscope] using hp⟩
  | setVar q v => exact ⟨modScope_part g s q p _ fun c => hv (Ne.symm hk) c _, by simpa only [Op.run, modScope_nscope] using hp⟩
  | addName q n f => exact ⟨modScope_part g s q p _ fun c => hn (Ne.symm hk) c _ _, by simpa only [Op.run, modScope_nscope] using hp⟩
  | setSrc q n => exact ⟨modScope_part g s q p _ fun c => (hs (Ne.symm hk)).1 c _, by simpa only [Op.run, modScope_nscope] using hp⟩
  | setIsFile q => exact ⟨modScope_part g s q p _ fun c => (hs (Ne.symm hk)).2.1 c _, by simpa only [Op.run, modScope_nscope] using hp⟩
  | setArg0 q n => exact ⟨modScope_part g s q p _ fun c => (hs (Ne.symm hk)).2.2 c _, by simpa only [Op.run, modScope_nscope] using hp⟩
  | clearArgs1 q => exact ⟨modScope_part g s q p _ fun c => ha (Ne.symm hk) c _ _, by simpa only [Op.run, modScope_nscope] using hp⟩
  | argsLine q =>
    obtain ⟨t, ht⟩ := argsLine_snd (H := H) s q
    rw [ht, modScope_nscope]
    exact ⟨modScope_part g s q p _ fun c => ha (Ne.symm hk) c _ _, hp⟩
  | setDef q d =>
    rcases setDef_snd (H := H) s q d with h | h <;> rw [h]
    · exact ⟨rfl, hp⟩
    · rw [modScope_nscope]
      exact ⟨modScope_part g s q p _ fun c => hd (Ne.symm hk) c _, hp⟩
  | parse src =>
    obtain ⟨c, hc⟩ := parse_snd (H := H) s src
    rw [hc]; exact ⟨rfl, hp⟩
  | rmMod d i =>
    obtain ⟨m, m', h, -⟩ := rmMod_snd (H := H) s d i
    rw [h]; exact ⟨rfl, hp⟩
  | addMod d q => simp only [Op.run]; split <;> exact ⟨rfl, hp⟩
  | newScope a b c =>
    simp only [Op.run]
    refine ⟨?_, by omega⟩
    rw [upd, if_neg (by omega)]
  | _ => exact ⟨rfl, hp⟩

/-- **C53.**  Only `赋予`, `别名` and loop counters change variables: an evaluation in which none of them happens
(conditions, calls of definitions, printing, external commands, loading, ...) leaves all variables of all
existing scopes as they are, however it ends. -/
theorem C53_variables (n : Nat) (c : Call) (s : St) (h : ∀ c' s', Happens H n c s c' s' → ¬ c'.Assigns) :
    ∀ q < s.nscope, ((run H n c s).2.scopes q).vars = (s.scopes q).vars := by
  have := happens_inv (H := H) (I := fun t => ∀ q < s.nscope, q < t.nscope ∧ (t.scopes q).vars = (s.scopes q).vars)
    (fun t h' ht => ht) n c s (fun c' s' hc o t hk ht q hq => ?_) (fun q hq => ⟨hq, rfl⟩)
  · exact fun q hq => (this q hq).2
  · obtain ⟨h1, h2⟩ := ht q hq
    have := op_part (H := H) (fun c => c.vars) .var o t (fun e => not_may_var (h c' s' hc) (e ▸ hk)) (fun h => absurd rfl h)
      (fun _ _ _ => rfl) (fun _ _ _ _ => rfl) (fun _ => ⟨fun _ _ => rfl, fun _ _ => rfl, fun _ _ => rfl⟩)
      (fun _ _ _ _ => rfl) q h1
    exact ⟨this.2, this.1.trans h2⟩

/-! ## Definitions -/

/-- The evaluation that may make or replace a definition: the statement `定义`. -/
def Call.Defines : Call → Prop
  | .item (.def_ ..) _ => True
  | _ => False

theorem not_may_def {c : Call} (h : ¬ c.Defines) : ¬ c.may .def_ := by
  cases c with
  | item c env => cases c <;> simp_all [Call.may, Call.Defines]
  | _ => simp_all [Call.may, Call.Defines]

/-- **C54.**  Only `定义` changes definitions. -/
theorem C54_definitions (n : Nat) (c : Call) (s : St) (h : ∀ c' s', Happens H n c s c' s' → ¬ c'.Defines) :
    ∀ q < s.nscope, ((run H n c s).2.scopes q).defs = (s.scopes q).defs := by
  have := happens_inv (H := H) (I := fun t => ∀ q < s.nscope, q < t.nscope ∧ (t.scopes q).defs = (s.scopes q).defs)
    (fun t h' ht => ht) n c s (fun c' s' hc o t hk ht q hq => ?_) (fun q hq => ⟨hq, rfl⟩)
  · exact fun q hq => (this q hq).2
  · obtain ⟨h1, h2⟩ := ht q hq
    have := op_part (H := H) (fun c => c.defs) .def_ o t (fun e => not_may_def (h c' s' hc) (e ▸ hk))
      (fun _ _ _ => rfl) (fun h => absurd rfl h) (fun _ _ _ _ => rfl)
      (fun _ => ⟨fun _ _ => rfl, fun _ _ => rfl, fun _ _ => rfl⟩)
      (fun _ _ _ _ => rfl) q h1
    exact ⟨this.2, this.1.trans h2⟩

/-! ## Output, files, processes -/

/-- The evaluations that may have an effect outside: `显示`, `执行` (and reading from a process started by it) and
`加载`. -/
def Call.Outside : Call → Prop
  | .item (.print _) _ => True
  | .item (.exec _) _ => True
  | .item (.eval load ..) _ => load = true
  | .slave .. => True
  | _ => False

theorem not_may_out {c : Call} (h : ¬ c.Outside) : ¬ c.may .emit ∧ ¬ c.may .file ∧ ¬ c.may .proc := by
  cases c with
  | item c env => cases c <;> simp_all [Call.may, Call.Outside]
  | _ => simp_all [Call.may, Call.Outside]

/-- Operations of other kinds have no effect outside. -/
theorem op_trace (o : Op) (s : St) (h1 : o.kind ≠ .emit) (h2 : o.kind ≠ .file) (h3 : o.kind ≠ .proc) :
    (o.run H s).2.trace = s.trace := by
  cases o with
  | touch q => exact modScope_trace ..
  | setVar q v => exact modScope_trace ..
  | addName q n f => exact modScope_trace ..
  | setSrc q n => exact modScope_trace ..
  | setIsFile q => exact modScope_trace ..
  | setArg0 q n => exact modScope_trace ..
  | clearArgs1 q => exact modScope_trace ..
  | argsLine q =>
    obtain ⟨t, ht⟩ := argsLine_snd (H := H) s q
    rw [ht]; exact modScope_trace ..
  | setDef q d =>
    rcases setDef_snd (H := H) s q d with h | h <;> rw [h]
    exact modScope_trace ..
  | parse src =>
    obtain ⟨c, hc⟩ := parse_snd (H := H) s src
    rw [hc]
  | rmMod d i =>
    obtain ⟨m, m', h, -⟩ := rmMod_snd (H := H) s d i
    rw [h]
  | addMod d q => simp only [Op.run]; split <;> rfl
  | _ => first | rfl | exact absurd rfl h1 | exact absurd rfl h2 | exact absurd rfl h3

/-- **C55.**  Only `显示`, `执行` and `加载` have effects outside the interpreter: an evaluation in which none of
them happens prints nothing, opens or reads no file and starts or talks to no process. -/
theorem C55_outside (n : Nat) (c : Call) (s : St) (h : ∀ c' s', Happens H n c s c' s' → ¬ c'.Outside) :
    (run H n c s).2.trace = s.trace :=
  happens_inv (H := H) (I := fun t => t.trace = s.trace) (fun _ _ ht => ht) n c s
    (fun c' s' hc o t hk ht => by
      obtain ⟨h1, h2, h3⟩ := not_may_out (h c' s' hc)
      exact (op_trace o t (fun e => h1 (e ▸ hk)) (fun e => h2 (e ▸ hk)) (fun e => h3 (e ▸ hk))).trans ht) rfl

/-! ## Concrete evaluations that meet the hypotheses -/

/-- The statements as checks. -/
def Call.assignsB : Call → Bool
  | .item (.set_ ..) _ => true
  | .item (.alias ..) _ => true
  | .loop _ _ _ _ cnt .. => cnt.name.isSome
  | _ => false
def Call.definesB : Call → Bool
  | .item (.def_ ..) _ => true
  | _ => false
def Call.outsideB : Call → Bool
  | .item (.print _) _ => true
  | .item (.exec _) _ => true
  | .item (.eval load ..) _ => load
  | .slave .. => true
  | _ => false

theorem assignsB_iff {c : Call} : c.assignsB = true ↔ c.Assigns := by
  cases c with
  | item c env => cases c <;> simp [Call.assignsB, Call.Assigns]
  | loop a b c d cnt => cases h : cnt.name <;> simp [Call.assignsB, Call.Assigns, h]
  | _ => simp [Call.assignsB, Call.Assigns]
theorem definesB_iff {c : Call} : c.definesB = true ↔ c.Defines := by
  cases c with
  | item c env => cases c <;> simp [Call.definesB, Call.Defines]
  | _ => simp [Call.definesB, Call.Defines]
theorem outsideB_iff {c : Call} : c.outsideB = true ↔ c.Outside := by
  cases c with
  | item c env => cases c <;> simp [Call.outsideB, Call.Outside]
  | _ => simp [Call.outsideB, Call.Outside]

theorem happensB_false {P : Call → St → Bool} {n : Nat} {c : Call} {s : St} (h : happensB H P n c s = false)
    {c' : Call} {s' : St} (hh : Happens H n c s c' s') : P c' s' = false := by
  cases hp : P c' s' with
  | false => rfl
  | true => rw [happensB_complete hh hp] at h; cases h

/-- In this script a condition and the call of a definition that prints are evaluated while variables exist, and no
variable is assigned by them. -/
theorem C53_witness : ∃ c s, Reached H0 false (demoArgv
    c!"定义乙以下代码显示“好”。上代码。赋予甲以1。如果‘甲’等于1那么乙。") c s ∧
      (∀ c' s', Happens H0 14 c s c' s' → ¬ c'.Assigns) ∧ (s.scopes 1).vars ≠ [] ∧
      (run H0 14 c s).2.trace ≠ s.trace := by
  have h : demoB 14 (fun c s => (match c with | .item (.if_ ..) _ => true | _ => false) &&
      !happensB H0 (fun c _ => c.assignsB) 14 c s && !(s.scopes 1).vars.isEmpty &&
      (run H0 14 c s).2.trace.length != s.trace.length)
      c!"定义乙以下代码显示“好”。上代码。赋予甲以1。如果‘甲’等于1那么乙。" = true := by decide +kernel
  obtain ⟨c, s, hr, h⟩ := demoB_sound h
  simp only [Bool.and_eq_true, Bool.not_eq_true', bne_iff_ne] at h
  obtain ⟨⟨⟨-, h1⟩, h2⟩, h3⟩ := h
  refine ⟨c, s, hr, fun c' s' hh ha => ?_, fun e => ?_, fun e => h3 (by rw [e])⟩
  · have := happensB_false h1 hh
    rw [assignsB_iff.2 ha] at this; cases this
  · rw [e] at h2; cases h2

/-- A definition is called that assigns and prints, and no definition is made by it. -/
theorem C54_witness : ∃ c s, Reached H0 false (demoArgv
    c!"定义乙以下代码赋予甲以1。显示‘甲’。上代码。如果1等于1那么乙。") c s ∧
      (∀ c' s', Happens H0 14 c s c' s' → ¬ c'.Defines) ∧ (s.scopes 1).defs ≠ [] ∧
      (run H0 14 c s).2.trace ≠ s.trace := by
  have h : demoB 14 (fun c s => (match c with | .item (.if_ ..) _ => true | _ => false) &&
      !happensB H0 (fun c _ => c.definesB) 14 c s && !(s.scopes 1).defs.isEmpty &&
      (run H0 14 c s).2.trace.length != s.trace.length)
      c!"定义乙以下代码赋予甲以1。显示‘甲’。上代码。如果1等于1那么乙。" = true := by decide +kernel
  obtain ⟨c, s, hr, h⟩ := demoB_sound h
  simp only [Bool.and_eq_true, Bool.not_eq_true', bne_iff_ne] at h
  obtain ⟨⟨⟨-, h1⟩, h2⟩, h3⟩ := h
  refine ⟨c, s, hr, fun c' s' hh ha => ?_, fun e => ?_, fun e => h3 (by rw [e])⟩
  · have := happensB_false h1 hh
    rw [definesB_iff.2 ha] at this; cases this
  · rw [e] at h2; cases h2

/-- A loop with a counter that assigns a variable, and nothing is printed by it. -/
theorem C55_witness : ∃ c s, Reached H0 false (demoArgv
    c!"显示“甲”。循环【3】先赋予甲以1。了。") c s ∧
      (∀ c' s', Happens H0 14 c s c' s' → ¬ c'.Outside) ∧ s.trace ≠ [] ∧
      ((run H0 14 c s).2.scopes 1).vars ≠ (s.scopes 1).vars := by
  have h : demoB 14 (fun c s => (match c with | .item (.for_ ..) _ => true | _ => false) &&
      !happensB H0 (fun c _ => c.outsideB) 14 c s && !s.trace.isEmpty &&
      ((run H0 14 c s).2.scopes 1).vars.length != (s.scopes 1).vars.length)
      c!"显示“甲”。循环【3】先赋予甲以1。了。" = true := by decide +kernel
  obtain ⟨c, s, hr, h⟩ := demoB_sound h
  simp only [Bool.and_eq_true, Bool.not_eq_true', bne_iff_ne] at h
  obtain ⟨⟨⟨-, h1⟩, h2⟩, h3⟩ := h
  refine ⟨c, s, hr, fun c' s' hh ha => ?_, fun e => ?_, fun e => h3 (by rw [e])⟩
  · have := happensB_false h1 hh
    rw [outsideB_iff.2 ha] at this; cases this
  · rw [e] at h2; cases h2

end Zh
