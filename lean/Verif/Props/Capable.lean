import Verif.Props.ScriptText
/-!
# C81: what a script cannot do, read from its text

A script in whose text none of `定义`, `解释`, `加载`, `执行`, `释放模块` stands acts on the world outside only by printing; if `显示` does not
stand in it either it does not act at all.
-/
namespace Zh
open Spec (runsText)

variable {α β : Type} {H : Host} {bad : Code → Bool}

/-! ## Programs without calls -/

theorem interp_of_free {rec : Call → St → Out Res × St} {p : Prog α} {s s' : St} {a : α} (h : Ev H (fun _ _ _ _ => False) p s a s') :
    p.interp H rec s = (.ok a, s') := by
  induction p generalizing s with
  | ret b => obtain ⟨rfl, rfl⟩ := h; rfl
  | panic => exact h.elim
  | op o k ih =>
    obtain ⟨b, s1, ho, h⟩ := h
    simp only [Prog.interp, ho]
    exact ih b h
  | call hd c k ih => obtain ⟨_, _, h, _⟩ := h; exact h.elim

theorem interpE_bind_ok {rec : Call → St → Out Res × St} {p : E α} {f : α → E β} {s s1 : St} {a : α}
    (h : p.run.interp H rec s = (.ok (.ok a), s1)) : (p >>= f).run.interp H rec s = (f a).run.interp H rec s1 := by
  change (Prog.bind p.run _).interp H rec s = _
  rw [interp_bind, h]
  rfl

theorem interpE_bind_error {rec : Call → St → Out Res × St} {p : E α} {f : α → E β} {s s1 : St} {e : Err}
    (h : p.run.interp H rec s = (.ok (.error e), s1)) : (p >>= f).run.interp H rec s = (.ok (.error e), s1) := by
  change (Prog.bind p.run _).interp H rec s = _
  rw [interp_bind, h]
  rfl

theorem interpE_lift_ok {rec : Call → St → Out Res × St} {p : Prog α} {s s1 : St} {a : α} (h : p.interp H rec s = (.ok a, s1)) :
    ((liftM p : E α)).run.interp H rec s = (.ok (.ok a), s1) := by
  change (Prog.bind p _).interp H rec s = _
  rw [interp_bind, h]
  rfl

theorem interp_callE_trace {rec : Call → St → Out Res × St} {c : Call} {s : St} :
    ((callE [] c).run.interp H rec s).2.trace = (rec c s).2.trace := by
  change (Prog.bind (Prog.bind (callP [] c) _) _ |>.interp H rec s).2.trace = _
  rw [interp_bind, interp_bind]
  unfold callP
  simp only [Prog.interp]
  have e : ({ s with held := [] ++ s.held } : St) = s := rfl
  rw [e]
  rcases hx : rec c s with ⟨x | _ | _, s1⟩
  · rcases x with ⟨r, _⟩
    cases r <;> rfl
  · rfl
  · rfl

/-- Every event the operation may cause is a `P`. -/
def Op.Only (P : Event → Prop) : Op → Prop
  | .emit e => P e
  | .open_ f => P (.open_ f)
  | .read f => P (.read f)
  | .exec .. | .write .. | .readLine .. => False
  | _ => True

/-- The program makes no calls and every event it may cause is a `P`. -/
def Nf (H : Host) (P : Event → Prop) : Prog α → Prop
  | .ret _ => True
  | .panic => True
  | .op o k => o.Only P ∧ ∀ r, (∃ s s', o.run H s = (.ok r, s')) → Nf H P (k r)
  | .call .. => False

abbrev NfE (H : Host) (P : Event → Prop) (p : E α) : Prop := Nf H P p.run

variable {P : Event → Prop}

theorem Nf.bind {p : Prog α} {f : α → Prog β} (h : Nf H P p) (hf : ∀ a, Nf H P (f a)) : Nf H P (p >>= f) := by
  change Nf H P (p.bind f)
  induction p with
  | ret a => exact hf a
  | panic => trivial
  | op o k ih => exact ⟨h.1, fun a ha => ih a (h.2 a ha)⟩
  | call hd c k ih => exact h.elim

theorem NfE.bind {p : E α} {f : α → E β} (h : NfE H P p) (hf : ∀ a, NfE H P (f a)) : NfE H P (p >>= f) := by
  change Nf H P (p.run >>= _)
  refine Nf.bind h fun a => ?_
  cases a with
  | ok a => exact hf a
  | error e => trivial

theorem NfE.lift {p : Prog α} (h : Nf H P p) : NfE H P (liftM p : E α) := Nf.bind h fun _ => trivial
theorem nf_pure {a : α} : Nf H P (pure a : Prog α) := trivial
theorem nf_ofOut {x : Out α} : Nf H P (ofOut x) := by cases x <;> trivial
theorem nf_getSt : Nf H P getSt := ⟨trivial, fun _ _ => trivial⟩

theorem nf_events {rec : Call → St → Out Res × St} {p : Prog α} (hp : Nf H P p) {s : St} (hs : ∀ e ∈ s.trace, P e) :
    ∀ e ∈ (p.interp H rec s).2.trace, P e := by
  induction p generalizing s with
  | ret a => exact hs
  | panic => exact hs
  | op o k ih =>
    have h1 : ∀ e ∈ (o.run H s).2.trace, P e := by
      have add : ∀ x, P x → ∀ e ∈ s.trace ++ [x], P e := by
        intro x hx e he
        rcases List.mem_append.1 he with he | he
        · exact hs e he
        · cases List.mem_singleton.1 he; exact hx
      by_cases k1 : o.kind = .emit
      · cases o <;> first | exact add _ hp.1 | cases k1
      · by_cases k2 : o.kind = .file
        · cases o <;> first | exact add _ hp.1 | cases k2
        · rw [op_trace o s k1 k2]
          · exact hs
          · intro k3
            cases o <;> first | exact hp.1.elim | cases k3
    rcases ho : o.run H s with ⟨x, s1⟩
    rw [ho] at h1
    simp only [Prog.interp, ho]
    cases x with
    | ok a => exact ih a (hp.2 a ⟨s, s1, ho⟩) h1
    | panic => exact h1
    | fuel => exact h1
  | call hd c k ih => exact hp.elim

theorem op_ends (o : Op) (s : St) : (o.run H s).1 ≠ .fuel := by
  have hm : ∀ q f, (s.modScope q f).1 ≠ .fuel := by
    intro q f
    unfold St.modScope
    split <;> exact nofun
  cases o with
  | touch q => exact hm _ _
  | setVar q v => exact hm _ _
  | setDef q d =>
    simp only [Op.run]
    split
    · split
      · exact nofun
      · exact hm _ _
    · exact hm _ _
  | addName q n f => exact hm _ _
  | setSrc q n => exact hm _ _
  | setIsFile q => exact hm _ _
  | setArg0 q n => exact hm _ _
  | clearArgs1 q => exact hm _ _
  | argsLine q =>
    simp only [Op.run]
    have := hm q fun c => { c with argsTo1 := true, args1 := if (s.scopes q).argsTo1 then (s.scopes q).args1 else
            (s.lists (s.scopes q).args).line .one (s.scopes q).args1 }
    revert this
    generalize s.modScope q _ = x
    obtain ⟨x | _ | _, s1⟩ := x
    · exact fun _ => nofun
    · exact fun _ => nofun
    · exact fun h => absurd rfl h
  | rmMod data i =>
    simp only [Op.run]
    split <;> split <;> exact nofun
  | parse src =>
    simp only [Op.run]
    have h : codesCache H.hash parse s.cache src ≠ .fuel := by
      unfold codesCache
      split
      · exact nofun
      · have := C15_parse_total (utf8 src)
        rcases hp : parse src with (e | x) | _ | _
        · exact nofun
        · dsimp only
          split <;> exact nofun
        · exact nofun
        · exact absurd hp this
    revert h
    generalize codesCache H.hash parse s.cache src = x
    cases x
    · exact fun _ => nofun
    · exact fun _ => nofun
    · exact fun h => absurd rfl h
  | expl v =>
    simp only [Op.run]
    unfold expl
    split
    · exact nofun
    · rename_i src more
      have := C34_ends (o := H.f64) quote src
      revert this
      generalize explVal H.f64 quote src = x
      intro hx
      rcases x with (e | x) | _ | _
      · exact nofun
      · simp only [R.bind]
        split
        · exact nofun
        · split
          · exact nofun
          · split
            · split <;> exact nofun
            · exact nofun
      · exact nofun
      · exact absurd rfl hx
  | _ => exact nofun

theorem nf_rec {rec rec' : Call → St → Out Res × St} {p : Prog α} (hp : Nf H P p) (s : St) : p.interp H rec s = p.interp H rec' s := by
  induction p generalizing s with
  | ret a => rfl
  | panic => rfl
  | op o k ih =>
    simp only [Prog.interp]
    rcases ho : o.run H s with ⟨x, s1⟩
    cases x with
    | ok a => exact ih a (hp.2 a ⟨s, s1, ho⟩) s1
    | panic => rfl
    | fuel => rfl
  | call hd c k ih => exact hp.elim

theorem nf_ends {rec : Call → St → Out Res × St} {p : Prog α} (hp : Nf H P p) (s : St) : (p.interp H rec s).1 ≠ .fuel := by
  induction p generalizing s with
  | ret a => exact nofun
  | panic => exact nofun
  | op o k ih =>
    have := op_ends (H := H) o s
    simp only [Prog.interp]
    rcases ho : o.run H s with ⟨x, s1⟩
    cases x with
    | ok a => exact ih a (hp.2 a ⟨s, s1, ho⟩) s1
    | panic => exact nofun
    | fuel => rw [ho] at this; exact absurd rfl this
  | call hd c k ih => exact hp.elim

/-! ## The start -/

/-- The message about an unknown option of the interpreter. -/
def Spec.Ignored (e : Event) : Prop := ∃ t, e = .err (c!"忽略 " ++ t ++ ['\n'])

theorem nf_addVal {ret : Nat} {v : Val} {r : List Str} : Nf H P (addVal ret v r) := by
  unfold addVal addItem
  refine Nf.bind ⟨trivial, fun _ _ => trivial⟩ fun _ => ?_
  exact Nf.bind nf_getSt fun _ => ⟨trivial, fun _ _ => trivial⟩

theorem nf_cliArg {args : Nat} {t : Str} : Nf H P (cliArg args t) := by
  unfold cliArg
  refine Nf.bind (Nf.bind nf_getSt fun _ => trivial) fun _ => ?_
  split
  · exact Nf.bind nf_addVal fun _ => nf_addVal
  · exact nf_addVal

theorem nf_cliActs {q : Nat} {l : List CliAct} (hP : ∀ e, Spec.Ignored e → P e) : Nf H P (cliActs q l) := by
  induction l with
  | nil => trivial
  | cons a l ih =>
    unfold cliActs
    cases a with
    | arg t => exact Nf.bind nf_getSt fun _ => Nf.bind nf_cliArg fun _ => ih
    | «ignore» t => exact Nf.bind ⟨hP _ ⟨t, rfl⟩, fun _ _ => trivial⟩ fun _ => ih
    | _ => exact Nf.bind ⟨trivial, fun _ _ => trivial⟩ fun _ => ih

theorem nf_shlP {b : Bool} {a : List Str} : Nf H P (shlP b a) := by
  unfold shlP
  split
  · split
    · trivial
    · refine Nf.bind nf_getSt fun _ => ?_
      split
      · exact Nf.bind ⟨trivial, fun _ _ => trivial⟩ fun _ => Nf.bind ⟨trivial, fun _ _ => trivial⟩ fun _ => trivial
      · exact Nf.bind ⟨trivial, fun _ _ => trivial⟩ fun _ => trivial
  · trivial

theorem nf_clparsP {a : List Str} {b c d e : Bool} {q : Nat} (hP : ∀ e, Spec.Ignored e → P e) : NfE H P (clparsP a b c d e q) := by
  unfold clparsP
  refine NfE.bind (NfE.lift nf_shlP) fun _ => NfE.bind (NfE.lift nf_ofOut) fun x => ?_
  obtain ⟨a2, hs, src⟩ := x
  dsimp only
  cases src with
  | some t => exact NfE.bind (NfE.lift ⟨trivial, fun _ _ => trivial⟩) fun _ => NfE.bind (NfE.lift (nf_cliActs hP)) fun _ => trivial
  | none => exact NfE.bind (NfE.lift (nf_cliActs hP)) fun _ => trivial

theorem nf_topVal {n v : Str} : Nf H P (topVal n v) := by
  unfold topVal
  exact Nf.bind ⟨trivial, fun _ _ => trivial⟩ fun _ => ⟨trivial, fun _ _ => trivial⟩

theorem nf_openP {f : Str} {b : Bool} {q : Nat} (hP : P (.open_ f)) : Nf H P (openP f b q) := by
  unfold openP
  refine Nf.bind ⟨hP, fun _ _ => trivial⟩ fun _ => ?_
  split
  · cases b
    · exact Nf.bind ⟨trivial, fun _ _ => trivial⟩ fun _ => trivial
    · exact Nf.bind ⟨trivial, fun _ _ => trivial⟩ fun _ => Nf.bind ⟨trivial, fun _ _ => trivial⟩ fun _ => trivial
  · trivial

/-- The names under which the script is looked for. -/
def Spec.NamedBy (H : Host) (src f : Str) : Prop := f = src ∨ ∃ p, H.fileName p src = some f

theorem nf_openFirst {src : Str} {b : Bool} {q : Nat} {ps : List Str} (hP : ∀ f, Spec.NamedBy H src f → P (.open_ f)) :
    Nf H P (openFirst src b q ps) := by
  induction ps with
  | nil => trivial
  | cons p ps ih =>
    unfold openFirst
    refine ⟨trivial, fun r hr => ?_⟩
    obtain ⟨s, s', hr⟩ := hr
    have hr : H.fileName p src = r := by
      simp only [Op.run, Prod.mk.injEq, Out.ok.injEq] at hr
      exact hr.1
    change Nf H P (match r with | some f => _ | none => _)
    cases r with
    | none => exact ih
    | some f =>
      refine Nf.bind (nf_openP (hP f (.inr ⟨p, hr⟩))) fun x => ?_
      split
      · trivial
      · exact ih

theorem nf_okSrcP {src : Str} {b : Bool} {q : Nat} (hP : ∀ f, Spec.NamedBy H src f → P (.open_ f)) : Nf H P (okSrcP src b q) := by
  unfold okSrcP
  split
  · trivial
  · split
    · exact nf_openP (hP _ (.inl rfl))
    · refine Nf.bind nf_getSt fun _ => Nf.bind (nf_openFirst hP) fun x => ?_
      split
      · trivial
      · exact nf_openP (hP _ (.inl rfl))

theorem nf_src2P {f : Str} {q : Nat} (hP : ∀ e, Spec.Ignored e → P e) (hf : P (.read f)) : NfE H P (src2P f q) := by
  unfold src2P
  refine ⟨hf, fun r _ => ?_⟩
  rcases r with e | text
  · trivial
  · change NfE H P (if _ then _ else _)
    split
    · exact NfE.bind (NfE.lift ⟨trivial, fun _ _ => trivial⟩) fun _ => NfE.bind (nf_clparsP hP) fun _ => trivial
    · trivial

/-- The beginning of a run: the state in which the script is looked for, and what is left to do then. -/
theorem main_run {shl : Str} {a : List Str} {opts : List Spec.CliOpt} {src : Str} {ws : List Str} (hl : Spec.CliLine (shl :: a) opts src ws) :
    ∃ s3, Still bad s3 ∧ (∀ e ∈ s3.trace, Spec.Ignored e) ∧ (s3.scopes 1).src = src ∧ (s3.srcIsFile = false ↔ Spec.CliOpt.isCode ∈ opts) ∧
      ∀ n, runMain H n false (shl :: a) = ((if s3.srcIsFile then do
        let _ ← (okSrcP src true 1 : Prog Bool)
        let s ← (getSt : Prog St)
        src2P (s.scopes 1).src 1
      else pure src : E Str) >>= fun t => callE [] (.src t Env.init)).run.interp H (run H n) s3 := by
  obtain ⟨s1, h1, h2, h3, h4, h5⟩ := clpars_line (H := H) (R := fun _ _ _ _ => False) false hl
  let R0 : Call → St → Out Res × St := fun _ s => (.fuel, s)
  have hR0 : ∀ c s, Call.Ok bad (fun _ => False) c → Still bad s → Still bad (R0 c s).2 := fun _ _ _ h => h
  have hT : ∀ x, (fun _ : Str => False) x → Spec.TextWithout bad x := fun _ h => h.elim
  have c1 : ∀ rec, (clparsP (shl :: a) true true true false 1).run.interp H rec (St.init false) = (.ok (.ok ()), s1) :=
    fun rec => interp_of_free ((h1 _ _).2 ⟨rfl, rfl⟩)
  have st1 : Still bad s1 := by
    have := (sf_interp (H := H) hT hR0 (f_clparsP (bad := bad) (T := fun _ => False) (a := shl :: a) (b := true) (c := true) (d := true)
      (e := false) (q := 1)) still_init).1
    rw [c1] at this
    exact this
  have tr1 : ∀ e ∈ s1.trace, Spec.Ignored e := by
    have := nf_events (rec := R0) (nf_clparsP (H := H) (a := shl :: a) (b := true) (c := true) (d := true) (e := false) (q := 1)
      (P := Spec.Ignored) fun _ h => h) (s := St.init false) (fun e he => nomatch he)
    rw [c1] at this
    exact this
  have top : ∀ (name val : Str) {s : St}, Still bad s → (∀ e ∈ s.trace, Spec.Ignored e) → ∃ s', (∀ rec, (topVal name val).interp H rec s =
      (.ok (), s')) ∧ Still bad s' ∧ (∀ e ∈ s'.trace, Spec.Ignored e) ∧ s'.scopes 1 = s.scopes 1 ∧ s'.srcIsFile = s.srcIsFile := by
    intro name val s hs ht
    let s0 : St := { s with items := upd s.items s.nitem [], nitem := s.nitem + 1 }
    let f : Scope → Scope := fun c => { c with vars := Zh.setVar ⟨name, ⟨s.nitem, .s val⟩, false, false, false⟩ c.vars }
    have key : ∀ rec, (topVal name val).interp H rec s = (.ok (), { s0 with scopes := upd s0.scopes 0 (f (s0.scopes 0)) }) := by
      intro rec
      have hd : Det H (fun _ _ _ _ => False) (topVal name val) s () { s0 with scopes := upd s0.scopes 0 (f (s0.scopes 0)) } :=
        Det.bind (det_op (o := .newItem (.s val) []) rfl) (det_op (o := .setVar 0 _) (modScope_free (s := s0) hs.held 0 f))
      exact interp_of_free ((hd _ _).2 ⟨rfl, rfl⟩)
    refine ⟨_, key, ?_, ?_, by simp [upd, s0], rfl⟩
    · have := (sf_interp (H := H) hT hR0 (f_topVal (bad := bad) (T := fun _ => False) (n := name) (v := val)) hs).1
      rw [key] at this
      exact this
    · have := nf_events (rec := R0) (nf_topVal (H := H) (P := Spec.Ignored) (n := name) (v := val)) ht
      rw [key] at this
      exact this
  obtain ⟨s2, t1, t2, t3, t4, t5⟩ := top c!"外壳" s1.shl st1 tr1
  obtain ⟨s3, u1, u2, u3, u4, u5⟩ := top c!"窗口" c!"linux" t2 t3
  refine ⟨s3, u2, u3, by rw [u4, t4, h4], by rw [u5, t5, h5], fun n => ?_⟩
  unfold runMain mainP
  rw [interpE_bind_ok (c1 _), interpE_bind_ok (interpE_lift_ok (s1 := s1) (a := s1) rfl), interpE_bind_ok (interpE_lift_ok (t1 _)),
    interpE_bind_ok (interpE_lift_ok (u1 _))]
  dsimp only
  rw [h4, ← t5, ← u5]

/-! ## The script -/

theorem events_interp {rec : Call → St → Out Res × St} {T : Str → Prop} (hT : ∀ x, T x → Spec.TextWithout bad x)
    (hr : ∀ c s, c.Ok bad T → Still bad s → Still bad (rec c s).2)
    (hr2 : ∀ c s, c.Ok bad T → Still bad s → (∀ e ∈ s.trace, P e) → ∀ e ∈ (rec c s).2.trace, P e) {K : Kind → Prop}
    (hK : ∀ k, K k → k ≠ .file ∧ k ≠ .proc ∧ (k = .emit → ∀ e, Spec.Prints e → P e)) {p : Prog α} {Q : α → Prop} (h : Sf bad T p Q)
    (ho : Only K p) {s : St} (hs : Still bad s) (h0 : ∀ e ∈ s.trace, P e) : ∀ e ∈ (p.interp H rec s).2.trace, P e := by
  induction p generalizing s with
  | ret a => exact h0
  | panic => exact h0
  | op o k ih =>
    obtain ⟨h1, h2⟩ := still_op (H := H) hT h.1 hs
    have h3 : ∀ e ∈ (o.run H s).2.trace, P e := by
      by_cases k1 : o.kind = .emit
      · cases o with
        | emit e =>
          intro x hx
          rcases List.mem_append.1 (show x ∈ s.trace ++ [e] from hx) with hx | hx
          · exact h0 x hx
          · cases List.mem_singleton.1 hx
            exact (hK _ ho.1).2.2 rfl e h.1
        | _ => cases k1
      · rw [op_trace o s k1 (hK _ ho.1).1 (hK _ ho.1).2.1]
        exact h0
    rcases hx : o.run H s with ⟨x, s1⟩
    rw [hx] at h1 h3
    simp only [Prog.interp, hx]
    cases x with
    | ok a => exact ih a (h.2 a (h2 a s1 hx)) (ho.2 a) h1 h3
    | panic => exact h3
    | fuel => exact h3
  | call hd c k ih =>
    obtain ⟨⟨rfl, hc⟩, hk⟩ := h
    have h1 := hr c s hc hs
    have h3 := hr2 c s hc hs h0
    have e : ({ s with held := [] ++ s.held } : St) = s := rfl
    simp only [Prog.interp]
    rw [e]
    rcases hx : rec c s with ⟨x | _ | _, s1⟩
    · rw [hx] at h1 h3
      exact ih x (hk x) (ho x) (s := { s1 with held := s.held }) ⟨h1.defs, h1.args, h1.nlist, hs.held, h1.cache, h1.ovf, h1.plain⟩ h3
    · rw [hx] at h3
      exact h3
    · rw [hx] at h3
      exact h3

/-- What a call without the statements that run texts does outside: it prints, and only if it has a `显示`. -/
theorem script_events (hb : ∀ c, runsText c = true → bad c = true) {T : Str → Prop} (hT : ∀ x, T x → Spec.TextWithout bad x)
    (hP : (∃ a, bad (.print a) = false) → ∀ e, Spec.Prints e → P e) (n : Nat) :
    ∀ (c : Call) (s : St), c.Ok bad T → Still bad s → (∀ e ∈ s.trace, P e) → ∀ e ∈ (run H n c s).2.trace, P e := by
  induction n with
  | zero => intro c s _ _ h; exact h
  | succ n ih =>
    intro c s hc hs h0
    refine events_interp hT (still_run hb hT n) ih (K := c.may) (fun k hk => ?_) (f_evalF hb hc) (only_evalF c) hs h0
    have no : ∀ {i : Code} {env : Env}, c = .item i env → bad i = false := by
      intro i env e
      subst e
      exact hc.1 i (List.mem_singleton.2 rfl) i .self
    by_cases ho : c.Outside
    · cases c with
      | slave => exact hc.elim
      | item i env =>
        cases i with
        | print a =>
          refine ⟨fun e => ?_, fun e => ?_, fun _ => hP ⟨a, no rfl⟩⟩
          · rw [e] at hk; rcases hk with h | h | h <;> cases h
          · rw [e] at hk; rcases hk with h | h | h <;> cases h
        | exec a => have := no rfl; rw [hb _ rfl] at this; cases this
        | eval => have := no rfl; rw [hb _ rfl] at this; cases this
        | _ => exact ho.elim
      | _ => exact ho.elim
    · obtain ⟨h1, h2, h3⟩ := not_may_out ho
      exact ⟨fun e => h2 (e ▸ hk), fun e => h3 (e ▸ hk), fun e => absurd (e ▸ hk) h1⟩

/-- The state in which the script runs, or that it cannot be read. -/
theorem file_run {shl : Str} {a : List Str} {opts : List Spec.CliOpt} {src : Str} {ws : List Str} (hl : Spec.CliLine (shl :: a) opts src ws)
    (hc : Spec.CliOpt.isCode ∉ opts) {T : Str → Prop}
    (hf : ∀ tr f, Spec.NamedBy H src f → ∀ t, H.read tr f = .ok t → ∀ b, Spec.Unhashed t b → T b) :
    ∃ s, Still bad s ∧ (∀ e ∈ s.trace, Spec.Ignored e ∨ ∃ f, Spec.NamedBy H src f ∧ (e = .open_ f ∨ e = .read f)) ∧
      ((∃ x, x ≠ .fuel ∧ ∀ n, runMain H n false (shl :: a) = (x, s)) ∨
        ∃ t, T t ∧ ∀ n, runMain H n false (shl :: a) = (callE [] (.src t Env.init)).run.interp H (run H n) s) := by
  obtain ⟨s3, h1, h2, h3, h4, h5⟩ := main_run (H := H) (bad := bad) hl
  have h4 : s3.srcIsFile = true := by
    cases e : s3.srcIsFile
    · exact absurd (h4.1 e) hc
    · rfl
  rw [h4] at h5
  let R0 : Call → St → Out Res × St := fun _ s => (.fuel, s)
  have hR0 : ∀ c s, Call.Ok bad (fun _ => False) c → Still bad s → Still bad (R0 c s).2 := fun _ _ _ h => h
  have hT : ∀ x, (fun _ : Str => False) x → Spec.TextWithout bad x := fun _ h => h.elim
  obtain ⟨b, s1, g1, g2, g3⟩ := det_okSrc (H := H) (R := fun _ _ _ _ => False) h1.held h3
  have c1 : ∀ rec, (okSrcP src true 1).interp H rec s3 = (.ok b, s1) := fun rec => interp_of_free ((g1 _ _).2 ⟨rfl, rfl⟩)
  have st1 : Still bad s1 := by
    have := (sf_interp (H := H) hT hR0 (f_okSrcP (bad := bad) (T := fun _ => False) (src := src) (b := true) (q := 1)) h1).1
    rw [c1] at this
    exact this
  have tr1 : ∀ e ∈ s1.trace, Spec.Ignored e ∨ ∃ f, Spec.NamedBy H src f ∧ (e = .open_ f ∨ e = .read f) := by
    have := nf_events (rec := R0) (nf_okSrcP (H := H) (src := src) (b := true) (q := 1)
      (P := fun e => Spec.Ignored e ∨ ∃ f, Spec.NamedBy H src f ∧ (e = .open_ f ∨ e = .read f)) fun f hf => .inr ⟨f, hf, .inl rfl⟩)
      fun e he => .inl (h2 e he)
    rw [c1] at this
    exact this
  have hn : Spec.NamedBy H src (s1.scopes 1).src := by
    rcases g3 with g3 | ⟨p, -, g3⟩
    · exact .inl g3
    · exact .inr ⟨p, g3⟩
  have nf := nf_src2P (H := H) (P := fun e => Spec.Ignored e ∨ ∃ f, Spec.NamedBy H src f ∧ (e = .open_ f ∨ e = .read f)) (q := 1)
    (fun _ h => .inl h) (.inr ⟨(s1.scopes 1).src, hn, .inr rfl⟩)
  have hx : ∃ x, (src2P (s1.scopes 1).src 1).run.interp H R0 s1 = x := ⟨_, rfl⟩
  obtain ⟨⟨y, s2⟩, hx⟩ := hx
  have c2 : ∀ rec, (src2P (s1.scopes 1).src 1).run.interp H rec s1 = (y, s2) := fun rec => (nf_rec nf s1).trans hx
  have st2 : Still bad s2 := by
    have := (sf_interp (H := H) hT hR0 (f_src2P (bad := bad) (T := fun _ => False) (src := (s1.scopes 1).src) (q := 1)) st1).1
    rw [hx] at this
    exact this
  have tr2 : ∀ e ∈ s2.trace, Spec.Ignored e ∨ ∃ f, Spec.NamedBy H src f ∧ (e = .open_ f ∨ e = .read f) := by
    have := nf_events (rec := R0) nf tr1
    rw [hx] at this
    exact this
  have ne : y ≠ .fuel := by
    have := nf_ends (rec := R0) nf s1
    rw [hx] at this
    exact this
  refine ⟨s2, st2, tr2, ?_⟩
  have pre : ∀ n, (do let _ ← (okSrcP src true 1 : Prog Bool)
                      let s ← (getSt : Prog St)
                      src2P (s.scopes 1).src 1 : E Str).run.interp H (run H n) s3 = (y, s2) := by
    intro n
    rw [interpE_bind_ok (interpE_lift_ok (c1 _)), interpE_bind_ok (interpE_lift_ok (s1 := s1) (a := s1) rfl)]
    exact c2 _
  cases y with
  | ok r =>
    cases r with
    | error x =>
      refine .inl ⟨.ok (.error x), nofun, fun n => ?_⟩
      rw [h5, if_pos rfl, interpE_bind_error (pre n)]
    | ok b =>
      have hb : EvE H (Evals H) (src2P (s1.scopes 1).src 1) s1 (.ok b) s2 := ev_of_interp (n := 0) (fun _ _ _ _ h => ⟨0, h⟩) (c2 _)
      obtain ⟨t, ht, hb⟩ := body_of_ev hb
      refine .inr ⟨b, hf _ _ hn _ ht b hb, fun n => ?_⟩
      rw [h5, if_pos rfl, interpE_bind_ok (pre n)]
  | panic =>
    refine .inl ⟨.panic, nofun, fun n => ?_⟩
    rw [h5, if_pos rfl]
    change (Prog.bind _ _ |>.interp H _ _) = _
    rw [interp_bind]
    have := pre n
    simp only [ExceptT.run] at this
    rw [this]
  | fuel => exact absurd rfl ne

theorem code_run {shl : Str} {a : List Str} {opts : List Spec.CliOpt} {src : Str} {ws : List Str} (hl : Spec.CliLine (shl :: a) opts src ws)
    (hc : Spec.CliOpt.isCode ∈ opts) :
    ∃ s, Still bad s ∧ (∀ e ∈ s.trace, Spec.Ignored e) ∧
      ∀ n, runMain H n false (shl :: a) = (callE [] (.src src Env.init)).run.interp H (run H n) s := by
  obtain ⟨s3, h1, h2, h3, h4, h5⟩ := main_run (H := H) (bad := bad) hl
  refine ⟨s3, h1, h2, fun n => ?_⟩
  rw [h5, h4.2 hc, if_neg (by decide), interpE_bind_ok (a := src) (s1 := s3) rfl]

theorem ignored_prints {e : Event} (h : Spec.Ignored e) : Spec.Prints e := by
  obtain ⟨t, rfl⟩ := h
  trivial

/-- **C81.** A script given as code in whose text none of `定义`, `解释`, `加载`, `执行`, `释放模块` stands does nothing outside but print: it
starts and talks to no process and opens and reads no file. -/
theorem C81_code {shl : Str} {a : List Str} {opts : List Spec.CliOpt} {src : Str} {ws : List Str}
    (hl : Spec.CliLine (shl :: a) opts src ws) (hc : Spec.CliOpt.isCode ∈ opts) (hw : ∀ id ∈ Spec.textWords, ¬ Spec.Stands src id) :
    ∀ n, ∀ e ∈ (runMain H n false (shl :: a)).2.trace, Spec.Prints e := by
  intro n
  obtain ⟨s, h1, h2, h3⟩ := code_run (H := H) (bad := runsText) hl hc
  rw [h3, interp_callE_trace]
  exact script_events (fun _ h => h) (T := fun x => x = src) (fun x hx => hx ▸ textWithout_words hw) (fun _ _ h => h) n _ _
    ⟨rfl, Nat.le_refl _⟩ h1 fun e he => ignored_prints (h2 e he)

theorem textWithout_print {src : Str} (h : ∀ id ∈ Spec.textWords ++ [.print_], ¬ Spec.Stands src id) :
    Spec.TextWithout (fun c => runsText c || (match c with | .print _ => true | _ => false)) src :=
  C79_without fun y hy => by
    rcases Bool.or_eq_true_iff.1 hy with hy | hy
    · exact ⟨(runsText_id hy).1, h _ (List.mem_append_left _ (runsText_id hy).2)⟩
    · cases y <;> try contradiction
      exact ⟨rfl, h _ (List.mem_append_right _ (List.mem_singleton.2 rfl))⟩

/-- **C81.** If `显示` does not stand in it either, nothing at all happens outside, but for the notes about options of the interpreter that it
does not know. -/
theorem C81_silent_code {shl : Str} {a : List Str} {opts : List Spec.CliOpt} {src : Str} {ws : List Str}
    (hl : Spec.CliLine (shl :: a) opts src ws) (hc : Spec.CliOpt.isCode ∈ opts)
    (hw : ∀ id ∈ Spec.textWords ++ [.print_], ¬ Spec.Stands src id) :
    ∀ n, ∀ e ∈ (runMain H n false (shl :: a)).2.trace, Spec.Ignored e := by
  intro n
  obtain ⟨s, h1, h2, h3⟩ := code_run (H := H) (bad := fun c => runsText c || (match c with | .print _ => true | _ => false)) hl hc
  rw [h3, interp_callE_trace]
  exact script_events (fun _ h => by simp [h]) (T := fun x => x = src) (fun x hx => hx ▸ textWithout_print hw)
    (fun ⟨_, h⟩ => by cases h) n _ _ ⟨rfl, Nat.le_refl _⟩ h1 h2

/-- **C81.** A script in a file: the only files that are touched are those under whose name the script is looked for. -/
theorem C81_file {shl : Str} {a : List Str} {opts : List Spec.CliOpt} {src : Str} {ws : List Str}
    (hl : Spec.CliLine (shl :: a) opts src ws) (hc : Spec.CliOpt.isCode ∉ opts)
    (hf : ∀ tr f, Spec.NamedBy H src f → ∀ t, H.read tr f = .ok t → ∀ b, Spec.Unhashed t b → ∀ id ∈ Spec.textWords, ¬ Spec.Stands b id) :
    ∀ n, ∀ e ∈ (runMain H n false (shl :: a)).2.trace, Spec.Prints e ∨ ∃ f, Spec.NamedBy H src f ∧ (e = .open_ f ∨ e = .read f) := by
  intro n
  obtain ⟨s, h1, h2, h3⟩ := file_run (H := H) (bad := runsText) (T := fun t => ∀ id ∈ Spec.textWords, ¬ Spec.Stands t id) hl hc hf
  have h2' : ∀ e ∈ s.trace, Spec.Prints e ∨ ∃ f, Spec.NamedBy H src f ∧ (e = .open_ f ∨ e = .read f) := fun e he =>
    (h2 e he).imp ignored_prints id
  rcases h3 with ⟨x, -, h3⟩ | ⟨t, ht, h3⟩
  · rw [h3]; exact h2'
  · rw [h3, interp_callE_trace]
    exact script_events (fun _ h => h) (T := fun x => x = t) (fun x hx => hx ▸ textWithout_words ht) (fun _ _ h => .inl h) n _ _
      ⟨rfl, Nat.le_refl _⟩ h1 h2'

/-- **C81.** And without `显示`. -/
theorem C81_silent_file {shl : Str} {a : List Str} {opts : List Spec.CliOpt} {src : Str} {ws : List Str}
    (hl : Spec.CliLine (shl :: a) opts src ws) (hc : Spec.CliOpt.isCode ∉ opts)
    (hf : ∀ tr f, Spec.NamedBy H src f → ∀ t, H.read tr f = .ok t →
      ∀ b, Spec.Unhashed t b → ∀ id ∈ Spec.textWords ++ [.print_], ¬ Spec.Stands b id) :
    ∀ n, ∀ e ∈ (runMain H n false (shl :: a)).2.trace, Spec.Ignored e ∨ ∃ f, Spec.NamedBy H src f ∧ (e = .open_ f ∨ e = .read f) := by
  intro n
  obtain ⟨s, h1, h2, h3⟩ := file_run (H := H) (bad := fun c => runsText c || (match c with | .print _ => true | _ => false))
    (T := fun t => ∀ id ∈ Spec.textWords ++ [.print_], ¬ Spec.Stands t id) hl hc hf
  rcases h3 with ⟨x, -, h3⟩ | ⟨t, ht, h3⟩
  · rw [h3]; exact h2
  · rw [h3, interp_callE_trace]
    exact script_events (fun _ h => by simp [h]) (T := fun x => x = t) (fun x hx => hx ▸ textWithout_print ht) (fun ⟨_, h⟩ => by cases h) n _ _
      ⟨rfl, Nat.le_refl _⟩ h1 h2

/-- Whether none of the keywords stands in a text. -/
def noneStand (src : Str) (ids : List KwId) : Bool := ids.all fun id => !containsB (kwStr id) (Spec.strip src)

theorem noneStand_sound {src : Str} {ids : List KwId} (h : noneStand src ids = true) : ∀ id ∈ ids, ¬ Spec.Stands src id := by
  intro id hid
  have := List.all_eq_true.1 h id hid
  exact containsB_sound (by simpa using this)

/-- A text with assignments, a loop and a condition, but no `显示`. -/
def silentBody : Str := c!"赋予甲以一。循环【3】如果‘甲’等于一那么先赋予甲以二。了否则先赋予乙以‘甲’。跳出。了。了。"

/-- A file with this text and a `#!` line that has the word and an unknown option. -/
def silentDemo : Str := c!"#!" ++ c!"显示 -zhscript-y 乙" ++ '\n' :: silentBody

/-- **C81.** Scripts as in the theorems: the script of C78 as code prints; a script without `显示` in a file, started with an unknown option,
is read and causes nothing else.  And the words cannot be left out of the list: a script without `显示` prints by evaluating a text, and
a script without `执行` could start a process in this way. -/
theorem C81_witness :
    ((∀ id ∈ Spec.textWords, ¬ Spec.Stands plainDemo id) ∧
      demoLine [] 25 [c!"/b/zs", c!"-zhscript-src-is-code", plainDemo, c!"甲"] = (.ok (.ok ()), [.out c!"甲甲", .out c!"二", .out c!"二"])) ∧
    ((∀ n, ∀ e ∈ (runMain (HF silentDemo) n false [c!"/b/zs", c!"-zhscript-x", c!"a.zs"]).2.trace,
        Spec.Ignored e ∨ ∃ f, Spec.NamedBy (HF silentDemo) c!"a.zs" f ∧ (e = .open_ f ∨ e = .read f)) ∧
      demoLine silentDemo 25 [c!"/b/zs", c!"-zhscript-x", c!"a.zs"] =
        (.ok (.ok ()), [.err c!"忽略 -zhscript-x\n", .open_ c!"/d/a.zs", .read c!"/d/a.zs", .err c!"忽略 -zhscript-y\n"])) ∧
    (demo 20 c!"赋予甲以显。解释‘甲’“示一。”。" = (.ok (.ok ()), [.out c!"一"]) ∧
      ¬ Spec.Stands c!"赋予甲以显。解释‘甲’“示一。”。" .print_) := by
  refine ⟨⟨noneStand_sound (by decide +kernel), by decide +kernel⟩, ⟨fun n => ?_, by decide +kernel⟩, by decide +kernel,
    containsB_sound (by decide +kernel)⟩
  refine C81_silent_file (H := HF silentDemo) (opts := [.other c!"-zhscript-x" ?_ (by decide)]) (src := c!"a.zs") (ws := [])
    (.plain c!"/b/zs" [.other c!"-zhscript-x" _ _] c!"a.zs" [] ?_ ?_ (by decide) (by decide)) (by simp) ?_ n
  · rw [← List.isPrefixOf_iff_prefix]; decide +kernel
  · intro x hx hm
    have h : ([c!"-zhscript-x", c!"a.zs"] : List Str).all (fun w => !Spec.MARK.isSuffixOf w) = true := by decide +kernel
    have := List.all_eq_true.1 h x hx
    rw [List.isSuffixOf_iff_suffix.2 hm] at this
    cases this
  · rw [← List.isPrefixOf_iff_prefix]; decide +kernel
  · intro tr f hf t ht
    have : t = silentDemo := by
      simp only [HF] at ht
      split at ht
      · cases ht; rfl
      · cases ht
    subst this
    intro b hb
    rw [unhashed_line (by decide) hb]
    exact noneStand_sound (by decide +kernel)

end Zh
