import Verif.Props.Defines
import Verif.Props.Returns
import Verif.Props.Crash2
import Verif.Props.Started
/-!
# C65, C66: the statements `解释` and `加载`

`Spec.Evaluation` tells what evaluating a text or loading a file does: in which scope, with which arguments, which file, and what runs.
`C65_nested` says that the evaluator does exactly this.
-/
namespace Zh

variable {H : Host}

/-! ## Specification -/

/-- A new empty scope below `q`, with an empty list for its arguments. -/
def Spec.below (q : Nat) (s : St) : St :=
  { s with
    lists := upd s.lists s.nlist .empty, nlist := s.nlist + 1
    scopes := upd s.scopes s.nscope (Scope.new [] [] [] none (some (q, (s.scopes q).i)) s.nlist)
    nscope := s.nscope + 1 }

/-- The scope `q` is changed. -/
def Spec.scoped (q : Nat) (f : Scope → Scope) (s : St) : St := { s with scopes := upd s.scopes q (f (s.scopes q)) }

/-- The line of arguments is to be made again when it is asked for. -/
def Spec.forget (c : Scope) : Scope := { c with argsTo1 := false, args1 := [] }

/-- The scope in which the text will run: a new one below the scope of the statement, or the scope of the statement itself
(`【在当前区】`); in the second case new arguments will follow the ones that are there. -/
inductive Spec.RunIn (here : Bool) (a : List Code) (env : Env) (s : St) : Nat → St → Prop where
  | new : here = false → s.held.contains (.scope s.nscope) = false → RunIn here a env s s.nscope (Spec.below env.q s)
  | here : here = true → s.held.contains (.scope env.q) = false → ((s.lists (s.scopes env.q).args).a = [] ∨ a.length ≤ 1) →
    RunIn here a env s env.q (Spec.scoped env.q Spec.forget s)
  | more : here = true → s.held.contains (.scope env.q) = false → (s.lists (s.scopes env.q).args).a ≠ [] → 1 < a.length →
    RunIn here a env s env.q ((Spec.scoped env.q Spec.forget s).push (s.scopes env.q).args Spec.sep)

/-- An evaluation while the scope `q` is borrowed. -/
def Spec.Under (H : Host) (q : Nat) (c : Call) (s : St) (r : Except Err Unit) (s' : St) : Prop :=
  ∃ x s1, Evals H c (s.hold [.scope q]) x s1 ∧ x.r = r ∧ s' = { s1 with held := s.held }

/-- The text (before the first `、`, at place `sp`) and then the arguments (after it) are evaluated in the scope of the statement: the
scope for the text, the text. -/
inductive Spec.Readied (H : Host) (here : Bool) (a : List Code) (sp : Nat) (spInEnd : Bool) (env : Env) (s : St) :
    Except Err (Nat × Str) → St → Prop where
  | badText {q s1 e s'} : Spec.RunIn here a env s q s1 →
    Spec.Under H q (.codes a 0 sp { env with ret := s1.nlist }) (Spec.fresh s1) (.error e) s' →
    Readied H here a sp spInEnd env s (.error e) s'
  | note {q s1 m ms s'} : Spec.RunIn here a env s q s1 →
    Spec.Under H q (.codes a 0 sp { env with ret := s1.nlist }) (Spec.fresh s1) (.ok ()) s' →
    Spec.nameMarks s1.nlist s' = m :: ms → Readied H here a sp spInEnd env s (.error (errNoRem2 m)) s'
  | badArgs {q s1 s2 e s'} : Spec.RunIn here a env s q s1 →
    Spec.Under H q (.codes a 0 sp { env with ret := s1.nlist }) (Spec.fresh s1) (.ok ()) s2 → Spec.nameMarks s1.nlist s2 = [] →
    Spec.Under H q (.codes a (sp + 1) usizeMax { env with ret := (s1.scopes q).args }) s2 (.error e) s' →
    Readied H here a sp spInEnd env s (.error e) s'
  | ready {q s1 s2 s3 s4 s5 t} : Spec.RunIn here a env s q s1 →
    Spec.Under H q (.codes a 0 sp { env with ret := s1.nlist }) (Spec.fresh s1) (.ok ()) s2 → Spec.nameMarks s1.nlist s2 = [] →
    t = (s2.lists s1.nlist).text →
    Spec.Under H q (.codes a (sp + 1) usizeMax { env with ret := (s1.scopes q).args }) s2 (.ok ()) s3 →
    /- a `、` at the end: one empty argument -/
    s4 = (if (s3.lists (s1.scopes q).args).a = [] ∧ spInEnd = true then s3.push (s1.scopes q).args (.s []) else s3) →
    s5 = (if here then s4 else Spec.scoped q (fun c => { c with src := t }) s4) →
    Readied H here a sp spInEnd env s (.ok (q, t)) s5

/-- The names under which a file is looked for: next to each file of the include path, then next to the files of the scopes around
`q`, nearest first, then as it is written; a name that begins with `/` only as it is written. -/
def Spec.candidates (H : Host) (s : St) (q : Nat) : Str → List Str
  | [] => []
  | '/' :: t => ['/' :: t]
  | t => (s.path ++ ((chain s.scopes q).tail.filter fun p => (s.scopes p).srcIsFile).map fun p => (s.scopes p).src).filterMap
      (fun p => H.fileName p t) ++ [t]

/-- Files are opened in order until one can be opened. -/
inductive Spec.Tries (H : Host) : List Str → List Event → Option Str → List Event → Prop where
  | none {tr} : Tries H [] tr none tr
  | hit {f fs tr} : H.open_ tr f = true → Tries H (f :: fs) tr (some f) (tr ++ [.open_ f])
  | miss {f fs tr r tr'} : H.open_ tr f = false → Tries H fs (tr ++ [.open_ f]) r tr' → Tries H (f :: fs) tr r tr'

/-- A file is looked for; the scope `q` is then the scope of a file, and (`keep`) that file is its source. -/
inductive Spec.Lookup (H : Host) (name : Str) (keep : Bool) (q : Nat) (s : St) : St → Prop where
  | found {f tr} : Spec.Tries H (Spec.candidates H s q name) s.trace (some f) tr → s.held.contains (.scope q) = false →
    Lookup H name keep q s (Spec.scoped q (fun c => { c with src := if keep then f else c.src, srcIsFile := true }) { s with trace := tr })
  | none {tr} : Spec.Tries H (Spec.candidates H s q name) s.trace none tr → Lookup H name keep q s { s with trace := tr }

/-- The text of a file, without a `#!` line; the options on that line are taken. -/
inductive Spec.FileText (H : Host) (f : Str) (q : Nat) (s : St) : Except Err Str → St → Prop where
  | error {e} : H.read s.trace f = .error e →
    FileText H f q s (.error (.msg (c!"\"" ++ f ++ c!"\" " ++ e))) { s with trace := s.trace ++ [.read f] }
  | plain {t} : H.read s.trace f = .ok t → ¬ Spec.Hashed t → FileText H f q s (.ok t) { s with trace := s.trace ++ [.read f] }
  | options {line t s'} : H.read s.trace f = .ok (c!"#!" ++ line ++ '\n' :: t) → '\n' ∉ line → s.held.contains (.scope q) = false →
    EvE H (Evals H) (clparsP (split line) true false false true q) { s with trace := s.trace ++ [.read f] } (.ok ()) s' →
    FileText H f q s (.ok t) s'
  | badOptions {line t e s'} : H.read s.trace f = .ok (c!"#!" ++ line ++ '\n' :: t) → '\n' ∉ line → s.held.contains (.scope q) = false →
    EvE H (Evals H) (clparsP (split line) true false false true q) { s with trace := s.trace ++ [.read f] } (.error e) s' →
    FileText H f q s (.error e) s'

/-- The text that will run: `解释` takes the text itself, `加载` the text of the file with this name.  Nothing is run when a module has
this source. -/
inductive Spec.Source (H : Host) (load here : Bool) (q : Nat) (t : Str) (s : St) : Except Err (Option Str) → St → Prop where
  | text : load = false → Source H load here q t s (.ok (some t)) s
  | loaded {s1 m} : load = true → Spec.Lookup H t (!here) q s s1 → m ∈ s1.mods → (s1.scopes m).src = (s1.scopes q).src →
    Source H load here q t s (.ok none) s1
  | file {s1 r s'} : load = true → Spec.Lookup H t (!here) q s s1 → (∀ m ∈ s1.mods, (s1.scopes m).src ≠ (s1.scopes q).src) →
    Spec.FileText H (if here then t else (s1.scopes q).src) q s1 r s' → Source H load here q t s (r.map some) s'

/-- The name under which the text runs (its argument 0): the annotation of the statement. -/
inductive Spec.Arg0 (H : Host) (arg0 : Str) (iArg0 : List Code) (env : Env) (s : St) : Except Err Str → St → Prop where
  | given : arg0 ≠ [] → Arg0 H arg0 iArg0 env s (.ok arg0) s
  | none : arg0 = [] → (∀ c, iArg0 ≠ [.rem c]) → Arg0 H arg0 iArg0 env s (.ok []) s
  | words {c x s'} : arg0 = [] → iArg0 = [.rem c] →
    Evals H (.codes c 0 usizeMax { env with ret := s.nlist }) (Spec.fresh s) x s' →
    Arg0 H arg0 iArg0 env s (x.r.map fun _ => (s'.lists s.nlist).text) s'

/-- The statements `解释` and `加载`. -/
inductive Spec.Evaluation (H : Host) (load here : Bool) (arg0 : Str) (iArg0 a : List Code) (sp : Nat) (spInEnd : Bool) (env : Env) (s : St) :
    Except Err Unit → St → Prop where
  | notGiven {e s'} : Spec.Readied H here a sp spInEnd env s (.error e) s' → Evaluation H load here arg0 iArg0 a sp spInEnd env s (.error e) s'
  | noText {q t s1 e s'} : Spec.Readied H here a sp spInEnd env s (.ok (q, t)) s1 → Spec.Source H load here q t s1 (.error e) s' →
    Evaluation H load here arg0 iArg0 a sp spInEnd env s (.error e) s'
  | loaded {q t s1 s'} : Spec.Readied H here a sp spInEnd env s (.ok (q, t)) s1 → Spec.Source H load here q t s1 (.ok none) s' →
    Evaluation H load here arg0 iArg0 a sp spInEnd env s (.ok ()) s'
  | here {q t s1 u s2 x s'} : here = true → Spec.Readied H here a sp spInEnd env s (.ok (q, t)) s1 →
    Spec.Source H load here q t s1 (.ok (some u)) s2 → Evals H (.src u { env with q }) s2 x s' →
    Evaluation H load here arg0 iArg0 a sp spInEnd env s x.r s'
  | badArg0 {q t s1 u s2 e s'} : here = false → Spec.Readied H here a sp spInEnd env s (.ok (q, t)) s1 →
    Spec.Source H load here q t s1 (.ok (some u)) s2 → Spec.Arg0 H arg0 iArg0 env s2 (.error e) s' →
    Evaluation H load here arg0 iArg0 a sp spInEnd env s (.error e) s'
  | below {q t s1 u s2 w s3 x s'} : here = false → Spec.Readied H here a sp spInEnd env s (.ok (q, t)) s1 →
    Spec.Source H load here q t s1 (.ok (some u)) s2 → Spec.Arg0 H arg0 iArg0 env s2 (.ok w) s3 →
    Evals H (.src u { env with q }) (if w = [] then s3 else Spec.scoped q (fun c => { c with arg0 := w }) s3) x s' →
    Evaluation H load here arg0 iArg0 a sp spInEnd env s x.r s'

/-! ## Proofs -/

theorem ev_held {α : Type} {p : Prog α} {s s' : St} {a : α} (h : Ev H (Evals H) p s a s') : s'.held = s.held := by
  obtain ⟨n, h⟩ := interp_of_ev h
  exact interp_held _ _ _ _ h

theorem evE_held {α : Type} {p : E α} {s s' : St} {r : Except Err α} (h : EvE H (Evals H) p s r s') : s'.held = s.held := ev_held h

section
variable {R : Call → St → Res → St → Prop}

theorem ev_mod {p : Prog Unit} {q : Nat} {f : Scope → Scope} {s : St}
    (hp : ∀ u s1, Ev H R p s u s1 ↔ s.modScope q f = (.ok u, s1)) {u : Unit} {s' : St} :
    Ev H R p s u s' ↔ s.held.contains (.scope q) = false ∧ s' = Spec.scoped q f s := by
  rw [hp]
  unfold St.modScope
  cases hh : s.held.contains (.scope q) with
  | true =>
    rw [if_pos rfl]
    exact ⟨fun h => (by cases (Prod.mk.inj h).1), fun h => (by cases h.1)⟩
  | false =>
    rw [if_neg nofun]
    exact ⟨fun h => ⟨rfl, (Prod.mk.inj h).2.symm⟩, fun h => by rw [h.2]; rfl⟩

theorem evE_mod_bind {β : Type} {p : Prog Unit} {q : Nat} {f : Scope → Scope} {s : St}
    (hp : ∀ u s1, Ev H R p s u s1 ↔ s.modScope q f = (.ok u, s1)) {g : Unit → E β} {s' : St} {r : Except Err β} :
    EvE H R ((liftM p : E Unit) >>= g) s r s' ↔ s.held.contains (.scope q) = false ∧ EvE H R (g ()) (Spec.scoped q f s) r s' := by
  rw [evE_lift_bind]
  simp only [ev_mod hp]
  exact ⟨fun ⟨_, _, ⟨h1, h2⟩, h3⟩ => ⟨h1, h2 ▸ h3⟩, fun h => ⟨(), _, ⟨h.1, rfl⟩, h.2⟩⟩

theorem evE_addDun_bind {β : Type} {ret : Nat} {f : Unit → E β} {s s' : St} {r : Except Err β} :
    EvE H R ((liftM (addDun ret) : E Unit) >>= f) s r s' ↔ EvE H R (f ()) (s.push ret Spec.sep) r s' := by
  rw [evE_lift_bind]
  simp only [ev_addDun]
  exact ⟨fun ⟨_, _, h, h'⟩ => h ▸ h', fun h => ⟨(), _, rfl, h⟩⟩
end

theorem evE_under {q : Nat} {c : Call} {s s' : St} {r : Except Err Unit} :
    EvE H (Evals H) (callE [.scope q] c) s r s' ↔ Spec.Under H q c s r s' := by
  unfold callE Spec.Under
  rw [evE_lift_bind]
  constructor
  · rintro ⟨x, s1, h1, h2⟩
    obtain ⟨y, s2, h3, h4⟩ := ev_call.1 h1
    obtain ⟨rfl, rfl⟩ := ev_ret.1 h4
    obtain ⟨rfl, rfl⟩ := evE_mk.1 h2
    exact ⟨_, _, h3, rfl, rfl⟩
  · rintro ⟨x, s1, h1, rfl, rfl⟩
    exact ⟨x, _, ev_call.2 ⟨x, s1, h1, ev_ret.2 ⟨rfl, rfl⟩⟩, evE_mk.2 ⟨rfl, rfl⟩⟩

theorem Spec.Under.held {q : Nat} {c : Call} {s s' : St} {r : Except Err Unit} (h : Spec.Under H q c s r s') : s'.held = s.held := by
  obtain ⟨x, s1, _, _, rfl⟩ := h; rfl

/-! ### Files -/

theorem ev_open {f : Str} {keep : Bool} {q : Nat} {s s' : St} {b : Bool} :
    Ev H (Evals H) (openP f keep q) s b s' ↔
      (b = false ∧ H.open_ s.trace f = false ∧ s' = { s with trace := s.trace ++ [.open_ f] }) ∨
      (b = true ∧ H.open_ s.trace f = true ∧ s.held.contains (.scope q) = false ∧
        s' = Spec.scoped q (fun c => { c with src := if keep then f else c.src, srcIsFile := true }) { s with trace := s.trace ++ [.open_ f] }) := by
  unfold openP
  rw [ev_bind]
  have ho : ∀ {b s1}, Ev H (Evals H) (doOp (.open_ f)) s b s1 ↔ b = H.open_ s.trace f ∧ s1 = { s with trace := s.trace ++ [.open_ f] } := by
    intro b s1
    rw [ev_doOp]
    exact ⟨fun h => by cases h; exact ⟨rfl, rfl⟩, fun h => by rw [h.1, h.2]; rfl⟩
  have h1 : ∀ {u s1 s2}, Ev H (Evals H) (doOp (.setSrc q f)) s1 u s2 ↔ s1.held.contains (.scope q) = false ∧
      s2 = Spec.scoped q (fun c => { c with src := f }) s1 := ev_mod (fun _ _ => ev_doOp)
  have h2 : ∀ {u s1 s2}, Ev H (Evals H) (doOp (.setIsFile q)) s1 u s2 ↔ s1.held.contains (.scope q) = false ∧
      s2 = Spec.scoped q (fun c => { c with srcIsFile := true }) s1 := ev_mod (fun _ _ => ev_doOp)
  have up : ∀ (g : Nat → Scope) (c c' : Scope), upd (upd g q c) q c' = upd g q c' := by
    intro g c c'; funext x; unfold upd; split <;> rfl
  have at_ : ∀ (g : Nat → Scope) (c : Scope), upd g q c q = c := by intro g c; simp [upd]
  simp only [ho]
  constructor
  · rintro ⟨b1, s1, ⟨e1, rfl⟩, h⟩
    cases b1 with
    | false =>
      obtain ⟨rfl, rfl⟩ := ev_pure.1 h
      exact .inl ⟨rfl, e1.symm, rfl⟩
    | true =>
      cases keep with
      | true =>
        obtain ⟨u, s2, g1, g2⟩ := ev_bind.1 h
        obtain ⟨u', s3, g3, g4⟩ := ev_bind.1 g2
        obtain ⟨k1, rfl⟩ := h1.1 g1
        obtain ⟨k2, rfl⟩ := h2.1 g3
        obtain ⟨rfl, rfl⟩ := ev_pure.1 g4
        refine .inr ⟨rfl, e1.symm, k1, ?_⟩
        simp only [Spec.scoped, up, at_]
        rfl
      | false =>
        obtain ⟨u', s3, g3, g4⟩ := ev_bind.1 h
        obtain ⟨k2, rfl⟩ := h2.1 g3
        obtain ⟨rfl, rfl⟩ := ev_pure.1 g4
        exact .inr ⟨rfl, e1.symm, k2, rfl⟩
  · rintro (⟨rfl, e1, rfl⟩ | ⟨rfl, e1, k, rfl⟩)
    · exact ⟨false, _, ⟨e1.symm, rfl⟩, ev_pure.2 ⟨rfl, rfl⟩⟩
    · refine ⟨true, _, ⟨e1.symm, rfl⟩, ?_⟩
      cases keep with
      | true =>
        refine ev_bind.2 ⟨(), _, h1.2 ⟨k, rfl⟩, ev_bind.2 ⟨(), _, h2.2 ⟨k, rfl⟩, ev_pure.2 ⟨rfl, ?_⟩⟩⟩
        simp only [Spec.scoped, up, at_]
        rfl
      | false => exact ev_bind.2 ⟨(), _, h2.2 ⟨k, rfl⟩, ev_pure.2 ⟨rfl, rfl⟩⟩

/-- The answer of a search in order. -/
inductive Spec.Search (H : Host) (keep : Bool) (q : Nat) (fs : List Str) (s : St) : Bool → St → Prop where
  | found {f tr} : Spec.Tries H fs s.trace (some f) tr → s.held.contains (.scope q) = false →
    Search H keep q fs s true (Spec.scoped q (fun c => { c with src := if keep then f else c.src, srcIsFile := true }) { s with trace := tr })
  | none {tr} : Spec.Tries H fs s.trace none tr → Search H keep q fs s false { s with trace := tr }

theorem search_cons {keep : Bool} {q : Nat} {f : Str} {fs : List Str} {s s' : St} {b : Bool} :
    Spec.Search H keep q (f :: fs) s b s' ↔ ∃ b1 s1, Ev H (Evals H) (openP f keep q) s b1 s1 ∧
      if b1 then b = true ∧ s' = s1 else Spec.Search H keep q fs s1 b s' := by
  constructor
  · intro h
    cases h with
    | found ht hh =>
      cases ht with
      | hit ho => exact ⟨true, _, ev_open.2 (.inr ⟨rfl, ho, hh, rfl⟩), rfl, rfl⟩
      | miss ho ht =>
        refine ⟨false, _, ev_open.2 (.inl ⟨rfl, ho, rfl⟩), ?_⟩
        exact .found (s := { s with trace := s.trace ++ [.open_ f] }) ht hh
    | none ht =>
      cases ht with
      | miss ho ht =>
        refine ⟨false, _, ev_open.2 (.inl ⟨rfl, ho, rfl⟩), ?_⟩
        exact .none (s := { s with trace := s.trace ++ [.open_ f] }) ht
  · rintro ⟨b1, s1, h1, h2⟩
    rcases ev_open.1 h1 with ⟨rfl, ho, rfl⟩ | ⟨rfl, ho, hh, rfl⟩
    · have h2 : Spec.Search H keep q fs { s with trace := s.trace ++ [.open_ f] } b s' := h2
      cases h2 with
      | found ht hh => exact .found (s := s) (.miss ho ht) hh
      | none ht => exact .none (s := s) (.miss ho ht)
    · obtain ⟨rfl, rfl⟩ : b = true ∧ s' = _ := h2
      exact .found (.hit ho) hh

theorem search_one {keep : Bool} {q : Nat} {f : Str} {s s' : St} {b : Bool} :
    Spec.Search H keep q [f] s b s' ↔ Ev H (Evals H) (openP f keep q) s b s' := by
  rw [search_cons]
  constructor
  · rintro ⟨b1, s1, h1, h2⟩
    cases b1 with
    | true => obtain ⟨rfl, rfl⟩ : b = true ∧ s' = s1 := h2; exact h1
    | false =>
      have h2 : Spec.Search H keep q [] s1 b s' := h2
      cases h2 with
      | found ht => cases ht
      | none ht => cases ht; exact h1
  · intro h
    refine ⟨b, s', h, ?_⟩
    cases b with
    | true => exact ⟨rfl, rfl⟩
    | false => exact .none .none

theorem ev_openFirst {name : Str} {keep : Bool} {q : Nat} {f : Str} {ps : List Str} {s s' : St} {b : Bool} :
    Ev H (Evals H) (openFirst name keep q ps >>= fun b => if b then pure true else openP f keep q) s b s' ↔
      Spec.Search H keep q (ps.filterMap (fun p => H.fileName p name) ++ [f]) s b s' := by
  induction ps generalizing s with
  | nil =>
    rw [List.filterMap_nil, List.nil_append, search_one, openFirst, ev_bind]
    constructor
    · rintro ⟨b1, s1, h1, h2⟩
      obtain ⟨rfl, rfl⟩ := ev_pure.1 h1
      exact h2
    · intro h; exact ⟨false, s, ev_pure.2 ⟨rfl, rfl⟩, h⟩
  | cons p ps ih =>
    have hn : ∀ {o s1}, Ev H (Evals H) (doOp (.fileName p name)) s o s1 ↔ o = H.fileName p name ∧ s1 = s := by
      intro o s1
      rw [ev_doOp]
      exact ⟨fun h => by cases h; exact ⟨rfl, rfl⟩, fun h => by rw [h.1, h.2]; rfl⟩
    rw [openFirst, ev_bind]
    simp only [ev_bind (p := doOp (.fileName p name)), hn]
    cases hf : H.fileName p name with
    | none =>
      rw [List.filterMap_cons_none (f := fun p => H.fileName p name) hf, ← ih, ev_bind]
      constructor
      · rintro ⟨b1, s1, ⟨o, s2, ⟨rfl, rfl⟩, h1⟩, h2⟩; exact ⟨b1, s1, h1, h2⟩
      · rintro ⟨b1, s1, h1, h2⟩; exact ⟨b1, s1, ⟨_, _, ⟨rfl, rfl⟩, h1⟩, h2⟩
    | some g =>
      rw [List.filterMap_cons_some (f := fun p => H.fileName p name) hf, List.cons_append, search_cons]
      constructor
      · rintro ⟨b1, s1, ⟨o, s2, ⟨rfl, rfl⟩, h1⟩, h2⟩
        obtain ⟨b3, s3, h3, h4⟩ := ev_bind.1 h1
        refine ⟨b3, s3, h3, ?_⟩
        cases b3 with
        | true =>
          obtain ⟨rfl, rfl⟩ := ev_pure.1 h4
          exact ev_pure.1 h2
        | false => exact ih.1 (ev_bind.2 ⟨b1, s1, h4, h2⟩)
      · rintro ⟨b3, s3, h3, h4⟩
        cases b3 with
        | true =>
          obtain ⟨rfl, rfl⟩ : b = true ∧ s' = s3 := h4
          exact ⟨true, s', ⟨_, _, ⟨rfl, rfl⟩, ev_bind.2 ⟨true, s', h3, ev_pure.2 ⟨rfl, rfl⟩⟩⟩, ev_pure.2 ⟨rfl, rfl⟩⟩
        | false =>
          have h4 := ih.2 h4
          obtain ⟨b1, s1, h5, h6⟩ := ev_bind.1 h4
          exact ⟨b1, s1, ⟨_, _, ⟨rfl, rfl⟩, ev_bind.2 ⟨false, s3, h3, h5⟩⟩, h6⟩

theorem srcPlaces_eq (s : St) (q : Nat) : srcPlaces s q =
    s.path ++ ((chain s.scopes q).tail.filter fun p => (s.scopes p).srcIsFile).map fun p => (s.scopes p).src := by
  unfold srcPlaces visits
  simp only [if_true, List.nil_append, Bool.false_eq_true, if_false, List.append_nil]
  congr 1
  induction (chain s.scopes q).tail with
  | nil => rfl
  | cons p ps ih =>
    rw [List.map_cons, List.filterMap_cons, List.filter_cons]
    cases (s.scopes p).srcIsFile with
    | true => simp [ih]
    | false => simp [ih]

/-- How a file is found. -/
theorem ev_lookup {name : Str} {keep : Bool} {q : Nat} {s s' : St} :
    (∃ b, Ev H (Evals H) (okSrcP name keep q) s b s') ↔ Spec.Lookup H name keep q s s' := by
  have key : ∀ b, Ev H (Evals H) (okSrcP name keep q) s b s' ↔ Spec.Search H keep q (Spec.candidates H s q name) s b s' := by
    intro b
    cases name with
    | nil =>
      rw [okSrcP, ev_pure, show Spec.candidates H s q [] = [] from rfl]
      constructor
      · rintro ⟨rfl, rfl⟩; exact .none .none
      · intro h
        cases h with
        | found ht => cases ht
        | none ht => cases ht; exact ⟨rfl, rfl⟩
    | cons c t =>
      by_cases hc : c = '/'
      · subst hc
        rw [okSrcP, if_pos rfl, show Spec.candidates H s q ('/' :: t) = ['/' :: t] from rfl, search_one]
      · have : Spec.candidates H s q (c :: t) = (srcPlaces s q).filterMap (fun p => H.fileName p (c :: t)) ++ [c :: t] := by
          rw [srcPlaces_eq]
          unfold Spec.candidates
          split
          · rename_i h; cases h
          · rename_i h; cases h; exact absurd rfl hc
          · rfl
        rw [okSrcP, if_neg hc, this, ← ev_openFirst, ev_bind]
        constructor
        · rintro ⟨s1, s2, h1, h2⟩
          obtain ⟨e1, e2⟩ := ev_getSt.1 h1
          rw [e1, e2] at h2
          exact h2
        · intro h; exact ⟨s, s, ev_getSt.2 ⟨rfl, rfl⟩, h⟩
  simp only [key]
  constructor
  · rintro ⟨b, h⟩
    cases h with
    | found ht hh => exact .found ht hh
    | none ht => exact .none ht
  · intro h
    cases h with
    | found ht hh => exact ⟨true, .found ht hh⟩
    | none ht => exact ⟨false, .none ht⟩

theorem hashed_split {t : Str} (h : Spec.Hashed t) : ∃ line body, t = c!"#!" ++ line ++ '\n' :: body ∧ '\n' ∉ line := by
  obtain ⟨⟨u, rfl⟩, h2⟩ := h
  have h3 : '\n' ∈ u := by
    rcases List.mem_append.1 h2 with h | h
    · exact absurd h (by decide)
    · exact h
  obtain ⟨line, body, rfl, h4⟩ := List.eq_append_cons_of_mem h3
  exact ⟨line, body, by simp, h4⟩

theorem ev_fileText {f : Str} {q : Nat} {s s' : St} {r : Except Err Str} :
    EvE H (Evals H) (src2P f q) s r s' ↔ Spec.FileText H f q s r s' := by
  have ho : ∀ y, H.read s.trace f = y → (Op.read f).run H s = (.ok y, { s with trace := s.trace ++ [.read f] }) := by
    intro y h; subst h; rfl
  cases hr : H.read s.trace f with
  | error e =>
    unfold src2P
    rw [evE_op_bind (ho _ hr)]
    refine evE_fail.trans ⟨fun h => by rw [h.1, h.2]; exact .error hr, fun h => ?_⟩
    cases h with
    | error h => rw [hr] at h; cases h; exact ⟨rfl, rfl⟩
    | plain h => rw [hr] at h; cases h
    | options h => rw [hr] at h; cases h
    | badOptions h => rw [hr] at h; cases h
  | ok t =>
    by_cases hh : Spec.Hashed t
    · obtain ⟨line, body, rfl, hn⟩ := hashed_split hh
      have h0 : (List.isPrefixOf c!"#!" (c!"#!" ++ line ++ '\n' :: body) && (c!"#!" ++ line ++ '\n' :: body).contains '\n') = true := by
        rw [Bool.and_eq_true]
        exact ⟨List.isPrefixOf_iff_prefix.2 ⟨line ++ '\n' :: body, by simp⟩, by simp⟩
      have hw : ∀ {line : Str}, '\n' ∉ line → ∀ c ∈ (c!"#!" ++ line : Str), decide (c ≠ '\n') = true := by
        intro line hn c hc
        rcases List.mem_append.1 hc with hc | hc
        · have : ∀ c ∈ c!"#!", decide (c ≠ '\n') = true := by decide
          exact this c hc
        · simp only [decide_eq_true_eq]
          rintro rfl
          exact hn hc
      have h1 : ∀ {line body : Str}, '\n' ∉ line → ((c!"#!" ++ line ++ '\n' :: body).takeWhile (· ≠ '\n')).drop 2 = line := by
        intro line body hn
        rw [List.takeWhile_append_of_pos (hw hn)]
        have : ('\n' :: body).takeWhile (· ≠ '\n') = [] := by simp
        rw [this, List.append_nil]
        rfl
      have h2 : ∀ {line body : Str}, '\n' ∉ line → ((c!"#!" ++ line ++ '\n' :: body).dropWhile (· ≠ '\n')).drop 1 = body := by
        intro line body hn
        rw [List.dropWhile_append_of_pos (hw hn)]
        simp
      have uniq : ∀ {l b : Str}, '\n' ∉ l → c!"#!" ++ line ++ '\n' :: body = c!"#!" ++ l ++ '\n' :: b → l = line ∧ b = body := by
        intro l b hl he
        exact ⟨by rw [← h1 (line := l) (body := b) hl, ← he, h1 hn], by rw [← h2 (line := l) (body := b) hl, ← he, h2 hn]⟩
      unfold src2P
      rw [evE_op_bind (ho _ hr)]
      dsimp only
      rw [if_pos h0, h1 hn, h2 hn, evE_touch_bind, evE_bind]
      constructor
      · rintro ⟨k, ⟨u, s1, g1, g2⟩ | ⟨e, g1, rfl⟩⟩
        · obtain ⟨rfl, rfl⟩ := evE_pure.1 g2
          exact .options hr hn k g1
        · exact .badOptions hr hn k g1
      · intro h
        cases h with
        | error h => rw [hr] at h; cases h
        | plain h h' => rw [hr] at h; cases h; exact absurd hh h'
        | options h hl k g =>
          rw [hr] at h
          obtain ⟨rfl, rfl⟩ := uniq hl (Except.ok.inj h)
          exact ⟨k, .inl ⟨(), _, g, evE_pure.2 ⟨rfl, rfl⟩⟩⟩
        | badOptions h hl k g =>
          rw [hr] at h
          obtain ⟨rfl, rfl⟩ := uniq hl (Except.ok.inj h)
          exact ⟨k, .inr ⟨_, g, rfl⟩⟩
    · have h0 : (List.isPrefixOf c!"#!" t && t.contains '\n') = false := by
        cases e : (List.isPrefixOf c!"#!" t && t.contains '\n')
        · rfl
        · rw [Bool.and_eq_true] at e
          exact absurd ⟨List.isPrefixOf_iff_prefix.1 e.1, by simpa using e.2⟩ hh
      unfold src2P
      rw [evE_op_bind (ho _ hr)]
      dsimp only
      rw [if_neg (by rw [h0]; nofun)]
      refine evE_pure.trans ⟨fun h => by rw [h.1, h.2]; exact .plain hr hh, fun h => ?_⟩
      have no : ∀ {l b : Str}, t ≠ c!"#!" ++ l ++ '\n' :: b := by
        rintro l b rfl
        exact hh ⟨⟨l ++ '\n' :: b, by simp⟩, by simp⟩
      cases h with
      | error h => rw [hr] at h; cases h
      | plain h => rw [hr] at h; cases h; exact ⟨rfl, rfl⟩
      | options h => rw [hr] at h; exact absurd (Except.ok.inj h) no
      | badOptions h => rw [hr] at h; exact absurd (Except.ok.inj h) no

theorem ev_source {load here : Bool} {q : Nat} {t : Str} {s s' : St} {r : Except Err (Option Str)} :
    EvE H (Evals H) (if load then loadP t here q else pure (some t)) s r s' ↔ Spec.Source H load here q t s r s' := by
  cases load with
  | false =>
    refine evE_pure.trans ⟨fun h => by rw [h.1, h.2]; exact .text rfl, fun h => ?_⟩
    cases h with
    | text => exact ⟨rfl, rfl⟩
    | loaded h => cases h
    | file h => cases h
  | true =>
    rw [if_pos rfl, loadP, evE_lift_bind]
    have any : ∀ {s1 : St}, (s1.mods.any fun m => (s1.scopes m).src == (s1.scopes q).src) = true ↔
        ∃ m ∈ s1.mods, (s1.scopes m).src = (s1.scopes q).src := by
      intro s1; simp
    constructor
    · rintro ⟨b, s1, h1, h2⟩
      have hl := ev_lookup.1 ⟨b, h1⟩
      rw [evE_getSt_bind] at h2
      split at h2
      · next h =>
        obtain ⟨m, hm, he⟩ := any.1 h
        obtain ⟨rfl, rfl⟩ := evE_pure.1 h2
        exact .loaded rfl hl hm he
      · next h =>
        have hn : ∀ m ∈ s1.mods, (s1.scopes m).src ≠ (s1.scopes q).src := fun m hm he => h (any.2 ⟨m, hm, he⟩)
        rcases evE_bind.1 h2 with ⟨u, s2, g1, g2⟩ | ⟨e, g1, rfl⟩
        · obtain ⟨rfl, rfl⟩ := evE_pure.1 g2
          exact .file (r := .ok u) rfl hl hn (ev_fileText.1 g1)
        · exact .file (r := .error e) rfl hl hn (ev_fileText.1 g1)
    · intro h
      cases h with
      | text h => cases h
      | loaded _ hl hm he =>
        obtain ⟨b, h1⟩ := ev_lookup.2 hl
        refine ⟨b, _, h1, ?_⟩
        rw [evE_getSt_bind, if_pos (any.2 ⟨_, hm, he⟩)]
        exact evE_pure.2 ⟨rfl, rfl⟩
      | @file s1 r' _ _ hl hn hf =>
        obtain ⟨b, h1⟩ := ev_lookup.2 hl
        refine ⟨b, _, h1, ?_⟩
        rw [evE_getSt_bind, if_neg (fun h => by obtain ⟨m, hm, he⟩ := any.1 h; exact hn m hm he)]
        cases r' with
        | ok u => exact evE_bind.2 (.inl ⟨u, _, ev_fileText.2 hf, evE_pure.2 ⟨rfl, rfl⟩⟩)
        | error e => exact evE_bind.2 (.inr ⟨e, ev_fileText.2 hf, rfl⟩)

theorem ev_arg0 {arg0 : Str} {iArg0 : List Code} {env : Env} {s s' : St} {r : Except Err Str} :
    EvE H (Evals H) (evalArg0 arg0 iArg0 env) s r s' ↔ Spec.Arg0 H arg0 iArg0 env s r s' := by
  unfold evalArg0
  cases arg0 with
  | cons c t =>
    refine evE_pure.trans ⟨fun h => by rw [h.1, h.2]; exact .given nofun, fun h => ?_⟩
    cases h with
    | given => exact ⟨rfl, rfl⟩
    | none h => cases h
    | words h => cases h
  | nil =>
    by_cases hi : ∃ c, iArg0 = [.rem c]
    · obtain ⟨c, rfl⟩ := hi
      refine (evE_helloNew_bind (a := c) (env := env)).trans ?_
      constructor
      · rintro (⟨x, s1, h1, h2, h3⟩ | ⟨x, e, h1, h2, rfl⟩)
        · rw [evE_getList_bind] at h3
          obtain ⟨rfl, rfl⟩ := evE_pure.1 h3
          have := Spec.Arg0.words (arg0 := []) (iArg0 := [.rem c]) rfl rfl h1
          rwa [h2] at this
        · have := Spec.Arg0.words (arg0 := []) (iArg0 := [.rem c]) rfl rfl h1
          rwa [h2] at this
      · intro h
        cases h with
        | given h => exact absurd rfl h
        | none _ h => exact absurd rfl (h c)
        | @words c' x _ _ hc h =>
          cases hc
          cases hx : x.r with
          | ok u => exact .inl ⟨x, s', h, hx, evE_getList_bind.2 (evE_pure.2 ⟨rfl, rfl⟩)⟩
          | error e => exact .inr ⟨x, e, h, hx, rfl⟩
    · have hn : ∀ c, iArg0 ≠ [.rem c] := fun c h => hi ⟨c, h⟩
      rw [if_neg (by simp)]
      split
      · exact absurd ⟨_, rfl⟩ hi
      · refine evE_pure.trans ⟨fun h => by rw [h.1, h.2]; exact .none rfl hn, fun h => ?_⟩
        cases h with
        | given h => exact absurd rfl h
        | none => exact ⟨rfl, rfl⟩
        | words _ h => exact absurd h (hn _)

/-! ### The statement -/

theorem evE_under_bind {β : Type} {q : Nat} {c : Call} {f : Unit → E β} {s s' : St} {r : Except Err β} :
    EvE H (Evals H) (callE [.scope q] c >>= f) s r s' ↔
      (∃ s1, Spec.Under H q c s (.ok ()) s1 ∧ EvE H (Evals H) (f ()) s1 r s') ∨ ∃ e, Spec.Under H q c s (.error e) s' ∧ r = .error e := by
  rw [evE_bind]
  simp only [evE_under]
  exact ⟨fun h => h.imp (fun ⟨_, s1, h⟩ => ⟨s1, h⟩) id, fun h => h.imp (fun ⟨s1, h⟩ => ⟨(), s1, h⟩) id⟩

theorem evE_split2a_under_bind {β : Type} {q : Nat} {a : List Code} {sp : Nat} {env : Env} {f : Str × List Str → E β} {s s' : St} {r : Except Err β} :
    EvE H (Evals H) (split2a [.scope q] a sp env >>= f) s r s' ↔
      (∃ s1, Spec.Under H q (.codes a 0 sp { env with ret := s.nlist }) (Spec.fresh s) (.ok ()) s1 ∧
        EvE H (Evals H) (f ((s1.lists s.nlist).text, Spec.nameMarks s.nlist s1)) s1 r s') ∨
        ∃ e, Spec.Under H q (.codes a 0 sp { env with ret := s.nlist }) (Spec.fresh s) (.error e) s' ∧ r = .error e := by
  have key : ∀ {y : Except Err (Str × List Str)} {s1 : St}, EvE H (Evals H) (split2a [.scope q] a sp env) s y s1 ↔
      ∃ x, Spec.Under H q (.codes a 0 sp { env with ret := s.nlist }) (Spec.fresh s) x s1 ∧
        y = x.map fun _ => ((s1.lists s.nlist).text, Spec.nameMarks s.nlist s1) := by
    intro y s1
    rw [split2a, evE_newList_bind, evE_under_bind]
    constructor
    · rintro (⟨s2, h1, h3⟩ | ⟨e, h1, rfl⟩)
      · rw [evE_getSt_bind] at h3
        obtain ⟨rfl, rfl⟩ := evE_pure.1 h3
        exact ⟨_, h1, rfl⟩
      · exact ⟨_, h1, rfl⟩
    · rintro ⟨x, h1, rfl⟩
      cases x with
      | ok u => exact .inl ⟨s1, h1, evE_getSt_bind.2 (evE_pure.2 ⟨rfl, rfl⟩)⟩
      | error e => exact .inr ⟨e, h1, rfl⟩
  rw [evE_bind]
  simp only [key]
  constructor
  · rintro (⟨y, s1, ⟨x, h1, h2⟩, h3⟩ | ⟨e, ⟨x, h1, h2⟩, rfl⟩)
    · cases x with
      | ok u => cases h2; exact .inl ⟨s1, h1, h3⟩
      | error e => cases h2
    · cases x with
      | ok u => cases h2
      | error e' => cases h2; exact .inr ⟨e, h1, rfl⟩
  · rintro (⟨s1, h1, h3⟩ | ⟨e, h1, rfl⟩)
    · exact .inl ⟨_, s1, ⟨_, h1, rfl⟩, h3⟩
    · exact .inr ⟨e, ⟨_, h1, rfl⟩, rfl⟩

/-- The last part of the statement (`evalP`): the text is there. -/
def evalRun (load inCurQv : Bool) (arg0 : Str) (iArg0 : List Code) (env : Env) (q2 : Nat) (src : Str) : E Unit := do
    match ← (if load then loadP src inCurQv q2 else pure (some src) : E (Option Str)) with
    | none => return ()
    | some src2 =>
      if !inCurQv then
        let arg0 ← evalArg0 arg0 iArg0 env
        if !arg0.isEmpty then doOp (.setArg0 q2 arg0)
      callE [] (.src src2 { env with q := q2 })

/-- The middle part of the statement (`evalP`): the scope is there. -/
def evalReady (load inCurQv : Bool) (arg0 : Str) (iArg0 a : List Code) (sp : Nat) (spInEnd : Bool) (env : Env) (q2 args : Nat) : E Unit := do
  let (src, rems) ← split2a [.scope q2] a sp { env with ret := args }
  match rems with
  | r :: _ => fail (errNoRem2 r)
  | [] =>
    split2b [.scope q2] a sp { env with ret := args }
    let l ← getList args
    if l.a.isEmpty && spInEnd then addT args []
    if !inCurQv then doOp (.setSrc q2 src)
    evalRun load inCurQv arg0 iArg0 env q2 src

theorem evalP_eq (load inCurQv : Bool) (arg0 : Str) (iArg0 a : List Code) (sp : Nat) (spInEnd : Bool) (env : Env) :
    evalP load inCurQv arg0 iArg0 a sp spInEnd env = (do
      let q2 ← (if inCurQv then pure env.q else doOp (.newScope [] none env.q) : Prog Nat)
      doOp (.clearArgs1 q2)
      let s ← (getSt : Prog St)
      let args := (s.scopes q2).args
      if inCurQv && !(s.lists args).a.isEmpty && decide (a.length > 1) then addDun args
      evalReady load inCurQv arg0 iArg0 a sp spInEnd env q2 args) := rfl

theorem Spec.RunIn.held {here : Bool} {a : List Code} {env : Env} {s s1 : St} {q : Nat} (h : Spec.RunIn here a env s q s1) :
    s1.held = s.held ∧ s.held.contains (.scope q) = false := by
  cases h with
  | new _ h => exact ⟨rfl, h⟩
  | here _ h => exact ⟨rfl, h⟩
  | more _ h => exact ⟨rfl, h⟩

theorem Spec.RunIn.unique {here : Bool} {a : List Code} {env : Env} {s s1 s2 : St} {q q' : Nat} (h : Spec.RunIn here a env s q s1)
    (h' : Spec.RunIn here a env s q' s2) : q = q' ∧ s1 = s2 := by
  cases h with
  | new e _ => cases h' with
    | new => exact ⟨rfl, rfl⟩
    | here e' => rw [e] at e'; cases e'
    | more e' => rw [e] at e'; cases e'
  | here e _ k => cases h' with
    | new e' => rw [e] at e'; cases e'
    | here e' => exact ⟨rfl, rfl⟩
    | more e' _ k1 k2 => rcases k with k | k; exact absurd k k1; omega
  | more e _ k1 k2 => cases h' with
    | new e' => rw [e] at e'; cases e'
    | here e' _ k => rcases k with k | k; exact absurd k k1; omega
    | more e' => exact ⟨rfl, rfl⟩

theorem ev_runIn {load here : Bool} {arg0 : Str} {iArg0 a : List Code} {sp : Nat} {spInEnd : Bool} {env : Env} {s s' : St} {r : Except Err Unit} :
    EvE H (Evals H) (evalP load here arg0 iArg0 a sp spInEnd env) s r s' ↔
      ∃ q s1, Spec.RunIn here a env s q s1 ∧
        EvE H (Evals H) (evalReady load here arg0 iArg0 a sp spInEnd env q (s1.scopes q).args) s1 r s' := by
  have clr : ∀ {q : Nat} {s s' : St} {f : Unit → E Unit}, EvE H (Evals H) ((liftM (doOp (.clearArgs1 q)) : E Unit) >>= f) s r s' ↔
      s.held.contains (.scope q) = false ∧ EvE H (Evals H) (f ()) (Spec.scoped q Spec.forget s) r s' :=
    evE_mod_bind (fun _ _ => ev_doOp)
  have at_ : ∀ (g : Nat → Scope) (q : Nat) (c : Scope), upd g q c q = c := by intro g q c; simp [upd]
  rw [evalP_eq]
  cases here with
  | false =>
    rw [if_neg nofun, evE_op_bind (a := s.nscope) (s1 := Spec.below env.q s) rfl, clr, evE_getSt_bind]
    have e1 : Spec.scoped s.nscope Spec.forget (Spec.below env.q s) = Spec.below env.q s := by
      have up : ∀ (g : Nat → Scope) (q : Nat) (c c' : Scope), upd (upd g q c) q c' = upd g q c' := by
        intro g q c c'; funext x; unfold upd; split <;> rfl
      simp only [Spec.scoped, Spec.below, up, at_]
      rfl
    rw [e1]
    simp only [Bool.false_and, Bool.false_eq_true, if_false]
    exact ⟨fun h => ⟨_, _, .new rfl h.1, h.2⟩, fun ⟨q, s1, h1, h2⟩ => by
      cases h1 with
      | new _ h => exact ⟨h, h2⟩
      | here h => cases h
      | more h => cases h⟩
  | true =>
    rw [if_pos rfl, evE_lift_bind]
    have e0 : ((Spec.scoped env.q Spec.forget s).scopes env.q).args = (s.scopes env.q).args := by
      simp only [Spec.scoped, at_]; rfl
    have main : EvE H (Evals H) (do
        doOp (.clearArgs1 env.q)
        let s ← (getSt : Prog St)
        let args := (s.scopes env.q).args
        if true && !(s.lists args).a.isEmpty && decide (a.length > 1) then addDun args
        evalReady load true arg0 iArg0 a sp spInEnd env env.q args) s r s' ↔
      ∃ q s1, Spec.RunIn true a env s q s1 ∧
        EvE H (Evals H) (evalReady load true arg0 iArg0 a sp spInEnd env q (s1.scopes q).args) s1 r s' := by
      rw [clr, evE_getSt_bind]
      dsimp only
      rw [e0]
      have e2 : (Spec.scoped env.q Spec.forget s).lists = s.lists := rfl
      have e3 : (((Spec.scoped env.q Spec.forget s).push (s.scopes env.q).args Spec.sep).scopes env.q).args = (s.scopes env.q).args := e0
      rw [e2]
      by_cases hc : (s.lists (s.scopes env.q).args).a ≠ [] ∧ 1 < a.length
      · rw [if_pos (by simp [hc.1, hc.2]), evE_addDun_bind]
        constructor
        · intro h
          exact ⟨_, _, .more rfl h.1 hc.1 hc.2, by rw [e3]; exact h.2⟩
        · rintro ⟨q, s1, h1, h2⟩
          cases h1 with
          | new h => cases h
          | here _ _ h => rcases h with h | h; exact absurd h hc.1; omega
          | more _ h => exact ⟨h, by rw [e3] at h2; exact h2⟩
      · have hc' : (s.lists (s.scopes env.q).args).a = [] ∨ a.length ≤ 1 := by
          by_cases h : (s.lists (s.scopes env.q).args).a = []
          · exact .inl h
          · exact .inr (Nat.le_of_not_lt fun h' => hc ⟨h, h'⟩)
        rw [if_neg (by
          simp only [Bool.true_and, Bool.and_eq_true, Bool.not_eq_true', List.isEmpty_eq_false_iff, decide_eq_true_eq]
          exact hc)]
        constructor
        · intro h
          exact ⟨_, _, .here rfl h.1 hc', by rw [e0]; exact h.2⟩
        · rintro ⟨q, s1, h1, h2⟩
          cases h1 with
          | new h => cases h
          | here _ h => exact ⟨h, by rw [e0] at h2; exact h2⟩
          | more _ _ k1 k2 => exact absurd ⟨k1, k2⟩ hc
    rw [← main]
    constructor
    · rintro ⟨q, s1, h1, h2⟩
      obtain ⟨rfl, rfl⟩ := ev_pure.1 h1
      exact h2
    · intro h
      exact ⟨_, _, ev_pure.2 ⟨rfl, rfl⟩, h⟩

theorem ev_ready {load here : Bool} {arg0 : Str} {iArg0 a : List Code} {sp : Nat} {spInEnd : Bool} {env : Env} {s s' : St} {r : Except Err Unit} :
    EvE H (Evals H) (evalP load here arg0 iArg0 a sp spInEnd env) s r s' ↔
      (∃ e, r = .error e ∧ Spec.Readied H here a sp spInEnd env s (.error e) s') ∨
      ∃ q t s1, Spec.Readied H here a sp spInEnd env s (.ok (q, t)) s1 ∧ s1.held.contains (.scope q) = false ∧
        EvE H (Evals H) (evalRun load here arg0 iArg0 env q t) s1 r s' := by
  have set : ∀ {q : Nat} {t : Str} {s s' : St} {f : Unit → E Unit}, EvE H (Evals H) ((liftM (doOp (.setSrc q t)) : E Unit) >>= f) s r s' ↔
      s.held.contains (.scope q) = false ∧ EvE H (Evals H) (f ()) (Spec.scoped q (fun c => { c with src := t }) s) r s' :=
    evE_mod_bind (fun _ _ => ev_doOp)
  rw [ev_runIn]
  /- the last steps: an empty argument, the source -/
  have fin : ∀ {q args : Nat} {t : Str} {s3 : St}, s3.held.contains (.scope q) = false →
      (EvE H (Evals H) (do
        let l ← getList args
        if l.a.isEmpty && spInEnd then addT args []
        if !here then doOp (.setSrc q t)
        evalRun load here arg0 iArg0 env q t) s3 r s' ↔
      EvE H (Evals H) (evalRun load here arg0 iArg0 env q t)
        (if here then (if (s3.lists args).a = [] ∧ spInEnd = true then s3.push args (.s []) else s3)
          else Spec.scoped q (fun c => { c with src := t }) (if (s3.lists args).a = [] ∧ spInEnd = true then s3.push args (.s []) else s3)) r s') := by
    intro q args t s3 hq
    rw [evE_getList_bind]
    by_cases hc : (s3.lists args).a = [] ∧ spInEnd = true
    · rw [if_pos (by simp [hc.1, hc.2]), evE_addT_bind]
      cases here with
      | true => simp only [Bool.not_true, Bool.false_eq_true, if_false, if_true, if_pos hc]
      | false =>
        rw [if_pos (by rfl), set]
        simp only [Bool.false_eq_true, if_false, if_pos hc]
        exact ⟨fun h => h.2, fun h => ⟨hq, h⟩⟩
    · rw [if_neg (by simpa using hc)]
      cases here with
      | true => simp only [Bool.not_true, Bool.false_eq_true, if_false, if_true, if_neg hc]
      | false =>
        rw [if_pos (by rfl), set]
        simp only [Bool.false_eq_true, if_false, if_neg hc]
        exact ⟨fun h => h.2, fun h => ⟨hq, h⟩⟩
  have held : ∀ {q args : Nat} {t : Str} {s3 : St},
      (if here then (if (s3.lists args).a = [] ∧ spInEnd = true then s3.push args (.s []) else s3)
          else Spec.scoped q (fun c => { c with src := t }) (if (s3.lists args).a = [] ∧ spInEnd = true then s3.push args (.s []) else s3)).held
        = s3.held := by
    intro q args t s3
    cases here <;> dsimp only [Spec.scoped] <;> repeat' split
    all_goals rfl
  constructor
  · rintro ⟨q, s1, hr, h⟩
    unfold evalReady at h
    rcases evE_split2a_under_bind.1 h with ⟨s2, g1, g2⟩ | ⟨e, g1, rfl⟩
    · dsimp only at g2
      cases hm : Spec.nameMarks s1.nlist s2 with
      | cons m ms =>
        rw [hm] at g2
        obtain ⟨rfl, rfl⟩ := evE_fail.1 g2
        exact .inl ⟨_, rfl, .note hr g1 hm⟩
      | nil =>
        rw [hm] at g2
        rcases evE_under_bind.1 g2 with ⟨s3, g3, g4⟩ | ⟨e, g3, rfl⟩
        · have hq : s3.held.contains (.scope q) = false := by
            rw [g3.held, g1.held]; show s1.held.contains _ = _
            rw [hr.held.1]; exact hr.held.2
          exact .inr ⟨q, _, _, .ready hr g1 hm rfl g3 rfl rfl, by rw [held]; exact hq, (fin hq).1 g4⟩
        · exact .inl ⟨e, rfl, .badArgs hr g1 hm g3⟩
    · exact .inl ⟨e, rfl, .badText hr g1⟩
  · rintro (⟨e, rfl, h⟩ | ⟨q, t, s1, h, hq, h'⟩)
    · cases h with
      | badText hr g1 => exact ⟨_, _, hr, evE_split2a_under_bind.2 (.inr ⟨_, g1, rfl⟩)⟩
      | note hr g1 hm =>
        refine ⟨_, _, hr, evE_split2a_under_bind.2 (.inl ⟨_, g1, ?_⟩)⟩
        rw [hm]
        exact evE_fail.2 ⟨rfl, rfl⟩
      | badArgs hr g1 hm g3 =>
        refine ⟨_, _, hr, evE_split2a_under_bind.2 (.inl ⟨_, g1, ?_⟩)⟩
        rw [hm]
        exact evE_under_bind.2 (.inr ⟨_, g3, rfl⟩)
    · cases h with
      | ready hr g1 hm ht g3 e4 e5 =>
        subst e5 e4 ht
        refine ⟨_, _, hr, evE_split2a_under_bind.2 (.inl ⟨_, g1, ?_⟩)⟩
        rw [hm]
        refine evE_under_bind.2 (.inl ⟨_, g3, ?_⟩)
        refine (fin ?_).2 h'
        rw [held] at hq
        exact hq

theorem Spec.Source.held {load here : Bool} {q : Nat} {t : Str} {s s' : St} {r : Except Err (Option Str)}
    (h : Spec.Source H load here q t s r s') : s'.held = s.held := evE_held (ev_source.2 h)

/-- **C65.**  The statements `解释` and `加载` do what `Spec.Evaluation` says. -/
theorem C65_nested {load here : Bool} {arg0 : Str} {iArg0 a : List Code} {sp : Nat} {spInEnd : Bool} {env : Env} {s s' : St} {r : Except Err Unit} :
    EvE H (Evals H) (evalP load here arg0 iArg0 a sp spInEnd env) s r s' ↔ Spec.Evaluation H load here arg0 iArg0 a sp spInEnd env s r s' := by
  have set : ∀ {q : Nat} {t : Str} {s s' : St} {f : Unit → E Unit}, EvE H (Evals H) ((liftM (doOp (.setArg0 q t)) : E Unit) >>= f) s r s' ↔
      s.held.contains (.scope q) = false ∧ EvE H (Evals H) (f ()) (Spec.scoped q (fun c => { c with arg0 := t }) s) r s' :=
    evE_mod_bind (fun _ _ => ev_doOp)
  have call : ∀ {c : Call} {s s' : St} {r : Except Err Unit}, EvE H (Evals H) (callE [] c) s r s' ↔ ∃ x, Evals H c s x s' ∧ x.r = r := by
    intro c s s' r
    exact evE_callE
  have fin : ∀ {q : Nat} {u w : Str} {s3 : St}, s3.held.contains (.scope q) = false →
      (EvE H (Evals H) (do
        if !w.isEmpty then doOp (.setArg0 q w)
        callE [] (.src u { env with q := q })) s3 r s' ↔
      ∃ x, Evals H (.src u { env with q := q }) (if w = [] then s3 else Spec.scoped q (fun c => { c with arg0 := w }) s3) x s' ∧ x.r = r) := by
    intro q u w s3 hq
    cases w with
    | nil => rw [if_neg (by simp), if_pos rfl]; exact call
    | cons c w =>
      rw [if_pos (by rfl), if_neg nofun, set, call]
      exact ⟨fun h => h.2, fun h => ⟨hq, h⟩⟩
  rw [ev_ready]
  constructor
  · rintro (⟨e, rfl, h⟩ | ⟨q, t, s1, h, hq, h'⟩)
    · exact .notGiven h
    · unfold evalRun at h'
      rcases evE_bind.1 h' with ⟨o, s2, g1, g2⟩ | ⟨e, g1, rfl⟩
      · rw [ev_source] at g1
        cases o with
        | none =>
          obtain ⟨rfl, rfl⟩ := evE_pure.1 g2
          exact .loaded h g1
        | some u =>
          cases here with
          | true =>
            obtain ⟨x, k1, rfl⟩ := call.1 g2
            exact .here rfl h g1 k1
          | false =>
            rcases evE_bind.1 g2 with ⟨w, s3, k1, k2⟩ | ⟨e, k1, rfl⟩
            · have hq3 : s3.held.contains (.scope q) = false := by rw [evE_held k1, g1.held]; exact hq
              obtain ⟨x, k3, rfl⟩ := (fin hq3).1 k2
              exact .below rfl h g1 (ev_arg0.1 k1) k3
            · exact .badArg0 rfl h g1 (ev_arg0.1 k1)
      · exact .noText h (ev_source.1 g1)
  · have key : ∀ {q t s1}, Spec.Readied H here a sp spInEnd env s (.ok (q, t)) s1 → s1.held.contains (.scope q) = false := by
      intro q t s1 h
      cases h with
      | ready hr g1 hm ht g3 e4 e5 =>
        have : s1.held = s.held := by
          subst e5 e4
          have e3 := g3.held
          rw [g1.held] at e3
          have e3 := e3.trans (show _ = s.held from hr.held.1)
          cases here <;> dsimp only [Spec.scoped] <;> repeat' split
          all_goals exact e3
        rw [this]; exact hr.held.2
    intro h
    cases h with
    | notGiven h => exact .inl ⟨_, rfl, h⟩
    | noText h h' => exact .inr ⟨_, _, _, h, key h, evE_bind.2 (.inr ⟨_, ev_source.2 h', rfl⟩)⟩
    | loaded h h' => exact .inr ⟨_, _, _, h, key h, evE_bind.2 (.inl ⟨_, _, ev_source.2 h', evE_pure.2 ⟨rfl, rfl⟩⟩)⟩
    | here e h h' h3 =>
      subst e
      exact .inr ⟨_, _, _, h, key h, evE_bind.2 (.inl ⟨_, _, ev_source.2 h', call.2 ⟨_, h3, rfl⟩⟩)⟩
    | badArg0 e h h' h3 =>
      subst e
      exact .inr ⟨_, _, _, h, key h, evE_bind.2 (.inl ⟨_, _, ev_source.2 h', evE_bind.2 (.inr ⟨_, ev_arg0.2 h3, rfl⟩)⟩)⟩
    | below e h h' h3 h4 =>
      subst e
      refine .inr ⟨_, _, _, h, key h, evE_bind.2 (.inl ⟨_, _, ev_source.2 h', evE_bind.2 (.inl ⟨_, _, ev_arg0.2 h3, (fin ?_).2 ⟨_, h4, rfl⟩⟩)⟩)⟩
      rw [evE_held (ev_arg0.2 h3), h'.held]; exact key h

/-- **C65.**  The same for the evaluation of the statement. -/
theorem C65_statement {load here : Bool} {arg0 : Str} {iArg0 a : List Code} {sp : Nat} {spInEnd : Bool} {env : Env} {s s' : St} {r : Res} :
    Evals H (.item (.eval load here arg0 iArg0 a sp spInEnd) env) s r s' ↔
      Spec.Evaluation H load here arg0 iArg0 a sp spInEnd env s r.r s' ∧ r = { r := r.r } := by
  rw [evals_item]
  constructor
  · rintro ⟨x, h, rfl⟩
    exact ⟨C65_nested.1 h, rfl⟩
  · rintro ⟨h, e⟩
    exact ⟨r.r, C65_nested.2 h, e⟩

/-! ## A text without arguments -/

/-- `s1` is the state `s` with a new scope for the source `t` below `q`; its arguments are an empty list; nothing that was there
before is changed. -/
structure Spec.Entered (q : Nat) (t : Str) (s s1 : St) : Prop where
  scopes : s1.scopes = upd s.scopes s.nscope (Scope.new [] t [] none (some (q, (s.scopes q).i)) s.nlist)
  args : s1.lists s.nlist = .empty
  lists : ∀ l < s.nlist, s1.lists l = s.lists l
  items : ∀ i < s.nitem, s1.items i = s.items i
  rest : { s1 with scopes := s.scopes, nscope := s.nscope, lists := s.lists, nlist := s.nlist, items := s.items, nitem := s.nitem } = s

theorem codes_lit {t : Str} {e : Nat} {env : Env} {s s' : St} {r : Except Err Unit} (he : 0 < e) :
    (∃ x, Evals H (.codes [.text t] 0 e env) s x s' ∧ x.r = r) ↔ r = .ok () ∧ s' = s.push env.ret (.s t) := by
  have hi : Evals H (.item (.text t) env) s { r := .ok () } (s.push env.ret (.s t)) :=
    evals_item.2 ⟨_, evE_lift.2 ⟨(), rfl, ev_addT.2 rfl⟩, rfl⟩
  have hm : min e [Code.text t].length = 1 := by show min e 1 = 1; omega
  have hs : Spec.InOrder H [.text t] (min e [Code.text t].length) env 0 s (.ok ()) (s.push env.ret (.s t)) := by
    rw [hm]
    exact .next (by omega) (.ok ⟨rfl, nofun, nofun, nofun⟩ hi) (.done (.all (Nat.le_refl 1)))
  obtain ⟨x, h1, h2⟩ := C22_in_order_conv hs
  have h2 : x.r = .ok () := h2
  constructor
  · rintro ⟨y, h3, rfl⟩
    obtain ⟨rfl, rfl⟩ := Evals.unique h1 h3
    exact ⟨h2, rfl⟩
  · rintro ⟨rfl, rfl⟩
    exact ⟨x, h1, h2⟩

theorem codes_beyond {a : List Code} {i e : Nat} {env : Env} {s s' : St} {r : Except Err Unit} (hi : a.length ≤ i) :
    (∃ x, Evals H (.codes a i e env) s x s' ∧ x.r = r) ↔ r = .ok () ∧ s' = s := by
  have hs : Spec.InOrder H a (min e a.length) env i s (.ok ()) s := .done (.all (by omega))
  obtain ⟨x, h1, h2⟩ := C22_in_order_conv hs
  have h2 : x.r = .ok () := h2
  constructor
  · rintro ⟨y, h3, rfl⟩
    obtain ⟨rfl, rfl⟩ := Evals.unique h1 h3
    exact ⟨h2, rfl⟩
  · rintro ⟨rfl, rfl⟩
    exact ⟨x, h1, h2⟩

theorem under_iff {q : Nat} {c : Call} {s s' : St} {r r' : Except Err Unit} {s1 : St}
    (h : ∀ {r s'}, (∃ x, Evals H c (s.hold [.scope q]) x s' ∧ x.r = r) ↔ r = r' ∧ s' = s1) :
    Spec.Under H q c s r s' ↔ r = r' ∧ s' = { s1 with held := s.held } := by
  unfold Spec.Under
  constructor
  · rintro ⟨x, s2, h1, rfl, rfl⟩
    obtain ⟨h3, rfl⟩ := h.1 ⟨x, h1, rfl⟩
    exact ⟨h3, rfl⟩
  · rintro ⟨rfl, rfl⟩
    obtain ⟨x, h1, h2⟩ := h.2 ⟨rfl, rfl⟩
    exact ⟨x, _, h1, h2, rfl⟩

/-- The state in which the text of `解释“t”` runs. -/
def enterText (q : Nat) (t : Str) (s : St) : St :=
  Spec.scoped s.nscope (fun c => { c with src := t }) ((Spec.fresh (Spec.below q s)).push (s.nlist + 1) (.s t))

theorem readied_lit {t : Str} {sp : Nat} {env : Env} {s s' : St} {r : Except Err (Nat × Str)} (hsp : 0 < sp)
    (hh : s.held.contains (.scope s.nscope) = false) :
    Spec.Readied H false [.text t] sp false env s r s' ↔ r = .ok (s.nscope, t) ∧ s' = enterText env.q t s := by
  have u1 : ∀ {r s'}, Spec.Under H s.nscope (.codes [.text t] 0 sp { env with ret := (Spec.below env.q s).nlist }) (Spec.fresh (Spec.below env.q s)) r s' ↔
      r = .ok () ∧ s' = (Spec.fresh (Spec.below env.q s)).push (s.nlist + 1) (.s t) := by
    intro r s'
    exact under_iff (codes_lit hsp)
  have u2 : ∀ {ret : Nat} {s2 r s'}, Spec.Under H s.nscope (.codes [.text t] (sp + 1) usizeMax { env with ret := ret }) s2 r s' ↔
      r = .ok () ∧ s' = s2 := by
    intro ret s2 r s'
    exact under_iff (s1 := s2.hold [.scope s.nscope]) (codes_beyond (a := [.text t]) (show 1 ≤ sp + 1 by omega))
  have marks : Spec.nameMarks (Spec.below env.q s).nlist ((Spec.fresh (Spec.below env.q s)).push (s.nlist + 1) (.s t)) = [] := by
    simp [Spec.nameMarks, Spec.fresh, Spec.below, St.push, upd, RList.add, RList.empty]
  have text : (((Spec.fresh (Spec.below env.q s)).push (s.nlist + 1) (.s t)).lists (s.nlist + 1)).text = t := by
    simp [Spec.fresh, Spec.below, St.push, upd, RList.add, RList.empty, RList.text, Val.plain, Val.s3]
  have text : (((Spec.fresh (Spec.below env.q s)).push (s.nlist + 1) (.s t)).lists (Spec.below env.q s).nlist).text = t := text
  constructor
  · intro h
    cases h with
    | badText hr g =>
      obtain ⟨rfl, rfl⟩ := Spec.RunIn.unique hr (.new rfl hh)
      obtain ⟨e, _⟩ := u1.1 g
      cases e
    | note hr g hm =>
      obtain ⟨rfl, rfl⟩ := Spec.RunIn.unique hr (.new rfl hh)
      obtain ⟨_, rfl⟩ := u1.1 g
      rw [marks] at hm; cases hm
    | badArgs hr g _ g2 =>
      obtain ⟨rfl, rfl⟩ := Spec.RunIn.unique hr (.new rfl hh)
      obtain ⟨e, _⟩ := u2.1 g2
      cases e
    | ready hr g _ ht g2 e4 e5 =>
      obtain ⟨rfl, rfl⟩ := Spec.RunIn.unique hr (.new rfl hh)
      obtain ⟨_, rfl⟩ := u1.1 g
      obtain ⟨_, rfl⟩ := u2.1 g2
      rw [text] at ht
      subst ht
      rw [if_neg (fun h => by cases h.2)] at e4
      subst e4 e5
      exact ⟨rfl, rfl⟩
  · rintro ⟨rfl, rfl⟩
    exact .ready (.new rfl hh) (u1.2 ⟨rfl, rfl⟩) marks text.symm (u2.2 ⟨rfl, rfl⟩) (by rw [if_neg (fun h => by cases h.2)]) rfl

theorem enterText_entered (q : Nat) (t : Str) (s : St) : Spec.Entered q t s (enterText q t s) := by
  refine ⟨?_, ?_, ?_, ?_, rfl⟩
  · have up : ∀ (g : Nat → Scope) (q : Nat) (c c' : Scope), upd (upd g q c) q c' = upd g q c' := by
      intro g q c c'; funext x; unfold upd; split <;> rfl
    simp only [enterText, Spec.scoped, Spec.below, Spec.fresh, St.push, up]
    congr 1
    simp [upd, Scope.new]
  · simp [enterText, Spec.scoped, Spec.below, Spec.fresh, St.push, upd]
  · intro l hl
    have h1 : l ≠ s.nlist := by omega
    have h2 : l ≠ s.nlist + 1 := by omega
    simp [enterText, Spec.scoped, Spec.below, Spec.fresh, St.push, upd, h1, h2]
  · intro i hi
    have h1 : i ≠ s.nitem := by omega
    simp [enterText, Spec.scoped, Spec.below, Spec.fresh, St.push, upd, h1]

theorem source_text {here : Bool} {q : Nat} {t : Str} {s s' : St} {r : Except Err (Option Str)} :
    Spec.Source H false here q t s r s' ↔ r = .ok (some t) ∧ s' = s := by
  rw [← ev_source]
  exact evE_pure

theorem arg0_none {env : Env} {s s' : St} {r : Except Err Str} : Spec.Arg0 H [] [] env s r s' ↔ r = .ok [] ∧ s' = s := by
  rw [← ev_arg0]
  exact evE_pure

/-- **C65.**  `解释“t”`: the text `t` runs as a script, in a new scope below the scope of the statement, without arguments, with the
same list of results; what it ends with is what the statement ends with. -/
theorem C65_text {t : Str} {sp : Nat} {env : Env} {s s' : St} {r : Res} (hsp : 0 < sp)
    (hh : s.held.contains (.scope s.nscope) = false) :
    ∃ s1, Spec.Entered env.q t s s1 ∧ (Evals H (.item (.eval false false [] [] [.text t] sp false) env) s r s' ↔
      ∃ x, Evals H (.src t { env with q := s.nscope }) s1 x s' ∧ r = { r := x.r }) := by
  refine ⟨_, enterText_entered env.q t s, ?_⟩
  rw [C65_statement]
  constructor
  · rintro ⟨h, e⟩
    rw [e]
    generalize r.r = y at h
    cases h with
    | notGiven h => cases ((readied_lit hsp hh).1 h).1
    | noText _ h => cases (source_text.1 h).1
    | loaded _ h => cases (source_text.1 h).1
    | here h => cases h
    | badArg0 _ _ _ h => cases (arg0_none.1 h).1
    | below _ h h2 h3 h4 =>
      obtain ⟨e, rfl⟩ := (readied_lit hsp hh).1 h
      cases e
      obtain ⟨e, rfl⟩ := source_text.1 h2
      cases e
      obtain ⟨e, rfl⟩ := arg0_none.1 h3
      cases e
      exact ⟨_, h4, rfl⟩
  · rintro ⟨x, h, rfl⟩
    refine ⟨?_, rfl⟩
    refine .below (q := s.nscope) (t := t) (u := t) (w := []) (x := x) rfl ((readied_lit hsp hh).2 ⟨rfl, rfl⟩) (.text rfl) (.none rfl nofun) ?_
    rw [if_pos rfl]
    exact h

theorem reached_free {ovf : Bool} {argv : List Str} {c : Call} {s : St} (h : Reached H ovf argv c s) :
    s.held.contains (.scope s.nscope) = false := by
  cases e : s.held.contains (.scope s.nscope) with
  | false => rfl
  | true => exact absurd ((reached_sane h).held _ (List.contains_iff_mem.1 e)) (Nat.lt_irrefl _)

/-- **C65.**  The same in every run: nothing has to be assumed about the state. -/
theorem C65_text_reached {ovf : Bool} {argv : List Str} {t : Str} {sp : Nat} {env : Env} {s s' : St} {r : Res} (hsp : 0 < sp)
    (hr : Reached H ovf argv (.item (.eval false false [] [] [.text t] sp false) env) s) :
    ∃ s1, Spec.Entered env.q t s s1 ∧ (Evals H (.item (.eval false false [] [] [.text t] sp false) env) s r s' ↔
      ∃ x, Evals H (.src t { env with q := s.nscope }) s1 x s' ∧ r = { r := x.r }) :=
  C65_text hsp (reached_free hr)

/-! ## C66: which file is loaded -/

/-- A search finds the first name that can be opened; nothing after it is tried. -/
theorem tries_some {fs : List Str} {tr tr' : List Event} {f : Str} :
    Spec.Tries H fs tr (some f) tr' ↔ ∃ pre post, fs = pre ++ f :: post ∧
      (∀ k g, pre[k]? = some g → H.open_ (tr ++ (pre.take k).map .open_) g = false) ∧
      H.open_ (tr ++ pre.map .open_) f = true ∧ tr' = tr ++ (pre ++ [f]).map .open_ := by
  constructor
  · intro h
    generalize hr : some f = r at h
    induction h with
    | none => cases hr
    | @hit f fs tr ho => cases hr; exact ⟨[], fs, rfl, nofun, by simpa using ho, by simp⟩
    | @miss g fs tr r tr' ho _ ih =>
      obtain ⟨pre, post, rfl, h1, h2, rfl⟩ := ih hr
      refine ⟨g :: pre, post, rfl, ?_, by simpa using h2, by simp⟩
      intro k g' hk
      cases k with
      | zero =>
        simp only [List.getElem?_cons_zero, Option.some.injEq] at hk
        subst hk
        simpa using ho
      | succ k => simpa using h1 k g' (by simpa using hk)
  · rintro ⟨pre, post, rfl, h1, h2, rfl⟩
    induction pre generalizing tr with
    | nil => exact .hit (by simpa using h2)
    | cons g pre ih =>
      have := ih (tr := tr ++ [.open_ g]) (fun k g' hk => by simpa using h1 (k + 1) g' (by simpa using hk)) (by simpa using h2)
      have := Spec.Tries.miss (fs := pre ++ f :: post) (by simpa using h1 0 g rfl) this
      simpa using this

theorem tries_none {fs : List Str} {tr tr' : List Event} :
    Spec.Tries H fs tr none tr' ↔ (∀ k g, fs[k]? = some g → H.open_ (tr ++ (fs.take k).map .open_) g = false) ∧
      tr' = tr ++ fs.map .open_ := by
  constructor
  · intro h
    generalize hr : none = r at h
    induction h with
    | none => exact ⟨nofun, by simp⟩
    | hit => cases hr
    | @miss g fs tr r tr' ho _ ih =>
      obtain ⟨h1, rfl⟩ := ih hr
      refine ⟨?_, by simp⟩
      intro k g' hk
      cases k with
      | zero =>
        simp only [List.getElem?_cons_zero, Option.some.injEq] at hk
        subst hk
        simpa using ho
      | succ k => simpa using h1 k g' (by simpa using hk)
  · rintro ⟨h1, rfl⟩
    induction fs generalizing tr with
    | nil => simpa using Spec.Tries.none
    | cons g pre ih =>
      have := ih (tr := tr ++ [.open_ g]) (fun k g' hk => by simpa using h1 (k + 1) g' (by simpa using hk))
      have := Spec.Tries.miss (fs := pre) (by simpa using h1 0 g rfl) this
      simpa using this

/-- The names under which a statement `加载` in the scope `q` looks for a file: next to each file of the include path, then next to
the file of its scope and of the scopes around it, nearest first, then as it is written; a name that begins with `/` only as it is
written. -/
def Spec.looksFor (H : Host) (s : St) (q : Nat) : Str → List Str
  | [] => []
  | '/' :: t => ['/' :: t]
  | t => (s.path ++ ((chain s.scopes q).filter fun p => (s.scopes p).srcIsFile).map fun p => (s.scopes p).src).filterMap
      (fun p => H.fileName p t) ++ [t]

/-- The file that is loaded, and the state after the search, with the scope `q` made for the file. -/
inductive Spec.Found (fs : List Str) (name : Str) (H : Host) (q : Nat) (s : St) : Str → St → Prop where
  | first {f tr} : Spec.Tries H fs s.trace (some f) tr →
    Found fs name H q s f (Spec.scoped q (fun c => { c with src := f, srcIsFile := true }) { s with trace := tr })
  /-- no file can be opened: the name is used as it is written -/
  | none {tr} : Spec.Tries H fs s.trace none tr → Found fs name H q s name { s with trace := tr }

theorem chain_upd {g g' : Nat → Scope} {n : Nat} (hg : ∀ q < n, (g' q) = g q) : ∀ q < n, chain g' q = chain g q := by
  intro q
  induction q using Nat.strongRecOn with
  | ind q ih =>
    intro hq
    rw [chain, chain, hg q hq]
    cases hu : (g q).up with
    | none => rfl
    | some p =>
      dsimp only
      by_cases hp : p < q
      · rw [dif_pos hp, dif_pos hp, ih p hp (by omega)]
      · rw [dif_neg hp, dif_neg hp]

theorem mem_chain_le (g : Nat → Scope) : ∀ q, ∀ p ∈ chain g q, p ≤ q := by
  intro q
  induction q using Nat.strongRecOn with
  | ind q ih =>
    intro p hp
    rw [chain] at hp
    rcases List.mem_cons.1 hp with rfl | hp
    · exact Nat.le_refl _
    · cases hu : (g q).up with
      | none => rw [hu] at hp; cases hp
      | some k =>
        rw [hu] at hp
        dsimp only at hp
        by_cases hk : k < q
        · rw [dif_pos hk] at hp
          exact Nat.le_trans (ih k hk p hp) (Nat.le_of_lt hk)
        · rw [dif_neg hk] at hp; cases hp

theorem candidates_entered {q : Nat} {t name : Str} {s s1 : St} (h : Spec.Entered q t s s1) (hq : q < s.nscope) :
    Spec.candidates H s1 s.nscope name = Spec.looksFor H s q name := by
  have e1 : s1.path = s.path := by rw [← h.rest]
  have old : ∀ p < s.nscope, s1.scopes p = s.scopes p := by
    intro p hp
    rw [h.scopes]
    exact if_neg (by omega)
  have e2 : (chain s1.scopes s.nscope).tail = chain s.scopes q := by
    rw [chain]
    have : (s1.scopes s.nscope).up = some q := by rw [h.scopes]; simp [upd, Scope.new]
    rw [this]
    simp only [List.tail_cons, dif_pos hq]
    exact chain_upd old q hq
  have e3 : (((chain s.scopes q).filter fun p => (s1.scopes p).srcIsFile).map fun p => (s1.scopes p).src) =
      ((chain s.scopes q).filter fun p => (s.scopes p).srcIsFile).map fun p => (s.scopes p).src := by
    have old' : ∀ p ∈ chain s.scopes q, s1.scopes p = s.scopes p := fun p hp =>
      old p (Nat.lt_of_le_of_lt (mem_chain_le _ _ p hp) hq)
    rw [List.filter_congr (q := fun p => (s.scopes p).srcIsFile) (fun p hp => by rw [old' p hp])]
    exact List.map_congr_left fun p hp => by rw [old' p (List.mem_filter.1 hp).1]
  unfold Spec.candidates Spec.looksFor
  rw [e1, e2, e3]

/-- **C66.**  `加载“name”` in every run: a scope is made below the scope of the statement.  The file is the first one of `Spec.looksFor`
that can be opened.  If a module comes from that file, nothing more happens; otherwise the text of the file (without its `#!` line)
runs as a script in the new scope, and what it ends with is what the statement ends with; a file that cannot be read is an error. -/
theorem C66_load {ovf : Bool} {argv : List Str} {name : Str} {sp : Nat} {env : Env} {s s' : St} {r : Res} (hsp : 0 < sp)
    (hr : Reached H ovf argv (.item (.eval true false [] [] [.text name] sp false) env) s) :
    ∃ s1, Spec.Entered env.q name s s1 ∧ (Evals H (.item (.eval true false [] [] [.text name] sp false) env) s r s' ↔
      ∃ f s2, Spec.Found (Spec.looksFor H s env.q name) name H s.nscope s1 f s2 ∧
        (((∃ m ∈ s.mods, (s.scopes m).src = f) ∧ r = {} ∧ s' = s2) ∨
          ((∀ m ∈ s.mods, (s.scopes m).src ≠ f) ∧
            ((∃ e, Spec.FileText H f s.nscope s2 (.error e) s' ∧ r = { r := .error e }) ∨
              ∃ u s3 x, Spec.FileText H f s.nscope s2 (.ok u) s3 ∧ Evals H (.src u { env with q := s.nscope }) s3 x s' ∧
                r = { r := x.r })))) := by
  have hh := reached_free hr
  have hq : env.q < s.nscope := (reached_scope rfl hr).1
  obtain ⟨C, hp⟩ := reached_frame hr
  have hmods : ∀ m ∈ s.mods, m < s.nscope := fun m hm => (hp.1.inv.mods m hm).1
  have hen := enterText_entered env.q name s
  refine ⟨enterText env.q name s, hen, ?_⟩
  have hcand : Spec.candidates H (enterText env.q name s) s.nscope name = Spec.looksFor H s env.q name := candidates_entered hen hq
  have hsrc : ((enterText env.q name s).scopes s.nscope).src = name := by rw [hen.scopes]; simp [upd, Scope.new]
  /- the search -/
  have look : ∀ {s2}, Spec.Lookup H name true s.nscope (enterText env.q name s) s2 ↔
      ∃ f, Spec.Found (Spec.looksFor H s env.q name) name H s.nscope (enterText env.q name s) f s2 := by
    intro s2
    constructor
    · intro h
      cases h with
      | found h _ => rw [hcand] at h; exact ⟨_, .first h⟩
      | none h => rw [hcand] at h; exact ⟨_, .none h⟩
    · rintro ⟨f, h⟩
      cases h with
      | first h => rw [← hcand] at h; exact .found h hh
      | none h => rw [← hcand] at h; exact .none h
  have facts : ∀ {f s2}, Spec.Found (Spec.looksFor H s env.q name) name H s.nscope (enterText env.q name s) f s2 →
      (s2.scopes s.nscope).src = f ∧ s2.mods = s.mods ∧ ∀ m ∈ s.mods, s2.scopes m = s.scopes m := by
    intro f s2 h
    have old : ∀ m ∈ s.mods, (enterText env.q name s).scopes m = s.scopes m := by
      intro m hm
      rw [hen.scopes]
      exact if_neg (fun e => absurd (hmods m hm) (by omega))
    cases h with
    | first h =>
      refine ⟨by simp [Spec.scoped, upd], rfl, fun m hm => ?_⟩
      rw [← old m hm]
      exact if_neg (fun e => absurd (hmods m hm) (by omega))
    | none h => exact ⟨hsrc, rfl, old⟩
  rw [C65_statement]
  constructor
  · rintro ⟨h, e⟩
    rw [e]
    generalize r.r = y at h
    cases h with
    | notGiven h => cases ((readied_lit hsp hh).1 h).1
    | @noText _ _ _ e _ h h2 =>
      obtain ⟨e, rfl⟩ := (readied_lit hsp hh).1 h
      cases e
      generalize hy : Except.error _ = y at h2
      cases h2 with
      | text h => cases h
      | loaded _ hl => cases hy
      | @file s2 r' _ _ hl hn hf =>
        obtain ⟨f, hf'⟩ := look.1 hl
        obtain ⟨k1, k2, k3⟩ := facts hf'
        rw [if_neg nofun, k1] at hf
        cases r' with
        | ok u => cases hy
        | error e' =>
          cases hy
          refine ⟨f, s2, hf', .inr ⟨fun m hm => ?_, .inl ⟨_, hf, rfl⟩⟩⟩
          have := hn m (by rw [k2]; exact hm)
          rwa [k1, k3 m hm] at this
    | loaded h h2 =>
      obtain ⟨e, rfl⟩ := (readied_lit hsp hh).1 h
      cases e
      generalize hy : Except.ok _ = y at h2
      cases h2 with
      | text h => cases h
      | @loaded s2 m _ hl hm he =>
        obtain ⟨f, hf'⟩ := look.1 hl
        obtain ⟨k1, k2, k3⟩ := facts hf'
        rw [k2] at hm
        rw [k1, k3 m hm] at he
        exact ⟨f, _, hf', .inl ⟨⟨m, hm, he⟩, rfl, rfl⟩⟩
      | @file _ r' _ _ => cases r' <;> cases hy
    | here h => cases h
    | badArg0 _ _ _ h => cases (arg0_none.1 h).1
    | below _ h h2 h3 h4 =>
      obtain ⟨e, rfl⟩ := (readied_lit hsp hh).1 h
      cases e
      obtain ⟨e, rfl⟩ := arg0_none.1 h3
      cases e
      rw [if_pos rfl] at h4
      generalize hy : Except.ok _ = y at h2
      cases h2 with
      | text h => cases h
      | loaded => cases hy
      | @file s2 r' _ _ hl hn hf =>
        obtain ⟨f, hf'⟩ := look.1 hl
        obtain ⟨k1, k2, k3⟩ := facts hf'
        rw [if_neg nofun, k1] at hf
        cases r' with
        | error e' => cases hy
        | ok u =>
          cases hy
          refine ⟨f, s2, hf', .inr ⟨fun m hm => ?_, .inr ⟨_, _, _, hf, h4, rfl⟩⟩⟩
          have := hn m (by rw [k2]; exact hm)
          rwa [k1, k3 m hm] at this
  · rintro ⟨f, s2, hf, h⟩
    obtain ⟨k1, k2, k3⟩ := facts hf
    have hl := look.2 ⟨f, hf⟩
    have ready := (readied_lit (H := H) (env := env) (t := name) hsp hh).2 ⟨rfl, rfl⟩
    have nomod : (∀ m ∈ s.mods, (s.scopes m).src ≠ f) → ∀ m ∈ s2.mods, (s2.scopes m).src ≠ (s2.scopes s.nscope).src := by
      intro h m hm
      rw [k2] at hm
      rw [k1, k3 m hm]
      exact h m hm
    rcases h with ⟨⟨m, hm, he⟩, rfl, rfl⟩ | ⟨hn, ⟨e, h1, rfl⟩ | ⟨u, s3, x, h1, h2, rfl⟩⟩
    · refine ⟨.loaded ready (.loaded rfl hl (by rw [k2]; exact hm) ?_), rfl⟩
      rw [k1, k3 m hm]; exact he
    · refine ⟨.noText ready (.file (r := .error e) rfl hl (nomod hn) ?_), rfl⟩
      rw [if_neg nofun, k1]; exact h1
    · refine ⟨?_, rfl⟩
      refine .below (s2 := s3) (w := []) (x := x) rfl ready (.file (r := .ok u) rfl hl (nomod hn) ?_) (.none rfl nofun) ?_
      · rw [if_neg nofun, k1]; exact h1
      · rw [if_pos rfl]; exact h2

/-! ## Concrete runs -/

/-- A host with two files in a directory `库`, which the include path leads to, and one at `/己`. -/
def fileHost : Host :=
  { H0 with
    fileName := fun p name => if c!"库/".isPrefixOf p then some (c!"库/" ++ name) else none
    open_ := fun _ f => f = c!"库/甲" || f = c!"库/乙" || f = c!"/己"
    read := fun _ f =>
      if f = c!"库/甲" then .ok c!"显示“1”。加载“乙”。"
      else if f = c!"库/乙" then .ok (c!"#! zs" ++ '\n' :: c!"显示“2”‘参数数目’‘参数1’。")
      else if f = c!"/己" then .ok c!"显示“3”。"
      else .error c!"没有" }

/-- A run with these files. -/
def demoF (n : Nat) (src : Str) : Out (Except Err Unit) × List Event :=
  let r := runMain fileHost n false [c!"库/zs", c!"-zhscript-src-is-code", src]
  (r.1, r.2.trace)

/-- The hypotheses of `C65_text_reached` are met. -/
theorem C65_witness : ∃ t sp env s, 0 < sp ∧ Reached H0 false (demoArgv c!"解释“显示1。”。") (.item (.eval false false [] [] [.text t] sp false) env) s := by
  obtain ⟨c, s, hr, h⟩ := demoB_sound (n := 16) (src := c!"解释“显示1。”。")
    (P := fun c s => match c with
    | .item (.eval false false [] [] [.text _] sp false) _ => decide (0 < sp)
    | _ => false) (by decide +kernel)
  split at h
  · exact ⟨_, _, _, s, of_decide_eq_true h, hr⟩
  · cases h

/-- The hypotheses of `C66_load` are met. -/
theorem C66_witness : ∃ t sp env s, 0 < sp ∧ Reached H0 false (demoArgv c!"加载“甲”。") (.item (.eval true false [] [] [.text t] sp false) env) s := by
  obtain ⟨c, s, hr, h⟩ := demoB_sound (n := 16) (src := c!"加载“甲”。")
    (P := fun c s => match c with
    | .item (.eval true false [] [] [.text _] sp false) _ => decide (0 < sp)
    | _ => false) (by decide +kernel)
  split at h
  · exact ⟨_, _, _, s, of_decide_eq_true h, hr⟩
  · cases h

/-- What a script sees: the variables around can be read, new ones stay inside, those around can be changed; arguments, their number and
argument 0; with `【在当前区】` everything stays. -/
theorem C65_example :
    demo 60 c!"赋予甲以1。解释下代码显示‘甲’‘参数1’。上代码、3。" = (.ok (.ok ()), [.out c!"13"]) ∧
    demo 60 c!"解释“赋予甲以1。”。显示存在甲。" = (.ok (.ok ()), []) ∧
    demo 60 c!"解释【在当前区】“赋予甲以1。”。显示存在甲。" = (.ok (.ok ()), [.out c!"1"]) ∧
    demo 60 c!"解释【零】下代码显示‘参数0’‘参数数目’。上代码、。" = (.ok (.ok ()), [.out c!"零1"]) ∧
    Spec.complaint (demo 60 c!"解释先“显示1。”【怪】了。").1 = some c!"注解“怪”不支持" := by
  decide +kernel

/-- The arguments of `解释【在当前区】` stay: they are appended to the arguments of the script. -/
theorem C65_arguments_example :
    demo 60 c!"解释【在当前区】“”、7、8。解释【在当前区】“”、9。显示‘参数数目’‘参数3’。" = (.ok (.ok ()), [.out c!"39"]) := by
  decide +kernel

/-- What a script sees: a file from the include path, which loads another one next to it; arguments; a file that is not there. -/
theorem C66_example :
    demoF 60 c!"加载“甲”。" = (.ok (.ok ()), [.open_ c!"库/甲", .read c!"库/甲", .out c!"1", .open_ c!"库/乙", .read c!"库/乙", .out c!"20"]) ∧
    demoF 60 c!"加载“乙”、5、6。" = (.ok (.ok ()), [.open_ c!"库/乙", .read c!"库/乙", .out c!"225"]) ∧
    demoF 60 c!"加载【在当前区】“/己”。显示“4”。" = (.ok (.ok ()), [.open_ c!"/己", .read c!"/己", .out c!"3", .out c!"4"]) ∧
    (demoF 60 c!"加载“无”。").2 = [.open_ c!"库/无", .open_ c!"无", .read c!"无"] := by
  decide +kernel

/-- Found: with `【在当前区】` a file is found through the include path, but then the name is read as it is written. -/
theorem C66_here_counterexample :
    (demoF 60 c!"加载【在当前区】“甲”。").2 = [.open_ c!"库/甲", .read c!"甲"] ∧
    Spec.complaint (demoF 60 c!"加载【在当前区】“甲”。").1 = some c!"\"甲\" 没有" := by
  decide +kernel

/-- Found: with `【在当前区】` nothing is loaded at all once the script has made itself a module. -/
theorem C66_module_counterexample :
    demoF 60 c!"模块“丙”。加载【在当前区】“/己”。显示“4”。" = (.ok (.ok ()), [.open_ c!"/己", .out c!"4"]) := by
  decide +kernel

end Zh
