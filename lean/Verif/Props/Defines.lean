import Verif.Props.Calls
import Verif.Props.Exec
/-!
# C63: the statement `定义`

`Spec.Definition` tells what a definition does: which name, marks, argument names and text it evaluates, when it is refused,
and what is then in the scope.  `C63_definition` says that the evaluator does exactly this.
-/
namespace Zh

variable {H : Host}

/-! ## Specification -/

/-- The name begins with the name of `d`, but has more characters: `d` would be called in its place. -/
def Spec.Hides (name : Str) (d : Def) : Prop := d.name0 <+: name ∧ d.name0 ≠ name

/-- `d` is the first definition that can be used in the scope `q` and hides the name. -/
def Spec.FirstCover (s : St) (q : Nat) (name : Str) (d : Def) : Prop :=
  ∃ i p k : Nat, (Spec.seen s q)[i]? = some p ∧ (s.scopes p).defs[k]? = some d ∧ Spec.Hides name d ∧
    (∀ (j : Nat) p', j < i → (Spec.seen s q)[j]? = some p' → ∀ d' ∈ (s.scopes p').defs, ¬ Spec.Hides name d') ∧
    ∀ (k' : Nat) d', k' < k → (s.scopes p).defs[k']? = some d' → ¬ Spec.Hides name d'

/-- No definition that can be used in the scope `q` hides the name. -/
def Spec.NotCovered (s : St) (q : Nat) (name : Str) : Prop :=
  ∀ p ∈ Spec.seen s q, ∀ d ∈ (s.scopes p).defs, ¬ Spec.Hides name d

/-- What the annotations of the name say: the number of arguments (if no arguments are named), the number of left-hand
arguments, the scope.  Each annotation changes what was said before. -/
inductive Spec.Marks (s : St) : List Str → Nat × Nat × Nat → Except Err (Nat × Nat × Nat) → Prop where
  | nil {x} : Marks s [] x (.ok x)
  | noArg {rs n b q r} : Marks s rs (0, b, q) r → Marks s (c!"无参" :: rs) (n, b, q) r
  | left1 {rs n b q r} : Marks s rs (n, 1, q) r → Marks s (c!"倒挂" :: rs) (n, b, q) r
  | left {t k rs n b q r} : t ≠ [] → parseUsize t = some k → Marks s rs (n, k, q) r →
    Marks s ((c!"倒挂" ++ t) :: rs) (n, b, q) r
  | badLeft {t rs x} : t ≠ [] → parseUsize t = none → Marks s ((c!"倒挂" ++ t) :: rs) x (.error (.msg (usizeErr t)))
  | scope {m rs n b q q' r} : m ≠ c!"无参" → ¬ c!"倒挂" <+: m → rem4Z s m false none q = .ok (.scope (some q')) →
    Marks s rs (n, b, q') r → Marks s (m :: rs) (n, b, q) r
  | badScope {m rs n b q e} : m ≠ c!"无参" → ¬ c!"倒挂" <+: m → rem4Z s m false none q = .error e →
    Marks s (m :: rs) (n, b, q) (.error e)
  | unknown {m rs n b q} : m ≠ c!"无参" → ¬ c!"倒挂" <+: m → rem4Z s m false none q = .ok .other →
    Marks s (m :: rs) (n, b, q) (.error (errNoRem2 m))

/-- The words before the first `、` (at place `sp`) are evaluated into a list of their own. -/
def Spec.NameEval (H : Host) (names : List Code) (sp : Nat) (env : Env) (s : St) (r : Except Err Unit) (s' : St) : Prop :=
  ∃ x, Evals H (.codes names 0 sp { env with gd := { env.gd with undefEqText := true }, ret := s.nlist + 1 })
    (Spec.fresh (Spec.fresh s)) x s' ∧ x.r = r

/-- The annotations of the name, after its evaluation. -/
def Spec.nameMarks (l : Nat) (s : St) : List Str := (s.lists l).a.flatMap fun i => s.items i.ref

/-- The words after it, into another list. -/
def Spec.RestEval (H : Host) (names : List Code) (sp : Nat) (env : Env) (l : Nat) (s : St) (r : Except Err Unit) (s' : St) : Prop :=
  ∃ x, Evals H (.codes names (sp + 1) usizeMax { env with gd := { env.gd with undefEqText := true }, ret := l }) s x s' ∧ x.r = r

/-- The text of the definition, into a third list. -/
def Spec.TextEval (H : Host) (vals : List Code) (env : Env) (s : St) (r : Except Err Unit) (s' : St) : Prop :=
  ∃ x, Evals H (.codes vals 0 usizeMax { env with ret := s.nlist }) (Spec.fresh s) x s' ∧ x.r = r

/-- The argument names with their annotations. -/
def Spec.argNames (l : Nat) (s : St) : Except Err ArgNames :=
  ArgNames.new ((s.lists l).a.map fun i => (i, s.items i.ref))

/-- The state in which `d` is defined in the scope `q`. -/
def Spec.defined (q : Nat) (d : Def) (s : St) : St :=
  { s with scopes := upd s.scopes q { s.scopes q with defs := setDef d (s.scopes q).defs } }

/-- The statement `定义 names 以 vals`. -/
inductive Spec.Definition (H : Host) (names vals : List Code) (sp : Nat) (env : Env) (s : St) : Except Err Unit → St → Prop where
  | badName {e s'} : Spec.NameEval H names sp env s (.error e) s' → Definition H names vals sp env s (.error e) s'
  | badMarks {e s'} : Spec.NameEval H names sp env s (.ok ()) s' →
    Spec.Marks s' (Spec.nameMarks (s.nlist + 1) s') (usizeMax, 0, env.q) (.error e) →
    Definition H names vals sp env s (.error e) s'
  | badRest {s1 m e s'} : Spec.NameEval H names sp env s (.ok ()) s1 →
    Spec.Marks s1 (Spec.nameMarks (s.nlist + 1) s1) (usizeMax, 0, env.q) (.ok m) →
    Spec.RestEval H names sp env s.nlist s1 (.error e) s' → Definition H names vals sp env s (.error e) s'
  | noName {s1 m s'} : Spec.NameEval H names sp env s (.ok ()) s1 →
    Spec.Marks s1 (Spec.nameMarks (s.nlist + 1) s1) (usizeMax, 0, env.q) (.ok m) →
    Spec.RestEval H names sp env s.nlist s1 (.ok ()) s' → (s1.lists (s.nlist + 1)).text = [] →
    Definition H names vals sp env s (.error (errKw .def_ c!"名空")) s'
  | covered {s1 m d name s'} : Spec.NameEval H names sp env s (.ok ()) s1 →
    Spec.Marks s1 (Spec.nameMarks (s.nlist + 1) s1) (usizeMax, 0, env.q) (.ok m) →
    Spec.RestEval H names sp env s.nlist s1 (.ok ()) s' → name = (s1.lists (s.nlist + 1)).text → name ≠ [] →
    Spec.FirstCover s' env.q name d →
    Definition H names vals sp env s (.error (errKw .def_ (c!"名" ++ Zh.quote name ++ c!"被" ++ Zh.quote d.name ++ c!"覆盖"))) s'
  | badText {s1 m s2 name e s'} : Spec.NameEval H names sp env s (.ok ()) s1 →
    Spec.Marks s1 (Spec.nameMarks (s.nlist + 1) s1) (usizeMax, 0, env.q) (.ok m) →
    Spec.RestEval H names sp env s.nlist s1 (.ok ()) s2 → name = (s1.lists (s.nlist + 1)).text → name ≠ [] →
    Spec.NotCovered s2 env.q name → Spec.TextEval H vals env s2 (.error e) s' →
    Definition H names vals sp env s (.error e) s'
  | badArgs {s1 n b q s2 name e s'} : Spec.NameEval H names sp env s (.ok ()) s1 →
    Spec.Marks s1 (Spec.nameMarks (s.nlist + 1) s1) (usizeMax, 0, env.q) (.ok (n, b, q)) →
    Spec.RestEval H names sp env s.nlist s1 (.ok ()) s2 → name = (s1.lists (s.nlist + 1)).text → name ≠ [] →
    Spec.NotCovered s2 env.q name → Spec.TextEval H vals env s2 (.ok ()) s' → s'.held.contains (.scope q) = false →
    Spec.argNames s.nlist s' = .error e → Definition H names vals sp env s (.error e) s'
  | done {s1 n b q s2 name ns s3 d} : Spec.NameEval H names sp env s (.ok ()) s1 →
    Spec.Marks s1 (Spec.nameMarks (s.nlist + 1) s1) (usizeMax, 0, env.q) (.ok (n, b, q)) →
    Spec.RestEval H names sp env s.nlist s1 (.ok ()) s2 → name = (s1.lists (s.nlist + 1)).text → name ≠ [] →
    Spec.NotCovered s2 env.q name → Spec.TextEval H vals env s2 (.ok ()) s3 → s3.held.contains (.scope q) = false →
    Spec.argNames s.nlist s3 = .ok ns →
    d = Def.mk' name (.s (s3.lists s2.nlist).text) (if (s3.lists s.nlist).a = [] then n else (s3.lists s.nlist).len) b ns →
    (∀ k, findDefName d.name (s3.scopes q).defs = some k → s3.held.contains (.def_ q k) = false) →
    Definition H names vals sp env s (.ok ()) (Spec.defined q d s3)

/-! ## Proofs -/

theorem marks_defRems (s : St) (rs : List Str) (n b q : Nat) :
    ∃ y : Except Err (Nat × Nat × Nat),
      defRems s rs n b (some q) = .ok (y.map fun p => (p.1, p.2.1, some p.2.2)) ∧
      ∀ z, Spec.Marks s rs (n, b, q) z ↔ z = y := by
  induction rs generalizing n b q with
  | nil => exact ⟨.ok (n, b, q), rfl, fun z => ⟨fun h => by cases h; rfl, fun h => h ▸ .nil⟩⟩
  | cons m rs ih =>
    have hNB : ¬ (c!"倒挂" : Str) <+: c!"无参" := by decide
    rw [defRems]
    by_cases h1 : m = NO_ARG
    · obtain ⟨y, hy, hz⟩ := ih 0 b q
      subst h1
      refine ⟨y, by rw [if_pos rfl, hy], fun z => ⟨fun h => ?_, fun h => .noArg ((hz z).2 h)⟩⟩
      generalize hm : NO_ARG = m at h
      have hm' : m = c!"无参" := hm.symm
      cases h with
      | noArg h => exact (hz z).1 h
      | left1 => exact absurd hm' (by decide)
      | left => exact absurd ⟨_, hm'⟩ hNB
      | badLeft => exact absurd ⟨_, hm'⟩ hNB
      | scope h => exact absurd hm' h
      | badScope h => exact absurd hm' h
      | unknown h => exact absurd hm' h
    · rw [if_neg h1]
      have h1' : m ≠ c!"无参" := h1
      by_cases h2 : BACK_ARG <+: m
      · rw [if_pos (List.isPrefixOf_iff_prefix.2 h2)]
        obtain ⟨t, rfl⟩ := h2
        rw [List.drop_left]
        cases t with
        | nil =>
          obtain ⟨y, hy, hz⟩ := ih n 1 q
          refine ⟨y, hy, fun z => ⟨fun h => ?_, fun h => .left1 ((hz z).2 h)⟩⟩
          generalize hm : BACK_ARG ++ [] = m at h
          have hm' : m = c!"倒挂" := by rw [← hm, List.append_nil]; rfl
          cases h with
          | noArg h => exact absurd hm' (by decide)
          | left1 h => exact (hz z).1 h
          | left h => exact absurd (List.append_cancel_left (as := (c!"倒挂" : Str)) (cs := []) (by rw [hm', List.append_nil])) h
          | badLeft h => exact absurd (List.append_cancel_left (as := (c!"倒挂" : Str)) (cs := []) (by rw [hm', List.append_nil])) h
          | scope _ h => exact absurd (hm' ▸ List.prefix_refl _) h
          | badScope _ h => exact absurd (hm' ▸ List.prefix_refl _) h
          | unknown _ h => exact absurd (hm' ▸ List.prefix_refl _) h
        | cons c t =>
          have hcancel : ∀ {t' : Str}, (c!"倒挂" : Str) ++ t' = BACK_ARG ++ c :: t → t' = c :: t :=
            fun h => List.append_cancel_left (as := BACK_ARG) h
          have hpre : (c!"倒挂" : Str) <+: BACK_ARG ++ c :: t := ⟨c :: t, rfl⟩
          have hnil : (c!"倒挂" : Str) ≠ BACK_ARG ++ c :: t := by
            intro h
            have := hcancel (t' := []) (by rw [List.append_nil]; exact h)
            cases this
          dsimp only
          cases hp : parseUsize (c :: t) with
          | some k =>
            obtain ⟨y, hy, hz⟩ := ih n k q
            refine ⟨y, hy, fun z => ⟨fun h => ?_, fun h => .left (nofun) hp ((hz z).2 h)⟩⟩
            generalize hm : BACK_ARG ++ c :: t = m at h h1' hpre hnil
            cases h with
            | noArg h => exact absurd rfl h1'
            | left1 h => exact absurd rfl hnil
            | left _ hk h =>
              have := hcancel hm.symm
              rw [this, hp] at hk
              cases hk
              exact (hz z).1 h
            | badLeft _ hk =>
              have := hcancel hm.symm
              rw [this, hp] at hk
              cases hk
            | scope _ h => exact absurd hpre h
            | badScope _ h => exact absurd hpre h
            | unknown _ h => exact absurd hpre h
          | none =>
            refine ⟨.error (.msg (usizeErr (c :: t))), rfl, fun z => ⟨fun h => ?_, fun h => h ▸ .badLeft (nofun) hp⟩⟩
            generalize hm : BACK_ARG ++ c :: t = m at h h1' hpre hnil
            cases h with
            | noArg h => exact absurd rfl h1'
            | left1 h => exact absurd rfl hnil
            | left _ hk h =>
              have := hcancel hm.symm
              rw [this, hp] at hk
              cases hk
            | badLeft _ hk =>
              have := hcancel hm.symm
              rw [this]
            | scope _ h => exact absurd hpre h
            | badScope _ h => exact absurd hpre h
            | unknown _ h => exact absurd hpre h
      · rw [if_neg (fun h => h2 (List.isPrefixOf_iff_prefix.1 h))]
        have h2' : ¬ (c!"倒挂" : Str) <+: m := h2
        simp only [rem4]
        rcases hz : rem4Z s m false none q with e | z
        · refine ⟨.error e, rfl, fun z => ⟨fun h => ?_, fun h => h ▸ .badScope h1' h2' hz⟩⟩
          cases h with
          | noArg h => exact absurd rfl h1'
          | left1 h => exact absurd (List.prefix_refl _) h2'
          | left => exact absurd ⟨_, rfl⟩ h2'
          | badLeft => exact absurd ⟨_, rfl⟩ h2'
          | scope _ _ h => rw [hz] at h; cases h
          | badScope _ _ h => rw [hz] at h; cases h; rfl
          | unknown _ _ h => rw [hz] at h; cases h
        · cases z with
          | scope z =>
            obtain ⟨q', rfl⟩ := rem4Z_scope hz
            obtain ⟨y, hy, hw⟩ := ih n b q'
            refine ⟨y, hy, fun z => ⟨fun h => ?_, fun h => .scope h1' h2' hz ((hw z).2 h)⟩⟩
            cases h with
            | noArg h => exact absurd rfl h1'
            | left1 h => exact absurd (List.prefix_refl _) h2'
            | left => exact absurd ⟨_, rfl⟩ h2'
            | badLeft => exact absurd ⟨_, rfl⟩ h2'
            | scope _ _ h h' => rw [hz] at h; cases h; exact (hw z).1 h'
            | badScope _ _ h => rw [hz] at h; cases h
            | unknown _ _ h => rw [hz] at h; cases h
          | other =>
            refine ⟨.error (errNoRem2 m), rfl, fun z => ⟨fun h => ?_, fun h => h ▸ .unknown h1' h2' hz⟩⟩
            cases h with
            | noArg h => exact absurd rfl h1'
            | left1 h => exact absurd (List.prefix_refl _) h2'
            | left => exact absurd ⟨_, rfl⟩ h2'
            | badLeft => exact absurd ⟨_, rfl⟩ h2'
            | scope _ _ h h' => rw [hz] at h; cases h
            | badScope _ _ h => rw [hz] at h; cases h
            | unknown _ _ h => rfl


theorem hides_iff {name : Str} {d : Def} :
    (match withAt name d.name0 0 with | some (_, eq) => !eq | none => false) = true ↔ Spec.Hides name d := by
  obtain ⟨h1, h2⟩ := C10_prefix_match name d.name0 0 (Nat.zero_le _)
  rw [List.drop_zero] at h1 h2
  unfold Spec.Hides
  cases hw : withAt name d.name0 0 with
  | none => simp [h2.1 hw]
  | some p =>
    obtain ⟨n, e⟩ := p
    obtain ⟨a, -, c⟩ := (h1 n e).1 hw
    rw [Nat.zero_add] at c
    have hlen : d.name0.length = name.length ↔ d.name0 = name := ⟨fun h => a.eq_of_length h, fun h => by rw [h]⟩
    rw [hlen] at c
    cases e with
    | true => simp [c.1 rfl]
    | false => simp [a]; exact fun h => by simpa using c.2 h

theorem find_nth {α : Type} (f : α → Bool) (l : List α) (x : α) :
    l.find? f = some x ↔ ∃ i : Nat, l[i]? = some x ∧ f x = true ∧ ∀ (j : Nat) y, j < i → l[j]? = some y → ¬ f y = true := by
  induction l with
  | nil => simp
  | cons a l ih =>
    rw [List.find?_cons]
    cases hf : f a with
    | true =>
      simp only [Option.some.injEq]
      constructor
      · rintro rfl
        exact ⟨0, rfl, hf, fun j _ h => absurd h (Nat.not_lt_zero _)⟩
      · rintro ⟨i, h1, h2, h3⟩
        cases i with
        | zero => simpa using h1
        | succ i => exact absurd hf (h3 0 a (Nat.succ_pos _) rfl)
    | false =>
      simp only [ih]
      constructor
      · rintro ⟨i, h1, h2, h3⟩
        refine ⟨i + 1, h1, h2, fun j y hj hy => ?_⟩
        cases j with
        | zero => simp only [List.getElem?_cons_zero, Option.some.injEq] at hy; subst hy; simp [hf]
        | succ j => exact h3 j y (Nat.lt_of_succ_lt_succ hj) hy
      · rintro ⟨i, h1, h2, h3⟩
        cases i with
        | zero => simp only [List.getElem?_cons_zero, Option.some.injEq] at h1; subst h1; rw [hf] at h2; cases h2
        | succ i => exact ⟨i, h1, h2, fun j y hj hy => h3 (j + 1) y (Nat.succ_lt_succ hj) hy⟩

theorem findCover_none {name : Str} {ds : List Def} : findCover name ds = none ↔ ∀ d ∈ ds, ¬ Spec.Hides name d := by
  unfold findCover
  rw [List.find?_eq_none]
  exact forall_congr' fun d => forall_congr' fun _ => not_congr hides_iff

theorem cover_none {s : St} {q : Nat} {name : Str} :
    ((visits s.scopes s.mods q true false true).findSome? fun (p, _) => findCover name (s.scopes p).defs) = none ↔
      Spec.NotCovered s q name := by
  rw [visits_true s.scopes s.mods q _ rfl _ (fun p => findCover name (s.scopes p).defs) fun _ _ => rfl,
    List.findSome?_eq_none_iff]
  exact forall_congr' fun p => forall_congr' fun _ => findCover_none

theorem cover_some {s : St} {q : Nat} {name : Str} {d : Def} :
    ((visits s.scopes s.mods q true false true).findSome? fun (p, _) => findCover name (s.scopes p).defs) = some d ↔
      Spec.FirstCover s q name d := by
  rw [visits_true s.scopes s.mods q _ rfl _ (fun p => findCover name (s.scopes p).defs) fun _ _ => rfl, findSome_nth]
  unfold Spec.FirstCover
  simp only [findCover_none]
  constructor
  · rintro ⟨i, p, h1, h2, h3⟩
    obtain ⟨k, a, b, c⟩ := (find_nth _ _ _).1 h2
    exact ⟨i, p, k, h1, a, hides_iff.1 b, h3, fun k' d' hk hd h => c k' d' hk hd (hides_iff.2 h)⟩
  · rintro ⟨i, p, k, h1, a, b, h3, c⟩
    exact ⟨i, p, h1, (find_nth _ _ _).2 ⟨k, a, hides_iff.2 b, fun k' d' hk hd h => c k' d' hk hd (hides_iff.1 h)⟩, h3⟩

theorem evE_split2a_bind {β : Type} {a : List Code} {sp : Nat} {env : Env} {f : Str × List Str → E β} {s s' : St} {r : Except Err β} :
    EvE H (Evals H) (split2a [] a sp env >>= f) s r s' ↔
      (∃ x s1, Evals H (.codes a 0 sp { env with ret := s.nlist }) (Spec.fresh s) x s1 ∧ x.r = .ok () ∧
        EvE H (Evals H) (f ((s1.lists s.nlist).text, Spec.nameMarks s.nlist s1)) s1 r s') ∨
        ∃ x e, Evals H (.codes a 0 sp { env with ret := s.nlist }) (Spec.fresh s) x s' ∧ x.r = .error e ∧ r = .error e := by
  have key : ∀ {y : Except Err (Str × List Str)} {s1 : St}, EvE H (Evals H) (split2a [] a sp env) s y s1 ↔
      ∃ x, Evals H (.codes a 0 sp { env with ret := s.nlist }) (Spec.fresh s) x s1 ∧
        y = x.r.map fun _ => ((s1.lists s.nlist).text, Spec.nameMarks s.nlist s1) := by
    intro y s1
    rw [split2a, evE_newList_bind, evE_callE_bind]
    constructor
    · rintro (⟨x, s2, h1, h2, h3⟩ | ⟨x, e, h1, h2, rfl⟩)
      · rw [evE_getSt_bind] at h3
        obtain ⟨rfl, rfl⟩ := evE_pure.1 h3
        exact ⟨x, h1, by rw [h2]; rfl⟩
      · exact ⟨x, h1, by rw [h2]; rfl⟩
    · rintro ⟨x, h1, rfl⟩
      cases hx : x.r with
      | ok u => exact .inl ⟨x, s1, h1, hx, evE_getSt_bind.2 (evE_pure.2 ⟨rfl, rfl⟩)⟩
      | error e => exact .inr ⟨x, e, h1, hx, rfl⟩
  rw [evE_bind]
  simp only [key]
  constructor
  · rintro (⟨y, s1, ⟨x, h1, h2⟩, h3⟩ | ⟨e, ⟨x, h1, h2⟩, rfl⟩)
    · cases hx : x.r with
      | ok u => rw [hx] at h2; cases h2; exact .inl ⟨x, s1, h1, hx, h3⟩
      | error e => rw [hx] at h2; cases h2
    · cases hx : x.r with
      | ok u => rw [hx] at h2; cases h2
      | error e' => rw [hx] at h2; cases h2; exact .inr ⟨x, e, h1, hx, rfl⟩
  · rintro (⟨x, s1, h1, h2, h3⟩ | ⟨x, e, h1, h2, rfl⟩)
    · exact .inl ⟨_, s1, ⟨x, h1, by rw [h2]; rfl⟩, h3⟩
    · exact .inr ⟨e, ⟨x, h1, by rw [h2]; rfl⟩, rfl⟩

theorem evE_touch_bind {β : Type} {R : Call → St → Res → St → Prop} {q : Nat} {f : Unit → E β} {s s' : St} {r : Except Err β} :
    EvE H R ((liftM (doOp (.touch q)) : E Unit) >>= f) s r s' ↔ s.held.contains (.scope q) = false ∧ EvE H R (f ()) s r s' := by
  rw [evE_lift_bind]
  have hs : ({ s with scopes := upd s.scopes q (s.scopes q) } : St) = s := by
    have : upd s.scopes q (s.scopes q) = s.scopes := by
      funext x; unfold upd; split
      · rename_i h; rw [h]
      · rfl
    rw [this]
  constructor
  · rintro ⟨a, s1, h1, h2⟩
    have h1 := ev_doOp.1 h1
    cases hh : s.held.contains (.scope q) with
    | true =>
      simp only [Op.run, St.modScope, hh, if_true] at h1
      cases (Prod.mk.inj h1).1
    | false =>
      simp only [Op.run, St.modScope, hh, Bool.false_eq_true, if_false, id, hs] at h1
      cases (Prod.mk.inj h1).2
      exact ⟨rfl, h2⟩
  · rintro ⟨h1, h2⟩
    refine ⟨(), s, ev_doOp.2 ?_, h2⟩
    simp only [Op.run, St.modScope, h1, Bool.false_eq_true, if_false, id, hs]

theorem evE_setDef {R : Call → St → Res → St → Prop} {q : Nat} {d : Def} {s s' : St} {r : Except Err Unit} :
    EvE H R (liftM (doOp (.setDef q d)) : E Unit) s r s' ↔ s.held.contains (.scope q) = false ∧
      (∀ k, findDefName d.name (s.scopes q).defs = some k → s.held.contains (.def_ q k) = false) ∧
      r = .ok () ∧ s' = Spec.defined q d s := by
  have run : (Op.setDef q d).run H s = match findDefName d.name (s.scopes q).defs with
      | some k => if s.held.contains (.def_ q k) then (.panic, s)
        else if s.held.contains (.scope q) then (.panic, s) else (.ok (), Spec.defined q d s)
      | none => if s.held.contains (.scope q) then (.panic, s) else (.ok (), Spec.defined q d s) := rfl
  have key : (∃ a, r = .ok a ∧ (Op.setDef q d).run H s = (.ok a, s')) ↔ s.held.contains (.scope q) = false ∧
      (∀ k, findDefName d.name (s.scopes q).defs = some k → s.held.contains (.def_ q k) = false) ∧
      r = .ok () ∧ s' = Spec.defined q d s := by
    rw [run]
    cases hf : findDefName d.name (s.scopes q).defs with
    | none =>
      dsimp only
      cases hh : s.held.contains (.scope q) with
      | true =>
        rw [if_pos rfl]
        exact ⟨fun ⟨a, _, h⟩ => (by cases (Prod.mk.inj h).1), fun h => (by cases h.1)⟩
      | false =>
        rw [if_neg nofun]
        constructor
        · rintro ⟨a, rfl, h⟩; cases h; exact ⟨rfl, nofun, rfl, rfl⟩
        · rintro ⟨-, -, rfl, rfl⟩; exact ⟨(), rfl, rfl⟩
    | some k =>
      dsimp only
      cases hk : s.held.contains (.def_ q k) with
      | true =>
        rw [if_pos rfl]
        exact ⟨fun ⟨a, _, h⟩ => (by cases (Prod.mk.inj h).1), fun h => (by have := h.2.1 k rfl; rw [hk] at this; cases this)⟩
      | false =>
        rw [if_neg nofun]
        cases hh : s.held.contains (.scope q) with
        | true =>
          rw [if_pos rfl]
          exact ⟨fun ⟨a, _, h⟩ => (by cases (Prod.mk.inj h).1), fun h => (by cases h.1)⟩
        | false =>
          rw [if_neg nofun]
          constructor
          · rintro ⟨a, rfl, h⟩; cases h; exact ⟨rfl, fun k' h => by cases h; exact hk, rfl, rfl⟩
          · rintro ⟨-, -, rfl, rfl⟩; exact ⟨(), rfl, rfl⟩
  rw [← key, evE_lift]
  exact exists_congr fun a => and_congr_right' ev_doOp

theorem definition_iff {names vals : List Code} {sp : Nat} {env : Env} {s s' : St} {r : Except Err Unit} :
    EvE H (Evals H) (defP names vals sp env) s r s' ↔ Spec.Definition H names vals sp env s r s' := by
  have hN : ∀ {x : Res} {t : St}, Evals H (.codes names 0 sp { env with gd := { env.gd with undefEqText := true }, ret := s.nlist + 1 })
      (Spec.fresh (Spec.fresh s)) x t → Spec.NameEval H names sp env s x.r t := fun h => ⟨_, h, rfl⟩
  rw [defP, evE_newList_bind]
  dsimp only
  rw [evE_split2a_bind]
  constructor
  · rintro (⟨x, s1, h1, h2, h⟩ | ⟨x, e, h1, h2, rfl⟩)
    · have n1 : Spec.NameEval H names sp env s (.ok ()) s1 := ⟨x, h1, h2⟩
      dsimp only at h
      rw [evE_getSt_bind] at h
      obtain ⟨y, hy, hz⟩ := marks_defRems s1 (Spec.nameMarks (s.nlist + 1) s1) usizeMax 0 env.q
      rw [show (Spec.fresh s).nlist = s.nlist + 1 from rfl, hy, evE_ofOut_bind] at h
      rcases h with ⟨m, hm, h⟩ | ⟨e, he, rfl, rfl⟩
      · cases y with
        | error e => cases hm
        | ok m' =>
          cases hm
          obtain ⟨n, b, q⟩ := m'
          have n2 := (hz _).2 rfl
          dsimp only at h
          rw [split2b, evE_callE_bind] at h
          rcases h with ⟨x2, s2, h3, h4, h⟩ | ⟨x2, e, h3, h4, rfl⟩
          · have n3 : Spec.RestEval H names sp env s.nlist s1 (.ok ()) s2 := ⟨x2, h3, h4⟩
            by_cases he : (s1.lists (s.nlist + 1)).text = []
            · rw [he] at h
              obtain ⟨rfl, rfl⟩ := evE_fail.1 h
              exact .noName n1 n2 n3 he
            · rw [if_neg (by simpa using he), evE_getSt_bind] at h
              split at h
              · rename_i d hd
                obtain ⟨rfl, rfl⟩ := evE_fail.1 h
                exact .covered n1 n2 n3 rfl he (cover_some.1 hd)
              · rename_i hd
                have n4 := cover_none.1 hd
                rw [evE_helloNew_bind] at h
                rcases h with ⟨x3, s3, h5, h6, h⟩ | ⟨x3, e, h5, h6, rfl⟩
                · have n5 : Spec.TextEval H vals env s2 (.ok ()) s3 := ⟨x3, h5, h6⟩
                  rw [evE_getSt_bind] at h
                  rw [evE_touch_bind] at h
                  obtain ⟨h7, h⟩ := h
                  split at h
                  · rename_i e ha
                    obtain ⟨rfl, rfl⟩ := evE_fail.1 h
                    exact .badArgs n1 n2 n3 rfl he n4 n5 h7 ha
                  · rename_i ns ha
                    obtain ⟨-, h8, rfl, rfl⟩ := evE_setDef.1 h
                    refine .done n1 n2 n3 rfl he n4 n5 h7 ha ?_ h8
                    simp only [List.isEmpty_iff]
                · exact .badText n1 n2 n3 rfl he n4 ⟨x3, h5, h6⟩
          · exact .badRest n1 n2 ⟨x2, h3, h4⟩
      · cases y with
        | ok m => cases he
        | error e' => cases he; exact .badMarks n1 ((hz _).2 rfl)
    · exact .badName ⟨x, h1, h2⟩
  · intro h
    have stage : ∀ {s1 : St} {m : Except Err (Nat × Nat × Nat)}, Spec.Marks s1 (Spec.nameMarks (s.nlist + 1) s1) (usizeMax, 0, env.q) m →
        defRems s1 (Spec.nameMarks (s.nlist + 1) s1) usizeMax 0 (some env.q) = .ok (m.map fun p => (p.1, p.2.1, some p.2.2)) := by
      intro s1 m hm
      obtain ⟨y, hy, hz⟩ := marks_defRems s1 (Spec.nameMarks (s.nlist + 1) s1) usizeMax 0 env.q
      rw [(hz _).1 hm]; exact hy
    cases h with
    | badName h => obtain ⟨x, h1, h2⟩ := h; exact .inr ⟨x, _, h1, h2, rfl⟩
    | badMarks h hm =>
      obtain ⟨x, h1, h2⟩ := h
      refine .inl ⟨x, _, h1, h2, ?_⟩
      dsimp only
      rw [evE_getSt_bind, show (Spec.fresh s).nlist = s.nlist + 1 from rfl, stage hm, evE_ofOut_bind]
      exact .inr ⟨_, rfl, rfl, rfl⟩
    | badRest h hm h3 =>
      obtain ⟨x, h1, h2⟩ := h
      obtain ⟨x2, h3, h4⟩ := h3
      refine .inl ⟨x, _, h1, h2, ?_⟩
      dsimp only
      rw [evE_getSt_bind, show (Spec.fresh s).nlist = s.nlist + 1 from rfl, stage hm, evE_ofOut_bind]
      refine .inl ⟨_, rfl, ?_⟩
      dsimp only
      rw [split2b, evE_callE_bind]
      exact .inr ⟨x2, _, h3, h4, rfl⟩
    | noName h hm h3 he =>
      obtain ⟨x, h1, h2⟩ := h
      obtain ⟨x2, h3, h4⟩ := h3
      refine .inl ⟨x, _, h1, h2, ?_⟩
      dsimp only
      rw [evE_getSt_bind, show (Spec.fresh s).nlist = s.nlist + 1 from rfl, stage hm, evE_ofOut_bind]
      refine .inl ⟨_, rfl, ?_⟩
      dsimp only
      rw [split2b, evE_callE_bind]
      refine .inl ⟨x2, _, h3, h4, ?_⟩
      rw [if_pos (by simpa using he)]
      exact evE_fail.2 ⟨rfl, rfl⟩
    | covered h hm h3 hn he hd =>
      obtain ⟨x, h1, h2⟩ := h
      obtain ⟨x2, h3, h4⟩ := h3
      subst hn
      refine .inl ⟨x, _, h1, h2, ?_⟩
      dsimp only
      rw [evE_getSt_bind, show (Spec.fresh s).nlist = s.nlist + 1 from rfl, stage hm, evE_ofOut_bind]
      refine .inl ⟨_, rfl, ?_⟩
      dsimp only
      rw [split2b, evE_callE_bind]
      refine .inl ⟨x2, _, h3, h4, ?_⟩
      rw [if_neg (by simpa using he), evE_getSt_bind, cover_some.2 hd]
      exact evE_fail.2 ⟨rfl, rfl⟩
    | badText h hm h3 hn he hd h5 =>
      obtain ⟨x, h1, h2⟩ := h
      obtain ⟨x2, h3, h4⟩ := h3
      obtain ⟨x3, h5, h6⟩ := h5
      subst hn
      refine .inl ⟨x, _, h1, h2, ?_⟩
      dsimp only
      rw [evE_getSt_bind, show (Spec.fresh s).nlist = s.nlist + 1 from rfl, stage hm, evE_ofOut_bind]
      refine .inl ⟨_, rfl, ?_⟩
      dsimp only
      rw [split2b, evE_callE_bind]
      refine .inl ⟨x2, _, h3, h4, ?_⟩
      rw [if_neg (by simpa using he), evE_getSt_bind, cover_none.2 hd]
      dsimp only
      rw [evE_helloNew_bind]
      exact .inr ⟨x3, _, h5, h6, rfl⟩
    | badArgs h hm h3 hn he hd h5 h7 ha =>
      obtain ⟨x, h1, h2⟩ := h
      obtain ⟨x2, h3, h4⟩ := h3
      obtain ⟨x3, h5, h6⟩ := h5
      subst hn
      unfold Spec.argNames at ha
      refine .inl ⟨x, _, h1, h2, ?_⟩
      dsimp only
      rw [evE_getSt_bind, show (Spec.fresh s).nlist = s.nlist + 1 from rfl, stage hm, evE_ofOut_bind]
      refine .inl ⟨_, rfl, ?_⟩
      dsimp only
      rw [split2b, evE_callE_bind]
      refine .inl ⟨x2, _, h3, h4, ?_⟩
      rw [if_neg (by simpa using he), evE_getSt_bind, cover_none.2 hd]
      dsimp only
      rw [evE_helloNew_bind]
      refine .inl ⟨x3, _, h5, h6, ?_⟩
      rw [evE_getSt_bind]
      rw [evE_touch_bind, ha]
      exact ⟨h7, evE_fail.2 ⟨rfl, rfl⟩⟩
    | done h hm h3 hn he hd h5 h7 ha hdd h8 =>
      obtain ⟨x, h1, h2⟩ := h
      obtain ⟨x2, h3, h4⟩ := h3
      obtain ⟨x3, h5, h6⟩ := h5
      subst hn hdd
      unfold Spec.argNames at ha
      refine .inl ⟨x, _, h1, h2, ?_⟩
      dsimp only
      rw [evE_getSt_bind, show (Spec.fresh s).nlist = s.nlist + 1 from rfl, stage hm, evE_ofOut_bind]
      refine .inl ⟨_, rfl, ?_⟩
      dsimp only
      rw [split2b, evE_callE_bind]
      refine .inl ⟨x2, _, h3, h4, ?_⟩
      rw [if_neg (by simpa using he), evE_getSt_bind, cover_none.2 hd]
      dsimp only
      rw [evE_helloNew_bind]
      refine .inl ⟨x3, _, h5, h6, ?_⟩
      rw [evE_getSt_bind]
      rw [evE_touch_bind, ha]
      refine ⟨h7, evE_setDef.2 ?_⟩
      simp only [List.isEmpty_iff]
      exact ⟨h7, h8, trivial, trivial⟩

/-- **C63.** What `定义` does, exactly. -/
theorem C63_definition {names vals : List Code} {sp : Nat} {env : Env} {s s' : St} {r : Res} :
    Evals H (.item (.def_ names vals sp) env) s r s' ↔ ∃ x, Spec.Definition H names vals sp env s x s' ∧ r = { r := x } := by
  rw [evals_item]
  exact exists_congr fun x => and_congr_left' definition_iff

/-- An accepted name is not hidden by a definition that could be used when it was looked at. -/
theorem C63_not_covered {names vals : List Code} {sp : Nat} {env : Env} {s s' : St}
    (h : Spec.Definition H names vals sp env s (.ok ()) s') :
    ∃ s1 s2 s3 n b q ns, Spec.NameEval H names sp env s (.ok ()) s1 ∧ Spec.RestEval H names sp env s.nlist s1 (.ok ()) s2 ∧
      Spec.TextEval H vals env s2 (.ok ()) s3 ∧
      (s1.lists (s.nlist + 1)).text ≠ [] ∧
      (∀ p ∈ Spec.seen s2 env.q, ∀ d ∈ (s2.scopes p).defs, d.name0 <+: (s1.lists (s.nlist + 1)).text →
        d.name0 = (s1.lists (s.nlist + 1)).text) ∧
      s' = Spec.defined q (Def.mk' (s1.lists (s.nlist + 1)).text (.s (s3.lists s2.nlist).text) n b ns) s3 := by
  cases h with
  | done h1 h2 h3 h4 h5 h6 h7 h8 h9 h10 h11 =>
    subst h4 h10
    refine ⟨_, _, _, _, _, _, _, h1, h3, h7, h5, fun p hp d hd hpre => ?_, rfl⟩
    exact Classical.byContradiction fun hne => h6 p hp d hd ⟨hpre, hne⟩

theorem setDef_place (d : Def) (ds : List Def) (hsame : ∀ e ∈ ds, e.name = d.name → e.name0 = d.name0) :
    ∃ k : Nat, (setDef d ds)[k]? = some d ∧ ∀ (k' : Nat) e, k' < k → (setDef d ds)[k']? = some e → e ∈ ds ∧ e.name ≠ d.name := by
  induction ds with
  | nil => exact ⟨0, rfl, fun k' _ h => absurd h (Nat.not_lt_zero _)⟩
  | cons a ds ih =>
    rw [setDef]
    by_cases ha : a.name = d.name
    · rw [if_pos ha]
      refine ⟨0, ?_, fun k' _ h => absurd h (Nat.not_lt_zero _)⟩
      rw [List.getElem?_cons_zero, hsame a (by simp) ha, ha]
    · rw [if_neg ha]
      obtain ⟨k, h1, h2⟩ := ih fun e he => hsame e (by simp [he])
      refine ⟨k + 1, h1, fun k' e hk he => ?_⟩
      cases k' with
      | zero =>
        simp only [List.getElem?_cons_zero, Option.some.injEq] at he
        subst he
        exact ⟨by simp, ha⟩
      | succ k' =>
        obtain ⟨a1, a2⟩ := h2 k' e (Nat.lt_of_succ_lt_succ hk) he
        exact ⟨by simp [a1], a2⟩

/-- **C63.** A definition made in its own scope is the one that is called by its name, if evaluating its text brought no
definition that hides it (`hc`), no longer name of the scope fits the text (`hl`), and no other definition of the scope has
its name or its pattern (`hn`, `hp`). -/
theorem C63_callable_partial {s : St} {q : Nat} {name v : Str} {val : DefVal} {argc back : Nat} {ns : ArgNames} {d : Def}
    (hd : d = Def.mk' name val argc back ns) (h0 : name ≠ []) (hc : Spec.NotCovered s q name)
    (hl : ∀ e ∈ (s.scopes q).defs, e.name0 <+: name ++ v → e.name0 <+: name)
    (hn : ∀ e ∈ (s.scopes q).defs, e.name0 = name → e.name = d.name)
    (hp : ∀ e ∈ (s.scopes q).defs, e.name = d.name → e.name0 = name) :
    ∃ k, Spec.FirstCall (Spec.defined q d s) q [] (name ++ v) [] q k d v := by
  have hd0 : d.name0 = name := by rw [hd]; rfl
  have hq : ∀ t : St, (Spec.seen t q)[0]? = some q := by
    intro t
    unfold Spec.seen Spec.visible
    rw [chain]
    rfl
  have hmem : q ∈ Spec.seen s q := List.mem_of_getElem? (hq s)
  have hdefs : ((Spec.defined q d s).scopes q).defs = setDef d (s.scopes q).defs := by simp [Spec.defined, upd]
  obtain ⟨k, h1, h2⟩ := setDef_place d (s.scopes q).defs fun e he h => by rw [hd0]; exact hp e he h
  refine ⟨k, ⟨by rw [hd0]; rfl, by rw [hd0]; simp [h0], ?_, ⟨0, hq _, fun j _ h => absurd h (Nat.not_lt_zero _)⟩,
    by rw [hdefs]; exact h1, nofun, ?_⟩⟩
  · intro u1 u2 hu hu2
    exact absurd (List.append_eq_nil_iff.1 hu.symm).2 hu2
  · intro k' e hk he hb
    rw [hdefs] at he
    obtain ⟨h3, h4⟩ := h2 k' e hk he
    have hpre := hl e h3 (by rw [← hd0]; exact hb.2)
    have : e.name0 = name := Classical.byContradiction fun hne => hc q hmem e h3 ⟨hpre, hne⟩
    exact h4 (hn e h3 this)

/-- The message of a failed run. -/
def Spec.complaint : Out (Except Err Unit) → Option Str
  | .ok (.error e) => some e.s
  | _ => none

/-- What a script sees: a name that a shorter one hides is refused, the longer name may come first; an unknown annotation and
a bad number are errors; `顶` defines in the outermost scope. -/
theorem C63_example :
    Spec.complaint (demo 80 c!"定义甲以“1”。定义甲乙以“2”。").1 = some c!"定义名“甲乙”被“甲”覆盖" ∧
    demo 80 c!"定义甲乙【无参】以“2”。定义甲【无参】以“1”。显示甲乙。显示甲。" = (.ok (.ok ()), [.out c!"2", .out c!"1"]) ∧
    Spec.complaint (demo 80 c!"定义甲【怪】以“2”。").1 = some c!"注解“怪”不支持" ∧
    demo 80 c!"定义甲【无参】【顶】以“2”。显示甲。" = (.ok (.ok ()), [.out c!"2"]) := by
  decide +kernel

/-- Found: a definition with separators takes the place of one whose name looks like its pattern, and keeps that name: here
neither `甲5加` nor `甲.加` calls anything afterwards. -/
theorem C63_pattern_counterexample :
    demo 80 c!"定义甲.加以“1”。显示甲.加。" = (.ok (.ok ()), [.out c!"1"]) ∧
    demo 80 c!"定义甲、丙、加【隔】以“2”。显示甲5加。" = (.ok (.ok ()), [.out c!"2"]) ∧
    demo 80 c!"定义甲.加以“1”。定义甲、丙、加【隔】以“2”。显示甲.加。显示甲5加。" =
      (.ok (.ok ()), [.out c!"甲.加", .out c!"甲5加"]) := by
  decide +kernel

/-- Found: names are looked at before the text is evaluated; a definition made there hides the new one. -/
theorem C63_text_counterexample :
    demo 80 c!"定义甲乙【无参】以先定义甲【无参】以“1”。了。显示甲乙。" = (.ok (.ok ()), [.out c!"1乙"]) := by
  decide +kernel

end Zh
