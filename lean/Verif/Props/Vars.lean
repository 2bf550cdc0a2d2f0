import Verif.Model.Vars
import Verif.Props.Misc
import Mathlib.Data.List.Induction
/-!
# C11-C14: variables, definitions, scope lookup
-/
namespace Zh

/-! ## C12 -/

/-- The variables of a scope after a history of assignments, oldest first. -/
def Spec.varsAfter (hist : List Var) : List Var := hist.foldl (fun vs v => setVar v vs) []

theorem setVar_names (v : Var) (vs : List Var) :
    (setVar v vs).map (·.name) =
      if v.name ∈ vs.map (·.name) then vs.map (·.name) else vs.map (·.name) ++ [v.name] := by
  induction vs with
  | nil => simp [setVar]
  | cons w ws ih =>
    simp only [setVar]
    by_cases h : w.name = v.name
    · simp [h]
    · have h' : ¬ v.name = w.name := fun e => h e.symm
      rw [if_neg h]
      simp only [List.map_cons, ih, List.mem_cons, h', false_or]
      split <;> simp

theorem setVar_nodup (v : Var) (vs : List Var) (h : (vs.map (·.name)).Nodup) :
    ((setVar v vs).map (·.name)).Nodup := by
  rw [setVar_names]
  split
  · exact h
  · rename_i hn
    exact List.nodup_append.2 ⟨h, by simp, by
      intro a ha b hb; simp at hb; subst hb; intro e; exact hn (e ▸ ha)⟩

theorem varsAfter_snoc (hist : List Var) (v : Var) :
    Spec.varsAfter (hist ++ [v]) = setVar v (Spec.varsAfter hist) := by
  simp [Spec.varsAfter]

theorem varsAfter_nodup (hist : List Var) : ((Spec.varsAfter hist).map (·.name)).Nodup := by
  induction hist using List.reverseRecOn with
  | nil => simp [Spec.varsAfter]
  | append_singleton hist v ih => rw [varsAfter_snoc]; exact setVar_nodup v _ ih

/-- **C12.** A name is stored at most once; exactly the assigned names are stored; a later assignment
never moves or removes a name (old names keep their places, new ones go to the end). -/
theorem C12_stored_once (hist more : List Var) :
    ((Spec.varsAfter hist).map (·.name)).Nodup ∧
    (∀ n, n ∈ (Spec.varsAfter hist).map (·.name) ↔ n ∈ hist.map (·.name)) ∧
    (Spec.varsAfter hist).map (·.name) <+: (Spec.varsAfter (hist ++ more)).map (·.name) := by
  refine ⟨varsAfter_nodup hist, ?_, ?_⟩
  · induction hist using List.reverseRecOn with
    | nil => simp [Spec.varsAfter]
    | append_singleton hist v ih =>
      intro n
      rw [varsAfter_snoc, setVar_names, List.map_append, List.mem_append, ← ih n]
      split
      · rename_i h
        constructor
        · exact Or.inl
        · rintro (h' | h')
          · exact h'
          · simp at h'; subst h'; exact h
      · simp
  · induction more using List.reverseRecOn with
    | nil => simp
    | append_singleton more v ih =>
      rw [← List.append_assoc, varsAfter_snoc, setVar_names]
      split
      · exact ih
      · exact ih.trans (List.prefix_append _ _)

theorem findVar_setVar (ns : Bool) (n : Str) (v : Var) (vs : List Var)
    (h : (vs.map (·.name)).Nodup) :
    findVar ns n (setVar v vs) =
      if v.name = n then (if ns && v.priv then none else some v) else findVar ns n vs := by
  unfold findVar
  induction vs with
  | nil =>
    simp only [setVar, List.find?_cons, List.find?_nil]
    by_cases e : v.name = n
    · cases ns <;> cases hp : v.priv <;> simp [e]
    · have hb : (v.name == n) = false := beq_eq_false_iff_ne.2 e
      simp [e, hb]
  | cons w ws ih =>
    simp only [List.map_cons, List.nodup_cons] at h
    have ih := ih h.2
    simp only [setVar]
    by_cases hw : w.name = v.name
    · rw [if_pos hw]
      simp only [List.find?_cons]
      by_cases e : v.name = n
      · have hnone : ∀ x ∈ ws, ¬ x.name = n := by
          intro x hx hxn
          exact h.1 (List.mem_map.2 ⟨x, hx, by rw [hxn, hw, e]⟩)
        cases ns <;> cases hp : v.priv <;> simp [e]
        intro x hx hpx
        exact hnone x hx
      · have : ¬ w.name = n := by rw [hw]; exact e
        have hb : (v.name == n) = false := beq_eq_false_iff_ne.2 e
        have hb2 : (w.name == n) = false := beq_eq_false_iff_ne.2 this
        simp [e, hb, hb2]
    · rw [if_neg hw]
      simp only [List.find?_cons]
      rw [ih]
      by_cases e : v.name = n
      · have : ¬ w.name = n := by rw [← e]; exact hw
        have hb2 : (w.name == n) = false := beq_eq_false_iff_ne.2 this
        simp [e, hb2]
      · simp [e]

/-- **C12.** Reading a name gives the latest assignment to it in the history; nothing if there was
none. -/
theorem C12_latest_assignment (hist : List Var) (n : Str) :
    findVar false n (Spec.varsAfter hist) = hist.reverse.find? (fun v => v.name == n) := by
  induction hist using List.reverseRecOn with
  | nil => rfl
  | append_singleton hist v ih =>
    rw [varsAfter_snoc, findVar_setVar _ _ _ _ (varsAfter_nodup hist), ih]
    simp only [List.reverse_append, List.reverse_cons, List.reverse_nil, List.nil_append,
      List.cons_append, List.find?_cons]
    by_cases e : v.name = n
    · simp [e]
    · have hb : (v.name == n) = false := beq_eq_false_iff_ne.2 e
      simp [e, hb]

/-- **C12.** Seen from an inner scope the same, except that a name whose latest assignment was private
is not there. -/
theorem C12_latest_assignment_outside (hist : List Var) (n : Str) :
    findVar true n (Spec.varsAfter hist) =
      (hist.reverse.find? (fun v => v.name == n)).filter (fun v => !v.priv) := by
  induction hist using List.reverseRecOn with
  | nil => rfl
  | append_singleton hist v ih =>
    rw [varsAfter_snoc, findVar_setVar _ _ _ _ (varsAfter_nodup hist), ih]
    simp only [List.reverse_append, List.reverse_cons, List.reverse_nil, List.nil_append,
      List.cons_append, List.find?_cons]
    by_cases e : v.name = n
    · cases hp : v.priv <;> simp [e, hp, Option.filter]
    · have hb : (v.name == n) = false := beq_eq_false_iff_ne.2 e
      simp [e, hb]

/-- **C12.** Assigning one name does not change what another name reads. -/
theorem C12_independent (hist : List Var) (v : Var) (n : Str) (ns : Bool) (h : v.name ≠ n) :
    findVar ns n (Spec.varsAfter (hist ++ [v])) = findVar ns n (Spec.varsAfter hist) := by
  rw [varsAfter_snoc, findVar_setVar _ _ _ _ (varsAfter_nodup hist), if_neg h]

example :
    let a : Var := ⟨c!"a", ⟨0, .s c!"1"⟩, false, false, false⟩
    let b : Var := ⟨c!"b", ⟨1, .s c!"2"⟩, false, true, false⟩
    let a' : Var := ⟨c!"a", ⟨2, .s c!"3"⟩, false, false, true⟩
    Spec.varsAfter [a, b, a'] = [a', b] ∧ findVar true c!"b" (Spec.varsAfter [a, b, a']) = none := by
  decide

/-! ## C14 -/

/-- What a definition statement provides: base name, body, arities, argument names. -/
structure Spec.DefIn where
  name : Str
  val : DefVal
  argc : Nat
  backarg : Nat
  names : ArgNames

/-- Its full pattern. -/
def Spec.DefIn.pattern (d : Spec.DefIn) : Str := mkArg0 d.name d.names

/-- The definitions of a scope after a history of definitions, oldest first. -/
def Spec.defsAfter (hist : List Spec.DefIn) : List Def :=
  hist.foldl (fun ds d => setDef (Def.mk' d.name d.val d.argc d.backarg d.names) ds) []

theorem setDef_names (d : Def) (ds : List Def) :
    (setDef d ds).map (·.name) =
      if d.name ∈ ds.map (·.name) then ds.map (·.name) else ds.map (·.name) ++ [d.name] := by
  induction ds with
  | nil => simp [setDef]
  | cons w ws ih =>
    simp only [setDef]
    by_cases h : w.name = d.name
    · simp [h]
    · have h' : ¬ d.name = w.name := fun e => h e.symm
      rw [if_neg h]
      simp only [List.map_cons, ih, List.mem_cons, h', false_or]
      split <;> simp

theorem defsAfter_snoc (hist : List Spec.DefIn) (d : Spec.DefIn) :
    Spec.defsAfter (hist ++ [d]) =
      setDef (Def.mk' d.name d.val d.argc d.backarg d.names) (Spec.defsAfter hist) := by
  simp [Spec.defsAfter]

theorem mk'_name (d : Spec.DefIn) : (Def.mk' d.name d.val d.argc d.backarg d.names).name = d.pattern := rfl

theorem defsAfter_nodup (hist : List Spec.DefIn) : ((Spec.defsAfter hist).map (·.name)).Nodup := by
  induction hist using List.reverseRecOn with
  | nil => simp [Spec.defsAfter]
  | append_singleton hist d ih =>
    rw [defsAfter_snoc, setDef_names]
    split
    · exact ih
    · rename_i hn
      exact List.nodup_append.2 ⟨ih, by simp, by
        intro a ha b hb; simp at hb; subst hb; intro e; exact hn (e ▸ ha)⟩

/-- **C14.** No full pattern is stored twice; exactly the defined patterns are stored; redefining
keeps the place (priority) of every pattern and a new pattern goes to the end. -/
theorem C14_stored_once (hist more : List Spec.DefIn) :
    ((Spec.defsAfter hist).map (·.name)).Nodup ∧
    (∀ n, n ∈ (Spec.defsAfter hist).map (·.name) ↔ n ∈ hist.map (·.pattern)) ∧
    (Spec.defsAfter hist).map (·.name) <+: (Spec.defsAfter (hist ++ more)).map (·.name) := by
  refine ⟨defsAfter_nodup hist, ?_, ?_⟩
  · induction hist using List.reverseRecOn with
    | nil => simp [Spec.defsAfter]
    | append_singleton hist v ih =>
      intro n
      rw [defsAfter_snoc, setDef_names, List.map_append, List.mem_append, ← ih n, mk'_name]
      split
      · rename_i h
        constructor
        · exact Or.inl
        · rintro (h' | h')
          · exact h'
          · simp at h'; subst h'; exact h
      · simp
  · induction more using List.reverseRecOn with
    | nil => simp
    | append_singleton more v ih =>
      rw [← List.append_assoc, defsAfter_snoc, setDef_names]
      split
      · exact ih
      · exact ih.trans (List.prefix_append _ _)

theorem find_setDef (n : Str) (d : Def) (ds : List Def) :
    ((setDef d ds).find? (fun e => e.name == n)) =
      if d.name = n then
        some (match ds.find? (fun e => e.name == n) with
          | some e => { d with name0 := e.name0 }
          | none => d)
      else ds.find? (fun e => e.name == n) := by
  induction ds with
  | nil =>
    simp only [setDef, List.find?_cons, List.find?_nil]
    by_cases e : d.name = n
    · simp [e]
    · have hb : (d.name == n) = false := beq_eq_false_iff_ne.2 e
      simp [e, hb]
  | cons w ws ih =>
    simp only [setDef]
    by_cases hw : w.name = d.name
    · rw [if_pos hw]
      simp only [List.find?_cons]
      by_cases e : d.name = n
      · simp [hw, e]

      · have : ¬ w.name = n := by rw [hw]; exact e
        have hb : (d.name == n) = false := beq_eq_false_iff_ne.2 e
        have hb2 : (w.name == n) = false := beq_eq_false_iff_ne.2 this
        simp [e, hw, hb, hb2]
    · rw [if_neg hw]
      simp only [List.find?_cons]
      rw [ih]
      by_cases e : d.name = n
      · have : ¬ w.name = n := by rw [← e]; exact hw
        have hb2 : (w.name == n) = false := beq_eq_false_iff_ne.2 this
        simp [e, hb2]
      · simp [e]

/-- **C14.** Looking a full pattern up gives the body, arities and argument names of the latest
definition with that pattern, and the base name (by which the text scan finds it) of the first one. -/
theorem C14_latest_definition (hist : List Spec.DefIn) (n : Str) :
    (Spec.defsAfter hist).find? (fun e => e.name == n) =
      (hist.reverse.find? (fun d => d.pattern == n)).bind fun last =>
        (hist.find? (fun d => d.pattern == n)).map fun first =>
          ⟨n, first.name, last.names, last.val, last.argc, last.backarg⟩ := by
  induction hist using List.reverseRecOn with
  | nil => rfl
  | append_singleton hist d ih =>
    rw [defsAfter_snoc, find_setDef, ih, mk'_name]
    simp only [List.reverse_append, List.reverse_cons, List.reverse_nil, List.nil_append,
      List.cons_append, List.find?_cons, List.find?_append, List.find?_nil]
    by_cases e : d.pattern = n
    · simp only [e, if_true, beq_self_eq_true, Option.bind_some]
      cases hf : hist.find? (fun d => d.pattern == n) with
      | none =>
        have : hist.reverse.find? (fun d => d.pattern == n) = none := by
          rw [List.find?_eq_none] at hf ⊢
          intro x hx; exact hf x (List.mem_reverse.1 hx)
        simp [this, Def.mk', ← e, Spec.DefIn.pattern]
      | some first =>
        cases hl : hist.reverse.find? (fun d => d.pattern == n) with
        | none =>
          rw [List.find?_eq_none] at hl
          exact absurd (List.find?_some hf) (hl first (List.mem_reverse.2 (List.mem_of_find?_eq_some hf)))
        | some last => simp [Def.mk', ← e, Spec.DefIn.pattern]
    · have hb : (d.pattern == n) = false := beq_eq_false_iff_ne.2 e
      simp [e, hb]

/-- **C14, counterexample.** Two base names can have the same full pattern; then the redefinition is
found by the text scan under the old base name only: after defining `a【隔】b`-style pattern "ab" from
base name "a" and then the plain word "ab", the scan finds the new body at the text "a". -/
theorem C14_base_name_counterexample :
    let d1 : Spec.DefIn := ⟨c!"a", .s c!"x", 1, 0, ⟨[⟨c!"b", 0, true, false⟩], true⟩⟩
    let d2 : Spec.DefIn := ⟨c!"ab", .s c!"y", 0, 0, ⟨[], false⟩⟩
    d1.pattern = d2.pattern ∧
    findDefAt c!"a" 0 [] (Spec.defsAfter [d1, d2]) = some (0, 1) ∧
    (Spec.defsAfter [d1, d2]).map (·.val) = [.s c!"y"] ∧
    findDefAt c!"a" 0 [] (Spec.defsAfter [d2]) = none := by
  decide

/-! ## The chain of scopes -/

/-- `ps` are the scopes from `q` to the top, nearest first: specification by the parent links. -/
inductive Spec.Path (scopes : Nat → Scope) : Nat → List Nat → Prop where
  | top {q} : (scopes q).up = none → Path scopes q [q]
  | up {q p ps} : (scopes q).up = some p → Path scopes p ps → Path scopes q (q :: ps)

/-- In every reachable state parents are older than their children (C42). -/
def Spec.ParentsOlder (scopes : Nat → Scope) : Prop := ∀ q p, (scopes q).up = some p → p < q

theorem chain_path (scopes : Nat → Scope) (h : Spec.ParentsOlder scopes) (q : Nat) :
    Spec.Path scopes q (chain scopes q) := by
  induction q using Nat.strongRecOn with
  | ind q ih =>
    rw [chain]
    cases hu : (scopes q).up with
    | none => exact .top hu
    | some p =>
      have hp := h q p hu
      simp only [hp, dif_pos]
      exact .up hu (ih p hp)

theorem path_chain (scopes : Nat → Scope) (h : Spec.ParentsOlder scopes) {q : Nat} {ps : List Nat}
    (hp : Spec.Path scopes q ps) : chain scopes q = ps := by
  induction hp with
  | top hu => rw [chain]; simp [hu]
  | up hu _ ih => rw [chain]; simp [hu, h _ _ hu, ih]

/-- The scopes looked at, nearest first: those on the path, then the modules in load order. -/
def Spec.visible (ps mods : List Nat) : List Nat := ps ++ mods

theorem findSome_nth {α β : Type} (f : α → Option β) (l : List α) (b : β) :
    l.findSome? f = some b ↔ ∃ (i : Nat) (x : α), l[i]? = some x ∧ f x = some b ∧
      ∀ (j : Nat) y, j < i → l[j]? = some y → f y = none := by
  induction l with
  | nil => simp
  | cons a l ih =>
    rw [List.findSome?_cons]
    cases hf : f a with
    | some c =>
      simp only [Option.some.injEq]
      constructor
      · rintro rfl
        exact ⟨0, a, rfl, hf, by intro j y hj; omega⟩
      · rintro ⟨i, x, h1, h2, h3⟩
        cases i with
        | zero => simp at h1; subst h1; rw [hf] at h2; exact Option.some.inj h2
        | succ i => have := h3 0 a (by omega) rfl; rw [hf] at this; cases this
    | none =>
      simp only [ih]
      constructor
      · rintro ⟨i, x, h1, h2, h3⟩
        refine ⟨i + 1, x, by simpa using h1, h2, ?_⟩
        intro j y hj hy
        cases j with
        | zero => simp at hy; subst hy; exact hf
        | succ j => exact h3 j y (by omega) (by simpa using hy)
      · rintro ⟨i, x, h1, h2, h3⟩
        cases i with
        | zero => simp at h1; subst h1; rw [hf] at h2; cases h2
        | succ i =>
          refine ⟨i, x, by simpa using h1, h2, ?_⟩
          intro j y hj hy
          exact h3 (j + 1) y (by omega) (by simpa using hy)

/-! ## C13 -/

/-- What scope `p` has under `name`: a variable (not a private one when seen from elsewhere), else a
definition whose full pattern is `name`, else an argument name.  Specification of "has". -/
inductive Spec.Has (q : Scope) (name : Str) (outside : Bool) : GetAct → (isHas equ : Bool) → Prop where
  | var {v isHas equ} : v ∈ q.vars → v.name = name → ¬ (outside = true ∧ v.priv = true) →
      Has q name outside (v.act isHas equ) isHas equ
  | def_ {d isHas equ} : (∀ v ∈ q.vars, v.name = name → outside = true ∧ v.priv = true) →
      q.defs.find? (fun d => d.name == name) = some d →
      Has q name outside (.text (if isHas then c!"1" else d.val.text)) isHas equ
  | arg {names i isHas equ} : (∀ v ∈ q.vars, v.name = name → outside = true ∧ v.priv = true) →
      (∀ d ∈ q.defs, d.name ≠ name) → q.argnames = some names →
      names.a.find? (fun i => !i.ge && i.s == name) = some i →
      Has q name outside (.arg i.i i.equ) isHas equ

theorem findVar_none (ns : Bool) (n : Str) (vs : List Var) :
    findVar ns n vs = none ↔ ∀ v ∈ vs, v.name = n → ns = true ∧ v.priv = true := by
  unfold findVar
  rw [List.find?_eq_none]
  constructor
  · intro h v hv e
    have := h v hv
    cases ns <;> cases hp : v.priv <;> simp_all
  · intro h v hv
    cases ns <;> cases hp : v.priv <;> simp_all
    intro e; have := h v hv e; simp_all

theorem nodup_map_inj {α β : Type} {f : α → β} {l : List α} (h : (l.map f).Nodup) {a b : α}
    (ha : a ∈ l) (hb : b ∈ l) (e : f a = f b) : a = b := by
  induction l with
  | nil => cases ha
  | cons x xs ih =>
    simp only [List.map_cons, List.nodup_cons, List.mem_map, not_exists, not_and] at h
    rcases List.mem_cons.1 ha with rfl | ha' <;> rcases List.mem_cons.1 hb with rfl | hb'
    · rfl
    · exact absurd e.symm (h.1 b hb')
    · exact absurd e (h.1 a ha')
    · exact ih h.2 ha' hb'

theorem get_iff (q : Scope) (name : Str) (isHas equ ns : Bool) (hn : (q.vars.map (·.name)).Nodup) (a : GetAct) :
    q.get name isHas equ ns = some a ↔ Spec.Has q name ns a isHas equ := by
  unfold Scope.get
  cases hv : findVar ns name q.vars with
  | some v =>
    have h1 := List.mem_of_find?_eq_some hv
    have h2 := List.find?_some hv
    have h2n : v.name = name := by
      cases ns <;> cases hp : v.priv <;> simp_all
    have h2p : ¬ (ns = true ∧ v.priv = true) := by
      cases ns <;> cases hp : v.priv <;> simp_all
    constructor
    · intro h; cases h; exact .var h1 h2n h2p
    · intro h
      cases h with
      | @var w _ _ hw hwn hwp =>
        have : v = w := nodup_map_inj hn h1 hw (h2n.trans hwn.symm)
        rw [this]
      | def_ hall _ => exact absurd (hall v h1 h2n) h2p
      | arg hall _ _ _ => exact absurd (hall v h1 h2n) h2p
  | none =>
    have hall := (findVar_none ns name q.vars).1 hv
    cases hd : q.defs.find? (fun d => d.name == name) with
    | some d =>
      simp only
      constructor
      · intro h
        have : a = .text (if isHas then c!"1" else d.val.text) := by
          cases isHas <;> simp_all
        subst this
        exact .def_ hall hd
      · intro h
        cases h with
        | var hw hwn hwp => exact absurd (hall _ hw hwn) hwp
        | def_ _ hd' =>
          rw [hd] at hd'; cases hd'
          cases isHas <;> rfl
        | arg _ hno _ _ =>
          exact absurd (by simpa using List.find?_some hd) (hno d (List.mem_of_find?_eq_some hd))
    | none =>
      have hno : ∀ d ∈ q.defs, d.name ≠ name := by
        intro d hdm; have := List.find?_eq_none.1 hd d hdm; simpa using this
      simp only
      cases hg : q.argnames with
      | none =>
        simp only
        constructor
        · intro h; cases h
        · intro h
          cases h with
          | var hw hwn hwp => exact absurd (hall _ hw hwn) hwp
          | def_ _ hd' => rw [hd] at hd'; cases hd'
          | arg _ _ hg' _ => rw [hg] at hg'; cases hg'
      | some names =>
        simp only
        constructor
        · intro h
          obtain ⟨i, hi, rfl⟩ := Option.map_eq_some_iff.1 h
          exact .arg hall hno hg hi
        · intro h
          cases h with
          | var hw hwn hwp => exact absurd (hall _ hw hwn) hwp
          | def_ _ hd' => rw [hd] at hd'; cases hd'
          | arg _ _ hg' hi => rw [hg] at hg'; cases hg'; rw [hi]; rfl

/-- **C13.** Reading a name with upward search finds it in the nearest scope on the path to the top,
then in the modules in load order, that has it: scope number `i` of that list answers and no earlier
one does.  A private variable counts only in the starting scope itself (`i = 0`). -/
theorem C13_nearest_scope (scopes : Nat → Scope) (mods : List Nat) (q : Nat) (ps : List Nat)
    (ho : Spec.ParentsOlder scopes) (hp : Spec.Path scopes q ps)
    (hn : ∀ p, ((scopes p).vars.map (·.name)).Nodup)
    (name : Str) (equ : Bool) (p : Nat) (a : GetAct) :
    getName scopes mods q name false equ true false = some (p, a) ↔
      ∃ i : Nat, (Spec.visible ps mods)[i]? = some p ∧ Spec.Has (scopes p) name (decide (0 < i)) a false equ ∧
        ∀ j p', j < i → (Spec.visible ps mods)[j]? = some p' →
          ∀ a', ¬ Spec.Has (scopes p') name (decide (0 < j)) a' false equ := by
  have hc := path_chain scopes ho hp
  obtain ⟨rest, hr⟩ : ∃ rest, ps = q :: rest := by
    cases hp with
    | top _ => exact ⟨[], rfl⟩
    | up _ _ => exact ⟨_, rfl⟩
  have hvis : visits scopes mods q true false true =
      (q, false) :: (rest ++ mods).map fun p => (p, true) := by
    simp [visits, hc, hr]
  unfold getName
  simp only [Bool.not_false, Bool.true_and, hvis, findSome_nth]
  have hidx : ∀ i p, (Spec.visible ps mods)[i]? = some p ↔
      ((q, false) :: (rest ++ mods).map fun p => (p, true))[i]? = some (p, decide (0 < i)) := by
    intro i p
    subst hr
    cases i with
    | zero => simp [Spec.visible]
    | succ i =>
      simp only [Spec.visible, List.cons_append, List.getElem?_cons_succ, List.getElem?_map,
        Option.map_eq_some_iff, Prod.mk.injEq]
      simp
  have hflag : ∀ i x, ((q, false) :: (rest ++ mods).map fun p => (p, true))[i]? = some x → x.2 = decide (0 < i) := by
    intro i x hx
    cases i with
    | zero => simp at hx; subst hx; rfl
    | succ i =>
      simp only [List.getElem?_cons_succ, List.getElem?_map, Option.map_eq_some_iff] at hx
      obtain ⟨_, _, rfl⟩ := hx
      simp
  constructor
  · rintro ⟨i, ⟨p', ns⟩, h1, h2, h3⟩
    have hf := hflag i _ h1
    simp only at hf h2
    subst hf
    obtain ⟨a', h4, h5⟩ := Option.map_eq_some_iff.1 h2
    cases h5
    refine ⟨i, (hidx i p).2 h1, (get_iff _ _ _ _ _ (hn p) a).1 h4, ?_⟩
    intro j p'' hj hp'' a' ha'
    have := h3 j (p'', decide (0 < j)) hj ((hidx j p'').1 hp'')
    rw [Option.map_eq_none_iff] at this
    rw [(get_iff _ _ _ _ _ (hn p'') a').2 ha'] at this
    cases this
  · rintro ⟨i, h1, h2, h3⟩
    refine ⟨i, (p, decide (0 < i)), (hidx i p).1 h1, ?_, ?_⟩
    · simp only
      rw [(get_iff _ _ _ _ _ (hn p) a).2 h2]
      rfl
    · rintro j ⟨p', ns⟩ hj hp'
      have hf := hflag j _ hp'
      simp only at hf
      subst hf
      have := h3 j p' hj ((hidx j p').2 hp')
      rw [Option.map_eq_none_iff]
      cases hg : (scopes p').get name false equ (decide (0 < j)) with
      | none => rfl
      | some a' => exact absurd ((get_iff _ _ _ _ _ (hn p') a').1 hg) (this a')

/-- **C13.** Without upward search (existence tests, or reading restricted to the scope) only the scope
itself is looked at; the enclosing scopes and the modules are not. -/
theorem C13_only_self (scopes : Nat → Scope) (mods : List Nat) (q : Nat) (name : Str)
    (isHas equ canUp : Bool) (h : (!isHas && canUp) = false)
    (hn : ((scopes q).vars.map (·.name)).Nodup) (p : Nat) (a : GetAct) :
    getName scopes mods q name isHas equ canUp false = some (p, a) ↔
      p = q ∧ Spec.Has (scopes q) name false a isHas equ := by
  unfold getName
  rw [h]
  simp only [visits, Bool.false_eq_true, if_false, List.append_nil, List.findSome?_cons,
    List.findSome?_nil]
  cases hg : (scopes q).get name isHas equ false with
  | none =>
    simp only [Option.map_none]
    constructor
    · intro h; cases h
    · rintro ⟨_, h2⟩
      rw [(get_iff _ _ _ _ _ hn a).2 h2] at hg; cases hg
  | some b =>
    simp only [Option.map_some, Option.some.injEq, Prod.mk.injEq]
    constructor
    · rintro ⟨rfl, rfl⟩
      exact ⟨rfl, (get_iff _ _ _ _ _ hn b).1 hg⟩
    · rintro ⟨rfl, h2⟩
      rw [(get_iff _ _ _ _ _ hn a).2 h2] at hg; cases hg
      exact ⟨rfl, rfl⟩

/-- **C13.** A private variable of another scope is never what a read returns: if scope `p ≠ q` has
under `name` only a private variable, the read does not answer from `p`. -/
theorem C13_private_invisible (scopes : Nat → Scope) (mods : List Nat) (q p : Nat) (name : Str)
    (isHas equ canUp noSelf : Bool) (hpq : p ≠ q) (a : GetAct)
    (hv : ∀ v ∈ (scopes p).vars, v.name = name → v.priv = true)
    (hd : ∀ d ∈ (scopes p).defs, d.name ≠ name) (ha : (scopes p).argnames = none) :
    getName scopes mods q name isHas equ canUp noSelf ≠ some (p, a) := by
  intro h
  unfold getName at h
  rw [findSome_nth] at h
  obtain ⟨i, ⟨p', ns⟩, h1, h2, _⟩ := h
  obtain ⟨a', h4, h5⟩ := Option.map_eq_some_iff.1 h2
  cases h5
  have hns : ns = true := by
    have hm := List.mem_of_getElem? h1
    unfold visits at hm
    rcases List.mem_append.1 hm with hm | hm
    · split at hm
      · cases hm
      · simp at hm; exact absurd hm.1 hpq
    · split at hm
      · rcases List.mem_append.1 hm with hm | hm
        · obtain ⟨_, _, e⟩ := List.mem_map.1 hm; cases e; rfl
        · split at hm
          · obtain ⟨_, _, e⟩ := List.mem_map.1 hm; cases e; rfl
          · cases hm
      · cases hm
  subst hns
  have hnone : findVar true name (scopes p).vars = none :=
    (findVar_none true name _).2 fun v hvm e => ⟨rfl, hv v hvm e⟩
  have hdn : (scopes p).defs.find? (fun d => d.name == name) = none :=
    List.find?_eq_none.2 fun d hdm => by simpa using hd d hdm
  simp [Scope.get, hnone, hdn, ha] at h4

/-! ## C11 -/

/-- Definition `d` may be used at position `pos` of the text. -/
def Spec.Matches (cs : List Char) (paichu : List Str) (pos : Nat) (d : Def) : Prop :=
  d.name ∉ paichu ∧ d.name0 <+: cs.drop pos

theorem findDefAt_none (cs : List Char) (pos : Nat) (paichu : List Str) (ds : List Def)
    (hpos : pos ≤ cs.length) :
    findDefAt cs pos paichu ds = none ↔ ∀ d ∈ ds, ¬ Spec.Matches cs paichu pos d := by
  unfold findDefAt
  rw [List.findSome?_eq_none_iff]
  constructor
  · intro h d hd hm
    obtain ⟨k, hk, rfl⟩ := List.mem_iff_getElem.1 hd
    have := h (ds[k], k) (by rw [List.mem_zipIdx_iff_getElem?]; simp [hk])
    simp only at this
    have hc : paichu.contains (ds[k]).name = false := by
      simpa using hm.1
    rw [hc] at this
    simp only [Bool.false_eq_true, if_false, Option.map_eq_none_iff] at this
    exact (C10_prefix_match cs _ pos hpos).2.1 this hm.2
  · rintro h ⟨d, k⟩ hd
    rw [List.mem_zipIdx_iff_getElem?] at hd
    have hdm := List.mem_of_getElem? hd
    simp only
    by_cases hc : paichu.contains d.name = true
    · rw [if_pos hc]
    · rw [if_neg hc]
      rw [Option.map_eq_none_iff]
      refine (C10_prefix_match cs _ pos hpos).2.2 fun hp => h d hdm ⟨by simpa using hc, hp⟩

theorem findDefAt_some (cs : List Char) (pos : Nat) (paichu : List Str) (ds : List Def)
    (hpos : pos ≤ cs.length) (k len : Nat) :
    findDefAt cs pos paichu ds = some (k, len) ↔ ∃ d, ds[k]? = some d ∧ Spec.Matches cs paichu pos d ∧
      len = d.name0.length ∧ ∀ k' d', k' < k → ds[k']? = some d' → ¬ Spec.Matches cs paichu pos d' := by
  unfold findDefAt
  rw [findSome_nth]
  have one : ∀ (d : Def) (k : Nat) (r : Nat × Nat), (if paichu.contains d.name = true then none
      else (withAt cs d.name0 pos).map fun (len, _) => (k, len)) = some r ↔
        Spec.Matches cs paichu pos d ∧ r = (k, d.name0.length) := by
    intro d k r
    by_cases hc : paichu.contains d.name = true
    · rw [if_pos hc]
      constructor
      · intro h; cases h
      · rintro ⟨h, _⟩; exact absurd (by simpa using hc) h.1
    · rw [if_neg hc, Option.map_eq_some_iff]
      have hc' : d.name ∉ paichu := by simpa using hc
      constructor
      · rintro ⟨⟨n, e⟩, h1, rfl⟩
        have := ((C10_prefix_match cs d.name0 pos hpos).1 n e).1 h1
        exact ⟨⟨hc', this.1⟩, by rw [this.2.1]⟩
      · rintro ⟨h, rfl⟩
        refine ⟨(d.name0.length, decide (pos + d.name0.length = cs.length)), ?_, rfl⟩
        exact ((C10_prefix_match cs d.name0 pos hpos).1 _ _).2 ⟨h.2, rfl, by simp⟩
  have zi : ∀ (i : Nat) (x : Def × Nat), ds.zipIdx[i]? = some x ↔ ds[i]? = some x.1 ∧ x.2 = i := by
    rintro i ⟨d, k⟩
    rw [List.getElem?_zipIdx, Option.map_eq_some_iff]
    constructor
    · rintro ⟨a, h1, h2⟩; cases h2; exact ⟨h1, by simp⟩
    · rintro ⟨h1, h2⟩; simp only at h1 h2; subst h2; exact ⟨d, h1, by simp⟩
  constructor
  · rintro ⟨i, ⟨d, k0⟩, h1, h2, h3⟩
    obtain ⟨h1a, h1b⟩ := (zi i _).1 h1
    simp only at h1a h1b
    subst h1b
    obtain ⟨hm, e⟩ := (one d k0 _).1 h2
    cases e
    refine ⟨d, h1a, hm, rfl, ?_⟩
    intro k' d' hk hd' hm'
    have := h3 k' (d', k') hk ((zi k' _).2 ⟨hd', rfl⟩)
    have h4 := ((one d' k' _).2 ⟨hm', rfl⟩).symm.trans this
    cases h4
  · rintro ⟨d, h1, hm, rfl, h3⟩
    refine ⟨k, (d, k), (zi k _).2 ⟨h1, rfl⟩, (one d k _).2 ⟨hm, rfl⟩, ?_⟩
    rintro j ⟨d', k'⟩ hj hx
    obtain ⟨hx1, hx2⟩ := (zi j _).1 hx
    simp only at hx1 hx2
    subst hx2
    have := h3 k' d' hj hx1
    cases hr : (if paichu.contains d'.name = true then none
      else (withAt cs d'.name0 pos).map fun (len, _) => (k', len)) with
    | none => exact hr
    | some r => exact absurd ((one d' k' r).1 hr).1 this

theorem visits_true (scopes : Nat → Scope) (mods : List Nat) (q : Nat) (ps : List Nat)
    (hc : chain scopes q = ps) {β : Type} (g : Nat × Bool → Option β) (f : Nat → Option β)
    (hg : ∀ p b, g (p, b) = f p) :
    (visits scopes mods q true false true).findSome? g = (Spec.visible ps mods).findSome? f := by
  obtain ⟨t, ht⟩ : ∃ t, chain scopes q = q :: t := by rw [chain]; exact ⟨_, rfl⟩
  have hm : ∀ (l : List Nat), (l.map fun p => (p, true)).findSome? g = l.findSome? f := by
    intro l
    induction l with
    | nil => rfl
    | cons a l ih => rw [List.map_cons, List.findSome?_cons, List.findSome?_cons, hg, ih]
  subst hc
  simp only [visits, Bool.false_eq_true, if_false, if_true, Spec.visible, ht, List.tail_cons,
    ← List.map_append, List.cons_append, List.nil_append, List.findSome?_cons, hg, hm]

theorem findDef_some_iff (scopes : Nat → Scope) (mods : List Nat) (q : Nat) (ps : List Nat)
    (hc : chain scopes q = ps)
    (cs : List Char) (from_ end_ : Nat) (hend : end_ ≤ cs.length) (paichu : List Str)
    (pos len p k : Nat) :
    findDef scopes mods cs from_ end_ paichu q = some (pos, len, p, k) ↔
      from_ ≤ pos ∧ pos < end_ ∧
      (∀ pos', from_ ≤ pos' → pos' < pos → ∀ p' ∈ Spec.visible ps mods, ∀ d ∈ (scopes p').defs,
        ¬ Spec.Matches cs paichu pos' d) ∧
      ∃ i : Nat, (Spec.visible ps mods)[i]? = some p ∧
        (∀ (j : Nat) p', j < i → (Spec.visible ps mods)[j]? = some p' → ∀ d ∈ (scopes p').defs,
          ¬ Spec.Matches cs paichu pos d) ∧
        ∃ d, (scopes p).defs[k]? = some d ∧ Spec.Matches cs paichu pos d ∧ len = d.name0.length ∧
          ∀ k' d', k' < k → (scopes p).defs[k']? = some d' → ¬ Spec.Matches cs paichu pos d' := by
  -- one position
  have one : ∀ idx, idx ≤ cs.length → ∀ r, ((visits scopes mods q true false true).findSome? fun (p, _) =>
        (findDefAt cs idx paichu (scopes p).defs).map fun (k, len) => (idx, len, p, k)) = some r ↔
      ∃ len p k, r = (idx, len, p, k) ∧ ∃ i : Nat, (Spec.visible ps mods)[i]? = some p ∧
        (∀ (j : Nat) p', j < i → (Spec.visible ps mods)[j]? = some p' → ∀ d ∈ (scopes p').defs,
          ¬ Spec.Matches cs paichu idx d) ∧
        ∃ d, (scopes p).defs[k]? = some d ∧ Spec.Matches cs paichu idx d ∧ len = d.name0.length ∧
          ∀ k' d', k' < k → (scopes p).defs[k']? = some d' → ¬ Spec.Matches cs paichu idx d' := by
    intro idx hidx r
    rw [visits_true scopes mods q ps hc _ (fun p => (findDefAt cs idx paichu (scopes p).defs).map
      fun (k, len) => (idx, len, p, k)) (fun _ _ => rfl), findSome_nth]
    constructor
    · rintro ⟨i, p, h1, h2, h3⟩
      obtain ⟨⟨k, len⟩, h4, rfl⟩ := Option.map_eq_some_iff.1 h2
      refine ⟨len, p, k, rfl, i, h1, ?_, (findDefAt_some cs idx paichu _ hidx k len).1 h4⟩
      intro j p' hj hp'
      have := h3 j p' hj hp'
      rw [Option.map_eq_none_iff] at this
      exact (findDefAt_none cs idx paichu _ hidx).1 this
    · rintro ⟨len, p, k, rfl, i, h1, h3, h4⟩
      refine ⟨i, p, h1, ?_, ?_⟩
      · rw [(findDefAt_some cs idx paichu _ hidx k len).2 h4]; rfl
      · intro j p' hj hp'
        rw [Option.map_eq_none_iff]
        exact (findDefAt_none cs idx paichu _ hidx).2 (h3 j p' hj hp')
  have oneNone : ∀ idx, idx ≤ cs.length → (((visits scopes mods q true false true).findSome? fun (p, _) =>
        (findDefAt cs idx paichu (scopes p).defs).map fun (k, len) => (idx, len, p, k)) = none ↔
      ∀ p' ∈ Spec.visible ps mods, ∀ d ∈ (scopes p').defs, ¬ Spec.Matches cs paichu idx d) := by
    intro idx hidx
    rw [visits_true scopes mods q ps hc _ (fun p => (findDefAt cs idx paichu (scopes p).defs).map
      fun (k, len) => (idx, len, p, k)) (fun _ _ => rfl), List.findSome?_eq_none_iff]
    constructor
    · intro h p' hp'
      exact (findDefAt_none cs idx paichu _ hidx).1 (by simpa using h p' hp')
    · intro h p' hp'
      have := (findDefAt_none cs idx paichu _ hidx).2 (h p' hp')
      simp [this]
  unfold findDef
  generalize hn : end_ - from_ = n
  induction n generalizing from_ with
  | zero =>
    simp only [findDefGo]
    constructor
    · intro h; cases h
    · rintro ⟨h1, h2, _⟩; omega
  | succ n ih =>
    simp only [findDefGo]
    have hidx : from_ ≤ cs.length := by omega
    have ih := ih (from_ + 1) (by omega)
    cases hr : (visits scopes mods q true false true).findSome? fun (p, _) =>
        (findDefAt cs from_ paichu (scopes p).defs).map fun (k, len) => (from_, len, p, k) with
    | some r =>
      simp only [Option.some.injEq]
      have hr' := (one from_ hidx r).1 hr
      constructor
      · rintro rfl
        obtain ⟨_, _, _, e, h⟩ := hr'
        cases e
        exact ⟨Nat.le_refl _, by omega, by intro pos' h1 h2; omega, h⟩
      · rintro ⟨h1, h2, h3, h⟩
        by_cases e : from_ = pos
        · subst e
          have := (one from_ hidx (from_, len, p, k)).2 ⟨len, p, k, rfl, h⟩
          rw [hr] at this
          exact Option.some.inj this
        · exfalso
          obtain ⟨len', p', k', e', i, hi, _, d, hd, hm, _⟩ := hr'
          exact h3 from_ (Nat.le_refl _) (by omega) p' (List.mem_of_getElem? hi) d
            (List.mem_of_getElem? hd) hm
    | none =>
      simp only
      have hno := (oneNone from_ hidx).1 hr
      refine Iff.trans ih ?_
      constructor
      · rintro ⟨h1, h2, h3, h⟩
        refine ⟨by omega, h2, ?_, h⟩
        intro pos' h4 h5
        by_cases e : pos' = from_
        · subst e; exact hno
        · exact h3 pos' (by omega) h5
      · rintro ⟨h1, h2, h3, h⟩
        have hne : from_ ≠ pos := by
          rintro rfl
          obtain ⟨i, hi, _, d, hd, hm, _⟩ := h
          exact hno p (List.mem_of_getElem? hi) d (List.mem_of_getElem? hd) hm
        exact ⟨by omega, h2, fun pos' h4 h5 => h3 pos' (by omega) h5, h⟩

theorem findDef_none_iff (scopes : Nat → Scope) (mods : List Nat) (q : Nat) (ps : List Nat)
    (hc : chain scopes q = ps)
    (cs : List Char) (from_ end_ : Nat) (hend : end_ ≤ cs.length) (paichu : List Str) :
    findDef scopes mods cs from_ end_ paichu q = none ↔
      ∀ pos, from_ ≤ pos → pos < end_ → ∀ p ∈ Spec.visible ps mods, ∀ d ∈ (scopes p).defs,
        ¬ Spec.Matches cs paichu pos d := by
  have oneNone : ∀ idx, idx ≤ cs.length → (((visits scopes mods q true false true).findSome? fun (p, _) =>
        (findDefAt cs idx paichu (scopes p).defs).map fun (k, len) => (idx, len, p, k)) = none ↔
      ∀ p' ∈ Spec.visible ps mods, ∀ d ∈ (scopes p').defs, ¬ Spec.Matches cs paichu idx d) := by
    intro idx hidx
    rw [visits_true scopes mods q ps hc _ (fun p => (findDefAt cs idx paichu (scopes p).defs).map
      fun (k, len) => (idx, len, p, k)) (fun _ _ => rfl), List.findSome?_eq_none_iff]
    constructor
    · intro h p' hp'
      exact (findDefAt_none cs idx paichu _ hidx).1 (by simpa using h p' hp')
    · intro h p' hp'
      have := (findDefAt_none cs idx paichu _ hidx).2 (h p' hp')
      simp [this]
  unfold findDef
  generalize hn : end_ - from_ = n
  induction n generalizing from_ with
  | zero =>
    simp only [findDefGo, true_iff]
    intro pos h1 h2; omega
  | succ n ih =>
    simp only [findDefGo]
    have hidx : from_ ≤ cs.length := by omega
    have ih := ih (from_ + 1) (by omega)
    cases hr : (visits scopes mods q true false true).findSome? fun (p, _) =>
        (findDefAt cs from_ paichu (scopes p).defs).map fun (k, len) => (from_, len, p, k) with
    | some r =>
      simp only [reduceCtorEq, false_iff]
      intro h
      rw [(oneNone from_ hidx).2 (h from_ (Nat.le_refl _) (by omega))] at hr
      cases hr
    | none =>
      simp only
      have hno := (oneNone from_ hidx).1 hr
      refine Iff.trans ih ?_
      constructor
      · intro h pos h4 h5
        by_cases e : pos = from_
        · subst e; exact hno
        · exact h pos (by omega) h5
      · intro h pos h4 h5; exact h pos (by omega) h5

/-- **C11.** The definition chosen in the text between `from_` and `end_` is: at the leftmost position
where any visible definition may be used; at that position in the nearest scope; in that scope the
earliest definition.  Excluded patterns are never chosen. -/
theorem C11_leftmost_innermost_oldest (scopes : Nat → Scope) (mods : List Nat) (q : Nat) (ps : List Nat)
    (ho : Spec.ParentsOlder scopes) (hp : Spec.Path scopes q ps)
    (cs : List Char) (from_ end_ : Nat) (hend : end_ ≤ cs.length) (paichu : List Str)
    (pos len p k : Nat) :
    findDef scopes mods cs from_ end_ paichu q = some (pos, len, p, k) ↔
      from_ ≤ pos ∧ pos < end_ ∧
      (∀ pos', from_ ≤ pos' → pos' < pos → ∀ p' ∈ Spec.visible ps mods, ∀ d ∈ (scopes p').defs,
        ¬ Spec.Matches cs paichu pos' d) ∧
      ∃ i : Nat, (Spec.visible ps mods)[i]? = some p ∧
        (∀ (j : Nat) p', j < i → (Spec.visible ps mods)[j]? = some p' → ∀ d ∈ (scopes p').defs,
          ¬ Spec.Matches cs paichu pos d) ∧
        ∃ d, (scopes p).defs[k]? = some d ∧ Spec.Matches cs paichu pos d ∧ len = d.name0.length ∧
          ∀ k' d', k' < k → (scopes p).defs[k']? = some d' → ¬ Spec.Matches cs paichu pos d' :=
  findDef_some_iff scopes mods q ps (path_chain scopes ho hp) cs from_ end_ hend paichu pos len p k

/-- **C11.** No definition is chosen only if no visible definition may be used at any position. -/
theorem C11_none (scopes : Nat → Scope) (mods : List Nat) (q : Nat) (ps : List Nat)
    (ho : Spec.ParentsOlder scopes) (hp : Spec.Path scopes q ps)
    (cs : List Char) (from_ end_ : Nat) (hend : end_ ≤ cs.length) (paichu : List Str) :
    findDef scopes mods cs from_ end_ paichu q = none ↔
      ∀ pos, from_ ≤ pos → pos < end_ → ∀ p ∈ Spec.visible ps mods, ∀ d ∈ (scopes p).defs,
        ¬ Spec.Matches cs paichu pos d :=
  findDef_none_iff scopes mods q ps (path_chain scopes ho hp) cs from_ end_ hend paichu

/-- Scopes for the examples: 0 is the top, 1 is inside it. -/
def exampleScopes : Nat → Scope := fun q =>
  if q = 0 then { Scope.new [c!"顶"] [] [] none none 0 with
      defs := [Def.mk' c!"b" (.si c!"1") 0 0 ⟨[], false⟩, Def.mk' c!"bc" (.si c!"2") 0 0 ⟨[], false⟩],
      vars := [⟨c!"p", ⟨0, .s c!"x"⟩, false, true, false⟩, ⟨c!"v", ⟨1, .s c!"y"⟩, false, false, false⟩] }
  else { Scope.new [] [] [] none (some (0, 0)) 1 with
      defs := [Def.mk' c!"bcd" (.si c!"3") 0 0 ⟨[], false⟩] }

example : findDef exampleScopes [] c!"abcd" 0 4 [] 1 = some (1, 3, 1, 0) ∧
    findDef exampleScopes [] c!"abc" 0 3 [] 1 = some (1, 1, 0, 0) ∧
    findDef exampleScopes [] c!"abc" 0 3 [c!"b"] 1 = some (1, 2, 0, 1) ∧
    getName exampleScopes [] 1 c!"v" false false true false = some (0, .val ⟨1, .s c!"y"⟩) ∧
    getName exampleScopes [] 1 c!"p" false false true false = none ∧
    getName exampleScopes [] 0 c!"p" false false true false = some (0, .val ⟨0, .s c!"x"⟩) := by
  decide +kernel

theorem exampleScopes_older : Spec.ParentsOlder exampleScopes := by
  intro q p h
  unfold exampleScopes at h
  split at h
  · simp [Scope.new] at h
  · simp [Scope.new] at h; omega

example : Spec.Path exampleScopes 1 [1, 0] := .up rfl (.top rfl)

end Zh
