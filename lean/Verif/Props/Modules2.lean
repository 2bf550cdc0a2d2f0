import Verif.Props.Evaluate
import Verif.Props.Modules
/-!
# C67: the statements `命名`, `模块` and `释放模块`
-/
namespace Zh

variable {H : Host}

/-! ## Specification -/

/-- The words of `命名` (or of `模块`, when `mod`) are refused: no name; for `命名` more than a name and a text; for `模块` a third or later
word other than `数据`, or a name that a module has already. -/
def Spec.Refused (mod : Bool) (s : St) : List Str → Prop
  | [] => True
  | name :: rest => name = [] ∨ (mod = false ∧ 1 < rest.length) ∨
      (mod = true ∧ ((∃ o ∈ rest.tail, o ≠ c!"数据") ∨ ∃ q ∈ Spec.registered s, name ∈ (s.scopes q).name))

/-- The scope `q` becomes a module: a data module if `数据` is asked for. -/
def Spec.register (q : Nat) (data : Bool) (s : St) : St :=
  if data then { s with datas := s.datas ++ [q] } else { s with mods := s.mods ++ [q] }

/-- The scope `q` gets one more name, and text to be run when it is released. -/
def Spec.nameScope (q : Nat) (name onFree : Str) : St → St :=
  Spec.scoped q fun c => { c with name := c.name ++ [name], onFree := c.onFree ++ onFree }

/-- The statements `命名` (`mod = false`) and `模块`. -/
inductive Spec.Naming (H : Host) (mod : Bool) (a : List Code) (env : Env) (s : St) : Except Err Unit → St → Prop where
  | failed {x e s'} : Evals H (.codes a 0 usizeMax { env with ret := s.nlist }) (Spec.fresh s) x s' → x.r = .error e →
    Naming H mod a env s (.error e) s'
  | refused {v s'} : Spec.Words H a env s v s' → Spec.Refused mod s' v →
    Naming H mod a env s (.error (.msg (c!"无法命名为" ++ Zh.quote (v.headD [])))) s'
  | named {name rest s1} : Spec.Words H a env s (name :: rest) s1 → ¬ Spec.Refused mod s1 (name :: rest) →
    s1.held.contains (.scope env.q) = false →
    Naming H mod a env s (.ok ()) (Spec.nameScope env.q name (rest.headD [])
      (if mod then Spec.register env.q (decide (rest.tail ≠ [])) s1 else s1))

/-- The modules, or the data modules. -/
def Spec.modules (data : Bool) (s : St) : List Nat := if data then s.datas else s.mods

/-- The module at place `i` is the first one with this name; modules come before data modules. -/
structure Spec.FirstNamed (s : St) (name : Str) (data : Bool) (i q : Nat) : Prop where
  at_ : (Spec.modules data s)[i]? = some q
  has : name ∈ (s.scopes q).name
  first : ∀ j < i, ∀ p, (Spec.modules data s)[j]? = some p → name ∉ (s.scopes p).name
  before : data = true → ∀ p ∈ s.mods, name ∉ (s.scopes p).name

/-- The module at place `i` is taken off the list. -/
def Spec.unregister (data : Bool) (i : Nat) (s : St) : St :=
  if data then { s with datas := s.datas.eraseIdx i } else { s with mods := s.mods.eraseIdx i }

/-- The modules with these names are released one after the other: the text of the module is run in its scope, then the module is taken
off the list; unknown names are skipped. -/
inductive Spec.Releases (H : Host) (env : Env) : List Str → St → Except Err Unit → St → Prop where
  | done {s} : Releases H env [] s (.ok ()) s
  | unknown {name names s r s'} : (∀ q ∈ Spec.registered s, name ∉ (s.scopes q).name) → Releases H env names s r s' →
    Releases H env (name :: names) s r s'
  | silent {name names data i q s r s'} : Spec.FirstNamed s name data i q → (s.scopes q).onFree = [] →
    Releases H env names (Spec.unregister data i s) r s' → Releases H env (name :: names) s r s'
  | failed {name names data i q s e s'} : Spec.FirstNamed s name data i q → (s.scopes q).onFree ≠ [] →
    Spec.Under H q (.src (s.scopes q).onFree { env with q, inq := some q }) s (.error e) s' →
    Releases H env (name :: names) s (.error e) s'
  | run {name names data i q s s1 r s'} : Spec.FirstNamed s name data i q → (s.scopes q).onFree ≠ [] →
    Spec.Under H q (.src (s.scopes q).onFree { env with q, inq := some q }) s (.ok ()) s1 → i < (Spec.modules data s1).length →
    Releases H env names (Spec.unregister data i s1) r s' → Releases H env (name :: names) s r s'

/-- The statement `释放模块`. -/
inductive Spec.Release (H : Host) (a : List Code) (env : Env) (s : St) : Except Err Unit → St → Prop where
  | failed {x e s'} : Evals H (.codes a 0 usizeMax { env with ret := s.nlist }) (Spec.fresh s) x s' → x.r = .error e →
    Release H a env s (.error e) s'
  | names {v s1 r s'} : Spec.Words H a env s v s1 → Spec.Releases H env v s1 r s' → Release H a env s r s'

/-! ## Proofs -/

theorem modCan_none {s : St} {name : Str} {rest : List Str} (h0 : name ≠ []) :
    modCan s name (name :: rest) = none ↔ Spec.Refused true s (name :: rest) := by
  unfold modCan Spec.Refused Spec.registered
  have e : (name :: rest).drop 2 = rest.tail := by cases rest <;> rfl
  rw [e]
  by_cases h1 : ∃ o ∈ rest.tail, o ≠ c!"数据"
  · rw [if_pos (List.any_eq_true.2 (by simpa using h1))]
    exact ⟨fun _ => .inr (.inr ⟨rfl, .inl h1⟩), fun _ => rfl⟩
  · rw [if_neg (fun h => h1 (by simpa using List.any_eq_true.1 h))]
    by_cases h2 : ∃ q ∈ s.mods, name ∈ (s.scopes q).name
    · rw [if_pos (by simpa using h2)]
      obtain ⟨q, hq, hn⟩ := h2
      exact ⟨fun _ => .inr (.inr ⟨rfl, .inr ⟨q, by simp [hq], hn⟩⟩), fun _ => rfl⟩
    · rw [if_neg (by simpa using h2)]
      by_cases h3 : ∃ q ∈ s.datas, name ∈ (s.scopes q).name
      · rw [if_pos (by simpa using h3)]
        obtain ⟨q, hq, hn⟩ := h3
        exact ⟨fun _ => .inr (.inr ⟨rfl, .inr ⟨q, by simp [hq], hn⟩⟩), fun _ => rfl⟩
      · rw [if_neg (by simpa using h3)]
        refine ⟨nofun, ?_⟩
        rintro (h | ⟨h, _⟩ | ⟨_, h | ⟨q, hq, hn⟩⟩)
        · exact absurd h h0
        · cases h
        · exact absurd h h1
        · rcases List.mem_append.1 hq with hq | hq
          · exact absurd ⟨q, hq, hn⟩ h2
          · exact absurd ⟨q, hq, hn⟩ h3

theorem modCan_some {s : St} {name : Str} {rest : List Str} (h0 : name ≠ []) (h : ¬ Spec.Refused true s (name :: rest)) :
    modCan s name (name :: rest) = some (decide (rest.tail ≠ [])) := by
  have h1 := mt (modCan_none (s := s) (rest := rest) h0).1 h
  unfold modCan at h1 ⊢
  have e : (name :: rest).drop 2 = rest.tail := by cases rest <;> rfl
  rw [e] at h1 ⊢
  split at h1
  · exact absurd rfl h1
  · rename_i g1
    rw [if_neg g1]
    split at h1
    · exact absurd rfl h1
    · rename_i g2
      rw [if_neg g2]
      split at h1
      · exact absurd rfl h1
      · rename_i g3
        rw [if_neg g3]
        cases rest.tail <;> simp

theorem register_run {q : Nat} {data : Bool} {s : St} :
    (Op.addMod data q).run H s = (.ok (), Spec.register q data s) := rfl

/-- **C67.**  `命名` and `模块` do what `Spec.Naming` says. -/
theorem C67_naming {mod : Bool} {a : List Code} {env : Env} {s s' : St} {r : Except Err Unit} :
    EvE H (Evals H) (nameP mod a env) s r s' ↔ Spec.Naming H mod a env s r s' := by
  have go : ∀ {name t : Str} {s s' : St} {r : Except Err Unit}, EvE H (Evals H) (liftM (doOp (.addName env.q name t)) : E Unit) s r s' ↔
      s.held.contains (.scope env.q) = false ∧ r = .ok () ∧ s' = Spec.nameScope env.q name t s := by
    intro name t s s' r
    rw [evE_lift]
    have := @ev_mod H (Evals H) (doOp (.addName env.q name t)) env.q
      (fun c => { c with name := c.name ++ [name], onFree := c.onFree ++ t }) s (fun _ _ => ev_doOp)
    constructor
    · rintro ⟨u, rfl, h⟩
      obtain ⟨h1, h2⟩ := this.1 h
      exact ⟨h1, rfl, h2⟩
    · rintro ⟨h1, rfl, rfl⟩
      exact ⟨(), rfl, this.2 ⟨h1, rfl⟩⟩
  /- what is done with the words -/
  have key : ∀ {v : List Str} {s1 : St}, EvE H (Evals H) (do
        let name := v.headD []
        let s ← (getSt : Prog St)
        let bad : E Unit := fail (.msg (c!"无法命名为" ++ quote name))
        let go : E Unit := doOp (.addName env.q name (v.tail.headD []))
        if name.isEmpty then bad
        else if mod then
          match modCan s name v with
          | none => bad
          | some data =>
            doOp (.addMod data env.q)
            go
        else if v.length > 2 then bad
        else go) s1 r s' ↔
      (Spec.Refused mod s1 v ∧ r = .error (.msg (c!"无法命名为" ++ quote (v.headD []))) ∧ s' = s1) ∨
      (∃ name rest, v = name :: rest ∧ ¬ Spec.Refused mod s1 v ∧ s1.held.contains (.scope env.q) = false ∧ r = .ok () ∧
        s' = Spec.nameScope env.q name (rest.headD []) (if mod then Spec.register env.q (decide (rest.tail ≠ [])) s1 else s1)) := by
    intro v s1
    rw [evE_getSt_bind]
    have bad : ∀ {w : Str}, Spec.Refused mod s1 v → (EvE H (Evals H) (fail (.msg (c!"无法命名为" ++ quote w)) : E Unit) s1 r s' ↔
        (Spec.Refused mod s1 v ∧ r = .error (.msg (c!"无法命名为" ++ quote w)) ∧ s' = s1) ∨
        (∃ name rest, v = name :: rest ∧ ¬ Spec.Refused mod s1 v ∧ s1.held.contains (.scope env.q) = false ∧ r = .ok () ∧
          s' = Spec.nameScope env.q name (rest.headD []) (if mod then Spec.register env.q (decide (rest.tail ≠ [])) s1 else s1))) := by
      intro w hr
      rw [evE_fail]
      exact ⟨fun h => .inl ⟨hr, h⟩, fun h => h.elim And.right fun ⟨_, _, _, h, _⟩ => absurd hr h⟩
    cases v with
    | nil => rw [if_pos (by rfl)]; exact bad trivial
    | cons name rest =>
      by_cases h0 : name = []
      · subst h0; rw [if_pos (by rfl)]; exact bad (.inl rfl)
      · rw [if_neg (by simpa using h0)]
        cases mod with
        | false =>
          rw [if_neg nofun]
          by_cases h1 : 1 < rest.length
          · rw [if_pos (show (name :: rest).length > 2 by rw [List.length_cons]; omega)]; exact bad (.inr (.inl ⟨rfl, h1⟩))
          · have hr : ¬ Spec.Refused false s1 (name :: rest) := by
              rintro (h | ⟨_, h⟩ | ⟨h, _⟩)
              · exact h0 h
              · exact h1 h
              · cases h
            rw [if_neg (show ¬ (name :: rest).length > 2 by rw [List.length_cons]; omega)]
            refine go.trans ?_
            constructor
            · rintro ⟨h2, h3, h4⟩
              exact .inr ⟨name, rest, rfl, hr, h2, h3, h4⟩
            · rintro (⟨h, _⟩ | ⟨n, l, e, _, h2, h3, h4⟩)
              · exact absurd h hr
              · cases e; exact ⟨h2, h3, h4⟩
        | true =>
          rw [if_pos rfl]
          by_cases hr : Spec.Refused true s1 (name :: rest)
          · have : modCan s1 ((name :: rest).headD []) (name :: rest) = none := (modCan_none h0).2 hr
            rw [this]; exact bad hr
          · have : modCan s1 ((name :: rest).headD []) (name :: rest) = some (decide (rest.tail ≠ [])) := modCan_some h0 hr
            rw [this]
            dsimp only
            rw [evE_op_bind register_run]
            refine go.trans ?_
            have hheld : (Spec.register env.q (decide (rest.tail ≠ [])) s1).held = s1.held := by
              unfold Spec.register; split <;> rfl
            rw [hheld]
            constructor
            · rintro ⟨h2, h3, h4⟩
              exact .inr ⟨name, rest, rfl, hr, h2, h3, h4⟩
            · rintro (⟨h, _⟩ | ⟨n, l, e, _, h2, h3, h4⟩)
              · exact absurd h hr
              · cases e; exact ⟨h2, h3, h4⟩
  unfold nameP
  rw [evE_helloVec_bind]
  constructor
  · rintro (⟨v, s1, h1, h2⟩ | ⟨x, e, h1, h2, rfl⟩)
    · rcases key.1 h2 with ⟨h3, rfl, rfl⟩ | ⟨name, rest, rfl, h3, h4, rfl, rfl⟩
      · exact .refused h1 h3
      · exact .named h1 h3 h4
    · exact .failed h1 h2
  · intro h
    cases h with
    | failed h1 h2 => exact .inr ⟨_, _, h1, h2, rfl⟩
    | refused h1 h2 => exact .inl ⟨_, _, h1, key.2 (.inl ⟨h2, rfl, rfl⟩)⟩
    | named h1 h2 h3 => exact .inl ⟨_, _, h1, key.2 (.inr ⟨_, _, rfl, h2, h3, rfl, rfl⟩)⟩

/-! ### Releasing -/

theorem find_zipIdx (p : Nat → Bool) (l : List Nat) (k : Nat) :
    (∀ q i, (l.zipIdx k).find? (fun x => p x.1) = some (q, i) ↔ ∃ j, i = k + j ∧ l[j]? = some q ∧ p q = true ∧ ∀ j' < j, ∀ q', l[j']? = some q' → p q' = false) ∧
    ((l.zipIdx k).find? (fun x => p x.1) = none ↔ ∀ q ∈ l, p q = false) := by
  induction l generalizing k with
  | nil => simp
  | cons a l ih =>
    rw [List.zipIdx_cons, List.find?_cons]
    cases ha : p a with
    | true =>
      refine ⟨fun q i => ?_, by simp [ha]⟩
      simp only [Option.some.injEq, Prod.mk.injEq]
      constructor
      · rintro ⟨rfl, rfl⟩
        exact ⟨0, rfl, rfl, ha, nofun⟩
      · rintro ⟨j, rfl, h1, h2, h3⟩
        cases j with
        | zero => simp only [List.getElem?_cons_zero, Option.some.injEq] at h1; exact ⟨h1, rfl⟩
        | succ j => have := h3 0 (by omega) a rfl; rw [ha] at this; cases this
    | false =>
      refine ⟨fun q i => ?_, ?_⟩
      · rw [(ih (k + 1)).1]
        constructor
        · rintro ⟨j, rfl, h1, h2, h3⟩
          refine ⟨j + 1, by omega, by simpa using h1, h2, fun j' hj q' hq => ?_⟩
          cases j' with
          | zero => simp only [List.getElem?_cons_zero, Option.some.injEq] at hq; exact hq ▸ ha
          | succ j' => exact h3 j' (by omega) q' (by simpa using hq)
        · rintro ⟨j, rfl, h1, h2, h3⟩
          cases j with
          | zero => simp only [List.getElem?_cons_zero, Option.some.injEq] at h1; rw [← h1, ha] at h2; cases h2
          | succ j =>
            exact ⟨j, by omega, by simpa using h1, h2, fun j' hj q' hq => h3 (j' + 1) (by omega) q' (by simpa using hq)⟩
      · rw [(ih (k + 1)).2]
        simp [ha]

theorem findMod_some {s : St} {name : Str} {data : Bool} {i q : Nat} :
    findMod s name = some (data, i, q) ↔ Spec.FirstNamed s name data i q := by
  unfold findMod
  have f1 := find_zipIdx (fun q => (s.scopes q).name.contains name) s.mods 0
  have f2 := find_zipIdx (fun q => (s.scopes q).name.contains name) s.datas 0
  have c0 : ∀ q, (s.scopes q).name.contains name = false ↔ name ∉ (s.scopes q).name := by intro q; simp
  dsimp only
  cases e1 : s.mods.zipIdx.find? (fun x => (s.scopes x.1).name.contains name) with
  | some x =>
    obtain ⟨p, k⟩ := x
    obtain ⟨j, hj, h1, h2, h3⟩ := (f1.1 p k).1 e1
    have hk : k = j := by omega
    subst hk
    simp only [Option.map_some, Option.some.injEq, Prod.mk.injEq]
    constructor
    · rintro ⟨rfl, rfl, rfl⟩
      exact ⟨h1, List.contains_iff_mem.1 h2, fun j hj p hp => (c0 p).1 (h3 j hj p hp), nofun⟩
    · rintro ⟨g1, g2, g3, g4⟩
      cases data with
      | true => exact absurd (List.contains_iff_mem.1 h2) (g4 rfl p (List.mem_of_getElem? h1))
      | false =>
        have g1 : s.mods[i]? = some q := g1
        have hik : i = k := by
          rcases Nat.lt_trichotomy i k with h | h | h
          · exact absurd g2 ((c0 q).1 (h3 i h q g1))
          · exact h
          · exact absurd (List.contains_iff_mem.1 h2) (g3 k h p h1)
        subst hik
        rw [h1] at g1
        exact ⟨rfl, rfl, Option.some.inj g1⟩
  | none =>
    have n1 := f1.2.1 e1
    simp only [Option.map_none, Option.map_map]
    constructor
    · intro h
      obtain ⟨⟨p, k⟩, h1, h2⟩ := Option.map_eq_some_iff.1 h
      cases h2
      obtain ⟨j, hj, g1, g2, g3⟩ := (f2.1 _ _).1 h1
      rw [Nat.zero_add] at hj
      rw [← hj] at g1 g3
      exact ⟨g1, List.contains_iff_mem.1 g2, fun j hj p hp => (c0 p).1 (g3 j hj p hp), fun _ p hp => (c0 p).1 (n1 p hp)⟩
    · rintro ⟨g1, g2, g3, g4⟩
      cases data with
      | false => exact absurd g2 ((c0 q).1 (n1 q (List.mem_of_getElem? g1)))
      | true =>
        have := (f2.1 q i).2 ⟨i, by omega, g1, List.contains_iff_mem.2 g2, fun j hj p hp => (c0 p).2 (g3 j hj p hp)⟩
        rw [this]; rfl

theorem findMod_none {s : St} {name : Str} : findMod s name = none ↔ ∀ q ∈ Spec.registered s, name ∉ (s.scopes q).name := by
  unfold findMod Spec.registered
  have f1 := find_zipIdx (fun q => (s.scopes q).name.contains name) s.mods 0
  have f2 := find_zipIdx (fun q => (s.scopes q).name.contains name) s.datas 0
  have c0 : ∀ q, (s.scopes q).name.contains name = false ↔ name ∉ (s.scopes q).name := by intro q; simp
  dsimp only
  cases e1 : s.mods.zipIdx.find? (fun x => (s.scopes x.1).name.contains name) with
  | some x =>
    obtain ⟨p, k⟩ := x
    obtain ⟨j, hj, h1, h2, h3⟩ := (f1.1 p k).1 e1
    refine ⟨nofun, fun h => ?_⟩
    exact absurd (List.contains_iff_mem.1 h2) (h p (List.mem_append_left _ (List.mem_of_getElem? h1)))
  | none =>
    have n1 := f1.2.1 e1
    simp only [Option.map_none, Option.map_map, Option.map_eq_none_iff]
    rw [f2.2]
    constructor
    · intro h q hq
      rcases List.mem_append.1 hq with hq | hq
      · exact (c0 q).1 (n1 q hq)
      · exact (c0 q).1 (h q hq)
    · intro h q hq
      exact (c0 q).2 (h q (List.mem_append_right _ hq))

theorem evE_rmMod_bind {β : Type} {data : Bool} {i : Nat} {f : Unit → E β} {s s' : St} {r : Except Err β} :
    EvE H (Evals H) ((liftM (doOp (.rmMod data i)) : E Unit) >>= f) s r s' ↔
      i < (Spec.modules data s).length ∧ EvE H (Evals H) (f ()) (Spec.unregister data i s) r s' := by
  rw [evE_lift_bind]
  have run : ∀ {u s1}, (Op.rmMod data i).run H s = (.ok u, s1) ↔ i < (Spec.modules data s).length ∧ s1 = Spec.unregister data i s := by
    intro u s1
    cases data with
    | true =>
      show (if i < s.datas.length then _ else _) = _ ↔ i < s.datas.length ∧ _
      split
      · rename_i h
        exact ⟨fun e => ⟨h, (Prod.mk.inj e).2.symm⟩, fun e => by rw [e.2]; rfl⟩
      · rename_i h
        exact ⟨fun e => (by cases (Prod.mk.inj e).1), fun e => absurd e.1 h⟩
    | false =>
      show (if i < s.mods.length then _ else _) = _ ↔ i < s.mods.length ∧ _
      split
      · rename_i h
        exact ⟨fun e => ⟨h, (Prod.mk.inj e).2.symm⟩, fun e => by rw [e.2]; rfl⟩
      · rename_i h
        exact ⟨fun e => (by cases (Prod.mk.inj e).1), fun e => absurd e.1 h⟩
  constructor
  · rintro ⟨u, s1, h1, h2⟩
    obtain ⟨h3, rfl⟩ := run.1 (ev_doOp.1 h1)
    exact ⟨h3, h2⟩
  · rintro ⟨h1, h2⟩
    exact ⟨(), _, ev_doOp.2 (run.2 ⟨h1, rfl⟩), h2⟩

theorem Spec.FirstNamed.lt {s : St} {name : Str} {data : Bool} {i q : Nat} (h : Spec.FirstNamed s name data i q) :
    i < (Spec.modules data s).length := (List.getElem?_eq_some_iff.1 h.at_).1

theorem ev_releases {env : Env} {names : List Str} {s s' : St} {r : Except Err Unit} :
    EvE H (Evals H) (modFreeGo env names) s r s' ↔ Spec.Releases H env names s r s' := by
  induction names generalizing s with
  | nil =>
    refine evE_pure.trans ⟨fun h => by rw [h.1, h.2]; exact .done, fun h => ?_⟩
    cases h; exact ⟨rfl, rfl⟩
  | cons name names ih =>
    rw [modFreeGo, evE_getSt_bind]
    cases hf : findMod s name with
    | none =>
      have hn := findMod_none.1 hf
      dsimp only
      rw [ih]
      have no : ∀ {data i q}, ¬ Spec.FirstNamed s name data i q := by
        intro data i q h
        rw [findMod_some.2 h] at hf; cases hf
      refine ⟨.unknown hn, fun h => ?_⟩
      cases h with
      | unknown _ h => exact h
      | silent h => exact absurd h no
      | failed h => exact absurd h no
      | run h => exact absurd h no
    | some x =>
      obtain ⟨data, i, q⟩ := x
      have h1 := findMod_some.1 hf
      have uniq : ∀ {data' i' q'}, Spec.FirstNamed s name data' i' q' → data' = data ∧ i' = i ∧ q' = q := by
        intro data' i' q' h
        have := findMod_some.2 h
        rw [hf] at this
        cases this
        exact ⟨rfl, rfl, rfl⟩
      have no : ¬ ∀ q ∈ Spec.registered s, name ∉ (s.scopes q).name := by
        intro h
        rw [findMod_none.2 h] at hf; cases hf
      dsimp only
      by_cases hs : (s.scopes q).onFree = []
      · rw [if_neg (by simp [hs]), evE_rmMod_bind, ih]
        constructor
        · rintro ⟨h2, h3⟩
          exact .silent h1 hs h3
        · intro h
          cases h with
          | unknown h => exact absurd h no
          | silent h _ h' => obtain ⟨rfl, rfl, rfl⟩ := uniq h; exact ⟨h1.lt, h'⟩
          | failed h h' => obtain ⟨rfl, rfl, rfl⟩ := uniq h; exact absurd hs h'
          | run h h' => obtain ⟨rfl, rfl, rfl⟩ := uniq h; exact absurd hs h'
      · rw [if_pos (by simpa using hs), evE_under_bind]
        constructor
        · rintro (⟨s1, h2, h3⟩ | ⟨e, h2, rfl⟩)
          · rw [evE_rmMod_bind, ih] at h3
            exact .run h1 hs h2 h3.1 h3.2
          · exact .failed h1 hs h2
        · intro h
          cases h with
          | unknown h => exact absurd h no
          | silent h h' => obtain ⟨rfl, rfl, rfl⟩ := uniq h; exact absurd h' hs
          | failed h _ h' => obtain ⟨rfl, rfl, rfl⟩ := uniq h; exact .inr ⟨_, h', rfl⟩
          | run h _ h' h2 h3 =>
            obtain ⟨rfl, rfl, rfl⟩ := uniq h
            exact .inl ⟨_, h', by rw [evE_rmMod_bind, ih]; exact ⟨h2, h3⟩⟩

/-- **C67.**  `释放模块` does what `Spec.Release` says. -/
theorem C67_release {a : List Code} {env : Env} {s s' : St} {r : Res} :
    Evals H (.item (.modFree a) env) s r s' ↔ Spec.Release H a env s r.r s' ∧ r = { r := r.r } := by
  rw [evals_item]
  have key : ∀ {x : Except Err Unit}, EvE H (Evals H) (itemP (.modFree a) env) s x s' ↔ Spec.Release H a env s x s' := by
    intro x
    refine (evE_helloVec_bind (f := modFreeGo env)).trans ?_
    simp only [ev_releases]
    constructor
    · rintro (⟨v, s1, h1, h2⟩ | ⟨x, e, h1, h2, rfl⟩)
      · exact .names h1 h2
      · exact .failed h1 h2
    · intro h
      cases h with
      | failed h1 h2 => exact .inr ⟨_, _, h1, h2, rfl⟩
      | names h1 h2 => exact .inl ⟨_, _, h1, h2⟩
  constructor
  · rintro ⟨x, h, rfl⟩
    exact ⟨key.1 h, rfl⟩
  · rintro ⟨h, e⟩
    exact ⟨r.r, key.2 h, e⟩

/-- **C67.**  The same as `C67_naming`, for the evaluation of the statements. -/
theorem C67_name {a : List Code} {env : Env} {s s' : St} {r : Res} :
    (Evals H (.item (.name a) env) s r s' ↔ Spec.Naming H false a env s r.r s' ∧ r = { r := r.r }) ∧
    (Evals H (.item (.mod_ a) env) s r s' ↔ Spec.Naming H true a env s r.r s' ∧ r = { r := r.r }) := by
  constructor
  all_goals
    rw [evals_item]
    constructor
    · rintro ⟨x, h, rfl⟩
      exact ⟨C67_naming.1 h, rfl⟩
    · rintro ⟨h, e⟩
      exact ⟨r.r, C67_naming.2 h, e⟩

/-! ### What a user sees -/

theorem first_of_registered {s : St} {name : Str} (h : ∃ q ∈ Spec.registered s, name ∈ (s.scopes q).name) :
    ∃ data i q, Spec.FirstNamed s name data i q := by
  cases hf : findMod s name with
  | none =>
    obtain ⟨q, hq, hn⟩ := h
    exact absurd hn (findMod_none.1 hf q hq)
  | some x => exact ⟨x.1, x.2.1, x.2.2, findMod_some.1 hf⟩

theorem Spec.FirstNamed.mem {s : St} {name : Str} {data : Bool} {i q : Nat} (h : Spec.FirstNamed s name data i q) :
    q ∈ Spec.registered s := by
  have := List.mem_of_getElem? h.at_
  cases data with
  | true => exact List.mem_append_right _ this
  | false => exact List.mem_append_left _ this

/-- **C67.**  After `模块 name` the module of that name is the scope the statement stands in; it is a data module if that was asked for, and
no other module is registered or taken off the list. -/
theorem C67_registers {a : List Code} {env : Env} {s s' : St} (h : Spec.Naming H true a env s (.ok ()) s') :
    ∃ name rest s1, Spec.Words H a env s (name :: rest) s1 ∧ (∃ data i, Spec.FirstNamed s' name data i env.q) ∧
      (∀ data i q, Spec.FirstNamed s' name data i q → q = env.q) ∧
      s'.mods = s1.mods ++ (if rest.tail = [] then [env.q] else []) ∧
      s'.datas = s1.datas ++ (if rest.tail = [] then [] else [env.q]) := by
  cases h with
  | @named name rest s1 hw hr hh =>
    rw [if_pos rfl]
    have e : ∀ p, ((Spec.nameScope env.q name (rest.headD []) (Spec.register env.q (decide (rest.tail ≠ [])) s1)).scopes p).name =
        if p = env.q then (s1.scopes p).name ++ [name] else (s1.scopes p).name := by
      intro p
      have e1 : (Spec.register env.q (decide (rest.tail ≠ [])) s1).scopes = s1.scopes := by unfold Spec.register; split <;> rfl
      show (upd (Spec.register env.q (decide (rest.tail ≠ [])) s1).scopes env.q _ p).name = _
      rw [e1]
      unfold upd
      split
      · rename_i hp; rw [hp]
      · rfl
    have em : (Spec.nameScope env.q name (rest.headD []) (Spec.register env.q (decide (rest.tail ≠ [])) s1)).mods =
        s1.mods ++ (if rest.tail = [] then [env.q] else []) := by
      by_cases ht : rest.tail = [] <;> simp [Spec.nameScope, Spec.scoped, Spec.register, ht]
    have ed : (Spec.nameScope env.q name (rest.headD []) (Spec.register env.q (decide (rest.tail ≠ [])) s1)).datas =
        s1.datas ++ (if rest.tail = [] then [] else [env.q]) := by
      by_cases ht : rest.tail = [] <;> simp [Spec.nameScope, Spec.scoped, Spec.register, ht]
    have only : ∀ data i q, Spec.FirstNamed (Spec.nameScope env.q name (rest.headD [])
        (Spec.register env.q (decide (rest.tail ≠ [])) s1)) name data i q → q = env.q := by
      intro data i q h
      by_cases hq : q = env.q
      · exact hq
      · have hn := h.has
        rw [e, if_neg hq] at hn
        have hm := h.mem
        unfold Spec.registered at hm
        rw [em, ed] at hm
        refine absurd (.inr (.inr ⟨rfl, .inr ⟨q, ?_, hn⟩⟩)) hr
        simp only [List.mem_append] at hm
        rcases hm with (hm | hm) | (hm | hm)
        · exact List.mem_append_left _ hm
        · split at hm
          · exact absurd (List.mem_singleton.1 hm) hq
          · cases hm
        · exact List.mem_append_right _ hm
        · split at hm
          · cases hm
          · exact absurd (List.mem_singleton.1 hm) hq
    refine ⟨name, rest, s1, hw, ?_, only, em, ed⟩
    obtain ⟨data, i, q, hf⟩ := first_of_registered (s := Spec.nameScope env.q name (rest.headD [])
        (Spec.register env.q (decide (rest.tail ≠ [])) s1)) (name := name) (by
      refine ⟨env.q, ?_, by rw [e, if_pos rfl]; simp⟩
      unfold Spec.registered
      rw [em, ed]
      by_cases ht : rest.tail = [] <;> simp [ht])
    have := only _ _ _ hf
    exact ⟨data, i, this ▸ hf⟩

theorem mem_eraseIdx_of {l : List Nat} {i q : Nat} (h : l[i]? = some q) :
    (∀ p, p ≠ q → (p ∈ l.eraseIdx i ↔ p ∈ l)) ∧ (l.eraseIdx i).count q + 1 = l.count q := by
  induction l generalizing i with
  | nil => simp at h
  | cons a l ih =>
    cases i with
    | zero =>
      simp only [List.getElem?_cons_zero, Option.some.injEq] at h
      subst h
      exact ⟨fun p hp => by simp [hp], by simp⟩
    | succ i =>
      obtain ⟨h1, h2⟩ := ih (by simpa using h)
      refine ⟨fun p hp => by simp [h1 p hp], ?_⟩
      simp only [List.eraseIdx_cons_succ, List.count_cons]
      omega

theorem registered_unregister {s : St} {data : Bool} {i q : Nat} (h : (Spec.modules data s)[i]? = some q) :
    (Spec.registered (Spec.unregister data i s)).Sublist (Spec.registered s) ∧
    (∀ p, p ≠ q → (p ∈ Spec.registered (Spec.unregister data i s) ↔ p ∈ Spec.registered s)) ∧
    (Spec.registered (Spec.unregister data i s)).count q + 1 = (Spec.registered s).count q := by
  cases data with
  | false =>
    obtain ⟨h1, h2⟩ := mem_eraseIdx_of (l := s.mods) h
    have e : Spec.registered (Spec.unregister false i s) = s.mods.eraseIdx i ++ s.datas := rfl
    rw [e]
    unfold Spec.registered
    refine ⟨List.Sublist.append (List.eraseIdx_sublist _ _) (List.Sublist.refl _), fun p hp => by simp [h1 p hp], ?_⟩
    rw [List.count_append, List.count_append]; omega
  | true =>
    obtain ⟨h1, h2⟩ := mem_eraseIdx_of (l := s.datas) h
    have e : Spec.registered (Spec.unregister true i s) = s.mods ++ s.datas.eraseIdx i := rfl
    rw [e]
    unfold Spec.registered
    refine ⟨List.Sublist.append (List.Sublist.refl _) (List.eraseIdx_sublist _ _), fun p hp => by simp [h1 p hp], ?_⟩
    rw [List.count_append, List.count_append]; omega

theorem unregister_scopes {data : Bool} {i : Nat} {s : St} : (Spec.unregister data i s).scopes = s.scopes := by
  unfold Spec.unregister; split <;> rfl

/-- **C67.**  A module `q` that is registered once, whose name no other module has, and whose text for its release (if there is one) leaves
the lists of modules and their names alone: releasing the name ends well or with what the text failed with; when it ends well, exactly this
module is gone, the others are there in the same order, and no module has the name.
(Partial: for a module that is registered twice, or whose text releases others, this is false, see the counterexamples.) -/
theorem C67_released_partial {env : Env} {name : Str} {data : Bool} {i q : Nat} {s s' : St} (h : Spec.FirstNamed s name data i q)
    (once : (Spec.registered s).count q = 1) (alone : ∀ p ∈ Spec.registered s, p ≠ q → name ∉ (s.scopes p).name)
    (text : (s.scopes q).onFree ≠ [] → ∀ s1, Spec.Under H q (.src (s.scopes q).onFree { env with q, inq := some q }) s (.ok ()) s1 →
      s1.mods = s.mods ∧ s1.datas = s.datas ∧ ∀ p ∈ Spec.registered s, (s1.scopes p).name = (s.scopes p).name)
    (hr : Spec.Releases H env [name] s (.ok ()) s') :
    q ∉ Spec.registered s' ∧ (∀ p, p ≠ q → (p ∈ Spec.registered s' ↔ p ∈ Spec.registered s)) ∧
    (Spec.registered s').Sublist (Spec.registered s) ∧ ∀ p ∈ Spec.registered s', name ∉ (s'.scopes p).name := by
  have uniq : ∀ {data' i' q'}, Spec.FirstNamed s name data' i' q' → data' = data ∧ i' = i ∧ q' = q := by
    intro data' i' q' h'
    have h1 := findMod_some.2 h
    rw [findMod_some.2 h'] at h1
    cases h1
    exact ⟨rfl, rfl, rfl⟩
  have fin : ∀ {s1 : St}, s1.mods = s.mods → s1.datas = s.datas → (∀ p ∈ Spec.registered s, (s1.scopes p).name = (s.scopes p).name) →
      s' = Spec.unregister data i s1 →
      q ∉ Spec.registered s' ∧ (∀ p, p ≠ q → (p ∈ Spec.registered s' ↔ p ∈ Spec.registered s)) ∧
      (Spec.registered s').Sublist (Spec.registered s) ∧ ∀ p ∈ Spec.registered s', name ∉ (s'.scopes p).name := by
    intro s1 hm hd hn e
    subst e
    have hreg : Spec.registered s1 = Spec.registered s := by unfold Spec.registered; rw [hm, hd]
    have hat : (Spec.modules data s1)[i]? = some q := by
      have : Spec.modules data s1 = Spec.modules data s := by unfold Spec.modules; rw [hm, hd]
      rw [this]; exact h.at_
    obtain ⟨h1, h2, h3⟩ := registered_unregister hat
    rw [hreg] at h1 h2 h3
    have h4 : q ∉ Spec.registered (Spec.unregister data i s1) := by
      intro hq
      have := List.count_pos_iff.2 hq
      omega
    refine ⟨h4, h2, h1, fun p hp => ?_⟩
    have hpq : p ≠ q := fun e => h4 (e ▸ hp)
    have hp' := (h2 p hpq).1 hp
    rw [unregister_scopes, hn p hp']
    exact alone p hp' hpq
  cases hr with
  | unknown h' => exact absurd h.has (h' q h.mem)
  | silent h' _ h2 =>
    obtain ⟨rfl, rfl, rfl⟩ := uniq h'
    cases h2
    exact fin rfl rfl (fun _ _ => rfl) rfl
  | run h' ht h1 _ h2 =>
    obtain ⟨rfl, rfl, rfl⟩ := uniq h'
    cases h2
    obtain ⟨t1, t2, t3⟩ := text ht _ h1
    exact fin t1 t2 t3 rfl

/-- A module with a text, between two others. -/
def releaseDemo : Str :=
  c!"解释下代码模块“乙”。上代码。解释下代码模块“甲”、“显示“再见”。”。定义好以“显示“好”。”。上代码。解释下代码模块“丙”。上代码。好。释放模块“甲”。"

/-- The hypotheses of `C67_released_partial` are met when the script reaches `释放模块“甲”`; the text of the module is not empty. -/
theorem C67_released_witness : ∃ a env s s' i q, Reached H0 false (demoArgv releaseDemo) (.item (.modFree a) env) s ∧
    Spec.FirstNamed s c!"甲" false i q ∧ (s.scopes q).onFree ≠ [] ∧ (Spec.registered s).length = 3 ∧
    (Spec.registered s).count q = 1 ∧ (∀ p ∈ Spec.registered s, p ≠ q → c!"甲" ∉ (s.scopes p).name) ∧
    (∀ s1, Spec.Under H0 q (.src (s.scopes q).onFree { env with q, inq := some q }) s (.ok ()) s1 →
      s1.mods = s.mods ∧ s1.datas = s.datas ∧ ∀ p ∈ Spec.registered s, (s1.scopes p).name = (s.scopes p).name) ∧
    Spec.Releases H0 env [c!"甲"] s (.ok ()) s' := by
  obtain ⟨c, s, hr, h⟩ := demoB_sound (n := 20) (src := releaseDemo)
    (P := fun c s => match c with
    | .item (.modFree _) env =>
      match findMod s c!"甲" with
      | some (false, i, q) =>
        match run H0 20 (.src (s.scopes q).onFree { env with q, inq := some q }) (s.hold [.scope q]) with
        | (.ok ⟨_, _, _, .ok ()⟩, s1) => decide ((s.scopes q).onFree ≠ [] ∧ (Spec.registered s).length = 3 ∧ (Spec.registered s).count q = 1 ∧
            (∀ p ∈ Spec.registered s, p ≠ q → c!"甲" ∉ (s.scopes p).name) ∧ i < s1.mods.length ∧
            s1.mods = s.mods ∧ s1.datas = s.datas ∧ ∀ p ∈ Spec.registered s, (s1.scopes p).name = (s.scopes p).name)
        | _ => false
      | _ => false
    | _ => false) (by decide +kernel)
  split at h
  · rename_i a env
    split at h
    · rename_i i q hf
      split at h
      · rename_i s1 hrun
        obtain ⟨h1, h2, h3, h4, h5, h6⟩ := of_decide_eq_true h
        have hev : Spec.Under H0 q (.src (s.scopes q).onFree { env with q, inq := some q }) s (.ok ()) { s1 with held := s.held } :=
          ⟨_, _, ⟨20, hrun⟩, rfl, rfl⟩
        refine ⟨a, env, s, _, i, q, hr, findMod_some.1 hf, h1, h2, h3, h4, ?_, .run (findMod_some.1 hf) h1 hev h5 .done⟩
        rintro s2 ⟨x, s3, g1, g2, rfl⟩
        obtain ⟨_, rfl⟩ := Evals.unique ⟨20, hrun⟩ g1
        exact h6
      · cases h
    · cases h
  · cases h

/-- What a script sees: the definitions of a module are found from outside until it is released; its text runs then; the name can be given
again. -/
theorem C67_example :
    demo 60 releaseDemo = (.ok (.ok ()), [.out c!"好", .out c!"再见"]) ∧
    demo 60 c!"模块“甲”。释放模块“甲”、“乙”。模块“甲”。显示“可”。" = (.ok (.ok ()), [.out c!"可"]) := by
  decide +kernel

/-- Found: a scope that was made a module twice is still a module, under all its names, after a release: the name cannot be given again. -/
theorem C67_twice_counterexample :
    (demo 60 c!"模块“甲”。模块“乙”。释放模块“甲”。").1 = .ok (.ok ()) ∧
    registeredNames (runMain H0 60 false (demoArgv c!"模块“甲”。模块“乙”。释放模块“甲”。")).2 = [[c!"甲", c!"乙"]] ∧
    (∃ e, (demo 60 c!"模块“甲”。模块“乙”。释放模块“甲”。模块“甲”。").1 = .ok (.error e)) := by
  refine ⟨by decide +kernel, by decide +kernel, ?_⟩
  have h : (match (demo 60 c!"模块“甲”。模块“乙”。释放模块“甲”。模块“甲”。").1 with | .ok (.error _) => true | _ => false) = true := by
    decide +kernel
  split at h
  · rename_i e he
    exact ⟨e, he⟩
  · cases h

/-- Found: when the text of a module releases a module before it, the wrong module is taken off the list: after the release of `甲` its
definition `好` can still be used, and `行` of the module `丙` is gone. -/
theorem C67_wrong_module_counterexample :
    demo 60 c!"解释下代码模块“乙”。上代码。解释下代码模块“甲”、“释放模块“乙”。”。定义好以“显示“1”。”。上代码。解释下代码模块“丙”。定义行以“显示“2”。”。上代码。行。释放模块“甲”。好。行。"
      = (.ok (.ok ()), [.out c!"2", .out c!"1"]) := by
  decide +kernel

end Zh
