import Verif.Props.Conds
import Verif.Spec.Groups
/-!
# C32: a switch runs the branches with a matching label
-/
namespace Zh

variable {H : Host}

/-! ## Specification -/

/-- The labels written before the body of a branch: the texts between the separators `、`; a last separator
may be left without a label after it. -/
def Spec.labels (l : List Item) : List Str :=
  let gs := Spec.groups Item.dunhao l
  (if (l.getLast?.map Item.dunhao) = some true then gs.dropLast else gs).map fun g => g.flatMap fun i => i.val.plainKw

/-- The labels of all branches (given by the places of their labels) are evaluated one after the other, each
into a result list of its own, until the first error. -/
inductive Spec.Labels (H : Host) (case : List Code) (env : Env) :
    List (Nat × Nat) → St → Except Err (List (List Str)) → St → Prop where
  | nil {s} : Spec.Labels H case env [] s (.ok []) s
  | fail {i j rest s x e s1} : Evals H (.codes case i j { env with ret := s.nlist }) (Spec.fresh s) x s1 → x.r = .error e →
    Spec.Labels H case env ((i, j) :: rest) s (.error e) s1
  | failRest {i j rest s x s1 e s2} : Evals H (.codes case i j { env with ret := s.nlist }) (Spec.fresh s) x s1 → x.r = .ok () →
    Spec.Labels H case env rest s1 (.error e) s2 → Spec.Labels H case env ((i, j) :: rest) s (.error e) s2
  | cons {i j rest s x s1 ls s2} : Evals H (.codes case i j { env with ret := s.nlist }) (Spec.fresh s) x s1 → x.r = .ok () →
    Spec.Labels H case env rest s1 (.ok ls) s2 →
    Spec.Labels H case env ((i, j) :: rest) s (.ok (Spec.labels (s1.lists s.nlist).a :: ls)) s2

/-- The place of the body of each branch: from the end of its labels to the next branch. -/
def Spec.bodies : List (Nat × Nat) → List (Nat × Nat)
  | [] => []
  | [b] => [(b.2, usizeMax)]
  | b :: c :: rest => (b.2, c.1) :: Spec.bodies (c :: rest)

/-- The bodies to be run: each one as often as its labels contain the subject. -/
def Spec.chosen (subject : Str) (bodies : List (Nat × Nat)) (ls : List (List Str)) : List (Nat × Nat) :=
  (bodies.zip ls).flatMap fun b => List.replicate (b.2.count subject) b.1

/-- Bodies are run one after the other, until the first error or jump. -/
inductive Spec.RunAll (H : Host) (case : List Code) (env : Env) : List (Nat × Nat) → St → Except Err Unit → St → Prop where
  | nil {s} : Spec.RunAll H case env [] s (.ok ()) s
  | fail {i j rest s x e s1} : Evals H (.codes case i j env) s x s1 → x.r = .error e →
    Spec.RunAll H case env ((i, j) :: rest) s (.error e) s1
  | cons {i j rest s x s1 r s2} : Evals H (.codes case i j env) s x s1 → x.r = .ok () →
    Spec.RunAll H case env rest s1 r s2 → Spec.RunAll H case env ((i, j) :: rest) s r s2

/-- Inside a switch a sentence ends at `。`. -/
def Spec.inSwitch (env : Env) : Env := { env with gd := { env.gd with jvhao := true, dunhao := false } }

/-- What a switch does with the labels `ls`. -/
inductive Spec.Choice (H : Host) (one : Bool) (case : List Code) (bs : List (Nat × Nat)) (default : Option Nat) (env : Env)
    (subject : Str) (ls : List (List Str)) (s : St) : Except Err Unit → St → Prop where
  /-- no label is the subject, and there is no default -/
  | nothing : Spec.chosen subject (Spec.bodies bs) ls = [] → default = none → Spec.Choice H one case bs default env subject ls s (.ok ()) s
  /-- no label is the subject: the default is run -/
  | default {i x s'} : Spec.chosen subject (Spec.bodies bs) ls = [] → default = some i →
    Evals H (.codes case i usizeMax env) s x s' → Spec.Choice H one case bs default env subject ls s x.r s'
  /-- the exclusive form, several labels are the subject: nothing is run -/
  | several : one = true → 1 < (Spec.chosen subject (Spec.bodies bs) ls).length →
    Spec.Choice H one case bs default env subject ls s (.error ⟨1000, 0, c!"非唯一", []⟩) s
  /-- otherwise the chosen bodies are run in order -/
  | run {r s'} : Spec.chosen subject (Spec.bodies bs) ls ≠ [] →
    (one = true → (Spec.chosen subject (Spec.bodies bs) ls).length = 1) →
    Spec.RunAll H case env (Spec.chosen subject (Spec.bodies bs) ls) s r s' →
    Spec.Choice H one case bs default env subject ls s r s'

/-! ## Proofs -/

section
variable {R : Call → St → Res → St → Prop} {α β : Type}

theorem evE_lift_bind {p : Prog α} {f : α → E β} {s s' : St} {r : Except Err β} :
    EvE H R ((liftM p : E α) >>= f) s r s' ↔ ∃ a s1, Ev H R p s a s1 ∧ EvE H R (f a) s1 r s' := by
  rw [evE_bind]
  constructor
  · rintro (⟨a, s1, h1, h2⟩ | ⟨e, h, -⟩)
    · obtain ⟨_, h3, h1⟩ := evE_lift.1 h1
      cases h3
      exact ⟨a, s1, h1, h2⟩
    · obtain ⟨_, h, -⟩ := evE_lift.1 h
      cases h
  · rintro ⟨a, s1, h1, h2⟩
    exact .inl ⟨a, s1, evE_lift.2 ⟨a, rfl, h1⟩, h2⟩

theorem evE_newList_bind {f : Nat → E β} {s s' : St} {r : Except Err β} :
    EvE H R ((liftM (doOp .newList) : E Nat) >>= f) s r s' ↔ EvE H R (f s.nlist) (Spec.fresh s) r s' := by
  rw [evE_lift_bind]
  constructor
  · rintro ⟨a, s1, h1, h2⟩
    have h1 := ev_doOp.1 h1
    simp only [Op.run, Prod.mk.injEq, Out.ok.injEq] at h1
    obtain ⟨rfl, rfl⟩ := h1
    exact h2
  · intro h
    exact ⟨_, _, ev_doOp.2 rfl, h⟩

theorem evE_getList_bind {l : Nat} {f : RList → E β} {s s' : St} {r : Except Err β} :
    EvE H R ((liftM (getList l) : E RList) >>= f) s r s' ↔ EvE H R (f (s.lists l)) s r s' := by
  rw [evE_lift_bind]
  unfold getList
  constructor
  · rintro ⟨a, s1, h1, h2⟩
    obtain ⟨st, s5, h9, h10⟩ := ev_bind.1 h1
    obtain ⟨rfl, rfl⟩ := ev_getSt.1 h9
    obtain ⟨rfl, rfl⟩ := ev_pure.1 h10
    exact h2
  · intro h
    exact ⟨_, s, ev_bind.2 ⟨s, s, ev_getSt.2 ⟨rfl, rfl⟩, ev_pure.2 ⟨rfl, rfl⟩⟩, h⟩

theorem evE_callE_bind [Sub H R] {c : Call} {f : Unit → E β} {s s' : St} {r : Except Err β} :
    EvE H R (callE [] c >>= f) s r s' ↔
      (∃ x s1, R c s x s1 ∧ x.r = .ok () ∧ EvE H R (f ()) s1 r s') ∨ ∃ x e, R c s x s' ∧ x.r = .error e ∧ r = .error e := by
  rw [evE_bind]
  constructor
  · rintro (⟨a, s1, h1, h2⟩ | ⟨e, h, rfl⟩)
    · obtain ⟨x, h3, h4⟩ := evE_callE.1 h1
      exact .inl ⟨x, s1, h3, h4, h2⟩
    · obtain ⟨x, h3, h4⟩ := evE_callE.1 h
      exact .inr ⟨x, e, h3, h4, rfl⟩
  · rintro (⟨x, s1, h1, h2, h3⟩ | ⟨x, e, h1, h2, rfl⟩)
    · exact .inl ⟨(), s1, evE_callE.2 ⟨x, h1, h2⟩, h3⟩
    · exact .inr ⟨e, evE_callE.2 ⟨x, h1, h2⟩, rfl⟩

theorem evE_hello_bind [Sub H R] {a : List Code} {env : Env} {f : Unit → E β} {s s' : St} {r : Except Err β} :
    EvE H R (hello [] a env >>= f) s r s' ↔
      (∃ x s1, R (.codes a 0 usizeMax env) s x s1 ∧ x.r = .ok () ∧ EvE H R (f ()) s1 r s') ∨
        ∃ x e, R (.codes a 0 usizeMax env) s x s' ∧ x.r = .error e ∧ r = .error e := evE_callE_bind

end

theorem evE_helloVec_bind {β : Type} {a : List Code} {env : Env} {f : List Str → E β} {s s' : St} {r : Except Err β} :
    EvE H (Evals H) (helloVec a env >>= f) s r s' ↔
      (∃ v s1, Spec.Words H a env s v s1 ∧ EvE H (Evals H) (f v) s1 r s') ∨
        ∃ x e, Evals H (.codes a 0 usizeMax { env with ret := s.nlist }) (Spec.fresh s) x s' ∧ x.r = .error e ∧ r = .error e := by
  rw [evE_bind]
  refine or_congr (exists_congr fun v => exists_congr fun s1 => and_congr_left fun _ => evE_helloVec_ok) ?_
  have : ∀ e, EvE H (Evals H) (helloVec a env) s (.error e) s' ↔
      ∃ x, Evals H (.codes a 0 usizeMax { env with ret := s.nlist }) (Spec.fresh s) x s' ∧ x.r = .error e := by
    intro e
    unfold helloVec helloNew
    constructor
    · intro h
      rcases evE_bind.1 h with ⟨l, s1, h1, h2⟩ | ⟨e', h1, h3⟩
      · have := evE_getList_bind.1 h2
        obtain ⟨h4, -⟩ := evE_pure.1 this
        cases h4
      · cases h3
        have h2 := evE_newList_bind.1 h1
        rcases evE_hello_bind.1 h2 with ⟨x, s1, h4, h5, h6⟩ | ⟨x, e', h4, h5, h6⟩
        · obtain ⟨h7, -⟩ := evE_pure.1 h6
          cases h7
        · cases h6
          exact ⟨x, h4, h5⟩
    · rintro ⟨x, h1, h2⟩
      exact evE_bind.2 (.inr ⟨e, evE_newList_bind.2 (evE_hello_bind.2 (.inr ⟨x, e, h1, h2, rfl⟩)), rfl⟩)
  constructor
  · rintro ⟨e, h, rfl⟩
    obtain ⟨x, h1, h2⟩ := (this e).1 h
    exact ⟨x, e, h1, h2, rfl⟩
  · rintro ⟨x, e, h1, h2, rfl⟩
    exact ⟨e, (this e).2 ⟨x, h1, h2⟩, rfl⟩

/-! ### Labels -/

theorem labelHits_eq {subject : Str} {rg : Nat × Nat} (l : List Item) (acc : Str) (hl : l ≠ []) :
    labelHits subject rg l acc =
      List.replicate ((match Spec.labels l with | [] => [] | g :: gs => (acc ++ g) :: gs).count subject) rg := by
  induction l generalizing acc with
  | nil => exact absurd rfl hl
  | cons i is ih =>
    unfold labelHits
    have hrep : ∀ (x : Str) (n : Nat), (if x = subject then [rg] else []) ++ List.replicate n rg =
        List.replicate (n + if x = subject then 1 else 0) rg := by
      intro x n
      split
      · simp [List.replicate_succ]
      · simp
    by_cases hd : i.dunhao = true
    · simp only [hd, if_true, Bool.true_or]
      cases is with
      | nil =>
        have : Spec.labels [i] = [[]] := by simp [Spec.labels, Spec.groups, hd]
        rw [this]
        simp only [labelHits, List.append_nil, List.count_singleton]
        split <;> simp_all
      | cons j js =>
        have hne : (j :: js : List Item) ≠ [] := by simp
        rw [ih [] hne]
        have : Spec.labels (i :: j :: js) = [] :: Spec.labels (j :: js) := by
          unfold Spec.labels
          simp only [Spec.groups.eq_2 _ i (j :: js), hd, if_true, List.getLast?_cons_cons]
          split
          · rw [List.dropLast_cons_of_ne_nil (Spec.groups_ne_nil _)]; simp
          · simp
        rw [this]
        dsimp only
        have e : (match Spec.labels (j :: js) with | [] => [] | g :: gs => ([] ++ g) :: gs) = Spec.labels (j :: js) := by
          cases Spec.labels (j :: js) <;> simp
        rw [e, hrep, List.count_cons, List.append_nil]
        simp only [beq_iff_eq]
    · have hd' : i.dunhao = false := by simpa using hd
      simp only [hd', Bool.false_eq_true, if_false, Bool.false_or]
      cases is with
      | nil =>
        have : Spec.labels [i] = [i.val.plainKw] := by simp [Spec.labels, Spec.groups, hd']
        rw [this]
        simp only [labelHits, List.append_nil, List.count_singleton, List.isEmpty_nil, if_true]
        split <;> simp_all
      | cons j js =>
        have hne : (j :: js : List Item) ≠ [] := by simp
        simp only [List.isEmpty_cons, Bool.false_eq_true, if_false]
        rw [ih _ hne]
        congr 2
        obtain ⟨g, gs, hg⟩ : ∃ g gs, Spec.groups Item.dunhao (j :: js) = g :: gs := by
          cases h : Spec.groups Item.dunhao (j :: js) with
          | nil => exact absurd h (Spec.groups_ne_nil _)
          | cons g gs => exact ⟨g, gs, rfl⟩
        unfold Spec.labels
        simp only [Spec.groups.eq_2 _ i (j :: js), hd', Bool.false_eq_true, if_false, List.getLast?_cons_cons, hg]
        by_cases hc : Option.map Item.dunhao (j :: js).getLast? = some true
        · have hgs : gs ≠ [] := by
            rintro rfl
            have h1 := Spec.groups_length (p := Item.dunhao) (j :: js)
            rw [hg] at h1
            obtain ⟨k, h2, h3⟩ := Option.map_eq_some_iff.1 hc
            have h4 : k ∈ (j :: js).filter Item.dunhao := List.mem_filter.2 ⟨List.mem_of_getLast? h2, h3⟩
            have h5 : (j :: js).filter Item.dunhao = [] := List.length_eq_zero_iff.1 (by simpa using h1)
            rw [h5] at h4
            cases h4
          obtain ⟨g2, gs2, rfl⟩ := List.exists_cons_of_ne_nil hgs
          simp only [if_pos hc, List.dropLast_cons_cons, List.map_cons, List.flatMap_cons, List.append_assoc]
        · simp only [if_neg hc, List.map_cons, List.flatMap_cons, List.append_assoc]

theorem labelRanges_eq {subject : Str} {rg : Nat × Nat} (l : List Item) :
    labelRanges subject rg l = List.replicate ((Spec.labels l).count subject) rg := by
  unfold labelRanges
  cases l with
  | nil =>
    have : Spec.labels [] = [[]] := by simp [Spec.labels, Spec.groups]
    rw [this, List.count_singleton]
    simp only [List.isEmpty_nil, if_true]
    by_cases h : subject = []
    · subst h; simp
    · simp [h]
  | cons i is =>
    rw [if_neg (by simp), labelHits_eq _ _ (by simp)]
    congr 2
    cases Spec.labels (i :: is) <;> simp

theorem switchHits_iff {case : List Code} {subject : Str} {env : Env} {bs : List (Nat × Nat)} {s s' : St}
    {r : Except Err (List (Nat × Nat))} :
    EvE H (Evals H) (switchHits case subject env bs) s r s' ↔
      (∃ e, r = .error e ∧ Spec.Labels H case env bs s (.error e) s') ∨
      ∃ ls, r = .ok (Spec.chosen subject (Spec.bodies bs) ls) ∧ Spec.Labels H case env bs s (.ok ls) s' := by
  induction bs generalizing s r with
  | nil =>
    unfold switchHits
    rw [evE_pure]
    constructor
    · rintro ⟨rfl, rfl⟩
      exact .inr ⟨[], rfl, .nil⟩
    · rintro (⟨e, rfl, h⟩ | ⟨ls, rfl, h⟩)
      · cases h
      · cases h; exact ⟨rfl, rfl⟩
  | cons b rest ih =>
    obtain ⟨i, j⟩ := b
    unfold switchHits
    rw [evE_newList_bind, evE_callE_bind]
    have hb : ∀ l ls, labelRanges subject (j, match rest with | [] => usizeMax | (f, _) :: _ => f) l ++
        Spec.chosen subject (Spec.bodies rest) ls = Spec.chosen subject (Spec.bodies ((i, j) :: rest)) (Spec.labels l :: ls) := by
      intro l ls
      rw [labelRanges_eq]
      cases rest with
      | nil => simp [Spec.bodies, Spec.chosen]
      | cons c rest => simp [Spec.bodies, Spec.chosen]
    have key : ∀ l s1 r, EvE H (Evals H) (do
          let hs ← switchHits case subject env rest
          return labelRanges subject (j, match rest with | [] => usizeMax | (f, _) :: _ => f) l ++ hs) s1 r s' ↔
        (∃ e, r = .error e ∧ Spec.Labels H case env rest s1 (.error e) s') ∨
        ∃ ls, r = .ok (Spec.chosen subject (Spec.bodies ((i, j) :: rest)) (Spec.labels l :: ls)) ∧
          Spec.Labels H case env rest s1 (.ok ls) s' := by
      intro l s1 r
      rw [evE_bind]
      constructor
      · rintro (⟨hs, s2, h1, h2⟩ | ⟨e, h1, rfl⟩)
        · obtain ⟨rfl, rfl⟩ := evE_pure.1 h2
          rcases ih.1 h1 with ⟨e, h3, -⟩ | ⟨ls, h3, h4⟩
          · cases h3
          · cases h3
            exact .inr ⟨ls, by rw [hb], h4⟩
        · rcases ih.1 h1 with ⟨e', h3, h4⟩ | ⟨ls, h3, h4⟩
          · cases h3
            exact .inl ⟨_, rfl, h4⟩
          · cases h3
      · rintro (⟨e, rfl, h1⟩ | ⟨ls, rfl, h1⟩)
        · exact .inr ⟨e, ih.2 (.inl ⟨e, rfl, h1⟩), rfl⟩
        · exact .inl ⟨_, s', ih.2 (.inr ⟨ls, rfl, h1⟩), evE_pure.2 ⟨by rw [hb], rfl⟩⟩
    constructor
    · rintro (⟨x, s1, h1, h2, h3⟩ | ⟨x, e, h1, h2, rfl⟩)
      · have h3 := evE_getList_bind.1 h3
        rcases (key _ _ _).1 h3 with ⟨e, rfl, h4⟩ | ⟨ls, rfl, h4⟩
        · exact .inl ⟨e, rfl, .failRest h1 h2 h4⟩
        · exact .inr ⟨_, rfl, .cons h1 h2 h4⟩
      · exact .inl ⟨e, rfl, .fail h1 h2⟩
    · rintro (⟨e, rfl, h⟩ | ⟨ls, rfl, h⟩)
      · cases h with
        | fail h1 h2 => exact .inr ⟨_, _, h1, h2, rfl⟩
        | failRest h1 h2 h3 => exact .inl ⟨_, _, h1, h2, evE_getList_bind.2 ((key _ _ _).2 (.inl ⟨_, rfl, h3⟩))⟩
      · cases h with
        | cons h1 h2 h3 => exact .inl ⟨_, _, h1, h2, evE_getList_bind.2 ((key _ _ _).2 (.inr ⟨_, rfl, h3⟩))⟩

theorem switchRun_iff {case : List Code} {env : Env} {bs : List (Nat × Nat)} {s s' : St} {r : Except Err Unit} :
    EvE H (Evals H) (switchRun case env bs) s r s' ↔ Spec.RunAll H case env bs s r s' := by
  induction bs generalizing s with
  | nil =>
    unfold switchRun
    rw [evE_pure]
    constructor
    · rintro ⟨rfl, rfl⟩; exact .nil
    · intro h; cases h; exact ⟨rfl, rfl⟩
  | cons b rest ih =>
    obtain ⟨i, j⟩ := b
    unfold switchRun
    rw [evE_callE_bind]
    constructor
    · rintro (⟨x, s1, h1, h2, h3⟩ | ⟨x, e, h1, h2, rfl⟩)
      · exact .cons h1 h2 (ih.1 h3)
      · exact .fail h1 h2
    · intro h
      cases h with
      | fail h1 h2 => exact .inr ⟨_, _, h1, h2, rfl⟩
      | cons h1 h2 h3 => exact .inl ⟨_, _, h1, h2, ih.2 h3⟩

/-- **C32.** A switch: the subject is evaluated, then the labels of all branches in order, then the bodies of
the branches with labels equal to the subject in order, or the default if there is none; the exclusive form
fails if several labels are equal to the subject. -/
theorem C32_switch {one : Bool} {a case : List Code} {bs : List (Nat × Nat)} {default : Option Nat} {env : Env} {s s' : St}
    {r : Res} :
    Evals H (.item (.switch one a case bs default) env) s r s' ↔
      /- the subject fails -/
      (∃ x e, Evals H (.codes a 0 usizeMax { env with ret := s.nlist }) (Spec.fresh s) x s' ∧ x.r = .error e ∧
        r = { r := .error e }) ∨
      /- a label fails -/
      (∃ v s1 e, Spec.Words H a env s v s1 ∧ Spec.Labels H case (Spec.inSwitch env) bs s1 (.error e) s' ∧ r = { r := .error e }) ∨
      /- the choice -/
      ∃ v s1 ls s2 y, Spec.Words H a env s v s1 ∧ Spec.Labels H case (Spec.inSwitch env) bs s1 (.ok ls) s2 ∧
        Spec.Choice H one case bs default (Spec.inSwitch env) (v.headD []) ls s2 y s' ∧ r = { r := y } := by
  rw [evals_item]
  change (∃ x, EvE H (Evals H) (switchP one a case bs default env) s x s' ∧ r = { r := x }) ↔ _
  unfold switchP
  have key : ∀ (v : Str) (ls : List (List Str)) (s2 : St) (y : Except Err Unit),
      EvE H (Evals H) (if (Spec.chosen v (Spec.bodies bs) ls).isEmpty then
          match default with
          | some i => callE [] (.codes case i usizeMax (Spec.inSwitch env))
          | none => return ()
        else if one && decide ((Spec.chosen v (Spec.bodies bs) ls).length > 1) then fail (.msg c!"非唯一")
        else switchRun case (Spec.inSwitch env) (Spec.chosen v (Spec.bodies bs) ls)) s2 y s' ↔
      Spec.Choice H one case bs default (Spec.inSwitch env) v ls s2 y s' := by
    intro v ls s2 y
    constructor
    · intro h
      by_cases h1 : Spec.chosen v (Spec.bodies bs) ls = []
      · rw [if_pos (by simp [h1])] at h
        rcases hd : default with _ | i
        · rw [hd] at h
          obtain ⟨rfl, rfl⟩ := evE_pure.1 h
          exact .nothing h1 rfl
        · rw [hd] at h
          obtain ⟨x, h2, rfl⟩ := evE_callE.1 h
          exact .default h1 rfl h2
      · rw [if_neg (by simp [h1])] at h
        by_cases h2 : one = true ∧ 1 < (Spec.chosen v (Spec.bodies bs) ls).length
        · rw [if_pos (by simp [h2])] at h
          obtain ⟨rfl, rfl⟩ := evE_fail.1 h
          exact .several h2.1 h2.2
        · rw [if_neg (by simpa using h2)] at h
          refine .run h1 (fun h3 => ?_) (switchRun_iff.1 h)
          have := List.length_pos_iff.2 h1
          have : ¬ 1 < (Spec.chosen v (Spec.bodies bs) ls).length := fun h4 => h2 ⟨h3, h4⟩
          omega
    · intro h
      cases h with
      | nothing h1 h2 =>
        subst h2
        rw [if_pos (by simp [h1])]
        exact evE_pure.2 ⟨rfl, rfl⟩
      | default h1 h2 h3 =>
        subst h2
        rw [if_pos (by simp [h1])]
        exact evE_callE.2 ⟨_, h3, rfl⟩
      | several h1 h2 =>
        rw [if_neg (by rw [List.isEmpty_iff]; rintro h; rw [h] at h2; simp at h2), if_pos (by simp [h1, h2])]
        exact evE_fail.2 ⟨rfl, rfl⟩
      | run h1 h2 h3 =>
        rw [if_neg (by simp [h1]), if_neg (by
          simp only [Bool.and_eq_true, decide_eq_true_eq, not_and]
          intro h; have := h2 h; omega)]
        exact switchRun_iff.2 h3
  constructor
  · rintro ⟨x, h, rfl⟩
    rcases evE_helloVec_bind.1 h with ⟨v, s1, h1, h2⟩ | ⟨x', e, h1, h2, rfl⟩
    · right
      rcases evE_bind.1 h2 with ⟨hits, s2, h3, h4⟩ | ⟨e, h3, rfl⟩
      · rcases switchHits_iff.1 h3 with ⟨_, h5, -⟩ | ⟨ls, h5, h6⟩
        · cases h5
        · cases h5
          exact .inr ⟨v, s1, ls, s2, x, h1, h6, (key _ _ _ _).1 h4, rfl⟩
      · rcases switchHits_iff.1 h3 with ⟨_, h5, h6⟩ | ⟨ls, h5, -⟩
        · cases h5
          exact .inl ⟨v, s1, e, h1, h6, rfl⟩
        · cases h5
    · exact .inl ⟨x', e, h1, h2, rfl⟩
  · rintro (⟨x, e, h1, h2, rfl⟩ | ⟨v, s1, e, h1, h2, rfl⟩ | ⟨v, s1, ls, s2, y, h1, h2, h3, rfl⟩)
    · exact ⟨_, evE_helloVec_bind.2 (.inr ⟨x, e, h1, h2, rfl⟩), rfl⟩
    · exact ⟨_, evE_helloVec_bind.2 (.inl ⟨v, s1, h1, evE_bind.2 (.inr ⟨e, switchHits_iff.2 (.inl ⟨e, rfl, h2⟩), rfl⟩)⟩), rfl⟩
    · exact ⟨_, evE_helloVec_bind.2 (.inl ⟨v, s1, h1, evE_bind.2 (.inl ⟨_, s2, switchHits_iff.2 (.inr ⟨ls, rfl, h2⟩),
        (key _ _ _ _).2 h3⟩)⟩), rfl⟩

/-! ## The choice in the words of the property -/

theorem Spec.Labels.length {case : List Code} {env : Env} {bs : List (Nat × Nat)} {s s' : St} {ls : List (List Str)}
    (h : Spec.Labels H case env bs s (.ok ls) s') : ls.length = bs.length := by
  generalize hr : (Except.ok ls : Except Err (List (List Str))) = r at h
  induction h generalizing ls with
  | nil => cases hr; rfl
  | fail | failRest => cases hr
  | cons _ _ _ ih => cases hr; simpa using ih rfl

theorem bodies_length (bs : List (Nat × Nat)) : (Spec.bodies bs).length = bs.length := by
  induction bs with
  | nil => rfl
  | cons b rest ih =>
    cases rest with
    | nil => rfl
    | cons c rest => simpa [Spec.bodies] using ih

/-- **C32.** Nothing is chosen, so that the default is run, iff no branch has a label equal to the subject. -/
theorem C32_default_iff {subject : Str} {bs : List (Nat × Nat)} {ls : List (List Str)} (hl : ls.length = bs.length) :
    Spec.chosen subject (Spec.bodies bs) ls = [] ↔ ∀ labs ∈ ls, subject ∉ labs := by
  rw [← bodies_length] at hl
  generalize Spec.bodies bs = bodies at hl
  unfold Spec.chosen
  induction ls generalizing bodies with
  | nil => simp
  | cons l ls ih =>
    cases bodies with
    | nil => simp at hl
    | cons b bodies =>
      simp only [List.zip_cons_cons, List.flatMap_cons, List.append_eq_nil_iff, List.forall_mem_cons]
      rw [ih _ (by simpa using hl)]
      simp [List.replicate_eq_nil_iff, List.count_eq_zero]

/-- **C32.** If no branch has the same label twice, the chosen bodies are those of the branches that have a
label equal to the subject, once each, in the order of the branches. -/
theorem C32_distinct_partial {subject : Str} {bs : List (Nat × Nat)} {ls : List (List Str)} (hd : ∀ labs ∈ ls, labs.Nodup) :
    Spec.chosen subject (Spec.bodies bs) ls =
      (((Spec.bodies bs).zip ls).filter fun b => decide (subject ∈ b.2)).map Prod.fst := by
  generalize Spec.bodies bs = bodies
  unfold Spec.chosen
  induction ls generalizing bodies with
  | nil => simp
  | cons l ls ih =>
    cases bodies with
    | nil => simp
    | cons b bodies =>
      simp only [List.zip_cons_cons, List.flatMap_cons, List.filter_cons]
      rw [ih (fun m hm => hd m (by simp [hm]))]
      by_cases h : subject ∈ l
      · have h1 : l.count subject = 1 := by
          have h2 := List.nodup_iff_count.1 (hd l (by simp)) subject
          have h3 := List.count_pos_iff.2 h
          omega
        simp [h, h1]
      · simp [h, List.count_eq_zero.2 h]

/-! ## The places of labels and bodies -/

/-- The items from `i` to `j` (excluded) are a sentence: there are some, no `。` is among them, and `。` or an end
is before and after them. -/
def Spec.Sentence (case : List Code) (i j : Nat) : Prop :=
  i < j ∧ j ≤ case.length ∧ (∀ k c, i ≤ k → k < j → case[k]? = some c → c.id ≠ .jvhao) ∧
    (i = 0 ∨ ∃ c, case[i - 1]? = some c ∧ c.id = .jvhao) ∧ (j = case.length ∨ ∃ c, case[j]? = some c ∧ c.id = .jvhao)

/-- What the parser notes of a switch: the sentences with several items are the branches, in order, the last item is
the body; the sentence with one item is the default, if there is one. -/
structure Spec.Branches (case : List Code) (bs : List (Nat × Nat)) (default : Option Nat) : Prop where
  branch : ∀ i k, (i, k) ∈ bs ↔ i < k ∧ Spec.Sentence case i (k + 1)
  order : bs.Pairwise fun b c => b.2 + 1 < c.1
  other : ∀ i, default = some i ↔ Spec.Sentence case i (i + 1)

/-- The state of the loop before item `idx`. -/
structure ScanInv (case : List Code) (idx : Nat) (st : SwSt) : Prop where
  le : st.i3 ≤ idx
  count : st.i2 = idx - st.i3
  plain : ∀ k c, st.i3 ≤ k → k < idx → case[k]? = some c → c.id ≠ .jvhao
  start : st.i3 = 0 ∨ ∃ c, case[st.i3 - 1]? = some c ∧ c.id = .jvhao
  branch : ∀ i k, (i, k) ∈ st.from_ ↔ (i < k ∧ Spec.Sentence case i (k + 1)) ∧ k + 1 < st.i3
  order : st.from_.Pairwise fun b c => b.2 + 1 < c.1
  other : ∀ i, st.default = some i ↔ Spec.Sentence case i (i + 1) ∧ i + 1 < st.i3

/-- Two sentences are the same or one is before the other. -/
theorem Spec.Sentence.cmp {case : List Code} {i j i' j' : Nat} (h : Spec.Sentence case i j) (h' : Spec.Sentence case i' j')
    (hj : i' < j) (hi : i < j') : i = i' ∧ j = j' := by
  obtain ⟨a1, a2, a3, a4, a5⟩ := h
  obtain ⟨b1, b2, b3, b4, b5⟩ := h'
  constructor
  · rcases Nat.lt_trichotomy i i' with h | h | h
    · rcases b4 with rfl | ⟨c, h1, h2⟩
      · omega
      · exact absurd h2 (a3 _ c (by omega) (by omega) h1)
    · exact h
    · rcases a4 with rfl | ⟨c, h1, h2⟩
      · omega
      · exact absurd h2 (b3 _ c (by omega) (by omega) h1)
  · rcases Nat.lt_trichotomy j j' with h | h | h
    · rcases a5 with rfl | ⟨c, h1, h2⟩
      · omega
      · exact absurd h2 (b3 _ c (by omega) (by omega) h1)
    · exact h
    · rcases b5 with rfl | ⟨c, h1, h2⟩
      · omega
      · exact absurd h2 (a3 _ c (by omega) (by omega) h1)

/-- The current sentence ends at `idx`, which is `。` or the end. -/
theorem scan_close {case : List Code} {idx m : Nat} {st st' : SwSt} (hi : ScanInv case idx st) (hn : idx ≤ case.length)
    (he : idx = case.length ∨ ∃ c, case[idx]? = some c ∧ c.id = .jvhao) (hm : idx < m)
    (hm2 : ∀ i j, Spec.Sentence case i j → j < m → j ≤ idx)
    (h : (if st.i2 = 0 then Except.ok st else if st.i2 = 1 then st.setDefault idx else .ok (st.add st.i3 idx)) = .ok st') :
    (∀ i k, (i, k) ∈ st'.from_ ↔ (i < k ∧ Spec.Sentence case i (k + 1)) ∧ k + 1 < m) ∧
    (st'.from_.Pairwise fun b c => b.2 + 1 < c.1) ∧
    (∀ i, st'.default = some i ↔ Spec.Sentence case i (i + 1) ∧ i + 1 < m) := by
  obtain ⟨h1, h2, h3, h4, h5, h6, h7⟩ := hi
  -- sentences that end at or before `idx`
  have before : ∀ i j, Spec.Sentence case i j → j ≤ idx → j < st.i3 ∨ (i = st.i3 ∧ j = idx ∧ st.i3 < idx) := by
    intro i j hs hj
    by_cases hlt : st.i3 < idx
    · have cur : Spec.Sentence case st.i3 idx := ⟨hlt, hn, h3, h4, he⟩
      by_cases hj2 : st.i3 < j
      · have := hs.1
        obtain ⟨rfl, rfl⟩ := hs.cmp cur hj2 (by omega)
        exact .inr ⟨rfl, rfl, hlt⟩
      · left
        have hne : j ≠ st.i3 := by
          rintro rfl
          obtain ⟨a1, a2, a3, a4, a5⟩ := hs
          rcases h4 with h | ⟨c, h8, h9⟩
          · omega
          · exact a3 _ c (by omega) (by omega) h8 h9
        omega
    · left
      have : st.i3 = idx := by omega
      have hne : j ≠ st.i3 := by
        rintro rfl
        obtain ⟨a1, a2, a3, a4, a5⟩ := hs
        rcases h4 with h | ⟨c, h8, h9⟩
        · omega
        · exact a3 _ c (by omega) (by omega) h8 h9
      omega
  by_cases c0 : st.i2 = 0
  · rw [if_pos c0] at h
    cases h
    refine ⟨fun i k => ?_, h6, fun i => ?_⟩
    · rw [h5]
      constructor
      · rintro ⟨a, b⟩; exact ⟨a, by omega⟩
      · rintro ⟨a, b⟩
        refine ⟨a, ?_⟩
        rcases before _ _ a.2 (hm2 _ _ a.2 b) with h | h <;> omega
    · rw [h7]
      constructor
      · rintro ⟨a, b⟩; exact ⟨a, by omega⟩
      · rintro ⟨a, b⟩
        refine ⟨a, ?_⟩
        rcases before _ _ a (hm2 _ _ a b) with h | h <;> omega
  · rw [if_neg c0] at h
    have hlt : st.i3 < idx := by omega
    have cur : Spec.Sentence case st.i3 idx := ⟨hlt, hn, h3, h4, he⟩
    by_cases c1 : st.i2 = 1
    · rw [if_pos c1] at h
      have e : idx = st.i3 + 1 := by omega
      unfold SwSt.setDefault at h
      split at h
      · cases h
      · rename_i hd
        cases h
        refine ⟨fun i k => ?_, h6, fun i => ?_⟩
        · rw [h5]
          constructor
          · rintro ⟨a, b⟩; exact ⟨a, by omega⟩
          · rintro ⟨a, b⟩
            refine ⟨a, ?_⟩
            rcases before _ _ a.2 (hm2 _ _ a.2 b) with h | h <;> omega
        · have hno : ∀ i, ¬ (Spec.Sentence case i (i + 1) ∧ i + 1 < st.i3) := by
            intro i h
            have := (h7 i).2 h
            rw [hd] at this
            cases this
          dsimp only
          constructor
          · intro h
            cases h
            have : idx - 1 = st.i3 := by omega
            rw [this]
            exact ⟨e ▸ cur, by omega⟩
          · rintro ⟨a, b⟩
            rcases before _ _ a (hm2 _ _ a b) with h | h
            · exact absurd ⟨a, h⟩ (hno i)
            · congr 1; omega
    · rw [if_neg c1] at h
      cases h
      unfold SwSt.add
      refine ⟨fun i k => ?_, ?_, fun i => ?_⟩
      · simp only [List.mem_append, List.mem_singleton, Prod.mk.injEq]
        rw [h5]
        constructor
        · rintro (⟨a, b⟩ | ⟨rfl, rfl⟩)
          · exact ⟨a, by omega⟩
          · have : idx - 1 + 1 = idx := by omega
            rw [this]
            exact ⟨⟨by omega, cur⟩, hm⟩
        · rintro ⟨a, b⟩
          rcases before _ _ a.2 (hm2 _ _ a.2 b) with h | h
          · exact .inl ⟨a, h⟩
          · exact .inr ⟨h.1, by omega⟩
      · refine List.pairwise_append.2 ⟨h6, List.pairwise_singleton _ _, fun b hb c hc => ?_⟩
        rw [List.mem_singleton] at hc
        subst hc
        exact ((h5 b.1 b.2).1 hb).2
      · dsimp only
        rw [h7]
        constructor
        · rintro ⟨a, b⟩; exact ⟨a, by omega⟩
        · rintro ⟨a, b⟩
          refine ⟨a, ?_⟩
          rcases before _ _ a (hm2 _ _ a b) with h | h <;> omega

theorem scan_spec {case : List Code} {idx : Nat} {st st' : SwSt} {cs : List Code} (hc : case.drop idx = cs) (hn : idx ≤ case.length)
    (hi : ScanInv case idx st) (h : switchScan case.length cs idx st = .ok st') : Spec.Branches case st'.from_ st'.default := by
  induction cs generalizing idx st with
  | nil =>
    have hlen : idx = case.length := by
      have := congrArg List.length hc
      simp at this
      omega
    unfold switchScan at h
    have hs : (if st.i2 = 0 then Except.ok st else if st.i2 = 1 then st.setDefault idx else .ok (st.add st.i3 idx)) = .ok st' := by
      have h1 := hi.le
      have h2 := hi.count
      by_cases h3 : st.i3 < case.length
      · rw [if_pos h3] at h
        rw [if_neg (by omega)]
        by_cases h4 : st.i2 = 1
        · rw [if_pos h4] at h ⊢
          have : idx = st.i3 + 1 := by omega
          rw [this]; exact h
        · rw [if_neg h4] at h ⊢
          rw [hlen]; exact h
      · rw [if_neg h3] at h
        rw [if_pos (by omega)]
        exact h
    obtain ⟨k1, k2, k3⟩ := scan_close hi hn (.inl hlen) (Nat.lt_succ_self _) (fun i j _ hj => by omega) hs
    refine ⟨fun i k => ?_, k2, fun i => ?_⟩
    · rw [k1]
      constructor
      · exact fun h => h.1
      · exact fun h => ⟨h, by have := h.2.2.1; omega⟩
    · rw [k3]
      constructor
      · exact fun h => h.1
      · exact fun h => ⟨h, by have := h.2.1; omega⟩
  | cons c cs ih =>
    have hlt : idx < case.length := by
      have := congrArg List.length hc
      simp at this
      omega
    rw [List.drop_eq_getElem_cons hlt] at hc
    have hc1 : case[idx]? = some c := by rw [List.getElem?_eq_getElem hlt]; exact congrArg some (List.cons.inj hc).1
    have hc2 := (List.cons.inj hc).2
    unfold switchScan at h
    by_cases hj : c.id = .jvhao
    · rw [if_pos hj] at h
      dsimp only at h
      split at h
      · cases h
      · rename_i st1 hs
        refine ih hc2 hlt ?_ h
        obtain ⟨k1, k2, k3⟩ := scan_close (m := idx + 1) hi hn (.inr ⟨c, hc1, hj⟩) (Nat.lt_succ_self _)
          (fun i j hs hj => by omega) hs
        exact ⟨Nat.le_refl _, by simp, fun k c h1 h2 => by dsimp only at h1; omega, .inr ⟨c, by simpa using hc1, hj⟩, k1, k2, k3⟩
    · rw [if_neg hj] at h
      refine ih hc2 hlt ?_ h
      obtain ⟨h1, h2, h3, h4, h5, h6, h7⟩ := hi
      refine ⟨by dsimp only; omega, by dsimp only; omega, fun k c' k1 k2 k3 => ?_, h4, h5, h6, h7⟩
      by_cases hk : k = idx
      · subst hk
        rw [hc1] at k3; cases k3; exact hj
      · exact h3 k c' k1 (by omega) k3

/-- **C32.** What the parser makes of a switch: the last item is the block with the branches; every sentence in it with
several items is a branch, the last of them its body; a sentence with one item is the default. -/
theorem C32_parsed {one one' : Bool} {a a' case : List Code} {bs : List (Nat × Nat)} {default : Option Nat}
    (h : switchAdd one a = .ok (.switch one' a' case bs default)) :
    one' = one ∧ a = a' ++ [.block case] ∧ Spec.Branches case bs default := by
  unfold switchAdd at h
  split at h
  · cases h
  · split at h
    · rename_i body hb
      split at h
      · cases h
      · rename_i st hs
        cases h
        refine ⟨rfl, ?_, ?_⟩
        · obtain ⟨ys, rfl⟩ := List.getLast?_eq_some_iff.1 hb
          simp
        · refine scan_spec (idx := 0) rfl (Nat.zero_le _) ?_ hs
          refine ⟨Nat.le_refl _, rfl, fun k c h1 h2 => by omega, .inl rfl, fun i k => ?_, List.Pairwise.nil, fun i => ?_⟩
          · simp
          · simp
    · cases h

theorem scan_error {case : List Code} {idx : Nat} {st : SwSt} {cs : List Code} {e : Err} (hc : case.drop idx = cs)
    (hn : idx ≤ case.length) (hi : ScanInv case idx st) (h : switchScan case.length cs idx st = .error e) :
    e = .msg c!"只能有一个其他" ∧ ∃ i j, i ≠ j ∧ Spec.Sentence case i (i + 1) ∧ Spec.Sentence case j (j + 1) := by
  have close : ∀ {idx : Nat} {st : SwSt}, ScanInv case idx st → idx ≤ case.length → st.i2 = 1 →
      (idx = case.length ∨ ∃ c, case[idx]? = some c ∧ c.id = .jvhao) → st.setDefault idx = .error e →
      e = .msg c!"只能有一个其他" ∧ ∃ i j, i ≠ j ∧ Spec.Sentence case i (i + 1) ∧ Spec.Sentence case j (j + 1) := by
    intro idx st hi hn h1 he h
    unfold SwSt.setDefault at h
    split at h
    · rename_i i hd
      cases h
      obtain ⟨k1, k2⟩ := (hi.other i).1 hd
      have := hi.le
      have := hi.count
      have e : idx = st.i3 + 1 := by omega
      exact ⟨rfl, i, st.i3, by omega, k1, e ▸ ⟨by omega, hn, hi.plain, hi.start, he⟩⟩
    · cases h
  induction cs generalizing idx st with
  | nil =>
    have hlen : idx = case.length := by
      have := congrArg List.length hc
      simp at this
      omega
    unfold switchScan at h
    split at h
    · rename_i h3
      split at h
      · rename_i h4
        have h1 := hi.le
        have h2 := hi.count
        have : st.i3 + 1 = idx := by omega
        rw [this] at h
        exact close hi hn h4 (.inl hlen) h
      · cases h
    · cases h
  | cons c cs ih =>
    have hlt : idx < case.length := by
      have := congrArg List.length hc
      simp at this
      omega
    rw [List.drop_eq_getElem_cons hlt] at hc
    have hc1 : case[idx]? = some c := by rw [List.getElem?_eq_getElem hlt]; exact congrArg some (List.cons.inj hc).1
    have hc2 := (List.cons.inj hc).2
    unfold switchScan at h
    by_cases hj : c.id = .jvhao
    · rw [if_pos hj] at h
      dsimp only at h
      split at h
      · rename_i e' hs
        cases h
        by_cases c0 : st.i2 = 0
        · rw [if_pos c0] at hs; cases hs
        · rw [if_neg c0] at hs
          by_cases c1 : st.i2 = 1
          · rw [if_pos c1] at hs
            exact close hi hn c1 (.inr ⟨c, hc1, hj⟩) hs
          · rw [if_neg c1] at hs; cases hs
      · rename_i st1 hs
        refine ih hc2 hlt ?_ h
        obtain ⟨k1, k2, k3⟩ := scan_close (m := idx + 1) hi hn (.inr ⟨c, hc1, hj⟩) (Nat.lt_succ_self _)
          (fun i j hs hj => by omega) hs
        exact ⟨Nat.le_refl _, by simp, fun k c h1 h2 => by dsimp only at h1; omega, .inr ⟨c, by simpa using hc1, hj⟩, k1, k2, k3⟩
    · rw [if_neg hj] at h
      refine ih hc2 hlt ?_ h
      obtain ⟨h1, h2, h3, h4, h5, h6, h7⟩ := hi
      refine ⟨by dsimp only; omega, by dsimp only; omega, fun k c' k1 k2 k3 => ?_, h4, h5, h6, h7⟩
      by_cases hk : k = idx
      · subst hk
        rw [hc1] at k3; cases k3; exact hj
      · exact h3 k c' k1 (by omega) k3

/-- A switch with two defaults, and only such a one, is refused by the parser. -/
theorem C32_refused {one : Bool} {a case : List Code} (hc : a ≠ []) :
    (switchAdd one (a ++ [.block case]) = .error (.msg c!"只能有一个其他") ∧
        ∃ i j, i ≠ j ∧ Spec.Sentence case i (i + 1) ∧ Spec.Sentence case j (j + 1)) ∨
    ((∃ bs d, switchAdd one (a ++ [.block case]) = .ok (.switch one a case bs d)) ∧
        ∀ i j, Spec.Sentence case i (i + 1) → Spec.Sentence case j (j + 1) → i = j) := by
  have hi : ScanInv case 0 ⟨[], none, 0, 0⟩ :=
    ⟨Nat.le_refl _, rfl, fun k c h1 h2 => by omega, .inl rfl, fun i k => by simp, List.Pairwise.nil, fun i => by simp⟩
  have hl : ¬ (a ++ [Code.block case]).length < 2 := by
    have := List.length_pos_iff.2 hc
    simp only [List.length_append, List.length_singleton]
    omega
  have hg : (a ++ [Code.block case]).getLast? = some (.block case) := by simp
  rcases hs : switchScan case.length case 0 ⟨[], none, 0, 0⟩ with e | st
  · obtain ⟨rfl, h⟩ := scan_error (idx := 0) rfl (Nat.zero_le _) hi hs
    refine .inl ⟨?_, h⟩
    unfold switchAdd
    rw [if_neg hl, hg]
    dsimp only
    rw [hs]
  · have h := scan_spec (idx := 0) rfl (Nat.zero_le _) hi hs
    refine .inr ⟨⟨st.from_, st.default, ?_⟩, fun i j h1 h2 => ?_⟩
    · unfold switchAdd
      rw [if_neg hl, hg]
      dsimp only
      rw [hs]
      simp
    · have h1 := (h.other i).2 h1
      have h2 := (h.other j).2 h2
      rw [h1] at h2
      cases h2
      rfl

/-! ## Running a body -/

theorem Spec.Branches.bodies {case : List Code} {bs : List (Nat × Nat)} {d : Option Nat} (h : Spec.Branches case bs d)
    {k m : Nat} (hm : (k, m) ∈ Spec.bodies bs) :
    k < case.length ∧ (k < m ∨ m = usizeMax) ∧ (k + 1 = case.length ∨ ∃ c, case[k + 1]? = some c ∧ c.id = .jvhao) ∧
      ∀ c, case[k]? = some c → c.id ≠ .jvhao := by
  have h1 : ∃ i, (i, k) ∈ bs := by
    have : ∀ bs : List (Nat × Nat), (k, m) ∈ Spec.bodies bs → ∃ i, (i, k) ∈ bs := by
      intro bs
      induction bs with
      | nil => intro h; cases h
      | cons b rest ih =>
        cases rest with
        | nil => simp only [Spec.bodies, List.mem_singleton]; intro h; exact ⟨b.1, by cases h; rfl⟩
        | cons c rest =>
          simp only [Spec.bodies, List.mem_cons]
          rintro (h | h)
          · exact ⟨b.1, .inl (by cases h; rfl)⟩
          · obtain ⟨i, hi⟩ := ih (by simpa [Spec.bodies] using h)
            exact ⟨i, .inr (by simpa using hi)⟩
    exact this bs hm
  have h2 : k < m ∨ m = usizeMax := by
    have : ∀ bs : List (Nat × Nat), (bs.Pairwise fun b c => b.2 + 1 < c.1) → (k, m) ∈ Spec.bodies bs → k < m ∨ m = usizeMax := by
      intro bs
      induction bs with
      | nil => intro _ h; cases h
      | cons b rest ih =>
        intro hp
        cases rest with
        | nil => simp only [Spec.bodies, List.mem_singleton]; intro h; exact .inr (by cases h; rfl)
        | cons c rest =>
          intro h
          simp only [Spec.bodies] at h
          rcases List.mem_cons.1 h with h | h
          · have := (List.pairwise_cons.1 hp).1 c (by simp)
            injection h with h3 h4
            left; omega
          · exact ih (List.pairwise_cons.1 hp).2 h
    exact this bs h.order hm
  obtain ⟨i, hi⟩ := h1
  obtain ⟨h3, h4, h5, h6, h7, h8⟩ := (h.branch i k).1 hi
  exact ⟨by omega, h2, h8.imp_left id, fun c hc => h6 k c (by omega) (by omega) hc⟩

/-- **C32.** Running the body of a branch (the default likewise) evaluates the one item of it; words are left out here,
they may be calls of definitions. -/
theorem C32_body {case : List Code} {env : Env} {k m : Nat} {c : Code} {s s' : St}
    (hc : case[k]? = some c) (hm : k < m) (hend : k + 1 = case.length ∨ ∃ c, case[k + 1]? = some c ∧ c.id = .jvhao)
    (hj : c.id ≠ .jvhao) (hu : c.id = .undef → env.gd.undefEqText = true) :
    (∀ x, Evals H (.codes case k m (Spec.inSwitch env)) s x s' →
      ∃ y, Evals H (.item c (Spec.inSwitch env)) s { r := y } s' ∧ Spec.ListRes y x.r) ∧
    ∀ y, Evals H (.item c (Spec.inSwitch env)) s { r := y } s' →
      ∃ x, Evals H (.codes case k m (Spec.inSwitch env)) s x s' ∧ Spec.ListRes y x.r := by
  have hk := (List.getElem?_eq_some_iff.1 hc).1
  have hlt : k < min m case.length := by omega
  have single : Spec.Single case (Spec.inSwitch env) k c := ⟨hc, hu, hj, fun _ => rfl⟩
  have stop : Spec.Stop case (min m case.length) (Spec.inSwitch env) (k + 1) (k + 1) := by
    by_cases h : min m case.length ≤ k + 1
    · exact .all h
    · rcases hend with h1 | ⟨d, h1, h2⟩
      · omega
      · exact .dot (by omega) h1 h2 rfl
  constructor
  · intro x h
    obtain ⟨r, h1, h2⟩ := C22_in_order h
    refine ⟨r, ?_, h2⟩
    cases h1 with
    | done h3 =>
      exfalso
      cases h3 with
      | all h => omega
      | dot _ h4 h5 => rw [hc] at h4; cases h4; exact hj h5
      | comma _ _ _ h => cases h
    | next _ h3 h4 =>
      cases h3 with
      | ok h5 h6 =>
        have := h5.1; rw [hc] at this; cases this
        have : ∀ {r s1}, Spec.InOrder H case (min m case.length) (Spec.inSwitch env) (k + 1) s1 r s' → r = .ok () ∧ s' = s1 := by
          intro r s1 h
          cases h with
          | done => exact ⟨rfl, rfl⟩
          | next h7 h8 =>
            exfalso
            cases stop with
            | all => omega
            | dot _ h9 h10 h11 =>
              cases h8 with
              | ok h12 => have := h12.1; rw [h9] at this; cases this; exact h12.2.2.1 h10
              | dot _ _ h | dotOk _ _ h => rw [h11] at h; cases h
              | call h12 h13 | word h12 h13 => rw [h9] at h12; cases h12; rw [h10] at h13; cases h13
          | fail h7 h8 =>
            exfalso
            cases stop with
            | all => omega
            | dot _ h9 h10 h11 =>
              cases h8 with
              | fail h12 => have := h12.1; rw [h9] at this; cases this; exact h12.2.2.1 h10
              | dotFail _ _ h => rw [h11] at h; cases h
              | callFail h12 h13 | wordFail h12 h13 => rw [h9] at h12; cases h12; rw [h10] at h13; cases h13
        obtain ⟨rfl, rfl⟩ := this h4
        exact h6
      | dot h5 h6 | dotOk h5 h6 => rw [hc] at h5; cases h5; exact absurd h6 hj
      | call h5 h6 h7 | word h5 h6 h7 => rw [hc] at h5; cases h5; rw [show (Spec.inSwitch env).gd.undefEqText = true from hu h6] at h7; cases h7
    | fail _ h3 =>
      cases h3 with
      | fail h5 h6 => have := h5.1; rw [hc] at this; cases this; exact h6
      | dotFail h5 h6 => rw [hc] at h5; cases h5; exact absurd h6 hj
      | callFail h5 h6 h7 | wordFail h5 h6 h7 =>
        rw [hc] at h5; cases h5; rw [show (Spec.inSwitch env).gd.undefEqText = true from hu h6] at h7; cases h7
  · intro y h
    cases y with
    | ok u => exact C22_in_order_conv (.next hlt (.ok single h) (.done stop))
    | error e => exact C22_in_order_conv (.fail hlt (.fail single h))

/-! ## Concrete cases -/

/-- A run reaches a switch with branches and a default as the parser makes them. -/
theorem C32_witness : ∃ a case bs d env s, Reached H0 false (demoArgv c!"分支1先1、2先显示一。了。先显示无。了。了。")
      (.item (.switch true a case bs d) env) s ∧ Spec.Branches case bs d ∧ bs.length = 1 ∧ d.isSome := by
  obtain ⟨c, s, hr, h⟩ := demoB_sound (n := 3) (src := c!"分支1先1、2先显示一。了。先显示无。了。了。")
    (P := fun c _ => match c with
    | .item (.switch true _ case bs d) _ => decide (switchScan case.length case 0 ⟨[], none, 0, 0⟩ = .ok ⟨bs, d, 0, case.length⟩) &&
        (bs.length == 1 && d.isSome)
    | _ => false) (by decide +kernel)
  split at h
  · rename_i a case bs d env
    rw [Bool.and_eq_true, Bool.and_eq_true, decide_eq_true_eq, beq_iff_eq] at h
    have hi : ScanInv case 0 ⟨[], none, 0, 0⟩ :=
      ⟨Nat.le_refl _, rfl, fun k c h1 h2 => by omega, .inl rfl, fun i k => by simp, List.Pairwise.nil, fun i => by simp⟩
    exact ⟨a, case, bs, d, env, s, hr, scan_spec (idx := 0) rfl (Nat.zero_le _) hi h.1, h.2.1, h.2.2⟩
  · cases h

/-- What a script sees: all matching branches, one after the other; the default; the error of the exclusive form. -/
theorem C32_example :
    demo 20 c!"分叉1先1、2先显示一。了。1先显示二。了。先显示无。了。了。" = (.ok (.ok ()), [.out c!"一", .out c!"二"]) ∧
    demo 20 c!"分叉3先1、2先显示一。了。1先显示二。了。先显示无。了。了。" = (.ok (.ok ()), [.out c!"无"]) ∧
    (demo 20 c!"分支1先1、2先显示一。了。1先显示二。了。先显示无。了。了。").2 = [] := by
  decide +kernel

/-- Found: a branch with the same label twice is run twice, and is refused by the exclusive form. -/
theorem C32_twice_counterexample :
    demo 20 c!"分叉1先1、1先显示一。了。了。" = (.ok (.ok ()), [.out c!"一", .out c!"一"]) ∧
    (demo 20 c!"分支1先1、1先显示一。了。了。").2 = [] := by
  decide +kernel

end Zh
