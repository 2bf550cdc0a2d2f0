import Verif.Props.Stmts
/-!
# C23, C24: loops
-/
namespace Zh

variable {H : Host}

/-! ## Specification -/

/-- The counter of a loop gets the value `v`: the variable `name` of scope `q` has it, no other variable
of any scope changes, and the first time the label is entered; nothing is printed and no result list
changes. -/
structure Spec.Enter (q : Nat) (name : Option Str) (v : Str) (first : Bool) (s s1 : St) : Prop where
  value : ∀ x, name = some x → ∃ it, (s1.scopes q).vars.find? (·.name == x) = some ⟨x, it, false, false, false⟩ ∧
    it.val = .s v
  others : ∀ p n, p ≠ q ∨ name ≠ some n →
    (s1.scopes p).vars.find? (·.name == n) = (s.scopes p).vars.find? (·.name == n)
  labels : s1.labels = s.labels ++ if first then name.toList else []
  rest : s1.trace = s.trace ∧ s1.lists = s.lists ∧ (name = none → s1 = s)

/-- The number a loop's counter shows in its `j`-th turn. -/
def Spec.number (cnt : Cnt) (j : Nat) : Str := intStr (j + cnt.start.getD 0)

/-- The `j`-th turn of a loop: the counter is set, then the body is evaluated with the outcome `x`. -/
def Spec.Turn1 (H : Host) (codes : List Code) (cnt : Cnt) (env : Env) (j : Nat) (s : St)
    (x : Except Err Unit) (s' : St) : Prop :=
  ∃ s1 y, Spec.Enter env.q cnt.name (Spec.number cnt j) (decide (j = 1)) s s1 ∧
    Evals H (.codes codes 0 usizeMax env) s1 y s' ∧ y.r = x

/-- The jumps a construct of the kind (loop `循环`, or `range`: circle `圈子`) with that counter name
consumes: its own break and continue, without a label or with its own name as label. -/
def Spec.Consumes (range : Bool) (name : Option Str) (e : Err) : Prop :=
  (e.i = (if range then 11035 else 11032) ∨ e.i = (if range then 11036 else 11033)) ∧
    (e.s = [] ∨ name = some e.s)

/-- The construct goes on with another turn: a loop after a normal end of its body, both after their
continue. -/
def Spec.GoesOn (range : Bool) (name : Option Str) : Except Err Unit → Prop
  | .ok () => range = false
  | .error e => Spec.Consumes range name e ∧ e.i = if range then 11036 else 11033

/-- The outcome of the construct when a turn with the outcome `x` was the last one: a consumed jump is
gone, any other error is passed on as it is. -/
def Spec.Outcome (range : Bool) (name : Option Str) (x r : Except Err Unit) : Prop :=
  match x with
  | .ok () => r = .ok ()
  | .error e => (Spec.Consumes range name e → r = .ok ()) ∧ (¬ Spec.Consumes range name e → r = .error e)

/-- `k` turns after each of which the construct went on, when `i` turns have been made before. -/
inductive Spec.Turns (H : Host) (range : Bool) (codes : List Code) (cnt : Cnt) (env : Env) :
    Nat → St → Nat → St → Prop where
  | none {i s} : Turns H range codes cnt env i s 0 s
  | more {i s x s1 k s'} : Spec.Turn1 H codes cnt env (i + 1) s x s1 → Spec.GoesOn range cnt.name x →
    Turns H range codes cnt env (i + 1) s1 k s' → Turns H range codes cnt env i s (k + 1) s'

/-- The `t` turns of the construct, at most `max` in all, when `i` have been made before: after all but the
last turn it went on; it ended because all turns had been made, or because the construct does not go
on after the last one. -/
def Spec.Loop (H : Host) (range : Bool) (codes : List Code) (cnt : Cnt) (env : Env) (max : Option Nat)
    (i : Nat) (s : St) (t : Nat) (r : Except Err Unit) (s' : St) : Prop :=
  (∃ m, max = some m ∧ t = m - i ∧ Spec.Turns H range codes cnt env i s t s' ∧ r = .ok ()) ∨
  (∃ k s1 x, t = k + 1 ∧ Spec.Turns H range codes cnt env i s k s1 ∧ (∀ m, max = some m → i + t ≤ m) ∧
    Spec.Turn1 H codes cnt env (i + t) s1 x s' ∧ ¬ Spec.GoesOn range cnt.name x ∧ Spec.Outcome range cnt.name x r)

/-! ## Proofs -/

theorem loopTakes_iff (range : Bool) (name : Option Str) (e : Err) :
    loopTakes range name e = true ↔ Spec.Consumes range name e := by
  unfold loopTakes Spec.Consumes loopBreak loopContinue
  cases range <;> simp [BREAK, BREAK2, CONTINUE, CONTINUE2]

theorem setVar_find (v : Var) (vs : List Var) (n : Str) :
    (setVar v vs).find? (·.name == n) = if v.name = n then some v else vs.find? (·.name == n) := by
  induction vs with
  | nil =>
    by_cases h : v.name = n
    · simp [setVar, h]
    · simp [setVar, h]
  | cons w ws ih =>
    simp only [setVar]
    by_cases hw : w.name = v.name
    · rw [if_pos hw]
      by_cases h : v.name = n
      · simp [h]
      · have hw' : ¬ w.name = n := fun e => h (hw ▸ e)
        simp [h, hw']
    · rw [if_neg hw]
      by_cases h : w.name = n
      · have hv : ¬ v.name = n := fun e => hw (h.trans e.symm)
        simp [h, hv]
      · simp only [List.find?_cons, show (w.name == n) = false from by simpa using h, ih]

theorem intStr_ofNat (n : Nat) : intStr (n : Int) = natStr n := by
  simp [intStr]

theorem cnt_value (cnt : Cnt) (j : Nat) : cnt.value j = Spec.number cnt j := by
  unfold Cnt.value Spec.number
  cases cnt.start with
  | none => simp [intStr_ofNat]
  | some n => rfl

variable {R : Call → St → Res → St → Prop}

theorem ev_loopSet {cnt : Cnt} {env : Env} {j : Nat} {hasName first : Bool} {s s1 : St}
    (hf : cnt.name.isSome = true → first = !hasName)
    (h : Ev H R (loopSet cnt env j hasName) s () s1) :
    Spec.Enter env.q cnt.name (Spec.number cnt j) first s s1 := by
  unfold loopSet at h
  cases hn : cnt.name with
  | none =>
    rw [hn] at h
    obtain ⟨-, rfl⟩ := ev_pure.1 h
    exact ⟨fun x h' => (by cases h'), fun _ _ _ => rfl, by simp, rfl, rfl, fun _ => rfl⟩
  | some name =>
    rw [hn] at h hf
    obtain rfl := hf rfl
    dsimp only at h
    obtain ⟨v, s2, h1, h⟩ := ev_bind.1 h
    have h1 := ev_doOp.1 h1
    simp only [Op.run, Prod.mk.injEq, Out.ok.injEq] at h1
    obtain ⟨rfl, rfl⟩ := h1
    obtain ⟨_, s3, h2, h⟩ := ev_bind.1 h
    have h2 := ev_doOp.1 h2
    simp only [Op.run, St.modScope] at h2
    split at h2
    · simp at h2
    · simp only [Prod.mk.injEq, true_and] at h2
      subst h2
      have fin : ∀ s1 : St, s1.scopes = upd s.scopes env.q { s.scopes env.q with
            vars := setVar ⟨name, ⟨s.nitem, .s (cnt.value j)⟩, false, false, false⟩ (s.scopes env.q).vars } →
          s1.labels = s.labels ++ (if !hasName then [name] else []) → s1.trace = s.trace → s1.lists = s.lists →
          Spec.Enter env.q (some name) (Spec.number cnt j) (!hasName) s s1 := by
        intro s1 hs hl ht hli
        refine ⟨?_, ?_, hl, ht, hli, fun h => by cases h⟩
        · rintro x ⟨⟩
          refine ⟨⟨s.nitem, .s (cnt.value j)⟩, ?_, by rw [cnt_value]⟩
          rw [hs]
          simp only [upd, if_true]
          rw [setVar_find, if_pos rfl]
        · intro p n hp
          rw [hs]
          simp only [upd]
          split
          · rename_i e
            subst e
            rw [setVar_find, if_neg]
            rintro rfl
            rcases hp with hp | hp
            · exact hp rfl
            · exact hp rfl
          · rfl
      cases hasName with
      | true =>
        simp only [Bool.not_true, Bool.false_eq_true, if_false] at h
        obtain ⟨-, rfl⟩ := ev_pure.1 h
        exact fin _ rfl (by simp) rfl rfl
      | false =>
        simp only [Bool.not_false, if_true] at h
        have h := ev_doOp.1 h
        simp only [Op.run, Prod.mk.injEq, true_and] at h
        subst h
        exact fin _ rfl (by simp) rfl rfl

theorem codes_nil {i end_ : Nat} {env : Env} {s : St} : Evals H (.codes [] i end_ env) s { idx := i } s := by
  refine codes_z2.2 ⟨{ idx := i }, ?_, rfl⟩
  rw [evals_iff]
  change Ev H _ (z2P [] i (min end_ 0) env) s _ s
  unfold z2P
  rw [if_neg (by simp)]
  exact ev_pure.2 ⟨rfl, rfl⟩

/-- What the induction shows about the loop of a loop statement. -/
def loopGoal (H : Host) : Call → St → Res → St → Prop
  | .loop range codes max useI cnt env i hasName, s, r, s' =>
    ∀ i0, (useI = true → i0 = i) → (useI = false → cnt.name = none) →
      hasName = (cnt.name.isSome && decide (0 < i0)) →
      ∃ t, Spec.Loop H range codes cnt env (if useI then some max else none) i0 s t r.r s' ∧
        r.has = (cnt.name.isSome && decide (0 < i0 + t))
  | _, _, _, _ => True

theorem goesOn_iff {range : Bool} {name : Option Str} {e : Err} (h : Spec.Consumes range name e) :
    Spec.GoesOn range name (.error e) ↔ e.i ≠ loopBreak range := by
  unfold Spec.GoesOn
  unfold loopBreak BREAK BREAK2
  rcases h with ⟨h | h, h'⟩
  · cases range <;> simp_all [Spec.Consumes]
  · cases range <;> simp_all [Spec.Consumes]

theorem Spec.Loop.cons {range : Bool} {codes : List Code} {cnt : Cnt} {env : Env} {max : Option Nat} {i : Nat}
    {s s1 s' : St} {x r : Except Err Unit} {t : Nat} (hm : ∀ m, max = some m → i + 1 ≤ m)
    (h1 : Spec.Turn1 H codes cnt env (i + 1) s x s1)
    (h2 : Spec.GoesOn range cnt.name x) (h : Spec.Loop H range codes cnt env max (i + 1) s1 t r s') :
    Spec.Loop H range codes cnt env max i s (t + 1) r s' := by
  rcases h with ⟨m, rfl, ht, h3, hr⟩ | ⟨k, s2, y, rfl, h3, h4, h5, h6⟩
  · have := hm m rfl
    exact .inl ⟨m, rfl, by omega, .more h1 h2 h3, hr⟩
  · refine .inr ⟨k + 1, s2, y, rfl, .more h1 h2 h3, fun m hm => ?_, ?_, h6⟩
    · have := h4 m hm; omega
    · have e : i + (k + 1 + 1) = i + 1 + (k + 1) := by omega
      rw [e]; exact h5

theorem loop_turns {range : Bool} {codes : List Code} {max : Nat} {useI : Bool} {cnt : Cnt} {env : Env} {i : Nat}
    {hasName : Bool} {s s' : St} {r : Res} (h : Evals H (.loop range codes max useI cnt env i hasName) s r s') :
    loopGoal H (.loop range codes max useI cnt env i hasName) s r s' := by
  refine Evals.ind (P := loopGoal H) ?_ h
  clear h
  intro c s r s' h
  cases c with
  | loop range codes max useI cnt env i hasName =>
    intro i0 h0 hu hh
    change Ev H _ (loopP range codes max useI cnt env i hasName) s r s' at h
    rw [loopP_eq] at h
    have hmax : ∀ m, (if useI then some max else none) = some m → useI = true ∧ m = max := by
      intro m; cases useI <;> simp; exact Eq.symm
    rcases hi : (useI && decide ((if useI then i + 1 else i) > max)) with _ | _
    rotate_left
    · rw [hi, if_pos rfl] at h
      simp only [Bool.and_eq_true, decide_eq_true_eq] at hi
      obtain ⟨hi1, hi2⟩ := hi
      obtain ⟨rfl, rfl⟩ := ev_pure.1 h
      have := h0 hi1
      rw [if_pos hi1] at hi2
      refine ⟨0, .inl ⟨max, by simp [hi1], by omega, .none, rfl⟩, hh⟩
    · rw [hi, if_neg (by simp)] at h
      have hi : useI = true → (if useI then i + 1 else i) ≤ max := by
        intro hU; subst hU; simpa using hi
      obtain ⟨⟨⟩, s1, h1, h2⟩ := ev_bind.1 h
      have hle : ∀ m, (if useI then some max else none) = some m → i0 + 1 ≤ m := by
        intro m hm
        obtain ⟨h3, rfl⟩ := hmax m hm
        have h4 := hi h3
        rw [if_pos h3] at h4
        rw [h0 h3]; exact h4
      have he : Spec.Enter env.q cnt.name (Spec.number cnt (i0 + 1)) (decide (i0 + 1 = 1)) s s1 := by
        have h3 := ev_loopSet (first := decide (i0 + 1 = 1)) (fun hn => by
          rw [hh, hn]; by_cases h : i0 = 0 <;> simp [h]; omega) h1
        cases hU : useI with
        | true => rw [hU, if_pos rfl, ← h0 hU] at h3; exact h3
        | false =>
          have hn := hu hU
          refine ⟨fun x h => ?_, ?_, h3.labels, h3.rest⟩
          · rw [hn] at h; cases h
          · exact h3.others
      -- the loop goes on
      have again : ∀ {s2 x}, Spec.Turn1 H codes cnt env (i0 + 1) s x s2 → Spec.GoesOn range cnt.name x →
          Ev H (fun c s r s' => Evals H c s r s' ∧ loopGoal H c s r s')
            (callP [] (.loop range codes max useI cnt env (if useI then i + 1 else i) cnt.name.isSome)) s2 r s' →
          ∃ t, Spec.Loop H range codes cnt env (if useI then some max else none) i0 s t r.r s' ∧
            r.has = (cnt.name.isSome && decide (0 < i0 + t)) := by
        intro s2 x ht hg hc
        obtain ⟨t, h3, h4⟩ := (ev_callP.1 hc).2 (i0 + 1) (fun h => by rw [if_pos h, h0 h]) hu (by simp)
        refine ⟨t + 1, .cons hle ht hg h3, ?_⟩
        rw [h4]
        have e1 : decide (0 < i0 + 1 + t) = true := by simp; omega
        have e2 : decide (0 < i0 + (t + 1)) = true := by simp; omega
        rw [e1, e2]
      -- the loop ends
      have stop : ∀ {x r'}, Spec.Turn1 H codes cnt env (i0 + 1) s x s' → ¬ Spec.GoesOn range cnt.name x →
          Spec.Outcome range cnt.name x r' → r = { has := cnt.name.isSome, r := r' } →
          ∃ t, Spec.Loop H range codes cnt env (if useI then some max else none) i0 s t r.r s' ∧
            r.has = (cnt.name.isSome && decide (0 < i0 + t)) := by
        rintro x r' ht hg ho rfl
        exact ⟨1, .inr ⟨0, s, x, rfl, .none, hle, ht, hg, ho⟩, by simp⟩
      unfold loopTail at h2
      dsimp only at h2
      split at h2
      · rename_i hc
        have hc : codes = [] := by simpa using hc
        have ht : Spec.Turn1 H codes cnt env (i0 + 1) s (.ok ()) s1 := ⟨s1, _, he, hc ▸ codes_nil, rfl⟩
        split at h2
        · rename_i hr
          obtain ⟨rfl, rfl⟩ := ev_pure.1 h2
          exact stop ht (by simp [Spec.GoesOn, hr]) rfl rfl
        · rename_i hr
          exact again ht (by simpa [Spec.GoesOn] using hr) h2
      · obtain ⟨y, s2, h3, h4⟩ := ev_bind.1 h2
        have h3 := (ev_callP.1 h3).1
        have ht : Spec.Turn1 H codes cnt env (i0 + 1) s y.r s2 := ⟨s1, y, he, h3, rfl⟩
        cases hy : y.r with
        | ok u =>
          rw [hy] at h4 ht
          dsimp only at h4
          split at h4
          · rename_i hr
            obtain ⟨rfl, rfl⟩ := ev_pure.1 h4
            exact stop ht (by simp [Spec.GoesOn, hr]) rfl rfl
          · rename_i hr
            exact again ht (by simpa [Spec.GoesOn] using hr) h4
        | error e =>
          rw [hy] at h4 ht
          dsimp only at h4
          split at h4
          · rename_i htk
            have htk := (loopTakes_iff _ _ _).1 htk
            split at h4
            · rename_i hb
              obtain ⟨rfl, rfl⟩ := ev_pure.1 h4
              exact stop ht (by rw [goesOn_iff htk]; exact fun h => h hb) ⟨fun _ => rfl, fun h => absurd htk h⟩ rfl
            · rename_i hb
              exact again ht ((goesOn_iff htk).2 hb) h4
          · rename_i htk
            have htk : ¬ Spec.Consumes range cnt.name e := fun h => htk ((loopTakes_iff _ _ _).2 h)
            obtain ⟨rfl, rfl⟩ := ev_pure.1 h4
            exact stop ht (fun h => htk h.1) ⟨fun h => absurd h htk, fun _ => rfl⟩ rfl
  | _ => trivial

/-! ## The statement -/

/-- The number of turns a loop may make: its count (none if negative); a loop without count but with a
counter stops when the counter is exhausted, a loop without both never. -/
def Spec.limit (cnt : Cnt) : Option Nat :=
  match cnt.max, cnt.name with
  | some n, _ => some n.toNat
  | none, some _ => some (usizeMax - 1)
  | none, none => none

/-- The label of the loop is given up when the loop ends. -/
def Spec.leave (cnt : Cnt) (t : Nat) (s : St) : St :=
  if cnt.name.isSome = true ∧ 0 < t then { s with labels := s.labels.dropLast } else s

theorem ev_loopStmt {range : Bool} {cnt : Cnt} {codes : List Code} {env : Env} {s s' : St} {r : Except Err Unit}
    {max : Nat} {useI : Bool} (hm : (if useI then some max else none) = Spec.limit cnt)
    (hu : useI = false → cnt.name = none)
    (h : EvE H (Evals H) (do
      let x ← (callP [] (.loop range codes max useI cnt env 0 false) : Prog Res)
      if x.has then doOp .popLabel
      ExceptT.mk (pure x.r) : E Unit) s r s') :
    ∃ t s1, Spec.Loop H range codes cnt env (Spec.limit cnt) 0 s t r s1 ∧ s' = Spec.leave cnt t s1 := by
  rcases evE_bind.1 h with ⟨x, s1, h1, h2⟩ | ⟨e, h1, -⟩
  · obtain ⟨y, hy, h1⟩ := evE_lift.1 h1
    cases hy
    have h1 := ev_callP.1 h1
    obtain ⟨t, h3, h4⟩ := loop_turns h1 0 (fun _ => rfl) hu (by simp)
    rw [hm] at h3
    have hl : (x.has = true) ↔ (cnt.name.isSome = true ∧ 0 < t) := by rw [h4]; simp
    split at h2
    · rename_i hx
      rcases evE_bind.1 h2 with ⟨y, s2, h5, h6⟩ | ⟨e, h5, -⟩
      · obtain ⟨_, -, h5⟩ := evE_lift.1 h5
        have h5 := ev_doOp.1 h5
        simp only [Op.run, Prod.mk.injEq, true_and] at h5
        obtain ⟨rfl, rfl⟩ := evE_mk.1 h6
        exact ⟨t, s1, h3, by rw [Spec.leave, if_pos (hl.1 hx), h5]⟩
      · obtain ⟨_, he, -⟩ := evE_lift.1 h5
        cases he
    · rename_i hx
      obtain ⟨rfl, rfl⟩ := evE_mk.1 h2
      exact ⟨t, s', h3, by rw [Spec.leave, if_neg (fun h => hx (hl.2 h))]⟩
  · obtain ⟨y, hy, -⟩ := evE_lift.1 h1
    cases hy

/-- **C23.**  A loop statement evaluates its annotations; when they are in order, it makes turns as
`Spec.Loop` says, at most as many as its count, and ends with the outcome of the last one. -/
theorem C23_loop {range : Bool} {cnt : Cnt} {rems codes : List Code} {env : Env} {s s' : St} {r : Res}
    (h : Evals H (.item (.for_ range cnt rems codes) env) s r s') :
    (∃ e, EvE H (Evals H) (remsP rems env) s (.error e) s' ∧ r.r = .error e) ∨
    ∃ rs s0, EvE H (Evals H) (remsP rems env) s (.ok rs) s0 ∧
      match cntRems range rs 0 cnt with
      | .error e => r.r = .error e ∧ s' = s0
      | .ok cnt => ∃ t s1, Spec.Loop H range codes cnt env (Spec.limit cnt) 0 s0 t r.r s1 ∧ s' = Spec.leave cnt t s1 := by
  obtain ⟨x, h', rfl⟩ := evals_item.1 h
  clear h
  change EvE H (Evals H) (forP range cnt rems codes env) s x s' at h'
  unfold forP at h'
  rcases evE_bind.1 h' with ⟨rs, s0, h1, h2⟩ | ⟨e, h1, rfl⟩
  · refine .inr ⟨rs, s0, h1, ?_⟩
    rcases evE_bind.1 h2 with ⟨cnt', s1, h3, h4⟩ | ⟨e, h3, rfl⟩
    · obtain ⟨h5, rfl⟩ := evE_mk.1 h3
      rw [← h5]
      cases hmx : cnt'.max with
      | some n =>
        rw [hmx] at h4
        exact ev_loopStmt (by simp [Spec.limit, hmx]) (by simp) h4
      | none =>
        rw [hmx] at h4
        refine ev_loopStmt ?_ ?_ h4
        · cases hn : cnt'.name <;> simp [Spec.limit, hmx, hn]
        · cases hn : cnt'.name <;> simp
    · obtain ⟨h5, rfl⟩ := evE_mk.1 h3
      rw [← h5]
      exact ⟨rfl, rfl⟩
  · exact .inl ⟨e, h1, rfl⟩

/-- A state with the two cells more in which the annotations of a statement are collected. -/
def Spec.noted (s : St) : St :=
  { s with
    items := upd s.items s.nitem []
    nitem := s.nitem + 1
    lists := upd s.lists s.nlist (RList.empty.add ⟨s.nitem, .k (kw .beginText)⟩)
    nlist := s.nlist + 1 }

theorem upd_same {α : Type} (f : Nat → α) (k : Nat) (v : α) : upd f k v k = v := by simp [upd]

theorem upd_upd {α : Type} (f : Nat → α) (k : Nat) (v w : α) : upd (upd f k v) k w = upd f k w := by
  funext n; simp only [upd]; split <;> rfl

theorem remsP_nil {env : Env} {s : St} : EvE H (Evals H) (remsP [] env) s (.ok []) (Spec.noted s) := by
  unfold remsP
  refine evE_bind.2 (.inl ⟨s.nlist, _, evE_lift.2 ⟨_, rfl, ev_doOp.2 rfl⟩, ?_⟩)
  refine evE_bind.2 (.inl ⟨(), Spec.noted s, evE_lift.2 ⟨_, rfl, ?_⟩, ?_⟩)
  · unfold addKwI addVal
    refine ev_bind.2 ⟨_, _, ev_doOp.2 rfl, ?_⟩
    unfold addItem
    refine ev_bind.2 ⟨_, _, ev_getSt.2 ⟨rfl, rfl⟩, ev_doOp.2 ?_⟩
    simp only [Op.run, upd_same, upd_upd]
    rfl
  · refine evE_bind.2 (.inl ⟨(), Spec.noted s, evE_hello.2 ⟨_, codes_nil, rfl⟩, ?_⟩)
    refine evE_bind.2 (.inl ⟨Spec.noted s, Spec.noted s, evE_lift.2 ⟨_, rfl, ev_getSt.2 ⟨rfl, rfl⟩⟩, ?_⟩)
    have e : ((Spec.noted s).lists s.nlist).last? = some ⟨s.nitem, .k (kw .beginText)⟩ := by
      simp [Spec.noted, upd, RList.last?, RList.add]
    rw [e]
    refine evE_pure.2 ⟨?_, rfl⟩
    simp [Spec.noted, upd]

theorem ev_unique {α : Type} {p : Prog α} {s : St} {a b : α} {s1 s2 : St} (h : Ev H (Evals H) p s a s1)
    (h' : Ev H (Evals H) p s b s2) : a = b ∧ s1 = s2 := by
  induction p generalizing s with
  | ret c => obtain ⟨rfl, rfl⟩ := h; obtain ⟨rfl, rfl⟩ := h'; exact ⟨rfl, rfl⟩
  | panic => exact h.elim
  | op o k ih =>
    obtain ⟨x, t, h1, h2⟩ := h
    obtain ⟨x', t', h1', h2'⟩ := h'
    rw [h1] at h1'
    simp only [Prod.mk.injEq, Out.ok.injEq] at h1'
    obtain ⟨rfl, rfl⟩ := h1'
    exact ih _ h2 h2'
  | call hd c k ih =>
    obtain ⟨x, t, h1, h2⟩ := h
    obtain ⟨x', t', h1', h2'⟩ := h'
    obtain ⟨rfl, rfl⟩ := h1.unique h1'
    exact ih _ h2 h2'

/-- **C23.**  A loop (`循环`) or circle (`圈子`) whose annotations are constant. -/
theorem C23_plain {range : Bool} {cnt : Cnt} {codes : List Code} {env : Env} {s s' : St} {r : Res}
    (h : Evals H (.item (.for_ range cnt [] codes) env) s r s') :
    ∃ t s1, Spec.Loop H range codes cnt env (Spec.limit cnt) 0 (Spec.noted s) t r.r s1 ∧
      s' = Spec.leave cnt t s1 := by
  rcases C23_loop h with ⟨e, h1, -⟩ | ⟨rs, s0, h1, h2⟩
  · cases (ev_unique h1 remsP_nil).1
  · obtain ⟨h3, rfl⟩ := ev_unique h1 remsP_nil
    cases h3
    exact h2

/-- **C23.**  A loop with the count `n` in which no turn ends otherwise than normally or with a continue
without label makes exactly `n` turns (none for a negative `n`) and ends normally; in the `j`-th turn the
counter, if any, is `start + j` (`Spec.Turn1`, `Spec.number`). -/
theorem C23_exactly {cnt : Cnt} {codes : List Code} {env : Env} {s s' : St} {r : Res} {n : Int}
    (hn : cnt.max = some n)
    (hb : ∀ (k : Nat) t x t', (k : Int) < n → Spec.Turns H false codes cnt env 0 (Spec.noted s) k t →
      Spec.Turn1 H codes cnt env (k + 1) t x t' → x = .ok () ∨ ∃ e, x = .error e ∧ e.i = 11033 ∧ e.s = [])
    (h : Evals H (.item (.for_ false cnt [] codes) env) s r s') :
    r.r = .ok () ∧ ∃ s1, Spec.Turns H false codes cnt env 0 (Spec.noted s) n.toNat s1 ∧
      s' = Spec.leave cnt n.toNat s1 := by
  obtain ⟨t, s1, h1, rfl⟩ := C23_plain h
  rcases h1 with ⟨m, h1, rfl, h2, h3⟩ | ⟨k, s2, x, rfl, h2, h3, h4, h5, h6⟩
  · simp only [Spec.limit, hn, Option.some.injEq] at h1
    subst h1
    exact ⟨h3, s1, h2, rfl⟩
  · have hk := h3 n.toNat (by simp [Spec.limit, hn])
    rw [Nat.zero_add] at h4
    rcases hb k _ _ _ (by omega) h2 h4 with rfl | ⟨e, rfl, h7, h8⟩
    · exact absurd rfl h5
    · exact absurd ⟨⟨.inr h7, .inl h8⟩, h7⟩ h5

/-- **C23.**  In the `j`-th turn the body is evaluated with the counter variable at `start + j`. -/
theorem C23_counter {codes : List Code} {cnt : Cnt} {env : Env} {j : Nat} {s s' : St} {x : Except Err Unit}
    {name : Str} (hn : cnt.name = some name) (h : Spec.Turn1 H codes cnt env j s x s') :
    ∃ s1 y it, Evals H (.codes codes 0 usizeMax env) s1 y s' ∧ y.r = x ∧
      (s1.scopes env.q).vars.find? (·.name == name) = some ⟨name, it, false, false, false⟩ ∧
      it.val = .s (intStr (j + cnt.start.getD 0)) := by
  obtain ⟨s1, y, h1, h2, h3⟩ := h
  obtain ⟨it, h4, h5⟩ := h1.value name hn
  exact ⟨s1, y, it, h2, h3, h4, h5⟩

/-! ## Ending -/

theorem loopSet_ev {cnt : Cnt} {env : Env} {j : Nat} {hasName : Bool} {s : St}
    (hh : s.held.contains (.scope env.q) = false) :
    ∃ s1, Ev H (Evals H) (loopSet cnt env j hasName) s () s1 := by
  unfold loopSet
  cases cnt.name with
  | none => exact ⟨s, ev_pure.2 ⟨rfl, rfl⟩⟩
  | some name =>
    dsimp only
    have e : ∃ s1, Ev H (Evals H) (doOp (.setVar env.q ⟨name, ⟨s.nitem, .s (cnt.value j)⟩, false, false, false⟩))
        { s with items := upd s.items s.nitem [], nitem := s.nitem + 1 } () s1 := by
      have e : ∀ {v : Var} {t : St}, t.held = s.held → ∃ s1, (Op.setVar env.q v).run H t = (.ok (), s1) := by
        intro v t ht
        simp only [Op.run, St.modScope, ht, hh, Bool.false_eq_true, if_false]
        exact ⟨_, rfl⟩
      obtain ⟨s1, e⟩ := e (v := ⟨name, ⟨s.nitem, .s (cnt.value j)⟩, false, false, false⟩)
        (t := { s with items := upd s.items s.nitem [], nitem := s.nitem + 1 }) rfl
      exact ⟨s1, ev_doOp.2 e⟩
    obtain ⟨s1, e⟩ := e
    cases hasName with
    | true =>
      refine ⟨s1, ev_bind.2 ⟨_, _, ev_doOp.2 rfl, ev_bind.2 ⟨_, _, e, ?_⟩⟩⟩
      exact ev_pure.2 ⟨rfl, rfl⟩
    | false =>
      refine ⟨{ s1 with labels := s1.labels ++ [name] }, ev_bind.2 ⟨_, _, ev_doOp.2 rfl, ev_bind.2 ⟨_, _, e, ?_⟩⟩⟩
      exact ev_doOp.2 rfl

theorem loop_ends {cnt : Cnt} {codes : List Code} {env : Env} {max : Nat} {I : St → Prop}
    (hI : ∀ t, I t → t.held.contains (.scope env.q) = false)
    (hb : ∀ j t t1, 0 < j → j ≤ max → I t →
      Spec.Enter env.q cnt.name (Spec.number cnt j) (decide (j = 1)) t t1 →
      ∃ x t2, Evals H (.codes codes 0 usizeMax env) t1 x t2 ∧ I t2 ∧
        (x.r = .ok () ∨ ∃ e, x.r = .error e ∧ e.i = 11033 ∧ e.s = []))
    (k : Nat) {i : Nat} (hi : i + k = max) {s : St} (hs : I s) :
    ∃ s', Spec.Turns H false codes cnt env i s k s' ∧ I s' ∧
      Evals H (.loop false codes max true cnt env i (cnt.name.isSome && decide (0 < i))) s
        { has := (cnt.name.isSome && decide (0 < max)) } s' := by
  induction k generalizing i s with
  | zero =>
    have e : i = max := hi
    subst e
    refine ⟨s, .none, hs, evals_iff.2 ?_⟩
    change Ev H _ (loopP false codes i true cnt env i _) s _ s
    rw [loopP_eq, if_pos (by simp)]
    exact ev_pure.2 ⟨rfl, rfl⟩
  | succ k ih =>
    obtain ⟨s1, h1⟩ := loopSet_ev (H := H) (cnt := cnt) (j := i + 1) (hasName := cnt.name.isSome && decide (0 < i))
      (hI s hs)
    have he := ev_loopSet (first := decide (i + 1 = 1)) (fun hn => by
      rw [hn]; by_cases h : i = 0 <;> simp [h]; omega) h1
    obtain ⟨x, s2, h2, h3, h4⟩ := hb (i + 1) s s1 (by omega) (by omega) hs he
    obtain ⟨s', h8, h9, h5⟩ := ih (i := i + 1) (by omega) h3
    have hg : Spec.GoesOn false cnt.name x.r := by
      rcases h4 with h4 | ⟨e, h4, h6, h7⟩
      · rw [h4]; rfl
      · rw [h4]; exact ⟨⟨.inr h6, .inl h7⟩, h6⟩
    refine ⟨s', .more ⟨s1, x, he, h2, rfl⟩ hg h8, h9, evals_iff.2 ?_⟩
    change Ev H _ (loopP false codes max true cnt env i _) s _ s'
    rw [loopP_eq, if_neg (by simp; omega)]
    refine ev_bind.2 ⟨(), s1, h1, ?_⟩
    have h5 : Evals H (.loop false codes max true cnt env (i + 1) cnt.name.isSome) s2
        { has := (cnt.name.isSome && decide (0 < max)) } s' := by
      simpa using h5
    unfold loopTail
    dsimp only
    split
    · rename_i hc
      have hc : codes = [] := by simpa using hc
      subst hc
      obtain ⟨rfl, rfl⟩ := h2.unique codes_nil
      exact ev_callP.2 h5
    · refine ev_bind.2 ⟨x, s2, ev_callP.2 h2, ?_⟩
      rcases h4 with h4 | ⟨e, h4, h6, h7⟩
      · rw [h4]
        exact ev_callP.2 h5
      · rw [h4]
        dsimp only
        rw [if_pos (by rw [loopTakes_iff]; exact ⟨.inr h6, .inl h7⟩), if_neg (by rw [h6]; decide)]
        exact ev_callP.2 h5

/-- **C23.**  A counted loop ends, normally and after exactly `n` turns, when its body ends normally or with
a continue without label in every turn; `I` is any property of the state that the body keeps. -/
theorem C23_ends {cnt : Cnt} {codes : List Code} {env : Env} {s : St} {n : Int} {I : St → Prop}
    (hn : cnt.max = some n) (hs : I (Spec.noted s))
    (hI : ∀ t, I t → t.held.contains (.scope env.q) = false)
    (hb : ∀ j t t1, 0 < j → j ≤ n.toNat → I t →
      Spec.Enter env.q cnt.name (Spec.number cnt j) (decide (j = 1)) t t1 →
      ∃ x t2, Evals H (.codes codes 0 usizeMax env) t1 x t2 ∧ I t2 ∧
        (x.r = .ok () ∨ ∃ e, x.r = .error e ∧ e.i = 11033 ∧ e.s = [])) :
    ∃ s1, Spec.Turns H false codes cnt env 0 (Spec.noted s) n.toNat s1 ∧ I s1 ∧
      Evals H (.item (.for_ false cnt [] codes) env) s {} (Spec.leave cnt n.toNat s1) := by
  obtain ⟨s1, h1, h2, h3⟩ := loop_ends hI hb n.toNat (i := 0) (by omega) hs
  refine ⟨s1, h1, h2, evals_item.2 ⟨.ok (), ?_, rfl⟩⟩
  change EvE H (Evals H) (forP false cnt [] codes env) s (.ok ()) _
  unfold forP
  refine evE_bind.2 (.inl ⟨[], _, remsP_nil, evE_bind.2 (.inl ⟨cnt, _, evE_mk.2 ⟨rfl, rfl⟩, ?_⟩)⟩)
  rw [hn]
  dsimp only
  have h3 : Evals H (.loop false codes n.toNat true cnt env 0 false) (Spec.noted s)
      { has := (cnt.name.isSome && decide (0 < n.toNat)) } s1 := by
    have e : (cnt.name.isSome && decide (0 < 0)) = false := by simp
    rw [e] at h3; exact h3
  refine evE_bind.2 (.inl ⟨_, s1, evE_lift.2 ⟨_, rfl, ev_callP.2 h3⟩, ?_⟩)
  dsimp only
  unfold Spec.leave
  by_cases hc : cnt.name.isSome = true ∧ 0 < n.toNat
  · rw [if_pos hc, if_pos (by simp [hc])]
    exact evE_bind.2 (.inl ⟨(), _, evE_lift.2 ⟨_, rfl, ev_doOp.2 rfl⟩, evE_mk.2 ⟨rfl, rfl⟩⟩)
  · rw [if_neg hc, if_neg (by simpa using hc)]
    exact evE_mk.2 ⟨rfl, rfl⟩

/-! ## The hypotheses are met -/

theorem evE_addT {R : Call → St → Res → St → Prop} {ret : Nat} {t : Str} {s s' : St} {r : Except Err Unit}
    (h : EvE H R (liftM (addT ret t) : E Unit) s r s') : r = .ok () := by
  obtain ⟨a, h, -⟩ := evE_lift.1 h
  exact h

/-- A body that is a text always ends normally. -/
theorem codes_text {t : Str} {env : Env} {s s' : St} {x : Res}
    (h : Evals H (.codes [.text t] 0 usizeMax env) s x s') : x.r = .ok () := by
  obtain ⟨r, h1, h2⟩ := C22_in_order h
  have e : min usizeMax [Code.text t].length = 1 := rfl
  rw [e] at h1
  have key : r = .ok () := by
    cases h1 with
    | done h => rfl
    | next hi ht h3 =>
      cases ht with
      | ok hc hi' =>
        cases h3 with
        | done h => rfl
        | next hi => omega
        | fail hi => omega
      | dot hc hid => simp only [List.getElem?_cons_zero, Option.some.injEq] at hc; subst hc; cases hid
      | dotOk hc hid => simp only [List.getElem?_cons_zero, Option.some.injEq] at hc; subst hc; cases hid
      | call hc hid => simp only [List.getElem?_cons_zero, Option.some.injEq] at hc; subst hc; cases hid
      | word hc hid => simp only [List.getElem?_cons_zero, Option.some.injEq] at hc; subst hc; cases hid
    | fail hi ht =>
      cases ht with
      | fail hc hi' =>
        have hc := hc.1
        simp only [List.getElem?_cons_zero, Option.some.injEq] at hc
        subst hc
        obtain ⟨x, h4, h5⟩ := evals_item.1 hi'
        have := evE_addT (H := H) h4
        subst this
        cases h5
      | dotFail hc hid => simp only [List.getElem?_cons_zero, Option.some.injEq] at hc; subst hc; cases hid
      | callFail hc hid => simp only [List.getElem?_cons_zero, Option.some.injEq] at hc; subst hc; cases hid
      | wordFail hc hid => simp only [List.getElem?_cons_zero, Option.some.injEq] at hc; subst hc; cases hid
  subst key
  exact h2

/-- The script `循环【3】【i】“甲”。` reaches a loop with the count 3 and the counter `i` whose turns all
end normally, and the loop ends. -/
theorem C23_witness : ∃ cnt codes env s r s', Reached H0 false (demoArgv c!"循环【3】【i】“甲”。")
      (.item (.for_ false cnt [] codes) env) s ∧
    Evals H0 (.item (.for_ false cnt [] codes) env) s r s' ∧ cnt.max = some 3 ∧ cnt.name = some c!"i" ∧
    ∀ k t x t', ((k : Nat) : Int) < 3 → Spec.Turns H0 false codes cnt env 0 (Spec.noted s) k t →
      Spec.Turn1 H0 codes cnt env (k + 1) t x t' → x = .ok () ∨ ∃ e, x = .error e ∧ e.i = 11033 ∧ e.s = [] := by
  obtain ⟨c, s, hr, h⟩ := demoB_sound (n := 24) (src := c!"循环【3】【i】“甲”。")
    (P := fun c s => match c with
    | .item (.for_ false cnt [] [.text _]) _ => cnt.max == some 3 && cnt.name == some c!"i" &&
        (match (run H0 24 c s).1 with
          | .ok _ => true
          | _ => false)
    | _ => false) (by decide +kernel)
  split at h
  · rename_i cnt t env
    simp only [Bool.and_eq_true, beq_iff_eq] at h
    obtain ⟨⟨h1, h2⟩, h3⟩ := h
    rcases hx : run H0 24 (.item (.for_ false cnt [] [.text t]) env) s with ⟨y, s'⟩
    rw [hx] at h3
    cases y with
    | ok r =>
      refine ⟨cnt, _, env, s, r, s', hr, ⟨24, hx⟩, h1, h2, ?_⟩
      rintro k t1 x t' - - ⟨s1, y, -, h4, h5⟩
      exact .inl (h5 ▸ codes_text h4)
    | panic => cases h3
    | fuel => cases h3
  · cases h

/-- A counted loop with a counter: three turns, the counter at 8, 9, 10 (the second annotation is the
start); a loop with a negative count makes no turn. -/
example : (demo 60 c!"循环【3】【7】【i】先显示‘i’。了").2 = [.out c!"8", .out c!"9", .out c!"10"] ∧
    (demo 60 c!"循环【-3】先显示“甲”。了").2 = [] := by decide +kernel

end Zh
