import Verif.Props.BigStep
/-!
# C22: statement lists
-/
namespace Zh

variable {H : Host}

/-! ## Specification -/

/-- The item at position `i` is evaluated as a statement of its own (words may be calls of definitions,
and `。`, `、` may only separate). -/
def Spec.Single (a : List Code) (env : Env) (i : Nat) (c : Code) : Prop :=
  a[i]? = some c ∧ (c.id = .undef → env.gd.undefEqText = true) ∧ c.id ≠ .jvhao ∧
    (c.id = .dunhao → env.gd.dunhao = false)

/-- What is at position `i` is evaluated from state `s`: it either succeeds and the next position is
known, or fails. -/
inductive Spec.Turn (H : Host) (a : List Code) (end_ : Nat) (env : Env) (i : Nat) (s : St) :
    Except Err Nat → St → Prop where
  /-- a statement that succeeds -/
  | ok {c s'} : Spec.Single a env i c → Evals H (.item c env) s { r := .ok () } s' → Turn H a end_ env i s (.ok (i + 1)) s'
  /-- a statement that fails -/
  | fail {c e s'} : Spec.Single a env i c → Evals H (.item c env) s { r := .error e } s' →
    Turn H a end_ env i s (.error e) s'
  /-- `。` that only ends a statement -/
  | dot {c} : a[i]? = some c → c.id = .jvhao → env.gd.jvhao = false → addsJvhao s a i env = false →
    Turn H a end_ env i s (.ok (i + 1)) s
  /-- `。` that is part of the results -/
  | dotOk {c s'} : a[i]? = some c → c.id = .jvhao → env.gd.jvhao = false → addsJvhao s a i env = true →
    Evals H (.item c env) s { r := .ok () } s' → Turn H a end_ env i s (.ok (i + 1)) s'
  | dotFail {c e s'} : a[i]? = some c → c.id = .jvhao → env.gd.jvhao = false → addsJvhao s a i env = true →
    Evals H (.item c env) s { r := .error e } s' → Turn H a end_ env i s (.error e) s'
  /-- a word in which definitions are called; their arguments may take up further items -/
  | call {c r s'} : a[i]? = some c → c.id = .undef → env.gd.undefEqText = false →
    Evals H (.z4 a c.s2 c.s2.length end_ env ⟨0, false, i, [], []⟩) s r s' → r.r = .ok () → r.has = true →
    Turn H a end_ env i s (.ok r.idx) s'
  | callFail {c r e s'} : a[i]? = some c → c.id = .undef → env.gd.undefEqText = false →
    Evals H (.z4 a c.s2 c.s2.length end_ env ⟨0, false, i, [], []⟩) s r s' → r.r = .error e →
    Turn H a end_ env i s (.error e) s'
  /-- a word without definitions is a text -/
  | word {c r s1 s'} : a[i]? = some c → c.id = .undef → env.gd.undefEqText = false →
    Evals H (.z4 a c.s2 c.s2.length end_ env ⟨0, false, i, [], []⟩) s r s1 → r.r = .ok () → r.has = false →
    Evals H (.item c env) s1 { r := .ok () } s' → Turn H a end_ env i s (.ok (r.idx + 1)) s'
  | wordFail {c r s1 e s'} : a[i]? = some c → c.id = .undef → env.gd.undefEqText = false →
    Evals H (.z4 a c.s2 c.s2.length end_ env ⟨0, false, i, [], []⟩) s r s1 → r.r = .ok () → r.has = false →
    Evals H (.item c env) s1 { r := .error e } s' → Turn H a end_ env i s (.error e) s'

/-- The list ends before position `i`; the second position is where the reader goes on. -/
inductive Spec.Stop (a : List Code) (end_ : Nat) (env : Env) (i : Nat) : Nat → Prop where
  | all : end_ ≤ i → Stop a end_ env i i
  | dot {c} : i < end_ → a[i]? = some c → c.id = .jvhao → env.gd.jvhao = true → Stop a end_ env i i
  | comma {c} : i < end_ → a[i]? = some c → c.id = .dunhao → env.gd.dunhao = true → Stop a end_ env i (i + 1)

/-- One after the other, until the end or the first failure. -/
inductive Spec.InOrder (H : Host) (a : List Code) (end_ : Nat) (env : Env) :
    Nat → St → Except Err Unit → St → Prop where
  | done {i k s} : Spec.Stop a end_ env i k → InOrder H a end_ env i s (.ok ()) s
  | next {i j s s1 r s'} : i < end_ → Spec.Turn H a end_ env i s (.ok j) s1 → InOrder H a end_ env j s1 r s' →
    InOrder H a end_ env i s r s'
  | fail {i s e s'} : i < end_ → Spec.Turn H a end_ env i s (.error e) s' → InOrder H a end_ env i s (.error e) s'

/-! ## Proofs -/

theorem item_res {c : Code} {env : Env} {s s' : St} {r : Res} (h : Evals H (.item c env) s r s') :
    r = { r := r.r } := by
  obtain ⟨x, -, rfl⟩ := evals_item.1 h
  rfl

theorem ev_z2Item {R : Call → St → Res → St → Prop} [Sub H R] {a : List Code} {j end_ : Nat} {env : Env} {c : Code}
    {s s' : St} {r : Res} :
    Ev H R (z2Item a j end_ env c) s r s' ↔
      (∃ s1, R (.item c env) s { r := .ok () } s1 ∧ R (.z2 a (j + 1) end_ env) s1 r s') ∨
      ∃ e, R (.item c env) s { r := .error e } s' ∧ r = { idx := j, r := .error e } := by
  unfold z2Item
  rw [ev_bind]
  constructor
  · rintro ⟨x, s1, h, h'⟩
    have h := ev_callP.1 h
    have hx := item_res (Sub.evals (H := H) h)
    cases hr : x.r with
    | ok u =>
      rw [hr] at h' hx
      subst hx
      exact .inl ⟨s1, h, ev_callP.1 h'⟩
    | error e =>
      rw [hr] at h' hx
      subst hx
      obtain ⟨rfl, rfl⟩ := ev_pure.1 h'
      exact .inr ⟨e, h, rfl⟩
  · rintro (⟨s1, h, h'⟩ | ⟨e, h, rfl⟩)
    · exact ⟨_, s1, ev_callP.2 h, ev_callP.2 h'⟩
    · exact ⟨_, s', ev_callP.2 h, ev_pure.2 ⟨rfl, rfl⟩⟩

/-- What the induction shows about the loop of a statement list. -/
def z2Goal (H : Host) : Call → St → Res → St → Prop
  | .z2 a i end_ env, s, r, s' => Spec.InOrder H a end_ env i s r.r s'
  | _, _, _, _ => True

theorem z2_inOrder {a : List Code} {i end_ : Nat} {env : Env} {s s' : St} {r : Res}
    (h : Evals H (.z2 a i end_ env) s r s') : Spec.InOrder H a end_ env i s r.r s' := by
  refine Evals.ind (P := z2Goal H) ?_ h
  clear h
  intro c s r s' h
  cases c with
  | z2 a i end_ env =>
    change Ev H _ (z2P a i end_ env) s r s' at h
    change Spec.InOrder H a end_ env i s r.r s'
    unfold z2P at h
    split at h
    · rename_i hi
      -- a statement of its own
      have one : ∀ {c}, Spec.Single a env i c →
          Ev H (fun c s r s' => Evals H c s r s' ∧ z2Goal H c s r s') (z2Item a i end_ env c) s r s' →
          Spec.InOrder H a end_ env i s r.r s' := by
        intro c hc h
        rcases ev_z2Item.1 h with ⟨s1, h1, h2⟩ | ⟨e, h1, rfl⟩
        · exact .next hi (.ok hc h1.1) h2.2
        · exact .fail hi (.fail hc h1.1)
      split at h
      · exact absurd h ev_panic
      · rename_i c hc
        split at h
        · rename_i hid
          split at h
          · rename_i hu
            exact one ⟨hc, fun _ => hu, by simp [hid], by simp [hid]⟩ h
          · rename_i hu
            have hu : env.gd.undefEqText = false := by simpa using hu
            obtain ⟨x, s1, h1, h2⟩ := ev_bind.1 h
            have h1 := ev_callP.1 h1
            cases hr : x.r with
            | error e =>
              rw [hr] at h2
              obtain ⟨rfl, rfl⟩ := ev_pure.1 h2
              exact .fail hi (.callFail hc hid hu h1.1 hr)
            | ok u =>
              rw [hr] at h2
              dsimp only at h2
              cases hh : x.has with
              | true =>
                rw [hh, if_pos rfl] at h2
                exact .next hi (.call hc hid hu h1.1 hr hh) (ev_callP.1 h2).2
              | false =>
                rw [hh, if_neg (by simp)] at h2
                rcases ev_z2Item.1 h2 with ⟨s2, h3, h4⟩ | ⟨e, h3, rfl⟩
                · exact .next hi (.word hc hid hu h1.1 hr hh h3.1) h4.2
                · exact .fail hi (.wordFail hc hid hu h1.1 hr hh h3.1)
        · rename_i hid
          split at h
          · rename_i hj
            obtain ⟨rfl, rfl⟩ := ev_pure.1 h
            exact .done (.dot hi hc hid hj)
          · rename_i hj
            have hj : env.gd.jvhao = false := by simpa using hj
            obtain ⟨x, s1, h1, h2⟩ := ev_bind.1 h
            obtain ⟨rfl, rfl⟩ := ev_getSt.1 h1
            split at h2
            · rename_i ha
              rcases ev_z2Item.1 h2 with ⟨s2, h3, h4⟩ | ⟨e, h3, rfl⟩
              · exact .next hi (.dotOk hc hid hj ha h3.1) h4.2
              · exact .fail hi (.dotFail hc hid hj ha h3.1)
            · rename_i ha
              exact .next hi (.dot hc hid hj (by simpa using ha)) (ev_callP.1 h2).2
        · rename_i hid
          split at h
          · rename_i hj
            obtain ⟨rfl, rfl⟩ := ev_pure.1 h
            exact .done (.comma hi hc hid hj)
          · rename_i hj
            exact one ⟨hc, by simp [hid], by simp [hid], fun _ => by simpa using hj⟩ h
        · rename_i h1 h2 h3
          exact one ⟨hc, fun h => absurd h h1, h2, fun h => absurd h h3⟩ h
    · rename_i hi
      obtain ⟨rfl, rfl⟩ := ev_pure.1 h
      exact .done (.all (by omega))
  | _ => trivial

theorem inOrder_z2 {a : List Code} {i end_ : Nat} {env : Env} {s s' : St} {r : Except Err Unit}
    (h : Spec.InOrder H a end_ env i s r s') : ∃ x, Evals H (.z2 a i end_ env) s x s' ∧ x.r = r := by
  have unf : ∀ {i s x s'}, Evals H (.z2 a i end_ env) s x s' ↔ Ev H (Evals H) (z2P a i end_ env) s x s' :=
    fun {_ _ _ _} => evals_iff
  have single : ∀ {i c s x s'}, i < end_ → Spec.Single a env i c →
      Ev H (Evals H) (z2Item a i end_ env c) s x s' → Evals H (.z2 a i end_ env) s x s' := by
    intro i c s x s' hi ⟨hc, h1, h2, h3⟩ h
    rw [unf, z2P, if_pos hi, hc]
    dsimp only
    split
    · rename_i hid; rw [if_pos (h1 hid)]; exact h
    · rename_i hid; exact absurd hid h2
    · rename_i hid; rw [if_neg (by simp [h3 hid])]; exact h
    · exact h
  have dots : ∀ {i c s x s'}, i < end_ → a[i]? = some c → c.id = .jvhao → env.gd.jvhao = false →
      (if addsJvhao s a i env then Ev H (Evals H) (z2Item a i end_ env c) s x s'
        else Evals H (.z2 a (i + 1) end_ env) s x s') → Evals H (.z2 a i end_ env) s x s' := by
    intro i c s x s' hi hc hid hj h
    rw [unf, z2P, if_pos hi, hc]
    dsimp only
    rw [hid]
    dsimp only
    rw [if_neg (by simp [hj])]
    refine ev_bind.2 ⟨s, s, ev_getSt.2 ⟨rfl, rfl⟩, ?_⟩
    split
    · rename_i ha; rw [if_pos ha] at h; exact h
    · rename_i ha; rw [if_neg ha] at h; exact ev_callP.2 h
  have words : ∀ {i c s x s' y s1}, i < end_ → a[i]? = some c → c.id = .undef → env.gd.undefEqText = false →
      Evals H (.z4 a c.s2 c.s2.length end_ env ⟨0, false, i, [], []⟩) s y s1 →
      Ev H (Evals H) (match y.r with
        | .error e => pure { idx := y.idx, r := .error e }
        | .ok () => if y.has then callP [] (.z2 a y.idx end_ env) else z2Item a y.idx end_ env c : Prog Res) s1 x s' →
      Evals H (.z2 a i end_ env) s x s' := by
    intro i c s x s' y s1 hi hc hid hu h1 h2
    rw [unf, z2P, if_pos hi, hc]
    dsimp only
    rw [hid]
    dsimp only
    rw [if_neg (by simp [hu])]
    exact ev_bind.2 ⟨y, s1, ev_callP.2 h1, h2⟩
  induction h with
  | @done i k s hs =>
    have : ∃ x, Ev H (Evals H) (z2P a i end_ env) s x s ∧ x.r = .ok () := by
      unfold z2P
      cases hs with
      | all hi => rw [if_neg (by omega)]; exact ⟨_, ev_pure.2 ⟨rfl, rfl⟩, rfl⟩
      | dot hi hc hid hj =>
        rw [if_pos hi, hc]; dsimp only; rw [hid]; dsimp only; rw [if_pos hj]
        exact ⟨_, ev_pure.2 ⟨rfl, rfl⟩, rfl⟩
      | comma hi hc hid hj =>
        rw [if_pos hi, hc]; dsimp only; rw [hid]; dsimp only; rw [if_pos hj]
        exact ⟨_, ev_pure.2 ⟨rfl, rfl⟩, rfl⟩
    obtain ⟨x, h1, h2⟩ := this
    exact ⟨x, unf.2 h1, h2⟩
  | @next i j s s1 r s' hi ht _ ih =>
    obtain ⟨x, h1, h2⟩ := ih
    refine ⟨x, ?_, h2⟩
    cases ht with
    | ok hc h => exact single hi hc (ev_z2Item.2 (.inl ⟨s1, h, h1⟩))
    | dot hc hid hj ha => exact dots hi hc hid hj (by rw [if_neg (by simp [ha])]; exact h1)
    | dotOk hc hid hj ha h =>
      exact dots hi hc hid hj (by rw [if_pos ha]; exact ev_z2Item.2 (.inl ⟨s1, h, h1⟩))
    | call hc hid hu h hr hh =>
      exact words hi hc hid hu h (by rw [hr]; dsimp only; rw [if_pos hh]; exact ev_callP.2 h1)
    | word hc hid hu h hr hh h3 =>
      exact words hi hc hid hu h (by
        rw [hr]; dsimp only; rw [if_neg (by simp [hh])]; exact ev_z2Item.2 (.inl ⟨s1, h3, h1⟩))
  | @fail i s e s' hi ht =>
    cases ht with
    | fail hc h => exact ⟨_, single hi hc (ev_z2Item.2 (.inr ⟨e, h, rfl⟩)), rfl⟩
    | dotFail hc hid hj ha h =>
      exact ⟨_, dots hi hc hid hj (by rw [if_pos ha]; exact ev_z2Item.2 (.inr ⟨e, h, rfl⟩)), rfl⟩
    | callFail hc hid hu h hr =>
      exact ⟨_, words hi hc hid hu h (by rw [hr]; exact ev_pure.2 ⟨rfl, rfl⟩), rfl⟩
    | wordFail hc hid hu h hr hh h3 =>
      exact ⟨_, words hi hc hid hu h (by
        rw [hr]; dsimp only; rw [if_neg (by simp [hh])]; exact ev_z2Item.2 (.inr ⟨e, h3, rfl⟩)), rfl⟩

/-- The error a statement list ends with: jumps are passed on as they are, other errors get the text of
the list up to the failing statement appended to their trace. -/
def Spec.Traced (e e' : Err) : Prop :=
  e'.i = e.i ∧ e'.i2 = e.i2 ∧ e'.s = e.s ∧ e.s2 <+: e'.s2 ∧ (isJump e.i = true → e' = e)

/-- How the result of a statement list is made from the outcome of its statements. -/
def Spec.ListRes : Except Err Unit → Except Err Unit → Prop
  | .ok (), x => x = .ok ()
  | .error e, x => ∃ e', x = .error e' ∧ Spec.Traced e e'

theorem codes_z2 {a : List Code} {i end_ : Nat} {env : Env} {s s' : St} {x : Res} :
    Evals H (.codes a i end_ env) s x s' ↔ ∃ y, Evals H (.z2 a i (min end_ a.length) env) s y s' ∧
      x = { idx := y.idx, r := match y.r with
        | .ok () => .ok ()
        | .error e => .error (if isJump e.i then e
            else { e with s2 := e.s2 ++ ('\n' :: quote (showL (a.take (y.idx + 1)))) }) } := by
  rw [evals_iff]
  change Ev H (Evals H) (codesP a i end_ env) s x s' ↔ _
  unfold codesP
  rw [ev_bind]
  constructor
  · rintro ⟨y, s1, h, h'⟩
    have h := ev_callP.1 h
    refine ⟨y, ?_⟩
    cases hr : y.r with
    | ok u => rw [hr] at h'; obtain ⟨rfl, rfl⟩ := ev_pure.1 h'; exact ⟨h, rfl⟩
    | error e => rw [hr] at h'; obtain ⟨rfl, rfl⟩ := ev_pure.1 h'; exact ⟨h, rfl⟩
  · rintro ⟨y, h, rfl⟩
    refine ⟨y, s', ev_callP.2 h, ?_⟩
    cases hr : y.r with
    | ok u => exact ev_pure.2 ⟨rfl, rfl⟩
    | error e => exact ev_pure.2 ⟨rfl, rfl⟩

theorem traced_if (e : Err) (t : Str) :
    Spec.Traced e (if isJump e.i then e else { e with s2 := e.s2 ++ t }) := by
  split
  · exact ⟨rfl, rfl, rfl, List.prefix_refl _, fun _ => rfl⟩
  · rename_i h; exact ⟨rfl, rfl, rfl, List.prefix_append _ _, fun h' => absurd h' h⟩

/-- **C22.**  A statement list evaluates one position after the other; it ends with success exactly when
the end is reached without failure, and with the first failure otherwise. -/
theorem C22_in_order {a : List Code} {i end_ : Nat} {env : Env} {s s' : St} {x : Res}
    (h : Evals H (.codes a i end_ env) s x s') :
    ∃ r, Spec.InOrder H a (min end_ a.length) env i s r s' ∧ Spec.ListRes r x.r := by
  obtain ⟨y, h', rfl⟩ := codes_z2.1 h
  refine ⟨y.r, z2_inOrder h', ?_⟩
  cases hr : y.r with
  | ok u => exact rfl
  | error e => exact ⟨_, rfl, traced_if _ _⟩

/-- **C22.**  Conversely, when the positions evaluate one after the other up to the end or a failure,
the list evaluates with that outcome. -/
theorem C22_in_order_conv {a : List Code} {i end_ : Nat} {env : Env} {s s' : St} {r : Except Err Unit}
    (h : Spec.InOrder H a (min end_ a.length) env i s r s') :
    ∃ x, Evals H (.codes a i end_ env) s x s' ∧ Spec.ListRes r x.r := by
  obtain ⟨y, h1, h2⟩ := inOrder_z2 h
  refine ⟨_, codes_z2.2 ⟨y, h1, rfl⟩, ?_⟩
  rw [← h2]
  cases hr : y.r with
  | ok u => exact rfl
  | error e => exact ⟨_, rfl, traced_if _ _⟩

/-- The statement at position `i` took the state `s` to `s'` without failing. -/
def Spec.Done (H : Host) (a : List Code) (env : Env) (i : Nat) (s s' : St) : Prop :=
  ∃ c, a[i]? = some c ∧ (Evals H (.item c env) s { r := .ok () } s' ∨ (c.id = .jvhao ∧ s' = s))

theorem inOrder_explicit {a : List Code} {env : Env} {n i : Nat} {s s' : St} {r : Except Err Unit}
    (hw : ∀ c ∈ a, c.id = .undef → env.gd.undefEqText = true) (hj : env.gd.jvhao = false) (hd : env.gd.dunhao = false)
    (h : Spec.InOrder H a n env i s r s') (hi : i ≤ n) :
    ∃ (k : Nat) (st : Nat → St), i ≤ k ∧ k ≤ n ∧ st i = s ∧ (∀ m, i ≤ m → m < k → Spec.Done H a env m (st m) (st (m + 1))) ∧
      ((r = .ok () ∧ k = n ∧ s' = st k) ∨
        (k < n ∧ ∃ c e, a[k]? = some c ∧ Evals H (.item c env) (st k) { r := .error e } s' ∧ r = .error e)) := by
  induction h with
  | @done i k s hs =>
    refine ⟨i, fun _ => s, Nat.le_refl _, hi, rfl, fun m h1 h2 => by omega, .inl ⟨rfl, ?_, rfl⟩⟩
    cases hs with
    | all h => omega
    | dot _ _ _ h => rw [hj] at h; cases h
    | comma _ _ _ h => rw [hd] at h; cases h
  | @next i j s s1 r s' hlt ht _ ih =>
    have key : j = i + 1 ∧ Spec.Done H a env i s s1 := by
      cases ht with
      | ok hc h => exact ⟨rfl, _, hc.1, .inl h⟩
      | dot hc hid _ _ => exact ⟨rfl, _, hc, .inr ⟨hid, rfl⟩⟩
      | dotOk hc hid _ _ h => exact ⟨rfl, _, hc, .inl h⟩
      | call hc hid hu => rw [hw _ (List.mem_of_getElem? hc) hid] at hu; cases hu
      | word hc hid hu => rw [hw _ (List.mem_of_getElem? hc) hid] at hu; cases hu
    obtain ⟨rfl, hdn⟩ := key
    obtain ⟨k, st, h1, h2, h3, h4, h5⟩ := ih (by omega)
    refine ⟨k, fun m => if m ≤ i then s else st m, by omega, h2, if_pos (Nat.le_refl _), ?_, ?_⟩
    · intro m hm hk
      by_cases hmi : m = i
      · subst hmi
        simp only [Nat.le_refl, if_true]
        rw [if_neg (by omega), h3]
        exact hdn
      · simp only
        rw [if_neg (by omega), if_neg (by omega)]
        exact h4 m (by omega) hk
    · simp only
      rw [if_neg (by omega)]
      exact h5
  | @fail i s e s' hlt ht =>
    refine ⟨i, fun _ => s, Nat.le_refl _, hi, rfl, fun m h1 h2 => by omega, .inr ⟨hlt, ?_⟩⟩
    cases ht with
    | fail hc h => exact ⟨_, e, hc.1, h, rfl⟩
    | dotFail hc _ _ _ h => exact ⟨_, e, hc, h, rfl⟩
    | callFail hc hid hu => rw [hw _ (List.mem_of_getElem? hc) hid] at hu; cases hu
    | wordFail hc hid hu => rw [hw _ (List.mem_of_getElem? hc) hid] at hu; cases hu

/-- **C22**, for lists of statements without bare words (whose definitions might take further items as
arguments): there are states `st 0, st 1, …, st k`, the statements before position `k` took each to the
next, and either all statements are done, the list succeeded and nothing else happened; or the statement
at `k` failed from `st k`, the list failed with that error, and its final state is the one the failing
statement left, so nothing after it has run. -/
theorem C22_statements {a : List Code} {env : Env} {s s' : St} {x : Res}
    (hw : ∀ c ∈ a, c.id = .undef → env.gd.undefEqText = true) (hj : env.gd.jvhao = false)
    (hd : env.gd.dunhao = false) (ha : a.length ≤ usizeMax)
    (h : Evals H (.codes a 0 usizeMax env) s x s') :
    ∃ (k : Nat) (st : Nat → St), k ≤ a.length ∧ st 0 = s ∧ (∀ m < k, Spec.Done H a env m (st m) (st (m + 1))) ∧
      ((x.r = .ok () ∧ k = a.length ∧ s' = st k) ∨
        ∃ c e e', a[k]? = some c ∧ Evals H (.item c env) (st k) { r := .error e } s' ∧ x.r = .error e' ∧
          Spec.Traced e e') := by
  obtain ⟨r, h1, h2⟩ := C22_in_order h
  rw [Nat.min_eq_right ha] at h1
  obtain ⟨k, st, -, h3, h4, h5, h6⟩ := inOrder_explicit hw hj hd h1 (Nat.zero_le _)
  refine ⟨k, st, h3, h4, fun m hm => h5 m (Nat.zero_le _) hm, ?_⟩
  rcases h6 with ⟨rfl, hk, rfl⟩ | ⟨hk, c, e, hc, he, rfl⟩
  · exact .inl ⟨h2, hk, rfl⟩
  · obtain ⟨e', h7, h8⟩ := h2
    exact .inr ⟨c, e, e', hc, he, h7, h8⟩

/-- The first statement has run, the second one fails, the third one has not run. -/
example : (demo 40 c!"显示“一”。显示‘无’。显示“三”。").2 = [.out c!"一"] ∧
    (match (demo 40 c!"显示“一”。显示‘无’。显示“三”。").1 with
      | .ok (.error e) => e.s == c!"变量“无”不存在"
      | _ => false) = true := by decide +kernel

/-- The hypotheses of `C22_statements` are met: the list `显示“一”。显示‘无’。显示“三”。` is evaluated and
fails at its third item. -/
theorem C22_witness : ∃ a env s x s', Reached H0 false (demoArgv c!"显示“一”。显示‘无’。显示“三”。")
      (.codes a 0 usizeMax env) s ∧
    Evals H0 (.codes a 0 usizeMax env) s x s' ∧ a.length = 6 ∧ x.idx = 2 ∧ (∃ e, x.r = .error e) ∧
    (∀ c ∈ a, c.id = .undef → env.gd.undefEqText = true) ∧ env.gd.jvhao = false ∧ env.gd.dunhao = false := by
  obtain ⟨c, s, hr, h⟩ := demoB_sound (n := 16) (src := c!"显示“一”。显示‘无’。显示“三”。")
    (P := fun c s => match c with
    | .codes a 0 e env => e == usizeMax && a.length == 6 && a.all (fun c => c.id != .undef) && !env.gd.jvhao &&
        !env.gd.dunhao && endsErrB (run H0 16 c s) && (match (run H0 16 c s).1 with
          | .ok r => r.idx == 2
          | _ => false)
    | _ => false) (by decide +kernel)
  split at h
  · rename_i a e env
    simp only [Bool.and_eq_true, beq_iff_eq, List.all_eq_true, bne_iff_ne, ne_eq, Bool.not_eq_true'] at h
    obtain ⟨⟨⟨⟨⟨⟨rfl, h1⟩, h2⟩, h3⟩, h4⟩, h5⟩, h6⟩ := h
    obtain ⟨r, s', e, h7, h8⟩ := endsErrB_iff h5
    rw [h7] at h6
    simp only [beq_iff_eq] at h6
    exact ⟨a, env, s, r, s', hr, ⟨16, h7⟩, h1, h6, ⟨e, h8⟩, fun c hc hu => absurd hu (h2 c hc), h3, h4⟩
  · cases h

end Zh
