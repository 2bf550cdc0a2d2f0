import Verif.Props.Assign
import Verif.Props.Args
/-!
# C57, C58: reading a name, asking whether it exists; the argument names of a definition
-/
namespace Zh

open Spec

variable {H : Host}

/-! ## Specification -/

/-- Scope `p` is the nearest one of `ps` (a path to the top) and the modules that has the name; `a` is what it has. -/
def Spec.NearestName (s : St) (ps : List Nat) (name : Str) (equ : Bool) (p : Nat) (a : GetAct) : Prop :=
  ∃ i : Nat, (Spec.visible ps s.mods)[i]? = some p ∧ Spec.Has (s.scopes p) name (decide (0 < i)) a false equ ∧
    ∀ j p', j < i → (Spec.visible ps s.mods)[j]? = some p' → ∀ a', ¬ Spec.Has (s.scopes p') name (decide (0 < j)) a' false equ

/-- The name written by the items: their texts one after the other. -/
def Spec.nameWritten (l : List Item) : Str := l.flatMap fun i => i.val.plain

/-- The state in which an item was appended to the result list `r`. -/
def Spec.append (r : Nat) (i : Item) (s : St) : St := { s with lists := upd s.lists r ((s.lists r).add i) }

/-- What the answer `a` of scope `p` does. -/
inductive Spec.Answer (H : Host) (name : Str) (isHas : Bool) (env : Env) (p : Nat) : GetAct → St → Except Err Unit → St → Prop where
  /-- an alias: its text is read as a name in the scope of the alias -/
  | alias {it b s x s'} : Evals H (.get [it] isHas (if b then ⟨true, name⟩ else {}) { env with q := p }) s x s' →
      Spec.Answer H name isHas env p (.alias it b) s x.r s'
  /-- the question whether a variable exists: a new item with the text `1` and the annotations of the value -/
  | hasVar {it s} : Spec.Answer H name isHas env p (.hasVar it) s (.ok ())
      (Spec.append env.ret ⟨s.nitem, .s c!"1"⟩ { s with items := upd s.items s.nitem (s.items it.ref), nitem := s.nitem + 1 })
  | name {s} : Spec.Answer H name isHas env p .name s (.ok ()) (s.push env.ret (.s name))
  | nothing {s} : Spec.Answer H name isHas env p .nothing s (.ok ()) s
  /-- the value itself -/
  | val {it s} : Spec.Answer H name isHas env p (.val it) s (.ok ()) (Spec.append env.ret it s)
  | text {t s} : Spec.Answer H name isHas env p (.text t) s (.ok ()) (s.push env.ret (.s t))
  /-- the question whether the argument number `i` of the scope exists -/
  | argHas {i e s} : isHas = true → (s.scopes p).args ≠ env.ret →
      Spec.Answer H name isHas env p (.arg i e) s (.ok ())
        (if i ≤ (s.lists (s.scopes p).args).len then s.push env.ret (.s c!"1") else s)
  /-- the argument number `i` of the scope -/
  | arg {i : Nat} {e s l} : isHas = false → (s.scopes p).args ≠ env.ret →
      (e = true → ∀ k, argIndex s.ovf i (s.lists (s.scopes p).args) = .ok (some k) →
        (s.lists (s.scopes p).args).s3 k = .ok none) →
      argGet s.ovf i (s.lists (s.scopes p).args) (s.lists env.ret) = .ok l →
      Spec.Answer H name isHas env p (.arg i e) s (.ok ()) { s with lists := upd s.lists env.ret l }
  /-- the same for a name with `值`: a single text `-` or `true` stands for the name -/
  | argEqu {i : Nat} {s k t} : isHas = false → (s.scopes p).args ≠ env.ret →
      argIndex s.ovf i (s.lists (s.scopes p).args) = .ok (some k) → (s.lists (s.scopes p).args).s3 k = .ok (some t) →
      Spec.Answer H name isHas env p (.arg i true) s (.ok ()) (s.push env.ret (.s (if equName t then name else t)))

/-! ## Proofs -/

variable {R : Call → St → Res → St → Prop}

theorem ev_addVal' {r : Nat} {v : Val} {rs : List Str} {s s' : St} {u : Unit} :
    Ev H R (addVal r v rs) s u s' ↔
      s' = Spec.append r ⟨s.nitem, v⟩ { s with items := upd s.items s.nitem rs, nitem := s.nitem + 1 } := by
  constructor
  · intro h
    obtain ⟨a, s1, h1, h⟩ := ev_bind.1 h
    obtain ⟨b, s2, h2, h3⟩ := ev_bind.1 h
    have h1 := ev_doOp.1 h1
    obtain ⟨rfl, rfl⟩ := ev_getSt.1 h2
    have h3 := ev_doOp.1 h3
    simp only [Op.run, Prod.mk.injEq, Out.ok.injEq] at h1 h3
    obtain ⟨rfl, rfl⟩ := h1
    exact h3.2.symm
  · rintro rfl
    refine ev_bind.2 ⟨⟨s.nitem, v⟩, _, ev_doOp.2 rfl, ev_bind.2 ⟨_, _, ev_getSt.2 ⟨rfl, rfl⟩, ev_doOp.2 rfl⟩⟩

theorem getName_two (scopes : Nat → Scope) (mods : List Nat) (q : Nat) (name : Str) (equ : Bool) :
    getName scopes mods q name false equ true false =
      match getName scopes mods q name false equ false false with
      | some x => some x
      | none => getName scopes mods q name false equ true true := by
  simp only [getName, visits, Bool.not_false, Bool.true_and, Bool.false_eq_true, if_false, if_true, Bool.and_false,
    List.append_nil, List.nil_append, List.findSome?_append]
  cases (List.findSome? _ [(q, false)]) <;> rfl

theorem getName_has_up (scopes : Nat → Scope) (mods : List Nat) (q : Nat) (name : Str) (equ : Bool) :
    getName scopes mods q name true equ true true = none := by
  simp [getName, visits]

theorem upd_own {β : Type} (f : Nat → β) (k : Nat) : upd f k (f k) = f := by
  funext j
  unfold upd
  split <;> simp_all

theorem ev_argiP {i : Nat} {isHas e : Bool} {name : Str} {p : Nat} {env : Env} {s s' : St} {u : Unit} :
    Ev H R (argiP i isHas e name p env.ret) s u s' ↔ Spec.Answer H name isHas env p (.arg i e) s (.ok ()) s' := by
  unfold argiP
  rw [ev_bind]
  have e1 : ∀ P : St → St → Prop, (∃ a s1, Ev H R getSt s a s1 ∧ P a s1) ↔ P s s := fun P =>
    ⟨fun ⟨a, s1, h, h'⟩ => by obtain ⟨rfl, rfl⟩ := ev_getSt.1 h; exact h', fun h => ⟨s, s, ev_getSt.2 ⟨rfl, rfl⟩, h⟩⟩
  rw [e1 fun a s1 => Ev H R _ s1 u s']
  by_cases hargs : (s.scopes p).args = env.ret
  · rw [if_pos hargs]
    refine ⟨fun h => absurd h ev_panic, fun h => ?_⟩
    cases h <;> contradiction
  rw [if_neg hargs]
  cases isHas with
  | true =>
    simp only [if_true]
    rw [ev_bind]
    have hi : i2u s.ovf (i : Int) (s.lists (s.scopes p).args).len = .ok i := by simp [i2u]
    constructor
    · rintro ⟨a, s1, h1, h2⟩
      obtain ⟨h1, rfl⟩ := ev_ofOut.1 h1
      rw [hi] at h1
      cases h1
      have := Spec.Answer.argHas (H := H) (name := name) (isHas := true) (env := env) (p := p) (i := i) (e := e) rfl hargs
      by_cases hl : i ≤ (s1.lists (s1.scopes p).args).len
      · rw [if_pos hl] at h2 this
        rw [ev_addT.1 h2]
        exact this
      · rw [if_neg hl] at h2 this
        rw [(ev_pure.1 h2).2]
        exact this
    · intro h
      cases h with
      | argHas _ _ =>
        refine ⟨i, s, ev_ofOut.2 ⟨hi, rfl⟩, ?_⟩
        by_cases hl : i ≤ (s.lists (s.scopes p).args).len
        · rw [if_pos hl, if_pos hl]; exact ev_addT.2 rfl
        · rw [if_neg hl, if_neg hl]; exact ev_pure.2 ⟨rfl, rfl⟩
      | arg h => cases h
      | argEqu h => cases h
  | false =>
    simp only [Bool.false_eq_true, if_false]
    rw [ev_bind]
    constructor
    · rintro ⟨a, s1, h1, h2⟩
      obtain ⟨h1, rfl⟩ := ev_ofOut.1 h1
      cases a with
      | none =>
        rw [(ev_pure.1 h2).2]
        have := Spec.Answer.arg (H := H) (name := name) (isHas := false) (env := env) (p := p) (i := i) (e := e) (s := s1)
          (l := s1.lists env.ret) rfl hargs (fun _ k hk => by rw [h1] at hk; cases hk) (by simp [argGet, h1])
        rwa [upd_own] at this
      | some k =>
        obtain ⟨t, s2, h2, h3⟩ := ev_bind.1 h2
        have key : (e = true → (s1.lists (s1.scopes p).args).s3 k = .ok none) →
            (∃ l s2, Ev H R (ofOut ((s1.lists (s1.scopes p).args).retArg k (s1.lists env.ret))) s1 l s2 ∧
              Ev H R (doOp (.setList env.ret l)) s2 u s') →
            Spec.Answer H name false env p (.arg i e) s1 (.ok ()) s' := by
          rintro h0 ⟨l, s2, h5, h6⟩
          obtain ⟨h5, rfl⟩ := ev_ofOut.1 h5
          have h6 := ev_doOp.1 h6
          simp only [Op.run, Prod.mk.injEq] at h6
          rw [← h6.2]
          refine .arg rfl hargs (fun he k' hk' => ?_) (by simp [argGet, h1, h5])
          rw [h1] at hk'
          cases hk'
          exact h0 he
        cases e with
        | false =>
          obtain ⟨rfl, rfl⟩ := ev_pure.1 h2
          exact key nofun (ev_bind.1 h3)
        | true =>
          obtain ⟨h2, rfl⟩ := ev_ofOut.1 h2
          cases t with
          | none => exact key (fun _ => h2) (ev_bind.1 h3)
          | some t =>
            rw [ev_addT.1 h3]
            exact .argEqu rfl hargs h1 h2
    · intro h
      cases h with
      | argHas h _ => cases h
      | @arg _ _ _ l _ _ h0 h1 =>
        rcases hx : argIndex s.ovf i (s.lists (s.scopes p).args) with x | _ | _
        · simp only [argGet, hx, Out.ok_bind] at h1
          cases x with
          | none =>
            simp only [Out.ok.injEq] at h1
            subst h1
            rw [upd_own]
            exact ⟨none, s, ev_ofOut.2 ⟨rfl, rfl⟩, ev_pure.2 ⟨rfl, rfl⟩⟩
          | some k =>
            refine ⟨some k, s, ev_ofOut.2 ⟨rfl, rfl⟩, ev_bind.2 ⟨none, s, ?_, ev_bind.2 ⟨l, s, ev_ofOut.2 ⟨h1, rfl⟩, ev_doOp.2 rfl⟩⟩⟩
            cases e with
            | false => exact ev_pure.2 ⟨rfl, rfl⟩
            | true => exact ev_ofOut.2 ⟨h0 rfl k hx, rfl⟩
        · simp [argGet, hx] at h1
        · simp [argGet, hx] at h1
      | argEqu _ _ h1 h2 =>
        exact ⟨_, s, ev_ofOut.2 ⟨h1, rfl⟩, ev_bind.2 ⟨_, s, ev_ofOut.2 ⟨h2, rfl⟩, ev_addT.2 rfl⟩⟩

/-- The answer is an alias. -/
def GetAct.isAlias : GetAct → Bool
  | .alias _ _ => true
  | _ => false

/-- What `get__` gives back for an answer. -/
def getBack (p : Nat) : GetAct → Option (Option (Item × Bool × Nat))
  | .alias it b => some (some (it, b, p))
  | _ => some none

theorem ev_getP {name : Str} {isHas equ canUp noSelf : Bool} {env : Env} {q : Nat} {s s' : St}
    {z : Option (Option (Item × Bool × Nat))} :
    Ev H R (getP name isHas equ canUp noSelf { env with q := q }) s z s' ↔
      match getName s.scopes s.mods q name isHas equ canUp noSelf with
      | none => z = none ∧ s' = s
      | some (p, a) => z = getBack p a ∧
        if a.isAlias then s' = s else Spec.Answer H name isHas env p a s (.ok ()) s' := by
  unfold getP
  rw [ev_bind]
  have e1 : ∀ P : St → St → Prop, (∃ a s1, Ev H R getSt s a s1 ∧ P a s1) ↔ P s s := fun P =>
    ⟨fun ⟨a, s1, h, h'⟩ => by obtain ⟨rfl, rfl⟩ := ev_getSt.1 h; exact h', fun h => ⟨s, s, ev_getSt.2 ⟨rfl, rfl⟩, h⟩⟩
  rw [e1 fun a s1 => Ev H R _ s1 z s']
  cases hg : getName s.scopes s.mods q name isHas equ canUp noSelf with
  | none => exact ev_pure
  | some x =>
    obtain ⟨p, a⟩ := x
    have two : ∀ (m : Prog Unit) (P : St → Prop), (∀ s', Ev H R m s () s' ↔ P s') →
        (Ev H R (m >>= fun _ => pure (some none)) s z s' ↔ z = some none ∧ P s') := by
      intro m P hP
      rw [ev_bind]
      constructor
      · rintro ⟨_, s1, h1, h2⟩
        obtain ⟨rfl, rfl⟩ := ev_pure.1 h2
        exact ⟨rfl, (hP _).1 h1⟩
      · rintro ⟨rfl, h⟩
        exact ⟨(), s', (hP _).2 h, ev_pure.2 ⟨rfl, rfl⟩⟩
    cases a with
    | «alias» it b =>
      exact ev_pure
    | hasVar it =>
      refine two _ _ fun s' => ev_addVal'.trans ⟨fun h => h ▸ .hasVar, fun h => ?_⟩
      cases h; rfl
    | name =>
      refine two _ _ fun s' => ev_addT.trans ⟨fun h => h ▸ .name, fun h => ?_⟩
      cases h; rfl
    | nothing =>
      refine ev_pure.trans (and_congr_right fun _ => ⟨fun h => h ▸ .nothing, fun h => ?_⟩)
      cases h; rfl
    | val it =>
      refine two _ _ fun s' => ev_addItem.trans ⟨fun h => h ▸ .val, fun h => ?_⟩
      cases h; rfl
    | text t =>
      refine two _ _ fun s' => ev_addT.trans ⟨fun h => h ▸ .text, fun h => ?_⟩
      cases h; rfl
    | arg i e =>
      exact two _ _ fun s' => ev_argiP (env := env)

/-- Reading through `get__`: the answer found, or nothing. -/
theorem evE_getAliasP {name : Str} {isHas : Bool} {equ : EquName} {canUp : Bool} {q : Nat} {env : Env} {s s' : St}
    {r : Except Err Bool} :
    EvE H (Evals H) (getAliasP name isHas equ canUp q env) s r s' ↔
      match getName s.scopes s.mods q name isHas equ.equ canUp canUp with
      | none => r = .ok false ∧ s' = s
      | some (p, a) => ∃ r', Spec.Answer H name isHas env p a s r' s' ∧ r = r'.map fun _ => true := by
  unfold getAliasP
  rw [evE_bind]
  simp only [evE_lift, ev_getP]
  cases hg : getName s.scopes s.mods q name isHas equ.equ canUp canUp with
  | none =>
    constructor
    · rintro (⟨_, s1, ⟨_, h0, rfl, rfl⟩, h⟩ | ⟨_, ⟨_, h, -⟩, -⟩)
      · cases h0
        exact evE_pure.1 h
      · cases h
    · rintro ⟨rfl, rfl⟩
      exact .inl ⟨none, s', ⟨none, rfl, rfl, rfl⟩, evE_pure.2 ⟨rfl, rfl⟩⟩
  | some x =>
    obtain ⟨p, a⟩ := x
    by_cases ha : a.isAlias = true
    · obtain ⟨it, b, rfl⟩ : ∃ it b, a = .alias it b := by
        cases a with
        | «alias» it b => exact ⟨it, b, rfl⟩
        | _ => cases ha
      simp only [GetAct.isAlias, if_true, getBack]
      constructor
      · rintro (⟨_, s1, ⟨_, h0, rfl, rfl⟩, h⟩ | ⟨_, ⟨_, h, -⟩, -⟩)
        · cases h0
          rcases evE_bind.1 h with ⟨_, s2, h1, h2⟩ | ⟨e, h1, rfl⟩
          · obtain ⟨rfl, rfl⟩ := evE_pure.1 h2
            obtain ⟨x, hx, hr⟩ := evE_callE.1 h1
            exact ⟨x.r, .alias hx, by rw [hr]; rfl⟩
          · obtain ⟨x, hx, hr⟩ := evE_callE.1 h1
            exact ⟨x.r, .alias hx, by rw [hr]; rfl⟩
        · cases h
      · rintro ⟨r', h, rfl⟩
        cases h with
        | @«alias» _ _ _ x _ h =>
          refine .inl ⟨_, s, ⟨_, rfl, rfl, rfl⟩, evE_bind.2 ?_⟩
          cases hx : x.r with
          | ok u => exact .inl ⟨u, s', evE_callE.2 ⟨x, h, hx⟩, evE_pure.2 ⟨rfl, rfl⟩⟩
          | error e => exact .inr ⟨e, evE_callE.2 ⟨x, h, hx⟩, rfl⟩
    · simp only [if_neg ha]
      have hb : getBack p a = some none := by
        cases a with
        | «alias» it b => exact absurd rfl ha
        | _ => rfl
      simp only [hb]
      constructor
      · rintro (⟨_, s1, ⟨_, h0, rfl, h1⟩, h⟩ | ⟨_, ⟨_, h, -⟩, -⟩)
        · cases h0
          obtain ⟨rfl, rfl⟩ := evE_pure.1 h
          exact ⟨_, h1, rfl⟩
        · cases h
      · rintro ⟨r', h, rfl⟩
        have hr : r' = .ok () := by
          cases h with
          | «alias» h => exact absurd rfl ha
          | _ => rfl
        subst hr
        exact .inl ⟨_, s', ⟨_, rfl, rfl, h⟩, evE_pure.2 ⟨rfl, rfl⟩⟩

theorem nameScan_plain (s : St) (isHas : Bool) (inq : Option Nat) (l : List Item) (hl : ∀ i ∈ l, s.items i.ref = [])
    (n : Str) (q : Nat) :
    nameScan s isHas inq l n [] false q = .ok (.ok (some (n ++ l.flatMap (fun i => i.val.plain), [], false, q))) := by
  induction l generalizing n with
  | nil => simp [nameScan]
  | cons i is ih =>
    rw [nameScan, hl i (by simp)]
    simp only [rem4]
    rw [ih (fun j hj => hl j (by simp [hj]))]
    simp

/-- A name that speaks of no arguments: it does not begin with `参数`. -/
def Spec.OrdinaryName (name : Str) : Prop := ¬ c!"参数" <+: name

theorem ordinary_none {name : Str} (h : Spec.OrdinaryName name) :
    argsWith name [] = none ∧ name ≠ ARGC ∧ argiWith name = none := by
  have h1 : name ≠ ARGS := fun e => h (e ▸ by decide)
  have h2 : name ≠ ARG := fun e => h (e ▸ by decide)
  have h3 : name ≠ ARGC := fun e => h (e ▸ by decide)
  refine ⟨by simp [argsWith, h1, h2], h3, ?_⟩
  have : ARG.isPrefixOf name = false := by
    cases hb : ARG.isPrefixOf name with
    | false => rfl
    | true => exact absurd (List.isPrefixOf_iff_prefix.1 hb) h
  simp [argiWith, this]

theorem evE_ofOut' {α : Type} {x : Out (Except Err α)} {s s' : St} {r : Except Err α} :
    EvE H R (ExceptT.mk (ofOut x) : E α) s r s' ↔ x = .ok r ∧ s' = s := ev_ofOut

theorem evE_callE' {p : E Unit} {s s' : St} {x : Res} :
    Ev H (Evals H) (resE p) s x s' ↔ ∃ r, x = { r := r } ∧ EvE H (Evals H) p s r s' := by
  unfold resE
  rw [ev_bind]
  constructor
  · rintro ⟨r, s1, h1, h2⟩
    obtain ⟨rfl, rfl⟩ := ev_pure.1 h2
    exact ⟨r, rfl, h1⟩
  · rintro ⟨r, rfl, h⟩
    exact ⟨r, s', h, ev_pure.2 ⟨rfl, rfl⟩⟩

/-- Reading: the name of the items, then the answer of the scope itself, then that of the scopes around it. -/
theorem get_plain {l : List Item} {isHas : Bool} {equ : EquName} {env : Env} {s s' : St} {x : Res}
    (hl : ∀ i ∈ l, s.items i.ref = []) (hname : Spec.OrdinaryName (Spec.nameWritten l)) :
    Evals H (.get l isHas equ env) s x s' ↔ ∃ r, x = { r := r } ∧
      match (match getName s.scopes s.mods env.q (Spec.nameWritten l) isHas equ.equ false false with
        | some z => some z
        | none => getName s.scopes s.mods env.q (Spec.nameWritten l) isHas equ.equ true true) with
      | some (p, a) => Spec.Answer H (Spec.nameWritten l) isHas env p a s r s'
      | none => r = (if isHas then .ok () else .error (errNoVar (Spec.nameWritten l))) ∧ s' = s := by
  rw [evals_iff]
  change Ev H (Evals H) (resE (get2P l isHas equ env)) s x s' ↔ _
  rw [evE_callE']
  refine exists_congr fun r => and_congr_right fun _ => ?_
  have hs : nameScan s isHas env.inq l [] [] false env.q = .ok (.ok (some (Spec.nameWritten l, [], false, env.q))) := by
    rw [nameScan_plain s isHas env.inq l hl]; rfl
  obtain ⟨h1, h2, h3⟩ := ordinary_none hname
  -- the part after the own scope
  have hup : ∀ r : Except Err Unit, EvE H (Evals H) (do
        if ← getAliasP (Spec.nameWritten l) isHas equ true env.q env then return ()
        else if isHas then return ()
        else fail (errNoVar (Spec.nameWritten l)) : E Unit) s r s' ↔
      match getName s.scopes s.mods env.q (Spec.nameWritten l) isHas equ.equ true true with
      | some (p, a) => Spec.Answer H (Spec.nameWritten l) isHas env p a s r s'
      | none => r = (if isHas then .ok () else .error (errNoVar (Spec.nameWritten l))) ∧ s' = s := by
    intro r
    rw [evE_bind]
    simp only [evE_getAliasP]
    cases getName s.scopes s.mods env.q (Spec.nameWritten l) isHas equ.equ true true with
    | none =>
      constructor
      · rintro (⟨_, s1, ⟨h, rfl⟩, h'⟩ | ⟨e, ⟨h, -⟩, -⟩)
        · cases h
          cases isHas with
          | true => exact evE_pure.1 h'
          | false => exact evE_fail.1 h'
        · cases h
      · rintro ⟨rfl, rfl⟩
        refine .inl ⟨false, s', ⟨rfl, rfl⟩, ?_⟩
        cases isHas with
        | true => exact evE_pure.2 ⟨rfl, rfl⟩
        | false => exact evE_fail.2 ⟨rfl, rfl⟩
    | some z =>
      obtain ⟨p, a⟩ := z
      constructor
      · rintro (⟨_, s1, ⟨r', h, h0⟩, h'⟩ | ⟨e, ⟨r', h, h0⟩, rfl⟩)
        · cases r' with
          | ok u =>
            cases h0
            obtain ⟨rfl, rfl⟩ := evE_pure.1 h'
            exact h
          | error e => cases h0
        · cases r' with
          | ok u => cases h0
          | error e => cases h0; exact h
      · intro h
        cases r with
        | ok u => exact .inl ⟨true, s', ⟨.ok u, h, rfl⟩, evE_pure.2 ⟨rfl, rfl⟩⟩
        | error e => exact .inr ⟨e, ⟨.error e, h, rfl⟩, rfl⟩
  unfold get2P
  rw [evE_bind]
  have e1 : ∀ P : St → St → Prop, (∃ a s1, EvE H (Evals H) (liftM getSt : E St) s (.ok a) s1 ∧ P a s1) ↔ P s s := fun P =>
    ⟨fun ⟨a, s1, h, h'⟩ => by
      obtain ⟨_, h0, h⟩ := evE_lift.1 h
      cases h0
      obtain ⟨rfl, rfl⟩ := ev_getSt.1 h
      exact h', fun h => ⟨s, s, evE_lift.2 ⟨s, rfl, ev_getSt.2 ⟨rfl, rfl⟩⟩, h⟩⟩
  have e2 : ∀ e, ¬ EvE H (Evals H) (liftM getSt : E St) s (.error e) s' := by
    intro e h
    obtain ⟨_, h0, -⟩ := evE_lift.1 h
    cases h0
  rw [e1 fun a s1 => EvE H (Evals H) _ s1 r s']
  simp only [e2, false_and, exists_false, or_false]
  rw [evE_bind]
  simp only [evE_ofOut', hs, Out.ok.injEq]
  have e3 : ∀ P : Option (Str × List Str × Bool × Nat) → St → Prop,
      (∃ a s1, (Except.ok (some (Spec.nameWritten l, [], false, env.q)) = Except.ok (ε := Err) a ∧ s1 = s) ∧ P a s1) ↔
        P (some (Spec.nameWritten l, [], false, env.q)) s := fun P =>
    ⟨fun ⟨a, s1, ⟨h, e⟩, h'⟩ => by cases h; exact e ▸ h', fun h => ⟨_, s, ⟨rfl, rfl⟩, h⟩⟩
  rw [e3 fun a s1 => EvE H (Evals H) _ s1 r s']
  simp only [reduceCtorEq, false_and, exists_false, or_false, Bool.false_eq_true, if_false, List.isEmpty_nil, Bool.not_true,
    Bool.false_and]
  have hga : getArgs (Spec.nameWritten l) [] isHas equ env.q env = (do
        if ← getAliasP (Spec.nameWritten l) isHas equ true env.q env then return ()
        else if isHas then return ()
        else fail (errNoVar (Spec.nameWritten l)) : E Unit) := by
    unfold getArgs
    simp only [h1, h3, if_neg h2]
  rw [hga, ite_self, evE_bind]
  simp only [evE_getAliasP]
  cases getName s.scopes s.mods env.q (Spec.nameWritten l) isHas equ.equ false false with
  | none =>
    simp only
    rw [← hup r]
    constructor
    · rintro (⟨_, s1, ⟨h, rfl⟩, h'⟩ | ⟨e, ⟨h, -⟩, -⟩)
      · cases h
        exact h'
      · cases h
    · intro h
      exact .inl ⟨false, s, ⟨rfl, rfl⟩, h⟩
  | some z =>
    obtain ⟨p, a⟩ := z
    constructor
    · rintro (⟨_, s1, ⟨r', h, h0⟩, h'⟩ | ⟨e, ⟨r', h, h0⟩, rfl⟩)
      · cases r' with
        | ok u =>
          cases h0
          obtain ⟨rfl, rfl⟩ := evE_pure.1 h'
          exact h
        | error e => cases h0
      · cases r' with
        | ok u => cases h0
        | error e => cases h0; exact h
    · intro h
      cases r with
      | ok u => exact .inl ⟨true, s', ⟨.ok u, h, rfl⟩, evE_pure.2 ⟨rfl, rfl⟩⟩
      | error e => exact .inr ⟨e, ⟨.error e, h, rfl⟩, rfl⟩

/-- **C58.**  Reading a name finds the nearest scope on the way to the top, then among the modules, that has it, and
gives what that scope has: the value of a variable itself, the text of a definition, the argument of an argument name;
for an alias the target is read in the scope of the alias.  If no scope has the name, the reading fails with an error
that names it, and changes nothing. -/
theorem C58_read {l : List Item} {equ : EquName} {env : Env} {s s' : St} {x : Res} {ps : List Nat}
    (ho : Spec.ParentsOlder s.scopes) (hp : Spec.Path s.scopes env.q ps)
    (hn : ∀ p, ((s.scopes p).vars.map (·.name)).Nodup)
    (hl : ∀ i ∈ l, s.items i.ref = []) (hname : Spec.OrdinaryName (Spec.nameWritten l)) :
    Evals H (.get l false equ env) s x s' ↔ ∃ r, x = { r := r } ∧
      ((∃ p a, Spec.NearestName s ps (Spec.nameWritten l) equ.equ p a ∧ Spec.Answer H (Spec.nameWritten l) false env p a s r s') ∨
        ((∀ p a, ¬ Spec.NearestName s ps (Spec.nameWritten l) equ.equ p a) ∧
          r = .error (.msg (c!"变量" ++ quote (Spec.nameWritten l) ++ c!"不存在")) ∧ s' = s)) := by
  rw [get_plain hl hname]
  refine exists_congr fun r => and_congr_right fun _ => ?_
  rw [← getName_two]
  have key := C13_nearest_scope s.scopes s.mods env.q ps ho hp hn (Spec.nameWritten l) equ.equ
  change ∀ p a, _ ↔ Spec.NearestName s ps (Spec.nameWritten l) equ.equ p a at key
  cases hg : getName s.scopes s.mods env.q (Spec.nameWritten l) false equ.equ true false with
  | none =>
    rw [hg] at key
    constructor
    · exact fun h => .inr ⟨fun p a h' => (nomatch (key p a).2 h'), h⟩
    · rintro (⟨p, a, h, -⟩ | ⟨-, h⟩)
      · exact nomatch (key p a).2 h
      · exact h
  | some z =>
    obtain ⟨p, a⟩ := z
    rw [hg] at key
    constructor
    · exact fun h => .inl ⟨p, a, (key p a).1 rfl, h⟩
    · rintro (⟨p', a', h, h'⟩ | ⟨h, -⟩)
      · have := (key p' a').2 h
        simp only [Option.some.injEq, Prod.mk.injEq] at this
        obtain ⟨rfl, rfl⟩ := this
        exact h'
      · exact absurd ((key p a).1 rfl) (h p a)

/-- **C58.**  `存在` asks the scope itself only, never the scopes around it, and never fails by itself: it gives `1`
if the scope has the name as a variable (with the annotations of its value) or as a definition, or as the name of an
argument that was given, asks for the target of an alias, and gives nothing otherwise. -/
theorem C58_exists {l : List Item} {equ : EquName} {env : Env} {s s' : St} {x : Res}
    (hn : ((s.scopes env.q).vars.map (·.name)).Nodup)
    (hl : ∀ i ∈ l, s.items i.ref = []) (hname : Spec.OrdinaryName (Spec.nameWritten l)) :
    Evals H (.get l true equ env) s x s' ↔ ∃ r, x = { r := r } ∧
      ((∃ a, Spec.Has (s.scopes env.q) (Spec.nameWritten l) false a true equ.equ ∧
          Spec.Answer H (Spec.nameWritten l) true env env.q a s r s') ∨
        ((∀ a, ¬ Spec.Has (s.scopes env.q) (Spec.nameWritten l) false a true equ.equ) ∧ r = .ok () ∧ s' = s)) := by
  rw [get_plain hl hname]
  refine exists_congr fun r => and_congr_right fun _ => ?_
  rw [getName_has_up]
  have key := C13_only_self s.scopes s.mods env.q (Spec.nameWritten l) true equ.equ false rfl hn
  cases hg : getName s.scopes s.mods env.q (Spec.nameWritten l) true equ.equ false false with
  | none =>
    rw [hg] at key
    constructor
    · exact fun h => .inr ⟨fun a h' => (nomatch (key env.q a).2 ⟨rfl, h'⟩), h⟩
    · rintro (⟨a, h, -⟩ | ⟨-, h⟩)
      · exact nomatch (key env.q a).2 ⟨rfl, h⟩
      · exact h
  | some z =>
    obtain ⟨p, a⟩ := z
    rw [hg] at key
    obtain ⟨rfl, h0⟩ := (key p a).1 rfl
    constructor
    · exact fun h => .inl ⟨a, h0, h⟩
    · rintro (⟨a', h, h'⟩ | ⟨h, -⟩)
      · have := (key env.q a').2 ⟨rfl, h⟩
        simp only [Option.some.injEq, Prod.mk.injEq] at this
        obtain ⟨-, rfl⟩ := this
        exact h'
      · exact absurd h0 (h a)

/-- The part of the answer to "does it exist" for a variable that is no alias. -/
theorem has_var_only {c : Scope} {name : Str} {out : Bool} {v : Var} {a : GetAct} {isHas equ : Bool}
    (hn : (c.vars.map (·.name)).Nodup) (hv : v ∈ c.vars) (hvn : v.name = name) (hp : ¬ (out = true ∧ v.priv = true)) :
    Spec.Has c name out a isHas equ ↔ a = v.act isHas equ := by
  constructor
  · intro h
    cases h with
    | var hw hwn _ => rw [nodup_map_inj hn hv hw (hvn.trans hwn.symm)]
    | def_ hall _ => exact absurd (hall v hv hvn) hp
    | arg hall _ _ _ => exact absurd (hall v hv hvn) hp
  · rintro rfl
    exact .var hv hvn hp

/-- **C58.**  A variable of the scope itself exists: `存在` gives one new text `1` with the annotations of the value,
whatever the value is. -/
theorem C58_exists_variable {l : List Item} {equ : EquName} {env : Env} {s s' : St} {x : Res} {v : Var}
    (hn : ((s.scopes env.q).vars.map (·.name)).Nodup)
    (hl : ∀ i ∈ l, s.items i.ref = []) (hname : Spec.OrdinaryName (Spec.nameWritten l))
    (hv : v ∈ (s.scopes env.q).vars) (hvn : v.name = Spec.nameWritten l) (hva : v.alias = false) :
    Evals H (.get l true equ env) s x s' ↔ x = { r := .ok () } ∧
      s' = Spec.append env.ret ⟨s.nitem, .s c!"1"⟩
        { s with items := upd s.items s.nitem (s.items v.val.ref), nitem := s.nitem + 1 } := by
  rw [C58_exists hn hl hname]
  simp only [has_var_only hn hv hvn (by simp : ¬ (false = true ∧ v.priv = true))]
  have e : v.act true equ.equ = .hasVar v.val := by simp [Var.act, hva]
  rw [e]
  constructor
  · rintro ⟨r, rfl, ⟨_, rfl, h⟩ | ⟨h, -⟩⟩
    · cases h; exact ⟨rfl, rfl⟩
    · exact absurd rfl (h _)
  · rintro ⟨rfl, rfl⟩
    exact ⟨_, rfl, .inl ⟨_, rfl, .hasVar⟩⟩

/-- **C58.**  An alias exists if and only if its target does, asked for in the same scope. -/
theorem C58_exists_alias {l : List Item} {equ : EquName} {env : Env} {s s' : St} {x : Res} {v : Var}
    (hn : ((s.scopes env.q).vars.map (·.name)).Nodup)
    (hl : ∀ i ∈ l, s.items i.ref = []) (hname : Spec.OrdinaryName (Spec.nameWritten l))
    (hv : v ∈ (s.scopes env.q).vars) (hvn : v.name = Spec.nameWritten l) (hva : v.alias = true) :
    Evals H (.get l true equ env) s x s' ↔ ∃ y, x = { r := y.r } ∧
      Evals H (.get [v.val] true (if v.equ then ⟨true, v.name⟩ else {}) env) s y s' := by
  rw [C58_exists hn hl hname]
  simp only [has_var_only hn hv hvn (by simp : ¬ (false = true ∧ v.priv = true))]
  have e : v.act true equ.equ = .alias v.val v.equ := by simp [Var.act, hva]
  rw [e, hvn]
  constructor
  · rintro ⟨r, rfl, ⟨_, rfl, h⟩ | ⟨h, -⟩⟩
    · cases h with
      | «alias» h => exact ⟨_, rfl, h⟩
    · exact absurd rfl (h _)
  · rintro ⟨y, rfl, h⟩
    exact ⟨_, rfl, .inl ⟨_, rfl, .alias h⟩⟩

/-- **C58.**  What is neither a variable nor a definition nor an argument name of the scope itself does not exist, even
if a scope around it has it: nothing is given, and there is no error. -/
theorem C58_exists_nothing {l : List Item} {equ : EquName} {env : Env} {s s' : St} {x : Res}
    (hn : ((s.scopes env.q).vars.map (·.name)).Nodup)
    (hl : ∀ i ∈ l, s.items i.ref = []) (hname : Spec.OrdinaryName (Spec.nameWritten l))
    (hv : ∀ v ∈ (s.scopes env.q).vars, v.name ≠ Spec.nameWritten l)
    (hd : ∀ d ∈ (s.scopes env.q).defs, d.name ≠ Spec.nameWritten l)
    (ha : ∀ names, (s.scopes env.q).argnames = some names → ∀ i ∈ names.a, i.ge = true ∨ i.s ≠ Spec.nameWritten l) :
    Evals H (.get l true equ env) s x s' ↔ x = { r := .ok () } ∧ s' = s := by
  rw [C58_exists hn hl hname]
  have no : ∀ a, ¬ Spec.Has (s.scopes env.q) (Spec.nameWritten l) false a true equ.equ := by
    intro a h
    cases h with
    | var hw hwn _ => exact hv _ hw hwn
    | def_ _ h =>
      exact hd _ (List.mem_of_find?_eq_some h) (by simpa using List.find?_some h)
    | arg _ _ h1 h2 =>
      have := List.find?_some h2
      rcases ha _ h1 _ (List.mem_of_find?_eq_some h2) with h | h <;> simp_all
  constructor
  · rintro ⟨r, rfl, ⟨_, h, -⟩ | ⟨-, rfl, rfl⟩⟩
    · exact absurd h (no _)
    · exact ⟨rfl, rfl⟩
  · rintro ⟨rfl, rfl⟩
    exact ⟨_, rfl, .inr ⟨no, rfl, rfl⟩⟩

/-- **C58.**  Reading a variable (no alias, not marked `值`) gives the value itself: the very item that was assigned,
with its annotations.  `i` is the place of its scope among the scopes on the way to the top and the modules; no
earlier one has the name. -/
theorem C58_read_variable {l : List Item} {env : Env} {s s' : St} {x : Res} {ps : List Nat} {i p : Nat} {v : Var}
    (ho : Spec.ParentsOlder s.scopes) (hp : Spec.Path s.scopes env.q ps)
    (hn : ∀ p, ((s.scopes p).vars.map (·.name)).Nodup)
    (hl : ∀ i ∈ l, s.items i.ref = []) (hname : Spec.OrdinaryName (Spec.nameWritten l))
    (hi : (Spec.visible ps s.mods)[i]? = some p)
    (hv : v ∈ (s.scopes p).vars) (hvn : v.name = Spec.nameWritten l) (hva : v.alias = false) (hve : v.equ = false)
    (hpriv : i = 0 ∨ v.priv = false)
    (hno : ∀ j p', j < i → (Spec.visible ps s.mods)[j]? = some p' →
      (∀ w ∈ (s.scopes p').vars, w.name = Spec.nameWritten l → 0 < j ∧ w.priv = true) ∧
      (∀ d ∈ (s.scopes p').defs, d.name ≠ Spec.nameWritten l) ∧
      ∀ names, (s.scopes p').argnames = some names → ∀ n ∈ names.a, n.ge = true ∨ n.s ≠ Spec.nameWritten l) :
    Evals H (.get l false {} env) s x s' ↔ x = { r := .ok () } ∧ s' = Spec.append env.ret v.val s := by
  rw [C58_read ho hp hn hl hname]
  have hout : ¬ (decide (0 < i) = true ∧ v.priv = true) := by
    rintro ⟨h1, h2⟩
    rw [decide_eq_true_eq] at h1
    rcases hpriv with h | h
    · omega
    · rw [h] at h2; cases h2
  have e : v.act false false = .val v.val := by simp [Var.act, hva, hve]
  have hnear : Spec.NearestName s ps (Spec.nameWritten l) false p (.val v.val) := by
    refine ⟨i, hi, (has_var_only (hn p) hv hvn hout).2 e.symm, fun j p' hj hp' a' h => ?_⟩
    obtain ⟨h1, h2, h3⟩ := hno j p' hj hp'
    cases h with
    | var hw hwn hwp => exact hwp (by have := h1 _ hw hwn; simpa using this)
    | def_ _ h => exact h2 _ (List.mem_of_find?_eq_some h) (by simpa using List.find?_some h)
    | arg _ _ h4 h5 =>
      have := List.find?_some h5
      rcases h3 _ h4 _ (List.mem_of_find?_eq_some h5) with h | h <;> simp_all
  have uniq : ∀ p' a', Spec.NearestName s ps (Spec.nameWritten l) false p' a' → p' = p ∧ a' = .val v.val := by
    intro p' a' h
    have key := C13_nearest_scope s.scopes s.mods env.q ps ho hp hn (Spec.nameWritten l) false
    have h1 := (key p' a').2 h
    rw [(key p (.val v.val)).2 hnear] at h1
    cases h1
    exact ⟨rfl, rfl⟩
  constructor
  · rintro ⟨r, rfl, ⟨p', a', h, h'⟩ | ⟨h, -⟩⟩
    · obtain ⟨rfl, rfl⟩ := uniq p' a' h
      cases h'
      exact ⟨rfl, rfl⟩
    · exact absurd hnear (h _ _)
  · rintro ⟨rfl, rfl⟩
    exact ⟨_, rfl, .inl ⟨p, _, hnear, .val⟩⟩

/-! ## C57: argument names -/

/-- The words written after the name of a definition: the groups between the separators `、`, without the empty ones. -/
def Spec.argWords (is : List (Item × List Str)) : List (List (Item × List Str)) :=
  (groups (fun i => isSep i.1) is).filter fun g => !g.isEmpty

/-- A word marked `隔` is a separator. -/
def Spec.sepWord (g : List (Item × List Str)) : Bool := g.any fun i => i.2.contains c!"隔"

/-- A word marked `值`. -/
def Spec.valWord (g : List (Item × List Str)) : Bool := g.any fun i => i.2.contains c!"值"

/-- The text of a word. -/
def Spec.argText (g : List (Item × List Str)) : Str := g.flatMap fun i => i.1.val.plain

/-- The number of words that are no separators. -/
def Spec.argCount (ws : List (List (Item × List Str))) : Nat := (ws.filter fun w => !Spec.sepWord w).length

/-- The names, one word after the other; `k` arguments came before, `e`: `值` was seen before. -/
def argNamesOf (k : Nat) (e : Bool) : List (List (Item × List Str)) → List ArgName
  | [] => []
  | w :: ws =>
    let k' := if Spec.sepWord w then k else k + 1
    ⟨Spec.argText w, if Spec.sepWord w then 0 else k', Spec.sepWord w, e || Spec.valWord w⟩ ::
      argNamesOf k' (e || Spec.valWord w) ws

theorem argNamesRems_ok (rs : List Str) (h : ∀ r ∈ rs, r = c!"隔" ∨ r = c!"值") (st : ArgNamesSt) :
    argNamesRems rs st = .ok { st with isGe := st.isGe || rs.contains c!"隔", hasGe := st.hasGe || rs.contains c!"隔",
                                       equ := st.equ || rs.contains c!"值" } := by
  induction rs generalizing st with
  | nil => simp [argNamesRems]
  | cons r rs ih =>
    have ih := ih (fun x hx => h x (by simp [hx]))
    rcases h r (by simp) with rfl | rfl
    · rw [argNamesRems, if_pos (by decide), ih]
      simp
    · rw [argNamesRems, if_neg (by decide), if_pos (by decide), ih]
      simp

theorem argNamesGo_ok (is : List (Item × List Str))
    (h : ∀ i ∈ is, isSep i.1 = false → ∀ r ∈ i.2, r = c!"隔" ∨ r = c!"值") :
    (∀ a hg e cnt, ∃ st, argNamesGo is ⟨a, hg, [], false, e, cnt, true⟩ = .ok st ∧
      st.a = a ++ argNamesOf cnt e (Spec.argWords is) ∧ st.hasGe = (hg || (Spec.argWords is).any Spec.sepWord)) ∧
    ∀ a hg t ge e cnt g gs, groups (fun i => isSep i.1) is = g :: gs →
      ∃ st, argNamesGo is ⟨a, hg, t, ge, e, cnt, false⟩ = .ok st ∧
        st.a = a ++ ⟨t ++ Spec.argText g, if ge || Spec.sepWord g then 0 else cnt + 1, ge || Spec.sepWord g, e || Spec.valWord g⟩ ::
          argNamesOf (if ge || Spec.sepWord g then cnt else cnt + 1) (e || Spec.valWord g) (gs.filter fun g => !g.isEmpty) ∧
        st.hasGe = (hg || Spec.sepWord g || (gs.filter fun g => !g.isEmpty).any Spec.sepWord) := by
  induction is with
  | nil =>
    refine ⟨fun a hg e cnt => ⟨_, rfl, by simp [ArgNamesSt.push, Spec.argWords, groups, argNamesOf],
      by simp [ArgNamesSt.push, Spec.argWords, groups]⟩, fun a hg t ge e cnt g gs hgs => ?_⟩
    simp only [groups, List.cons.injEq] at hgs
    obtain ⟨rfl, rfl⟩ := hgs
    refine ⟨_, rfl, ?_, ?_⟩
    · cases ge <;> simp [ArgNamesSt.push, Spec.argText, Spec.sepWord, Spec.valWord, argNamesOf]
    · simp [ArgNamesSt.push, Spec.sepWord]
  | cons i is ih =>
    obtain ⟨ih1, ih2⟩ := ih fun j hj => h j (by simp [hj])
    obtain ⟨i, rems⟩ := i
    cases hs : isSep i with
    | true =>
      refine ⟨fun a hg e cnt => ?_, fun a hg t ge e cnt g gs hgs => ?_⟩
      · rw [argNamesGo, if_pos (by rw [dunhao_eq]; exact hs)]
        obtain ⟨st, h1, h2, h3⟩ := ih1 a hg e cnt
        refine ⟨st, h1, ?_, ?_⟩
        · rw [h2]; simp [Spec.argWords, groups, hs]
        · rw [h3]; simp [Spec.argWords, groups, hs]
      · simp only [groups, hs, if_true, List.cons.injEq] at hgs
        obtain ⟨rfl, rfl⟩ := hgs
        rw [argNamesGo, if_pos (by rw [dunhao_eq]; exact hs)]
        obtain ⟨st, h1, h2, h3⟩ := ih1 (a ++ [⟨t, if ge then 0 else cnt + 1, ge, e⟩]) hg e (if ge then cnt else cnt + 1)
        refine ⟨st, ?_, ?_, ?_⟩
        · rw [← h1]
          cases ge <;> rfl
        · rw [h2]; simp [Spec.argText, Spec.sepWord, Spec.valWord, Spec.argWords]
        · rw [h3]; simp [Spec.sepWord, Spec.argWords]
    | false =>
      obtain ⟨g0, gs0, hg0⟩ : ∃ g gs, groups (fun i : Item × List Str => isSep i.1) is = g :: gs := by
        cases hg : groups (fun i : Item × List Str => isSep i.1) is with
        | nil => exact absurd hg (groups_ne_nil is)
        | cons g gs => exact ⟨g, gs, rfl⟩
      have hr := h (i, rems) (by simp) hs
      have e1 : Spec.sepWord ((i, rems) :: g0) = (rems.contains c!"隔" || Spec.sepWord g0) := List.any_cons
      have e2 : Spec.valWord ((i, rems) :: g0) = (rems.contains c!"值" || Spec.valWord g0) := List.any_cons
      have e3 : Spec.argText ((i, rems) :: g0) = i.val.plain ++ Spec.argText g0 := List.flatMap_cons
      refine ⟨fun a hg e cnt => ?_, fun a hg t ge e cnt g gs hgs => ?_⟩
      · rw [argNamesGo, if_neg (by rw [dunhao_eq, hs]; simp), argNamesRems_ok rems hr]
        obtain ⟨st, h1, h2, h3⟩ := ih2 a (hg || rems.contains c!"隔") ([] ++ i.val.plain) (false || rems.contains c!"隔")
          (e || rems.contains c!"值") cnt g0 gs0 hg0
        refine ⟨st, h1, ?_, ?_⟩
        · rw [h2]
          simp only [Spec.argWords, groups, hs, hg0, argNamesOf, e1, e2, e3, Bool.or_assoc, Bool.false_eq_true, if_false,
            List.filter_cons, List.isEmpty_cons, Bool.not_false, if_true, Bool.false_or, List.nil_append]
          cases rems.contains c!"隔" || Spec.sepWord g0 <;> rfl
        · rw [h3]
          simp [Spec.argWords, groups, hs, hg0, Spec.sepWord, Bool.or_assoc]
      · simp only [groups, hs, Bool.false_eq_true, if_false, hg0, List.cons.injEq] at hgs
        obtain ⟨rfl, rfl⟩ := hgs
        rw [argNamesGo, if_neg (by rw [dunhao_eq, hs]; simp), argNamesRems_ok rems hr]
        obtain ⟨st, h1, h2, h3⟩ := ih2 a (hg || rems.contains c!"隔") (t ++ i.val.plain) (ge || rems.contains c!"隔")
          (e || rems.contains c!"值") cnt g0 gs0 hg0
        refine ⟨st, h1, ?_, ?_⟩
        · rw [h2]
          simp only [e1, e2, e3, Bool.or_assoc, List.append_assoc]
        · rw [h3]
          simp only [e1, Bool.or_assoc]

theorem argNamesOf_length (k : Nat) (e : Bool) (ws : List (List (Item × List Str))) :
    (argNamesOf k e ws).length = ws.length := by
  induction ws generalizing k e with
  | nil => rfl
  | cons w ws ih => simp [argNamesOf, ih]

theorem argNamesOf_get (k : Nat) (e : Bool) (ws : List (List (Item × List Str))) (j : Nat) (w : List (Item × List Str))
    (h : ws[j]? = some w) :
    (argNamesOf k e ws)[j]? = some ⟨Spec.argText w, if Spec.sepWord w then 0 else k + Spec.argCount (ws.take (j + 1)),
      Spec.sepWord w, e || (ws.take (j + 1)).any Spec.valWord⟩ := by
  induction ws generalizing k e j with
  | nil => simp at h
  | cons v ws ih =>
    cases j with
    | zero =>
      simp only [List.getElem?_cons_zero, Option.some.injEq] at h
      subst h
      simp only [argNamesOf, List.getElem?_cons_zero, Nat.zero_add, List.take_succ_cons, List.take_zero, Spec.argCount]
      cases hs : Spec.sepWord v <;> simp [hs]
    | succ j =>
      simp only [List.getElem?_cons_succ] at h
      simp only [argNamesOf, List.getElem?_cons_succ]
      rw [ih _ _ j h]
      have hc : Spec.argCount ((v :: ws).take (j + 1 + 1)) =
          (if Spec.sepWord v then 0 else 1) + Spec.argCount (ws.take (j + 1)) := by
        simp only [List.take_succ_cons, Spec.argCount, List.filter_cons]
        cases Spec.sepWord v <;> simp; omega
      rw [hc]
      cases hs : Spec.sepWord v <;> cases hw : Spec.sepWord w <;> simp [Bool.or_assoc]; omega

/-- **C57.**  The words after the name of a definition are its argument names.  Each word that is not empty counts; a
word marked `隔` is a separator; the others are numbered one by one, and the separators have no number.  (The mark `值`
of one word holds for all later words too.) -/
theorem C57_argument_names (is : List (Item × List Str))
    (h : ∀ i ∈ is, isSep i.1 = false → ∀ r ∈ i.2, r = c!"隔" ∨ r = c!"值") :
    ∃ names, ArgNames.new is = .ok names ∧ names.a.length = (Spec.argWords is).length ∧
      names.hasGe = (Spec.argWords is).any Spec.sepWord ∧
      ∀ j w, (Spec.argWords is)[j]? = some w → ∃ n, names.a[j]? = some n ∧ n.s = Spec.argText w ∧ n.ge = Spec.sepWord w ∧
        (n.ge = false → n.i = Spec.argCount ((Spec.argWords is).take (j + 1))) ∧
        n.equ = ((Spec.argWords is).take (j + 1)).any Spec.valWord := by
  obtain ⟨st, h1, h2, h3⟩ := (argNamesGo_ok is h).1 [] false false 0
  refine ⟨⟨st.a, st.hasGe⟩, by rw [ArgNames.new, h1], ?_, by rw [h3]; simp, fun j w hw => ?_⟩
  · rw [h2]; simp [argNamesOf_length]
  · refine ⟨_, by rw [h2, List.nil_append]; exact argNamesOf_get 0 false _ j w hw, rfl, rfl, fun hg => ?_, by simp⟩
    have hg : Spec.sepWord w = false := hg
    simp [hg]

/-- **C57.**  An annotation other than `隔` and `值` is refused: the first one is named in the error. -/
theorem C57_other_mark (is rest : List (Item × List Str)) (i : Item) (rs rs' : List Str) (r : Str)
    (h : ∀ i ∈ is, isSep i.1 = false → ∀ r ∈ i.2, r = c!"隔" ∨ r = c!"值") (hi : isSep i = false)
    (hrs : ∀ r ∈ rs, r = c!"隔" ∨ r = c!"值") (hr : r ≠ c!"隔" ∧ r ≠ c!"值") :
    ArgNames.new (is ++ (i, rs ++ r :: rs') :: rest) = .error (errNoRem2 r) := by
  have hrem : ∀ st, argNamesRems (rs ++ r :: rs') st = .error (errNoRem2 r) := by
    intro st
    induction rs generalizing st with
    | nil =>
      rw [List.nil_append, argNamesRems, if_neg (show ¬ r = SP from hr.1), if_neg (show ¬ r = REM from hr.2)]
    | cons x xs ih =>
      have ih := ih fun y hy => hrs y (by simp [hy])
      rcases hrs x (by simp) with rfl | rfl
      · rw [List.cons_append, argNamesRems, if_pos (by decide), ih]
      · rw [List.cons_append, argNamesRems, if_neg (by decide), if_pos (by decide), ih]
  have go : ∀ st, argNamesGo (is ++ (i, rs ++ r :: rs') :: rest) st = .error (errNoRem2 r) := by
    induction is with
    | nil =>
      intro st
      rw [List.nil_append, argNamesGo, if_neg (by rw [dunhao_eq, hi]; simp), hrem]
    | cons j is ih =>
      have ih := ih fun y hy => h y (by simp [hy])
      intro st
      obtain ⟨j, js⟩ := j
      rw [List.cons_append, argNamesGo]
      cases hs : isSep j with
      | true => rw [if_pos (by rw [dunhao_eq]; exact hs), ih]
      | false =>
        rw [if_neg (by rw [dunhao_eq, hs]; simp), argNamesRems_ok js (h (j, js) (by simp) hs)]
        exact ih _
  rw [ArgNames.new, go]

/-- **C57, C14.**  The full pattern of a definition: its name alone, or if there are separators, followed by each word:
a separator is spelled out, an argument is a dot. -/
theorem C57_pattern (is : List (Item × List Str)) (names : ArgNames)
    (h : ∀ i ∈ is, isSep i.1 = false → ∀ r ∈ i.2, r = c!"隔" ∨ r = c!"值") (hn : ArgNames.new is = .ok names)
    (name : Str) (val : DefVal) (argc backarg : Nat) :
    (Def.mk' name val argc backarg names).name =
      if (Spec.argWords is).any Spec.sepWord then
        name ++ (Spec.argWords is).flatMap fun w => if Spec.sepWord w then Spec.argText w else c!"."
      else name := by
  obtain ⟨st, h1, h2, h3⟩ := (argNamesGo_ok is h).1 [] false false 0
  rw [ArgNames.new, h1] at hn
  cases hn
  simp only [Bool.false_or] at h3
  simp only [Def.mk', mkArg0, h3]
  have : ∀ k e ws, (argNamesOf k e ws).flatMap (fun i => if i.ge then i.s else ['.']) =
      ws.flatMap fun w => if Spec.sepWord w then Spec.argText w else c!"." := by
    intro k e ws
    induction ws generalizing k e with
    | nil => rfl
    | cons w ws ih => simp [argNamesOf, ih]
  rw [h2, List.nil_append, this]

/-- **C57.**  Inside a definition, the name of an argument stands for the argument given at its place: reading the word
number `j` (not a separator, not after `值`, the first of that spelling), when the scope has no variable and no
definition of that name, appends exactly the items of the argument whose number is the number of names up to this one. -/
theorem C57_name_reads {is : List (Item × List Str)} {names : ArgNames} {j : Nat} {w : List (Item × List Str)}
    {l : List Item} {env : Env} {s s' : St} {x : Res} {ps : List Nat}
    (hok : ∀ i ∈ is, isSep i.1 = false → ∀ r ∈ i.2, r = c!"隔" ∨ r = c!"值") (hnew : ArgNames.new is = .ok names)
    (hw : (Spec.argWords is)[j]? = some w) (hsep : Spec.sepWord w = false)
    (hval : ∀ v ∈ (Spec.argWords is).take (j + 1), Spec.valWord v = false)
    (hfirst : ∀ k v, k < j → (Spec.argWords is)[k]? = some v → Spec.sepWord v = true ∨ Spec.argText v ≠ Spec.argText w)
    (hnames : (s.scopes env.q).argnames = some names)
    (ho : Spec.ParentsOlder s.scopes) (hp : Spec.Path s.scopes env.q ps)
    (hn : ∀ p, ((s.scopes p).vars.map (·.name)).Nodup)
    (hl : ∀ i ∈ l, s.items i.ref = []) (hname : Spec.OrdinaryName (Spec.nameWritten l)) (heq : Spec.nameWritten l = Spec.argText w)
    (hvars : ∀ v ∈ (s.scopes env.q).vars, v.name ≠ Spec.argText w)
    (hdefs : ∀ d ∈ (s.scopes env.q).defs, d.name ≠ Spec.argText w)
    (hwf : WF (s.lists (s.scopes env.q).args)) :
    Evals H (.get l false {} env) s x s' → x = { r := .ok () } ∧ ∃ r, s' = { s with lists := upd s.lists env.ret r } ∧
      r.a = (s.lists env.ret).a ++
        (argsOf (s.lists (s.scopes env.q).args)).getD (Spec.argCount ((Spec.argWords is).take (j + 1)) - 1) [] := by
  obtain ⟨st, h1, h2, h3⟩ := (argNamesGo_ok is hok).1 [] false false 0
  rw [ArgNames.new, h1] at hnew
  cases hnew
  rw [List.nil_append] at h2
  have hget := argNamesOf_get 0 false _ j w hw
  have hequ : ((Spec.argWords is).take (j + 1)).any Spec.valWord = false := by
    rw [List.any_eq_false]; intro v hv; rw [hval v hv]; simp
  rw [hequ, hsep] at hget
  simp only [Nat.zero_add, Bool.false_eq_true, if_false, Bool.or_self] at hget
  have hfind : st.a.find? (fun i => !i.ge && i.s == Spec.argText w) =
      some ⟨Spec.argText w, Spec.argCount ((Spec.argWords is).take (j + 1)), false, false⟩ := by
    rw [h2, List.find?_eq_some_iff_getElem]
    obtain ⟨hj, hgj⟩ := List.getElem?_eq_some_iff.1 hget
    refine ⟨by simp, j, hj, hgj, fun k hk => ?_⟩
    have hk' : k < (Spec.argWords is).length := by rw [argNamesOf_length] at hj; omega
    have hgk := argNamesOf_get 0 false _ k _ (List.getElem?_eq_getElem hk')
    obtain ⟨hk2, hgk⟩ := List.getElem?_eq_some_iff.1 hgk
    rw [hgk]
    rcases hfirst k _ hk (List.getElem?_eq_getElem hk') with h | h <;> simp [h]
  have hpos : 1 ≤ Spec.argCount ((Spec.argWords is).take (j + 1)) := by
    refine List.length_pos_iff.2 (List.ne_nil_of_mem (a := w) (List.mem_filter.2 ⟨?_, by simp [hsep]⟩))
    obtain ⟨hj, hgj⟩ := List.getElem?_eq_some_iff.1 hw
    rw [← hgj]
    exact List.mem_take_iff_getElem.2 ⟨j, by omega, rfl⟩
  intro h
  obtain ⟨r, rfl, hor⟩ := (C58_read ho hp hn hl hname).1 h
  have hp0 : (Spec.visible ps s.mods)[0]? = some env.q := by
    cases hp <;> rfl
  have hhas : Spec.Has (s.scopes env.q) (Spec.nameWritten l) false
      (.arg (Spec.argCount ((Spec.argWords is).take (j + 1))) false) false false :=
    .arg (fun v hv hvn => absurd (hvn.trans heq) (hvars v hv)) (fun d hd => heq ▸ hdefs d hd) hnames (by rw [heq]; exact hfind)
  have hnear : Spec.NearestName s ps (Spec.nameWritten l) false env.q
      (.arg (Spec.argCount ((Spec.argWords is).take (j + 1))) false) :=
    ⟨0, hp0, by simpa using hhas, fun k p' hk => by omega⟩
  rcases hor with ⟨p, a, hne, h'⟩ | ⟨hne, -⟩
  · have key := C13_nearest_scope s.scopes s.mods env.q ps ho hp hn (Spec.nameWritten l) false
    have hx := (key _ _).2 hne
    rw [(key _ _).2 hnear] at hx
    cases hx
    cases h' with
    | argHas hf => exact nomatch hf
    | @arg _ _ _ r _ _ _ h' =>
      refine ⟨rfl, r, rfl, ?_⟩
      obtain ⟨r', h5, h6, -⟩ := C05_positional_argument s.ovf _ (s.lists env.ret) hwf _ hpos
      rw [h5] at h'
      cases h'
      exact h6
  · exact absurd hnear (hne _ _)

/-- What the two theorems above ask of the state holds whenever a run reads a name. -/
theorem C58_reached {ovf : Bool} {argv : List Str} {l : List Item} {isHas : Bool} {equ : EquName} {env : Env} {s : St}
    (h : Reached H ovf argv (.get l isHas equ env) s) :
    Spec.ParentsOlder s.scopes ∧ (∃ ps, Spec.Path s.scopes env.q ps) ∧ ∀ p, ((s.scopes p).vars.map (·.name)).Nodup := by
  obtain ⟨C, -, he, -⟩ := reached_frame h
  obtain ⟨ps, hp, -⟩ := C42_lookups_end h env.q (he env rfl).q.1
  exact ⟨C42_parents_older h, ⟨ps, hp⟩, C12_reachable h⟩

/-- What a script sees: a variable of the scope exists, another name does not; inside a definition the variable of the
scope around it does not exist although it can be read. -/
theorem C58_example :
    demo 60 c!"赋予甲以1。显示存在甲。显示存在乙。定义丙以“显示先存在甲。了。显示‘甲’”。丙。" =
      (.ok (.ok ()), [.out c!"1", .out c!"1"]) := by
  decide +kernel

/-- What a script sees: names stand for the arguments at their places, with and without separators. -/
theorem C57_example :
    demo 60 c!"定义加、甲、乙以下代码显示‘乙’。显示‘甲’。上代码。加1、2。" = (.ok (.ok ()), [.out c!"2", .out c!"1"]) ∧
    demo 60 c!"定义加、甲、和【隔】、乙以下代码显示‘乙’。显示‘甲’。上代码。加1和2。" =
      (.ok (.ok ()), [.out c!"2", .out c!"1"]) := by
  decide +kernel

/-- Found: the mark `值` of the first name holds for the second too. -/
theorem C57_sticky_counterexample :
    demo 60 c!"定义加、甲【值】、乙以下代码显示‘乙’。上代码。加-、-。" = (.ok (.ok ()), [.out c!"乙"]) ∧
    demo 60 c!"定义加、乙、甲【值】以下代码显示‘乙’。上代码。加-、-。" = (.ok (.ok ()), [.out c!"-"]) := by
  decide +kernel

end Zh
