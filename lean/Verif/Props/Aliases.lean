import Verif.Props.Reads
import Verif.Props.Traces
import Verif.Props.Switch
import Verif.Props.Demo
/-!
# C69: aliases

An alias stands for what its target stands for, over any number of aliases; when the aliases never come to an end, neither does the
reading, and so neither does the script.
-/
namespace Zh

open Spec

variable {H : Host}

/-! ## Specification -/

/-- A name to be read: in which scope, the items it is written with, and what stands for the values `-` and `true`. -/
structure Spec.Ask where
  q : Nat
  l : List Item
  equ : EquName
deriving DecidableEq

/-- What the ask finds is an alias, and so the next name to be read is `b`: the target of the alias, in the scope of the alias. -/
def Spec.Refers (s : St) (a b : Spec.Ask) : Prop :=
  (∀ i ∈ a.l, s.items i.ref = []) ∧ Spec.OrdinaryName (Spec.nameWritten a.l) ∧
    ∃ ps it e, Spec.Path s.scopes a.q ps ∧ Spec.NearestName s ps (Spec.nameWritten a.l) a.equ.equ b.q (.alias it e) ∧
      b.l = [it] ∧ b.equ = if e then ⟨true, Spec.nameWritten a.l⟩ else {}

/-- Any number of aliases. -/
inductive Spec.Follows (s : St) (a : Spec.Ask) : Spec.Ask → Prop where
  | refl : Spec.Follows s a a
  | step {b c} : Spec.Follows s a b → Spec.Refers s b c → Spec.Follows s a c

/-- Aliases without end, a circle of them for instance. -/
def Spec.Endless (s : St) (a : Spec.Ask) : Prop := ∃ f : Nat → Spec.Ask, f 0 = a ∧ ∀ n, Spec.Refers s (f n) (f (n + 1))

/-! ## Proofs -/

variable {R : Call → St → Res → St → Prop}

theorem get_alias {l : List Item} {equ : EquName} {env : Env} {s s' : St} {x : Res} {p : Nat} {it : Item} {b : Bool} [Sub H R]
    (hl : ∀ i ∈ l, s.items i.ref = []) (hname : Spec.OrdinaryName (Spec.nameWritten l))
    (hg : getName s.scopes s.mods env.q (Spec.nameWritten l) false equ.equ true false = some (p, .alias it b))
    (h : Ev H R (evalF (.get l false equ env)) s x s') :
    ∃ y, R (.get [it] false (if b then ⟨true, Spec.nameWritten l⟩ else {}) { env with q := p }) s y s' ∧ x = { r := y.r } := by
  have h : Ev H R (resE (get2P l false equ env)) s x s' := h
  obtain ⟨r, s0, h, h0⟩ := ev_bind.1 h
  obtain ⟨rfl, rfl⟩ := ev_pure.1 h0
  have h : EvE H R (get2P l false equ env) s r s' := h
  suffices h' : ∃ y, R (.get [it] false (if b then ⟨true, Spec.nameWritten l⟩ else {}) { env with q := p }) s y s' ∧ r = y.r by
    obtain ⟨y, h1, rfl⟩ := h'
    exact ⟨y, h1, rfl⟩
  have hs : nameScan s false env.inq l [] [] false env.q = .ok (.ok (some (Spec.nameWritten l, [], false, env.q))) := by
    rw [nameScan_plain s false env.inq l hl]; rfl
  obtain ⟨h1, h2, h3⟩ := ordinary_none hname
  -- one look
  have look : ∀ {canUp : Bool} {r : Except Err Bool} {s' : St}, EvE H R (getAliasP (Spec.nameWritten l) false equ canUp env.q env) s r s' →
      match getName s.scopes s.mods env.q (Spec.nameWritten l) false equ.equ canUp canUp with
      | none => r = .ok false ∧ s' = s
      | some (p, .alias it b) => ∃ y, R (.get [it] false (if b then ⟨true, Spec.nameWritten l⟩ else {}) { env with q := p }) s y s' ∧
          r = y.r.map fun _ => true
      | some _ => True := by
    intro canUp r s' h
    unfold getAliasP at h
    rw [evE_bind] at h
    simp only [evE_lift, ev_getP] at h
    cases hg : getName s.scopes s.mods env.q (Spec.nameWritten l) false equ.equ canUp canUp with
    | none =>
      rw [hg] at h
      rcases h with ⟨_, s1, ⟨_, h0, rfl, rfl⟩, h⟩ | ⟨_, ⟨_, h, -⟩, -⟩
      · cases h0
        exact evE_pure.1 h
      · cases h
    | some z =>
      obtain ⟨p, a⟩ := z
      rw [hg] at h
      cases a with
      | «alias» it b =>
        simp only [GetAct.isAlias, if_true, getBack] at h
        rcases h with ⟨_, s1, ⟨_, h0, rfl, rfl⟩, h⟩ | ⟨_, ⟨_, h, -⟩, -⟩
        · cases h0
          rcases evE_bind.1 h with ⟨_, s2, h1, h2⟩ | ⟨e, h1, rfl⟩
          · obtain ⟨rfl, rfl⟩ := evE_pure.1 h2
            obtain ⟨x, hx, hr⟩ := evE_callE.1 h1
            exact ⟨x, hx, by rw [hr]; rfl⟩
          · obtain ⟨x, hx, hr⟩ := evE_callE.1 h1
            exact ⟨x, hx, by rw [hr]; rfl⟩
        · cases h
      | _ => trivial
  unfold get2P at h
  rcases evE_bind.1 h with ⟨t, s1, h4, h6⟩ | ⟨e, h4, -⟩
  swap
  · obtain ⟨_, h4, -⟩ := evE_lift.1 h4
    cases h4
  obtain ⟨_, h5, h7⟩ := evE_lift.1 h4
  cases h5
  obtain ⟨e1, e2⟩ := ev_getSt.1 h7
  rw [e1, e2] at h6
  clear h h4 h7 e1 e2
  rcases evE_bind.1 h6 with ⟨z, s1, g1, g2⟩ | ⟨e, g1, -⟩
  swap
  · have := (ev_ofOut.1 g1).1
    rw [hs] at this
    cases this
  obtain ⟨g1, rfl⟩ := ev_ofOut.1 g1
  rw [hs] at g1
  cases g1
  simp only [Bool.false_eq_true, if_false, List.isEmpty_nil, Bool.not_true, Bool.false_and] at g2
  have hga : getArgs (Spec.nameWritten l) [] false equ env.q env = (do
        if ← getAliasP (Spec.nameWritten l) false equ true env.q env then return ()
        else fail (errNoVar (Spec.nameWritten l)) : E _root_.Unit) := by
    unfold getArgs
    simp only [h1, h3, if_neg h2]
    rfl
  have fin : ∀ {y : Res} {r' : Except Err Bool}, r' = y.r.map (fun _ => true) → r'.map (fun _ => ()) = y.r := by
    rintro y r' rfl
    cases y.r <;> rfl
  rw [getName_two] at hg
  have g2 := evE_bind.1 g2
  cases ho : getName s1.scopes s1.mods env.q (Spec.nameWritten l) false equ.equ false false with
  | some z =>
    rw [ho] at hg
    cases hg
    rcases g2 with ⟨b1, s2, k1, k2⟩ | ⟨e, k1, rfl⟩
    · have k3 := look k1
      rw [ho] at k3
      obtain ⟨y, k4, k5⟩ := k3
      cases hy : y.r with
      | error e => rw [hy] at k5; cases k5
      | ok u =>
        rw [hy] at k5
        cases k5
        obtain ⟨rfl, rfl⟩ := evE_pure.1 k2
        exact ⟨y, k4, hy.symm⟩
    · have k3 := look k1
      rw [ho] at k3
      obtain ⟨y, k4, k5⟩ := k3
      cases hy : y.r with
      | error e => rw [hy] at k5; cases k5; exact ⟨y, k4, hy.symm⟩
      | ok u => rw [hy] at k5; cases k5
  | none =>
    rw [ho] at hg
    rcases g2 with ⟨b1, s2, k1, k2⟩ | ⟨e, k1, rfl⟩
    swap
    · have k3 := look k1
      rw [ho] at k3
      cases k3.1
    have k3 := look k1
    rw [ho] at k3
    obtain ⟨rfl⟩ := k3.1
    obtain rfl := k3.2
    simp only [Bool.false_eq_true, if_false] at k2
    rw [hga, ite_self] at k2
    rcases evE_bind.1 k2 with ⟨b1, s3, k1, k2⟩ | ⟨e, k1, rfl⟩
    · have k3 := look k1
      rw [show getName s2.scopes s2.mods env.q (Spec.nameWritten l) false equ.equ true true = some (p, .alias it b) from hg] at k3
      obtain ⟨y, k4, k5⟩ := k3
      cases hy : y.r with
      | error e => rw [hy] at k5; cases k5
      | ok u =>
        rw [hy] at k5
        cases k5
        obtain ⟨rfl, rfl⟩ := evE_pure.1 k2
        exact ⟨y, k4, hy.symm⟩
    · have k3 := look k1
      rw [show getName s2.scopes s2.mods env.q (Spec.nameWritten l) false equ.equ true true = some (p, .alias it b) from hg] at k3
      obtain ⟨y, k4, k5⟩ := k3
      cases hy : y.r with
      | error e => rw [hy] at k5; cases k5; exact ⟨y, k4, hy.symm⟩
      | ok u => rw [hy] at k5; cases k5

theorem refers_name {s : St} {a b : Spec.Ask} (ho : Spec.ParentsOlder s.scopes) (hn : ∀ p, ((s.scopes p).vars.map (·.name)).Nodup)
    (h : Spec.Refers s a b) : ∃ it e, getName s.scopes s.mods a.q (Spec.nameWritten a.l) false a.equ.equ true false = some (b.q, .alias it e) ∧
      b.l = [it] ∧ b.equ = if e then ⟨true, Spec.nameWritten a.l⟩ else {} := by
  obtain ⟨-, -, ps, it, e, hp, h1, h2, h3⟩ := h
  exact ⟨it, e, (C13_nearest_scope s.scopes s.mods a.q ps ho hp hn _ _ _ _).2 h1, h2, h3⟩

/-- The call that reads it. -/
def Spec.Ask.call (a : Spec.Ask) (env : Env) : Call := .get a.l false a.equ { env with q := a.q }

theorem refers_evals {s s' : St} {a b : Spec.Ask} (ho : Spec.ParentsOlder s.scopes) (hn : ∀ p, ((s.scopes p).vars.map (·.name)).Nodup)
    (h : Spec.Refers s a b) {env : Env} {x : Res} : Evals H (a.call env) s x s' ↔ Evals H (b.call env) s x s' := by
  have h0 := h
  obtain ⟨hl, hname, ps, it, e, hp, h1, h2, h3⟩ := h0
  obtain ⟨q, l, equ⟩ := b
  dsimp only at h2 h3 h1
  subst h2 h3
  have shape : ∀ {y : Res}, Evals H (.get [it] false (if e then ⟨true, Spec.nameWritten a.l⟩ else {}) { env with q := q }) s y s' →
      y = { r := y.r } := by
    intro y hy
    have : Ev H (Evals H) (resE _) s y s' := evals_iff.1 hy
    obtain ⟨r, s0, -, h0⟩ := ev_bind.1 this
    obtain ⟨rfl, rfl⟩ := ev_pure.1 h0
    rfl
  unfold Spec.Ask.call
  rw [C58_read (env := { env with q := a.q }) ho hp hn hl hname]
  constructor
  · rintro ⟨r, rfl, ⟨p, a', h4, h5⟩ | ⟨h4, -⟩⟩
    · have e1 := (C13_nearest_scope s.scopes s.mods a.q ps ho hp hn _ _ _ _).2 h1
      have e2 := (C13_nearest_scope s.scopes s.mods a.q ps ho hp hn _ _ _ _).2 h4
      rw [e1] at e2
      cases e2
      cases h5 with
      | «alias» h5 => rw [← shape h5]; exact h5
    · exact absurd h1 (h4 _ _)
  · intro h4
    refine ⟨x.r, shape h4, .inl ⟨_, _, h1, ?_⟩⟩
    exact .alias (env := { env with q := a.q }) h4

/-- **C69.**  Reading an alias is reading its target, in the scope of the alias, over any number of aliases. -/
theorem C69_chain {s s' : St} {a b : Spec.Ask} (ho : Spec.ParentsOlder s.scopes) (hn : ∀ p, ((s.scopes p).vars.map (·.name)).Nodup)
    (h : Spec.Follows s a b) {env : Env} {x : Res} : Evals H (a.call env) s x s' ↔ Evals H (b.call env) s x s' := by
  induction h with
  | refl => exact Iff.rfl
  | step _ h ih => exact ih.trans (refers_evals ho hn h)

/-- **C69.**  At the end of the aliases there is a variable: its value is what is read, the very item that was assigned. -/
theorem C69_value {s s' : St} {a b : Spec.Ask} (ho : Spec.ParentsOlder s.scopes) (hn : ∀ p, ((s.scopes p).vars.map (·.name)).Nodup)
    (h : Spec.Follows s a b) {ps : List Nat} {p : Nat} {it : Item} (hp : Spec.Path s.scopes b.q ps) (hl : ∀ i ∈ b.l, s.items i.ref = [])
    (hname : Spec.OrdinaryName (Spec.nameWritten b.l)) (hv : Spec.NearestName s ps (Spec.nameWritten b.l) b.equ.equ p (.val it))
    {env : Env} {x : Res} : Evals H (a.call env) s x s' ↔ x = { r := .ok () } ∧ s' = Spec.append env.ret it s := by
  rw [C69_chain ho hn h]
  unfold Spec.Ask.call
  rw [C58_read (env := { env with q := b.q }) ho hp hn hl hname]
  constructor
  · rintro ⟨r, rfl, ⟨p', a', h4, h5⟩ | ⟨h4, -⟩⟩
    · have e1 := (C13_nearest_scope s.scopes s.mods b.q ps ho hp hn _ _ _ _).2 hv
      have e2 := (C13_nearest_scope s.scopes s.mods b.q ps ho hp hn _ _ _ _).2 h4
      rw [e1] at e2
      cases e2
      cases h5
      exact ⟨rfl, rfl⟩
    · exact absurd hv (h4 _ _)
  · rintro ⟨rfl, rfl⟩
    exact ⟨_, rfl, .inl ⟨_, _, hv, .val⟩⟩

/-- **C69.**  Aliases without end are never read to the end. -/
theorem C69_endless {s : St} {a : Spec.Ask} (ho : Spec.ParentsOlder s.scopes) (hn : ∀ p, ((s.scopes p).vars.map (·.name)).Nodup)
    (h : Spec.Endless s a) (env : Env) (x : Res) (s' : St) : ¬ Evals H (a.call env) s x s' := by
  obtain ⟨f, rfl, hf⟩ := h
  have key : ∀ {c t x t'}, Evals H c t x t' → t = s → ∀ n, c = (f n).call env → False := by
    intro c t x t' h
    refine Evals.ind (P := fun c t x t' => t = s → ∀ n, c = (f n).call env → False) ?_ h
    rintro c t r t' h rfl n rfl
    obtain ⟨it, e, h1, h2, h3⟩ := refers_name ho hn (hf n)
    obtain ⟨y, ⟨-, h4⟩, -⟩ := get_alias (env := { env with q := (f n).q }) (hf n).1 (hf n).2.1 h1 h
    refine h4 rfl (n + 1) ?_
    unfold Spec.Ask.call
    rw [h2, h3]
  exact fun h => key h rfl 0 rfl

/-- A circle of aliases has no end. -/
theorem circle_endless {s : St} {a b : Spec.Ask} (h : Spec.Follows s a b) (hb : Spec.Refers s b a) : Spec.Endless s a := by
  have h1 : ∀ {b}, Spec.Follows s a b → ∃ n, ∃ f : Nat → Spec.Ask, f 0 = a ∧ f n = b ∧ ∀ m, m < n → Spec.Refers s (f m) (f (m + 1)) := by
    intro b h
    induction h with
    | refl => exact ⟨0, fun _ => a, rfl, rfl, fun _ h => absurd h (Nat.not_lt_zero _)⟩
    | @step b c _ h ih =>
      obtain ⟨n, f, h1, h2, h3⟩ := ih
      refine ⟨n + 1, fun k => if k ≤ n then f k else c, by simp [h1], if_neg (by omega), fun m hm => ?_⟩
      by_cases e : m < n
      · simp only [show m ≤ n by omega, show m + 1 ≤ n by omega, if_true]
        exact h3 m e
      · obtain rfl : m = n := by omega
        simp only [Nat.le_refl, if_true, show ¬ m + 1 ≤ m by omega, if_false]
        rw [h2]
        exact h
  obtain ⟨n, f, h2, h3, h4⟩ := h1 h
  refine ⟨fun k => f (k % (n + 1)), by simpa using h2, fun k => ?_⟩
  have hlt : k % (n + 1) < n + 1 := Nat.mod_lt _ (Nat.succ_pos _)
  by_cases e : k % (n + 1) < n
  · have : (k + 1) % (n + 1) = k % (n + 1) + 1 := by
      rw [Nat.add_mod]
      have h1 : 1 % (n + 1) = 1 := Nat.mod_eq_of_lt (by omega)
      rw [h1, Nat.mod_eq_of_lt (by omega)]
    dsimp only
    rw [this]
    exact h4 _ e
  · have e' : k % (n + 1) = n := by omega
    have : (k + 1) % (n + 1) = 0 := by
      rw [Nat.add_mod, e']
      by_cases hn : n = 0
      · subst hn; rfl
      · rw [Nat.mod_eq_of_lt (show 1 < n + 1 by omega), Nat.mod_self]
    dsimp only
    rw [this, e', h2, h3]
    exact hb

/-! ## Runs that end -/

theorem calls_end {N n : Nat} (hn : n ≤ N) {α : Type} (p : Prog α) : ∀ {s s' : St} {a : α} {c : Call} {t : St},
    p.interp H (run H N) s = (.ok a, s') → Calls H (run H n) p s c t → ∃ r t', run H N c t = (.ok r, t') := by
  induction p with
  | ret => intro s s' a c t _ h; exact h.elim
  | panic => intro s s' a c t _ h; exact h.elim
  | op o k ih =>
    rintro s s' a c t h ⟨b, s1, h1, h2⟩
    simp only [Prog.interp, h1] at h
    exact ih b h h2
  | call hd c0 k ih =>
    rintro s s' a c t h (⟨rfl, rfl⟩ | ⟨r, s1, h1, h2⟩)
    · simp only [Prog.interp] at h
      cases e : run H N c (s.hold hd) with
      | mk o s1 =>
        cases o with
        | ok r => exact ⟨r, s1, rfl⟩
        | panic =>
          rw [show ({ s with held := hd ++ s.held } : St) = s.hold hd from rfl, e] at h
          cases h
        | fuel =>
          rw [show ({ s with held := hd ++ s.held } : St) = s.hold hd from rfl, e] at h
          cases h
    · have e : run H N c0 (s.hold hd) = (.ok r, s1) := by
        rw [C40_more_steps H n N hn c0 _ (by rw [h1]; simp), h1]
      simp only [Prog.interp] at h
      rw [show ({ s with held := hd ++ s.held } : St) = s.hold hd from rfl, e] at h
      exact ih r h h2

/-- Every call of a run that ends comes to an end. -/
theorem ran_calls {ovf : Bool} {argv : List Str} {r : Except Err _root_.Unit} {s' : St} (h : Spec.Ran H ovf argv r s') {c : Call} {s : St}
    (hr : Reached H ovf argv c s) : ∃ x t, Evals H c s x t := by
  obtain ⟨m, h⟩ := h
  induction hr with
  | @main n c s hc =>
    have h1 : runMain H (max n m) ovf argv = (.ok r, s') := by
      rw [← h]
      obtain ⟨k, hk⟩ := Nat.le.dest (Nat.le_max_right n m)
      rw [← hk]
      exact (interp_agree (run_agree' H m k) ((kept_trace H).run (m + k)) _ _).2 (by
        rw [show Prog.interp H (run H m) (mainP argv).run (St.init ovf) = runMain H m ovf argv from rfl, h]; simp)
    obtain ⟨x, t, h2⟩ := calls_end (Nat.le_max_left n m) (mainP argv).run h1 hc
    exact ⟨x, t, _, h2⟩
  | @step n c c' s s' _ hc ih =>
    obtain ⟨x, t, k, hk⟩ := ih
    have h1 : run H (max n k + 1) c s = (.ok x, t) := by
      rw [C40_more_steps H k _ (by omega) c s (by rw [hk]; simp), hk]
    obtain ⟨x, t, h2⟩ := calls_end (Nat.le_max_left n k) (evalF c) h1 hc
    exact ⟨x, t, _, h2⟩

/-! ## Simple names -/

theorem evE_simp {name : Str} {env : Env} {s s' : St} {r : Except Err _root_.Unit} :
    EvE H (Evals H) (simpP name [] env) s r s' ↔
      match getName s.scopes s.mods env.q name false false true false with
      | some (p, a) => Spec.Answer H name false env p a s r s'
      | none => r = .error (errNoVar name) ∧ s' = s := by
  have start : EvE H (Evals H) (simpP name [] env) s r s' ↔
      ∃ y s1, Ev H (Evals H) (getP name false false true false { env with q := env.q }) s y s1 ∧
        EvE H (Evals H) (match y with
          | none => fail (errNoVar name)
          | some none => pure ()
          | some (some (it, byName, q)) => callE [] (.get [it] false (if byName then ⟨true, name⟩ else {}) { env with q }) : E _root_.Unit)
          s1 r s' := by
    have h1 : ∀ {r : Except Err Nat} {s1}, EvE H (Evals H) (var1P [] name env) s r s1 ↔ r = .ok env.q ∧ s1 = s := by
      intro r s1
      unfold var1P
      rw [evE_getSt_bind]
      constructor
      · intro h
        rcases evE_ofOut_bind.1 h with ⟨a, e, h⟩ | ⟨e, h, -⟩
        · cases e
          exact evE_pure.1 h
        · cases h
      · rintro ⟨rfl, rfl⟩
        exact evE_ofOut_bind.2 (.inl ⟨(some env.q, false), rfl, evE_pure.2 ⟨rfl, rfl⟩⟩)
    unfold simpP
    rw [evE_bind]
    simp only [h1]
    constructor
    · rintro (⟨_, s1, ⟨e, rfl⟩, h⟩ | ⟨_, ⟨e, -⟩, -⟩)
      · cases e
        exact evE_lift_bind.1 h
      · cases e
    · exact fun h => .inl ⟨_, _, ⟨rfl, rfl⟩, evE_lift_bind.2 h⟩
  have hg0 := fun z s1 => ev_getP (H := H) (R := Evals H) (name := name) (isHas := false) (equ := false) (canUp := true) (noSelf := false)
    (env := env) (q := env.q) (s := s) (s' := s1) (z := z)
  rw [start]
  simp only [hg0]
  cases hg : getName s.scopes s.mods env.q name false false true false with
  | none =>
    constructor
    · rintro ⟨_, _, ⟨rfl, rfl⟩, h⟩
      exact evE_fail.1 h
    · exact fun h => ⟨_, _, ⟨rfl, rfl⟩, evE_fail.2 h⟩
  | some x =>
    obtain ⟨p, a⟩ := x
    by_cases ha : a.isAlias = true
    · obtain ⟨it, b, rfl⟩ : ∃ it b, a = .alias it b := by
        cases a with
        | «alias» it b => exact ⟨it, b, rfl⟩
        | _ => cases ha
      simp only [GetAct.isAlias, if_true, getBack]
      constructor
      · rintro ⟨_, _, ⟨rfl, rfl⟩, h⟩
        obtain ⟨x, hx, rfl⟩ := evE_callE.1 h
        exact .alias hx
      · intro h
        cases h with
        | @«alias» _ _ _ x _ h => exact ⟨_, _, ⟨rfl, rfl⟩, evE_callE.2 ⟨x, h, rfl⟩⟩
    · simp only [if_neg ha]
      have hb : getBack p a = some none := by
        cases a with
        | «alias» it b => exact absurd rfl ha
        | _ => rfl
      simp only [hb]
      constructor
      · rintro ⟨_, _, ⟨rfl, h1⟩, h⟩
        obtain ⟨rfl, rfl⟩ := evE_pure.1 h
        exact h1
      · intro h
        have hr : r = .ok () := by
          cases h with
          | «alias» h => exact absurd rfl ha
          | _ => rfl
        subst hr
        exact ⟨_, _, ⟨rfl, h⟩, evE_pure.2 ⟨rfl, rfl⟩⟩

/-- **C58.**  A name that is written as it is, without annotations, is read in the same way. -/
theorem C58_read_simple {name : Str} {env : Env} {s s' : St} {x : Res} {ps : List Nat}
    (ho : Spec.ParentsOlder s.scopes) (hp : Spec.Path s.scopes env.q ps) (hn : ∀ p, ((s.scopes p).vars.map (·.name)).Nodup) :
    Evals H (.item (.simp name []) env) s x s' ↔ ∃ r, x = { r := r } ∧
      ((∃ p a, Spec.NearestName s ps name false p a ∧ Spec.Answer H name false env p a s r s') ∨
        ((∀ p a, ¬ Spec.NearestName s ps name false p a) ∧
          r = .error (.msg (c!"变量" ++ quote name ++ c!"不存在")) ∧ s' = s)) := by
  have key := C13_nearest_scope s.scopes s.mods env.q ps ho hp hn name false
  change ∀ p a, _ ↔ Spec.NearestName s ps name false p a at key
  rw [evals_item]
  constructor
  · rintro ⟨r, h, rfl⟩
    refine ⟨r, rfl, ?_⟩
    have h := evE_simp.1 (show EvE H (Evals H) (simpP name [] env) s r s' from h)
    cases hg : getName s.scopes s.mods env.q name false false true false with
    | none =>
      rw [hg] at h key
      exact .inr ⟨fun p a h' => (nomatch (key p a).2 h'), h⟩
    | some z =>
      rw [hg] at h key
      exact .inl ⟨_, _, (key _ _).1 rfl, h⟩
  · rintro ⟨r, rfl, h⟩
    refine ⟨r, ?_, rfl⟩
    show EvE H (Evals H) (simpP name [] env) s r s'
    rw [evE_simp]
    rcases h with ⟨p, a, h1, h2⟩ | ⟨h1, h2⟩
    · rw [(key p a).2 h1]
      exact h2
    · cases hg : getName s.scopes s.mods env.q name false false true false with
      | none => exact h2
      | some z => exact absurd ((key _ _).1 hg) (h1 _ _)

/-- **C69.**  A name written as it is that is an alias: from there over any number of aliases to a variable, whose value is read. -/
theorem C69_value_simple {name : Str} {env : Env} {s s' : St} {x : Res} {ps ps' : List Nat} {a b : Spec.Ask} {it it' : Item} {e : Bool} {p : Nat}
    (ho : Spec.ParentsOlder s.scopes) (hp : Spec.Path s.scopes env.q ps) (hn : ∀ p, ((s.scopes p).vars.map (·.name)).Nodup)
    (h0 : Spec.NearestName s ps name false a.q (.alias it e)) (ha : a.l = [it]) (he : a.equ = if e then ⟨true, name⟩ else {})
    (h : Spec.Follows s a b) (hp' : Spec.Path s.scopes b.q ps') (hl : ∀ i ∈ b.l, s.items i.ref = [])
    (hname : Spec.OrdinaryName (Spec.nameWritten b.l)) (hv : Spec.NearestName s ps' (Spec.nameWritten b.l) b.equ.equ p (.val it')) :
    Evals H (.item (.simp name []) env) s x s' ↔ x = { r := .ok () } ∧ s' = Spec.append env.ret it' s := by
  have key := fun x => C69_value (H := H) (s' := s') (env := env) (x := x) ho hn h hp' hl hname hv
  unfold Spec.Ask.call at key
  rw [ha, he] at key
  rw [C58_read_simple ho hp hn]
  constructor
  · rintro ⟨r, rfl, ⟨p', a', h1, h2⟩ | ⟨h1, -⟩⟩
    · have e1 := (C13_nearest_scope s.scopes s.mods env.q ps ho hp hn _ _ _ _).2 h0
      have e2 := (C13_nearest_scope s.scopes s.mods env.q ps ho hp hn _ _ _ _).2 h1
      rw [e1] at e2
      cases e2
      cases h2 with
      | «alias» h2 =>
        obtain ⟨h3, h4⟩ := (key _).1 h2
        exact ⟨by rw [h3], h4⟩
    · exact absurd h0 (h1 _ _)
  · rintro ⟨rfl, rfl⟩
    exact ⟨_, rfl, .inl ⟨_, _, h0, .alias ((key _).2 ⟨rfl, rfl⟩)⟩⟩

/-! ## Scripts -/

instance (name : Str) : Decidable (Spec.OrdinaryName name) := inferInstanceAs (Decidable (¬ _))

/-- What the ask refers to, if it is an alias. -/
def Spec.Ask.next (s : St) (a : Spec.Ask) : Option Spec.Ask :=
  if (∀ i ∈ a.l, s.items i.ref = []) ∧ Spec.OrdinaryName (Spec.nameWritten a.l) then
    match getName s.scopes s.mods a.q (Spec.nameWritten a.l) false a.equ.equ true false with
    | some (p, .alias it e) => some ⟨p, [it], if e then ⟨true, Spec.nameWritten a.l⟩ else {}⟩
    | _ => none
  else none

theorem next_refers {s : St} {a b : Spec.Ask} {ps : List Nat} (ho : Spec.ParentsOlder s.scopes)
    (hn : ∀ p, ((s.scopes p).vars.map (·.name)).Nodup) (hp : Spec.Path s.scopes a.q ps) (h : a.next s = some b) : Spec.Refers s a b := by
  unfold Spec.Ask.next at h
  split at h
  · rename_i h1
    split at h
    · rename_i p it e h2
      cases h
      exact ⟨h1.1, h1.2, ps, it, e, hp, (C13_nearest_scope s.scopes s.mods a.q ps ho hp hn _ _ _ _).1 h2, rfl, rfl⟩
    · cases h
  · cases h

/-- **C69.**  When a name that is read during a run leads into aliases without end, the run does not end. -/
theorem C69_run_endless {ovf : Bool} {argv : List Str} {l : List Item} {equ : EquName} {env : Env} {s : St}
    (h : Reached H ovf argv (.get l false equ env) s) (he : Spec.Endless s ⟨env.q, l, equ⟩) (r : Except Err _root_.Unit) (s' : St) :
    ¬ Spec.Ran H ovf argv r s' := by
  intro hr
  obtain ⟨x, t, hx⟩ := ran_calls hr h
  obtain ⟨ho, -, hn⟩ := C58_reached h
  exact C69_endless ho hn he env x t hx

/-- The reading of a name that leads into a circle of two aliases of its own scope. -/
def circleB (c : Call) (s : St) : Bool :=
  match c with
  | .get l false equ env =>
    match (Spec.Ask.mk env.q l equ).next s with
    | some b =>
      match b.next s with
      | some d => b.q == env.q && d.q == env.q && d.next s == some b
      | none => false
    | none => false
  | _ => false

theorem circleB_sound {ovf : Bool} {argv : List Str} {c : Call} {s : St} (h : Reached H ovf argv c s) (hb : circleB c s = true) :
    ∃ l equ env, c = .get l false equ env ∧ Spec.Endless s ⟨env.q, l, equ⟩ := by
  unfold circleB at hb
  split at hb
  · rename_i l equ env
    obtain ⟨ho, ⟨ps, hp⟩, hn⟩ := C58_reached h
    refine ⟨l, equ, env, rfl, ?_⟩
    split at hb
    · rename_i b h1
      split at hb
      · rename_i d h2
        simp only [Bool.and_eq_true, beq_iff_eq] at hb
        obtain ⟨⟨e1, e2⟩, h3⟩ := hb
        have r1 := next_refers ho hn hp h1
        have r2 := next_refers ho hn (by rw [e1]; exact hp) h2
        have r3 := next_refers ho hn (by rw [e2]; exact hp) h3
        obtain ⟨f, f0, hf⟩ := circle_endless (.step .refl r2) r3
        refine ⟨fun | 0 => ⟨env.q, l, equ⟩ | n + 1 => f n, rfl, fun n => ?_⟩
        cases n with
        | zero => show Spec.Refers s ⟨env.q, l, equ⟩ (f 0); rw [f0]; exact r1
        | succ n => exact hf n
      · cases hb
    · cases hb
  · cases hb

/-- Two names that are aliases of each other: the script never ends, and prints nothing. -/
theorem C69_circle_witness (r : Except Err _root_.Unit) (s' : St) :
    ¬ Spec.Ran H0 false (demoArgv c!"别名甲以乙。别名乙以甲。显示‘甲’。") r s' := by
  have h : demoB 12 circleB c!"别名甲以乙。别名乙以甲。显示‘甲’。" = true := by decide +kernel
  obtain ⟨c, s, h1, h2⟩ := demoB_sound h
  obtain ⟨l, equ, env, rfl, h3⟩ := circleB_sound h1 h2
  exact C69_run_endless h1 h3 r s'

/-- The reading of a name that leads over two aliases to a variable. -/
def chainB (c : Call) (s : St) : Bool :=
  match c with
  | .get l false equ env =>
    match (Spec.Ask.mk env.q l equ).next s with
    | some b =>
      match b.next s with
      | some d => b.q == env.q && d.q == env.q && d.equ == {} && Spec.nameWritten d.l == c!"丁" && (s.items (d.l.headD ⟨0, .s []⟩).ref).isEmpty &&
          ((s.scopes env.q).vars.any fun v => v.name == c!"丁" && !v.alias && v.val.val == .s c!"5")
      | none => false
    | none => false
  | _ => false

/-- An alias of an alias of an alias of a variable: what is printed is the value of the variable, also after it has changed. -/
theorem C69_chain_witness :
    demo 40 c!"赋予丁以5。别名甲以乙。别名乙以丙。别名丙以丁。显示‘甲’。赋予丁以6。显示‘甲’。" = (.ok (.ok ()), [.out c!"5", .out c!"6"]) ∧
      ∃ c s, Reached H0 false (demoArgv c!"赋予丁以5。别名甲以乙。别名乙以丙。别名丙以丁。显示‘甲’。赋予丁以6。显示‘甲’。") c s ∧ chainB c s = true := by
  refine ⟨by decide +kernel, demoB_sound (n := 20) ?_⟩
  decide +kernel

end Zh
