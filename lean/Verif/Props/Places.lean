import Verif.Props.ArgNames
import Verif.Props.Returns
import Verif.Props.Aliases
import Verif.Props.Calls
/-!
# C73: the annotations of a name choose the scope it is read in

`‘甲【顶】’`, `‘甲【上】’`, `‘甲【名】’`: what each annotation means, where a row of them leads, and that the name is then read in that scope
exactly as the name without annotations is read there.
-/
namespace Zh
open Spec

variable {H : Host}

/-! ## Specification -/

/-- What one annotation can mean. -/
inductive Spec.Meaning where
  /-- this scope -/
  | «at» (p : Nat)
  /-- the scope above the top -/
  | nowhere
  /-- the scope of the caller, where there is none -/
  | unknown
  /-- no scope: a word for the statement -/
  | word
deriving DecidableEq

/-- What the annotation means in scope `q`, where `inq` is the scope the code was called from: `顶` is the top scope, `上` the scope around,
`所` the calling scope, any other word the nearest scope with that name, first on the way to the top, then among the modules, then among the
data scopes. -/
inductive Spec.Means (s : St) (inq : Option Nat) (q : Nat) : Str → Spec.Meaning → Prop where
  | top : Spec.Means s inq q c!"顶" (.at 0)
  | up {p} : (s.scopes q).up = some p → Spec.Means s inq q c!"上" (.at p)
  | noUp : (s.scopes q).up = none → Spec.Means s inq q c!"上" .nowhere
  | caller {p} : inq = some p → Spec.Means s inq q c!"所" (.at p)
  | noCaller : inq = none → Spec.Means s inq q c!"所" .unknown
  | named {w p} : w ∉ [c!"顶", c!"上", c!"所"] → Spec.Nearest s q w p → Spec.Means s inq q w (.at p)
  | data {w p pre post} : w ∉ [c!"顶", c!"上", c!"所"] → (∀ p, ¬ Spec.Nearest s q w p) → s.datas = pre ++ p :: post →
      w ∈ (s.scopes p).name → (∀ x ∈ pre, w ∉ (s.scopes x).name) → Spec.Means s inq q w (.at p)
  | word {w} : w ∉ [c!"顶", c!"上", c!"所"] → (∀ p, ¬ Spec.Nearest s q w p) → (∀ x ∈ s.datas, w ∉ (s.scopes x).name) →
      Spec.Means s inq q w .word

/-- Where a row of annotations leads from scope `q`, each read in the scope the one before led to, and the words among them that name no
scope; `ok` are the words the statement knows. -/
inductive Spec.Leads (s : St) (inq : Option Nat) (ok : Str → Bool) : List Str → Nat → Except Err (Nat × List Str) → Prop where
  | nil {q} : Spec.Leads s inq ok [] q (.ok (q, []))
  | «at» {w ws q p z} : Spec.Means s inq q w (.at p) → Spec.Leads s inq ok ws p z → Spec.Leads s inq ok (w :: ws) q z
  | word {w ws q z} : Spec.Means s inq q w .word → ok w = true → Spec.Leads s inq ok ws q z →
      Spec.Leads s inq ok (w :: ws) q (z.map fun p => (p.1, w :: p.2))
  | bad {w ws q} : Spec.Means s inq q w .word → ok w = false →
      Spec.Leads s inq ok (w :: ws) q (.error (.msg (c!"注解“" ++ w ++ c!"”不支持")))
  | unknown {w ws q} : Spec.Means s inq q w .unknown →
      Spec.Leads s inq ok (w :: ws) q (.error (.msg (c!"注解“" ++ w ++ c!"”不支持")))
  | noUp {w ws q} : Spec.Means s inq q w .nowhere → Spec.Leads s inq ok (w :: ws) q (.error (.msg c!"无上"))

/-- A name written in the script with annotations; the same without; the name itself. -/
inductive Spec.NameItem : Code → List Str → Code → Str → Prop where
  | simp {n rs} : Spec.NameItem (.simp n rs) rs (.simp n []) n
  | args {rs b e line} : Spec.NameItem (.args rs b e line) rs (.args [] b e line) (argsName b e line)
  | argc {rs} : Spec.NameItem (.argc rs) rs (.argc []) c!"参数数目"
  | argi {rs i} : Spec.NameItem (.argi rs i) rs (.argi [] i) (c!"参数" ++ intStr i)
  | arg0 {rs z} : Spec.NameItem (.arg0 rs z) rs (.arg0 [] z) (c!"参数" ++ z)

/-- With `与名` among the words the name itself is put before its value, as a comment. -/
def Spec.named (ret : Nat) (name : Str) (ws : List Str) (s : St) : St :=
  if c!"与名" ∈ ws then s.push ret (.s (c!"（" ++ name ++ c!"）")) else s

/-! ## Proofs -/

variable {R : Call → St → Res → St → Prop}

theorem errNoRem2_eq (w : Str) : errNoRem2 w = .msg (c!"注解“" ++ w ++ c!"”不支持") := by
  have h1 : kwStr .beginText = c!"“" := by decide
  have h2 : kwStr .endText = c!"”" := by decide
  simp [errNoRem2, h1, h2]

/-- What the evaluator finds for one annotation. -/
def meaningOf (w : Str) : Spec.Meaning → Except Err Rem4
  | .at p => .ok (.scope (some p))
  | .nowhere => .error (.msg c!"无上")
  | .unknown => .error (errNoRem2 w)
  | .word => .ok .other

theorem find_data (s : St) (w : Str) (l : List Nat) (p : Nat) :
    l.find? (fun p => (s.scopes p).name.contains w) = some p ↔
      ∃ pre post, l = pre ++ p :: post ∧ w ∈ (s.scopes p).name ∧ ∀ x ∈ pre, w ∉ (s.scopes x).name := by
  rw [List.find?_eq_some_iff_append]
  constructor
  · rintro ⟨h1, pre, post, h2, h3⟩
    exact ⟨pre, post, h2, by simpa using h1, fun x hx => by simpa using h3 x hx⟩
  · rintro ⟨pre, post, h2, h1, h3⟩
    exact ⟨by simpa using h1, pre, post, h2, fun x hx => by simpa using h3 x hx⟩

/-- Each annotation has exactly one meaning, the one the evaluator finds. -/
theorem means_iff {s : St} (ho : Spec.ParentsOlder s.scopes) (inq : Option Nat) (q : Nat) (w : Str) :
    ∃ m, rem4Z s w false inq q = meaningOf w m ∧ ∀ m', Spec.Means s inq q w m' ↔ m' = m := by
  have d1 : c!"上" ≠ c!"顶" := by decide
  have d2 : c!"所" ≠ c!"顶" := by decide
  have d3 : c!"所" ≠ c!"上" := by decide
  by_cases h1 : w = c!"顶"
  · subst h1
    refine ⟨.at 0, by simp [rem4Z, TOP, meaningOf], fun m' => ⟨fun h => ?_, fun h => h ▸ .top⟩⟩
    cases h with
    | top => rfl
    | named h | data h | word h => exact absurd (by simp) h
  by_cases h2 : w = c!"上"
  · subst h2
    cases hu : (s.scopes q).up with
    | some p =>
      refine ⟨.at p, by simp [rem4Z, TOP, UP, meaningOf, hu], fun m' => ⟨fun h => ?_, fun h => h ▸ .up hu⟩⟩
      cases h with
      | up h => rw [hu] at h; cases h; rfl
      | noUp h => rw [hu] at h; cases h
      | named h | data h | word h => exact absurd (by simp) h
    | none =>
      refine ⟨.nowhere, by simp [rem4Z, TOP, UP, meaningOf, hu], fun m' => ⟨fun h => ?_, fun h => h ▸ .noUp hu⟩⟩
      cases h with
      | up h => rw [hu] at h; cases h
      | noUp h => rfl
      | named h | data h | word h => exact absurd (by simp) h
  by_cases h3 : w = c!"所"
  · subst h3
    cases inq with
    | some p =>
      refine ⟨.at p, by simp [rem4Z, TOP, UP, IN_, meaningOf], fun m' => ⟨fun h => ?_, fun h => h ▸ .caller rfl⟩⟩
      cases h with
      | caller h => cases h; rfl
      | noCaller h => cases h
      | named h | data h | word h => exact absurd (by simp) h
    | none =>
      refine ⟨.unknown, by simp [rem4Z, TOP, UP, IN_, meaningOf], fun m' => ⟨fun h => ?_, fun h => h ▸ .noCaller rfl⟩⟩
      cases h with
      | caller h => cases h
      | noCaller h => rfl
      | named h | data h | word h => exact absurd (by simp) h
  have hw : w ∉ [c!"顶", c!"上", c!"所"] := by simp [h1, h2, h3]
  have hz : rem4Z s w false inq q = match namedScope s.scopes s.mods q w with
      | some p => .ok (.scope (some p))
      | none => match s.datas.find? fun p => (s.scopes p).name.contains w with
        | some p => .ok (.scope (some p))
        | none => .ok .other := by
    unfold rem4Z
    rw [if_neg (show ¬ w = TOP from h1), if_neg (show ¬ w = UP from h2), if_neg (show ¬ w = IN_ from h3)]
    rfl
  have hN := fun p => namedScope_iff (t := s) ho q w p
  cases hn : namedScope s.scopes s.mods q w with
  | some p =>
    refine ⟨.at p, by rw [hz, hn]; rfl, fun m' => ⟨fun h => ?_, fun h => h ▸ .named hw ((hN p).1 hn)⟩⟩
    cases h with
    | named _ h => rw [← hN, hn] at h; cases h; rfl
    | data _ h => exact absurd ((hN p).1 hn) (h p)
    | word _ h => exact absurd ((hN p).1 hn) (h p)
    | top => exact absurd rfl h1
    | up | noUp => exact absurd rfl h2
    | caller | noCaller => exact absurd rfl h3
  | none =>
    have hno : ∀ p, ¬ Spec.Nearest s q w p := fun p h => by rw [← hN, hn] at h; cases h
    cases hd : s.datas.find? fun p => (s.scopes p).name.contains w with
    | some p =>
      obtain ⟨pre, post, e1, e2, e3⟩ := (find_data s w s.datas p).1 hd
      refine ⟨.at p, by rw [hz, hn]; dsimp only; rw [hd]; rfl, fun m' => ⟨fun h => ?_, fun h => h ▸ .data hw hno e1 e2 e3⟩⟩
      cases h with
      | named _ h => exact absurd h (hno _)
      | data _ _ f1 f2 f3 =>
        have := (find_data s w s.datas _).2 ⟨_, _, f1, f2, f3⟩
        rw [hd] at this; cases this; rfl
      | word _ _ h => exact absurd e2 (h p (by rw [e1]; simp))
      | top => exact absurd rfl h1
      | up | noUp => exact absurd rfl h2
      | caller | noCaller => exact absurd rfl h3
    | none =>
      have hall : ∀ x ∈ s.datas, w ∉ (s.scopes x).name := by
        intro x hx
        have := List.find?_eq_none.1 hd x hx
        simpa using this
      refine ⟨.word, by rw [hz, hn]; dsimp only; rw [hd]; rfl, fun m' => ⟨fun h => ?_, fun h => h ▸ .word hw hno hall⟩⟩
      cases h with
      | named _ h => exact absurd h (hno _)
      | data _ _ f1 f2 f3 => exact absurd f2 (hall _ (by rw [f1]; simp))
      | word => rfl
      | top => exact absurd rfl h1
      | up | noUp => exact absurd rfl h2
      | caller | noCaller => exact absurd rfl h3

/-- Asking whether a name exists differs only above the top. -/
theorem means_has {s : St} (inq : Option Nat) (q : Nat) (w : Str) :
    rem4Z s w true inq q = rem4Z s w false inq q ∨
      (rem4Z s w true inq q = .ok (.scope none) ∧ rem4Z s w false inq q = .error (.msg c!"无上")) := by
  unfold rem4Z
  by_cases h1 : w = TOP
  · simp only [if_pos h1, true_or]
  rw [if_neg h1, if_neg h1]
  by_cases h2 : w = UP
  · rw [if_pos h2, if_pos h2]
    cases (s.scopes q).up with
    | some p => exact .inl rfl
    | none => exact .inr ⟨rfl, rfl⟩
  · rw [if_neg h2, if_neg h2]
    exact .inl rfl

/-- What the evaluator makes of a row of annotations. -/
theorem leads_iff {s : St} (ho : Spec.ParentsOlder s.scopes) (inq : Option Nat) (ok : Str → Bool) (rs : List Str) (q : Nat) :
    ∃ z, (∀ {σ : Type} (f : σ → Str → σ) (x : σ),
        rem4 s false inq (fun x w => if ok w then some (f x w) else none) rs (some q) x =
          .ok (z.map fun p => (some p.1, p.2.foldl f x)) ∧
        ∀ y, z = .ok y → rem4 s true inq (fun x w => if ok w then some (f x w) else none) rs (some q) x =
          .ok (.ok (some y.1, y.2.foldl f x))) ∧
      ∀ z', Spec.Leads s inq ok rs q z' ↔ z' = z := by
  induction rs generalizing q with
  | nil =>
    refine ⟨.ok (q, []), fun f x => ⟨rfl, fun y hy => by cases hy; rfl⟩, fun z' => ⟨fun h => by cases h; rfl, fun h => h ▸ .nil⟩⟩
  | cons w rs ih =>
    obtain ⟨m, hm, hm'⟩ := means_iff ho inq q w
    have hM : Spec.Means s inq q w m := (hm' m).2 rfl
    cases m with
    | «at» p =>
      obtain ⟨z, h1, h2⟩ := ih p
      have ht : rem4Z s w true inq q = .ok (.scope (some p)) := by
        rcases means_has (s := s) inq q w with h | ⟨-, h⟩
        · rw [h, hm]; rfl
        · rw [hm] at h; cases h
      refine ⟨z, fun f x => ⟨?_, fun y hy => ?_⟩, fun z' => ⟨fun h => ?_, fun h => .at hM ((h2 z').2 h)⟩⟩
      · simp only [rem4, hm, meaningOf]
        exact (h1 f x).1
      · simp only [rem4, ht]
        exact (h1 f x).2 y hy
      · cases h with
        | «at» h h' => cases (hm' _).1 h; exact (h2 z').1 h'
        | word h | bad h | unknown h | noUp h => cases (hm' _).1 h
    | nowhere =>
      refine ⟨.error (.msg c!"无上"), fun f x => ⟨?_, nofun⟩, fun z' => ⟨fun h => ?_, fun h => h ▸ .noUp hM⟩⟩
      · simp only [rem4, hm, meaningOf]; rfl
      · cases h with
        | noUp => rfl
        | «at» h | word h | bad h | unknown h => cases (hm' _).1 h
    | unknown =>
      refine ⟨.error (errNoRem2 w), fun f x => ⟨?_, nofun⟩, fun z' => ⟨fun h => ?_, fun h => h ▸ errNoRem2_eq w ▸ .unknown hM⟩⟩
      · simp only [rem4, hm, meaningOf]; rfl
      · cases h with
        | unknown => rw [errNoRem2_eq]
        | «at» h | word h | bad h | noUp h => cases (hm' _).1 h
    | word =>
      cases hk : ok w with
      | false =>
        refine ⟨.error (errNoRem2 w), fun f x => ⟨?_, nofun⟩, fun z' => ⟨fun h => ?_, fun h => h ▸ errNoRem2_eq w ▸ .bad hM hk⟩⟩
        · simp only [rem4, hm, meaningOf, hk]; rfl
        · cases h with
          | bad => rw [errNoRem2_eq]
          | word _ h => rw [hk] at h; cases h
          | «at» h | unknown h | noUp h => cases (hm' _).1 h
      | true =>
        obtain ⟨z, h1, h2⟩ := ih q
        have ht : rem4Z s w true inq q = .ok .other := by
          rcases means_has (s := s) inq q w with h | ⟨-, h⟩
          · rw [h, hm]; rfl
          · rw [hm] at h; cases h
        refine ⟨z.map fun p => (p.1, w :: p.2), fun f x => ⟨?_, fun y hy => ?_⟩, fun z' => ⟨fun h => ?_, fun h => ?_⟩⟩
        · simp only [rem4, hm, meaningOf, hk, if_true]
          rw [(h1 f (f x w)).1]
          cases z <;> rfl
        · simp only [rem4, ht, hk, if_true]
          cases z with
          | error e => cases hy
          | ok y' =>
            cases hy
            rw [(h1 f (f x w)).2 y' rfl]
            rfl
        · cases h with
          | word _ _ h => rw [(h2 _).1 h]
          | bad _ h => rw [hk] at h; cases h
          | «at» h | unknown h | noUp h => cases (hm' _).1 h
        · subst h
          exact .word hM hk ((h2 z).2 rfl)

theorem fold_named (ws : List Str) (b : Bool) (h : ∀ w ∈ ws, w = WITH_NAME) : ws.foldl (fun (_ : Bool) _ => true) b = (b || !ws.isEmpty) := by
  induction ws generalizing b with
  | nil => simp
  | cons w ws ih => rw [List.foldl_cons, ih _ fun x hx => h x (by simp [hx])]; simp

theorem leads_words {s : St} {inq : Option Nat} {ok : Str → Bool} {rs : List Str} {q p : Nat} {ws : List Str}
    (h : Spec.Leads s inq ok rs q (.ok (p, ws))) : ∀ w ∈ ws, ok w = true := by
  generalize hz : Except.ok (p, ws) = z at h
  induction h generalizing ws with
  | nil => cases hz; nofun
  | «at» _ _ ih => exact ih hz
  | @word w ws' q z _ hk _ ih =>
    cases z with
    | error e => cases hz
    | ok y =>
      cases hz
      intro w' hw'
      rcases List.mem_cons.1 hw' with rfl | hw'
      · exact hk
      · exact ih rfl w' hw'
  | bad | unknown | noUp => cases hz

theorem rem1_eq (name : Str) : rem1 name = c!"（" ++ name ++ c!"）" := by
  have h1 : kwStr .beginRem = c!"（" := by decide
  have h2 : kwStr .endRem = c!"）" := by decide
  simp [rem1, h1, h2]

theorem evE_var1 {rems : List Str} {name : Str} {env : Env} {s s' : St} {r : Except Err Nat} (ho : Spec.ParentsOlder s.scopes) :
    EvE H R (var1P rems name env) s r s' ↔
      (∃ e, Spec.Leads s env.inq (fun w => w == c!"与名") rems env.q (.error e) ∧ r = .error e ∧ s' = s) ∨
        ∃ p ws, Spec.Leads s env.inq (fun w => w == c!"与名") rems env.q (.ok (p, ws)) ∧ r = .ok p ∧ s' = Spec.named env.ret name ws s := by
  obtain ⟨z, h1, h2⟩ := leads_iff ho env.inq (fun w => w == c!"与名") rems env.q
  have hr : rem4 s false env.inq (fun (_ : Bool) r => if r = WITH_NAME then some true else none) rems (some env.q) false =
      .ok (z.map fun p => (some p.1, p.2.foldl (fun _ _ => true) false)) := by
    rw [← (h1 (fun _ _ => true) false).1]
    congr 1
    funext x w
    show (if w = c!"与名" then _ else _) = if (w == c!"与名") = true then some true else none
    simp only [beq_iff_eq]
  unfold var1P
  rw [evE_getSt_bind, hr]
  simp only [h2]
  cases z with
  | error e =>
    constructor
    · intro h
      rcases evE_ofOut_bind.1 h with ⟨a, e', h⟩ | ⟨e', h, h3, h4⟩
      · cases e'
      · cases h
        exact .inl ⟨e, rfl, h3, h4⟩
    · rintro (⟨e', h, rfl, rfl⟩ | ⟨p, ws, h, -⟩)
      · cases h
        exact evE_ofOut_bind.2 (.inr ⟨_, rfl, rfl, rfl⟩)
      · cases h
  | ok y =>
    obtain ⟨p, ws⟩ := y
    have hws : ∀ w ∈ ws, w = WITH_NAME := fun w hw => by
      have := leads_words ((h2 _).2 rfl) w hw
      exact eq_of_beq this
    have key : EvE H R (do
          if (ws.foldl (fun (_ : Bool) _ => true) false) = true then addT env.ret (rem1 name)
          match some p with
          | some q => return q
          | none => (Prog.panic : Prog Nat) : E Nat) s r s' ↔ r = .ok p ∧ s' = Spec.named env.ret name ws s := by
      rw [fold_named ws false hws]
      have hn := rem1_eq name
      cases ws with
      | nil => exact evE_pure
      | cons w ws =>
        have hw : c!"与名" ∈ w :: ws := by rw [hws w (by simp)]; exact List.mem_cons_self ..
        simp only [Spec.named, if_pos hw, List.isEmpty_cons, Bool.not_false, Bool.or_true, if_true]
        rw [← hn, evE_lift_bind]
        simp only [ev_addT]
        constructor
        · rintro ⟨a, s1, rfl, h⟩
          exact evE_pure.1 h
        · rintro ⟨rfl, rfl⟩
          exact ⟨(), _, rfl, evE_pure.2 ⟨rfl, rfl⟩⟩
    constructor
    · intro h
      rcases evE_ofOut_bind.1 h with ⟨a, e', h⟩ | ⟨e', h, -⟩
      · cases e'
        exact .inr ⟨p, ws, rfl, key.1 h⟩
      · cases h
    · rintro (⟨e', h, -⟩ | ⟨p', ws', h, h3⟩)
      · cases h
      · cases h
        exact evE_ofOut_bind.2 (.inl ⟨_, rfl, key.2 h3⟩)

/-- **C73.**  A name written in the script with annotations is read in the scope the annotations lead to, exactly as the name without
annotations is read there, after the name itself if `与名` is among them.  If the annotations lead nowhere or one of them is no scope and
not `与名`, the reading fails with an error that names the annotation, and changes nothing. -/
theorem C73_written {c plain : Code} {rs : List Str} {name : Str} (hc : Spec.NameItem c rs plain name) {env : Env} {s s' : St} {x : Res}
    (ho : Spec.ParentsOlder s.scopes) :
    Evals H (.item c env) s x s' ↔
      (∃ e, Spec.Leads s env.inq (fun w => w == c!"与名") rs env.q (.error e) ∧ x = { r := .error e } ∧ s' = s) ∨
      ∃ p ws, Spec.Leads s env.inq (fun w => w == c!"与名") rs env.q (.ok (p, ws)) ∧
        Evals H (.item plain { env with q := p }) (Spec.named env.ret name ws s) x s' := by
  have key : ∀ (m : Nat → E _root_.Unit), itemP c env = (var1P rs name env >>= m) →
      (∀ p, itemP plain { env with q := p } = (var1P [] name { env with q := p } >>= m)) →
      (Evals H (.item c env) s x s' ↔
      (∃ e, Spec.Leads s env.inq (fun w => w == c!"与名") rs env.q (.error e) ∧ x = { r := .error e } ∧ s' = s) ∨
      ∃ p ws, Spec.Leads s env.inq (fun w => w == c!"与名") rs env.q (.ok (p, ws)) ∧
        Evals H (.item plain { env with q := p }) (Spec.named env.ret name ws s) x s') := by
    intro m h1 h2
    have hp : ∀ p t, Evals H (.item plain { env with q := p }) t x s' ↔ ∃ r, x = { r := r } ∧ EvE H (Evals H) (m p) t r s' := by
      intro p t
      rw [evals_item, h2]
      constructor
      · rintro ⟨r, h, rfl⟩
        refine ⟨r, rfl, ?_⟩
        rcases evE_bind.1 h with ⟨q, t1, h3, h4⟩ | ⟨e, h3, -⟩
        · obtain ⟨h5, rfl⟩ := evE_var1_nil.1 h3
          cases h5
          exact h4
        · cases (evE_var1_nil.1 h3).1
      · rintro ⟨r, rfl, h⟩
        exact ⟨r, evE_bind.2 (.inl ⟨p, t, evE_var1_nil.2 ⟨rfl, rfl⟩, h⟩), rfl⟩
    simp only [hp]
    rw [evals_item, h1]
    simp only [evE_bind, evE_var1 ho]
    constructor
    · rintro ⟨r, ⟨q, s1, (⟨e, h, h', -⟩ | ⟨p, ws, h, h', rfl⟩), h3⟩ | ⟨e, (⟨e', h, h', rfl⟩ | ⟨p, ws, h, h', -⟩), rfl⟩, rfl⟩
      · cases h'
      · cases h'
        exact .inr ⟨_, ws, h, r, rfl, h3⟩
      · cases h'
        exact .inl ⟨_, h, rfl, rfl⟩
      · cases h'
    · rintro (⟨e, h, rfl, rfl⟩ | ⟨p, ws, h, r, rfl, h3⟩)
      · exact ⟨_, .inr ⟨e, .inl ⟨e, h, rfl, rfl⟩, rfl⟩, rfl⟩
      · exact ⟨r, .inl ⟨p, _, .inr ⟨p, ws, h, rfl, rfl⟩, h3⟩, rfl⟩
  cases hc with
  | simp => exact key _ rfl fun _ => rfl
  | args => exact key (fun q => argsP false q _ _ _ env.ret) rfl fun _ => rfl
  | argc => exact key (fun q => argcP false q env.ret) rfl fun _ => rfl
  | argi => exact key (fun q => argiP _ false false [] q env.ret) rfl fun _ => rfl
  | arg0 => exact key (fun q => arg0P _ false q env.ret) rfl fun _ => rfl

/-! ## Names computed while the script runs -/

/-- The words that say something about the arguments: those that are not `与名`. -/
def Spec.spareWords (ws : List Str) : List Str := ws.filter fun w => !(w == c!"与名")

theorem fold_words (ws : List Str) (x : List Str × Bool) :
    ws.foldl (fun (x : List Str × Bool) r => if r = WITH_NAME then (x.1, true) else (x.1 ++ [r], x.2)) x =
      (x.1 ++ Spec.spareWords ws, x.2 || decide (c!"与名" ∈ ws)) := by
  induction ws generalizing x with
  | nil => simp [Spec.spareWords]
  | cons w ws ih =>
    rw [List.foldl_cons, ih]
    by_cases h : w = WITH_NAME
    · subst h
      have : c!"与名" ∈ WITH_NAME :: ws := List.mem_cons_self ..
      have e : Spec.spareWords (WITH_NAME :: ws) = Spec.spareWords ws := by simp [Spec.spareWords, WITH_NAME]
      simp [e, this]
    · have hm : (c!"与名" ∈ w :: ws) ↔ c!"与名" ∈ ws := by
        rw [List.mem_cons]
        exact ⟨fun h' => h'.resolve_left fun e => h e.symm, .inr⟩
      have h0 : (w == c!"与名") = false := beq_eq_false_iff_ne.2 h
      have e : Spec.spareWords (w :: ws) = w :: Spec.spareWords ws := by simp [Spec.spareWords, h0]
      simp only [if_neg h, e, hm, List.append_assoc, List.singleton_append]

/-- The row of annotations of all items of the name is followed from item to item. -/
theorem leads_append {s : St} (ho : Spec.ParentsOlder s.scopes) {inq : Option Nat} {ok : Str → Bool} {a b : List Str} {q : Nat}
    {z : Except Err (Nat × List Str)} :
    Spec.Leads s inq ok (a ++ b) q z ↔
      (∃ e, Spec.Leads s inq ok a q (.error e) ∧ z = .error e) ∨
        ∃ p ws z', Spec.Leads s inq ok a q (.ok (p, ws)) ∧ Spec.Leads s inq ok b p z' ∧ z = z'.map fun y => (y.1, ws ++ y.2) := by
  obtain ⟨za, -, ha⟩ := leads_iff ho inq ok a q
  obtain ⟨zab, -, hab⟩ := leads_iff ho inq ok (a ++ b) q
  rw [hab]
  simp only [ha]
  have key : ∀ a q z, Spec.Leads s inq ok a q z → (∀ e, z = .error e → Spec.Leads s inq ok (a ++ b) q (.error e)) ∧
      ∀ p ws z', z = .ok (p, ws) → Spec.Leads s inq ok b p z' → Spec.Leads s inq ok (a ++ b) q (z'.map fun y => (y.1, ws ++ y.2)) := by
    intro a q z h
    induction h with
    | nil =>
      refine ⟨nofun, fun p ws z' e h => ?_⟩
      cases e
      cases z' <;> exact h
    | «at» hm _ ih => exact ⟨fun e he => .at hm (ih.1 e he), fun p ws z' e h => .at hm (ih.2 p ws z' e h)⟩
    | @word w ws' q z hm hk _ ih =>
      cases z with
      | error e' =>
        refine ⟨fun e he => ?_, fun p ws z' e h => by cases e⟩
        cases he
        exact .word hm hk (ih.1 e' rfl)
      | ok y =>
        refine ⟨nofun, fun p ws z' e h => ?_⟩
        cases e
        have := Spec.Leads.word hm hk (ih.2 _ _ z' rfl h)
        cases z' <;> exact this
    | bad hm hk => exact ⟨fun e he => by cases he; exact .bad hm hk, nofun⟩
    | unknown hm => exact ⟨fun e he => by cases he; exact .unknown hm, nofun⟩
    | noUp hm => exact ⟨fun e he => by cases he; exact .noUp hm, nofun⟩
  have hk := key a q za ((ha za).2 rfl)
  constructor
  · rintro rfl
    cases za with
    | error e => exact .inl ⟨e, rfl, ((hab _).1 (hk.1 e rfl)).symm⟩
    | ok y =>
      obtain ⟨zb, -, hb⟩ := leads_iff ho inq ok b y.1
      exact .inr ⟨y.1, y.2, zb, rfl, (hb zb).2 rfl, ((hab _).1 (hk.2 y.1 y.2 zb rfl ((hb zb).2 rfl))).symm⟩
  · rintro (⟨e, h, rfl⟩ | ⟨p, ws, z', h, h', rfl⟩)
    · exact (hab _).1 (hk.1 e h.symm)
    · exact (hab _).1 (hk.2 p ws z' h.symm h')

theorem nameScan_leads {s : St} (ho : Spec.ParentsOlder s.scopes) (isHas : Bool) (inq : Option Nat) (l : List Item) (n : Str) (rems : List Str)
    (b : Bool) (q p : Nat) (ws : List Str)
    (h : Spec.Leads s inq (fun _ => true) (l.flatMap fun i => s.items i.ref) q (.ok (p, ws))) :
    nameScan s isHas inq l n rems b q =
      .ok (.ok (some (n ++ Spec.nameWritten l, rems ++ Spec.spareWords ws, b || decide (c!"与名" ∈ ws), p))) := by
  induction l generalizing n rems b q ws with
  | nil =>
    cases h
    simp [nameScan, Spec.nameWritten, Spec.spareWords]
  | cons i is ih =>
    rw [List.flatMap_cons] at h
    rcases (leads_append ho).1 h with ⟨e, -, h⟩ | ⟨p', ws', z', h1, h2, h3⟩
    · cases h
    cases z' with
    | error e => cases h3
    | ok y =>
      obtain ⟨p'', ws''⟩ := y
      cases h3
      obtain ⟨z, hz, hz'⟩ := leads_iff ho inq (fun _ => true) (s.items i.ref) q
      have hzz := (hz' _).1 h1
      subst hzz
      have hr : rem4 s isHas inq (fun (x : List Str × Bool) r => some (if r = WITH_NAME then (x.1, true) else (x.1 ++ [r], x.2)))
          (s.items i.ref) (some q) (rems, b) = .ok (.ok (some p', (rems ++ Spec.spareWords ws', b || decide (c!"与名" ∈ ws')))) := by
        have h0 := hz (fun (x : List Str × Bool) r => if r = WITH_NAME then (x.1, true) else (x.1 ++ [r], x.2)) (rems, b)
        simp only [fold_words, if_true] at h0
        cases isHas with
        | false => exact h0.1
        | true => exact h0.2 _ rfl
      rw [nameScan, hr]
      dsimp only
      rw [ih _ _ _ _ _ h2]
      have e1 : Spec.nameWritten (i :: is) = i.val.plain ++ Spec.nameWritten is := by simp [Spec.nameWritten]
      have e2 : Spec.spareWords (ws' ++ ws'') = Spec.spareWords ws' ++ Spec.spareWords ws'' := by simp [Spec.spareWords]
      have e3 : decide (c!"与名" ∈ ws' ++ ws'') = (decide (c!"与名" ∈ ws') || decide (c!"与名" ∈ ws'')) := by
        simp [List.mem_append, Bool.decide_or]
      rw [e1, e2, e3, List.append_assoc, List.append_assoc, Bool.or_assoc]

/-- What a computed name does once its annotations are known. -/
def get3P (name : Str) (rems : List Str) (isHas : Bool) (equ : EquName) (q2 : Nat) (env : Env) : E _root_.Unit := do
  if !rems.isEmpty && !argsWith2 name rems then
    if isHas then return () else fail (errNoRem2 (rems.getLast?.getD []))
  else if ← getAliasP name isHas equ false q2 env then return ()
  else if name.isEmpty then
    if ← getAliasP name isHas equ true q2 env then return ()
    else if isHas then return ()
    else fail (errNoVar name)
  else getArgs name rems isHas equ q2 env

theorem get_scan {l : List Item} {isHas : Bool} {equ : EquName} {env : Env} {s s' : St} {x : Res} {p : Nat} {ws : List Str}
    (ho : Spec.ParentsOlder s.scopes)
    (h : Spec.Leads s env.inq (fun _ => true) (l.flatMap fun i => s.items i.ref) env.q (.ok (p, ws))) :
    Evals H (.get l isHas equ env) s x s' ↔ ∃ r, x = { r := r } ∧
      EvE H (Evals H) (get3P (Spec.nameWritten l) (Spec.spareWords ws) isHas equ p env) (Spec.named env.ret (Spec.nameWritten l) ws s) r s' := by
  rw [evals_iff]
  change Ev H (Evals H) (resE (get2P l isHas equ env)) s x s' ↔ _
  rw [evE_callE']
  refine exists_congr fun r => and_congr_right fun _ => ?_
  have hs := nameScan_leads ho isHas env.inq l [] [] false env.q p ws h
  unfold get2P
  rw [evE_getSt_bind, hs]
  have key : EvE H (Evals H) (do
      if decide (c!"与名" ∈ ws) = true then addT env.ret (rem1 (Spec.nameWritten l))
      get3P (Spec.nameWritten l) (Spec.spareWords ws) isHas equ p env : E _root_.Unit) s r s' ↔
      EvE H (Evals H) (get3P (Spec.nameWritten l) (Spec.spareWords ws) isHas equ p env) (Spec.named env.ret (Spec.nameWritten l) ws s) r s' := by
    unfold Spec.named
    by_cases hw : c!"与名" ∈ ws
    · simp only [hw, decide_true, if_true]
      rw [evE_lift_bind, rem1_eq]
      simp only [ev_addT]
      constructor
      · rintro ⟨a, s1, rfl, h⟩; exact h
      · intro h; exact ⟨(), _, rfl, h⟩
    · simp only [hw, decide_false, Bool.false_eq_true, if_false]
  rw [← key]
  constructor
  · intro h
    rcases evE_ofOut_bind.1 h with ⟨a, e', h⟩ | ⟨e', h, -⟩
    · cases e'
      exact h
    · cases h
  · intro h
    exact evE_ofOut_bind.2 (.inl ⟨_, rfl, h⟩)

/-- **C73.**  The same for a name computed while the script runs, and for the question whether it exists: with annotations that lead to the
scope `p` it is read there as any item `l'` without annotations that gives the same name. -/
theorem C73_computed {l l' : List Item} {isHas : Bool} {equ : EquName} {env : Env} {s s' : St} {x : Res} {p : Nat} {ws : List Str}
    (ho : Spec.ParentsOlder s.scopes)
    (h : Spec.Leads s env.inq (fun _ => true) (l.flatMap fun i => s.items i.ref) env.q (.ok (p, ws))) (hws : ∀ w ∈ ws, w = c!"与名")
    (hl : ∀ i ∈ l', s.items i.ref = []) (hn : Spec.nameWritten l' = Spec.nameWritten l) :
    Evals H (.get l isHas equ env) s x s' ↔
      Evals H (.get l' isHas equ { env with q := p }) (Spec.named env.ret (Spec.nameWritten l) ws s) x s' := by
  have ho' : Spec.ParentsOlder (Spec.named env.ret (Spec.nameWritten l) ws s).scopes := by
    unfold Spec.named
    split
    · exact ho
    · exact ho
  have h' : (l'.flatMap fun i => (Spec.named env.ret (Spec.nameWritten l) ws s).items i.ref) = [] := by
    rw [List.flatMap_eq_nil_iff]
    intro i hi
    unfold Spec.named
    split
    · simp only [St.push, upd]
      split
      · rfl
      · exact hl i hi
    · exact hl i hi
  have ho2 : Spec.spareWords ws = [] := by
    unfold Spec.spareWords
    rw [List.filter_eq_nil_iff]
    intro w hw
    simp [hws w hw]
  rw [get_scan ho h, get_scan ho' (p := p) (ws := []) (by rw [h']; exact .nil), hn, ho2]
  rfl

/-- **C73.**  An annotation that names no scope is an error for a computed name too, unless it is `与名` or numbers the arguments; the error
names the last such annotation.  The question whether the name exists is answered by nothing. -/
theorem C73_computed_word {l : List Item} {isHas : Bool} {equ : EquName} {env : Env} {s s' : St} {x : Res} {p : Nat} {ws : List Str} {w : Str}
    (ho : Spec.ParentsOlder s.scopes)
    (h : Spec.Leads s env.inq (fun _ => true) (l.flatMap fun i => s.items i.ref) env.q (.ok (p, ws)))
    (hw : (Spec.spareWords ws).getLast? = some w)
    (hn : Spec.nameWritten l ∉ [c!"参数", c!"参数栈"] ∨ (∃ o ∈ Spec.spareWords ws, ∀ i : Int, -2 ^ 31 ≤ i → i < 2 ^ 31 → ¬ Spec.Denotes o i) ∨
      2 < (Spec.spareWords ws).length) :
    Evals H (.get l isHas equ env) s x s' ↔
      x = { r := if isHas then .ok () else .error (.msg (c!"注解“" ++ w ++ c!"”不支持")) } ∧
        s' = Spec.named env.ret (Spec.nameWritten l) ws s := by
  rw [get_scan ho h]
  have hne : (Spec.spareWords ws).isEmpty = false := by
    cases hq : Spec.spareWords ws with
    | nil => rw [hq] at hw; cases hw
    | cons a as => rfl
  have hA : argsWith2 (Spec.nameWritten l) (Spec.spareWords ws) = false := by
    unfold argsWith2
    rcases hn with hn | ⟨o, ho, hn⟩ | hn
    · simp only [List.mem_cons, List.not_mem_nil, or_false, not_or] at hn
      have h1 : (Spec.nameWritten l == ARGS) = false := beq_eq_false_iff_ne.2 hn.2
      have h2 : (Spec.nameWritten l == ARG) = false := beq_eq_false_iff_ne.2 hn.1
      rw [h1, h2]
      rfl
    · have : (Spec.spareWords ws).all (fun r => (parseI32 r).isSome) = false := by
        rw [List.all_eq_false]
        refine ⟨o, ho, ?_⟩
        cases hp : parseI32 o with
        | none => simp
        | some i =>
          obtain ⟨a, b, c⟩ := (C56_read_i32 o i).1 hp
          exact absurd c (hn i a b)
      rw [this]
      simp
    · have : decide ((Spec.spareWords ws).length ≤ 2) = false := by simpa using hn
      rw [this]
      simp
  unfold get3P
  rw [hne, hA, hw]
  simp only [Bool.not_false, Bool.true_and, if_true, Option.getD_some, errNoRem2_eq]
  cases isHas with
  | true =>
    simp only [if_true]
    constructor
    · rintro ⟨r, rfl, h⟩
      obtain ⟨rfl, rfl⟩ := evE_pure.1 h
      exact ⟨rfl, rfl⟩
    · rintro ⟨rfl, rfl⟩
      exact ⟨_, rfl, evE_pure.2 ⟨rfl, rfl⟩⟩
  | false =>
    simp only [Bool.false_eq_true, if_false]
    constructor
    · rintro ⟨r, rfl, h⟩
      obtain ⟨rfl, rfl⟩ := evE_fail.1 h
      exact ⟨rfl, rfl⟩
    · rintro ⟨rfl, rfl⟩
      exact ⟨_, rfl, evE_fail.2 ⟨rfl, rfl⟩⟩

/-- **C73.**  If the annotations of a computed name lead nowhere, reading it fails and changes nothing. -/
theorem C73_computed_nowhere {l : List Item} {equ : EquName} {env : Env} {s s' : St} {x : Res} {e : Err}
    (ho : Spec.ParentsOlder s.scopes)
    (h : Spec.Leads s env.inq (fun _ => true) (l.flatMap fun i => s.items i.ref) env.q (.error e)) :
    Evals H (.get l false equ env) s x s' ↔ x = { r := .error e } ∧ s' = s := by
  have scan : ∀ l q n rems b, Spec.Leads s env.inq (fun _ => true) (l.flatMap fun i : Item => s.items i.ref) q (.error e) →
      nameScan s false env.inq l n rems b q = .ok (.error e) := by
    intro l
    induction l with
    | nil => intro q n rems b h; cases h
    | cons i is ih =>
      intro q n rems b h
      rw [List.flatMap_cons] at h
      obtain ⟨z, hz, hz'⟩ := leads_iff ho env.inq (fun _ => true) (s.items i.ref) q
      have h0 := (hz (fun (x : List Str × Bool) r => if r = WITH_NAME then (x.1, true) else (x.1 ++ [r], x.2)) (rems, b)).1
      simp only [fold_words, if_true] at h0
      rw [nameScan, h0]
      rcases (leads_append ho).1 h with ⟨e', h1, h2⟩ | ⟨p', ws', z', h1, h2, h3⟩
      · have := (hz' _).1 h1
        subst this
        cases h2
        rfl
      · have := (hz' _).1 h1
        subst this
        cases z' with
        | ok y => cases h3
        | error e' =>
          cases h3
          exact ih _ _ _ _ h2
  rw [evals_iff]
  change Ev H (Evals H) (resE (get2P l false equ env)) s x s' ↔ _
  rw [evE_callE']
  unfold get2P
  simp only [evE_getSt_bind, scan l _ _ _ _ h]
  constructor
  · rintro ⟨r, rfl, h⟩
    rcases evE_ofOut_bind.1 h with ⟨a, e', h⟩ | ⟨e', h, h3, h4⟩
    · cases e'
    · cases h
      exact ⟨by rw [h3], h4⟩
  · rintro ⟨rfl, rfl⟩
    exact ⟨_, rfl, evE_ofOut_bind.2 (.inr ⟨_, rfl, rfl, rfl⟩)⟩

/-- **C73.**  A computed `参数栈` with one or two numbers gives the same as the one written in the script, unless the scope has something of
that name. -/
theorem C73_computed_range {l : List Item} {equ : EquName} {env : Env} {s s' : St} {x : Res} {p : Nat} {ws : List Str} {b e : Int}
    (ho : Spec.ParentsOlder s.scopes)
    (h : Spec.Leads s env.inq (fun _ => true) (l.flatMap fun i => s.items i.ref) env.q (.ok (p, ws)))
    (hb : -2 ^ 31 ≤ b ∧ b < 2 ^ 31) (he : -2 ^ 31 ≤ e ∧ e < 2 ^ 31)
    (hw : (∃ t, Spec.spareWords ws = [t] ∧ Spec.Denotes t b ∧ e = 2 ^ 31 - 1) ∨
      ∃ t u, Spec.spareWords ws = [t, u] ∧ Spec.Denotes t b ∧ Spec.Denotes u e)
    (hnd : ((s.scopes p).vars.map (·.name)).Nodup) {line : Bool}
    (hu : Spec.Unnamed s p (Spec.nameWritten l) false equ.equ) (hn : Spec.nameWritten l = if line then c!"参数" else c!"参数栈") :
    Evals H (.get l false equ env) s x s' ↔
      Evals H (.item (.args [] b e line) { env with q := p }) (Spec.named env.ret (Spec.nameWritten l) ws s) x s' := by
  rw [get_scan ho h, evals_item]
  generalize hs1 : Spec.named env.ret (Spec.nameWritten l) ws s = s1
  have hsc : s1.scopes = s.scopes ∧ s1.mods = s.mods := by
    subst hs1
    unfold Spec.named
    split <;> exact ⟨rfl, rfl⟩
  have hg : getName s1.scopes s1.mods p (Spec.nameWritten l) false equ.equ false false = none := by
    rw [hsc.1, hsc.2]
    cases hg : getName s.scopes s.mods p (Spec.nameWritten l) false equ.equ false false with
    | none => rfl
    | some z =>
      have := (C13_only_self s.scopes s.mods p (Spec.nameWritten l) false equ.equ false (by simp) hnd z.1 z.2).1 hg
      exact absurd this.2 (hu _)
  have hA : argsWith2 (Spec.nameWritten l) (Spec.spareWords ws) = true ∧
      ∃ rs, argsWith (Spec.nameWritten l) (Spec.spareWords ws) = some (b, e, line, rs) := by
    have pb : ∀ t, Spec.Denotes t b → parseI32 t = some b := fun t ht => (C56_read_i32 t b).2 ⟨hb.1, hb.2, ht⟩
    have pe : ∀ t, Spec.Denotes t e → parseI32 t = some e := fun t ht => (C56_read_i32 t e).2 ⟨he.1, he.2, ht⟩
    have hname : (Spec.nameWritten l == ARGS || Spec.nameWritten l == ARG) = true ∧ (Spec.nameWritten l = ARGS ∨ Spec.nameWritten l = ARG) ∧
        decide (Spec.nameWritten l = ARG) = line := by
      rw [hn]
      cases line
      · exact ⟨by decide, by decide, by decide⟩
      · exact ⟨by decide, by decide, by decide⟩
    rcases hw with ⟨t, h1, h2, h3⟩ | ⟨t, u, h1, h2, h3⟩
    · refine ⟨?_, [], ?_⟩
      · simp [argsWith2, hname.1, h1, pb t h2]
      · simp only [argsWith, if_pos hname.2.1, h1, argsScan, pb t h2, hname.2.2, h3]
        rfl
    · refine ⟨?_, [], ?_⟩
      · simp [argsWith2, hname.1, h1, pb t h2, pe u h3]
      · simp only [argsWith, if_pos hname.2.1, h1, argsScan, pb t h2, pe u h3, hname.2.2]
        rfl
  have hne : (Spec.nameWritten l).isEmpty = false := by
    rw [hn]; cases line <;> rfl
  obtain ⟨hA1, rs, hA2⟩ := hA
  have hga : getArgs (Spec.nameWritten l) (Spec.spareWords ws) false equ p env = (argsP false p b e line env.ret : E _root_.Unit) := by
    unfold getArgs
    rw [hA2]
  have hx : ∀ r, EvE H (Evals H) (get3P (Spec.nameWritten l) (Spec.spareWords ws) false equ p env) s1 r s' ↔
      EvE H (Evals H) (argsP false p b e line env.ret : E _root_.Unit) s1 r s' := by
    intro r
    rw [← hga]
    unfold get3P
    simp only [hA1, Bool.not_true, Bool.and_false, Bool.false_eq_true, if_false, hne]
    rw [evE_bind]
    simp only [evE_getAliasP, hg]
    constructor
    · rintro (⟨_, s1, ⟨h, rfl⟩, h'⟩ | ⟨e, ⟨h, -⟩, -⟩)
      · cases h
        exact h'
      · cases h
    · intro h
      exact .inl ⟨false, s1, ⟨rfl, rfl⟩, h⟩
  simp only [hx, itemP, evE_two]
  constructor
  · rintro ⟨r, rfl, h⟩
    obtain ⟨y, rfl, h3⟩ := evE_lift.1 h
    exact ⟨_, ⟨rfl, h3⟩, rfl⟩
  · rintro ⟨r, ⟨rfl, h⟩, rfl⟩
    exact ⟨_, rfl, evE_lift.2 ⟨(), rfl, h⟩⟩

/-- **C73.**  An ordinary name means the same written in the script and computed while it runs. -/
theorem C73_written_computed {name : Str} (hname : Spec.OrdinaryName name) {l : List Item} {env : Env} {s s' : St} {x : Res}
    (hl : ∀ i ∈ l, s.items i.ref = []) (hn : Spec.nameWritten l = name) :
    Evals H (.item (.simp name []) env) s x s' ↔ Evals H (.get l false {} env) s x s' := by
  subst hn
  rw [get_plain hl hname, ← getName_two, evals_item]
  have hx : ∀ r, EvE H (Evals H) (itemP (.simp (Spec.nameWritten l) []) env) s r s' ↔ _ := fun r => evE_simp
  simp only [hx]
  constructor
  · rintro ⟨r, h, rfl⟩; exact ⟨r, rfl, h⟩
  · rintro ⟨r, rfl, h⟩; exact ⟨r, h, rfl⟩

/-! ## Who runs -/

/-- **C73.**  `‘参数0’` gives what the scope was started as, or else its source; `‘参数00’` the same, but a source only if it is a file;
`‘参数000’` the names of the scope with `+` between them; any other way to write zero gives nothing. -/
theorem C73_zero {z : Str} {env : Env} {s s' : St} {x : Res} :
    Evals H (.item (.arg0 [] z) env) s x s' ↔ x = { r := .ok () } ∧ s' =
      if z = c!"000" then s.pushs env.ret (((s.scopes env.q).name.intersperse c!"+").map .s)
      else if z ≠ c!"0" ∧ z ≠ c!"00" then s
      else if (s.scopes env.q).arg0 ≠ [] then s.push env.ret (.s (s.scopes env.q).arg0)
      else if z = c!"0" ∨ (s.scopes env.q).srcIsFile = true then s.push env.ret (.s (s.scopes env.q).src)
      else s := by
  rw [evals_item]
  simp only [itemP, evE_two]
  have key : Ev H (Evals H) (arg0P z false env.q env.ret) s () s' ↔ s' =
      if z = c!"000" then s.pushs env.ret (((s.scopes env.q).name.intersperse c!"+").map .s)
      else if z ≠ c!"0" ∧ z ≠ c!"00" then s
      else if (s.scopes env.q).arg0 ≠ [] then s.push env.ret (.s (s.scopes env.q).arg0)
      else if z = c!"0" ∨ (s.scopes env.q).srcIsFile = true then s.push env.ret (.s (s.scopes env.q).src)
      else s := by
    unfold arg0P
    simp only [Bool.false_eq_true, if_false]
    rw [ev_bind]
    have e1 : ∀ P : St → St → Prop, (∃ a s1, Ev H (Evals H) getSt s a s1 ∧ P a s1) ↔ P s s := fun P =>
      ⟨fun ⟨a, s1, h, h'⟩ => by obtain ⟨rfl, rfl⟩ := ev_getSt.1 h; exact h', fun h => ⟨s, s, ev_getSt.2 ⟨rfl, rfl⟩, h⟩⟩
    rw [e1 fun a s1 => Ev H (Evals H) _ s1 () s']
    by_cases h3 : z = c!"000"
    · subst h3
      rw [if_neg (by decide), if_pos rfl, if_pos rfl]
      exact ev_addTs
    · simp only [if_neg h3]
      by_cases h0 : z = c!"0" ∨ z = c!"00"
      · simp only [if_pos h0, if_neg (show ¬ (z ≠ c!"0" ∧ z ≠ c!"00") from fun h => h0.elim h.1 h.2)]
        by_cases ha : (s.scopes env.q).arg0 = []
        · simp only [ha, List.isEmpty_nil, Bool.not_true, Bool.false_eq_true, if_false, ne_eq, not_true_eq_false]
          by_cases hz : z = c!"0" ∨ (s.scopes env.q).srcIsFile = true
          · simp only [if_pos hz]
            exact ev_addT
          · simp only [if_neg hz]
            exact ev_pure.trans (by simp)
        · have hb : (!(s.scopes env.q).arg0.isEmpty) = true := by simpa using ha
          simp only [hb, if_true, if_pos (show (s.scopes env.q).arg0 ≠ [] from ha)]
          exact ev_addT
      · simp only [if_neg h0, if_pos (show z ≠ c!"0" ∧ z ≠ c!"00" from ⟨fun h => h0 (.inl h), fun h => h0 (.inr h)⟩)]
        exact ev_pure.trans (by simp)
  rw [← key]
  constructor
  · rintro ⟨_, ⟨rfl, h⟩, rfl⟩
    exact ⟨rfl, h⟩
  · rintro ⟨rfl, h⟩
    exact ⟨_, ⟨rfl, h⟩, rfl⟩

/-! ## Assignments -/

theorem place_leads {s : St} (ho : Spec.ParentsOlder s.scopes) {inq : Option Nat} {rs : List Str} {q : Nat} {x : Bool × Bool}
    {z : Except Err (Nat × Bool × Bool)} :
    Spec.Place s inq rs q x z ↔ ∃ y, Spec.Leads s inq (fun w => w == PRIV || w == REM) rs q y ∧
      z = y.map fun p => (p.1, x.1 || decide (PRIV ∈ p.2), x.2 || decide (REM ∈ p.2)) := by
  obtain ⟨y, h1, h2⟩ := place_rem4 s inq rs q x
  obtain ⟨w, h3, h4⟩ := leads_iff ho inq (fun w => w == PRIV || w == REM) rs q
  have ne : REM ≠ PRIV := by decide
  let f : Bool × Bool → Str → Bool × Bool := fun x r => if r = PRIV then (true, x.2) else (x.1, true)
  have hs : setShou = fun x r => if (r == PRIV || r == REM) = true then some (f x r) else none := by
    funext x r
    unfold setShou
    by_cases hp : r = PRIV
    · simp [hp, f]
    · by_cases hq : r = REM
      · simp [hq, f, ne]
      · simp [hp, hq]
  have hf : ∀ (ws : List Str) (x : Bool × Bool), (∀ w ∈ ws, (w == PRIV || w == REM) = true) →
      ws.foldl f x = (x.1 || decide (PRIV ∈ ws), x.2 || decide (REM ∈ ws)) := by
    intro ws
    induction ws with
    | nil => intro x _; simp
    | cons a ws ih =>
      intro x hx
      rw [List.foldl_cons, ih _ fun w hw => hx w (by simp [hw])]
      have ha := hx a (by simp)
      by_cases hp : a = PRIV
      · subst hp
        have : REM ∈ PRIV :: ws ↔ REM ∈ ws := by
          rw [List.mem_cons]
          exact ⟨fun h => h.resolve_left ne, .inr⟩
        simp [f, this]
      · have hq : a = REM := by
          rw [Bool.or_eq_true, beq_iff_eq, beq_iff_eq] at ha
          exact ha.resolve_left hp
        subst hq
        have : PRIV ∈ REM :: ws ↔ PRIV ∈ ws := by
          rw [List.mem_cons]
          exact ⟨fun h => h.resolve_left fun e => ne e.symm, .inr⟩
        simp [f, ne, this]
  have h5 := (h3 f x).1
  rw [← hs, h1] at h5
  rw [h2]
  simp only [h4, exists_eq_left]
  have hy : y = w.map fun p => (p.1, x.1 || decide (PRIV ∈ p.2), x.2 || decide (REM ∈ p.2)) := by
    cases w with
    | error e =>
      cases y with
      | error e' => simpa [Except.map] using h5
      | ok y => simp [Except.map] at h5
    | ok v =>
      have hv := hf v.2 x (leads_words ((h4 _).2 rfl))
      cases y with
      | error e' => simp [Except.map] at h5
      | ok y =>
        simp only [Except.map, Out.ok.injEq, Except.ok.injEq, Prod.mk.injEq, Option.some.injEq] at h5
        obtain ⟨h6, h7⟩ := h5
        rw [hv] at h7
        dsimp only [Except.map]
        rw [← h6, ← h7]
  rw [hy]

/-- **C73.**  The annotations of an assigned name lead to the scope of the variable in the same way; `私` and `值` are the words an assignment
knows, and are noted for the variable. -/
theorem C73_assigned {s : St} (ho : Spec.ParentsOlder s.scopes) {inq : Option Nat} {rs : List Str} {q : Nat} {x : Bool × Bool}
    {z : Except Err (Nat × Bool × Bool)} :
    Spec.Place s inq rs q x z ↔ ∃ y, Spec.Leads s inq (fun w => w == c!"私" || w == c!"值") rs q y ∧
      z = y.map fun p => (p.1, x.1 || decide (c!"私" ∈ p.2), x.2 || decide (c!"值" ∈ p.2)) := place_leads ho

/-! ## Witnesses -/

/-- In every state a run evaluates a name in, parents are older than their children. -/
theorem C73_reached {ovf : Bool} {argv : List Str} {c : Call} {s : St} (h : Reached H ovf argv c s) : Spec.ParentsOlder s.scopes :=
  C42_parents_older h

/-- The scope named `丙` around a definition with a variable of the same name. -/
def placesSrc : Str := c!"命名丙。赋予甲以1。赋予甲【顶】以0。定义乙以下代码赋予甲以2。显示‘甲’。显示‘甲【上】’。显示‘甲【丙】’。显示‘甲【顶】’。显示‘甲【与名】【丙】’。上代码。乙。"

theorem leads_of_rem4 {s : St} (ho : Spec.ParentsOlder s.scopes) {inq : Option Nat} {ok : Str → Bool} {rs : List Str} {q p : Nat} {ws : List Str}
    (h : rem4 s false inq (fun (x : List Str) w => if ok w then some (x ++ [w]) else none) rs (some q) [] = .ok (.ok (some p, ws))) :
    Spec.Leads s inq ok rs q (.ok (p, ws)) := by
  obtain ⟨z, h1, h2⟩ := leads_iff ho inq ok rs q
  have h3 := (h1 (fun (x : List Str) w => x ++ [w]) []).1
  rw [h] at h3
  have hf : ∀ (l x : List Str), l.foldl (fun (x : List Str) w => x ++ [w]) x = x ++ l := by
    intro l
    induction l with
    | nil => simp
    | cons a l ih => intro x; rw [List.foldl_cons, ih]; simp
  rw [h2]
  cases z with
  | error e => cases h3
  | ok y =>
    simp only [Except.map, Out.ok.injEq, Except.ok.injEq, Prod.mk.injEq, Option.some.injEq, hf, List.nil_append] at h3
    rw [h3.1, h3.2]

/-- A definition that reads a variable of the scope named `丙`. -/
def namedSrc : Str := c!"命名丙。赋予甲以1。定义乙以下代码显示‘甲【与名】【丙】’。上代码。乙。"

/-- The hypotheses of the theorems are met: in this run the name is read in a scope from which the annotations lead to the scope 1. -/
theorem C73_witness : ∃ env s, Reached H0 false (demoArgv namedSrc) (.item (.simp c!"甲" [c!"与名", c!"丙"]) env) s ∧ env.q ≠ 1 ∧
    Spec.NameItem (.simp c!"甲" [c!"与名", c!"丙"]) [c!"与名", c!"丙"] (.simp c!"甲" []) c!"甲" ∧
    Spec.Leads s env.inq (fun w => w == c!"与名") [c!"与名", c!"丙"] env.q (.ok (1, [c!"与名"])) := by
  obtain ⟨c, s, hr, hp⟩ := demoB_sound (n := 15) (src := namedSrc) (P := fun c s => match c with
    | .item (.simp n rs) env => n == c!"甲" && rs == [c!"与名", c!"丙"] && env.q != 1 &&
        (match rem4 s false env.inq (fun (x : List Str) w => if w == c!"与名" then some (x ++ [w]) else none) [c!"与名", c!"丙"] (some env.q) [] with
        | .ok (.ok (p, ws)) => p == some 1 && ws == [c!"与名"]
        | _ => false)
    | _ => false) (by decide +kernel)
  split at hp
  · rename_i n rs env
    simp only [Bool.and_eq_true, bne_iff_ne, ne_eq] at hp
    obtain ⟨⟨⟨h1, h2⟩, h3⟩, h4⟩ := hp
    have h1 := eq_of_beq h1
    have h2 := eq_of_beq h2
    subst h1 h2
    refine ⟨env, s, hr, h3, .simp, leads_of_rem4 (C73_reached hr) ?_⟩
    split at h4
    · rename_i p ws he
      simp only [Bool.and_eq_true] at h4
      rw [he, eq_of_beq h4.1, eq_of_beq h4.2]
    · cases h4
  · cases hp

/-- What a user sees: the variable of the definition itself, of the scope around it, of the scope with that name, of the top scope, and with its
name. -/
theorem C73_script : demo 60 placesSrc = (.ok (.ok ()), [.out c!"2", .out c!"1", .out c!"1", .out c!"0", .out c!"（甲）1"]) := by
  decide +kernel

/-- What a user sees: an annotation that is no scope, and the scope above the top. -/
theorem C73_script_error :
    (match (demo 60 c!"赋予甲以1。显示‘甲【哈】’。").1 with | .ok (.error e) => e.s | _ => []) = c!"注解“哈”不支持" ∧
    (match (demo 60 c!"显示‘甲【顶】【上】’。").1 with | .ok (.error e) => e.s | _ => []) = c!"无上" := by
  decide +kernel

/-- What is not true: that asking whether a name exists never ends the program.  Above the top the question is answered by nothing, but one
more annotation and the interpreter panics (`q2.clone().unwrap()`, `src/u_/qv_/rem4_.rs:54`). -/
theorem C73_exists_above_counterexample :
    (match (demo 60 c!"显示存在甲【顶】【上】。").1 with | .ok (.ok _) => true | _ => false) = true ∧
    (match (demo 60 c!"显示存在甲【顶】【上】【上】。").1 with | .panic => true | _ => false) = true := by
  decide +kernel

end Zh
