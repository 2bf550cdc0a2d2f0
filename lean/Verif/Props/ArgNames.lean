import Verif.Props.Reads
import Verif.Props.Print
import Verif.Props.Basics
import Verif.Props.SepDemo
/-!
# C71: the arguments as a script sees them

`‘参数3’`, `‘参数数目’` and `‘参数栈’` in a running script, and the same names computed while it runs, in any state.
-/
namespace Zh
open Spec

variable {H : Host}

/-! ## Specification -/

/-- The arguments of scope `q`: what stands between the separators of its list. -/
def Spec.arguments (s : St) (q : Nat) : List (List Item) := argsOf (s.lists (s.scopes q).args)

/-- The result list with these items. -/
def Spec.listOf (a : List Item) : RList := ⟨a, sepPos 0 a⟩

/-- The state in which these items were appended to the result list `r`. -/
def Spec.appendAll (r : Nat) (is : List Item) (s : St) : St :=
  { s with lists := upd s.lists r (Spec.listOf ((s.lists r).a ++ is)) }

/-- The scope `q` has nothing of its own with the name. -/
def Spec.Unnamed (s : St) (q : Nat) (name : Str) (isHas equ : Bool) : Prop := ∀ a, ¬ Spec.Has (s.scopes q) name false a isHas equ

/-! ## Proofs -/

variable {R : Call → St → Res → St → Prop}

theorem listOf_wf {l : RList} (h : WF l) : l = Spec.listOf l.a := by
  cases l
  exact congrArg (RList.mk _) h

theorem ev_argi_nth {i : Nat} (hi : 1 ≤ i) {name : Str} {q ret : Nat} {s s' : St} {u : _root_.Unit} (hs : AllWF s) (hne : (s.scopes q).args ≠ ret) :
    Ev H R (argiP i false false name q ret) s u s' ↔ s' = Spec.appendAll ret ((Spec.arguments s q).getD (i - 1) []) s := by
  rw [ev_argiP (env := ⟨{}, 0, ret, none⟩)]
  obtain ⟨r, h1, h2, h3⟩ := C05_positional_argument s.ovf (s.lists (s.scopes q).args) (s.lists ret) (hs _) i hi
  have h4 : r = Spec.listOf ((s.lists ret).a ++ (Spec.arguments s q).getD (i - 1) []) := by
    rw [listOf_wf (h3 (hs _)), h2]; rfl
  constructor
  · intro h
    cases h with
    | argHas h => cases h
    | arg _ _ _ h =>
      rw [h1] at h
      cases h
      rw [h4]; rfl
  · rintro rfl
    unfold Spec.appendAll
    rw [← h4]
    exact .arg rfl hne nofun h1

theorem evE_var1_nil {name : Str} {env : Env} {s s' : St} {r : Except Err Nat} :
    EvE H R (var1P [] name env) s r s' ↔ r = .ok env.q ∧ s' = s := by
  unfold var1P
  rw [evE_getSt_bind]
  constructor
  · intro h
    rcases evE_ofOut_bind.1 h with ⟨a, e, h⟩ | ⟨e, h, -⟩
    · cases e
      exact evE_pure.1 h
    · cases h
  · rintro ⟨rfl, rfl⟩
    exact evE_ofOut_bind.2 (.inl ⟨(some env.q, false), rfl, evE_pure.2 ⟨rfl, rfl⟩⟩)

theorem evE_two {m : Nat → Prog _root_.Unit} {name : Str} {env : Env} {s s' : St} {x : Except Err _root_.Unit} :
    EvE H R (do let q ← var1P [] name env; m q : E _root_.Unit) s x s' ↔ x = .ok () ∧ Ev H R (m env.q) s () s' := by
  rw [evE_bind]
  simp only [evE_var1_nil]
  constructor
  · rintro (⟨q, s1, ⟨h, rfl⟩, h2⟩ | ⟨e, ⟨h, -⟩, -⟩)
    · cases h
      obtain ⟨y, rfl, h3⟩ := evE_lift.1 h2
      exact ⟨rfl, h3⟩
    · cases h
  · rintro ⟨rfl, h⟩
    exact .inl ⟨_, s, ⟨rfl, rfl⟩, evE_lift.2 ⟨(), rfl, h⟩⟩

/-- **C71.**  `‘参数i’` appends what stands between the separators number `i - 1` and `i` of the arguments of the scope to the result, and
nothing if there are fewer arguments; nothing else changes. -/
theorem C71_nth {i : Nat} (hi : 1 ≤ i) {env : Env} {s s' : St} {x : Res} (hs : AllWF s) (hne : (s.scopes env.q).args ≠ env.ret) :
    Evals H (.item (.argi [] i) env) s x s' ↔
      x = { r := .ok () } ∧ s' = Spec.appendAll env.ret ((Spec.arguments s env.q).getD (i - 1) []) s := by
  rw [evals_item]
  simp only [itemP, evE_two, ev_argi_nth hi hs hne]
  constructor
  · rintro ⟨_, ⟨rfl, h⟩, rfl⟩
    exact ⟨rfl, h⟩
  · rintro ⟨rfl, h⟩
    exact ⟨_, ⟨rfl, h⟩, rfl⟩

theorem ev_argc {q ret : Nat} {s s' : St} {u : _root_.Unit} (hs : AllWF s) (hne : (s.scopes q).args ≠ ret) :
    Ev H R (argcP false q ret) s u s' ↔ s' = s.push ret (.s (natStr (Spec.arguments s q).length)) := by
  unfold argcP
  simp only [Bool.false_eq_true, if_false]
  rw [ev_bind]
  have e1 : ∀ P : St → St → Prop, (∃ a s1, Ev H R getSt s a s1 ∧ P a s1) ↔ P s s := fun P =>
    ⟨fun ⟨a, s1, h, h'⟩ => by obtain ⟨rfl, rfl⟩ := ev_getSt.1 h; exact h', fun h => ⟨s, s, ev_getSt.2 ⟨rfl, rfl⟩, h⟩⟩
  rw [e1 fun a s1 => Ev H R _ s1 u s', if_neg hne, (hs (s.scopes q).args).len_eq]
  exact ev_addT

/-- **C71.**  `‘参数数目’` gives the number of the arguments. -/
theorem C71_count {env : Env} {s s' : St} {x : Res} (hs : AllWF s) (hne : (s.scopes env.q).args ≠ env.ret) :
    Evals H (.item (.argc []) env) s x s' ↔
      x = { r := .ok () } ∧ s' = s.push env.ret (.s (natStr (Spec.arguments s env.q).length)) := by
  rw [evals_item]
  simp only [itemP, evE_two, ev_argc hs hne]
  constructor
  · rintro ⟨_, ⟨rfl, h⟩, rfl⟩
    exact ⟨rfl, h⟩
  · rintro ⟨rfl, h⟩
    exact ⟨_, ⟨rfl, h⟩, rfl⟩

theorem argsAct_list {ovf : Bool} {ls : RList} {b e : Int} {act : ArgsAct} (h : argsAct ovf false ls b e false = .ok act) :
    (∃ is, act = .addItems is) ∨ act = .popEnd := by
  unfold argsAct at h
  simp only [Bool.false_eq_true, if_false] at h
  split at h
  · cases h1 : i2u ovf b ls.len with
    | ok k =>
      cases h2 : i2u ovf e ls.len with
      | ok k' =>
        rw [h1, h2] at h
        simp only [Out.ok_bind] at h
        split at h
        · exact .inl ⟨_, (Out.ok.inj h).symm⟩
        · exact .inr (Out.ok.inj h).symm
      | panic => rw [h1, h2] at h; cases h
      | fuel => rw [h1, h2] at h; cases h
    | panic => rw [h1] at h; cases h
    | fuel => rw [h1] at h; cases h
  · exact .inr (Out.ok.inj h).symm

/-- **C71.**  `‘参数栈【b】【e】’` appends one stretch of the arguments: exactly those from `b` to `e`, as far as they exist, with the separators
between them.  If that is nothing, a separator at the end of the result is taken off. -/
theorem C71_range {b e : Nat} (hb : 1 ≤ b) (hbe : b ≤ e) {env : Env} {s : St} (hs : AllWF s) (hne : (s.scopes env.q).args ≠ env.ret) :
    ∃ items, (∃ pre post, (s.lists (s.scopes env.q).args).a = pre ++ items ++ post) ∧
      (b ≤ (Spec.arguments s env.q).length → groups isSep items = ((Spec.arguments s env.q).drop (b - 1)).take (e - b + 1)) ∧
      ((Spec.arguments s env.q).length < b → items = []) ∧
      ∀ x s', Evals H (.item (.args [] b e false) env) s x s' ↔ x = { r := .ok () } ∧
        s' = (if items = [] then { s with lists := upd s.lists env.ret (s.lists env.ret).popEnd } else Spec.appendAll env.ret items s) := by
  obtain ⟨items, r, h1, h2, h3, h4, h5, h6, h7⟩ :=
    C09_argument_range s.ovf (s.lists (s.scopes env.q).args) (s.lists env.ret) b e hb hbe
  refine ⟨items, h2, h3, h4, fun x s' => ?_⟩
  have hr : (if items = [] then { s with lists := upd s.lists env.ret (s.lists env.ret).popEnd } else Spec.appendAll env.ret items s) =
      { s with lists := upd s.lists env.ret r } := by
    split
    · rename_i h; rw [h6 h]
    · rename_i h
      unfold Spec.appendAll
      rw [← h5 h, ← listOf_wf (h7 (hs _))]
  rw [hr, evals_item]
  have key : ∀ u, Ev H (Evals H) (argsP false env.q b e false env.ret) s u s' ↔ s' = { s with lists := upd s.lists env.ret r } := by
    intro u
    unfold argsP
    rw [ev_bind]
    have e1 : ∀ P : St → St → Prop, (∃ a s1, Ev H (Evals H) getSt s a s1 ∧ P a s1) ↔ P s s := fun P =>
      ⟨fun ⟨a, s1, h, h'⟩ => by obtain ⟨rfl, rfl⟩ := ev_getSt.1 h; exact h', fun h => ⟨s, s, ev_getSt.2 ⟨rfl, rfl⟩, h⟩⟩
    rw [e1 fun a s1 => Ev H (Evals H) _ s1 u s', if_neg hne, ev_bind]
    unfold argsList at h1
    have ho : ∀ l : RList, Ev H (Evals H) (doOp (.setList env.ret l)) s u s' ↔ s' = { s with lists := upd s.lists env.ret l } := by
      intro l
      rw [ev_doOp]
      simp only [Op.run, Prod.mk.injEq]
      exact ⟨fun h => h.2.symm, fun h => ⟨trivial, h.symm⟩⟩
    rcases ha : argsAct s.ovf false (s.lists (s.scopes env.q).args) b e false with act | _ | _
    · rw [ha] at h1
      have h1 : (match act with
        | .addItems is => Out.ok (if is.isEmpty then ((s.lists env.ret).addAll is).popEnd else (s.lists env.ret).addAll is)
        | _ => .ok (s.lists env.ret).popEnd) = .ok r := h1
      have one : ∀ P : ArgsAct → St → Prop, (∃ a s1, Ev H (Evals H) (ofOut (Out.ok act)) s a s1 ∧ P a s1) ↔ P act s := fun P =>
        ⟨fun ⟨a, s1, h, h'⟩ => by
          obtain ⟨h0, rfl⟩ := ev_ofOut.1 h
          exact Out.ok.inj h0 ▸ h', fun h => ⟨act, s, ev_ofOut.2 ⟨rfl, rfl⟩, h⟩⟩
      rw [one fun a s1 => Ev H (Evals H) _ s1 u s']
      rcases argsAct_list ha with ⟨is, rfl⟩ | rfl
      · cases h1; exact ho _
      · cases h1; exact ho _
    · rw [ha] at h1; cases h1
    · rw [ha] at h1; cases h1
  simp only [itemP, evE_two, key]
  constructor
  · rintro ⟨_, ⟨rfl, h⟩, rfl⟩
    exact ⟨rfl, h⟩
  · rintro ⟨rfl, h⟩
    exact ⟨_, ⟨rfl, h⟩, rfl⟩

/-- **C71.**  While the arguments are the list being filled (an argument of a call that reads the arguments of the called scope itself) no
argument name can be read: the interpreter stops with a crash. -/
theorem C71_own_arguments {c : Code} (hc : (∃ i, c = .argi [] i) ∨ c = .argc [] ∨ ∃ b e line, c = .args [] b e line) {env : Env} {s s' : St} {x : Res}
    (he : (s.scopes env.q).args = env.ret) : ¬ Evals H (.item c env) s x s' := by
  rw [evals_item]
  have e1 : ∀ P : St → St → Prop, (∃ a s1, Ev H (Evals H) getSt s a s1 ∧ P a s1) ↔ P s s := fun P =>
    ⟨fun ⟨a, s1, h, h'⟩ => by obtain ⟨rfl, rfl⟩ := ev_getSt.1 h; exact h', fun h => ⟨s, s, ev_getSt.2 ⟨rfl, rfl⟩, h⟩⟩
  rcases hc with ⟨i, rfl⟩ | rfl | ⟨b, e, line, rfl⟩
  · simp only [itemP, evE_two]
    rintro ⟨_, ⟨-, h⟩, -⟩
    unfold argiP at h
    rw [ev_bind, e1 fun a s1 => Ev H (Evals H) _ s1 () s', if_pos he] at h
    exact ev_panic h
  · simp only [itemP, evE_two]
    rintro ⟨_, ⟨-, h⟩, -⟩
    unfold argcP at h
    simp only [Bool.false_eq_true, if_false] at h
    rw [ev_bind, e1 fun a s1 => Ev H (Evals H) _ s1 () s', if_pos he] at h
    exact ev_panic h
  · simp only [itemP, evE_two]
    rintro ⟨_, ⟨-, h⟩, -⟩
    unfold argsP at h
    rw [ev_bind, e1 fun a s1 => Ev H (Evals H) _ s1 () s', if_pos he] at h
    exact ev_panic h

theorem ev_argi_congr {i j : Int} {isHas e : Bool} {name : Str} {q ret : Nat} {s s' : St} {u : _root_.Unit}
    (h : i2u s.ovf i (s.lists (s.scopes q).args).len = i2u s.ovf j (s.lists (s.scopes q).args).len) :
    Ev H R (argiP i isHas e name q ret) s u s' ↔ Ev H R (argiP j isHas e name q ret) s u s' := by
  unfold argiP
  rw [ev_bind, ev_bind]
  have e1 : ∀ P : St → St → Prop, (∃ a s1, Ev H R getSt s a s1 ∧ P a s1) ↔ P s s := fun P =>
    ⟨fun ⟨a, s1, h, h'⟩ => by obtain ⟨rfl, rfl⟩ := ev_getSt.1 h; exact h', fun h => ⟨s, s, ev_getSt.2 ⟨rfl, rfl⟩, h⟩⟩
  rw [e1 fun a s1 => Ev H R _ s1 u s', e1 fun a s1 => Ev H R _ s1 u s']
  simp only [argIndex, h]

/-- **C71.**  `‘参数-k’` with at least `k` arguments is the argument number `k` from the end. -/
theorem C71_from_end {k : Nat} (hk : 1 ≤ k) (hmax : k < 2147483648) {env : Env} {s s' : St} {x : Res} (hs : AllWF s)
    (hne : (s.scopes env.q).args ≠ env.ret) (hn : k ≤ (Spec.arguments s env.q).length) :
    Evals H (.item (.argi [] (-(k : Int))) env) s x s' ↔
      x = { r := .ok () } ∧ s' = Spec.appendAll env.ret ((Spec.arguments s env.q).reverse.getD (k - 1) []) s := by
  have hl := (hs (s.scopes env.q).args).len_eq
  have hn' : k ≤ (s.lists (s.scopes env.q).args).len := hl ▸ hn
  have h0 : i2u s.ovf (-(k : Int)) (s.lists (s.scopes env.q).args).len =
      i2u s.ovf (((Spec.arguments s env.q).length - k + 1 : Nat) : Int) (s.lists (s.scopes env.q).args).len := by
    rw [i2u_neg _ _ _ hk hmax, if_pos hn', hl]
    simp only [i2u]
    rw [if_pos (by omega), Int.toNat_natCast]
    rfl
  have h1 : (Spec.arguments s env.q).reverse.getD (k - 1) [] =
      (Spec.arguments s env.q).getD ((Spec.arguments s env.q).length - k + 1 - 1) [] := by
    rw [List.getD_eq_getElem?_getD, List.getD_eq_getElem?_getD, List.getElem?_reverse (by omega)]
    congr 2
    omega
  rw [h1, ← C71_nth (H := H) (by omega) hs hne, evals_item, evals_item]
  simp only [itemP, evE_two, ev_argi_congr h0]

/-! ## Names computed while the script runs -/

theorem get_args {l : List Item} {isHas : Bool} {equ : EquName} {env : Env} {s s' : St} {x : Res} (hl : ∀ i ∈ l, s.items i.ref = [])
    (hnd : ((s.scopes env.q).vars.map (·.name)).Nodup) (hu : Spec.Unnamed s env.q (Spec.nameWritten l) isHas equ.equ)
    (hne : Spec.nameWritten l ≠ []) :
    Evals H (.get l isHas equ env) s x s' ↔
      ∃ r, x = { r := r } ∧ EvE H (Evals H) (getArgs (Spec.nameWritten l) [] isHas equ env.q env) s r s' := by
  rw [evals_iff]
  change Ev H (Evals H) (resE (get2P l isHas equ env)) s x s' ↔ _
  rw [evE_callE']
  refine exists_congr fun r => and_congr_right fun _ => ?_
  have hs : nameScan s isHas env.inq l [] [] false env.q = .ok (.ok (some (Spec.nameWritten l, [], false, env.q))) := by
    rw [nameScan_plain s isHas env.inq l hl]; rfl
  have hg : getName s.scopes s.mods env.q (Spec.nameWritten l) isHas equ.equ false false = none := by
    cases hg : getName s.scopes s.mods env.q (Spec.nameWritten l) isHas equ.equ false false with
    | none => rfl
    | some z =>
      have := (C13_only_self s.scopes s.mods env.q (Spec.nameWritten l) isHas equ.equ false (by simp) hnd z.1 z.2).1 hg
      exact absurd this.2 (hu _)
  unfold get2P
  rw [evE_getSt_bind]
  have step : ∀ {β : Type} (f : _ → E β) (r : Except Err β),
      EvE H (Evals H) (ExceptT.mk (ofOut (nameScan s isHas env.inq l [] [] false env.q)) >>= f) s r s' ↔
        EvE H (Evals H) (f (some (Spec.nameWritten l, [], false, env.q))) s r s' := by
    intro β f r
    rw [hs]
    constructor
    · intro h
      rcases evE_ofOut_bind.1 h with ⟨a, e, h⟩ | ⟨e, h, -⟩
      · cases e
        exact h
      · cases h
    · intro h
      exact evE_ofOut_bind.2 (.inl ⟨_, rfl, h⟩)
  rw [step]
  have hemp : (Spec.nameWritten l).isEmpty = false := by simpa using hne
  simp only [Bool.false_eq_true, if_false, List.isEmpty_nil, Bool.not_true, Bool.false_and, hemp]
  rw [evE_bind]
  simp only [evE_getAliasP, hg]
  constructor
  · rintro (⟨_, s1, ⟨h, rfl⟩, h'⟩ | ⟨e, ⟨h, -⟩, -⟩)
    · cases h
      exact h'
    · cases h
  · intro h
    exact .inl ⟨false, s, ⟨rfl, rfl⟩, h⟩

theorem argName {t : Str} {i : Int} (h1 : -2 ^ 31 ≤ i) (h2 : i < 2 ^ 31) (ht : Spec.Denotes t i) :
    argsWith (ARG ++ t) [] = none ∧ ARG ++ t ≠ ARGC ∧ argiWith (ARG ++ t) = some i := by
  have hp : parseI32 t = some i := (C56_read_i32 t i).2 ⟨h1, h2, ht⟩
  have e1 : ARG ++ t ≠ ARG := by
    intro e
    have : t = [] := by simpa using e
    subst this
    revert hp
    rw [show parseI32 [] = none from by decide]
    nofun
  have e2 : ARG ++ t ≠ ARGS := by
    intro e
    have e : ARG ++ t = ARG ++ c!"栈" := e
    have := List.append_cancel_left e
    subst this
    revert hp
    rw [show parseI32 c!"栈" = none from by decide]
    nofun
  have e3 : ARG ++ t ≠ ARGC := by
    intro e
    have e : ARG ++ t = ARG ++ c!"数目" := e
    have := List.append_cancel_left e
    subst this
    revert hp
    rw [show parseI32 c!"数目" = none from by decide]
    nofun
  refine ⟨by simp [argsWith, e1, e2], e3, ?_⟩
  have : ARG.isPrefixOf (ARG ++ t) = true := List.isPrefixOf_iff_prefix.2 (List.prefix_append _ _)
  simp [argiWith, this, hp]

theorem evE_unit {m : Prog _root_.Unit} {s s' : St} {x : Res} :
    (∃ r, x = { r := r } ∧ EvE H (Evals H) (m : E _root_.Unit) s r s') ↔ x = { r := .ok () } ∧ Ev H (Evals H) m s () s' := by
  constructor
  · rintro ⟨_, rfl, h⟩
    obtain ⟨y, rfl, h3⟩ := evE_lift.1 h
    exact ⟨rfl, h3⟩
  · rintro ⟨rfl, h⟩
    exact ⟨_, rfl, evE_lift.2 ⟨(), rfl, h⟩⟩

/-- **C71.**  A name computed while the script runs that is `参数` and a text denoting the number `i` reads the same argument, if the scope
has no variable, definition or argument of that very name. -/
theorem C71_computed_nth {i : Nat} (hi : 1 ≤ i) (hmax : i < 2 ^ 31) {t : Str} (ht : Spec.Denotes t i) {l : List Item} {env : Env} {s s' : St} {x : Res}
    (hl : ∀ i ∈ l, s.items i.ref = []) (hname : Spec.nameWritten l = c!"参数" ++ t)
    (hnd : ((s.scopes env.q).vars.map (·.name)).Nodup) (hu : Spec.Unnamed s env.q (c!"参数" ++ t) false false)
    (hs : AllWF s) (hne : (s.scopes env.q).args ≠ env.ret) :
    Evals H (.get l false {} env) s x s' ↔
      x = { r := .ok () } ∧ s' = Spec.appendAll env.ret ((Spec.arguments s env.q).getD (i - 1) []) s := by
  obtain ⟨h1, h2, h3⟩ := argName (by omega) (by exact_mod_cast hmax) ht
  rw [get_args hl hnd (hname ▸ hu) (by rw [hname]; simp), hname]
  have hg : getArgs (c!"参数" ++ t) [] false {} env.q env = (argiP i false false [] env.q env.ret : E _root_.Unit) := by
    unfold getArgs
    rw [show c!"参数" = ARG from rfl, h1]
    simp only [if_neg h2, h3]
    rw [if_neg (by omega)]
  rw [hg, evE_unit, ev_argi_nth hi hs hne]

/-- **C71.**  `存在` of such a name says whether there are so many arguments. -/
theorem C71_exists_nth {i : Nat} (hi : 1 ≤ i) (hmax : i < 2 ^ 31) {t : Str} (ht : Spec.Denotes t i) {l : List Item} {env : Env} {s s' : St} {x : Res}
    (hl : ∀ i ∈ l, s.items i.ref = []) (hname : Spec.nameWritten l = c!"参数" ++ t)
    (hnd : ((s.scopes env.q).vars.map (·.name)).Nodup) (hu : Spec.Unnamed s env.q (c!"参数" ++ t) true false)
    (hs : AllWF s) (hne : (s.scopes env.q).args ≠ env.ret) :
    Evals H (.get l true {} env) s x s' ↔
      x = { r := .ok () } ∧ s' = if i ≤ (Spec.arguments s env.q).length then s.push env.ret (.s c!"1") else s := by
  obtain ⟨h1, h2, h3⟩ := argName (by omega) (by exact_mod_cast hmax) ht
  rw [get_args hl hnd (hname ▸ hu) (by rw [hname]; simp), hname]
  have hg : getArgs (c!"参数" ++ t) [] true {} env.q env = (argiP i true false [] env.q env.ret : E _root_.Unit) := by
    unfold getArgs
    rw [show c!"参数" = ARG from rfl, h1]
    simp only [if_neg h2, h3]
    rw [if_neg (by omega)]
  rw [hg, evE_unit, ev_argiP (env := env)]
  refine and_congr_right fun _ => ?_
  rw [Spec.arguments, ← (hs (s.scopes env.q).args).len_eq]
  constructor
  · intro h
    cases h with
    | argHas => rfl
    | arg h => cases h
  · rintro rfl
    exact .argHas rfl hne

/-- **C71.**  The computed name `参数数目` gives the number of arguments; `存在` of it is always true. -/
theorem C71_computed_count {isHas : Bool} {l : List Item} {env : Env} {s s' : St} {x : Res}
    (hl : ∀ i ∈ l, s.items i.ref = []) (hname : Spec.nameWritten l = c!"参数数目")
    (hnd : ((s.scopes env.q).vars.map (·.name)).Nodup) (hu : Spec.Unnamed s env.q c!"参数数目" isHas false)
    (hs : AllWF s) (hne : (s.scopes env.q).args ≠ env.ret) :
    Evals H (.get l isHas {} env) s x s' ↔
      x = { r := .ok () } ∧ s' = s.push env.ret (.s (if isHas then c!"1" else natStr (Spec.arguments s env.q).length)) := by
  rw [get_args hl hnd (hname ▸ hu) (by rw [hname]; decide), hname]
  have hg : getArgs c!"参数数目" [] isHas {} env.q env = (argcP isHas env.q env.ret : E _root_.Unit) := by
    unfold getArgs
    rw [show argsWith c!"参数数目" [] = none from by decide]
    simp only
    rw [if_pos (by decide)]
  rw [hg, evE_unit]
  refine and_congr_right fun _ => ?_
  cases isHas with
  | true => unfold argcP; simp only [if_true]; exact ev_addT
  | false => exact ev_argc hs hne

/-! ## In a run -/

/-- **C71.**  In a run in which no definition takes arguments from its left, every `‘参数i’` that happens gives the argument number `i` of the
scope it is in, or stops with a crash while that list is being filled. -/
theorem C71_run {ovf : Bool} {argv : List Str} (hn : ∀ c s, Reached H ovf argv c s → NoLeft s) {i : Nat} (hi : 1 ≤ i) {env : Env} {s : St}
    (hr : Reached H ovf argv (.item (.argi [] i) env) s) :
    ((s.scopes env.q).args ≠ env.ret → Evals H (.item (.argi [] i) env) s { r := .ok () }
      (Spec.appendAll env.ret ((Spec.arguments s env.q).getD (i - 1) []) s)) ∧
    ((s.scopes env.q).args = env.ret → ∀ x s', ¬ Evals H (.item (.argi [] i) env) s x s') :=
  ⟨fun h => (C71_nth hi ((C04_run hn).1 _ _ hr) h).2 ⟨rfl, rfl⟩, fun h _ _ => C71_own_arguments (.inl ⟨_, rfl⟩) h⟩

/-- The hypotheses of the theorems are met: in the run on this script `‘参数2’` is read with the arguments `a` and `b`. -/
theorem C71_witness : ∃ env s, Reached H0 false (demoArgv twoArgs) (.item (.argi [] 2) env) s ∧ AllWF s ∧ (s.scopes env.q).args ≠ env.ret ∧
    (Spec.arguments s env.q).map (fun g => g.map fun i => i.val.plain) = [[c!"a"], [c!"b"]] := by
  obtain ⟨c, s, hr, hp⟩ := demoB_sound (n := 12) (src := twoArgs) (P := fun c s => match c with
    | .item (.argi [] i) env => i == 2 && (s.scopes env.q).args != env.ret &&
        (Spec.arguments s env.q).map (fun g => g.map fun i => i.val.plain) == [[c!"a"], [c!"b"]]
    | _ => false) (by decide +kernel)
  split at hp
  · rename_i i env
    simp only [Bool.and_eq_true, bne_iff_ne, ne_eq] at hp
    obtain ⟨⟨h1, h2⟩, h3⟩ := hp
    have h1 := eq_of_beq h1
    subst h1
    exact ⟨env, s, hr, (C04_run C04_run_witness.1).1 _ _ hr, h2, eq_of_beq h3⟩
  · cases hp

/-- The same for `存在` of the name: in this run it is asked in a scope with two arguments and nothing of that name. -/
theorem C71_exists_witness : ∃ l env s, Reached H0 false (demoArgv c!"定义甲以下代码显示存在参数2。上代码。甲a、b。") (.get l true {} env) s ∧
    AllWF s ∧ (∀ i ∈ l, s.items i.ref = []) ∧ Spec.nameWritten l = c!"参数2" ∧ ((s.scopes env.q).vars.map (·.name)).Nodup ∧
    Spec.Unnamed s env.q c!"参数2" true false ∧ (s.scopes env.q).args ≠ env.ret ∧ (Spec.arguments s env.q).length = 2 := by
  have h0 : ∀ c s, Reached H0 false (demoArgv c!"定义甲以下代码显示存在参数2。上代码。甲a、b。") c s → NoLeft s := fun _ _ hr =>
    plainRun_sound (n := 18) (by decide +kernel) hr
  obtain ⟨c, s, hr, hp⟩ := demoB_sound (n := 12) (src := c!"定义甲以下代码显示存在参数2。上代码。甲a、b。") (P := fun c s => match c with
    | .get l true ⟨false, []⟩ env => (s.scopes env.q).args != env.ret && (Spec.arguments s env.q).length == 2 &&
        Spec.nameWritten l == c!"参数2" && l.all (fun i => (s.items i.ref).isEmpty) && (s.scopes env.q).vars.isEmpty &&
        (getName s.scopes s.mods env.q c!"参数2" true false false false).isNone
    | _ => false) (by decide +kernel)
  split at hp
  · rename_i l env
    simp only [Bool.and_eq_true, bne_iff_ne, ne_eq, List.all_eq_true, List.isEmpty_iff, Option.isNone_iff_eq_none] at hp
    obtain ⟨⟨⟨⟨⟨h1, h2⟩, h3⟩, h4⟩, h5⟩, h6⟩ := hp
    have hnd : ((s.scopes env.q).vars.map (·.name)).Nodup := by rw [h5]; exact List.nodup_nil
    refine ⟨l, env, s, hr, (C04_run h0).1 _ _ hr, h4, eq_of_beq h3, hnd, fun a ha => ?_, h1, eq_of_beq h2⟩
    have := (C13_only_self s.scopes s.mods env.q c!"参数2" true false false rfl hnd env.q a).2 ⟨rfl, ha⟩
    rw [h6] at this
    cases this
  · cases hp

/-- What a user sees: the second argument, the number of arguments, the last one, the third by a computed name; a fourth argument does not
exist. -/
theorem C71_script : demo 40 c!"定义甲以下代码显示‘参数2’。显示‘参数数目’。显示‘参数-1’。赋予乙以3。显示‘参数‘乙’’。显示存在参数4。显示存在参数3。上代码。甲a、b、c。" =
    (.ok (.ok ()), [.out c!"b", .out c!"3", .out c!"c", .out c!"c", .out c!"1"]) := by
  decide +kernel

end Zh
