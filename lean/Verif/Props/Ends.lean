import Verif.Props.Aliases
import Verif.Props.Capable
/-!
# C82: scripts that end

A script in which nothing runs a text, no alias is made, and every loop has a limit or a counter comes to an end.  `Df m p Q` is a
statement about the tree of the program `p`: the calls it makes are smaller than `m`, in an order in which nothing goes on for ever.
-/
namespace Zh

open Spec (runsText)

/-- The statements that may go on for ever: those that run texts or keep them for later, `别名`, and loops with neither a limit nor a
counter. -/
def Spec.mayHang : Code → Bool
  | .alias .. => true
  | .for_ _ cnt _ _ => cnt.max.isNone && cnt.name.isNone
  | c => Spec.runsText c

/-- Lexicographic order of triples. -/
def Less (x y : Nat × Nat × Nat) : Prop := x.1 < y.1 ∨ x.1 = y.1 ∧ (x.2.1 < y.2.1 ∨ x.2.1 = y.2.1 ∧ x.2.2 < y.2.2)

theorem less_wf : WellFounded Less := by
  have h := (Prod.lex (WellFoundedRelation.mk _ Nat.lt_wfRel.wf) (Prod.lex Nat.lt_wfRel Nat.lt_wfRel)).wf
  refine Subrelation.wf (fun {x y} hxy => ?_) h
  obtain ⟨a, b, c⟩ := x
  obtain ⟨d, e, f⟩ := y
  rcases hxy with h | ⟨h, h2 | ⟨h2, h3⟩⟩
  · exact Prod.Lex.left _ _ h
  · dsimp only at h h2; subst h; exact Prod.Lex.right _ (Prod.Lex.left _ _ h2)
  · dsimp only at h h2 h3; subst h; subst h2; exact Prod.Lex.right _ (Prod.Lex.right _ h3)

/-- The size of a call. -/
noncomputable def Call.size : Call → Nat × Nat × Nat
  | .src .. => (1, 0, 0)
  | .codes a _ _ _ => (0, 10 * sizeOf a + 1, 0)
  | .z2 a i _ _ => (0, 10 * sizeOf a, a.length - i)
  | .z4 _ _ e2 _ _ st => (0, 5, e2 - st.idx2)
  | .item c _ => (0, 10 * sizeOf c, 0)
  | .loop _ a m _ _ _ i _ => (0, 10 * sizeOf a + 2, m - i)
  | .cond a _ st => (0, 10 * sizeOf a + 2, a.length - st.idx)
  | .get .. | .slave .. => (0, 0, 0)

/-- The loops that are run count their turns. -/
def Call.Ready : Call → Prop
  | .loop _ _ _ useI _ _ _ _ => useI = true
  | _ => True

/-- After a word, the next item is looked at. -/
def Call.After : Call → Res → Prop
  | .z4 _ _ _ _ _ st, r => r.idx = st.idx + if r.has then 1 else 0
  | _, _ => True

variable {α β : Type} {bad : Code → Bool} {T : Str → Prop} {m : Nat × Nat × Nat}

/-- See above; `bad` are the items that do not occur. -/
def Df (bad : Code → Bool) (m : Nat × Nat × Nat) : Prog α → (α → Prop) → Prop
  | .ret a, Q => Q a
  | .panic, _ => True
  | .op .st k, Q => ∀ s, Still bad s → Df bad m (k s) Q
  | .op _ k, Q => ∀ r, Df bad m (k r) Q
  | .call _ c k, Q => (c.Ready ∧ Less c.size m) ∧ ∀ r, c.After r → Df bad m (k r) Q

abbrev D (bad : Code → Bool) (m : Nat × Nat × Nat) (p : Prog α) : Prop := Df bad m p fun _ => True
abbrev DE (bad : Code → Bool) (m : Nat × Nat × Nat) (p : E α) : Prop := D bad m p.run

theorem Df.op {o : Op} {k : o.Res → Prog α} {Q : α → Prop} (h : ∀ r, Df bad m (k r) Q) : Df bad m (.op o k) Q := by
  cases o <;> first | exact h | exact fun s _ => h s

theorem Df.bind {p : Prog α} {f : α → Prog β} {Q : α → Prop} {R : β → Prop} (h : Df bad m p Q) (hf : ∀ a, Q a → Df bad m (f a) R) :
    Df bad m (p >>= f) R := by
  change Df bad m (p.bind f) R
  induction p with
  | ret a => exact hf a h
  | panic => trivial
  | op o k ih => cases o <;> first | exact fun a => ih a (h a) | exact fun a ha => ih a (h a ha)
  | call hd c k ih => exact ⟨h.1, fun r hr => ih r (h.2 r hr)⟩

theorem Df.mono {p : Prog α} {Q R : α → Prop} (h : Df bad m p Q) (hq : ∀ a, Q a → R a) : Df bad m p R := by
  induction p with
  | ret a => exact hq a h
  | panic => trivial
  | op o k ih => cases o <;> first | exact fun a => ih a (h a) | exact fun a ha => ih a (h a ha)
  | call hd c k ih => exact ⟨h.1, fun r hr => ih r (h.2 r hr)⟩

theorem D.bind {p : Prog α} {f : α → Prog β} {R : β → Prop} (h : D bad m p) (hf : ∀ a, Df bad m (f a) R) : Df bad m (p >>= f) R :=
  Df.bind h fun a _ => hf a

theorem DE.bindQ {p : E α} {f : α → E β} {Q : Except Err α → Prop} (h : Df bad m p.run Q) (hf : ∀ a, Q (.ok a) → DE bad m (f a)) :
    DE bad m (p >>= f) := by
  change D bad m (p.run >>= _)
  refine Df.bind h fun a ha => ?_
  cases a with
  | ok a => exact hf a ha
  | error e => trivial

theorem DE.bind {p : E α} {f : α → E β} (h : DE bad m p) (hf : ∀ a, DE bad m (f a)) : DE bad m (p >>= f) := DE.bindQ h fun a _ => hf a

theorem Df.lift {p : Prog α} {Q : α → Prop} (h : Df bad m p Q) : Df bad m (liftM p : E α).run fun r => ∀ y, r = .ok y → Q y :=
  Df.bind h fun _ ha _ hy => by cases hy; exact ha
theorem DE.lift {p : Prog α} (h : D bad m p) : DE bad m (liftM p : E α) := D.bind h fun _ => trivial
theorem DE.lift' {p : Prog α} (h : D bad m p) : DE bad m (ExceptT.lift p : E α) := D.bind h fun _ => trivial
theorem d_ofOut {x : Out α} : D bad m (ofOut x) := by cases x <;> trivial
theorem dE_mkOut {x : Out (Except Err α)} : DE bad m (ExceptT.mk (ofOut x)) := d_ofOut
theorem d_pure {a : α} : D bad m (pure a : Prog α) := trivial
theorem d_pureQ {a : α} {Q : α → Prop} (h : Q a) : Df bad m (pure a : Prog α) Q := h
theorem d_panic : D bad m (Prog.panic : Prog α) := trivial
theorem dE_panic : DE bad m (Prog.panic : Prog (Except Err α)) := trivial
theorem dE_pure {a : α} : DE bad m (pure a : E α) := trivial
theorem dE_fail {e' : Err} : DE bad m (fail e' : E α) := trivial
theorem dE_mk {x : Except Err α} : DE bad m (ExceptT.mk (pure x) : E α) := trivial
theorem d_doOp {o : Op} : D bad m (doOp o) := Df.op fun _ => trivial
theorem d_getSt : D bad m getSt := fun _ _ => trivial
theorem d_getSt_bind {f : St → Prog β} {R : β → Prop} (hf : ∀ s, Still bad s → Df bad m (f s) R) : Df bad m (getSt >>= f) R := hf
theorem dE_getSt_bind {f : St → E β} (hf : ∀ s, Still bad s → DE bad m (f s)) : DE bad m ((liftM getSt : E St) >>= f) := hf
theorem d_callP {hd : List Held} {c : Call} (hr : c.Ready) (h : Less c.size m) : D bad m (callP hd c) := ⟨⟨hr, h⟩, fun _ _ => trivial⟩
theorem d_callQ {hd : List Held} {c : Call} (hr : c.Ready) (h : Less c.size m) : Df bad m (callP hd c) c.After := ⟨⟨hr, h⟩, fun _ h => h⟩
theorem dE_callE {hd : List Held} {c : Call} (hr : c.Ready) (h : Less c.size m) : DE bad m (callE hd c) := ⟨⟨hr, h⟩, fun _ _ => trivial⟩

/-- The code may be evaluated. -/
abbrev Room (m : Nat × Nat × Nat) (a : List Code) : Prop := Less (0, 10 * sizeOf a + 1, 0) m

theorem dE_hello {hd : List Held} {a : List Code} {env : Env} (h : Room m a) : DE bad m (hello hd a env) := dE_callE (c := .codes ..) trivial h
theorem d_codes {hd : List Held} {a : List Code} {i e : Nat} {env : Env} (h : Room m a) : D bad m (callP hd (.codes a i e env)) :=
  d_callP (c := .codes ..) trivial h
theorem dE_codes {hd : List Held} {a : List Code} {i e : Nat} {env : Env} (h : Room m a) : DE bad m (callE hd (.codes a i e env)) :=
  dE_callE (c := .codes ..) trivial h

syntax "df_rule" : tactic
macro_rules | `(tactic| df_rule) => `(tactic| with_reducible exact d_pure)
macro_rules | `(tactic| df_rule) => `(tactic| with_reducible exact d_panic)
macro_rules | `(tactic| df_rule) => `(tactic| with_reducible exact dE_panic)
macro_rules | `(tactic| df_rule) => `(tactic| with_reducible exact dE_pure)
macro_rules | `(tactic| df_rule) => `(tactic| with_reducible exact dE_fail)
macro_rules | `(tactic| df_rule) => `(tactic| with_reducible exact dE_mk)
macro_rules | `(tactic| df_rule) => `(tactic| with_reducible exact dE_mkOut)
macro_rules | `(tactic| df_rule) => `(tactic| with_reducible exact d_ofOut)
macro_rules | `(tactic| df_rule) => `(tactic| ((with_reducible refine dE_hello ?_) <;> assumption))
macro_rules | `(tactic| df_rule) => `(tactic| ((with_reducible refine d_codes ?_) <;> assumption))
macro_rules | `(tactic| df_rule) => `(tactic| ((with_reducible refine dE_codes ?_) <;> assumption))
macro_rules | `(tactic| df_rule) => `(tactic| with_reducible exact d_doOp)
macro_rules | `(tactic| df_rule) => `(tactic| with_reducible exact d_getSt)

macro "df" : tactic => `(tactic| repeat' (first
  | df_rule
  | with_reducible refine dE_getSt_bind ?_
  | with_reducible refine d_getSt_bind ?_
  | with_reducible refine DE.bind ?_ ?_
  | with_reducible refine DE.lift ?_
  | with_reducible refine DE.lift' ?_
  | with_reducible refine D.bind ?_ ?_
  | split
  | dsimp only
  | intro _))

theorem g_addItem {ret : Nat} {i : Item} : D bad m (addItem ret i) := by unfold addItem; df
macro_rules | `(tactic| df_rule) => `(tactic| with_reducible exact g_addItem)
theorem g_addVal {ret : Nat} {v : Val} {r : List Str} : D bad m (addVal ret v r) := by unfold addVal; df
macro_rules | `(tactic| df_rule) => `(tactic| with_reducible exact g_addVal)
theorem g_addT {ret : Nat} {t : Str} : D bad m (addT ret t) := by unfold addT; df
macro_rules | `(tactic| df_rule) => `(tactic| with_reducible exact g_addT)
theorem g_addKwI {ret : Nat} {t : KwId} : D bad m (addKwI ret t) := by unfold addKwI; df
macro_rules | `(tactic| df_rule) => `(tactic| with_reducible exact g_addKwI)
theorem g_addDun {ret : Nat} : D bad m (addDun ret) := by unfold addDun; df
macro_rules | `(tactic| df_rule) => `(tactic| with_reducible exact g_addDun)
theorem g_addTs {ret : Nat} {l : List Str} : D bad m (addTs ret l) := by
  induction l with
  | nil => trivial
  | cons t ts ih => unfold addTs; exact D.bind g_addT fun _ => ih
macro_rules | `(tactic| df_rule) => `(tactic| with_reducible exact g_addTs)
theorem g_getList {r : Nat} : D bad m (getList r) := by unfold getList; df
macro_rules | `(tactic| df_rule) => `(tactic| with_reducible exact g_getList)
theorem g_helloNew {hd : List Held} {a : List Code} {env : Env} (h : Room m a) : DE bad m (helloNew hd a env) := by unfold helloNew; df
macro_rules | `(tactic| df_rule) => `(tactic| with_reducible exact g_helloNew (by assumption))
theorem g_helloVec {a : List Code} {env : Env} (h : Room m a) : DE bad m (helloVec a env) := by unfold helloVec; df
macro_rules | `(tactic| df_rule) => `(tactic| with_reducible exact g_helloVec (by assumption))

/-! ## Variables and arguments -/

theorem g_argiP {i : Int} {isHas equ : Bool} {name : Str} {q ret : Nat} : D bad m (argiP i isHas equ name q ret) := by unfold argiP; df
macro_rules | `(tactic| df_rule) => `(tactic| with_reducible exact g_argiP)
theorem g_arg0P {z : Str} {isHas : Bool} {q ret : Nat} : D bad m (arg0P z isHas q ret) := by unfold arg0P; df
macro_rules | `(tactic| df_rule) => `(tactic| with_reducible exact g_arg0P)
theorem g_argcP {isHas : Bool} {q ret : Nat} : D bad m (argcP isHas q ret) := by unfold argcP; df
macro_rules | `(tactic| df_rule) => `(tactic| with_reducible exact g_argcP)
theorem g_argsP {isHas : Bool} {q : Nat} {b e : Int} {line : Bool} {ret : Nat} : D bad m (argsP isHas q b e line ret) := by unfold argsP; df
macro_rules | `(tactic| df_rule) => `(tactic| with_reducible exact g_argsP)

theorem getName_plain {s : St} (hs : ∀ q, ∀ v ∈ (s.scopes q).vars, v.alias = false) {q : Nat} {name : Str} {isHas equ canUp noSelf : Bool}
    {p : Nat} {it : Item} {b : Bool} : getName s.scopes s.mods q name isHas equ canUp noSelf ≠ some (p, .alias it b) := by
  intro h
  unfold getName at h
  obtain ⟨⟨x, ns⟩, -, h⟩ := List.exists_of_findSome?_eq_some h
  obtain ⟨act, h1, h2⟩ := Option.map_eq_some_iff.1 h
  cases h2
  unfold Scope.get at h1
  split at h1
  · rename_i v hv
    have := hs _ v (List.mem_of_find?_eq_some hv)
    unfold Var.act at h1
    rw [this] at h1
    simp only [Bool.false_eq_true, if_false] at h1
    repeat' split at h1
    all_goals cases h1
  · split at h1
    · split at h1 <;> cases h1
    · split at h1
      · obtain ⟨_, -, h⟩ := Option.map_eq_some_iff.1 h1
        cases h
      · cases h1

theorem g_getP (hb : ∀ a b, bad (.alias a b) = true) {name : Str} {isHas equ canUp noSelf : Bool} {env : Env} :
    Df bad m (getP name isHas equ canUp noSelf env) fun r => ∀ x, r ≠ some (some x) := by
  unfold getP
  refine d_getSt_bind fun s hs => ?_
  split
  · exact d_pureQ nofun
  · rename_i q act h
    cases act with
    | «alias» it b => exact absurd h (getName_plain (hs.plain hb))
    | hasVar it => exact D.bind g_addVal fun _ => d_pureQ nofun
    | name => exact D.bind g_addT fun _ => d_pureQ nofun
    | nothing => exact d_pureQ nofun
    | val it => exact D.bind g_addItem fun _ => d_pureQ nofun
    | text t => exact D.bind g_addT fun _ => d_pureQ nofun
    | arg i e => exact D.bind g_argiP fun _ => d_pureQ nofun

theorem g_getAliasP (hb : ∀ a b, bad (.alias a b) = true) {name : Str} {isHas : Bool} {equ : EquName} {canUp : Bool} {q2 : Nat} {env : Env} :
    DE bad m (getAliasP name isHas equ canUp q2 env) := by
  unfold getAliasP
  refine DE.bindQ (g_getP hb).lift fun r hr => ?_
  have hr := hr r rfl
  split
  · df
  · df
  · exact absurd rfl (hr _)
macro_rules | `(tactic| df_rule) => `(tactic| with_reducible exact g_getAliasP (by assumption))
theorem g_getArgs (hb : ∀ a b, bad (.alias a b) = true) {name : Str} {rems : List Str} {isHas : Bool} {equ : EquName} {q2 : Nat} {env : Env} :
    DE bad m (getArgs name rems isHas equ q2 env) := by
  unfold getArgs; df
macro_rules | `(tactic| df_rule) => `(tactic| with_reducible exact g_getArgs (by assumption))
theorem g_get2P (hb : ∀ a b, bad (.alias a b) = true) {l : List Item} {isHas : Bool} {equ : EquName} {env : Env} :
    DE bad m (get2P l isHas equ env) := by unfold get2P; df
theorem g_var1P {rems : List Str} {name : Str} {env : Env} : DE bad m (var1P rems name env) := by unfold var1P; df
macro_rules | `(tactic| df_rule) => `(tactic| with_reducible exact g_var1P)
theorem g_simpP (hb : ∀ a b, bad (.alias a b) = true) {name : Str} {rems : List Str} {env : Env} : DE bad m (simpP name rems env) := by
  unfold simpP
  refine DE.bind g_var1P fun q => ?_
  refine DE.bindQ (g_getP hb).lift fun r hr => ?_
  have hr := hr r rfl
  split
  · df
  · df
  · exact absurd rfl (hr _)
theorem g_remTarget {env : Env} : D bad m (remTarget env) := by unfold remTarget; df
macro_rules | `(tactic| df_rule) => `(tactic| with_reducible exact g_remTarget)
theorem g_remP {r2 : Nat} {env : Env} : D bad m (remP r2 env) := by unfold remP; df
macro_rules | `(tactic| df_rule) => `(tactic| with_reducible exact g_remP)
theorem g_remsP {rems : List Code} {env : Env} (h : Room m rems) : DE bad m (remsP rems env) := by unfold remsP; df
macro_rules | `(tactic| df_rule) => `(tactic| with_reducible exact g_remsP (by assumption))

/-! ## Statement lists -/

theorem g_codesP {a : List Code} {i e : Nat} {env : Env} : D bad (Call.size (.codes a i e env)) (codesP a i e env) := by
  unfold codesP
  refine D.bind (d_callP (c := .z2 ..) trivial (.inr ⟨rfl, .inl (Nat.lt_succ_self _)⟩)) fun r => ?_
  df

theorem sizeOf_pos (a : List Code) : 0 < sizeOf a := by cases a <;> simp; omega

theorem g_z2Item {a : List Code} {i k e : Nat} {env : Env} {c : Code} (hc : a[i]? = some c) (hk : i ≤ k) :
    D bad (0, 10 * sizeOf a, a.length - i) (z2Item a k e env c) := by
  unfold z2Item
  have h1 : sizeOf c < sizeOf a := List.sizeOf_lt_of_mem (List.mem_of_getElem? hc)
  have h2 : i < a.length := (List.getElem?_eq_some_iff.1 hc).1
  refine D.bind (d_callP (c := .item ..) trivial (.inr ⟨rfl, .inl (by dsimp only [Call.size]; omega)⟩)) fun r => ?_
  split
  · exact d_callP (c := .z2 ..) trivial (.inr ⟨rfl, .inr ⟨rfl, by dsimp only [Call.size]; omega⟩⟩)
  · trivial

theorem g_z2P {a : List Code} {i e : Nat} {env : Env} : D bad (Call.size (.z2 a i e env)) (z2P a i e env) := by
  unfold z2P
  split
  · split
    · trivial
    · rename_i c hc
      have this : D bad (Call.size (.z2 a i e env)) (z2Item a i e env c) := g_z2Item hc (Nat.le_refl _)
      have h2 : i < a.length := (List.getElem?_eq_some_iff.1 hc).1
      split
      · split
        · exact this
        · have := sizeOf_pos a
          refine Df.bind (d_callQ (c := .z4 ..) trivial (.inr ⟨rfl, .inl (by dsimp only [Call.size]; omega)⟩)) fun r hr => ?_
          have hr : r.idx = i + if r.has then 1 else 0 := hr
          split
          · trivial
          · split
            · rename_i h
              rw [h, if_pos rfl] at hr
              exact d_callP (c := .z2 ..) trivial (.inr ⟨rfl, .inr ⟨rfl, by dsimp only [Call.size]; omega⟩⟩)
            · exact g_z2Item hc (by omega)
      · split
        · trivial
        · refine D.bind d_getSt fun s => ?_
          split
          · exact this
          · exact d_callP (c := .z2 ..) trivial (.inr ⟨rfl, .inr ⟨rfl, by dsimp only [Call.size]; omega⟩⟩)
      · split
        · trivial
        · exact this
      · exact this
  · trivial

theorem g_returnP {q : Nat} {r : Except Err Unit} : DE bad m (returnP q r) := by unfold returnP; df
macro_rules | `(tactic| df_rule) => `(tactic| with_reducible exact g_returnP)

theorem withAt_len {cs s2 : Str} {i len : Nat} {b : Bool} (h : withAt cs s2 i = some (len, b)) : len = s2.length := by
  unfold withAt at h
  split at h
  · have := (withGo_le _ _ _ h).1
    omega
  · split at h
    · rename_i h2
      cases h
      simp at h2
      simp [h2]
    · cases h

theorem findDef_next {sc : Nat → Scope} {ms : List Nat} {cs : Str} {f e : Nat} {pc : List Str} {q i len p k : Nat}
    (h : findDef sc ms cs f e pc q = some (i, len, p, k)) (hd : ∀ p, ∀ d ∈ (sc p).defs, d.name0 ≠ []) : f < i + len := by
  unfold findDef at h
  generalize e - f = n at h
  suffices key : ∀ n f0, f ≤ f0 → findDefGo sc ms cs pc q f0 n = some (i, len, p, k) → f < i + len from key n f (Nat.le_refl _) h
  intro n
  induction n with
  | zero => intro f0 _ h; cases h
  | succ n ih =>
    intro f0 hf h
    unfold findDefGo at h
    split at h
    · rename_i r hr
      obtain ⟨⟨p', b⟩, hm, hf'⟩ := List.exists_of_findSome?_eq_some hr
      cases h
      dsimp only at hf'
      obtain ⟨⟨k', l'⟩, h1, h2⟩ := Option.map_eq_some_iff.1 hf'
      cases h2
      unfold findDefAt at h1
      obtain ⟨⟨d, k2⟩, hm2, h1⟩ := List.exists_of_findSome?_eq_some h1
      dsimp only at h1
      split at h1
      · cases h1
      · obtain ⟨⟨l, b2⟩, hw, h3⟩ := Option.map_eq_some_iff.1 h1
        cases h3
        have hw := withAt_len hw
        have := hd _ d (List.mem_of_getElem? (List.mem_zipIdx_iff_getElem?.1 hm2))
        have := List.length_pos_iff.2 this
        omega
    · exact ih (f0 + 1) (by omega) h

theorem g_z4P {a : List Code} {cs : Str} {e2 e : Nat} {env : Env} {st : Z4} :
    Df bad (Call.size (.z4 a cs e2 e env st)) (z4P a cs e2 e env st) (Call.After (.z4 a cs e2 e env st)) := by
  unfold z4P
  split
  · rename_i hlt
    have again : ∀ st' : Z4, st'.idx = st.idx → st.idx2 < st'.idx2 → Df bad (Call.size (.z4 a cs e2 e env st))
        (callP [] (.z4 a cs e2 e env st')) (Call.After (.z4 a cs e2 e env st)) := fun st' h1 h2 =>
      Df.mono (d_callQ (m := Call.size (.z4 a cs e2 e env st)) (c := .z4 a cs e2 e env st') trivial
          (.inr ⟨rfl, .inr ⟨rfl, by dsimp only [Call.size]; omega⟩⟩)) fun r hr => by
        have hr : r.idx = st'.idx + if r.has then 1 else 0 := hr
        rw [h1] at hr
        exact hr
    refine d_getSt_bind fun s hs => ?_
    split
    · split
      · trivial
      · exact again _ rfl (Nat.lt_succ_self _)
    · rename_i i len p k hf
      split
      · trivial
      · rename_i d hd
        have hn := findDef_next hf fun p d hd => (hs.defs p d hd).2.2.1
        obtain ⟨⟨t, ht⟩, -, -, hg⟩ := hs.defs _ d (List.mem_of_getElem? hd)
        have : sparg d a cs e2 e st.idx (i + len) = .ok (some ([], 0)) := by
          unfold sparg
          rw [hg]
          rfl
        rw [this]
        refine Df.bind (Q := fun r => r = some ([], 0)) (show Df bad _ (Prog.ret _) _ from rfl) fun r hr => ?_
        subst hr
        dsimp only
        refine D.bind g_addTs fun _ => ?_
        rw [ht]
        exact D.bind g_addT fun _ => again _ rfl hn
  · split
    · have last : Df bad (Call.size (.z4 a cs e2 e env st)) (pure { idx := st.idx + 1, idx2 := st.idx2, has := true } : Prog Res)
          (Call.After (.z4 a cs e2 e env st)) := show st.idx + 1 = st.idx + 1 from rfl
      split
      · exact D.bind g_addT fun _ => last
      · exact last
    · exact show st.idx = st.idx + 0 from rfl

/-! ## Statements -/

theorem g_setJie {ret : Nat} {name : Str} {v : Item} {s : Str} {n : Nat} : DE bad m (setJie ret name v s n) := by
  induction s generalizing n with
  | nil => trivial
  | cons c cs ih => unfold setJie; df <;> exact ih
macro_rules | `(tactic| df_rule) => `(tactic| with_reducible exact g_setJie)
theorem g_setGo {b : Bool} {env : Env} {gs : List (List Item)} {st : SetSt} : DE bad m (setGo b env gs st) := by
  induction gs generalizing st with
  | nil => trivial
  | cons g gs ih =>
    unfold setGo
    refine DE.bind (DE.lift d_getSt) fun s => DE.bind dE_mkOut fun x => DE.bind (DE.lift ?_) fun v => ?_
    · df
    · split
      · exact DE.lift d_panic
      · exact DE.bind (DE.lift d_doOp) fun _ => DE.bind g_setJie fun _ => ih
macro_rules | `(tactic| df_rule) => `(tactic| with_reducible exact g_setGo)
theorem g_setP {b : Bool} {n v : List Code} {env : Env} (hn : Room m n) (hv : Room m v) : DE bad m (setP b n v env) := by unfold setP; df
theorem g_nameP {b : Bool} {a : List Code} {env : Env} (h : Room m a) : DE bad m (nameP b a env) := by unfold nameP; df
theorem g_switchHits {case : List Code} {t : Str} {env : Env} {bs : List (Nat × Nat)} (h : Room m case) :
    DE bad m (switchHits case t env bs) := by
  induction bs with
  | nil => trivial
  | cons b bs ih =>
    obtain ⟨i, k⟩ := b
    unfold switchHits
    exact DE.bind (DE.lift d_doOp) fun r => DE.bind (dE_codes h) fun _ => DE.bind (DE.lift g_getList) fun l => DE.bind ih fun _ => trivial
macro_rules | `(tactic| df_rule) => `(tactic| with_reducible exact g_switchHits (by assumption))
theorem g_switchRun {case : List Code} {env : Env} {bs : List (Nat × Nat)} (h : Room m case) : DE bad m (switchRun case env bs) := by
  induction bs with
  | nil => trivial
  | cons b bs ih => unfold switchRun; exact DE.bind (dE_codes h) fun _ => ih
macro_rules | `(tactic| df_rule) => `(tactic| with_reducible exact g_switchRun (by assumption))
theorem g_switchP {one : Bool} {a case : List Code} {bs : List (Nat × Nat)} {d : Option Nat} {env : Env} (ha : Room m a)
    (hc : Room m case) : DE bad m (switchP one a case bs d env) := by unfold switchP; df
theorem g_condMv {b : Bool} {a : List Code} {env : Env} {st : CondSt} (h : Room m a) :
    Df bad m (condMv b a env st) fun r => r.2.idx = st.idx := by
  unfold condMv
  refine D.bind (d_codes h) fun r => ?_
  split
  · rfl
  · exact D.bind g_getList fun _ => D.bind d_doOp fun _ => rfl
theorem g_condCmp {a : List Code} {env : Env} {st : CondSt} (h : Room m a) : Df bad m (condCmp a env st) fun r => r.2.idx = st.idx := by
  unfold condCmp
  split
  · rfl
  · refine Df.bind (g_condMv h) fun r hr => ?_
    split
    · exact hr
    · exact D.bind d_doOp fun _ => hr

theorem nextOr_lt (l : List Code) (i : Nat) : i < nextOr l i := by
  induction l generalizing i with
  | nil => exact Nat.lt_succ_self _
  | cons c l ih =>
    unfold nextOr
    split
    · exact Nat.lt_succ_self _
    · exact Nat.lt_of_succ_lt (ih (i + 1))

theorem g_condP {a : List Code} {env : Env} {st : CondSt} : D bad (Call.size (.cond a env st)) (condP a env st) := by
  have room : Room (Call.size (.cond a env st)) a := .inr ⟨rfl, .inl (Nat.lt_succ_self _)⟩
  unfold condP
  split
  · refine Df.bind (g_condCmp room) fun r _ => ?_
    split
    split <;> trivial
  · rename_i c hc
    have hlt : st.idx < a.length := (List.getElem?_eq_some_iff.1 hc).1
    have again : ∀ st' : CondSt, st.idx < st'.idx → D bad (Call.size (.cond a env st)) (callP [] (.cond a env st')) := fun st' h =>
      d_callP (c := .cond ..) trivial (.inr ⟨rfl, .inr ⟨rfl, by dsimp only [Call.size]; omega⟩⟩)
    split
    · rename_i b
      have h1 : sizeOf (Code.block b) < sizeOf a := List.sizeOf_lt_of_mem (List.mem_of_getElem? hc)
      have h2 : sizeOf b < sizeOf a := by simp at h1; omega
      refine D.bind d_doOp fun r3 => D.bind (d_callP (c := .cond ..) trivial (.inr ⟨rfl, .inl (by dsimp only [Call.size]; omega)⟩)) fun r => ?_
      dsimp only
      split
      · split
        · exact again _ (Nat.lt_succ_self _)
        · trivial
      · exact again _ (Nat.lt_succ_self _)
    · split
      · refine Df.bind (g_condCmp room) fun r hr => ?_
        obtain ⟨r, st2⟩ := r
        have hr : st2.idx = st.idx := hr
        dsimp only
        split
        · trivial
        · split
          · trivial
          · split
            · refine again _ ?_
              dsimp only
              rw [hr]
              exact nextOr_lt _ _
            · refine again _ ?_
              dsimp only
              omega
      · split
        · exact again _ (Nat.lt_succ_self _)
        · split
          · refine Df.bind (g_condMv room) fun r hr => ?_
            obtain ⟨r, st2⟩ := r
            have hr : st2.idx = st.idx := hr
            dsimp only
            split
            · trivial
            · refine again _ ?_
              dsimp only
              omega
          · exact again _ (Nat.lt_succ_self _)

theorem g_ifP {a th el : List Code} {env : Env} (h : ∀ k, Less (0, 10 * sizeOf a + 2, k) m) (h2 : Room m th) (h3 : Room m el) :
    DE bad m (ifP a th el env) := by
  unfold ifP
  refine DE.bind (DE.lift d_doOp) fun r2 => DE.bind (DE.lift (d_callP (c := .cond ..) trivial (h _))) fun r => ?_
  df

theorem g_loopP {r : Bool} {a : List Code} {mx : Nat} {cnt : Cnt} {env : Env} {i : Nat} {n : Bool} :
    D bad (Call.size (.loop r a mx true cnt env i n)) (loopP r a mx true cnt env i n) := by
  have room : Room (Call.size (.loop r a mx true cnt env i n)) a := .inr ⟨rfl, .inl (Nat.lt_succ_self _)⟩
  simp only [loopP, if_true, Bool.true_and]
  split
  · trivial
  · rename_i hle
    have hle : i + 1 ≤ mx := by simpa using hle
    have again : ∀ hn, D bad (Call.size (.loop r a mx true cnt env i n)) (callP [] (.loop r a mx true cnt env (i + 1) hn)) := fun hn =>
      d_callP (c := .loop ..) rfl (.inr ⟨rfl, .inr ⟨rfl, by dsimp only [Call.size]; omega⟩⟩)
    have rest : ∀ (x : Res) (hn : Bool) (nm : Option Str), D bad (Call.size (.loop r a mx true cnt env i n))
        (match x.r with
          | .ok () => if r then pure { has := hn, r := .ok () } else callP [] (.loop r a mx true cnt env (i + 1) hn)
          | .error e =>
            if loopTakes r nm e then
              (if e.i = loopBreak r then pure { has := hn, r := .ok () } else callP [] (.loop r a mx true cnt env (i + 1) hn))
            else pure { has := hn, r := .error e }) := by
      intro x hn nm
      split
      · split
        · trivial
        · exact again _
      · split
        · split
          · trivial
          · exact again _
        · trivial
    have tail : ∀ (hn : Bool) (nm : Option Str), D bad (Call.size (.loop r a mx true cnt env i n))
        (if a.isEmpty then (if r then pure { has := hn, r := .ok () } else callP [] (.loop r a mx true cnt env (i + 1) hn))
        else do
          let x ← callP [] (.codes a 0 usizeMax env)
          match x.r with
          | .ok () => if r then pure { has := hn, r := .ok () } else callP [] (.loop r a mx true cnt env (i + 1) hn)
          | .error e =>
            if loopTakes r nm e then
              (if e.i = loopBreak r then pure { has := hn, r := .ok () } else callP [] (.loop r a mx true cnt env (i + 1) hn))
            else pure { has := hn, r := .error e }) := by
      intro hn nm
      split
      · split
        · trivial
        · exact again _
      · exact D.bind (d_codes room) fun x => rest x hn nm
    split
    · refine D.bind d_doOp fun v => D.bind d_doOp fun _ => ?_
      split
      · exact D.bind d_doOp fun _ => tail _ _
      · exact tail _ _
    · exact tail _ _

theorem cntRems_keeps {range : Bool} {rs : List Str} {k : Nat} {c c' : Cnt} (h : cntRems range rs k c = .ok c')
    (hc : c.max.isSome = true ∨ c.name.isSome = true) : c'.max.isSome = true ∨ c'.name.isSome = true := by
  induction rs generalizing k c with
  | nil => cases h; exact hc
  | cons r rs ih =>
    unfold cntRems at h
    split at h
    · cases h
    · rename_i c2 h2
      refine ih h ?_
      unfold Cnt.hello at h2
      repeat' split at h2
      all_goals cases h2
      · exact .inl rfl
      · exact hc
      · exact .inr rfl
    · cases h

theorem g_forP {r : Bool} {cnt : Cnt} {rems a : List Code} {env : Env} (hcnt : cnt.max.isSome = true ∨ cnt.name.isSome = true)
    (h1 : Room m rems) (h : ∀ k, Less (0, 10 * sizeOf a + 2, k) m) : DE bad m (forP r cnt rems a env) := by
  unfold forP
  refine DE.bind (g_remsP h1) fun rs => ?_
  refine DE.bindQ (Q := fun x => ∀ c, x = .ok c → c.max.isSome = true ∨ c.name.isSome = true) (show Df bad m (Prog.ret _) _ from
    fun c hc => cntRems_keeps hc hcnt) fun c hc => ?_
  have hc := hc c rfl
  split
  rename_i mx useI he
  have hu : useI = true := by
    split at he
    · cases he; rfl
    · rename_i e
      cases he
      rw [e] at hc
      simpa using hc
  subst hu
  refine DE.bind (DE.lift (d_callP (c := .loop ..) rfl (h _))) fun x => ?_
  df

theorem g_jumpP {k : JumpKind} {a : List Code} {env : Env} (h : Room m a) : DE bad m (jumpP k a env) := by unfold jumpP; df
theorem g_jieP {rems a : List Code} {env : Env} (h1 : Room m rems) (h : Room m a) : DE bad m (jieP rems a env) := by
  unfold jieP; df
theorem g_jie2P {a : List Code} {env : Env} (h : Room m a) : DE bad m (jie2P a env) := by
  unfold jie2P
  refine DE.bind (DE.lift' (show D bad m _ from dE_hello h)) fun r => ?_
  df
theorem g_printJie {ret : Nat} {t s : Str} : DE bad m (printJie ret t s) := by
  induction s with
  | nil => trivial
  | cons c cs ih => unfold printJie; df <;> exact ih
macro_rules | `(tactic| df_rule) => `(tactic| with_reducible exact g_printJie)
theorem g_printP {a : List Code} {env : Env} (h : Room m a) : DE bad m (printP a env) := by
  unfold printP
  refine DE.bind (g_helloVec h) fun v => ?_
  split
  · df
  · refine DE.bind dE_mk fun x => dE_getSt_bind fun s hs => ?_
    have hn : ∀ q, printHandler s q = none := by
      intro q
      unfold printHandler
      rw [List.findSome?_eq_none_iff]
      intro p _
      rw [Option.map_eq_none_iff, List.find?_eq_none]
      intro d hd
      simpa using (hs.defs p d hd).2.1
    dsimp only
    rw [hn, ite_self]
    dsimp only
    df
theorem g_explP {a : List Code} {env : Env} (h : Room m a) : DE bad m (explP a env) := by unfold explP; df

macro "sz" : tactic => `(tactic| first | (simp; done) | (simp; omega))

theorem g_itemP {c : Code} {env : Env} (hb : ∀ c, Spec.mayHang c = true → bad c = true) (h : bad c = false) :
    DE bad (0, 10 * sizeOf c, 0) (itemP c env) := by
  have no : Spec.mayHang c = true → False := fun e => by rw [hb c e] at h; cases h
  have ha : ∀ a b, bad (.alias a b) = true := fun a b => hb _ rfl
  have fit : ∀ {a : List Code}, sizeOf a < sizeOf c → Room (0, 10 * sizeOf c, 0) a := fun h => .inr ⟨rfl, .inl (by dsimp only; omega)⟩
  have fit2 : ∀ {a : List Code}, sizeOf a < sizeOf c → ∀ k, Less (0, 10 * sizeOf a + 2, k) (0, 10 * sizeOf c, 0) :=
    fun h k => .inr ⟨rfl, .inl (by dsimp only; omega)⟩
  cases c with
  | for_ r cnt rems a =>
    refine g_forP ?_ (fit (by sz)) (fit2 (by sz))
    cases h1 : cnt.max <;> cases h2 : cnt.name <;> simp
    exact no (by simp [Spec.mayHang, h1, h2])
  | jump k a => exact g_jumpP (fit (by sz))
  | if_ a th el => exact g_ifP (fit2 (by sz)) (fit (by sz)) (fit (by sz))
  | switch one a case bs d => exact g_switchP (fit (by sz)) (fit (by sz))
  | jie rems a => exact g_jieP (fit (by sz)) (fit (by sz))
  | jie2 a => exact g_jie2P (fit (by sz))
  | mod_ a => exact g_nameP (fit (by sz))
  | name a => exact g_nameP (fit (by sz))
  | set_ n v => exact g_setP (fit (by sz)) (fit (by sz))
  | «alias» n v => exact (no rfl).elim
  | def_ n v sp => exact (no rfl).elim
  | eval l cur a0 i a sp e => exact (no rfl).elim
  | exec a => exact (no rfl).elim
  | modFree a => exact (no rfl).elim
  | print a => exact g_printP (fit (by sz))
  | expl a => exact g_explP (fit (by sz))
  | simp name rems => exact g_simpP ha
  | has a =>
    have h0 : Room (0, 10 * sizeOf (Code.has a), 0) a := fit (by sz)
    have h1 : ∀ {l e env}, DE bad (0, 10 * sizeOf (Code.has a), 0) (callE [] (.get l true e env)) :=
      dE_callE (c := .get ..) trivial (.inr ⟨rfl, .inl (by dsimp only [Call.size]; sz)⟩)
    unfold itemP; dsimp only; df; exact h1
  | var rems a =>
    have h0 : Room (0, 10 * sizeOf (Code.var rems a), 0) a := fit (by sz)
    have h1 : ∀ {l e env}, DE bad (0, 10 * sizeOf (Code.var rems a), 0) (callE [] (.get l false e env)) :=
      dE_callE (c := .get ..) trivial (.inr ⟨rfl, .inl (by dsimp only [Call.size]; sz)⟩)
    unfold itemP; dsimp only; df; exact h1
  | block a =>
    have h0 : Room (0, 10 * sizeOf (Code.block a), 0) a := fit (by sz)
    unfold itemP; dsimp only; df
  | du a =>
    have h0 : Room (0, 10 * sizeOf (Code.du a), 0) a := fit (by sz)
    unfold itemP; dsimp only; df
  | rem a =>
    have h0 : Room (0, 10 * sizeOf (Code.rem a), 0) a := fit (by sz)
    unfold itemP; dsimp only; df
  | _ => unfold itemP; dsimp only; df

theorem g_resE {p : E Unit} (h : DE bad m p) : D bad m (resE p) := D.bind h fun _ => trivial

theorem g_srcP {src : Str} {env : Env} : DE bad (1, 0, 0) (srcP src env) := by
  unfold srcP
  refine DE.bind (show D bad _ _ from d_doOp) fun l => DE.bind (DE.lift (d_codes (.inl Nat.zero_lt_one))) fun r => ?_
  df

theorem g_evalF {c : Call} (hb : ∀ c, Spec.mayHang c = true → bad c = true) (h : c.Ok bad T) (hr : c.Ready) :
    Df bad c.size (evalF c) c.After := by
  cases c with
  | codes a i e env => exact g_codesP
  | z2 a i e env => exact g_z2P
  | z4 a cs e2 e env st => exact g_z4P
  | item c env => exact g_resE (g_itemP hb (h.1 c (List.mem_singleton.2 rfl) c .self))
  | src s env => exact g_resE g_srcP
  | loop r a mx u cnt env i n =>
    have hr : u = true := hr
    subst hr
    exact g_loopP
  | cond a env st => exact g_condP
  | get l b e env => exact g_resE (g_get2P fun a b => hb _ rfl)
  | slave h' o e b env => exact False.elim h

/-! ## Runs -/

variable {H : Host}

theorem interp_ended {n k : Nat} (hn : n ≤ k) {p : Prog α} {s : St} (h : (p.interp H (run H n) s).1 ≠ .fuel) :
    p.interp H (run H k) s = p.interp H (run H n) s := by
  obtain ⟨d, rfl⟩ := Nat.le.dest hn
  exact (interp_agree (run_agree' H n d) ((kept_trace H).run (n + d)) p s).2 h

theorem after_interp {rec : Call → St → Out Res × St} (hT : ∀ x, T x → Spec.TextWithout bad x)
    (hr : ∀ c s, c.Ok bad T → Still bad s → Still bad (rec c s).2)
    (ha : ∀ c s, c.Ok bad T → c.Ready → Still bad s → ∀ r s', rec c s = (.ok r, s') → c.After r) {p : Prog α} {Q R : α → Prop}
    (h : Sf bad T p Q) (hd : Df bad m p R) {s : St} (hs : Still bad s) : ∀ a s', p.interp H rec s = (.ok a, s') → R a := by
  induction p generalizing s with
  | ret a => intro b s' e; cases e; exact hd
  | panic => intro b s' e; cases e
  | op o k ih =>
    obtain ⟨h1, h2⟩ := still_op (H := H) hT h.1 hs
    intro b s' e
    simp only [Prog.interp] at e
    rcases hx : o.run H s with ⟨x | _ | _, s1⟩
    · rw [hx] at e h1
      refine ih x (h.2 x (h2 x s1 hx)) ?_ h1 b s' e
      cases o with
      | st => cases hx; exact hd _ hs
      | _ => exact hd x
    · rw [hx] at e; cases e
    · rw [hx] at e; cases e
  | call hd' c k ih =>
    obtain ⟨⟨rfl, hc⟩, hk⟩ := h
    obtain ⟨⟨d1, d2⟩, d3⟩ := hd
    intro b s' e
    have e0 : ({ s with held := [] ++ s.held } : St) = s := rfl
    simp only [Prog.interp, e0] at e
    have h1 := hr c s hc hs
    rcases hx : rec c s with ⟨x | _ | _, s1⟩
    · rw [hx] at e h1
      exact ih x (hk x) (d3 x (ha c s hc d1 hs x s1 hx)) (s := { s1 with held := s.held }) ⟨h1.defs, h1.args, h1.nlist, hs.held, h1.cache, h1.ovf, h1.plain⟩ b s' e
    · rw [hx] at e; cases e
    · rw [hx] at e; cases e

theorem mayHang_of {c : Code} (h : runsText c = true) : Spec.mayHang c = true := by
  cases c <;> first | exact h | cases h

theorem after_run (hb : ∀ c, Spec.mayHang c = true → bad c = true) (hT : ∀ x, T x → Spec.TextWithout bad x) (n : Nat) :
    ∀ c s, c.Ok bad T → c.Ready → Still bad s → ∀ r s', run H n c s = (.ok r, s') → c.After r := by
  induction n with
  | zero => intro c s _ _ _ r s' h; cases h
  | succ n ih =>
    intro c s hc hr hs
    exact after_interp hT (still_run (fun c h => hb c (mayHang_of h)) hT n) ih (f_evalF (fun c h => hb c (mayHang_of h)) hc) (g_evalF hb hc hr) hs

theorem ends_interp (hb : ∀ c, Spec.mayHang c = true → bad c = true) (hT : ∀ x, T x → Spec.TextWithout bad x)
    (hr : ∀ c s, c.Ok bad T → c.Ready → Less c.size m → Still bad s → ∃ n, (run H n c s).1 ≠ .fuel) {p : Prog α} {Q R : α → Prop}
    (h : Sf bad T p Q) (hd : Df bad m p R) {s : St} (hs : Still bad s) : ∃ n, (p.interp H (run H n) s).1 ≠ .fuel := by
  induction p generalizing s with
  | ret a => exact ⟨0, nofun⟩
  | panic => exact ⟨0, nofun⟩
  | op o k ih =>
    obtain ⟨h1, h2⟩ := still_op (H := H) hT h.1 hs
    have hne := op_ends (H := H) o s
    simp only [Prog.interp]
    rcases hx : o.run H s with ⟨x | _ | _, s1⟩
    · rw [hx] at h1
      refine ih x (h.2 x (h2 x s1 hx)) ?_ h1
      cases o with
      | st => cases hx; exact hd _ hs
      | _ => exact hd x
    · exact ⟨0, nofun⟩
    · rw [hx] at hne; exact absurd rfl hne
  | call hd' c k ih =>
    obtain ⟨⟨rfl, hc⟩, hk⟩ := h
    obtain ⟨⟨d1, d2⟩, d3⟩ := hd
    obtain ⟨n1, hn1⟩ := hr c s hc d1 d2 hs
    have e0 : ({ s with held := [] ++ s.held } : St) = s := rfl
    simp only [Prog.interp, e0]
    have h1 := still_run (H := H) (fun c h => hb c (mayHang_of h)) hT n1 c s hc hs
    rcases hx : run H n1 c s with ⟨x | _ | _, s1⟩
    · rw [hx] at h1
      obtain ⟨n2, hn2⟩ := ih x (hk x) (d3 x (after_run hb hT n1 c s hc d1 hs x s1 hx)) (s := { s1 with held := s.held })
        ⟨h1.defs, h1.args, h1.nlist, hs.held, h1.cache, h1.ovf, h1.plain⟩
      refine ⟨max n1 n2, ?_⟩
      rw [C40_more_steps H n1 (max n1 n2) (Nat.le_max_left ..) c s hn1, hx]
      dsimp only
      rw [interp_ended (Nat.le_max_right n1 n2) hn2]
      exact hn2
    · exact ⟨n1, by rw [hx]; exact nofun⟩
    · rw [hx] at hn1; exact absurd rfl hn1

theorem ends_run (hb : ∀ c, Spec.mayHang c = true → bad c = true) (hT : ∀ x, T x → Spec.TextWithout bad x) :
    ∀ (c : Call) (s : St), c.Ok bad T → c.Ready → Still bad s → ∃ n, (run H n c s).1 ≠ .fuel := by
  suffices key : ∀ (m : Nat × Nat × Nat) (c : Call) (s : St), c.size = m → c.Ok bad T → c.Ready → Still bad s → ∃ n, (run H n c s).1 ≠ .fuel from
    fun c s => key _ c s rfl
  intro m
  induction m using less_wf.induction with
  | _ m ih =>
    rintro c s rfl hc hr hs
    obtain ⟨n, hn⟩ := ends_interp hb hT (fun c' s' hc' hr' hl hs' => ih _ hl c' s' rfl hc' hr' hs')
      (f_evalF (fun c h => hb c (mayHang_of h)) hc) (g_evalF hb hc hr) hs
    exact ⟨n + 1, hn⟩

theorem ends_callE {rec : Call → St → Out Res × St} {c : Call} {s : St} (h : (rec c s).1 ≠ .fuel) :
    ((callE [] c).run.interp H rec s).1 ≠ .fuel := by
  change (Prog.bind (Prog.bind (callP [] c) _) _ |>.interp H rec s).1 ≠ _
  rw [interp_bind, interp_bind]
  unfold callP
  simp only [Prog.interp]
  have e : ({ s with held := [] ++ s.held } : St) = s := rfl
  rw [e]
  rcases hx : rec c s with ⟨x | _ | _, s1⟩
  · rcases x with ⟨r, _⟩
    cases r <;> exact nofun
  · exact nofun
  · rw [hx] at h; exact absurd rfl h

/-- **C82.** A script given as code that neither runs texts nor makes aliases, and each of whose loops has a limit or a counter, ends. -/
theorem C82_code {shl : Str} {a : List Str} {opts : List Spec.CliOpt} {src : Str} {ws : List Str}
    (hl : Spec.CliLine (shl :: a) opts src ws) (hc : Spec.CliOpt.isCode ∈ opts) (hw : Spec.TextWithout Spec.mayHang src) :
    ∃ n, (runMain H n false (shl :: a)).1 ≠ .fuel := by
  obtain ⟨s, h1, -, h3⟩ := code_run (H := H) (bad := Spec.mayHang) hl hc
  obtain ⟨n, hn⟩ := ends_run (H := H) (fun _ h => h) (T := fun x => x = src) (fun x hx => hx ▸ hw) (.src src Env.init) s
    ⟨rfl, Nat.le_refl _⟩ trivial h1
  exact ⟨n, by rw [h3]; exact ends_callE hn⟩

/-- **C82.** And a script in a file, whether the file can be read or not. -/
theorem C82_file {shl : Str} {a : List Str} {opts : List Spec.CliOpt} {src : Str} {ws : List Str}
    (hl : Spec.CliLine (shl :: a) opts src ws) (hc : Spec.CliOpt.isCode ∉ opts)
    (hf : ∀ tr f, Spec.NamedBy H src f → ∀ t, H.read tr f = .ok t → ∀ b, Spec.Unhashed t b → Spec.TextWithout Spec.mayHang b) :
    ∃ n, (runMain H n false (shl :: a)).1 ≠ .fuel := by
  obtain ⟨s, h1, -, h3⟩ := file_run (H := H) (bad := Spec.mayHang) (T := Spec.TextWithout Spec.mayHang) hl hc hf
  rcases h3 with ⟨x, hx, h3⟩ | ⟨t, ht, h3⟩
  · exact ⟨0, by rw [h3]; exact hx⟩
  · obtain ⟨n, hn⟩ := ends_run (H := H) (fun _ h => h) (T := fun x => x = t) (fun x hx => hx ▸ ht) (.src t Env.init) s
      ⟨rfl, Nat.le_refl _⟩ trivial h1
    exact ⟨n, by rw [h3]; exact ends_callE hn⟩

/-- The words of the statements that may go on for ever. -/
def Spec.hangWords : List KwId := Spec.textWords ++ [.alias, .for_, .range]

theorem textWithout_hang {src : Str} (h : ∀ id ∈ Spec.hangWords, ¬ Spec.Stands src id) : Spec.TextWithout Spec.mayHang src :=
  C79_without fun y hy => by
    by_cases ht : runsText y = true
    · exact ⟨(runsText_id ht).1, h _ (List.mem_append_left _ (runsText_id ht).2)⟩
    · cases y <;> first | exact absurd hy ht | skip
      · rename_i range _ _ _
        cases range
        · exact ⟨rfl, h _ (List.mem_append_right _ (.tail _ (.head _)))⟩
        · exact ⟨rfl, h _ (List.mem_append_right _ (.tail _ (.tail _ (.head _))))⟩
      · exact ⟨rfl, h _ (List.mem_append_right _ (.head _))⟩

/-- **C82.** A script given as code in which none of the words `定义`, `解释`, `加载`, `执行`, `释放模块`, `别名`, `循环`, `圈子` stands ends. -/
theorem C82_words_code {shl : Str} {a : List Str} {opts : List Spec.CliOpt} {src : Str} {ws : List Str}
    (hl : Spec.CliLine (shl :: a) opts src ws) (hc : Spec.CliOpt.isCode ∈ opts) (hw : ∀ id ∈ Spec.hangWords, ¬ Spec.Stands src id) :
    ∃ n, (runMain H n false (shl :: a)).1 ≠ .fuel :=
  C82_code hl hc (textWithout_hang hw)

/-- **C82.** And so does one in a file. -/
theorem C82_words_file {shl : Str} {a : List Str} {opts : List Spec.CliOpt} {src : Str} {ws : List Str}
    (hl : Spec.CliLine (shl :: a) opts src ws) (hc : Spec.CliOpt.isCode ∉ opts)
    (hf : ∀ tr f, Spec.NamedBy H src f → ∀ t, H.read tr f = .ok t → ∀ b, Spec.Unhashed t b → ∀ id ∈ Spec.hangWords, ¬ Spec.Stands b id) :
    ∃ n, (runMain H n false (shl :: a)).1 ≠ .fuel :=
  C82_file hl hc fun tr f hn t ht b hb => textWithout_hang (hf tr f hn t ht b hb)

/-- **C82.** If in addition neither `算术` nor `存在` stands in it, nor a continuation, then it ends properly: with a result or with a message, but
not in a crash. -/
theorem C82_total_code (hH : HostOk H) {shl : Str} {a : List Str} {opts : List Spec.CliOpt} {src : Str} {ws : List Str}
    (hl : Spec.CliLine (shl :: a) opts src ws) (hc : Spec.CliOpt.isCode ∈ opts) (hn : ¬ Spec.Continued src)
    (hw : ∀ id ∈ Spec.hangWords ++ [.expl, .has], ¬ Spec.Stands src id) : ∃ r s', Spec.Ran H false (shl :: a) r s' := by
  obtain ⟨n, h1⟩ := C82_words_code (H := H) hl hc fun id hi => hw id (List.mem_append_left _ hi)
  have h2 := C79_never_code hH hl hc hn (fun id hi => hw id (by
    rcases List.mem_append.1 hi with h | h
    · exact List.mem_append_left _ (List.mem_append_left _ h)
    · exact List.mem_append_right _ h)) n
  rcases hx : runMain H n false (shl :: a) with ⟨x | _ | _, s'⟩
  · exact ⟨x, s', n, hx⟩
  · rw [hx] at h2; exact absurd rfl h2
  · rw [hx] at h1; exact absurd rfl h1

/-- **C82.** And in a file. -/
theorem C82_total_file (hH : HostOk H) {shl : Str} {a : List Str} {opts : List Spec.CliOpt} {src : Str} {ws : List Str}
    (hl : Spec.CliLine (shl :: a) opts src ws) (hc : Spec.CliOpt.isCode ∉ opts)
    (hf : ∀ tr f, Spec.NamedBy H src f → ∀ t, H.read tr f = .ok t →
      ¬ Spec.BadFirstLine t ∧ ∀ b, Spec.Unhashed t b → ¬ Spec.Continued b ∧ ∀ id ∈ Spec.hangWords ++ [.expl, .has], ¬ Spec.Stands b id) :
    ∃ r s', Spec.Ran H false (shl :: a) r s' := by
  obtain ⟨n, h1⟩ := C82_words_file (H := H) hl hc fun tr f hn t ht b hb id hi =>
    ((hf tr f hn t ht).2 b hb).2 id (List.mem_append_left _ hi)
  have h2 := C79_never_file hH hl hc (fun tr f hn t ht => ⟨(hf tr f hn t ht).1, fun b hb => ⟨((hf tr f hn t ht).2 b hb).1, fun id hi => ((hf tr f hn t ht).2 b hb).2 id (by
    rcases List.mem_append.1 hi with h | h
    · exact List.mem_append_left _ (List.mem_append_left _ h)
    · exact List.mem_append_right _ h)⟩⟩) n
  rcases hx : runMain H n false (shl :: a) with ⟨x | _ | _, s'⟩
  · exact ⟨x, s', n, hx⟩
  · rw [hx] at h2; exact absurd rfl h2
  · rw [hx] at h1; exact absurd rfl h1

/-- A loop without a counter over an empty block. -/
def spinB (c : Call) (_ : St) : Bool :=
  match c with
  | .loop false [] _ false cnt _ _ _ => cnt.name.isNone
  | _ => false

/-- Such a loop does not end. -/
theorem spin_endless {c : Call} {s : St} (h : spinB c s = true) (r : Res) (s' : St) : ¬ Evals H c s r s' := by
  intro he
  refine Evals.ind (P := fun c s _ _ => spinB c s = true → False) ?_ he h
  intro c s r s' h hb
  unfold spinB at hb
  split at hb
  · rename_i mx cnt env i hn
    have e : cnt.name = none := by simpa using hb
    simp only [evalF, loopP, e] at h
    simp only [Bool.false_and, Bool.false_eq_true, ↓reduceIte, List.isEmpty_nil] at h
    obtain ⟨r', s1, ⟨-, h1⟩, -⟩ := ev_call.1 h
    exact h1 (by simp [spinB, e])
  · cases hb

/-- **C82.** The exceptions cannot be left out: a loop with neither a limit nor a counter goes on for ever, and so does a circle of aliases. -/
theorem C82_counterexample (r : Except Err _root_.Unit) (s' : St) :
    ¬ Spec.Ran H0 false (demoArgv c!"显示一。循环了。显示二。") r s' ∧
      ¬ Spec.Ran H0 false (demoArgv c!"别名甲以乙。别名乙以甲。显示‘甲’。") r s' := by
  refine ⟨fun hr => ?_, C69_circle_witness r s'⟩
  have h : demoB 12 spinB c!"显示一。循环了。显示二。" = true := by decide +kernel
  obtain ⟨c, s, h1, h2⟩ := demoB_sound h
  obtain ⟨x, t, hx⟩ := ran_calls hr h1
  exact spin_endless h2 x t hx

/-- A script with a loop that has a limit and one that has a counter. -/
def loopsDemo : Str := c!"循环【3】先显示一。了。循环【甲】先如果‘甲’等于2那么先跳出。了。显示‘甲’。了。"

/-- A script that ends with a message. -/
def failsDemo : Str := c!"赋予甲以一。如果‘甲’等于一那么先显示甲。了否则先显示乙。了。显示‘丙’。"

theorem loopsDemo_without : Spec.TextWithout Spec.mayHang loopsDemo := by
  have h : (match parse loopsDemo with | .ok (.ok l) => noneIn Spec.mayHang 7 l | _ => false) = true := by decide +kernel
  intro l hl
  rw [hl] at h
  exact noneIn_sound h

/-- **C82.** Scripts as in the theorems: one with two loops ends with whatever words it is started, on whatever host, and what it prints; and one
that ends with a message. -/
theorem C82_witness :
    ((∀ (H : Host) (shl : Str) (ws : List Str), Spec.CliLine (shl :: [c!"-zhscript-src-is-code", loopsDemo] ++ ws) [.isCode] loopsDemo ws →
        ∃ n, (runMain H n false (shl :: [c!"-zhscript-src-is-code", loopsDemo] ++ ws)).1 ≠ .fuel) ∧
      demoLine [] 30 [c!"/b/zs", c!"-zhscript-src-is-code", loopsDemo] =
        (.ok (.ok ()), [.out c!"一", .out c!"一", .out c!"一", .out c!"1"])) ∧
    (¬ Spec.Continued failsDemo ∧ (∀ id ∈ Spec.hangWords ++ [.expl, .has], ¬ Spec.Stands failsDemo id) ∧
      (match demo 30 failsDemo with
        | (.ok (.error x), [.out t]) => x.s == c!"变量“丙”不存在" && t == c!"甲"
        | _ => false) = true) := by
  refine ⟨⟨fun H shl ws hl => C82_code (H := H) hl (by simp) loopsDemo_without, by decide +kernel⟩, fun h => ?_,
    noneStand_sound (by decide +kernel), by decide +kernel⟩
  have h1 := h.mem (a := '续') (by simp)
  revert h1
  decide +kernel

end Zh
