import Verif.Props.Replay
/-!
# C84: texts that are written out

A script may make definitions and evaluate texts as long as each of these texts stands in the script itself.  `Wf si P p Q` is a statement about the tree of the program
`p`: it evaluates only code in which nothing of `Spec.beyond` occurs and whose definitions have texts of this kind, makes only such definitions,
parses only such texts, and causes only the events `P`.
-/
namespace Zh
open Spec (runsText)

/-- The statements `加载`, `执行`, `释放模块`, and `显示` if the script is to be silent. -/
def Spec.beyond (silent : Bool) : Code → Bool
  | .eval load .. => load
  | .exec _ | .modFree _ => true
  | .print _ => silent
  | _ => false

/-- What is written in a `定义` or `解释` for the text to be run. -/
def Spec.runPart : Code → Option (List Code)
  | .def_ _ v _ => some v
  | .eval _ _ _ _ a sp _ => some (a.take sp)
  | _ => none

/-- A text in whose program none of these statements occurs at any depth, and the text of every `定义` and `解释` is written out and is itself
such a text. -/
inductive Spec.WrittenOut (silent : Bool) : Str → Prop
  | mk {t : Str} (free : Spec.TextWithout (Spec.beyond silent) t)
      (fixed : ∀ l, parse t = .ok (.ok l) → ∀ c ∈ l, ∀ y, Spec.Occurs y c → ∀ v, Spec.runPart y = some v → ∃ b, v = [.text b])
      (inner : ∀ l, parse t = .ok (.ok l) → ∀ c ∈ l, ∀ y, Spec.Occurs y c → ∀ b, Spec.runPart y = some [.text b] → Spec.WrittenOut silent b) :
      Spec.WrittenOut silent t

namespace Texts

variable {α β : Type} {H : Host} {si : Bool} {P : Event → Prop}

/-- The same for code. -/
abbrev AllF (si : Bool) (l : List Code) : Prop := ∀ c ∈ l, ∀ y, Spec.Occurs y c →
  Spec.beyond si y = false ∧ ∀ v, Spec.runPart y = some v → ∃ b, v = [.text b] ∧ Spec.WrittenOut si b

theorem AllF.nil : AllF si [] := fun _ h => nomatch h
theorem AllF.append {l m : List Code} (h : AllF si l) (h' : AllF si m) : AllF si (l ++ m) := fun c hc =>
  (List.mem_append.1 hc).elim (h c) (h' c)
theorem AllF.snoc {l : List Code} {c : Code} (h : AllF si l) (hc : ∀ y, Spec.Occurs y c →
    Spec.beyond si y = false ∧ ∀ v, Spec.runPart y = some v → ∃ b, v = [.text b] ∧ Spec.WrittenOut si b) : AllF si (l ++ [c]) :=
  h.append fun x hx => by cases List.mem_singleton.1 hx; exact hc

theorem allF_parse {t : Str} (h : Spec.WrittenOut si t) {l : List Code} (hl : parse t = .ok (.ok l)) : AllF si l := by
  cases h with
  | mk h1 h2 h3 =>
    refine fun c hc y hy => ⟨h1 l hl c hc y hy, fun v e => ?_⟩
    obtain ⟨b, rfl⟩ := h2 l hl c hc y hy v e
    exact ⟨b, rfl, h3 l hl c hc y hy b e⟩

def _root_.Zh.Call.Fine (si : Bool) : Call → Prop
  | .codes a _ _ _ | .z2 a _ _ _ | .z4 a _ _ _ _ _ | .cond a _ _ | .loop _ a _ _ _ _ _ _ => AllF si a
  | .item c _ => AllF si [c]
  | .src s _ => Spec.WrittenOut si s
  | .get .. => True
  | .slave .. => False

/-- Every definition has such a text, or is a built-in one. -/
def Defined (si : Bool) (s : St) : Prop :=
  ∀ q, ∀ d ∈ (s.scopes q).defs, (∃ t, d.val = .s t ∧ Spec.WrittenOut si t) ∨ ((∃ t, d.val = .si t) ∧ d.name ≠ kwStr .print_)

def _root_.Zh.Op.Mays (si : Bool) (P : Event → Prop) : Op → Prop
  | .setDef _ d => ∃ t, d.val = .s t ∧ Spec.WrittenOut si t
  | .emit e => P e
  | .parse src => Spec.WrittenOut si src
  | .open_ _ | .read _ | .exec .. | .write .. | .readLine .. => False
  | _ => True

/-- What is known about the text in a result list. -/
abbrev Known := Option (Nat × Str)

def _root_.Zh.Op.Brings (si : Bool) (K : Known) : (o : Op) → o.Res → Prop
  | .st, s => Defined si s ∧ ∀ r t, K = some (r, t) → (s.lists r).text = t
  | .parse _, r => ∀ l, r = .ok l → AllF si l
  | _, _ => True

/-- What is known about a list after an operation or a call: a new list is empty, and the text of a list to which a constant is added. -/
def _root_.Zh.Op.known (K : Known) : (o : Op) → o.Res → Known
  | .newList, r => some (r, [])
  | .st, _ | .touch _, _ => K
  | _, _ => none

def _root_.Zh.Call.known : Call → Known → Known
  | .codes a 0 e env, some (r, []) => if env.ret = r then (match a.take e with | [.text b] => some (r, b) | _ => none) else none
  | _, _ => none

/-- See above. -/
def Wf (si : Bool) (P : Event → Prop) : Known → Prog α → (α → Prop) → Prop
  | _, .ret a, Q => Q a
  | _, .panic, _ => True
  | K, .op o k, Q => o.Mays si P ∧ ∀ r, o.Brings si K r → Wf si P (o.known K r) (k r) Q
  | K, .call _ c k, Q => c.Fine si ∧ ∀ r, Wf si P (c.known K) (k r) Q

abbrev W (si : Bool) (P : Event → Prop) (p : Prog α) : Prop := Wf si P none p fun _ => True
abbrev WE (si : Bool) (P : Event → Prop) (p : E α) : Prop := W si P p.run

theorem Wf.known {K : Known} {p : Prog α} {Q : α → Prop} (h : Wf si P none p Q) : Wf si P K p Q := by
  suffices key : ∀ {K K' : Known}, (∀ x, K = some x → K' = some x) → Wf si P K p Q → Wf si P K' p Q from key (fun x e => by cases e) h
  clear h
  induction p with
  | ret a => exact fun _ h => h
  | panic => exact fun _ h => h
  | op o k ih =>
    intro K K' hK h
    refine ⟨h.1, fun r hr => ih r (fun x hx => ?_) (h.2 r ?_)⟩
    · cases o <;> first | exact hx | exact hK x hx
    · cases o <;> first | exact hr | exact ⟨hr.1, fun r t e => hr.2 r t (hK _ e)⟩
  | call hd c k ih =>
    intro K K' hK h
    refine ⟨h.1, fun r => ih r (fun x hx => ?_) (h.2 r)⟩
    cases K with
    | none => unfold Call.known at hx; split at hx <;> contradiction
    | some y => rw [hK y rfl]; exact hx

theorem Wf.bind {K : Known} {p : Prog α} {f : α → Prog β} {Q : α → Prop} {R : β → Prop} (h : Wf si P K p Q)
    (hf : ∀ a, Q a → Wf si P none (f a) R) : Wf si P K (p >>= f) R := by
  change Wf si P K (p.bind f) R
  induction p generalizing K with
  | ret a => exact (hf a h).known
  | panic => trivial
  | op o k ih => exact ⟨h.1, fun a ha => ih a (h.2 a ha)⟩
  | call hd c k ih => exact ⟨h.1, fun r => ih r (h.2 r)⟩

theorem W.bind {p : Prog α} {f : α → Prog β} {R : β → Prop} (h : W si P p) (hf : ∀ a, Wf si P none (f a) R) : Wf si P none (p >>= f) R :=
  Wf.bind h fun a _ => hf a

theorem WE.bind {p : E α} {f : α → E β} (h : WE si P p) (hf : ∀ a, WE si P (f a)) : WE si P (p >>= f) := by
  change W si P (p.run >>= _)
  refine W.bind h fun a => ?_
  cases a with
  | ok a => exact hf a
  | error e => trivial

theorem WE.bindQ {p : E α} {f : α → E β} {Q : Except Err α → Prop} (h : Wf si P none p.run Q) (hf : ∀ a, Q (.ok a) → WE si P (f a)) :
    WE si P (p >>= f) := by
  change W si P (p.run >>= _)
  refine Wf.bind h fun a ha => ?_
  cases a with
  | ok a => exact hf a ha
  | error e => trivial

theorem WE.lift {p : Prog α} (h : W si P p) : WE si P (liftM p : E α) := W.bind h fun _ => trivial
theorem WE.lift' {p : Prog α} (h : W si P p) : WE si P (ExceptT.lift p : E α) := W.bind h fun _ => trivial
theorem w1_ofOut {x : Out α} : W si P (ofOut x) := by cases x <;> trivial
theorem wE_mkOut {x : Out (Except Err α)} : WE si P (ExceptT.mk (ofOut x)) := w1_ofOut
theorem w1_pure {a : α} : W si P (pure a : Prog α) := trivial
theorem w1_panic : W si P (Prog.panic : Prog α) := trivial
theorem wE_panic : WE si P (Prog.panic : Prog (Except Err α)) := trivial
theorem wE_pure {a : α} : WE si P (pure a : E α) := trivial
theorem wE_fail {e' : Err} : WE si P (fail e' : E α) := trivial
theorem wE_mk {x : Except Err α} : WE si P (ExceptT.mk (pure x) : E α) := trivial
theorem w1_doOp {o : Op} (h : o.Mays si P) : W si P (doOp o) := ⟨h, fun _ _ => trivial⟩
theorem w1_getSt : W si P getSt := ⟨trivial, fun _ _ => trivial⟩
theorem w1_newList_bind {f : Nat → Prog β} {R : β → Prop} (hf : ∀ r, Wf si P none (f r) R) : Wf si P none (doOp .newList >>= f) R :=
  ⟨trivial, fun r _ => (hf r).known⟩
theorem wE_newList_bind {f : Nat → E β} (hf : ∀ r, WE si P (f r)) : WE si P ((liftM (doOp .newList) : E Nat) >>= f) :=
  ⟨trivial, fun r _ => Wf.known (hf r)⟩
theorem w1_getSt_bind {f : St → Prog β} {R : β → Prop} (hf : ∀ s, Defined si s → Wf si P none (f s) R) : Wf si P none (getSt >>= f) R :=
  ⟨trivial, fun s h => hf s h.1⟩
theorem wE_getSt_bind {f : St → E β} (hf : ∀ s, Defined si s → WE si P (f s)) : WE si P ((liftM getSt : E St) >>= f) :=
  ⟨trivial, fun s h => hf s h.1⟩
theorem w1_callP {hd : List Held} {c : Call} (h : c.Fine si) : W si P (callP hd c) := ⟨h, fun _ => trivial⟩
theorem wE_callE {hd : List Held} {c : Call} (h : c.Fine si) : WE si P (callE hd c) := ⟨h, fun _ => trivial⟩
theorem wE_hello {hd : List Held} {a : List Code} {env : Env} (h : AllF si a) : WE si P (hello hd a env) := wE_callE (c := .codes a 0 usizeMax env) h

syntax "wf_rule" : tactic
macro_rules | `(tactic| wf_rule) => `(tactic| with_reducible exact w1_pure)
macro_rules | `(tactic| wf_rule) => `(tactic| with_reducible exact w1_panic)
macro_rules | `(tactic| wf_rule) => `(tactic| with_reducible exact wE_panic)
macro_rules | `(tactic| wf_rule) => `(tactic| with_reducible exact wE_pure)
macro_rules | `(tactic| wf_rule) => `(tactic| with_reducible exact wE_fail)
macro_rules | `(tactic| wf_rule) => `(tactic| with_reducible exact wE_mk)
macro_rules | `(tactic| wf_rule) => `(tactic| with_reducible exact wE_mkOut)
macro_rules | `(tactic| wf_rule) => `(tactic| with_reducible exact w1_ofOut)
macro_rules | `(tactic| wf_rule) => `(tactic| ((with_reducible refine wE_callE ?_); first | assumption | exact trivial))
macro_rules | `(tactic| wf_rule) => `(tactic| ((with_reducible refine wE_hello ?_); assumption))
macro_rules | `(tactic| wf_rule) => `(tactic| ((with_reducible refine w1_callP ?_); first | assumption | exact trivial))
macro_rules | `(tactic| wf_rule) => `(tactic| ((with_reducible refine w1_doOp ?_); exact trivial))
macro_rules | `(tactic| wf_rule) => `(tactic| with_reducible exact w1_getSt)

macro "wf" : tactic => `(tactic| repeat' (first
  | wf_rule
  | with_reducible refine wE_newList_bind ?_
  | with_reducible refine w1_newList_bind ?_
  | with_reducible refine wE_getSt_bind ?_
  | with_reducible refine w1_getSt_bind ?_
  | with_reducible refine WE.bind ?_ ?_
  | with_reducible refine WE.lift ?_
  | with_reducible refine WE.lift' ?_
  | with_reducible refine W.bind ?_ ?_
  | split
  | dsimp only
  | intro _))

theorem w_addItem {ret : Nat} {i : Item} : W si P (addItem ret i) := by unfold addItem; wf
macro_rules | `(tactic| wf_rule) => `(tactic| with_reducible exact w_addItem)
theorem w_addVal {ret : Nat} {v : Val} {r : List Str} : W si P (addVal ret v r) := by unfold addVal; wf
macro_rules | `(tactic| wf_rule) => `(tactic| with_reducible exact w_addVal)
theorem w_addT {ret : Nat} {t : Str} : W si P (addT ret t) := by unfold addT; wf
macro_rules | `(tactic| wf_rule) => `(tactic| with_reducible exact w_addT)
theorem w_addKwI {ret : Nat} {t : KwId} : W si P (addKwI ret t) := by unfold addKwI; wf
macro_rules | `(tactic| wf_rule) => `(tactic| with_reducible exact w_addKwI)
theorem w_addDun {ret : Nat} : W si P (addDun ret) := by unfold addDun; wf
macro_rules | `(tactic| wf_rule) => `(tactic| with_reducible exact w_addDun)
theorem w_addTs {ret : Nat} {l : List Str} : W si P (addTs ret l) := by
  induction l with
  | nil => trivial
  | cons t ts ih => unfold addTs; exact W.bind w_addT fun _ => ih
macro_rules | `(tactic| wf_rule) => `(tactic| with_reducible exact w_addTs)
theorem w_getList {r : Nat} : W si P (getList r) := by unfold getList; wf
macro_rules | `(tactic| wf_rule) => `(tactic| with_reducible exact w_getList)
theorem w_helloNew {a : List Code} {env : Env} (h : AllF si a) : WE si P (helloNew [] a env) := by unfold helloNew; wf
macro_rules | `(tactic| wf_rule) => `(tactic| with_reducible exact w_helloNew (by assumption))
theorem w_helloVec {a : List Code} {env : Env} (h : AllF si a) : WE si P (helloVec a env) := by unfold helloVec; wf
macro_rules | `(tactic| wf_rule) => `(tactic| with_reducible exact w_helloVec (by assumption))

/-! ## Variables and arguments -/

theorem w_argiP {i : Int} {isHas equ : Bool} {name : Str} {q ret : Nat} : W si P (argiP i isHas equ name q ret) := by unfold argiP; wf
macro_rules | `(tactic| wf_rule) => `(tactic| with_reducible exact w_argiP)
theorem w_arg0P {z : Str} {isHas : Bool} {q ret : Nat} : W si P (arg0P z isHas q ret) := by unfold arg0P; wf
macro_rules | `(tactic| wf_rule) => `(tactic| with_reducible exact w_arg0P)
theorem w_argcP {isHas : Bool} {q ret : Nat} : W si P (argcP isHas q ret) := by unfold argcP; wf
macro_rules | `(tactic| wf_rule) => `(tactic| with_reducible exact w_argcP)
theorem w_argsP {isHas : Bool} {q : Nat} {b e : Int} {line : Bool} {ret : Nat} : W si P (argsP isHas q b e line ret) := by unfold argsP; wf
macro_rules | `(tactic| wf_rule) => `(tactic| with_reducible exact w_argsP)
theorem w_getP {name : Str} {isHas equ canUp noSelf : Bool} {env : Env} : W si P (getP name isHas equ canUp noSelf env) := by unfold getP; wf
macro_rules | `(tactic| wf_rule) => `(tactic| with_reducible exact w_getP)
theorem w_getAliasP {name : Str} {isHas : Bool} {equ : EquName} {canUp : Bool} {q2 : Nat} {env : Env}
    : WE si P (getAliasP name isHas equ canUp q2 env) := by
  unfold getAliasP; wf
macro_rules | `(tactic| wf_rule) => `(tactic| with_reducible exact w_getAliasP)
theorem w_getArgs {name : Str} {rems : List Str} {isHas : Bool} {equ : EquName} {q2 : Nat} {env : Env}
    : WE si P (getArgs name rems isHas equ q2 env) := by
  unfold getArgs; wf
macro_rules | `(tactic| wf_rule) => `(tactic| with_reducible exact w_getArgs)
theorem w_get2P {l : List Item} {isHas : Bool} {equ : EquName} {env : Env}
    : WE si P (get2P l isHas equ env) := by unfold get2P; wf
theorem w_var1P {rems : List Str} {name : Str} {env : Env} : WE si P (var1P rems name env) := by unfold var1P; wf
macro_rules | `(tactic| wf_rule) => `(tactic| with_reducible exact w_var1P)
theorem w_simpP {name : Str} {rems : List Str} {env : Env} : WE si P (simpP name rems env) := by
  unfold simpP; wf
macro_rules | `(tactic| wf_rule) => `(tactic| with_reducible exact w_simpP)
theorem w_remTarget {env : Env} : W si P (remTarget env) := by unfold remTarget; wf
macro_rules | `(tactic| wf_rule) => `(tactic| with_reducible exact w_remTarget)
theorem w_remP {r2 : Nat} {env : Env} : W si P (remP r2 env) := by unfold remP; wf
macro_rules | `(tactic| wf_rule) => `(tactic| with_reducible exact w_remP)
theorem w_remsP {rems : List Code} {env : Env} (h : AllF si rems) : WE si P (remsP rems env) := by unfold remsP; wf
macro_rules | `(tactic| wf_rule) => `(tactic| with_reducible exact w_remsP (by assumption))

/-! ## Statement lists -/

theorem w_codesP {a : List Code} {i e : Nat} {env : Env} (h : AllF si a) : W si P (codesP a i e env) := by
  unfold codesP; wf

theorem w_z2Item {a : List Code} {i e : Nat} {env : Env} {c : Code} (h : AllF si a) (hc : AllF si [c]) :
    W si P (z2Item a i e env c) := by
  unfold z2Item; wf

theorem w_z2P {a : List Code} {i e : Nat} {env : Env} (h : AllF si a) : W si P (z2P a i e env) := by
  unfold z2P
  split
  · split
    · trivial
    · rename_i c hc
      have hc : AllF si [c] := fun x hx => by
        cases List.mem_singleton.1 hx
        exact h c (List.mem_of_getElem? hc)
      have : ∀ {i}, W si P (z2Item a i e env c) := w_z2Item h hc
      split
      · split
        · exact this
        · refine W.bind (w1_callP h) fun r => ?_
          split
          · trivial
          · split
            · exact w1_callP h
            · exact this
      · split
        · trivial
        · refine W.bind w1_getSt fun s => ?_
          split
          · exact this
          · exact w1_callP h
      · split
        · trivial
        · exact this
      · exact this
  · trivial

theorem w_returnP {q : Nat} {r : Except Err Unit} : WE si P (returnP q r) := by unfold returnP; wf
macro_rules | `(tactic| wf_rule) => `(tactic| with_reducible exact w_returnP)

theorem occurs_leaf {c y : Code} (h : Spec.parts c = []) (ho : Spec.Occurs y c) : y = c := by
  cases ho with
  | self => rfl
  | part hx _ => rw [h] at hx; cases hx

theorem dunhao3_allF {i j n : Nat} {cs : Str} {l : List Code} (h : dunhao3 i j n cs = .ok l) : AllF si l := by
  have key : ∀ c ∈ l, c = .kw1 .dunhao ∨ ∃ t, c = .undef t := by
    unfold dunhao3 at h
    split at h
    · cases h
    · cases h
      intro c hc
      rcases List.mem_append.1 hc with hc | hc <;> split at hc
      · exact .inr ⟨_, List.mem_singleton.1 hc⟩
      · cases hc
      · exact .inl (List.mem_singleton.1 hc)
      · cases hc
  intro c hc y hy
  rcases key c hc with rfl | ⟨t, rfl⟩
  · cases occurs_leaf rfl hy; exact ⟨rfl, nofun⟩
  · cases occurs_leaf rfl hy; exact ⟨rfl, nofun⟩

theorem sparg1_allF {names : List ArgName} {b end2 : Nat} {cs word : Str} {f i2 i i' : Nat} {a2 l : List Code} (ha : AllF si a2)
    (h : sparg1 names b end2 cs word f i2 i a2 = .ok (i', l)) : AllF si l := by
  induction f generalizing i2 i a2 with
  | zero => cases h
  | succ f ih =>
    unfold sparg1 at h
    split at h
    · split at h
      · cases h; exact ha
      · split at h
        · rename_i l1 e; exact ih (ha.append (dunhao3_allF e)) h
        · cases h
        · cases h
    · split at h
      · exact ih ha h
      · split at h
        · split at h
          · rename_i l1 e; cases h; exact ha.append (dunhao3_allF e)
          · cases h
          · cases h
        · cases h; exact ha

theorem spargWord_allF {names : List ArgName} {end2 : Nat} {cs : Str} {f i2 i i' j : Nat} {a2 l : List Code} (ha : AllF si a2)
    (h : spargWord names end2 cs f i2 i a2 = .ok (i', j, l)) : AllF si l := by
  induction f generalizing i2 i a2 with
  | zero => cases h
  | succ f ih =>
    unfold spargWord at h
    split at h
    · split at h
      · rename_i l1 e; exact ih (ha.append (dunhao3_allF e)) h
      · cases h
      · cases h
    · cases h; exact ha

theorem sparg2_allF {names : List ArgName} {end2 : Nat} {rest : List Code} {idx i i' j : Nat} {a2 l : List Code} (hr : AllF si rest)
    (ha : AllF si a2) (h : sparg2 names end2 rest idx i a2 = .ok (some (i', j, l))) : AllF si l := by
  induction rest generalizing idx i a2 with
  | nil => cases h; exact ha
  | cons c cs ih =>
    have hc := hr c (List.mem_cons_self ..)
    have hcs : AllF si cs := fun x hx => hr x (List.mem_cons_of_mem _ hx)
    unfold sparg2 at h
    split at h
    · split at h
      · rename_i a3 e1
        have h3 := spargWord_allF ha e1
        split at h
        · split at h
          · rename_i l1 e2; exact ih hcs (h3.append (dunhao3_allF e2)) h
          · cases h
          · cases h
        · exact ih hcs (h3.snoc hc) h
      · cases h
      · cases h
    · split at h
      · split at h
        · cases h
        · exact ih hcs (ha.snoc hc) h
      · cases h; exact ha
    · cases h; exact ha
    · exact ih hcs (ha.snoc hc) h

theorem sparg_allF {d : Def} {a : List Code} {cs : Str} {e2 e i j k : Nat} {l : List Code} (ha : AllF si a)
    (h : sparg d a cs e2 e i j = .ok (some (l, k))) : AllF si l := by
  unfold sparg at h
  split at h
  · dsimp only at h
    split at h
    · rename_i e1
      split at h
      · rename_i e3
        split at h
        · cases h
        · cases h
          refine sparg2_allF ?_ (sparg1_allF AllF.nil e1) e3
          exact fun x hx => ha x (List.mem_of_mem_take (List.mem_of_mem_drop hx))
      · cases h
      · cases h
      · cases h
    · cases h
    · cases h
  · cases h; exact AllF.nil

theorem w_z4Args {hd : Held} {d : Def} {a : List Code} {cs : Str} {e2 e : Nat} {env : Env} {i2 i : Nat} {a2 : List Code} {e2a args : Nat}
    (ha : AllF si a) (ha2 : AllF si a2) : W si P (z4Args hd d a cs e2 e env i2 i a2 e2a args) := by
  unfold z4Args; wf
macro_rules | `(tactic| wf_rule) => `(tactic| with_reducible exact w_z4Args (by assumption) (by assumption))

theorem w_z4Body {hd : Held} {d : Def} {src : Str} {env : Env} {p q2 args : Nat} (h : Spec.WrittenOut si src) :
    WE si P (z4Body hd d src env p q2 args) := by
  unfold z4Body
  refine WE.bindQ (Q := fun r => ∀ l, r = .ok l → AllF si l) ⟨h, fun r hr => hr⟩ fun l hl => ?_
  have hl := hl l rfl
  wf
macro_rules | `(tactic| wf_rule) => `(tactic| with_reducible exact w_z4Body (by assumption))

theorem w_z4Call {a : List Code} {cs : Str} {e2 e : Nat} {env : Env} {st : Z4} {i2 p k : Nat} {d : Def} {src : Str} {a2 : List Code} {e2a : Nat}
    (ha : AllF si a) (ha2 : AllF si a2) (h : Spec.WrittenOut si src) : W si P (z4Call a cs e2 e env st i2 p k d src a2 e2a) := by
  unfold z4Call; wf
macro_rules | `(tactic| wf_rule) => `(tactic| with_reducible exact w_z4Call (by assumption) (by assumption) (by assumption))

theorem w_z4P {a : List Code} {cs : Str} {e2 e : Nat} {env : Env} {st : Z4} (ha : AllF si a) : W si P (z4P a cs e2 e env st) := by
  unfold z4P
  split
  · refine w1_getSt_bind fun s hs => ?_
    split
    · wf
    · split
      · trivial
      · rename_i d hd
        refine Wf.bind (Q := fun r => ∀ l k, r = some (l, k) → AllF si l) ?_ fun r hr => ?_
        · rcases h : sparg d a cs e2 e st.idx _ with r | _ | _
          · exact fun l k hl => sparg_allF ha (hl ▸ h)
          · trivial
          · trivial
        split
        · wf
        · have h2 := hr _ _ rfl
          refine W.bind w_addTs fun _ => ?_
          rcases hs _ d (List.mem_of_getElem? hd) with ⟨t, ht, hw⟩ | ⟨⟨t, ht⟩, -⟩ <;> rw [ht]
          · exact w_z4Call ha h2 hw
          · wf
  · wf

theorem w_srcP {src : Str} {env : Env} (h : Spec.WrittenOut si src) : WE si P (srcP src env) := by
  unfold srcP
  refine WE.bindQ (Q := fun r => ∀ l, r = .ok l → AllF si l) ⟨h, fun r hr => hr⟩ fun l hl => ?_
  have hl := hl l rfl
  wf

/-! ## Statements -/

theorem w_setJie {ret : Nat} {name : Str} {v : Item} {s : Str} {n : Nat} : WE si P (setJie ret name v s n) := by
  induction s generalizing n with
  | nil => trivial
  | cons c cs ih => unfold setJie; wf <;> exact ih
macro_rules | `(tactic| wf_rule) => `(tactic| with_reducible exact w_setJie)
theorem w_setGo {b : Bool} {env : Env} {gs : List (List Item)} {st : SetSt} :
    WE si P (setGo b env gs st) := by
  induction gs generalizing st with
  | nil => trivial
  | cons g gs ih =>
    unfold setGo
    refine WE.bind (WE.lift w1_getSt) fun s => WE.bind wE_mkOut fun x => WE.bind (WE.lift ?_) fun v => ?_
    · wf
    · split
      · exact WE.lift w1_panic
      · exact WE.bind (WE.lift (w1_doOp (o := .setVar _ _) trivial)) fun _ => WE.bind w_setJie fun _ => ih
macro_rules | `(tactic| wf_rule) => `(tactic| with_reducible exact w_setGo)
theorem w_setP {b : Bool} {n v : List Code} {env : Env} (hn : AllF si n)
    (hv : AllF si v) : WE si P (setP b n v env) := by unfold setP; wf
theorem w_nameP {b : Bool} {a : List Code} {env : Env} (h : AllF si a) : WE si P (nameP b a env) := by unfold nameP; wf
theorem w_switchHits {case : List Code} {t : Str} {env : Env} {bs : List (Nat × Nat)} (h : AllF si case) :
    WE si P (switchHits case t env bs) := by
  induction bs with
  | nil => trivial
  | cons b bs ih =>
    obtain ⟨i, k⟩ := b
    unfold switchHits
    refine wE_newList_bind fun r => WE.bind (wE_callE (c := .codes case _ _ _) h) fun _ => WE.bind (WE.lift w_getList) fun l => ?_
    exact WE.bind ih fun _ => trivial
macro_rules | `(tactic| wf_rule) => `(tactic| with_reducible exact w_switchHits (by assumption))
theorem w_switchRun {case : List Code} {env : Env} {bs : List (Nat × Nat)} (h : AllF si case) :
    WE si P (switchRun case env bs) := by
  induction bs with
  | nil => trivial
  | cons b bs ih => unfold switchRun; wf; exact ih
macro_rules | `(tactic| wf_rule) => `(tactic| with_reducible exact w_switchRun (by assumption))
theorem w_switchP {one : Bool} {a case : List Code} {bs : List (Nat × Nat)} {d : Option Nat} {env : Env} (ha : AllF si a)
    (hc : AllF si case) : WE si P (switchP one a case bs d env) := by unfold switchP; wf
theorem w_condMv {b : Bool} {a : List Code} {env : Env} {st : CondSt} (h : AllF si a) : W si P (condMv b a env st) := by
  unfold condMv; wf
macro_rules | `(tactic| wf_rule) => `(tactic| with_reducible exact w_condMv (by assumption))
theorem w_condCmp {a : List Code} {env : Env} {st : CondSt} (h : AllF si a) : W si P (condCmp a env st) := by
  unfold condCmp; wf
macro_rules | `(tactic| wf_rule) => `(tactic| with_reducible exact w_condCmp (by assumption))
theorem w_condP {a : List Code} {env : Env} {st : CondSt} (h : AllF si a) : W si P (condP a env st) := by
  unfold condP
  split
  · wf
  · rename_i c hc
    have hc := h c (List.mem_of_getElem? hc)
    split
    · rename_i b _
      have : AllF si b := fun x hx y hy => hc y (.part hx hy)
      wf
    · wf
theorem w_ifP {a th el : List Code} {env : Env} (h : AllF si a) (h2 : AllF si th) (h3 : AllF si el) :
    WE si P (ifP a th el env) := by unfold ifP; wf
theorem w_loopP {r : Bool} {a : List Code} {m : Nat} {u : Bool} {cnt : Cnt} {env : Env} {i : Nat} {n : Bool} (h : AllF si a)
    : W si P (loopP r a m u cnt env i n) := by unfold loopP; wf
theorem w_forP {r : Bool} {cnt : Cnt} {rems a : List Code} {env : Env} (h1 : AllF si rems) (h : AllF si a) :
    WE si P (forP r cnt rems a env) := by
  unfold forP; wf
theorem w_jumpP {k : JumpKind} {a : List Code} {env : Env} (h : AllF si a) : WE si P (jumpP k a env) := by unfold jumpP; wf
theorem w_jieP {rems a : List Code} {env : Env} (h1 : AllF si rems) (h : AllF si a) : WE si P (jieP rems a env) := by
  unfold jieP; wf
theorem w_jie2P {a : List Code} {env : Env} (h : AllF si a) : WE si P (jie2P a env) := by
  unfold jie2P
  refine WE.bind (WE.lift' (show W si P _ from wE_hello h)) fun r => ?_
  wf
theorem w_printJie {ret : Nat} {t s : Str} : WE si P (printJie ret t s) := by
  induction s with
  | nil => trivial
  | cons c cs ih => unfold printJie; wf <;> exact ih
macro_rules | `(tactic| wf_rule) => `(tactic| with_reducible exact w_printJie)
theorem w_printP {a : List Code} {env : Env} (hP : ∀ e, Spec.Prints e → P e) (h : AllF si a) : WE si P (printP a env) := by
  unfold printP
  refine WE.bind (w_helloVec h) fun v => ?_
  split
  · wf
  · refine WE.bind wE_mk fun x => wE_getSt_bind fun s hs => ?_
    have hn : ∀ q p src, printHandler s q = some (p, src) → Spec.WrittenOut si src := by
      intro q p src e
      unfold printHandler at e
      obtain ⟨p', -, e⟩ := List.exists_of_findSome?_eq_some e
      obtain ⟨d, hd, e⟩ := Option.map_eq_some_iff.1 e
      cases e
      have h1 := List.find?_some hd
      rcases hs p d (List.mem_of_find?_eq_some hd) with ⟨t, ht, hw⟩ | ⟨-, hne⟩
      · rw [ht]; exact hw
      · exact absurd (by simpa using h1) hne
    dsimp only
    split
    · rename_i p src e
      have hw : Spec.WrittenOut si src := by
        split at e
        · exact hn _ _ _ e
        · cases e
      wf
    · refine WE.bind (WE.lift (w1_doOp (o := .emit _) ?_)) fun _ => ?_
      · split <;> exact hP _ trivial
      · have := hP .flush trivial
        wf
        exact w1_doOp (o := .emit _) this

/-! ## Definitions -/

theorem w_split2a {hd : List Held} {a : List Code} {sp : Nat} {env : Env} (h : AllF si a) : WE si P (split2a hd a sp env) := by
  unfold split2a; wf
macro_rules | `(tactic| wf_rule) => `(tactic| with_reducible exact w_split2a (by assumption))
theorem w_split2b {hd : List Held} {a : List Code} {sp : Nat} {env : Env} (h : AllF si a) : WE si P (split2b hd a sp env) := by
  unfold split2b; wf
macro_rules | `(tactic| wf_rule) => `(tactic| with_reducible exact w_split2b (by assumption))

theorem w_split2a_text {hd : List Held} {a : List Code} {sp : Nat} {env : Env} {b : Str} (h : AllF si a) (ht : a.take sp = [.text b]) :
    Wf si P none (split2a hd a sp env).run fun r => ∀ x, r = .ok x → x.1 = b := by
  unfold split2a
  refine ⟨trivial, fun r4 _ => ⟨h, fun x => ?_⟩⟩
  have hK : Call.known (.codes a 0 sp { env with ret := r4 }) ((Op.newList).known none r4) = some (r4, b) := by
    simp only [Call.known, Op.known, ht]
    exact if_pos trivial
  rw [hK]
  obtain ⟨_, _, _, r⟩ := x
  cases r with
  | error e => intro x e; cases e
  | ok u => exact ⟨trivial, fun s hs x e => by cases e; exact hs.2 r4 b rfl⟩

theorem w_evalArg0 {arg0 : Str} {iArg0 : List Code} {env : Env} (h : AllF si iArg0) : WE si P (evalArg0 arg0 iArg0 env) := by
  unfold evalArg0
  split
  · wf
  · split
    · rename_i a
      have : AllF si a := fun x hx y hy => h _ (List.mem_singleton.2 rfl) y (.part hx hy)
      wf
    · wf
macro_rules | `(tactic| wf_rule) => `(tactic| with_reducible exact w_evalArg0 (by assumption))

theorem WE.pureBind {a : α} {f : α → E β} (h : WE si P (f a)) : WE si P (pure a >>= f) := h

theorem w_evalP {cur : Bool} {arg0 : Str} {iArg0 a : List Code} {sp : Nat} {e : Bool} {env : Env} {b : Str} (h0 : AllF si iArg0)
    (ha : AllF si a) (ht : a.take sp = [.text b]) (hb : Spec.WrittenOut si b) : WE si P (evalP false cur arg0 iArg0 a sp e env) := by
  have hrest : ∀ (q2 args : Nat), WE si P (do
      let (src, rems) ← split2a [.scope q2] a sp { env with ret := args }
      match rems with
      | r :: _ => fail (errNoRem2 r)
      | [] =>
        split2b [.scope q2] a sp { env with ret := args }
        let l ← getList args
        if l.a.isEmpty && e then addT args []
        if !cur then doOp (.setSrc q2 src)
        match ← (if false then loadP src cur q2 else pure (some src) : E (Option Str)) with
        | none => return ()
        | some src2 =>
          if !cur then
            let arg0 ← evalArg0 arg0 iArg0 env
            if !arg0.isEmpty then doOp (.setArg0 q2 arg0)
          callE [] (.src src2 { env with q := q2 })) := fun q2 args => by
    refine WE.bindQ (w_split2a_text ha ht) fun x hx => ?_
    obtain ⟨src, rems⟩ := x
    have : src = b := hx _ rfl
    subst this
    dsimp only
    split
    · exact wE_fail
    · refine WE.bind (w_split2b ha) fun _ => WE.bind (by wf) fun l => ?_
      have hc : ∀ {env}, WE si P (callE [] (.src src env)) := wE_callE hb
      cases cur <;> simp only [Bool.not_false, Bool.not_true, Bool.false_eq_true, if_false, if_true]
      · have ht : WE si P (do
            let arg0 ← evalArg0 arg0 iArg0 env
            if !arg0.isEmpty then doOp (.setArg0 q2 arg0)
            callE [] (.src src { env with q := q2 })) := by
          refine WE.bind (w_evalArg0 h0) fun _ => ?_
          split
          · exact WE.bind (WE.lift (w1_doOp trivial)) fun _ => hc
          · exact hc
        have hset : WE si P (doOp (.setSrc q2 src) : Prog Unit) := WE.lift (w1_doOp trivial)
        split
        · exact WE.bind (WE.lift w_addT) fun _ => WE.bind hset fun _ => WE.pureBind ht
        · exact WE.bind hset fun _ => WE.pureBind ht
      · split
        · exact WE.bind (WE.lift w_addT) fun _ => WE.pureBind hc
        · exact WE.pureBind hc
  unfold evalP
  refine WE.bind (WE.lift (by wf)) fun q2 => WE.bind (WE.lift (w1_doOp trivial)) fun _ => WE.bind (WE.lift w1_getSt) fun s => ?_
  dsimp only
  split
  · exact WE.bind (by wf) fun _ => hrest _ _
  · exact hrest _ _

theorem w_defP {n : List Code} {b : Str} {sp : Nat} {env : Env} (hn : AllF si n) (hb : Spec.WrittenOut si b) :
    WE si P (defP n [.text b] sp env) := by
  unfold defP
  refine wE_newList_bind fun r2 => WE.bind (w_split2a hn) fun x => ?_
  obtain ⟨name, rems⟩ := x
  refine WE.bind (WE.lift w1_getSt) fun s => WE.bind wE_mkOut fun y => ?_
  obtain ⟨argc, backarg, q2⟩ := y
  refine WE.bind (w_split2b hn) fun _ => ?_
  dsimp only
  split
  · wf
  · refine wE_getSt_bind fun s hs => ?_
    split
    · wf
    · have ht : AllF si [.text b] := fun c hc y hy => by
        cases List.mem_singleton.1 hc
        cases occurs_leaf rfl hy
        exact ⟨rfl, nofun⟩
      refine ⟨trivial, fun r3 _ => ⟨ht, fun x => ?_⟩⟩
      have hK : Call.known (.codes [.text b] 0 usizeMax { env with ret := r3 }) ((Op.newList).known none r3) = some (r3, b) :=
        if_pos rfl
      rw [hK]
      obtain ⟨_, _, _, r⟩ := x
      cases r with
      | error e => trivial
      | ok u =>
        refine ⟨trivial, fun s hs => ?_⟩
        cases q2 with
        | none => trivial
        | some q =>
          refine ⟨trivial, fun _ _ => ?_⟩
          cases hA : ArgNames.new ((s.lists r2).a.map fun i => (i, s.items i.ref)) with
          | error e => simp only; trivial
          | ok names =>
            simp only
            exact ⟨⟨b, congrArg DefVal.s (hs.2 r3 b rfl), hb⟩, fun _ _ => trivial⟩

theorem w_explP {a : List Code} {env : Env} (h : AllF si a) : WE si P (explP a env) := by unfold explP; wf

theorem AllF.inner {c : Code} (h : AllF si [c]) {l : List Code} (hl : ∀ x ∈ l, x ∈ Spec.parts c) : AllF si l :=
  fun x hx y hy => h c (List.mem_singleton.2 rfl) y (.part (hl x hx) hy)

theorem w_itemP {c : Code} {env : Env} (hP : si = false → ∀ e, Spec.Prints e → P e) (h : AllF si [c]) :
    WE si P (itemP c env) := by
  have hself := h c (List.mem_singleton.2 rfl) c .self
  have no : Spec.beyond si c = true → False := fun e => by rw [hself.1] at e; cases e
  cases c with
  | for_ r cnt rems a => exact w_forP (h.inner fun x hx => List.mem_append_left _ hx) (h.inner fun x hx => List.mem_append_right _ hx)
  | jump k a => exact w_jumpP (h.inner fun x hx => hx)
  | if_ a th el =>
    exact w_ifP (h.inner fun x hx => List.mem_append_left _ (List.mem_append_left _ hx))
      (h.inner fun x hx => List.mem_append_left _ (List.mem_append_right _ hx)) (h.inner fun x hx => List.mem_append_right _ hx)
  | switch one a case bs d =>
    exact w_switchP (h.inner fun x hx => List.mem_append_left _ hx) (h.inner fun x hx => List.mem_append_right _ hx)
  | jie rems a => exact w_jieP (h.inner fun x hx => List.mem_append_left _ hx) (h.inner fun x hx => List.mem_append_right _ hx)
  | jie2 a => exact w_jie2P (h.inner fun x hx => hx)
  | mod_ a => exact w_nameP (h.inner fun x hx => hx)
  | name a => exact w_nameP (h.inner fun x hx => hx)
  | set_ n v => exact w_setP (h.inner fun x hx => List.mem_append_left _ hx) (h.inner fun x hx => List.mem_append_right _ hx)
  | «alias» n v => exact w_setP (h.inner fun x hx => List.mem_append_left _ hx) (h.inner fun x hx => List.mem_append_right _ hx)
  | def_ n v sp =>
    obtain ⟨b, rfl, hb⟩ := hself.2 v rfl
    exact w_defP (h.inner fun x hx => List.mem_append_left _ hx) hb
  | eval load cur a0 i a sp e =>
    obtain ⟨b, ht, hb⟩ := hself.2 _ rfl
    cases load with
    | true => exact (no rfl).elim
    | false => exact w_evalP (h.inner fun x hx => List.mem_append_left _ hx) (h.inner fun x hx => List.mem_append_right _ hx) ht hb
  | exec a => exact (no rfl).elim
  | modFree a => exact (no rfl).elim
  | print a => exact w_printP (hP (by simpa [Spec.beyond] using hself.1)) (h.inner fun x hx => hx)
  | expl a => exact w_explP (h.inner fun x hx => hx)
  | simp name rems => exact w_simpP
  | has a =>
    have ha : AllF si a := h.inner fun x hx => hx
    unfold itemP; dsimp only; wf
  | var rems a =>
    have ha : AllF si a := h.inner fun x hx => hx
    unfold itemP; dsimp only; wf
  | block a =>
    have ha : AllF si a := h.inner fun x hx => hx
    unfold itemP; dsimp only; wf
  | du a =>
    have ha : AllF si a := h.inner fun x hx => hx
    unfold itemP; dsimp only; wf
  | rem a =>
    have ha : AllF si a := h.inner fun x hx => hx
    unfold itemP; dsimp only; wf
  | _ => unfold itemP; dsimp only; wf

theorem w_resE {p : E Unit} (h : WE si P p) : W si P (resE p) := W.bind h fun _ => trivial

theorem w_evalF {c : Call} (hP : si = false → ∀ e, Spec.Prints e → P e) (h : c.Fine si) : W si P (evalF c) := by
  cases c with
  | codes a i e env => exact w_codesP h
  | z2 a i e env => exact w_z2P h
  | z4 a cs e2 e env st => exact w_z4P h
  | item c env => exact w_resE (w_itemP hP h)
  | src s env => exact w_resE (w_srcP h)
  | loop r a m u cnt env i n => exact w_loopP h
  | cond a env st => exact w_condP h
  | get l b e env => exact w_resE w_get2P
  | slave h o e b env => exact False.elim h

/-! ## Runs -/

/-- What stays true in such runs. -/
structure Good (si : Bool) (P : Event → Prop) (s : St) : Prop where
  defs : Defined si s
  cache : ∀ e ∈ s.cache, AllF si e.2
  trace : ∀ e ∈ s.trace, P e

/-- The text of the list is as known. -/
def At (K : Known) (s : St) : Prop := ∀ r t, K = some (r, t) → (s.lists r).text = t

theorem defined_scope {s : St} (h : Defined si s) (q : Nat) (f : Scope → Scope)
    (hd : ∀ d ∈ (f (s.scopes q)).defs, d ∈ (s.scopes q).defs ∨ ∃ t, d.val = .s t ∧ Spec.WrittenOut si t) : Defined si (s.modScope q f).2 := by
  unfold St.modScope
  split
  · exact h
  · intro p d
    by_cases e : p = q
    · subst e
      simp only [upd_same]
      intro hx
      rcases hd d hx with hx | hx
      · exact h p d hx
      · exact .inl hx
    · simp only [upd, if_neg e]; exact h p d

theorem mem_setDef' {d x : Def} {l : List Def} (h : x ∈ Zh.setDef d l) : x ∈ l ∨ x.val = d.val := by
  induction l with
  | nil => cases List.mem_singleton.1 h; exact .inr rfl
  | cons e es ih =>
    unfold Zh.setDef at h
    split at h
    · rcases List.mem_cons.1 h with rfl | h
      · exact .inr rfl
      · exact .inl (.tail _ h)
    · rcases List.mem_cons.1 h with rfl | h
      · exact .inl (.head _)
      · exact (ih h).imp (.tail _) id

theorem cache_codes {c c' : Cache (List Code)} {src : Str} {r : Except Err (List Code)} (hc : ∀ e ∈ c, AllF si e.2)
    (ht : Spec.WrittenOut si src) (h : codesCache H.hash parse c src = .ok (r, c')) :
    (∀ e ∈ c', AllF si e.2) ∧ ∀ l, r = .ok l → AllF si l := by
  unfold codesCache at h
  cases hg : c.get H.hash src with
  | some codes =>
    rw [hg] at h
    cases h
    refine ⟨hc, fun l hl => ?_⟩
    cases hl
    unfold Cache.get at hg
    obtain ⟨e, he, rfl⟩ := Option.map_eq_some_iff.1 hg
    exact hc e (List.mem_of_find?_eq_some he)
  | none =>
    rw [hg] at h
    rcases hp : parse src with (e | x) | _ | _
    · rw [hp] at h; cases h; exact ⟨hc, nofun⟩
    · rw [hp] at h
      have h3 : (c.set H.hash src x).get H.hash src = some x := by simp [Cache.set, Cache.get]
      dsimp only at h
      rw [h3] at h
      cases h
      refine ⟨fun e he => ?_, fun l hl => ?_⟩
      · unfold Cache.set at he
        rcases List.mem_cons.1 he with rfl | he
        · exact allF_parse ht hp
        · exact hc e he
      · cases hl; exact allF_parse ht hp
    · rw [hp] at h; cases h
    · rw [hp] at h; cases h

theorem defined_op {o : Op} {s : St} (hm : o.Mays si P) (h : Defined si s) : Defined si (o.run H s).2 := by
  cases o with
  | newScope arg0 names up =>
    intro p d
    simp only [Op.run]
    by_cases e : p = s.nscope
    · subst e; simp [upd_same, Scope.new]
    · simp only [upd, if_neg e]; exact h p d
  | setDef q d =>
    obtain ⟨t, ht, hw⟩ := hm
    rcases setDef_snd (H := H) s q d with e | e <;> rw [e]
    · exact h
    · exact defined_scope h q _ fun x hx => (mem_setDef' hx).imp id fun e => ⟨t, e.trans ht, hw⟩
  | parse src =>
    simp only [Op.run]
    rcases hx : codesCache H.hash parse s.cache src with ⟨r, c⟩ | _ | _ <;> exact h
  | argsLine q =>
    obtain ⟨t, e⟩ := argsLine_snd (H := H) s q
    rw [e]
    exact defined_scope h q _ fun _ => .inl
  | touch q => exact defined_scope h q _ fun _ => .inl
  | setVar q v => exact defined_scope h q _ fun _ => .inl
  | addName q n f => exact defined_scope h q _ fun _ => .inl
  | setSrc q n => exact defined_scope h q _ fun _ => .inl
  | setIsFile q => exact defined_scope h q _ fun _ => .inl
  | setArg0 q n => exact defined_scope h q _ fun _ => .inl
  | clearArgs1 q => exact defined_scope h q _ fun _ => .inl
  | addMod data q => simp only [Op.run]; split <;> exact h
  | rmMod data i => simp only [Op.run]; split <;> split <;> exact h
  | _ => exact h

theorem good_op {K : Known} {o : Op} {s : St} (hm : o.Mays si P) (h : Good si P s) (hk : At K s) :
    Good si P (o.run H s).2 ∧ ∀ r s', o.run H s = (.ok r, s') → o.Brings si K r ∧ At (o.known K r) s' := by
  have tr : ∀ e ∈ (o.run H s).2.trace, P e := by
    cases o with
    | emit e =>
      intro x hx
      rcases List.mem_append.1 (show x ∈ s.trace ++ [e] from hx) with hx | hx
      · exact h.trace x hx
      · cases List.mem_singleton.1 hx; exact hm
    | open_ => exact hm.elim
    | read => exact hm.elim
    | exec => exact hm.elim
    | write => exact hm.elim
    | readLine => exact hm.elim
    | _ => rw [op_trace _ s (by simp [Op.kind]) (by simp [Op.kind]) (by simp [Op.kind])]; exact h.trace
  have none : ∀ s', At none s' := fun _ _ _ e => by cases e
  cases o with
  | parse src =>
    have hd := defined_op (H := H) hm h.defs
    revert tr hd
    simp only [Op.run]
    rcases hx : codesCache H.hash parse s.cache src with ⟨r, c⟩ | _ | _
    · obtain ⟨h1, h2⟩ := cache_codes h.cache hm hx
      exact fun tr hd => ⟨⟨hd, h1, tr⟩, fun r' s' e => by cases e; exact ⟨h2, none _⟩⟩
    · exact fun tr hd => ⟨h, fun r s' e => by cases e⟩
    · exact fun tr hd => ⟨h, fun r s' e => by cases e⟩
  | st => exact ⟨h, fun r s' e => by cases e; exact ⟨⟨h.defs, hk⟩, hk⟩⟩
  | newList =>
    refine ⟨⟨defined_op hm h.defs, h.cache, tr⟩, fun r s' e => ⟨trivial, ?_⟩⟩
    cases e
    intro r t e
    cases e
    simp [RList.text, RList.empty, upd_same]
  | touch q =>
    have e1 : ((Op.touch q).run H s).2.cache = s.cache ∧ ((Op.touch q).run H s).2.lists = s.lists := by
      simp only [Op.run]; unfold St.modScope; split <;> exact ⟨rfl, rfl⟩
    refine ⟨⟨defined_op hm h.defs, e1.1 ▸ h.cache, tr⟩, fun r s' e => ⟨trivial, ?_⟩⟩
    rw [e] at e1
    intro r t e2
    rw [e1.2]
    exact hk r t e2
  | _ =>
    refine ⟨⟨defined_op hm h.defs, ?_, tr⟩, fun r s' e => ⟨trivial, none _⟩⟩
    first
    | exact h.cache
    | (have e : ∀ q f, (s.modScope q f).2.cache = s.cache := fun q f => by unfold St.modScope; split <;> rfl
       first
       | (simp only [Op.run]; rw [e]; exact h.cache)
       | (simp only [Op.run]; repeat' split
          all_goals exact h.cache)
       | (rename_i q d; rcases setDef_snd (H := H) s q d with e2 | e2 <;> rw [e2]
          · exact h.cache
          · rw [e]; exact h.cache)
       | (rename_i q; obtain ⟨t, e2⟩ := argsLine_snd (H := H) s q; rw [e2, e]; exact h.cache))

theorem codes_text {a : List Code} {t : Str} {e : Nat} {env : Env} {s s' : St} {r : Res} (ha : a.take e = [.text t])
    (h : Evals H (.codes a 0 e env) s r s') : s' = s.push env.ret (.s t) := by
  have hi : Evals H (.item (.text t) env) s { r := .ok () } (s.push env.ret (.s t)) :=
    evals_item.2 ⟨_, evE_lift.2 ⟨(), rfl, ev_addT.2 rfl⟩, rfl⟩
  have hm : min e a.length = 1 := by rw [← List.length_take, ha]; rfl
  have h0 : a[0]? = some (.text t) := by
    have := congrArg (·[0]?) ha
    simp only [List.getElem?_take] at this
    split at this
    · exact this
    · cases this
  have hs : Spec.InOrder H a (min e a.length) env 0 s (.ok ()) (s.push env.ret (.s t)) := by
    rw [hm]
    exact .next (by omega) (.ok ⟨h0, nofun, nofun, nofun⟩ hi) (.done (.all (Nat.le_refl 1)))
  obtain ⟨x, h1, -⟩ := C22_in_order_conv hs
  exact (Evals.unique h h1).2

theorem at_call {n : Nat} {K : Known} {c : Call} {s s' : St} {r : Res} (hk : At K s) (h : run H n c s = (.ok r, s')) : At (c.known K) s' := by
  intro q t e
  unfold Call.known at e
  split at e
  · split at e
    · rename_i he
      split at e
      · rename_i ha
        cases e
        rw [codes_text ha ⟨n, h⟩]
        have h0 := hk _ _ rfl
        rw [he]
        simp only [RList.text] at h0 ⊢
        rw [St.push_list, List.flatMap_append, h0]
        simp [Val.plain, Val.s3]
      · cases e
    · cases e
  · cases e

theorem good_interp {n : Nat} (hr : ∀ c s, c.Fine si → Good si P s → Good si P (run H n c s).2) {K : Known} {p : Prog α} {s : St}
    {Q : α → Prop} (h : Wf si P K p Q) (hs : Good si P s) (hk : At K s) : Good si P (p.interp H (run H n) s).2 := by
  induction p generalizing s K with
  | ret a => exact hs
  | panic => exact hs
  | op o k ih =>
    obtain ⟨h1, h2⟩ := good_op (H := H) h.1 hs hk
    rcases hx : o.run H s with ⟨x, s1⟩
    rw [hx] at h1
    simp only [Prog.interp, hx]
    cases x with
    | ok a => exact ih a (h.2 a (h2 a s1 hx).1) h1 (h2 a s1 hx).2
    | panic => exact h1
    | fuel => exact h1
  | call hd c k ih =>
    have h1 := hr c { s with held := hd ++ s.held } h.1 ⟨hs.defs, hs.cache, hs.trace⟩
    have h2 := fun r s' => at_call (H := H) (n := n) (c := c) (s := { s with held := hd ++ s.held }) (s' := s') (r := r) (K := K) hk
    simp only [Prog.interp]
    rcases hx : run H n c { s with held := hd ++ s.held } with ⟨x | _ | _, s1⟩
    · rw [hx] at h1
      exact ih x (h.2 x) (s := { s1 with held := s.held }) ⟨h1.defs, h1.cache, h1.trace⟩ (h2 x s1 hx)
    · rw [hx] at h1; exact h1
    · rw [hx] at h1; exact h1

theorem good_run (hP : si = false → ∀ e, Spec.Prints e → P e) (n : Nat) :
    ∀ c s, c.Fine si → Good si P s → Good si P (run H n c s).2 := by
  induction n with
  | zero => exact fun _ _ _ h => h
  | succ n ih => exact fun c s hc hs => good_interp ih (w_evalF hP hc) hs fun _ _ e => by cases e

theorem good_start {s : St} (h : Still (fun _ => true) s) (ht : ∀ e ∈ s.trace, P e) : Good si P s := by
  refine ⟨fun q d hd => .inr ⟨(h.defs q d hd).1, (h.defs q d hd).2.1⟩, fun e he c hc => ?_, ht⟩
  have := h.cache e he c hc c .self
  cases this

end Texts
open Texts
variable {H H' : Host}

/-- **C84.** A script given as code whose texts to be run (by `定义` and `解释`) are written out, and in which none of `加载`, `执行`, `释放模块` occurs
at any depth, these texts included, does nothing outside but print. -/
theorem C84_code {shl : Str} {a : List Str} {opts : List Spec.CliOpt} {src : Str} {ws : List Str}
    (hl : Spec.CliLine (shl :: a) opts src ws) (hc : Spec.CliOpt.isCode ∈ opts) (hw : Spec.WrittenOut false src) :
    ∀ n, ∀ e ∈ (runMain H n false (shl :: a)).2.trace, Spec.Prints e := by
  intro n
  obtain ⟨s, h1, h2, h3⟩ := code_run (H := H) (bad := fun _ => true) hl hc
  rw [h3, interp_callE_trace]
  exact (good_run (fun _ _ h => h) n (.src src Env.init) s hw (good_start h1 fun e he => ignored_prints (h2 e he))).trace

/-- **C84.** If `显示` does not occur either, nothing at all happens outside, but for the notes about options that are not known. -/
theorem C84_silent_code {shl : Str} {a : List Str} {opts : List Spec.CliOpt} {src : Str} {ws : List Str}
    (hl : Spec.CliLine (shl :: a) opts src ws) (hc : Spec.CliOpt.isCode ∈ opts) (hw : Spec.WrittenOut true src) :
    ∀ n, ∀ e ∈ (runMain H n false (shl :: a)).2.trace, Spec.Ignored e := by
  intro n
  obtain ⟨s, h1, h2, h3⟩ := code_run (H := H) (bad := fun _ => true) hl hc
  rw [h3, interp_callE_trace]
  exact (good_run (fun h => by cases h) n (.src src Env.init) s hw (good_start h1 h2)).trace

/-- **C84.** A script in a file: the only files that are touched are those under whose name the script is looked for. -/
theorem C84_file {shl : Str} {a : List Str} {opts : List Spec.CliOpt} {src : Str} {ws : List Str}
    (hl : Spec.CliLine (shl :: a) opts src ws) (hc : Spec.CliOpt.isCode ∉ opts)
    (hf : ∀ tr f, Spec.NamedBy H src f → ∀ t, H.read tr f = .ok t → ∀ b, Spec.Unhashed t b → Spec.WrittenOut false b) :
    ∀ n, ∀ e ∈ (runMain H n false (shl :: a)).2.trace, Spec.Prints e ∨ ∃ f, Spec.NamedBy H src f ∧ (e = .open_ f ∨ e = .read f) := by
  intro n
  obtain ⟨s, h1, h2, h3⟩ := file_run (H := H) (bad := fun _ => true) hl hc hf
  have h2' : ∀ e ∈ s.trace, Spec.Prints e ∨ ∃ f, Spec.NamedBy H src f ∧ (e = .open_ f ∨ e = .read f) := fun e he =>
    (h2 e he).imp ignored_prints id
  rcases h3 with ⟨x, -, h3⟩ | ⟨t, ht, h3⟩
  · rw [h3]; exact h2'
  · rw [h3, interp_callE_trace]
    exact (good_run (fun _ _ h => .inl h) n (.src t Env.init) s ht (good_start h1 h2')).trace

/-- **C84.** And without `显示`. -/
theorem C84_silent_file {shl : Str} {a : List Str} {opts : List Spec.CliOpt} {src : Str} {ws : List Str}
    (hl : Spec.CliLine (shl :: a) opts src ws) (hc : Spec.CliOpt.isCode ∉ opts)
    (hf : ∀ tr f, Spec.NamedBy H src f → ∀ t, H.read tr f = .ok t → ∀ b, Spec.Unhashed t b → Spec.WrittenOut true b) :
    ∀ n, ∀ e ∈ (runMain H n false (shl :: a)).2.trace, Spec.Ignored e ∨ ∃ f, Spec.NamedBy H src f ∧ (e = .open_ f ∨ e = .read f) := by
  intro n
  obtain ⟨s, h1, h2, h3⟩ := file_run (H := H) (bad := fun _ => true) hl hc hf
  rcases h3 with ⟨x, -, h3⟩ | ⟨t, ht, h3⟩
  · rw [h3]; exact h2
  · rw [h3, interp_callE_trace]
    exact (good_run (fun h => by cases h) n (.src t Env.init) s ht (good_start h1 h2)).trace

/-- **C84.** Such a script given as code runs in the same way whatever files and programs there are. -/
theorem C84_same_code (hm : Spec.SameMachine H H') {shl : Str} {a : List Str} {opts : List Spec.CliOpt} {src : Str} {ws : List Str}
    (hl : Spec.CliLine (shl :: a) opts src ws) (hc : Spec.CliOpt.isCode ∈ opts) (hw : Spec.WrittenOut false src) :
    ∀ n, runMain H' n false (shl :: a) = runMain H n false (shl :: a) := fun n =>
  C83_replay hm fun tr e _ ht =>
    same_printed (C84_code (H := H) hl hc hw n e (ht ▸ List.mem_append_right _ (.head _))) tr

/-- **C84.** In a file, it depends only on what is answered about the names it is looked for under. -/
theorem C84_same_file (hm : Spec.SameMachine H H') {shl : Str} {a : List Str} {opts : List Spec.CliOpt} {src : Str} {ws : List Str}
    (hl : Spec.CliLine (shl :: a) opts src ws) (hc : Spec.CliOpt.isCode ∉ opts)
    (hf : ∀ tr f, Spec.NamedBy H src f → ∀ t, H.read tr f = .ok t → ∀ b, Spec.Unhashed t b → Spec.WrittenOut false b)
    (hs : ∀ tr f, Spec.NamedBy H src f → H'.open_ tr f = H.open_ tr f ∧ H'.read tr f = H.read tr f) :
    ∀ n, runMain H' n false (shl :: a) = runMain H n false (shl :: a) := fun n =>
  C83_replay hm fun tr e _ ht => by
    rcases C84_file (H := H) hl hc hf n e (ht ▸ List.mem_append_right _ (.head _)) with h | ⟨f, hn, rfl | rfl⟩
    · exact same_printed h tr
    · exact (hs tr f hn).1
    · exact (hs tr f hn).2

/-- Whether a text is such a text, up to depths. -/
def writtenB (si : Bool) : Nat → Str → Bool
  | 0, _ => false
  | n + 1, t =>
    match parse t with
    | .ok (.ok l) => noneIn (fun c => Spec.beyond si c || match Spec.runPart c with
        | some v => (match v with | [.text b] => !writtenB si n b | _ => true)
        | none => false) 8 l
    | _ => true

theorem writtenB_sound {si : Bool} {n : Nat} {t : Str} (h : writtenB si n t = true) : Spec.WrittenOut si t := by
  induction n generalizing t with
  | zero => cases h
  | succ n ih =>
    unfold writtenB at h
    have key : ∀ l, parse t = .ok (.ok l) → ∀ c ∈ l, ∀ y, Spec.Occurs y c → Spec.beyond si y = false ∧
        ∀ v, Spec.runPart y = some v → ∃ b, v = [.text b] ∧ writtenB si n b = true := by
      intro l hl c hc y hy
      rw [hl] at h
      have := noneIn_sound h c hc y hy
      rw [Bool.or_eq_false_iff] at this
      refine ⟨this.1, fun v hv => ?_⟩
      have h2 := this.2
      rw [hv] at h2
      dsimp only at h2
      split at h2
      · rename_i b
        exact ⟨b, rfl, by simpa using h2⟩
      · cases h2
    refine .mk (fun l hl c hc y hy => (key l hl c hc y hy).1) (fun l hl c hc y hy v hv => ?_) (fun l hl c hc y hy b hv => ?_)
    · obtain ⟨b, e, -⟩ := (key l hl c hc _ hy).2 v hv
      exact ⟨b, e⟩
    · obtain ⟨b', e, hb⟩ := (key l hl c hc _ hy).2 _ hv
      cases e
      exact ih hb

/-- A print handler, a definition within a definition, a call with an argument in a loop, a text with arguments. -/
def fixedDemo : Str :=
  c!"定义“显示”以下代码显示“[”‘参数1’“]”、原。上代码。定义问候以下代码定义乙以“显示三。”。乙。显示‘参数1’。上代码。循环【2】问候一。了。解释下代码显示‘参数1’‘参数2’。上代码、四、五。"

/-- A definition that prints nothing, and calls. -/
def fixedSilent : Str := c!"定义甲以下代码赋予乙以‘参数1’。上代码。循环【3】甲一。了。"

/-- **C84.** Scripts as in the theorems: one with a handler for `显示` and nested definitions, which runs in the same way on every machine; one
that does nothing outside.  And a text that is put together is not covered: no `执行` occurs in the script, and it starts a process. -/
theorem C84_witness :
    (Spec.WrittenOut false fixedDemo ∧
      demo 60 fixedDemo = (.ok (.ok ()), [.out c!"[三]", .out c!"[一]", .out c!"[三]", .out c!"[一]", .out c!"[四五]"]) ∧
      ∀ H', Spec.SameMachine H0 H' → ∀ n, runMain H' n false (demoArgv fixedDemo) = runMain H0 n false (demoArgv fixedDemo)) ∧
    (Spec.WrittenOut true fixedSilent ∧ demo 30 fixedSilent = (.ok (.ok ()), []) ∧
      ∀ H n, ∀ e ∈ (runMain H n false (demoArgv fixedSilent)).2.trace, Spec.Ignored e) ∧
    (Spec.TextWithout (Spec.beyond true) c!"定义甲以“执”“行ls”。甲。" ∧
      demo 30 c!"定义甲以“执”“行ls”。甲。" = (.ok (.ok ()), [.exec .status ⟨c!"ls", [], none, [], false, false⟩])) := by
  have h1 : Spec.WrittenOut false fixedDemo := writtenB_sound (n := 4) (by decide +kernel)
  have h2 : Spec.WrittenOut true fixedSilent := writtenB_sound (n := 4) (by decide +kernel)
  refine ⟨⟨h1, by decide +kernel, fun H' hm n => ?_⟩, ⟨h2, by decide +kernel, fun H n => ?_⟩, fun l hl => ?_, by decide +kernel⟩
  · exact C84_same_code hm (demo_line (by decide +kernel)) (List.mem_singleton.2 rfl) h1 n
  · exact C84_silent_code (demo_line (by decide +kernel)) (List.mem_singleton.2 rfl) h2 n
  · have h : (match parse c!"定义甲以“执”“行ls”。甲。" with | .ok (.ok l) => noneIn (Spec.beyond true) 7 l | _ => false) = true := by
      decide +kernel
    rw [hl] at h
    exact noneIn_sound h

end Zh
