import Verif.Props.CompleteRun
import Verif.Props.Crash3
import Verif.Props.CoreSafe
/-!
# C78: scripts that run no text do not crash

A script in which none of `定义`, `解释`, `加载`, `执行`, `释放模块` occurs runs only its own code.  `Sf bad T p Q` is a statement about the
tree of the program `p`: it evaluates only code without the items `bad`, into lists that are not the arguments of a scope, borrows nothing,
makes no scope and no definition, and parses only texts of `T`.
-/
namespace Zh

/-- The items written directly inside an item. -/
def Spec.parts : Code → List Code
  | .rem a | .var _ a | .block a | .jump _ a | .du a | .jie2 a | .mod_ a | .modFree a | .name a | .has a | .print a | .expl a | .exec a => a
  | .for_ _ _ rems a | .jie rems a => rems ++ a
  | .if_ a th el => a ++ th ++ el
  | .switch _ a case _ _ => a ++ case
  | .set_ n v | .alias n v | .def_ n v _ => n ++ v
  | .eval _ _ _ l a _ _ => l ++ a
  | _ => []

/-- `Occurs y c`: the item `y` is `c` or is written somewhere in `c`. -/
inductive Spec.Occurs : Code → Code → Prop
  | self {c : Code} : Occurs c c
  | part {c x y : Code} : x ∈ Spec.parts c → Occurs y x → Occurs y c

/-- The statements that run a text, or keep one to be run later: `定义`, `解释`, `加载`, `执行`, `释放模块`. -/
def Spec.runsText : Code → Bool
  | .def_ .. | .eval .. | .exec _ | .modFree _ => true
  | _ => false

/-- The program that a text is contains none of the items `bad`. -/
def Spec.TextWithout (bad : Code → Bool) (src : Str) : Prop :=
  ∀ l, parse src = .ok (.ok l) → ∀ c ∈ l, ∀ y, Spec.Occurs y c → bad y = false

variable {α β : Type} {bad : Code → Bool} {T : Str → Prop}

/-- None of the items `bad` occurs in the code. -/
abbrev AllW (bad : Code → Bool) (l : List Code) : Prop := ∀ c ∈ l, ∀ y, Spec.Occurs y c → bad y = false

theorem AllW.nil : AllW bad [] := fun _ h => nomatch h

/-- See above. -/
def Call.Ok (bad : Code → Bool) (T : Str → Prop) : Call → Prop
  | .codes a _ _ env | .z2 a _ _ env | .z4 a _ _ _ env _ | .cond a env _ | .loop _ a _ _ _ env _ _ => AllW bad a ∧ 2 ≤ env.ret
  | .item c env => AllW bad [c] ∧ 2 ≤ env.ret
  | .src s env => T s ∧ 2 ≤ env.ret
  | .get _ isHas _ env => (isHas = true → ∃ a, bad (.has a) = false) ∧ 2 ≤ env.ret
  | .slave .. => False

/-- The built-in definitions are texts with a name and without arguments, and none is a handler for printing. -/
def Builtin (s : St) : Prop :=
  ∀ q, ∀ d ∈ (s.scopes q).defs, (∃ t, d.val = .si t) ∧ d.name ≠ kwStr .print_ ∧ d.name0 ≠ [] ∧ d.names.hasGe = false

/-- Printing. -/
def Spec.Prints : Event → Prop
  | .out _ | .err _ | .flush | .outBytes _ | .errBytes _ => True
  | _ => False

def Op.May (bad : Code → Bool) (T : Str → Prop) : Op → Prop
  | .newScope .. | .setDef .. => False
  | .setVar _ v => v.alias = true → ∃ a b, bad (.alias a b) = false
  | .emit e => Spec.Prints e
  | .parse src => T src
  | _ => True

def Op.Gives (bad : Code → Bool) : (o : Op) → o.Res → Prop
  | .st, s => Builtin s
  | .newList, r => 2 ≤ r
  | .parse _, r => ∀ l, r = .ok l → AllW bad l
  | _, _ => True

/-- See above. -/
def Sf (bad : Code → Bool) (T : Str → Prop) : Prog α → (α → Prop) → Prop
  | .ret a, Q => Q a
  | .panic, _ => True
  | .op o k, Q => o.May bad T ∧ ∀ r, o.Gives bad r → Sf bad T (k r) Q
  | .call hd c k, Q => (hd = [] ∧ c.Ok bad T) ∧ ∀ r, Sf bad T (k r) Q

abbrev S (bad : Code → Bool) (T : Str → Prop) (p : Prog α) : Prop := Sf bad T p fun _ => True
abbrev SE (bad : Code → Bool) (T : Str → Prop) (p : E α) : Prop := S bad T p.run

theorem Sf.bind {p : Prog α} {f : α → Prog β} {Q : α → Prop} {R : β → Prop} (h : Sf bad T p Q) (hf : ∀ a, Q a → Sf bad T (f a) R) :
    Sf bad T (p >>= f) R := by
  change Sf bad T (p.bind f) R
  induction p with
  | ret a => exact hf a h
  | panic => trivial
  | op o k ih => exact ⟨h.1, fun a ha => ih a (h.2 a ha)⟩
  | call hd c k ih => exact ⟨h.1, fun r => ih r (h.2 r)⟩

theorem S.bind {p : Prog α} {f : α → Prog β} {R : β → Prop} (h : S bad T p) (hf : ∀ a, Sf bad T (f a) R) : Sf bad T (p >>= f) R :=
  Sf.bind h fun a _ => hf a

theorem SE.bind {p : E α} {f : α → E β} (h : SE bad T p) (hf : ∀ a, SE bad T (f a)) : SE bad T (p >>= f) := by
  change S bad T (p.run >>= _)
  refine S.bind h fun a => ?_
  cases a with
  | ok a => exact hf a
  | error e => trivial

theorem SE.bindQ {p : E α} {f : α → E β} {Q : Except Err α → Prop} (h : Sf bad T p.run Q) (hf : ∀ a, Q (.ok a) → SE bad T (f a)) :
    SE bad T (p >>= f) := by
  change S bad T (p.run >>= _)
  refine Sf.bind h fun a ha => ?_
  cases a with
  | ok a => exact hf a ha
  | error e => trivial

theorem SE.lift {p : Prog α} (h : S bad T p) : SE bad T (liftM p : E α) := S.bind h fun _ => trivial
theorem SE.lift' {p : Prog α} (h : S bad T p) : SE bad T (ExceptT.lift p : E α) := S.bind h fun _ => trivial
theorem s_ofOut {x : Out α} : S bad T (ofOut x) := by cases x <;> trivial
theorem sE_mkOut {x : Out (Except Err α)} : SE bad T (ExceptT.mk (ofOut x)) := s_ofOut
theorem s_pure {a : α} : S bad T (pure a : Prog α) := trivial
theorem s_panic : S bad T (Prog.panic : Prog α) := trivial
theorem sE_panic : SE bad T (Prog.panic : Prog (Except Err α)) := trivial
theorem sE_pure {a : α} : SE bad T (pure a : E α) := trivial
theorem sE_fail {e' : Err} : SE bad T (fail e' : E α) := trivial
theorem sE_mk {x : Except Err α} : SE bad T (ExceptT.mk (pure x) : E α) := trivial
theorem s_doOp {o : Op} (h : o.May bad T) : S bad T (doOp o) := ⟨h, fun _ _ => trivial⟩
theorem s_getSt : S bad T getSt := ⟨trivial, fun _ _ => trivial⟩
theorem s_newList_bind {f : Nat → Prog β} {R : β → Prop} (hf : ∀ r, 2 ≤ r → Sf bad T (f r) R) : Sf bad T (doOp .newList >>= f) R :=
  ⟨trivial, hf⟩
theorem sE_newList_bind {f : Nat → E β} (hf : ∀ r, 2 ≤ r → SE bad T (f r)) : SE bad T ((liftM (doOp .newList) : E Nat) >>= f) :=
  ⟨trivial, hf⟩
theorem s_getSt_bind {f : St → Prog β} {R : β → Prop} (hf : ∀ s, Builtin s → Sf bad T (f s) R) : Sf bad T (getSt >>= f) R :=
  ⟨trivial, hf⟩
theorem sE_getSt_bind {f : St → E β} (hf : ∀ s, Builtin s → SE bad T (f s)) : SE bad T ((liftM getSt : E St) >>= f) :=
  ⟨trivial, hf⟩
theorem s_callP {c : Call} (h : c.Ok bad T) : S bad T (callP [] c) := ⟨⟨rfl, h⟩, fun _ => trivial⟩
theorem sE_callE {c : Call} (h : c.Ok bad T) : SE bad T (callE [] c) := ⟨⟨rfl, h⟩, fun _ => trivial⟩
theorem sE_hello {a : List Code} {env : Env} (h : AllW bad a) (hr : 2 ≤ env.ret) : SE bad T (hello [] a env) := sE_callE ⟨h, hr⟩

syntax "sf_rule" : tactic
macro_rules | `(tactic| sf_rule) => `(tactic| with_reducible exact s_pure)
macro_rules | `(tactic| sf_rule) => `(tactic| with_reducible exact s_panic)
macro_rules | `(tactic| sf_rule) => `(tactic| with_reducible exact sE_panic)
macro_rules | `(tactic| sf_rule) => `(tactic| with_reducible exact sE_pure)
macro_rules | `(tactic| sf_rule) => `(tactic| with_reducible exact sE_fail)
macro_rules | `(tactic| sf_rule) => `(tactic| with_reducible exact sE_mk)
macro_rules | `(tactic| sf_rule) => `(tactic| with_reducible exact sE_mkOut)
macro_rules | `(tactic| sf_rule) => `(tactic| with_reducible exact s_ofOut)
macro_rules | `(tactic| sf_rule) => `(tactic| ((with_reducible refine sE_callE ?_); exact ⟨by assumption, by assumption⟩))
macro_rules | `(tactic| sf_rule) => `(tactic| ((with_reducible refine sE_hello ?_ ?_) <;> assumption))
macro_rules | `(tactic| sf_rule) => `(tactic| ((with_reducible refine s_callP ?_); exact ⟨by assumption, by assumption⟩))
macro_rules | `(tactic| sf_rule) => `(tactic| ((with_reducible refine s_doOp ?_); exact trivial))
macro_rules | `(tactic| sf_rule) => `(tactic| ((with_reducible refine s_doOp (o := .emit _) ?_); split <;> exact trivial))
macro_rules | `(tactic| sf_rule) => `(tactic| ((with_reducible refine s_doOp (o := .setVar _ _) ?_); first | assumption | (intro h; cases h)))
macro_rules | `(tactic| sf_rule) => `(tactic| with_reducible exact s_getSt)

macro "sf" : tactic => `(tactic| repeat' (first
  | sf_rule
  | with_reducible refine sE_newList_bind ?_
  | with_reducible refine s_newList_bind ?_
  | with_reducible refine sE_getSt_bind ?_
  | with_reducible refine s_getSt_bind ?_
  | with_reducible refine SE.bind ?_ ?_
  | with_reducible refine SE.lift ?_
  | with_reducible refine SE.lift' ?_
  | with_reducible refine S.bind ?_ ?_
  | split
  | dsimp only
  | intro _))

theorem f_addItem {ret : Nat} {i : Item} : S bad T (addItem ret i) := by unfold addItem; sf
macro_rules | `(tactic| sf_rule) => `(tactic| with_reducible exact f_addItem)
theorem f_addVal {ret : Nat} {v : Val} {r : List Str} : S bad T (addVal ret v r) := by unfold addVal; sf
macro_rules | `(tactic| sf_rule) => `(tactic| with_reducible exact f_addVal)
theorem f_addT {ret : Nat} {t : Str} : S bad T (addT ret t) := by unfold addT; sf
macro_rules | `(tactic| sf_rule) => `(tactic| with_reducible exact f_addT)
theorem f_addKwI {ret : Nat} {t : KwId} : S bad T (addKwI ret t) := by unfold addKwI; sf
macro_rules | `(tactic| sf_rule) => `(tactic| with_reducible exact f_addKwI)
theorem f_addDun {ret : Nat} : S bad T (addDun ret) := by unfold addDun; sf
macro_rules | `(tactic| sf_rule) => `(tactic| with_reducible exact f_addDun)
theorem f_addTs {ret : Nat} {l : List Str} : S bad T (addTs ret l) := by
  induction l with
  | nil => trivial
  | cons t ts ih => unfold addTs; exact S.bind f_addT fun _ => ih
macro_rules | `(tactic| sf_rule) => `(tactic| with_reducible exact f_addTs)
theorem f_getList {r : Nat} : S bad T (getList r) := by unfold getList; sf
macro_rules | `(tactic| sf_rule) => `(tactic| with_reducible exact f_getList)
theorem f_helloNew {a : List Code} {env : Env} (h : AllW bad a) : SE bad T (helloNew [] a env) := by unfold helloNew; sf
macro_rules | `(tactic| sf_rule) => `(tactic| with_reducible exact f_helloNew (by assumption))
theorem f_helloVec {a : List Code} {env : Env} (h : AllW bad a) : SE bad T (helloVec a env) := by unfold helloVec; sf
macro_rules | `(tactic| sf_rule) => `(tactic| with_reducible exact f_helloVec (by assumption))

/-! ## Variables and arguments -/

theorem f_argiP {i : Int} {isHas equ : Bool} {name : Str} {q ret : Nat} : S bad T (argiP i isHas equ name q ret) := by unfold argiP; sf
macro_rules | `(tactic| sf_rule) => `(tactic| with_reducible exact f_argiP)
theorem f_arg0P {z : Str} {isHas : Bool} {q ret : Nat} : S bad T (arg0P z isHas q ret) := by unfold arg0P; sf
macro_rules | `(tactic| sf_rule) => `(tactic| with_reducible exact f_arg0P)
theorem f_argcP {isHas : Bool} {q ret : Nat} : S bad T (argcP isHas q ret) := by unfold argcP; sf
macro_rules | `(tactic| sf_rule) => `(tactic| with_reducible exact f_argcP)
theorem f_argsP {isHas : Bool} {q : Nat} {b e : Int} {line : Bool} {ret : Nat} : S bad T (argsP isHas q b e line ret) := by unfold argsP; sf
macro_rules | `(tactic| sf_rule) => `(tactic| with_reducible exact f_argsP)
theorem f_getP {name : Str} {isHas equ canUp noSelf : Bool} {env : Env} : S bad T (getP name isHas equ canUp noSelf env) := by unfold getP; sf
macro_rules | `(tactic| sf_rule) => `(tactic| with_reducible exact f_getP)
theorem f_getAliasP {name : Str} {isHas : Bool} {equ : EquName} {canUp : Bool} {q2 : Nat} {env : Env}
    (h : isHas = true → ∃ a, bad (.has a) = false) (hr : 2 ≤ env.ret) : SE bad T (getAliasP name isHas equ canUp q2 env) := by
  unfold getAliasP; sf
macro_rules | `(tactic| sf_rule) => `(tactic| with_reducible exact f_getAliasP (by assumption) (by assumption))
theorem f_getArgs {name : Str} {rems : List Str} {isHas : Bool} {equ : EquName} {q2 : Nat} {env : Env}
    (h : isHas = true → ∃ a, bad (.has a) = false) (hr : 2 ≤ env.ret) : SE bad T (getArgs name rems isHas equ q2 env) := by
  unfold getArgs; sf
macro_rules | `(tactic| sf_rule) => `(tactic| with_reducible exact f_getArgs (by assumption) (by assumption))
theorem f_get2P {l : List Item} {isHas : Bool} {equ : EquName} {env : Env}
    (h : isHas = true → ∃ a, bad (.has a) = false) (hr : 2 ≤ env.ret) : SE bad T (get2P l isHas equ env) := by unfold get2P; sf
theorem f_var1P {rems : List Str} {name : Str} {env : Env} : SE bad T (var1P rems name env) := by unfold var1P; sf
macro_rules | `(tactic| sf_rule) => `(tactic| with_reducible exact f_var1P)
theorem f_simpP {name : Str} {rems : List Str} {env : Env} (hr : 2 ≤ env.ret) : SE bad T (simpP name rems env) := by
  have : false = true → ∃ a, bad (.has a) = false := nofun
  unfold simpP; sf
macro_rules | `(tactic| sf_rule) => `(tactic| with_reducible exact f_simpP (by assumption))
theorem f_remTarget {env : Env} : S bad T (remTarget env) := by unfold remTarget; sf
macro_rules | `(tactic| sf_rule) => `(tactic| with_reducible exact f_remTarget)
theorem f_remP {r2 : Nat} {env : Env} : S bad T (remP r2 env) := by unfold remP; sf
macro_rules | `(tactic| sf_rule) => `(tactic| with_reducible exact f_remP)
theorem f_remsP {rems : List Code} {env : Env} (h : AllW bad rems) : SE bad T (remsP rems env) := by unfold remsP; sf
macro_rules | `(tactic| sf_rule) => `(tactic| with_reducible exact f_remsP (by assumption))

/-! ## Statement lists -/

theorem f_codesP {a : List Code} {i e : Nat} {env : Env} (h : AllW bad a) (hr : 2 ≤ env.ret) : S bad T (codesP a i e env) := by
  unfold codesP; sf

theorem f_z2Item {a : List Code} {i e : Nat} {env : Env} {c : Code} (h : AllW bad a) (hr : 2 ≤ env.ret) (hc : AllW bad [c]) :
    S bad T (z2Item a i e env c) := by
  unfold z2Item; sf

theorem f_z2P {a : List Code} {i e : Nat} {env : Env} (h : AllW bad a) (hr : 2 ≤ env.ret) : S bad T (z2P a i e env) := by
  unfold z2P
  split
  · split
    · trivial
    · rename_i c hc
      have hc : AllW bad [c] := fun x hx => by
        cases List.mem_singleton.1 hx
        exact h c (List.mem_of_getElem? hc)
      have : ∀ {i}, S bad T (z2Item a i e env c) := f_z2Item h hr hc
      split
      · split
        · exact this
        · refine S.bind (s_callP ⟨h, hr⟩) fun r => ?_
          split
          · trivial
          · split
            · exact s_callP ⟨h, hr⟩
            · exact this
      · split
        · trivial
        · refine S.bind s_getSt fun s => ?_
          split
          · exact this
          · exact s_callP ⟨h, hr⟩
      · split
        · trivial
        · exact this
      · exact this
  · trivial

theorem f_returnP {q : Nat} {r : Except Err Unit} : SE bad T (returnP q r) := by unfold returnP; sf
macro_rules | `(tactic| sf_rule) => `(tactic| with_reducible exact f_returnP)

theorem f_z4P {a : List Code} {cs : Str} {e2 e : Nat} {env : Env} {st : Z4} (ha : AllW bad a) (hr : 2 ≤ env.ret) :
    S bad T (z4P a cs e2 e env st) := by
  unfold z4P
  split
  · refine s_getSt_bind fun s hs => ?_
    split
    · sf
    · split
      · trivial
      · rename_i d hd
        obtain ⟨t, ht⟩ := (hs _ d (List.mem_of_getElem? hd)).1
        refine S.bind s_ofOut fun r => ?_
        split
        · sf
        · refine S.bind f_addTs fun _ => ?_
          rw [ht]
          sf
  · sf

theorem f_srcP {src : Str} {env : Env} (h : T src) (hr : 2 ≤ env.ret) : SE bad T (srcP src env) := by
  unfold srcP
  refine SE.bindQ (Q := fun r => ∀ l, r = .ok l → AllW bad l) ⟨h, fun r hr => hr⟩ fun l hl => ?_
  have hl := hl l rfl
  sf

/-! ## Statements -/

theorem f_setJie {ret : Nat} {name : Str} {v : Item} {s : Str} {n : Nat} : SE bad T (setJie ret name v s n) := by
  induction s generalizing n with
  | nil => trivial
  | cons c cs ih => unfold setJie; sf <;> exact ih
macro_rules | `(tactic| sf_rule) => `(tactic| with_reducible exact f_setJie)
theorem f_setGo {b : Bool} {env : Env} {gs : List (List Item)} {st : SetSt} (h : b = true → ∃ n v, bad (.alias n v) = false) :
    SE bad T (setGo b env gs st) := by
  induction gs generalizing st with
  | nil => trivial
  | cons g gs ih =>
    unfold setGo
    refine SE.bind (SE.lift s_getSt) fun s => SE.bind sE_mkOut fun x => SE.bind (SE.lift ?_) fun v => ?_
    · sf
    · split
      · exact SE.lift s_panic
      · exact SE.bind (SE.lift (s_doOp (o := .setVar _ _) h)) fun _ => SE.bind f_setJie fun _ => ih
macro_rules | `(tactic| sf_rule) => `(tactic| with_reducible exact f_setGo (by assumption))
theorem f_setP {b : Bool} {n v : List Code} {env : Env} (hb : b = true → ∃ n v, bad (.alias n v) = false) (hn : AllW bad n)
    (hv : AllW bad v) : SE bad T (setP b n v env) := by unfold setP; sf
theorem f_nameP {b : Bool} {a : List Code} {env : Env} (h : AllW bad a) : SE bad T (nameP b a env) := by unfold nameP; sf
theorem f_switchHits {case : List Code} {t : Str} {env : Env} {bs : List (Nat × Nat)} (h : AllW bad case) :
    SE bad T (switchHits case t env bs) := by
  induction bs with
  | nil => trivial
  | cons b bs ih =>
    obtain ⟨i, k⟩ := b
    unfold switchHits
    refine sE_newList_bind fun r hr => SE.bind (sE_callE ⟨h, hr⟩) fun _ => SE.bind (SE.lift f_getList) fun l => ?_
    exact SE.bind ih fun _ => trivial
macro_rules | `(tactic| sf_rule) => `(tactic| with_reducible exact f_switchHits (by assumption))
theorem f_switchRun {case : List Code} {env : Env} {bs : List (Nat × Nat)} (h : AllW bad case) (hr : 2 ≤ env.ret) :
    SE bad T (switchRun case env bs) := by
  induction bs with
  | nil => trivial
  | cons b bs ih => unfold switchRun; sf <;> exact ih
macro_rules | `(tactic| sf_rule) => `(tactic| with_reducible exact f_switchRun (by assumption) (by assumption))
theorem f_switchP {one : Bool} {a case : List Code} {bs : List (Nat × Nat)} {d : Option Nat} {env : Env} (ha : AllW bad a)
    (hc : AllW bad case) (hr : 2 ≤ env.ret) : SE bad T (switchP one a case bs d env) := by unfold switchP; sf
theorem f_condMv {b : Bool} {a : List Code} {env : Env} {st : CondSt} (h : AllW bad a) (hr : 2 ≤ env.ret) : S bad T (condMv b a env st) := by
  unfold condMv; sf
macro_rules | `(tactic| sf_rule) => `(tactic| with_reducible exact f_condMv (by assumption) (by assumption))
theorem f_condCmp {a : List Code} {env : Env} {st : CondSt} (h : AllW bad a) (hr : 2 ≤ env.ret) : S bad T (condCmp a env st) := by
  unfold condCmp; sf
macro_rules | `(tactic| sf_rule) => `(tactic| with_reducible exact f_condCmp (by assumption) (by assumption))
theorem f_condP {a : List Code} {env : Env} {st : CondSt} (h : AllW bad a) (hr : 2 ≤ env.ret) : S bad T (condP a env st) := by
  unfold condP
  split
  · sf
  · rename_i c hc
    have hc := h c (List.mem_of_getElem? hc)
    split
    · rename_i b _
      have : AllW bad b := fun x hx y hy => hc y (.part hx hy)
      sf
    · sf
theorem f_ifP {a th el : List Code} {env : Env} (h : AllW bad a) (h2 : AllW bad th) (h3 : AllW bad el) (hr : 2 ≤ env.ret) :
    SE bad T (ifP a th el env) := by unfold ifP; sf
theorem f_loopP {r : Bool} {a : List Code} {m : Nat} {u : Bool} {cnt : Cnt} {env : Env} {i : Nat} {n : Bool} (h : AllW bad a)
    (hr : 2 ≤ env.ret) : S bad T (loopP r a m u cnt env i n) := by unfold loopP; sf
theorem f_forP {r : Bool} {cnt : Cnt} {rems a : List Code} {env : Env} (h1 : AllW bad rems) (h : AllW bad a) (hr : 2 ≤ env.ret) :
    SE bad T (forP r cnt rems a env) := by
  unfold forP; sf
theorem f_jumpP {k : JumpKind} {a : List Code} {env : Env} (h : AllW bad a) : SE bad T (jumpP k a env) := by unfold jumpP; sf
theorem f_jieP {rems a : List Code} {env : Env} (h1 : AllW bad rems) (h : AllW bad a) (hr : 2 ≤ env.ret) : SE bad T (jieP rems a env) := by
  unfold jieP; sf
theorem f_jie2P {a : List Code} {env : Env} (h : AllW bad a) (hr : 2 ≤ env.ret) : SE bad T (jie2P a env) := by
  unfold jie2P
  refine SE.bind (SE.lift' (show S bad T _ from sE_hello h hr)) fun r => ?_
  sf
theorem f_printJie {ret : Nat} {t s : Str} : SE bad T (printJie ret t s) := by
  induction s with
  | nil => trivial
  | cons c cs ih => unfold printJie; sf <;> exact ih
macro_rules | `(tactic| sf_rule) => `(tactic| with_reducible exact f_printJie)
theorem f_printP {a : List Code} {env : Env} (h : AllW bad a) : SE bad T (printP a env) := by
  unfold printP
  refine SE.bind (f_helloVec h) fun v => ?_
  split
  · sf
  · refine SE.bind sE_mk fun x => sE_getSt_bind fun s hs => ?_
    have hn : ∀ q, printHandler s q = none := by
      intro q
      unfold printHandler
      rw [List.findSome?_eq_none_iff]
      intro p _
      rw [Option.map_eq_none_iff, List.find?_eq_none]
      intro d hd
      simpa using (hs p d hd).2.1
    dsimp only
    rw [hn, ite_self]
    dsimp only
    sf
theorem f_explP {a : List Code} {env : Env} (h : AllW bad a) : SE bad T (explP a env) := by unfold explP; sf

theorem AllW.inner {c : Code} (h : AllW bad [c]) {l : List Code} (hl : ∀ x ∈ l, x ∈ Spec.parts c) : AllW bad l :=
  fun x hx y hy => h c (List.mem_singleton.2 rfl) y (.part (hl x hx) hy)

theorem f_itemP {c : Code} {env : Env} (hb : ∀ c, Spec.runsText c = true → bad c = true) (h : AllW bad [c]) (hr : 2 ≤ env.ret) :
    SE bad T (itemP c env) := by
  have hself : bad c = false := h c (List.mem_singleton.2 rfl) c .self
  have no : Spec.runsText c = true → False := fun e => by rw [hb c e] at hself; cases hself
  cases c with
  | for_ r cnt rems a => exact f_forP (h.inner fun x hx => List.mem_append_left _ hx) (h.inner fun x hx => List.mem_append_right _ hx) hr
  | jump k a => exact f_jumpP (h.inner fun x hx => hx)
  | if_ a th el =>
    exact f_ifP (h.inner fun x hx => List.mem_append_left _ (List.mem_append_left _ hx))
      (h.inner fun x hx => List.mem_append_left _ (List.mem_append_right _ hx)) (h.inner fun x hx => List.mem_append_right _ hx) hr
  | switch one a case bs d =>
    exact f_switchP (h.inner fun x hx => List.mem_append_left _ hx) (h.inner fun x hx => List.mem_append_right _ hx) hr
  | jie rems a => exact f_jieP (h.inner fun x hx => List.mem_append_left _ hx) (h.inner fun x hx => List.mem_append_right _ hx) hr
  | jie2 a => exact f_jie2P (h.inner fun x hx => hx) hr
  | mod_ a => exact f_nameP (h.inner fun x hx => hx)
  | name a => exact f_nameP (h.inner fun x hx => hx)
  | set_ n v => exact f_setP nofun (h.inner fun x hx => List.mem_append_left _ hx) (h.inner fun x hx => List.mem_append_right _ hx)
  | «alias» n v => exact f_setP (fun _ => ⟨n, v, hself⟩) (h.inner fun x hx => List.mem_append_left _ hx) (h.inner fun x hx => List.mem_append_right _ hx)
  | def_ n v sp => exact (no rfl).elim
  | eval l cur a0 i a sp e => exact (no rfl).elim
  | exec a => exact (no rfl).elim
  | modFree a => exact (no rfl).elim
  | print a => exact f_printP (h.inner fun x hx => hx)
  | expl a => exact f_explP (h.inner fun x hx => hx)
  | simp name rems => exact f_simpP hr
  | has a =>
    have ha : AllW bad a := h.inner fun x hx => hx
    have : true = true → ∃ a, bad (.has a) = false := fun _ => ⟨a, hself⟩
    unfold itemP; dsimp only; sf
  | var rems a =>
    have ha : AllW bad a := h.inner fun x hx => hx
    have : false = true → ∃ a, bad (.has a) = false := nofun
    unfold itemP; dsimp only; sf
  | block a =>
    have ha : AllW bad a := h.inner fun x hx => hx
    unfold itemP; dsimp only; sf
  | du a =>
    have ha : AllW bad a := h.inner fun x hx => hx
    unfold itemP; dsimp only; sf
  | rem a =>
    have ha : AllW bad a := h.inner fun x hx => hx
    unfold itemP; dsimp only; sf
  | _ => unfold itemP; dsimp only; sf

theorem f_resE {p : E Unit} (h : SE bad T p) : S bad T (resE p) := S.bind h fun _ => trivial

theorem f_evalF {c : Call} (hb : ∀ c, Spec.runsText c = true → bad c = true) (h : c.Ok bad T) : S bad T (evalF c) := by
  cases c with
  | codes a i e env => exact f_codesP h.1 h.2
  | z2 a i e env => exact f_z2P h.1 h.2
  | z4 a cs e2 e env st => exact f_z4P h.1 h.2
  | item c env => exact f_resE (f_itemP hb h.1 h.2)
  | src s env => exact f_resE (f_srcP h.1 h.2)
  | loop r a m u cnt env i n => exact f_loopP h.1 h.2
  | cond a env st => exact f_condP h.1 h.2
  | get l b e env => exact f_resE (f_get2P h.1 h.2)
  | slave h o e b env => exact False.elim h

/-! ## The start of the interpreter -/

theorem f_openP {f : Str} {b : Bool} {q : Nat} : S bad T (openP f b q) := by unfold openP; sf
macro_rules | `(tactic| sf_rule) => `(tactic| with_reducible exact f_openP)
theorem f_openFirst {src : Str} {b : Bool} {q : Nat} {ps : List Str} : S bad T (openFirst src b q ps) := by
  induction ps with
  | nil => trivial
  | cons p ps ih => unfold openFirst; sf <;> exact ih
macro_rules | `(tactic| sf_rule) => `(tactic| with_reducible exact f_openFirst)
theorem f_okSrcP {src : Str} {b : Bool} {q : Nat} : S bad T (okSrcP src b q) := by unfold okSrcP; sf
macro_rules | `(tactic| sf_rule) => `(tactic| with_reducible exact f_okSrcP)
theorem f_cliArg {args : Nat} {t : Str} : S bad T (cliArg args t) := by unfold cliArg; sf
macro_rules | `(tactic| sf_rule) => `(tactic| with_reducible exact f_cliArg)
theorem f_cliActs {q : Nat} {l : List CliAct} : S bad T (cliActs q l) := by
  induction l with
  | nil => trivial
  | cons a l ih => unfold cliActs; cases a <;> (dsimp only; sf) <;> exact ih
macro_rules | `(tactic| sf_rule) => `(tactic| with_reducible exact f_cliActs)
theorem f_shlP {b : Bool} {a : List Str} : S bad T (shlP b a) := by unfold shlP; sf
macro_rules | `(tactic| sf_rule) => `(tactic| with_reducible exact f_shlP)
theorem f_clparsP {a : List Str} {b c d e : Bool} {q : Nat} : SE bad T (clparsP a b c d e q) := by unfold clparsP; sf
macro_rules | `(tactic| sf_rule) => `(tactic| with_reducible exact f_clparsP)
theorem f_src2P {src : Str} {q : Nat} : SE bad T (src2P src q) := by unfold src2P; sf
macro_rules | `(tactic| sf_rule) => `(tactic| with_reducible exact f_src2P)
theorem f_topVal {n v : Str} : S bad T (topVal n v) := by unfold topVal; sf
macro_rules | `(tactic| sf_rule) => `(tactic| with_reducible exact f_topVal)
theorem f_mainP {argv : List Str} (hT : ∀ x, T x) : SE bad T (mainP argv) := by
  have : ∀ {x}, SE bad T (callE [] (.src x Env.init)) := fun {x} => sE_callE ⟨hT x, Nat.le_refl _⟩
  unfold mainP; sf <;> exact this

/-! ## Runs -/

variable {H : Host}

/-- What stays true in such runs. -/
structure Still (bad : Code → Bool) (s : St) : Prop where
  defs : Builtin s
  args : ∀ q, (s.scopes q).args < 2
  nlist : 2 ≤ s.nlist
  held : s.held = []
  cache : ∀ e ∈ s.cache, AllW bad e.2
  ovf : s.ovf = false
  plain : (∀ a b, bad (.alias a b) = true) → ∀ q, ∀ v ∈ (s.scopes q).vars, v.alias = false

theorem still_init : Still bad (St.init false) := by
  refine ⟨fun q d hd => ?_, fun q => ?_, by decide, rfl, nofun, rfl, fun _ q v hv => ?_⟩
  · by_cases hq : q = 0
    · subst hq
      have : d ∈ ((St.init false).scopes 0).defs := hd
      simp only [St.init, ↓reduceIte, List.mem_cons, List.not_mem_nil, or_false] at this
      rcases this with rfl | rfl | rfl | rfl <;> exact ⟨⟨_, rfl⟩, by decide, by decide, rfl⟩
    · simp [St.init, hq, Scope.new] at hd
  · by_cases hq : q = 0 <;> simp [St.init, hq, Scope.new]
  · by_cases hq : q = 0 <;> simp [St.init, hq, Scope.new] at hv

theorem Still.scope {s : St} (h : Still bad s) (q : Nat) (f : Scope → Scope) (hd : ∀ c, (f c).defs = c.defs) (ha : ∀ c, (f c).args = c.args)
    (hv : (∀ a b, bad (.alias a b) = true) → ∀ c, (∀ v ∈ c.vars, v.alias = false) → ∀ v ∈ (f c).vars, v.alias = false) :
    Still bad (s.modScope q f).2 := by
  unfold St.modScope
  split
  · exact h
  · refine ⟨fun p d => ?_, fun p => ?_, h.nlist, h.held, h.cache, h.ovf, fun hb p => ?_⟩
    · by_cases e : p = q
      · subst e; simp only [upd_same, hd]; exact h.defs p d
      · simp only [upd, if_neg e]; exact h.defs p d
    · by_cases e : p = q
      · subst e; simp only [upd_same, ha]; exact h.args p
      · simp only [upd, if_neg e]; exact h.args p
    · by_cases e : p = q
      · subst e; simp only [upd_same]; exact hv hb _ (h.plain hb p)
      · simp only [upd, if_neg e]; exact h.plain hb p

theorem alias_setVar {v : Var} {vs : List Var} (hv : v.alias = false) (h : ∀ w ∈ vs, w.alias = false) : ∀ w ∈ setVar v vs, w.alias = false := by
  induction vs with
  | nil => intro w hw; cases List.mem_singleton.1 hw; exact hv
  | cons u us ih =>
    intro w hw
    unfold setVar at hw
    split at hw
    · rcases List.mem_cons.1 hw with rfl | hw
      · exact hv
      · exact h w (List.mem_cons_of_mem _ hw)
    · rcases List.mem_cons.1 hw with rfl | hw
      · exact h _ List.mem_cons_self
      · exact ih (fun x hx => h x (List.mem_cons_of_mem _ hx)) w hw

theorem still_codes {c c' : Cache (List Code)} {src : Str} {r : Except Err (List Code)} (hc : ∀ e ∈ c, AllW bad e.2)
    (ht : Spec.TextWithout bad src) (h : codesCache H.hash parse c src = .ok (r, c')) :
    (∀ e ∈ c', AllW bad e.2) ∧ ∀ l, r = .ok l → AllW bad l := by
  unfold codesCache at h
  cases hg : c.get H.hash src with
  | some codes =>
    rw [hg] at h
    cases h
    refine ⟨hc, fun l hl => ?_⟩
    cases hl
    unfold Cache.get at hg
    obtain ⟨e, he, rfl⟩ := Option.map_eq_some_iff.1 hg
    exact hc e (List.mem_of_find?_eq_some he)
  | none =>
    rw [hg] at h
    rcases hp : parse src with (e | x) | _ | _
    · rw [hp] at h; cases h; exact ⟨hc, nofun⟩
    · rw [hp] at h
      have h3 : (c.set H.hash src x).get H.hash src = some x := by simp [Cache.set, Cache.get]
      dsimp only at h
      rw [h3] at h
      cases h
      refine ⟨fun e he => ?_, fun l hl => ?_⟩
      · unfold Cache.set at he
        rcases List.mem_cons.1 he with rfl | he
        · exact ht _ hp
        · exact hc e he
      · cases hl; exact ht _ hp
    · rw [hp] at h; cases h
    · rw [hp] at h; cases h

theorem still_op {o : Op} {s : St} (hT : ∀ x, T x → Spec.TextWithout bad x) (hm : o.May bad T) (h : Still bad s) :
    Still bad (o.run H s).2 ∧ ∀ r s', o.run H s = (.ok r, s') → o.Gives bad r := by
  have plain : ∀ {s' : St}, s'.scopes = s.scopes → s.nlist ≤ s'.nlist → s'.held = s.held → s'.cache = s.cache → s'.ovf = s.ovf → Still bad s' := by
    intro s' e1 e2 e3 e4 e5
    exact ⟨fun q d hd => h.defs q d (e1 ▸ hd), fun q => by rw [e1]; exact h.args q, Nat.le_trans h.nlist e2, e3.trans h.held, e4 ▸ h.cache,
      e5.trans h.ovf, fun hb q => by rw [e1]; exact h.plain hb q⟩
  cases o with
  | newScope => exact hm.elim
  | setDef => exact hm.elim
  | st => exact ⟨h, fun r s' e => by cases e; exact h.defs⟩
  | newList => exact ⟨plain rfl (Nat.le_succ _) rfl rfl rfl, fun r s' e => by cases e; exact h.nlist⟩
  | parse src =>
    simp only [Op.run]
    rcases hx : codesCache H.hash parse s.cache src with ⟨r, c⟩ | _ | _
    · obtain ⟨h1, h2⟩ := still_codes h.cache (hT _ hm) hx
      exact ⟨⟨h.defs, h.args, h.nlist, h.held, h1, h.ovf, h.plain⟩, fun r' s' e => by cases e; exact h2⟩
    · exact ⟨h, fun r s' e => by cases e⟩
    · exact ⟨h, fun r s' e => by cases e⟩
  | argsLine q =>
    refine ⟨?_, fun _ _ _ => trivial⟩
    simp only [Op.run]
    have := h.scope q (fun c => { c with argsTo1 := true, args1 := if (s.scopes q).argsTo1 then (s.scopes q).args1 else
            (s.lists (s.scopes q).args).line .one (s.scopes q).args1 }) (fun _ => rfl) (fun _ => rfl) fun _ _ h => h
    revert this
    generalize s.modScope q _ = x
    obtain ⟨x | _ | _, s1⟩ := x <;> exact id
  | touch q => exact ⟨h.scope q _ (fun _ => rfl) (fun _ => rfl) fun _ _ h => h, fun _ _ _ => trivial⟩
  | setVar q v =>
    refine ⟨h.scope q _ (fun _ => rfl) (fun _ => rfl) fun hb c hc => alias_setVar ?_ hc, fun _ _ _ => trivial⟩
    cases e : v.alias with
    | false => rfl
    | true =>
      obtain ⟨a, b, e2⟩ := hm e
      rw [hb] at e2
      cases e2
  | addName q n f => exact ⟨h.scope q _ (fun _ => rfl) (fun _ => rfl) fun _ _ h => h, fun _ _ _ => trivial⟩
  | setSrc q n => exact ⟨h.scope q _ (fun _ => rfl) (fun _ => rfl) fun _ _ h => h, fun _ _ _ => trivial⟩
  | setIsFile q => exact ⟨h.scope q _ (fun _ => rfl) (fun _ => rfl) fun _ _ h => h, fun _ _ _ => trivial⟩
  | setArg0 q n => exact ⟨h.scope q _ (fun _ => rfl) (fun _ => rfl) fun _ _ h => h, fun _ _ _ => trivial⟩
  | clearArgs1 q => exact ⟨h.scope q _ (fun _ => rfl) (fun _ => rfl) fun _ _ h => h, fun _ _ _ => trivial⟩
  | addMod data q =>
    refine ⟨?_, fun _ _ _ => trivial⟩
    simp only [Op.run]
    split <;> exact plain rfl (Nat.le_refl _) rfl rfl rfl
  | rmMod data i =>
    refine ⟨?_, fun _ _ _ => trivial⟩
    simp only [Op.run]
    split <;> split <;> exact plain rfl (Nat.le_refl _) rfl rfl rfl
  | _ => exact ⟨plain rfl (Nat.le_refl _) rfl rfl rfl, fun _ _ _ => trivial⟩

/-- The invariant at the end, and at every call. -/
theorem sf_interp {rec : Call → St → Out Res × St} (hT : ∀ x, T x → Spec.TextWithout bad x)
    (hr : ∀ c s, c.Ok bad T → Still bad s → Still bad (rec c s).2) {p : Prog α} {s : St} {Q : α → Prop} (h : Sf bad T p Q) (hs : Still bad s) :
    Still bad (p.interp H rec s).2 ∧ ∀ c t, Calls H rec p s c t → c.Ok bad T ∧ Still bad t := by
  induction p generalizing s with
  | ret a => exact ⟨hs, fun _ _ h => h.elim⟩
  | panic => exact ⟨hs, fun _ _ h => h.elim⟩
  | op o k ih =>
    obtain ⟨h1, h2⟩ := still_op (H := H) hT h.1 hs
    rcases ho : o.run H s with ⟨x, s1⟩
    rw [ho] at h1
    simp only [Prog.interp, ho]
    cases x with
    | ok a =>
      have := ih a (h.2 a (h2 a s1 ho)) h1
      refine ⟨this.1, fun c t hc => ?_⟩
      obtain ⟨a', s', ho', hc⟩ := hc
      rw [ho] at ho'
      cases ho'
      exact this.2 c t hc
    | panic => exact ⟨h1, fun c t hc => by obtain ⟨a', s', ho', hc⟩ := hc; rw [ho] at ho'; cases ho'⟩
    | fuel => exact ⟨h1, fun c t hc => by obtain ⟨a', s', ho', hc⟩ := hc; rw [ho] at ho'; cases ho'⟩
  | call hd c k ih =>
    obtain ⟨⟨rfl, hc⟩, hk⟩ := h
    have h1 := hr c s hc hs
    have e : ({ s with held := [] ++ s.held } : St) = s := rfl
    simp only [Prog.interp]
    rw [e]
    have e2 : s.hold [] = s := rfl
    rcases hx : rec c s with ⟨x | _ | _, s1⟩
    · rw [hx] at h1
      have h1' : Still bad { s1 with held := s.held } := ⟨h1.defs, h1.args, h1.nlist, hs.held, h1.cache, h1.ovf, h1.plain⟩
      have := ih x (hk x) h1'
      refine ⟨this.1, fun c' t hc' => ?_⟩
      rcases hc' with ⟨rfl, rfl⟩ | ⟨r, s', e3, hc'⟩
      · exact ⟨hc, hs⟩
      · rw [e2, hx] at e3
        cases e3
        exact this.2 c' t hc'
    · rw [hx] at h1
      refine ⟨h1, fun c' t hc' => ?_⟩
      rcases hc' with ⟨rfl, rfl⟩ | ⟨r, s', e3, hc'⟩
      · exact ⟨hc, hs⟩
      · rw [e2, hx] at e3; cases e3
    · rw [hx] at h1
      refine ⟨h1, fun c' t hc' => ?_⟩
      rcases hc' with ⟨rfl, rfl⟩ | ⟨r, s', e3, hc'⟩
      · exact ⟨hc, hs⟩
      · rw [e2, hx] at e3; cases e3

theorem still_run (hb : ∀ c, Spec.runsText c = true → bad c = true) (hT : ∀ x, T x → Spec.TextWithout bad x) (n : Nat) :
    ∀ c s, c.Ok bad T → Still bad s → Still bad (run H n c s).2 := by
  induction n with
  | zero => intro c s _ h; exact h
  | succ n ih => intro c s hc h; exact (sf_interp hT ih (f_evalF hb hc) h).1

theorem still_happens (hb : ∀ c, Spec.runsText c = true → bad c = true) (hT : ∀ x, T x → Spec.TextWithout bad x) {n : Nat} {c c' : Call}
    {s s' : St} (hh : Happens H n c s c' s') (hc : c.Ok bad T) (hs : Still bad s) : c'.Ok bad T ∧ Still bad s' := by
  induction hh with
  | self n c s => exact ⟨hc, hs⟩
  | step h1 h2 ih =>
    obtain ⟨g1, g2⟩ := (sf_interp hT (still_run hb hT _) (f_evalF hb hc) hs).2 _ _ h1
    exact ih g1 g2

end Zh
