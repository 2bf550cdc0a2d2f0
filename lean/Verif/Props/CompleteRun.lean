import Verif.Props.Complete
import Verif.Props.Cached
/-!
# C77: only complete statements are evaluated

`Cl p Q` is a statement about the tree of the program `p`: if every program that a parse answers is complete, then all items that `p`
hands to other evaluation functions are complete, and the results satisfy `Q`.
-/
namespace Zh
open Spec (Complete)

/-- The code that a call evaluates. -/
def Spec.codeOf : Call → List Code
  | .codes a _ _ _ => a
  | .z2 a _ _ _ => a
  | .z4 a _ _ _ _ _ => a
  | .item c _ => [c]
  | .loop _ codes _ _ _ _ _ _ => codes
  | .cond codes _ _ => codes
  | .src .. | .get .. | .slave .. => []

variable {α β : Type}

/-- What is known about the answer of an operation. -/
def Op.Sound : (o : Op) → o.Res → Prop
  | .parse _, r => ∀ l, r = .ok l → AllC l
  | _, _ => True

/-- See above. -/
def Cl : Prog α → (α → Prop) → Prop
  | .ret a, Q => Q a
  | .panic, _ => True
  | .op o k, Q => ∀ r, o.Sound r → Cl (k r) Q
  | .call _ c k, Q => AllC (Spec.codeOf c) ∧ ∀ r, Cl (k r) Q

/-- Without a result. -/
abbrev C (p : Prog α) : Prop := Cl p fun _ => True
abbrev CE (p : E α) : Prop := C p.run

theorem Cl.bind {p : Prog α} {f : α → Prog β} {Q : α → Prop} {R : β → Prop} (h : Cl p Q) (hf : ∀ a, Q a → Cl (f a) R) :
    Cl (p >>= f) R := by
  change Cl (p.bind f) R
  induction p with
  | ret a => exact hf a h
  | panic => trivial
  | op o k ih => exact fun a ha => ih a (h a ha)
  | call hd c k ih => exact ⟨h.1, fun r => ih r (h.2 r)⟩

theorem C.bind {p : Prog α} {f : α → Prog β} {R : β → Prop} (h : C p) (hf : ∀ a, Cl (f a) R) : Cl (p >>= f) R :=
  Cl.bind h fun a _ => hf a

theorem CE.bind {p : E α} {f : α → E β} (h : CE p) (hf : ∀ a, CE (f a)) : CE (p >>= f) := by
  change C (p.run >>= _)
  refine C.bind h fun a => ?_
  cases a with
  | ok a => exact hf a
  | error e => trivial

theorem CE.bindQ {p : E α} {f : α → E β} {Q : Except Err α → Prop} (h : Cl p.run Q) (hf : ∀ a, Q (.ok a) → CE (f a)) :
    CE (p >>= f) := by
  change C (p.run >>= _)
  refine Cl.bind h fun a ha => ?_
  cases a with
  | ok a => exact hf a ha
  | error e => trivial

theorem CE.lift {p : Prog α} (h : C p) : CE (liftM p : E α) := C.bind h fun _ => trivial
theorem CE.lift' {p : Prog α} (h : C p) : CE (ExceptT.lift p : E α) := C.bind h fun _ => trivial
theorem c_ofOut {x : Out α} : C (ofOut x) := by cases x <;> trivial
theorem cE_mkOut {x : Out (Except Err α)} : CE (ExceptT.mk (ofOut x)) := c_ofOut
theorem c_pure {a : α} : C (pure a : Prog α) := trivial
theorem c_panic : C (Prog.panic : Prog α) := trivial
theorem cE_panic : CE (Prog.panic : Prog (Except Err α)) := trivial
theorem cE_pure {a : α} : CE (pure a : E α) := trivial
theorem cE_fail {e' : Err} : CE (fail e' : E α) := trivial
theorem cE_mk {x : Except Err α} : CE (ExceptT.mk (pure x) : E α) := trivial
theorem c_doOp {o : Op} : C (doOp o) := fun _ _ => trivial
theorem c_getSt : C getSt := fun _ _ => trivial
theorem c_callP {hd : List Held} {c : Call} (h : AllC (Spec.codeOf c)) : C (callP hd c) := ⟨h, fun _ => trivial⟩
theorem cE_callE {hd : List Held} {c : Call} (h : AllC (Spec.codeOf c)) : CE (callE hd c) := ⟨h, fun _ => trivial⟩
theorem cE_hello {hd : List Held} {a : List Code} {env : Env} (h : AllC a) : CE (hello hd a env) := cE_callE h

syntax "cl_rule" : tactic
macro_rules | `(tactic| cl_rule) => `(tactic| with_reducible exact c_pure)
macro_rules | `(tactic| cl_rule) => `(tactic| with_reducible exact c_panic)
macro_rules | `(tactic| cl_rule) => `(tactic| with_reducible exact cE_panic)
macro_rules | `(tactic| cl_rule) => `(tactic| with_reducible exact cE_pure)
macro_rules | `(tactic| cl_rule) => `(tactic| with_reducible exact cE_fail)
macro_rules | `(tactic| cl_rule) => `(tactic| with_reducible exact cE_mk)
macro_rules | `(tactic| cl_rule) => `(tactic| with_reducible exact cE_mkOut)
macro_rules | `(tactic| cl_rule) => `(tactic| with_reducible exact c_ofOut)
macro_rules | `(tactic| cl_rule) => `(tactic| ((with_reducible refine cE_callE ?_); first | exact AllC.nil | assumption))
macro_rules | `(tactic| cl_rule) => `(tactic| with_reducible exact cE_hello (by assumption))
macro_rules | `(tactic| cl_rule) => `(tactic| ((with_reducible refine c_callP ?_); first | exact AllC.nil | assumption))
macro_rules | `(tactic| cl_rule) => `(tactic| with_reducible exact c_doOp)
macro_rules | `(tactic| cl_rule) => `(tactic| with_reducible exact c_getSt)

macro "cl" : tactic => `(tactic| repeat' (first
  | cl_rule
  | with_reducible refine CE.bind ?_ ?_
  | with_reducible refine CE.lift ?_
  | with_reducible refine CE.lift' ?_
  | with_reducible refine C.bind ?_ ?_
  | split
  | dsimp only
  | intro _))

theorem l_addItem {ret : Nat} {i : Item} : C (addItem ret i) := by unfold addItem; cl
macro_rules | `(tactic| cl_rule) => `(tactic| with_reducible exact l_addItem)
theorem l_addVal {ret : Nat} {v : Val} {r : List Str} : C (addVal ret v r) := by unfold addVal; cl
macro_rules | `(tactic| cl_rule) => `(tactic| with_reducible exact l_addVal)
theorem l_addT {ret : Nat} {t : Str} : C (addT ret t) := by unfold addT; cl
macro_rules | `(tactic| cl_rule) => `(tactic| with_reducible exact l_addT)
theorem l_addKwI {ret : Nat} {t : KwId} : C (addKwI ret t) := by unfold addKwI; cl
macro_rules | `(tactic| cl_rule) => `(tactic| with_reducible exact l_addKwI)
theorem l_addDun {ret : Nat} : C (addDun ret) := by unfold addDun; cl
macro_rules | `(tactic| cl_rule) => `(tactic| with_reducible exact l_addDun)
theorem l_addTs {ret : Nat} {l : List Str} : C (addTs ret l) := by
  induction l with
  | nil => trivial
  | cons t ts ih => unfold addTs; exact C.bind l_addT fun _ => ih
macro_rules | `(tactic| cl_rule) => `(tactic| with_reducible exact l_addTs)
theorem l_getList {r : Nat} : C (getList r) := by unfold getList; cl
macro_rules | `(tactic| cl_rule) => `(tactic| with_reducible exact l_getList)
theorem l_helloNew {hd : List Held} {a : List Code} {env : Env} (h : AllC a) : CE (helloNew hd a env) := by unfold helloNew; cl
macro_rules | `(tactic| cl_rule) => `(tactic| with_reducible exact l_helloNew (by assumption))
theorem l_helloVec {a : List Code} {env : Env} (h : AllC a) : CE (helloVec a env) := by unfold helloVec; cl
macro_rules | `(tactic| cl_rule) => `(tactic| with_reducible exact l_helloVec (by assumption))

/-! ## Variables and arguments -/

theorem l_argiP {i : Int} {isHas equ : Bool} {name : Str} {q ret : Nat} : C (argiP i isHas equ name q ret) := by unfold argiP; cl
macro_rules | `(tactic| cl_rule) => `(tactic| with_reducible exact l_argiP)
theorem l_arg0P {z : Str} {isHas : Bool} {q ret : Nat} : C (arg0P z isHas q ret) := by unfold arg0P; cl
macro_rules | `(tactic| cl_rule) => `(tactic| with_reducible exact l_arg0P)
theorem l_argcP {isHas : Bool} {q ret : Nat} : C (argcP isHas q ret) := by unfold argcP; cl
macro_rules | `(tactic| cl_rule) => `(tactic| with_reducible exact l_argcP)
theorem l_argsP {isHas : Bool} {q : Nat} {b e : Int} {line : Bool} {ret : Nat} : C (argsP isHas q b e line ret) := by unfold argsP; cl
macro_rules | `(tactic| cl_rule) => `(tactic| with_reducible exact l_argsP)
theorem l_getP {name : Str} {isHas equ canUp noSelf : Bool} {env : Env} : C (getP name isHas equ canUp noSelf env) := by unfold getP; cl
macro_rules | `(tactic| cl_rule) => `(tactic| with_reducible exact l_getP)
theorem l_getAliasP {name : Str} {isHas : Bool} {equ : EquName} {canUp : Bool} {q2 : Nat} {env : Env} :
    CE (getAliasP name isHas equ canUp q2 env) := by unfold getAliasP; cl
macro_rules | `(tactic| cl_rule) => `(tactic| with_reducible exact l_getAliasP)
theorem l_getArgs {name : Str} {rems : List Str} {isHas : Bool} {equ : EquName} {q2 : Nat} {env : Env} :
    CE (getArgs name rems isHas equ q2 env) := by unfold getArgs; cl
macro_rules | `(tactic| cl_rule) => `(tactic| with_reducible exact l_getArgs)
theorem l_get2P {l : List Item} {isHas : Bool} {equ : EquName} {env : Env} : CE (get2P l isHas equ env) := by unfold get2P; cl
theorem l_var1P {rems : List Str} {name : Str} {env : Env} : CE (var1P rems name env) := by unfold var1P; cl
macro_rules | `(tactic| cl_rule) => `(tactic| with_reducible exact l_var1P)
theorem l_simpP {name : Str} {rems : List Str} {env : Env} : CE (simpP name rems env) := by unfold simpP; cl
macro_rules | `(tactic| cl_rule) => `(tactic| with_reducible exact l_simpP)
theorem l_remTarget {env : Env} : C (remTarget env) := by unfold remTarget; cl
macro_rules | `(tactic| cl_rule) => `(tactic| with_reducible exact l_remTarget)
theorem l_remP {r2 : Nat} {env : Env} : C (remP r2 env) := by unfold remP; cl
macro_rules | `(tactic| cl_rule) => `(tactic| with_reducible exact l_remP)
theorem l_remsP {rems : List Code} {env : Env} (h : AllC rems) : CE (remsP rems env) := by unfold remsP; cl
macro_rules | `(tactic| cl_rule) => `(tactic| with_reducible exact l_remsP (by assumption))
theorem l_split2a {hd : List Held} {a : List Code} {sp : Nat} {env : Env} (h : AllC a) : CE (split2a hd a sp env) := by unfold split2a; cl
macro_rules | `(tactic| cl_rule) => `(tactic| with_reducible exact l_split2a (by assumption))
theorem l_split2b {hd : List Held} {a : List Code} {sp : Nat} {env : Env} (h : AllC a) : CE (split2b hd a sp env) := by unfold split2b; cl
macro_rules | `(tactic| cl_rule) => `(tactic| with_reducible exact l_split2b (by assumption))

/-! ## Statement lists -/

theorem l_codesP {a : List Code} {i e : Nat} {env : Env} (h : AllC a) : C (codesP a i e env) := by unfold codesP; cl

theorem l_z2Item {a : List Code} {i e : Nat} {env : Env} {c : Code} (h : AllC a) (hc : Complete c) : C (z2Item a i e env c) := by
  have : AllC [c] := fun x hx => by cases List.mem_singleton.1 hx; exact hc
  unfold z2Item; cl

theorem l_z2P {a : List Code} {i e : Nat} {env : Env} (h : AllC a) : C (z2P a i e env) := by
  unfold z2P
  split
  · split
    · trivial
    · rename_i c hc
      have hc := h c (List.mem_of_getElem? hc)
      have : ∀ {i}, C (z2Item a i e env c) := l_z2Item h hc
      split
      · split
        · exact this
        · refine C.bind (c_callP h) fun r => ?_
          split
          · trivial
          · split
            · exact c_callP h
            · exact this
      · split
        · trivial
        · refine C.bind c_getSt fun s => ?_
          split
          · exact this
          · exact c_callP h
      · split
        · trivial
        · exact this
      · exact this
  · trivial

theorem dunhao3_all {i j n : Nat} {cs : Str} {l : List Code} (h : dunhao3 i j n cs = .ok l) (hi : i < j → j ≤ cs.length) : AllC l := by
  unfold dunhao3 at h
  split at h
  · cases h
  · cases h
    refine AllC.append ?_ ?_
    · split
      · rename_i hij
        intro x hx
        cases List.mem_singleton.1 hx
        refine .word fun e => ?_
        have := congrArg List.length e
        have := hi hij
        simp at *
        omega
      · exact AllC.nil
    · split
      · intro x hx; cases List.mem_singleton.1 hx; exact .mark (by decide)
      · exact AllC.nil

theorem dunhao3_all' {i j n : Nat} {cs : Str} {l : List Code} (h : dunhao3 i j n cs = .ok l) : AllC l := by
  refine dunhao3_all h fun hij => ?_
  unfold dunhao3 at h
  split at h
  · cases h
  · omega

theorem sparg1_all {names : List ArgName} {b end2 : Nat} {cs word : Str} {f i2 i i' : Nat} {a2 l : List Code} (ha : AllC a2)
    (h : sparg1 names b end2 cs word f i2 i a2 = .ok (i', l)) : AllC l := by
  induction f generalizing i2 i a2 with
  | zero => cases h
  | succ f ih =>
    unfold sparg1 at h
    split at h
    · split at h
      · cases h; exact ha
      · split at h
        · rename_i l1 e; exact ih (ha.append (dunhao3_all' e)) h
        · cases h
        · cases h
    · split at h
      · exact ih ha h
      · split at h
        · split at h
          · rename_i l1 e; cases h; exact ha.append (dunhao3_all' e)
          · cases h
          · cases h
        · cases h; exact ha

theorem spargWord_all {names : List ArgName} {end2 : Nat} {cs : Str} {f i2 i i' j : Nat} {a2 l : List Code} (ha : AllC a2)
    (h : spargWord names end2 cs f i2 i a2 = .ok (i', j, l)) : AllC l := by
  induction f generalizing i2 i a2 with
  | zero => cases h
  | succ f ih =>
    unfold spargWord at h
    split at h
    · split at h
      · rename_i l1 e; exact ih (ha.append (dunhao3_all' e)) h
      · cases h
      · cases h
    · cases h; exact ha

theorem sparg2_all {names : List ArgName} {end2 : Nat} {rest : List Code} {idx i i' j : Nat} {a2 l : List Code} (hr : AllC rest)
    (ha : AllC a2) (h : sparg2 names end2 rest idx i a2 = .ok (some (i', j, l))) : AllC l := by
  induction rest generalizing idx i a2 with
  | nil => cases h; exact ha
  | cons c cs ih =>
    have hc := hr c (List.mem_cons_self ..)
    have hcs : AllC cs := fun x hx => hr x (List.mem_cons_of_mem _ hx)
    unfold sparg2 at h
    split at h
    · split at h
      · rename_i a3 e1
        have h3 := spargWord_all ha e1
        split at h
        · split at h
          · rename_i l1 e2; exact ih hcs (h3.append (dunhao3_all' e2)) h
          · cases h
          · cases h
        · exact ih hcs (h3.snoc hc) h
      · cases h
      · cases h
    · split at h
      · split at h
        · cases h
        · exact ih hcs (ha.snoc hc) h
      · cases h; exact ha
    · cases h; exact ha
    · exact ih hcs (ha.snoc hc) h

theorem sparg_all {d : Def} {a : List Code} {cs : Str} {e2 e i j k : Nat} {l : List Code} (ha : AllC a)
    (h : sparg d a cs e2 e i j = .ok (some (l, k))) : AllC l := by
  unfold sparg at h
  split at h
  · dsimp only at h
    split at h
    · rename_i e1
      split at h
      · rename_i e3
        split at h
        · cases h
        · cases h
          refine sparg2_all ?_ (sparg1_all AllC.nil e1) e3
          exact fun x hx => ha x (List.mem_of_mem_take (List.mem_of_mem_drop hx))
      · cases h
      · cases h
      · cases h
    · cases h
    · cases h
  · cases h; exact AllC.nil

theorem l_z4Args {h : Held} {d : Def} {a : List Code} {cs : Str} {e2 e : Nat} {env : Env} {i2 i : Nat} {a2 : List Code} {k args : Nat}
    (ha : AllC a) (ha2 : AllC a2) : C (z4Args h d a cs e2 e env i2 i a2 k args) := by
  unfold z4Args; cl
macro_rules | `(tactic| cl_rule) => `(tactic| with_reducible exact l_z4Args (by assumption) (by assumption))

theorem l_returnP {q : Nat} {r : Except Err Unit} : CE (returnP q r) := by unfold returnP; cl
macro_rules | `(tactic| cl_rule) => `(tactic| with_reducible exact l_returnP)

theorem l_parseE {src : Str} {f : List Code → E β} (hf : ∀ l, AllC l → CE (f l)) : CE (parseE src >>= f) := by
  refine CE.bindQ (Q := fun r => ∀ l, r = .ok l → AllC l) ?_ fun l hl => hf l (hl l rfl)
  exact fun r hr => hr

theorem l_z4Body {h : Held} {d : Def} {src : Str} {env : Env} {p q2 args : Nat} : CE (z4Body h d src env p q2 args) := by
  unfold z4Body
  refine l_parseE fun codes hc => ?_
  cl
macro_rules | `(tactic| cl_rule) => `(tactic| with_reducible exact l_z4Body)

theorem l_z4Call {a : List Code} {cs : Str} {e2 e : Nat} {env : Env} {st : Z4} {i2 p k : Nat} {d : Def} {src : Str} {a2 : List Code}
    {x : Nat} (ha : AllC a) (ha2 : AllC a2) : C (z4Call a cs e2 e env st i2 p k d src a2 x) := by
  unfold z4Call
  refine C.bind c_doOp fun q2 => C.bind c_getSt fun s => C.bind (l_z4Args ha ha2) fun r => ?_
  split
  · trivial
  · refine C.bind (show C _ from l_z4Body) fun r => ?_
    cl

theorem l_z4P {a : List Code} {cs : Str} {e2 e : Nat} {env : Env} {st : Z4} (ha : AllC a) : C (z4P a cs e2 e env st) := by
  unfold z4P
  split
  · refine C.bind c_getSt fun s => ?_
    split
    · cl
    · split
      · trivial
      · rename_i d _
        have : Cl (ofOut (sparg d a cs e2 e st.idx (by assumption))) fun r => ∀ l k, r = some (l, k) → AllC l := by
          rcases h : sparg d a cs e2 e st.idx _ with r | _ | _
          · exact fun l k hl => sparg_all ha (hl ▸ h)
          · trivial
          · trivial
        refine Cl.bind (Q := fun r => ∀ l k, r = some (l, k) → AllC l) ?_ fun r hr => ?_
        · rcases h : sparg d a cs e2 e st.idx _ with r | _ | _
          · exact fun l k hl => sparg_all ha (hl ▸ h)
          · trivial
          · trivial
        · split
          · cl
          · rename_i a2 x
            have h2 := hr _ _ rfl
            refine C.bind l_addTs fun _ => ?_
            split
            · cl
            · exact l_z4Call ha h2
  · cl

/-! ## Texts, files, options -/

theorem l_srcP {src : Str} {env : Env} : CE (srcP src env) := by
  unfold srcP
  refine l_parseE fun codes hc => ?_
  cl
theorem l_openP {f : Str} {b : Bool} {q : Nat} : C (openP f b q) := by unfold openP; cl
macro_rules | `(tactic| cl_rule) => `(tactic| with_reducible exact l_openP)
theorem l_openFirst {src : Str} {b : Bool} {q : Nat} {ps : List Str} : C (openFirst src b q ps) := by
  induction ps with
  | nil => trivial
  | cons p ps ih => unfold openFirst; cl <;> exact ih
macro_rules | `(tactic| cl_rule) => `(tactic| with_reducible exact l_openFirst)
theorem l_okSrcP {src : Str} {b : Bool} {q : Nat} : C (okSrcP src b q) := by unfold okSrcP; cl
macro_rules | `(tactic| cl_rule) => `(tactic| with_reducible exact l_okSrcP)
theorem l_cliArg {args : Nat} {t : Str} : C (cliArg args t) := by unfold cliArg; cl
macro_rules | `(tactic| cl_rule) => `(tactic| with_reducible exact l_cliArg)
theorem l_cliActs {q : Nat} {l : List CliAct} : C (cliActs q l) := by
  induction l with
  | nil => trivial
  | cons a l ih => unfold cliActs; cases a <;> (dsimp only; cl) <;> exact ih
macro_rules | `(tactic| cl_rule) => `(tactic| with_reducible exact l_cliActs)
theorem l_shlP {b : Bool} {a : List Str} : C (shlP b a) := by unfold shlP; cl
macro_rules | `(tactic| cl_rule) => `(tactic| with_reducible exact l_shlP)
theorem l_clparsP {a : List Str} {b c d e : Bool} {q : Nat} : CE (clparsP a b c d e q) := by unfold clparsP; cl
macro_rules | `(tactic| cl_rule) => `(tactic| with_reducible exact l_clparsP)
theorem l_src2P {src : Str} {q : Nat} : CE (src2P src q) := by unfold src2P; cl
macro_rules | `(tactic| cl_rule) => `(tactic| with_reducible exact l_src2P)
theorem l_loadP {src : Str} {b : Bool} {q : Nat} : CE (loadP src b q) := by unfold loadP; cl
macro_rules | `(tactic| cl_rule) => `(tactic| with_reducible exact l_loadP)

/-! ## Statements -/

theorem l_evalArg0 {arg0 : Str} {l : List Code} {env : Env} (h : AllC l) : CE (evalArg0 arg0 l env) := by
  unfold evalArg0
  split
  · cl
  · split
    · rename_i a
      have : AllC a := by
        have := h (.rem a) (List.mem_singleton.2 rfl)
        cases this; assumption
      cl
    · cl
macro_rules | `(tactic| cl_rule) => `(tactic| with_reducible exact l_evalArg0 (by assumption))
theorem l_evalP {load cur : Bool} {arg0 : Str} {l a : List Code} {sp : Nat} {e : Bool} {env : Env} (hl : AllC l) (ha : AllC a) :
    CE (evalP load cur arg0 l a sp e env) := by unfold evalP; cl
theorem l_setJie {ret : Nat} {name : Str} {v : Item} {s : Str} {n : Nat} : CE (setJie ret name v s n) := by
  induction s generalizing n with
  | nil => trivial
  | cons c cs ih => unfold setJie; cl <;> exact ih
macro_rules | `(tactic| cl_rule) => `(tactic| with_reducible exact l_setJie)
theorem l_setGo {b : Bool} {env : Env} {gs : List (List Item)} {st : SetSt} : CE (setGo b env gs st) := by
  induction gs generalizing st with
  | nil => trivial
  | cons g gs ih =>
    unfold setGo
    refine CE.bind (CE.lift c_getSt) fun s => CE.bind cE_mkOut fun x => CE.bind (CE.lift ?_) fun v => ?_
    · cl
    · split
      · exact CE.lift c_panic
      · exact CE.bind (CE.lift c_doOp) fun _ => CE.bind l_setJie fun _ => ih
macro_rules | `(tactic| cl_rule) => `(tactic| with_reducible exact l_setGo)
theorem l_setP {b : Bool} {n v : List Code} {env : Env} (hn : AllC n) (hv : AllC v) : CE (setP b n v env) := by unfold setP; cl
theorem l_defP {n v : List Code} {sp : Nat} {env : Env} (hn : AllC n) (hv : AllC v) : CE (defP n v sp env) := by unfold defP; cl
theorem l_nameP {b : Bool} {a : List Code} {env : Env} (h : AllC a) : CE (nameP b a env) := by unfold nameP; cl
theorem l_modFreeGo {env : Env} {l : List Str} : CE (modFreeGo env l) := by
  induction l with
  | nil => trivial
  | cons n l ih => unfold modFreeGo; cl <;> exact ih
macro_rules | `(tactic| cl_rule) => `(tactic| with_reducible exact l_modFreeGo)
theorem l_switchHits {case : List Code} {t : Str} {env : Env} {bs : List (Nat × Nat)} (h : AllC case) : CE (switchHits case t env bs) := by
  induction bs with
  | nil => trivial
  | cons b bs ih =>
    obtain ⟨i, k⟩ := b
    unfold switchHits
    refine CE.bind (CE.lift c_doOp) fun r => CE.bind (cE_callE h) fun _ => CE.bind (CE.lift l_getList) fun l => ?_
    exact CE.bind ih fun _ => trivial
macro_rules | `(tactic| cl_rule) => `(tactic| with_reducible exact l_switchHits (by assumption))
theorem l_switchRun {case : List Code} {env : Env} {bs : List (Nat × Nat)} (h : AllC case) : CE (switchRun case env bs) := by
  induction bs with
  | nil => trivial
  | cons b bs ih => unfold switchRun; cl <;> exact ih
macro_rules | `(tactic| cl_rule) => `(tactic| with_reducible exact l_switchRun (by assumption))
theorem l_switchP {one : Bool} {a case : List Code} {bs : List (Nat × Nat)} {d : Option Nat} {env : Env} (ha : AllC a)
    (hc : AllC case) : CE (switchP one a case bs d env) := by unfold switchP; cl
theorem l_condMv {b : Bool} {a : List Code} {env : Env} {st : CondSt} (h : AllC a) : C (condMv b a env st) := by unfold condMv; cl
macro_rules | `(tactic| cl_rule) => `(tactic| with_reducible exact l_condMv (by assumption))
theorem l_condCmp {a : List Code} {env : Env} {st : CondSt} (h : AllC a) : C (condCmp a env st) := by unfold condCmp; cl
macro_rules | `(tactic| cl_rule) => `(tactic| with_reducible exact l_condCmp (by assumption))
theorem l_condP {a : List Code} {env : Env} {st : CondSt} (h : AllC a) : C (condP a env st) := by
  unfold condP
  split
  · cl
  · rename_i c hc
    have hc := h c (List.mem_of_getElem? hc)
    split
    · have := complete_block hc
      cl
    · cl
theorem l_ifP {a th el : List Code} {env : Env} (h : AllC a) (h2 : AllC th) (h3 : AllC el) : CE (ifP a th el env) := by unfold ifP; cl
theorem l_loopP {r : Bool} {a : List Code} {m : Nat} {u : Bool} {cnt : Cnt} {env : Env} {i : Nat} {n : Bool} (h : AllC a) :
    C (loopP r a m u cnt env i n) := by unfold loopP; cl
theorem l_forP {r : Bool} {cnt : Cnt} {rems a : List Code} {env : Env} (hr : AllC rems) (h : AllC a) : CE (forP r cnt rems a env) := by
  unfold forP; cl
theorem l_jumpP {k : JumpKind} {a : List Code} {env : Env} (h : AllC a) : CE (jumpP k a env) := by unfold jumpP; cl
theorem l_jieP {rems a : List Code} {env : Env} (hr : AllC rems) (h : AllC a) : CE (jieP rems a env) := by unfold jieP; cl
theorem l_jie2P {a : List Code} {env : Env} (h : AllC a) : CE (jie2P a env) := by
  unfold jie2P
  refine CE.bind (CE.lift' (show C _ from cE_hello h)) fun r => ?_
  cl
theorem l_printJie {ret : Nat} {t s : Str} : CE (printJie ret t s) := by
  induction s with
  | nil => trivial
  | cons c cs ih => unfold printJie; cl <;> exact ih
macro_rules | `(tactic| cl_rule) => `(tactic| with_reducible exact l_printJie)
theorem l_printP {a : List Code} {env : Env} (h : AllC a) : CE (printP a env) := by unfold printP; cl
theorem l_explP {a : List Code} {env : Env} (h : AllC a) : CE (explP a env) := by unfold explP; cl
theorem l_exitcodeP {c : Option Int} {ret : Nat} : C (exitcodeP c ret) := by unfold exitcodeP; cl
macro_rules | `(tactic| cl_rule) => `(tactic| with_reducible exact l_exitcodeP)
theorem l_execErr {e : Str} {ret : Nat} : C (execErr e ret) := by unfold execErr; cl
macro_rules | `(tactic| cl_rule) => `(tactic| with_reducible exact l_execErr)
theorem l_execCode {src arg : Str} {env : Env} : CE (execCode src arg env) := by unfold execCode; cl
macro_rules | `(tactic| cl_rule) => `(tactic| with_reducible exact l_execCode)
theorem l_writeAll {h : Nat} {l : List Str} : C (writeAll h l) := by
  induction l with
  | nil => trivial
  | cons t l ih => unfold writeAll; cl <;> exact ih
macro_rules | `(tactic| cl_rule) => `(tactic| with_reducible exact l_writeAll)
theorem l_execPipe {h : Nat} {src arg : Str} {env : Env} : CE (execPipe h src arg env) := by unfold execPipe; cl
macro_rules | `(tactic| cl_rule) => `(tactic| with_reducible exact l_execPipe)
theorem l_slaveStream {h : Nat} {e : Bool} {src buf : Str} {env : Env} : C (slaveStream h e src buf env) := by
  unfold slaveStream
  split
  · cl
  · refine C.bind c_doOp fun r => ?_
    split
    · split
      · cl
      · exact C.bind (show C _ from l_execPipe) fun _ => c_pure
    · cl
macro_rules | `(tactic| cl_rule) => `(tactic| with_reducible exact l_slaveStream)
theorem l_slaveP {h : Nat} {o e buf : Str} {env : Env} : C (slaveP h o e buf env) := by unfold slaveP; cl
theorem l_execLines {src : Str} {env : Env} {l : List (Except Str Str)} : CE (execLines src env l) := by
  induction l with
  | nil => trivial
  | cons x l ih => cases x <;> (unfold execLines; cl) <;> exact ih
macro_rules | `(tactic| cl_rule) => `(tactic| with_reducible exact l_execLines)
theorem l_execOut {src : Str} {c : Captured} {e : Bool} {env : Env} : CE (execOut src c e env) := by unfold execOut; cl
macro_rules | `(tactic| cl_rule) => `(tactic| with_reducible exact l_execOut)
theorem l_execRun {o : ExecOpts} {env : Env} : CE (execRun o env) := by unfold execRun; cl
macro_rules | `(tactic| cl_rule) => `(tactic| with_reducible exact l_execRun)
theorem l_exec2P {v : List Str} {env : Env} : CE (exec2P v env) := by unfold exec2P; cl
macro_rules | `(tactic| cl_rule) => `(tactic| with_reducible exact l_exec2P)
theorem l_objWrite {h ret : Nat} {l : List Str} : C (objWrite h ret l) := by
  induction l with
  | nil => trivial
  | cons t l ih => unfold objWrite; cl <;> exact ih
macro_rules | `(tactic| cl_rule) => `(tactic| with_reducible exact l_objWrite)
theorem l_execP {a : List Code} {env : Env} (h : AllC a) : CE (execP a env) := by unfold execP; cl

theorem l_itemP {c : Code} {env : Env} (h : Complete c) : CE (itemP c env) := by
  cases h with
  | loop _ _ _ _ h1 h2 => exact l_forP h1 h2
  | jump h => exact l_jumpP h
  | cond h1 h2 h3 => exact l_ifP h1 h2 h3
  | switch _ _ h1 h2 => exact l_switchP h1 h2
  | jie _ _ _ h1 h2 => exact l_jieP h1 h2
  | jie2 _ h => exact l_jie2P h
  | mod_ h => exact l_nameP h
  | name h => exact l_nameP h
  | set_ h1 h2 => exact l_setP h1 h2
  | «alias» h1 h2 => exact l_setP h1 h2
  | def_ _ _ h1 h2 => exact l_defP h1 h2
  | eval _ _ _ _ _ _ _ h1 h2 => exact l_evalP h1 h2
  | print _ h => exact l_printP h
  | expl _ h => exact l_explP h
  | exec _ h => exact l_execP h
  | simple _ _ => exact l_simpP
  | _ => unfold itemP; dsimp only; cl

theorem l_resE {p : E Unit} (h : CE p) : C (resE p) := C.bind h fun _ => trivial

theorem l_evalF {c : Call} (h : AllC (Spec.codeOf c)) : C (evalF c) := by
  cases c with
  | codes a i e env => exact l_codesP h
  | z2 a i e env => exact l_z2P h
  | z4 a cs e2 e env st => exact l_z4P h
  | item c env => exact l_resE (l_itemP (h c (List.mem_singleton.2 rfl)))
  | src s env => exact l_resE l_srcP
  | loop r a m u cnt env i n => exact l_loopP h
  | cond a env st => exact l_condP h
  | get l b e env => exact l_resE l_get2P
  | slave h o e b env => exact l_slaveP

theorem l_topVal {n v : Str} : C (topVal n v) := by unfold topVal; cl
macro_rules | `(tactic| cl_rule) => `(tactic| with_reducible exact l_topVal)
theorem l_mainP {argv : List Str} : CE (mainP argv) := by unfold mainP; cl

/-! ## Runs -/

variable {H : Host}

theorem codesCache_parsed {c c' : Cache (List Code)} {src : Str} {l : List Code} (hc : Spec.Reach H.hash parse c)
    (h : codesCache H.hash parse c src = .ok (.ok l, c')) : AllC l := by
  unfold codesCache at h
  cases hg : c.get H.hash src with
  | some codes =>
    rw [hg] at h
    cases h
    unfold Cache.get at hg
    obtain ⟨e, he, rfl⟩ := Option.map_eq_some_iff.1 hg
    obtain ⟨s, -, h2⟩ := reach_sound H.hash parse hc e (List.mem_of_find?_eq_some he)
    exact C77_parsed h2
  | none =>
    rw [hg] at h
    rcases hp : parse src with (e | x) | _ | _
    · rw [hp] at h; cases h
    · rw [hp] at h
      have h3 : (c.set H.hash src x).get H.hash src = some x := by simp [Cache.set, Cache.get]
      dsimp only at h
      rw [h3] at h
      cases h
      exact C77_parsed hp
    · rw [hp] at h; cases h
    · rw [hp] at h; cases h

theorem op_sound {o : Op} {s s' : St} {r : o.Res} (hs : Spec.Reach H.hash parse s.cache) (h : o.run H s = (.ok r, s')) : o.Sound r := by
  cases o with
  | parse src =>
    intro l e
    subst e
    simp only [Op.run] at h
    split at h
    · rename_i e; cases h; exact codesCache_parsed hs e
    · cases h
    · cases h
  | _ => trivial

theorem cl_calls {rec : Call → St → Out Res × St} (hr : ∀ c s, Spec.Reach H.hash parse s.cache → Spec.Reach H.hash parse (rec c s).2.cache)
    {p : Prog α} {s : St} {Q : α → Prop} (h : Cl p Q) (hs : Spec.Reach H.hash parse s.cache) {c : Call} {t : St}
    (hc : Calls H rec p s c t) : AllC (Spec.codeOf c) := by
  induction p generalizing s with
  | ret a => exact hc.elim
  | panic => exact hc.elim
  | op o k ih =>
    obtain ⟨a, s', ho, hc⟩ := hc
    refine ih a (h a (op_sound hs ho)) ?_ hc
    have := (kept_cache H).op o s hs
    rw [ho] at this
    exact this
  | call hd c0 k ih =>
    rcases hc with ⟨rfl, rfl⟩ | ⟨r, s', e, hc⟩
    · exact h.1
    · refine ih r (h.2 r) ?_ hc
      have := hr c0 (s.hold hd) hs
      rw [e] at this
      exact this

/-- **C77.** In every run, everything that is evaluated is complete, however the run got there: no word without characters, no
annotation that is not one, no switch with a table that does not belong to its body, no statement without what it works on. -/
theorem C77_run {ovf : Bool} {argv : List Str} {c : Call} {s : St} (h : Reached H ovf argv c s) :
    ∀ x ∈ Spec.codeOf c, Complete x := by
  induction h with
  | main n hc => exact cl_calls (fun c s => (kept_cache H).run n c s) (show C _ from l_mainP) .nil hc
  | step n hr hc ih =>
    exact cl_calls (fun c s => (kept_cache H).run n c s) (l_evalF ih) (C21_reached hr) hc

/-- **C32 in every run.** The table of a switch that is evaluated describes its body. -/
theorem C32_run_branches {ovf : Bool} {argv : List Str} {one : Bool} {a case : List Code} {bs : List (Nat × Nat)} {d : Option Nat}
    {env : Env} {s : St} (h : Reached H ovf argv (.item (.switch one a case bs d) env) s) : Spec.Branches case bs d ∧ a ≠ [] := by
  have := C77_run h _ (List.mem_singleton.2 rfl)
  cases this
  exact ⟨by assumption, by assumption⟩

end Zh
