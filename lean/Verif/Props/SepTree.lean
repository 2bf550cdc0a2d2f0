import Verif.Props.Only
import Verif.Props.Args
/-!
# C04: the separator index in whole runs

`Wt p`: every result list that the program `p` itself stores (not the calls it makes) has a separator index that is right, if all the
lists it sees have.  It is a statement about the tree of the program, so it holds in every state and for every host.  Only the call of a
definition with left-hand arguments is left out.
-/
namespace Zh
open Spec

variable {α β : Type}

/-- Every result list has its separators recorded rightly. -/
def Spec.AllWF (s : St) : Prop := ∀ l, WF (s.lists l)

/-- No definition of any scope takes arguments from its left. -/
def Spec.NoLeft (s : St) : Prop := ∀ q, ∀ d ∈ (s.scopes q).defs, d.backarg = 0

/-- A list that is stored has the right index. -/
def Op.Wf : Op → Prop
  | .setList _ l => WF l
  | _ => True

/-- What is known about the answer. -/
def Op.WfAns : (o : Op) → o.Res → Prop
  | .st, s => AllWF s
  | _, _ => True

/-- See above. -/
def Wt : Prog α → Prop
  | .ret _ => True
  | .panic => True
  | .op o k => o.Wf ∧ ∀ a, o.WfAns a → Wt (k a)
  | .call _ _ k => ∀ r, Wt (k r)

/-- The same for programs with `?`. -/
def WtE (p : E α) : Prop := Wt p.run

theorem Wt.bind {p : Prog α} {f : α → Prog β} (h : Wt p) (hf : ∀ a, Wt (f a)) : Wt (p >>= f) := by
  change Wt (p.bind f)
  induction p with
  | ret a => exact hf a
  | panic => trivial
  | op o k ih => exact ⟨h.1, fun a ha => ih a (h.2 a ha)⟩
  | call hd c k ih => exact fun r => ih r (h r)

theorem WtE.bind {p : E α} {f : α → E β} (h : WtE p) (hf : ∀ a, WtE (f a)) : WtE (p >>= f) := by
  unfold WtE
  change Wt (p.run >>= _)
  refine Wt.bind h fun a => ?_
  cases a with
  | ok a => exact hf a
  | error e => trivial

theorem WtE.lift {p : Prog α} (h : Wt p) : WtE (liftM p : E α) :=
  Wt.bind h fun _ => trivial
theorem WtE.lift' {p : Prog α} (h : Wt p) : WtE (ExceptT.lift p : E α) :=
  Wt.bind h fun _ => trivial
theorem WtE.run {p : E α} (h : WtE p) : Wt p.run := h

theorem wt_pure {a : α} : Wt (pure a : Prog α) := trivial
theorem wt_panic : Wt (Prog.panic : Prog α) := trivial
theorem wtE_pure {a : α} : WtE (pure a : E α) := trivial
theorem wtE_fail {e' : Err} : WtE (fail e' : E α) := trivial
theorem wtE_mk {x : Except Err α} : WtE (ExceptT.mk (pure x) : E α) := trivial
theorem wt_doOp {o : Op} (h : o.Wf) : Wt (doOp o) := ⟨h, fun _ _ => trivial⟩
theorem wt_getSt : Wt getSt := ⟨trivial, fun _ _ => trivial⟩
theorem wt_getSt_bind {f : St → Prog α} (h : ∀ s, AllWF s → Wt (f s)) : Wt (getSt >>= f) := ⟨trivial, h⟩
theorem wt_ofOut {x : Out α} : Wt (ofOut x) := by cases x <;> trivial
theorem wtE_ofOut {x : Out (Except Err α)} : WtE (ExceptT.mk (ofOut x) : E α) := by cases x <;> trivial
theorem wt_callP {hd : List Held} {c : Call} : Wt (callP hd c) := fun _ => trivial
theorem wtE_callE {hd : List Held} {c : Call} : WtE (callE hd c) := fun _ => trivial
theorem wtE_hello {hd : List Held} {a : List Code} {env : Env} : WtE (hello hd a env) := wtE_callE

theorem WF_retArg {a ret l : RList} {k : Nat} (hr : WF ret) (h : a.retArg k ret = .ok l) : WF l := by
  unfold RList.retArg at h
  split at h
  · cases h; exact hr
  · rename_i st en _
    rcases hx : a.slice st en with is | _ | _ <;> rw [hx] at h
    · cases h; exact WF_addAll hr is
    · cases h
    · cases h

/-- Rules for `wts`. -/
syntax "wt_rule" : tactic
macro_rules | `(tactic| wt_rule) => `(tactic| exact wt_pure)
macro_rules | `(tactic| wt_rule) => `(tactic| exact wt_panic)
macro_rules | `(tactic| wt_rule) => `(tactic| exact wtE_pure)
macro_rules | `(tactic| wt_rule) => `(tactic| exact wtE_fail)
macro_rules | `(tactic| wt_rule) => `(tactic| exact wtE_mk)
macro_rules | `(tactic| wt_rule) => `(tactic| exact wtE_ofOut)
macro_rules | `(tactic| wt_rule) => `(tactic| exact wt_ofOut)
macro_rules | `(tactic| wt_rule) => `(tactic| exact wtE_callE)
macro_rules | `(tactic| wt_rule) => `(tactic| exact wtE_hello)
macro_rules | `(tactic| wt_rule) => `(tactic| exact wt_callP)
macro_rules | `(tactic| wt_rule) => `(tactic| exact wt_doOp trivial)
macro_rules | `(tactic| wt_rule) => `(tactic| exact wt_getSt)

/-- Walk through a program. -/
macro "wts" : tactic => `(tactic| repeat' (first
  | wt_rule
  | refine WtE.bind ?_ ?_
  | refine WtE.lift ?_
  | refine WtE.lift' ?_
  | refine Wt.bind ?_ ?_
  | split
  | dsimp only
  | intro _))

theorem wt_addItem {ret : Nat} {i : Item} : Wt (addItem ret i) :=
  wt_getSt_bind fun _ h => wt_doOp (WF_add (h _) i)
macro_rules | `(tactic| wt_rule) => `(tactic| with_reducible exact wt_addItem)
theorem wt_addVal {ret : Nat} {v : Val} {r : List Str} : Wt (addVal ret v r) := by unfold addVal; wts
macro_rules | `(tactic| wt_rule) => `(tactic| with_reducible exact wt_addVal)
theorem wt_addT {ret : Nat} {t : Str} : Wt (addT ret t) := by unfold addT; wts
macro_rules | `(tactic| wt_rule) => `(tactic| with_reducible exact wt_addT)
theorem wt_addKwI {ret : Nat} {t : KwId} : Wt (addKwI ret t) := by unfold addKwI; wts
macro_rules | `(tactic| wt_rule) => `(tactic| with_reducible exact wt_addKwI)
theorem wt_addDun {ret : Nat} : Wt (addDun ret) := by unfold addDun; wts
macro_rules | `(tactic| wt_rule) => `(tactic| with_reducible exact wt_addDun)
theorem wt_addTs {ret : Nat} {l : List Str} : Wt (addTs ret l) := by
  induction l with
  | nil => trivial
  | cons t ts ih => unfold addTs; exact Wt.bind wt_addT fun _ => ih
macro_rules | `(tactic| wt_rule) => `(tactic| with_reducible exact wt_addTs)
theorem wt_getList {r : Nat} : Wt (getList r) := by unfold getList; wts
macro_rules | `(tactic| wt_rule) => `(tactic| with_reducible exact wt_getList)
theorem wt_helloNew {hd : List Held} {a : List Code} {env : Env} : WtE (helloNew hd a env) := by unfold helloNew; wts
macro_rules | `(tactic| wt_rule) => `(tactic| with_reducible exact wt_helloNew)
theorem wt_helloVec {a : List Code} {env : Env} : WtE (helloVec a env) := by unfold helloVec; wts
macro_rules | `(tactic| wt_rule) => `(tactic| with_reducible exact wt_helloVec)
theorem wt_argiP {i : Int} {h q : Bool} {n : Str} {a r : Nat} : Wt (argiP i h q n a r) := by
  refine wt_getSt_bind fun s hs => ?_
  split
  · trivial
  · dsimp only
    split
    · wts
    · refine Wt.bind wt_ofOut fun x => ?_
      split
      · trivial
      · refine Wt.bind (by wts) fun y => ?_
        split
        · exact wt_addT
        · cases hr : RList.retArg (s.lists (s.scopes a).args) _ (s.lists r) with
          | ok l => exact wt_doOp (WF_retArg (hs _) hr)
          | panic => trivial
          | fuel => trivial
macro_rules | `(tactic| wt_rule) => `(tactic| with_reducible exact wt_argiP)
theorem wt_arg0P {z : Str} {h : Bool} {a r : Nat} : Wt (arg0P z h a r) := by unfold arg0P; wts
macro_rules | `(tactic| wt_rule) => `(tactic| with_reducible exact wt_arg0P)
theorem wt_argcP {h : Bool} {a r : Nat} : Wt (argcP h a r) := by unfold argcP; wts
macro_rules | `(tactic| wt_rule) => `(tactic| with_reducible exact wt_argcP)
theorem wt_getP {n : Str} {a b c d : Bool} {env : Env} : Wt (getP n a b c d env) := by unfold getP; wts
macro_rules | `(tactic| wt_rule) => `(tactic| with_reducible exact wt_getP)
theorem wt_getAliasP {n : Str} {a c : Bool} {b : EquName} {q : Nat} {env : Env} : WtE (getAliasP n a b c q env) := by
  unfold getAliasP; wts
macro_rules | `(tactic| wt_rule) => `(tactic| with_reducible exact wt_getAliasP)
theorem wt_var1P {r : List Str} {n : Str} {env : Env} : WtE (var1P r n env) := by unfold var1P; wts
macro_rules | `(tactic| wt_rule) => `(tactic| with_reducible exact wt_var1P)
theorem wt_simpP {r : List Str} {n : Str} {env : Env} : WtE (simpP n r env) := by unfold simpP; wts
macro_rules | `(tactic| wt_rule) => `(tactic| with_reducible exact wt_simpP)
theorem wt_remTarget {env : Env} : Wt (remTarget env) := by unfold remTarget; wts
macro_rules | `(tactic| wt_rule) => `(tactic| with_reducible exact wt_remTarget)
theorem wt_remP {r : Nat} {env : Env} : Wt (remP r env) := by unfold remP; wts
macro_rules | `(tactic| wt_rule) => `(tactic| with_reducible exact wt_remP)
theorem wt_remsP {r : List Code} {env : Env} : WtE (remsP r env) := by unfold remsP; wts
macro_rules | `(tactic| wt_rule) => `(tactic| with_reducible exact wt_remsP)
theorem wt_split2a {hd : List Held} {a : List Code} {sp : Nat} {env : Env} : WtE (split2a hd a sp env) := by
  unfold split2a; wts
macro_rules | `(tactic| wt_rule) => `(tactic| with_reducible exact wt_split2a)
theorem wt_split2b {hd : List Held} {a : List Code} {sp : Nat} {env : Env} : WtE (split2b hd a sp env) := by
  unfold split2b; wts
macro_rules | `(tactic| wt_rule) => `(tactic| with_reducible exact wt_split2b)
theorem wt_returnP {q : Nat} {r : Except Err Unit} : WtE (returnP q r) := by unfold returnP; wts
macro_rules | `(tactic| wt_rule) => `(tactic| with_reducible exact wt_returnP)
theorem wt_codesP {a : List Code} {i j : Nat} {env : Env} : Wt (codesP a i j env) := by unfold codesP; wts
theorem wt_z2Item {a : List Code} {i j : Nat} {env : Env} {c : Code} : Wt (z2Item a i j env c) := by unfold z2Item; wts
macro_rules | `(tactic| wt_rule) => `(tactic| with_reducible exact wt_z2Item)
theorem wt_z2P {a : List Code} {i j : Nat} {env : Env} : Wt (z2P a i j env) := by unfold z2P; wts
theorem wt_z4Args {h : Held} {d : Def} {a : List Code} {cs : Str} {end2 end_ : Nat} {env : Env}
    {idx2 idx : Nat} {a2 : List Code} {end2a args : Nat} :
    Wt (z4Args h d a cs end2 end_ env idx2 idx a2 end2a args) := by unfold z4Args; wts
macro_rules | `(tactic| wt_rule) => `(tactic| with_reducible exact wt_z4Args)
theorem wt_condMv {b : Bool} {c : List Code} {env : Env} {st : CondSt} : Wt (condMv b c env st) := by
  unfold condMv
  refine Wt.bind wt_callP fun r => ?_
  split
  · trivial
  · refine Wt.bind wt_getList fun l => ?_
    exact Wt.bind (wt_doOp WF_empty) fun _ => wt_pure
macro_rules | `(tactic| wt_rule) => `(tactic| with_reducible exact wt_condMv)
theorem wt_condCmp {c : List Code} {env : Env} {st : CondSt} : Wt (condCmp c env st) := by unfold condCmp; wts
macro_rules | `(tactic| wt_rule) => `(tactic| with_reducible exact wt_condCmp)
theorem wt_condP {c : List Code} {env : Env} {st : CondSt} : Wt (condP c env st) := by unfold condP; wts
theorem wt_ifP {a b c : List Code} {env : Env} : WtE (ifP a b c env) := by unfold ifP; wts
macro_rules | `(tactic| wt_rule) => `(tactic| with_reducible exact wt_ifP)
theorem wt_switchHits {c : List Code} {t : Str} {l : List (Nat × Nat)} {env : Env} : WtE (switchHits c t env l) := by
  induction l with
  | nil => trivial
  | cons x l ih =>
    obtain ⟨f, t⟩ := x
    unfold switchHits
    exact WtE.bind (.lift (wt_doOp trivial)) fun _ => WtE.bind wtE_callE fun _ =>
      WtE.bind (.lift wt_getList) fun _ => WtE.bind ih fun _ => wtE_pure
theorem wt_switchRun {c : List Code} {l : List (Nat × Nat)} {env : Env} : WtE (switchRun c env l) := by
  induction l with
  | nil => trivial
  | cons x l ih =>
    obtain ⟨f, t⟩ := x
    unfold switchRun; wts
    exact ih
macro_rules | `(tactic| wt_rule) => `(tactic| with_reducible exact wt_switchHits)
macro_rules | `(tactic| wt_rule) => `(tactic| with_reducible exact wt_switchRun)
theorem wt_switchP {o : Bool} {a c : List Code} {f : List (Nat × Nat)} {d : Option Nat} {env : Env} :
    WtE (switchP o a c f d env) := by unfold switchP; wts
macro_rules | `(tactic| wt_rule) => `(tactic| with_reducible exact wt_switchP)
theorem wt_jumpP {k : JumpKind} {a : List Code} {env : Env} : WtE (jumpP k a env) := by unfold jumpP; wts
macro_rules | `(tactic| wt_rule) => `(tactic| with_reducible exact wt_jumpP)
theorem wt_jieP {r a : List Code} {env : Env} : WtE (jieP r a env) := by unfold jieP; wts
macro_rules | `(tactic| wt_rule) => `(tactic| with_reducible exact wt_jieP)
theorem wt_jie2P {a : List Code} {env : Env} : WtE (jie2P a env) := by unfold jie2P; wts
macro_rules | `(tactic| wt_rule) => `(tactic| with_reducible exact wt_jie2P)
theorem wt_explP {a : List Code} {env : Env} : WtE (explP a env) := by unfold explP; wts
macro_rules | `(tactic| wt_rule) => `(tactic| with_reducible exact wt_explP)
theorem wt_exitcodeP {c : Option Int} {r : Nat} : Wt (exitcodeP c r) := by unfold exitcodeP; wts
macro_rules | `(tactic| wt_rule) => `(tactic| with_reducible exact wt_exitcodeP)
theorem wt_execErr {c : Str} {r : Nat} : Wt (execErr c r) := by unfold execErr; wts
macro_rules | `(tactic| wt_rule) => `(tactic| with_reducible exact wt_execErr)
theorem wt_evalArg0 {a : Str} {i : List Code} {env : Env} : WtE (evalArg0 a i env) := by unfold evalArg0; wts
macro_rules | `(tactic| wt_rule) => `(tactic| with_reducible exact wt_evalArg0)
theorem wt_setJie {r : Nat} {n : Str} {v : Item} {l : Str} {c : Nat} : WtE (setJie r n v l c) := by
  induction l generalizing c with
  | nil => trivial
  | cons x l ih => unfold setJie; wts <;> exact ih
macro_rules | `(tactic| wt_rule) => `(tactic| with_reducible exact wt_setJie)
theorem wt_printJie {r : Nat} {t l : Str} : WtE (printJie r t l) := by
  induction l with
  | nil => trivial
  | cons x l ih => unfold printJie; wts <;> exact ih
macro_rules | `(tactic| wt_rule) => `(tactic| with_reducible exact wt_printJie)
theorem wt_cliArg {a : Nat} {t : Str} : Wt (cliArg a t) := by unfold cliArg; wts
macro_rules | `(tactic| wt_rule) => `(tactic| with_reducible exact wt_cliArg)

/-! Reading the argument line keeps a copy of it (`args1`). -/

theorem wt_argsP {h l : Bool} {q : Nat} {b f : Int} {r : Nat} : Wt (argsP h q b f l r) := by
  refine wt_getSt_bind fun s hs => ?_
  split
  · trivial
  · refine Wt.bind wt_ofOut fun x => ?_
    split
    · exact wt_addT
    · exact wt_addT
    · wts
    · refine wt_doOp ?_
      show WF _
      split
      · exact WF_popEnd (WF_addAll (hs _) _)
      · exact WF_addAll (hs _) _
    · exact wt_doOp (WF_popEnd (hs _))
macro_rules | `(tactic| wt_rule) => `(tactic| with_reducible exact wt_argsP)
theorem wt_getArgs {n : Str} {r : List Str} {a : Bool} {b : EquName} {q : Nat} {env : Env} :
    WtE (getArgs n r a b q env) := by unfold getArgs; wts
macro_rules | `(tactic| wt_rule) => `(tactic| with_reducible exact wt_getArgs)
theorem wt_get2P {l : List Item} {a : Bool} {b : EquName} {env : Env} : WtE (get2P l a b env) := by
  unfold get2P; wts

/-! Calls of definitions and evaluation of source. -/

theorem wt_parseE {src : Str} : WtE (parseE src) := ⟨trivial, fun _ _ => trivial⟩
macro_rules | `(tactic| wt_rule) => `(tactic| with_reducible exact wt_parseE)
theorem wt_z4Body {h : Held} {d : Def} {src : Str} {env : Env} {p q2 args : Nat} (hd : d.backarg = 0) :
    WtE (z4Body h d src env p q2 args) := by
  unfold z4Body
  refine WtE.bind wt_parseE fun codes => ?_
  rw [if_neg (by omega)]
  wts
macro_rules | `(tactic| wt_rule) => `(tactic| with_reducible exact WtE.run (wt_z4Body (by assumption)))
theorem wt_z4Call {a : List Code} {cs : Str} {end2 end_ : Nat} {env : Env} {st : Z4}
    {idx2 p k : Nat} {d : Def} {src : Str} {a2 : List Code} {end2a : Nat} (hd : d.backarg = 0) :
    Wt (z4Call a cs end2 end_ env st idx2 p k d src a2 end2a) := by unfold z4Call; wts
/-- The same for a program that is started in the state `s`. -/
def WtAt (s : St) : Prog α → Prop
  | .op .st k => Wt (k s)
  | p => Wt p

theorem Wt.at_ {p : Prog α} {s : St} (hp : Wt p) (ha : AllWF s) : WtAt s p := by
  unfold WtAt
  split
  · exact hp.2 _ ha
  · exact hp

/-- The program of a word in a state without definitions that take arguments from their left. -/
theorem wt_z4P {a : List Code} {cs : Str} {end2 end_ : Nat} {env : Env} {st : Z4} {s : St} (hs : NoLeft s) (ha : AllWF s) :
    WtAt s (z4P a cs end2 end_ env st) := by
  unfold z4P
  split
  · show Wt (match findDef s.scopes s.mods cs st.idx2 end2 st.paichu env.q with
      | none => _
      | some (idx3, len, p, k) => _)
    cases hf : findDef s.scopes s.mods cs st.idx2 end2 st.paichu env.q with
    | none =>
      show Wt (match cs[st.idx2]? with
        | none => _
        | some c => _)
      cases cs[st.idx2]? with
      | none => trivial
      | some c => exact wt_callP
    | some x =>
      obtain ⟨idx3, len, p, k⟩ := x
      show Wt (match (s.scopes p).defs[k]? with
        | none => _
        | some d => _)
      cases hd : (s.scopes p).defs[k]? with
      | none => trivial
      | some d =>
        have hd := hs _ d (List.mem_of_getElem? hd)
        refine Wt.bind (wt_ofOut (x := sparg d a cs end2 end_ st.idx (idx3 + len))) fun x => ?_
        cases x with
        | none => exact wt_callP
        | some x =>
          obtain ⟨a2, end2a⟩ := x
          refine Wt.bind wt_addTs fun _ => ?_
          cases d.val with
          | si t => exact Wt.bind wt_addT fun _ => wt_callP
          | s src => exact wt_z4Call hd
  · refine Wt.at_ ?_ ha
    wts
theorem wt_srcP {src : Str} {env : Env} : WtE (srcP src env) := by unfold srcP; wts

/-! Files and options. -/

theorem wt_openP {f : Str} {s : Bool} {q : Nat} : Wt (openP f s q) := by unfold openP; wts
macro_rules | `(tactic| wt_rule) => `(tactic| with_reducible exact wt_openP)
theorem wt_openFirst {f : Str} {s : Bool} {q : Nat} {l : List Str} : Wt (openFirst f s q l) := by
  induction l with
  | nil => trivial
  | cons x l ih =>
    unfold openFirst; wts <;> exact ih
macro_rules | `(tactic| wt_rule) => `(tactic| with_reducible exact wt_openFirst)
theorem wt_okSrcP {f : Str} {s : Bool} {q : Nat} : Wt (okSrcP f s q) := by unfold okSrcP; wts
macro_rules | `(tactic| wt_rule) => `(tactic| with_reducible exact wt_okSrcP)

theorem wt_shlP {h : Bool} {a : List Str} : Wt (shlP h a) := by unfold shlP; wts
macro_rules | `(tactic| wt_rule) => `(tactic| with_reducible exact wt_shlP)
theorem wt_cliActs {q : Nat} {l : List CliAct} : Wt (cliActs q l) := by
  induction l with
  | nil => trivial
  | cons x l ih =>
    cases x <;> (unfold cliActs; wts) <;> exact ih
macro_rules | `(tactic| wt_rule) => `(tactic| with_reducible exact wt_cliActs)
theorem wt_clparsP {a : List Str} {b c d f : Bool} {q : Nat} : WtE (clparsP a b c d f q) := by
  unfold clparsP; wts
macro_rules | `(tactic| wt_rule) => `(tactic| with_reducible exact wt_clparsP)
theorem wt_src2P {src : Str} {q : Nat} : WtE (src2P src q) := by unfold src2P; wts
macro_rules | `(tactic| wt_rule) => `(tactic| with_reducible exact wt_src2P)
theorem wt_loadP {src : Str} {a : Bool} {q : Nat} : WtE (loadP src a q) := by unfold loadP; wts
macro_rules | `(tactic| wt_rule) => `(tactic| with_reducible exact wt_loadP)

theorem wt_evalP {a b : Bool} {c : Str} {d f : List Code} {sp : Nat}
    {g : Bool} {env : Env} : WtE (evalP a b c d f sp g env) := by
  have hload : ∀ src q2, WtE (if a then loadP src b q2 else pure (some src)) := by
    intro src q2
    split
    · exact wt_loadP
    · exact wtE_pure
  have k2 : ∀ (q2 : Nat) (src2 : Str), WtE (do
      if !b then
        let arg0 ← evalArg0 c d env
        if !arg0.isEmpty then doOp (.setArg0 q2 arg0)
      callE [] (.src src2 { env with q := q2 })) := by
    intro q2 src2; wts
  have k3 : ∀ (q2 : Nat) (src : Str), WtE (do
      match ← (if a then loadP src b q2 else pure (some src) : E (Option Str)) with
      | none => return ()
      | some src2 =>
        if !b then
          let arg0 ← evalArg0 c d env
          if !arg0.isEmpty then doOp (.setArg0 q2 arg0)
        callE [] (.src src2 { env with q := q2 })) := by
    intro q2 src
    refine WtE.bind (hload _ _) fun x => ?_
    · split
      · trivial
      · exact k2 _ _
  have k4 : ∀ (q2 args : Nat) (src : Str), WtE (do
      let l ← getList args
      if l.a.isEmpty && g then addT args []
      if !b then doOp (.setSrc q2 src)
      match ← (if a then loadP src b q2 else pure (some src) : E (Option Str)) with
      | none => return ()
      | some src2 =>
        if !b then
          let arg0 ← evalArg0 c d env
          if !arg0.isEmpty then doOp (.setArg0 q2 arg0)
        callE [] (.src src2 { env with q := q2 })) := by
    intro q2 args src
    refine WtE.bind (WtE.lift wt_getList) fun l => ?_
    dsimp only
    have k3 := k3 q2 src
    have k6 : ∀ f : PUnit → E Unit, (∀ x, WtE (f x)) →
        WtE ((addT args [] : Prog _) >>= f) :=
      fun f h => WtE.bind (WtE.lift wt_addT) h
    have k7 : ∀ f : PUnit → E Unit, (∀ x, WtE (f x)) →
        WtE ((doOp (.setSrc q2 src) : Prog _) >>= f) :=
      fun f h => WtE.bind (WtE.lift (wt_doOp trivial)) h
    have k8 : WtE (do
        if !b then doOp (.setSrc q2 src)
        match ← (if a then loadP src b q2 else pure (some src) : E (Option Str)) with
        | none => return ()
        | some src2 =>
          if !b then
            let arg0 ← evalArg0 c d env
            if !arg0.isEmpty then doOp (.setArg0 q2 arg0)
          callE [] (.src src2 { env with q := q2 })) := by
      by_cases hb : (!b) = true
      · dsimp only
        rw [if_pos hb]
        exact k7 _ fun _ => k3
      · dsimp only
        rw [if_neg hb]
        exact k3
    by_cases hl : (l.a.isEmpty && g) = true
    · rw [if_pos hl]
      exact k6 _ fun _ => k8
    · rw [if_neg hl]
      exact k8
  have k5 : ∀ (q2 args : Nat), WtE (do
      let (src, rems) ← split2a [.scope q2] f sp { env with ret := args }
      match rems with
      | r :: _ => fail (errNoRem2 r)
      | [] =>
        split2b [.scope q2] f sp { env with ret := args }
        let l ← getList args
        if l.a.isEmpty && g then addT args []
        if !b then doOp (.setSrc q2 src)
        match ← (if a then loadP src b q2 else pure (some src) : E (Option Str)) with
        | none => return ()
        | some src2 =>
          if !b then
            let arg0 ← evalArg0 c d env
            if !arg0.isEmpty then doOp (.setArg0 q2 arg0)
          callE [] (.src src2 { env with q := q2 })) := by
    intro q2 args
    refine WtE.bind wt_split2a fun x => ?_
    split
    split
    · trivial
    · exact WtE.bind (wt_split2b) fun _ => k4 _ _ _
  unfold evalP
  refine WtE.bind (WtE.lift ?_) fun q2 => ?_
  · wts
  refine WtE.bind (WtE.lift (wt_doOp trivial)) fun _ => ?_
  refine WtE.bind (WtE.lift (wt_getSt)) fun s => ?_
  dsimp only
  split
  · exact WtE.bind (WtE.lift wt_addDun) fun _ => k5 _ _
  · exact k5 _ _


/-! Statements that change the world. -/

theorem wt_setGo {a : Bool} {env : Env} {l : List (List Item)} {st : SetSt} : WtE (setGo a env l st) := by
  induction l generalizing st with
  | nil => trivial
  | cons x l ih => unfold setGo; wts <;> exact ih
macro_rules | `(tactic| wt_rule) => `(tactic| with_reducible exact wt_setGo)
theorem wt_setP {a : Bool} {n v : List Code} {env : Env} : WtE (setP a n v env) := by unfold setP; wts
theorem wt_defP {sp : Nat} {n v : List Code} {env : Env} : WtE (defP n v sp env) := by unfold defP; wts
theorem wt_nameP_mod {n : List Code} {env : Env} : WtE (nameP true n env) := by
  unfold nameP; wts
theorem wt_nameP {n : List Code} {env : Env} : WtE (nameP false n env) := by
  unfold nameP
  simp only [Bool.false_eq_true, if_false]
  wts
theorem wt_modFreeGo {l : List Str} {env : Env} : WtE (modFreeGo env l) := by
  induction l with
  | nil => trivial
  | cons x l ih => unfold modFreeGo; wts <;> exact ih
macro_rules | `(tactic| wt_rule) => `(tactic| with_reducible exact wt_modFreeGo)
theorem wt_loopP {range : Bool} {codes : List Code} {max : Nat} {useI : Bool} {cnt : Cnt}
    {env : Env} {i : Nat} {hn : Bool} : Wt (loopP range codes max useI cnt env i hn) := by
  have rest : ∀ i : Nat, Wt (
      let hasName := cnt.name.isSome
      let again := callP [] (.loop range codes max useI cnt env i hasName)
      let stop (r : Except Err Unit) : Prog Res := return { has := hasName, r }
      if codes.isEmpty then (if range then stop (.ok ()) else again)
      else do
        let r ← callP [] (.codes codes 0 usizeMax env)
        match r.r with
        | .ok () => if range then stop (.ok ()) else again
        | .error e =>
          if loopTakes range cnt.name e then
            (if e.i = loopBreak range then stop (.ok ()) else again)
          else stop (.error e)) := by
    intro i; wts
  unfold loopP
  dsimp only
  generalize (if useI = true then i + 1 else i) = j
  split
  · trivial
  · split
    · refine Wt.bind (wt_doOp trivial) fun _ => Wt.bind (wt_doOp trivial) fun _ => ?_
      by_cases h : (!hn) = true
      · rw [if_pos h]; exact Wt.bind (wt_doOp trivial) fun _ => rest _
      · rw [if_neg h]; exact rest _
    · exact rest _

theorem wt_forP {range : Bool} {cnt : Cnt} {rems codes : List Code} {env : Env} :
    WtE (forP range cnt rems codes env) := by unfold forP; wts
theorem wt_printP {a : List Code} {env : Env} : WtE (printP a env) := by unfold printP; wts
theorem wt_execCode {a b : Str} {env : Env} : WtE (execCode a b env) := by unfold execCode; wts
macro_rules | `(tactic| wt_rule) => `(tactic| with_reducible exact wt_execCode)
theorem wt_writeAll {h : Nat} {l : List Str} : Wt (writeAll h l) := by
  induction l with
  | nil => trivial
  | cons x l ih => unfold writeAll; wts <;> exact ih
macro_rules | `(tactic| wt_rule) => `(tactic| with_reducible exact wt_writeAll)
theorem wt_execPipe {h : Nat} {a b : Str} {env : Env} : WtE (execPipe h a b env) := by unfold execPipe; wts
macro_rules | `(tactic| wt_rule) => `(tactic| with_reducible exact wt_execPipe)
macro_rules | `(tactic| wt_rule) => `(tactic| with_reducible exact WtE.run (wt_execPipe))
theorem wt_slaveStream {h : Nat} {e : Bool} {s b : Str} {env : Env} : Wt (slaveStream h e s b env) := by
  unfold slaveStream; wts
macro_rules | `(tactic| wt_rule) => `(tactic| with_reducible exact wt_slaveStream)
theorem wt_slaveP {h : Nat} {o e b : Str} {env : Env} : Wt (slaveP h o e b env) := by unfold slaveP; wts
theorem wt_execLines {src : Str} {env : Env} {l : List (Except Str Str)} : WtE (execLines src env l) := by
  induction l with
  | nil => trivial
  | cons x l ih => cases x <;> (unfold execLines; wts) <;> exact ih
macro_rules | `(tactic| wt_rule) => `(tactic| with_reducible exact wt_execLines)
theorem wt_execOut {src : Str} {c : Captured} {b : Bool} {env : Env} : WtE (execOut src c b env) := by unfold execOut; wts
macro_rules | `(tactic| wt_rule) => `(tactic| with_reducible exact wt_execOut)
theorem wt_execRun {o : ExecOpts} {env : Env} : WtE (execRun o env) := by unfold execRun; wts
macro_rules | `(tactic| wt_rule) => `(tactic| with_reducible exact wt_execRun)
theorem wt_exec2P {v : List Str} {env : Env} : WtE (exec2P v env) := by unfold exec2P; wts
macro_rules | `(tactic| wt_rule) => `(tactic| with_reducible exact wt_exec2P)
theorem wt_objWrite {h r : Nat} {l : List Str} : Wt (objWrite h r l) := by
  induction l with
  | nil => trivial
  | cons x l ih => unfold objWrite; wts <;> exact ih
macro_rules | `(tactic| wt_rule) => `(tactic| with_reducible exact wt_objWrite)
theorem wt_execP {a : List Code} {env : Env} : WtE (execP a env) := by unfold execP; wts



theorem wt_topVal {n v : Str} : Wt (topVal n v) := by unfold topVal; wts
macro_rules | `(tactic| wt_rule) => `(tactic| with_reducible exact wt_topVal)
theorem wt_mainP {argv : List Str} : WtE (mainP argv) := by unfold mainP; wts

theorem wt_resE {p : E Unit} (h : WtE p) : Wt (resE p) := Wt.bind h fun _ => trivial
macro_rules | `(tactic| wt_rule) => `(tactic| with_reducible exact wt_evalP)
macro_rules | `(tactic| wt_rule) => `(tactic| with_reducible exact wt_setP)
macro_rules | `(tactic| wt_rule) => `(tactic| with_reducible exact wt_defP)
macro_rules | `(tactic| wt_rule) => `(tactic| with_reducible exact wt_nameP)
macro_rules | `(tactic| wt_rule) => `(tactic| with_reducible exact wt_nameP_mod)
macro_rules | `(tactic| wt_rule) => `(tactic| with_reducible exact wt_forP)
macro_rules | `(tactic| wt_rule) => `(tactic| with_reducible exact wt_printP)
macro_rules | `(tactic| wt_rule) => `(tactic| with_reducible exact wt_execP)
theorem wt_itemP {c : Code} {env : Env} : WtE (itemP c env) := by
  cases c <;> (dsimp only [itemP]; wts)

end Zh
