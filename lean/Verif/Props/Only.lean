import Verif.Props.FrameOk
/-!
# What each evaluation function may change

`Only K p`: all operations of the program `p` itself (not of the calls it makes) are of the kinds `K`.
It is a statement about the tree of the program, so it holds in every state and for every host.
-/
namespace Zh

variable {α β : Type}

/-- What an operation changes. -/
inductive Kind where
  /-- nothing, or only result items and result lists -/
  | plain
  | scope | var | def_ | name | mods | src | args1 | world | cache | label
  /-- output, files, processes -/
  | emit | file | proc
deriving DecidableEq, Repr

def Op.kind : Op → Kind
  | .st | .newItem .. | .addRems .. | .newList | .setList .. | .touch _ | .cmp .. | .expl _
  | .fileName .. => .plain
  | .newScope .. => .scope
  | .setVar .. => .var
  | .setDef .. => .def_
  | .addName .. => .name
  | .addMod .. | .rmMod .. => .mods
  | .setSrc .. | .setIsFile _ | .setArg0 .. => .src
  | .clearArgs1 _ | .argsLine _ => .args1
  | .path _ | .shl _ | .srcIsCode | .jhdh => .world
  | .parse _ => .cache
  | .pushLabel _ | .popLabel => .label
  | .emit _ => .emit
  | .open_ _ | .read _ => .file
  | .exec .. | .write .. | .readLine .. => .proc

/-- See above. -/
def Only (K : Kind → Prop) : Prog α → Prop
  | .ret _ => True
  | .panic => True
  | .op o k => K o.kind ∧ ∀ a, Only K (k a)
  | .call _ _ k => ∀ r, Only K (k r)

/-- The same for programs with `?`. -/
def OnlyE (K : Kind → Prop) (p : E α) : Prop := Only K p.run

variable {K : Kind → Prop}

theorem Only.bind {p : Prog α} {f : α → Prog β} (h : Only K p) (hf : ∀ a, Only K (f a)) : Only K (p >>= f) := by
  change Only K (p.bind f)
  induction p with
  | ret a => exact hf a
  | panic => trivial
  | op o k ih => exact ⟨h.1, fun a => ih a (h.2 a)⟩
  | call hd c k ih => exact fun r => ih r (h r)

theorem Only.mono {K' : Kind → Prop} {p : Prog α} (h : Only K p) (hK : ∀ k, K k → K' k) : Only K' p := by
  induction p with
  | ret a => trivial
  | panic => trivial
  | op o k ih => exact ⟨hK _ h.1, fun a => ih a (h.2 a)⟩
  | call hd c k ih => exact fun r => ih r (h r)

theorem OnlyE.bind {p : E α} {f : α → E β} (h : OnlyE K p) (hf : ∀ a, OnlyE K (f a)) : OnlyE K (p >>= f) := by
  unfold OnlyE
  change Only K (p.run >>= _)
  refine Only.bind h fun a => ?_
  cases a with
  | ok a => exact hf a
  | error e => trivial

theorem OnlyE.lift {p : Prog α} (h : Only K p) : OnlyE K (liftM p : E α) :=
  Only.bind h fun _ => trivial
theorem OnlyE.lift' {p : Prog α} (h : Only K p) : OnlyE K (ExceptT.lift p : E α) :=
  Only.bind h fun _ => trivial
theorem OnlyE.run {p : E α} (h : OnlyE K p) : Only K p.run := h

theorem only_pure {a : α} : Only K (pure a : Prog α) := trivial
theorem only_panic : Only K (Prog.panic : Prog α) := trivial
theorem onlyE_pure {a : α} : OnlyE K (pure a : E α) := trivial
theorem onlyE_fail {e' : Err} : OnlyE K (fail e' : E α) := trivial
theorem onlyE_mk {x : Except Err α} : OnlyE K (ExceptT.mk (pure x) : E α) := trivial
theorem only_doOp {o : Op} (h : K o.kind) : Only K (doOp o) := ⟨h, fun _ => trivial⟩
theorem only_getSt (h : K .plain) : Only K getSt := ⟨h, fun _ => trivial⟩
theorem only_ofOut {x : Out α} : Only K (ofOut x) := by cases x <;> trivial
theorem onlyE_ofOut {x : Out (Except Err α)} : OnlyE K (ExceptT.mk (ofOut x) : E α) := by cases x <;> trivial
theorem only_callP {hd : List Held} {c : Call} : Only K (callP hd c) := fun _ => trivial
theorem onlyE_callE {hd : List Held} {c : Call} : OnlyE K (callE hd c) := fun _ => trivial
theorem onlyE_hello {hd : List Held} {a : List Code} {env : Env} : OnlyE K (hello hd a env) := onlyE_callE

/-- Rules for `only`. -/
syntax "only_rule" : tactic
macro_rules | `(tactic| only_rule) => `(tactic| exact only_pure)
macro_rules | `(tactic| only_rule) => `(tactic| exact only_panic)
macro_rules | `(tactic| only_rule) => `(tactic| exact onlyE_pure)
macro_rules | `(tactic| only_rule) => `(tactic| exact onlyE_fail)
macro_rules | `(tactic| only_rule) => `(tactic| exact onlyE_mk)
macro_rules | `(tactic| only_rule) => `(tactic| exact onlyE_ofOut)
macro_rules | `(tactic| only_rule) => `(tactic| exact only_ofOut)
macro_rules | `(tactic| only_rule) => `(tactic| exact onlyE_callE)
macro_rules | `(tactic| only_rule) => `(tactic| exact onlyE_hello)
macro_rules | `(tactic| only_rule) => `(tactic| exact only_callP)
macro_rules | `(tactic| only_rule) => `(tactic| exact only_doOp (by assumption))
macro_rules | `(tactic| only_rule) => `(tactic| exact only_getSt (by assumption))

/-- Walk through a program. -/
macro "only" : tactic => `(tactic| repeat' (first
  | only_rule
  | refine OnlyE.bind ?_ ?_
  | refine OnlyE.lift ?_
  | refine OnlyE.lift' ?_
  | refine Only.bind ?_ ?_
  | split
  | dsimp only
  | intro _))

section
variable (hp : K .plain)
include hp

theorem o_addItem {ret : Nat} {i : Item} : Only K (addItem ret i) := by unfold addItem; only
macro_rules | `(tactic| only_rule) => `(tactic| with_reducible exact o_addItem (by assumption))
theorem o_addVal {ret : Nat} {v : Val} {r : List Str} : Only K (addVal ret v r) := by unfold addVal; only
macro_rules | `(tactic| only_rule) => `(tactic| with_reducible exact o_addVal (by assumption))
theorem o_addT {ret : Nat} {t : Str} : Only K (addT ret t) := by unfold addT; only
macro_rules | `(tactic| only_rule) => `(tactic| with_reducible exact o_addT (by assumption))
theorem o_addKwI {ret : Nat} {t : KwId} : Only K (addKwI ret t) := by unfold addKwI; only
macro_rules | `(tactic| only_rule) => `(tactic| with_reducible exact o_addKwI (by assumption))
theorem o_addDun {ret : Nat} : Only K (addDun ret) := by unfold addDun; only
macro_rules | `(tactic| only_rule) => `(tactic| with_reducible exact o_addDun (by assumption))
theorem o_addTs {ret : Nat} {l : List Str} : Only K (addTs ret l) := by
  induction l with
  | nil => trivial
  | cons t ts ih => unfold addTs; exact Only.bind (o_addT hp) fun _ => ih
macro_rules | `(tactic| only_rule) => `(tactic| with_reducible exact o_addTs (by assumption))
theorem o_getList {r : Nat} : Only K (getList r) := by unfold getList; only
macro_rules | `(tactic| only_rule) => `(tactic| with_reducible exact o_getList (by assumption))
theorem o_helloNew {hd : List Held} {a : List Code} {env : Env} : OnlyE K (helloNew hd a env) := by unfold helloNew; only
macro_rules | `(tactic| only_rule) => `(tactic| with_reducible exact o_helloNew (by assumption))
theorem o_helloVec {a : List Code} {env : Env} : OnlyE K (helloVec a env) := by unfold helloVec; only
macro_rules | `(tactic| only_rule) => `(tactic| with_reducible exact o_helloVec (by assumption))
theorem o_argiP {i : Int} {h q : Bool} {n : Str} {a r : Nat} : Only K (argiP i h q n a r) := by unfold argiP; only
macro_rules | `(tactic| only_rule) => `(tactic| with_reducible exact o_argiP (by assumption))
theorem o_arg0P {z : Str} {h : Bool} {a r : Nat} : Only K (arg0P z h a r) := by unfold arg0P; only
macro_rules | `(tactic| only_rule) => `(tactic| with_reducible exact o_arg0P (by assumption))
theorem o_argcP {h : Bool} {a r : Nat} : Only K (argcP h a r) := by unfold argcP; only
macro_rules | `(tactic| only_rule) => `(tactic| with_reducible exact o_argcP (by assumption))
theorem o_getP {n : Str} {a b c d : Bool} {env : Env} : Only K (getP n a b c d env) := by unfold getP; only
macro_rules | `(tactic| only_rule) => `(tactic| with_reducible exact o_getP (by assumption))
theorem o_getAliasP {n : Str} {a c : Bool} {b : EquName} {q : Nat} {env : Env} : OnlyE K (getAliasP n a b c q env) := by
  unfold getAliasP; only
macro_rules | `(tactic| only_rule) => `(tactic| with_reducible exact o_getAliasP (by assumption))
theorem o_var1P {r : List Str} {n : Str} {env : Env} : OnlyE K (var1P r n env) := by unfold var1P; only
macro_rules | `(tactic| only_rule) => `(tactic| with_reducible exact o_var1P (by assumption))
theorem o_simpP {r : List Str} {n : Str} {env : Env} : OnlyE K (simpP n r env) := by unfold simpP; only
macro_rules | `(tactic| only_rule) => `(tactic| with_reducible exact o_simpP (by assumption))
theorem o_remTarget {env : Env} : Only K (remTarget env) := by unfold remTarget; only
macro_rules | `(tactic| only_rule) => `(tactic| with_reducible exact o_remTarget (by assumption))
theorem o_remP {r : Nat} {env : Env} : Only K (remP r env) := by unfold remP; only
macro_rules | `(tactic| only_rule) => `(tactic| with_reducible exact o_remP (by assumption))
theorem o_remsP {r : List Code} {env : Env} : OnlyE K (remsP r env) := by unfold remsP; only
macro_rules | `(tactic| only_rule) => `(tactic| with_reducible exact o_remsP (by assumption))
theorem o_split2a {hd : List Held} {a : List Code} {sp : Nat} {env : Env} : OnlyE K (split2a hd a sp env) := by
  unfold split2a; only
macro_rules | `(tactic| only_rule) => `(tactic| with_reducible exact o_split2a (by assumption))
omit hp in
theorem o_split2b {hd : List Held} {a : List Code} {sp : Nat} {env : Env} : OnlyE K (split2b hd a sp env) := by
  unfold split2b; only
macro_rules | `(tactic| only_rule) => `(tactic| with_reducible exact o_split2b)
theorem o_returnP {q : Nat} {r : Except Err Unit} : OnlyE K (returnP q r) := by unfold returnP; only
macro_rules | `(tactic| only_rule) => `(tactic| with_reducible exact o_returnP (by assumption))
omit hp in
theorem o_codesP {a : List Code} {i j : Nat} {env : Env} : Only K (codesP a i j env) := by unfold codesP; only
omit hp in
theorem o_z2Item {a : List Code} {i j : Nat} {env : Env} {c : Code} : Only K (z2Item a i j env c) := by unfold z2Item; only
macro_rules | `(tactic| only_rule) => `(tactic| with_reducible exact o_z2Item)
theorem o_z2P {a : List Code} {i j : Nat} {env : Env} : Only K (z2P a i j env) := by unfold z2P; only
omit hp in
theorem o_z4Args {h : Held} {d : Def} {a : List Code} {cs : Str} {end2 end_ : Nat} {env : Env}
    {idx2 idx : Nat} {a2 : List Code} {end2a args : Nat} :
    Only K (z4Args h d a cs end2 end_ env idx2 idx a2 end2a args) := by unfold z4Args; only
macro_rules | `(tactic| only_rule) => `(tactic| with_reducible exact o_z4Args)
theorem o_condMv {b : Bool} {c : List Code} {env : Env} {st : CondSt} : Only K (condMv b c env st) := by
  unfold condMv; only
macro_rules | `(tactic| only_rule) => `(tactic| with_reducible exact o_condMv (by assumption))
theorem o_condCmp {c : List Code} {env : Env} {st : CondSt} : Only K (condCmp c env st) := by unfold condCmp; only
macro_rules | `(tactic| only_rule) => `(tactic| with_reducible exact o_condCmp (by assumption))
theorem o_condP {c : List Code} {env : Env} {st : CondSt} : Only K (condP c env st) := by unfold condP; only
theorem o_ifP {a b c : List Code} {env : Env} : OnlyE K (ifP a b c env) := by unfold ifP; only
macro_rules | `(tactic| only_rule) => `(tactic| with_reducible exact o_ifP (by assumption))
theorem o_switchHits {c : List Code} {t : Str} {l : List (Nat × Nat)} {env : Env} : OnlyE K (switchHits c t env l) := by
  induction l with
  | nil => trivial
  | cons x l ih =>
    obtain ⟨f, t⟩ := x
    unfold switchHits
    exact OnlyE.bind (.lift (only_doOp hp)) fun _ => OnlyE.bind onlyE_callE fun _ =>
      OnlyE.bind (.lift (o_getList hp)) fun _ => OnlyE.bind ih fun _ => onlyE_pure
omit hp in
theorem o_switchRun {c : List Code} {l : List (Nat × Nat)} {env : Env} : OnlyE K (switchRun c env l) := by
  induction l with
  | nil => trivial
  | cons x l ih =>
    obtain ⟨f, t⟩ := x
    unfold switchRun; only
    exact ih
macro_rules | `(tactic| only_rule) => `(tactic| with_reducible exact o_switchHits (by assumption))
macro_rules | `(tactic| only_rule) => `(tactic| with_reducible exact o_switchRun)
theorem o_switchP {o : Bool} {a c : List Code} {f : List (Nat × Nat)} {d : Option Nat} {env : Env} :
    OnlyE K (switchP o a c f d env) := by unfold switchP; only
macro_rules | `(tactic| only_rule) => `(tactic| with_reducible exact o_switchP (by assumption))
theorem o_jumpP {k : JumpKind} {a : List Code} {env : Env} : OnlyE K (jumpP k a env) := by unfold jumpP; only
macro_rules | `(tactic| only_rule) => `(tactic| with_reducible exact o_jumpP (by assumption))
theorem o_jieP {r a : List Code} {env : Env} : OnlyE K (jieP r a env) := by unfold jieP; only
macro_rules | `(tactic| only_rule) => `(tactic| with_reducible exact o_jieP (by assumption))
theorem o_jie2P {a : List Code} {env : Env} : OnlyE K (jie2P a env) := by unfold jie2P; only
macro_rules | `(tactic| only_rule) => `(tactic| with_reducible exact o_jie2P (by assumption))
theorem o_explP {a : List Code} {env : Env} : OnlyE K (explP a env) := by unfold explP; only
macro_rules | `(tactic| only_rule) => `(tactic| with_reducible exact o_explP (by assumption))
theorem o_exitcodeP {c : Option Int} {r : Nat} : Only K (exitcodeP c r) := by unfold exitcodeP; only
macro_rules | `(tactic| only_rule) => `(tactic| with_reducible exact o_exitcodeP (by assumption))
theorem o_execErr {c : Str} {r : Nat} : Only K (execErr c r) := by unfold execErr; only
macro_rules | `(tactic| only_rule) => `(tactic| with_reducible exact o_execErr (by assumption))
theorem o_evalArg0 {a : Str} {i : List Code} {env : Env} : OnlyE K (evalArg0 a i env) := by unfold evalArg0; only
macro_rules | `(tactic| only_rule) => `(tactic| with_reducible exact o_evalArg0 (by assumption))
theorem o_setJie {r : Nat} {n : Str} {v : Item} {l : Str} {c : Nat} : OnlyE K (setJie r n v l c) := by
  induction l generalizing c with
  | nil => trivial
  | cons x l ih => unfold setJie; only <;> exact ih
macro_rules | `(tactic| only_rule) => `(tactic| with_reducible exact o_setJie (by assumption))
theorem o_printJie {r : Nat} {t l : Str} : OnlyE K (printJie r t l) := by
  induction l with
  | nil => trivial
  | cons x l ih => unfold printJie; only <;> exact ih
macro_rules | `(tactic| only_rule) => `(tactic| with_reducible exact o_printJie (by assumption))
theorem o_cliArg {a : Nat} {t : Str} : Only K (cliArg a t) := by unfold cliArg; only
macro_rules | `(tactic| only_rule) => `(tactic| with_reducible exact o_cliArg (by assumption))

/-! Reading the argument line keeps a copy of it (`args1`). -/

theorem o_argsP (ha : K .args1) {h l : Bool} {q : Nat} {b f : Int} {r : Nat} : Only K (argsP h q b f l r) := by
  unfold argsP; only
macro_rules | `(tactic| only_rule) => `(tactic| with_reducible exact o_argsP (by assumption) (by assumption))
theorem o_getArgs (ha : K .args1) {n : Str} {r : List Str} {a : Bool} {b : EquName} {q : Nat} {env : Env} :
    OnlyE K (getArgs n r a b q env) := by unfold getArgs; only
macro_rules | `(tactic| only_rule) => `(tactic| with_reducible exact o_getArgs (by assumption) (by assumption))
theorem o_get2P (ha : K .args1) {l : List Item} {a : Bool} {b : EquName} {env : Env} : OnlyE K (get2P l a b env) := by
  unfold get2P; only

/-! Calls of definitions and evaluation of source. -/

omit hp in
theorem o_parseE (hc : K .cache) {src : Str} : OnlyE K (parseE src) := ⟨hc, fun _ => trivial⟩
macro_rules | `(tactic| only_rule) => `(tactic| with_reducible exact o_parseE (by assumption))
theorem o_z4Body (hc : K .cache) {h : Held} {d : Def} {src : Str} {env : Env} {p q2 args : Nat} :
    OnlyE K (z4Body h d src env p q2 args) := by unfold z4Body; only
macro_rules | `(tactic| only_rule) => `(tactic| with_reducible exact OnlyE.run (o_z4Body (by assumption) (by assumption)))
theorem o_z4Call (hc : K .cache) (hs : K .scope) {a : List Code} {cs : Str} {end2 end_ : Nat} {env : Env} {st : Z4}
    {idx2 p k : Nat} {d : Def} {src : Str} {a2 : List Code} {end2a : Nat} :
    Only K (z4Call a cs end2 end_ env st idx2 p k d src a2 end2a) := by unfold z4Call; only
macro_rules | `(tactic| only_rule) => `(tactic| with_reducible exact o_z4Call (by assumption) (by assumption) (by assumption))
theorem o_z4P (hc : K .cache) (hs : K .scope) {a : List Code} {cs : Str} {end2 end_ : Nat} {env : Env} {st : Z4} :
    Only K (z4P a cs end2 end_ env st) := by unfold z4P; only
theorem o_srcP (hc : K .cache) {src : Str} {env : Env} : OnlyE K (srcP src env) := by unfold srcP; only

/-! Files and options. -/

section
variable (hf : K .file) (hs : K .src)
include hf hs
omit hp in
theorem o_openP {f : Str} {s : Bool} {q : Nat} : Only K (openP f s q) := by unfold openP; only
macro_rules | `(tactic| only_rule) => `(tactic| with_reducible exact o_openP (by assumption) (by assumption))
theorem o_openFirst {f : Str} {s : Bool} {q : Nat} {l : List Str} : Only K (openFirst f s q l) := by
  induction l with
  | nil => trivial
  | cons x l ih =>
    unfold openFirst; only <;> exact ih
macro_rules | `(tactic| only_rule) => `(tactic| with_reducible exact o_openFirst (by assumption) (by assumption) (by assumption))
theorem o_okSrcP {f : Str} {s : Bool} {q : Nat} : Only K (okSrcP f s q) := by unfold okSrcP; only
macro_rules | `(tactic| only_rule) => `(tactic| with_reducible exact o_okSrcP (by assumption) (by assumption) (by assumption))
end

section
variable (hs : K .src) (hw : K .world)
include hw
omit hp in
theorem o_shlP (hp : K .plain) {h : Bool} {a : List Str} : Only K (shlP h a) := by unfold shlP; only
macro_rules | `(tactic| only_rule) => `(tactic| with_reducible exact o_shlP (by assumption) (by assumption))
include hs
variable (he : K .emit)
include he
theorem o_cliActs {q : Nat} {l : List CliAct} : Only K (cliActs q l) := by
  induction l with
  | nil => trivial
  | cons x l ih =>
    cases x <;> (unfold cliActs; only) <;> exact ih
macro_rules | `(tactic| only_rule) => `(tactic| with_reducible exact o_cliActs (by assumption) (by assumption) (by assumption) (by assumption))
theorem o_clparsP {a : List Str} {b c d f : Bool} {q : Nat} : OnlyE K (clparsP a b c d f q) := by
  unfold clparsP; only
macro_rules | `(tactic| only_rule) => `(tactic| with_reducible exact o_clparsP (by assumption) (by assumption) (by assumption) (by assumption))
variable (hf : K .file)
include hf
theorem o_src2P {src : Str} {q : Nat} : OnlyE K (src2P src q) := by unfold src2P; only
macro_rules | `(tactic| only_rule) => `(tactic| with_reducible exact o_src2P (by assumption) (by assumption) (by assumption) (by assumption) (by assumption))
theorem o_loadP {src : Str} {a : Bool} {q : Nat} : OnlyE K (loadP src a q) := by unfold loadP; only
macro_rules | `(tactic| only_rule) => `(tactic| with_reducible exact o_loadP (by assumption) (by assumption) (by assumption) (by assumption) (by assumption))
end

theorem o_evalP (hs : K .src) (hn : K .scope) (ha : K .args1) {a b : Bool} {c : Str} {d f : List Code} {sp : Nat}
    {g : Bool} {env : Env} (hload : ∀ src q2, OnlyE K (if a then loadP src b q2 else pure (some src))) :
    OnlyE K (evalP a b c d f sp g env) := by
  have k2 : ∀ (q2 : Nat) (src2 : Str), OnlyE K (do
      if !b then
        let arg0 ← evalArg0 c d env
        if !arg0.isEmpty then doOp (.setArg0 q2 arg0)
      callE [] (.src src2 { env with q := q2 })) := by
    intro q2 src2; only
  have k3 : ∀ (q2 : Nat) (src : Str), OnlyE K (do
      match ← (if a then loadP src b q2 else pure (some src) : E (Option Str)) with
      | none => return ()
      | some src2 =>
        if !b then
          let arg0 ← evalArg0 c d env
          if !arg0.isEmpty then doOp (.setArg0 q2 arg0)
        callE [] (.src src2 { env with q := q2 })) := by
    intro q2 src
    refine OnlyE.bind (hload _ _) fun x => ?_
    · split
      · trivial
      · exact k2 _ _
  have k4 : ∀ (q2 args : Nat) (src : Str), OnlyE K (do
      let l ← getList args
      if l.a.isEmpty && g then addT args []
      if !b then doOp (.setSrc q2 src)
      match ← (if a then loadP src b q2 else pure (some src) : E (Option Str)) with
      | none => return ()
      | some src2 =>
        if !b then
          let arg0 ← evalArg0 c d env
          if !arg0.isEmpty then doOp (.setArg0 q2 arg0)
        callE [] (.src src2 { env with q := q2 })) := by
    intro q2 args src
    refine OnlyE.bind (OnlyE.lift (o_getList hp)) fun l => ?_
    dsimp only
    have k3 := k3 q2 src
    have k6 : ∀ f : PUnit → E Unit, (∀ x, OnlyE K (f x)) →
        OnlyE K ((addT args [] : Prog _) >>= f) :=
      fun f h => OnlyE.bind (OnlyE.lift (o_addT hp)) h
    have k7 : ∀ f : PUnit → E Unit, (∀ x, OnlyE K (f x)) →
        OnlyE K ((doOp (.setSrc q2 src) : Prog _) >>= f) :=
      fun f h => OnlyE.bind (OnlyE.lift (only_doOp hs)) h
    have k8 : OnlyE K (do
        if !b then doOp (.setSrc q2 src)
        match ← (if a then loadP src b q2 else pure (some src) : E (Option Str)) with
        | none => return ()
        | some src2 =>
          if !b then
            let arg0 ← evalArg0 c d env
            if !arg0.isEmpty then doOp (.setArg0 q2 arg0)
          callE [] (.src src2 { env with q := q2 })) := by
      by_cases hb : (!b) = true
      · dsimp only
        rw [if_pos hb]
        exact k7 _ fun _ => k3
      · dsimp only
        rw [if_neg hb]
        exact k3
    by_cases hl : (l.a.isEmpty && g) = true
    · rw [if_pos hl]
      exact k6 _ fun _ => k8
    · rw [if_neg hl]
      exact k8
  have k5 : ∀ (q2 args : Nat), OnlyE K (do
      let (src, rems) ← split2a [.scope q2] f sp { env with ret := args }
      match rems with
      | r :: _ => fail (errNoRem2 r)
      | [] =>
        split2b [.scope q2] f sp { env with ret := args }
        let l ← getList args
        if l.a.isEmpty && g then addT args []
        if !b then doOp (.setSrc q2 src)
        match ← (if a then loadP src b q2 else pure (some src) : E (Option Str)) with
        | none => return ()
        | some src2 =>
          if !b then
            let arg0 ← evalArg0 c d env
            if !arg0.isEmpty then doOp (.setArg0 q2 arg0)
          callE [] (.src src2 { env with q := q2 })) := by
    intro q2 args
    refine OnlyE.bind (o_split2a hp) fun x => ?_
    split
    split
    · trivial
    · exact OnlyE.bind (o_split2b) fun _ => k4 _ _ _
  unfold evalP
  refine OnlyE.bind (OnlyE.lift ?_) fun q2 => ?_
  · only
  refine OnlyE.bind (OnlyE.lift (only_doOp ha)) fun _ => ?_
  refine OnlyE.bind (OnlyE.lift (only_getSt hp)) fun s => ?_
  dsimp only
  split
  · exact OnlyE.bind (OnlyE.lift (o_addDun hp)) fun _ => k5 _ _
  · exact k5 _ _
theorem o_evalP_eval (hs : K .src) (hn : K .scope) (ha : K .args1) {b : Bool} {c : Str} {d f : List Code} {sp : Nat}
    {g : Bool} {env : Env} : OnlyE K (evalP false b c d f sp g env) :=
  o_evalP hp hs hn ha fun _ _ => onlyE_pure
theorem o_evalP_load (hs : K .src) (hn : K .scope) (ha : K .args1) (hw : K .world) (he : K .emit) (hf : K .file)
    {b : Bool} {c : Str} {d f : List Code} {sp : Nat} {g : Bool} {env : Env} :
    OnlyE K (evalP true b c d f sp g env) :=
  o_evalP hp hs hn ha fun _ _ => o_loadP hp hs hw he hf

/-! Statements that change the world. -/

theorem o_setGo (hv : K .var) {a : Bool} {env : Env} {l : List (List Item)} {st : SetSt} : OnlyE K (setGo a env l st) := by
  induction l generalizing st with
  | nil => trivial
  | cons x l ih => unfold setGo; only <;> exact ih
macro_rules | `(tactic| only_rule) => `(tactic| with_reducible exact o_setGo (by assumption) (by assumption))
theorem o_setP (hv : K .var) {a : Bool} {n v : List Code} {env : Env} : OnlyE K (setP a n v env) := by unfold setP; only
theorem o_defP (hd : K .def_) {sp : Nat} {n v : List Code} {env : Env} : OnlyE K (defP n v sp env) := by unfold defP; only
theorem o_nameP_mod (hn : K .name) (hm : K .mods) {n : List Code} {env : Env} : OnlyE K (nameP true n env) := by
  unfold nameP; only
theorem o_nameP (hn : K .name) {n : List Code} {env : Env} : OnlyE K (nameP false n env) := by
  unfold nameP
  simp only [Bool.false_eq_true, if_false]
  only
theorem o_modFreeGo (hm : K .mods) {l : List Str} {env : Env} : OnlyE K (modFreeGo env l) := by
  induction l with
  | nil => trivial
  | cons x l ih => unfold modFreeGo; only <;> exact ih
macro_rules | `(tactic| only_rule) => `(tactic| with_reducible exact o_modFreeGo (by assumption) (by assumption))
theorem o_loopP (hv : K .var) (hl : K .label) {range : Bool} {codes : List Code} {max : Nat} {useI : Bool} {cnt : Cnt}
    {env : Env} {i : Nat} {hn : Bool} : Only K (loopP range codes max useI cnt env i hn) := by
  have rest : ∀ i : Nat, Only K (
      let hasName := cnt.name.isSome
      let again := callP [] (.loop range codes max useI cnt env i hasName)
      let stop (r : Except Err Unit) : Prog Res := return { has := hasName, r }
      if codes.isEmpty then (if range then stop (.ok ()) else again)
      else do
        let r ← callP [] (.codes codes 0 usizeMax env)
        match r.r with
        | .ok () => if range then stop (.ok ()) else again
        | .error e =>
          if loopTakes range cnt.name e then
            (if e.i = loopBreak range then stop (.ok ()) else again)
          else stop (.error e)) := by
    intro i; only
  unfold loopP
  dsimp only
  generalize (if useI = true then i + 1 else i) = j
  split
  · trivial
  · split
    · refine Only.bind (only_doOp hp) fun _ => Only.bind (only_doOp hv) fun _ => ?_
      by_cases h : (!hn) = true
      · rw [if_pos h]; exact Only.bind (only_doOp hl) fun _ => rest _
      · rw [if_neg h]; exact rest _
    · exact rest _
omit hp in
theorem o_loopP_anon {range : Bool} {codes : List Code} {max : Nat} {useI : Bool} {cnt : Cnt}
    {env : Env} {i : Nat} {hn : Bool} (hc : cnt.name = none) : Only K (loopP range codes max useI cnt env i hn) := by
  have rest : ∀ i : Nat, Only K (
      let hasName := cnt.name.isSome
      let again := callP [] (.loop range codes max useI cnt env i hasName)
      let stop (r : Except Err Unit) : Prog Res := return { has := hasName, r }
      if codes.isEmpty then (if range then stop (.ok ()) else again)
      else do
        let r ← callP [] (.codes codes 0 usizeMax env)
        match r.r with
        | .ok () => if range then stop (.ok ()) else again
        | .error e =>
          if loopTakes range cnt.name e then
            (if e.i = loopBreak range then stop (.ok ()) else again)
          else stop (.error e)) := by
    intro i; only
  unfold loopP
  dsimp only
  generalize (if useI = true then i + 1 else i) = j
  split
  · trivial
  · rw [hc]
    have rest := rest j
    rw [hc] at rest
    exact rest
theorem o_forP (hl : K .label) {range : Bool} {cnt : Cnt} {rems codes : List Code} {env : Env} :
    OnlyE K (forP range cnt rems codes env) := by unfold forP; only
theorem o_printP (he : K .emit) (hn : K .scope) {a : List Code} {env : Env} : OnlyE K (printP a env) := by unfold printP; only
theorem o_execCode (hn : K .scope) {a b : Str} {env : Env} : OnlyE K (execCode a b env) := by unfold execCode; only
macro_rules | `(tactic| only_rule) => `(tactic| with_reducible exact o_execCode (by assumption) (by assumption))
section
variable (he : K .emit) (hr : K .proc)
include he hr
omit hp in
theorem o_writeAll {h : Nat} {l : List Str} : Only K (writeAll h l) := by
  induction l with
  | nil => trivial
  | cons x l ih => unfold writeAll; only <;> exact ih
macro_rules | `(tactic| only_rule) => `(tactic| with_reducible exact o_writeAll (by assumption) (by assumption))
variable (hn : K .scope)
include hn
theorem o_execPipe {h : Nat} {a b : Str} {env : Env} : OnlyE K (execPipe h a b env) := by unfold execPipe; only
macro_rules | `(tactic| only_rule) => `(tactic| with_reducible exact o_execPipe (by assumption) (by assumption) (by assumption) (by assumption))
macro_rules | `(tactic| only_rule) => `(tactic| with_reducible exact OnlyE.run (o_execPipe (by assumption) (by assumption) (by assumption) (by assumption)))
theorem o_slaveStream {h : Nat} {e : Bool} {s b : Str} {env : Env} : Only K (slaveStream h e s b env) := by
  unfold slaveStream; only
macro_rules | `(tactic| only_rule) => `(tactic| with_reducible exact o_slaveStream (by assumption) (by assumption) (by assumption) (by assumption))
theorem o_slaveP {h : Nat} {o e b : Str} {env : Env} : Only K (slaveP h o e b env) := by unfold slaveP; only
omit hr in
theorem o_execLines {src : Str} {env : Env} {l : List (Except Str Str)} : OnlyE K (execLines src env l) := by
  induction l with
  | nil => trivial
  | cons x l ih => cases x <;> (unfold execLines; only) <;> exact ih
macro_rules | `(tactic| only_rule) => `(tactic| with_reducible exact o_execLines (by assumption) (by assumption) (by assumption))
omit hr in
theorem o_execOut {src : Str} {c : Captured} {b : Bool} {env : Env} : OnlyE K (execOut src c b env) := by unfold execOut; only
macro_rules | `(tactic| only_rule) => `(tactic| with_reducible exact o_execOut (by assumption) (by assumption) (by assumption))
theorem o_execRun {o : ExecOpts} {env : Env} : OnlyE K (execRun o env) := by unfold execRun; only
macro_rules | `(tactic| only_rule) => `(tactic| with_reducible exact o_execRun (by assumption) (by assumption) (by assumption) (by assumption))
theorem o_exec2P {v : List Str} {env : Env} : OnlyE K (exec2P v env) := by unfold exec2P; only
macro_rules | `(tactic| only_rule) => `(tactic| with_reducible exact o_exec2P (by assumption) (by assumption) (by assumption) (by assumption))
omit he hn in
theorem o_objWrite {h r : Nat} {l : List Str} : Only K (objWrite h r l) := by
  induction l with
  | nil => trivial
  | cons x l ih => unfold objWrite; only <;> exact ih
macro_rules | `(tactic| only_rule) => `(tactic| with_reducible exact o_objWrite (by assumption) (by assumption))
theorem o_execP {a : List Code} {env : Env} : OnlyE K (execP a env) := by unfold execP; only
end

end

/-! ## All evaluations -/

/-- The kinds of operations an evaluation function may use itself, i.e. apart from the evaluations it calls. -/
def Call.may : Call → Kind → Prop
  | .codes .., _ => False
  | .z2 .., k => k = .plain
  | .z4 .., k => k = .plain ∨ k = .cache ∨ k = .scope
  | .src .., k => k = .plain ∨ k = .cache
  | .loop _ _ _ _ cnt .., k => cnt.name ≠ none ∧ (k = .plain ∨ k = .var ∨ k = .label)
  | .cond .., k => k = .plain
  | .get .., k => k = .plain ∨ k = .args1
  | .slave .., k => k = .plain ∨ k = .emit ∨ k = .proc ∨ k = .scope
  | .item (.for_ ..) _, k => k = .plain ∨ k = .label
  | .item (.args ..) _, k => k = .plain ∨ k = .args1
  | .item (.mod_ _) _, k => k = .plain ∨ k = .name ∨ k = .mods
  | .item (.name _) _, k => k = .plain ∨ k = .name
  | .item (.modFree _) _, k => k = .plain ∨ k = .mods
  | .item (.set_ ..) _, k => k = .plain ∨ k = .var
  | .item (.alias ..) _, k => k = .plain ∨ k = .var
  | .item (.def_ ..) _, k => k = .plain ∨ k = .def_
  | .item (.eval load ..) _, k =>
    k = .plain ∨ k = .scope ∨ k = .args1 ∨ k = .src ∨ (load = true ∧ (k = .world ∨ k = .emit ∨ k = .file))
  | .item (.print _) _, k => k = .plain ∨ k = .emit ∨ k = .scope
  | .item (.exec _) _, k => k = .plain ∨ k = .emit ∨ k = .proc ∨ k = .scope
  | .item _ _, k => k = .plain

theorem only_resE {p : E Unit} (h : OnlyE K p) : Only K (resE p) := Only.bind h fun _ => trivial

theorem only_evalF (c : Call) : Only c.may (evalF c) := by
  cases c with
  | codes a i e env => exact o_codesP
  | z2 a i e env => exact o_z2P (by simp [Call.may])
  | z4 a cs e e2 env st => exact o_z4P (by simp [Call.may]) (by simp [Call.may]) (by simp [Call.may])
  | src t env => exact only_resE (o_srcP (by simp [Call.may]) (by simp [Call.may]))
  | loop range codes max useI cnt env i hn =>
    by_cases h : cnt.name = none
    · exact o_loopP_anon h
    · exact o_loopP (by simp [Call.may, h]) (by simp [Call.may, h]) (by simp [Call.may, h])
  | cond codes env st => exact o_condP (by simp [Call.may])
  | get l h e env => exact only_resE (o_get2P (by simp [Call.may]) (by simp [Call.may]))
  | slave h o e buf env =>
    exact o_slaveP (by simp [Call.may]) (by simp [Call.may]) (by simp [Call.may]) (by simp [Call.may])
  | item c env =>
    refine only_resE ?_
    cases c with
    | for_ range cnt rems codes => exact o_forP (by simp [Call.may]) (by simp [Call.may])
    | mod_ a => exact o_nameP_mod (by simp [Call.may]) (by simp [Call.may]) (by simp [Call.may])
    | name a => exact o_nameP (by simp [Call.may]) (by simp [Call.may])
    | set_ n v => exact o_setP (by simp [Call.may]) (by simp [Call.may])
    | alias n v => exact o_setP (by simp [Call.may]) (by simp [Call.may])
    | def_ n v sp => exact o_defP (by simp [Call.may]) (by simp [Call.may])
    | print a => exact o_printP (by simp [Call.may]) (by simp [Call.may]) (by simp [Call.may])
    | exec a => exact o_execP (by simp [Call.may]) (by simp [Call.may]) (by simp [Call.may]) (by simp [Call.may])
    | eval load b c d f sp g =>
      cases load with
      | false => exact o_evalP_eval (by simp [Call.may]) (by simp [Call.may]) (by simp [Call.may]) (by simp [Call.may])
      | true =>
        exact o_evalP_load (by simp [Call.may]) (by simp [Call.may]) (by simp [Call.may]) (by simp [Call.may])
          (by simp [Call.may]) (by simp [Call.may]) (by simp [Call.may])
    | modFree a =>
      have hp : (Call.item (.modFree a) env).may .plain := by simp [Call.may]
      have hm : (Call.item (.modFree a) env).may .mods := by simp [Call.may]
      dsimp only [itemP]
      only
    | args r b e l =>
      have hp : (Call.item (.args r b e l) env).may .plain := by simp [Call.may]
      have hm : (Call.item (.args r b e l) env).may .args1 := by simp [Call.may]
      dsimp only [itemP]
      only
    | _ =>
      have hp : ∀ k, k = Kind.plain → k = Kind.plain := fun _ h => h
      refine Only.mono (K := fun k => k = .plain) ?_ (fun k h => h)
      have hp : (fun k => k = Kind.plain) Kind.plain := rfl
      dsimp only [itemP]
      refine OnlyE.run ?_
      only

end Zh
