import Verif.Props.Stmts
import Verif.Props.Loops
/-!
# Jumps pass through everything that does not catch them

`Passes` is a statement about the tree of a program, so it holds in every state and for every host:
when a call of the program fails with the error `e` (and is not exempt), the program does nothing more
and ends with that error; and its operations (`O`) do not touch the labels.
-/
namespace Zh

variable {α β : Type}

/-- From the state `s` on the program does nothing more (it may take back a label) and ends with a `b`
that meets `B`. -/
def Ends (B : α → Prop) : Prog α → St → Prop
  | .ret b, _ => B b
  | .op .st k, s => Ends B (k s) s
  | .op .popLabel k, s => Ends B (k ()) { s with labels := s.labels.dropLast }
  | _, _ => False

/-- Which operations and calls a program may contain. -/
structure Allow where
  op : Op → Prop
  call : Call → Prop

/-- See above; `X c s` exempts a call `c` that ended in `s`. -/
def Passes (O : Allow) (e : Err) (X : Call → St → Prop) (B : α → Prop) : Prog α → Prop
  | .ret _ => True
  | .panic => True
  | .op o k => O.op o ∧ ∀ a, Passes O e X B (k a)
  | .call _ c k => O.call c ∧ ∀ r, (r.r = .error e → ∀ s, ¬ X c s → Ends B (k r) s) ∧ Passes O e X B (k r)

/-- The same for programs with `?`. -/
def PassE (O : Allow) (e : Err) (X : Call → St → Prop) (p : E α) : Prop :=
  Passes O e X (fun b => b = .error e) p.run

variable {O : Allow} {e : Err} {X : Call → St → Prop} {B : α → Prop}

theorem Ends.bind {p : Prog α} {f : α → Prog β} {B' : β → Prop} {s : St} (h : Ends B p s)
    (hf : ∀ b, B b → ∀ s, Ends B' (f b) s) : Ends B' (p.bind f) s := by
  induction p generalizing s with
  | ret b => exact hf b h s
  | panic => exact h.elim
  | op o k ih =>
    cases o <;> first | exact h.elim | exact ih _ h
  | call _ c k ih => exact h.elim

theorem Passes.bind' {p : Prog α} {f : α → Prog β} {B' : β → Prop} (h : Passes O e X B p)
    (hb : ∀ b, B b → ∀ s, Ends B' (f b) s) (hf : ∀ a, Passes O e X B' (f a)) : Passes O e X B' (p.bind f) := by
  induction p with
  | ret a => exact hf a
  | panic => trivial
  | op o k ih => exact ⟨h.1, fun a => ih a (h.2 a)⟩
  | call hd c k ih => exact ⟨h.1, fun r => ⟨fun hr s hx => ((h.2 r).1 hr s hx).bind hb, ih r (h.2 r).2⟩⟩

/-- A program none of whose calls may fail with `e`, followed by anything. -/
theorem Passes.bind {p : Prog α} {f : α → Prog β} {B' : β → Prop} (h : Passes O e X (fun _ => False) p)
    (hf : ∀ a, Passes O e X B' (f a)) : Passes O e X B' (p >>= f) :=
  h.bind' (fun _ h _ => h.elim) hf

theorem Passes.mono {O' : Allow} {B' : α → Prop} (hO : ∀ o, O.op o → O'.op o) (hC : ∀ c, O.call c → O'.call c) (hB : ∀ b, B b → B' b) {p : Prog α}
    (h : Passes O e X B p) : Passes O' e X B' p := by
  have ends : ∀ {p : Prog α} {s : St}, Ends B p s → Ends B' p s := by
    intro p s h
    induction p generalizing s with
    | ret b => exact hB b h
    | panic => exact h.elim
    | op o k ih => cases o <;> first | exact h.elim | exact ih _ h
    | call _ c k ih => exact h.elim
  induction p with
  | ret a => trivial
  | panic => trivial
  | op o k ih => exact ⟨hO o h.1, fun a => ih a (h.2 a)⟩
  | call hd c k ih => exact ⟨hC c h.1, fun r => ⟨fun hr s hx => ends ((h.2 r).1 hr s hx), ih r (h.2 r).2⟩⟩

theorem PassE.bind {p : E α} {f : α → E β} (h : PassE O e X p) (hf : ∀ a, PassE O e X (f a)) :
    PassE O e X (p >>= f) := by
  unfold PassE
  change Passes O e X _ (p.run.bind _)
  refine Passes.bind' h ?_ ?_
  · rintro b rfl s; exact rfl
  · intro a
    cases a with
    | ok a => exact hf a
    | error e => trivial

theorem PassE.lift {p : Prog α} (h : Passes O e X (fun _ => False) p) : PassE O e X (liftM p : E α) :=
  Passes.bind' h (fun _ h _ => h.elim) fun _ => trivial

theorem passes_pure {a : α} : Passes O e X B (pure a : Prog α) := trivial
theorem passes_panic : Passes O e X B (Prog.panic : Prog α) := trivial
theorem passE_pure {a : α} : PassE O e X (pure a : E α) := trivial
theorem passE_fail {e' : Err} : PassE O e X (fail e' : E α) := trivial
theorem passE_mk {x : Except Err α} : PassE O e X (ExceptT.mk (pure x) : E α) := trivial
theorem passes_doOp {o : Op} {B : o.Res → Prop} (h : O.op o) : Passes O e X B (doOp o) := ⟨h, fun _ => trivial⟩
theorem passes_ofOut {x : Out α} : Passes O e X B (ofOut x) := by cases x <;> trivial
theorem passE_ofOut {x : Out (Except Err α)} : PassE O e X (ExceptT.mk (ofOut x) : E α) := by cases x <;> trivial
theorem passes_callX {hd : List Held} {c : Call} {B : Res → Prop} (hc : O.call c) (h : ∀ s, X c s) :
    Passes O e X B (callP hd c) :=
  ⟨hc, fun _ => ⟨fun _ s hx => absurd (h s) hx, trivial⟩⟩
theorem passes_callP {hd : List Held} {c : Call} {B : Res → Prop} (hc : O.call c) (h : ∀ r : Res, r.r = .error e → B r) :
    Passes O e X B (callP hd c) :=
  ⟨hc, fun r => ⟨fun hr _ _ => h r hr, trivial⟩⟩
/-- A call whose result is looked at. -/
theorem passes_call {hd : List Held} {c : Call} {f : Res → Prog β} {B : β → Prop} (hc : O.call c)
    (h : ∀ r : Res, r.r = .error e → ∀ s, ¬ X c s → Ends B (f r) s) (hf : ∀ r, Passes O e X B (f r)) :
    Passes O e X B (callP hd c >>= f) :=
  ⟨hc, fun r => ⟨h r, hf r⟩⟩
theorem passE_call {hd : List Held} {c : Call} {f : Res → E β} (hc : O.call c)
    (h : ∀ r : Res, r.r = .error e → ∀ s, ¬ X c s → Ends (fun b => b = .error e) (f r).run s)
    (hf : ∀ r, PassE O e X (f r)) :
    PassE O e X ((callP hd c : Prog Res) >>= f : E β) :=
  ⟨hc, fun r => ⟨h r, hf r⟩⟩
theorem passE_callE {hd : List Held} {c : Call} (hc : O.call c) : PassE O e X (callE hd c) :=
  ⟨hc, fun _ => ⟨fun hr _ _ => hr, trivial⟩⟩
theorem passE_hello {hd : List Held} {a : List Code} {env : Env} (hc : O.call (.codes a 0 usizeMax env)) :
    PassE O e X (hello hd a env) := passE_callE hc

/-- Operations that leave the labels alone. -/
def Op.NoLabel : Op → Prop
  | .pushLabel _ => False
  | .popLabel => False
  | _ => True

/-- The call is evaluated in the scope `q` (or is the evaluation of a source or the look-up of a variable, in whatever scope), and is not
a loop. -/
def Call.Stays (q : Nat) : Call → Prop
  | .codes _ _ _ env => env.q = q
  | .z2 _ _ _ env => env.q = q
  | .z4 _ _ _ _ env _ => env.q = q
  | .item _ env => env.q = q
  | .cond _ env _ => env.q = q
  | .get .. => True
  | .slave _ _ _ _ env => env.q = q
  | .src .. => True
  | .loop .. => False

/-- Programs that leave the labels alone and stay in the scope `q`. -/
def Quiet (q : Nat) : Allow := ⟨Op.NoLabel, Call.Stays q⟩

/-- Rules for `pass`. -/
syntax "pass_rule" : tactic
macro_rules | `(tactic| pass_rule) => `(tactic| exact passes_pure)
macro_rules | `(tactic| pass_rule) => `(tactic| exact passes_panic)
macro_rules | `(tactic| pass_rule) => `(tactic| exact passE_pure)
macro_rules | `(tactic| pass_rule) => `(tactic| exact passE_fail)
macro_rules | `(tactic| pass_rule) => `(tactic| exact passE_mk)
macro_rules | `(tactic| pass_rule) => `(tactic| exact passE_ofOut)
macro_rules | `(tactic| pass_rule) => `(tactic| exact passes_ofOut)
macro_rules | `(tactic| pass_rule) => `(tactic| exact passE_callE (by first | rfl | trivial))
macro_rules | `(tactic| pass_rule) => `(tactic| exact passE_hello rfl)
macro_rules | `(tactic| pass_rule) => `(tactic| exact passes_doOp trivial)
macro_rules | `(tactic| pass_rule) => `(tactic| exact (⟨trivial, fun _ => trivial⟩ : Passes _ _ _ _ getSt))

/-- Walk through a program. -/
macro "pass" : tactic => `(tactic| repeat' (first
  | pass_rule
  | refine PassE.bind ?_ ?_
  | refine PassE.lift ?_
  | refine Passes.bind ?_ ?_
  | split
  | dsimp only
  | intro _))

section
variable (e X) {q0 : Nat}

theorem p_addItem {ret : Nat} {i : Item} {B : Unit → Prop} : Passes (Quiet q0) e X B (addItem ret i) := by unfold addItem; pass
macro_rules | `(tactic| pass_rule) => `(tactic| with_reducible exact p_addItem _ _)
theorem p_addVal {ret : Nat} {v : Val} {r : List Str} {B : Unit → Prop} : Passes (Quiet q0) e X B (addVal ret v r) := by
  unfold addVal; pass
macro_rules | `(tactic| pass_rule) => `(tactic| with_reducible exact p_addVal _ _)
theorem p_addT {ret : Nat} {t : Str} {B : Unit → Prop} : Passes (Quiet q0) e X B (addT ret t) := by unfold addT; pass
macro_rules | `(tactic| pass_rule) => `(tactic| with_reducible exact p_addT _ _)
theorem p_addKwI {ret : Nat} {t : KwId} {B : Unit → Prop} : Passes (Quiet q0) e X B (addKwI ret t) := by unfold addKwI; pass
macro_rules | `(tactic| pass_rule) => `(tactic| with_reducible exact p_addKwI _ _)
theorem p_addDun {ret : Nat} {B : Unit → Prop} : Passes (Quiet q0) e X B (addDun ret) := by unfold addDun; pass
macro_rules | `(tactic| pass_rule) => `(tactic| with_reducible exact p_addDun _ _)
theorem p_addTs {ret : Nat} {l : List Str} {B : Unit → Prop} : Passes (Quiet q0) e X B (addTs ret l) := by
  induction l with
  | nil => trivial
  | cons t ts ih => unfold addTs; refine Passes.bind ?_ ?_ <;> [pass; exact fun _ => ih]
macro_rules | `(tactic| pass_rule) => `(tactic| with_reducible exact p_addTs _ _)
theorem p_getList {r : Nat} {B : RList → Prop} : Passes (Quiet q0) e X B (getList r) := by unfold getList; pass
macro_rules | `(tactic| pass_rule) => `(tactic| with_reducible exact p_getList _ _)
theorem p_helloNew {hd : List Held} {a : List Code} {env : Env} (hq : env.q = q0) : PassE (Quiet q0) e X (helloNew hd a env) := by
  subst hq
  unfold helloNew; pass
macro_rules | `(tactic| pass_rule) => `(tactic| with_reducible exact p_helloNew _ _ rfl)
theorem p_helloVec {a : List Code} {env : Env} (hq : env.q = q0) : PassE (Quiet q0) e X (helloVec a env) := by unfold helloVec; pass
macro_rules | `(tactic| pass_rule) => `(tactic| with_reducible exact p_helloVec _ _ rfl)

theorem p_argiP {i : Int} {h q : Bool} {n : Str} {a r : Nat} {B : Unit → Prop} : Passes (Quiet q0) e X B (argiP i h q n a r) := by
  unfold argiP; pass
macro_rules | `(tactic| pass_rule) => `(tactic| with_reducible exact p_argiP _ _)
theorem p_arg0P {z : Str} {h : Bool} {a r : Nat} {B : Unit → Prop} : Passes (Quiet q0) e X B (arg0P z h a r) := by
  unfold arg0P; pass
macro_rules | `(tactic| pass_rule) => `(tactic| with_reducible exact p_arg0P _ _)
theorem p_argcP {h : Bool} {a r : Nat} {B : Unit → Prop} : Passes (Quiet q0) e X B (argcP h a r) := by
  unfold argcP; pass
macro_rules | `(tactic| pass_rule) => `(tactic| with_reducible exact p_argcP _ _)
theorem p_argsP {h l : Bool} {q : Nat} {b f : Int} {r : Nat} {B : Unit → Prop} : Passes (Quiet q0) e X B (argsP h q b f l r) := by
  unfold argsP; pass
macro_rules | `(tactic| pass_rule) => `(tactic| with_reducible exact p_argsP _ _)
theorem p_getP {n : Str} {a b c d : Bool} {env : Env} {B : _ → Prop} : Passes (Quiet q0) e X B (getP n a b c d env) := by
  unfold getP; pass
macro_rules | `(tactic| pass_rule) => `(tactic| with_reducible exact p_getP _ _)
theorem p_getAliasP {n : Str} {a c : Bool} {b : EquName} {q : Nat} {env : Env} : PassE (Quiet q0) e X (getAliasP n a b c q env) := by
  unfold getAliasP; pass
macro_rules | `(tactic| pass_rule) => `(tactic| with_reducible exact p_getAliasP _ _)
theorem p_getArgs {n : Str} {r : List Str} {a : Bool} {b : EquName} {q : Nat} {env : Env} :
    PassE (Quiet q0) e X (getArgs n r a b q env) := by
  unfold getArgs; pass
macro_rules | `(tactic| pass_rule) => `(tactic| with_reducible exact p_getArgs _ _)
theorem p_get2P {l : List Item} {a : Bool} {b : EquName} {env : Env} : PassE (Quiet q0) e X (get2P l a b env) := by
  unfold get2P; pass
theorem p_var1P {r : List Str} {n : Str} {env : Env} : PassE (Quiet q0) e X (var1P r n env) := by
  unfold var1P; pass
macro_rules | `(tactic| pass_rule) => `(tactic| with_reducible exact p_var1P _ _)
theorem p_simpP {r : List Str} {n : Str} {env : Env} : PassE (Quiet q0) e X (simpP n r env) := by
  unfold simpP; pass
macro_rules | `(tactic| pass_rule) => `(tactic| with_reducible exact p_simpP _ _)
theorem p_remTarget {env : Env} (hq : env.q = q0) {B : Item → Prop} : Passes (Quiet q0) e X B (remTarget env) := by
  subst hq
  unfold remTarget; pass
macro_rules | `(tactic| pass_rule) => `(tactic| with_reducible exact p_remTarget _ _ rfl)
theorem p_remP {r : Nat} {env : Env} (hq : env.q = q0) {B : Unit → Prop} : Passes (Quiet q0) e X B (remP r env) := by
  subst hq
  unfold remP; pass
macro_rules | `(tactic| pass_rule) => `(tactic| with_reducible exact p_remP _ _ rfl)
theorem p_remsP {r : List Code} {env : Env} (hq : env.q = q0) : PassE (Quiet q0) e X (remsP r env) := by
  subst hq
  unfold remsP; pass
macro_rules | `(tactic| pass_rule) => `(tactic| with_reducible exact p_remsP _ _ rfl)
theorem p_split2a {hd : List Held} {a : List Code} {sp : Nat} {env : Env} (hq : env.q = q0) : PassE (Quiet q0) e X (split2a hd a sp env) := by
  subst hq
  unfold split2a; pass
macro_rules | `(tactic| pass_rule) => `(tactic| with_reducible exact p_split2a _ _ rfl)
theorem p_split2b {hd : List Held} {a : List Code} {sp : Nat} {env : Env} (hq : env.q = q0) : PassE (Quiet q0) e X (split2b hd a sp env) := by
  subst hq
  unfold split2b; pass
macro_rules | `(tactic| pass_rule) => `(tactic| with_reducible exact p_split2b _ _ rfl)
theorem p_parseE {src : Str} : PassE (Quiet q0) e X (parseE src) := ⟨trivial, fun _ => trivial⟩
macro_rules | `(tactic| pass_rule) => `(tactic| with_reducible exact p_parseE _ _)
theorem p_returnP {q : Nat} {r : Except Err Unit} : PassE (Quiet q0) e X (returnP q r) := by
  unfold returnP; pass
macro_rules | `(tactic| pass_rule) => `(tactic| with_reducible exact p_returnP _ _)
theorem p_openP {f : Str} {s : Bool} {q : Nat} {B : Bool → Prop} : Passes (Quiet q0) e X B (openP f s q) := by
  unfold openP; pass
macro_rules | `(tactic| pass_rule) => `(tactic| with_reducible exact p_openP _ _)
theorem p_openFirst {f : Str} {s : Bool} {q : Nat} {l : List Str} {B : Bool → Prop} :
    Passes (Quiet q0) e X B (openFirst f s q l) := by
  induction l with
  | nil => trivial
  | cons p ps ih =>
    unfold openFirst
    repeat' (first | with_reducible exact ih | pass_rule | refine Passes.bind ?_ ?_ | split | intro _)
macro_rules | `(tactic| pass_rule) => `(tactic| with_reducible exact p_openFirst _ _)
theorem p_okSrcP {f : Str} {s : Bool} {q : Nat} {B : Bool → Prop} : Passes (Quiet q0) e X B (okSrcP f s q) := by
  unfold okSrcP; pass
macro_rules | `(tactic| pass_rule) => `(tactic| with_reducible exact p_okSrcP _ _)
theorem p_cliArg {a : Nat} {t : Str} {B : Unit → Prop} : Passes (Quiet q0) e X B (cliArg a t) := by
  unfold cliArg; pass
macro_rules | `(tactic| pass_rule) => `(tactic| with_reducible exact p_cliArg _ _)
theorem p_cliActs {q : Nat} {l : List CliAct} {B : Unit → Prop} : Passes (Quiet q0) e X B (cliActs q l) := by
  induction l with
  | nil => trivial
  | cons a l ih =>
    unfold cliActs
    repeat' (first | with_reducible exact ih | pass_rule | refine Passes.bind ?_ ?_ | split | intro _)
macro_rules | `(tactic| pass_rule) => `(tactic| with_reducible exact p_cliActs _ _)
theorem p_shlP {h : Bool} {a : List Str} {B : List Str → Prop} : Passes (Quiet q0) e X B (shlP h a) := by
  unfold shlP; pass
macro_rules | `(tactic| pass_rule) => `(tactic| with_reducible exact p_shlP _ _)
theorem p_clparsP {a : List Str} {b c d f : Bool} {q : Nat} : PassE (Quiet q0) e X (clparsP a b c d f q) := by
  unfold clparsP; pass
macro_rules | `(tactic| pass_rule) => `(tactic| with_reducible exact p_clparsP _ _)
theorem p_src2P {src : Str} {q : Nat} : PassE (Quiet q0) e X (src2P src q) := by
  unfold src2P; pass
macro_rules | `(tactic| pass_rule) => `(tactic| with_reducible exact p_src2P _ _)
theorem p_loadP {src : Str} {a : Bool} {q : Nat} : PassE (Quiet q0) e X (loadP src a q) := by
  unfold loadP; pass
macro_rules | `(tactic| pass_rule) => `(tactic| with_reducible exact p_loadP _ _)
theorem p_evalArg0 {a : Str} {i : List Code} {env : Env} (hq : env.q = q0) : PassE (Quiet q0) e X (evalArg0 a i env) := by
  subst hq
  unfold evalArg0; pass
macro_rules | `(tactic| pass_rule) => `(tactic| with_reducible exact p_evalArg0 _ _ rfl)
theorem p_evalP {a b : Bool} {c : Str} {d f : List Code} {sp : Nat} {g : Bool} {env : Env} (hq : env.q = q0) :
    PassE (Quiet q0) e X (evalP a b c d f sp g env) := by
  subst hq
  have k2 : ∀ (q2 : Nat) (src2 : Str), PassE (Quiet env.q) e X (do
      if !b then
        let arg0 ← evalArg0 c d env
        if !arg0.isEmpty then doOp (.setArg0 q2 arg0)
      callE [] (.src src2 { env with q := q2 })) := by
    intro q2 src2; pass
  have k3 : ∀ (q2 : Nat) (src : Str), PassE (Quiet env.q) e X (do
      match ← (if a then loadP src b q2 else pure (some src) : E (Option Str)) with
      | none => return ()
      | some src2 =>
        if !b then
          let arg0 ← evalArg0 c d env
          if !arg0.isEmpty then doOp (.setArg0 q2 arg0)
        callE [] (.src src2 { env with q := q2 })) := by
    intro q2 src
    refine PassE.bind ?_ fun x => ?_
    · pass
    · split
      · trivial
      · exact k2 _ _
  have k4 : ∀ (q2 args : Nat) (src : Str), PassE (Quiet env.q) e X (do
      let l ← getList args
      if l.a.isEmpty && g then addT args []
      if !b then doOp (.setSrc q2 src)
      match ← (if a then loadP src b q2 else pure (some src) : E (Option Str)) with
      | none => return ()
      | some src2 =>
        if !b then
          let arg0 ← evalArg0 c d env
          if !arg0.isEmpty then doOp (.setArg0 q2 arg0)
        callE [] (.src src2 { env with q := q2 })) := by
    intro q2 args src
    refine PassE.bind (PassE.lift (p_getList e X)) fun l => ?_
    dsimp only
    have k3 := k3 q2 src
    have k6 : ∀ f : PUnit → E Unit, (∀ x, PassE (Quiet env.q) e X (f x)) →
        PassE (Quiet env.q) e X ((addT args [] : Prog _) >>= f) :=
      fun f h => PassE.bind (PassE.lift (p_addT e X)) h
    have k7 : ∀ f : PUnit → E Unit, (∀ x, PassE (Quiet env.q) e X (f x)) →
        PassE (Quiet env.q) e X ((doOp (.setSrc q2 src) : Prog _) >>= f) :=
      fun f h => PassE.bind (PassE.lift (passes_doOp trivial)) h
    have k8 : PassE (Quiet env.q) e X (do
        if !b then doOp (.setSrc q2 src)
        match ← (if a then loadP src b q2 else pure (some src) : E (Option Str)) with
        | none => return ()
        | some src2 =>
          if !b then
            let arg0 ← evalArg0 c d env
            if !arg0.isEmpty then doOp (.setArg0 q2 arg0)
          callE [] (.src src2 { env with q := q2 })) := by
      by_cases hb : (!b) = true
      · dsimp only
        rw [if_pos hb]
        exact k7 _ fun _ => k3
      · dsimp only
        rw [if_neg hb]
        exact k3
    by_cases hl : (l.a.isEmpty && g) = true
    · rw [if_pos hl]
      exact k6 _ fun _ => k8
    · rw [if_neg hl]
      exact k8
  have k5 : ∀ (q2 args : Nat), PassE (Quiet env.q) e X (do
      let (src, rems) ← split2a [.scope q2] f sp { env with ret := args }
      match rems with
      | r :: _ => fail (errNoRem2 r)
      | [] =>
        split2b [.scope q2] f sp { env with ret := args }
        let l ← getList args
        if l.a.isEmpty && g then addT args []
        if !b then doOp (.setSrc q2 src)
        match ← (if a then loadP src b q2 else pure (some src) : E (Option Str)) with
        | none => return ()
        | some src2 =>
          if !b then
            let arg0 ← evalArg0 c d env
            if !arg0.isEmpty then doOp (.setArg0 q2 arg0)
          callE [] (.src src2 { env with q := q2 })) := by
    intro q2 args
    refine PassE.bind (p_split2a e X rfl) fun x => ?_
    split
    split
    · trivial
    · exact PassE.bind (p_split2b e X rfl) fun _ => k4 _ _ _
  unfold evalP
  refine PassE.bind (PassE.lift ?_) fun q2 => ?_
  · pass
  refine PassE.bind (PassE.lift (passes_doOp trivial)) fun _ => ?_
  refine PassE.bind (PassE.lift ⟨trivial, fun _ => trivial⟩) fun s => ?_
  dsimp only
  split
  · exact PassE.bind (PassE.lift (p_addDun e X)) fun _ => k5 _ _
  · exact k5 _ _
macro_rules | `(tactic| pass_rule) => `(tactic| with_reducible exact p_evalP _ _ rfl)
theorem p_setJie {r : Nat} {n : Str} {v : Item} {l : Str} {c : Nat} : PassE (Quiet q0) e X (setJie r n v l c) := by
  induction l generalizing c with
  | nil => trivial
  | cons a l ih =>
    unfold setJie
    repeat' (first | with_reducible exact ih | pass_rule | refine PassE.bind ?_ ?_ | refine PassE.lift ?_ | split | intro _)
macro_rules | `(tactic| pass_rule) => `(tactic| with_reducible exact p_setJie _ _)
theorem p_setGo {a : Bool} {env : Env} (hq : env.q = q0) {l : List (List Item)} {st : SetSt} : PassE (Quiet q0) e X (setGo a env l st) := by
  subst hq
  induction l generalizing st with
  | nil => trivial
  | cons g l ih =>
    unfold setGo
    repeat' (first | with_reducible exact ih | pass_rule | refine PassE.bind ?_ ?_ | refine PassE.lift ?_ | split | intro _)
macro_rules | `(tactic| pass_rule) => `(tactic| with_reducible exact p_setGo _ _ rfl)
theorem p_setP {a : Bool} {n v : List Code} {env : Env} (hq : env.q = q0) : PassE (Quiet q0) e X (setP a n v env) := by
  subst hq
  unfold setP; pass
macro_rules | `(tactic| pass_rule) => `(tactic| with_reducible exact p_setP _ _ rfl)
theorem p_defP {sp : Nat} {n v : List Code} {env : Env} (hq : env.q = q0) : PassE (Quiet q0) e X (defP n v sp env) := by
  subst hq
  unfold defP; pass
macro_rules | `(tactic| pass_rule) => `(tactic| with_reducible exact p_defP _ _ rfl)
theorem p_nameP {a : Bool} {n : List Code} {env : Env} (hq : env.q = q0) : PassE (Quiet q0) e X (nameP a n env) := by
  subst hq
  unfold nameP; pass
macro_rules | `(tactic| pass_rule) => `(tactic| with_reducible exact p_nameP _ _ rfl)
theorem p_modFreeGo {l : List Str} {env : Env} (hq : env.q = q0) : PassE (Quiet q0) e X (modFreeGo env l) := by
  subst hq
  induction l with
  | nil => trivial
  | cons g l ih =>
    unfold modFreeGo
    repeat' (first | with_reducible exact ih | pass_rule | refine PassE.bind ?_ ?_ | refine PassE.lift ?_ | split | dsimp only | intro _)
macro_rules | `(tactic| pass_rule) => `(tactic| with_reducible exact p_modFreeGo _ _ rfl)
theorem p_switchHits {c : List Code} {t : Str} {l : List (Nat × Nat)} {env : Env} (hq : env.q = q0) : PassE (Quiet q0) e X (switchHits c t env l) := by
  subst hq
  induction l with
  | nil => trivial
  | cons g l ih =>
    unfold switchHits
    repeat' (first | with_reducible exact ih | pass_rule | refine PassE.bind ?_ ?_ | refine PassE.lift ?_ | split | intro _)
macro_rules | `(tactic| pass_rule) => `(tactic| with_reducible exact p_switchHits _ _ rfl)
theorem p_switchRun {c : List Code} {l : List (Nat × Nat)} {env : Env} (hq : env.q = q0) : PassE (Quiet q0) e X (switchRun c env l) := by
  subst hq
  induction l with
  | nil => trivial
  | cons g l ih =>
    unfold switchRun
    repeat' (first | with_reducible exact ih | pass_rule | refine PassE.bind ?_ ?_ | refine PassE.lift ?_ | split | intro _)
macro_rules | `(tactic| pass_rule) => `(tactic| with_reducible exact p_switchRun _ _ rfl)
theorem p_switchP {o : Bool} {a c : List Code} {f : List (Nat × Nat)} {d : Option Nat} {env : Env} (hq : env.q = q0) :
    PassE (Quiet q0) e X (switchP o a c f d env) := by
  subst hq
  unfold switchP; pass
macro_rules | `(tactic| pass_rule) => `(tactic| with_reducible exact p_switchP _ _ rfl)
theorem p_jumpP {k : JumpKind} {a : List Code} {env : Env} (hq : env.q = q0) : PassE (Quiet q0) e X (jumpP k a env) := by
  subst hq
  unfold jumpP; pass
macro_rules | `(tactic| pass_rule) => `(tactic| with_reducible exact p_jumpP _ _ rfl)
theorem p_jieP {r a : List Code} {env : Env} (hq : env.q = q0) : PassE (Quiet q0) e X (jieP r a env) := by
  subst hq
  unfold jieP; pass
macro_rules | `(tactic| pass_rule) => `(tactic| with_reducible exact p_jieP _ _ rfl)
theorem p_printJie {r : Nat} {t l : Str} : PassE (Quiet q0) e X (printJie r t l) := by
  induction l with
  | nil => trivial
  | cons g l ih =>
    unfold printJie
    repeat' (first | with_reducible exact ih | pass_rule | refine PassE.bind ?_ ?_ | refine PassE.lift ?_ | split | intro _)
macro_rules | `(tactic| pass_rule) => `(tactic| with_reducible exact p_printJie _ _)
theorem p_printP {a : List Code} {env : Env} (hq : env.q = q0) : PassE (Quiet q0) e X (printP a env) := by
  subst hq
  unfold printP; pass
macro_rules | `(tactic| pass_rule) => `(tactic| with_reducible exact p_printP _ _ rfl)
theorem p_explP {a : List Code} {env : Env} (hq : env.q = q0) : PassE (Quiet q0) e X (explP a env) := by
  subst hq
  unfold explP; pass
macro_rules | `(tactic| pass_rule) => `(tactic| with_reducible exact p_explP _ _ rfl)
theorem p_exitcodeP {c : Option Int} {r : Nat} {B : Unit → Prop} : Passes (Quiet q0) e X B (exitcodeP c r) := by
  unfold exitcodeP; pass
macro_rules | `(tactic| pass_rule) => `(tactic| with_reducible exact p_exitcodeP _ _)
theorem p_execErr {c : Str} {r : Nat} {B : Unit → Prop} : Passes (Quiet q0) e X B (execErr c r) := by
  unfold execErr; pass
macro_rules | `(tactic| pass_rule) => `(tactic| with_reducible exact p_execErr _ _)
theorem p_execCode {a b : Str} {env : Env} (hq : env.q = q0) : PassE (Quiet q0) e X (execCode a b env) := by
  subst hq
  unfold execCode; pass
macro_rules | `(tactic| pass_rule) => `(tactic| with_reducible exact p_execCode _ _ rfl)
theorem p_writeAll {h : Nat} {l : List Str} {B : Unit → Prop} : Passes (Quiet q0) e X B (writeAll h l) := by
  induction l with
  | nil => trivial
  | cons a l ih =>
    unfold writeAll
    repeat' (first | with_reducible exact ih | pass_rule | refine Passes.bind ?_ ?_ | split | intro _)
macro_rules | `(tactic| pass_rule) => `(tactic| with_reducible exact p_writeAll _ _)
theorem p_execPipe {h : Nat} {a b : Str} {env : Env} (hq : env.q = q0) : PassE (Quiet q0) e X (execPipe h a b env) := by
  subst hq
  unfold execPipe; pass
macro_rules | `(tactic| pass_rule) => `(tactic| with_reducible exact p_execPipe _ _ rfl)
theorem p_execLines {src : Str} {env : Env} (hq : env.q = q0) {l : List (Except Str Str)} : PassE (Quiet q0) e X (execLines src env l) := by
  subst hq
  induction l with
  | nil => trivial
  | cons g l ih =>
    cases g with
    | ok t => unfold execLines; repeat' (first | with_reducible exact ih | pass_rule | refine PassE.bind ?_ ?_ | refine PassE.lift ?_ | intro _)
    | error t => unfold execLines; repeat' (first | with_reducible exact ih | pass_rule | refine PassE.bind ?_ ?_ | refine PassE.lift ?_ | intro _)
macro_rules | `(tactic| pass_rule) => `(tactic| with_reducible exact p_execLines _ _ rfl)
theorem p_execOut {src : Str} {c : Captured} {b : Bool} {env : Env} (hq : env.q = q0) : PassE (Quiet q0) e X (execOut src c b env) := by
  subst hq
  unfold execOut; pass
macro_rules | `(tactic| pass_rule) => `(tactic| with_reducible exact p_execOut _ _ rfl)
theorem p_objWrite {h r : Nat} {l : List Str} {B : Unit → Prop} : Passes (Quiet q0) e X B (objWrite h r l) := by
  induction l with
  | nil => trivial
  | cons a l ih =>
    unfold objWrite
    repeat' (first | with_reducible exact ih | pass_rule | refine Passes.bind ?_ ?_ | split | intro _)
macro_rules | `(tactic| pass_rule) => `(tactic| with_reducible exact p_objWrite _ _)

end

end Zh
