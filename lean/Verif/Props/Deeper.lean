import Verif.Props.Endless
/-!
# C86: what is endless in an endless chain
-/
namespace Zh
open Spec

/-- The evaluations that a chain can only be endless with: a text is run, definitions are looked for in a word, a name is followed, the output
of a process is read, or a loop that does not count makes a turn. -/
def Spec.Again : Call → Prop
  | .src .. | .z4 .. | .get .. | .slave .. => True
  | .loop _ _ _ useI _ _ _ _ => useI = false
  | _ => False

namespace Deep

variable {α β : Type} {m : Nat × Nat × Nat}

/-- The size of a call. -/
noncomputable def rank : Call → Nat × Nat × Nat
  | .src .. => (1, 0, 0)
  | .codes a _ _ _ => (0, 10 * sizeOf a + 1, 0)
  | .z2 a i _ _ => (0, 10 * sizeOf a, a.length - i)
  | .z4 .. => (1, 0, 0)
  | .item c _ => (0, 10 * sizeOf c, 0)
  | .loop _ a m _ _ _ i _ => (0, 10 * sizeOf a + 2, m - i)
  | .cond a _ st => (0, 10 * sizeOf a + 2, a.length - st.idx)
  | .get .. | .slave .. => (0, 0, 0)

/-- Positions do not go back. -/
def After : Call → Res → Prop
  | .z4 _ _ _ _ _ st, r => r.r = .ok () → st.idx ≤ r.idx ∧ (st.has = true ∨ r.has = true → st.idx < r.idx)
  | .z2 _ i _ _, r => r.r = .ok () → i ≤ r.idx
  | _, _ => True

/-- The calls the program makes are smaller than `m` or as in `Again`. -/
def Df (m : Nat × Nat × Nat) : Prog α → (α → Prop) → Prop
  | .ret a, Q => Q a
  | .panic, _ => True
  | .op _ k, Q => ∀ r, Df m (k r) Q
  | .call _ c k, Q => (Again c ∨ Less (rank c) m) ∧ ∀ r, After c r → Df m (k r) Q

abbrev D (m : Nat × Nat × Nat) (p : Prog α) : Prop := Df m p fun _ => True
abbrev DE (m : Nat × Nat × Nat) (p : E α) : Prop := D m p.run

theorem Df.op {o : Op} {k : o.Res → Prog α} {Q : α → Prop} (h : ∀ r, Df m (k r) Q) : Df m (.op o k) Q := by
  exact h

theorem Df.bind {p : Prog α} {f : α → Prog β} {Q : α → Prop} {R : β → Prop} (h : Df m p Q) (hf : ∀ a, Q a → Df m (f a) R) :
    Df m (p >>= f) R := by
  change Df m (p.bind f) R
  induction p with
  | ret a => exact hf a h
  | panic => trivial
  | op o k ih => exact fun a => ih a (h a)
  | call hd c k ih => exact ⟨h.1, fun r hr => ih r (h.2 r hr)⟩

theorem Df.mono {p : Prog α} {Q R : α → Prop} (h : Df m p Q) (hq : ∀ a, Q a → R a) : Df m p R := by
  induction p with
  | ret a => exact hq a h
  | panic => trivial
  | op o k ih => exact fun a => ih a (h a)
  | call hd c k ih => exact ⟨h.1, fun r hr => ih r (h.2 r hr)⟩

theorem D.bind {p : Prog α} {f : α → Prog β} {R : β → Prop} (h : D m p) (hf : ∀ a, Df m (f a) R) : Df m (p >>= f) R :=
  Df.bind h fun a _ => hf a

theorem DE.bindQ {p : E α} {f : α → E β} {Q : Except Err α → Prop} (h : Df m p.run Q) (hf : ∀ a, Q (.ok a) → DE m (f a)) :
    DE m (p >>= f) := by
  change D m (p.run >>= _)
  refine Df.bind h fun a ha => ?_
  cases a with
  | ok a => exact hf a ha
  | error e => trivial

theorem DE.bind {p : E α} {f : α → E β} (h : DE m p) (hf : ∀ a, DE m (f a)) : DE m (p >>= f) := DE.bindQ h fun a _ => hf a

theorem Df.lift {p : Prog α} {Q : α → Prop} (h : Df m p Q) : Df m (liftM p : E α).run fun r => ∀ y, r = .ok y → Q y :=
  Df.bind h fun _ ha _ hy => by cases hy; exact ha
theorem DE.lift {p : Prog α} (h : D m p) : DE m (liftM p : E α) := D.bind h fun _ => trivial
theorem DE.lift' {p : Prog α} (h : D m p) : DE m (ExceptT.lift p : E α) := D.bind h fun _ => trivial
theorem d_ofOut {x : Out α} : D m (ofOut x) := by cases x <;> trivial
theorem dE_mkOut {x : Out (Except Err α)} : DE m (ExceptT.mk (ofOut x)) := d_ofOut
theorem d_pure {a : α} : D m (pure a : Prog α) := trivial
theorem d_pureQ {a : α} {Q : α → Prop} (h : Q a) : Df m (pure a : Prog α) Q := h
theorem d_panic : D m (Prog.panic : Prog α) := trivial
theorem dE_panic : DE m (Prog.panic : Prog (Except Err α)) := trivial
theorem dE_pure {a : α} : DE m (pure a : E α) := trivial
theorem dE_fail {e' : Err} : DE m (fail e' : E α) := trivial
theorem dE_mk {x : Except Err α} : DE m (ExceptT.mk (pure x) : E α) := trivial
theorem d_doOp {o : Op} : D m (doOp o) := Df.op fun _ => trivial
theorem d_getSt : D m getSt := fun _ => trivial
theorem d_getSt_bind {f : St → Prog β} {R : β → Prop} (hf : ∀ s, Df m (f s) R) : Df m (getSt >>= f) R := hf
theorem dE_getSt_bind {f : St → E β} (hf : ∀ s, DE m (f s)) : DE m ((liftM getSt : E St) >>= f) := hf
theorem d_free {hd : List Held} {c : Call} (h : Again c) : D m (callP hd c) := ⟨.inl h, fun _ _ => trivial⟩
theorem d_freeQ {hd : List Held} {c : Call} (h : Again c) : Df m (callP hd c) (After c) := ⟨.inl h, fun _ h => h⟩
theorem dE_free {hd : List Held} {c : Call} (h : Again c) : DE m (callE hd c) := ⟨.inl h, fun _ _ => trivial⟩
theorem d_callP {hd : List Held} {c : Call} (_ : True) (h : Less (rank c) m) : D m (callP hd c) := ⟨.inr h, fun _ _ => trivial⟩
theorem d_callQ {hd : List Held} {c : Call} (_ : True) (h : Less (rank c) m) : Df m (callP hd c) (After c) := ⟨.inr h, fun _ h => h⟩
theorem dE_callE {hd : List Held} {c : Call} (_ : True) (h : Less (rank c) m) : DE m (callE hd c) := ⟨.inr h, fun _ _ => trivial⟩

/-- The code may be evaluated. -/
abbrev Room (m : Nat × Nat × Nat) (a : List Code) : Prop := Less (0, 10 * sizeOf a + 1, 0) m

theorem dE_hello {hd : List Held} {a : List Code} {env : Env} (h : Room m a) : DE m (hello hd a env) := dE_callE (c := .codes ..) trivial h
theorem d_codes {hd : List Held} {a : List Code} {i e : Nat} {env : Env} (h : Room m a) : D m (callP hd (.codes a i e env)) :=
  d_callP (c := .codes ..) trivial h
theorem dE_codes {hd : List Held} {a : List Code} {i e : Nat} {env : Env} (h : Room m a) : DE m (callE hd (.codes a i e env)) :=
  dE_callE (c := .codes ..) trivial h

syntax "deep_rule" : tactic
macro_rules | `(tactic| deep_rule) => `(tactic| with_reducible exact d_pure)
macro_rules | `(tactic| deep_rule) => `(tactic| with_reducible exact d_panic)
macro_rules | `(tactic| deep_rule) => `(tactic| with_reducible exact dE_panic)
macro_rules | `(tactic| deep_rule) => `(tactic| with_reducible exact dE_pure)
macro_rules | `(tactic| deep_rule) => `(tactic| with_reducible exact dE_fail)
macro_rules | `(tactic| deep_rule) => `(tactic| with_reducible exact dE_mk)
macro_rules | `(tactic| deep_rule) => `(tactic| with_reducible exact dE_mkOut)
macro_rules | `(tactic| deep_rule) => `(tactic| with_reducible exact d_ofOut)
macro_rules | `(tactic| deep_rule) => `(tactic| ((with_reducible refine dE_hello ?_) <;> assumption))
macro_rules | `(tactic| deep_rule) => `(tactic| ((with_reducible refine d_codes ?_) <;> assumption))
macro_rules | `(tactic| deep_rule) => `(tactic| ((with_reducible refine dE_codes ?_) <;> assumption))
macro_rules | `(tactic| deep_rule) => `(tactic| with_reducible exact d_doOp)
macro_rules | `(tactic| deep_rule) => `(tactic| with_reducible exact d_getSt)

macro "deep" : tactic => `(tactic| repeat' (first
  | deep_rule
  | with_reducible refine dE_getSt_bind ?_
  | with_reducible refine d_getSt_bind ?_
  | with_reducible refine DE.bind ?_ ?_
  | with_reducible refine DE.lift ?_
  | with_reducible refine DE.lift' ?_
  | with_reducible refine D.bind ?_ ?_
  | split
  | dsimp only
  | intro _))

theorem g_addItem {ret : Nat} {i : Item} : D m (addItem ret i) := by unfold addItem; deep
macro_rules | `(tactic| deep_rule) => `(tactic| with_reducible exact g_addItem)
theorem g_addVal {ret : Nat} {v : Val} {r : List Str} : D m (addVal ret v r) := by unfold addVal; deep
macro_rules | `(tactic| deep_rule) => `(tactic| with_reducible exact g_addVal)
theorem g_addT {ret : Nat} {t : Str} : D m (addT ret t) := by unfold addT; deep
macro_rules | `(tactic| deep_rule) => `(tactic| with_reducible exact g_addT)
theorem g_addKwI {ret : Nat} {t : KwId} : D m (addKwI ret t) := by unfold addKwI; deep
macro_rules | `(tactic| deep_rule) => `(tactic| with_reducible exact g_addKwI)
theorem g_addDun {ret : Nat} : D m (addDun ret) := by unfold addDun; deep
macro_rules | `(tactic| deep_rule) => `(tactic| with_reducible exact g_addDun)
theorem g_addTs {ret : Nat} {l : List Str} : D m (addTs ret l) := by
  induction l with
  | nil => trivial
  | cons t ts ih => unfold addTs; exact D.bind g_addT fun _ => ih
macro_rules | `(tactic| deep_rule) => `(tactic| with_reducible exact g_addTs)
theorem g_getList {r : Nat} : D m (getList r) := by unfold getList; deep
macro_rules | `(tactic| deep_rule) => `(tactic| with_reducible exact g_getList)
theorem g_helloNew {hd : List Held} {a : List Code} {env : Env} (h : Room m a) : DE m (helloNew hd a env) := by unfold helloNew; deep
macro_rules | `(tactic| deep_rule) => `(tactic| with_reducible exact g_helloNew (by assumption))
theorem g_helloVec {a : List Code} {env : Env} (h : Room m a) : DE m (helloVec a env) := by unfold helloVec; deep
macro_rules | `(tactic| deep_rule) => `(tactic| with_reducible exact g_helloVec (by assumption))

/-! ## Variables and arguments -/

theorem g_argiP {i : Int} {isHas equ : Bool} {name : Str} {q ret : Nat} : D m (argiP i isHas equ name q ret) := by unfold argiP; deep
macro_rules | `(tactic| deep_rule) => `(tactic| with_reducible exact g_argiP)
theorem g_arg0P {z : Str} {isHas : Bool} {q ret : Nat} : D m (arg0P z isHas q ret) := by unfold arg0P; deep
macro_rules | `(tactic| deep_rule) => `(tactic| with_reducible exact g_arg0P)
theorem g_argcP {isHas : Bool} {q ret : Nat} : D m (argcP isHas q ret) := by unfold argcP; deep
macro_rules | `(tactic| deep_rule) => `(tactic| with_reducible exact g_argcP)
theorem g_argsP {isHas : Bool} {q : Nat} {b e : Int} {line : Bool} {ret : Nat} : D m (argsP isHas q b e line ret) := by unfold argsP; deep
macro_rules | `(tactic| deep_rule) => `(tactic| with_reducible exact g_argsP)

macro_rules | `(tactic| deep_rule) => `(tactic| with_reducible exact g_getAliasP)
theorem dE_get {hd : List Held} {l : List Item} {b : Bool} {e : EquName} {env : Env} : DE m (callE hd (.get l b e env)) :=
  dE_free (c := .get ..) trivial
macro_rules | `(tactic| deep_rule) => `(tactic| with_reducible exact dE_get)
theorem dE_src {hd : List Held} {t : Str} {env : Env} : DE m (callE hd (.src t env)) := dE_free (c := .src ..) trivial
macro_rules | `(tactic| deep_rule) => `(tactic| with_reducible exact dE_src)
theorem g_getP {name : Str} {isHas equ canUp noSelf : Bool} {env : Env} : D m (getP name isHas equ canUp noSelf env) := by unfold getP; deep
macro_rules | `(tactic| deep_rule) => `(tactic| with_reducible exact g_getP)
theorem g_getAliasP {name : Str} {isHas : Bool} {equ : EquName} {canUp : Bool} {q2 : Nat} {env : Env} :
    DE m (getAliasP name isHas equ canUp q2 env) := by unfold getAliasP; deep
macro_rules | `(tactic| deep_rule) => `(tactic| with_reducible exact g_getAliasP)
theorem g_getArgs {name : Str} {rems : List Str} {isHas : Bool} {equ : EquName} {q2 : Nat} {env : Env} :
    DE m (getArgs name rems isHas equ q2 env) := by
  unfold getArgs; deep
macro_rules | `(tactic| deep_rule) => `(tactic| with_reducible exact g_getArgs)
theorem g_get2P {l : List Item} {isHas : Bool} {equ : EquName} {env : Env} :
    DE m (get2P l isHas equ env) := by unfold get2P; deep
theorem g_var1P {rems : List Str} {name : Str} {env : Env} : DE m (var1P rems name env) := by unfold var1P; deep
macro_rules | `(tactic| deep_rule) => `(tactic| with_reducible exact g_var1P)
theorem g_simpP {name : Str} {rems : List Str} {env : Env} : DE m (simpP name rems env) := by unfold simpP; deep
theorem g_remTarget {env : Env} : D m (remTarget env) := by unfold remTarget; deep
macro_rules | `(tactic| deep_rule) => `(tactic| with_reducible exact g_remTarget)
theorem g_remP {r2 : Nat} {env : Env} : D m (remP r2 env) := by unfold remP; deep
macro_rules | `(tactic| deep_rule) => `(tactic| with_reducible exact g_remP)
theorem g_remsP {rems : List Code} {env : Env} (h : Room m rems) : DE m (remsP rems env) := by unfold remsP; deep
macro_rules | `(tactic| deep_rule) => `(tactic| with_reducible exact g_remsP (by assumption))

/-! ## Statement lists -/

theorem g_codesP {a : List Code} {i e : Nat} {env : Env} : D (rank (.codes a i e env)) (codesP a i e env) := by
  unfold codesP
  refine D.bind (d_callP (c := .z2 ..) trivial (.inr ⟨rfl, .inl (Nat.lt_succ_self _)⟩)) fun r => ?_
  deep

theorem g_z2Item {a : List Code} {i k e : Nat} {env : Env} {c : Code} (hc : a[i]? = some c) (hk : i ≤ k) :
    D (0, 10 * sizeOf a, a.length - i) (z2Item a k e env c) := by
  unfold z2Item
  have h1 : sizeOf c < sizeOf a := List.sizeOf_lt_of_mem (List.mem_of_getElem? hc)
  have h2 : i < a.length := (List.getElem?_eq_some_iff.1 hc).1
  refine D.bind (d_callP (c := .item ..) trivial (.inr ⟨rfl, .inl (by dsimp only [rank]; omega)⟩)) fun r => ?_
  split
  · exact d_callP (c := .z2 ..) trivial (.inr ⟨rfl, .inr ⟨rfl, by dsimp only [rank]; omega⟩⟩)
  · trivial

theorem g_returnP {q : Nat} {r : Except Err Unit} : DE m (returnP q r) := by unfold returnP; deep
macro_rules | `(tactic| deep_rule) => `(tactic| with_reducible exact g_returnP)

/-! ## Statements -/

theorem g_setJie {ret : Nat} {name : Str} {v : Item} {s : Str} {n : Nat} : DE m (setJie ret name v s n) := by
  induction s generalizing n with
  | nil => trivial
  | cons c cs ih => unfold setJie; deep <;> exact ih
macro_rules | `(tactic| deep_rule) => `(tactic| with_reducible exact g_setJie)
theorem g_setGo {b : Bool} {env : Env} {gs : List (List Item)} {st : SetSt} : DE m (setGo b env gs st) := by
  induction gs generalizing st with
  | nil => trivial
  | cons g gs ih =>
    unfold setGo
    refine DE.bind (DE.lift d_getSt) fun s => DE.bind dE_mkOut fun x => DE.bind (DE.lift ?_) fun v => ?_
    · deep
    · split
      · exact DE.lift d_panic
      · exact DE.bind (DE.lift d_doOp) fun _ => DE.bind g_setJie fun _ => ih
macro_rules | `(tactic| deep_rule) => `(tactic| with_reducible exact g_setGo)
theorem g_setP {b : Bool} {n v : List Code} {env : Env} (hn : Room m n) (hv : Room m v) : DE m (setP b n v env) := by unfold setP; deep
theorem g_nameP {b : Bool} {a : List Code} {env : Env} (h : Room m a) : DE m (nameP b a env) := by unfold nameP; deep
theorem g_switchHits {case : List Code} {t : Str} {env : Env} {bs : List (Nat × Nat)} (h : Room m case) :
    DE m (switchHits case t env bs) := by
  induction bs with
  | nil => trivial
  | cons b bs ih =>
    obtain ⟨i, k⟩ := b
    unfold switchHits
    exact DE.bind (DE.lift d_doOp) fun r => DE.bind (dE_codes h) fun _ => DE.bind (DE.lift g_getList) fun l => DE.bind ih fun _ => trivial
macro_rules | `(tactic| deep_rule) => `(tactic| with_reducible exact g_switchHits (by assumption))
theorem g_switchRun {case : List Code} {env : Env} {bs : List (Nat × Nat)} (h : Room m case) : DE m (switchRun case env bs) := by
  induction bs with
  | nil => trivial
  | cons b bs ih => unfold switchRun; exact DE.bind (dE_codes h) fun _ => ih
macro_rules | `(tactic| deep_rule) => `(tactic| with_reducible exact g_switchRun (by assumption))
theorem g_switchP {one : Bool} {a case : List Code} {bs : List (Nat × Nat)} {d : Option Nat} {env : Env} (ha : Room m a)
    (hc : Room m case) : DE m (switchP one a case bs d env) := by unfold switchP; deep
theorem g_condMv {b : Bool} {a : List Code} {env : Env} {st : CondSt} (h : Room m a) :
    Df m (condMv b a env st) fun r => r.2.idx = st.idx := by
  unfold condMv
  refine D.bind (d_codes h) fun r => ?_
  split
  · rfl
  · exact D.bind g_getList fun _ => D.bind d_doOp fun _ => rfl
theorem g_condCmp {a : List Code} {env : Env} {st : CondSt} (h : Room m a) : Df m (condCmp a env st) fun r => r.2.idx = st.idx := by
  unfold condCmp
  split
  · rfl
  · refine Df.bind (g_condMv h) fun r hr => ?_
    split
    · exact hr
    · exact D.bind d_doOp fun _ => hr

theorem g_condP {a : List Code} {env : Env} {st : CondSt} : D (rank (.cond a env st)) (condP a env st) := by
  have room : Room (rank (.cond a env st)) a := .inr ⟨rfl, .inl (Nat.lt_succ_self _)⟩
  unfold condP
  split
  · refine Df.bind (g_condCmp room) fun r _ => ?_
    split
    split <;> trivial
  · rename_i c hc
    have hlt : st.idx < a.length := (List.getElem?_eq_some_iff.1 hc).1
    have again : ∀ st' : CondSt, st.idx < st'.idx → D (rank (.cond a env st)) (callP [] (.cond a env st')) := fun st' h =>
      d_callP (c := .cond ..) trivial (.inr ⟨rfl, .inr ⟨rfl, by dsimp only [rank]; omega⟩⟩)
    split
    · rename_i b
      have h1 : sizeOf (Code.block b) < sizeOf a := List.sizeOf_lt_of_mem (List.mem_of_getElem? hc)
      have h2 : sizeOf b < sizeOf a := by simp at h1; omega
      refine D.bind d_doOp fun r3 => D.bind (d_callP (c := .cond ..) trivial (.inr ⟨rfl, .inl (by dsimp only [rank]; omega)⟩)) fun r => ?_
      dsimp only
      split
      · split
        · exact again _ (Nat.lt_succ_self _)
        · trivial
      · exact again _ (Nat.lt_succ_self _)
    · split
      · refine Df.bind (g_condCmp room) fun r hr => ?_
        obtain ⟨r, st2⟩ := r
        have hr : st2.idx = st.idx := hr
        dsimp only
        split
        · trivial
        · split
          · trivial
          · split
            · refine again _ ?_
              dsimp only
              rw [hr]
              exact nextOr_lt _ _
            · refine again _ ?_
              dsimp only
              omega
      · split
        · exact again _ (Nat.lt_succ_self _)
        · split
          · refine Df.bind (g_condMv room) fun r hr => ?_
            obtain ⟨r, st2⟩ := r
            have hr : st2.idx = st.idx := hr
            dsimp only
            split
            · trivial
            · refine again _ ?_
              dsimp only
              omega
          · exact again _ (Nat.lt_succ_self _)

theorem g_ifP {a th el : List Code} {env : Env} (h : ∀ k, Less (0, 10 * sizeOf a + 2, k) m) (h2 : Room m th) (h3 : Room m el) :
    DE m (ifP a th el env) := by
  unfold ifP
  refine DE.bind (DE.lift d_doOp) fun r2 => DE.bind (DE.lift (d_callP (c := .cond ..) trivial (h _))) fun r => ?_
  deep

theorem g_loopP {r : Bool} {a : List Code} {mx : Nat} {cnt : Cnt} {env : Env} {i : Nat} {n : Bool} :
    D (rank (.loop r a mx true cnt env i n)) (loopP r a mx true cnt env i n) := by
  have room : Room (rank (.loop r a mx true cnt env i n)) a := .inr ⟨rfl, .inl (Nat.lt_succ_self _)⟩
  simp only [loopP, if_true, Bool.true_and]
  split
  · trivial
  · rename_i hle
    have hle : i + 1 ≤ mx := by simpa using hle
    have again : ∀ hn, D (rank (.loop r a mx true cnt env i n)) (callP [] (.loop r a mx true cnt env (i + 1) hn)) := fun hn =>
      d_callP (c := .loop ..) trivial (.inr ⟨rfl, .inr ⟨rfl, by dsimp only [rank]; omega⟩⟩)
    have rest : ∀ (x : Res) (hn : Bool) (nm : Option Str), D (rank (.loop r a mx true cnt env i n))
        (match x.r with
          | .ok () => if r then pure { has := hn, r := .ok () } else callP [] (.loop r a mx true cnt env (i + 1) hn)
          | .error e =>
            if loopTakes r nm e then
              (if e.i = loopBreak r then pure { has := hn, r := .ok () } else callP [] (.loop r a mx true cnt env (i + 1) hn))
            else pure { has := hn, r := .error e }) := by
      intro x hn nm
      split
      · split
        · trivial
        · exact again _
      · split
        · split
          · trivial
          · exact again _
        · trivial
    have tail : ∀ (hn : Bool) (nm : Option Str), D (rank (.loop r a mx true cnt env i n))
        (if a.isEmpty then (if r then pure { has := hn, r := .ok () } else callP [] (.loop r a mx true cnt env (i + 1) hn))
        else do
          let x ← callP [] (.codes a 0 usizeMax env)
          match x.r with
          | .ok () => if r then pure { has := hn, r := .ok () } else callP [] (.loop r a mx true cnt env (i + 1) hn)
          | .error e =>
            if loopTakes r nm e then
              (if e.i = loopBreak r then pure { has := hn, r := .ok () } else callP [] (.loop r a mx true cnt env (i + 1) hn))
            else pure { has := hn, r := .error e }) := by
      intro hn nm
      split
      · split
        · trivial
        · exact again _
      · exact D.bind (d_codes room) fun x => rest x hn nm
    split
    · refine D.bind d_doOp fun v => D.bind d_doOp fun _ => ?_
      split
      · exact D.bind d_doOp fun _ => tail _ _
      · exact tail _ _
    · exact tail _ _

theorem g_jumpP {k : JumpKind} {a : List Code} {env : Env} (h : Room m a) : DE m (jumpP k a env) := by unfold jumpP; deep
theorem g_jieP {rems a : List Code} {env : Env} (h1 : Room m rems) (h : Room m a) : DE m (jieP rems a env) := by
  unfold jieP; deep
theorem g_jie2P {a : List Code} {env : Env} (h : Room m a) : DE m (jie2P a env) := by
  unfold jie2P
  refine DE.bind (DE.lift' (show D m _ from dE_hello h)) fun r => ?_
  deep
theorem g_printJie {ret : Nat} {t s : Str} : DE m (printJie ret t s) := by
  induction s with
  | nil => trivial
  | cons c cs ih => unfold printJie; deep <;> exact ih
macro_rules | `(tactic| deep_rule) => `(tactic| with_reducible exact g_printJie)
theorem g_forP {r : Bool} {cnt : Cnt} {rems a : List Code} {env : Env} (h1 : Room m rems) (h : ∀ k, Less (0, 10 * sizeOf a + 2, k) m) :
    DE m (forP r cnt rems a env) := by
  unfold forP
  refine DE.bind (g_remsP h1) fun rs => DE.bind dE_mk fun c => ?_
  split
  refine DE.bind (DE.lift (d_callP (c := .loop ..) trivial (h _))) fun x => ?_
  deep

theorem g_spin {r : Bool} {a : List Code} {mx : Nat} {cnt : Cnt} {env : Env} {i : Nat} {n : Bool} :
    D (rank (.loop r a mx false cnt env i n)) (loopP r a mx false cnt env i n) := by
  have room : Room (rank (.loop r a mx false cnt env i n)) a := .inr ⟨rfl, .inl (Nat.lt_succ_self _)⟩
  have again : ∀ {i hn}, D (rank (.loop r a mx false cnt env i n)) (callP [] (.loop r a mx false cnt env i hn)) :=
    d_free (c := .loop ..) rfl
  simp only [loopP, Bool.false_and, Bool.false_eq_true, if_false]
  deep <;> exact again

theorem g_printP {a : List Code} {env : Env} (h : Room m a) : DE m (printP a env) := by
  unfold printP; deep
theorem g_split2a {hd : List Held} {a : List Code} {sp : Nat} {env : Env} (h : Room m a) : DE m (split2a hd a sp env) := by unfold split2a; deep
macro_rules | `(tactic| deep_rule) => `(tactic| with_reducible exact g_split2a (by assumption))
theorem g_split2b {hd : List Held} {a : List Code} {sp : Nat} {env : Env} (h : Room m a) : DE m (split2b hd a sp env) := by unfold split2b; deep
macro_rules | `(tactic| deep_rule) => `(tactic| with_reducible exact g_split2b (by assumption))
theorem g_defP {n v : List Code} {sp : Nat} {env : Env} (hn : Room m n) (hv : Room m v) : DE m (defP n v sp env) := by unfold defP; deep
theorem g_modFreeGo {env : Env} {ns : List Str} : DE m (modFreeGo env ns) := by
  induction ns with
  | nil => trivial
  | cons n ns ih => unfold modFreeGo; deep <;> exact ih
macro_rules | `(tactic| deep_rule) => `(tactic| with_reducible exact g_modFreeGo)
theorem g_openP {f : Str} {b : Bool} {q : Nat} : D m (openP f b q) := by unfold openP; deep
macro_rules | `(tactic| deep_rule) => `(tactic| with_reducible exact g_openP)
theorem g_openFirst {f : Str} {b : Bool} {q : Nat} {ps : List Str} : D m (openFirst f b q ps) := by
  induction ps with
  | nil => trivial
  | cons p ps ih => unfold openFirst; deep <;> exact ih
macro_rules | `(tactic| deep_rule) => `(tactic| with_reducible exact g_openFirst)
theorem g_okSrcP {f : Str} {b : Bool} {q : Nat} : D m (okSrcP f b q) := by unfold okSrcP; deep
macro_rules | `(tactic| deep_rule) => `(tactic| with_reducible exact g_okSrcP)
theorem g_shlP {b : Bool} {a : List Str} : D m (shlP b a) := by unfold shlP; deep
macro_rules | `(tactic| deep_rule) => `(tactic| with_reducible exact g_shlP)
theorem g_cliArg {a : Nat} {t : Str} : D m (cliArg a t) := by unfold cliArg; deep
macro_rules | `(tactic| deep_rule) => `(tactic| with_reducible exact g_cliArg)
theorem g_cliActs {q : Nat} {as : List CliAct} : D m (cliActs q as) := by
  induction as with
  | nil => trivial
  | cons a as ih => unfold cliActs; deep <;> exact ih
macro_rules | `(tactic| deep_rule) => `(tactic| with_reducible exact g_cliActs)
theorem g_clparsP {a : List Str} {b1 b2 b3 b4 : Bool} {q : Nat} : DE m (clparsP a b1 b2 b3 b4 q) := by unfold clparsP; deep
macro_rules | `(tactic| deep_rule) => `(tactic| with_reducible exact g_clparsP)
theorem g_src2P {f : Str} {q : Nat} : DE m (src2P f q) := by unfold src2P; deep
macro_rules | `(tactic| deep_rule) => `(tactic| with_reducible exact g_src2P)
theorem g_loadP {f : Str} {b : Bool} {q : Nat} : DE m (loadP f b q) := by unfold loadP; deep
macro_rules | `(tactic| deep_rule) => `(tactic| with_reducible exact g_loadP)
theorem g_evalArg0 {t : Str} {i : List Code} {env : Env} (hi : ∀ a, i = [.rem a] → Room m a) : DE m (evalArg0 t i env) := by
  unfold evalArg0
  split
  · trivial
  · split
    · rename_i a
      have := hi a rfl
      deep
    · trivial
theorem g_evalP {l b e : Bool} {t : Str} {i a : List Code} {sp : Nat} {env : Env} (ha : Room m a) (hi : ∀ a, i = [.rem a] → Room m a) :
    DE m (evalP l b t i a sp e env) := by
  unfold evalP; deep <;> exact g_evalArg0 hi
theorem g_execCode {s a : Str} {env : Env} : DE m (execCode s a env) := by unfold execCode; deep
macro_rules | `(tactic| deep_rule) => `(tactic| with_reducible exact g_execCode)
theorem g_writeAll {h : Nat} {l : List Str} : D m (writeAll h l) := by
  induction l with
  | nil => trivial
  | cons t ts ih => unfold writeAll; deep <;> exact ih
macro_rules | `(tactic| deep_rule) => `(tactic| with_reducible exact g_writeAll)
theorem g_execPipe {h : Nat} {s a : Str} {env : Env} : DE m (execPipe h s a env) := by unfold execPipe; deep
macro_rules | `(tactic| deep_rule) => `(tactic| with_reducible exact g_execPipe)
theorem g_slaveStream {h : Nat} {b : Bool} {s t : Str} {env : Env} : D m (slaveStream h b s t env) := by
  unfold slaveStream; deep
macro_rules | `(tactic| deep_rule) => `(tactic| with_reducible exact g_slaveStream)
theorem g_slaveP {h : Nat} {o e b : Str} {env : Env} : D m (slaveP h o e b env) := by
  unfold slaveP; deep <;> exact d_free (c := .slave ..) trivial
theorem g_execLines {s : Str} {env : Env} {l : List (Except Str Str)} : DE m (execLines s env l) := by
  induction l with
  | nil => trivial
  | cons t ts ih => cases t <;> (unfold execLines; deep <;> exact ih)
macro_rules | `(tactic| deep_rule) => `(tactic| with_reducible exact g_execLines)
theorem g_execOut {s : Str} {c : Captured} {b : Bool} {env : Env} : DE m (execOut s c b env) := by unfold execOut; deep
macro_rules | `(tactic| deep_rule) => `(tactic| with_reducible exact g_execOut)
theorem g_execErr {s : Str} {r : Nat} : D m (execErr s r) := by unfold execErr; deep
macro_rules | `(tactic| deep_rule) => `(tactic| with_reducible exact g_execErr)
theorem g_exitcodeP {c : Option Int} {r : Nat} : D m (exitcodeP c r) := by unfold exitcodeP; deep
macro_rules | `(tactic| deep_rule) => `(tactic| with_reducible exact g_exitcodeP)
theorem g_execRun {o : ExecOpts} {env : Env} : DE m (execRun o env) := by
  have sl : ∀ {h o e b env}, D m (callP [] (.slave h o e b env)) := d_free (c := .slave ..) trivial
  unfold execRun; deep <;> exact sl
macro_rules | `(tactic| deep_rule) => `(tactic| with_reducible exact g_execRun)
theorem g_exec2P {v : List Str} {env : Env} : DE m (exec2P v env) := by unfold exec2P; deep
macro_rules | `(tactic| deep_rule) => `(tactic| with_reducible exact g_exec2P)
theorem g_objWrite {h r : Nat} {l : List Str} : D m (objWrite h r l) := by
  induction l with
  | nil => trivial
  | cons t ts ih => unfold objWrite; deep <;> exact ih
macro_rules | `(tactic| deep_rule) => `(tactic| with_reducible exact g_objWrite)
theorem g_execP {a : List Code} {env : Env} (h : Room m a) : DE m (execP a env) := by unfold execP; deep

theorem g_explP {a : List Code} {env : Env} (h : Room m a) : DE m (explP a env) := by unfold explP; deep

macro "sz" : tactic => `(tactic| first | (simp; done) | (simp; omega))

theorem g_itemP {c : Code} {env : Env} : DE (0, 10 * sizeOf c, 0) (itemP c env) := by
  have fit : ∀ {a : List Code}, sizeOf a < sizeOf c → Room (0, 10 * sizeOf c, 0) a := fun h => .inr ⟨rfl, .inl (by dsimp only; omega)⟩
  have fit2 : ∀ {a : List Code}, sizeOf a < sizeOf c → ∀ k, Less (0, 10 * sizeOf a + 2, k) (0, 10 * sizeOf c, 0) :=
    fun h k => .inr ⟨rfl, .inl (by dsimp only; omega)⟩
  cases c with
  | for_ r cnt rems a =>
    exact g_forP (fit (by sz)) (fit2 (by sz))
  | jump k a => exact g_jumpP (fit (by sz))
  | if_ a th el => exact g_ifP (fit2 (by sz)) (fit (by sz)) (fit (by sz))
  | switch one a case bs d => exact g_switchP (fit (by sz)) (fit (by sz))
  | jie rems a => exact g_jieP (fit (by sz)) (fit (by sz))
  | jie2 a => exact g_jie2P (fit (by sz))
  | mod_ a => exact g_nameP (fit (by sz))
  | name a => exact g_nameP (fit (by sz))
  | set_ n v => exact g_setP (fit (by sz)) (fit (by sz))
  | «alias» n v => exact g_setP (fit (by sz)) (fit (by sz))
  | def_ n v sp => exact g_defP (fit (by sz)) (fit (by sz))
  | eval l cur a0 i a sp e => exact g_evalP (fit (by sz)) (fun a h => fit (by subst h; sz))
  | exec a => exact g_execP (fit (by sz))
  | modFree a =>
    have h0 : Room (0, 10 * sizeOf (Code.modFree a), 0) a := fit (by sz)
    unfold itemP; dsimp only; deep
  | print a => exact g_printP (fit (by sz))
  | expl a => exact g_explP (fit (by sz))
  | simp name rems => exact g_simpP
  | has a =>
    have h0 : Room (0, 10 * sizeOf (Code.has a), 0) a := fit (by sz)
    unfold itemP; dsimp only; deep
  | var rems a =>
    have h0 : Room (0, 10 * sizeOf (Code.var rems a), 0) a := fit (by sz)
    unfold itemP; dsimp only; deep
  | block a =>
    have h0 : Room (0, 10 * sizeOf (Code.block a), 0) a := fit (by sz)
    unfold itemP; dsimp only; deep
  | du a =>
    have h0 : Room (0, 10 * sizeOf (Code.du a), 0) a := fit (by sz)
    unfold itemP; dsimp only; deep
  | rem a =>
    have h0 : Room (0, 10 * sizeOf (Code.rem a), 0) a := fit (by sz)
    unfold itemP; dsimp only; deep
  | _ => unfold itemP; dsimp only; deep

theorem g_resE {p : E Unit} (h : DE m p) : D m (resE p) := D.bind h fun _ => trivial

end Deep
end Zh
