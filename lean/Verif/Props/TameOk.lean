import Verif.Props.Tame
/-!
# Where an evaluation can crash by itself: the functions of the evaluator
-/
namespace Zh
open Spec

variable {α β : Type}

abbrev T (H : Host) (s0 : St) (c0 : Call) (B : Prop) (p : Prog α) : Prop := Tm H s0 c0 B p fun _ => True
abbrev TE (H : Host) (s0 : St) (c0 : Call) (B : Prop) (p : E α) : Prop := T H s0 c0 B p.run

variable {H : Host} {s0 : St} {c0 : Call} {B : Prop}

theorem Tm.bind {p : Prog α} {f : α → Prog β} {Q : α → Prop} {R : β → Prop} (h : Tm H s0 c0 B p Q)
    (hf : ∀ a, Q a → Tm H s0 c0 B (f a) R) : Tm H s0 c0 B (p >>= f) R := by
  change Tm H s0 c0 B (p.bind f) R
  induction p with
  | ret a => exact hf a h
  | panic => exact h
  | op o k ih => exact ⟨h.1, fun a ha => ih a (h.2 a ha)⟩
  | call hd c k ih => exact ⟨h.1, fun r hr => ih r (h.2 r hr)⟩

theorem T.bind {p : Prog α} {f : α → Prog β} {R : β → Prop} (h : T H s0 c0 B p)
    (hf : ∀ a, Tm H s0 c0 B (f a) R) : Tm H s0 c0 B (p >>= f) R := Tm.bind h fun a _ => hf a

theorem TE.bind {p : E α} {f : α → E β} (h : TE H s0 c0 B p) (hf : ∀ a, TE H s0 c0 B (f a)) :
    TE H s0 c0 B (p >>= f) := by
  change T H s0 c0 B (p.run >>= _)
  refine T.bind h fun a => ?_
  cases a with
  | ok a => exact hf a
  | error e => trivial

/-- With a fact about the result. -/
theorem TE.bindQ {p : E α} {f : α → E β} {Q : Except Err α → Prop} (h : Tm H s0 c0 B p.run Q)
    (hf : ∀ a, Q (.ok a) → TE H s0 c0 B (f a)) : TE H s0 c0 B (p >>= f) := by
  change T H s0 c0 B (p.run >>= _)
  refine Tm.bind h fun a ha => ?_
  cases a with
  | ok a => exact hf a ha
  | error e => trivial

theorem TE.lift {p : Prog α} (h : T H s0 c0 B p) : TE H s0 c0 B (liftM p : E α) := T.bind h fun _ => trivial
theorem TE.lift' {p : Prog α} (h : T H s0 c0 B p) : TE H s0 c0 B (ExceptT.lift p : E α) := T.bind h fun _ => trivial

theorem TE.bind_getSt {f : St → E β} (hf : ∀ s, Since s0 s → TE H s0 c0 B (f s)) :
    TE H s0 c0 B ((liftM getSt : E St) >>= f) := ⟨trivial, hf⟩
theorem TE.bind_getSt' {f : St → E β} (hf : ∀ s, Since s0 s → TE H s0 c0 B (f s)) :
    TE H s0 c0 B ((ExceptT.lift getSt : E St) >>= f) := ⟨trivial, hf⟩
theorem T.bind_getSt {f : St → Prog β} {R : β → Prop} (hf : ∀ s, Since s0 s → Tm H s0 c0 B (f s) R) :
    Tm H s0 c0 B (getSt >>= f) R := ⟨trivial, hf⟩
theorem TE.bind_mkOut {x : Out (Except Err α)} {f : α → E β} (hx : (∀ a, x ≠ .ok a) → B)
    (hf : ∀ a, x = .ok (.ok a) → TE H s0 c0 B (f a)) : TE H s0 c0 B (ExceptT.mk (ofOut x) >>= f) := by
  rcases x with (e | a) | _ | _
  · trivial
  · exact hf a rfl
  · exact hx fun a e => by cases e
  · exact hx fun a e => by cases e
theorem T.bind_ofOut {x : Out α} {f : α → Prog β} {R : β → Prop} (hx : (∀ a, x ≠ .ok a) → B)
    (hf : ∀ a, x = .ok a → Tm H s0 c0 B (f a) R) : Tm H s0 c0 B (ofOut x >>= f) R := by
  rcases x with a | _ | _
  · exact hf a rfl
  · exact hx fun a e => by cases e
  · exact hx fun a e => by cases e
theorem TE.bind_ofOut {x : Out α} {f : α → E β} (hx : (∀ a, x ≠ .ok a) → B)
    (hf : ∀ a, x = .ok a → TE H s0 c0 B (f a)) : TE H s0 c0 B ((liftM (ofOut x) : E α) >>= f) := by
  rcases x with a | _ | _
  · exact hf a rfl
  · exact hx fun a e => by cases e
  · exact hx fun a e => by cases e

theorem t_pure {a : α} : T H s0 c0 B (pure a : Prog α) := trivial
theorem tE_pure {a : α} : TE H s0 c0 B (pure a : E α) := trivial
theorem tE_fail {e' : Err} : TE H s0 c0 B (fail e' : E α) := trivial
theorem tE_mk {x : Except Err α} : TE H s0 c0 B (ExceptT.mk (pure x) : E α) := trivial
theorem t_doOp {o : Op} (h : o.Fine s0.held c0 B) : T H s0 c0 B (doOp o) := ⟨h, fun _ _ => trivial⟩
theorem t_getSt : T H s0 c0 B getSt := ⟨trivial, fun _ _ => trivial⟩
theorem t_callP {c : Call} (h : c.Fit) : T H s0 c0 B (callP [] c) := ⟨⟨h, fun _ h => nomatch h⟩, fun _ _ => trivial⟩
theorem tE_callE {c : Call} (h : c.Fit) : TE H s0 c0 B (callE [] c) := ⟨⟨h, fun _ h => nomatch h⟩, fun _ _ => trivial⟩
theorem tE_callEh {hd : List Held} {c : Call} (h : c.Fit) (hx : ∀ x ∈ hd, c0.Holds x) : TE H s0 c0 B (callE hd c) :=
  ⟨⟨h, hx⟩, fun _ _ => trivial⟩
theorem tE_hello {a : List Code} {env : Env} : TE H s0 c0 B (hello [] a env) := tE_callE trivial

/-- Rules for `tame`. -/
syntax "tame_rule" : tactic
macro_rules | `(tactic| tame_rule) => `(tactic| exact t_pure)
macro_rules | `(tactic| tame_rule) => `(tactic| exact tE_pure)
macro_rules | `(tactic| tame_rule) => `(tactic| exact tE_fail)
macro_rules | `(tactic| tame_rule) => `(tactic| exact tE_mk)
macro_rules | `(tactic| tame_rule) => `(tactic| exact tE_callE trivial)
macro_rules | `(tactic| tame_rule) => `(tactic| exact tE_hello)
macro_rules | `(tactic| tame_rule) => `(tactic| exact t_callP trivial)
macro_rules | `(tactic| tame_rule) => `(tactic| exact t_doOp trivial)
macro_rules | `(tactic| tame_rule) => `(tactic| exact t_doOp (by assumption))
macro_rules | `(tactic| tame_rule) => `(tactic| exact t_doOp ((by assumption : ∀ q, .scope q ∈ _ → _) _))
macro_rules | `(tactic| tame_rule) => `(tactic| exact t_doOp (WeakWF_add (Since.weak (by assumption) _) _))
macro_rules | `(tactic| tame_rule) => `(tactic| exact t_doOp WeakWF_empty)
macro_rules | `(tactic| tame_rule) => `(tactic| exact t_getSt)

/-- Walk through a program. -/
macro "tame" : tactic => `(tactic| repeat' (first
  | tame_rule
  | with_reducible refine TE.bind_getSt ?_
  | with_reducible refine TE.bind_getSt' ?_
  | with_reducible refine T.bind_getSt ?_
  | with_reducible refine TE.bind ?_ ?_
  | with_reducible refine TE.lift ?_
  | with_reducible refine TE.lift' ?_
  | with_reducible refine T.bind ?_ ?_
  | split
  | dsimp only
  | intro _))

theorem m_addItem {ret : Nat} {i : Item} : T H s0 c0 B (addItem ret i) := by unfold addItem; tame
macro_rules | `(tactic| tame_rule) => `(tactic| with_reducible exact m_addItem)
theorem m_addVal {ret : Nat} {v : Val} {r : List Str} : T H s0 c0 B (addVal ret v r) := by unfold addVal; tame
macro_rules | `(tactic| tame_rule) => `(tactic| with_reducible exact m_addVal)
theorem m_addT {ret : Nat} {t : Str} : T H s0 c0 B (addT ret t) := by unfold addT; tame
macro_rules | `(tactic| tame_rule) => `(tactic| with_reducible exact m_addT)
theorem m_addKwI {ret : Nat} {t : KwId} : T H s0 c0 B (addKwI ret t) := by unfold addKwI; tame
macro_rules | `(tactic| tame_rule) => `(tactic| with_reducible exact m_addKwI)
theorem m_addDun {ret : Nat} : T H s0 c0 B (addDun ret) := by unfold addDun; tame
macro_rules | `(tactic| tame_rule) => `(tactic| with_reducible exact m_addDun)
theorem m_addTs {ret : Nat} {l : List Str} : T H s0 c0 B (addTs ret l) := by
  induction l with
  | nil => trivial
  | cons t ts ih => unfold addTs; exact T.bind m_addT fun _ => ih
macro_rules | `(tactic| tame_rule) => `(tactic| with_reducible exact m_addTs)
theorem m_getList {r : Nat} : T H s0 c0 B (getList r) := by unfold getList; tame
macro_rules | `(tactic| tame_rule) => `(tactic| with_reducible exact m_getList)
theorem m_helloNew {a : List Code} {env : Env} : TE H s0 c0 B (helloNew [] a env) := by unfold helloNew; tame
macro_rules | `(tactic| tame_rule) => `(tactic| with_reducible exact m_helloNew)
theorem m_helloVec {a : List Code} {env : Env} : TE H s0 c0 B (helloVec a env) := by unfold helloVec; tame
macro_rules | `(tactic| tame_rule) => `(tactic| with_reducible exact m_helloVec)

/-! ## Reading variables and arguments -/

theorem rem4_some {σ : Type} (s : St) (inq : Option Nat) (shou : σ → Str → Option σ) (rems : List Str) (q : Nat)
    (x : σ) : (∃ e, rem4 s false inq shou rems (some q) x = .ok (.error e)) ∨
      ∃ q' x', rem4 s false inq shou rems (some q) x = .ok (.ok (some q', x')) := by
  induction rems generalizing q x with
  | nil => exact .inr ⟨q, x, rfl⟩
  | cons r rs ih =>
    unfold rem4
    dsimp only
    cases h : rem4Z s r false inq q with
    | error e => exact .inl ⟨e, rfl⟩
    | ok v =>
      cases v with
      | scope q1 =>
        cases q1 with
        | some q1 => exact ih q1 x
        | none =>
          revert h
          unfold rem4Z
          repeat' split
          all_goals (intro h; first | (cases h; done) | simp_all)
      | other =>
        dsimp only
        cases h2 : shou x r with
        | some x' => exact ih q x'
        | none => exact .inl ⟨_, rfl⟩

theorem i2u_release (i : Int) (m : Nat) : ∃ n, i2u false i m = .ok n := by
  unfold i2u
  split
  · exact ⟨_, rfl⟩
  · split
    · exact ⟨0, rfl⟩
    · exact ⟨_, rfl⟩

theorem argIndex_release (i : Int) (a : RList) : ∃ n, argIndex false i a = .ok n := by
  unfold argIndex
  obtain ⟨n, e⟩ := i2u_release i a.len
  rw [e]
  change ∃ n', (if n ≤ a.len then if n = 0 then (if false = true then Out.panic else Out.ok (some usizeMax))
    else Out.ok (some (n - 1)) else Out.ok none) = Out.ok n'
  split
  · split
    · exact ⟨_, rfl⟩
    · exact ⟨_, rfl⟩
  · exact ⟨_, rfl⟩

theorem argsAct_release (h : Bool) (l : RList) (b e : Int) (line : Bool) :
    ∃ n, argsAct false h l b e line = .ok n := by
  unfold argsAct
  obtain ⟨n, e1⟩ := i2u_release b l.len
  obtain ⟨m, e2⟩ := i2u_release e l.len
  rw [e1, e2]
  cases h1 : l.a.isEmpty with
  | true => cases line <;> exact ⟨_, rfl⟩
  | false =>
    by_cases h2 : m ≥ n
    · cases h
      · cases line
        · exact ⟨.addItems (argsPick n m l.a 1), by simp [h2]⟩
        · by_cases h3 : n = 1 ∧ m ≥ l.a.length
          · exact ⟨.addLine, by simp [h3]⟩
          · exact ⟨.addText (argsLineGo n m l.a 1 [] false []), by simp [h2, h3]⟩
      · exact ⟨.has, by simp [h2]⟩
    · cases line
      · exact ⟨.popEnd, by simp [h2]⟩
      · exact ⟨.addLine, by simp [h2]⟩

theorem posi_le {l : RList} (h : WeakWF l) {i st en : Nat} (hp : l.posi i = some (st, en)) : en ≤ l.a.length := by
  have key : (if i ≥ l.len - 1 then l.a.length else l.dun.getD i 0) ≤ l.a.length := by
    split
    · exact Nat.le_refl _
    · rw [List.getD_eq_getElem?_getD]
      cases hd : l.dun[i]? with
      | none => exact Nat.zero_le _
      | some p =>
        obtain ⟨it, hi, _⟩ := h.2 p (List.mem_of_getElem? hd)
        have := (List.getElem?_eq_some_iff.1 hi).1
        exact Nat.le_of_lt this
  unfold RList.posi at hp
  dsimp only at hp
  revert hp key
  generalize (if i ≥ l.len - 1 then l.a.length else l.dun.getD i 0) = x
  generalize (if i > 0 ∧ i ≤ l.len - 1 then l.dun.getD (i - 1) 0 + 1 else 0) = y
  intro hp key
  by_cases h1 : l.len > 0
  · rw [if_pos h1] at hp
    by_cases h2 : y < x
    · rw [if_pos h2] at hp
      cases hp
      exact key
    · rw [if_neg h2] at hp; cases hp
  · rw [if_neg h1] at hp; cases hp

theorem s3_fine {l : RList} (h : WeakWF l) (i : Nat) : ∃ t, l.s3 i = .ok t := by
  unfold RList.s3
  cases hp : l.posi i with
  | none => exact ⟨none, rfl⟩
  | some x =>
    obtain ⟨st, en⟩ := x
    have e : l.slice st en = .ok ((l.a.take en).drop st) := by unfold RList.slice; rw [if_pos (posi_le h hp)]
    dsimp only
    rw [e]
    exact ⟨_, rfl⟩

theorem addAll_weak {l : RList} (h : WeakWF l) (is : List Item) : WeakWF (l.addAll is) := by
  unfold RList.addAll
  induction is generalizing l with
  | nil => exact h
  | cons i is ih => exact ih (WeakWF_add h i)

theorem retArg_fine {l r : RList} (h : WeakWF l) (hr : WeakWF r) (i : Nat) :
    ∃ t, l.retArg i r = .ok t ∧ WeakWF t := by
  unfold RList.retArg
  cases hp : l.posi i with
  | none => exact ⟨r, rfl, hr⟩
  | some x =>
    obtain ⟨st, en⟩ := x
    have e : l.slice st en = .ok ((l.a.take en).drop st) := by unfold RList.slice; rw [if_pos (posi_le h hp)]
    dsimp only
    rw [e]
    exact ⟨_, rfl, addAll_weak hr _⟩

/-- Reading the arguments: with overflow checks, or when the arguments are read from the list results go to. -/
def ArgB (s0 : St) (B : Prop) (ret : Nat) : Prop :=
  ∀ s, Since s0 s → (s.ovf = true ∨ ∃ q, (s.scopes q).args = ret) → B

theorem not_ok {x : Out α} (h : ∃ a, x = .ok a) (hx : ∀ a, x ≠ .ok a) : False := by
  obtain ⟨a, e⟩ := h
  exact hx a e

theorem m_argiP {i : Int} {isHas equ : Bool} {name : Str} {q ret : Nat} (hA : ArgB s0 B ret) :
    T H s0 c0 B (argiP i isHas equ name q ret) := by
  unfold argiP
  refine T.bind_getSt fun s hs => ?_
  split
  · rename_i h
    exact hA s hs (.inr ⟨q, h⟩)
  · by_cases ho : s.ovf = true
    · have hB := hA s hs (.inl ho)
      dsimp only
      split
      · refine T.bind_ofOut (fun _ => hB) fun _ _ => ?_
        tame
      · refine T.bind_ofOut (fun _ => hB) fun k _ => ?_
        split
        · tame
        · refine T.bind ?_ fun t => ?_
          · split
            · cases (s.lists (s.scopes q).args).s3 _ with
              | ok a => trivial
              | panic => exact hB
              | fuel => exact hB
            · trivial
          · split
            · tame
            · exact T.bind_ofOut (fun _ => hB) fun l hl => by
                obtain ⟨l', e, hw⟩ := retArg_fine (hs.weak (s.scopes q).args) (hs.weak ret) (by assumption)
                rw [e] at hl; cases hl
                exact t_doOp hw
    · have ho : s.ovf = false := by simpa using ho
      rw [ho]
      dsimp only
      split
      · exact T.bind_ofOut (fun h => (not_ok (i2u_release _ _) h).elim) fun _ _ => by tame
      · refine T.bind_ofOut (fun h => (not_ok (argIndex_release _ _) h).elim) fun k _ => ?_
        split
        · tame
        · refine T.bind ?_ fun t => ?_
          · split
            · obtain ⟨t, e⟩ := s3_fine (hs.weak (s.scopes q).args) (by assumption)
              rw [e]
              trivial
            · trivial
          · split
            · tame
            · obtain ⟨l', e, hw⟩ := retArg_fine (hs.weak (s.scopes q).args) (hs.weak ret) (by assumption)
              rw [e]
              exact t_doOp hw

theorem m_arg0P {zero : Str} {isHas : Bool} {q ret : Nat} : T H s0 c0 B (arg0P zero isHas q ret) := by
  unfold arg0P; tame
macro_rules | `(tactic| tame_rule) => `(tactic| with_reducible exact m_arg0P)

theorem m_argcP {isHas : Bool} {q ret : Nat} (hA : ArgB s0 B ret) : T H s0 c0 B (argcP isHas q ret) := by
  unfold argcP
  split
  · tame
  · refine T.bind_getSt fun s hs => ?_
    split
    · rename_i h
      exact hA s hs (.inr ⟨q, h⟩)
    · tame

theorem m_argsP {isHas : Bool} {q : Nat} {b e : Int} {line : Bool} {ret : Nat} (hA : ArgB s0 B ret)
    (hh : ∀ q, .scope q ∈ s0.held → B) : T H s0 c0 B (argsP isHas q b e line ret) := by
  unfold argsP
  refine T.bind_getSt fun s hs => ?_
  split
  · rename_i h
    exact hA s hs (.inr ⟨q, h⟩)
  · refine T.bind_ofOut (fun h => ?_) fun a _ => ?_
    · by_cases ho : s.ovf = true
      · exact hA s hs (.inl ho)
      · rw [show s.ovf = false by simpa using ho] at h
        exact (not_ok (argsAct_release _ _ _ _ _) h).elim
    · split
      · tame
      · tame
      · exact T.bind (t_doOp (hh q)) fun _ => m_addT
      · refine t_doOp ?_
        change WeakWF _
        split
        · exact WeakWF_popEnd (addAll_weak (hs.weak ret) _)
        · exact addAll_weak (hs.weak ret) _
      · exact t_doOp (WeakWF_popEnd (hs.weak ret))
macro_rules | `(tactic| tame_rule) => `(tactic| with_reducible exact m_argiP (by assumption))
macro_rules | `(tactic| tame_rule) => `(tactic| with_reducible exact m_argcP (by assumption))
macro_rules | `(tactic| tame_rule) => `(tactic| with_reducible exact m_argsP (by assumption) (by assumption))

theorem m_getP {name : Str} {a b c d : Bool} {env : Env} (hA : ArgB s0 B env.ret) :
    T H s0 c0 B (getP name a b c d env) := by
  unfold getP; tame
macro_rules | `(tactic| tame_rule) => `(tactic| with_reducible exact m_getP (by assumption))
theorem m_getAliasP {name : Str} {a : Bool} {b : EquName} {c : Bool} {q : Nat} {env : Env}
    (hA : ArgB s0 B env.ret) : TE H s0 c0 B (getAliasP name a b c q env) := by
  unfold getAliasP; tame
macro_rules | `(tactic| tame_rule) => `(tactic| with_reducible exact m_getAliasP (by assumption))
theorem m_getArgs {name : Str} {rems : List Str} {a : Bool} {b : EquName} {q : Nat} {env : Env}
    (hA : ArgB s0 B env.ret) (hh : ∀ q, .scope q ∈ s0.held → B) : TE H s0 c0 B (getArgs name rems a b q env) := by
  unfold getArgs; tame
macro_rules | `(tactic| tame_rule) => `(tactic| with_reducible exact m_getArgs (by assumption) (by assumption))

theorem nameScan_fine (s : St) (inq : Option Nat) (l : List Item) (n : Str) (r : List Str) (w : Bool) (q : Nat) :
    ∃ x, nameScan s false inq l n r w q = .ok x := by
  induction l generalizing n r w q with
  | nil => exact ⟨_, rfl⟩
  | cons it its ih =>
    unfold nameScan
    rcases rem4_some s inq
      (fun (x : List Str × Bool) r => some (if r = WITH_NAME then (x.1, true) else (x.1 ++ [r], x.2)))
      (s.items it.ref) q (r, w) with ⟨e, h⟩ | ⟨q', x', h⟩
    · rw [h]; exact ⟨_, rfl⟩
    · rw [h]; exact ih _ _ _ _

theorem m_get2P {l : List Item} {isHas : Bool} {equ : EquName} {env : Env} (hA : ArgB s0 B env.ret)
    (hh : ∀ q, .scope q ∈ s0.held → B) (hB : isHas = true → B) : TE H s0 c0 B (get2P l isHas equ env) := by
  unfold get2P
  refine TE.bind_getSt fun s hs => TE.bind_mkOut (fun h => ?_) fun a _ => ?_
  · cases isHas with
    | true => exact hB rfl
    | false => exact (not_ok (nameScan_fine _ _ _ _ _ _ _) h).elim
  · tame

theorem m_var1P {rems : List Str} {name : Str} {env : Env} : TE H s0 c0 B (var1P rems name env) := by
  unfold var1P
  refine TE.bind_getSt fun s hs => ?_
  rcases rem4_some s env.inq (fun (_ : Bool) r => if r = WITH_NAME then some true else none) rems env.q false with
    ⟨e, h⟩ | ⟨q', x', h⟩
  · rw [h]; trivial
  · rw [h]
    refine TE.bind_mkOut (fun h => (h _ rfl).elim) fun a ha => ?_
    cases ha
    dsimp only
    tame
macro_rules | `(tactic| tame_rule) => `(tactic| with_reducible exact m_var1P)
theorem m_simpP {rems : List Str} {name : Str} {env : Env} (hA : ArgB s0 B env.ret) :
    TE H s0 c0 B (simpP name rems env) := by
  unfold simpP; tame

/-! ## Annotations and other parts -/

theorem m_remTarget {env : Env} : T H s0 c0 B (remTarget env) := by unfold remTarget; tame
macro_rules | `(tactic| tame_rule) => `(tactic| with_reducible exact m_remTarget)
theorem m_remP {r : Nat} {env : Env} : T H s0 c0 B (remP r env) := by unfold remP; tame
macro_rules | `(tactic| tame_rule) => `(tactic| with_reducible exact m_remP)

theorem m_returnP {q : Nat} {r : Except Err Unit} : TE H s0 c0 B (returnP q r) := by unfold returnP; tame
macro_rules | `(tactic| tame_rule) => `(tactic| with_reducible exact m_returnP)
theorem m_srcP {src : Str} {env : Env} (h : c0.Parses) : TE H s0 c0 B (srcP src env) := by
  unfold srcP
  refine TE.bind (t_doOp h) fun _ => ?_
  tame

end Zh
