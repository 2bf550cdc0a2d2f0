import Verif.Props.TameOk2
import Verif.Props.Shebang
/-!
# Where an evaluation can crash by itself: the statements
-/
namespace Zh
open Spec

variable {α β : Type} {H : Host} {s0 : St} {c0 : Call} {B : Prop}

theorem m_remsP {rems : List Code} {env : Env} (hB : B) : TE H s0 c0 B (remsP rems env) := by
  unfold remsP
  refine TE.bind (TE.lift (t_doOp trivial)) fun r3 => TE.bind (TE.lift m_addKwI) fun _ =>
    TE.bind tE_hello fun _ => TE.bind_getSt fun s hs => ?_
  split
  · trivial
  · exact hB
macro_rules | `(tactic| tame_rule) => `(tactic| with_reducible exact m_remsP (by assumption))

theorem m_split2a {hd : List Held} (hh : ∀ x ∈ hd, c0.Holds x) {a : List Code} {sp : Nat} {env : Env} :
    TE H s0 c0 B (split2a hd a sp env) := by
  unfold split2a
  refine TE.bind (TE.lift (t_doOp trivial)) fun r4 => TE.bind (tE_callEh trivial hh) fun _ => ?_
  tame
theorem m_split2b {hd : List Held} (hh : ∀ x ∈ hd, c0.Holds x) {a : List Code} {sp : Nat} {env : Env} :
    TE H s0 c0 B (split2b hd a sp env) := tE_callEh trivial hh

/-! ## Files and options -/

theorem m_openP {f : Str} {b : Bool} {q : Nat} (h : .scope q ∈ s0.held → B) : T H s0 c0 B (openP f b q) := by
  unfold openP; tame
macro_rules | `(tactic| tame_rule) => `(tactic| with_reducible exact m_openP (by assumption))
theorem m_openFirst {src : Str} {b : Bool} {q : Nat} {l : List Str} (h : .scope q ∈ s0.held → B) :
    T H s0 c0 B (openFirst src b q l) := by
  induction l with
  | nil => trivial
  | cons p ps ih => unfold openFirst; tame <;> exact ih
macro_rules | `(tactic| tame_rule) => `(tactic| with_reducible exact m_openFirst (by assumption))
theorem m_okSrcP {src : Str} {b : Bool} {q : Nat} (h : .scope q ∈ s0.held → B) : T H s0 c0 B (okSrcP src b q) := by
  unfold okSrcP; tame
macro_rules | `(tactic| tame_rule) => `(tactic| with_reducible exact m_okSrcP (by assumption))

theorem m_cliArg {r : Nat} {t : Str} : T H s0 c0 B (cliArg r t) := by unfold cliArg; tame
macro_rules | `(tactic| tame_rule) => `(tactic| with_reducible exact m_cliArg)
theorem m_cliActs {q : Nat} {l : List CliAct} (h : .scope q ∈ s0.held → B) : T H s0 c0 B (cliActs q l) := by
  induction l with
  | nil => trivial
  | cons a as ih => unfold cliActs; tame <;> exact ih
macro_rules | `(tactic| tame_rule) => `(tactic| with_reducible exact m_cliActs (by assumption))

theorem m_shlP {b : Bool} {a : List Str} (h : b = true → a = [] → B) : T H s0 c0 B (shlP b a) := by
  unfold shlP
  split
  · split
    · exact h (by assumption) rfl
    · tame
  · tame

/-- The words of a command line or of a `#!` line are taken apart without a crash. -/
def ShebangB (B : Prop) (otherZ plus hasSrc : Bool) (a : List Str) : Prop :=
  (∀ x, shebangScan otherZ plus a hasSrc false none ≠ .ok x) → B

theorem m_clparsP {a : List Str} {b1 b2 b3 b4 : Bool} {q : Nat} (h : .scope q ∈ s0.held → B)
    (h1 : b1 = true → a = [] → B) (h2 : ∀ a', a' <:+ (if b1 then a.tail else a) → ShebangB B b3 b4 b2 a') :
    TE H s0 c0 B (clparsP a b1 b2 b3 b4 q) := by
  unfold clparsP
  refine TE.bindQ (Q := fun r => ∀ x, r = .ok x → x <:+ (if b1 then a.tail else a)) ?_ fun a' ha => ?_
  · have key : Tm H s0 c0 B (shlP b1 a) fun x => x <:+ (if b1 then a.tail else a) := by
      unfold shlP
      split
      · split
        · exact h1 (by assumption) rfl
        · refine T.bind_getSt fun s hs => ?_
          have tail : Tm H s0 c0 B (do doOp (.path ‹Str›); return ‹List Str› : Prog (List Str))
              fun x => x <:+ ‹List Str› :=
            T.bind (t_doOp trivial) fun _ => List.suffix_refl _
          split
          · exact T.bind (t_doOp trivial) fun _ => tail
          · exact tail
      · exact List.suffix_refl _
    exact Tm.bind key fun x hx y e => by cases e; exact hx
  · have ha := ha a' rfl
    refine TE.bind_ofOut (h2 a' ha) fun x _ => ?_
    tame

theorem m_src2P {src : Str} {q : Nat} (h : .scope q ∈ s0.held → B)
    (hB : ∀ t p text, H.read t p = .ok text → Spec.BadFirstLine text → B) : TE H s0 c0 B (src2P src q) := by
  unfold src2P
  refine ⟨trivial, fun r ⟨tr, hr⟩ => ?_⟩
  rcases r with e | text
  · trivial
  · change TE H s0 c0 B (if _ then _ else _)
    split
    · rename_i hc
      rw [Bool.and_eq_true, List.isPrefixOf_iff_prefix, List.contains_iff_mem] at hc
      obtain ⟨⟨tl, rfl⟩, hm⟩ := hc
      have hm' : '\n' ∈ tl := by simpa using hm
      have hd : ((c!"#!" ++ tl).takeWhile (· ≠ '\n')).drop 2 = tl.takeWhile (· ≠ '\n') := by
        simp
      obtain ⟨rest, hrest, hnot⟩ := first_line hm'
      have bad : (split (tl.takeWhile (· ≠ '\n')) = [] ∨ ∃ w ∈ (split (tl.takeWhile (· ≠ '\n'))).tail, Spec.MarkCut w) → B :=
        fun hb => hB _ _ _ hr ⟨_, rest, by rw [List.append_assoc, ← hrest], hnot, hb⟩
      rw [hd]
      refine TE.bind (TE.lift (t_doOp h)) fun _ => TE.bind (m_clparsP h (fun _ e => bad (.inl e)) ?_) fun _ => ?_
      · intro a' ha' hne
        by_cases hw : ∃ w ∈ (split (tl.takeWhile (· ≠ '\n'))).tail, Spec.MarkCut w
        · exact bad (.inr hw)
        · obtain ⟨x, e⟩ := shebangScan_fine false true a' false false none fun _ w hm hc => hw ⟨w, ha'.mem hm, hc⟩
          exact (hne x e).elim
      · tame
    · trivial
theorem m_loadP {src : Str} {b : Bool} {q : Nat} (h : .scope q ∈ s0.held → B)
    (hB : ∀ t p text, H.read t p = .ok text → Spec.BadFirstLine text → B) :
    TE H s0 c0 B (loadP src b q) := by
  unfold loadP
  refine TE.bind (TE.lift (m_okSrcP h)) fun _ => TE.bind_getSt fun s hs => ?_
  split
  · trivial
  · exact TE.bind (m_src2P h hB) fun _ => trivial

theorem m_evalArg0 {s : Str} {i : List Code} {env : Env} : TE H s0 c0 B (evalArg0 s i env) := by
  unfold evalArg0; tame
macro_rules | `(tactic| tame_rule) => `(tactic| with_reducible exact m_evalArg0)

theorem m_evalP (hz : ∀ q, c0.Holds (.scope q)) {load cur : Bool} {arg0 : Str} {iArg0 a : List Code} {sp : Nat}
    {e : Bool} {env : Env} (hn : ∀ q, .scope q ∈ s0.held → s0.nscope ≤ q → B)
    (h : cur = true → .scope env.q ∈ s0.held → B)
    (hB : ∀ t p text, load = true → H.read t p = .ok text → Spec.BadFirstLine text → B) :
    TE H s0 c0 B (evalP load cur arg0 iArg0 a sp e env) := by
  unfold evalP
  refine TE.bindQ (Q := fun r => ∀ q2, r = .ok q2 → .scope q2 ∈ s0.held → B) ?_ fun q2 hq => ?_
  · have key : Tm H s0 c0 B (if cur then pure env.q else doOp (.newScope [] none env.q) : Prog Nat)
        fun q2 => .scope q2 ∈ s0.held → B := by
      split
      · rename_i hc; exact h hc
      · exact ⟨trivial, fun q hq hx => hn q hx hq⟩
    exact Tm.bind key fun x hx y e => by cases e; exact hx
  · have hq := hq q2 rfl
    have hh : ∀ x ∈ [Held.scope q2], c0.Holds x := fun x hx => by
      rw [List.mem_singleton] at hx; subst hx; exact hz q2
    refine TE.bind (TE.lift (t_doOp hq)) fun _ => TE.bind_getSt fun s hs => ?_
    have rest : TE H s0 c0 B (do
        let (src, rems) ← split2a [.scope q2] a sp { env with ret := (s.scopes q2).args }
        match rems with
        | r :: _ => fail (errNoRem2 r)
        | [] =>
          split2b [.scope q2] a sp { env with ret := (s.scopes q2).args }
          let l ← getList (s.scopes q2).args
          if l.a.isEmpty && e then addT (s.scopes q2).args []
          if !cur then doOp (.setSrc q2 src)
          match ← (if load then loadP src cur q2 else pure (some src) : E (Option Str)) with
          | none => return ()
          | some src2 =>
            if !cur then
              let arg0 ← evalArg0 arg0 iArg0 env
              if !arg0.isEmpty then doOp (.setArg0 q2 arg0)
            callE [] (.src src2 { env with q := q2 })) := by
      refine TE.bind (m_split2a hh) fun x => ?_
      obtain ⟨src, rems⟩ := x
      dsimp only
      split
      · trivial
      · refine TE.bind (m_split2b hh) fun _ => TE.bind (TE.lift m_getList) fun l => ?_
        have ld : ∀ src : Str, TE H s0 c0 B (if load then loadP src cur q2 else pure (some src) : E (Option Str)) := by
          intro src
          split
          · rename_i hl; exact m_loadP hq (fun t p x => hB t p x hl)
          · trivial
        split
        · refine TE.bind (TE.lift m_addT) fun _ => ?_
          split
          · exact TE.bind (TE.lift (t_doOp hq)) fun _ => TE.bind (ld _) fun o => by tame
          · exact TE.bind (ld _) fun o => by tame
        · split
          · exact TE.bind (TE.lift (t_doOp hq)) fun _ => TE.bind (ld _) fun o => by tame
          · exact TE.bind (ld _) fun o => by tame
    dsimp only
    split
    · exact TE.bind (TE.lift m_addDun) fun _ => rest
    · exact rest

/-! ## Assignments and definitions -/

theorem setName_fine (s : St) (inq : Option Nat) (l : List Item) (n : Str) (q : Nat) (x : Bool × Bool) :
    (∃ e, setName s inq l n (some q) x = .ok (.error e)) ∨
      ∃ n' q' x', setName s inq l n (some q) x = .ok (.ok (n', some q', x')) := by
  induction l generalizing n q x with
  | nil => exact .inr ⟨_, _, _, rfl⟩
  | cons i is ih =>
    unfold setName
    rcases rem4_some s inq (fun (x : Bool × Bool) r =>
        if r = PRIV then some (true, x.2) else if r = REM then some (x.1, true) else none) (s.items i.ref) q x with
      ⟨e, h⟩ | ⟨q', x', h⟩
    · rw [h]; exact .inl ⟨e, rfl⟩
    · rw [h]; exact ih _ _ _

theorem m_setJie {ret : Nat} {name : Str} {val : Item} {l : Str} {cnt : Nat} :
    TE H s0 c0 B (setJie ret name val l cnt) := by
  induction l generalizing cnt with
  | nil => trivial
  | cons c cs ih => unfold setJie; tame <;> exact ih
macro_rules | `(tactic| tame_rule) => `(tactic| with_reducible exact m_setJie)

theorem m_setGo {b : Bool} {env : Env} {l : List (List Item)} {st : SetSt} (hh : ∀ q, .scope q ∈ s0.held → B) :
    TE H s0 c0 B (setGo b env l st) := by
  induction l generalizing st with
  | nil => trivial
  | cons g gs ih =>
    unfold setGo
    refine TE.bind_getSt fun s hs => ?_
    rcases setName_fine s env.inq g [] env.q (st.priv, st.equ) with ⟨e, h⟩ | ⟨n', q', x', h⟩
    · rw [h]; trivial
    · rw [h]
      refine TE.bind_mkOut (fun h => (h _ rfl).elim) fun a ha => ?_
      cases ha
      dsimp only
      refine TE.bind (TE.lift ?_) fun val => ?_
      · tame
      · exact TE.bind (TE.lift (t_doOp (hh _))) fun _ => TE.bind m_setJie fun _ => ih
theorem m_setP {b : Bool} {n v : List Code} {env : Env} (hh : ∀ q, .scope q ∈ s0.held → B) :
    TE H s0 c0 B (setP b n v env) := by
  have := fun l st => m_setGo (H := H) (c0 := c0) (b := b) (env := env) (l := l) (st := st) hh
  unfold setP; tame <;> exact this _ _

theorem defRems_fine (s : St) (l : List Str) (a b q : Nat) :
    (∃ e, defRems s l a b (some q) = .ok (.error e)) ∨
      ∃ a' b' q', defRems s l a b (some q) = .ok (.ok (a', b', some q')) := by
  induction l generalizing a b q with
  | nil => exact .inr ⟨_, _, _, rfl⟩
  | cons r rs ih =>
    unfold defRems
    split
    · exact ih _ _ _
    · split
      · split
        · exact ih _ _ _
        · split
          · exact ih _ _ _
          · exact .inl ⟨_, rfl⟩
      · rcases rem4_some s none (fun (_ : Unit) _ => none) [r] q () with ⟨e, h⟩ | ⟨q', x', h⟩
        · rw [h]; exact .inl ⟨e, rfl⟩
        · rw [h]; exact ih _ _ _

theorem m_defP {n v : List Code} {sp : Nat} {env : Env} (hh : ∀ q, .scope q ∈ s0.held → B)
    (hd : ∀ q k, .def_ q k ∈ s0.held → B) : TE H s0 c0 B (defP n v sp env) := by
  have no : ∀ x ∈ ([] : List Held), c0.Holds x := fun _ h => nomatch h
  unfold defP
  refine TE.bind (TE.lift (t_doOp trivial)) fun r2 => TE.bind (m_split2a no) fun x => TE.bind_getSt fun s hs => ?_
  rcases defRems_fine s x.2 usizeMax 0 env.q with ⟨e, h⟩ | ⟨a', b', q', h⟩
  · dsimp only; rw [h]; trivial
  · dsimp only
    rw [h]
    refine TE.bind_mkOut (fun h => (h _ rfl).elim) fun a ha => ?_
    cases ha
    dsimp only
    refine TE.bind (m_split2b no) fun _ => ?_
    split
    · trivial
    · refine TE.bind_getSt fun s hs => ?_
      split
      · trivial
      · refine TE.bind m_helloNew fun r3 => TE.bind_getSt fun s hs => TE.bind (TE.lift (t_doOp (hh _))) fun _ => ?_
        split
        · trivial
        · refine TE.lift (t_doOp ?_)
          rintro (h | ⟨k, h⟩)
          · exact hh _ h
          · exact hd _ k h

theorem m_nameP {b : Bool} {a : List Code} {env : Env} (h : .scope env.q ∈ s0.held → B) :
    TE H s0 c0 B (nameP b a env) := by
  unfold nameP; tame

theorem m_modFreeGo (hz : ∀ q, c0.Holds (.scope q)) {env : Env} {l : List Str} (hB : B) :
    TE H s0 c0 B (modFreeGo env l) := by
  induction l with
  | nil => trivial
  | cons n ns ih =>
    unfold modFreeGo
    refine TE.bind_getSt fun s hs => ?_
    split
    · exact ih
    · rename_i d i q2 _
      have hh : ∀ x ∈ [Held.scope q2], c0.Holds x := fun x hx => by
        rw [List.mem_singleton] at hx; subst hx; exact hz q2
      have rest : TE H s0 c0 B (do
          let _ ← (doOp (.rmMod d i) : Prog Unit)
          modFreeGo env ns) := TE.bind (TE.lift (t_doOp hB)) fun _ => ih
      dsimp only
      split
      · exact TE.bind (tE_callEh trivial hh) fun _ => rest
      · exact rest

/-! ## Control -/

theorem m_switchHits {c : List Code} {t : Str} {env : Env} {l : List (Nat × Nat)} :
    TE H s0 c0 B (switchHits c t env l) := by
  induction l with
  | nil => trivial
  | cons x xs ih =>
    obtain ⟨f, t'⟩ := x
    unfold switchHits
    exact TE.bind (TE.lift (t_doOp trivial)) fun _ => TE.bind (tE_callE trivial) fun _ =>
      TE.bind (TE.lift m_getList) fun _ => TE.bind ih fun _ => trivial
macro_rules | `(tactic| tame_rule) => `(tactic| with_reducible exact m_switchHits)
theorem m_switchRun {c : List Code} {env : Env} {l : List (Nat × Nat)} : TE H s0 c0 B (switchRun c env l) := by
  induction l with
  | nil => trivial
  | cons x xs ih =>
    obtain ⟨f, t'⟩ := x
    unfold switchRun
    exact TE.bind (tE_callE trivial) fun _ => ih
macro_rules | `(tactic| tame_rule) => `(tactic| with_reducible exact m_switchRun)
theorem m_switchP {o : Bool} {a c : List Code} {f : List (Nat × Nat)} {d : Option Nat} {env : Env} :
    TE H s0 c0 B (switchP o a c f d env) := by
  unfold switchP; tame

theorem m_condMv {b : Bool} {c : List Code} {env : Env} {st : CondSt} : T H s0 c0 B (condMv b c env st) := by
  unfold condMv; tame
macro_rules | `(tactic| tame_rule) => `(tactic| with_reducible exact m_condMv)
theorem m_condCmp {c : List Code} {env : Env} {st : CondSt} : T H s0 c0 B (condCmp c env st) := by
  unfold condCmp; tame
macro_rules | `(tactic| tame_rule) => `(tactic| with_reducible exact m_condCmp)
theorem m_condP {c : List Code} {env : Env} {st : CondSt} : T H s0 c0 B (condP c env st) := by
  unfold condP; tame
theorem m_ifP {a t e : List Code} {env : Env} : TE H s0 c0 B (ifP a t e env) := by
  unfold ifP; tame

theorem m_loopP {r : Bool} {c : List Code} {m : Nat} {u : Bool} {cnt : Cnt} {env : Env} {i : Nat} {hn : Bool}
    (h : cnt.name.isSome → .scope env.q ∈ s0.held → B) : T H s0 c0 B (loopP r c m u cnt env i hn) := by
  unfold loopP
  dsimp only
  generalize (if u = true then i + 1 else i) = j
  split
  · trivial
  · have rest : T H s0 c0 B (
        let again := callP [] (.loop r c m u cnt env j cnt.name.isSome)
        let stop (r : Except Err Unit) : Prog Res := return { has := cnt.name.isSome, r }
        if c.isEmpty then (if r then stop (.ok ()) else again)
        else do
          let x ← callP [] (.codes c 0 usizeMax env)
          match x.r with
          | .ok () => if r then stop (.ok ()) else again
          | .error e =>
            if loopTakes r cnt.name e then
              (if e.i = loopBreak r then stop (.ok ()) else again)
            else stop (.error e)) := by
      tame
    split
    · rename_i n hn'
      refine T.bind (t_doOp trivial) fun v => T.bind (t_doOp (h (by rw [hn']; rfl))) fun _ => ?_
      split
      · exact T.bind (t_doOp trivial) fun _ => rest
      · exact rest
    · exact rest

theorem m_forP {b : Bool} {cnt : Cnt} {r c : List Code} {env : Env} (hB : B) : TE H s0 c0 B (forP b cnt r c env) := by
  unfold forP; tame
theorem m_jumpP {k : JumpKind} {a : List Code} {env : Env} : TE H s0 c0 B (jumpP k a env) := by
  unfold jumpP; tame
theorem m_jieP {r a : List Code} {env : Env} (hB : r ≠ [] → B) : TE H s0 c0 B (jieP r a env) := by
  unfold jieP
  refine TE.bind ?_ fun _ => tE_hello
  split
  · trivial
  · rename_i h
    exact m_remsP (hB fun e => by rw [e] at h; exact h rfl)
theorem m_jie2P {a : List Code} {env : Env} : TE H s0 c0 B (jie2P a env) := by
  unfold jie2P; tame

theorem m_printJie {r : Nat} {t l : Str} : TE H s0 c0 B (printJie r t l) := by
  induction l with
  | nil => trivial
  | cons c cs ih => unfold printJie; tame <;> exact ih
macro_rules | `(tactic| tame_rule) => `(tactic| with_reducible exact m_printJie)
theorem m_printP (hz : ∀ q, c0.Holds (.scope q)) {a : List Code} {env : Env} : TE H s0 c0 B (printP a env) := by
  unfold printP
  refine TE.bind m_helloVec fun v => ?_
  split
  · trivial
  · refine TE.bind tE_mk fun x => TE.bind_getSt fun s hs => ?_
    dsimp only
    split
    · rename_i p src _
      have hh : ∀ x ∈ [Held.scope p], c0.Holds x := fun x hx => by
        rw [List.mem_singleton] at hx; subst hx; exact hz p
      exact TE.bind (TE.lift (t_doOp trivial)) fun q => TE.bind_getSt fun s hs => TE.bind (TE.lift m_addT) fun _ =>
        tE_callEh trivial hh
    · tame
theorem m_explP {a : List Code} {env : Env} (hB : B) : TE H s0 c0 B (explP a env) := by
  unfold explP
  refine TE.bind m_helloVec fun v => TE.bind (TE.lift (t_doOp hB)) fun _ => ?_
  tame

/-! ## Processes -/

theorem m_exitcodeP {c : Option Int} {r : Nat} : T H s0 c0 B (exitcodeP c r) := by unfold exitcodeP; tame
macro_rules | `(tactic| tame_rule) => `(tactic| with_reducible exact m_exitcodeP)
theorem m_execErr {e : Str} {r : Nat} : T H s0 c0 B (execErr e r) := by unfold execErr; tame
macro_rules | `(tactic| tame_rule) => `(tactic| with_reducible exact m_execErr)
theorem m_execCode {s a : Str} {env : Env} : TE H s0 c0 B (execCode s a env) := by unfold execCode; tame
macro_rules | `(tactic| tame_rule) => `(tactic| with_reducible exact m_execCode)
theorem m_writeAll {h : Nat} {l : List Str} : T H s0 c0 B (writeAll h l) := by
  induction l with
  | nil => trivial
  | cons c cs ih => unfold writeAll; tame <;> exact ih
macro_rules | `(tactic| tame_rule) => `(tactic| with_reducible exact m_writeAll)
theorem m_execPipe {h : Nat} {s a : Str} {env : Env} : TE H s0 c0 B (execPipe h s a env) := by unfold execPipe; tame
macro_rules | `(tactic| tame_rule) => `(tactic| with_reducible exact m_execPipe)
theorem m_slaveStream {h : Nat} {e : Bool} {s b : Str} {env : Env} : T H s0 c0 B (slaveStream h e s b env) := by
  unfold slaveStream; tame
macro_rules | `(tactic| tame_rule) => `(tactic| with_reducible exact m_slaveStream)
theorem m_slaveP {h : Nat} {s e b : Str} {env : Env} : T H s0 c0 B (slaveP h s e b env) := by
  unfold slaveP; tame
theorem m_execLines {s : Str} {env : Env} {l : List (Except Str Str)} : TE H s0 c0 B (execLines s env l) := by
  induction l with
  | nil => trivial
  | cons c cs ih => cases c <;> unfold execLines <;> tame <;> exact ih
macro_rules | `(tactic| tame_rule) => `(tactic| with_reducible exact m_execLines)
theorem m_execOut {s : Str} {c : Captured} {e : Bool} {env : Env} : TE H s0 c0 B (execOut s c e env) := by
  unfold execOut; tame
macro_rules | `(tactic| tame_rule) => `(tactic| with_reducible exact m_execOut)

theorem TE.bind_exec {k : ExecKind} {c : Cmd} {f : ExecRes → E β} (hf : ∀ r, r.fits k → TE H s0 c0 B (f r)) :
    TE H s0 c0 B ((liftM (doOp (.exec k c)) : E ExecRes) >>= f) := ⟨trivial, hf⟩

theorem m_execRun {o : ExecOpts} {env : Env} : TE H s0 c0 B (execRun o env) := by
  unfold execRun
  dsimp only
  split
  · refine TE.bind_exec fun r hr => ?_
    cases r <;> first | exact hr.elim | tame
  · refine TE.bind_exec fun r hr => ?_
    cases r <;> first | exact hr.elim | tame
  · refine TE.bind_exec fun r hr => ?_
    cases r <;> first | exact hr.elim | tame
  · refine TE.bind_exec fun r hr => ?_
    cases r <;> first | exact hr.elim | tame
macro_rules | `(tactic| tame_rule) => `(tactic| with_reducible exact m_execRun)
theorem m_exec2P {v : List Str} {env : Env} : TE H s0 c0 B (exec2P v env) := by unfold exec2P; tame
macro_rules | `(tactic| tame_rule) => `(tactic| with_reducible exact m_exec2P)
theorem m_objWrite {h r : Nat} {l : List Str} : T H s0 c0 B (objWrite h r l) := by
  induction l with
  | nil => trivial
  | cons c cs ih => unfold objWrite; tame <;> exact ih
macro_rules | `(tactic| tame_rule) => `(tactic| with_reducible exact m_objWrite)
theorem m_execP {a : List Code} {env : Env} : TE H s0 c0 B (execP a env) := by unfold execP; tame

end Zh
