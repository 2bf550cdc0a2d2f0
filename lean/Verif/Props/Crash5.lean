import Verif.Props.Started
import Verif.Props.Crash4
/-!
# C44: a file with an unreadable `#!` line crashes what reads it
-/
namespace Zh
open Spec

variable {α β : Type} {H : Host}

theorem takeBytes_cut (pre rest : Str) (c : Char) (k : Nat) (h0 : 0 < k) (hk : k < (encChar c).length) :
    takeBytes ((utf8 pre).length + k) (pre ++ c :: rest) = none := by
  induction pre with
  | nil =>
    obtain ⟨m, rfl⟩ : ∃ m, k = m + 1 := ⟨k - 1, by omega⟩
    simp only [utf8, List.flatMap_nil, List.length_nil, Nat.zero_add, List.nil_append, takeBytes]
    rw [if_neg (by omega)]
  | cons d pre ih =>
    rw [utf8_cons, List.length_append]
    have hd : 0 < (encChar d).length := by unfold encChar; dsimp only; split <;> (try split) <;> (try split) <;> simp
    obtain ⟨m, hm⟩ : ∃ m, (encChar d).length + (utf8 pre).length + k = m + 1 := ⟨_, (Nat.succ_pred_eq_of_pos (by omega)).symm⟩
    rw [hm, List.cons_append, takeBytes, if_pos (by omega), ← hm]
    have : (encChar d).length + (utf8 pre).length + k - (encChar d).length = (utf8 pre).length + k := by omega
    rw [this, ih]
    rfl

/-- A word as in `MarkCut` crashes the reading of the options. -/
theorem shebangOpts_cut {w : Str} (h : MarkCut w) : SHEBANG.isSuffixOf w = true ∧ shebangOpts true w = .panic := by
  obtain ⟨pre, c, rfl, hc⟩ := h
  refine ⟨List.isSuffixOf_iff_suffix.2 ⟨pre ++ [c], by simp⟩, ?_⟩
  have hl : 2 ≤ (encChar c).length := by
    unfold encChar
    dsimp only
    rw [if_neg (by omega)]
    split
    · simp
    · split <;> simp
  have hn : (utf8 (pre ++ c :: SHEBANG)).length = (utf8 pre).length + (encChar c).length + (utf8 SHEBANG).length := by
    rw [utf8_append, utf8_cons, List.length_append, List.length_append]
    omega
  simp only [shebangOpts, Bool.not_true, Bool.false_eq_true, if_false, hn]
  rw [if_neg (by omega)]
  have e : (utf8 pre).length + (encChar c).length + (utf8 SHEBANG).length - 1 - (utf8 SHEBANG).length =
      (utf8 pre).length + ((encChar c).length - 1) := by omega
  rw [e, takeBytes_cut _ _ _ _ (by omega) (by omega)]

theorem shebangScan_cut {otherZ : Bool} {a : List Str} {hasSrc is1 : Bool} {src : Option Str} (h : ∃ w ∈ a, MarkCut w) :
    shebangScan otherZ true a hasSrc is1 src = .panic := by
  induction a generalizing hasSrc is1 src with
  | nil => obtain ⟨w, hw, -⟩ := h; cases hw
  | cons w ws ih =>
    unfold shebangScan
    by_cases hc : MarkCut w
    · obtain ⟨h1, h2⟩ := shebangOpts_cut hc
      rw [if_pos h1, h2]
      rfl
    · have hw : ∃ w ∈ ws, MarkCut w := by
        obtain ⟨w', hw, hm⟩ := h
        rcases List.mem_cons.1 hw with rfl | hw
        · exact absurd hm hc
        · exact ⟨w', hw, hm⟩
      split
      · rename_i hs
        obtain ⟨x, e⟩ := shebangOpts_fine hs hc
        rw [e]
        exact congrArg (Out.bind · _) (ih hw)
      · split
        · exact ih hw
        · exact congrArg (Out.bind · _) (ih hw)

theorem bindE_then {rec : Call → St → Out Res × St} {p : E α} {f : α → E β} {s s1 : St} {a : α} (h : p.run.interp H rec s = (.ok (.ok a), s1))
    (hf : ((f a).run.interp H rec s1).1 = .panic) : ((p >>= f).run.interp H rec s).1 = .panic := by
  have e : (p >>= f).run = p.run.bind (ExceptT.bindCont f) := rfl
  rw [e, interp_bind, h]
  exact hf

theorem bindE_first {rec : Call → St → Out Res × St} {p : E α} {f : α → E β} {s : St} (h : (p.run.interp H rec s).1 = .panic) :
    ((p >>= f).run.interp H rec s).1 = .panic := by
  have e : (p >>= f).run = p.run.bind (ExceptT.bindCont f) := rfl
  rw [e, interp_bind]
  rcases hx : p.run.interp H rec s with ⟨a | _ | _, s'⟩ <;> rw [hx] at h <;> first | rfl | cases h

theorem lift_ok {rec : Call → St → Out Res × St} {p : Prog α} {s s1 : St} {a : α} (h : p.interp H rec s = (.ok a, s1)) :
    (liftM p : E α).run.interp H rec s = (.ok (.ok a), s1) := by
  change (p.bind fun x => (Prog.ret (Except.ok x) : Prog (Except Err α))).interp H rec s = _
  rw [interp_bind, h]
  rfl

/-- Wherever the program reads a file with an unreadable `#!` line, it crashes then. -/
def Rp (H : Host) : Prog α → Prop
  | .ret _ => True
  | .panic => True
  | .op o k => (∀ a, Rp H (k a)) ∧ (match o, k with
    | .read _, k => ∀ text, BadFirstLine text → ∀ (rec : Call → St → Out Res × St) s, ((k (.ok text)).interp H rec s).1 = .panic
    | _, _ => True)
  | .call _ _ k => ∀ r, Rp H (k r)

def RpE (H : Host) (p : E α) : Prop := Rp H p.run

theorem Rp.bind {p : Prog α} {f : α → Prog β} (h : Rp H p) (hf : ∀ a, Rp H (f a)) : Rp H (p >>= f) := by
  change Rp H (p.bind f)
  induction p with
  | ret a => exact hf a
  | panic => trivial
  | op o k ih =>
    refine ⟨fun a => ih a (h.1 a), ?_⟩
    have h2 := h.2
    cases o with
    | read x =>
      intro text hb rec s
      have := h2 text hb rec s
      change (((k (.ok text)).bind f).interp H rec s).1 = .panic
      rw [interp_bind]
      rcases hx : (k (.ok text)).interp H rec s with ⟨a | _ | _, s'⟩ <;> rw [hx] at this <;> first | rfl | cases this
    | _ => trivial
  | call hd c k ih => exact fun r => ih r (h r)

theorem RpE.bind {p : E α} {f : α → E β} (h : RpE H p) (hf : ∀ a, RpE H (f a)) : RpE H (p >>= f) := by
  unfold RpE
  change Rp H (p.run >>= _)
  refine Rp.bind h fun a => ?_
  cases a with
  | ok a => exact hf a
  | error e => trivial

theorem rp_resE {p : E Unit} (h : RpE H p) : Rp H (resE p) := Rp.bind h fun _ => trivial

theorem RpE.lift {p : Prog α} (h : Rp H p) : RpE H (liftM p : E α) := Rp.bind h fun _ => trivial
theorem RpE.lift' {p : Prog α} (h : Rp H p) : RpE H (ExceptT.lift p : E α) := Rp.bind h fun _ => trivial

/-- A program that reads no file. -/
theorem rp_of_only {p : Prog α} (h : Only (· ≠ .file) p) : Rp H p := by
  induction p with
  | ret a => trivial
  | panic => trivial
  | op o k ih =>
    refine ⟨fun a => ih a (h.2 a), ?_⟩
    have := h.1
    cases o <;> first | exact absurd rfl this | trivial
  | call hd c k ih => exact fun r => ih r (h r)

theorem rpE_of_only {p : E α} (h : OnlyE (· ≠ .file) p) : RpE H p := rp_of_only h

theorem rp_open {f : Str} : Rp H (doOp (.open_ f)) := ⟨fun _ => trivial, trivial⟩

/-- A program that reads an unreadable line crashes. -/
theorem rp_read {rec : Call → St → Out Res × St} {p : Prog α} (h : Rp H p) {s t : St} {f text : Str} (hd : DoesOp H rec p s (.read f) t)
    (hr : H.read t.trace f = .ok text) (hb : BadFirstLine text) : (p.interp H rec s).1 = .panic := by
  induction p generalizing s with
  | ret a => exact hd.elim
  | panic => exact hd.elim
  | op o k ih =>
    rcases hd with ⟨rfl, rfl⟩ | ⟨a, s1, e, hd⟩
    · simp only [Prog.interp, Op.run, hr]
      exact h.2 text hb rec _
    · simp only [Prog.interp, e]
      exact ih a (h.1 a) hd
  | call hd' c0 k ih =>
    obtain ⟨r, s1, e, hd⟩ := hd
    simp only [St.hold] at e
    simp only [Prog.interp, e]
    exact ih r (h r) hd

theorem clparsP_cut {rec : Call → St → Out Res × St} {a : List Str} {q : Nat} {s : St} (h : a = [] ∨ ∃ w ∈ a.tail, MarkCut w) :
    ((clparsP a true false false true q).run.interp H rec s).1 = .panic := by
  cases a with
  | nil => rfl
  | cons w ws =>
    have h : ∃ w ∈ ws, MarkCut w := h.resolve_left nofun
    have e : ∃ s', (shlP true (w :: ws)).interp H rec s = (.ok ws, s') := by
      simp only [shlP, if_true]
      by_cases hh : s.shl.head? ≠ some '/'
      · exact ⟨_, by simp only [getSt, doOp, bind, Prog.bind, pure, Prog.interp, Op.run, if_pos hh]; rfl⟩
      · exact ⟨_, by simp only [getSt, doOp, bind, Prog.bind, pure, Prog.interp, Op.run, if_neg hh]; rfl⟩
    obtain ⟨s', e⟩ := e
    unfold clparsP
    refine bindE_then (lift_ok e) (bindE_first ?_)
    rw [shebangScan_cut h]
    rfl

theorem src2P_bad {rec : Call → St → Out Res × St} {q : Nat} {s : St} {text : Str} (h : BadFirstLine text) :
    ((if c!"#!".isPrefixOf text && text.contains '\n' then do
        doOp (.touch q)
        clparsP (split ((text.takeWhile (· ≠ '\n')).drop 2)) true false false true q
        return (text.dropWhile (· ≠ '\n')).drop 1
      else return text : E Str).run.interp H rec s).1 = .panic := by
  obtain ⟨line, rest, rfl, hn, hb⟩ := h
  have h1 : (c!"#!".isPrefixOf (c!"#!" ++ line ++ '\n' :: rest) && (c!"#!" ++ line ++ '\n' :: rest).contains '\n') = true := by
    simp
  have h2 : ((c!"#!" ++ line ++ '\n' :: rest).takeWhile (· ≠ '\n')).drop 2 = line := by
    have h3 : ∀ l : Str, '\n' ∉ l → (l ++ '\n' :: rest).takeWhile (· ≠ '\n') = l := by
      intro l hl
      induction l with
      | nil => simp
      | cons c l ih =>
        simp only [List.mem_cons, not_or] at hl
        have hc : c ≠ '\n' := fun e => hl.1 e.symm
        rw [List.cons_append, List.takeWhile_cons, if_pos (by simpa using hc), ih hl.2]
    rw [h3 _ (by simpa using hn)]
    rfl
  rw [if_pos h1, h2]
  rcases hx : (Op.touch q).run H s with ⟨a | _ | _, s'⟩
  · refine bindE_then (lift_ok (p := doOp (.touch q)) (s1 := s') (a := a) ?_) (bindE_first (clparsP_cut hb))
    simp only [doOp, Prog.interp, hx]
  · refine bindE_first ?_
    exact doesOp_panic (o := .touch q) (t := s) (.inl ⟨rfl, rfl⟩) (by rw [hx])
  · exfalso
    have : ((Op.touch q).run H s).1 ≠ .fuel := by
      simp only [Op.run, St.modScope]
      split <;> nofun
    rw [hx] at this
    exact this rfl

theorem rp_src2P {src : Str} {q : Nat} : RpE H (src2P src q) := by
  unfold src2P
  refine ⟨fun r => ?_, fun text hb rec s => src2P_bad hb⟩
  cases r with
  | error e => trivial
  | ok t =>
    change RpE H (if _ then _ else _)
    split
    · exact RpE.bind (RpE.lift ⟨fun _ => trivial, trivial⟩) fun _ => RpE.bind (rpE_of_only (o_clparsP nofun nofun nofun nofun)) fun _ => trivial
    · trivial

theorem rp_openP {f : Str} {b : Bool} {q : Nat} : Rp H (openP f b q) := by
  unfold openP
  refine Rp.bind rp_open fun x => ?_
  split
  · refine rp_of_only ?_
    have h1 : (Kind.src : Kind) ≠ .file := nofun
    only
  · trivial

theorem rp_openFirst {f : Str} {b : Bool} {q : Nat} {l : List Str} : Rp H (openFirst f b q l) := by
  induction l with
  | nil => trivial
  | cons x l ih =>
    unfold openFirst
    refine Rp.bind ⟨fun _ => trivial, trivial⟩ fun r => ?_
    split
    · refine Rp.bind rp_openP fun x => ?_
      split
      · trivial
      · exact ih
    · exact ih

theorem rp_okSrcP {f : Str} {b : Bool} {q : Nat} : Rp H (okSrcP f b q) := by
  unfold okSrcP
  split
  · trivial
  · split
    · exact rp_openP
    · refine Rp.bind ⟨fun _ => trivial, trivial⟩ fun s => Rp.bind rp_openFirst fun x => ?_
      split
      · trivial
      · exact rp_openP

theorem rp_loadP {f : Str} {b : Bool} {q : Nat} : RpE H (loadP f b q) := by
  unfold loadP
  refine RpE.bind (RpE.lift rp_okSrcP) fun _ => RpE.bind (RpE.lift ⟨fun _ => trivial, trivial⟩) fun s => ?_
  split
  · trivial
  · exact RpE.bind rp_src2P fun _ => trivial

theorem rp_evalP {b : Bool} {c : Str} {d f : List Code} {sp : Nat} {g : Bool} {env : Env} : RpE H (evalP true b c d f sp g env) := by
  have hp : (Kind.plain : Kind) ≠ .file := nofun
  have hs : (Kind.src : Kind) ≠ .file := nofun
  have hn : (Kind.scope : Kind) ≠ .file := nofun
  have ha : (Kind.args1 : Kind) ≠ .file := nofun
  have k2 : ∀ (q2 : Nat) (src2 : Str), RpE H (do
      if !b then
        let arg0 ← evalArg0 c d env
        if !arg0.isEmpty then doOp (.setArg0 q2 arg0)
      callE [] (.src src2 { env with q := q2 })) := by
    intro q2 src2; refine rpE_of_only ?_; only
  have k3 : ∀ (q2 : Nat) (src : Str), RpE H (do
      match ← (loadP src b q2 : E (Option Str)) with
      | none => return ()
      | some src2 =>
        if !b then
          let arg0 ← evalArg0 c d env
          if !arg0.isEmpty then doOp (.setArg0 q2 arg0)
        callE [] (.src src2 { env with q := q2 })) := by
    intro q2 src
    refine RpE.bind rp_loadP fun x => ?_
    · split
      · trivial
      · exact k2 _ _
  have k4 : ∀ (q2 args : Nat) (src : Str), RpE H (do
      let l ← getList args
      if l.a.isEmpty && g then addT args []
      if !b then doOp (.setSrc q2 src)
      match ← (loadP src b q2 : E (Option Str)) with
      | none => return ()
      | some src2 =>
        if !b then
          let arg0 ← evalArg0 c d env
          if !arg0.isEmpty then doOp (.setArg0 q2 arg0)
        callE [] (.src src2 { env with q := q2 })) := by
    intro q2 args src
    refine RpE.bind (rpE_of_only (OnlyE.lift (o_getList hp))) fun l => ?_
    dsimp only
    have k3 := k3 q2 src
    have k6 : ∀ f : PUnit → E Unit, (∀ x, RpE H (f x)) →
        RpE H ((addT args [] : Prog _) >>= f) :=
      fun f h => RpE.bind (rpE_of_only (OnlyE.lift (o_addT hp))) h
    have k7 : ∀ f : PUnit → E Unit, (∀ x, RpE H (f x)) →
        RpE H ((doOp (.setSrc q2 src) : Prog _) >>= f) :=
      fun f h => RpE.bind (rpE_of_only (OnlyE.lift (only_doOp hs))) h
    have k8 : RpE H (do
        if !b then doOp (.setSrc q2 src)
        match ← (loadP src b q2 : E (Option Str)) with
        | none => return ()
        | some src2 =>
          if !b then
            let arg0 ← evalArg0 c d env
            if !arg0.isEmpty then doOp (.setArg0 q2 arg0)
          callE [] (.src src2 { env with q := q2 })) := by
      by_cases hb : (!b) = true
      · dsimp only
        rw [if_pos hb]
        exact k7 _ fun _ => k3
      · dsimp only
        rw [if_neg hb]
        exact k3
    by_cases hl : (l.a.isEmpty && g) = true
    · rw [if_pos hl]
      exact k6 _ fun _ => k8
    · rw [if_neg hl]
      exact k8
  have k5 : ∀ (q2 args : Nat), RpE H (do
      let (src, rems) ← split2a [.scope q2] f sp { env with ret := args }
      match rems with
      | r :: _ => fail (errNoRem2 r)
      | [] =>
        split2b [.scope q2] f sp { env with ret := args }
        let l ← getList args
        if l.a.isEmpty && g then addT args []
        if !b then doOp (.setSrc q2 src)
        match ← (loadP src b q2 : E (Option Str)) with
        | none => return ()
        | some src2 =>
          if !b then
            let arg0 ← evalArg0 c d env
            if !arg0.isEmpty then doOp (.setArg0 q2 arg0)
          callE [] (.src src2 { env with q := q2 })) := by
    intro q2 args
    refine RpE.bind (rpE_of_only (o_split2a hp)) fun x => ?_
    split
    split
    · trivial
    · exact RpE.bind (rpE_of_only o_split2b) fun _ => k4 _ _ _
  unfold evalP
  refine RpE.bind (RpE.lift (rp_of_only ?_)) fun q2 => ?_
  · only
  refine RpE.bind (rpE_of_only (OnlyE.lift (only_doOp ha))) fun _ => ?_
  refine RpE.bind (rpE_of_only (OnlyE.lift (only_getSt hp))) fun s => ?_
  dsimp only
  split
  · exact RpE.bind (rpE_of_only (OnlyE.lift (o_addDun hp))) fun _ => k5 _ _
  · exact k5 _ _

theorem rp_mainP {argv : List Str} : RpE H (mainP argv) := by
  have hp : (Kind.plain : Kind) ≠ .file := nofun
  have hv : (Kind.var : Kind) ≠ .file := nofun
  unfold mainP
  refine RpE.bind (rpE_of_only (o_clparsP nofun nofun nofun nofun)) fun _ => RpE.bind (RpE.lift ⟨fun _ => trivial, trivial⟩) fun s => ?_
  have top : ∀ n v, Rp H (topVal n v) := fun n v => by
    refine rp_of_only ?_
    unfold topVal
    only
  refine RpE.bind (RpE.lift (top _ _)) fun _ => RpE.bind (RpE.lift (top _ _)) fun _ => RpE.bind ?_ fun _ => fun _ => trivial
  split
  · exact RpE.bind (RpE.lift rp_okSrcP) fun _ => RpE.bind (RpE.lift ⟨fun _ => trivial, trivial⟩) fun s => rp_src2P
  · trivial

/-- **C44.**  A run that reads a script with an unreadable `#!` line crashes. -/
theorem C44_script_line {n : Nat} {ovf : Bool} {argv : List Str} {t : St} {p text : Str}
    (h : DoesOp H (run H n) (mainP argv).run (St.init ovf) (.read p) t) (hr : H.read t.trace p = .ok text) (hb : BadFirstLine text) :
    (runMain H n ovf argv).1 = .panic := rp_read rp_mainP h hr hb

/-- **C44.**  A run in which a statement reads a file with an unreadable `#!` line crashes. -/
theorem C44_loaded_line {n m : Nat} {ovf : Bool} {argv : List Str} {c : Call} {s t : St} {p text : Str} (h : HappensMain H n ovf argv c s)
    (hl : c.Loads) (hd : DoesOp H (run H m) (evalF c) s (.read p) t) (hr : H.read t.trace p = .ok text) (hb : BadFirstLine text) :
    ∃ m, (runMain H m ovf argv).1 = .panic := by
  refine happensMain_panic (k := m + 1) h ?_
  cases c with
  | item c env =>
    cases c with
    | eval load b c d f sp g =>
      cases load with
      | false => exact hl.elim
      | true => exact rp_read (rp_resE rp_evalP) hd hr hb
    | _ => exact hl.elim
  | _ => exact hl.elim

/-- **C44.**  A run in which an evaluation is in a situation of `Cause` crashes, except where the cause is that arguments are read with
overflow checks or into the list of arguments itself. -/
theorem C44_causes_partial {n : Nat} {ovf : Bool} {argv : List Str} {c : Call} {s : St} (h : HappensMain H n ovf argv c s) (hc : Cause H c s) :
    (∃ m, (runMain H m ovf argv).1 = .panic) ∨
      c.ReadsArgs ∧ (s.ovf = true ∨ ∃ env q, c.env = some env ∧ (s.scopes q).args = env.ret) := by
  rcases causes_most h hc with h1 | ⟨k, t, p, text, h1, h2, h3, h4⟩ | h1
  · exact .inl h1
  · exact .inl (C44_loaded_line h h1 h2 h3 h4)
  · exact .inr h1

/-- The situation of `C44_causes_partial` for a script that crashes: a definition that defines itself again. -/
example : ∃ c s, HappensMain H1 14 false (demoArgv c!"定义甲以“定义甲【上】以1”。甲。") c s ∧ Cause H1 c s ∧
    ∃ m, (runMain H1 m false (demoArgv c!"定义甲以“定义甲【上】以1”。甲。")).1 = .panic := by
  rcases C44_crash_partial H1_ok 14 false (demoArgv c!"定义甲以“定义甲【上】以1”。甲。") C44_redefine_counterexample with
    h | ⟨t, p, text, -, h, -⟩ | ⟨c, s, h, hc, -⟩
  · cases h
  · cases h
  · exact ⟨c, s, h, hc, 14, C44_redefine_counterexample⟩

/-- **C44.**  The interpreter crashes on a command line exactly when there is no word on it, or the script read has an unreadable `#!` line,
or an evaluation in a situation of `Cause` happens; where arguments are read, it must really crash. -/
theorem C44_crash_iff (hH : HostOk H) (ovf : Bool) (argv : List Str) : (∃ n, (runMain H n ovf argv).1 = .panic) ↔
    argv = [] ∨
    (∃ n t p text, DoesOp H (run H n) (mainP argv).run (St.init ovf) (.read p) t ∧ H.read t.trace p = .ok text ∧ BadFirstLine text) ∨
    ∃ n c s, HappensMain H n ovf argv c s ∧ Cause H c s ∧ (c.ReadsArgs → ∃ m, (run H m c s).1 = .panic) := by
  constructor
  · rintro ⟨n, hp⟩
    rcases C44_crash_partial hH n ovf argv hp with h | ⟨t, p, text, h⟩ | ⟨c, s, h1, h2, h3⟩
    · exact .inl h
    · exact .inr (.inl ⟨n, t, p, text, h⟩)
    · exact .inr (.inr ⟨n, c, s, h1, h2, fun _ => h3⟩)
  · rintro (rfl | ⟨n, t, p, text, h1, h2, h3⟩ | ⟨n, c, s, h1, h2, h3⟩)
    · exact ⟨0, rfl⟩
    · exact ⟨n, C44_script_line h1 h2 h3⟩
    · rcases C44_causes_partial h1 h2 with h | ⟨hr, -⟩
      · exact h
      · obtain ⟨m, hm⟩ := h3 hr
        exact happensMain_panic h1 hm

/-! ## Examples -/

/-- A computable check whether an operation with a property is done. -/
def opsB (H : Host) (rec : Call → St → Out Res × St) (P : Op → St → Bool) {α : Type} : Prog α → St → Bool
  | .ret _, _ => false
  | .panic, _ => false
  | .op o k, s => P o s || match o.run H s with
    | (.ok a, s') => opsB H rec P (k a) s'
    | _ => false
  | .call h c k, s => match rec c (s.hold h) with
    | (.ok r, s') => opsB H rec P (k r) { s' with held := s.held }
    | _ => false

theorem opsB_sound {rec : Call → St → Out Res × St} {P : Op → St → Bool} (p : Prog α) (s : St) (h : opsB H rec P p s = true) :
    ∃ o t, DoesOp H rec p s o t ∧ P o t = true := by
  induction p generalizing s with
  | ret a => cases h
  | panic => cases h
  | op o k ih =>
    simp only [opsB, Bool.or_eq_true] at h
    rcases h with h | h
    · exact ⟨o, s, .inl ⟨rfl, rfl⟩, h⟩
    · split at h
      · rename_i a s' e
        obtain ⟨o', t, h1, h2⟩ := ih a s' h
        exact ⟨o', t, .inr ⟨a, s', e, h1⟩, h2⟩
      · cases h
  | call hd c k ih =>
    simp only [opsB] at h
    split at h
    · rename_i r s' e
      obtain ⟨o', t, h1, h2⟩ := ih r _ h
      exact ⟨o', t, ⟨r, s', e, h1⟩, h2⟩
    · cases h

theorem happensB_sound {P : Call → St → Bool} {n : Nat} {c : Call} {s : St} (h : happensB H P n c s = true) :
    ∃ c' s', Happens H n c s c' s' ∧ P c' s' = true := by
  induction n generalizing c s with
  | zero => cases h
  | succ n ih =>
    simp only [happensB, Bool.or_eq_true] at h
    rcases h with h | h
    · exact ⟨c, s, .self n c s, h⟩
    · obtain ⟨c1, s1, h1, h2⟩ := callsB_sound _ _ h
      obtain ⟨c', s', h3, h4⟩ := ih h2
      exact ⟨c', s', .step h1 h3, h4⟩

def readsB (f : Str) : Op → St → Bool
  | .read g, _ => g = f
  | _, _ => false

theorem readsB_op {f : Str} {o : Op} {t : St} (h : readsB f o t = true) : o = .read f := by
  cases o with
  | read g => rw [of_decide_eq_true h]
  | _ => cases h

/-- `加载` that reads the file. -/
def loadsB (H : Host) (n : Nat) (f : Str) : Call → St → Bool
  | .item (.eval true a b c d e g) env, s => opsB H (run H n) (readsB f) (evalF (.item (.eval true a b c d e g) env)) s
  | _, _ => false

theorem loadsB_op {n : Nat} {f : Str} {c : Call} {s : St} (h : loadsB H n f c s = true) :
    c.Loads ∧ ∃ t, DoesOp H (run H n) (evalF c) s (.read f) t := by
  unfold loadsB at h
  split at h
  · obtain ⟨o, t, h1, h2⟩ := opsB_sound _ _ h
    exact ⟨trivial, t, readsB_op h2 ▸ h1⟩
  · cases h

def badText : Str := c!"#! zs 甲--。\n显示1。"

theorem badText_bad : BadFirstLine badText := by
  refine ⟨c!" zs 甲--。", c!"显示1。", rfl, by decide, .inr ⟨c!"甲--。", ?_, [], '甲', rfl, by decide⟩⟩
  decide +kernel

/-- The situation of `C44_script_line`. -/
example : ∃ t, DoesOp (HF badText) (run (HF badText) 0) (mainP [c!"/b/zs", c!"a.zs"]).run (St.init false) (.read c!"/d/a.zs") t ∧
    (HF badText).read t.trace c!"/d/a.zs" = .ok badText ∧ BadFirstLine badText := by
  obtain ⟨o, t, h1, h2⟩ := opsB_sound (H := HF badText) (rec := run (HF badText) 0) (P := readsB c!"/d/a.zs")
    (mainP [c!"/b/zs", c!"a.zs"]).run (St.init false) (by decide +kernel)
  exact ⟨t, readsB_op h2 ▸ h1, rfl, badText_bad⟩

/-- The situation of `C44_loaded_line`. -/
example : ∃ c s t, HappensMain (HF badText) 12 false [c!"/b/zs", c!"-zhscript-src-is-code", c!"加载“a.zs”。"] c s ∧ c.Loads ∧
    DoesOp (HF badText) (run (HF badText) 5) (evalF c) s (.read c!"/d/a.zs") t ∧
    (HF badText).read t.trace c!"/d/a.zs" = .ok badText ∧ BadFirstLine badText := by
  obtain ⟨c1, s1, h1, h2⟩ := callsB_sound (H := HF badText) (rec := run (HF badText) 12) (P := happensB (HF badText) (loadsB (HF badText) 5 c!"/d/a.zs") 12)
    (mainP [c!"/b/zs", c!"-zhscript-src-is-code", c!"加载“a.zs”。"]).run (St.init false) (by decide +kernel)
  obtain ⟨c, s, h3, h4⟩ := happensB_sound h2
  obtain ⟨h5, t, h6⟩ := loadsB_op h4
  exact ⟨c, s, t, ⟨c1, s1, h1, h3⟩, h5, h6, rfl, badText_bad⟩

end Zh
