import Verif.Props.Exec
import Verif.Props.Args
import Verif.Props.Runs
/-!
# C36: the arguments of the script
-/
namespace Zh

/-! ## Specification -/
namespace Spec

/-- What the options of the interpreter begin with. -/
def OPT : Str := c!"-zhscript-"

/-- The mark that ends a word of a `#!` line. -/
def MARK : Str := c!"--。"

/-- The options of the interpreter; `other` is an unknown one, which is ignored. -/
inductive CliOpt where
  | isCode
  | path (p : Str)
  | jhdh
  | tree
  | other (w : Str) (h : OPT <+: w) (h2 : w ∉ [c!"-zhscript-src-is-code", c!"-zhscript-path", c!"-zhscript-jhdh",
      c!"-zhscript-d-tree", c!"-zhscript-help"])

/-- How an option is written. -/
def CliOpt.words : CliOpt → List Str
  | .isCode => [c!"-zhscript-src-is-code"]
  | .path p => [c!"-zhscript-path", p]
  | .jhdh => [c!"-zhscript-jhdh"]
  | .tree => [c!"-zhscript-d-tree"]
  | .other w _ _ => [w]

/-- No word ends with the mark. -/
def Unmarked (ws : List Str) : Prop := ∀ w ∈ ws, ¬ MARK <:+ w

/-- Command lines: the words of the whole line, the options of the interpreter, the name of the script (or its code; empty
when there is none), and the words that are meant for the script. -/
inductive CliLine : List Str → List CliOpt → Str → List Str → Prop
  /-- `zs [options] script words…` -/
  | plain (shl : Str) (opts : List CliOpt) (src : Str) (ws : List Str) (h1 : Unmarked (opts.flatMap CliOpt.words ++ src :: ws))
      (h2 : ¬ OPT <+: src) (h3 : src.head? ≠ some '-') (h4 : ws.length ≤ 1000000000) :
      CliLine (shl :: (opts.flatMap CliOpt.words ++ src :: ws)) opts src ws
  /-- `zs [options] …--。 script words…`: the way the kernel starts a script whose `#!` line ends with the mark -/
  | marked (shl : Str) (opts : List CliOpt) (m src : Str) (ws : List Str) (h1 : Unmarked (opts.flatMap CliOpt.words ++ src :: ws))
      (h2 : MARK <:+ m) (h4 : ws.length ≤ 1000000000) :
      CliLine (shl :: (opts.flatMap CliOpt.words ++ m :: src :: ws)) opts src ws
  /-- `zs [options] -word words…`: no script -/
  | dash (shl : Str) (opts : List CliOpt) (w : Str) (ws : List Str) (h1 : Unmarked (opts.flatMap CliOpt.words ++ w :: ws))
      (h2 : ¬ OPT <+: w) (h3 : w.head? = some '-') (h4 : ws.length ≤ 1000000000) :
      CliLine (shl :: (opts.flatMap CliOpt.words ++ w :: ws)) opts [] (w :: ws)
  /-- `zs [options]`: no script -/
  | none (shl : Str) (opts : List CliOpt) (h1 : Unmarked (opts.flatMap CliOpt.words)) :
      CliLine (shl :: opts.flatMap CliOpt.words) opts [] []

/-- The arguments of scope `q` are the texts `ws`, one argument for each. -/
def HasArgs (s : St) (q : Nat) (ws : List Str) : Prop :=
  WF (s.lists (s.scopes q).args) ∧
    (argsOf (s.lists (s.scopes q).args)).map (·.map Item.val) = ws.map fun w => [Val.s w]

/-- A run of the interpreter ends with `r` and the state `s'`. -/
def Ran (H : Host) (ovf : Bool) (argv : List Str) (r : Except Err Unit) (s' : St) : Prop :=
  ∃ n, runMain H n ovf argv = (.ok r, s')

/-- The words of a `#!` line (after the interpreter) that are meant for the script; `none` if the line is wrong: it asks for
help, or the word after `-zhscript-path` is missing. -/
def plainWords : List Str → Option (List Str)
  | [] => some []
  | [w] => if w = c!"-zhscript-path" ∨ w = c!"-zhscript-help" then Option.none else if OPT <+: w then some [] else some [w]
  | w :: p :: ws =>
    if w = c!"-zhscript-path" then plainWords ws
    else if w = c!"-zhscript-help" then Option.none
    else if OPT <+: w then plainWords (p :: ws)
    else (plainWords (p :: ws)).map (w :: ·)

end Spec

open Spec

/-! ## The option table -/

theorem cliTable_eq (b : Bool) : cliTable b =
    [ ⟨c!"-zhscript-src-is-code", [c!"-zhscript-src-is-code"], 0, .full, []⟩,
      ⟨c!"-zhscript-path", [c!"-zhscript-path"], 1, .full, []⟩,
      ⟨c!"-zhscript-jhdh", [c!"-zhscript-jhdh"], 0, .full, []⟩,
      ⟨c!"-zhscript-d-tree", [c!"-zhscript-d-tree"], 0, .full, []⟩,
      ⟨c!"-zhscript-help", [c!"-zhscript-help"], 0, .full, []⟩,
      ⟨c!"-zhscript-", [c!"-zhscript-"], 0, .starts, c!"以此为头之其他将忽略"⟩,
      ⟨[], [[]], if b then Clpars.ARGC_Z else 0, .full, []⟩ ] := by
  cases b <;> decide +kernel

/-- What an option does to the list of actions. -/
def Spec.CliOpt.act : CliOpt → List CliAct
  | .isCode => [.isCode]
  | .path p => [.path (p ++ c!"/0")]
  | .jhdh => [.jhdh]
  | .tree => []
  | .other w _ _ => [.ignore w]

/-- The last item of the table. -/
def cliRest (b : Bool) : Clpars.Item := ⟨[], [[]], if b then Clpars.ARGC_Z else 0, .full, []⟩

/-- The item of the unknown options. -/
def cliOther : Clpars.Item := ⟨c!"-zhscript-", [c!"-zhscript-"], 0, .starts, c!"以此为头之其他将忽略"⟩

theorem cliTable_rest (b : Bool) : (cliTable b).filter (·.tag.isEmpty) = [cliRest b] := by
  cases b <;> decide +kernel

theorem cliTable_other (b : Bool) {w : Str} (h : OPT <+: w) (h2 : w ∉ [c!"-zhscript-src-is-code", c!"-zhscript-path",
    c!"-zhscript-jhdh", c!"-zhscript-d-tree", c!"-zhscript-help"]) : (cliTable b).filter (·.hit w) = [cliOther] := by
  simp only [List.mem_cons, List.not_mem_nil, or_false, not_or] at h2
  obtain ⟨n1, n2, n3, n4, n5⟩ := h2
  have h' : List.isPrefixOf c!"-zhscript-" w = true := List.isPrefixOf_iff_prefix.2 h
  rw [cliTable_eq]
  simp only [Clpars.Item.hit, Clpars.Typ.hit, List.any_cons, List.any_nil, Bool.or_false, List.filter_cons, beq_eq_false_iff_ne.2 n1,
    beq_eq_false_iff_ne.2 n2, beq_eq_false_iff_ne.2 n3, beq_eq_false_iff_ne.2 n4, beq_eq_false_iff_ne.2 n5, h', Bool.and_false,
    List.isEmpty_nil, Bool.not_true, Bool.false_and, Bool.false_eq_true, if_false, Bool.and_true, List.filter_nil]
  rfl

theorem cliTable_none (b : Bool) {w : Str} (h : ¬ OPT <+: w) : (cliTable b).filter (·.hit w) = [] := by
  have h' : List.isPrefixOf c!"-zhscript-" w = false := by
    cases e : List.isPrefixOf c!"-zhscript-" w
    · rfl
    · exact absurd (List.isPrefixOf_iff_prefix.1 e) h
  have ne : ∀ k, OPT <+: k → (w == k) = false := fun k hk => beq_eq_false_iff_ne.2 fun e => h (e ▸ hk)
  have n1 := ne c!"-zhscript-src-is-code" (List.isPrefixOf_iff_prefix.1 (by decide +kernel))
  have n2 := ne c!"-zhscript-path" (List.isPrefixOf_iff_prefix.1 (by decide +kernel))
  have n3 := ne c!"-zhscript-jhdh" (List.isPrefixOf_iff_prefix.1 (by decide +kernel))
  have n4 := ne c!"-zhscript-d-tree" (List.isPrefixOf_iff_prefix.1 (by decide +kernel))
  have n5 := ne c!"-zhscript-help" (List.isPrefixOf_iff_prefix.1 (by decide +kernel))
  rw [cliTable_eq]
  simp only [Clpars.Item.hit, Clpars.Typ.hit, List.any_cons, List.any_nil, Bool.or_false, List.filter_cons, n1, n2, n3, n4, n5, h',
    Bool.and_false, List.isEmpty_nil, Bool.not_true, Bool.false_and, Bool.false_eq_true, if_false, List.filter_nil]

namespace Clpars

/-- One tagged word with its words. -/
theorem for3Go_step {σ : Type} (cb : σ → Call → Int × σ) (cb2 : σ → Str → Int × σ) {items : List Item} {w : Str}
    {args ws : List Str} {no0 k : Nat} {st st' : σ}
    (hc : callItems cb w (args ++ ws) 0 (items.filter (·.hit w)) 0 [] st = (0, k + 1, args, st')) :
    for3Go cb cb2 items (w :: (args ++ ws)) 0 no0 st = for3Go cb cb2 items ws 0 no0 st' := by
  have skip : ∀ (args : List Str) st, for3Go cb cb2 items (args ++ ws) args.length no0 st = for3Go cb cb2 items ws 0 no0 st := by
    intro args st
    induction args with
    | nil => rfl
    | cons a as ih => exact ih
  rw [for3Go, hc]
  exact skip args st'

/-- One untagged word with its words. -/
theorem for3Go_step0 {σ : Type} (cb : σ → Call → Int × σ) (cb2 : σ → Str → Int × σ) {items : List Item} {w : Str}
    {args ws : List Str} {no0 k : Nat} {st st' : σ} (h0 : items.filter (·.hit w) = [])
    (hc : callItems cb w (args ++ ws) (no0 + 1) (items.filter (·.tag.isEmpty)) 0 [] st = (0, k + 1, args, st')) :
    for3Go cb cb2 items (w :: (args ++ ws)) 0 no0 st = for3Go cb cb2 items ws 0 (no0 + 1) st' := by
  have skip : ∀ (args : List Str) st, for3Go cb cb2 items (args ++ ws) args.length (no0 + 1) st
      = for3Go cb cb2 items ws 0 (no0 + 1) st := by
    intro args st
    induction args with
    | nil => rfl
    | cons a as ih => exact ih
  have e : callItems cb w (args ++ ws) 0 [] 0 [] st = (0, 0, [], st) := rfl
  rw [for3Go, h0]
  simp only [e, hc, ne_eq, not_true_eq_false, if_false, Nat.add_one_ne_zero, not_false_eq_true, if_true]
  exact skip args st'

end Clpars

theorem cli_known (b : Bool) : ∀ x ∈ [(c!"-zhscript-src-is-code", 0), (c!"-zhscript-path", 1), (c!"-zhscript-jhdh", 0),
      (c!"-zhscript-d-tree", 0), (c!"-zhscript-help", 0)],
    (cliTable b).filter (·.hit x.1) = [⟨x.1, [x.1], x.2, .full, []⟩, cliOther] := by
  cases b <;> decide +kernel

theorem cli_opt (b h : Bool) (acts : List CliAct) (o : CliOpt) (ws : List Str) (no0 : Nat) :
    Clpars.for3Go (cliCb b) (fun st _ => (0, st)) (cliTable b) (o.words ++ ws) 0 no0 (h, acts) =
      Clpars.for3Go (cliCb b) (fun st _ => (0, st)) (cliTable b) ws 0 no0 (h, acts ++ o.act) := by
  have K := cli_known b
  cases o with
  | isCode =>
    refine Clpars.for3Go_step (args := []) (k := 1) _ _ ?_
    rw [K (c!"-zhscript-src-is-code", 0) (by simp)]; rfl
  | path p =>
    refine Clpars.for3Go_step (args := [p]) (k := 1) _ _ ?_
    rw [K (c!"-zhscript-path", 1) (by simp)]; rfl
  | jhdh =>
    refine Clpars.for3Go_step (args := []) (k := 1) _ _ ?_
    rw [K (c!"-zhscript-jhdh", 0) (by simp)]; rfl
  | tree =>
    refine Clpars.for3Go_step (args := []) (k := 1) _ _ ?_
    rw [K (c!"-zhscript-d-tree", 0) (by simp)]
    change (_, _, _, _, _) = (_, _, _, _, acts ++ [])
    rw [List.append_nil]
    rfl
  | other w h1 h2 =>
    refine Clpars.for3Go_step (args := []) (k := 0) _ _ ?_
    rw [cliTable_other b h1 h2]; rfl

theorem cli_opts (b h : Bool) (acts : List CliAct) (opts : List CliOpt) (ws : List Str) (no0 : Nat) :
    Clpars.for3Go (cliCb b) (fun st _ => (0, st)) (cliTable b) (opts.flatMap CliOpt.words ++ ws) 0 no0 (h, acts) =
      Clpars.for3Go (cliCb b) (fun st _ => (0, st)) (cliTable b) ws 0 no0 (h, acts ++ opts.flatMap CliOpt.act) := by
  induction opts generalizing acts with
  | nil => simp
  | cons o os ih => rw [List.flatMap_cons, List.append_assoc, cli_opt, ih, List.flatMap_cons, List.append_assoc]

/-- The first word that is no option takes all the others. -/
theorem cli_rest (h : Bool) (acts : List CliAct) (w : Str) (ws : List Str) (no0 : Nat) (hw : ¬ OPT <+: w)
    (hl : ws.length ≤ 1000000000) :
    Clpars.for3Go (cliCb true) (fun st _ => (0, st)) (cliTable true) (w :: ws) 0 no0 (h, acts) =
      (none, (false, acts ++ (if h then [if w.head? = some '-' then CliAct.arg w else .src w] else []) ++ ws.map .arg)) := by
  have e : w :: ws = w :: (ws ++ []) := by simp
  have ht : ws.take (cliRest true).cnt = ws := by
    have : (cliRest true).cnt = 1000000000 := by decide +kernel
    rw [this]
    exact List.take_of_length_le hl
  have hn : (cliRest true).need 0 = 0 := by decide +kernel
  have ne : ∀ k, OPT <+: k → w ≠ k := fun k hk e => hw (e ▸ hk)
  have n1 := ne c!"-zhscript-src-is-code" (List.isPrefixOf_iff_prefix.1 (by decide +kernel))
  have n2 := ne c!"-zhscript-path" (List.isPrefixOf_iff_prefix.1 (by decide +kernel))
  have n3 := ne c!"-zhscript-jhdh" (List.isPrefixOf_iff_prefix.1 (by decide +kernel))
  have n4 := ne c!"-zhscript-d-tree" (List.isPrefixOf_iff_prefix.1 (by decide +kernel))
  have n5 := ne c!"-zhscript-help" (List.isPrefixOf_iff_prefix.1 (by decide +kernel))
  have hcb : cliCb true (h, acts) ⟨w, ws, 0, cliRest true, 1, no0 + 1⟩ =
      (0, (false, acts ++ (if h then [if w.head? = some '-' then CliAct.arg w else .src w] else []) ++ ws.map .arg)) := by
    unfold cliCb
    simp only [n1, n2, n3, n4, n5, if_false, if_true]
    rfl
  rw [e, Clpars.for3Go_step0 (k := 0) (args := ws)
    (st' := (false, acts ++ (if h then [if w.head? = some '-' then CliAct.arg w else .src w] else []) ++ ws.map .arg)) _ _
    (cliTable_none true hw) ?_]
  · rfl
  · rw [cliTable_rest]
    simp only [Clpars.callItems, List.append_nil, List.nil_append, ht, List.length_nil, hn, Nat.zero_add, if_true, hcb,
      Nat.not_lt_zero, and_false, if_false, ne_eq, not_true_eq_false]

/-! ### The words of a `#!` line -/

/-- The arguments among the actions. -/
def argsIn (acts : List CliAct) : List Str := acts.filterMap fun | .arg t => some t | _ => none

/-- No action sets the script. -/
def noSrc (acts : List CliAct) : Prop := ∀ x, CliAct.src x ∉ acts

theorem cli_word (acts : List CliAct) (w : Str) (ws : List Str) (no0 : Nat) (hw : ¬ OPT <+: w) :
    Clpars.for3Go (cliCb false) (fun st _ => (0, st)) (cliTable false) (w :: ws) 0 no0 (false, acts) =
      Clpars.for3Go (cliCb false) (fun st _ => (0, st)) (cliTable false) ws 0 (no0 + 1) (false, acts ++ [.arg w]) := by
  have hn : (cliRest false).need 0 = 0 := by decide +kernel
  have hk : (cliRest false).cnt = 0 := by decide +kernel
  have ne : ∀ k, OPT <+: k → w ≠ k := fun k hk e => hw (e ▸ hk)
  have n1 := ne c!"-zhscript-src-is-code" (List.isPrefixOf_iff_prefix.1 (by decide +kernel))
  have n2 := ne c!"-zhscript-path" (List.isPrefixOf_iff_prefix.1 (by decide +kernel))
  have n3 := ne c!"-zhscript-jhdh" (List.isPrefixOf_iff_prefix.1 (by decide +kernel))
  have n4 := ne c!"-zhscript-d-tree" (List.isPrefixOf_iff_prefix.1 (by decide +kernel))
  have n5 := ne c!"-zhscript-help" (List.isPrefixOf_iff_prefix.1 (by decide +kernel))
  have hcb : cliCb false (false, acts) ⟨w, [], 0, cliRest false, 1, no0 + 1⟩ = (0, (false, acts ++ [.arg w])) := by
    unfold cliCb
    simp only [n1, n2, n3, n4, n5, if_false]
    simp [cliRest]
  refine Clpars.for3Go_step0 (k := 0) (args := []) _ _ (cliTable_none false hw) ?_
  rw [cliTable_rest]
  simp only [Clpars.callItems, List.nil_append, hk, List.take_zero, List.append_nil, List.length_nil, hn, Nat.zero_add, if_true, hcb,
    Nat.not_lt_zero, and_false, if_false, ne_eq, not_true_eq_false]

/-- How the options of one word are read. -/
theorem opt_of_word {w : Str} (h : OPT <+: w) (h1 : w ≠ c!"-zhscript-path") (h2 : w ≠ c!"-zhscript-help") :
    ∃ o : CliOpt, o.words = [w] ∧ argsIn o.act = [] ∧ noSrc o.act := by
  by_cases e1 : w = c!"-zhscript-src-is-code"
  · exact ⟨.isCode, by rw [e1]; rfl, rfl, fun x => by simp [CliOpt.act]⟩
  by_cases e2 : w = c!"-zhscript-jhdh"
  · exact ⟨.jhdh, by rw [e2]; rfl, rfl, fun x => by simp [CliOpt.act]⟩
  by_cases e3 : w = c!"-zhscript-d-tree"
  · exact ⟨.tree, by rw [e3]; rfl, rfl, fun x => by simp [CliOpt.act]⟩
  exact ⟨.other w h (by simp [e1, e2, e3, h1, h2]), rfl, rfl, fun x => by simp [CliOpt.act]⟩

theorem cli_line (ws : List Str) : ∀ (acts : List CliAct) (no0 : Nat), noSrc acts → ∃ r acts',
    Clpars.for3Go (cliCb false) (fun st _ => (0, st)) (cliTable false) ws 0 no0 (false, acts) = (r, (false, acts')) ∧ noSrc acts' ∧
      (∀ ps, plainWords ws = some ps → r = none ∧ argsIn acts' = argsIn acts ++ ps) ∧
      (plainWords ws = none → ∃ w, r = some (Clpars.HELP, w) ∨ r = some (Clpars.ARG_NE, w)) := by
  have help : ∀ (ws : List Str) acts no0, Clpars.for3Go (cliCb false) (fun st _ => (0, st)) (cliTable false)
      (c!"-zhscript-help" :: ws) 0 no0 (false, acts) = (some (Clpars.HELP, c!"-zhscript-help"), (false, acts)) := by
    intro ws acts no0
    rw [Clpars.for3Go, cli_known false (c!"-zhscript-help", 0) (by simp)]
    rfl
  have opt : ∀ {w : Str} {ws : List Str} (hw : OPT <+: w) (h1 : w ≠ c!"-zhscript-path") (h2 : w ≠ c!"-zhscript-help")
      (acts : List CliAct) (no0 : Nat), noSrc acts → ∃ acts1, Clpars.for3Go (cliCb false) (fun st _ => (0, st)) (cliTable false)
      (w :: ws) 0 no0 (false, acts) = Clpars.for3Go (cliCb false) (fun st _ => (0, st)) (cliTable false) ws 0 no0 (false, acts1) ∧
      noSrc acts1 ∧ argsIn acts1 = argsIn acts := by
    intro w ws hw h1 h2 acts no0 hn
    obtain ⟨o, ho, ha, hs⟩ := opt_of_word hw h1 h2
    refine ⟨acts ++ o.act, ?_, fun x hx => ?_, ?_⟩
    · have := cli_opt false false acts o ws no0
      rwa [ho] at this
    · rcases List.mem_append.1 hx with hx | hx
      · exact hn x hx
      · exact hs x hx
    · unfold argsIn at ha ⊢
      rw [List.filterMap_append, ha, List.append_nil]
  induction ws using plainWords.induct with
  | case1 => exact fun acts no0 hn => ⟨none, acts, rfl, hn, fun ps h => by simp only [plainWords, Option.some.injEq] at h; simp [← h],
      fun h => by simp [plainWords] at h⟩
  | case2 w h =>
    intro acts no0 hn
    rcases h with rfl | rfl
    · refine ⟨some (Clpars.ARG_NE, c!"-zhscript-path"), acts, ?_, hn, fun ps h => by simp [plainWords] at h, fun _ => ⟨_, .inr rfl⟩⟩
      rw [Clpars.for3Go, cli_known false (c!"-zhscript-path", 1) (by simp)]
      rfl
    · exact ⟨_, _, help [] acts no0, hn, fun ps h => by simp [plainWords] at h, fun _ => ⟨_, .inl rfl⟩⟩
  | case3 w h1 h2 =>
    intro acts no0 hn
    rw [not_or] at h1
    obtain ⟨acts1, e, hn1, ha⟩ := opt h2 h1.1 h1.2 (ws := []) acts no0 hn
    refine ⟨none, acts1, e, hn1, fun ps h => ?_, fun h => ?_⟩ <;> rw [plainWords, if_neg (by simp [h1]), if_pos h2] at h
    · cases h; simp [ha]
    · cases h
  | case4 w h1 h2 =>
    intro acts no0 hn
    refine ⟨none, acts ++ [CliAct.arg w], (cli_word acts w [] no0 h2).trans rfl, fun x hx => ?_, fun ps h => ?_, fun h => ?_⟩
    · exact hn x (by simpa using hx)
    all_goals rw [plainWords, if_neg h1, if_neg h2] at h
    · cases h; simp [argsIn]
    · cases h
  | case5 p ws ih =>
    intro acts no0 hn
    obtain ⟨r, acts', e, h1, h2, h3⟩ := ih (acts ++ [.path (p ++ c!"/0")]) no0 (fun x hx => hn x (by simpa using hx))
    refine ⟨r, acts', (cli_opt false false acts (.path p) ws no0).trans e, h1, fun ps h => ?_, fun h => h3 ?_⟩
    · rw [plainWords, if_pos rfl] at h
      obtain ⟨h4, h5⟩ := h2 ps h
      exact ⟨h4, by rw [h5]; simp [argsIn]⟩
    · rw [plainWords, if_pos rfl] at h
      exact h
  | case6 p ws h =>
    intro acts no0 hn
    refine ⟨_, _, help (p :: ws) acts no0, hn, fun ps h => ?_, fun _ => ⟨_, .inl rfl⟩⟩
    rw [plainWords, if_neg (by decide +kernel), if_pos rfl] at h
    cases h
  | case7 w p ws h1 h2 h3 ih =>
    intro acts no0 hn
    obtain ⟨acts1, e1, hn1, ha⟩ := opt h3 h1 h2 (ws := p :: ws) acts no0 hn
    obtain ⟨r, acts', e, g1, g2, g3⟩ := ih acts1 no0 hn1
    refine ⟨r, acts', e1.trans e, g1, fun ps h => ?_, fun h => g3 ?_⟩ <;> rw [plainWords, if_neg h1, if_neg h2, if_pos h3] at h
    · obtain ⟨h4, h5⟩ := g2 ps h
      exact ⟨h4, by rw [h5, ha]⟩
    · exact h
  | case8 w p ws h1 h2 h3 ih =>
    intro acts no0 hn
    obtain ⟨r, acts', e, g1, g2, g3⟩ := ih (acts ++ [.arg w]) (no0 + 1) (fun x hx => hn x (by simpa using hx))
    refine ⟨r, acts', (cli_word acts w (p :: ws) no0 h3).trans e, g1, fun ps h => ?_, fun h => g3 ?_⟩ <;>
      rw [plainWords, if_neg h1, if_neg h2, if_neg h3] at h
    · cases hp : plainWords (p :: ws) with
      | none => rw [hp] at h; cases h
      | some qs =>
        rw [hp] at h
        cases h
        obtain ⟨h4, h5⟩ := g2 qs hp
        exact ⟨h4, by rw [h5]; simp [argsIn]⟩
    · cases hp : plainWords (p :: ws) with
      | none => rfl
      | some qs => rw [hp] at h; cases h

/-! ## The words that are kept -/

theorem isSuffixOf_false {m w : Str} (h : ¬ m <:+ w) : m.isSuffixOf w = false := by
  cases e : m.isSuffixOf w
  · rfl
  · exact absurd (List.isSuffixOf_iff_suffix.1 e) h

theorem scan_plain (oz plus h : Bool) (src : Option Str) (ws : List Str) (hu : Unmarked ws) :
    shebangScan oz plus ws h false src = .ok (ws, h, src) := by
  induction ws with
  | nil => rfl
  | cons w ws ih =>
    have h1 : SHEBANG.isSuffixOf w = false := isSuffixOf_false (hu w (by simp))
    rw [shebangScan, h1, ih fun x hx => hu x (by simp [hx])]
    simp only [Bool.false_eq_true, if_false, Bool.and_false]
    rfl

theorem scan_opts (oz plus h : Bool) (src : Option Str) (os ws : List Str) (hu : Unmarked os) {r : List Str} {h' : Bool} {src' : Option Str}
    (e : shebangScan oz plus ws h false src = .ok (r, h', src')) :
    shebangScan oz plus (os ++ ws) h false src = .ok (os ++ r, h', src') := by
  induction os with
  | nil => exact e
  | cons w os ih =>
    have h1 : SHEBANG.isSuffixOf w = false := isSuffixOf_false (hu w (by simp))
    rw [List.cons_append, shebangScan, h1, ih fun x hx => hu x (by simp [hx])]
    simp only [Bool.false_eq_true, if_false, Bool.and_false]
    rfl

theorem scan_marked (m src : Str) (ws : List Str) (hm : MARK <:+ m) (hs : Unmarked (src :: ws)) :
    shebangScan true false (m :: src :: ws) true false none = .ok ([] :: ws, false, some src) := by
  have h0 : SHEBANG.isSuffixOf m = true := List.isSuffixOf_iff_suffix.2 hm
  have h1 : SHEBANG.isSuffixOf src = false := isSuffixOf_false (hs src (by simp))
  rw [shebangScan, h0]
  simp only [if_true, Bool.true_or]
  rw [shebangScan, h1]
  simp only [Bool.false_eq_true, if_false, Bool.and_self, if_true]
  rw [scan_plain true false false (some src) ws fun x hx => hs x (by simp [hx])]
  rfl

theorem scan_line (ws : List Str) (hu : ∀ w ∈ ws, MARK <:+ w → w = MARK) :
    shebangScan false true ws false false none = .ok (ws.filter (· ≠ MARK), false, none) := by
  induction ws with
  | nil => rfl
  | cons w ws ih =>
    have ih := ih fun x hx => hu x (by simp [hx])
    by_cases hw : MARK <:+ w
    · have e := hu w (by simp) hw
      subst e
      have h0 : SHEBANG.isSuffixOf MARK = true := by decide +kernel
      have h1 : shebangOpts true MARK = .ok [] := by decide +kernel
      rw [shebangScan, h0, h1]
      simp only [if_true, Bool.or_false]
      rw [ih]
      simp [bind, pure, Out.bind]
    · have h1 : SHEBANG.isSuffixOf w = false := isSuffixOf_false hw
      have h2 : w ≠ MARK := fun e => hw (e ▸ List.suffix_refl _)
      rw [shebangScan, h1]
      simp only [Bool.false_eq_true, if_false, Bool.and_false]
      rw [ih]
      simp [h2]

/-! ## What the actions do -/

variable {H : Host} {R : Call → St → Res → St → Prop}

/-- What one action does. -/
def actSt (q : Nat) (s : St) : CliAct → St
  | .src t => { s with scopes := upd s.scopes q { s.scopes q with src := t } }
  | .arg t =>
    if (s.lists (s.scopes q).args).a.isEmpty then s.push (s.scopes q).args (.s t)
    else (s.push (s.scopes q).args Spec.sep).push (s.scopes q).args (.s t)
  | .isCode => { s with srcIsFile := false }
  | .path p => { s with path := path2 s.path p }
  | .jhdh => { s with jhdh := true }
  | .ignore t => { s with trace := s.trace ++ [.err (c!"忽略 " ++ t ++ ['\n'])] }

theorem ev_getList {r : Nat} {s s' : St} {l : RList} : Ev H R (getList r) s l s' ↔ l = s.lists r ∧ s' = s := by
  unfold getList
  constructor
  · intro h
    obtain ⟨a, s1, h1, h2⟩ := ev_bind.1 h
    obtain ⟨rfl, rfl⟩ := ev_getSt.1 h1
    exact ev_pure.1 h2
  · rintro ⟨rfl, rfl⟩
    exact ev_bind.2 ⟨_, _, ev_getSt.2 ⟨rfl, rfl⟩, ev_pure.2 ⟨rfl, rfl⟩⟩

theorem ev_cliArg {r : Nat} {t : Str} {s s' : St} {u : Unit} : Ev H R (cliArg r t) s u s' ↔
    s' = if (s.lists r).a.isEmpty then s.push r (.s t) else (s.push r Spec.sep).push r (.s t) := by
  unfold cliArg
  rw [ev_bind]
  simp only [ev_getList]
  cases e : (s.lists r).a.isEmpty
  · constructor
    · rintro ⟨_, _, ⟨rfl, rfl⟩, h⟩
      simp only [e, Bool.not_false, if_true] at h
      obtain ⟨_, s1, h1, h2⟩ := ev_bind.1 h
      rw [ev_addDun] at h1
      rw [ev_addT] at h2
      subst h1
      simpa using h2
    · intro h
      refine ⟨_, _, ⟨rfl, rfl⟩, ?_⟩
      simp only [e, Bool.not_false, if_true]
      exact ev_bind.2 ⟨(), _, ev_addDun.2 rfl, ev_addT.2 (by simpa using h)⟩
  · constructor
    · rintro ⟨_, _, ⟨rfl, rfl⟩, h⟩
      simp only [e, Bool.not_true, Bool.false_eq_true, if_false] at h
      rw [ev_addT] at h
      simpa using h
    · intro h
      refine ⟨_, _, ⟨rfl, rfl⟩, ?_⟩
      simp only [e, Bool.not_true, Bool.false_eq_true, if_false]
      exact ev_addT.2 (by simpa using h)

theorem St.push_held (r : Nat) (v : Val) (s : St) : (s.push r v).held = s.held := rfl
theorem St.push_scopes (r : Nat) (v : Val) (s : St) : (s.push r v).scopes = s.scopes := rfl

theorem actSt_held (q : Nat) (s : St) (a : CliAct) : (actSt q s a).held = s.held := by
  cases a <;> simp only [actSt]
  split <;> rfl

theorem ev_op_det {o : Op} {s s' s1 : St} {a b : o.Res} (h : o.run H s = (.ok a, s1)) :
    Ev H R (doOp o) s b s' ↔ b = a ∧ s' = s1 := by
  rw [ev_doOp, h]
  simp only [Prod.mk.injEq, Out.ok.injEq]
  exact ⟨fun h => ⟨h.1.symm, h.2.symm⟩, fun h => ⟨h.1.symm, h.2.symm⟩⟩

theorem modScope_free {s : St} (h : s.held = []) (q : Nat) (f : Scope → Scope) :
    s.modScope q f = (.ok (), { s with scopes := upd s.scopes q (f (s.scopes q)) }) := by
  simp [St.modScope, h]

theorem ev_cliActs (q : Nat) (acts : List CliAct) {s s' : St} {u : Unit} (hh : s.held = []) :
    Ev H R (cliActs q acts) s u s' ↔ s' = acts.foldl (actSt q) s := by
  induction acts generalizing s with
  | nil => simp only [cliActs, ev_pure, List.foldl_nil]; simp
  | cons a acts ih =>
    have key : ∀ (p : Prog Unit), (∀ u1 s1, Ev H R p s u1 s1 ↔ s1 = actSt q s a) →
        (Ev H R (p >>= fun _ => cliActs q acts) s u s' ↔ s' = (a :: acts).foldl (actSt q) s) := by
      intro p hp
      rw [ev_bind]
      constructor
      · rintro ⟨u1, s1, h1, h2⟩
        have := (hp _ _).1 h1
        subst this
        exact (ih (by rw [actSt_held, hh])).1 h2
      · intro h
        exact ⟨(), _, (hp _ _).2 rfl, (ih (by rw [actSt_held, hh])).2 h⟩
    have op : ∀ {o : Op} (b : o.Res) {u1 : o.Res} {s1 s2 : St}, o.run H s = (.ok b, s1) → o.Res = Unit → (b = u1) →
        (Ev H R (doOp o) s u1 s2 ↔ s2 = s1) := by
      intro o b u1 s1 s2 h1 _ h3
      rw [ev_op_det h1]
      exact ⟨fun h => h.2, fun h => ⟨h3.symm, h⟩⟩
    cases a with
    | src t => exact key _ fun u1 s1 => op (o := .setSrc q t) () (modScope_free hh q fun c => { c with src := t }) rfl rfl
    | arg t =>
      refine key (getSt >>= fun s => cliArg (s.scopes q).args t) fun u1 s1 => ?_
      rw [ev_bind]
      simp only [ev_getSt]
      constructor
      · rintro ⟨_, _, ⟨rfl, rfl⟩, h⟩
        exact ev_cliArg.1 h
      · intro h
        exact ⟨s, s, ⟨rfl, rfl⟩, ev_cliArg.2 h⟩
    | isCode => exact key _ fun u1 s1 => op (o := .srcIsCode) () rfl rfl rfl
    | path p => exact key _ fun u1 s1 => op (o := .path p) () rfl rfl rfl
    | jhdh => exact key _ fun u1 s1 => op (o := .jhdh) () rfl rfl rfl
    | ignore t => exact key _ fun u1 s1 => op (o := .emit _) () rfl rfl rfl

theorem Spec.HasArgs.congr {s s' : St} {q : Nat} {ws : List Str} (h : HasArgs s q ws) (h1 : s'.lists = s.lists)
    (h2 : (s'.scopes q).args = (s.scopes q).args) : HasArgs s' q ws := by
  unfold HasArgs
  rw [h1, h2]
  exact h

theorem hasArgs_push {s : St} {q : Nat} {ws : List Str} (h : HasArgs s q ws) (t : Str) :
    HasArgs (actSt q s (.arg t)) q (ws ++ [t]) := by
  obtain ⟨h1, h2⟩ := h
  simp only [actSt]
  generalize hr : (s.scopes q).args = r at *
  cases e : (s.lists r).a with
  | nil =>
    have hw : ws = [] := by
      have := congrArg List.length h2
      simpa [argsOf, e, eq_comm] using this
    subst hw
    rw [if_pos (by simp)]
    have hl : (s.push r (.s t)).lists r = (s.lists r).add ⟨s.nitem, .s t⟩ := by simp [St.push, upd]
    unfold HasArgs
    rw [St.push_scopes, hr, hl]
    refine ⟨WF_add h1 _, ?_⟩
    have : ((s.lists r).add ⟨s.nitem, .s t⟩).a = [⟨s.nitem, .s t⟩] := by simp [RList.add, e]
    simp [argsOf, this, groups, isSep]
  | cons x xs =>
    rw [if_neg (by simp)]
    have hl : ((s.push r Spec.sep).push r (.s t)).lists r = ((s.lists r).add ⟨s.nitem, Spec.sep⟩).add ⟨s.nitem + 1, .s t⟩ := by
      simp [St.push, upd]
    unfold HasArgs
    rw [St.push_scopes, St.push_scopes, hr, hl]
    refine ⟨WF_add (WF_add h1 _) _, ?_⟩
    have ea : (((s.lists r).add ⟨s.nitem, Spec.sep⟩).add ⟨s.nitem + 1, .s t⟩).a
        = (s.lists r).a ++ [⟨s.nitem, Spec.sep⟩, ⟨s.nitem + 1, .s t⟩] := by simp [RList.add]
    have hg : ∀ l : List Item, groups isSep (l ++ [⟨s.nitem, Spec.sep⟩, ⟨s.nitem + 1, .s t⟩]) =
        groups isSep l ++ [[⟨s.nitem + 1, .s t⟩]] := by
      intro l
      induction l with
      | nil => rfl
      | cons y l ih =>
        rw [List.cons_append]
        simp only [groups, ih]
        split
        · rfl
        · cases hgl : groups isSep l with
          | nil => exact absurd hgl (groups_ne_nil l)
          | cons g gs => rfl
    rw [argsOf, if_neg (by rw [ea]; simp), ea, hg]
    rw [argsOf, if_neg (by rw [e]; simp)] at h2
    rw [List.map_append, h2]
    simp

theorem acts_args (q : Nat) (acts : List CliAct) : ∀ {s : St} {ws : List Str}, HasArgs s q ws →
    HasArgs (acts.foldl (actSt q) s) q (ws ++ argsIn acts) := by
  induction acts with
  | nil => intro s ws h; simpa [argsIn] using h
  | cons a acts ih =>
    intro s ws h
    rw [List.foldl_cons]
    cases a with
    | arg t => simpa [argsIn] using ih (hasArgs_push h t)
    | src t => exact ih (h.congr rfl (by simp [actSt, upd]))
    | isCode => exact ih (h.congr rfl rfl)
    | path p => exact ih (h.congr rfl rfl)
    | jhdh => exact ih (h.congr rfl rfl)
    | ignore t => exact ih (h.congr rfl rfl)

theorem acts_held (q : Nat) (acts : List CliAct) (s : St) : (acts.foldl (actSt q) s).held = s.held := by
  induction acts generalizing s with
  | nil => rfl
  | cons a acts ih => rw [List.foldl_cons, ih, actSt_held]

theorem acts_noSrc (q : Nat) (acts : List CliAct) (h : noSrc acts) (s : St) :
    ((acts.foldl (actSt q) s).scopes q).src = (s.scopes q).src := by
  induction acts generalizing s with
  | nil => rfl
  | cons a acts ih =>
    rw [List.foldl_cons, ih fun x hx => h x (List.mem_cons_of_mem _ hx)]
    cases a with
    | src t => exact absurd List.mem_cons_self (h t)
    | arg t => simp only [actSt]; split <;> rfl
    | _ => rfl

theorem acts_isFile (q : Nat) (acts : List CliAct) (s : St) :
    (acts.foldl (actSt q) s).srcIsFile = (s.srcIsFile && !acts.contains .isCode) := by
  induction acts generalizing s with
  | nil => simp
  | cons a acts ih =>
    rw [List.foldl_cons, ih]
    cases a with
    | isCode => simp [actSt]
    | arg t =>
      have : (actSt q s (.arg t)).srcIsFile = s.srcIsFile := by simp only [actSt]; split <;> rfl
      rw [this]; simp
    | _ => simp [actSt]

/-! ## Reading the command line -/

/-- The state after the first word. -/
def shlSt (shl : Str) (s : St) : St :=
  { s with shl := if s.shl.head? ≠ some '/' then shl else s.shl, path := path2 s.path shl }

/-- The state after the script found by the mark. -/
def srcSt (q : Nat) (s : St) : Option Str → St
  | some t => { s with scopes := upd s.scopes q { s.scopes q with src := t } }
  | none => s

theorem ev_shlP {shl : Str} {a b : List Str} {s s' : St} :
    Ev H R (shlP true (shl :: a)) s b s' ↔ b = a ∧ s' = shlSt shl s := by
  unfold shlP
  simp only [if_true]
  rw [ev_bind]
  simp only [ev_getSt]
  have fin : ∀ {s1 : St}, { s1 with path := path2 s1.path shl } = shlSt shl s →
      (Ev H R (doOp (.path shl) >>= fun _ => pure a) s1 b s' ↔ b = a ∧ s' = shlSt shl s) := by
    intro s1 h1
    rw [ev_bind, ← h1]
    constructor
    · rintro ⟨_, s2, h2, h3⟩
      obtain ⟨-, rfl⟩ := (ev_op_det (o := .path shl) (s1 := { s1 with path := path2 s1.path shl }) (a := ()) rfl).1 h2
      exact ev_pure.1 h3
    · rintro ⟨rfl, rfl⟩
      exact ⟨(), _, (ev_op_det (o := .path shl) rfl).2 ⟨rfl, rfl⟩, ev_pure.2 ⟨rfl, rfl⟩⟩
  by_cases e : s.shl.head? = some '/'
  · constructor
    · rintro ⟨_, _, ⟨rfl, rfl⟩, h⟩
      rw [if_neg (by simp [e])] at h
      exact (fin (by simp [shlSt, e])).1 h
    · intro h
      refine ⟨s, s, ⟨rfl, rfl⟩, ?_⟩
      rw [if_neg (by simp [e])]
      exact (fin (by simp [shlSt, e])).2 h
  · constructor
    · rintro ⟨t, s0, ⟨e1, e2⟩, h⟩
      rw [e1, e2, if_pos e] at h
      obtain ⟨_, s2, h2, h3⟩ := ev_bind.1 h
      obtain ⟨-, rfl⟩ := (ev_op_det (o := .shl shl) (s1 := { s with shl := shl }) (a := ()) rfl).1 h2
      exact (fin (by simp [shlSt, e])).1 h3
    · intro h
      refine ⟨s, s, ⟨rfl, rfl⟩, ?_⟩
      rw [if_pos e]
      exact ev_bind.2 ⟨(), { s with shl := shl }, (ev_op_det (o := .shl shl) rfl).2 ⟨rfl, rfl⟩, (fin (by simp [shlSt, e])).2 h⟩

theorem evE_clpars {shl : Str} {a a2 : List Str} {hs oz plus h : Bool} {q : Nat} {so : Option Str} {s s' : St}
    {x : Option (Int × Str)} {acts : List CliAct} {b : Bool} {r : Except Err Unit} (hh : s.held = [])
    (h1 : shebangScan oz plus a hs false none = .ok (a2, h, so))
    (h2 : Clpars.for3 (cliCb oz) (fun st _ => (0, st)) (cliTable oz) issue a2 (h, []) = (x, (b, acts))) :
    EvE H R (clparsP (shl :: a) true hs oz plus q) s r s' ↔
      r = clparsRet x ∧ s' = acts.foldl (actSt q) (srcSt q (shlSt shl s) so) := by
  unfold clparsP
  rw [evE_lift_bind]
  simp only [ev_shlP]
  have fin : ∀ {s1 : St}, s1.held = [] → (EvE H R ((liftM (cliActs q acts) : E Unit) >>= fun _ => ExceptT.mk (pure (clparsRet x))) s1 r s' ↔
      r = clparsRet x ∧ s' = acts.foldl (actSt q) s1) := by
    intro s1 h3
    rw [evE_lift_bind]
    simp only [ev_cliActs q acts h3]
    constructor
    · rintro ⟨_, _, rfl, h⟩
      exact evE_mk.1 h
    · rintro ⟨rfl, rfl⟩
      exact ⟨(), _, rfl, evE_mk.2 ⟨rfl, rfl⟩⟩
  have mid : EvE H R ((liftM (ofOut (shebangScan oz plus a hs false none) : Prog _) : E _) >>= fun
        | (a2, hasSrc, src) => do
          match src with
            | some s => (liftM (doOp (.setSrc q s)) : E Unit)
            | none => pure ()
          let (r, (_, acts)) := Clpars.for3 (cliCb oz) (fun st _ => (0, st)) (cliTable oz) issue a2 (hasSrc, [])
          liftM (cliActs q acts)
          ExceptT.mk (pure (clparsRet r))) (shlSt shl s) r s' ↔ r = clparsRet x ∧ s' = acts.foldl (actSt q) (srcSt q (shlSt shl s) so) := by
    rw [evE_lift_bind, h1]
    simp only [ev_ofOut]
    have inner : EvE H R (do
          match so with
            | some s => (liftM (doOp (.setSrc q s)) : E Unit)
            | none => pure ()
          let (r, (_, acts)) := Clpars.for3 (cliCb oz) (fun st _ => (0, st)) (cliTable oz) issue a2 (h, [])
          liftM (cliActs q acts)
          ExceptT.mk (pure (clparsRet r))) (shlSt shl s) r s' ↔
        r = clparsRet x ∧ s' = acts.foldl (actSt q) (srcSt q (shlSt shl s) so) := by
      rw [h2]
      cases so with
      | none => exact fin hh
      | some t =>
        refine (evE_op_bind (o := .setSrc q t) (a := ()) (modScope_free (s := shlSt shl s) hh q fun c => { c with src := t })).trans ?_
        exact fin hh
    constructor
    · rintro ⟨⟨_, _, _⟩, _, ⟨e, rfl⟩, h3⟩
      cases e
      exact inner.1 h3
    · intro h3
      exact ⟨_, _, ⟨rfl, rfl⟩, inner.2 h3⟩
  constructor
  · rintro ⟨_, _, ⟨rfl, rfl⟩, h3⟩
    exact mid.1 h3
  · intro h3
    exact ⟨_, _, ⟨rfl, rfl⟩, mid.2 h3⟩

theorem for3_none {σ : Type} {cb : σ → Clpars.Call → Int × σ} {cb2 : σ → Str → Int × σ} {items : List Clpars.Item} {rem : Str}
    {ws : List Str} {st st' : σ} (h : Clpars.for3Go cb cb2 items ws 0 0 st = (none, st')) :
    Clpars.for3 cb cb2 items rem ws st = (none, st') := by
  unfold Clpars.for3
  rw [h]

theorem cliActs_args (opts : List CliOpt) : argsIn (opts.flatMap CliOpt.act) = [] := by
  induction opts with
  | nil => rfl
  | cons o os ih =>
    unfold argsIn at ih ⊢
    rw [List.flatMap_cons, List.filterMap_append, ih]
    cases o <;> rfl

theorem cliActs_noSrc (opts : List CliOpt) : noSrc (opts.flatMap CliOpt.act) := by
  intro x hx
  obtain ⟨o, -, ho⟩ := List.mem_flatMap.1 hx
  cases o <;> simp [CliOpt.act] at ho

theorem cliActs_isCode (opts : List CliOpt) : CliAct.isCode ∈ opts.flatMap CliOpt.act ↔ CliOpt.isCode ∈ opts := by
  constructor
  · intro hx
    obtain ⟨o, h, ho⟩ := List.mem_flatMap.1 hx
    cases o <;> simp [CliOpt.act] at ho
    exact h
  · intro h
    exact List.mem_flatMap.2 ⟨_, h, by simp [CliOpt.act]⟩

theorem argsIn_args (ws : List Str) : argsIn (ws.map CliAct.arg) = ws := by
  induction ws with
  | nil => rfl
  | cons w ws ih =>
    unfold argsIn at ih ⊢
    rw [List.map_cons, List.filterMap_cons, ih]

theorem init_args (ovf : Bool) : HasArgs (St.init ovf) 1 [] := ⟨rfl, rfl⟩

/-- The state after the command line. -/
theorem clpars_line (ovf : Bool) {argv : List Str} {opts : List CliOpt} {src : Str} {ws : List Str} (hl : CliLine argv opts src ws) :
    ∃ s1, (∀ r s', EvE H R (clparsP argv true true true false 1) (St.init ovf) r s' ↔ r = .ok () ∧ s' = s1) ∧ s1.held = [] ∧
      HasArgs s1 1 ws ∧ (s1.scopes 1).src = src ∧ (s1.srcIsFile = false ↔ CliOpt.isCode ∈ opts) := by
  have fin : ∀ {shl : Str} {a a2 : List Str} {h : Bool} {so : Option Str} {acts : List CliAct} {b : Bool},
      shebangScan true false a true false none = .ok (a2, h, so) →
      Clpars.for3Go (cliCb true) (fun st _ => (0, st)) (cliTable true) a2 0 0 (h, []) = (none, (b, acts)) →
      argsIn acts = ws → (CliAct.isCode ∈ acts ↔ CliOpt.isCode ∈ opts) →
      ((acts.foldl (actSt 1) (srcSt 1 (shlSt shl (St.init ovf)) so)).scopes 1).src = src →
      ∃ s1, (∀ r s', EvE H R (clparsP (shl :: a) true true true false 1) (St.init ovf) r s' ↔ r = .ok () ∧ s' = s1) ∧ s1.held = [] ∧
      HasArgs s1 1 ws ∧ (s1.scopes 1).src = src ∧ (s1.srcIsFile = false ↔ CliOpt.isCode ∈ opts) := by
    intro shl a a2 h so acts b e1 e2 e3 e4 e5
    refine ⟨_, fun r s' => evE_clpars rfl e1 (for3_none e2), ?_, ?_, e5, ?_⟩
    · rw [acts_held]
      cases so <;> rfl
    · have := acts_args 1 acts (s := srcSt 1 (shlSt shl (St.init ovf)) so) (ws := [])
        ((init_args ovf).congr (by cases so <;> rfl) (by cases so <;> rfl))
      rw [e3] at this
      exact this
    · rw [acts_isFile, ← e4]
      have : (srcSt 1 (shlSt shl (St.init ovf)) so).srcIsFile = true := by cases so <;> rfl
      rw [this]
      simp
  have src_last : ∀ (opts : List CliOpt) (x : Str) (ws : List Str) (s : St),
      (((opts.flatMap CliOpt.act ++ [CliAct.src x] ++ ws.map CliAct.arg).foldl (actSt 1) s).scopes 1).src = x := by
    intro opts x ws s
    rw [List.append_assoc, List.foldl_append, List.singleton_append, List.foldl_cons, acts_noSrc 1 (ws.map CliAct.arg)]
    · simp [actSt, upd]
    · intro y hy
      simp at hy
  cases hl with
  | plain shl _ _ _ h1 h2 h3 h4 =>
    refine fin (scan_plain true false true none _ h1) ((cli_opts true true [] opts _ 0).trans (cli_rest true _ src ws 0 h2 h4)) ?_ ?_ ?_
    · rw [if_pos rfl, if_neg h3, List.nil_append]
      unfold argsIn
      rw [List.filterMap_append, List.filterMap_append]
      change argsIn _ ++ _ ++ argsIn _ = _
      rw [cliActs_args, argsIn_args]
      rfl
    · rw [if_pos rfl, if_neg h3, List.nil_append]
      simp [-List.mem_flatMap, cliActs_isCode]
    · rw [if_pos rfl, if_neg h3, List.nil_append]
      exact src_last ..
  | marked shl _ m _ _ h1 h2 h4 =>
    have h5 : Unmarked (opts.flatMap CliOpt.words) := fun w hw => h1 w (List.mem_append_left _ hw)
    have h6 : Unmarked (src :: ws) := fun w hw => h1 w (List.mem_append_right _ hw)
    refine fin (scan_opts true false true none _ _ h5 (scan_marked m src ws h2 h6))
      ((cli_opts true false [] opts _ 0).trans (cli_rest false _ [] ws 0 (by decide +kernel) h4)) ?_ ?_ ?_
    · rw [if_neg (by simp), List.append_nil, List.nil_append]
      unfold argsIn
      rw [List.filterMap_append]
      change argsIn _ ++ argsIn _ = _
      rw [cliActs_args, argsIn_args]
      rfl
    · rw [if_neg (by simp), List.append_nil, List.nil_append]
      simp [-List.mem_flatMap, cliActs_isCode]
    · rw [if_neg (by simp), List.append_nil, List.nil_append, acts_noSrc]
      · simp [srcSt, upd]
      · intro y hy
        rcases List.mem_append.1 hy with hy | hy
        · exact cliActs_noSrc opts y hy
        · simp at hy
  | dash shl _ w ws' h1 h2 h3 h4 =>
    refine fin (scan_plain true false true none _ h1) ((cli_opts true true [] opts _ 0).trans (cli_rest true _ w ws' 0 h2 h4)) ?_ ?_ ?_
    · rw [if_pos rfl, if_pos h3, List.nil_append]
      unfold argsIn
      rw [List.filterMap_append, List.filterMap_append]
      change argsIn _ ++ _ ++ argsIn _ = _
      rw [cliActs_args, argsIn_args]
      rfl
    · rw [if_pos rfl, if_pos h3, List.nil_append]
      simp [-List.mem_flatMap, cliActs_isCode]
    · rw [if_pos rfl, if_pos h3, List.nil_append, acts_noSrc]
      · rfl
      · intro y hy
        rcases List.mem_append.1 hy with hy | hy
        · rcases List.mem_append.1 hy with hy | hy
          · exact cliActs_noSrc opts y hy
          · simp at hy
        · simp at hy
  | none shl _ h1 =>
    refine fin (b := true) (scan_plain true false true none _ h1) ?_ (cliActs_args opts) (cliActs_isCode opts) ?_
    · have := cli_opts true true [] opts [] 0
      rw [List.append_nil] at this
      exact this.trans rfl
    · rw [acts_noSrc _ _ (cliActs_noSrc opts)]
      rfl

/-! ## Starting the script -/

/-- The states agree on what is said here about the scope `q`. -/
structure KeepArgs (q : Nat) (s s' : St) : Prop where
  lists : s'.lists = s.lists
  args : (s'.scopes q).args = (s.scopes q).args
  held : s'.held = s.held

theorem KeepArgs.refl (q : Nat) (s : St) : KeepArgs q s s := ⟨rfl, rfl, rfl⟩

theorem KeepArgs.trans {q : Nat} {s s1 s2 : St} (h : KeepArgs q s s1) (h' : KeepArgs q s1 s2) : KeepArgs q s s2 :=
  ⟨h'.lists.trans h.lists, h'.args.trans h.args, h'.held.trans h.held⟩

/-- A program that makes no call has one outcome. -/
def Det (H : Host) (R : Call → St → Res → St → Prop) {α : Type} (p : Prog α) (s : St) (a : α) (s1 : St) : Prop :=
  ∀ b s', Ev H R p s b s' ↔ b = a ∧ s' = s1

theorem Det.ev_bind {α β : Type} {p : Prog α} {f : α → Prog β} {s s1 s' : St} {a : α} {b : β} (h : Det H R p s a s1) :
    Ev H R (p >>= f) s b s' ↔ Ev H R (f a) s1 b s' := by
  rw [Zh.ev_bind]
  constructor
  · rintro ⟨_, _, h1, h2⟩
    obtain ⟨rfl, rfl⟩ := (h _ _).1 h1
    exact h2
  · intro h2
    exact ⟨a, s1, (h _ _).2 ⟨rfl, rfl⟩, h2⟩

theorem Det.bind {α β : Type} {p : Prog α} {f : α → Prog β} {s s1 s2 : St} {a : α} {b : β} (h : Det H R p s a s1)
    (h' : Det H R (f a) s1 b s2) : Det H R (p >>= f) s b s2 := fun _ _ => h.ev_bind.trans (h' _ _)

theorem Det.evE_bind {α β : Type} {p : Prog α} {f : α → E β} {s s1 s' : St} {a : α} {r : Except Err β} (h : Det H R p s a s1) :
    EvE H R ((liftM p : E α) >>= f) s r s' ↔ EvE H R (f a) s1 r s' := by
  rw [evE_lift_bind]
  constructor
  · rintro ⟨_, _, h1, h2⟩
    obtain ⟨rfl, rfl⟩ := (h _ _).1 h1
    exact h2
  · intro h2
    exact ⟨a, s1, (h _ _).2 ⟨rfl, rfl⟩, h2⟩

theorem det_op {o : Op} {s s1 : St} {a : o.Res} (h : o.run H s = (.ok a, s1)) : Det H R (doOp o) s a s1 := fun _ _ => ev_op_det h

theorem det_pure {α : Type} (a : α) (s : St) : Det H R (pure a : Prog α) s a s := fun _ _ => ev_pure

theorem det_getSt (s : St) : Det H R getSt s s s := fun _ _ => ev_getSt

theorem det_topVal (name val : Str) {s : St} (hh : s.held = []) : ∃ s1, Det H R (topVal name val) s () s1 ∧
    s1.held = [] ∧ s1.lists = s.lists ∧ s1.scopes 1 = s.scopes 1 ∧ s1.srcIsFile = s.srcIsFile ∧ s1.trace = s.trace := by
  let s0 : St := { s with items := upd s.items s.nitem [], nitem := s.nitem + 1 }
  let f : Scope → Scope := fun c => { c with vars := Zh.setVar ⟨name, ⟨s.nitem, .s val⟩, false, false, false⟩ c.vars }
  refine ⟨{ s0 with scopes := upd s0.scopes 0 (f (s0.scopes 0)) }, ?_, hh, rfl, by simp [upd, s0], rfl, rfl⟩
  refine Det.bind (det_op (o := .newItem (.s val) []) rfl) ?_
  exact det_op (o := .setVar 0 _) (modScope_free (s := s0) hh 0 f)

theorem det_open (f : Str) {s : St} (hh : s.held = []) : ∃ b s1, Det H R (openP f true 1) s b s1 ∧ KeepArgs 1 s s1 ∧
    (s1.scopes 1).src = if b then f else (s.scopes 1).src := by
  let s0 : St := { s with trace := s.trace ++ [.open_ f] }
  have ho : (Op.open_ f).run H s = (.ok (H.open_ s.trace f), s0) := rfl
  cases e : H.open_ s.trace f with
  | false =>
    refine ⟨false, s0, ?_, ⟨rfl, rfl, rfl⟩, rfl⟩
    rw [e] at ho
    exact Det.bind (det_op ho) (det_pure _ _)
  | true =>
    let s2 : St := { s0 with scopes := upd s0.scopes 1 { s0.scopes 1 with src := f } }
    let s3 : St := { s2 with scopes := upd s2.scopes 1 { s2.scopes 1 with srcIsFile := true } }
    refine ⟨true, s3, ?_, ⟨rfl, by simp [s3, s2, s0, upd], rfl⟩, by simp [s3, s2, upd]⟩
    rw [e] at ho
    refine Det.bind (det_op ho) ?_
    refine Det.bind (a := ()) (s1 := s2) (det_op (o := .setSrc 1 f) (modScope_free (s := s0) hh 1 fun c => { c with src := f })) ?_
    exact Det.bind (a := ()) (s1 := s3) (det_op (o := .setIsFile 1)
      (modScope_free (s := s2) hh 1 fun c => { c with srcIsFile := true })) (det_pure _ _)

theorem det_openFirst (src : Str) (ps : List Str) : ∀ {s : St}, s.held = [] → ∃ b s1, Det H R (openFirst src true 1 ps) s b s1 ∧
    KeepArgs 1 s s1 ∧ ((b = false ∧ (s1.scopes 1).src = (s.scopes 1).src) ∨
      b = true ∧ ∃ p ∈ ps, H.fileName p src = some (s1.scopes 1).src) := by
  induction ps with
  | nil => exact fun hh => ⟨false, _, det_pure _ _, KeepArgs.refl _ _, .inl ⟨rfl, rfl⟩⟩
  | cons p ps ih =>
    intro s hh
    have ho : (Op.fileName p src).run H s = (.ok (H.fileName p src), s) := rfl
    cases e : H.fileName p src with
    | none =>
      rw [e] at ho
      obtain ⟨b, s1, h1, h2, h3⟩ := ih hh
      refine ⟨b, s1, Det.bind (det_op ho) h1, h2, ?_⟩
      rcases h3 with h3 | ⟨h3, p', hp, h4⟩
      · exact .inl h3
      · exact .inr ⟨h3, p', List.mem_cons_of_mem _ hp, h4⟩
    | some f =>
      rw [e] at ho
      obtain ⟨b, s1, h1, h2, h3⟩ := det_open (H := H) (R := R) f hh
      cases b with
      | true => exact ⟨true, s1, Det.bind (det_op ho) (Det.bind h1 (det_pure _ _)), h2, .inr ⟨rfl, p, List.mem_cons_self, by rw [e, h3]; rfl⟩⟩
      | false =>
        obtain ⟨b, s2, g1, g2, g3⟩ := ih (h2.held.trans hh)
        refine ⟨b, s2, Det.bind (det_op ho) (Det.bind h1 g1), h2.trans g2, ?_⟩
        rw [h3] at g3
        rcases g3 with h3 | ⟨h3, p', hp, h4⟩
        · exact .inl h3
        · exact .inr ⟨h3, p', List.mem_cons_of_mem _ hp, h4⟩

/-- Looking for the file of the script. -/
theorem det_okSrc {src : Str} {s : St} (hh : s.held = []) (hs : (s.scopes 1).src = src) :
    ∃ b s1, Det H R (okSrcP src true 1) s b s1 ∧ KeepArgs 1 s s1 ∧
      ((s1.scopes 1).src = src ∨ ∃ p ∈ srcPlaces s 1, H.fileName p src = some (s1.scopes 1).src) := by
  cases src with
  | nil => exact ⟨false, s, det_pure _ _, KeepArgs.refl _ _, .inl hs⟩
  | cons c cs =>
    by_cases hc : c = '/'
    · obtain ⟨b, s1, h1, h2, h3⟩ := det_open (H := H) (R := R) (c :: cs) hh
      refine ⟨b, s1, ?_, h2, .inl ?_⟩
      · unfold okSrcP
        simp only [hc, if_true]
        subst hc
        exact h1
      · rw [h3, hs, ite_self]
    · obtain ⟨b, s1, h1, h2, h3⟩ := det_openFirst (H := H) (R := R) (c :: cs) (srcPlaces s 1) hh
      cases b with
      | true =>
        refine ⟨true, s1, ?_, h2, .inr ?_⟩
        · unfold okSrcP
          simp only [hc, if_false]
          exact Det.bind (det_getSt s) (Det.bind h1 (det_pure _ _))
        · rcases h3 with ⟨h3, -⟩ | ⟨-, h3⟩
          · cases h3
          · exact h3
      | false =>
        have h3 : (s1.scopes 1).src = (s.scopes 1).src := by
          rcases h3 with ⟨-, h3⟩ | ⟨h3, -⟩
          · exact h3
          · cases h3
        obtain ⟨b, s2, g1, g2, g3⟩ := det_open (H := H) (R := R) (c :: cs) (h2.held.trans hh)
        refine ⟨b, s2, ?_, h2.trans g2, .inl ?_⟩
        · unfold okSrcP
          simp only [hc, if_false]
          exact Det.bind (det_getSt s) (Det.bind h1 g1)
        · rw [g3, h3, hs, ite_self]

theorem ran_iff {ovf : Bool} {argv : List Str} {r : Except Err Unit} {s' : St} :
    Ran H ovf argv r s' ↔ EvE H (Evals H) (mainP argv) (St.init ovf) r s' :=
  ⟨fun ⟨n, h⟩ => ev_of_interp (fun _ _ _ _ h => ⟨n, h⟩) h, fun h => interp_of_ev h⟩

theorem Kept.ev {K : St → St → Prop} (k : Kept H K) {α : Type} {p : Prog α} {s s' : St} {a : α} (h : Ev H (Evals H) p s a s') : K s s' := by
  obtain ⟨n, h⟩ := interp_of_ev h
  have := k.interp (k.run n) p s
  rwa [h] at this

/-- What follows the command line. -/
theorem main_line {ovf : Bool} {argv : List Str} {opts : List CliOpt} {src : Str} {ws : List Str} (hl : CliLine argv opts src ws) :
    ∃ s1, s1.held = [] ∧ HasArgs s1 1 ws ∧ (s1.scopes 1).src = src ∧ (s1.srcIsFile = false ↔ CliOpt.isCode ∈ opts) ∧
      (∀ K, Kept H K → K (St.init ovf) s1) ∧
      ∀ r s', Ran H ovf argv r s' ↔ EvE H (Evals H) ((if s1.srcIsFile then do
        let _ ← (okSrcP src true 1 : Prog Bool)
        let s ← (getSt : Prog St)
        src2P (s.scopes 1).src 1
      else pure src : E Str) >>= fun t => callE [] (.src t Env.init)) s1 r s' := by
  obtain ⟨s1, h1, h2, h3, h4, h5⟩ := clpars_line (H := H) (R := Evals H) ovf hl
  obtain ⟨s2, g1, g2, g3, g4, g5, g6⟩ := det_topVal (H := H) (R := Evals H) c!"外壳" s1.shl h2
  obtain ⟨s3, k1, k2, k3, k4, k5, k6⟩ := det_topVal (H := H) (R := Evals H) c!"窗口" c!"linux" g2
  refine ⟨s3, k2, h3.congr (k3.trans g3) (by rw [k4, g4]), by rw [k4, g4, h4], by rw [k5, g5, h5],
    fun K k => k.trans (k.ev ((h1 (.ok ()) s1).2 ⟨rfl, rfl⟩)) (k.trans (k.ev ((g1 () s2).2 ⟨rfl, rfl⟩)) (k.ev ((k1 () s3).2 ⟨rfl, rfl⟩))),
    fun r s' => ?_⟩
  rw [ran_iff]
  unfold mainP
  rw [evE_bind]
  simp only [h1]
  constructor
  · rintro (⟨_, _, ⟨_, rfl⟩, h⟩ | ⟨e, ⟨h, -⟩, -⟩)
    · rw [evE_getSt_bind, g1.evE_bind, k1.evE_bind, h4, ← g5, ← k5] at h
      exact h
    · cases h
  · intro h
    refine .inl ⟨(), _, ⟨trivial, rfl⟩, ?_⟩
    rw [evE_getSt_bind, g1.evE_bind, k1.evE_bind, h4, ← g5, ← k5]
    exact h

/-- Code on the command line: it runs, and its arguments are the words after it. -/
theorem C36_code_partial {ovf : Bool} {argv : List Str} {opts : List CliOpt} {src : Str} {ws : List Str} (hl : CliLine argv opts src ws)
    (hc : CliOpt.isCode ∈ opts) :
    ∃ s1, HasArgs s1 1 ws ∧ ∀ r s', Ran H ovf argv r s' ↔ ∃ x, Evals H (.src src Env.init) s1 x s' ∧ x.r = r := by
  obtain ⟨s1, h1, h2, h3, h4, -, h5⟩ := main_line (H := H) (ovf := ovf) hl
  refine ⟨s1, h2, fun r s' => ?_⟩
  rw [h5, h4.2 hc]
  exact evE_callE

/-- A `#!` line. -/
def Spec.Hashed (t : Str) : Prop := c!"#!" <+: t ∧ '\n' ∈ t

theorem evE_src2_plain {f t : Str} {s s' : St} {r : Except Err Str} (h : H.read s.trace f = .ok t) (hn : ¬ Hashed t) :
    EvE H R (src2P f 1) s r s' ↔ r = .ok t ∧ s' = { s with trace := s.trace ++ [.read f] } := by
  unfold src2P
  rw [evE_op_bind (o := .read f) (a := .ok t) (s1 := { s with trace := s.trace ++ [.read f] }) (by simp only [Op.run, h])]
  have : (List.isPrefixOf c!"#!" t && t.contains '\n') = false := by
    cases e : (List.isPrefixOf c!"#!" t && t.contains '\n')
    · rfl
    · rw [Bool.and_eq_true] at e
      exact absurd ⟨List.isPrefixOf_iff_prefix.1 e.1, by simpa using e.2⟩ hn
  simp only [this, Bool.false_eq_true, if_false]
  exact evE_pure

theorem evE_src2_error {f e : Str} {s s' : St} {r : Except Err Str} (h : H.read s.trace f = .error e) :
    EvE H R (src2P f 1) s r s' ↔ r = .error (.msg (c!"\"" ++ f ++ c!"\" " ++ e)) ∧ s' = { s with trace := s.trace ++ [.read f] } := by
  unfold src2P
  rw [evE_op_bind (o := .read f) (a := .error e) (s1 := { s with trace := s.trace ++ [.read f] }) (by simp only [Op.run, h])]
  exact evE_fail

theorem evE_src2_hashed {f line body : Str} {s s' : St} {r : Except Err Str} (hh : s.held = [])
    (h : H.read s.trace f = .ok (c!"#!" ++ line ++ '\n' :: body)) (hn : '\n' ∉ line) :
    EvE H R (src2P f 1) s r s' ↔ EvE H R (clparsP (split line) true false false true 1 >>= fun _ => pure body)
      { s with trace := s.trace ++ [.read f] } r s' := by
  unfold src2P
  rw [evE_op_bind (o := .read f) (a := .ok (c!"#!" ++ line ++ '\n' :: body)) (s1 := { s with trace := s.trace ++ [.read f] })
    (by simp only [Op.run, h])]
  have h0 : (List.isPrefixOf c!"#!" (c!"#!" ++ line ++ '\n' :: body) && (c!"#!" ++ line ++ '\n' :: body).contains '\n') = true := by
    rw [Bool.and_eq_true]
    exact ⟨List.isPrefixOf_iff_prefix.2 ⟨line ++ '\n' :: body, by simp⟩, by simp⟩
  have hw : ∀ c ∈ (c!"#!" ++ line : Str), decide (c ≠ '\n') = true := by
    intro c hc
    rcases List.mem_append.1 hc with hc | hc
    · have : ∀ c ∈ c!"#!", decide (c ≠ '\n') = true := by decide
      exact this c hc
    · simp only [decide_eq_true_eq]
      rintro rfl
      exact hn hc
  have h1 : ((c!"#!" ++ line ++ '\n' :: body).takeWhile (· ≠ '\n')).drop 2 = line := by
    rw [List.takeWhile_append_of_pos hw]
    have : ('\n' :: body).takeWhile (· ≠ '\n') = [] := by simp
    rw [this, List.append_nil]
    rfl
  have h2 : ((c!"#!" ++ line ++ '\n' :: body).dropWhile (· ≠ '\n')).drop 1 = body := by
    rw [List.dropWhile_append_of_pos hw]
    simp
  simp only [h0, if_true, h1, h2]
  refine (evE_op_bind (o := .touch 1) (a := ()) (s1 := { s with trace := s.trace ++ [.read f] }) ?_).trans Iff.rfl
  refine (modScope_free (s := { s with trace := s.trace ++ [.read f] }) hh 1 id).trans ?_
  have : upd s.scopes 1 (id (s.scopes 1)) = s.scopes := by
    funext k
    by_cases e : k = 1 <;> simp [upd, e]
  simp only [this]

/-- A file: its text runs, and its arguments are the words after its name; to these the words of its `#!` line are added that are
no options. -/
theorem C36_file_partial {ovf : Bool} {argv : List Str} {opts : List CliOpt} {src : Str} {ws : List Str} (hl : CliLine argv opts src ws)
    (hc : CliOpt.isCode ∉ opts) :
    ∃ f s1, HasArgs s1 1 ws ∧ (f = src ∨ ∃ p, H.fileName p src = some f) ∧
      (∀ e, H.read s1.trace f = .error e → ∀ r s', Ran H ovf argv r s' ↔
        r = .error (.msg (c!"\"" ++ f ++ c!"\" " ++ e)) ∧ s' = { s1 with trace := s1.trace ++ [.read f] }) ∧
      (∀ t, H.read s1.trace f = .ok t → ¬ Hashed t → ∃ s2, HasArgs s2 1 ws ∧
        ∀ r s', Ran H ovf argv r s' ↔ ∃ x, Evals H (.src t Env.init) s2 x s' ∧ x.r = r) ∧
      (∀ line body i ls, H.read s1.trace f = .ok (c!"#!" ++ line ++ '\n' :: body) → '\n' ∉ line → split line = i :: ls →
        (∀ w ∈ ls, MARK <:+ w → w = MARK) →
        (∀ ps, plainWords (ls.filter (· ≠ MARK)) = some ps → ∃ s2, HasArgs s2 1 (ws ++ ps) ∧
          ∀ r s', Ran H ovf argv r s' ↔ ∃ x, Evals H (.src body Env.init) s2 x s' ∧ x.r = r) ∧
        (plainWords (ls.filter (· ≠ MARK)) = none → ∃ e s2, ∀ r s', Ran H ovf argv r s' ↔ r = .error e ∧ s' = s2)) := by
  obtain ⟨s0, h1, h2, h3, h4, -, h5⟩ := main_line (H := H) (ovf := ovf) hl
  have h4 : s0.srcIsFile = true := by
    cases e : s0.srcIsFile
    · exact absurd (h4.1 e) hc
    · rfl
  obtain ⟨b, s1, g1, g2, g3⟩ := det_okSrc (H := H) (R := Evals H) h1 h3
  have hh : s1.held = [] := g2.held.trans h1
  have ha : HasArgs s1 1 ws := h2.congr g2.lists g2.args
  have run : ∀ r s', Ran H ovf argv r s' ↔
      EvE H (Evals H) (src2P (s1.scopes 1).src 1 >>= fun t => callE [] (.src t Env.init)) s1 r s' := by
    intro r s'
    rw [h5, h4, evE_bind, evE_bind]
    simp only [if_true]
    constructor
    · rintro (⟨a, s2, k1, k2⟩ | ⟨e, k1, k2⟩)
      · rw [g1.evE_bind, evE_getSt_bind] at k1
        exact .inl ⟨a, s2, k1, k2⟩
      · rw [g1.evE_bind, evE_getSt_bind] at k1
        exact .inr ⟨e, k1, k2⟩
    · rintro (⟨a, s2, k1, k2⟩ | ⟨e, k1, k2⟩)
      · refine .inl ⟨a, s2, ?_, k2⟩
        rw [g1.evE_bind, evE_getSt_bind]
        exact k1
      · refine .inr ⟨e, ?_, k2⟩
        rw [g1.evE_bind, evE_getSt_bind]
        exact k1
  refine ⟨(s1.scopes 1).src, s1, ha, ?_, ?_, ?_, ?_⟩
  · rcases g3 with g3 | ⟨p, -, g3⟩
    · exact .inl g3
    · exact .inr ⟨p, g3⟩
  · intro e he r s'
    rw [run, evE_bind]
    simp only [evE_src2_error he]
    constructor
    · rintro (⟨a, s2, ⟨k, -⟩, -⟩ | ⟨e, ⟨k1, k2⟩, k3⟩)
      · cases k
      · cases k1
        exact ⟨k3, k2⟩
    · rintro ⟨rfl, rfl⟩
      exact .inr ⟨_, ⟨rfl, rfl⟩, rfl⟩
  · intro t ht hn
    refine ⟨{ s1 with trace := s1.trace ++ [.read (s1.scopes 1).src] }, ha.congr rfl rfl, fun r s' => ?_⟩
    rw [run, evE_bind]
    simp only [evE_src2_plain ht hn, evE_callE]
    constructor
    · rintro (⟨a, s2, ⟨k1, k2⟩, k3⟩ | ⟨e, ⟨k1, k2⟩, k3⟩)
      · cases k1
        subst k2
        exact k3
      · cases k1
    · intro k
      exact .inl ⟨_, _, ⟨rfl, rfl⟩, k⟩
  · intro line body i ls ht hn hsp hm
    obtain ⟨x, acts, c1, c2, c3, c4⟩ := cli_line (ls.filter (· ≠ MARK)) [] 0 (fun x => by simp)
    have clp : ∀ {x'}, Clpars.for3 (cliCb false) (fun st _ => (0, st)) (cliTable false) issue (ls.filter (· ≠ MARK)) (false, [])
        = (x', (false, acts)) → ∃ s2, s2 = acts.foldl (actSt 1) (srcSt 1 (shlSt i { s1 with trace := s1.trace ++ [.read (s1.scopes 1).src] }) none) ∧
        ∀ r s', EvE H (Evals H) (src2P (s1.scopes 1).src 1) s1 r s' ↔
          (r = match clparsRet x' with | .ok _ => .ok body | .error e => .error e) ∧ s' = s2 := by
      intro x' hx
      refine ⟨_, rfl, fun r s' => ?_⟩
      rw [evE_src2_hashed hh ht hn, hsp, evE_bind]
      simp only [evE_clpars (H := H) (R := Evals H) (shl := i) (q := 1)
        (s := { s1 with trace := s1.trace ++ [.read (s1.scopes 1).src] }) hh (scan_line ls hm) hx]
      cases clparsRet x' with
      | ok u =>
        constructor
        · rintro (⟨a, s2, ⟨k1, rfl⟩, k3⟩ | ⟨e, ⟨k1, k2⟩, k3⟩)
          · exact evE_pure.1 k3
          · cases k1
        · rintro ⟨rfl, rfl⟩
          exact .inl ⟨_, _, ⟨rfl, rfl⟩, evE_pure.2 ⟨rfl, rfl⟩⟩
      | error e =>
        constructor
        · rintro (⟨a, s2, ⟨k1, rfl⟩, k3⟩ | ⟨e, ⟨k1, k2⟩, k3⟩)
          · cases k1
          · cases k1
            exact ⟨k3, k2⟩
        · rintro ⟨rfl, rfl⟩
          exact .inr ⟨_, ⟨rfl, rfl⟩, rfl⟩
    refine ⟨fun ps hps => ?_, fun hps => ?_⟩
    · obtain ⟨rfl, d2⟩ := c3 ps hps
      obtain ⟨s2, e2, k⟩ := clp (for3_none c1)
      refine ⟨s2, ?_, fun r s' => ?_⟩
      · have := acts_args 1 acts (s := srcSt 1 (shlSt i { s1 with trace := s1.trace ++ [.read (s1.scopes 1).src] }) none)
          (ws := ws) (ha.congr rfl rfl)
        rw [d2] at this
        rw [e2]
        exact this
      · rw [run, evE_bind]
        simp only [k, clparsRet, evE_callE]
        constructor
        · rintro (⟨a, s3, ⟨k1, k2⟩, k3⟩ | ⟨e, ⟨k1, k2⟩, k3⟩)
          · cases k1
            subst k2
            exact k3
          · cases k1
        · intro k
          exact .inl ⟨_, _, ⟨rfl, rfl⟩, k⟩
    · obtain ⟨w, hw⟩ := c4 hps
      obtain ⟨x', hx, e, he⟩ : ∃ x', Clpars.for3 (cliCb false) (fun st _ => (0, st)) (cliTable false) issue (ls.filter (· ≠ MARK)) (false, [])
        = (x', (false, acts)) ∧ ∃ e, clparsRet x' = .error e := by
        unfold Clpars.for3
        rw [c1]
        rcases hw with rfl | rfl
        · exact ⟨_, rfl, _, rfl⟩
        · exact ⟨_, rfl, _, rfl⟩
      obtain ⟨s2, e2, k⟩ := clp hx
      refine ⟨e, s2, fun r s' => ?_⟩
      rw [run, evE_bind]
      simp only [k, he]
      constructor
      · rintro (⟨a, s3, ⟨k1, k2⟩, k3⟩ | ⟨e, ⟨k1, k2⟩, k3⟩)
        · cases k1
        · cases k1
          exact ⟨k3, k2⟩
      · rintro ⟨rfl, rfl⟩
        exact .inr ⟨_, ⟨rfl, rfl⟩, rfl⟩

/-! ## Every command line is one of these -/

theorem split_line (ws : List Str) : ∃ (opts : List CliOpt) (rest : List Str), ws = opts.flatMap CliOpt.words ++ rest ∧
    (rest = [] ∨ rest = [c!"-zhscript-path"] ∨ (∃ r, rest = c!"-zhscript-help" :: r) ∨ ∃ w r, rest = w :: r ∧ ¬ OPT <+: w) := by
  have opt : ∀ {w : Str} {ws : List Str}, OPT <+: w → w ≠ c!"-zhscript-path" → w ≠ c!"-zhscript-help" → (∃ (opts : List CliOpt) (rest : List Str),
      ws = opts.flatMap CliOpt.words ++ rest ∧ (rest = [] ∨ rest = [c!"-zhscript-path"] ∨ (∃ r, rest = c!"-zhscript-help" :: r) ∨
        ∃ w r, rest = w :: r ∧ ¬ OPT <+: w)) → ∃ (opts : List CliOpt) (rest : List Str), w :: ws = opts.flatMap CliOpt.words ++ rest ∧
      (rest = [] ∨ rest = [c!"-zhscript-path"] ∨ (∃ r, rest = c!"-zhscript-help" :: r) ∨ ∃ w r, rest = w :: r ∧ ¬ OPT <+: w) := by
    rintro w ws h h1 h2 ⟨opts, rest, e, h3⟩
    obtain ⟨o, ho, -⟩ := opt_of_word h h1 h2
    exact ⟨o :: opts, rest, by rw [List.flatMap_cons, ho, e]; rfl, h3⟩
  induction ws using plainWords.induct with
  | case1 => exact ⟨[], [], rfl, .inl rfl⟩
  | case2 w h =>
    rcases h with rfl | rfl
    · exact ⟨[], _, rfl, .inr (.inl rfl)⟩
    · exact ⟨[], _, rfl, .inr (.inr (.inl ⟨_, rfl⟩))⟩
  | case3 w h1 h2 =>
    rw [not_or] at h1
    exact opt h2 h1.1 h1.2 ⟨[], [], rfl, .inl rfl⟩
  | case4 w h1 h2 => exact ⟨[], _, rfl, .inr (.inr (.inr ⟨_, _, rfl, h2⟩))⟩
  | case5 p ws ih =>
    obtain ⟨opts, rest, e, h3⟩ := ih
    exact ⟨.path p :: opts, rest, by rw [List.flatMap_cons, e]; rfl, h3⟩
  | case6 p ws h => exact ⟨[], _, rfl, .inr (.inr (.inl ⟨_, rfl⟩))⟩
  | case7 w p ws h1 h2 h3 ih => exact opt h3 h1 h2 ih
  | case8 w p ws h1 h2 h3 ih => exact ⟨[], _, rfl, .inr (.inr (.inr ⟨_, _, rfl, h3⟩))⟩

/-- Every command line without the mark is one of those above, or it asks for help, or the word after `-zhscript-path` is missing;
then nothing runs. -/
theorem C36_lines (H : Host) (ovf : Bool) (shl : Str) (ws : List Str) (hu : Unmarked ws) (hl : ws.length ≤ 1000000000) :
    (∃ opts src args, CliLine (shl :: ws) opts src args) ∨ (∃ e s2, ∀ r s', Ran H ovf (shl :: ws) r s' ↔ r = .error e ∧ s' = s2) := by
  obtain ⟨opts, rest, rfl, h⟩ := split_line ws
  have bad : ∀ x, x = some (Clpars.HELP, c!"-zhscript-help") ∨ x = some (Clpars.ARG_NE, c!"-zhscript-path") → ∀ st, Clpars.for3Go (cliCb true) (fun st _ => (0, st)) (cliTable true)
      (opts.flatMap CliOpt.words ++ rest) 0 0 (true, []) = (x, st) → ∃ e s2, ∀ r s', Ran H ovf (shl :: (opts.flatMap CliOpt.words ++ rest)) r s' ↔ r = .error e ∧ s' = s2 := by
    rintro x hx ⟨b, acts⟩ he
    obtain ⟨x', hx', e, he'⟩ : ∃ x', Clpars.for3 (cliCb true) (fun st _ => (0, st)) (cliTable true) issue
        (opts.flatMap CliOpt.words ++ rest) (true, []) = (x', (b, acts)) ∧ ∃ e, clparsRet x' = .error e := by
      unfold Clpars.for3
      rw [he]
      rcases hx with rfl | rfl
      · exact ⟨_, rfl, _, rfl⟩
      · exact ⟨_, rfl, _, rfl⟩
    refine ⟨e, acts.foldl (actSt 1) (srcSt 1 (shlSt shl (St.init ovf)) none), fun r s' => ?_⟩
    rw [ran_iff]
    unfold mainP
    rw [evE_bind]
    simp only [evE_clpars (H := H) (R := Evals H) (shl := shl) (q := 1) (s := St.init ovf) rfl (scan_plain true false true none _ hu) hx',
      he']
    constructor
    · rintro (⟨a, s3, ⟨k1, k2⟩, k3⟩ | ⟨e, ⟨k1, k2⟩, k3⟩)
      · cases k1
      · cases k1
        exact ⟨k3, k2⟩
    · rintro ⟨rfl, rfl⟩
      exact .inr ⟨_, ⟨rfl, rfl⟩, rfl⟩
  rcases h with rfl | rfl | ⟨r, rfl⟩ | ⟨w, r, rfl, hw⟩
  · rw [List.append_nil] at hu ⊢
    exact .inl ⟨_, _, _, .none shl opts hu⟩
  · refine .inr (bad _ (.inr rfl) (true, opts.flatMap CliOpt.act) ?_)
    rw [cli_opts, Clpars.for3Go, cli_known true (c!"-zhscript-path", 1) (by simp)]
    rfl
  · refine .inr (bad _ (.inl rfl) (true, opts.flatMap CliOpt.act) ?_)
    rw [cli_opts, Clpars.for3Go, cli_known true (c!"-zhscript-help", 0) (by simp)]
    rfl
  · have hr : r.length ≤ 1000000000 := by
      rw [List.length_append, List.length_cons] at hl
      omega
    by_cases hd : w.head? = some '-'
    · exact .inl ⟨_, _, _, .dash shl opts w r hu hw hd hr⟩
    · exact .inl ⟨_, _, _, .plain shl opts w r hu hw hd hr⟩

/-! ## Examples -/

/-- A host with one file. -/
def HF (text : Str) : Host := { H0 with
  fileName := fun _ _ => some c!"/d/a.zs"
  open_ := fun _ _ => true
  read := fun _ f => if f = c!"/d/a.zs" then .ok text else .error [] }

def demoLine (text : Str) (n : Nat) (argv : List Str) : Out (Except Err Unit) × List Event :=
  let r := runMain (HF text) n false argv
  (r.1, r.2.trace)

def argsCode : Str := c!"显示“【‘参数1’】【‘参数2’】【‘参数3’】【‘参数4’】”。"

/-- Words reach the script unchanged: words with blanks and separators, empty ones, and options after the script. -/
theorem C36_example :
    demoLine [] 20 [c!"/b/zs", c!"-zhscript-src-is-code", argsCode, c!"a b、c", [], c!"-zhscript-path", c!"x"] =
      (.ok (.ok ()), [.out c!"【a b、c】【】【-zhscript-path】【x】"]) ∧
    demoLine argsCode 20 [c!"/b/zs", c!"-zhscript-jhdh", c!"a.zs", c!"a b、c", [], c!"-zhscript-path", c!"x"] =
      (.ok (.ok ()), [.open_ c!"/d/a.zs", .read c!"/d/a.zs", .out c!"【a b、c】【】【-zhscript-path】【x】"]) ∧
    demoLine (c!"#!/b/zs -zhscript-jhdh k --。\n" ++ argsCode) 20 [c!"/b/zs", c!"-zhscript-jhdh k --。", c!"a.zs", c!"甲"] =
      (.ok (.ok ()), [.open_ c!"/d/a.zs", .read c!"/d/a.zs", .out c!"【甲】【k】【】【】"]) := by
  decide +kernel

/-- The lines of the example are lines of the theorems. -/
theorem C36_witness :
    CliLine [c!"/b/zs", c!"-zhscript-src-is-code", argsCode, c!"a b、c", [], c!"-zhscript-path", c!"x"] [.isCode] argsCode
      [c!"a b、c", [], c!"-zhscript-path", c!"x"] ∧
    CliLine [c!"/b/zs", c!"-zhscript-jhdh", c!"a.zs", c!"a b、c", [], c!"-zhscript-path", c!"x"] [.jhdh] c!"a.zs"
      [c!"a b、c", [], c!"-zhscript-path", c!"x"] ∧
    CliLine [c!"/b/zs", c!"-zhscript-jhdh k --。", c!"a.zs", c!"甲"] [] c!"a.zs" [c!"甲"] ∧
    split c!"/b/zs -zhscript-jhdh k --。" = [c!"/b/zs", c!"-zhscript-jhdh", c!"k", c!"--。"] ∧
    plainWords ([c!"-zhscript-jhdh", c!"k", c!"--。"].filter (· ≠ MARK)) = some [c!"k"] := by
  have un : ∀ ws : List Str, ws.all (fun w => !MARK.isSuffixOf w) = true → Unmarked ws := by
    intro ws h w hw hm
    have := List.all_eq_true.1 h w hw
    rw [List.isSuffixOf_iff_suffix.2 hm] at this
    cases this
  refine ⟨.plain c!"/b/zs" [.isCode] argsCode _ (un _ (by decide +kernel)) ?_ (by decide +kernel) (by decide),
    .plain c!"/b/zs" [.jhdh] c!"a.zs" _ (un _ (by decide +kernel)) ?_ (by decide +kernel) (by decide),
    .marked c!"/b/zs" [] c!"-zhscript-jhdh k --。" c!"a.zs" _ (un _ (by decide +kernel)) (List.isSuffixOf_iff_suffix.1 (by decide +kernel))
      (by decide), by decide +kernel, by decide +kernel⟩
  · rw [← List.isPrefixOf_iff_prefix]; decide +kernel
  · rw [← List.isPrefixOf_iff_prefix]; decide +kernel

/-- A word for the script that ends with the mark: the word after it runs instead of the script, and the words before are lost. -/
theorem C36_mark_counterexample :
    demoLine [] 20 [c!"/b/zs", c!"-zhscript-src-is-code", c!"显示1。", c!"x--。", c!"显示“2【‘参数1’】【‘参数2’】”。", c!"乙"] =
      (.ok (.ok ()), [.out c!"2【】【乙】"]) := by
  decide +kernel

/-- A script that is started through `/usr/bin/env` has the name of the interpreter as an argument. -/
theorem C36_env_counterexample :
    demoLine (c!"#!/usr/bin/env zs\n" ++ argsCode) 20 [c!"/b/zs", c!"a.zs", c!"甲"] =
      (.ok (.ok ()), [.open_ c!"/d/a.zs", .read c!"/d/a.zs", .out c!"【甲】【zs】【】【】"]) := by
  decide +kernel

/-- A file that begins with an empty `#!` line stops the interpreter. -/
theorem C36_empty_line_counterexample : (demoLine c!"#!\n显示1。" 20 [c!"/b/zs", c!"a.zs"]).1 = .panic := by
  decide +kernel

end Zh
