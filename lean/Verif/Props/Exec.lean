import Verif.Props.Print
import Verif.Props.Clpars
/-!
# C49: external commands
-/
namespace Zh

variable {H : Host}

/-! ## Specification -/

/-- The options of `执行`. -/
inductive Spec.ExecOpt where
  | cd (p : Str)
  | env (n v : Str)
  | out (c : Str)
  | err (c : Str)
  | noOut
  | noErr
  | redirect
  | passive (c : Str)
  | passive2 (c : Str)
  | parallel
deriving DecidableEq

/-- How an option is written. -/
def Spec.ExecOpt.words : Spec.ExecOpt → List Str
  | .cd p => [c!"-cd", p]
  | .env n v => [c!"-env", n, v]
  | .out c => [c!"-出", c]
  | .err c => [c!"-错", c]
  | .noOut => [c!"-堵出"]
  | .noErr => [c!"-堵错"]
  | .redirect => [c!"-重定向"]
  | .passive c => [c!"-被动者", c]
  | .passive2 c => [c!"-被动者2", c]
  | .parallel => [c!"-并"]

/-- The command that is run: the last directory, all environment variables in order. -/
def Spec.command (prog : Str) (args : List Str) (opts : List Spec.ExecOpt) : Cmd where
  prog := prog
  args := args
  cd := (opts.filterMap fun | .cd p => some p | _ => none).getLast?
  env := opts.filterMap fun | .env n v => some (n, v) | _ => none
  noOut := decide (.noOut ∈ opts)
  noErr := decide (.noErr ∈ opts)

/-- The code for lines of output, for lines of error output, and for the start. -/
def Spec.outCode (opts : List Spec.ExecOpt) : Str := opts.flatMap fun | .out c => c | _ => []
def Spec.errCode (opts : List Spec.ExecOpt) : Str := opts.flatMap fun | .err c => c | _ => []
def Spec.initCode (opts : List Spec.ExecOpt) : Str :=
  ((opts.filterMap fun | .passive c => some c | .passive2 c => some c | _ => none).getLast?).getD []

/-- Whether `-被动者2` is among the options. -/
def Spec.keeps (opts : List Spec.ExecOpt) : Bool := opts.any fun | .passive2 _ => true | _ => false

/-- The mode that an option names. -/
def Spec.ExecOpt.kind : Spec.ExecOpt → Option ExecKind
  | .redirect => some .output
  | .passive _ => some .pipes
  | .passive2 _ => some .pipes
  | .parallel => some .spawn
  | _ => none

/-- The mode is given by the last option that names one; without one, the output is captured if there is
code for it. -/
def Spec.execKind (opts : List Spec.ExecOpt) : ExecKind :=
  match (opts.filterMap Spec.ExecOpt.kind).getLast? with
  | some k => k
  | none => if Spec.outCode opts = [] ∧ Spec.errCode opts = [] then .status else .output

/-- The exit status as fields: code and separator, or separator and message. -/
def Spec.exit : Option Int → List Val
  | some i => [.s (intStr i), Spec.sep]
  | none => [Spec.sep, .s c!"Process terminated by signal"]

/-- The fields for a command that could not be started. -/
def Spec.notStarted (e : Str) : List Val := [.s c!"255", Spec.sep, .s e]

/-- The operating system was asked for something. -/
def Spec.asked (e : Event) (s : St) : St := { s with trace := s.trace ++ [e] }

/-- The words after `执行`; none of them is a running process. -/
def Spec.ExecWords (H : Host) (a : List Code) (env : Env) (s : St) (v : List Str) (t : St) : Prop :=
  Spec.Words H a env s v t ∧ ∀ i h, (t.lists s.nlist).a.getLast? ≠ some ⟨i, .o h⟩

/-- A text without one line end. -/
inductive Spec.Line : Str → Str → Prop where
  | crlf (t) : Spec.Line (t ++ ['\r', '\n']) t
  | lf (t) : t.getLast? ≠ some '\r' → Spec.Line (t ++ ['\n']) t
  | none (t) : t.getLast? ≠ some '\n' → Spec.Line t t

/-- A new scope below `q` whose only argument is `t`. -/
def Spec.arged (q : Nat) (t : Str) (s : St) : St :=
  { s with
    items := upd s.items s.nitem [], nitem := s.nitem + 1
    lists := upd s.lists s.nlist { RList.empty with a := [⟨s.nitem, .s t⟩] }, nlist := s.nlist + 1
    scopes := upd s.scopes s.nscope (Scope.new [] [] [] none (some (q, (s.scopes q).i)) s.nlist)
    nscope := s.nscope + 1 }

/-- Code is run with a line (without its end) as its only argument. -/
def Spec.OnLine (H : Host) (src line : Str) (env : Env) (s : St) (r : Except Err Unit) (s' : St) : Prop :=
  ∃ t x, Spec.Line line t ∧ Evals H (.src src { env with q := s.nscope }) (Spec.arged env.q t s) x s' ∧ x.r = r

/-- Code is run for every line; an error ends it.  What is no text is reported on the error output. -/
inductive Spec.Lines (H : Host) (src : Str) (env : Env) : List (Except Str Str) → St → Except Err Unit → St → Prop where
  | nil {s} : Spec.Lines H src env [] s (.ok ()) s
  | line {t ls s s1 s' r} : Spec.OnLine H src t { env with ret := s.nlist } (Spec.fresh s) (.ok ()) s1 →
      Spec.Lines H src env ls s1 r s' → Spec.Lines H src env (.ok t :: ls) s r s'
  | error {t ls s s' e} : Spec.OnLine H src t { env with ret := s.nlist } (Spec.fresh s) (.error e) s' →
      Spec.Lines H src env (.ok t :: ls) s (.error e) s'
  | noText {e ls s s' r} : Spec.Lines H src env ls (Spec.asked (.err (e ++ ['\n'])) s) r s' →
      Spec.Lines H src env (.error e :: ls) s r s'

/-- What happens to captured output, given the code for it: with `0` it is passed on, without code it is
a field of the result, otherwise the code is run for every line and the field is empty. -/
inductive Spec.Stream (H : Host) (src : Str) (c : Captured) (err : Bool) (env : Env) : St → Except Err Unit → St → Prop where
  | pass {s} : src = ['0'] → Spec.Stream H src c err env s (.ok ()) (Spec.asked (if err then .errBytes c.bytes else .outBytes c.bytes) s)
  | text {s t} : src = [] → c.text = .ok t → Spec.Stream H src c err env s (.ok ()) (s.pushs env.ret [.s t, Spec.sep])
  | noText {s e} : src = [] → c.text = .error e →
      Spec.Stream H src c err env s (.ok ()) ((Spec.asked (.err (e ++ ['\n'])) s).pushs env.ret [Spec.sep])
  | lines {s s'} : src ≠ [] → src ≠ ['0'] → Spec.Lines H src env c.lines s (.ok ()) s' →
      Spec.Stream H src c err env s (.ok ()) (s'.pushs env.ret [Spec.sep])
  | error {s s' e} : src ≠ [] → src ≠ ['0'] → Spec.Lines H src env c.lines s (.error e) s' →
      Spec.Stream H src c err env s (.error e) s'

/-- Texts are written to a process; the first failure is reported and ends it. -/
def Spec.wrote (H : Host) (h : Nat) : List Str → St → St
  | [], s => s
  | t :: ts, s =>
    match H.write s.trace h t with
    | none => Spec.wrote H h ts (Spec.asked (.write h t) s)
    | some e => Spec.asked (.err (e ++ ['\n'])) (Spec.asked (.write h t) s)

/-- Code is run with a line as its only argument, and the words it gives are written to the process. -/
def Spec.Piped (H : Host) (h : Nat) (src line : Str) (env : Env) (s : St) (r : Except Err Unit) (s' : St) : Prop :=
  ∃ s1, Spec.OnLine H src line { env with ret := s.nlist } (Spec.fresh s) r s1 ∧
    s' = match r with
      | .ok () => Spec.wrote H h (s1.lists s.nlist).toVec s1
      | .error _ => s1

/-- One look at a stream of a running process: nothing is read if there is no code for it; `none` if it has
ended; otherwise the code is run for the line (whatever it gives).  Text before a failed read is kept. -/
inductive Spec.Read (H : Host) (h : Nat) (err : Bool) (src : Str) (env : Env) : Str → St → Option Str → St → Prop where
  | off {buf s} : src = [] → Spec.Read H h err src env buf s (some buf) s
  | done {buf s} : src ≠ [] → H.readLine s.trace h err = .ok [] →
      Spec.Read H h err src env buf s none (Spec.asked (.readLine h err) s)
  | line {buf s t x s'} : src ≠ [] → H.readLine s.trace h err = .ok t → t ≠ [] →
      Spec.Piped H h src (buf ++ t) env (Spec.asked (.readLine h err) s) x s' →
      Spec.Read H h err src env buf s (some []) s'
  | failed {buf s e} : src ≠ [] → H.readLine s.trace h err = .error e →
      Spec.Read H h err src env buf s (some buf) (Spec.asked (.err (e ++ ['\n'])) (Spec.asked (.readLine h err) s))

/-- Output and error output of a running process are looked at in turn until one of them has ended. -/
inductive Spec.Served (H : Host) (h : Nat) (out err : Str) (env : Env) : Str → St → St → Prop where
  | outEnd {b s s'} : Spec.Read H h false out env b s none s' → Spec.Served H h out err env b s s'
  | errEnd {b b1 s s1 s'} : Spec.Read H h false out env b s (some b1) s1 → Spec.Read H h true err env b1 s1 none s' →
      Spec.Served H h out err env b s s'
  | next {b b1 b2 s s1 s2 s'} : Spec.Read H h false out env b s (some b1) s1 → Spec.Read H h true err env b1 s1 (some b2) s2 →
      Spec.Served H h out err env b2 s2 s' → Spec.Served H h out err env b s s'

/-! ## The options -/

namespace Clpars

/-- One option with its words. -/
theorem for3Go_opt {σ : Type} (cb : σ → Call → Int × σ) (cb2 : σ → Str → Int × σ) {items : List Item} {it : Item} {w : Str}
    {args ws : List Str} {no0 : Nat} {st st' : σ} (hf : items.filter (·.hit w) = [it]) (hc : it.cnt = args.length)
    (hn : it.need 0 = args.length) (hcb : cb st ⟨w, args, 0, it, 1, 0⟩ = (0, st')) :
    for3Go cb cb2 items (w :: (args ++ ws)) 0 no0 st = for3Go cb cb2 items ws 0 no0 st' := by
  have skip : ∀ (args : List Str) st, for3Go cb cb2 items (args ++ ws) args.length no0 st = for3Go cb cb2 items ws 0 no0 st := by
    intro args st
    induction args with
    | nil => rfl
    | cons a as ih => exact ih
  rw [for3Go, hf]
  simp only [callItems, List.nil_append, hc, List.take_left', List.length_nil, hn, Nat.zero_add, if_true, hcb, Nat.lt_irrefl, and_false,
    if_false, ne_eq, not_true_eq_false, Nat.one_ne_zero, not_false_eq_true]
  exact skip args st'

end Clpars

/-! ### The table of `执行` -/

/-- The spellings. -/
theorem execTable_tagv : execTable.map (·.tagv) = [[c!"-cd"], [c!"-env"], [c!"-出"], [c!"-错"], [c!"-堵出"], [c!"-堵错"], [c!"-重定向"],
    [c!"-被动者"], [c!"-被动者2"], [c!"-并"], [c!"-h", c!"--help"], [[]]] := by decide +kernel

/-- What an option does. -/
def ExecOpts.apply (o : ExecOpts) : Spec.ExecOpt → ExecOpts
  | .cd p => { o with cmd := { o.cmd with cd := some p } }
  | .env n v => { o with cmd := { o.cmd with env := o.cmd.env ++ [(n, v)] } }
  | .out c => { o with out := o.out ++ c }
  | .err c => { o with err := o.err ++ c }
  | .noOut => { o with cmd := { o.cmd with noOut := true } }
  | .noErr => { o with cmd := { o.cmd with noErr := true } }
  | .redirect => { o with mode := some 'r' }
  | .passive c => { o with init := c, mode := some 's' }
  | .passive2 c => { o with init := c, mode := some 's', mode2 := true }
  | .parallel => { o with mode := some 'p' }

theorem execTable_one {w : Str} {n : Nat} (h : (execTable.filter (·.hit w)).map (fun it => (it.cnt, it.need 0)) = [(n, n)]) :
    ∃ it, execTable.filter (·.hit w) = [it] ∧ it.cnt = n ∧ it.need 0 = n := by
  generalize execTable.filter (·.hit w) = l at h
  cases l with
  | nil => cases h
  | cons it l =>
    simp only [List.map_cons, List.cons.injEq, Prod.mk.injEq, List.map_eq_nil_iff] at h
    obtain ⟨⟨h1, h2⟩, rfl⟩ := h
    exact ⟨it, rfl, h1, h2⟩

theorem for3Go_exec1 (o : ExecOpts) (x : Spec.ExecOpt) (ws : List Str) (no0 : Nat) :
    Clpars.for3Go execCb (fun o _ => (0, o)) execTable (x.words ++ ws) 0 no0 o =
      Clpars.for3Go execCb (fun o _ => (0, o)) execTable ws 0 no0 (o.apply x) := by
  have key : ∀ (w : Str) (args : List Str) (n : Nat) (o' : ExecOpts), args.length = n →
      (execTable.filter (·.hit w)).map (fun it => (it.cnt, it.need 0)) = [(n, n)] →
      (∀ it, execCb o ⟨w, args, 0, it, 1, 0⟩ = (0, o')) →
      Clpars.for3Go execCb (fun o _ => (0, o)) execTable (w :: (args ++ ws)) 0 no0 o =
        Clpars.for3Go execCb (fun o _ => (0, o)) execTable ws 0 no0 o' := by
    intro w args n o' h0 h1 h2
    obtain ⟨it, h3, h4, h5⟩ := execTable_one h1
    exact Clpars.for3Go_opt _ _ h3 (h4.trans h0.symm) (h5.trans h0.symm) (h2 it)
  cases x with
  | cd p => exact key _ [p] 1 _ rfl (by decide +kernel) fun it => rfl
  | env n v => exact key _ [n, v] 2 _ rfl (by decide +kernel) fun it => rfl
  | out c => exact key _ [c] 1 _ rfl (by decide +kernel) fun it => rfl
  | err c => exact key _ [c] 1 _ rfl (by decide +kernel) fun it => rfl
  | noOut => exact key _ [] 0 _ rfl (by decide +kernel) fun it => rfl
  | noErr => exact key _ [] 0 _ rfl (by decide +kernel) fun it => rfl
  | redirect => exact key _ [] 0 _ rfl (by decide +kernel) fun it => rfl
  | passive c =>
    refine key _ [c] 1 _ rfl (by decide +kernel) fun it => ?_
    obtain ⟨_, _, _, _, _, m⟩ := o
    cases m <;> rfl
  | passive2 c =>
    refine key _ [c] 1 _ rfl (by decide +kernel) fun it => ?_
    obtain ⟨_, _, _, _, _, m⟩ := o
    cases m <;> rfl
  | parallel => exact key _ [] 0 _ rfl (by decide +kernel) fun it => rfl

theorem for3Go_exec (o : ExecOpts) (opts : List Spec.ExecOpt) (ws : List Str) (no0 : Nat) :
    Clpars.for3Go execCb (fun o _ => (0, o)) execTable (opts.flatMap Spec.ExecOpt.words ++ ws) 0 no0 o =
      Clpars.for3Go execCb (fun o _ => (0, o)) execTable ws 0 no0 (opts.foldl ExecOpts.apply o) := by
  induction opts generalizing o with
  | nil => rfl
  | cons x xs ih => rw [List.flatMap_cons, List.append_assoc, for3Go_exec1, ih]; rfl

/-- The character that stands for a mode. -/
def ExecKind.char : ExecKind → Option Char
  | .status => none
  | .output => some 'r'
  | .spawn => some 'p'
  | .pipes => some 's'

theorem fold_cd (opts : List Spec.ExecOpt) (o : ExecOpts) :
    (opts.foldl ExecOpts.apply o).cmd.cd = ((opts.filterMap fun | .cd p => some p | _ => none).getLast?).or o.cmd.cd := by
  induction opts generalizing o with
  | nil => rfl
  | cons x xs ih =>
    rw [List.foldl_cons, ih]
    cases x <;> simp only [ExecOpts.apply, List.filterMap_cons, List.getLast?_cons]
    cases (xs.filterMap fun | .cd p => some p | _ => none).getLast? <;> rfl

theorem fold_env (opts : List Spec.ExecOpt) (o : ExecOpts) :
    (opts.foldl ExecOpts.apply o).cmd.env = o.cmd.env ++ opts.filterMap fun | .env n v => some (n, v) | _ => none := by
  induction opts generalizing o with
  | nil => simp
  | cons x xs ih => rw [List.foldl_cons, ih]; cases x <;> simp [ExecOpts.apply]

theorem fold_rest (opts : List Spec.ExecOpt) (o : ExecOpts) :
    (opts.foldl ExecOpts.apply o).cmd.prog = o.cmd.prog ∧ (opts.foldl ExecOpts.apply o).cmd.args = o.cmd.args ∧
    (opts.foldl ExecOpts.apply o).cmd.noOut = (o.cmd.noOut || decide (.noOut ∈ opts)) ∧
    (opts.foldl ExecOpts.apply o).cmd.noErr = (o.cmd.noErr || decide (.noErr ∈ opts)) ∧
    (opts.foldl ExecOpts.apply o).out = o.out ++ Spec.outCode opts ∧
    (opts.foldl ExecOpts.apply o).err = o.err ++ Spec.errCode opts ∧
    (opts.foldl ExecOpts.apply o).mode2 = (o.mode2 || Spec.keeps opts) := by
  induction opts generalizing o with
  | nil => simp [Spec.outCode, Spec.errCode, Spec.keeps]
  | cons x xs ih =>
    obtain ⟨h1, h2, h3, h4, h5, h6, h7⟩ := ih (o.apply x)
    rw [List.foldl_cons, h1, h2, h3, h4, h5, h6, h7]
    cases x <;> simp [ExecOpts.apply, Spec.outCode, Spec.errCode, Spec.keeps]

theorem fold_init (opts : List Spec.ExecOpt) (o : ExecOpts) :
    (opts.foldl ExecOpts.apply o).init =
      ((opts.filterMap fun | .passive c => some c | .passive2 c => some c | _ => none).getLast?).getD o.init := by
  induction opts generalizing o with
  | nil => rfl
  | cons x xs ih =>
    rw [List.foldl_cons, ih]
    cases x <;> simp only [ExecOpts.apply, List.filterMap_cons, List.getLast?_cons, Option.getD_some]

theorem fold_mode (opts : List Spec.ExecOpt) (o : ExecOpts) :
    (opts.foldl ExecOpts.apply o).mode =
      match (opts.filterMap Spec.ExecOpt.kind).getLast? with
      | some k => k.char
      | none => o.mode := by
  induction opts generalizing o with
  | nil => rfl
  | cons x xs ih =>
    rw [List.foldl_cons, ih]
    cases x <;> simp only [List.filterMap_cons, Spec.ExecOpt.kind, ExecOpts.apply, List.getLast?_cons]
    all_goals cases (xs.filterMap Spec.ExecOpt.kind).getLast? <;> rfl

theorem kind_ne_status {opts : List Spec.ExecOpt} {k : ExecKind} (h : (opts.filterMap Spec.ExecOpt.kind).getLast? = some k) :
    k ≠ .status := by
  have := List.mem_of_getLast? h
  obtain ⟨x, -, hx⟩ := List.mem_filterMap.1 this
  rintro rfl
  cases x <;> simp [Spec.ExecOpt.kind] at hx

theorem exec_cmd (prog : Str) (args : List Str) (opts : List Spec.ExecOpt) :
    (opts.foldl ExecOpts.apply { cmd := { prog, args } }).cmd = Spec.command prog args opts := by
  obtain ⟨h1, h2, h3, h4, -⟩ := fold_rest opts { cmd := { prog, args } }
  have h5 := fold_cd opts { cmd := { prog, args } }
  have h6 := fold_env opts { cmd := { prog, args } }
  generalize (opts.foldl ExecOpts.apply { cmd := { prog, args } }).cmd = c at *
  obtain ⟨a, b, c, d, e, f⟩ := c
  simp only [Option.or_none, Bool.false_or, List.nil_append] at h1 h2 h3 h4 h5 h6
  subst h1 h2 h3 h4 h5 h6
  rfl

/-- The mode that is used. -/
theorem exec_kind (opts : List Spec.ExecOpt) (o : ExecOpts) (ho : o.mode = none ∧ o.out = [] ∧ o.err = []) :
    (if (opts.foldl ExecOpts.apply o).mode = none ∧ ((opts.foldl ExecOpts.apply o).out ≠ [] ∨ (opts.foldl ExecOpts.apply o).err ≠ [])
      then some 'r' else (opts.foldl ExecOpts.apply o).mode) = (Spec.execKind opts).char := by
  obtain ⟨-, -, -, -, h5, h6, -⟩ := fold_rest opts o
  rw [h5, h6, fold_mode, ho.1, ho.2.1, ho.2.2, List.nil_append, List.nil_append]
  unfold Spec.execKind
  generalize hk : (opts.filterMap Spec.ExecOpt.kind).getLast? = k
  cases k with
  | none =>
    dsimp only
    by_cases h : Spec.outCode opts = [] ∧ Spec.errCode opts = []
    · rw [if_neg (by rintro ⟨-, h' | h'⟩; exacts [h' h.1, h' h.2]), if_pos h]; rfl
    · rw [if_pos ⟨rfl, by by_cases h' : Spec.outCode opts = []; exacts [.inr fun e => h ⟨h', e⟩, .inl h']⟩, if_neg h]; rfl
  | some k =>
    have := kind_ne_status hk
    cases k <;> first | exact absurd rfl this | rfl

/-! ## Evaluation -/

theorem Ev.mono {α : Type} {R R' : Call → St → Res → St → Prop} (hR : ∀ c s r s', R c s r s' → R' c s r s') {p : Prog α} {s s' : St} {a : α}
    (h : Ev H R p s a s') : Ev H R' p s a s' := by
  induction p generalizing s with
  | ret b => exact h
  | panic => exact h
  | op o k ih =>
    obtain ⟨b, s1, h1, h2⟩ := h
    exact ⟨b, s1, h1, ih b h2⟩
  | call hd c k ih =>
    obtain ⟨r, s1, h1, h2⟩ := h
    exact ⟨r, s1, hR _ _ _ _ h1, ih r h2⟩

theorem evE_helloNew_bind {β : Type} {a : List Code} {env : Env} {f : Nat → E β} {s s' : St} {r : Except Err β} :
    EvE H (Evals H) (helloNew [] a env >>= f) s r s' ↔
      (∃ x s1, Evals H (.codes a 0 usizeMax { env with ret := s.nlist }) (Spec.fresh s) x s1 ∧ x.r = .ok () ∧
        EvE H (Evals H) (f s.nlist) s1 r s') ∨
        ∃ x e, Evals H (.codes a 0 usizeMax { env with ret := s.nlist }) (Spec.fresh s) x s' ∧ x.r = .error e ∧ r = .error e := by
  have key : ∀ {y : Except Err Nat} {s1 : St}, EvE H (Evals H) (helloNew [] a env) s y s1 ↔
      ∃ x, Evals H (.codes a 0 usizeMax { env with ret := s.nlist }) (Spec.fresh s) x s1 ∧ y = x.r.map fun _ => s.nlist := by
    intro y s1
    unfold helloNew
    rw [evE_newList_bind, evE_hello_bind]
    constructor
    · rintro (⟨x, s2, h1, h2, h3⟩ | ⟨x, e, h1, h2, rfl⟩)
      · obtain ⟨rfl, rfl⟩ := evE_pure.1 h3
        exact ⟨x, h1, by rw [h2]; rfl⟩
      · exact ⟨x, h1, by rw [h2]; rfl⟩
    · rintro ⟨x, h1, rfl⟩
      cases hx : x.r with
      | ok u => exact .inl ⟨x, s1, h1, hx, evE_pure.2 ⟨rfl, rfl⟩⟩
      | error e => exact .inr ⟨x, e, h1, hx, rfl⟩
  rw [evE_bind]
  simp only [key]
  constructor
  · rintro (⟨l, s1, ⟨x, h1, h2⟩, h3⟩ | ⟨e, ⟨x, h1, h2⟩, rfl⟩)
    · cases hx : x.r with
      | ok u => rw [hx] at h2; cases h2; exact .inl ⟨x, s1, h1, hx, h3⟩
      | error e => rw [hx] at h2; cases h2
    · cases hx : x.r with
      | ok u => rw [hx] at h2; cases h2
      | error e' => rw [hx] at h2; cases h2; exact .inr ⟨x, e, h1, hx, rfl⟩
  · rintro (⟨x, s1, h1, h2, h3⟩ | ⟨x, e, h1, h2, rfl⟩)
    · exact .inl ⟨_, s1, ⟨x, h1, by rw [h2]; rfl⟩, h3⟩
    · exact .inr ⟨e, ⟨x, h1, by rw [h2]; rfl⟩, rfl⟩

theorem line_iff {line t : Str} : Spec.Line line t ↔ t = chopLine line := by
  have suf : ∀ e : Str, e.isSuffixOf line = true ↔ ∃ t, line = t ++ e := by
    intro e
    rw [List.isSuffixOf_iff_suffix]
    exact ⟨fun ⟨t, h⟩ => ⟨t, h.symm⟩, fun ⟨t, h⟩ => ⟨t, h.symm⟩⟩
  unfold chopLine
  constructor
  · intro h
    cases h with
    | crlf => rw [if_pos ((suf _).2 ⟨t, rfl⟩)]; simp
    | lf _ h =>
      rw [if_neg, if_pos ((suf _).2 ⟨t, rfl⟩)]
      · simp
      · intro h'
        obtain ⟨u, hu⟩ := (suf _).1 h'
        have : u ++ ['\r', '\n'] = (u ++ ['\r']) ++ ['\n'] := by simp
        rw [this] at hu
        have := List.append_inj_left' hu rfl
        subst this
        simp at h
    | none _ h =>
      rw [if_neg, if_neg]
      · intro h'
        obtain ⟨u, rfl⟩ := (suf _).1 h'
        simp at h
      · intro h'
        obtain ⟨u, rfl⟩ := (suf _).1 h'
        simp at h
  · rintro rfl
    by_cases h1 : ['\r', '\n'].isSuffixOf line = true
    · rw [if_pos h1]
      obtain ⟨u, rfl⟩ := (suf _).1 h1
      simpa using Spec.Line.crlf u
    · rw [if_neg h1]
      by_cases h2 : ['\n'].isSuffixOf line = true
      · rw [if_pos h2]
        obtain ⟨u, rfl⟩ := (suf _).1 h2
        have := Spec.Line.lf u (by
          intro h
          apply h1
          rw [suf]
          obtain ⟨v, rfl⟩ := List.getLast?_eq_some_iff.1 h
          exact ⟨v, by simp⟩)
        simpa using this
      · rw [if_neg h2]
        refine .none _ fun h => h2 ?_
        rw [suf]
        exact List.getLast?_eq_some_iff.1 h

section
variable {R : Call → St → Res → St → Prop}

theorem evE_addT_bind {β : Type} {ret : Nat} {t : Str} {f : Unit → E β} {s s' : St} {r : Except Err β} :
    EvE H R ((liftM (addT ret t) : E Unit) >>= f) s r s' ↔ EvE H R (f ()) (s.push ret (.s t)) r s' := by
  rw [evE_lift_bind]
  simp only [ev_addT]
  exact ⟨fun ⟨_, _, h, h'⟩ => h ▸ h', fun h => ⟨(), _, rfl, h⟩⟩

theorem evE_addVal_bind {β : Type} {ret : Nat} {v : Val} {f : Unit → E β} {s s' : St} {r : Except Err β} :
    EvE H R ((liftM (addVal ret v []) : E Unit) >>= f) s r s' ↔ EvE H R (f ()) (s.push ret v) r s' := by
  rw [evE_lift_bind]
  simp only [ev_addVal]
  exact ⟨fun ⟨_, _, h, h'⟩ => h ▸ h', fun h => ⟨(), _, rfl, h⟩⟩

theorem evE_addDun {ret : Nat} {s s' : St} {x : Except Err Unit} :
    EvE H R (liftM (addDun ret) : E Unit) s x s' ↔ x = .ok () ∧ s' = s.push ret Spec.sep := evE_addVal

theorem ev_exitcode {code : Option Int} {ret : Nat} {s s' : St} {u : Unit} :
    Ev H R (exitcodeP code ret) s u s' ↔ s' = s.pushs ret (Spec.exit code) := by
  unfold exitcodeP
  cases code <;> dsimp only <;> rw [ev_bind] <;> simp only [ev_addT, ev_addDun]
  · exact ⟨fun ⟨_, _, h, h'⟩ => by subst h; exact h', fun h => ⟨(), _, rfl, h⟩⟩
  · exact ⟨fun ⟨_, _, h, h'⟩ => by subst h; exact h', fun h => ⟨(), _, rfl, h⟩⟩

theorem ev_execErr {e : Str} {ret : Nat} {s s' : St} {u : Unit} :
    Ev H R (execErr e ret) s u s' ↔ s' = s.pushs ret (Spec.notStarted e) := by
  unfold execErr
  rw [ev_bind]
  simp only [ev_addT]
  constructor
  · rintro ⟨_, _, rfl, h⟩
    rw [ev_bind] at h
    simp only [ev_addT, ev_addDun] at h
    obtain ⟨_, _, rfl, h⟩ := h
    exact h
  · intro h
    refine ⟨(), _, rfl, ?_⟩
    rw [ev_bind]
    exact ⟨(), _, ev_addDun.2 rfl, ev_addT.2 h⟩

end

theorem evE_execCode {src arg : Str} {env : Env} {s s' : St} {r : Except Err Unit} :
    EvE H (Evals H) (execCode src arg env) s r s' ↔ Spec.OnLine H src arg env s r s' := by
  unfold execCode
  rw [evE_op_bind (by rfl), evE_getSt_bind, evE_addT_bind, evE_callE]
  have e2 : (Scope.new [] [] [] none (some (env.q, (s.scopes env.q).i)) s.nlist).args = s.nlist := rfl
  simp only [upd_same, e2]
  have e3 : (St.push s.nlist (.s (chopLine arg)) { s with
        lists := upd s.lists s.nlist .empty, nlist := s.nlist + 1
        scopes := upd s.scopes s.nscope (Scope.new [] [] [] none (some (env.q, (s.scopes env.q).i)) s.nlist)
        nscope := s.nscope + 1 }) = Spec.arged env.q (chopLine arg) s := by
    simp only [St.push, Spec.arged, upd_same, upd_upd]
    rfl
  rw [e3]
  constructor
  · rintro ⟨x, h1, h2⟩
    exact ⟨_, x, line_iff.2 rfl, h1, h2⟩
  · rintro ⟨t, x, h1, h2, h3⟩
    rw [line_iff] at h1
    subst h1
    exact ⟨x, h2, h3⟩

theorem evE_execLines {src : Str} {env : Env} {ls : List (Except Str Str)} {s s' : St} {r : Except Err Unit} :
    EvE H (Evals H) (execLines src env ls) s r s' ↔ Spec.Lines H src env ls s r s' := by
  induction ls generalizing s with
  | nil =>
    rw [execLines, evE_pure]
    constructor
    · rintro ⟨rfl, rfl⟩; exact .nil
    · intro h; cases h; exact ⟨rfl, rfl⟩
  | cons l ls ih =>
    cases l with
    | ok t =>
      rw [execLines, evE_newList_bind, evE_bind]
      simp only [evE_execCode, ih]
      constructor
      · rintro (⟨_, s1, h1, h2⟩ | ⟨e, h1, rfl⟩)
        · exact .line h1 h2
        · exact .error h1
      · intro h
        cases h with
        | line h1 h2 => exact .inl ⟨(), _, h1, h2⟩
        | error h1 => exact .inr ⟨_, h1, rfl⟩
    | error e =>
      rw [execLines, evE_op_bind (by rfl), ih]
      constructor
      · intro h; exact .noText h
      · intro h
        cases h with
        | noText h => exact h

theorem evE_execOut {src : Str} {c : Captured} {err : Bool} {env : Env} {s s' : St} {r : Except Err Unit} :
    EvE H (Evals H) (execOut src c err env) s r s' ↔ Spec.Stream H src c err env s r s' := by
  unfold execOut
  by_cases h0 : src = ['0']
  · rw [if_pos h0, evE_lift]
    constructor
    · rintro ⟨_, rfl, h⟩
      have h := ev_doOp.1 h
      simp only [Op.run, Prod.mk.injEq] at h
      rw [← h.2]
      exact .pass h0
    · intro h
      cases h with
      | pass => exact ⟨(), rfl, ev_doOp.2 rfl⟩
      | text h => rw [h] at h0; cases h0
      | noText h => rw [h] at h0; cases h0
      | lines _ h => exact absurd h0 h
      | error _ h => exact absurd h0 h
  · rw [if_neg h0]
    by_cases h1 : src = []
    · have e1 : src.isEmpty = true := by rw [h1]; rfl
      rw [if_pos e1]
      cases hc : c.text with
      | ok t =>
        dsimp only
        rw [evE_addT_bind, evE_addDun]
        constructor
        · rintro ⟨rfl, rfl⟩; exact .text h1 hc
        · intro h
          cases h with
          | pass h => exact absurd h h0
          | text _ h => rw [hc] at h; cases h; exact ⟨rfl, rfl⟩
          | noText _ h => rw [hc] at h; cases h
          | lines h => exact absurd h1 h
          | error h => exact absurd h1 h
      | error e =>
        dsimp only
        rw [evE_op_bind (by rfl), evE_addDun]
        constructor
        · rintro ⟨rfl, rfl⟩; exact .noText h1 hc
        · intro h
          cases h with
          | pass h => exact absurd h h0
          | text _ h => rw [hc] at h; cases h
          | noText _ h => rw [hc] at h; cases h; exact ⟨rfl, rfl⟩
          | lines h => exact absurd h1 h
          | error h => exact absurd h1 h
    · have e1 : ¬ src.isEmpty = true := by simpa using h1
      rw [if_neg e1, evE_bind]
      simp only [evE_execLines, evE_addDun]
      constructor
      · rintro (⟨_, s1, h2, rfl, rfl⟩ | ⟨e, h2, rfl⟩)
        · exact .lines h1 h0 h2
        · exact .error h1 h0 h2
      · intro h
        cases h with
        | pass h => exact absurd h h0
        | text h => exact absurd h h1
        | noText h => exact absurd h h1
        | lines _ _ h => exact .inl ⟨(), _, h, rfl, rfl⟩
        | error _ _ h => exact .inr ⟨_, h, rfl⟩

theorem ev_writeAll {R : Call → St → Res → St → Prop} {h : Nat} {ts : List Str} {s s' : St} {u : Unit} :
    Ev H R (writeAll h ts) s u s' ↔ s' = Spec.wrote H h ts s := by
  induction ts generalizing s with
  | nil =>
    rw [writeAll, Spec.wrote]
    rw [ev_pure]
    exact ⟨fun h => h.2, fun h => ⟨rfl, h⟩⟩
  | cons t ts ih =>
    rw [writeAll, ev_bind, Spec.wrote]
    constructor
    · rintro ⟨a, s1, h1, h2⟩
      have h1 := ev_doOp.1 h1
      simp only [Op.run, Prod.mk.injEq, Out.ok.injEq] at h1
      obtain ⟨rfl, rfl⟩ := h1
      cases hw : H.write s.trace h t with
      | none => rw [hw] at h2; exact ih.1 h2
      | some e =>
        rw [hw] at h2
        have h2 := ev_doOp.1 h2
        simp only [Op.run, Prod.mk.injEq] at h2
        exact h2.2.symm
    · intro h1
      refine ⟨_, _, ev_doOp.2 rfl, ?_⟩
      cases hw : H.write s.trace h t with
      | none => rw [hw] at h1; exact ih.2 h1
      | some e => rw [hw] at h1; rw [h1]; exact ev_doOp.2 rfl

theorem evE_execPipe {h : Nat} {src arg : Str} {env : Env} {s s' : St} {r : Except Err Unit} :
    EvE H (Evals H) (execPipe h src arg env) s r s' ↔ Spec.Piped H h src arg env s r s' := by
  unfold execPipe Spec.Piped
  rw [evE_newList_bind, evE_bind]
  simp only [evE_execCode, evE_getList_bind, evE_lift, ev_writeAll]
  constructor
  · rintro (⟨_, s1, h1, _, rfl, h2⟩ | ⟨e, h1, rfl⟩)
    · exact ⟨s1, h1, h2⟩
    · exact ⟨s', h1, rfl⟩
  · rintro ⟨s1, h1, h2⟩
    cases r with
    | ok u => exact .inl ⟨(), s1, h1, (), rfl, h2⟩
    | error e => exact .inr ⟨e, by rw [h2]; exact h1, rfl⟩

theorem ev_slaveStream {h : Nat} {err : Bool} {src buf : Str} {env : Env} {s s' : St} {b : Option Str} :
    Ev H (Evals H) (slaveStream h err src buf env) s b s' ↔ Spec.Read H h err src env buf s b s' := by
  unfold slaveStream
  by_cases h1 : src = []
  · have e1 : src.isEmpty = true := by rw [h1]; rfl
    rw [if_pos e1, ev_pure]
    constructor
    · rintro ⟨rfl, rfl⟩; exact .off h1
    · intro h
      cases h with
      | off => exact ⟨rfl, rfl⟩
      | done h => exact absurd h1 h
      | line h => exact absurd h1 h
      | failed h => exact absurd h1 h
  · have e1 : ¬ src.isEmpty = true := by simpa using h1
    rw [if_neg e1, ev_bind]
    have e2 : ∀ P : Except Str Str → St → Prop, (∃ a s1, Ev H (Evals H) (doOp (.readLine h err)) s a s1 ∧ P a s1) ↔
        P (H.readLine s.trace h err) (Spec.asked (.readLine h err) s) := by
      intro P
      constructor
      · rintro ⟨a, s1, h2, h3⟩
        have h2 := ev_doOp.1 h2
        simp only [Op.run, Prod.mk.injEq, Out.ok.injEq] at h2
        obtain ⟨rfl, rfl⟩ := h2
        exact h3
      · intro h3
        exact ⟨_, _, ev_doOp.2 rfl, h3⟩
    rw [show (∃ a s1, _ ∧ _) ↔ _ from e2 _]
    cases hr : H.readLine s.trace h err with
    | error e =>
      dsimp only
      rw [ev_bind]
      constructor
      · rintro ⟨_, s1, h2, h3⟩
        have h2 := ev_doOp.1 h2
        simp only [Op.run, Prod.mk.injEq] at h2
        obtain ⟨rfl, rfl⟩ := ev_pure.1 h3
        rw [← h2.2]
        exact .failed h1 hr
      · intro h
        cases h with
        | off h => exact absurd h h1
        | done _ h => rw [hr] at h; cases h
        | line _ h => rw [hr] at h; cases h
        | failed _ h => rw [hr] at h; cases h; exact ⟨(), _, ev_doOp.2 rfl, ev_pure.2 ⟨rfl, rfl⟩⟩
    | ok t =>
      dsimp only
      by_cases ht : t = []
      · have e3 : t.isEmpty = true := by rw [ht]; rfl
        rw [if_pos e3, ev_pure]
        subst ht
        constructor
        · rintro ⟨rfl, rfl⟩; exact .done h1 hr
        · intro h
          cases h with
          | off h => exact absurd h h1
          | done => exact ⟨rfl, rfl⟩
          | line _ h h' => rw [hr] at h; cases h; exact absurd rfl h'
          | failed _ h => rw [hr] at h; cases h
      · have e3 : ¬ t.isEmpty = true := by simpa using ht
        rw [if_neg e3, ev_bind]
        constructor
        · rintro ⟨x, s1, h2, h3⟩
          obtain ⟨rfl, rfl⟩ := ev_pure.1 h3
          exact .line h1 hr ht (evE_execPipe.1 h2)
        · intro h
          cases h with
          | off h => exact absurd h h1
          | done _ h => rw [hr] at h; cases h; exact absurd rfl ht
          | line _ h h' h2 => rw [hr] at h; cases h; exact ⟨_, _, evE_execPipe.2 h2, ev_pure.2 ⟨rfl, rfl⟩⟩
          | failed _ h => rw [hr] at h; cases h

theorem evals_slave {h : Nat} {out err buf : Str} {env : Env} {s s' : St} {r : Res} :
    Evals H (.slave h out err buf env) s r s' ↔ r = {} ∧ Spec.Served H h out err env buf s s' := by
  have unf : ∀ {R : Call → St → Res → St → Prop} {b : Str} {s s' : St} {r : Res}, Ev H R (evalF (.slave h out err b env)) s r s' ↔
      ∃ x s1, Ev H R (slaveStream h false out b env) s x s1 ∧ Ev H R (match x with
        | none => pure {}
        | some b => slaveStream h true err b env >>= fun x => match x with
          | none => pure {}
          | some b => callP [] (.slave h out err b env)) s1 r s' := ev_bind
  constructor
  · intro h0
    suffices ∀ c s r s', Evals H c s r s' → ∀ b, c = .slave h out err b env → r = {} ∧ Spec.Served H h out err env b s s' from
      this _ _ _ _ h0 _ rfl
    intro c s r s' h0
    refine Evals.ind (P := fun c s r s' => ∀ b, c = .slave h out err b env → r = {} ∧ Spec.Served H h out err env b s s') ?_ h0
    rintro _ s r s' h0 b rfl
    obtain ⟨x, s1, h1', h2⟩ := unf.1 h0
    have mono : ∀ {α : Type} {p : Prog α} {s s' : St} {a : α},
        Ev H (fun c s r s' => Evals H c s r s' ∧ ∀ b, c = .slave h out err b env → r = {} ∧ Spec.Served H h out err env b s s') p s a s' →
        Ev H (Evals H) p s a s' := fun hp => Ev.mono (fun _ _ _ _ h => h.1) hp
    have h1 := ev_slaveStream.1 (mono h1')
    cases x with
    | none =>
      obtain ⟨rfl, rfl⟩ := ev_pure.1 h2
      exact ⟨rfl, .outEnd h1⟩
    | some b1 =>
      obtain ⟨x, s2, h3, h4⟩ := ev_bind.1 h2
      have h3 := ev_slaveStream.1 (mono h3)
      cases x with
      | none =>
        obtain ⟨rfl, rfl⟩ := ev_pure.1 h4
        exact ⟨rfl, .errEnd h1 h3⟩
      | some b2 =>
        dsimp only at h4
        unfold callP at h4
        obtain ⟨y, s3, ⟨h5, h6⟩, h7⟩ := ev_call.1 h4
        obtain ⟨rfl, rfl⟩ := ev_ret.1 h7
        rw [St.hold_nil] at h5 h6
        obtain ⟨h8, h9⟩ := h6 _ rfl
        have := Sub.held (H := H) h5
        rw [St.held_eta this]
        exact ⟨h8, .next h1 h3 h9⟩
  · rintro ⟨rfl, h0⟩
    induction h0 with
    | outEnd h1 => exact evals_iff.2 (unf.2 ⟨_, _, ev_slaveStream.2 h1, ev_pure.2 ⟨rfl, rfl⟩⟩)
    | errEnd h1 h2 =>
      exact evals_iff.2 (unf.2 ⟨_, _, ev_slaveStream.2 h1, ev_bind.2 ⟨_, _, ev_slaveStream.2 h2, ev_pure.2 ⟨rfl, rfl⟩⟩⟩)
    | next h1 h2 _ ih =>
      exact evals_iff.2 (unf.2 ⟨_, _, ev_slaveStream.2 h1, ev_bind.2 ⟨_, _, ev_slaveStream.2 h2, ev_callP.2 ih⟩⟩)

/-- The rest after the words are evaluated. -/
theorem exec_words {a : List Code} {env : Env} {s s1 s' : St} {r : Res} {v : List Str} (hw : Spec.ExecWords H a env s v s1) :
    Evals H (.item (.exec a) env) s r s' ↔ ∃ x, EvE H (Evals H) (exec2P v env) s1 x s' ∧ r = { r := x } := by
  rw [evals_item]
  refine exists_congr fun x => and_congr_left fun _ => ?_
  change EvE H (Evals H) (execP a env) s x s' ↔ _
  unfold execP
  rw [evE_helloNew_bind]
  obtain ⟨⟨y, h1, h2, rfl⟩, h3⟩ := hw
  have e1 : ∀ s2, EvE H (Evals H) (liftM (getList s.nlist) >>= fun l => match l.last? with
      | some ⟨_, .o h⟩ => liftM (objWrite h env.ret (l.toVec4 (l.a.length - 1) true))
      | _ => exec2P l.toVec env) s1 x s2 ↔ EvE H (Evals H) (exec2P (s1.lists s.nlist).toVec env) s1 x s2 := by
    intro s2
    rw [evE_getList_bind]
    split
    · rename_i i h he
      exact absurd he (h3 i h)
    · exact Iff.rfl
  constructor
  · rintro (⟨z, s2, h4, h5, h6⟩ | ⟨z, e, h4, h5, rfl⟩)
    · obtain ⟨rfl, rfl⟩ := Evals.unique h1 h4
      exact (e1 _).1 h6
    · obtain ⟨rfl, rfl⟩ := Evals.unique h1 h4
      rw [h2] at h5
      cases h5
  · intro h
    exact .inl ⟨y, s1, h1, h2, (e1 _).2 h⟩

/-- The rest after the options are read. -/
theorem exec_opts {a : List Code} {env : Env} {s s1 s' : St} {r : Res} {w prog : Str} {args : List Str} {opts : List Spec.ExecOpt}
    (hw : Spec.ExecWords H a env s (w :: opts.flatMap Spec.ExecOpt.words) s1) (hs : split w = prog :: args) :
    Evals H (.item (.exec a) env) s r s' ↔
      ∃ x, EvE H (Evals H) (execRun (opts.foldl ExecOpts.apply { cmd := { prog, args } }) env) s1 x s' ∧ r = { r := x } := by
  rw [exec_words hw]
  refine exists_congr fun x => and_congr_left fun _ => ?_
  unfold exec2P
  dsimp only
  rw [hs]
  dsimp only
  have e1 : Clpars.for3 execCb (fun o _ => (0, o)) execTable [] (opts.flatMap Spec.ExecOpt.words) { cmd := { prog, args } } =
      (none, opts.foldl ExecOpts.apply { cmd := { prog, args } }) := by
    unfold Clpars.for3
    have := for3Go_exec { cmd := { prog, args } } opts [] 0
    rw [List.append_nil] at this
    rw [this]
    rfl
  rw [e1]
  dsimp only
  rw [evE_mk_bind]
  constructor
  · rintro (⟨_, -, h⟩ | ⟨e, h, -⟩)
    · exact h
    · cases h
  · intro h
    exact .inl ⟨(), rfl, h⟩

/-- What follows the answer of the operating system. -/
def execAfter (o : ExecOpts) (env : Env) : ExecKind → ExecRes → E Unit
  | .pipes, .child pid => do
    execPipe pid o.init (natStr pid) env
    if o.mode2 then addVal env.ret (.o pid) []
    else
      let _ ← (callP [] (.slave pid o.out o.err [] env) : Prog Res)
    addDun env.ret
  | .output, .output code out err => do
    exitcodeP code env.ret
    execOut o.out out false env
    execOut o.err err true env
  | .spawn, .child pid => do
    addDun env.ret
    addT env.ret (natStr pid)
  | .status, .status code => exitcodeP code env.ret
  | _, .fail e => execErr e env.ret
  | _, _ => (Prog.panic : Prog Unit)

theorem execRun_eq (o : ExecOpts) (env : Env) (k : ExecKind)
    (h : (if o.mode = none ∧ (o.out ≠ [] ∨ o.err ≠ []) then some 'r' else o.mode) = k.char) :
    execRun o env = (liftM (doOp (.exec k o.cmd)) : E ExecRes) >>= execAfter o env k := by
  unfold execRun
  dsimp only
  rw [h]
  have key : ∀ (k : ExecKind) {f g : ExecRes → E Unit}, (∀ a, f a = g a) →
      ((liftM (doOp (.exec k o.cmd)) : E ExecRes) >>= f) = (liftM (doOp (.exec k o.cmd)) : E ExecRes) >>= g :=
    fun k f g h => congrArg _ (funext h)
  cases k
  · exact key .status fun a => by cases a <;> rfl
  · exact key .output fun a => by cases a <;> rfl
  · exact key .spawn fun a => by cases a <;> rfl
  · exact key .pipes fun a => by cases a <;> rfl

/-- The rest after the command is started. -/
theorem exec_after {a : List Code} {env : Env} {s s1 s' : St} {r : Res} {w prog : Str} {args : List Str} {opts : List Spec.ExecOpt}
    (hw : Spec.ExecWords H a env s (w :: opts.flatMap Spec.ExecOpt.words) s1) (hs : split w = prog :: args) :
    Evals H (.item (.exec a) env) s r s' ↔
      ∃ x, EvE H (Evals H) (execAfter (opts.foldl ExecOpts.apply { cmd := { prog, args } }) env (Spec.execKind opts)
        (H.exec s1.trace (Spec.execKind opts) (Spec.command prog args opts)))
        (Spec.asked (.exec (Spec.execKind opts) (Spec.command prog args opts)) s1) x s' ∧ r = { r := x } := by
  rw [exec_opts hw hs, execRun_eq _ _ (Spec.execKind opts) (exec_kind opts _ ⟨rfl, rfl, rfl⟩), exec_cmd]
  refine exists_congr fun x => and_congr_left fun _ => ?_
  rw [evE_op_bind (by rfl)]
  rfl

/-! ## The property -/

/-- **C49.** A command that is waited for: its exit code and a separator, or a separator and a message if
a signal ended it. -/
theorem C49_waited {a : List Code} {env : Env} {s s1 s' : St} {r : Res} {w prog : Str} {args : List Str} {opts : List Spec.ExecOpt}
    {code : Option Int} (hw : Spec.ExecWords H a env s (w :: opts.flatMap Spec.ExecOpt.words) s1) (hs : split w = prog :: args)
    (hk : Spec.execKind opts = .status) (ha : H.exec s1.trace .status (Spec.command prog args opts) = .status code) :
    Evals H (.item (.exec a) env) s r s' ↔
      r = {} ∧ s' = (Spec.asked (.exec .status (Spec.command prog args opts)) s1).pushs env.ret (Spec.exit code) := by
  rw [exec_after hw hs, hk, ha]
  simp only [execAfter, evE_lift, ev_exitcode]
  constructor
  · rintro ⟨x, ⟨_, rfl, rfl⟩, rfl⟩; exact ⟨rfl, rfl⟩
  · rintro ⟨rfl, rfl⟩; exact ⟨_, ⟨(), rfl, rfl⟩, rfl⟩

/-- **C49.** A command that cannot be started, in whatever mode: 255, a separator and the message. -/
theorem C49_not_started {a : List Code} {env : Env} {s s1 s' : St} {r : Res} {w prog e : Str} {args : List Str} {opts : List Spec.ExecOpt}
    (hw : Spec.ExecWords H a env s (w :: opts.flatMap Spec.ExecOpt.words) s1) (hs : split w = prog :: args)
    (ha : H.exec s1.trace (Spec.execKind opts) (Spec.command prog args opts) = .fail e) :
    Evals H (.item (.exec a) env) s r s' ↔
      r = {} ∧ s' = (Spec.asked (.exec (Spec.execKind opts) (Spec.command prog args opts)) s1).pushs env.ret (Spec.notStarted e) := by
  rw [exec_after hw hs, ha]
  have e1 : ∀ k o, execAfter o env k (.fail e) = liftM (execErr e env.ret) := by intro k o; cases k <;> rfl
  simp only [e1, evE_lift, ev_execErr]
  constructor
  · rintro ⟨x, ⟨_, rfl, rfl⟩, rfl⟩; exact ⟨rfl, rfl⟩
  · rintro ⟨rfl, rfl⟩; exact ⟨_, ⟨(), rfl, rfl⟩, rfl⟩

/-- **C49.** A command whose output is captured: the exit status as above, then the output and the error
output, each as its code asks for; an error in the code for the output ends it. -/
theorem C49_captured {a : List Code} {env : Env} {s s1 s' : St} {r : Res} {w prog : Str} {args : List Str} {opts : List Spec.ExecOpt}
    {code : Option Int} {out err : Captured} (hw : Spec.ExecWords H a env s (w :: opts.flatMap Spec.ExecOpt.words) s1)
    (hs : split w = prog :: args) (hk : Spec.execKind opts = .output)
    (ha : H.exec s1.trace .output (Spec.command prog args opts) = .output code out err) :
    Evals H (.item (.exec a) env) s r s' ↔
      ∃ x s2, Spec.Stream H (Spec.outCode opts) out false env
          ((Spec.asked (.exec .output (Spec.command prog args opts)) s1).pushs env.ret (Spec.exit code)) x s2 ∧
        match x with
        | .ok () => ∃ y, Spec.Stream H (Spec.errCode opts) err true env s2 y s' ∧ r = { r := y }
        | .error e => r = { r := .error e } ∧ s' = s2 := by
  rw [exec_after hw hs, hk, ha]
  obtain ⟨-, -, -, -, h5, h6, -⟩ := fold_rest opts { cmd := { prog, args } }
  rw [List.nil_append] at h5 h6
  simp only [execAfter, h5, h6, evE_lift_bind, ev_exitcode]
  constructor
  · rintro ⟨x, ⟨_, _, rfl, h⟩, rfl⟩
    rw [evE_bind] at h
    simp only [evE_execOut] at h
    rcases h with ⟨_, s2, h1, h2⟩ | ⟨e, h1, rfl⟩
    · exact ⟨_, s2, h1, x, h2, rfl⟩
    · exact ⟨_, s', h1, rfl, rfl⟩
  · rintro ⟨x, s2, h1, h2⟩
    cases x with
    | ok u =>
      obtain ⟨y, h2, rfl⟩ := h2
      exact ⟨y, ⟨(), _, rfl, evE_bind.2 (.inl ⟨_, _, evE_execOut.2 h1, evE_execOut.2 h2⟩)⟩, rfl⟩
    | error e =>
      obtain ⟨rfl, rfl⟩ := h2
      exact ⟨_, ⟨(), _, rfl, evE_bind.2 (.inr ⟨_, evE_execOut.2 h1, rfl⟩)⟩, rfl⟩

/-- **C49.** A command that runs in parallel: a separator and the process number. -/
theorem C49_parallel {a : List Code} {env : Env} {s s1 s' : St} {r : Res} {w prog : Str} {args : List Str} {opts : List Spec.ExecOpt}
    {pid : Nat} (hw : Spec.ExecWords H a env s (w :: opts.flatMap Spec.ExecOpt.words) s1) (hs : split w = prog :: args)
    (hk : Spec.execKind opts = .spawn) (ha : H.exec s1.trace .spawn (Spec.command prog args opts) = .child pid) :
    Evals H (.item (.exec a) env) s r s' ↔
      r = {} ∧ s' = (Spec.asked (.exec .spawn (Spec.command prog args opts)) s1).pushs env.ret [Spec.sep, .s (natStr pid)] := by
  rw [exec_after hw hs, hk, ha]
  simp only [execAfter, evE_lift_bind, evE_lift, ev_addDun, ev_addT]
  constructor
  · rintro ⟨x, ⟨_, _, rfl, _, rfl, rfl⟩, rfl⟩; exact ⟨rfl, rfl⟩
  · rintro ⟨rfl, rfl⟩; exact ⟨_, ⟨(), _, rfl, (), rfl, rfl⟩, rfl⟩

/-- **C49.** A passive command: the code for the start is run with the process number as its argument and
what it gives is written to the process; then the process itself (`-被动者2`), or nothing once its output has
been served, and a separator. -/
theorem C49_passive {a : List Code} {env : Env} {s s1 s' : St} {r : Res} {w prog : Str} {args : List Str} {opts : List Spec.ExecOpt}
    {pid : Nat} (hw : Spec.ExecWords H a env s (w :: opts.flatMap Spec.ExecOpt.words) s1) (hs : split w = prog :: args)
    (hk : Spec.execKind opts = .pipes) (ha : H.exec s1.trace .pipes (Spec.command prog args opts) = .child pid) :
    Evals H (.item (.exec a) env) s r s' ↔
      ∃ x s2, Spec.Piped H pid (Spec.initCode opts) (natStr pid) env (Spec.asked (.exec .pipes (Spec.command prog args opts)) s1) x s2 ∧
        match x with
        | .error e => r = { r := .error e } ∧ s' = s2
        | .ok () => r = {} ∧
          if Spec.keeps opts then s' = s2.pushs env.ret [.o pid, Spec.sep]
          else ∃ s3, Spec.Served H pid (Spec.outCode opts) (Spec.errCode opts) env [] s2 s3 ∧ s' = s3.pushs env.ret [Spec.sep] := by
  rw [exec_after hw hs, hk, ha]
  obtain ⟨-, -, -, -, h5, h6, h7⟩ := fold_rest opts { cmd := { prog, args } }
  have h8 := fold_init opts { cmd := { prog, args } }
  rw [List.nil_append] at h5 h6
  rw [Bool.false_or] at h7
  change _ = Spec.initCode opts at h8
  simp only [execAfter, h5, h6, h7, h8]
  have e1 : ∀ x s2, EvE H (Evals H) (if Spec.keeps opts = true then (do
        liftM (addVal env.ret (.o pid) [])
        liftM (addDun env.ret) : E Unit) else (do
        let _ ← liftM (callP [] (.slave pid (Spec.outCode opts) (Spec.errCode opts) [] env) : Prog Res)
        liftM (addDun env.ret))) s2 x s' ↔ x = .ok () ∧
          if Spec.keeps opts then s' = s2.pushs env.ret [.o pid, Spec.sep]
          else ∃ s3, Spec.Served H pid (Spec.outCode opts) (Spec.errCode opts) env [] s2 s3 ∧ s' = s3.pushs env.ret [Spec.sep] := by
    intro x s2
    by_cases hm : Spec.keeps opts = true
    · rw [if_pos hm, if_pos hm, evE_addVal_bind, evE_addDun]
      exact Iff.rfl
    · rw [if_neg hm, if_neg hm, evE_lift_bind]
      simp only [ev_callP, evals_slave, evE_addDun]
      constructor
      · rintro ⟨_, s3, ⟨rfl, h1⟩, rfl, rfl⟩
        exact ⟨rfl, s3, h1, rfl⟩
      · rintro ⟨rfl, s3, h1, rfl⟩
        exact ⟨_, s3, ⟨rfl, h1⟩, rfl, rfl⟩
  constructor
  · rintro ⟨x, h, rfl⟩
    rw [evE_bind] at h
    rcases h with ⟨_, s2, h1, h2⟩ | ⟨e, h1, rfl⟩
    · obtain ⟨rfl, h3⟩ := (e1 _ _).1 h2
      exact ⟨_, s2, evE_execPipe.1 h1, rfl, h3⟩
    · exact ⟨_, s', evE_execPipe.1 h1, rfl, rfl⟩
  · rintro ⟨x, s2, h1, h2⟩
    cases x with
    | ok u =>
      obtain ⟨rfl, h2⟩ := h2
      exact ⟨_, evE_bind.2 (.inl ⟨_, s2, evE_execPipe.2 h1, (e1 _ _).2 ⟨rfl, h2⟩⟩), rfl⟩
    | error e =>
      obtain ⟨rfl, rfl⟩ := h2
      exact ⟨_, evE_bind.2 (.inr ⟨_, evE_execPipe.2 h1, rfl⟩), rfl⟩

/-- **C49.** Found: a passive command without code for its output and without `-被动者2` is never finished: the
evaluation cannot end but by an error of the code for the start. -/
theorem C49_passive_forever_counterexample {a : List Code} {env : Env} {s s1 s' : St} {r : Res} {w prog : Str} {args : List Str}
    {opts : List Spec.ExecOpt} {pid : Nat} (hw : Spec.ExecWords H a env s (w :: opts.flatMap Spec.ExecOpt.words) s1)
    (hs : split w = prog :: args) (hk : Spec.execKind opts = .pipes)
    (ha : H.exec s1.trace .pipes (Spec.command prog args opts) = .child pid) (h2 : Spec.keeps opts = false)
    (ho : Spec.outCode opts = []) (he : Spec.errCode opts = []) :
    Evals H (.item (.exec a) env) s r s' → ∃ e, r.r = .error e := by
  rw [C49_passive hw hs hk ha, h2, ho, he]
  have never : ∀ b s s', ¬ Spec.Served H pid [] [] env b s s' := by
    intro b s s' h
    induction h with
    | outEnd h => cases h with | done h => exact h rfl
    | errEnd _ h => cases h with | done h => exact h rfl
    | next _ _ _ ih => exact ih
  rintro ⟨x, s2, -, h⟩
  cases x with
  | ok u =>
    obtain ⟨-, h⟩ := h
    rw [if_neg (by simp)] at h
    obtain ⟨s3, h, -⟩ := h
    exact absurd h (never _ _ _)
  | error e => exact ⟨e, by rw [h.1]⟩

/-! ### Writing to a passive command -/

/-- Texts are written to a process; the failures are appended to the result. -/
def Spec.sent (H : Host) (h ret : Nat) : List Str → St → St
  | [], s => s
  | t :: ts, s =>
    match H.write s.trace h t with
    | none => Spec.sent H h ret ts (Spec.asked (.write h t) s)
    | some e => Spec.sent H h ret ts ((Spec.asked (.write h t) s).pushs ret [.s e])

theorem ev_objWrite {R : Call → St → Res → St → Prop} {h ret : Nat} {ts : List Str} {s s' : St} {u : Unit} :
    Ev H R (objWrite h ret ts) s u s' ↔ s' = Spec.sent H h ret ts s := by
  induction ts generalizing s with
  | nil =>
    rw [objWrite, Spec.sent, ev_pure]
    exact ⟨fun h => h.2, fun h => ⟨rfl, h⟩⟩
  | cons t ts ih =>
    rw [objWrite, ev_bind, Spec.sent]
    constructor
    · rintro ⟨a, s1, h1, h2⟩
      have h1 := ev_doOp.1 h1
      simp only [Op.run, Prod.mk.injEq, Out.ok.injEq] at h1
      obtain ⟨rfl, rfl⟩ := h1
      cases hw : H.write s.trace h t with
      | none =>
        rw [hw] at h2
        exact ih.1 h2
      | some e =>
        rw [hw] at h2
        obtain ⟨_, s2, h3, h4⟩ := ev_bind.1 h2
        rw [ev_addT] at h3
        subst h3
        exact ih.1 h4
    · intro h1
      refine ⟨_, _, ev_doOp.2 rfl, ?_⟩
      cases hw : H.write s.trace h t with
      | none => rw [hw] at h1; exact ih.2 h1
      | some e => rw [hw] at h1; exact ev_bind.2 ⟨(), _, ev_addT.2 rfl, ih.2 h1⟩

/-- **C49.** If the last value after `执行` is a running process, the words before it are written to it, in
order, and nothing is started. -/
theorem C49_write {a : List Code} {env : Env} {s s1 s' : St} {r x : Res} {is : List Item} {i : Nat} {h : Nat}
    (hw : Evals H (.codes a 0 usizeMax { env with ret := s.nlist }) (Spec.fresh s) x s1) (hx : x.r = .ok ())
    (hl : (s1.lists s.nlist).a = is ++ [⟨i, .o h⟩]) :
    Evals H (.item (.exec a) env) s r s' ↔ r = {} ∧ s' = Spec.sent H h env.ret (RList.toVec ⟨is, []⟩) s1 := by
  rw [evals_item]
  have key : ∀ y, EvE H (Evals H) (execP a env) s y s' ↔ y = .ok () ∧ s' = Spec.sent H h env.ret (RList.toVec ⟨is, []⟩) s1 := by
    intro y
    unfold execP
    rw [evE_helloNew_bind]
    have e1 : ∀ s2, EvE H (Evals H) (liftM (getList s.nlist) >>= fun l => match l.last? with
        | some ⟨_, .o h⟩ => liftM (objWrite h env.ret (l.toVec4 (l.a.length - 1) true))
        | _ => exec2P l.toVec env) s1 y s2 ↔ y = .ok () ∧ s2 = Spec.sent H h env.ret (RList.toVec ⟨is, []⟩) s1 := by
      intro s2
      rw [evE_getList_bind]
      have e2 : (s1.lists s.nlist).last? = some ⟨i, .o h⟩ := by unfold RList.last?; rw [hl]; simp
      have e3 : (s1.lists s.nlist).toVec4 ((s1.lists s.nlist).a.length - 1) true = RList.toVec ⟨is, []⟩ := by
        simp [RList.toVec4, RList.toVec, RList.toVec0, hl]
      rw [e2, e3]
      dsimp only
      rw [evE_lift]
      simp only [ev_objWrite]
      exact ⟨fun ⟨_, h⟩ => h, fun h => ⟨(), h⟩⟩
    constructor
    · rintro (⟨z, s2, h4, h5, h6⟩ | ⟨z, e, h4, h5, rfl⟩)
      · obtain ⟨rfl, rfl⟩ := Evals.unique hw h4
        exact (e1 _).1 h6
      · obtain ⟨rfl, rfl⟩ := Evals.unique hw h4
        rw [hx] at h5
        cases h5
    · intro h
      exact .inl ⟨x, s1, hw, hx, (e1 _).2 h⟩
  refine (exists_congr fun y => and_congr_left fun _ => key y).trans ?_
  constructor
  · rintro ⟨y, ⟨rfl, rfl⟩, rfl⟩; exact ⟨rfl, rfl⟩
  · rintro ⟨rfl, rfl⟩; exact ⟨_, ⟨rfl, rfl⟩, rfl⟩

/-! ### Wrong options -/

/-- The words that begin an option, with the number of words they need. -/
def Spec.execTags : List (Str × Nat) :=
  [(c!"-cd", 1), (c!"-env", 2), (c!"-出", 1), (c!"-错", 1), (c!"-堵出", 0), (c!"-堵错", 0), (c!"-重定向", 0), (c!"-被动者", 1),
    (c!"-被动者2", 1), (c!"-并", 0), (c!"-h", 0), (c!"--help", 0)]

theorem execTable_full : ∀ it ∈ execTable, it.typ = .full := by decide +kernel

theorem execTable_miss {o : Str} (ho : ∀ n, (o, n) ∉ Spec.execTags) : execTable.filter (·.hit o) = [] := by
  rw [List.filter_eq_nil_iff]
  intro it hit h
  simp only [Clpars.Item.hit, List.any_eq_true, Bool.and_eq_true, execTable_full it hit, Clpars.Typ.hit, beq_iff_eq] at h
  obtain ⟨t, h1, h2, rfl⟩ := h
  have h3 : it.tagv ∈ execTable.map (·.tagv) := List.mem_map_of_mem hit
  rw [execTable_tagv] at h3
  simp only [Spec.execTags, List.mem_cons, Prod.mk.injEq, List.not_mem_nil, or_false, not_or, not_and] at ho
  simp only [List.mem_cons, List.not_mem_nil, or_false] at h3
  rcases h3 with h3 | h3 | h3 | h3 | h3 | h3 | h3 | h3 | h3 | h3 | h3 | h3 <;> rw [h3] at h1 <;>
    simp only [List.mem_cons, List.not_mem_nil, or_false] at h1
  · exact (ho 1).1 h1 rfl
  · exact (ho 2).2.1 h1 rfl
  · exact (ho 1).2.2.1 h1 rfl
  · exact (ho 1).2.2.2.1 h1 rfl
  · exact (ho 0).2.2.2.2.1 h1 rfl
  · exact (ho 0).2.2.2.2.2.1 h1 rfl
  · exact (ho 0).2.2.2.2.2.2.1 h1 rfl
  · exact (ho 1).2.2.2.2.2.2.2.1 h1 rfl
  · exact (ho 1).2.2.2.2.2.2.2.2.1 h1 rfl
  · exact (ho 0).2.2.2.2.2.2.2.2.2.1 h1 rfl
  · rcases h1 with h1 | h1
    · exact (ho 0).2.2.2.2.2.2.2.2.2.2.1 h1 rfl
    · exact (ho 0).2.2.2.2.2.2.2.2.2.2.2 h1 rfl
  · subst h1
    simp at h2

theorem execTable_rest : (execTable.filter (·.tag.isEmpty)).map (fun it => (it.cnt, it.need 0)) = [(0, 0)] := by decide +kernel

/-- Reading the options fails. -/
theorem exec_refused {a : List Code} {env : Env} {s s1 s' : St} {r : Res} {w prog o : Str} {args rest : List Str} {opts : List Spec.ExecOpt}
    {c : Int} {m : Str} (hw : Spec.ExecWords H a env s (w :: (opts.flatMap Spec.ExecOpt.words ++ o :: rest)) s1)
    (hs : split w = prog :: args) (hc : ∀ st no0, (Clpars.for3Go execCb (fun o _ => (0, o)) execTable (o :: rest) 0 no0 st).1 = some (c, o))
    (hm : clparsRet (some (c, if c = Clpars.HELP then Clpars.help [] execTable else o)) = .error (.msg m)) :
    Evals H (.item (.exec a) env) s r s' ↔ r = { r := .error (.msg m) } ∧ s' = s1 := by
  rw [exec_words hw]
  have key : ∀ x, EvE H (Evals H) (exec2P (w :: (opts.flatMap Spec.ExecOpt.words ++ o :: rest)) env) s1 x s' ↔
      x = .error (.msg m) ∧ s' = s1 := by
    intro x
    unfold exec2P
    dsimp only
    rw [hs]
    dsimp only
    have hgo := hc (opts.foldl ExecOpts.apply { cmd := { prog, args } }) 0
    rw [← for3Go_exec] at hgo
    unfold Clpars.for3
    generalize Clpars.for3Go execCb _ execTable (opts.flatMap Spec.ExecOpt.words ++ o :: rest) 0 0 { cmd := { prog, args } } = g at hgo
    obtain ⟨g1, g2⟩ := g
    dsimp only at hgo
    subst hgo
    dsimp only
    rw [evE_mk_bind, hm]
    constructor
    · rintro (⟨_, h, -⟩ | ⟨e, h, rfl, rfl⟩)
      · cases h
      · cases h; exact ⟨rfl, rfl⟩
    · rintro ⟨rfl, rfl⟩
      exact .inr ⟨_, rfl, rfl, rfl⟩
  simp only [key]
  constructor
  · rintro ⟨_, ⟨rfl, rfl⟩, rfl⟩; exact ⟨rfl, rfl⟩
  · rintro ⟨rfl, rfl⟩; exact ⟨_, ⟨rfl, rfl⟩, rfl⟩

/-- **C49.** A word that is no option is an error; nothing is started. -/
theorem C49_bad_option {a : List Code} {env : Env} {s s1 s' : St} {r : Res} {w prog o : Str} {args rest : List Str} {opts : List Spec.ExecOpt}
    (hw : Spec.ExecWords H a env s (w :: (opts.flatMap Spec.ExecOpt.words ++ o :: rest)) s1) (hs : split w = prog :: args)
    (ho : ∀ n, (o, n) ∉ Spec.execTags) :
    Evals H (.item (.exec a) env) s r s' ↔ r = { r := .error (.msg (quote o ++ c!"无效选项")) } ∧ s' = s1 := by
  refine exec_refused (c := Clpars.TAG_NO) hw hs ?_ rfl
  intro st no0
  rw [Clpars.for3Go, execTable_miss ho]
  have hr := execTable_rest
  generalize execTable.filter (·.tag.isEmpty) = l at hr
  cases l with
  | nil => cases hr
  | cons it l =>
    simp only [List.map_cons, List.cons.injEq, Prod.mk.injEq, List.map_eq_nil_iff] at hr
    obtain ⟨⟨h1, h2⟩, rfl⟩ := hr
    have hcb : execCb st ⟨o, [], 0, it, 1, no0 + 1⟩ = (Clpars.TAG_NO, st) := by
      unfold execCb
      simp only [Spec.execTags, List.mem_cons, Prod.mk.injEq, List.not_mem_nil, or_false, not_or, not_and] at ho
      dsimp only
      rw [if_neg fun e => (ho 1).1 e rfl, if_neg fun e => (ho 2).2.1 e rfl, if_neg fun e => (ho 1).2.2.1 e rfl,
        if_neg fun e => (ho 1).2.2.2.1 e rfl, if_neg fun e => (ho 0).2.2.2.2.1 e rfl, if_neg fun e => (ho 0).2.2.2.2.2.1 e rfl,
        if_neg fun e => (ho 0).2.2.2.2.2.2.1 e rfl,
        if_neg (fun e => e.elim (fun e => (ho 1).2.2.2.2.2.2.2.1 e rfl) fun e => (ho 1).2.2.2.2.2.2.2.2.1 e rfl),
        if_neg fun e => (ho 0).2.2.2.2.2.2.2.2.2.1 e rfl,
        if_neg (fun e => e.elim (fun e => (ho 0).2.2.2.2.2.2.2.2.2.2.1 e rfl) fun e => (ho 0).2.2.2.2.2.2.2.2.2.2.2 e rfl)]
    simp [Clpars.callItems, h1, h2, hcb, Clpars.TAG_NO]

/-- **C49.** An option with too few words after it is an error; nothing is started. -/
theorem C49_missing_word {a : List Code} {env : Env} {s s1 s' : St} {r : Res} {w prog o : Str} {args rest : List Str}
    {opts : List Spec.ExecOpt} {n : Nat} (hw : Spec.ExecWords H a env s (w :: (opts.flatMap Spec.ExecOpt.words ++ o :: rest)) s1)
    (hs : split w = prog :: args) (ho : (o, n) ∈ Spec.execTags) (hn : rest.length < n) :
    Evals H (.item (.exec a) env) s r s' ↔ r = { r := .error (.msg (quote o ++ c!"参数不足")) } ∧ s' = s1 := by
  refine exec_refused (c := Clpars.ARG_NE) hw hs ?_ rfl
  intro st no0
  have h1 : (execTable.filter (·.hit o)).map (fun it => (it.cnt, it.need 0)) = [(n, n)] := by
    revert o n
    have : ∀ x ∈ Spec.execTags, (execTable.filter (·.hit x.1)).map (fun it => (it.cnt, it.need 0)) = [(x.2, x.2)] := by decide +kernel
    intro o n _ ho _
    exact this _ ho
  obtain ⟨it, h3, h4, h5⟩ := execTable_one h1
  rw [Clpars.for3Go, h3]
  have h6 : min n rest.length < n := by omega
  simp [Clpars.callItems, h4, h5, h6, Clpars.ARG_NE]

/-- **C49.** Asking for help: an error with the list of options; nothing is started. -/
theorem C49_help {a : List Code} {env : Env} {s s1 s' : St} {r : Res} {w prog o : Str} {args rest : List Str}
    {opts : List Spec.ExecOpt} (hw : Spec.ExecWords H a env s (w :: (opts.flatMap Spec.ExecOpt.words ++ o :: rest)) s1)
    (hs : split w = prog :: args) (ho : o = c!"-h" ∨ o = c!"--help") :
    Evals H (.item (.exec a) env) s r s' ↔ r = { r := .error (.msg (Clpars.help [] execTable)) } ∧ s' = s1 := by
  refine exec_refused (c := Clpars.HELP) hw hs ?_ rfl
  intro st no0
  have h1 : (execTable.filter (·.hit o)).map (fun it => (it.cnt, it.need 0)) = [(0, 0)] := by
    rcases ho with rfl | rfl <;> decide +kernel
  obtain ⟨it, h3, h4, h5⟩ := execTable_one h1
  have h6 : execCb st ⟨o, [], 0, it, 1, 0⟩ = (Clpars.HELP, st) := by rcases ho with rfl | rfl <;> rfl
  rw [Clpars.for3Go, h3]
  simp [Clpars.callItems, h4, h5, h6, Clpars.HELP]

/-- **C49.** Without a command there is an error. -/
theorem C49_no_command {a : List Code} {env : Env} {s s1 s' : St} {r : Res} {v : List Str}
    (hw : Spec.ExecWords H a env s v s1) (hv : ∀ w, v.head? = some w → split w = []) :
    Evals H (.item (.exec a) env) s r s' ↔ r = { r := .error .qve } ∧ s' = s1 := by
  rw [exec_words hw]
  have key : exec2P v env = fail .qve := by
    unfold exec2P
    cases v with
    | nil => rfl
    | cons w opts => dsimp only; rw [hv w rfl]
  simp only [key, evE_fail]
  constructor
  · rintro ⟨_, ⟨rfl, rfl⟩, rfl⟩; exact ⟨rfl, rfl⟩
  · rintro ⟨rfl, rfl⟩; exact ⟨_, ⟨rfl, rfl⟩, rfl⟩

/-! ## Concrete cases -/

/-- A host that can run commands: `no` cannot be started, `sig` is ended by a signal, the others exit with 3;
one line of output. -/
def HX : Host := { H0 with
  exec := fun _ k c => if c.prog = c!"no" then .fail c!"E" else match k with
    | .status => .status (if c.prog = c!"sig" then none else some 3)
    | .output => .output (some 0) ⟨[97, 10, 98], .ok ['a', '\n', 'b'], [.ok ['a'], .ok ['b']]⟩ ⟨[], .ok [], []⟩
    | _ => .child 7
  readLine := fun tr h e => if tr.contains (.readLine h e) then .ok [] else .ok ['x', '\n'] }

/-- What this host was asked to do, and how the run ended. -/
def demoX (n : Nat) (src : Str) : Out (Except Err Unit) × List Event :=
  let r := runMain HX n false (demoArgv src)
  (r.1, r.2.trace)

/-- Whether a run of this host makes a call with the property. -/
theorem demoX_sound {n : Nat} {P : Call → St → Bool} {src : Str}
    (h : callsB HX (run HX n) (deepB HX n P n) (mainP (demoArgv src)).run (St.init false) = true) :
    ∃ c s, Reached HX false (demoArgv src) c s ∧ P c s = true := by
  obtain ⟨c, t, h1, h2⟩ := callsB_sound _ _ h
  exact deepB_sound _ (.main n h1) h2

theorem C49_example :
    demoX 20 c!"赋予甲、乙以执行“run”。显示“【‘甲’】【‘乙’】”。" =
      (.ok (.ok ()), [.exec .status { prog := c!"run", args := [] }, .out c!"【3】【】"]) ∧
    demoX 20 c!"赋予甲、乙以执行“sig”。显示“【‘甲’】【‘乙’】”。" =
      (.ok (.ok ()), [.exec .status { prog := c!"sig", args := [] }, .out c!"【】【Process terminated by signal】"]) ∧
    demoX 20 c!"赋予甲、乙以执行“no”、-并。显示“【‘甲’】【‘乙’】”。" =
      (.ok (.ok ()), [.exec .spawn { prog := c!"no", args := [] }, .out c!"【255】【E】"]) ∧
    demoX 20 c!"执行“run”、-被动者、下代码‘参数1’上代码、-出、下代码显示‘参数1’。好上代码。" =
      (.ok (.ok ()), [.exec .pipes { prog := c!"run", args := [] }, .write 7 c!"7", .readLine 7 false, .out c!"x", .write 7 c!"好",
        .readLine 7 false]) ∧
    demoX 20 c!"赋予甲以执行“run”、-被动者2、下代码‘参数1’上代码。执行1、2、‘甲’。" =
      (.ok (.ok ()), [.exec .pipes { prog := c!"run", args := [] }, .write 7 c!"7", .write 7 c!"1", .write 7 c!"2", .write 7 []]) := by
  decide +kernel

/-- The test of `C49_witness`. -/
def execB (n : Nat) (v : List Str) (a : List Code) (env : Env) (s : St) : Bool :=
  match run HX n (.codes a 0 usizeMax { env with ret := s.nlist }) (Spec.fresh s) with
  | (.ok ⟨_, _, _, .ok ()⟩, s1) => decide ((s1.lists s.nlist).toVec = v) &&
      match (s1.lists s.nlist).a.getLast? with
      | some ⟨_, .o _⟩ => false
      | _ => true
  | _ => false

theorem execB_sound {n : Nat} {v : List Str} {src : Str}
    (h : callsB HX (run HX n) (deepB HX n (fun c s => match c with
      | .item (.exec a) env => execB n v a env s
      | _ => false) n) (mainP (demoArgv src)).run (St.init false) = true) :
    ∃ a env s s1, Reached HX false (demoArgv src) (.item (.exec a) env) s ∧ Spec.ExecWords HX a env s v s1 := by
  obtain ⟨c, s, hr, h⟩ := demoX_sound h
  split at h
  · rename_i a env
    unfold execB at h
    split at h
    · rename_i i j b s1 h1
      rw [Bool.and_eq_true, decide_eq_true_eq] at h
      refine ⟨a, env, s, s1, hr, ⟨_, ⟨n, h1⟩, rfl, h.1.symm⟩, ?_⟩
      intro i h' he
      have := h.2
      rw [he] at this
      cases this
    · cases h
  · cases h

/-- The hypotheses are met, in each of the modes. -/
theorem C49_witness :
    (∃ a env s s1, Reached HX false (demoArgv c!"执行“run x”、-cd、y。") (.item (.exec a) env) s ∧
      Spec.ExecWords HX a env s (c!"run x" :: [Spec.ExecOpt.cd c!"y"].flatMap Spec.ExecOpt.words) s1 ∧
      split c!"run x" = [c!"run", c!"x"] ∧ Spec.execKind [.cd c!"y"] = .status ∧
      HX.exec s1.trace .status (Spec.command c!"run" [c!"x"] [.cd c!"y"]) = .status (some 3)) ∧
    (∃ a env s s1, Reached HX false (demoArgv c!"执行“run”、-重定向。") (.item (.exec a) env) s ∧
      Spec.ExecWords HX a env s (c!"run" :: [Spec.ExecOpt.redirect].flatMap Spec.ExecOpt.words) s1 ∧
      split c!"run" = [c!"run"] ∧ Spec.execKind [.redirect] = .output) ∧
    (∃ a env s s1, Reached HX false (demoArgv c!"执行“no”、-并。") (.item (.exec a) env) s ∧
      Spec.ExecWords HX a env s (c!"no" :: [Spec.ExecOpt.parallel].flatMap Spec.ExecOpt.words) s1 ∧
      HX.exec s1.trace .spawn (Spec.command c!"no" [] [.parallel]) = .fail c!"E") ∧
    (∃ a env s s1, Reached HX false (demoArgv c!"执行“run”、-被动者、甲。") (.item (.exec a) env) s ∧
      Spec.ExecWords HX a env s (c!"run" :: [Spec.ExecOpt.passive c!"甲"].flatMap Spec.ExecOpt.words) s1 ∧
      Spec.execKind [.passive c!"甲"] = .pipes ∧ Spec.keeps [.passive c!"甲"] = false ∧ Spec.outCode [.passive c!"甲"] = []) := by
  refine ⟨?_, ?_, ?_, ?_⟩
  · obtain ⟨a, env, s, s1, h1, h2⟩ := execB_sound (n := 10) (src := c!"执行“run x”、-cd、y。")
      (v := c!"run x" :: [Spec.ExecOpt.cd c!"y"].flatMap Spec.ExecOpt.words) (by decide +kernel)
    exact ⟨a, env, s, s1, h1, h2, by decide +kernel, by decide +kernel, rfl⟩
  · obtain ⟨a, env, s, s1, h1, h2⟩ := execB_sound (n := 10) (src := c!"执行“run”、-重定向。")
      (v := c!"run" :: [Spec.ExecOpt.redirect].flatMap Spec.ExecOpt.words) (by decide +kernel)
    exact ⟨a, env, s, s1, h1, h2, by decide +kernel, by decide +kernel⟩
  · obtain ⟨a, env, s, s1, h1, h2⟩ := execB_sound (n := 10) (src := c!"执行“no”、-并。")
      (v := c!"no" :: [Spec.ExecOpt.parallel].flatMap Spec.ExecOpt.words) (by decide +kernel)
    exact ⟨a, env, s, s1, h1, h2, rfl⟩
  · obtain ⟨a, env, s, s1, h1, h2⟩ := execB_sound (n := 10) (src := c!"执行“run”、-被动者、甲。")
      (v := c!"run" :: [Spec.ExecOpt.passive c!"甲"].flatMap Spec.ExecOpt.words) (by decide +kernel)
    exact ⟨a, env, s, s1, h1, h2, rfl, rfl, rfl⟩

end Zh
