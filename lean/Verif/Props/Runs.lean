import Verif.Props.FrameOk
import Verif.Props.Vars
import Verif.Props.Demo
/-!
# What every run keeps: C25, C27, C39, C40, C42
-/
namespace Zh

variable {H : Host}

/-! ## Relations kept by every operation -/

/-- A relation between states that every operation establishes between the states before and after it. -/
structure Kept (H : Host) (R : St → St → Prop) : Prop where
  refl : ∀ s, R s s
  trans : ∀ {s s' s''}, R s s' → R s' s'' → R s s''
  op : ∀ (o : Op) s, R s (o.run H s).2
  hold : ∀ s h, R s { s with held := h }

theorem Kept.interp {R : St → St → Prop} (k : Kept H R) {rec : Call → St → Out Res × St}
    (hr : ∀ c s, R s (rec c s).2) {α : Type} (p : Prog α) (s : St) : R s (p.interp H rec s).2 := by
  induction p generalizing s with
  | ret a => exact k.refl s
  | panic => exact k.refl s
  | op o f ih =>
    have h := k.op o s
    simp only [Prog.interp]
    rcases ho : o.run H s with ⟨x, s1⟩
    rw [ho] at h
    cases x with
    | ok a => exact k.trans h (ih a s1)
    | panic => exact h
    | fuel => exact h
  | call hd c f ih =>
    have h := k.trans (k.hold s (hd ++ s.held)) (hr c { s with held := hd ++ s.held })
    simp only [Prog.interp]
    rcases ho : rec c { s with held := hd ++ s.held } with ⟨x, s1⟩
    rw [ho] at h
    cases x with
    | ok a => exact k.trans (k.trans h (k.hold s1 s.held)) (ih a _)
    | panic => exact h
    | fuel => exact h

/-- Such a relation holds between the states before and after any evaluation, however it ends. -/
theorem Kept.run {R : St → St → Prop} (k : Kept H R) (n : Nat) (c : Call) (s : St) : R s (run H n c s).2 := by
  induction n generalizing c s with
  | zero => exact k.refl s
  | succ n ih => exact k.interp ih (evalF c) s

theorem Kept.calls {R : St → St → Prop} (k : Kept H R) {rec : Call → St → Out Res × St}
    (hr : ∀ c s, R s (rec c s).2) {α : Type} (p : Prog α) (s : St) {c : Call} {t : St}
    (h : Calls H rec p s c t) : R s t := by
  induction p generalizing s with
  | ret a => exact h.elim
  | panic => exact h.elim
  | op o f ih =>
    obtain ⟨a, s', ho, h⟩ := h
    have h1 := k.op o s
    rw [ho] at h1
    exact k.trans h1 (ih a s' h)
  | call hd c0 f ih =>
    rcases h with ⟨rfl, rfl⟩ | ⟨r, s', hc, h⟩
    · exact k.hold s _
    · have h1 := hr c0 (s.hold hd)
      rw [hc] at h1
      exact k.trans (k.trans (k.hold s _) (k.trans h1 (k.hold s' _))) (ih r _ h)

theorem Kept.reached {R : St → St → Prop} (k : Kept H R) {ovf : Bool} {argv : List Str} {c : Call} {s : St}
    (h : Reached H ovf argv c s) : R (St.init ovf) s := by
  induction h with
  | main n hc => exact k.calls (k.run n) _ _ hc
  | step n _ hc ih => exact k.trans ih (k.calls (k.run n) _ _ hc)

/-! ## C39: output is append-only -/

theorem modScope_trace (s : St) (q : Nat) (f : Scope → Scope) : (s.modScope q f).2.trace = s.trace := by
  unfold St.modScope; split <;> rfl

theorem kept_trace (H : Host) : Kept H fun s s' => s.trace <+: s'.trace where
  refl s := List.prefix_refl _
  trans h h' := h.trans h'
  hold s h := List.prefix_refl _
  op o s := by
    have self : ∀ {s' : St}, s'.trace = s.trace → s.trace <+: s'.trace := fun h => h ▸ List.prefix_refl _
    cases o with
    | emit e => exact List.prefix_append _ _
    | open_ f => exact List.prefix_append _ _
    | read f => exact List.prefix_append _ _
    | exec k c => exact List.prefix_append _ _
    | write h t => exact List.prefix_append _ _
    | readLine h e => exact List.prefix_append _ _
    | touch q => exact self (modScope_trace ..)
    | setVar q v => exact self (modScope_trace ..)
    | addName q n f => exact self (modScope_trace ..)
    | setSrc q n => exact self (modScope_trace ..)
    | setIsFile q => exact self (modScope_trace ..)
    | setArg0 q n => exact self (modScope_trace ..)
    | clearArgs1 q => exact self (modScope_trace ..)
    | setDef q d =>
      refine self ?_
      simp only [Op.run]
      split
      · split
        · rfl
        · exact modScope_trace ..
      · exact modScope_trace ..
    | argsLine q =>
      refine self ?_
      simp only [Op.run]
      have h := modScope_trace s q fun c =>
        { c with argsTo1 := true, args1 := if (s.scopes q).argsTo1 then (s.scopes q).args1 else
            (s.lists (s.scopes q).args).line .one (s.scopes q).args1 }
      revert h
      generalize s.modScope q _ = x
      intro h
      rcases x with ⟨x, s1⟩
      cases x <;> exact h
    | addMod d q => refine self ?_; simp only [Op.run]; split <;> rfl
    | rmMod d i => refine self ?_; simp only [Op.run]; split <;> split <;> rfl
    | parse src => refine self ?_; simp only [Op.run]; split <;> rfl
    | _ => exact self rfl

/-! ## C40: determinism -/

/-- The second run agrees with the first one, which may have had too few steps; what the first one
asked of the host so far, the second one asked too. -/
def Agree {α : Type} (x y : Out α × St) : Prop :=
  x.2.trace <+: y.2.trace ∧ (x.1 ≠ .fuel → y = x)

theorem Agree.refl {α : Type} (x : Out α × St) : Agree x x := ⟨List.prefix_refl _, fun _ => rfl⟩

theorem interp_agree {rec rec' : Call → St → Out Res × St} (h : ∀ c s, Agree (rec c s) (rec' c s))
    (ht : ∀ c s, s.trace <+: (rec' c s).2.trace)
    {α : Type} (p : Prog α) (s : St) : Agree (p.interp H rec s) (p.interp H rec' s) := by
  induction p generalizing s with
  | ret a => exact .refl _
  | panic => exact .refl _
  | op o f ih =>
    simp only [Prog.interp]
    rcases o.run H s with ⟨x, s1⟩
    cases x with
    | ok a => exact ih a s1
    | panic => exact .refl _
    | fuel => exact .refl _
  | call hd c f ih =>
    simp only [Prog.interp]
    have h1 := h c { s with held := hd ++ s.held }
    rcases hx : rec c { s with held := hd ++ s.held } with ⟨x, s1⟩
    rcases hy : rec' c { s with held := hd ++ s.held } with ⟨y, s2⟩
    rw [hx, hy] at h1
    cases x with
    | ok a =>
      have := h1.2 (by simp)
      simp only [Prod.mk.injEq] at this
      obtain ⟨rfl, rfl⟩ := this
      exact ih a _
    | panic =>
      have := h1.2 (by simp)
      simp only [Prod.mk.injEq] at this
      obtain ⟨rfl, rfl⟩ := this
      exact .refl _
    | fuel =>
      refine ⟨?_, fun hne => absurd rfl hne⟩
      refine h1.1.trans ?_
      cases y with
      | ok a => exact (kept_trace H).interp ht (f a) { s2 with held := s.held }
      | panic => exact List.prefix_refl _
      | fuel => exact List.prefix_refl _

theorem run_agree (H : Host) (n : Nat) (c : Call) (s : St) : Agree (run H n c s) (run H (n + 1) c s) := by
  induction n generalizing c s with
  | zero => exact ⟨(kept_trace H).run 1 c s, fun h => absurd rfl h⟩
  | succ n ih => exact interp_agree ih ((kept_trace H).run (n + 1)) (evalF c) s

theorem run_agree' (H : Host) (n k : Nat) (c : Call) (s : St) : Agree (run H n c s) (run H (n + k) c s) := by
  induction k with
  | zero => exact .refl _
  | succ k ih =>
    have h := run_agree H (n + k) c s
    refine ⟨ih.1.trans h.1, fun hne => ?_⟩
    have h1 := ih.2 hne
    rw [← h1]
    exact h.2 (by rw [h1]; exact hne)

/-- **C40.**  An evaluation that ended within `n` steps, normally, with an error or in a panic, ends in
exactly the same way and in the same state with any larger number of steps. -/
theorem C40_more_steps (H : Host) (n m : Nat) (hnm : n ≤ m) (c : Call) (s : St)
    (h : (run H n c s).1 ≠ .fuel) : run H m c s = run H n c s := by
  obtain ⟨k, rfl⟩ := Nat.le.dest hnm
  exact (run_agree' H n k c s).2 h

/-- **C40.**  Two step numbers that both suffice give the same outcome. -/
theorem C40_deterministic (H : Host) (n m : Nat) (c : Call) (s : St)
    (h : (run H n c s).1 ≠ .fuel) (h' : (run H m c s).1 ≠ .fuel) : run H n c s = run H m c s := by
  rcases Nat.le_total n m with hl | hl
  · exact (C40_more_steps H n m hl c s h).symm
  · exact C40_more_steps H m n hl c s h'

/-- **C40**, for the whole interpreter. -/
theorem C40_main (H : Host) (n m : Nat) (ovf : Bool) (argv : List Str)
    (h : (runMain H n ovf argv).1 ≠ .fuel) (h' : (runMain H m ovf argv).1 ≠ .fuel) :
    runMain H n ovf argv = runMain H m ovf argv := by
  have key : ∀ n m, n ≤ m → (runMain H n ovf argv).1 ≠ .fuel → runMain H m ovf argv = runMain H n ovf argv := by
    intro n m hl h
    obtain ⟨k, rfl⟩ := Nat.le.dest hl
    exact (interp_agree (run_agree' H n k) ((kept_trace H).run (n + k)) _ _).2 h
  rcases Nat.le_total n m with hl | hl
  · exact (key n m hl h).symm
  · exact key m n hl h'

/-- What was printed on the standard output. -/
def printed : List Event → Str
  | [] => []
  | .out t :: r => t ++ printed r
  | _ :: r => printed r

theorem printed_append (a b : List Event) : printed (a ++ b) = printed a ++ printed b := by
  induction a with
  | nil => rfl
  | cons e a ih => cases e <;> simp [printed, ih]

theorem printed_prefix {a b : List Event} (h : a <+: b) : printed a <+: printed b := by
  obtain ⟨c, rfl⟩ := h
  rw [printed_append]
  exact List.prefix_append _ _

/-- **C39.**  Whatever is evaluated, from whatever state, and however it ends (also with an error, a
panic, or not at all): all that the host was asked before, was asked, in the same order, after. -/
theorem C39_events_kept (H : Host) (n : Nat) (c : Call) (s : St) : s.trace <+: (run H n c s).2.trace :=
  (kept_trace H).run n c s

/-- **C39.**  The output printed before is a prefix of the output printed after. -/
theorem C39_output_kept (H : Host) (n : Nat) (c : Call) (s : St) :
    printed s.trace <+: printed (run H n c s).2.trace := printed_prefix (C39_events_kept H n c s)

/-- **C39**, for evaluations that go on: what was printed within `n` steps is a prefix of what is printed
within more steps, so output of an unfinished evaluation is never revoked. -/
theorem C39_output_grows (H : Host) (n m : Nat) (hnm : n ≤ m) (c : Call) (s : St) :
    printed (run H n c s).2.trace <+: printed (run H m c s).2.trace := by
  obtain ⟨k, rfl⟩ := Nat.le.dest hnm
  exact printed_prefix (run_agree' H n k c s).1

/-! ## The start of the interpreter -/

/-- Nothing is kept apart. -/
def Ctx.none : Ctx := ⟨fun X => X = fun _ => False, fun _ => False⟩

theorem init_inv (ovf : Bool) : Inv Ctx.none (St.init ovf) where
  top := ⟨show 0 < 2 by omega, fun X h => by cases h; exact id⟩
  mods q h := by cases h
  datas q h := by cases h
  up q hq p hp := by
    have hq' : q < 2 := hq
    have : q = 0 ∨ q = 1 := by omega
    rcases this with rfl | rfl
    · cases hp
    · cases hp
      exact ⟨Nat.zero_lt_one, rfl, fun X h _ => by cases h; exact id⟩
  root q hq h := by
    have hq' : q < 2 := hq
    have : q = 0 ∨ q = 1 := by omega
    rcases this with rfl | rfl
    · rfl
    · cases h
  args q hq := by
    have hq' : q < 2 := hq
    have : q = 0 ∨ q = 1 := by omega
    rcases this with rfl | rfl
    · exact (show 0 < 3 by omega)
    · exact (show 1 < 3 by omega)
  inj q hq q' hq' h := by
    have h1 : q < 2 := hq
    have h2 : q' < 2 := hq'
    have h1 : q = 0 ∨ q = 1 := by omega
    have h2 : q' = 0 ∨ q' = 1 := by omega
    rcases h1 with rfl | rfl <;> rcases h2 with rfl | rfl
    · rfl
    · exact absurd h (show ¬ (0 = 1) by omega)
    · exact absurd h (show ¬ (1 = 0) by omega)
    · rfl
  xb X h q hq := by cases h; exact hq.elim
  pb l h := h.elim
  line q hq := by
    have hq' : q < 2 := hq
    have : q = 0 ∨ q = 1 := by omega
    rcases this with rfl | rfl
    · exact ⟨fun _ => rfl, fun h => by cases h⟩
    · exact ⟨fun _ => rfl, fun h => by cases h⟩

theorem init_clean (ovf : Bool) (l : Nat) : Clean1 (St.init ovf) l := by
  intro q hq _
  have hq' : q < 2 := hq
  have : q = 0 ∨ q = 1 := by omega
  rcases this with rfl | rfl <;> rfl

theorem init_ok (ovf : Bool) : Ok Ctx.none (St.init ovf) := ⟨init_inv ovf, fun _ h => h.elim, by simp [St.init]⟩

theorem init_env (ovf : Bool) : EnvOk Ctx.none (St.init ovf) Env.init where
  q := ⟨show 1 < 2 by omega, fun X h => by cases h; exact id⟩
  inq p h := by cases h
  ret := ⟨show 2 < 3 by omega, id, init_clean ovf _⟩
  iso := by
    refine ⟨_, rfl, ?_⟩
    intro q hq _ ha
    have hq' : q < 2 := hq
    have : q = 0 ∨ q = 1 := by omega
    rcases this with rfl | rfl
    · exact absurd ha (show ¬ (0 = 2) by omega)
    · exact absurd ha (show ¬ (1 = 2) by omega)

variable {C : Ctx} {s0 s : St}

theorem nlE_mainP (H : Host) (ovf : Bool) (argv : List Str) :
    NlE H Ctx.none (St.init ovf) (mainP argv) (St.init ovf) fun _ _ => True := by
  have k := K.refl (init_ok ovf)
  have he := init_env ovf
  have q1 : ∀ {s}, K Ctx.none (St.init ovf) s → ScOk Ctx.none s 1 := fun k => he.q.step k.later.step
  have tv : ∀ {s}, K Ctx.none (St.init ovf) s → ∀ a b,
      NlE H Ctx.none (St.init ovf) (topVal a b : E Unit) s fun _ s' => Calm s s' := by
    intro s k a b
    refine NlE.lift (Nl.bind (nl_opC k (.newItem _ _) trivial trivial) ?_)
    rintro v s1 k1 c1
    exact (nl_opC k1 (.setVar _ _) trivial trivial).mono fun _ _ _ c => c1.trans c
  refine NlE.bind (nlE_clparsP (q := 1) k ⟨(init_inv ovf).args 1 he.q.1, id, init_clean ovf _⟩ _ _ _ _ _) ?_
  rintro _ s1 k1 c1
  refine NlE.bind (NlE.lift (nl_getSt k1)) ?_
  rintro s2 s2' k2 ⟨-, rfl⟩
  refine NlE.bind (tv k2 _ _) ?_
  rintro _ s3 k3 c3
  refine NlE.bind (tv k3 _ _) ?_
  rintro _ s4 k4 c4
  refine NlE.bind (Q := fun _ _ => True) ?_ ?_
  · split
    · refine NlE.bind (NlE.lift (nl_okSrcP k4 _ _ _)) ?_
      rintro _ s5 k5 c5
      refine NlE.bind (NlE.lift (nl_getSt k5)) ?_
      rintro s6 s6' k6 ⟨-, rfl⟩
      exact nlE_src2P k6 (q1 k6) ((((c1.trans c3).trans c4).trans c5).to1 1) _
    · exact NlE.ret k4 trivial
  · rintro src s5 k5 -
    exact nlE_callE k5 [] _ rfl ((he.k k5).hold []) trivial

/-- Whenever a call happens in a run of the interpreter, the invariants hold for some choice of what is
kept apart. -/
theorem reached_frame {ovf : Bool} {argv : List Str} {c : Call} {s : St} (h : Reached H ovf argv c s) :
    ∃ C, frame.pre C c s := reached_pre frame_refl frame_ok _ _ (nlE_mainP H ovf argv) h

/-! ## C25: the stack of loop labels -/

/-- The calls other than the loop inside a loop statement: statements, lists of statements, sources,
conditions, ... -/
def Call.NotLoop : Call → Prop
  | .loop .. => False
  | _ => True

/-- **C25.**  Whatever is evaluated in any run of the interpreter and however it ends (normally, with an
error or with a jump): when it returns, the stack of loop labels is what it was before.  (The exception
is the inside of the loop statement itself, which enters its label; see the next theorem.) -/
theorem C25_labels_restored {ovf : Bool} {argv : List Str} {c : Call} {s : St} (h : Reached H ovf argv c s)
    (hc : c.NotLoop) (n : Nat) (r : Res) (s' : St) (hr : run H n c s = (.ok r, s')) : s'.labels = s.labels := by
  obtain ⟨C, hp⟩ := reached_frame h
  have := ((run_frame H n C c s hp).2 r s' hr).2.2.1
  rw [this]
  cases c <;> first | exact hc.elim | exact List.append_nil _

/-- **C25.**  The loop inside a loop statement leaves its own label and nothing else, which the loop
statement then removes. -/
theorem C25_loop_label {ovf : Bool} {argv : List Str} {range : Bool} {codes : List Code} {max : Nat} {useI : Bool}
    {cnt : Cnt} {env : Env} {i : Nat} {s : St}
    (h : Reached H ovf argv (.loop range codes max useI cnt env i false) s)
    (n : Nat) (r : Res) (s' : St) (hr : run H n (.loop range codes max useI cnt env i false) s = (.ok r, s')) :
    s'.labels = s.labels ++ (if r.has then cnt.name.toList else []) ∧
      (r.has = true → cnt.name.isSome = true) := by
  obtain ⟨C, hp⟩ := reached_frame h
  have h := (run_frame H n C _ s hp).2 r s' hr
  refine ⟨?_, h.2.2.2.2⟩
  rw [h.2.2.1]
  simp [Call.labels]

/-- **C25.**  At the end of a run of the interpreter no label is left. -/
theorem C25_main (n : Nat) (ovf : Bool) (argv : List Str) (r : Except Err Unit) (s' : St)
    (h : runMain H n ovf argv = (.ok r, s')) : s'.labels = [] :=
  ((wp_interp (run_frame H n) _ _ _ (nlE_mainP H ovf argv)).2 r s' h).1.labels

/-- The evaluation ended with an error or a jump. -/
def endsErrB : Out Res × St → Bool
  | (.ok r, _) => match r.r with
    | .error _ => true
    | .ok _ => false
  | _ => false

theorem endsErrB_iff {x : Out Res × St} (h : endsErrB x = true) : ∃ r s' e, x = (.ok r, s') ∧ r.r = .error e := by
  rcases x with ⟨x, s'⟩
  cases x with
  | ok r =>
    simp only [endsErrB] at h
    cases hr : r.r with
    | ok u => rw [hr] at h; cases h
    | error e => exact ⟨r, s', e, rfl, hr⟩
  | panic => cases h
  | fuel => cases h

/-- The hypotheses of `C25_labels_restored` are met inside two loops with names, by an evaluation that
ends with a jump out of both. -/
theorem C25_witness : ∃ c s n r s' e, Reached H0 false (demoArgv c!"循环【2】【i】循环【2】【j】跳出i。。") c s ∧
    c.NotLoop ∧ run H0 n c s = (.ok r, s') ∧ s.labels = [c!"i", c!"j"] ∧ r.r = .error e := by
  obtain ⟨c, s, hr, h⟩ := demoB_sound (n := 16) (src := c!"循环【2】【i】循环【2】【j】跳出i。。")
    (P := fun c s => match c with
    | .item (.jump ..) _ => s.labels == [c!"i", c!"j"] && endsErrB (run H0 16 c s)
    | _ => false) (by decide +kernel)
  split at h
  · simp only [Bool.and_eq_true, beq_iff_eq] at h
    obtain ⟨r, s', e, h1, h2⟩ := endsErrB_iff h.2
    exact ⟨_, s, 16, r, s', e, hr, trivial, h1, h.1, h2⟩
  · cases h

/-! ## C27: the blocked pipe -/

/-- A context with one more protected list. -/
def Ctx.protect (C : Ctx) (l : Nat) : Ctx := ⟨C.X, fun l' => C.P l' ∨ l' = l⟩

/-- **C27.**  A blocked-pipe statement that happens in any run of the interpreter leaves the result list
of the surrounding expression exactly as it was, whatever it evaluates and however it ends: normally,
with an error, a jump or a panic, or if it never ends. -/
theorem C27_blocked_pipe {ovf : Bool} {argv : List Str} {a : List Code} {env : Env} {s : St}
    (h : Reached H ovf argv (.item (.du a) env) s) (n : Nat) :
    (run H n (.item (.du a) env) s).2.lists env.ret = s.lists env.ret := by
  cases n with
  | zero => rfl
  | succ n =>
  obtain ⟨C, hok, he, -⟩ := reached_frame h
  have he := he env rfl
  let C' := C.protect env.ret
  have hi : Inv C' s := ⟨hok.inv.top, hok.inv.mods, hok.inv.datas, hok.inv.up, hok.inv.root, hok.inv.args,
    hok.inv.inj, hok.inv.xb, fun l hl => by
      rcases hl with hl | rfl
      · exact hok.inv.pb l hl
      · exact he.ret.1, hok.inv.line⟩
  have ok' : Ok C' s := ⟨hi, fun l hl => by
    rcases hl with hl | rfl
    · exact hok.prot l hl
    · exact he.iso, hok.held⟩
  have k := K.refl ok'
  have hw : NlE H C' s (itemP (.du a) env) s fun _ _ => True := by
    refine NlE.bind (NlE.lift (nl_newList k)) ?_
    rintro r s1 k1 ⟨h1, -⟩
    refine nlE_hello k1 [] a (EnvOk.hold ?_ [])
    obtain ⟨h2, h3⟩ := h1
    have sc : ∀ {q}, ScOk C s q → ScOk C' s1 q :=
      fun h => ⟨Nat.lt_of_lt_of_le h.1 k1.later.step.nscope, h.2⟩
    obtain ⟨X, hX, -⟩ := he.iso
    exact ⟨sc he.q, fun p hp => sc (he.inq p hp), h2, X, hX, fun q hq _ ha => absurd ha (h3 q hq)⟩
  have := (wp_interp (run_frame H n) _ _ _ (nl_resE hw)).1
  exact this.2.lists env.ret (Or.inr rfl)

/-- The hypothesis of `C27_blocked_pipe` is met: a blocked pipe whose surrounding expression has a value
already and which has a value itself. -/
theorem C27_witness : ∃ a env s, Reached H0 false (demoArgv c!"显示“甲”管道堵“乙”。") (.item (.du a) env) s ∧
    a ≠ [] ∧ (s.lists env.ret).a ≠ [] := by
  obtain ⟨c, s, hr, h⟩ := demoB_sound (n := 12) (src := c!"显示“甲”管道堵“乙”。") (P := fun c s => match c with
    | .item (.du a) env => !a.isEmpty && !(s.lists env.ret).a.isEmpty
    | _ => false) (by decide +kernel)
  split at h
  · refine ⟨_, _, s, hr, ?_⟩
    simpa using h
  · cases h

/-- The example prints only what is outside of the blocked pipe. -/
example : demo 30 c!"显示“甲”管道堵“乙”。" = (.ok (.ok ()), [.out c!"甲"]) := by decide +kernel

/-! ## C42: the tree of scopes -/

/-- **C42.**  In every state in which something is evaluated in a run of the interpreter: a parent is an
existing, older scope, the depth of a scope is that of its parent plus one, and 0 without a parent. -/
theorem C42_depth {ovf : Bool} {argv : List Str} {c : Call} {s : St} (h : Reached H ovf argv c s)
    (q : Nat) (hq : q < s.nscope) :
    match (s.scopes q).up with
    | some p => p < q ∧ (s.scopes q).i = (s.scopes p).i + 1
    | none => (s.scopes q).i = 0 := by
  obtain ⟨C, hok, -⟩ := reached_frame h
  cases hu : (s.scopes q).up with
  | some p => exact ⟨(hok.inv.up q hq p hu).1, (hok.inv.up q hq p hu).2.1⟩
  | none => exact hok.inv.root q hq hu

/-- **C42.**  No evaluation changes the parent or the depth of an existing scope, however it ends. -/
theorem C42_parents_kept {ovf : Bool} {argv : List Str} {c : Call} {s : St} (h : Reached H ovf argv c s) (n : Nat)
    (q : Nat) (hq : q < s.nscope) :
    q < (run H n c s).2.nscope ∧ ((run H n c s).2.scopes q).up = (s.scopes q).up ∧
      ((run H n c s).2.scopes q).i = (s.scopes q).i := by
  obtain ⟨C, hp⟩ := reached_frame h
  have h := (run_frame H n C c s hp).1.2
  exact ⟨Nat.lt_of_lt_of_le hq h.nscope, h.up q hq, h.i q hq⟩

/-- **C42.**  So the way up from any scope ends after as many steps as its depth says. -/
theorem C42_lookups_end {ovf : Bool} {argv : List Str} {c : Call} {s : St} (h : Reached H ovf argv c s)
    (q : Nat) (hq : q < s.nscope) :
    ∃ ps, Spec.Path s.scopes q ps ∧ (ps.length : Int) = (s.scopes q).i + 1 ∧ ∀ p ∈ ps, p ≤ q := by
  obtain ⟨C, hok, -⟩ := reached_frame h
  induction q using Nat.strongRecOn with
  | ind q ih =>
    cases hu : (s.scopes q).up with
    | none =>
      refine ⟨[q], .top hu, ?_, by simp⟩
      rw [hok.inv.root q hq hu]; rfl
    | some p =>
      obtain ⟨h1, h2, -⟩ := hok.inv.up q hq p hu
      obtain ⟨ps, hp, hl, hm⟩ := ih p h1 (by omega)
      refine ⟨q :: ps, .up hu hp, ?_, ?_⟩
      · rw [h2, List.length_cons]; omega
      · intro x hx
        rcases List.mem_cons.1 hx with rfl | hx
        · exact Nat.le_refl _
        · have := hm x hx; omega

/-! ## What C11 and C13 assume holds in every reachable state -/

theorem modScope_scopes (s : St) (q : Nat) (f : Scope → Scope) (P : Scope → Prop)
    (hf : ∀ c, P c → P (f c)) (h : ∀ p, P (s.scopes p)) (p : Nat) : P ((s.modScope q f).2.scopes p) := by
  unfold St.modScope
  split
  · exact h p
  · simp only [upd]
    split
    · exact hf _ (h q)
    · exact h p

/-- A property of scopes that new scopes have and that the operations on scopes keep holds for all
scopes of all later states. -/
theorem kept_scopes (H : Host) (P : Scope → Prop)
    (hn : ∀ arg0 an up l, P (Scope.new [] [] arg0 an (some up) l))
    (hm : ∀ c n src b onFree, P c → P { c with name := n, src := src, srcIsFile := b, onFree := onFree })
    (ha : ∀ c a b l, P c → P { c with arg0 := a, argsTo1 := b, args1 := l })
    (hv : ∀ c v, P c → P { c with vars := setVar v c.vars })
    (hd : ∀ c d, P c → P { c with defs := setDef d c.defs }) :
    Kept H fun s s' => (∀ p, P (s.scopes p)) → ∀ p, P (s'.scopes p) where
  refl s := id
  trans h h' := h' ∘ h
  hold s _ := id
  op o s := by
    intro h
    have md : ∀ q f, (∀ c, P c → P (f c)) → ∀ p, P ((s.modScope q f).2.scopes p) :=
      fun q f hf => modScope_scopes s q f P hf h
    cases o with
    | newScope a b c =>
      intro p
      simp only [Op.run, upd]
      split
      · exact hn _ _ _ _
      · exact h p
    | touch q => exact md _ _ fun _ h => h
    | setVar q v => exact md _ _ fun c h => hv c v h
    | setDef q d =>
      simp only [Op.run]
      split
      · split
        · exact h
        · exact md _ _ fun c h => hd c d h
      · exact md _ _ fun c h => hd c d h
    | addName q n f => exact md _ _ fun c h => hm c _ c.src c.srcIsFile _ h
    | setSrc q n => exact md _ _ fun c h => hm c c.name n c.srcIsFile c.onFree h
    | setIsFile q => exact md _ _ fun c h => hm c c.name c.src true c.onFree h
    | setArg0 q n => exact md _ _ fun c h => ha c n c.argsTo1 c.args1 h
    | clearArgs1 q => exact md _ _ fun c h => ha c c.arg0 false [] h
    | argsLine q =>
      simp only [Op.run]
      have h' := md q (fun c =>
        { c with argsTo1 := true, args1 := if (s.scopes q).argsTo1 then (s.scopes q).args1 else
            (s.lists (s.scopes q).args).line .one (s.scopes q).args1 })
        fun c h => ha c c.arg0 true _ h
      revert h'
      generalize s.modScope q _ = x
      intro h'
      rcases x with ⟨x, s1⟩
      cases x <;> exact h'
    | addMod d q => simp only [Op.run]; split <;> exact h
    | rmMod d i => simp only [Op.run]; split <;> split <;> exact h
    | parse src => simp only [Op.run]; split <;> exact h
    | _ => exact h

/-- **C12/C13.**  In every state reached in a run of the interpreter each scope stores each variable
name at most once. -/
theorem C12_reachable {ovf : Bool} {argv : List Str} {c : Call} {s : St} (h : Reached H ovf argv c s) (q : Nat) :
    ((s.scopes q).vars.map (·.name)).Nodup := by
  refine (kept_scopes H (fun c => (c.vars.map (·.name)).Nodup) ?_ ?_ ?_ ?_ ?_).reached h ?_ q
  · intro _ _ _ _; exact List.nodup_nil
  · intro _ _ _ _ _ h; exact h
  · intro _ _ _ _ h; exact h
  · intro c v h; exact setVar_nodup v c.vars h
  · intro _ _ h; exact h
  · intro p
    simp only [St.init]
    split <;> exact List.nodup_nil

theorem kept_unused (H : Host) : Kept H fun s s' => s.nscope ≤ s'.nscope ∧
    ∀ q, s'.nscope ≤ q → (s'.scopes q).up = (s.scopes q).up where
  refl s := ⟨Nat.le_refl _, fun _ _ => rfl⟩
  trans h h' := ⟨Nat.le_trans h.1 h'.1, fun q hq => (h'.2 q hq).trans (h.2 q (Nat.le_trans h'.1 hq))⟩
  hold s _ := ⟨Nat.le_refl _, fun _ _ => rfl⟩
  op o s := by
    have md : ∀ q f, (∀ c : Scope, (f c).up = c.up) → s.nscope ≤ (s.modScope q f).2.nscope ∧
        ∀ p, (s.modScope q f).2.nscope ≤ p → ((s.modScope q f).2.scopes p).up = (s.scopes p).up := by
      intro q f hf
      unfold St.modScope
      split
      · exact ⟨Nat.le_refl _, fun _ _ => rfl⟩
      · refine ⟨Nat.le_refl _, fun p _ => ?_⟩
        simp only [upd]
        split
        · rename_i e; subst e; exact hf _
        · rfl
    cases o with
    | newScope a b c =>
      refine ⟨Nat.le_succ _, fun q hq => ?_⟩
      simp only [Op.run] at hq ⊢
      simp only [upd]
      rw [if_neg (by omega)]
    | touch q => exact md _ _ fun _ => rfl
    | setVar q v => exact md _ _ fun _ => rfl
    | setDef q d =>
      simp only [Op.run]
      split
      · split
        · exact ⟨Nat.le_refl _, fun _ _ => rfl⟩
        · exact md _ _ fun _ => rfl
      · exact md _ _ fun _ => rfl
    | addName q n f => exact md _ _ fun _ => rfl
    | setSrc q n => exact md _ _ fun _ => rfl
    | setIsFile q => exact md _ _ fun _ => rfl
    | setArg0 q n => exact md _ _ fun _ => rfl
    | clearArgs1 q => exact md _ _ fun _ => rfl
    | argsLine q =>
      simp only [Op.run]
      have h' := md q (fun c =>
        { c with argsTo1 := true, args1 := if (s.scopes q).argsTo1 then (s.scopes q).args1 else
            (s.lists (s.scopes q).args).line .one (s.scopes q).args1 }) fun _ => rfl
      revert h'
      generalize s.modScope q _ = x
      intro h'
      rcases x with ⟨x, s1⟩
      cases x <;> exact h'
    | addMod d q => simp only [Op.run]; split <;> exact ⟨Nat.le_refl _, fun _ _ => rfl⟩
    | rmMod d i => simp only [Op.run]; split <;> split <;> exact ⟨Nat.le_refl _, fun _ _ => rfl⟩
    | parse src => simp only [Op.run]; split <;> exact ⟨Nat.le_refl _, fun _ _ => rfl⟩
    | _ => exact ⟨Nat.le_refl _, fun _ _ => rfl⟩

/-- **C42.**  Parents are older than their children in every reachable state. -/
theorem C42_parents_older {ovf : Bool} {argv : List Str} {c : Call} {s : St} (h : Reached H ovf argv c s) :
    Spec.ParentsOlder s.scopes := by
  intro q p hu
  by_cases hq : q < s.nscope
  · have := C42_depth h q hq
    rw [hu] at this
    exact this.1
  · have h' := (kept_unused H).reached h
    have h0 : 2 ≤ s.nscope := h'.1
    rw [h'.2 q (by omega)] at hu
    simp only [St.init] at hu
    rw [if_neg (by omega)] at hu
    simp only [Scope.new, Option.map_some, Option.some.injEq] at hu
    omega

/-- **C13**, in every state reached in a run of the interpreter and for every existing scope: the
nearest declaration wins. -/
theorem C13_reachable {ovf : Bool} {argv : List Str} {c : Call} {s : St} (h : Reached H ovf argv c s)
    (q : Nat) (hq : q < s.nscope) (name : Str) (equ : Bool) :
    ∃ ps, Spec.Path s.scopes q ps ∧ ∀ p a,
      getName s.scopes s.mods q name false equ true false = some (p, a) ↔
        ∃ i : Nat, (Spec.visible ps s.mods)[i]? = some p ∧
          Spec.Has (s.scopes p) name (decide (0 < i)) a false equ ∧
          ∀ j p', j < i → (Spec.visible ps s.mods)[j]? = some p' →
            ∀ a', ¬ Spec.Has (s.scopes p') name (decide (0 < j)) a' false equ := by
  obtain ⟨ps, hp, -, -⟩ := C42_lookups_end h q hq
  exact ⟨ps, hp, fun p a => C13_nearest_scope s.scopes s.mods q ps (C42_parents_older h) hp (C12_reachable h) name equ p a⟩

end Zh
