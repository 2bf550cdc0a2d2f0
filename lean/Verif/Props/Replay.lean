import Verif.Props.Capable
/-!
# C83: a run depends on the outside only through the answers it gets

Two hosts that count, hash and write paths in the same way may have different files and processes.  If they give the same answer to every
question that a run on the first asks, the run on the second is the same run.
-/
namespace Zh

/-- Hosts that differ at most in what files and processes answer. -/
def Spec.SameMachine (H H' : Host) : Prop :=
  ∃ op rd ex wr rl, H' = { H with open_ := op, read := rd, exec := ex, write := wr, readLine := rl }

/-- The same answer to a question, asked after the same history. -/
def Spec.SameAnswer (H H' : Host) (before : List Event) : Event → Prop
  | .open_ f => H'.open_ before f = H.open_ before f
  | .read f => H'.read before f = H.read before f
  | .exec k c => H'.exec before k c = H.exec before k c
  | .write h t => H'.write before h t = H.write before h t
  | .readLine h e => H'.readLine before h e = H.readLine before h e
  | _ => True

/-- The same answer to every question in a history, from place `n` on. -/
def SameFrom (H H' : Host) (n : Nat) (l : List Event) : Prop :=
  ∀ tr e rest, l = tr ++ e :: rest → n ≤ tr.length → Spec.SameAnswer H H' tr e

theorem SameFrom.prefix {H H' : Host} {n : Nat} {l l' : List Event} (h : SameFrom H H' n l') (hp : l <+: l') : SameFrom H H' n l := by
  obtain ⟨r, rfl⟩ := hp
  rintro tr e rest rfl hn
  exact h tr e (rest ++ r) (by simp) hn

theorem SameFrom.later {H H' : Host} {n m : Nat} {l : List Event} (h : SameFrom H H' n l) (hm : n ≤ m) : SameFrom H H' m l :=
  fun tr e rest hl hn => h tr e rest hl (Nat.le_trans hm hn)

theorem same_op {H H' : Host} (hm : Spec.SameMachine H H') (o : Op) (s : St) (h : SameFrom H H' s.trace.length (o.run H s).2.trace) :
    o.run H' s = o.run H s := by
  obtain ⟨op, rd, ex, wr, rl, rfl⟩ := hm
  cases o with
  | open_ f => have := h s.trace (.open_ f) [] rfl (Nat.le_refl _); simp only [Spec.SameAnswer] at this; simp [Op.run, this]
  | read f => have := h s.trace (.read f) [] rfl (Nat.le_refl _); simp only [Spec.SameAnswer] at this; simp [Op.run, this]
  | exec k c => have := h s.trace (.exec k c) [] rfl (Nat.le_refl _); simp only [Spec.SameAnswer] at this; simp [Op.run, this]
  | write k c => have := h s.trace (.write k c) [] rfl (Nat.le_refl _); simp only [Spec.SameAnswer] at this; simp [Op.run, this]
  | readLine k c => have := h s.trace (.readLine k c) [] rfl (Nat.le_refl _); simp only [Spec.SameAnswer] at this; simp [Op.run, this]
  | _ => rfl

theorem same_interp {H H' : Host} (hm : Spec.SameMachine H H') {rec rec' : Call → St → Out Res × St} (hk : ∀ c s, s.trace <+: (rec c s).2.trace)
    (hr : ∀ c s, SameFrom H H' s.trace.length (rec c s).2.trace → rec' c s = rec c s) {α : Type} (p : Prog α) (s : St)
    (h : SameFrom H H' s.trace.length (p.interp H rec s).2.trace) : p.interp H' rec' s = p.interp H rec s := by
  induction p generalizing s with
  | ret a => rfl
  | panic => rfl
  | op o k ih =>
    have hp := (kept_trace H).op o s
    simp only [Prog.interp] at h ⊢
    rcases hx : o.run H s with ⟨x, s1⟩
    rw [hx] at h hp
    have e : o.run H' s = (x, s1) := by
      rw [← hx]
      refine same_op hm o s ?_
      rw [hx]
      refine h.prefix ?_
      cases x with
      | ok a => exact (kept_trace H).interp hk (k a) s1
      | panic => exact List.prefix_refl _
      | fuel => exact List.prefix_refl _
    rw [e]
    cases x with
    | ok a => exact ih a s1 (h.later hp.length_le)
    | panic => rfl
    | fuel => rfl
  | call hd c k ih =>
    simp only [Prog.interp] at h ⊢
    have hp := hk c { s with held := hd ++ s.held }
    rcases hx : rec c { s with held := hd ++ s.held } with ⟨x, s1⟩
    rw [hx] at h hp
    have e : rec' c { s with held := hd ++ s.held } = (x, s1) := by
      rw [← hx]
      refine hr c _ ?_
      rw [hx]
      refine h.prefix ?_
      cases x with
      | ok a => exact (kept_trace H).interp hk (k a) { s1 with held := s.held }
      | panic => exact List.prefix_refl _
      | fuel => exact List.prefix_refl _
    rw [e]
    cases x with
    | ok a => exact ih a { s1 with held := s.held } (h.later hp.length_le)
    | panic => rfl
    | fuel => rfl

theorem same_run {H H' : Host} (hm : Spec.SameMachine H H') (n : Nat) (c : Call) (s : St)
    (h : SameFrom H H' s.trace.length (run H n c s).2.trace) : run H' n c s = run H n c s := by
  induction n generalizing c s with
  | zero => rfl
  | succ n ih => exact same_interp hm ((kept_trace H).run n) ih (evalF c) s h

variable {H H' : Host}

/-- **C83.** If the second host answers every question of the run on the first host as the first did, the run on it is the same, step by step:
the same questions, the same output, the same end. -/
theorem C83_replay (hm : Spec.SameMachine H H') {n : Nat} {ovf : Bool} {argv : List Str}
    (h : ∀ tr e rest, (runMain H n ovf argv).2.trace = tr ++ e :: rest → Spec.SameAnswer H H' tr e) :
    runMain H' n ovf argv = runMain H n ovf argv :=
  same_interp hm ((kept_trace H).run n) (same_run hm n) _ _ fun tr e rest hl _ => h tr e rest hl

theorem same_printed {e : Event} (h : Spec.Prints e) (tr : List Event) : Spec.SameAnswer H H' tr e := by
  cases e <;> trivial

/-- **C83.** A script given as code in whose text none of `定义`, `解释`, `加载`, `执行`, `释放模块` stands runs in the same way whatever files and
programs there are. -/
theorem C83_code (hm : Spec.SameMachine H H') {shl : Str} {a : List Str} {opts : List Spec.CliOpt} {src : Str} {ws : List Str}
    (hl : Spec.CliLine (shl :: a) opts src ws) (hc : Spec.CliOpt.isCode ∈ opts) (hw : ∀ id ∈ Spec.textWords, ¬ Spec.Stands src id) :
    ∀ n, runMain H' n false (shl :: a) = runMain H n false (shl :: a) := fun n =>
  C83_replay hm fun tr e _ ht =>
    same_printed (C81_code (H := H) hl hc hw n e (ht ▸ List.mem_append_right _ (.head _))) tr

/-- **C83.** A script in a file depends only on what is answered about the names it is looked for under. -/
theorem C83_file (hm : Spec.SameMachine H H') {shl : Str} {a : List Str} {opts : List Spec.CliOpt} {src : Str} {ws : List Str}
    (hl : Spec.CliLine (shl :: a) opts src ws) (hc : Spec.CliOpt.isCode ∉ opts)
    (hf : ∀ tr f, Spec.NamedBy H src f → ∀ t, H.read tr f = .ok t → ∀ b, Spec.Unhashed t b → ∀ id ∈ Spec.textWords, ¬ Spec.Stands b id)
    (hs : ∀ tr f, Spec.NamedBy H src f → H'.open_ tr f = H.open_ tr f ∧ H'.read tr f = H.read tr f) :
    ∀ n, runMain H' n false (shl :: a) = runMain H n false (shl :: a) := fun n =>
  C83_replay hm fun tr e _ ht => by
    rcases C81_file (H := H) hl hc hf n e (ht ▸ List.mem_append_right _ (.head _)) with h | ⟨f, hn, rfl | rfl⟩
    · exact same_printed h tr
    · exact (hs tr f hn).1
    · exact (hs tr f hn).2

/-- A command line that runs the text, from a computed check. -/
theorem demo_line {src : Str}
    (h : ([c!"-zhscript-src-is-code", src].all (fun w => !Spec.MARK.isSuffixOf w) && !Spec.OPT.isPrefixOf src && src.head? != some '-') = true) :
    Spec.CliLine (demoArgv src) [.isCode] src [] := by
  simp only [Bool.and_eq_true, Bool.not_eq_true', bne_iff_ne, ne_eq] at h
  obtain ⟨⟨h1, h2⟩, h3⟩ := h
  refine .plain c!"zs" [.isCode] _ [] ?_ ?_ h3 (by decide)
  · intro w hw hm
    have := List.all_eq_true.1 h1 w hw
    rw [List.isSuffixOf_iff_suffix.2 hm] at this
    cases this
  · intro hp
    rw [List.isPrefixOf_iff_prefix.2 hp] at h2
    cases h2

/-- A host with other files and programs. -/
def HR1 : Host := { H0 with
  open_ := fun _ _ => true
  read := fun _ f => if f = c!"/a.zs" then .ok c!"显示一。" else .ok c!"显示三。"
  exec := fun _ _ _ => .status (some 1) }

/-- One that differs from it in other files only. -/
def HR2 : Host := { HR1 with read := fun _ f => if f = c!"/a.zs" then .ok c!"显示一。" else .error c!"无" }

def loadDemo : Str := c!"加载“/a.zs”。显示二。"

theorem loadDemo_run : (runMain HR1 30 false (demoArgv loadDemo)).2.trace =
    [.open_ c!"/a.zs", .read c!"/a.zs", .out c!"一", .out c!"二"] := by
  decide +kernel

/-- **C83.** The script of C78 runs on the two hosts in the same way; and a script that loads a file runs in the same way on hosts that have
different other files. -/
theorem C83_witness :
    (∀ n, runMain HR1 n false (demoArgv plainDemo) = runMain H0 n false (demoArgv plainDemo)) ∧
    runMain HR2 30 false (demoArgv loadDemo) = runMain HR1 30 false (demoArgv loadDemo) := by
  refine ⟨C83_code ⟨_, _, _, _, _, rfl⟩ (demo_line (by decide +kernel)) (by simp) (noneStand_sound (by decide +kernel)),
    C83_replay ⟨_, _, _, _, _, rfl⟩ fun tr e rest h => ?_⟩
  have he : e ∈ (runMain HR1 30 false (demoArgv loadDemo)).2.trace := h ▸ List.mem_append_right _ (.head _)
  rw [loadDemo_run] at he
  clear h
  simp only [List.mem_cons, List.not_mem_nil, or_false] at he
  rcases he with rfl | rfl | rfl | rfl <;> first | rfl | exact True.intro

/-- **C83.** The answers do matter: on a host without the file the script does not print the same. -/
theorem C83_answers_matter : (runMain H0 30 false (demoArgv loadDemo)).2.trace ≠ (runMain HR1 30 false (demoArgv loadDemo)).2.trace := by
  rw [loadDemo_run]
  decide +kernel

end Zh
