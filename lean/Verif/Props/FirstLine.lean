import Verif.Props.Evaluate
import Verif.Props.Shebang
/-!
# The text of a file that has a `#!` line

Reading a file takes its `#!` line off.  `Np p` is a statement about the tree of the program `p`: it makes no calls, and as long as nothing is
borrowed it does not crash.
-/
namespace Zh

variable {α β : Type} {H : Host}

/-- What is left of the text of a file without its `#!` line. -/
def Spec.Unhashed (t b : Str) : Prop := (¬ Spec.Hashed t ∧ b = t) ∨ ∃ line, t = c!"#!" ++ line ++ '\n' :: b ∧ '\n' ∉ line

/-- There is only one such text. -/
theorem unhashed_line {line b b' : Str} (hn : '\n' ∉ line) (h : Spec.Unhashed (c!"#!" ++ line ++ '\n' :: b) b') : b' = b := by
  rcases h with ⟨h, -⟩ | ⟨line', e, hn'⟩
  · exact absurd ⟨⟨line ++ '\n' :: b, by simp⟩, by simp⟩ h
  · replace e : line ++ '\n' :: b = line' ++ '\n' :: b' := by simpa using e
    induction line generalizing line' with
    | nil =>
      cases line' with
      | nil => cases e; rfl
      | cons c l => cases e; exact absurd (List.mem_cons_self ..) hn'
    | cons c l ih =>
      cases line' with
      | nil => cases e; exact absurd (List.mem_cons_self ..) hn
      | cons c' l' =>
        injection e with e1 e2
        exact ih (fun h => hn (List.mem_cons_of_mem _ h)) l' (fun h => hn' (List.mem_cons_of_mem _ h)) e2

theorem body_of_ev {f : Str} {q : Nat} {s s' : St} {b : Str} (h : EvE H (Evals H) (src2P f q) s (.ok b) s') :
    ∃ t, H.read s.trace f = .ok t ∧ Spec.Unhashed t b := by
  cases ev_fileText.1 h with
  | plain h1 h2 => exact ⟨_, h1, .inl ⟨h2, rfl⟩⟩
  | options h1 h2 _ _ => exact ⟨_, h1, .inr ⟨_, rfl, h2⟩⟩

def Op.Safe : Op → Prop
  | .rmMod .. | .setDef .. | .parse _ | .expl _ => False
  | _ => True

theorem op_safe {o : Op} (h : o.Safe) {s : St} (hs : s.held = []) : ∃ r, (o.run H s).1 = .ok r := by
  have hm : ∀ q f, (s.modScope q f).1 = .ok () := fun q f => by rw [modScope_free hs]
  cases o with
  | rmMod => exact h.elim
  | setDef => exact h.elim
  | parse => exact h.elim
  | expl => exact h.elim
  | touch => exact ⟨_, hm _ _⟩
  | setVar => exact ⟨_, hm _ _⟩
  | addName => exact ⟨_, hm _ _⟩
  | setSrc => exact ⟨_, hm _ _⟩
  | setIsFile => exact ⟨_, hm _ _⟩
  | setArg0 => exact ⟨_, hm _ _⟩
  | clearArgs1 => exact ⟨_, hm _ _⟩
  | argsLine q => simp only [Op.run, modScope_free hs]; exact ⟨_, rfl⟩
  | _ => exact ⟨_, rfl⟩

/-- See above; what it gives is a `Q`. -/
def Npq (H : Host) : Prog α → (α → Prop) → Prop
  | .ret a, Q => Q a
  | .panic, _ => False
  | .op o k, Q => o.Safe ∧ ∀ r, (∃ s s', o.run H s = (.ok r, s')) → Npq H (k r) Q
  | .call .., _ => False

abbrev Np (H : Host) (p : Prog α) : Prop := Npq H p fun _ => True
abbrev NpE (H : Host) (p : E α) : Prop := Np H p.run

theorem Npq.bind {p : Prog α} {f : α → Prog β} {Q : α → Prop} {R : β → Prop} (h : Npq H p Q) (hf : ∀ a, Q a → Npq H (f a) R) :
    Npq H (p >>= f) R := by
  change Npq H (p.bind f) R
  induction p with
  | ret a => exact hf a h
  | panic => exact h.elim
  | op o k ih => exact ⟨h.1, fun a ha => ih a (h.2 a ha)⟩
  | call hd c k ih => exact h.elim

theorem Np.bind {p : Prog α} {f : α → Prog β} (h : Np H p) (hf : ∀ a, Np H (f a)) : Np H (p >>= f) := Npq.bind h fun a _ => hf a

theorem NpE.liftBind {p : Prog α} {f : α → E β} {Q : α → Prop} (h : Npq H p Q) (hf : ∀ a, Q a → NpE H (f a)) :
    NpE H ((liftM p : E α) >>= f) := by
  change Np H (Prog.bind (Prog.bind p _) _)
  refine Npq.bind (Q := fun x => ∃ a, x = .ok a ∧ Q a) (Npq.bind h fun a ha => ⟨a, rfl, ha⟩) ?_
  rintro _ ⟨a, rfl, ha⟩
  exact hf a ha

theorem NpE.bind {p : E α} {f : α → E β} (h : NpE H p) (hf : ∀ a, NpE H (f a)) : NpE H (p >>= f) := by
  change Np H (p.run >>= _)
  refine Np.bind h fun a => ?_
  cases a with
  | ok a => exact hf a
  | error e => trivial

theorem NpE.lift {p : Prog α} (h : Np H p) : NpE H (liftM p : E α) := Np.bind h fun _ => trivial
theorem np_getSt : Np H getSt := ⟨trivial, fun _ _ => trivial⟩

theorem np_interp {rec : Call → St → Out Res × St} {p : Prog α} (hp : Np H p) {s : St} (hs : s.held = []) :
    ∃ a s', p.interp H rec s = (.ok a, s') := by
  induction p generalizing s with
  | ret a => exact ⟨a, s, rfl⟩
  | panic => exact hp.elim
  | op o k ih =>
    obtain ⟨r, hr⟩ := op_safe (H := H) hp.1 hs
    have hh := op_held (H := H) o s
    rcases ho : o.run H s with ⟨x, s1⟩
    rw [ho] at hr hh
    cases hr
    simp only [Prog.interp, ho]
    exact ih r (hp.2 r ⟨s, s1, ho⟩) (hh.trans hs)
  | call hd c k ih => exact hp.elim

theorem np_addVal {ret : Nat} {v : Val} {r : List Str} : Np H (addVal ret v r) := by
  unfold addVal
  refine Np.bind ⟨trivial, fun _ _ => trivial⟩ fun _ => ?_
  exact Np.bind np_getSt fun _ => ⟨trivial, fun _ _ => trivial⟩

theorem np_cliArg {args : Nat} {t : Str} : Np H (cliArg args t) := by
  unfold cliArg
  refine Np.bind (Np.bind np_getSt fun _ => trivial) fun _ => ?_
  split
  · exact Np.bind np_addVal fun _ => np_addVal
  · exact np_addVal

theorem np_cliActs {q : Nat} {l : List CliAct} : Np H (cliActs q l) := by
  induction l with
  | nil => trivial
  | cons a l ih =>
    unfold cliActs
    cases a with
    | arg t => exact Np.bind np_getSt fun _ => Np.bind np_cliArg fun _ => ih
    | _ => exact Np.bind ⟨trivial, fun _ _ => trivial⟩ fun _ => ih

theorem np_shlP {w : Str} {a : List Str} : Npq H (shlP true (w :: a)) (· = a) := by
  unfold shlP
  refine Npq.bind np_getSt fun s _ => ?_
  split
  · exact ⟨trivial, fun _ _ => ⟨trivial, fun _ _ => rfl⟩⟩
  · exact ⟨trivial, fun _ _ => rfl⟩

/-- Options on a `#!` line that is not as in `BadFirstLine` are taken without a crash. -/
theorem np_clparsP {w : Str} {a : List Str} {q : Nat} (ha : ∀ x ∈ a, ¬ Spec.MarkCut x) : NpE H (clparsP (w :: a) true false false true q) := by
  unfold clparsP
  refine NpE.liftBind np_shlP fun a' e => ?_
  rw [e]
  obtain ⟨x, hx⟩ := shebangScan_fine false true a false false none fun _ => ha
  rw [hx]
  refine NpE.bind (NpE.lift (p := ofOut (.ok x)) trivial) fun x => ?_
  obtain ⟨a2, hs, src⟩ := x
  dsimp only
  cases src with
  | some t => exact NpE.bind (NpE.lift ⟨trivial, fun _ _ => trivial⟩) fun _ => NpE.bind (NpE.lift np_cliActs) fun _ => trivial
  | none => exact NpE.bind (NpE.lift np_cliActs) fun _ => trivial

/-- Reading a file without a line as in `BadFirstLine` does not crash. -/
theorem np_src2P {f : Str} {q : Nat} (hf : ∀ tr t, H.read tr f = .ok t → ¬ Spec.BadFirstLine t) : NpE H (src2P f q) := by
  unfold src2P
  refine ⟨trivial, fun r ⟨s, s', hr⟩ => ?_⟩
  have hr : H.read s.trace f = r := by
    simp only [Op.run, Prod.mk.injEq, Out.ok.injEq] at hr
    exact hr.1
  rcases r with e | text
  · trivial
  · change NpE H (if _ then _ else _)
    split
    · rename_i hc
      rw [Bool.and_eq_true, List.isPrefixOf_iff_prefix, List.contains_iff_mem] at hc
      obtain ⟨⟨tl, rfl⟩, hm⟩ := hc
      have hm' : '\n' ∈ tl := by simpa using hm
      have hd : ((c!"#!" ++ tl).takeWhile (· ≠ '\n')).drop 2 = tl.takeWhile (· ≠ '\n') := by
        simp
      obtain ⟨rest, hrest, hnot⟩ := first_line hm'
      have bad : ¬ (split (tl.takeWhile (· ≠ '\n')) = [] ∨ ∃ w ∈ (split (tl.takeWhile (· ≠ '\n'))).tail, Spec.MarkCut w) :=
        fun hb => hf _ _ hr ⟨_, rest, by rw [List.append_assoc, ← hrest], hnot, hb⟩
      rw [hd]
      generalize split (tl.takeWhile (· ≠ '\n')) = ws at bad
      cases ws with
      | nil => exact absurd (.inl rfl) bad
      | cons w ws =>
        refine NpE.bind (NpE.lift ⟨trivial, fun _ _ => trivial⟩) fun _ => NpE.bind (np_clparsP fun x hx hc => ?_) fun _ => trivial
        exact bad (.inr ⟨x, hx, hc⟩)
    · trivial

end Zh
