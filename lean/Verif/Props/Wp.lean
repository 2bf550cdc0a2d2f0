import Verif.Model.Eval
/-!
# Reasoning about programs of the evaluator

`wp` is a weakest-precondition calculus for `Prog`: its soundness (`wp_interp`) reduces a statement
about every run to one obligation per operation and per call.  The obligations of a call are collected
in a specification (`Spec'`): what must hold when the call starts (`pre`), what holds in every state the
call can leave behind, also when it panics or has not ended (`inv`), and what holds when it ends
(`post`).  `Reached` are the calls that happen in a run of the interpreter.
-/
namespace Zh

/-- A state in which further borrows are kept. -/
def St.hold (s : St) (h : List Held) : St := { s with held := h ++ s.held }

/-- A family (indexed by `ι`) of specifications of calls. -/
structure CallSpec (ι : Type) where
  pre : ι → Call → St → Prop
  inv : ι → St → St → Prop
  post : ι → Call → St → Res → St → Prop

variable {ι : Type}

/-- What has to be shown for a program: `g` in every state passed, `Q` at the end. -/
def wp (H : Host) (S : CallSpec ι) (g : St → Prop) {α : Type} :
    Prog α → St → (α → St → Prop) → Prop
  | .ret a, s, Q => g s ∧ Q a s
  | .panic, s, _ => g s
  | .op o k, s, Q =>
    g (o.run H s).2 ∧ ∀ a s', o.run H s = (.ok a, s') → wp H S g (k a) s' Q
  | .call h c k, s, Q =>
    ∃ i, S.pre i c (s.hold h) ∧ ∀ s', S.inv i (s.hold h) s' →
      g s' ∧ ∀ r, S.post i c (s.hold h) r s' → wp H S g (k r) { s' with held := s.held } Q

/-- The calls a program makes when it is run: the call and the state it starts in. -/
def Calls (H : Host) (rec : Call → St → Out Res × St) {α : Type} : Prog α → St → Call → St → Prop
  | .ret _, _, _, _ => False
  | .panic, _, _, _ => False
  | .op o k, s, c, t => ∃ a s', o.run H s = (.ok a, s') ∧ Calls H rec (k a) s' c t
  | .call h c0 k, s, c, t =>
    (c = c0 ∧ t = s.hold h) ∨
      ∃ r s', rec c0 (s.hold h) = (.ok r, s') ∧ Calls H rec (k r) { s' with held := s.held } c t

/-- The calls that happen in a run of the interpreter with the words `argv`, with the state they start
in. -/
inductive Reached (H : Host) (ovf : Bool) (argv : List Str) : Call → St → Prop
  | main (n : Nat) {c : Call} {s : St} :
    Calls H (run H n) (mainP argv).run (St.init ovf) c s → Reached H ovf argv c s
  | step (n : Nat) {c c' : Call} {s s' : St} :
    Reached H ovf argv c s → Calls H (run H n) (evalF c) s c' s' → Reached H ovf argv c' s'

/-- `rec` meets the specifications. -/
def RecOk (S : CallSpec ι) (rec : Call → St → Out Res × St) : Prop :=
  ∀ i c s, S.pre i c s → S.inv i s (rec c s).2 ∧ ∀ r s', rec c s = (.ok r, s') → S.post i c s r s'

theorem wp_interp {H : Host} {S : CallSpec ι} {g : St → Prop} {rec : Call → St → Out Res × St}
    (hrec : RecOk S rec) {α : Type} (p : Prog α) (s : St) (Q : α → St → Prop)
    (h : wp H S g p s Q) :
    g (p.interp H rec s).2 ∧ ∀ a s', p.interp H rec s = (.ok a, s') → Q a s' := by
  induction p generalizing s with
  | ret a =>
    refine ⟨h.1, ?_⟩
    intro b s' hb
    simp only [Prog.interp, Prod.mk.injEq, Out.ok.injEq] at hb
    obtain ⟨rfl, rfl⟩ := hb
    exact h.2
  | panic => exact ⟨h, fun a s' hb => by simp [Prog.interp] at hb⟩
  | op o k ih =>
    obtain ⟨hg, hk⟩ := h
    simp only [Prog.interp]
    rcases ho : o.run H s with ⟨x, s1⟩
    rw [ho] at hg
    cases x with
    | ok a => exact ih a s1 (hk a s1 ho)
    | panic => exact ⟨hg, fun a s' hb => by simp at hb⟩
    | fuel => exact ⟨hg, fun a s' hb => by simp at hb⟩
  | call hd c k ih =>
    obtain ⟨i, hp, hk⟩ := h
    obtain ⟨hi, hpo⟩ := hrec i c _ hp
    simp only [Prog.interp]
    change g (match rec c (s.hold hd) with
      | (.ok r, s') => (k r).interp H rec { s' with held := s.held }
      | (.panic, s') => (.panic, s')
      | (.fuel, s') => (.fuel, s')).2 ∧ ∀ a s', (match rec c (s.hold hd) with
      | (.ok r, s') => (k r).interp H rec { s' with held := s.held }
      | (.panic, s') => (.panic, s')
      | (.fuel, s') => (.fuel, s')) = (.ok a, s') → Q a s'
    rcases hr : rec c (s.hold hd) with ⟨x, s1⟩
    rw [hr] at hi
    obtain ⟨hg, hk⟩ := hk s1 hi
    cases x with
    | ok r => exact ih r _ (hk r (hpo r s1 hr))
    | panic => exact ⟨hg, fun a s' hb => by simp at hb⟩
    | fuel => exact ⟨hg, fun a s' hb => by simp at hb⟩

theorem wp_calls {H : Host} {S : CallSpec ι} {g : St → Prop} {rec : Call → St → Out Res × St}
    (hrec : RecOk S rec) {α : Type} (p : Prog α) (s : St) (Q : α → St → Prop)
    (h : wp H S g p s Q) {c : Call} {t : St} (hc : Calls H rec p s c t) : ∃ i, S.pre i c t := by
  induction p generalizing s with
  | ret a => exact hc.elim
  | panic => exact hc.elim
  | op o k ih =>
    obtain ⟨a, s', ho, hc⟩ := hc
    exact ih a s' (h.2 a s' ho) hc
  | call hd c0 k ih =>
    obtain ⟨i, hp, hk⟩ := h
    rcases hc with ⟨rfl, rfl⟩ | ⟨r, s', hr, hc⟩
    · exact ⟨i, hp⟩
    · obtain ⟨hi, hpo⟩ := hrec i c0 _ hp
      rw [hr] at hi
      exact ih r _ ((hk s' hi).2 r (hpo r s' hr)) hc

theorem wp_mono {H : Host} {S : CallSpec ι} {g g' : St → Prop} (hg : ∀ s, g s → g' s) {α : Type}
    (p : Prog α) (s : St) {Q Q' : α → St → Prop} (hQ : ∀ a s, g s → Q a s → Q' a s)
    (h : wp H S g p s Q) : wp H S g' p s Q' := by
  induction p generalizing s with
  | ret a => exact ⟨hg _ h.1, hQ _ _ h.1 h.2⟩
  | panic => exact hg _ h
  | op o k ih => exact ⟨hg _ h.1, fun a s' ho => ih a s' (h.2 a s' ho)⟩
  | call hd c k ih =>
    obtain ⟨i, hp, hk⟩ := h
    exact ⟨i, hp, fun s' hs => ⟨hg _ (hk s' hs).1, fun r hr => ih r _ ((hk s' hs).2 r hr)⟩⟩

theorem wp_bind {H : Host} {S : CallSpec ι} {g : St → Prop} {α β : Type}
    (p : Prog α) (f : α → Prog β) (s : St) {Q : β → St → Prop}
    (h : wp H S g p s fun a s' => wp H S g (f a) s' Q) : wp H S g (p >>= f) s Q := by
  change wp H S g (p.bind f) s Q
  induction p generalizing s with
  | ret a => exact h.2
  | panic => exact h
  | op o k ih => exact ⟨h.1, fun a s' ho => ih a s' (h.2 a s' ho)⟩
  | call hd c k ih =>
    obtain ⟨i, hp, hk⟩ := h
    exact ⟨i, hp, fun s' hs => ⟨(hk s' hs).1, fun r hr => ih r _ ((hk s' hs).2 r hr)⟩⟩

/-- When the evaluation functions meet the specifications, so does every run. -/
theorem run_ok {H : Host} {S : CallSpec ι}
    (h0 : ∀ i c s, S.pre i c s → S.inv i s s)
    (h : ∀ i c s, S.pre i c s → wp H S (S.inv i s) (evalF c) s (S.post i c s)) (n : Nat) :
    RecOk S (run H n) := by
  induction n with
  | zero =>
    intro i c s hp
    exact ⟨h0 i c s hp, fun r s' hr => by simp [run] at hr⟩
  | succ n ih =>
    intro i c s hp
    exact wp_interp ih (evalF c) s _ (h i c s hp)

/-- The precondition holds whenever a call happens in a run of the interpreter. -/
theorem reached_pre {H : Host} {S : CallSpec ι} {ovf : Bool} {argv : List Str}
    (h0 : ∀ i c s, S.pre i c s → S.inv i s s)
    (h : ∀ i c s, S.pre i c s → wp H S (S.inv i s) (evalF c) s (S.post i c s))
    (g : St → Prop) (Q : Except Err Unit → St → Prop)
    (hm : wp H S g (mainP argv).run (St.init ovf) Q) {c : Call} {s : St}
    (hr : Reached H ovf argv c s) : ∃ i, S.pre i c s := by
  induction hr with
  | main n hc => exact wp_calls (run_ok h0 h n) _ _ _ hm hc
  | step n _ hc ih =>
    obtain ⟨i, hp⟩ := ih
    exact wp_calls (run_ok h0 h n) _ _ _ (h i _ _ hp) hc

end Zh
