import Verif.Props.SepTree
/-!
# C04: the separator index in whole runs
-/
namespace Zh
open Spec

variable {α β : Type}

/-- The programs of the evaluation functions. -/
theorem wt_evalF {c : Call} {s : St} (hs : NoLeft s) (ha : AllWF s) : WtAt s (evalF c) := by
  have at_ : ∀ {p : Prog Res}, Wt p → WtAt s p := fun hp => hp.at_ ha
  cases c with
  | codes a i e env => exact at_ wt_codesP
  | z2 a i e env => exact at_ wt_z2P
  | z4 a cs e e2 env st => exact wt_z4P hs ha
  | src t env => exact at_ (wt_resE wt_srcP)
  | loop range codes max useI cnt env i hn => exact at_ wt_loopP
  | cond codes env st => exact at_ wt_condP
  | get l h e env => exact at_ (wt_resE wt_get2P)
  | slave h o e buf env => exact at_ wt_slaveP
  | item c env => exact at_ (wt_resE wt_itemP)

/-! ## What it says about running the program -/

variable {H : Host}

theorem AllWF.op {s : St} (h : AllWF s) (o : Op) (ho : o.Wf) : AllWF (o.run H s).2 := by
  have sc : ∀ q f, AllWF (s.modScope q f).2 := by
    intro q f
    unfold St.modScope
    split <;> exact h
  cases o with
  | newList =>
    intro l
    simp only [Op.run, upd]
    split
    · exact WF_empty
    · exact h l
  | setList r l' =>
    intro l
    simp only [Op.run, upd]
    split
    · exact ho
    · exact h l
  | newScope a b c =>
    intro l
    simp only [Op.run, upd]
    split
    · exact WF_empty
    · exact h l
  | touch q => exact sc _ _
  | setVar q v => exact sc _ _
  | setDef q d =>
    simp only [Op.run]
    split
    · split
      · exact h
      · exact sc _ _
    · exact sc _ _
  | addName q n f => exact sc _ _
  | setSrc q n => exact sc _ _
  | setIsFile q => exact sc _ _
  | setArg0 q n => exact sc _ _
  | clearArgs1 q => exact sc _ _
  | argsLine q =>
    simp only [Op.run]
    have h' := sc q (fun c =>
      { c with argsTo1 := true, args1 := if (s.scopes q).argsTo1 then (s.scopes q).args1 else
          (s.lists (s.scopes q).args).line .one (s.scopes q).args1 })
    revert h'
    generalize s.modScope q _ = x
    intro h'
    rcases x with ⟨x, s1⟩
    cases x <;> exact h'
  | addMod d q => simp only [Op.run]; split <;> exact h
  | rmMod d i => simp only [Op.run]; split <;> split <;> exact h
  | parse src => simp only [Op.run]; split <;> exact h
  | _ => exact h

theorem wt_interp {rec : Call → St → Out Res × St} {P : Call → St → Prop} (hrec : ∀ c s, P c s → AllWF s → AllWF (rec c s).2)
    {p : Prog α} (h : Wt p) {s : St} (hs : AllWF s) (hP : ∀ c t, Calls H rec p s c t → P c t) :
    AllWF (p.interp H rec s).2 ∧ ∀ c t, Calls H rec p s c t → AllWF t := by
  induction p generalizing s with
  | ret a => exact ⟨hs, fun _ _ h => h.elim⟩
  | panic => exact ⟨hs, fun _ _ h => h.elim⟩
  | op o k ih =>
    have h1 := AllWF.op (H := H) hs o h.1
    rcases ho : o.run H s with ⟨x, s1⟩
    rw [ho] at h1
    simp only [Prog.interp, ho]
    cases x with
    | ok a =>
      have ha : o.WfAns a := by
        cases o with
        | st => cases ho; exact hs
        | _ => trivial
      have := ih a (h.2 a ha) h1 fun c t hc => hP c t ⟨a, s1, ho, hc⟩
      refine ⟨this.1, fun c t hc => ?_⟩
      obtain ⟨a', s', e, hc⟩ := hc
      rw [ho] at e
      cases e
      exact this.2 c t hc
    | panic => exact ⟨h1, fun c t hc => by obtain ⟨a', s', e, hc⟩ := hc; rw [ho] at e; cases e⟩
    | fuel => exact ⟨h1, fun c t hc => by obtain ⟨a', s', e, hc⟩ := hc; rw [ho] at e; cases e⟩
  | call hd c k ih =>
    have h0 : AllWF (s.hold hd) := hs
    have h1 := hrec c (s.hold hd) (hP _ _ (.inl ⟨rfl, rfl⟩)) h0
    simp only [Prog.interp]
    rcases ho : rec c (s.hold hd) with ⟨x, s1⟩
    have ho' : rec c { s with held := hd ++ s.held } = (x, s1) := ho
    rw [ho] at h1
    rw [ho']
    cases x with
    | ok a =>
      have := ih a (h a) (s := { s1 with held := s.held }) h1 fun c' t hc => hP c' t (.inr ⟨a, s1, ho, hc⟩)
      refine ⟨this.1, fun c' t hc => ?_⟩
      rcases hc with ⟨rfl, rfl⟩ | ⟨a', s', e, hc⟩
      · exact h0
      · rw [ho] at e
        cases e
        exact this.2 c' t hc
    | panic =>
      refine ⟨h1, fun c' t hc => ?_⟩
      rcases hc with ⟨rfl, rfl⟩ | ⟨a', s', e, hc⟩
      · exact h0
      · rw [ho] at e; cases e
    | fuel =>
      refine ⟨h1, fun c' t hc => ?_⟩
      rcases hc with ⟨rfl, rfl⟩ | ⟨a', s', e, hc⟩
      · exact h0
      · rw [ho] at e; cases e

theorem wtAt_interp {rec : Call → St → Out Res × St} {P : Call → St → Prop} (hrec : ∀ c s, P c s → AllWF s → AllWF (rec c s).2)
    {p : Prog α} {s : St} (h : WtAt s p) (hs : AllWF s) (hP : ∀ c t, Calls H rec p s c t → P c t) :
    AllWF (p.interp H rec s).2 ∧ ∀ c t, Calls H rec p s c t → AllWF t := by
  unfold WtAt at h
  split at h
  · rename_i k
    have := wt_interp hrec h hs fun c t hc => hP c t ⟨s, s, rfl, hc⟩
    refine ⟨this.1, fun c t hc => ?_⟩
    obtain ⟨a', s', e, hc⟩ := hc
    cases e
    exact this.2 c t hc
  · exact wt_interp hrec h hs hP

/-- **C04.**  In a run in which no definition takes arguments from its left, all result lists have their separators recorded rightly, at
every call and at the end. -/
theorem C04_run {ovf : Bool} {argv : List Str} (hn : ∀ c s, Reached H ovf argv c s → NoLeft s) :
    (∀ c s, Reached H ovf argv c s → AllWF s) ∧ ∀ n, AllWF (runMain H n ovf argv).2 := by
  have step : ∀ n c s, Reached H ovf argv c s → AllWF s → AllWF (run H n c s).2 := by
    intro n
    induction n with
    | zero => exact fun _ _ _ h => h
    | succ n ih =>
      intro c s hr hs
      exact (wtAt_interp (P := Reached H ovf argv) ih (wt_evalF (hn c s hr) hs) hs fun c' t hc => .step n hr hc).1
  have main : ∀ n, _ := fun n => wt_interp (H := H) (P := Reached H ovf argv) (step n) (p := (mainP argv).run) wt_mainP (s := St.init ovf)
    (fun _ => WF_empty) fun c t hc => .main n hc
  refine ⟨fun c s hr => ?_, fun n => (main n).1⟩
  induction hr with
  | main n hc => exact (main n).2 _ _ hc
  | step n hr hc ih => exact (wtAt_interp (P := Reached H ovf argv) (step n) (wt_evalF (hn _ _ hr) ih) ih fun c' t hc => .step n hr hc).2 _ _ hc

end Zh
