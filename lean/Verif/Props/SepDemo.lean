import Verif.Props.SepRuns
import Verif.Props.BigStep
import Verif.Props.Demo
/-!
# A run in which no definition takes arguments from its left

A computable check that a finished run makes no such definition, and a script that passes it: the hypothesis of `C04_run` is met.
-/
namespace Zh
open Spec

variable {H : Host}

/-- The step makes no definition that takes arguments from its left. -/
def Op.plainDef : Op → Bool
  | .setDef _ d => d.backarg == 0
  | _ => true

/-- Every step of the program makes no such definition, and every call passes the check and ends. -/
def everyP (H : Host) (rec : Call → St → Out Res × St) (chk : Call → St → Bool) {α : Type} : Prog α → St → Bool
  | .ret _, _ => true
  | .panic, _ => false
  | .op o k, s => o.plainDef &&
    match o.run H s with
    | (.ok a, s') => everyP H rec chk (k a) s'
    | _ => false
  | .call h c0 k, s => chk c0 (s.hold h) &&
      match rec c0 (s.hold h) with
      | (.ok r, s') => everyP H rec chk (k r) { s' with held := s.held }
      | _ => false

def everyC (H : Host) : Nat → Call → St → Bool
  | 0, _, _ => false
  | n + 1, c, s => everyP H (run H n) (everyC H n) (evalF c) s

theorem mem_setDef {d e : Def} {ds : List Def} (h : e ∈ setDef d ds) : e ∈ ds ∨ e.backarg = d.backarg := by
  induction ds with
  | nil => simp [setDef] at h; exact .inr (by rw [h])
  | cons x xs ih =>
    simp only [setDef] at h
    split at h
    · rcases List.mem_cons.1 h with rfl | h
      · exact .inr rfl
      · exact .inl (by simp [h])
    · rcases List.mem_cons.1 h with rfl | h
      · exact .inl (by simp)
      · rcases ih h with h | h
        · exact .inl (by simp [h])
        · exact .inr h

theorem noLeft_mod {s : St} {q : Nat} {f : Scope → Scope} (h : NoLeft s) (hf : ∀ d ∈ (f (s.scopes q)).defs, d.backarg = 0) :
    NoLeft (s.modScope q f).2 := by
  unfold St.modScope
  split
  · exact h
  · intro p d hd
    simp only [upd] at hd
    split at hd
    · rename_i e
      subst e
      exact hf d hd
    · exact h p d hd

theorem noLeft_op {o : Op} (ho : o.plainDef = true) {s : St} (h : NoLeft s) : NoLeft (o.run H s).2 := by
  have sc : ∀ q f, (∀ c : Scope, (f c).defs = c.defs) → NoLeft (s.modScope q f).2 := fun q f hf =>
    noLeft_mod h fun d hd => h q d (hf _ ▸ hd)
  cases o with
  | newScope a b c =>
    intro q d hd
    simp only [Op.run, upd] at hd
    split at hd
    · exact absurd hd (List.not_mem_nil)
    · exact h q d hd
  | touch q => exact sc _ _ fun _ => rfl
  | setVar q v => exact sc _ _ fun _ => rfl
  | setDef q d =>
    have : NoLeft (s.modScope q fun c => { c with defs := Zh.setDef d c.defs }).2 := noLeft_mod h fun e he => by
      rcases mem_setDef he with he | he
      · exact h q e he
      · rw [he]; exact eq_of_beq ho
    simp only [Op.run]
    split
    · split
      · exact h
      · exact this
    · exact this
  | addName q a b => exact sc _ _ fun _ => rfl
  | setSrc q a => exact sc _ _ fun _ => rfl
  | setIsFile q => exact sc _ _ fun _ => rfl
  | setArg0 q a => exact sc _ _ fun _ => rfl
  | clearArgs1 q => exact sc _ _ fun _ => rfl
  | argsLine q =>
    simp only [Op.run]
    have h' := sc q (fun c =>
      { c with argsTo1 := true, args1 := if (s.scopes q).argsTo1 then (s.scopes q).args1 else
          (s.lists (s.scopes q).args).line .one (s.scopes q).args1 }) fun _ => rfl
    revert h'
    generalize s.modScope q _ = x
    intro h'
    rcases x with ⟨x, s1⟩
    cases x <;> exact h'
  | addMod a b => simp only [Op.run]; split <;> exact h
  | rmMod a b => simp only [Op.run]; split <;> split <;> exact h
  | parse a => simp only [Op.run]; split <;> exact h
  | _ => exact h

theorem every_calls {n m : Nat} {chk : Call → St → Bool} (hrec : ∀ c t, chk c t = true → NoLeft t → NoLeft (run H n c t).2) {α : Type} (p : Prog α)
    (s : St) (hs : NoLeft s) (h : everyP H (run H n) chk p s = true) :
    NoLeft (p.interp H (run H n) s).2 ∧ ∀ c t, Calls H (run H m) p s c t → chk c t = true ∧ NoLeft t := by
  induction p generalizing s with
  | ret a => exact ⟨hs, fun c t hc => False.elim hc⟩
  | panic => cases h
  | op o k ih =>
    simp only [everyP, Bool.and_eq_true] at h
    obtain ⟨h0, h⟩ := h
    have h1 := noLeft_op (H := H) h0 hs
    simp only [Prog.interp]
    rcases ho : o.run H s with ⟨x, s1⟩
    rw [ho] at h h1
    cases x with
    | ok a =>
      have := ih a s1 h1 h
      refine ⟨this.1, fun c t hc => ?_⟩
      obtain ⟨a', s', e, hc⟩ := hc
      rw [ho] at e
      cases e
      exact this.2 c t hc
    | panic => cases h
    | fuel => cases h
  | call hd c0 k ih =>
    simp only [everyP, Bool.and_eq_true] at h
    obtain ⟨h0, h⟩ := h
    have hs0 : NoLeft (s.hold hd) := hs
    have h1 := hrec c0 _ h0 hs0
    simp only [Prog.interp]
    rcases ho : run H n c0 (s.hold hd) with ⟨x, s1⟩
    have ho' : run H n c0 { s with held := hd ++ s.held } = (x, s1) := ho
    rw [ho] at h h1
    rw [ho']
    cases x with
    | ok a =>
      have := ih a { s1 with held := s.held } h1 h
      refine ⟨this.1, fun c t hc => ?_⟩
      rcases hc with ⟨rfl, rfl⟩ | ⟨a', s', e, hc⟩
      · exact ⟨h0, hs0⟩
      · obtain ⟨rfl, rfl⟩ := Evals.unique ⟨m, e⟩ ⟨n, ho⟩
        exact this.2 c t hc
    | panic => cases h
    | fuel => cases h

theorem every_run (n : Nat) {c : Call} {s : St} (hs : NoLeft s) (h : everyC H n c s = true) : NoLeft (run H n c s).2 := by
  induction n generalizing c s with
  | zero => cases h
  | succ n ih => exact (every_calls (m := 0) (fun c t h ht => ih ht h) _ s hs h).1

theorem noLeft_init : NoLeft (St.init false) := by
  intro q d hd
  simp only [St.init] at hd
  split at hd
  · simp only [List.mem_cons, List.not_mem_nil, or_false] at hd
    rcases hd with rfl | rfl | rfl | rfl <;> rfl
  · exact absurd hd (List.not_mem_nil)

/-- Whether the run on the script ends and makes no definition that takes arguments from its left. -/
def plainRunB (n : Nat) (src : Str) : Bool := everyP H0 (run H0 n) (everyC H0 n) (mainP (demoArgv src)).run (St.init false)

theorem plainRun_sound {n : Nat} {src : Str} (h : plainRunB n src = true) {c : Call} {s : St} (hr : Reached H0 false (demoArgv src) c s) :
    NoLeft s := by
  have key : ∃ n, everyC H0 n c s = true ∧ NoLeft s := by
    induction hr with
    | main m hc =>
      exact ⟨n, (every_calls (H := H0) (n := n) (m := m) (fun c t h ht => every_run n ht h) _ (St.init false) noLeft_init h).2 _ _ hc⟩
    | step m hr hc ih =>
      obtain ⟨k, h1, h2⟩ := ih
      cases k with
      | zero => cases h1
      | succ k => exact ⟨k, (every_calls (n := k) (m := m) (fun c t h ht => every_run k ht h) _ _ h2 h1).2 _ _ hc⟩
  obtain ⟨_, _, h⟩ := key
  exact h

/-- A script that defines a name and calls it with two arguments. -/
def twoArgs : Str := c!"定义甲以下代码显示‘参数2’上代码。甲a、b。"

/-- The hypothesis of `C04_run` is met by a script that defines a name and calls it with two arguments, and that run has a list with a
separator. -/
theorem C04_run_witness : (∀ c s, Reached H0 false (demoArgv twoArgs) c s → NoLeft s) ∧
    ∃ c s l, Reached H0 false (demoArgv twoArgs) c s ∧ (s.lists l).dun = [1] ∧ (s.lists l).a.length = 3 ∧ AllWF s := by
  have h0 : ∀ c s, Reached H0 false (demoArgv twoArgs) c s → NoLeft s := fun _ _ hr =>
    plainRun_sound (n := 12) (by decide +kernel) hr
  refine ⟨h0, ?_⟩
  obtain ⟨c, s, hr, hp⟩ := demoB_sound (n := 12) (src := twoArgs) (P := fun c s => match c with
    | .item (.argi [] _) env => (s.lists (s.scopes env.q).args).dun == [1] && (s.lists (s.scopes env.q).args).a.length == 3
    | _ => false) (by decide +kernel)
  split at hp
  · rename_i i env
    rw [Bool.and_eq_true] at hp
    exact ⟨_, s, _, hr, eq_of_beq hp.1, eq_of_beq hp.2, (C04_run h0).1 _ _ hr⟩
  · cases hp

end Zh
