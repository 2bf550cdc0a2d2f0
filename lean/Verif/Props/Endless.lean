import Verif.Props.Crash4
import Verif.Props.Ends
import Verif.Props.CoreSafeDemo
/-!
# C86: what goes on for ever
-/
namespace Zh
open Spec

variable {α β : Type} {H : Host}

/-- The evaluations `f 0`, `f 1`, … are made one by the other, without end. -/
def Spec.EndlessChain (H : Host) (f : Nat → Call × St) : Prop :=
  ∀ i, ∃ n, Calls H (run H n) (evalF (f i).1) (f i).2 (f (i + 1)).1 (f (i + 1)).2

theorem endless_calls {p : Prog α} {s : St} (h : ∀ n, (p.interp H (run H n) s).1 = .fuel) :
    ∃ n c t, Calls H (run H n) p s c t ∧ ∀ n, (run H n c t).1 = .fuel := by
  induction p generalizing s with
  | ret a => cases h 0
  | panic => cases h 0
  | op o k ih =>
    have hne := op_ends (H := H) o s
    simp only [Prog.interp] at h
    rcases hx : o.run H s with ⟨x | _ | _, s1⟩
    · rw [hx] at h
      obtain ⟨n, c, t, h1, h2⟩ := ih x h
      exact ⟨n, c, t, ⟨x, s1, hx, h1⟩, h2⟩
    · rw [hx] at h; cases h 0
    · rw [hx] at hne; exact absurd rfl hne
  | call hd c0 k ih =>
    by_cases h0 : ∀ n, (run H n c0 (s.hold hd)).1 = .fuel
    · exact ⟨0, c0, _, .inl ⟨rfl, rfl⟩, h0⟩
    · obtain ⟨n1, hn1⟩ := Classical.not_forall.1 h0
      have h1 : ∀ m, n1 ≤ m → run H m c0 (s.hold hd) = run H n1 c0 (s.hold hd) := fun m hm => C40_more_steps H n1 m hm c0 _ hn1
      have step : ∀ m, (Prog.call hd c0 k).interp H (run H m) s = match run H m c0 (s.hold hd) with
        | (.ok r, s') => (k r).interp H (run H m) { s' with held := s.held }
        | (.panic, s') => (.panic, s')
        | (.fuel, s') => (.fuel, s') := fun m => by
        simp only [Prog.interp]
        rfl
      rcases hx : run H n1 c0 (s.hold hd) with ⟨r | _ | _, s1⟩
      · obtain ⟨n2, c, t, h2, h3⟩ := ih r (s := { s1 with held := s.held }) fun n => by
          by_contra hc
          have e := h (max n n1)
          rw [step, h1 _ (Nat.le_max_right ..), hx] at e
          dsimp only at e
          rw [interp_ended (Nat.le_max_left n n1) hc] at e
          exact hc e
        refine ⟨max n1 n2, c, t, .inr ⟨r, s1, ?_, calls_more (Nat.le_max_right ..) h2⟩, h3⟩
        rw [h1 _ (Nat.le_max_left ..), hx]
      · have e := h n1
        rw [step, hx] at e
        cases e
      · rw [hx] at hn1; exact absurd rfl hn1

theorem calls_endless {n k : Nat} {p : Prog α} {s t : St} {c : Call} (h : Calls H (run H k) p s c t) (hc : (run H n c t).1 = .fuel) :
    (p.interp H (run H n) s).1 = .fuel := by
  induction p generalizing s with
  | ret a => exact h.elim
  | panic => exact h.elim
  | op o k ih =>
    obtain ⟨a, s1, e, h⟩ := h
    simp only [Prog.interp]
    rw [e]
    exact ih a h
  | call hd c0 k0 ih =>
    have step : (Prog.call hd c0 k0).interp H (run H n) s = match run H n c0 (s.hold hd) with
        | (.ok r, s') => (k0 r).interp H (run H n) { s' with held := s.held }
        | (.panic, s') => (.panic, s')
        | (.fuel, s') => (.fuel, s') := by
      simp only [Prog.interp]
      rfl
    rw [step]
    rcases h with ⟨rfl, rfl⟩ | ⟨r, s1, e, h⟩
    · rcases hx : run H n c (s.hold hd) with ⟨r | _ | _, s1⟩ <;> rw [hx] at hc <;> first | rfl | cases hc
    · by_cases hf : (run H n c0 (s.hold hd)).1 = .fuel
      · rcases hx : run H n c0 (s.hold hd) with ⟨r | _ | _, s1⟩ <;> rw [hx] at hf <;> first | rfl | cases hf
      · have e2 := C40_more_steps H n (max n k) (Nat.le_max_left ..) c0 (s.hold hd) hf
        have e3 := C40_more_steps H k (max n k) (Nat.le_max_right ..) c0 (s.hold hd) (by rw [e]; nofun)
        rw [← e2, e3, e]
        exact ih r h

theorem endless_of_chain {f : Nat → Call × St} (h : EndlessChain H f) (n : Nat) : (run H n (f 0).1 (f 0).2).1 = .fuel := by
  induction n generalizing f with
  | zero => rfl
  | succ n ih =>
    obtain ⟨k, hk⟩ := h 0
    exact calls_endless (p := evalF (f 0).1) hk (ih (f := fun i => f (i + 1)) fun i => h (i + 1))

theorem chain_of_endless {c : Call} {s : St} (h : ∀ n, (run H n c s).1 = .fuel) : ∃ f, EndlessChain H f ∧ f 0 = (c, s) := by
  let T := { x : Call × St // ∀ n, (run H n x.1 x.2).1 = .fuel }
  have next : ∀ x : T, ∃ y : T, ∃ n, Calls H (run H n) (evalF x.1.1) x.1.2 y.1.1 y.1.2 := fun x => by
    obtain ⟨n, c, t, h1, h2⟩ := endless_calls (p := evalF x.1.1) (s := x.1.2) fun n => x.2 (n + 1)
    exact ⟨⟨(c, t), h2⟩, n, h1⟩
  let g : Nat → T := fun i => Nat.rec ⟨(c, s), h⟩ (fun _ x => (next x).choose) i
  exact ⟨fun i => (g i).1, fun i => (next (g i)).choose_spec, rfl⟩

/-- **C86.**  A run goes on for ever exactly when it makes evaluations one inside the other without end. -/
theorem C86_endless {ovf : Bool} {argv : List Str} : (∀ n, (runMain H n ovf argv).1 = .fuel) ↔
    ∃ f, EndlessChain H f ∧ ∃ n, Calls H (run H n) (mainP argv).run (St.init ovf) (f 0).1 (f 0).2 := by
  constructor
  · intro h
    obtain ⟨n, c, t, h1, h2⟩ := endless_calls (p := (mainP argv).run) (s := St.init ovf) h
    obtain ⟨f, h3, h4⟩ := chain_of_endless h2
    refine ⟨f, h3, n, ?_⟩
    rw [h4]
    exact h1
  · rintro ⟨f, h, n, hn⟩ m
    exact calls_endless (p := (mainP argv).run) hn (endless_of_chain h m)

/-- The situation of `C86_endless`: a script with a loop that goes on for ever. -/
example : ∃ f, EndlessChain H0 f ∧ ∃ n, Calls H0 (run H0 n) (mainP (demoArgv coreLoop.src)).run (St.init false) (f 0).1 (f 0).2 :=
  C86_endless.1 C70_witness_endless.2

end Zh
