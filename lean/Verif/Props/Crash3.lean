import Verif.Props.Crash2
/-!
# C44: when the interpreter crashes
-/
namespace Zh
open Spec

variable {H : Host}

/-- Starting the interpreter crashes by itself only without any word (not even its own name), or when there is a file
with a `#!` line that cannot be read. -/
theorem m_mainP {s0 : St} {c0 : Call} {argv : List Str} (h0 : s0.held = []) :
    TE H s0 c0 (argv = [] ∨ ∃ t p text, H.read t p = .ok text ∧ BadFirstLine text) (mainP argv) := by
  have hn : ∀ {B : Prop} {q : Nat}, .scope q ∈ s0.held → B := fun h => by rw [h0] at h; cases h
  unfold mainP
  refine TE.bind (m_clparsP hn (fun _ e => .inl e) fun a' _ hne => ?_) fun _ => ?_
  · obtain ⟨x, e⟩ := shebangScan_fine true false a' true false none nofun
    exact (hne x e).elim
  · refine TE.bind_getSt fun s hs => ?_
    have top : ∀ n v, T H s0 c0 (argv = [] ∨ ∃ t p text, H.read t p = .ok text ∧ BadFirstLine text) (topVal n v) :=
      fun n v => T.bind (t_doOp trivial) fun _ => t_doOp hn
    refine TE.bind (TE.lift (top _ _)) fun _ => TE.bind (TE.lift (top _ _)) fun _ => ?_
    refine TE.bind ?_ fun _ => tE_callE trivial
    split
    · exact TE.bind (TE.lift (m_okSrcP hn)) fun _ => TE.bind_getSt fun s hs =>
        m_src2P hn fun t p text h1 h2 => .inr ⟨t, p, text, h1, h2⟩
    · trivial

/-- **C44.**  When a run of the interpreter crashes, the interpreter was started without a word, or the script file has an
unreadable `#!` line, or one of the evaluations that happened is in a situation of `Cause` and crashes. -/
theorem C44_crash_partial (hH : HostOk H) (n : Nat) (ovf : Bool) (argv : List Str)
    (hp : (runMain H n ovf argv).1 = .panic) :
    argv = [] ∨ (∃ t p text, DoesOp H (run H n) (mainP argv).run (St.init ovf) (.read p) t ∧ H.read t.trace p = .ok text ∧ BadFirstLine text) ∨
      ∃ c s, HappensMain H n ovf argv c s ∧ Cause H c s ∧ ∃ m, (run H m c s).1 = .panic := by
  have h0 : ∀ l, WeakWF ((St.init ovf).lists l) := fun _ => WeakWF_empty
  by_cases hl : ∃ t p text, DoesOp H (run H n) (mainP argv).run (St.init ovf) (.read p) t ∧ H.read t.trace p = .ok text ∧ BadFirstLine text
  · exact .inr (.inl hl)
  have hg := guard_interp (H := H) (rec := run H n) (p := (mainP argv).run) (s := St.init ovf)
    fun f t hd text hr hb => hl ⟨t, f, text, hd, hr, hb⟩
  have key' := tm_interp (guard_ok hH) (recOk0 hH n)
    (m_mainP (H := H.guard) (s0 := St.init ovf) (c0 := .codes [] 0 0 Env.init) (argv := argv) rfl) (Since.refl h0)
  have key := tm_interp hH (recOk0 hH n) (m_mainP (H := H) (s0 := St.init ovf) (c0 := .codes [] 0 0 Env.init) (argv := argv) rfl)
    (Since.refl h0)
  rw [hg.1] at key'
  have no : ¬ ∃ t p text, H.guard.read t p = .ok text ∧ BadFirstLine text := fun ⟨t, p, text, h1, h2⟩ => guard_read h1 h2
  rcases key'.2.2.1 hp with ((h | h) | ⟨o, t, -, -, -, hB⟩) | ⟨c, t, hc, ht⟩
  · exact .inl h
  · exact absurd h no
  · rcases hB rfl with (h | h) | h
    · exact .inl h
    · exact absurd h no
    · exact h.elim
  · have hc := hg.2.2 _ _ hc
    have := key.2.2.2 c t hc
    obtain ⟨c', s', h1, h2⟩ := crash_cause hH n (.main n hc) this.1 this.2.1 ht
    exact .inr (.inr ⟨c', s', ⟨c, t, hc, h1⟩, h2⟩)

/-- A scope or a definition is borrowed only inside an evaluation that borrows it: calling a definition, `解释`,
`加载`, `释放模块` with code, and a redirected `显示`. -/
theorem held_from (hH : HostOk H) {n : Nat} {c c' : Call} {s s' : St} (hf : c.Fit) (h0 : ∀ l, WeakWF (s.lists l))
    (hh : Happens H n c s c' s') {x : Held} (hx : x ∈ s'.held) : x ∈ s.held ∨
      ∃ c0 s0 m c1 s1, Happens H n c s c0 s0 ∧ c0.Holds x ∧ Calls H (run H m) (evalF c0) s0 c1 s1 ∧
        Happens H m c1 s1 c' s' := by
  induction hh with
  | self n c s => exact .inl hx
  | @step n c c1 c' s s1 s' hc hh ih =>
    have := (tm_interp hH (recOk0 hH n) (tame (H := H) c s hf h0) (Since.empty h0)).2.2.2 c1 s1
      ((calls_open1 _ _ _ _ _).2 hc)
    rcases ih this.1 this.2.1 hx with h | ⟨c0, s0, m, c2, s2, g1, g2, g3, g4⟩
    · rcases this.2.2 x h with h | h
      · exact .inl h
      · exact .inr ⟨c, s, n, c1, s1, .self n c s, h, hc, hh⟩
    · exact .inr ⟨c0, s0, m, c2, s2, .step hc g1, g2, g3, g4⟩

/-- **C44.** -/
theorem C44_borrowed_by (hH : HostOk H) {n : Nat} {ovf : Bool} {argv : List Str} {c : Call} {s : St}
    (hh : HappensMain H n ovf argv c s) {x : Held} (hx : x ∈ s.held) :
    ∃ c0 s0 m c1 s1, HappensMain H n ovf argv c0 s0 ∧ c0.Holds x ∧ Calls H (run H m) (evalF c0) s0 c1 s1 ∧
      Happens H m c1 s1 c s := by
  obtain ⟨c1, s1, hc, hh⟩ := hh
  have h0 : ∀ l, WeakWF ((St.init ovf).lists l) := fun _ => WeakWF_empty
  have := (tm_interp hH (recOk0 hH n)
    (m_mainP (H := H) (s0 := St.init ovf) (c0 := .codes [] 0 0 Env.init) (argv := argv) rfl)
    (Since.refl h0)).2.2.2 c1 s1 hc
  rcases held_from hH this.1 this.2.1 hh hx with h | ⟨c0, s0, m, c2, s2, g1, g2, g3, g4⟩
  · rcases this.2.2 x h with h | h
    · cases h
    · cases x <;> cases h
  · exact ⟨c0, s0, m, c2, s2, ⟨c1, s1, hc, g1⟩, g2, g3, g4⟩

end Zh
