import Verif.Props.Jumps2
/-!
# What follows a call

`Conts p c k`: the program `p` contains the call `c`, and `k` is what it does with its result.
-/
namespace Zh

variable {H : Host} {α β : Type}

/-- See above. -/
inductive Conts : Prog α → Call → (Res → Prog α) → Prop where
  | call {hd c k} : Conts (.call hd c k) c k
  | op {o : Op} {k : o.Res → Prog α} {a c k'} : Conts (k a) c k' → Conts (.op o k) c k'
  | next {hd c0} {k : Res → Prog α} {r c k'} : Conts (k r) c k' → Conts (.call hd c0 k) c k'

/-- A call that happens: the rest of the evaluation is what follows it. -/
theorem calls_conts {n : Nat} {p : Prog α} {s : St} {c : Call} {t : St} (h : Calls H (run H n) p s c t) :
    ∃ k hd, Conts p c k ∧ ∀ r t1, Evals H c t r t1 → ∀ b s',
      Ev H (Evals H) p s b s' ↔ Ev H (Evals H) (k r) { t1 with held := hd } b s' := by
  induction p generalizing s with
  | ret a => exact h.elim
  | panic => exact h.elim
  | op o k ih =>
    obtain ⟨a, s1, ho, h⟩ := h
    obtain ⟨k', hd, h1, h2⟩ := ih a h
    refine ⟨k', hd, .op h1, fun r t1 he b s' => ?_⟩
    rw [← h2 r t1 he, ev_op]
    constructor
    · rintro ⟨a', s2, h3, h4⟩
      rw [ho] at h3
      simp only [Prod.mk.injEq, Out.ok.injEq] at h3
      obtain ⟨rfl, rfl⟩ := h3
      exact h4
    · exact fun h => ⟨a, s1, ho, h⟩
  | call hd c0 k ih =>
    rcases h with ⟨rfl, rfl⟩ | ⟨r0, s1, hr, h⟩
    · refine ⟨k, s.held, .call, fun r t1 he b s' => ?_⟩
      rw [ev_call]
      constructor
      · rintro ⟨r', s2, h1, h2⟩
        obtain ⟨rfl, rfl⟩ := he.unique h1
        exact h2
      · exact fun h => ⟨r, t1, he, h⟩
    · obtain ⟨k', hd', h1, h2⟩ := ih r0 h
      refine ⟨k', hd', .next h1, fun r t1 he b s' => ?_⟩
      rw [← h2 r t1 he, ev_call]
      constructor
      · rintro ⟨r', s2, h3, h4⟩
        obtain ⟨rfl, rfl⟩ := Evals.unique (⟨n, hr⟩ : Evals H c0 _ r0 s1) h3
        exact h4
      · exact fun h => ⟨r0, s1, ⟨n, hr⟩, h⟩

theorem conts_bind {p : Prog α} {f : α → Prog β} {c : Call} {k : Res → Prog β} (h : Conts (p.bind f) c k) :
    (∃ k', Conts p c k' ∧ k = fun r => (k' r).bind f) ∨ ∃ a, Conts (f a) c k := by
  induction p with
  | ret a => exact .inr ⟨a, h⟩
  | panic => cases h
  | op o k ih =>
    cases h with
    | op h =>
      rcases ih _ h with ⟨k', h1, h2⟩ | h
      · exact .inl ⟨k', .op h1, h2⟩
      · exact .inr h
  | call hd c0 k ih =>
    cases h with
    | call => exact .inl ⟨k, .call, rfl⟩
    | next h =>
      rcases ih _ h with ⟨k', h1, h2⟩ | h
      · exact .inl ⟨k', .next h1, h2⟩
      · exact .inr h

theorem conts_bindE {p : E α} {f : α → E β} {c : Call} {k : Res → Prog (Except Err β)} (h : Conts (p >>= f : E β).run c k) :
    (∃ k', Conts p.run c k' ∧ k = fun r => (k' r).bind fun x => match x with
      | .ok a => (f a).run
      | .error e => .ret (.error e)) ∨ ∃ a, Conts (f a).run c k := by
  rcases conts_bind (p := p.run) h with ⟨k', h1, rfl⟩ | ⟨a, h⟩
  · refine .inl ⟨k', h1, ?_⟩
    funext r
    congr 1
    funext x
    cases x <;> rfl
  · cases a with
    | ok a => exact .inr ⟨a, h⟩
    | error e => cases h

/-- The calls of a program are among the allowed ones. -/
theorem Passes.allowed {O : Allow} {e : Err} {X : Call → St → Prop} {B : α → Prop} {p : Prog α} (h : Passes O e X B p)
    {c : Call} {k : Res → Prog α} (hc : Conts p c k) : O.call c := by
  induction hc with
  | call => exact h.1
  | op _ ih => exact ih (h.2 _)
  | next _ ih => exact ih (h.2 _).2

theorem part_conts {c : Call} {s : St} {c' : Call} {s' : St} (h : Spec.Part H c s c' s') :
    ∃ k hd, Conts (evalF c) c' k ∧ ∀ r t, Evals H c' s' r t → ∀ r' t',
      Evals H c s r' t' ↔ Ev H (Evals H) (k r) { t with held := hd } r' t' := by
  obtain ⟨n, h⟩ := h
  obtain ⟨k, hd, h1, h2⟩ := calls_conts h
  exact ⟨k, hd, h1, fun r t he r' t' => by rw [evals_iff]; exact h2 r t he r' t'⟩

/-- The parts of an evaluation are in its scope, but for bodies of definitions, sources and look-ups. -/
theorem part_in {c : Call} {s : St} {c' : Call} {s' : St} (h : Spec.Part H c s c' s') :
    c'.In c.scope ∨ (c.OfDef ∧ c'.IsCodes) := by
  obtain ⟨k, hd, h1, -⟩ := part_conts h
  exact ((passes_eval (e := ⟨BREAK, 0, [], []⟩) rfl c).2.2).allowed h1

end Zh
