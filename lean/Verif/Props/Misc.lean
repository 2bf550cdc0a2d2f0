import Verif.Model.Str
/-!
# C10 and small facts about numbers in text
-/
namespace Zh

/-! ## C10 -/

theorem withGo_spec (cs s2 : List Char) (n : Nat) :
    withGo cs s2 n =
      if s2 <+: cs then some (n + s2.length, decide (cs.length = s2.length)) else none := by
  induction s2 generalizing cs n with
  | nil => cases cs <;> simp [withGo]
  | cons d s2 ih =>
    cases cs with
    | nil => simp [withGo]
    | cons c cs =>
      simp only [withGo]
      by_cases hc : c = d
      · subst hc
        rw [if_pos rfl, ih]
        by_cases hp : s2 <+: cs
        · rw [if_pos hp, if_pos (by simpa using hp)]
          simp; omega
        · rw [if_neg hp, if_neg (by simpa using hp)]
      · rw [if_neg hc, if_neg]
        rw [List.cons_prefix_cons]
        exact fun h => hc h.1.symm

/-- **C10.** Matching a name in a text at an offset within the text succeeds iff the text from that
offset starts with the name; the length reported is the name's, and the flag says whether the match
reaches the end of the text. -/
theorem C10_prefix_match (cs : List Char) (name : Str) (off : Nat) (h : off ≤ cs.length) :
    (∀ n e, withAt cs name off = some (n, e) ↔
      name <+: cs.drop off ∧ n = name.length ∧ (e = true ↔ off + name.length = cs.length)) ∧
    (withAt cs name off = none ↔ ¬ name <+: cs.drop off) := by
  simp only [withAt, h, if_true, withGo_spec, List.length_drop, Nat.zero_add]
  by_cases hp : name <+: cs.drop off
  · have hlen := hp.length_le
    rw [List.length_drop] at hlen
    simp only [hp, if_true, Option.some.injEq, Prod.mk.injEq, true_and, reduceCtorEq, not_true,
      iff_false, not_false_eq_true, and_true]
    intro n e
    constructor
    · rintro ⟨rfl, rfl⟩
      refine ⟨rfl, ?_⟩
      simp; omega
    · rintro ⟨rfl, h2⟩
      refine ⟨rfl, ?_⟩
      cases e with
      | true => have := h2.1 rfl; simp; omega
      | false =>
        have : ¬ (off + name.length = cs.length) := fun h => by simpa using h2.2 h
        simp; omega
  · simp [hp]

example : withAt c!"abc" c!"bc" 1 = some (2, true) := by decide
example : withAt c!"abc" c!"b" 1 = some (1, false) := by decide
example : withAt c!"abc" c!"c" 1 = none := by decide

end Zh
