import Verif.Model.Pars
/-!
# Continuation marks (C50)
-/
namespace Zh

theorem take_drop_mid (a t b : Str) : ((a ++ t ++ b).take ((a ++ t ++ b).length - b.length)).drop a.length = t := by
  have : (a ++ t ++ b).length - b.length = (a ++ t).length := by simp; omega
  rw [this, List.take_left, List.drop_left]

/-- C50, first half: what happens to a text with the marks `续⏎` in front or `⏎续` at the end. -/
theorem C50_marks_partial (t : Str) :
    textNew (['续', '\n'] ++ t ++ ['\n', '续']) = .ok t ∧
    ((¬ ['\n', '续'] <:+ ['续', '\n'] ++ t) → textNew (['续', '\n'] ++ t) = .ok t) ∧
    ((¬ ['续', '\n'] <+: t ++ ['\n', '续']) → textNew (t ++ ['\n', '续']) = .ok t) ∧
    ((¬ ['续', '\n'] <+: t) → (¬ ['\n', '续'] <:+ t) → textNew t = .ok t) := by
  refine ⟨?_, ?_, ?_, ?_⟩
  · have h1 : CONT1.isPrefixOf (['续', '\n'] ++ t ++ ['\n', '续']) = true := by
      rw [List.isPrefixOf_iff_prefix]; exact ⟨t ++ ['\n', '续'], by simp [CONT1]⟩
    have h2 : CONT2.isSuffixOf (['续', '\n'] ++ t ++ ['\n', '续']) = true := by
      rw [List.isSuffixOf_iff_suffix]; exact ⟨['续', '\n'] ++ t, by simp [CONT2]⟩
    simp only [textNew, h1, h2, Bool.or_true, if_true]
    rw [if_pos (by simp [CONT1, CONT2])]
    congr 1
    exact take_drop_mid CONT1 t CONT2
  · intro hn
    have h1 : CONT1.isPrefixOf (['续', '\n'] ++ t) = true := by
      rw [List.isPrefixOf_iff_prefix]; exact ⟨t, rfl⟩
    have h2 : CONT2.isSuffixOf (['续', '\n'] ++ t) = false := by
      rw [Bool.eq_false_iff]; intro h; rw [List.isSuffixOf_iff_suffix] at h; exact hn h
    simp only [textNew, h1, h2, Bool.true_or, if_true, Bool.false_eq_true, if_false]
    rw [if_pos (by simp [CONT1])]
    congr 1
    simp [CONT1]
  · intro hn
    have h2 : CONT2.isSuffixOf (t ++ ['\n', '续']) = true := by
      rw [List.isSuffixOf_iff_suffix]; exact ⟨t, rfl⟩
    have h1 : CONT1.isPrefixOf (t ++ ['\n', '续']) = false := by
      rw [Bool.eq_false_iff]; intro h; rw [List.isPrefixOf_iff_prefix] at h; exact hn h
    simp only [textNew, h1, h2, Bool.or_true, if_true, Bool.false_eq_true, if_false]
    rw [if_pos (by simp)]
    congr 1
    simp [CONT2]
  · intro hn hn2
    have h1 : CONT1.isPrefixOf t = false := by
      rw [Bool.eq_false_iff]; intro h; rw [List.isPrefixOf_iff_prefix] at h; exact hn h
    have h2 : CONT2.isSuffixOf t = false := by
      rw [Bool.eq_false_iff]; intro h; rw [List.isSuffixOf_iff_suffix] at h; exact hn2 h
    simp [textNew, h1, h2]

/-- C50, second half: the construction of a text crashes for exactly one text, the one where the two
marks share the newline. -/
theorem C50_crash_iff_partial (s : Str) : textNew s = .panic ↔ s = ['续', '\n', '续'] := by
  constructor
  · intro h
    simp only [textNew] at h
    by_cases h1 : CONT1.isPrefixOf s = true
    · by_cases h2 : CONT2.isSuffixOf s = true
      · simp only [h1, h2, Bool.or_true, if_true] at h
        rw [List.isPrefixOf_iff_prefix] at h1
        rw [List.isSuffixOf_iff_suffix] at h2
        by_cases hl : CONT1.length ≤ s.length - CONT2.length
        · simp [hl] at h
        · obtain ⟨t, rfl⟩ := h1
          simp [CONT1, CONT2] at hl
          match t, h2, hl with
          | [], h2, _ =>
            rw [← List.isSuffixOf_iff_suffix] at h2
            exact absurd h2 (by decide)
          | [a], ⟨u, h2⟩, _ =>
            match u, h2 with
            | [], h2 => simp [CONT1, CONT2] at h2
            | [x], h2 => simp [CONT1, CONT2] at h2 ⊢; exact h2.2.symm
            | x :: y :: u, h2 =>
              have := congrArg List.length h2
              simp [CONT1, CONT2] at this
          | a :: b :: t, _, hl => simp at hl; omega
      · simp only [h1, h2, Bool.true_or, if_true, Bool.false_eq_true, if_false] at h
        rw [List.isPrefixOf_iff_prefix] at h1
        have := h1.length_le
        rw [if_pos (by simpa using this)] at h
        simp at h
    · by_cases h2 : CONT2.isSuffixOf s = true
      · simp [h1, h2] at h
      · simp [h1, h2] at h
  · rintro rfl; rfl

/-- C50 is false of the code: this program crashes the interpreter while it is parsed. -/
theorem C50_counterexample :
    parse (kwStr .beginYuanyang ++ ['续', '\n', '续'] ++ kwStr .endYuanyang) = .panic :=
  Out.eq_panic_of_isPanic (by decide +kernel)

/-- Non-trivial instances of the hypotheses of `C50_marks_partial`. -/
example : textNew c!"续\n甲\n续" = .ok c!"甲" ∧ textNew c!"续\n甲" = .ok c!"甲" ∧
    textNew c!"甲\n续" = .ok c!"甲" ∧ textNew c!"甲续" = .ok c!"甲续" := by
  refine ⟨?_, ?_, ?_, ?_⟩ <;> rfl

end Zh
