import Verif.Model.Eval
import Verif.Props.Utf8
/-!
# The words of a `#!` line
-/
namespace Zh

/-- A word ends with the mark `--。` and the character before the mark is no ASCII character. -/
def Spec.MarkCut (w : Str) : Prop := ∃ pre c, w = pre ++ c :: SHEBANG ∧ 128 ≤ c.toNat

/-- The first line of the text is a `#!` line without any word or with a word as in `MarkCut` after the first. -/
def Spec.BadFirstLine (text : Str) : Prop := ∃ line rest, text = c!"#!" ++ line ++ '\n' :: rest ∧ '\n' ∉ line ∧
  (split line = [] ∨ ∃ w ∈ (split line).tail, Spec.MarkCut w)

theorem takeBytes_utf8 (pre rest : Str) : takeBytes (utf8 pre).length (pre ++ rest) = some pre := by
  induction pre with
  | nil => simp [utf8, takeBytes]
  | cons c pre ih =>
    rw [utf8_cons, List.length_append]
    have hc : 0 < (encChar c).length := by unfold encChar; dsimp only; split <;> (try split) <;> (try split) <;> simp
    obtain ⟨m, hm⟩ : ∃ m, (encChar c).length + (utf8 pre).length = m + 1 := ⟨_, (Nat.succ_pred_eq_of_pos (by omega)).symm⟩
    rw [hm, List.cons_append, takeBytes]
    rw [if_pos (by omega), ← hm, Nat.add_sub_cancel_left, ih]
    rfl

theorem shebangOpts_fine {w : Str} (h : SHEBANG.isSuffixOf w = true) (hw : ¬ Spec.MarkCut w) :
    ∃ x, shebangOpts true w = .ok x := by
  unfold shebangOpts
  obtain ⟨pre', rfl⟩ := List.isSuffixOf_iff_suffix.1 h
  simp only [Bool.not_true, Bool.false_eq_true, if_false]
  split
  · exact ⟨_, rfl⟩
  · rename_i hlen
    rcases List.eq_nil_or_concat pre' with rfl | ⟨pre, c, rfl⟩
    · exact absurd (Nat.le_refl _) hlen
    · simp only [List.concat_eq_append] at hw hlen ⊢
      have hc : (encChar c).length = 1 := by
        by_cases hc : c.toNat < 128
        · unfold encChar; dsimp only; rw [if_pos (by omega)]; rfl
        · exact absurd ⟨pre, c, by simp, by omega⟩ hw
      have e : (utf8 (pre ++ [c] ++ SHEBANG)).length - 1 - (utf8 SHEBANG).length = (utf8 pre).length := by
        rw [utf8_append, utf8_append, utf8_cons, List.length_append, List.length_append, List.length_append, hc]
        simp [utf8]
      rw [e, List.append_assoc, takeBytes_utf8]
      exact ⟨_, rfl⟩

theorem shebangScan_fine (otherZ : Bool) (plus : Bool) (a : List Str) (hasSrc is1 : Bool) (src : Option Str)
    (h : plus = true → ∀ w ∈ a, ¬ Spec.MarkCut w) : ∃ x, shebangScan otherZ plus a hasSrc is1 src = .ok x := by
  induction a generalizing hasSrc is1 src with
  | nil => exact ⟨_, rfl⟩
  | cons w ws ih =>
    have ih := fun b c d => ih b c d fun e w hw => h e w (List.mem_cons_of_mem _ hw)
    unfold shebangScan
    split
    · rename_i hs
      have : ∃ x, shebangOpts plus w = .ok x := by
        cases plus with
        | false => exact ⟨_, rfl⟩
        | true => exact shebangOpts_fine hs (h rfl w List.mem_cons_self)
      obtain ⟨x, e⟩ := this
      obtain ⟨y, e'⟩ := ih hasSrc (hasSrc || is1) src
      rw [e]
      exact ⟨_, congrArg (Out.bind · _) e'⟩
    · split
      · exact ih _ _ _
      · obtain ⟨y, e'⟩ := ih hasSrc is1 src
        exact ⟨_, congrArg (Out.bind · _) e'⟩

theorem first_line {t : Str} (h : '\n' ∈ t) :
    ∃ rest, t = t.takeWhile (· ≠ '\n') ++ '\n' :: rest ∧ '\n' ∉ t.takeWhile (· ≠ '\n') := by
  induction t with
  | nil => cases h
  | cons c t ih =>
    by_cases hc : c = '\n'
    · subst hc
      exact ⟨t, by simp⟩
    · obtain ⟨rest, h1, h2⟩ := ih (by simpa [Ne.symm hc] using h)
      have e : (c :: t).takeWhile (· ≠ '\n') = c :: t.takeWhile (· ≠ '\n') := by simp [hc]
      rw [e]
      exact ⟨rest, by rw [List.cons_append, ← h1], fun hm => (List.mem_cons.1 hm).elim (fun e => hc e.symm) h2⟩

end Zh
