/-!
# Specification: splitting a list at separators

`groups p l` cuts `l` at every element satisfying `p`; the separators themselves are dropped.
A list with `n` separators has `n + 1` groups, some possibly empty.
-/
namespace Zh.Spec

/-- The groups of `l` delimited by the elements satisfying `p`. -/
def groups {α : Type} (p : α → Bool) : List α → List (List α)
  | [] => [[]]
  | x :: xs =>
    if p x then [] :: groups p xs
    else match groups p xs with
      | g :: gs => (x :: g) :: gs
      | [] => [[x]]

variable {α : Type} {p : α → Bool}

theorem groups_ne_nil (l : List α) : groups p l ≠ [] := by
  cases l with
  | nil => simp [groups]
  | cons x xs =>
    simp only [groups]
    split
    · simp
    · split <;> simp

theorem groups_length (l : List α) : (groups p l).length = (l.filter p).length + 1 := by
  induction l with
  | nil => simp [groups]
  | cons x xs ih =>
    simp only [groups]
    by_cases h : p x
    · simp [h, ih]
    · simp only [h, Bool.false_eq_true, if_false, List.filter_cons]
      split
      · next g gs hg => rw [hg] at ih; simpa using ih
      · next hg => exact absurd hg (groups_ne_nil xs)

/-- A list without separators is its own single group. -/
theorem groups_eq_self (l : List α) (h : ∀ x ∈ l, p x = false) : groups p l = [l] := by
  induction l with
  | nil => rfl
  | cons x xs ih =>
    have hx := h x (by simp)
    simp only [groups, hx, Bool.false_eq_true, if_false]
    rw [ih (fun y hy => h y (by simp [hy]))]

/-- Cutting at an explicit separator: the groups before it, then the groups after it. -/
theorem groups_append_sep (l r : List α) (x : α) (hx : p x = true) :
    groups p (l ++ x :: r) = groups p l ++ groups p r := by
  induction l with
  | nil => simp [groups, hx]
  | cons y ys ih =>
    simp only [List.cons_append, groups]
    by_cases hy : p y
    · simp [hy, ih]
    · simp only [hy, Bool.false_eq_true, if_false, ih]
      have := groups_ne_nil (p := p) ys
      cases hg : groups p ys with
      | nil => exact absurd hg this
      | cons g gs => simp

/-- Appending separator-free text extends the last group. -/
theorem groups_append_free (l r : List α) (h : ∀ x ∈ r, p x = false) :
    groups p (l ++ r) = (groups p l).dropLast ++ [(groups p l).getLastD [] ++ r] := by
  induction l with
  | nil => simp [groups, groups_eq_self r h]
  | cons y ys ih =>
    simp only [List.cons_append, groups]
    have := groups_ne_nil (p := p) ys
    rw [ih]
    cases hg : groups p ys with
    | nil => exact absurd hg this
    | cons g gs =>
      by_cases hy : p y
      · simp [hy]
      · simp only [hy, Bool.false_eq_true, if_false]
        cases gs with
        | nil => simp
        | cons g' gs' => simp

/-- No group contains a separator. -/
theorem groups_free (l : List α) : ∀ g ∈ groups p l, ∀ x ∈ g, p x = false := by
  induction l with
  | nil => simp [groups]
  | cons y ys ih =>
    simp only [groups]
    by_cases hy : p y
    · simp only [hy, if_true, List.mem_cons]
      rintro g (rfl | hg)
      · simp
      · exact ih g hg
    · simp only [hy, Bool.false_eq_true, if_false]
      have := groups_ne_nil (p := p) ys
      cases hg : groups p ys with
      | nil => exact absurd hg this
      | cons g gs =>
        rw [hg] at ih
        simp only [List.mem_cons]
        rintro g' (rfl | hg') x hx
        · rcases List.mem_cons.1 hx with rfl | hx
          · simpa using hy
          · exact ih g (by simp) x hx
        · exact ih g' (by simp [hg']) x hx

/-- Joining groups with one separator between neighbours. -/
def join (sep : α) : List (List α) → List α
  | [] => []
  | [g] => g
  | g :: h :: gs => g ++ sep :: join sep (h :: gs)

/-- Splitting is the inverse of joining separator-free groups. -/
theorem groups_join (sep : α) (hs : p sep = true) (gs : List (List α)) (hne : gs ≠ [])
    (h : ∀ g ∈ gs, ∀ x ∈ g, p x = false) : groups p (join sep gs) = gs := by
  induction gs with
  | nil => exact absurd rfl hne
  | cons g gs ih =>
    cases gs with
    | nil => simpa [join] using groups_eq_self g (h g (by simp))
    | cons g' gs' =>
      simp only [join]
      rw [groups_append_sep _ _ _ hs, ih (by simp) (fun x hx => h x (by simp [hx])),
        groups_eq_self g (h g (by simp))]
      rfl

end Zh.Spec
