import Verif.Model.Cmp
/-!
# C29, C30: comparison
-/
namespace Zh

variable {F : Type} (o : F64 F)

theorem getD_lt {α : Type} (l : List α) (k : Nat) (d : α) (h : k < l.length) : l.getD k d = l[k] := by
  simp [List.getD, h]

/-! ## C29 -/

/-- The element of a list at position `k`, sticking at the last one. -/
def Spec.stick (l : Str) (ls : List Str) (k : Nat) : Str := (l :: ls).getD (min k ls.length) []

theorem cmpGo_spec (test : Str → Str → Bool) (l : Str) (ls : List Str) (r : Str) (rs : List Str) :
    cmpGo test l ls r rs = true ↔
      ∃ k, k ≤ max ls.length rs.length ∧ test (Spec.stick l ls k) (Spec.stick r rs k) = true := by
  have shift : ∀ (l l' : Str) (ls' : List Str) (k : Nat),
      Spec.stick l (l' :: ls') (k + 1) = Spec.stick l' ls' k := by
    intro l l' ls' k
    simp only [Spec.stick, List.length_cons]
    have : min (k + 1) (ls'.length + 1) = min k ls'.length + 1 := by omega
    rw [this, List.getD_cons_succ]
  have zero : ∀ (l : Str) (ls : List Str), Spec.stick l ls 0 = l := by
    intro l ls; simp [Spec.stick]
  have nil : ∀ (l : Str) (k : Nat), Spec.stick l [] k = l := by
    intro l k; simp [Spec.stick]
  generalize hn : ls.length + rs.length = n
  induction n using Nat.strongRecOn generalizing l ls r rs with
  | ind n ih =>
    rw [cmpGo.eq_def]
    by_cases ht : test l r = true
    · simp only [ht, if_true, true_iff]
      exact ⟨0, by omega, by rw [zero, zero]; exact ht⟩
    · simp only [ht, Bool.false_eq_true, if_false]
      -- moving the bound variable by one
      have step : ∀ (p : Nat → Prop) (m : Nat), ¬ p 0 →
          ((∃ k, k ≤ m + 1 ∧ p k) ↔ ∃ k, k ≤ m ∧ p (k + 1)) := by
        intro p m h0
        constructor
        · rintro ⟨k, hk, hp⟩
          cases k with
          | zero => exact absurd hp h0
          | succ k => exact ⟨k, by omega, hp⟩
        · rintro ⟨k, hk, hp⟩
          exact ⟨k + 1, by omega, hp⟩
      have h0 : ¬ (fun k => test (Spec.stick l ls k) (Spec.stick r rs k) = true) 0 := by
        simp only [zero]; exact ht
      rcases ls with _ | ⟨l', ls'⟩ <;> rcases rs with _ | ⟨r', rs'⟩ <;> simp only
      · constructor
        · intro h; cases h
        · rintro ⟨k, hk, hp⟩
          rw [nil, nil] at hp
          exact absurd hp ht
      · have hi := ih _ (by simp at hn ⊢; omega) l [] r' rs' rfl
        refine Iff.trans hi ?_
        have hm : max ([] : List Str).length (r' :: rs').length = max ([] : List Str).length rs'.length + 1 := by
          simp
        rw [hm, step _ _ h0]
        simp only [shift, nil]
      · have hi := ih _ (by simp at hn ⊢; omega) l' ls' r [] rfl
        refine Iff.trans hi ?_
        have hm : max (l' :: ls').length ([] : List Str).length = max ls'.length ([] : List Str).length + 1 := by
          simp
        rw [hm, step _ _ h0]
        simp only [shift, nil]
      · have hi := ih _ (by simp at hn ⊢; omega) l' ls' r' rs' rfl
        refine Iff.trans hi ?_
        have hm : max (l' :: ls').length (r' :: rs').length = max ls'.length rs'.length + 1 := by
          simp only [List.length_cons]; omega
        rw [hm, step _ _ h0]
        simp only [shift]

/-- What a comparison of two single values answers: specification by the sign of the comparison. -/
def Spec.holds (op : KwId) (sign : Int) : Prop :=
  match op with
  | .dengyu => sign = 0
  | .xiaoyudengyu => sign ≤ 0
  | .xiaoyu => sign < 0
  | .dayudengyu => 0 ≤ sign
  | .dayu => 0 < sign
  | _ => False

/-- The comparison operators. -/
def Spec.isCmpOp (op : KwId) : Prop :=
  op = .dengyu ∨ op = .xiaoyudengyu ∨ op = .xiaoyu ∨ op = .dayudengyu ∨ op = .dayu

theorem cmpTest_op (op : KwId) (hop : Spec.isCmpOp op) (n : Bool) (l r : Str) :
    cmpTest o op n l r = true ↔ (if n then ¬ Spec.holds op (cmp2 o l r) else Spec.holds op (cmp2 o l r)) := by
  rcases hop with h | h | h | h | h <;> subst h <;> cases n <;>
    simp [cmpTest, Spec.holds]

/-- **C29.** A comparison with lists of values is true iff it holds (or, negated, fails) for one of
the pairs visited when walking both lists in step, each sticking at its last element. -/
theorem C29_compare_lists (op : KwId) (hop : Spec.isCmpOp op) (n : Bool) (l : Str) (ls : List Str)
    (r : Str) (rs : List Str) :
    cmp o op n (l :: ls) (r :: rs) = true ↔ ∃ k, k ≤ max ls.length rs.length ∧
      (if n then ¬ Spec.holds op (cmp2 o (Spec.stick l ls k) (Spec.stick r rs k))
        else Spec.holds op (cmp2 o (Spec.stick l ls k) (Spec.stick r rs k))) := by
  simp only [cmp, List.headD_cons, List.tail_cons, cmpGo_spec, cmpTest_op o op hop]

/-- **C29.** One value against a list: true iff it holds for some value of the list. -/
theorem C29_any_of (op : KwId) (hop : Spec.isCmpOp op) (l r : Str) (rs : List Str) :
    cmp o op false [l] (r :: rs) = true ↔ ∃ v ∈ r :: rs, Spec.holds op (cmp2 o l v) := by
  rw [C29_compare_lists o op hop]
  simp only [Bool.false_eq_true, if_false, List.length_nil]
  have nil : ∀ k, Spec.stick l [] k = l := by intro k; simp [Spec.stick]
  constructor
  · rintro ⟨k, hk, hp⟩
    rw [nil] at hp
    refine ⟨_, ?_, hp⟩
    rw [Spec.stick, getD_lt _ _ _ (by simp; omega)]
    exact List.getElem_mem _
  · rintro ⟨v, hv, hp⟩
    obtain ⟨k, hk, rfl⟩ := List.mem_iff_getElem.1 hv
    refine ⟨k, by simp at hk ⊢; omega, ?_⟩
    have : min k rs.length = k := by simp at hk; omega
    rw [nil, Spec.stick, this, getD_lt _ _ _ hk]
    exact hp

/-- **C29.** Several values against one: true iff it holds for some value on the left. -/
theorem C29_any_of_left (op : KwId) (hop : Spec.isCmpOp op) (l : Str) (ls : List Str) (r : Str) :
    cmp o op false (l :: ls) [r] = true ↔ ∃ v ∈ l :: ls, Spec.holds op (cmp2 o v r) := by
  rw [C29_compare_lists o op hop]
  simp only [Bool.false_eq_true, if_false, List.length_nil]
  have nil : ∀ k, Spec.stick r [] k = r := by intro k; simp [Spec.stick]
  constructor
  · rintro ⟨k, hk, hp⟩
    rw [nil] at hp
    refine ⟨_, ?_, hp⟩
    rw [Spec.stick, getD_lt _ _ _ (by simp; omega)]
    exact List.getElem_mem _
  · rintro ⟨v, hv, hp⟩
    obtain ⟨k, hk, rfl⟩ := List.mem_iff_getElem.1 hv
    refine ⟨k, by simp at hk ⊢; omega, ?_⟩
    have : min k ls.length = k := by simp at hk; omega
    rw [nil, Spec.stick, this, getD_lt _ _ _ hk]
    exact hp

/-- **C29.** A missing side counts as one empty value. -/
theorem C29_missing (op : KwId) (n : Bool) (left val : List Str) :
    cmp o op n [] val = cmp o op n [[]] val ∧ cmp o op n left [] = cmp o op n left [[]] := by
  constructor <;> simp [cmp]

/-- **C29.** Without an operator a list of values is true iff one of them is (negated: iff one is
not); the values before play no role. -/
theorem C29_truth (n : Bool) (l : Str) (r : Str) (rs : List Str) :
    cmp o .undef n [l] (r :: rs) = true ↔ ∃ v ∈ r :: rs, truthy v = !n := by
  simp only [cmp, List.headD_cons, List.tail_cons, cmpGo_spec, List.length_nil]
  have ht : ∀ v, cmpTest o .undef n (Spec.stick l [] 0) v = true ↔ truthy v = !n := by
    intro v; cases n <;> simp [cmpTest]
  have nil : ∀ k, Spec.stick l [] k = Spec.stick l [] 0 := by intro k; simp [Spec.stick]
  constructor
  · rintro ⟨k, hk, hp⟩
    rw [nil, ht] at hp
    refine ⟨_, ?_, hp⟩
    rw [Spec.stick, getD_lt _ _ _ (by simp; omega)]
    exact List.getElem_mem _
  · rintro ⟨v, hv, hp⟩
    obtain ⟨k, hk, rfl⟩ := List.mem_iff_getElem.1 hv
    refine ⟨k, by simp at hk ⊢; omega, ?_⟩
    have : min k rs.length = k := by simp at hk; omega
    rw [nil, ht, Spec.stick, this, getD_lt _ _ _ hk]
    exact hp

/-- **C29, remark.** Hence "not equal to a、b" is true as soon as one of them differs: with two
distinct values on the right it is always true. -/
theorem C29_not_equal_list (l a b : Str) (h : cmp2 o l a ≠ 0 ∨ cmp2 o l b ≠ 0) :
    cmp o .dengyu true [l] [a, b] = true := by
  rw [C29_compare_lists o _ (Or.inl rfl)]
  simp only [if_true, Spec.holds]
  rcases h with h | h
  · exact ⟨0, by simp, by simpa [Spec.stick] using h⟩
  · exact ⟨1, by simp, by simpa [Spec.stick] using h⟩

/-! ## C30 -/

/-- Code point order on texts: specification. -/
def Spec.textCmp : Str → Str → Int
  | [], [] => 0
  | [], _ :: _ => -1
  | _ :: _, [] => 1
  | a :: l, b :: r => if a.toNat < b.toNat then -1 else if b.toNat < a.toNat then 1 else Spec.textCmp l r

theorem encChar_ne_nil (c : Char) : encChar c ≠ [] := by
  unfold encChar
  simp only
  repeat' split
  all_goals simp

theorem cmpBytes_same (p l r : List Nat) : cmpBytes (p ++ l) (p ++ r) = cmpBytes l r := by
  induction p with
  | nil => rfl
  | cons c p ih => simp [cmpBytes, ih]

theorem char_toNat_lt (c : Char) : c.toNat < 0x110000 := by
  have := c.valid
  rcases this with h | h
  · exact Nat.lt_trans h (by decide)
  · exact h.2

/-- Different characters already differ in byte order inside their encodings. -/
theorem cmpBytes_char (a b : Char) (h : a.toNat < b.toNat) (l r : List Nat) :
    cmpBytes (encChar a ++ l) (encChar b ++ r) = -1 ∧ cmpBytes (encChar b ++ r) (encChar a ++ l) = 1 := by
  have ha := char_toNat_lt a
  have hb := char_toNat_lt b
  unfold encChar
  simp only
  generalize a.toNat = x at *
  generalize b.toNat = y at *
  have h1 : x / 64 ≤ y / 64 := by omega
  have h2 : x / 4096 ≤ y / 4096 := by omega
  have h3 : x / 262144 ≤ y / 262144 := by omega
  by_cases c1 : x < 0x80
  · by_cases d1 : y < 0x80
    · simp only [c1, d1, if_true, List.cons_append, cmpBytes]
      constructor
      · rw [if_pos (by omega)]
      · rw [if_neg (by omega), if_pos (by omega)]
    · by_cases d2 : y < 0x800
      · simp only [c1, d1, d2, if_true, if_false, List.cons_append, cmpBytes]
        constructor
        · rw [if_pos (by omega)]
        · rw [if_neg (by omega), if_pos (by omega)]
      · by_cases d3 : y < 0x10000
        · simp only [c1, d1, d2, d3, if_true, if_false, List.cons_append, cmpBytes]
          constructor
          · rw [if_pos (by omega)]
          · rw [if_neg (by omega), if_pos (by omega)]
        · simp only [c1, d1, d2, d3, if_true, if_false, List.cons_append, cmpBytes]
          constructor
          · rw [if_pos (by omega)]
          · rw [if_neg (by omega), if_pos (by omega)]
  · have d1 : ¬ y < 0x80 := by omega
    by_cases c2 : x < 0x800
    · by_cases d2 : y < 0x800
      · simp only [c1, d1, c2, d2, if_true, if_false, List.cons_append, List.nil_append, cmpBytes]
        constructor <;> (repeat' split) <;> omega
      · by_cases d3 : y < 0x10000
        · simp only [c1, d1, c2, d2, d3, if_true, if_false, List.cons_append, cmpBytes]
          constructor
          · rw [if_pos (by omega)]
          · rw [if_neg (by omega), if_pos (by omega)]
        · simp only [c1, d1, c2, d2, d3, if_true, if_false, List.cons_append, cmpBytes]
          constructor
          · rw [if_pos (by omega)]
          · rw [if_neg (by omega), if_pos (by omega)]
    · have d2 : ¬ y < 0x800 := by omega
      by_cases c3 : x < 0x10000
      · by_cases d3 : y < 0x10000
        · simp only [c1, d1, c2, d2, c3, d3, if_true, if_false, List.cons_append, List.nil_append, cmpBytes]
          constructor <;> (repeat' split) <;> omega
        · simp only [c1, d1, c2, d2, c3, d3, if_true, if_false, List.cons_append, cmpBytes]
          constructor
          · rw [if_pos (by omega)]
          · rw [if_neg (by omega), if_pos (by omega)]
      · have d3 : ¬ y < 0x10000 := by omega
        simp only [c1, d1, c2, d2, c3, d3, if_false, List.cons_append, List.nil_append, cmpBytes]
        constructor <;> (repeat' split) <;> omega

theorem cmpBytes_utf8 (l r : Str) : cmpBytes (utf8 l) (utf8 r) = Spec.textCmp l r := by
  induction l generalizing r with
  | nil =>
    cases r with
    | nil => rfl
    | cons b r =>
      simp only [utf8, List.flatMap_nil, List.flatMap_cons, Spec.textCmp]
      cases h : encChar b with
      | nil => exact absurd h (encChar_ne_nil b)
      | cons x xs => rfl
  | cons a l ih =>
    cases r with
    | nil =>
      simp only [utf8, List.flatMap_nil, List.flatMap_cons, Spec.textCmp]
      cases h : encChar a with
      | nil => exact absurd h (encChar_ne_nil a)
      | cons x xs => rfl
    | cons b r =>
      simp only [utf8, List.flatMap_cons, Spec.textCmp]
      split
      · rename_i h; exact (cmpBytes_char a b h _ _).1
      · split
        · rename_i h; exact (cmpBytes_char b a h _ _).2
        · have : a = b := Char.toNat_inj.1 (by omega)
          subst this
          rw [cmpBytes_same]
          exact ih r

/-- **C30.** Values that are not both numbers are compared by code points (the byte order of their
UTF-8 texts is the code point order). -/
theorem C30_text_order (l r : Str) (h : o.parse l = none ∨ o.parse r = none) :
    cmp2 o l r = Spec.textCmp l r := by
  have refl : ∀ l, Spec.textCmp l l = 0 := by
    intro l
    induction l with
    | nil => rfl
    | cons a l ih => simp [Spec.textCmp, ih]
  unfold cmp2
  split
  · rename_i e; rw [e, refl]
  · split
    · split
      · rcases h with h | h <;> simp_all
      · exact cmpBytes_utf8 l r
    · exact cmpBytes_utf8 l r

/-- **C30.** Values that are both numbers and not the same text are compared as numbers. -/
theorem C30_number_order (l r : Str) (a b : F) (ha : o.parse l = some a) (hb : o.parse r = some b)
    (hne : l ≠ r) :
    cmp2 o l r = if o.lt a b then -1 else if o.lt b a then 1 else 0 := by
  simp [cmp2, hne, ha, hb]

/-- **C30.** Comparison is reflexive. -/
theorem C30_reflexive (l : Str) : cmp2 o l l = 0 := by simp [cmp2]

theorem textCmp_antisymm (l r : Str) : Spec.textCmp r l = - Spec.textCmp l r := by
  induction l generalizing r with
  | nil => cases r <;> simp [Spec.textCmp]
  | cons a l ih =>
    cases r with
    | nil => simp [Spec.textCmp]
    | cons b r =>
      simp only [Spec.textCmp]
      by_cases h1 : a.toNat < b.toNat
      · have : ¬ b.toNat < a.toNat := by omega
        simp [h1, this]
      · by_cases h2 : b.toNat < a.toNat
        · simp [h1, h2]
        · simp [h1, h2, ih]

/-- **C30.** Comparison is antisymmetric: swapping the sides reverses the answer (`lt` being
asymmetric, as it is for `f64`). -/
theorem C30_antisymmetric (hlt : ∀ a b, o.lt a b = true → o.lt b a = false) (l r : Str) :
    cmp2 o r l = - cmp2 o l r := by
  by_cases e : l = r
  · subst e; simp [cmp2]
  by_cases h : o.parse l = none ∨ o.parse r = none
  · rw [C30_text_order o l r h, C30_text_order o r l h.symm, textCmp_antisymm]
  · cases ha : o.parse l with
    | none => exact absurd (Or.inl ha) h
    | some a =>
      cases hb : o.parse r with
      | none => exact absurd (Or.inr hb) h
      | some b =>
        rw [C30_number_order o l r a b ha hb e, C30_number_order o r l b a hb ha (Ne.symm e)]
        by_cases h1 : o.lt a b = true
        · simp [h1, hlt a b h1]
        · by_cases h2 : o.lt b a = true
          · simp [h1, h2]
          · simp [h1, h2]

theorem textCmp_trans (l m r : Str) (h1 : Spec.textCmp l m ≤ 0) (h2 : Spec.textCmp m r ≤ 0) :
    Spec.textCmp l r ≤ 0 := by
  induction l generalizing m r with
  | nil => cases r <;> simp [Spec.textCmp]
  | cons a l ih =>
    cases m with
    | nil => simp [Spec.textCmp] at h1
    | cons b m =>
      cases r with
      | nil => simp [Spec.textCmp] at h2
      | cons c r =>
        simp only [Spec.textCmp] at h1 h2 ⊢
        by_cases a1 : a.toNat < b.toNat
        · by_cases b2 : c.toNat < b.toNat
          · rw [if_neg (by omega), if_pos b2] at h2; omega
          · rw [if_pos (by omega)]; omega
        · by_cases a2 : b.toNat < a.toNat
          · rw [if_neg a1, if_pos a2] at h1; omega
          · rw [if_neg a1, if_neg a2] at h1
            by_cases b1 : b.toNat < c.toNat
            · rw [if_pos (by omega)]; omega
            · by_cases b2 : c.toNat < b.toNat
              · rw [if_neg b1, if_pos b2] at h2; omega
              · rw [if_neg b1, if_neg b2] at h2
                rw [if_neg (by omega), if_neg (by omega)]
                exact ih m r h1 h2

theorem textCmp_eq (l r : Str) : Spec.textCmp l r = 0 ↔ l = r := by
  induction l generalizing r with
  | nil => cases r <;> simp [Spec.textCmp]
  | cons a l ih =>
    cases r with
    | nil => simp [Spec.textCmp]
    | cons b r =>
      simp only [Spec.textCmp]
      by_cases h1 : a.toNat < b.toNat
      · simp only [h1, if_true]
        constructor
        · intro h; cases h
        · intro h; injection h with h _; rw [h] at h1; omega
      · by_cases h2 : b.toNat < a.toNat
        · simp only [h1, h2, if_true, if_false]
          constructor
          · intro h; cases h
          · intro h; injection h with h _; rw [h] at h2; omega
        · simp only [h1, h2, if_false, ih]
          have : a = b := Char.toNat_inj.1 (by omega)
          simp [this]

/-- **C30 (partial).** Among values that are not numbers, comparison is a total order: transitive, and
equal only for equal texts.  Missing: transitivity over all values, which is false, see
`C30_transitivity_counterexample`. -/
theorem C30_total_order_text_partial (l m r : Str) (hl : o.parse l = none) (hm : o.parse m = none)
    (_hr : o.parse r = none) :
    (cmp2 o l m ≤ 0 → cmp2 o m r ≤ 0 → cmp2 o l r ≤ 0) ∧ (cmp2 o l m = 0 ↔ l = m) := by
  rw [C30_text_order o l m (Or.inl hl), C30_text_order o m r (Or.inl hm),
    C30_text_order o l r (Or.inl hl)]
  exact ⟨textCmp_trans l m r, textCmp_eq l m⟩

/-- **C30 (partial).** Among numbers that are totally ordered by `lt` (no NaN), comparison is
transitive. -/
theorem C30_transitive_numbers_partial (P : F → Prop)
    (tot : ∀ a b c, P a → P b → P c → o.lt b a = false → o.lt c b = false → o.lt c a = false)
    (asym : ∀ a b, o.lt a b = true → o.lt b a = false)
    (l m r : Str) (a b c : F) (ha : o.parse l = some a) (hb : o.parse m = some b)
    (hc : o.parse r = some c) (pa : P a) (pb : P b) (pc : P c)
    (h1 : cmp2 o l m ≤ 0) (h2 : cmp2 o m r ≤ 0) : cmp2 o l r ≤ 0 := by
  have key : ∀ (l m : Str) (a b : F), o.parse l = some a → o.parse m = some b →
      (cmp2 o l m ≤ 0 ↔ (l = m ∨ o.lt b a = false)) := by
    intro l m a b ha hb
    by_cases e : l = m
    · simp [cmp2, e]
    · rw [C30_number_order o l m a b ha hb e]
      by_cases h1 : o.lt a b = true
      · simp [h1, asym a b h1]
      · by_cases h2 : o.lt b a = true
        · simp [h1, h2, e]
        · simp [h1, h2]
  rw [key l m a b ha hb] at h1
  rw [key m r b c hb hc] at h2
  rw [key l r a c ha hc]
  rcases h1 with rfl | h1
  · rw [ha] at hb; cases hb
    exact h2
  · rcases h2 with rfl | h2
    · rw [hb] at hc; cases hc
      exact Or.inr h1
    · exact Or.inr (tot a b c pa pb pc h1 h2)

/-- **C30, counterexample.** Comparison is not transitive: `2 < 10 < 1a < 2`. -/
theorem C30_transitivity_counterexample (two ten : F) (h2 : o.parse c!"2" = some two)
    (h10 : o.parse c!"10" = some ten) (h1a : o.parse c!"1a" = none) (hlt : o.lt two ten = true) :
    cmp2 o c!"2" c!"10" < 0 ∧ cmp2 o c!"10" c!"1a" < 0 ∧ cmp2 o c!"1a" c!"2" < 0 := by
  refine ⟨?_, ?_, ?_⟩
  · rw [C30_number_order o _ _ two ten h2 h10 (by decide)]; simp [hlt]
  · rw [C30_text_order o _ _ (Or.inr h1a)]; decide
  · rw [C30_text_order o _ _ (Or.inl h1a)]; decide

/-- **C30, counterexample.** A text that parses as not-a-number compares equal to every number. -/
theorem C30_nan_counterexample (nan x : F) (l r : Str) (hn : o.parse l = some nan)
    (hx : o.parse r = some x) (h1 : o.lt nan x = false) (h2 : o.lt x nan = false) :
    cmp2 o l r = 0 := by
  unfold cmp2
  split
  · rfl
  · simp [hn, hx, h1, h2]

/-- A small number system for the examples: decimal integers, and `nan` which is ordered with nothing. -/
def decimals : F64 (Option Int) where
  parse s := if s = c!"nan" then some none else (parseI64 s).map some
  add a _ := a
  sub a _ := a
  mul a _ := a
  div a _ := a
  pow a _ := a
  neg a := a
  isZero a := a == some 0
  isInf _ := false
  lt a b := match a, b with | some a, some b => decide (a < b) | _, _ => false
  toI64 a := a.getD 0
  ofI64 a := some a
  str a := intStr (a.getD 0)
  strFloor a := intStr (a.getD 0)
  strFixed _ _ := none

/-- Non-vacuity: the hypotheses of the counterexamples and partial theorems are met. -/
example : decimals.parse c!"2" = some (some 2) ∧ decimals.parse c!"10" = some (some 10) ∧
    decimals.parse c!"1a" = none ∧ decimals.lt (some 2) (some 10) = true ∧
    decimals.parse c!"nan" = some none ∧ decimals.lt none (some 2) = false := by decide
example : (∀ a b, decimals.lt a b = true → decimals.lt b a = false) := by
  intro a b; cases a <;> cases b <;> simp [decimals]; omega
example : cmp decimals .dengyu false [c!"b"] [c!"a", c!"b"] = true ∧
    cmp decimals .dengyu false [c!"c"] [c!"a", c!"b"] = false ∧
    cmp decimals .dengyu true [c!"b"] [c!"a", c!"b"] = true := by
  simp only [cmp, List.headD_cons, List.tail_cons, cmpGo]; decide

end Zh
