import Verif.Spec.SepList
import Verif.Props.Split
/-!
# C04, C05, C06, C07, C08, C09, C46: result lists and arguments
-/
namespace Zh
open Spec

theorem dunhao_eq (i : Item) : i.dunhao = isSep i := rfl
theorem jvhao_eq (i : Item) : i.jvhao = isStop i := rfl

/-! ## Lemmas about separator positions -/

theorem sepPos_append (k : Nat) (a b : List Item) :
    sepPos k (a ++ b) = sepPos k a ++ sepPos (k + a.length) b := by
  induction a generalizing k with
  | nil => simp [sepPos]
  | cons x a ih =>
    simp only [List.cons_append, sepPos, ih, List.length_cons]
    have : k + 1 + a.length = k + (a.length + 1) := by omega
    split <;> simp [this]

theorem sepPos_shift (k m : Nat) (a : List Item) :
    sepPos (k + m) a = (sepPos k a).map (· + m) := by
  induction a generalizing k with
  | nil => simp [sepPos]
  | cons x a ih =>
    have : k + m + 1 = (k + 1) + m := by omega
    simp only [sepPos, this, ih]
    split <;> simp

theorem mem_sepPos {k : Nat} {a : List Item} {p : Nat} :
    p ∈ sepPos k a ↔ ∃ i, k ≤ p ∧ a[p - k]? = some i ∧ isSep i = true := by
  induction a generalizing k with
  | nil => simp [sepPos]
  | cons x a ih =>
    have key : p ∈ sepPos (k + 1) a ↔
        ∃ i, k + 1 ≤ p ∧ (x :: a)[p - k]? = some i ∧ isSep i = true := by
      rw [ih]
      constructor
      · rintro ⟨i, h1, h2, h3⟩
        refine ⟨i, h1, ?_, h3⟩
        have : p - k = (p - (k + 1)) + 1 := by omega
        rw [this]; simpa using h2
      · rintro ⟨i, h1, h2, h3⟩
        refine ⟨i, h1, ?_, h3⟩
        have : p - k = (p - (k + 1)) + 1 := by omega
        rw [this] at h2; simpa using h2
    simp only [sepPos]
    by_cases hx : isSep x = true
    · simp only [hx, if_true, List.mem_cons, key]
      constructor
      · rintro (rfl | ⟨i, h1, h2⟩)
        · exact ⟨x, Nat.le_refl _, by simp, hx⟩
        · exact ⟨i, by omega, h2⟩
      · rintro ⟨i, h1, h2⟩
        by_cases e : p = k
        · exact Or.inl e
        · exact Or.inr ⟨i, by omega, h2⟩
    · simp only [hx, if_false, Bool.false_eq_true, key]
      constructor
      · rintro ⟨i, h1, h2⟩
        exact ⟨i, by omega, h2⟩
      · rintro ⟨i, h1, h2, h3⟩
        by_cases e : p = k
        · subst e
          simp only [Nat.sub_self, List.getElem?_cons_zero, Option.some.injEq] at h2
          subst h2
          exact absurd h3 hx
        · exact ⟨i, by omega, h2, h3⟩

theorem sepPos_sorted (k : Nat) (a : List Item) : (sepPos k a).Pairwise (· < ·) := by
  induction a generalizing k with
  | nil => simp [sepPos]
  | cons x a ih =>
    simp only [sepPos]
    split
    · refine List.pairwise_cons.2 ⟨?_, ih _⟩
      intro p hp
      obtain ⟨_, h, _⟩ := mem_sepPos.1 hp
      omega
    · exact ih _

theorem sepPos_length (k : Nat) (a : List Item) :
    (sepPos k a).length = (a.filter isSep).length := by
  induction a generalizing k with
  | nil => simp [sepPos]
  | cons x a ih =>
    simp only [sepPos, List.filter_cons]
    split <;> simp [ih]

theorem Spec.WF.weak {l : RList} (h : WF l) : WeakWF l := by
  unfold WF at h
  constructor
  · rw [h]; exact sepPos_sorted _ _
  · intro p hp
    rw [h] at hp
    obtain ⟨i, _, h2, h3⟩ := mem_sepPos.1 hp
    exact ⟨i, by simpa using h2, h3⟩

/-! ## C04 -/

theorem WF_empty : WF RList.empty := rfl

theorem WF_add {l : RList} (h : WF l) (i : Item) : WF (l.add i) := by
  unfold WF at *
  simp only [RList.add, sepPos_append, ← h, dunhao_eq, Nat.zero_add]
  by_cases e : isSep i = true <;> simp [e, sepPos]

theorem WF_addAll {l : RList} (h : WF l) (is : List Item) : WF (l.addAll is) := by
  unfold RList.addAll
  induction is generalizing l with
  | nil => simpa using h
  | cons i is ih => simpa using ih (WF_add h i)

theorem WF_ins {l : RList} (h : WF l) (i : Item) : WF (l.ins i) := by
  unfold WF at *
  have : sepPos 1 l.a = (sepPos 0 l.a).map (· + 1) := sepPos_shift 0 1 l.a
  simp only [RList.ins, sepPos, dunhao_eq, h, Nat.zero_add, this]

theorem WF_rm {l : RList} (h : WF l) (idx : Nat) (hi : idx < l.a.length) : WF (l.rm idx) := by
  unfold WF at *
  simp only [RList.rm]
  have e1 : l.a = l.a.take idx ++ l.a[idx] :: l.a.drop (idx + 1) := by
    rw [List.getElem_cons_drop]; simp
  have e2 : l.a.eraseIdx idx = l.a.take idx ++ l.a.drop (idx + 1) :=
    List.eraseIdx_eq_take_drop_succ ..
  have hlen : (l.a.take idx).length = idx := by simp; omega
  have hdun : l.dun = sepPos 0 (l.a.take idx) ++
      ((if isSep l.a[idx] then [idx] else []) ++ (sepPos idx (l.a.drop (idx+1))).map (· + 1)) := by
    rw [h]
    conv => lhs; rw [e1]
    rw [sepPos_append, hlen, Nat.zero_add]
    simp only [sepPos]
    rw [sepPos_shift idx 1]
    split <;> simp
  rw [e2, sepPos_append, hlen, Nat.zero_add, hdun]
  simp only [List.filter_append, List.map_append]
  congr 1
  · have hlt : ∀ p ∈ sepPos 0 (l.a.take idx), p < idx := by
      intro p hp
      obtain ⟨i, _, h2, _⟩ := mem_sepPos.1 hp
      have := (List.getElem?_eq_some_iff.1 h2).1
      simp at this; omega
    rw [List.filter_eq_self.2 (fun p hp => by have := hlt p hp; simp; omega)]
    conv => rhs; rw [← List.map_id (sepPos 0 (l.a.take idx))]
    apply List.map_congr_left
    intro p hp
    have := hlt p hp
    simp; omega
  · have hge : ∀ p ∈ sepPos idx (l.a.drop (idx + 1)), idx ≤ p := by
      intro p hp
      obtain ⟨i, h1, _⟩ := mem_sepPos.1 hp
      exact h1
    have m1 : (List.filter (fun x => decide (x ≠ idx)) (if isSep l.a[idx] = true then [idx] else []))
        = [] := by split <;> simp
    rw [m1, List.map_nil, List.nil_append, List.filter_eq_self.2, List.map_map]
    · conv => rhs; rw [← List.map_id (sepPos idx (l.a.drop (idx+1)))]
      apply List.map_congr_left
      intro p hp
      have := hge p hp
      simp; omega
    · intro p hp
      obtain ⟨q, hq, rfl⟩ := List.mem_map.1 hp
      have := hge q hq
      simp; omega

theorem WF_popEnd {l : RList} (h : WF l) : WF l.popEnd := by
  unfold RList.popEnd
  split
  · next i hi =>
    split
    · next hd =>
      have ha : l.a = l.a.dropLast ++ [i] := by
        rw [List.getLast?_eq_some_iff] at hi
        obtain ⟨ys, hys⟩ := hi
        simp [hys]
      unfold WF at *
      simp only
      rw [ha, sepPos_append] at h
      simp only [sepPos, ← dunhao_eq, hd, if_true, Nat.zero_add] at h
      rw [h]; simp
    · exact h
  · exact h

/-- **C04.** After any history of append, prepend, remove, clear and pop-trailing-separator, the
recorded separator positions are exactly the positions at which a separator item stands. -/
theorem C04_separator_index_partial (ops : List ListOp) (l' : RList)
    (h : runOps RList.empty ops = some l') : l'.dun = sepPos 0 l'.a := by
  suffices ∀ l, WF l → runOps l ops = some l' → WF l' from this _ WF_empty h
  clear h
  induction ops with
  | nil => intro l hl h; simp only [runOps, Option.some.injEq] at h; exact h ▸ hl
  | cons op ops ih =>
    intro l hl h
    simp only [runOps] at h
    cases op with
    | add i => exact ih _ (WF_add hl i) h
    | ins i => exact ih _ (WF_ins hl i) h
    | rm idx =>
      simp only [ListOp.run] at h
      by_cases hi : idx < l.a.length
      · simp only [hi, if_true] at h; exact ih _ (WF_rm hl idx hi) h
      · simp [hi] at h
    | clear => exact ih _ WF_empty h
    | popEnd => exact ih _ (WF_popEnd hl) h

/-- The recorded positions are increasing, in range, and complete (reading of the above). -/
theorem C04_separator_index_reading_partial (ops : List ListOp) (l' : RList)
    (h : runOps RList.empty ops = some l') :
    l'.dun.Pairwise (· < ·) ∧
      ∀ p, p ∈ l'.dun ↔ ∃ i, l'.a[p]? = some i ∧ isSep i = true := by
  rw [C04_separator_index_partial ops l' h]
  refine ⟨sepPos_sorted _ _, fun p => ?_⟩
  rw [mem_sepPos]
  simp

/-- Items used in examples: a text and a separator. -/
def exS (n : Nat) (s : Str) : Item := ⟨n, .s s⟩
def exD (n : Nat) : Item := ⟨n, .k (kw .dunhao)⟩

example : runOps RList.empty [.add (exS 0 c!"a"), .add (exD 1), .ins (exD 2), .add (exS 3 c!"b"), .rm 1]
    = some ⟨[exD 2, exD 1, exS 3 c!"b"], [0, 1]⟩ := by decide

/-- **C04 is false for moving left-hand arguments.** Moving one group out of `a、b` leaves the
separator in the list but forgets its position. -/
theorem C04_backarg_counterexample :
    ∃ (l l' r r' : RList) (sep : Item), WF l ∧ WF r ∧ isSep sep = true ∧
      RList.backarg l 1 sep r = .ok (some (l', r')) ∧ ¬ WF l' := by
  refine ⟨⟨[exS 0 c!"a", exD 1, exS 2 c!"b"], [1]⟩, ⟨[exS 0 c!"a", exD 1], []⟩, RList.empty,
    ⟨[exS 2 c!"b", exD 9], [1]⟩, exD 9, rfl, rfl, rfl, rfl, by
      unfold WF; decide⟩

/-- What stays true even then: recorded positions are increasing and each holds a separator. -/
theorem WeakWF_add {l : RList} (h : WeakWF l) (i : Item) : WeakWF (l.add i) := by
  obtain ⟨h1, h2⟩ := h
  have hlt : ∀ p ∈ l.dun, p < l.a.length := fun p hp => by
    obtain ⟨i, hi, _⟩ := h2 p hp
    exact (List.getElem?_eq_some_iff.1 hi).1
  have old : ∀ p ∈ l.dun, ∃ j, (l.a ++ [i])[p]? = some j ∧ isSep j = true := fun p hp => by
    obtain ⟨j, hj, hs⟩ := h2 p hp
    exact ⟨j, by rw [List.getElem?_append_left (hlt p hp)]; exact hj, hs⟩
  by_cases hs : isSep i = true
  · refine ⟨?_, ?_⟩
    · simp only [RList.add, dunhao_eq, hs, if_true]
      rw [List.pairwise_append]
      refine ⟨h1, by simp, fun p hp q hq => ?_⟩
      simp only [List.mem_singleton] at hq
      have := hlt p hp
      omega
    · intro p hp
      simp only [RList.add, dunhao_eq, hs, if_true] at hp ⊢
      rcases List.mem_append.1 hp with hp | hp
      · exact old p hp
      · simp only [List.mem_singleton] at hp
        subst hp
        exact ⟨i, by simp, hs⟩
  · have e : l.add i = ⟨l.a ++ [i], l.dun⟩ := by simp [RList.add, dunhao_eq, hs]
    rw [e]
    exact ⟨h1, old⟩

theorem WeakWF_ins {l : RList} (h : WeakWF l) (i : Item) : WeakWF (l.ins i) := by
  obtain ⟨h1, h2⟩ := h
  have hm : (l.dun.map (· + 1)).Pairwise (· < ·) := by
    rw [List.pairwise_map]; exact h1.imp (by omega)
  have hp' : ∀ p ∈ l.dun.map (· + 1), ∃ j, (i :: l.a)[p]? = some j ∧ isSep j = true := by
    intro p hp
    obtain ⟨q, hq, rfl⟩ := List.mem_map.1 hp
    simpa using h2 q hq
  by_cases hs : isSep i = true
  · have e : l.ins i = ⟨i :: l.a, 0 :: l.dun.map (· + 1)⟩ := by simp [RList.ins, dunhao_eq, hs]
    rw [e]
    refine ⟨List.pairwise_cons.2 ⟨fun p hp => ?_, hm⟩, fun p hp => ?_⟩
    · obtain ⟨q, _, rfl⟩ := List.mem_map.1 hp
      omega
    · rcases List.mem_cons.1 hp with rfl | hp
      · exact ⟨i, by simp, hs⟩
      · exact hp' p hp
  · have e : l.ins i = ⟨i :: l.a, l.dun.map (· + 1)⟩ := by simp [RList.ins, dunhao_eq, hs]
    rw [e]
    exact ⟨hm, hp'⟩

theorem WeakWF_rm {l : RList} (h : WeakWF l) (idx : Nat) (_hi : idx < l.a.length) :
    WeakWF (l.rm idx) := by
  obtain ⟨h1, h2⟩ := h
  simp only [RList.rm]
  constructor
  · simp only
    rw [List.pairwise_map]
    refine (h1.filter _).imp_of_mem ?_
    intro a b ha hb hab
    simp only [List.mem_filter, decide_eq_true_eq] at ha hb
    have := ha.2
    have := hb.2
    split <;> split <;> omega
  · intro p hp
    simp only [List.mem_map, List.mem_filter, decide_eq_true_eq] at hp
    obtain ⟨q, ⟨hq, hne⟩, rfl⟩ := hp
    obtain ⟨j, hj, hs⟩ := h2 q hq
    refine ⟨j, ?_, hs⟩
    rw [List.getElem?_eraseIdx]
    by_cases hgt : q > idx
    · simp only [hgt, if_true]
      rw [if_neg (by omega)]
      rw [show q - 1 + 1 = q by omega]
      exact hj
    · simp only [hgt, if_false]
      rw [if_pos (by omega)]
      exact hj

theorem WeakWF_popEnd {l : RList} (h : WeakWF l) : WeakWF l.popEnd := by
  unfold RList.popEnd
  split
  · next i hi =>
    split
    · next hd =>
      obtain ⟨h1, h2⟩ := h
      have hne : l.a ≠ [] := by
        intro e; simp [e] at hi
      refine ⟨h1.sublist (List.dropLast_sublist _), fun p hp => ?_⟩
      have hp0 : p ∈ l.dun := List.dropLast_subset _ hp
      obtain ⟨j, hj, hs⟩ := h2 p hp0
      refine ⟨j, ?_, hs⟩
      have hlt := (List.getElem?_eq_some_iff.1 hj).1
      have hp1 : p < l.a.length - 1 := by
        -- some recorded position is larger than `p`
        cases hd' : l.dun.reverse with
        | nil =>
          rw [List.reverse_eq_nil_iff] at hd'
          simp [hd'] at hp0
        | cons q qs =>
          have : l.dun = qs.reverse ++ [q] := by
            have := congrArg List.reverse hd'
            simpa using this
          rw [this] at h1 hp
          rw [List.dropLast_concat] at hp
          have hlt' : p < q := (List.pairwise_append.1 h1).2.2 p hp q (by simp)
          obtain ⟨k, hk, _⟩ := h2 q (by rw [this]; simp)
          have := (List.getElem?_eq_some_iff.1 hk).1
          omega
      simp only
      rw [List.getElem?_dropLast, if_pos hp1]
      exact hj
    · exact h
  · exact h

theorem WeakWF_take {l : RList} (h : WeakWF l) (n : Nat) :
    WeakWF { l with dun := l.dun.take n } :=
  ⟨h.1.sublist (List.take_sublist _ _), fun p hp => h.2 p (List.mem_of_mem_take hp)⟩

theorem WeakWF_backGo (i2 : Int) (n : Nat) (l r : RList) (hl : WeakWF l) (hr : WeakWF r)
    (hn : n ≤ l.a.length) :
    WeakWF (RList.backGo i2 n l r).1 ∧ WeakWF (RList.backGo i2 n l r).2 := by
  induction n generalizing l r with
  | zero => exact ⟨hl, hr⟩
  | succ idx ih =>
    simp only [RList.backGo]
    split
    · exact ⟨hl, hr⟩
    · split
      · exact ⟨hl, hr⟩
      · next it hit =>
        split
        · exact ⟨hl, hr⟩
        · have hi : idx < l.a.length := hn
          apply ih _ _ (WeakWF_rm hl idx hi) (WeakWF_ins hr it)
          simp only [RList.rm, List.length_eraseIdx, hi, if_true]
          omega

/-- **C04 (what the move of left-hand arguments preserves).** The recorded positions of both lists
stay increasing positions of separators; only completeness of the record is lost. -/
theorem C04_backarg_weak_partial (l r : RList) (n : Nat) (sep : Item) (hl : WeakWF l) (hr : WeakWF r)
    (l' r' : RList) (h : RList.backarg l n sep r = .ok (some (l', r'))) :
    WeakWF l' ∧ WeakWF r' := by
  simp only [RList.backarg] at h
  split at h
  · simp at h
  · split at h
    · simp at h
    · simp only [Out.ok.injEq, Option.some.injEq] at h
      have := WeakWF_backGo ‹Int› l.a.length _ _
        (WeakWF_take hl (if l.dun.length < n then 0 else l.dun.length - n)) (WeakWF_ins hr sep)
        (Nat.le_refl _)
      rw [h] at this
      exact this

end Zh
