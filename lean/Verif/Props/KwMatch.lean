import Verif.Model.Pars
/-!
# Keyword recognition (C45)
-/
namespace Zh

namespace Spec
/-- The first `m` bytes of `src` spell the keyword `k` with blanks and control characters (bytes up to
32) allowed between its bytes, but not before or after. -/
def Spells (k src : List Nat) (m : Nat) : Prop :=
  ∃ taken rest, src = taken ++ rest ∧ taken.length = m ∧ taken.filter (fun c => decide (32 < c)) = k ∧
    (∀ c, taken.head? = some c → 32 < c) ∧ (∀ c, taken.getLast? = some c → 32 < c)
end Spec

theorem isKwGo_n (k : List Nat) : ∀ (src : List Nat) st n,
    isKwGo k src st n = match isKwGo k src st 0 with | .hit m => .hit (n + m) | x => x := by
  suffices h : ∀ (src : List Nat) (k : List Nat) st n d,
      isKwGo k src st (d + n) = match isKwGo k src st d with | .hit m => .hit (m + n) | x => x by
    intro src st n
    have := h src k st n 0
    simp only [Nat.zero_add] at this
    rw [this]; cases isKwGo k src st 0 <;> simp [Nat.add_comm]
  intro src
  induction src with
  | nil => intro k st n d; cases k <;> simp [isKwGo]
  | cons c cs ih =>
    intro k st n d
    cases k with
    | nil => simp [isKwGo]
    | cons k ks =>
      simp only [isKwGo]
      split
      · split
        · have := ih (k :: ks) st n (d + 1)
          rw [← this]; congr 1; omega
        · rfl
      · split
        · rfl
        · have := ih ks true n (d + 1)
          rw [← this]; congr 1; omega

/-- Once started, a hit consumes bytes that spell the keyword and do not end in a blank. -/
theorem isKwGo_started (src : List Nat) : ∀ (k : List Nat) m, (∀ c ∈ k, 32 < c) →
    isKwGo k src true 0 = .hit m →
    ∃ taken rest, src = taken ++ rest ∧ taken.length = m ∧ taken.filter (fun c => decide (32 < c)) = k ∧
      (∀ c, taken.getLast? = some c → 32 < c) := by
  induction src with
  | nil =>
    intro k m hk h
    cases k with
    | nil => simp [isKwGo] at h; exact ⟨[], [], by simp [h]⟩
    | cons k ks => simp [isKwGo] at h
  | cons c cs ih =>
    intro k m hk h
    cases k with
    | nil => simp [isKwGo] at h; exact ⟨[], c :: cs, by simp [h]⟩
    | cons k ks =>
      simp only [isKwGo] at h
      by_cases hc : isSp c = true
      · simp only [hc, if_true] at h
        rw [isKwGo_n] at h
        cases e : isKwGo (k :: ks) cs true 0 with
        | hit m' =>
          rw [e] at h; simp at h
          obtain ⟨t, r, h1, h2, h3, h4⟩ := ih _ _ hk e
          have hc' : c ≤ 32 := by simpa [isSp] using hc
          have hne : t ≠ [] := by rintro rfl; simp at h3
          refine ⟨c :: t, r, by simp [h1], by simp [h2]; omega, ?_, ?_⟩
          · rw [List.filter_cons, if_neg (by simp; omega)]; exact h3
          · intro x hx; apply h4 x
            rw [List.getLast?_cons] at hx
            cases t with
            | nil => exact absurd rfl hne
            | cons a as => simpa [List.getLast?_cons] using hx
        | blank => rw [e] at h; simp at h
        | miss => rw [e] at h; simp at h
      · simp only [hc, Bool.false_eq_true, if_false] at h
        by_cases hck : c = k
        · subst hck
          simp only [ne_eq, not_true_eq_false, if_false] at h
          rw [isKwGo_n] at h
          have hc' : 32 < c := by simpa [isSp] using hc
          cases e : isKwGo ks cs true 0 with
          | hit m' =>
            rw [e] at h; simp at h
            obtain ⟨t, r, h1, h2, h3, h4⟩ := ih _ _ (fun x hx => hk x (by simp [hx])) e
            refine ⟨c :: t, r, by simp [h1], by simp [h2]; omega, ?_, ?_⟩
            · rw [List.filter_cons, if_pos (by simpa using hc')]; rw [h3]
            · intro x hx
              rw [List.getLast?_cons] at hx
              cases t with
              | nil => simp at hx; omega
              | cons a as => exact h4 x (by simpa [List.getLast?_cons] using hx)
          | blank => rw [e] at h; simp at h
          | miss => rw [e] at h; simp at h
        · simp [hck] at h

/-- Conversely, bytes that spell the rest of the keyword give a hit. -/
theorem isKwGo_of_spells (taken : List Nat) : ∀ (k rest : List Nat), (∀ c ∈ k, 32 < c) →
    taken.filter (fun c => decide (32 < c)) = k → (∀ c, taken.getLast? = some c → 32 < c) →
    isKwGo k (taken ++ rest) true 0 = .hit taken.length := by
  induction taken with
  | nil => intro k rest _ h _; simp at h; subst h; simp [isKwGo]
  | cons c t ih =>
    intro k rest hk h hl
    rw [List.filter_cons] at h
    have hl' : ∀ x, t.getLast? = some x → 32 < x := by
      intro x hx; apply hl x; rw [List.getLast?_cons, hx]; rfl
    by_cases hc : 32 < c
    · simp only [hc, decide_true, if_true] at h
      cases k with
      | nil => simp at h
      | cons k ks =>
        injection h with h1 h2
        subst h1
        have hs : isSp c = false := by simp [isSp]; omega
        simp only [List.cons_append, isKwGo, hs]
        have := ih ks rest (fun x hx => hk x (by simp [hx])) h2 hl'
        simp only [Bool.false_eq_true, if_false, ne_eq, not_true_eq_false]
        rw [isKwGo_n, this]; simp [Nat.add_comm]
    · simp only [hc, decide_false, Bool.false_eq_true, if_false] at h
      cases k with
      | nil =>
        -- the last byte is a blank, which is excluded
        exfalso
        have hne : (c :: t) ≠ [] := by simp
        obtain ⟨l, hl0⟩ : ∃ l, (c :: t).getLast? = some l := ⟨_, List.getLast?_eq_some_getLast hne⟩
        have h32 := hl l hl0
        have hm := List.mem_of_getLast? hl0
        rcases List.mem_cons.1 hm with rfl | hm
        · exact hc h32
        · have : l ∈ t.filter (fun c => decide (32 < c)) := List.mem_filter.2 ⟨hm, by simpa using h32⟩
          rw [h] at this; simp at this
      | cons k ks =>
        have hs : isSp c = true := by simp [isSp]; omega
        simp only [List.cons_append, isKwGo, hs, if_true]
        rw [isKwGo_n, ih (k :: ks) rest hk h hl']; simp [Nat.add_comm]

/-- `is_kw__` answers "found" exactly when the source spells the keyword. -/
theorem isKwGo_hit_iff {k : List Nat} (hk : ∀ c ∈ k, 32 < c) (hne : k ≠ []) (src : List Nat) (m : Nat) :
    isKwGo k src false 0 = .hit m ↔ Spec.Spells k src m := by
  cases k with
  | nil => exact absurd rfl hne
  | cons k ks =>
    have hk0 : 32 < k := hk k (by simp)
    have hks : ∀ c ∈ ks, 32 < c := fun c hc => hk c (by simp [hc])
    constructor
    · intro h
      cases src with
      | nil => simp [isKwGo] at h
      | cons c cs =>
        simp only [isKwGo] at h
        by_cases hs : isSp c = true
        · simp [hs] at h
        · simp only [hs, Bool.false_eq_true, if_false] at h
          by_cases hck : c = k
          · subst hck
            simp only [ne_eq, not_true_eq_false, if_false] at h
            rw [isKwGo_n] at h
            cases e : isKwGo ks cs true 0 with
            | hit m' =>
              rw [e] at h; simp at h
              obtain ⟨t, r, h1, h2, h3, h4⟩ := isKwGo_started _ _ _ hks e
              refine ⟨c :: t, r, by simp [h1], by simp [h2]; omega, ?_, ?_, ?_⟩
              · rw [List.filter_cons, if_pos (by simpa using hk0), h3]
              · intro x hx; simp at hx; omega
              · intro x hx
                rw [List.getLast?_cons] at hx
                cases t with
                | nil => simp at hx; omega
                | cons a as => exact h4 x (by simpa [List.getLast?_cons] using hx)
            | blank => rw [e] at h; simp at h
            | miss => rw [e] at h; simp at h
          · simp [hck] at h
    · rintro ⟨t, r, rfl, rfl, h3, h4, h5⟩
      cases t with
      | nil => simp at h3
      | cons c t =>
        have hc : 32 < c := h4 c rfl
        rw [List.filter_cons, if_pos (by simpa using hc)] at h3
        injection h3 with h31 h32
        subst h31
        have hs : isSp c = false := by simp [isSp]; omega
        simp only [List.cons_append, isKwGo, hs, Bool.false_eq_true, if_false, ne_eq, not_true_eq_false]
        rw [isKwGo_n, isKwGo_of_spells t ks r hks h32 (by
          intro x hx; apply h5 x; rw [List.getLast?_cons, hx]; rfl)]
        simp [Nat.add_comm]

/-- The answer "blank" is the same for all keywords. -/
theorem isKwGo_blank_iff {k : List Nat} (hne : k ≠ []) (src : List Nat) :
    isKwGo k src false 0 = .blank ↔ ∃ c, src.head? = some c ∧ c ≤ 32 := by
  have key : ∀ (src ks : List Nat) n, isKwGo ks src true n ≠ .blank := by
    intro src
    induction src with
    | nil => intro ks n; cases ks <;> simp [isKwGo]
    | cons c cs ih =>
      intro ks n
      cases ks with
      | nil => simp [isKwGo]
      | cons k ks =>
        simp only [isKwGo]
        split
        · exact ih _ _
        · split
          · simp
          · exact ih _ _
  cases k with
  | nil => exact absurd rfl hne
  | cons k ks =>
    cases src with
    | nil => simp [isKwGo]
    | cons c cs =>
      simp only [isKwGo]
      by_cases hs : isSp c = true
      · simp only [hs, if_true]
        have : c ≤ 32 := by simpa [isSp] using hs
        simp [this]
      · have hc : ¬ c ≤ 32 := by simpa [isSp] using hs
        simp only [hs, Bool.false_eq_true, if_false]
        split
        · simp [hc]
        · have := key cs ks (0 + 1)
          simp [this, hc]

/-! ## The table -/

/-- Facts about the 60 keywords, checked by evaluation over the whole table. -/
theorem kwBytes_gt (id : KwId) : ∀ c ∈ kwBytes id, 32 < c := by
  cases id <;> decide

theorem kwOrder_ne : ∀ id ∈ kwOrder, kwBytes id ≠ [] := by decide +kernel

/-- No keyword of the table is a proper prefix of a later one, and no two are equal. -/
theorem kwOrder_no_prefix :
    kwOrder.Pairwise fun a b => ¬ (kwBytes a <+: kwBytes b) := by
  decide +kernel

/-- The words of the table are pairwise different. -/
theorem kwOrder_nodup : kwOrder.Nodup := by decide +kernel

theorem findKw_some {src : List Nat} : ∀ {ids : List KwId} {id m}, (∀ i ∈ ids, kwBytes i ≠ []) →
    findKw src ids = some (id, m) →
    ∃ l r, ids = l ++ id :: r ∧ isKwGo (kwBytes id) src false 0 = .hit m ∧
      ∀ i ∈ l, isKwGo (kwBytes i) src false 0 = .miss
  | [], _, _, _, h => by simp [findKw] at h
  | i :: ids, id, m, hne, h => by
    simp only [findKw] at h
    cases e : isKwGo (kwBytes i) src false 0 with
    | hit n =>
      rw [e] at h; simp at h
      obtain ⟨rfl, rfl⟩ := h
      exact ⟨[], ids, rfl, e, by simp⟩
    | blank => rw [e] at h; simp at h
    | miss =>
      rw [e] at h; simp at h
      obtain ⟨l, r, h1, h2, h3⟩ := findKw_some (fun i hi => hne i (by simp [hi])) h
      refine ⟨i :: l, r, by simp [h1], h2, ?_⟩
      intro j hj
      rcases List.mem_cons.1 hj with rfl | hj
      · exact e
      · exact h3 j hj

theorem findKw_none {src : List Nat} : ∀ {ids : List KwId}, (∀ i ∈ ids, kwBytes i ≠ []) →
    findKw src ids = none → ∀ id ∈ ids, ∀ m, isKwGo (kwBytes id) src false 0 ≠ .hit m
  | [], _, _ => by simp
  | i :: ids, hne, h => by
    simp only [findKw] at h
    intro id hid m hh
    cases e : isKwGo (kwBytes i) src false 0 with
    | hit n => rw [e] at h; simp at h
    | blank =>
      have h0 := (isKwGo_blank_iff (hne i (by simp)) src).1 e
      have h1 := (isKwGo_blank_iff (hne id hid) src).2 h0
      rw [hh] at h1; simp at h1
    | miss =>
      rw [e] at h; simp at h
      rcases List.mem_cons.1 hid with rfl | hid
      · rw [e] at hh; simp at hh
      · exact findKw_none (fun i hi => hne i (by simp [hi])) h id hid m hh

theorem Spec.Spells.le {k src : List Nat} {m : Nat} (h : Spec.Spells k src m) :
    k.length ≤ m ∧ m ≤ src.length := by
  obtain ⟨t, r, rfl, rfl, h3, _⟩ := h
  refine ⟨?_, by simp⟩
  rw [← h3]; exact List.length_filter_le _ _

/-- Two keywords spelled at the same place: one is a prefix of the other. -/
theorem Spec.Spells.prefix {k1 k2 src : List Nat} {m1 m2 : Nat} (h1 : Spec.Spells k1 src m1)
    (h2 : Spec.Spells k2 src m2) (h : m1 ≤ m2) : k1 <+: k2 := by
  obtain ⟨t1, r1, e1, rfl, f1, _⟩ := h1
  obtain ⟨t2, r2, e2, rfl, f2, _⟩ := h2
  have hp : t1 <+: t2 := by
    apply List.prefix_of_prefix_length_le (l₃ := src)
    · exact ⟨r1, e1.symm⟩
    · exact ⟨r2, e2.symm⟩
    · exact h
  obtain ⟨u, rfl⟩ := hp
  rw [← f1, ← f2, List.filter_append]
  exact List.prefix_append _ _

theorem mem_active {q : Quo} {d : Bool} {i : KwId} (h : i ∈ kwOrder.filter (active q d)) : i ∈ kwOrder :=
  (List.mem_filter.1 h).1

theorem active_ne (q : Quo) (d : Bool) : ∀ i ∈ kwOrder.filter (active q d), kwBytes i ≠ [] :=
  fun i hi => kwOrder_ne i (mem_active hi)

/-- C45.  Whatever the source and the quoting state, if a keyword is recognised then the source spells it
at that place, and every other keyword looked for in that state that the source also spells there is
strictly shorter: the longest one is taken. -/
theorem C45_longest (q : Quo) (d : Bool) (src : List Nat) (id : KwId) (m : Nat)
    (h : kwAt q d src = some (id, m)) :
    Spec.Spells (kwBytes id) src m ∧
      ∀ id' m', id' ∈ kwOrder → active q d id' = true → id' ≠ id → Spec.Spells (kwBytes id') src m' →
        (kwBytes id').length < (kwBytes id).length := by
  obtain ⟨l, r, h1, h2, h3⟩ := findKw_some (active_ne q d) h
  have hid : id ∈ kwOrder := mem_active (q := q) (d := d) (by rw [h1]; simp)
  have hs := (isKwGo_hit_iff (kwBytes_gt id) (kwOrder_ne id hid) src m).1 h2
  refine ⟨hs, ?_⟩
  intro id' m' hid' hact hne hs'
  have hmem : id' ∈ l ++ id :: r := by rw [← h1]; exact List.mem_filter.2 ⟨hid', hact⟩
  have hhit := (isKwGo_hit_iff (kwBytes_gt id') (kwOrder_ne id' hid') src m').2 hs'
  have hr : id' ∈ r := by
    rcases List.mem_append.1 hmem with hl | hr
    · have := h3 _ hl; rw [hhit] at this; simp at this
    · rcases List.mem_cons.1 hr with rfl | hr
      · exact absurd rfl hne
      · exact hr
  have hpw : (l ++ id :: r).Pairwise fun a b => ¬ (kwBytes a <+: kwBytes b) := by
    rw [← h1]; exact kwOrder_no_prefix.filter _
  have hnp := (List.pairwise_cons.1 (List.pairwise_append.1 hpw).2.1).1 id' hr
  by_cases hm : m ≤ m'
  · exact absurd (hs.prefix hs' hm) hnp
  · have hp := hs'.prefix hs (by omega)
    obtain ⟨u, hu⟩ := hp
    have hlen : (kwBytes id).length = (kwBytes id').length + u.length := by rw [← hu]; simp
    have : u ≠ [] := by
      rintro rfl
      apply hnp; rw [← hu]; simp
    have := List.length_pos_iff.2 this
    omega

/-- C45: if any keyword looked for in the state is spelled at the position, some keyword is recognised. -/
theorem C45_found (q : Quo) (d : Bool) (src : List Nat) (id : KwId) (m : Nat) (hid : id ∈ kwOrder)
    (ha : active q d id = true) (h : Spec.Spells (kwBytes id) src m) : ∃ r, kwAt q d src = some r := by
  cases e : kwAt q d src with
  | some r => exact ⟨r, rfl⟩
  | none =>
    exact absurd ((isKwGo_hit_iff (kwBytes_gt id) (kwOrder_ne id hid) src m).2 h)
      (findKw_none (active_ne q d) e id (List.mem_filter.2 ⟨hid, ha⟩) m)

/-- C45: no keyword is hidden by another: written out followed by anything that does not extend it to a
longer keyword, every keyword of the table is recognised in code position. -/
theorem C45_reachable (id : KwId) (hid : id ∈ kwOrder) (rest : List Nat)
    (hext : ∀ id' m', id' ∈ kwOrder → id' ≠ id → Spec.Spells (kwBytes id') (kwBytes id ++ rest) m' →
      m' ≤ (kwBytes id).length) :
    kwAt Quo.zero false (kwBytes id ++ rest) = some (id, (kwBytes id).length) := by
  have hact : ∀ i, active Quo.zero false i = true := by intro i; rfl
  have hsp : Spec.Spells (kwBytes id) (kwBytes id ++ rest) (kwBytes id).length := by
    refine ⟨kwBytes id, rest, rfl, rfl, ?_, ?_, ?_⟩
    · rw [List.filter_eq_self]; intro c hc; simpa using kwBytes_gt id c hc
    · intro c hc; exact kwBytes_gt id c (List.mem_of_mem_head? (by rw [hc]; rfl))
    · intro c hc; exact kwBytes_gt id c (List.mem_of_getLast? hc)
  obtain ⟨⟨id2, m2⟩, h2⟩ := C45_found Quo.zero false _ id _ hid (hact id) hsp
  have hl := C45_longest _ _ _ _ _ h2
  by_cases he : id = id2
  · subst he
    obtain ⟨l, r, h1, hh, h3⟩ := findKw_some (active_ne _ _) h2
    have := (isKwGo_hit_iff (kwBytes_gt id) (kwOrder_ne id hid) _ _).2 hsp
    rw [this] at hh; injection hh with hh
    rw [h2, ← hh]
  · exfalso
    have h3 := hl.2 id _ hid (hact id) he hsp
    obtain ⟨l, r, h1, hh, _⟩ := findKw_some (active_ne _ _) h2
    have hid2 : id2 ∈ kwOrder := mem_active (q := Quo.zero) (d := false) (by rw [h1]; simp)
    have := hext id2 m2 hid2 (fun e => he e.symm) hl.1
    have := hl.1.le.1
    omega

/-- The hypotheses are met: `小于` followed by `x` is recognised although the longer `小于等于` exists, and
`小于等于` written with a blank inside is recognised as the longer word. -/
example : kwAt Quo.zero false (utf8 c!"小于x") = some (.xiaoyu, 6) ∧
    kwAt Quo.zero false (utf8 c!"小于 等于x") = some (.xiaoyudengyu, 13) := by decide +kernel

end Zh
