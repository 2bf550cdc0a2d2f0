import Verif.Props.ParsLex
import Verif.Props.Utf8
/-!
# Cutting a text into tokens

Facts used for C16–C20: how keywords are found in an encoded text, and how tokens of a concatenation are
the concatenated tokens.
-/
namespace Zh

/-- Removing blanks and control characters. -/
def Spec.strip (s : Str) : Str := s.filter fun c => decide (32 < c.toNat)

/-- The same on bytes. -/
def stripB (a : List Nat) : List Nat := a.filter fun c => decide (32 < c)

theorem stripB_utf8 (s : Str) : stripB (utf8 s) = utf8 (Spec.strip s) := utf8_filter s

/-! ## The table -/

theorem kwBytes_ge (id : KwId) : ∀ b ∈ kwBytes id, 0x80 ≤ b := by
  cases id <;> decide

theorem kwBytes_head (id : KwId) : ∀ b, (kwBytes id).head? = some b → isCont b = false := by
  intro b hb
  cases e : kwBytes id with
  | nil => rw [e] at hb; simp at hb
  | cons x xs => rw [e] at hb; simp at hb; rw [← hb]; exact utf8_head (s := kwStr id) e

/-! ## Recognition -/

theorem kwAt_spells {q : Quo} {src : List Nat} {id : KwId} {m : Nat} (h : kwAt q false src = some (id, m)) :
    id ∈ kwOrder ∧ active q false id = true ∧ Spec.Spells (kwBytes id) src m := by
  obtain ⟨l, r, h1, h2, _⟩ := findKw_some (active_ne q false) h
  have hm : id ∈ kwOrder.filter (active q false) := by rw [h1]; simp
  exact ⟨(List.mem_filter.1 hm).1, (List.mem_filter.1 hm).2, (C45_longest q false src id m h).1⟩

theorem kwAt_none {q : Quo} {src : List Nat} (h : ∀ id ∈ kwOrder, active q false id = true → ∀ m,
    ¬ Spec.Spells (kwBytes id) src m) : kwAt q false src = none := by
  cases e : kwAt q false src with
  | none => rfl
  | some r =>
    obtain ⟨id, m⟩ := r
    obtain ⟨h1, h2, h3⟩ := kwAt_spells e
    exact absurd h3 (h id h1 h2 m)

/-- The first byte of a spelled keyword. -/
theorem Spec.Spells.head {k src : List Nat} {m : Nat} (h : Spec.Spells k src m) (hk : k ≠ []) :
    src.head? = k.head? ∧ src ≠ [] := by
  obtain ⟨t, r, rfl, _, h3, h4, _⟩ := h
  cases t with
  | nil => simp at h3; exact absurd h3 hk
  | cons c t =>
    have := h4 c rfl
    rw [← h3]
    simp [this]

theorem kwAt_cont {q : Quo} {b : Nat} {bs : List Nat} (hb : isCont b = true) :
    kwAt q false (b :: bs) = none := by
  apply kwAt_none
  intro id hid _ m hs
  have h1 := (hs.head (kwOrder_ne id hid)).1
  have := kwBytes_head id b (by rw [← h1]; rfl)
  rw [hb] at this; simp at this

theorem kwAt_blank {q : Quo} {b : Nat} {bs : List Nat} (hb : b ≤ 32) : kwAt q false (b :: bs) = none := by
  apply kwAt_none
  intro id hid _ m hs
  have h1 := (hs.head (kwOrder_ne id hid)).1
  have := kwBytes_gt id b (List.mem_of_mem_head? (by rw [← h1]; rfl))
  omega

/-- Cutting an encoding anywhere. -/
theorem utf8_cut_any (s : Str) : ∀ (p r : List Nat), utf8 s = p ++ r →
    (∃ s1 s2, s = s1 ++ s2 ∧ utf8 s1 = p ∧ utf8 s2 = r) ∨
    (∃ s1 c s2 p1 p2, s = s1 ++ c :: s2 ∧ encChar c = p1 ++ p2 ∧ p1 ≠ [] ∧ p2 ≠ [] ∧ p = utf8 s1 ++ p1 ∧
      r = p2 ++ utf8 s2) := by
  induction s with
  | nil =>
    intro p r h
    have h : p = [] ∧ r = [] := by simpa using h.symm
    exact .inl ⟨[], [], rfl, by simp [h.1], by simp [h.2]⟩
  | cons c s ih =>
    intro p r h
    rw [utf8_cons] at h
    rcases List.append_eq_append_iff.1 h with ⟨u, hu1, hu2⟩ | ⟨u, hu1, hu2⟩
    · rcases ih u r hu2 with ⟨s1, s2, rfl, e1, e2⟩ | ⟨s1, d, s2, p1, p2, rfl, e1, e2, e3, e4, e5⟩
      · exact .inl ⟨c :: s1, s2, rfl, by rw [utf8_cons, e1, hu1], e2⟩
      · exact .inr ⟨c :: s1, d, s2, p1, p2, rfl, e1, e2, e3, by rw [utf8_cons, hu1, e4]; simp, e5⟩
    · by_cases hu : u = []
      · subst hu
        simp at hu1 hu2
        exact .inl ⟨[c], s, rfl, by simp [utf8, hu1], hu2.symm⟩
      · by_cases hp : p = []
        · subst hp
          exact .inl ⟨[], c :: s, rfl, rfl, by rw [utf8_cons, hu2, hu1]; simp⟩
        · exact .inr ⟨[], c, s, p, u, rfl, hu1, hp, hu, by simp, hu2⟩

/-- A recognised keyword ends at a character boundary. -/
theorem kwAt_cut {q : Quo} {s : Str} {id : KwId} {m : Nat} (h : kwAt q false (utf8 s) = some (id, m)) :
    ∃ s1 s2, s = s1 ++ s2 ∧ (utf8 s1).length = m ∧ utf8 s2 = (utf8 s).drop m ∧ Spec.strip s1 = kwStr id ∧
      (∀ c, s1.head? = some c → 32 < c.toNat) ∧ (∀ c, s1.getLast? = some c → 32 < c.toNat) := by
  obtain ⟨hid, hact, t, r, h1, h2, h3, h4, h5⟩ := kwAt_spells h
  rcases utf8_cut_any s t r h1 with ⟨s1, s2, e0, e1, e2⟩ | ⟨s1, c, s2, p1, p2, e0, e1, e2, e3, e4, e5⟩
  · refine ⟨s1, s2, e0, by rw [e1, h2], ?_, ?_, ?_, ?_⟩
    · rw [h1, e2, ← h2]; simp
    · apply utf8_inj
      rw [← stripB_utf8, e1]; exact h3
    · intro c hc
      cases s1 with
      | nil => simp at hc
      | cons d s1 =>
        simp at hc; subst hc
        obtain ⟨b, bs, hb, _, _, hb3, _⟩ := encChar_shape d
        apply hb3.1
        apply h4
        rw [← e1, utf8_cons, hb]; rfl
    · intro c hc
      obtain ⟨s0, rfl⟩ : ∃ s0, s1 = s0 ++ [c] := by
        have := List.getLast?_eq_some_iff.1 hc
        exact this
      obtain ⟨b, bs, hb, hb1, hb2, hb3, hb4, _⟩ := encChar_shape c
      apply hb3.1
      cases bs with
      | nil =>
        apply h5
        rw [← e1, utf8_append]
        simp [utf8, hb]
      | cons y ys => have := hb4 (by simp); omega
  · exfalso
    -- a proper prefix of an encoding would be an encoding
    obtain ⟨b, bs, hb, hb1, hb2, hb3, hb4, _⟩ := encChar_shape c
    have hbs : bs ≠ [] := by
      rintro rfl
      rw [hb] at e1
      have := congrArg List.length e1
      simp at this
      have h1 := List.length_pos_iff.2 e2
      have h2 := List.length_pos_iff.2 e3
      omega
    have hgt : ∀ x ∈ p1, 32 < x := by
      intro x hx
      have : x ∈ b :: bs := by rw [← hb, e1]; simp [hx]
      rcases List.mem_cons.1 this with rfl | hx
      · have := hb4 hbs; omega
      · have := (isCont_gt (hb2 x hx)).1; omega
    have hf : utf8 (kwStr id) = utf8 (Spec.strip s1) ++ p1 := by
      have : kwBytes id = stripB t := h3.symm
      rw [kwBytes] at this
      rw [this, e4, stripB, List.filter_append, utf8_filter]
      congr 1
      rw [List.filter_eq_self]; intro x hx; simpa using hgt x hx
    obtain ⟨k1, k2, hk, hk1, hk2⟩ := utf8_cut _ _ _ hf (by
      intro x hx
      cases p1 with
      | nil => exact absurd rfl e2
      | cons y ys =>
        simp at hx; subst hx
        rw [hb] at e1
        simp at e1
        rw [← e1.1]; exact hb1)
    -- `p1 = utf8 k2` is a proper prefix of `encChar c`
    cases k2 with
    | nil => simp at hk2; first | exact e2 hk2 | exact e2 hk2.symm
    | cons d k2 =>
      have h6 : decode (encChar c) = some [c] := by
        have := decode_utf8 [c]
        simpa [utf8] using this
      rw [e1, ← hk2, utf8_cons, List.append_assoc, decode_enc] at h6
      cases e : decode (utf8 k2 ++ p2) with
      | none => rw [e] at h6; simp at h6
      | some x =>
        rw [e] at h6; simp at h6
        obtain ⟨rfl, rfl⟩ := h6
        have hcd : encChar d = encChar d ++ (utf8 k2 ++ p2) := by
          have h8 := e1
          rw [← hk2, utf8_cons, List.append_assoc] at h8
          exact h8
        have := congrArg List.length hcd
        simp only [List.length_append] at this
        exact e3 (List.length_eq_zero_iff.1 (by omega))

/-- A keyword of one character. -/
theorem kwAt_single {q : Quo} {s : Str} {id : KwId} {m : Nat} {k : Char}
    (h : kwAt q false (utf8 s) = some (id, m)) (hk : kwStr id = [k]) :
    ∃ s', s = k :: s' ∧ m = (encChar k).length := by
  obtain ⟨s1, s2, rfl, h2, _, h4, h5, h6⟩ := kwAt_cut h
  rw [hk] at h4
  cases s1 with
  | nil => simp [Spec.strip] at h4
  | cons c s1 =>
    have hc := h5 c rfl
    simp only [Spec.strip, List.filter_cons, hc, decide_true, if_true, List.cons.injEq] at h4
    obtain ⟨rfl, h4⟩ := h4
    have : s1 = [] := by
      rcases List.eq_nil_or_concat s1 with h | ⟨l, d, rfl⟩
      · exact h
      · have hd := h6 d (by simp [List.getLast?_cons])
        simp [List.filter_append, hd] at h4
    subst this
    exact ⟨s2, rfl, by rw [← h2]; simp [utf8]⟩

/-- No other keyword of the table begins with this one or is its beginning. -/
def Isolated (id : KwId) : Prop :=
  ∀ id' ∈ kwOrder, id' ≠ id → ¬ (kwBytes id <+: kwBytes id') ∧ ¬ (kwBytes id' <+: kwBytes id)
instance (id : KwId) : Decidable (Isolated id) := by unfold Isolated; infer_instance

theorem kwAt_hit {q : Quo} {id : KwId} (hid : id ∈ kwOrder) (hi : Isolated id)
    (ha : active q false id = true) (rest : List Nat) :
    kwAt q false (kwBytes id ++ rest) = some (id, (kwBytes id).length) := by
  have hsp : Spec.Spells (kwBytes id) (kwBytes id ++ rest) (kwBytes id).length := by
    refine ⟨kwBytes id, rest, rfl, rfl, ?_, ?_, ?_⟩
    · rw [List.filter_eq_self]; intro c hc; simpa using kwBytes_gt id c hc
    · intro c hc; exact kwBytes_gt id c (List.mem_of_mem_head? (by rw [hc]; rfl))
    · intro c hc; exact kwBytes_gt id c (List.mem_of_getLast? hc)
  obtain ⟨⟨id2, m2⟩, h2⟩ := C45_found q false _ id _ hid ha hsp
  obtain ⟨hid2, ha2, hs2⟩ := kwAt_spells h2
  by_cases he : id2 = id
  · subst he
    rw [h2]
    obtain ⟨l, r, h1, hh, h3⟩ := findKw_some (active_ne _ _) h2
    have := (isKwGo_hit_iff (kwBytes_gt id2) (kwOrder_ne id2 hid) _ _).2 hsp
    rw [this] at hh; injection hh with hh
    rw [← hh]
  · exfalso
    have := hi id2 hid2 he
    rcases Nat.le_total (kwBytes id).length m2 with hl | hl
    · exact this.1 (hsp.prefix hs2 hl)
    · exact this.2 (hs2.prefix hsp hl)

/-- A character that no keyword starts at. -/
theorem lex_char {q : Quo} {c : Char} {s : Str} (h : kwAt q false (utf8 (c :: s)) = none) :
    lex q (utf8 (c :: s)) =
      (if q.keep c.toNat then (encChar c).map (LTok.byte · q.inText) else []) ++ lex q (utf8 s) := by
  obtain ⟨b, bs, hb, hb1, hb2, hb3, hb4, _, hb5⟩ := encChar_shape c
  have hcont : ∀ (l : List Nat), (∀ x ∈ l, isCont x = true) →
      lex q (l ++ utf8 s) = (if q.keep 200 then l.map (LTok.byte · q.inText) else []) ++ lex q (utf8 s) := by
    intro l
    induction l with
    | nil => intro _; simp
    | cons x l ih =>
      intro hl
      have hx := hl x (by simp)
      rw [List.cons_append, lex_cons_miss (kwAt_cont hx), ih (fun y hy => hl y (by simp [hy]))]
      have : q.keep x = q.keep 200 := by
        have := (isCont_gt hx).1
        simp only [Quo.keep]
        have h1 : 32 ≤ x := by omega
        have h2 : 32 < x := by omega
        simp [h1, h2]
      rw [this]
      split <;> simp
  rw [utf8_cons, hb, List.cons_append] at h ⊢
  rw [lex_cons_miss h, hcont bs hb2]
  have hkc : q.keep c.toNat = q.keep b := by
    have hb3' : (decide (32 < b)) = decide (32 < c.toNat) := decide_eq_decide.2 hb3
    have hb5' : (decide (32 ≤ b)) = decide (32 ≤ c.toNat) := decide_eq_decide.2 hb5
    simp only [Quo.keep, hb3', hb5']
  rw [hkc]
  cases bs with
  | nil => split <;> simp
  | cons y ys =>
    have : q.keep b = q.keep 200 := by
      have := hb4 (by simp)
      simp only [Quo.keep]
      have h1 : 32 ≤ b := by omega
      have h2 : 32 < b := by omega
      simp [h1, h2]
    rw [this]
    split <;> simp

/-! ## Concatenation -/

/-- The quoting state after a source. -/
def lexEnd (q : Quo) : List Nat → Quo
  | [] => q
  | c :: cs =>
    match kwAt q false (c :: cs) with
    | some (id, m) => lexEnd (lexKw q id).1 (cs.drop (m - 1))
    | none => lexEnd q cs
termination_by s => s.length
decreasing_by all_goals simp <;> omega

theorem lexEnd_nil (q : Quo) : lexEnd q [] = q := by rw [lexEnd]

theorem lexEnd_hit {q : Quo} {src : List Nat} {id : KwId} {m : Nat}
    (h : kwAt q false src = some (id, m)) : lexEnd q src = lexEnd (lexKw q id).1 (src.drop m) := by
  have hm := kwAt_len h
  cases src with
  | nil => simp at hm; omega
  | cons c cs =>
    rw [lexEnd, h]
    simp only
    congr 1
    obtain ⟨k, rfl⟩ : ∃ k, m = k + 1 := ⟨m - 1, by omega⟩
    simp

theorem lexEnd_miss {q : Quo} {c : Nat} {cs : List Nat} (h : kwAt q false (c :: cs) = none) :
    lexEnd q (c :: cs) = lexEnd q cs := by
  rw [lexEnd, h]

/-- No keyword is spelled across the border. -/
def NoStraddle (u v : List Nat) : Prop :=
  ∀ u1 u2, u = u1 ++ u2 → u2 ≠ [] → ∀ id ∈ kwOrder, ∀ m, Spec.Spells (kwBytes id) (u2 ++ v) m →
    m ≤ u2.length

theorem NoStraddle.drop {u v : List Nat} (h : NoStraddle u v) (k : Nat) : NoStraddle (u.drop k) v := by
  intro u1 u2 hu hne
  exact h (u.take k ++ u1) u2 (by rw [List.append_assoc, ← hu, List.take_append_drop]) hne

theorem Spec.Spells.shorter {k u v : List Nat} {m : Nat} (h : Spec.Spells k (u ++ v) m) (hm : m ≤ u.length) :
    Spec.Spells k u m := by
  obtain ⟨t, r, h1, h2, h3, h4, h5⟩ := h
  refine ⟨t, u.drop m, ?_, h2, h3, h4, h5⟩
  have : t = u.take m := by
    have h6 := congrArg (List.take m) h1
    rw [List.take_append_of_le_length hm] at h6
    rw [h6, ← h2]; simp
  rw [this]; exact (List.take_append_drop m u).symm

theorem Spec.Spells.longer {k u v : List Nat} {m : Nat} (h : Spec.Spells k u m) :
    Spec.Spells k (u ++ v) m := by
  obtain ⟨t, r, rfl, h2, h3, h4, h5⟩ := h
  exact ⟨t, r ++ v, by simp, h2, h3, h4, h5⟩

theorem findKw_congr {a b : List Nat} : ∀ (ids : List KwId),
    (∀ id ∈ ids, isKwGo (kwBytes id) a false 0 = isKwGo (kwBytes id) b false 0) →
    findKw a ids = findKw b ids
  | [], _ => rfl
  | id :: ids, h => by
    simp only [findKw, h id (by simp), findKw_congr ids (fun i hi => h i (by simp [hi]))]

/-- Recognition is not changed by what follows. -/
theorem kwAt_append {q : Quo} {u v : List Nat} (hu : u ≠ []) (h : NoStraddle u v) :
    kwAt q false (u ++ v) = kwAt q false u := by
  apply findKw_congr
  intro id hid
  have hid' := mem_active hid
  have hne := kwOrder_ne id hid'
  have hgt := kwBytes_gt id
  have hb1 := isKwGo_blank_iff hne (u ++ v)
  have hb2 := isKwGo_blank_iff hne u
  have hh : (u ++ v).head? = u.head? := by cases u <;> simp_all
  rw [hh, ← hb2] at hb1
  have hk : ∀ m, isKwGo (kwBytes id) (u ++ v) false 0 = .hit m ↔ isKwGo (kwBytes id) u false 0 = .hit m := by
    intro m
    rw [isKwGo_hit_iff hgt hne, isKwGo_hit_iff hgt hne]
    exact ⟨fun hs => hs.shorter (h [] u rfl hu id hid' m hs), fun hs => hs.longer⟩
  cases e : isKwGo (kwBytes id) u false 0 with
  | hit m => rw [(hk m).2 e]
  | blank => rw [hb1.2 e]
  | miss =>
    cases e2 : isKwGo (kwBytes id) (u ++ v) false 0 with
    | hit m => rw [(hk m).1 e2] at e; simp at e
    | blank => rw [hb1.1 e2] at e; simp at e
    | miss => rfl

theorem lex_append (q : Quo) (u v : List Nat) (h : NoStraddle u v) :
    lex q (u ++ v) = lex q u ++ lex (lexEnd q u) v ∧ lexEnd q (u ++ v) = lexEnd (lexEnd q u) v := by
  generalize hn : u.length = n
  induction n using Nat.strongRecOn generalizing q u with
  | ind n ih =>
    cases u with
    | nil => simp [lex_nil, lexEnd_nil]
    | cons c cs =>
      have ha := kwAt_append (q := q) (by simp) h
      cases e : kwAt q false (c :: cs) with
      | none =>
        rw [e] at ha
        rw [List.cons_append] at ha ⊢
        rw [lex_cons_miss ha, lex_cons_miss e, lexEnd_miss ha, lexEnd_miss e]
        have := ih cs.length (by simp at hn; omega) q cs (by simpa using h.drop 1) rfl
        rw [this.1, this.2]
        simp
      | some r =>
        obtain ⟨id, m⟩ := r
        rw [e] at ha
        have hm := kwAt_len e
        rw [lex_cons_hit ha, lex_cons_hit e, lexEnd_hit ha, lexEnd_hit e]
        rw [List.drop_append_of_le_length hm.2.2]
        have := ih ((c :: cs).drop m).length (by simp at hn ⊢; omega) (lexKw q id).1 _ (h.drop m) rfl
        rw [this.1, this.2]
        simp

/-- No keyword is formed across the border of two texts: no keyword consists of an end of the first (blanks
not counted) and a beginning of the second. -/
def Spec.NoJoin (u v : Str) : Prop :=
  ∀ id ∈ kwOrder, ∀ k1 k2, kwStr id = k1 ++ k2 → k1 ≠ [] → k2 ≠ [] →
    ¬ (k1 <:+ Spec.strip u ∧ k2 <+: Spec.strip v)

theorem noStraddle_of_noJoin {u v : Str} (h : Spec.NoJoin u v) : NoStraddle (utf8 u) (utf8 v) := by
  intro u1 u2 hu hne id hid m hs
  apply Classical.byContradiction
  intro hm
  obtain ⟨t, r, h1, h2, h3, h4, h5⟩ := hs
  -- `t = u2 ++ v1`
  obtain ⟨v1, rfl⟩ : ∃ v1, t = u2 ++ v1 := by
    rcases List.append_eq_append_iff.1 h1 with ⟨x, hx, _⟩ | ⟨x, hx, _⟩
    · exact ⟨x, hx⟩
    · have := congrArg List.length hx; simp at this; omega
  have hv : utf8 v = v1 ++ r := by
    rw [List.append_assoc] at h1; exact List.append_cancel_left h1
  have hv1 : v1 ≠ [] := by
    rintro rfl; simp at h2; omega
  rw [List.filter_append] at h3
  -- both parts are not empty
  have hu2 : stripB u2 ≠ [] := by
    cases u2 with
    | nil => exact absurd rfl hne
    | cons x xs => have := h4 x rfl; simp [stripB, this]
  have hk2 : stripB v1 ≠ [] := by
    rcases List.eq_nil_or_concat v1 with h | ⟨l, d, rfl⟩
    · exact absurd h hv1
    · have := h5 d (by simp)
      simp [stripB, this]
  -- the second part starts at a character
  have hhead : ∀ b, (stripB v1).head? = some b → isCont b = false := by
    intro b hb
    have : utf8 (Spec.strip v) = stripB v1 ++ stripB r := by
      rw [← stripB_utf8, hv, stripB, List.filter_append]; rfl
    cases e : stripB v1 with
    | nil => exact absurd e hk2
    | cons x xs =>
      rw [e] at hb this
      simp at hb; subst hb
      exact utf8_head this
  obtain ⟨k1, k2, hk, e1, e2⟩ := utf8_cut (kwStr id) (stripB u2) (stripB v1) (by rw [← kwBytes]; exact h3.symm)
    hhead
  refine h id hid k1 k2 hk ?_ ?_ ⟨?_, ?_⟩
  · rintro rfl; exact hu2 e1.symm
  · rintro rfl; exact hk2 e2.symm
  · apply utf8_suffix
    rw [e1, ← stripB_utf8, hu]
    unfold stripB
    rw [List.filter_append]
    exact List.suffix_append _ _
  · apply utf8_prefix
    rw [e2, ← stripB_utf8, hv]
    unfold stripB
    rw [List.filter_append]
    exact List.prefix_append _ _

/-! ## Blocks -/

theorem blockLen_utf8 (s : Str) : BlockLen (utf8 s) := by
  intro i q m h
  have hs := utf8_cut_any s ((utf8 s).take i) ((utf8 s).drop i) (List.take_append_drop _ _).symm
  rcases hs with ⟨s1, s2, e0, e1, e2⟩ | ⟨s1, c, s2, p1, p2, e0, e1, e2, e3, e4, e5⟩
  · rw [← e2] at h
    obtain ⟨s', _, hm⟩ := kwAt_single h (k := '先') rfl
    rw [hm]; rfl
  · rw [e5] at h
    obtain ⟨b, bs, hb, hb1, hb2, _⟩ := encChar_shape c
    cases p2 with
    | nil => exact absurd rfl e3
    | cons x xs =>
      have hx : isCont x = true := by
        apply hb2
        cases p1 with
        | nil => exact absurd rfl e2
        | cons y ys =>
          rw [hb] at e1; simp at e1
          rw [e1.2]; simp
      rw [List.cons_append, kwAt_cont hx] at h
      simp at h

/-- Same program; errors may differ only in the quoted part of the source. -/
def Spec.SameParse (x y : Out (Except Err (List Code))) : Prop :=
  match x, y with
  | .ok (.ok p), .ok (.ok p') => p = p'
  | .ok (.error e), .ok (.error e') => e.i = e'.i ∧ e.i2 = e'.i2 ∧ e.s = e'.s
  | .panic, .panic => True
  | _, _ => False

/-- The parser on a text is the token parser on its tokens. -/
theorem parse_tokens (s : Str) (m : Nat) (hm : (utf8 s).length < m) :
    match parsT m 0 none [] PS.init (lex Quo.zero (utf8 s)) with
    | .ok r => parse s = .ok (.ok r.1.c1)
    | .err e _ => ∃ i, parse s = .ok (.error (ret3 (utf8 s) e i))
    | .panic => parse s = .panic
    | .fuel => False := by
  have h := pars_lex (blockLen_utf8 s) ((utf8 s).length + 1) 0 none [] PS.init rfl rfl (by simp [PS.init]) m
    (by simp [PS.init]; omega)
  have h0 : PS.init.er = PS.init := rfl
  rw [h0] at h
  have h1 : lex PS.init.is.q ((utf8 s).drop PS.init.i) = lex Quo.zero (utf8 s) := rfl
  rw [h1] at h
  unfold parse parseBytes
  cases e1 : pars (utf8 s) ((utf8 s).length + 1) 0 none [] PS.init with
  | ok r =>
    rw [e1] at h
    cases e2 : parsT m 0 none [] PS.init (lex Quo.zero (utf8 s)) with
    | ok r' =>
      rw [e2] at h
      obtain ⟨r', ts⟩ := r'
      obtain ⟨rfl, _⟩ := h
      rfl
    | err => rw [e2] at h; exact h.elim
    | panic => rw [e2] at h; exact h.elim
    | fuel => rw [e2] at h; exact h.elim
  | err e i =>
    rw [e1] at h
    cases e2 : parsT m 0 none [] PS.init (lex Quo.zero (utf8 s)) with
    | ok r' => rw [e2] at h; exact h.elim
    | err e' i' =>
      rw [e2] at h
      have h : e = e' := h
      subst h
      exact ⟨i, rfl⟩
    | panic => rw [e2] at h; exact h.elim
    | fuel => rw [e2] at h; exact h.elim
  | panic =>
    rw [e1] at h
    cases e2 : parsT m 0 none [] PS.init (lex Quo.zero (utf8 s)) with
    | ok r' => rw [e2] at h; exact h.elim
    | err => rw [e2] at h; exact h.elim
    | panic => rfl
    | fuel => rw [e2] at h; exact h.elim
  | fuel =>
    rw [e1] at h
    cases e2 : parsT m 0 none [] PS.init (lex Quo.zero (utf8 s)) <;> (rw [e2] at h; exact h.elim)

/-- Texts with the same tokens parse to the same program. -/
theorem sameParse_of_lex {s t : Str} (h : lex Quo.zero (utf8 s) = lex Quo.zero (utf8 t)) :
    Spec.SameParse (parse s) (parse t) := by
  have h1 := parse_tokens s ((utf8 s).length + (utf8 t).length + 1) (by omega)
  have h2 := parse_tokens t ((utf8 s).length + (utf8 t).length + 1) (by omega)
  rw [h] at h1
  cases e : parsT ((utf8 s).length + (utf8 t).length + 1) 0 none [] PS.init (lex Quo.zero (utf8 t)) with
  | ok r => rw [e] at h1 h2; rw [h1, h2]; rfl
  | err e' i =>
    rw [e] at h1 h2
    obtain ⟨i1, h1⟩ := h1
    obtain ⟨i2, h2⟩ := h2
    rw [h1, h2]
    exact ⟨rfl, rfl, rfl⟩
  | panic => rw [e] at h1 h2; rw [h1, h2]; trivial
  | fuel => rw [e] at h1; exact h1.elim

end Zh
