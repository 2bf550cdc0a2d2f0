import Verif.Model.Pars
/-!
# Facts about UTF-8
-/
namespace Zh

theorem charNat_lt (c : Char) : c.toNat < 0x110000 := by
  have := c.valid
  rcases this with h | h
  · exact Nat.lt_trans h (by decide)
  · exact h.2

/-- A first byte that is not a continuation byte, followed by continuation bytes. -/
theorem encChar_shape (c : Char) : ∃ b bs, encChar c = b :: bs ∧ isCont b = false ∧
    (∀ x ∈ bs, isCont x = true) ∧ (32 < b ↔ 32 < c.toNat) ∧ (bs ≠ [] → 0xC0 ≤ b) ∧
    (b = 0xE5 → bs.length = 2) ∧ (32 ≤ b ↔ 32 ≤ c.toNat) := by
  have hc := charNat_lt c
  unfold encChar
  simp only
  generalize c.toNat = v at *
  by_cases h1 : v < 0x80
  · exact ⟨v, [], by simp [h1], by simp [isCont]; omega, by simp, Iff.rfl, by simp, by omega, Iff.rfl⟩
  · by_cases h2 : v < 0x800
    · exact ⟨_, _, by simp [h1, h2]; exact ⟨rfl, rfl⟩, by simp [isCont], by simp [isCont]; omega, by omega,
        by simp, by omega, by omega⟩
    · by_cases h3 : v < 0x10000
      · exact ⟨_, _, by simp [h1, h2, h3]; exact ⟨rfl, rfl⟩, by simp [isCont]; omega,
          by simp [isCont]; omega, by omega, by simp; omega, by simp, by omega⟩
      · exact ⟨_, _, by simp [h1, h2, h3]; exact ⟨rfl, rfl⟩, by simp [isCont]; omega,
          by simp [isCont]; omega, by omega, by simp; omega, by omega, by omega⟩

theorem isCont_gt {b : Nat} (h : isCont b = true) : 0x80 ≤ b ∧ b < 0xC0 := by
  simpa [isCont] using h

theorem char_ofNat_toNat (c : Char) : Char.ofNat c.toNat = c := by
  simp

theorem char_valid (c : Char) : c.toNat.isValidChar := c.valid

/-- Decoding inverts encoding. -/
theorem decode_enc (c : Char) (r : List Nat) : decode (encChar c ++ r) = (decode r).map (c :: ·) := by
  have hc := charNat_lt c
  have hv := char_valid c
  have ho := char_ofNat_toNat c
  unfold encChar
  simp only
  generalize c.toNat = v at *
  by_cases h1 : v < 0x80
  · simp only [h1, if_true, List.singleton_append]
    rw [decode.eq_def]; simp only; rw [if_pos h1, ho]
  · simp only [h1, if_false]
    by_cases h2 : v < 0x800
    · simp only [h2, if_true, List.cons_append, List.nil_append]
      rw [decode.eq_def]; simp only; rw [if_neg (by omega)]
      have hk : isCont (0x80 + v % 64) = true := by simp [isCont]; omega
      simp only [hk, Bool.not_true, Bool.false_eq_true, if_false]
      rw [if_pos (by omega)]
      rw [show (0xC0 + v / 64 - 0xC0) * 64 + (0x80 + v % 64 - 0x80) = v by omega, ho]
    · simp only [h2, if_false]
      by_cases h3 : v < 0x10000
      · simp only [h3, if_true, List.cons_append, List.nil_append]
        rw [decode.eq_def]; simp only; rw [if_neg (by omega)]
        have hk1 : isCont (0x80 + v / 64 % 64) = true := by simp [isCont]; omega
        have hk2 : isCont (0x80 + v % 64) = true := by simp [isCont]; omega
        simp only [hk1, hk2, Bool.not_true, Bool.false_eq_true, if_false]
        rw [if_neg (by omega), if_pos (by omega)]
        have e : (0xE0 + v / 4096 - 0xE0) * 4096 + (0x80 + v / 64 % 64 - 0x80) * 64 + (0x80 + v % 64 - 0x80)
            = v := by omega
        rw [e, if_pos ⟨by omega, hv⟩, ho]
      · simp only [h3, if_false, List.cons_append, List.nil_append]
        rw [decode.eq_def]; simp only; rw [if_neg (by omega)]
        have hk0 : isCont (0x80 + v / 4096 % 64) = true := by simp [isCont]; omega
        have hk1 : isCont (0x80 + v / 64 % 64) = true := by simp [isCont]; omega
        have hk2 : isCont (0x80 + v % 64) = true := by simp [isCont]; omega
        simp only [hk0, hk1, hk2, Bool.not_true, Bool.false_eq_true, if_false]
        rw [if_neg (by omega), if_neg (by omega), if_pos (by omega)]
        have e : (0xF0 + v / 262144 - 0xF0) * 262144 + (0x80 + v / 4096 % 64 - 0x80) * 4096 +
            (0x80 + v / 64 % 64 - 0x80) * 64 + (0x80 + v % 64 - 0x80) = v := by omega
        rw [e, if_pos ⟨by omega, hv⟩, ho]

theorem utf8_cons (c : Char) (s : Str) : utf8 (c :: s) = encChar c ++ utf8 s := by simp [utf8]
theorem utf8_append (s t : Str) : utf8 (s ++ t) = utf8 s ++ utf8 t := by simp [utf8]
@[simp] theorem utf8_nil : utf8 [] = [] := rfl

theorem decode_utf8 (s : Str) : decode (utf8 s) = some s := by
  induction s with
  | nil => rw [utf8_nil, decode]
  | cons c s ih => rw [utf8_cons, decode_enc, ih]; rfl

theorem utf8_inj {s t : Str} (h : utf8 s = utf8 t) : s = t := by
  have h1 := decode_utf8 s
  rw [h, decode_utf8] at h1
  exact (Option.some.inj h1).symm

theorem utf8_eq_nil {s : Str} : utf8 s = [] ↔ s = [] := by
  constructor
  · intro h; exact utf8_inj h
  · rintro rfl; rfl

/-- The first byte of a text is not a continuation byte. -/
theorem utf8_head {s : Str} {b : Nat} {bs : List Nat} (h : utf8 s = b :: bs) : isCont b = false := by
  cases s with
  | nil => simp at h
  | cons c s =>
    obtain ⟨x, xs, hx, h1, _⟩ := encChar_shape c
    rw [utf8_cons, hx] at h
    simp at h
    rw [← h.1]; exact h1

/-- Where the encoding of a text is cut before a byte that starts a character, the text is cut. -/
theorem utf8_cut (s : Str) : ∀ (p : List Nat) (r : List Nat), utf8 s = p ++ r →
    (∀ b, r.head? = some b → isCont b = false) → ∃ s1 s2, s = s1 ++ s2 ∧ utf8 s1 = p ∧ utf8 s2 = r := by
  induction s with
  | nil =>
    intro p r h _
    have h : p = [] ∧ r = [] := by simpa using h.symm
    exact ⟨[], [], rfl, by simp [h.1], by simp [h.2]⟩
  | cons c s ih =>
    intro p r h hr
    cases p with
    | nil => exact ⟨[], c :: s, rfl, rfl, by simpa using h⟩
    | cons b p =>
      obtain ⟨x, xs, hx, h1, h2, _⟩ := encChar_shape c
      rw [utf8_cons] at h
      rcases List.append_eq_append_iff.1 h with ⟨u, hu1, hu2⟩ | ⟨u, hu1, hu2⟩
      · -- p is at least the first character
        obtain ⟨s1, s2, rfl, e1, e2⟩ := ih u r hu2 hr
        exact ⟨c :: s1, s2, rfl, by rw [utf8_cons, e1, hu1], e2⟩
      · cases u with
        | nil =>
          simp at hu1 hu2
          exact ⟨[c], s, rfl, by simp [utf8, hu1], hu2.symm⟩
        | cons y u =>
          exfalso
          have hy := hr y (by rw [hu2]; rfl)
          rw [hx] at hu1
          simp only [List.cons_append, List.cons.injEq] at hu1
          have := h2 y (by rw [hu1.2]; simp)
          rw [hy] at this; simp at this

/-- Removing blanks commutes with encoding. -/
theorem utf8_filter (s : Str) : (utf8 s).filter (fun c => decide (32 < c)) =
    utf8 (s.filter fun c => decide (32 < c.toNat)) := by
  induction s with
  | nil => rfl
  | cons c s ih =>
    rw [utf8_cons, List.filter_append, ih]
    obtain ⟨b, bs, hb, h1, h2, h3, h4, _⟩ := encChar_shape c
    have hbs : ∀ x ∈ bs, decide (32 < x) = true := fun x hx => by
      have := (isCont_gt (h2 x hx)).1
      simp; omega
    have hbs' : bs.filter (fun c => decide (32 < c)) = bs := List.filter_eq_self.2 hbs
    by_cases hc : 32 < c.toNat
    · have hb32 := h3.2 hc
      simp only [List.filter_cons, hc, decide_true, if_true, utf8_cons]
      rw [hb]; simp [hb32, hbs']
    · have hb32 : ¬ 32 < b := fun h => hc (h3.1 h)
      have : bs = [] := by
        cases bs with
        | nil => rfl
        | cons y ys => have := h4 (by simp); omega
      subst this
      simp [hc, hb, hb32]

/-- `utf8 s` as a suffix determines `s` as a suffix. -/
theorem utf8_suffix {s t : Str} (h : utf8 s <:+ utf8 t) : s <:+ t := by
  obtain ⟨p, hp⟩ := h
  cases s with
  | nil => exact List.nil_suffix
  | cons c s =>
    obtain ⟨s1, s2, rfl, _, e⟩ := utf8_cut t p (utf8 (c :: s)) hp.symm (by
      intro b hb
      cases e : utf8 (c :: s) with
      | nil => rw [e] at hb; simp at hb
      | cons x xs => rw [e] at hb; simp at hb; rw [← hb]; exact utf8_head e)
    rw [← utf8_inj e]
    exact List.suffix_append _ _

theorem utf8_prefix {s t : Str} (h : utf8 s <+: utf8 t) : s <+: t := by
  obtain ⟨r, hr⟩ := h
  induction s generalizing t with
  | nil => exact List.nil_prefix
  | cons c s ih =>
    cases t with
    | nil =>
      obtain ⟨b, bs, hb, _⟩ := encChar_shape c
      rw [utf8_cons, hb] at hr; simp at hr
    | cons d t =>
      have h1 := congrArg decode hr
      rw [decode_utf8, utf8_cons, List.append_assoc, decode_enc] at h1
      cases e : decode (utf8 s ++ r) with
      | none => rw [e] at h1; simp at h1
      | some x =>
        rw [e] at h1; simp at h1
        obtain ⟨rfl, rfl⟩ := h1
        have : utf8 s ++ r = utf8 x := by
          rw [utf8_cons, utf8_cons, List.append_assoc] at hr
          exact List.append_cancel_left hr
        obtain ⟨z, rfl⟩ := ih this
        exact ⟨z, rfl⟩

/-- Every byte is below 256. -/
theorem utf8_lt (s : Str) : ∀ b ∈ utf8 s, b < 256 := by
  intro b hb
  simp only [utf8, List.mem_flatMap] at hb
  obtain ⟨c, _, hb⟩ := hb
  have hc := charNat_lt c
  unfold encChar at hb
  simp only at hb
  generalize c.toNat = v at *
  split at hb
  · simp at hb; omega
  · split at hb
    · simp at hb; omega
    · split at hb
      · simp at hb; omega
      · simp at hb; omega

end Zh
