import Verif.Props.Split
import Verif.Props.Cmp
/-!
# C51, C52, C56: open quotes, truth of a text, reading numbers
-/
namespace Zh
open Spec

/-! ## C51: quotes that are not closed, and quoted fields -/

theorem split2Go_open {seps : List Char} {spYes yange yangend : Bool} (q : Char) (s : List Char) (cur : Str) (b : Bool)
    (h : q ∉ s) : split2Go seps spYes yange yangend s (some q) cur b = [cur ++ s] := by
  induction s generalizing cur with
  | nil => simp [split2Go]
  | cons c s ih =>
    have hc : c ≠ q := fun e => h (by simp [e])
    simp only [split2Go, hc, if_false]
    rw [ih _ (fun e => h (by simp [e]))]
    simp

/-- **C51.**  A quote that is not closed reaches to the end of the line: the words before it are as usual, and the last
word is what stands before the quote in the same word and everything after it, with its blanks and separators. -/
theorem C51_split_open (lead : List Char) (hl : ∀ c ∈ lead, blank c = true) (line : List (List Piece × List Char))
    (h : LineOk line) (hsp : ∀ x ∈ line, x.2 ≠ []) (w : List Piece) (hw : ∀ p ∈ w, p.Ok) (q : Char)
    (hq : quote q = true) (rest : Str) (hr : q ∉ rest) :
    split (lead ++ (lineText line ++ (wordText w ++ q :: rest))) =
      line.map (fun w => wordValue w.1) ++ [wordValue w ++ rest] := by
  unfold split split2
  rw [split_blanks _ _ hl]
  induction line with
  | nil =>
    have hq' : q = '"' ∨ q = '\'' := by simpa [quote] using hq
    simp only [lineText, List.nil_append, List.map_nil]
    rw [split_word w hw, split2Go, if_neg (by rcases hq' with rfl | rfl <;> decide), if_pos hq',
      split2Go_open _ _ _ _ hr, List.nil_append]
  | cons x more ih =>
    obtain ⟨v, sp⟩ := x
    obtain ⟨hv, hp, hb, hs, hm⟩ := h
    simp only [lineText, List.map_cons, List.append_assoc, List.cons_append]
    rw [split_word v hp]
    have hv' : v.isEmpty = false := by simpa using hv
    simp only [hv', Bool.not_false, Bool.or_true, List.nil_append]
    rw [split_blanks_end _ _ _ hb (hsp (v, sp) (by simp)), ih hm fun y hy => hsp y (by simp [hy])]

example : split c!"ls 'a b' x\"c  d" = [c!"ls", c!"a b", c!"xc  d"] := by decide
example : split c!"a '" = [c!"a", []] := by decide

/-- **C51 (fields).**  In strict field splitting quotes protect separators, blanks and the other quote: fields quoted
with a quote they do not contain and joined with a separator are given back exactly, also empty ones. -/
theorem C51_fields_quoted (fields : List (Char × Str)) (sep : Char) (seps : List Char) (spYes : Bool)
    (hsep : seps.contains sep = true) (hs : ∀ c ∈ seps, quote c = false) (hne : fields ≠ [])
    (h : ∀ f ∈ fields, quote f.1 = true ∧ f.1 ∉ f.2) :
    split2 (Spec.join sep (fields.map fun f => f.1 :: f.2 ++ [f.1])) seps spYes true true = fields.map (·.2) := by
  have hq : ∀ f ∈ fields, seps.contains f.1 = false ∧ (f.1 = '"' ∨ f.1 = '\'') := by
    intro f hf
    have h1 := (h f hf).1
    refine ⟨?_, by simpa [quote] using h1⟩
    cases hc : seps.contains f.1 with
    | false => rfl
    | true => rw [hs _ (by simpa using hc)] at h1; cases h1
  unfold split2
  induction fields with
  | nil => exact absurd rfl hne
  | cons f fs ih =>
    obtain ⟨q, s⟩ := f
    obtain ⟨h1, h2⟩ := hq (q, s) (by simp)
    have h3 := (h (q, s) (by simp)).2
    dsimp only at h1 h2 h3
    have step : ∀ rest, split2Go seps spYes true true (q :: s ++ [q] ++ rest) none [] false =
        split2Go seps spYes true true rest none s true := by
      intro rest
      have : q :: s ++ [q] ++ rest = q :: (s ++ q :: rest) := by simp
      rw [this, split2Go, if_neg (by rw [h1]; decide), if_pos h2, split2Go_in_quote q s rest [] false h3,
        List.nil_append]
    cases fs with
    | nil =>
      have := step []
      simp only [List.append_nil] at this
      simp only [List.map_cons, List.map_nil, Spec.join]
      rw [this]
      simp [split2Go]
    | cons g gs =>
      have ih := ih (by simp) (fun f hf => h f (by simp [hf])) (fun f hf => hq f (by simp [hf]))
      simp only [List.map_cons, Spec.join] at ih ⊢
      have e : q :: s ++ [q] ++ sep :: Spec.join sep ((g.1 :: g.2 ++ [g.1]) :: gs.map fun f => f.1 :: f.2 ++ [f.1]) =
        (q :: s ++ [q]) ++ (sep :: Spec.join sep ((g.1 :: g.2 ++ [g.1]) :: gs.map fun f => f.1 :: f.2 ++ [f.1])) := rfl
      rw [step, split2Go, if_pos hsep, ih]
      simp

example : split2 c!"'a;b';\"\";'c'" [';'] false true true = [c!"a;b", [], c!"c"] := by decide

/-! ## C52: truth of a text -/

/-- **C52.**  A text standing alone in a condition counts as false exactly when it is empty, `0`, `false` or `NULL`; with
`不` it is the other way round. -/
theorem C52_truth {F : Type} (o : F64 F) (n : Bool) (l v : Str) :
    cmp o .undef n [l] [v] = true ↔ (v ∈ [c!"", c!"0", c!"false", c!"NULL"] ↔ n = true) := by
  rw [C29_truth]
  simp only [exists_eq_left, truthy, List.mem_cons, List.not_mem_nil, or_false]
  cases n
  · simp [not_or, and_assoc]
  · simp only [Bool.not_true, iff_true, Bool.not_eq_false', Bool.or_eq_true, beq_iff_eq, or_assoc]

example {F : Type} (o : F64 F) : cmp o .undef false [[]] [c!"假"] = true :=
  (C52_truth o false [] c!"假").2 (by decide)

/-! ## C56: numbers -/

/-- A digit as a character. -/
def Spec.digit (d : Fin 10) : Char := Char.ofNat (48 + d)
/-- The text and the value of a sequence of digits. -/
def Spec.digits (ds : List (Fin 10)) : Str := ds.map Spec.digit
def Spec.value (ds : List (Fin 10)) : Nat := ds.foldl (fun n d => 10 * n + d.val) 0

/-- The texts that denote the integer `i`: an optional sign and at least one digit. -/
def Spec.Denotes (s : Str) (i : Int) : Prop :=
  ∃ ds, ds ≠ [] ∧ (((s = Spec.digits ds ∨ s = '+' :: Spec.digits ds) ∧ i = Spec.value ds) ∨
    (s = '-' :: Spec.digits ds ∧ i = -(Spec.value ds : Int)))

theorem digitVal_digit (d : Fin 10) : digitVal (Spec.digit d) = some d.val := by
  revert d; decide

theorem digitVal_some {c : Char} {k : Nat} (h : digitVal c = some k) : ∃ d : Fin 10, c = Spec.digit d ∧ k = d := by
  unfold digitVal at h
  split at h
  · rename_i hc
    have h1 : 48 ≤ c.toNat := hc.1
    have h2 : c.toNat ≤ 57 := hc.2
    refine ⟨⟨c.toNat - 48, by omega⟩, ?_, ?_⟩
    · unfold Spec.digit
      have : 48 + (c.toNat - 48) = c.toNat := by omega
      change c = Char.ofNat (48 + (c.toNat - 48))
      rw [this, Char.ofNat_toNat]
    · simpa using h.symm
  · cases h

theorem digitsVal_digits (ds : List (Fin 10)) (acc : Nat) :
    digitsVal acc (Spec.digits ds) = some (ds.foldl (fun n d => 10 * n + d.val) acc) := by
  induction ds generalizing acc with
  | nil => rfl
  | cons d ds ih =>
    simp only [Spec.digits, List.map_cons, digitsVal, digitVal_digit, List.foldl_cons]
    rw [show acc * 10 + d.val = 10 * acc + d.val from by omega]
    exact ih _

theorem digitsVal_some {s : Str} {acc n : Nat} (h : digitsVal acc s = some n) :
    ∃ ds, s = Spec.digits ds ∧ n = ds.foldl (fun n d => 10 * n + d.val) acc := by
  induction s generalizing acc with
  | nil => exact ⟨[], rfl, by simpa [digitsVal] using h.symm⟩
  | cons c cs ih =>
    simp only [digitsVal] at h
    split at h
    · rename_i k hk
      obtain ⟨d, rfl, rfl⟩ := digitVal_some hk
      obtain ⟨ds, rfl, rfl⟩ := ih h
      exact ⟨d :: ds, rfl, by simp only [List.foldl_cons]; rw [show acc * 10 + d.val = 10 * acc + d.val from by omega]⟩
    · cases h

theorem parseDigits_iff {s : Str} {n : Nat} :
    parseDigits s = some n ↔ ∃ ds, ds ≠ [] ∧ s = Spec.digits ds ∧ n = Spec.value ds := by
  unfold parseDigits
  constructor
  · intro h
    split at h
    · cases h
    · rename_i hs
      obtain ⟨ds, rfl, rfl⟩ := digitsVal_some h
      exact ⟨ds, by rintro rfl; exact hs rfl, rfl, rfl⟩
  · rintro ⟨ds, hne, rfl, rfl⟩
    rw [if_neg (by cases ds <;> simp [Spec.digits] at hne ⊢)]
    exact digitsVal_digits ds 0

theorem digits_head (ds : List (Fin 10)) (c : Char) (s : Str) (h : c :: s = Spec.digits ds) : c ≠ '+' ∧ c ≠ '-' := by
  cases ds with
  | nil => cases h
  | cons d ds =>
    simp only [Spec.digits, List.map_cons, List.cons.injEq] at h
    rw [h.1]
    have : ∀ d, Spec.digit d ≠ '+' ∧ Spec.digit d ≠ '-' := by decide
    exact this d

theorem cast_some {x : Option Nat} {n : Int} (h : (do let a ← x; pure (a : Int) : Option Int) = some n) :
    ∃ m, x = some m ∧ n = (m : Int) := by
  cases x with
  | none => cases h
  | some m => exact ⟨m, rfl, by simpa using h.symm⟩

theorem parseSigned_iff {min max : Int} {s : Str} {i : Int} :
    parseSigned min max s = some i ↔ min ≤ i ∧ i ≤ max ∧ Spec.Denotes s i := by
  unfold Spec.Denotes
  constructor
  · intro h
    unfold parseSigned at h
    dsimp only at h
    split at h
    · rename_i j hj
      split at h
      · rename_i hb
        have e : j = i := by simpa using h
        subst e
        refine ⟨hb.1, hb.2, ?_⟩
        split at hj
        · rw [Option.map_eq_some_iff] at hj
          obtain ⟨n, hn, rfl⟩ := hj
          obtain ⟨m, hm, rfl⟩ := cast_some hn
          obtain ⟨ds, hne, rfl, rfl⟩ := parseDigits_iff.1 hm
          exact ⟨ds, hne, .inr ⟨rfl, rfl⟩⟩
        · rw [Option.map_eq_some_iff] at hj
          obtain ⟨n, hn, rfl⟩ := hj
          obtain ⟨m, hm, rfl⟩ := cast_some hn
          obtain ⟨ds, hne, rfl, rfl⟩ := parseDigits_iff.1 hm
          exact ⟨ds, hne, .inl ⟨.inr rfl, rfl⟩⟩
        · rw [Option.map_eq_some_iff] at hj
          obtain ⟨n, hn, rfl⟩ := hj
          obtain ⟨m, hm, rfl⟩ := cast_some hn
          obtain ⟨ds, hne, rfl, rfl⟩ := parseDigits_iff.1 hm
          exact ⟨ds, hne, .inl ⟨.inl rfl, rfl⟩⟩
      · cases h
    · cases h
  · rintro ⟨h1, h2, ds, hne, (⟨rfl | rfl, rfl⟩ | ⟨rfl, rfl⟩)⟩
    · have hp := parseDigits_iff.2 ⟨ds, hne, rfl, rfl⟩
      unfold parseSigned
      dsimp only
      split
      · rename_i j hj
        split at hj
        · rename_i h; exact absurd rfl (digits_head ds _ _ h.symm).2
        · rename_i h; exact absurd rfl (digits_head ds _ _ h.symm).1
        · rw [hp] at hj
          have hj : (Spec.value ds : Int) = j := by simpa using hj
          rw [← hj, if_pos ⟨h1, h2⟩]
      · rename_i hj
        split at hj
        · rename_i h; exact absurd rfl (digits_head ds _ _ h.symm).2
        · rename_i h; exact absurd rfl (digits_head ds _ _ h.symm).1
        · rw [hp] at hj; cases hj
    · have hp := parseDigits_iff.2 ⟨ds, hne, rfl, rfl⟩
      simp [parseSigned, hp, h1, h2]
    · have hp := parseDigits_iff.2 ⟨ds, hne, rfl, rfl⟩
      simp [parseSigned, hp, h1, h2]

/-- **C56.**  A text is read as the 32-bit (64-bit) number `i` exactly when it denotes `i`, and `i` is in the range; all other
texts are not numbers. -/
theorem C56_read_i32 (s : Str) (i : Int) :
    parseI32 s = some i ↔ -2^31 ≤ i ∧ i < 2^31 ∧ Spec.Denotes s i := by
  unfold parseI32; rw [parseSigned_iff, show i32Min = -2^31 from by decide, show i32Max = 2^31 - 1 from by decide]
  constructor <;> rintro ⟨h1, h2, h3⟩ <;> exact ⟨h1, by omega, h3⟩

theorem C56_read_i64 (s : Str) (i : Int) :
    parseI64 s = some i ↔ -2^63 ≤ i ∧ i < 2^63 ∧ Spec.Denotes s i := by
  unfold parseI64; rw [parseSigned_iff, show i64Min = -2^63 from by decide, show i64Max = 2^63 - 1 from by decide]
  constructor <;> rintro ⟨h1, h2, h3⟩ <;> exact ⟨h1, by omega, h3⟩

/-- **C56 (unsigned).** -/
theorem C56_read_usize (s : Str) (n : Nat) :
    parseUsize s = some n ↔ n < 2^64 ∧ ∃ ds, ds ≠ [] ∧ (s = Spec.digits ds ∨ s = '+' :: Spec.digits ds) ∧
      n = Spec.value ds := by
  have hmax : usizeMax = 2^64 - 1 := by decide
  unfold parseUsize parseUnsigned
  rw [hmax]
  constructor
  · intro h
    dsimp only at h
    split at h
    · rename_i m hm
      split at h
      · rename_i hle
        have e : m = n := by simpa using h
        subst e
        refine ⟨by omega, ?_⟩
        split at hm
        · obtain ⟨ds, hne, rfl, rfl⟩ := parseDigits_iff.1 hm
          exact ⟨ds, hne, .inr rfl, rfl⟩
        · obtain ⟨ds, hne, rfl, rfl⟩ := parseDigits_iff.1 hm
          exact ⟨ds, hne, .inl rfl, rfl⟩
      · cases h
    · cases h
  · rintro ⟨hn, ds, hne, hs, rfl⟩
    have hp := parseDigits_iff.2 ⟨ds, hne, rfl, rfl⟩
    rcases hs with rfl | rfl
    · dsimp only
      split
      · rename_i j hj
        split at hj
        · rename_i h; exact absurd rfl (digits_head ds _ _ h.symm).1
        · rw [hp] at hj
          have hj : Spec.value ds = j := by simpa using hj
          rw [← hj, if_pos (by omega)]
      · rename_i hj
        split at hj
        · rename_i h; exact absurd rfl (digits_head ds _ _ h.symm).1
        · rw [hp] at hj; cases hj
    · change (match parseDigits (Spec.digits ds) with
        | some n => if n ≤ 2 ^ 64 - 1 then some n else none
        | none => none) = _
      rw [hp]
      dsimp only
      rw [if_pos (by omega)]

theorem natStr_digits (n : Nat) : ∃ ds, ds ≠ [] ∧ natStr n = Spec.digits ds ∧ n = Spec.value ds := by
  have hd : ∀ (l : Str), (∀ c ∈ l, c.isDigit = true) → ∀ acc, digitsVal acc l = some (Nat.ofDigitChars 10 l acc) := by
    intro l
    induction l with
    | nil => intro _ acc; simp [digitsVal]
    | cons c l ih =>
      intro h acc
      have hc := h c (by simp)
      have : digitVal c = some (c.toNat - '0'.toNat) := by
        unfold digitVal
        rw [if_pos]
        have h1 : 48 ≤ c.val ∧ c.val ≤ 57 := by simpa [Char.isDigit] using hc
        exact ⟨h1.1, h1.2⟩
      simp only [digitsVal, this]
      rw [ih (fun d hd => h d (by simp [hd])), Nat.ofDigitChars_cons]
      congr 2
      omega
  have := hd (Nat.toDigits 10 n) (fun c hc => Nat.isDigit_of_mem_toDigits (by decide) (by decide) hc) 0
  rw [Nat.ofDigitChars_ten_toDigits] at this
  obtain ⟨ds, h1, h2⟩ := digitsVal_some this
  refine ⟨ds, ?_, h1, h2⟩
  rintro rfl
  exact Nat.toDigits_ne_nil h1

/-- **C56 (printing).**  The text of a number denotes it, so a number that is printed and read again is the same. -/
theorem C56_print (i : Int) : Spec.Denotes (intStr i) i := by
  cases i with
  | ofNat n =>
    obtain ⟨ds, hne, h1, h2⟩ := natStr_digits n
    exact ⟨ds, hne, .inl ⟨.inl h1, congrArg Int.ofNat h2⟩⟩
  | negSucc n =>
    obtain ⟨ds, hne, h1, h2⟩ := natStr_digits (n + 1)
    refine ⟨ds, hne, .inr ⟨by rw [← h1]; rfl, ?_⟩⟩
    rw [← h2]; rfl

theorem C56_round_trip (i : Int) (h : -2^63 ≤ i ∧ i < 2^63) : parseI64 (intStr i) = some i :=
  (C56_read_i64 _ _).2 ⟨h.1, h.2, C56_print i⟩

/-- Two numbers with the same text are equal. -/
theorem C56_print_injective {i j : Int} (h : intStr i = intStr j) : i = j := by
  have hi := (parseSigned_iff (min := min i j) (max := max i j)).2 ⟨by omega, by omega, C56_print i⟩
  have hj := (parseSigned_iff (min := min i j) (max := max i j)).2 ⟨by omega, by omega, C56_print j⟩
  rw [h, hj] at hi
  simpa using hi.symm

example : parseI32 c!"-2147483648" = some (-2147483648) ∧ parseI32 c!"-2147483649" = none ∧ parseI32 c!"+7" = some 7 ∧
    parseI32 c!"2147483648" = none := by decide

end Zh
