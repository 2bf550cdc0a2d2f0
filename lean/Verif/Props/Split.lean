import Verif.Model.Str
import Verif.Spec.Split
/-!
# C01, C02, C03: command-line and field splitting
-/
namespace Zh
open Spec

theorem isBlank_eq (c : Char) : isBlank c = blank c := rfl

/-! ## Lemmas -/

section
variable {seps : List Char} {spYes yange yangend : Bool}

theorem split2Go_in_quote (q : Char) (s rest : List Char) (cur : Str) (b : Bool) (h : q ∉ s) :
    split2Go seps spYes yange yangend (s ++ q :: rest) (some q) cur b
      = split2Go seps spYes yange yangend rest none (cur ++ s) true := by
  induction s generalizing cur with
  | nil => simp [split2Go]
  | cons c s ih =>
    have hc : c ≠ q := fun e => h (by simp [e])
    simp only [List.cons_append, split2Go, hc, if_false]
    rw [ih _ (fun e => h (by simp [e]))]
    simp

theorem split2Go_plain (s rest : List Char) (cur : Str) (b : Bool)
    (h : ∀ c ∈ s, seps.contains c = false ∧ quote c = false ∧ (isBlank c && !spYes) = false) :
    split2Go seps spYes yange yangend (s ++ rest) none cur b
      = split2Go seps spYes yange yangend rest none (cur ++ s) (b || !s.isEmpty) := by
  induction s generalizing cur b with
  | nil => simp
  | cons c s ih =>
    obtain ⟨h1, h2, h3⟩ := h c (by simp)
    have hq : ¬(c = '"' ∨ c = '\'') := by
      simpa [quote] using h2
    simp only [List.cons_append]
    rw [split2Go, if_neg (by simpa using h1), if_neg hq, if_neg (by simp [h3]),
      ih _ _ (fun d hd => h d (by simp [hd]))]
    simp

end

theorem split_piece (p : Piece) (hp : p.Ok) (rest : List Char) (cur : Str) (b : Bool) :
    split2Go [' ', '\t', '\r', '\n'] false false false (p.text ++ rest) none cur b
      = split2Go [' ', '\t', '\r', '\n'] false false false rest none (cur ++ p.value) true := by
  cases p with
  | plain s =>
    obtain ⟨hne, h⟩ := hp
    simp only [Piece.text, Piece.value]
    rw [split2Go_plain]
    · cases s with
      | nil => exact absurd rfl hne
      | cons c s => simp
    · intro c hc
      obtain ⟨h1, h2⟩ := h c hc
      have h1' := h1
      simp only [blank, Bool.or_eq_false_iff, beq_eq_false_iff_ne] at h1
      refine ⟨?_, h2, ?_⟩
      · simp [h1.1.1.1, h1.1.1.2, h1.1.2, h1.2]
      · simp [isBlank_eq, h1']
  | quoted q s =>
    obtain ⟨hq, h⟩ := hp
    have hq' : q = '"' ∨ q = '\'' := by simpa [quote] using hq
    simp only [Piece.text, Piece.value, List.cons_append, List.append_assoc]
    rw [split2Go, if_neg (by rcases hq' with rfl | rfl <;> decide), if_pos hq']
    exact split2Go_in_quote q s rest cur b h

theorem split_word (w : List Piece) (hw : ∀ p ∈ w, p.Ok) (rest : List Char) (cur : Str)
    (b : Bool) :
    split2Go [' ', '\t', '\r', '\n'] false false false (wordText w ++ rest) none cur b
      = split2Go [' ', '\t', '\r', '\n'] false false false rest none (cur ++ wordValue w)
          (b || !w.isEmpty) := by
  induction w generalizing cur b with
  | nil => simp [wordText, wordValue]
  | cons p w ih =>
    have := ih (fun q hq => hw q (by simp [hq])) (cur ++ p.value) true
    simp only [wordText, wordValue, List.flatMap_cons, List.append_assoc] at this ⊢
    rw [split_piece p (hw p (by simp)), this]
    simp

theorem split_blanks (sp rest : List Char) (h : ∀ c ∈ sp, blank c = true) :
    split2Go [' ', '\t', '\r', '\n'] false false false (sp ++ rest) none [] false
      = split2Go [' ', '\t', '\r', '\n'] false false false rest none [] false := by
  induction sp with
  | nil => rfl
  | cons c sp ih =>
    have hc := h c (by simp)
    have : List.contains [' ', '\t', '\r', '\n'] c = true := by
      simp only [blank, Bool.or_eq_true, beq_iff_eq] at hc
      rcases hc with ((rfl | rfl) | rfl) | rfl <;> decide
    simp only [List.cons_append]
    rw [split2Go, if_pos this]
    simpa using ih (fun d hd => h d (by simp [hd]))

theorem split_blanks_end (sp rest : List Char) (cur : Str) (h : ∀ c ∈ sp, blank c = true)
    (hne : sp ≠ []) :
    split2Go [' ', '\t', '\r', '\n'] false false false (sp ++ rest) none cur true
      = cur :: split2Go [' ', '\t', '\r', '\n'] false false false rest none [] false := by
  cases sp with
  | nil => exact absurd rfl hne
  | cons c sp =>
    have hc := h c (by simp)
    have : List.contains [' ', '\t', '\r', '\n'] c = true := by
      simp only [blank, Bool.or_eq_true, beq_iff_eq] at hc
      rcases hc with ((rfl | rfl) | rfl) | rfl <;> decide
    simp only [List.cons_append]
    rw [split2Go, if_pos this]
    simpa using split_blanks sp rest (fun d hd => h d (by simp [hd]))

/-! ## C01 -/

/-- **C01 (general form).** Splitting any well-formed command line, with any leading blanks, gives
back exactly the values of its words in order: quotes may stand anywhere inside a word, blanks
inside quotes are kept, empty quoted words are kept. -/
theorem C01_split_line (lead : List Char) (hl : ∀ c ∈ lead, blank c = true)
    (line : List (List Piece × List Char)) (h : LineOk line) :
    split (lead ++ lineText line) = line.map (fun w => wordValue w.1) := by
  unfold split split2
  rw [split_blanks _ _ hl]
  induction line with
  | nil => simp [lineText, split2Go]
  | cons x rest ih =>
    obtain ⟨w, sp⟩ := x
    obtain ⟨hw, hp, hb, hs, hr⟩ := h
    simp only [lineText, List.map_cons]
    rw [split_word w hp]
    have hw' : w.isEmpty = false := by simpa using hw
    simp only [hw', Bool.not_false, Bool.or_true, List.nil_append]
    by_cases hsp : sp = []
    · subst hsp
      have : rest = [] := Classical.byContradiction fun e => hs e rfl
      subst this
      simp [lineText, split2Go]
    · rw [split_blanks_end _ _ _ hb hsp, ih hr]

/-- **C01.** Quote each word with a quote character it does not contain and join the quoted words
with one blank: splitting gives back exactly the words. -/
theorem C01_split_quoted (ws : List (Char × Str)) (sep : Char) (hsep : blank sep = true)
    (h : ∀ w ∈ ws, quote w.1 = true ∧ w.1 ∉ w.2) :
    split (Spec.join sep (ws.map fun w => w.1 :: w.2 ++ [w.1])) = ws.map (·.2) := by
  have key : ∀ ws : List (Char × Str), (∀ w ∈ ws, quote w.1 = true ∧ w.1 ∉ w.2) →
      ∃ line, LineOk line ∧ lineText line = Spec.join sep (ws.map fun w => w.1 :: w.2 ++ [w.1]) ∧
        line.map (fun w => wordValue w.1) = ws.map (·.2) ∧ (line = [] ↔ ws = []) := by
    intro ws
    induction ws with
    | nil => intro _; exact ⟨[], trivial, rfl, rfl, by simp⟩
    | cons w ws ih =>
      intro h
      obtain ⟨line, h1, h2, h3, h4⟩ := ih (fun x hx => h x (by simp [hx]))
      cases ws with
      | nil =>
        refine ⟨[([Piece.quoted w.1 w.2], [])], ?_, ?_, ?_, ?_⟩
        · exact ⟨by simp, by simpa [Piece.Ok] using h w (by simp), by simp, by simp, trivial⟩
        · simp [lineText, wordText, Piece.text, Spec.join]
        · simp [wordValue, Piece.value]
        · simp
      | cons w' ws' =>
        refine ⟨([Piece.quoted w.1 w.2], [sep]) :: line, ?_, ?_, ?_, ?_⟩
        · exact ⟨by simp, by simpa [Piece.Ok] using h w (by simp), by simpa using hsep, by simp, h1⟩
        · simp only [lineText, h2, List.map_cons, Spec.join]
          simp [wordText, Piece.text]
        · simp only [List.map_cons, h3]
          simp [wordValue, Piece.value]
        · simp
  obtain ⟨line, h1, h2, h3, _⟩ := key ws h
  have := C01_split_line [] (by simp) line h1
  rw [List.nil_append, h2, h3] at this
  exact this

/-- Non-vacuity: three words, one with a blank, one empty, one containing a double quote. -/
example : split c!"'a b'\t\"\"\t'c\"d'" = [c!"a b", [], c!"c\"d"] :=
  C01_split_quoted [('\'', c!"a b"), ('"', []), ('\'', c!"c\"d")] '\t' (by decide) (by decide)

/-! ## C02, C03 -/

/-- The first group extended in front. -/
private def consHead (x : Str) : List Str → List Str
  | [] => [x]
  | g :: gs => (x ++ g) :: gs

private theorem consHead_groups (p : Char → Bool) (cur : Str) (c : Char) (cs : List Char)
    (hc : p c = false) :
    consHead cur (groups p (c :: cs)) = consHead (cur ++ [c]) (groups p cs) := by
  simp only [groups, hc, Bool.false_eq_true, if_false]
  cases hg : groups p cs with
  | nil => exact absurd hg (groups_ne_nil cs)
  | cons g gs => simp [consHead]

private theorem consHead_nil (p : Char → Bool) (cs : List Char) :
    consHead [] (groups p cs) = groups p cs := by
  cases hg : groups p cs with
  | nil => exact absurd hg (groups_ne_nil cs)
  | cons g gs => simp [consHead]

private theorem isEmpty_snoc (cur : Str) (c : Char) : (!(cur ++ [c]).isEmpty) = true := by
  cases cur <;> rfl

theorem split2Go_nonstrict (cs : List Char) (cur : Str) (h : ∀ c ∈ cs, quote c = false) :
    split2Go [' ', '\t', '\r', '\n'] false false false cs none cur (!cur.isEmpty)
      = (consHead cur (groups blank cs)).filter (fun w => !w.isEmpty) := by
  induction cs generalizing cur with
  | nil => cases cur <;> simp [split2Go, groups, consHead]
  | cons c cs ih =>
    have hq : ¬(c = '"' ∨ c = '\'') := by simpa [quote] using h c (by simp)
    have h' : ∀ c ∈ cs, quote c = false := fun d hd => h d (by simp [hd])
    by_cases hb : blank c = true
    · have hcon : List.contains [' ', '\t', '\r', '\n'] c = true := by
        simp only [blank, Bool.or_eq_true, beq_iff_eq] at hb
        rcases hb with ((rfl | rfl) | rfl) | rfl <;> decide
      rw [split2Go, if_pos hcon]
      have := ih [] h'
      simp only [List.isEmpty_nil, Bool.not_true, consHead_nil] at this
      rw [this]
      simp only [groups, hb, if_true, consHead, List.append_nil]
      cases cur <;> simp
    · have hb' : blank c = false := by simpa using hb
      have hcon : List.contains [' ', '\t', '\r', '\n'] c = false := by
        simp only [blank, Bool.or_eq_false_iff, beq_eq_false_iff_ne] at hb'
        simp [hb'.1.1.1, hb'.1.1.2, hb'.1.2, hb'.2]
      rw [split2Go, if_neg (by simpa using hcon), if_neg hq, if_neg (by simp [isBlank_eq, hb']),
        consHead_groups _ _ _ _ hb']
      have := ih (cur ++ [c]) h'
      rwa [isEmpty_snoc] at this

/-- **C02.** On a line without quote characters, splitting returns exactly the maximal runs of
non-blank characters: the pieces between blanks, without the empty ones. -/
theorem C02_split_words (s : Str) (h : ∀ c ∈ s, quote c = false) :
    split s = (groups blank s).filter (fun w => !w.isEmpty) := by
  unfold split split2
  have := split2Go_nonstrict s [] h
  simpa [consHead_nil] using this

/-- **C02.** No word is empty and no word contains a blank. -/
theorem C02_words_nonempty (s : Str) (h : ∀ c ∈ s, quote c = false) :
    ∀ w ∈ split s, w ≠ [] ∧ ∀ c ∈ w, blank c = false := by
  rw [C02_split_words s h]
  intro w hw
  simp only [List.mem_filter] at hw
  exact ⟨by simpa using hw.2, groups_free s w hw.1⟩

example : split c!"  ab\tc " = [c!"ab", c!"c"] := by
  rw [C02_split_words _ (by decide)]; decide

/-- Characters that strict splitting drops from fields: blanks, unless blanks are kept. -/
def dropBlanks (spYes : Bool) (s : Str) : Str := s.filter fun c => spYes || !blank c

theorem dropBlanks_append (spYes : Bool) (a b : Str) :
    dropBlanks spYes (a ++ b) = dropBlanks spYes a ++ dropBlanks spYes b := by
  simp [dropBlanks]

theorem split2Go_strict (seps : List Char) (spYes yangend : Bool) (cs : List Char) (cur : Str)
    (hc0 : dropBlanks spYes cur = cur) (h : ∀ c ∈ cs, quote c = false) :
    split2Go seps spYes true yangend cs none cur (!cur.isEmpty)
      = let fs := (consHead cur (groups (fun c => seps.contains c) cs)).map (dropBlanks spYes)
        if yangend || !(fs.getLastD []).isEmpty then fs else fs.dropLast := by
  induction cs generalizing cur with
  | nil => cases yangend <;> cases cur <;> simp [split2Go, groups, consHead, hc0]
  | cons c cs ih =>
    have hq : ¬(c = '"' ∨ c = '\'') := by simpa [quote] using h c (by simp)
    have h' : ∀ c ∈ cs, quote c = false := fun d hd => h d (by simp [hd])
    by_cases hs : seps.contains c = true
    · rw [split2Go, if_pos hs]
      have := ih [] (by simp [dropBlanks]) h'
      simp only [List.isEmpty_nil, Bool.not_true, consHead_nil] at this
      rw [this]
      simp only [groups, hs, if_true, consHead, List.append_nil, Bool.true_or,
        List.map_cons, hc0]
      cases hg : (groups (fun c => seps.contains c) cs) with
      | nil => exact absurd hg (groups_ne_nil cs)
      | cons g gs =>
        simp only [List.map_cons, List.getLastD_cons]
        split <;> simp [*]
    · have hs' : seps.contains c = false := by simpa using hs
      rw [split2Go, if_neg hs, if_neg hq, consHead_groups (fun c => seps.contains c) _ _ _ hs']
      by_cases hb : (isBlank c && !spYes) = true
      · rw [if_pos hb]
        rw [ih cur hc0 h']
        have e : ∀ gs, (consHead (cur ++ [c]) gs).map (dropBlanks spYes)
            = (consHead cur gs).map (dropBlanks spYes) := by
          intro gs
          have : dropBlanks spYes [c] = [] := by
            simp only [Bool.and_eq_true, Bool.not_eq_true', isBlank_eq] at hb
            simp [dropBlanks, hb.1, hb.2]
          have e2 : ∀ g, dropBlanks spYes (c :: g) = dropBlanks spYes g := fun g => by
            rw [show c :: g = [c] ++ g from rfl, dropBlanks_append, this, List.nil_append]
          cases gs <;> simp [consHead, dropBlanks_append, this, e2]
        rw [e]
      · rw [if_neg hb]
        have hd : dropBlanks spYes [c] = [c] := by
          simp only [Bool.and_eq_true, Bool.not_eq_true', isBlank_eq, not_and] at hb
          cases hsp : spYes <;> simp_all [dropBlanks]
        have := ih (cur ++ [c]) (by rw [dropBlanks_append, hc0, hd]) h'
        rwa [isEmpty_snoc] at this

/-- **C03.** Strict splitting with the closing field kept: on any text without quotes the result is
exactly the texts between separators, with blanks dropped from each unless blanks are kept. -/
theorem C03_split_fields (s : Str) (seps : List Char) (spYes : Bool)
    (h : ∀ c ∈ s, quote c = false) :
    split2 s seps spYes true true
      = (groups (fun c => seps.contains c) s).map (dropBlanks spYes) := by
  unfold split2
  have := split2Go_strict seps spYes true s [] (by simp [dropBlanks]) h
  simpa [consHead_nil] using this

/-- **C03.** Strict splitting is the inverse of joining. -/
theorem C03_split_join (fields : List Str) (sep : Char) (spYes : Bool) (hne : fields ≠ [])
    (hsep : quote sep = false)
    (h : ∀ f ∈ fields, ∀ c ∈ f, c ≠ sep ∧ quote c = false ∧ (spYes = false → blank c = false)) :
    split2 (Spec.join sep fields) [sep] spYes true true = fields := by
  have hmem : ∀ fs : List Str, (∀ f ∈ fs, ∀ c ∈ f, quote c = false) →
      ∀ c ∈ Spec.join sep fs, quote c = false := by
    intro fs
    induction fs with
    | nil => simp [Spec.join]
    | cons f fs ih =>
      intro hf
      cases fs with
      | nil => simpa [Spec.join] using hf f (by simp)
      | cons g gs =>
        intro c hc
        simp only [Spec.join, List.mem_append, List.mem_cons] at hc
        rcases hc with hc | rfl | hc
        · exact hf f (by simp) c hc
        · exact hsep
        · exact ih (fun x hx => hf x (by simp [hx])) c hc
  rw [C03_split_fields _ _ _ (hmem _ (fun f hf c hc => (h f hf c hc).2.1)),
    groups_join sep (by simp) fields hne (fun g hg x hx => by simp [(h g hg x hx).1])]
  conv => rhs; rw [← List.map_id fields]
  apply List.map_congr_left
  intro f hf
  simp only [dropBlanks, id, List.filter_eq_self]
  intro c hc
  cases hsp : spYes with
  | true => rfl
  | false => simp [(h f hf c hc).2.2 hsp]

/-- **C03.** Number of fields = number of separators plus one. -/
theorem C03_field_count (s : Str) (sep : Char) (spYes : Bool) (h : ∀ c ∈ s, quote c = false) :
    (split2 s [sep] spYes true true).length = s.count sep + 1 := by
  rw [C03_split_fields s _ _ h, List.length_map, groups_length, List.count_eq_length_filter]
  congr 2
  apply List.filter_congr
  intro c _
  by_cases e : c = sep <;> simp [e]

/-- **C03.** Strict splitting without keeping the closing field only drops a last field that is
empty. -/
theorem C03_split_fields_noend (s : Str) (seps : List Char) (spYes : Bool)
    (h : ∀ c ∈ s, quote c = false) :
    split2 s seps spYes true false
      = let fs := split2 s seps spYes true true
        if fs.getLastD [] = [] then fs.dropLast else fs := by
  rw [C03_split_fields s _ _ h]
  unfold split2
  have := split2Go_strict seps spYes false s [] (by simp [dropBlanks]) h
  simp only [consHead_nil, List.isEmpty_nil, Bool.not_true] at this
  rw [this]
  simp only [Bool.false_or, Bool.not_eq_true']
  by_cases hl : ((groups (fun c => seps.contains c) s).map (dropBlanks spYes)).getLastD [] = []
  · rw [hl]; simp
  · simp only [hl, if_false]
    rw [if_pos]
    simpa using hl

example : split2 c!"1| |||" ['|'] false true true = [c!"1", [], [], [], []] := by
  rw [C03_split_fields _ _ _ (by decide)]; decide
example : split2 c!"1| |||" ['|'] false true false = [c!"1", [], [], []] := by
  rw [C03_split_fields_noend _ _ _ (by decide)]; decide
example : split2 (Spec.join '|' [c!"a", [], c!"b"]) ['|'] false true true = [c!"a", [], c!"b"] :=
  C03_split_join _ _ _ (by decide) (by decide) (by decide)

end Zh
