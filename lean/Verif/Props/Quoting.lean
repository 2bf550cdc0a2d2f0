import Verif.Props.Blanks
import Verif.Props.Utf8Safe
import Verif.Props.Text
/-!
# Comments, verbatim and quoted texts (C18–C20)
-/
namespace Zh

/-! ## Borders -/

/-- Characters that no keyword has after its first character. -/
theorem opener_border : ∀ c ∈ ['（', '“', '下', '上', '）', '”', '‘', '’', '【', '】'], ∀ id ∈ kwOrder, c ∉ (kwStr id).tail := by
  decide +kernel

theorem noJoin_opener {u v : Str} {c : Char} (hc : c ∈ ['（', '“', '下', '上', '）', '”', '‘', '’', '【', '】']) :
    Spec.NoJoin u (c :: v) := by
  intro id hid k1 k2 hk h1 h2 ⟨_, hp⟩
  have h32 : 32 < c.toNat := by
    simp only [List.mem_cons, List.not_mem_nil, or_false] at hc
    rcases hc with rfl | rfl | rfl | rfl | rfl | rfl | rfl | rfl | rfl | rfl <;> decide
  have hs : Spec.strip (c :: v) = c :: Spec.strip v := by simp [Spec.strip, h32]
  rw [hs] at hp
  cases k2 with
  | nil => exact h2 rfl
  | cons d k2 =>
    have : d = c := by
      obtain ⟨r, hr⟩ := hp
      simp at hr; exact hr.1
    subst this
    apply opener_border d hc id hid
    rw [hk]
    cases k1 with
    | nil => exact absurd rfl h1
    | cons x xs => simp

/-- A text with no recognised keyword gives its kept characters. -/
theorem lex_nokw (q : Quo) (s : Str) (h : ∀ s1 s2, s = s1 ++ s2 → kwAt q false (utf8 s2) = none) :
    lex q (utf8 s) = (utf8 (s.filter fun c => q.keep c.toNat)).map (LTok.byte · q.inText) ∧
      lexEnd q (utf8 s) = q := by
  induction s with
  | nil => simp [lex_nil, lexEnd_nil]
  | cons c s ih =>
    have h0 := h [] (c :: s) rfl
    have ih := ih (fun s1 s2 hs => h (c :: s1) s2 (by rw [hs]; rfl))
    constructor
    · rw [lex_char h0, ih.1]
      by_cases hk : q.keep c.toNat = true
      · simp [hk, utf8_cons]
      · simp [hk]
    · obtain ⟨b, bs, hb, _, hb2, _⟩ := encChar_shape c
      have hcont : ∀ (l : List Nat), (∀ x ∈ l, isCont x = true) → lexEnd q (l ++ utf8 s) = lexEnd q (utf8 s) := by
        intro l
        induction l with
        | nil => intro _; rfl
        | cons x l ih2 =>
          intro hl
          rw [List.cons_append, lexEnd_miss (kwAt_cont (hl x (by simp)))]
          exact ih2 fun y hy => hl y (by simp [hy])
      rw [utf8_cons, hb, List.cons_append] at h0 ⊢
      rw [lexEnd_miss h0, hcont bs hb2, ih.2]

/-- Reading a keyword. -/
theorem lex_kw {q : Quo} {id : KwId} (hid : id ∈ kwOrder) (hi : Isolated id)
    (ha : active q false id = true) (rest : List Nat) :
    lex q (kwBytes id ++ rest) = (lexKw q id).2.toList ++ lex (lexKw q id).1 rest ∧
      lexEnd q (kwBytes id ++ rest) = lexEnd (lexKw q id).1 rest := by
  have h := kwAt_hit hid hi ha rest
  rw [lex_cons_hit h, lexEnd_hit h]
  simp

/-! ## C18 -/

/-- Nesting depth of the comment brackets after a text, starting from depth `d`; `none` if a closing bracket
has no opening one. -/
def Spec.depth : Nat → Str → Option Nat
  | d, [] => some d
  | d, c :: s =>
    if c = '（' then Spec.depth (d + 1) s
    else if c = '）' then (match d with | 0 => none | d + 1 => Spec.depth d s)
    else Spec.depth d s

/-- The brackets of a text are balanced. -/
def Spec.Balanced (s : Str) : Prop := Spec.depth 0 s = some 0

/-- Inside a comment. -/
def Quo.InRem (q : Quo) (d : Nat) : Prop := q.var ≤ 0 ∧ q.text ≤ 0 ∧ q.yuan ≤ 0 ∧ q.rem = (d : Int) + 1

theorem Quo.InRem.active {q : Quo} {d : Nat} (h : q.InRem d) (id : KwId) : active q false id = inRem id := by
  obtain ⟨h1, h2, h3, h4⟩ := h
  unfold Zh.active
  rw [if_neg (by omega), if_neg (by omega), if_neg (by omega), if_pos (by omega)]

theorem inRem_cases {id : KwId} (h : inRem id = true) : id = .beginRem ∨ id = .endRem := by
  cases id <;> simp_all [inRem]

theorem lexKw_beginRem (q : Quo) : lexKw q .beginRem = ({ q with rem := q.rem + 1 }, none) := by
  simp [lexKw, Quo.add4, Quo.add4End]

theorem lexKw_endRem (q : Quo) : lexKw q .endRem = ({ q with rem := q.rem - 1 }, none) := by
  simp [lexKw, Quo.add4, Quo.add4End]

theorem isolated_beginRem : Isolated .beginRem := by decide +kernel
theorem isolated_endRem : Isolated .endRem := by decide +kernel
theorem isolated_beginText : Isolated .beginText := by decide +kernel
theorem isolated_endText : Isolated .endText := by decide +kernel
theorem isolated_beginYuanyang : Isolated .beginYuanyang := by decide +kernel
theorem isolated_endYuanyang : Isolated .endYuanyang := by decide +kernel

theorem lex_in_comment (s rest : Str) : ∀ (q : Quo) (d d' : Nat), q.InRem d → Spec.depth d s = some d' →
    lex q (utf8 (s ++ rest)) = lex { q with rem := (d' : Int) + 1 } (utf8 rest) := by
  induction s with
  | nil =>
    intro q d d' hq hd
    simp [Spec.depth] at hd
    subst hd
    have : ({ q with rem := (d : Int) + 1 } : Quo) = q := by rw [← hq.2.2.2]
    rw [this]; rfl
  | cons c s ih =>
    intro q d d' hq hd
    simp only [Spec.depth] at hd
    by_cases h1 : c = '（'
    · subst h1
      simp only [if_true] at hd
      have hb : utf8 ('（' :: s ++ rest) = kwBytes .beginRem ++ utf8 (s ++ rest) := rfl
      rw [hb, (lex_kw (by decide) isolated_beginRem (by rw [hq.active]; rfl) _).1, lexKw_beginRem]
      simp only [Option.toList, List.nil_append]
      have hq' : ({ q with rem := q.rem + 1 } : Quo).InRem (d + 1) := by
        obtain ⟨a, b, c, e⟩ := hq
        exact ⟨a, b, c, by simp [e]⟩
      exact ih _ _ _ hq' hd
    · simp only [h1, if_false] at hd
      by_cases h2 : c = '）'
      · subst h2
        simp only [if_true] at hd
        cases d with
        | zero => simp at hd
        | succ d =>
          have hb : utf8 ('）' :: s ++ rest) = kwBytes .endRem ++ utf8 (s ++ rest) := rfl
          rw [hb, (lex_kw (by decide) isolated_endRem (by rw [hq.active]; rfl) _).1, lexKw_endRem]
          simp only [Option.toList, List.nil_append]
          have hq' : ({ q with rem := q.rem - 1 } : Quo).InRem d := by
            obtain ⟨a, b, c, e⟩ := hq
            exact ⟨a, b, c, by simp only [e]; omega⟩
          exact ih _ _ _ hq' hd
      · simp only [h2, if_false] at hd
        have hn : kwAt q false (utf8 (c :: (s ++ rest))) = none := by
          cases e : kwAt q false (utf8 (c :: (s ++ rest))) with
          | none => rfl
          | some r =>
            obtain ⟨id, m⟩ := r
            have ha := (kwAt_spells e).2.1
            rw [hq.active] at ha
            rcases inRem_cases ha with rfl | rfl
            · obtain ⟨s', h, _⟩ := kwAt_single e (k := '（') rfl
              simp at h; exact absurd h.1 h1
            · obtain ⟨s', h, _⟩ := kwAt_single e (k := '）') rfl
              simp at h; exact absurd h.1 h2
        rw [List.cons_append, lex_char hn]
        have hk : q.keep c.toNat = false := by
          unfold Quo.keep
          rw [if_pos (by rw [hq.2.2.2]; omega)]
        rw [hk]
        simpa using ih q d d' hq hd

/-- The parser's state after a text is one in which a comment may begin: comments are looked for and none is
open. -/
def CommentAfter (pre : Str) : Prop :=
  active (lexEnd Quo.zero (utf8 pre)) false .beginRem = true ∧ (lexEnd Quo.zero (utf8 pre)).rem = 0

theorem lex_comment (q : Quo) (c post : Str) (h1 : active q false .beginRem = true) (h2 : q.rem = 0)
    (hc : Spec.Balanced c) : lex q (utf8 (['（'] ++ c ++ ['）'] ++ post)) = lex q (utf8 post) := by
  have hq : q.var ≤ 0 ∧ q.text ≤ 0 ∧ q.yuan ≤ 0 := by
    unfold active at h1
    by_cases a : 0 < q.var
    · rw [if_pos a] at h1; simp [inVar] at h1
    · rw [if_neg a] at h1
      by_cases b : 0 < q.text
      · rw [if_pos b] at h1; simp [inText] at h1
      · rw [if_neg b] at h1
        by_cases e : 0 < q.yuan
        · rw [if_pos e] at h1; simp [inYuan] at h1
        · omega
  have hb : utf8 (['（'] ++ c ++ ['）'] ++ post) = kwBytes .beginRem ++ utf8 (c ++ ('）' :: post)) := by
    rw [show ['（'] ++ c ++ ['）'] ++ post = '（' :: (c ++ ('）' :: post)) by simp]; rfl
  rw [hb, (lex_kw (by decide) isolated_beginRem h1 _).1, lexKw_beginRem]
  simp only [Option.toList, List.nil_append]
  have hin : ({ q with rem := q.rem + 1 } : Quo).InRem 0 := ⟨hq.1, hq.2.1, hq.2.2, by simp [h2]⟩
  rw [lex_in_comment c ('）' :: post) _ 0 0 hin hc]
  have hb2 : utf8 ('）' :: post) = kwBytes .endRem ++ utf8 post := rfl
  have hin2 : ({ q with rem := ((0 : Nat) : Int) + 1 } : Quo).InRem 0 := ⟨hq.1, hq.2.1, hq.2.2, rfl⟩
  rw [hb2, (lex_kw (by decide) isolated_endRem (by
    show active { q with rem := ((0 : Nat) : Int) + 1 } false .endRem = true
    rw [hin2.active]; rfl) _).1, lexKw_endRem]
  simp only [Option.toList, List.nil_append]
  have : ({ q with rem := ((0 : Nat) : Int) + 1 - 1 } : Quo) = q := by
    obtain ⟨a, b, c, d, e, f, g⟩ := q
    simp only at h2
    subst h2; rfl
  exact congrArg (fun x => lex x (utf8 post)) this

/-- **C18.** A comment with balanced brackets, whatever it contains (keywords, quotation marks, anything),
can be put at any place where a comment may begin and that is not inside a keyword: the program is the
same as without it. -/
theorem C18_comment (pre c post : Str) (hpre : CommentAfter pre) (hc : Spec.Balanced c)
    (hj : Spec.NoJoin pre post) :
    Spec.SameParse (parse (pre ++ (['（'] ++ c ++ ['）']) ++ post)) (parse (pre ++ post)) := by
  apply sameParse_of_lex
  have hj2 : Spec.NoJoin pre (['（'] ++ c ++ ['）'] ++ post) :=
    noJoin_opener (by simp)
  rw [List.append_assoc, utf8_append, (lex_append _ _ _ (noStraddle_of_noJoin hj2)).1,
    lex_comment _ c post hpre.1 hpre.2 hc, utf8_append, (lex_append _ _ _ (noStraddle_of_noJoin hj)).1]

/-- Code without quoting constructs leaves the parser where a comment may begin, unless an annotation or a
code quotation is open. -/
theorem commentAfter_code (pre : Str)
    (h : ∀ id ∈ Spec.quoting ++ [.beginRem2, .endRem2, .beginCode, .endCode], ¬ kwStr id <:+: Spec.strip pre) :
    CommentAfter pre := by
  have key : ∀ (n : Nat) (a : List Nat), a.length = n →
      (∀ id ∈ Spec.quoting ++ [.beginRem2, .endRem2, .beginCode, .endCode], ¬ kwBytes id <:+: stripB a) →
      lexEnd Quo.zero a = Quo.zero := by
    intro n
    induction n using Nat.strongRecOn with
    | ind n ih =>
      intro a hl hn
      cases a with
      | nil => rw [lexEnd_nil]
      | cons c cs =>
        have hsuf : ∀ k, 1 ≤ k → lexEnd Quo.zero ((c :: cs).drop k) = Quo.zero := by
          intro k hk
          refine ih _ ?_ _ rfl ?_
          · simp at hl ⊢; omega
          · intro id hid hi
            apply hn id hid
            refine hi.trans ?_
            rw [show stripB (c :: cs) = stripB ((c :: cs).take k) ++ stripB ((c :: cs).drop k) by
              unfold stripB; rw [← List.filter_append, List.take_append_drop]]
            exact (List.suffix_append _ _).isInfix
        cases e : kwAt Quo.zero false (c :: cs) with
        | none => rw [lexEnd_miss e]; exact hsuf 1 (by omega)
        | some r =>
          obtain ⟨id, m⟩ := r
          have hm := kwAt_len e
          obtain ⟨_, _, t, r, h1, h2, h3, _⟩ := kwAt_spells e
          have hin : kwBytes id <:+: stripB (c :: cs) := by
            rw [h1]; unfold stripB; rw [List.filter_append, h3]
            exact (List.prefix_append _ _).isInfix
          have hid : id ∉ Spec.quoting ++ [.beginRem2, .endRem2, .beginCode, .endCode] :=
            fun h => hn id h hin
          have hz : (lexKw Quo.zero id).1 = Quo.zero := by
            cases id <;> first | rfl | (exfalso; revert hid; decide)
          rw [lexEnd_hit e, hz]
          exact hsuf m (by omega)
  have : lexEnd Quo.zero (utf8 pre) = Quo.zero := by
    refine key _ _ rfl ?_
    intro id hid hi
    rw [stripB_utf8] at hi
    exact h id hid (utf8_infix hi)
  unfold CommentAfter
  rw [this]; exact ⟨rfl, rfl⟩

/-! ## C19 and C20 -/

/-- The parser's state after a text is plain code. -/
def PlainAfter (pre : Str) : Prop := lexEnd Quo.zero (utf8 pre) = Quo.zero

theorem inYuan_cases {id : KwId} (h : inYuan id = true) : id = .beginYuanyang ∨ id = .endYuanyang := by
  cases id <;> simp_all [inYuan]

theorem inText_cases {id : KwId} (h : inText id = true) :
    id = .beginVar ∨ id = .endVar ∨ id = .beginText ∨ id = .endText := by
  cases id <;> simp_all [inText]

theorem kwAt_infix {q : Quo} {s1 s2 : Str} {id : KwId} {m : Nat}
    (h : kwAt q false (utf8 s2) = some (id, m)) : kwStr id <:+: Spec.strip (s1 ++ s2) := by
  obtain ⟨t1, t2, rfl, _, _, h4, _⟩ := kwAt_cut h
  rw [← h4]
  unfold Spec.strip
  rw [List.filter_append, List.filter_append]
  exact ⟨_, _, by rw [List.append_assoc]⟩

/-- The content of a verbatim text: it contains neither delimiter, even with blanks inside. -/
def Spec.VerbOk (s : Str) : Prop :=
  ¬ kwStr .beginYuanyang <:+: Spec.strip s ∧ ¬ kwStr .endYuanyang <:+: Spec.strip s

/-- The content of a quoted text: no quotation marks. -/
def Spec.QuoteOk (s : Str) : Prop := ∀ c ∈ s, c ∉ ['“', '”', '‘', '’']

theorem lex_verb (s post : Str) (h : Spec.VerbOk s) :
    lex Quo.zero (utf8 (kwStr .beginYuanyang ++ s ++ kwStr .endYuanyang ++ post)) =
      (utf8 s).map (LTok.byte · true) ++ lex Quo.zero (utf8 post) := by
  have e1 : utf8 (kwStr .beginYuanyang ++ s ++ kwStr .endYuanyang ++ post) =
      kwBytes .beginYuanyang ++ (utf8 s ++ utf8 (kwStr .endYuanyang ++ post)) := by
    simp [utf8_append, kwBytes]
  have hq : (lexKw Quo.zero .beginYuanyang) = (⟨0, 0, 1, 0, 0, 0, 0⟩, none) := rfl
  rw [e1, (lex_kw (by decide) isolated_beginYuanyang rfl _).1, hq]
  simp only [Option.toList, List.nil_append]
  have hact : ∀ id, active ⟨0, 0, 1, 0, 0, 0, 0⟩ false id = inYuan id := fun id => rfl
  have hnk := lex_nokw ⟨0, 0, 1, 0, 0, 0, 0⟩ s (by
    intro s1 s2 hs
    cases e : kwAt ⟨0, 0, 1, 0, 0, 0, 0⟩ false (utf8 s2) with
    | none => rfl
    | some r =>
      obtain ⟨id, m⟩ := r
      have ha := (kwAt_spells e).2.1
      rw [hact] at ha
      have hi := kwAt_infix (s1 := s1) e
      rw [← hs] at hi
      rcases inYuan_cases ha with rfl | rfl
      · exact absurd hi h.1
      · exact absurd hi h.2)
  have hj : Spec.NoJoin s (kwStr .endYuanyang ++ post) := noJoin_opener (c := '上') (by decide)
  rw [(lex_append _ _ _ (noStraddle_of_noJoin hj)).1, hnk.1, hnk.2, utf8_append]
  have hb : utf8 (kwStr .endYuanyang) = kwBytes .endYuanyang := rfl
  have hq2 : (lexKw ⟨0, 0, 1, 0, 0, 0, 0⟩ .endYuanyang) = (Quo.zero, none) := rfl
  rw [hb, (lex_kw (by decide) isolated_endYuanyang rfl _).1, hq2]
  simp only [Option.toList, List.nil_append]
  have hk : (s.filter fun c => (⟨0, 0, 1, 0, 0, 0, 0⟩ : Quo).keep c.toNat) = s :=
    List.filter_eq_self.2 fun c _ => rfl
  rw [hk]
  rfl

theorem lex_quote (s post : Str) (h : Spec.QuoteOk s) :
    lex Quo.zero (utf8 (kwStr .beginText ++ s ++ kwStr .endText ++ post)) =
      (utf8 (s.filter fun c => decide (32 ≤ c.toNat))).map (LTok.byte · true) ++ lex Quo.zero (utf8 post) := by
  have e1 : utf8 (kwStr .beginText ++ s ++ kwStr .endText ++ post) =
      kwBytes .beginText ++ (utf8 s ++ utf8 (kwStr .endText ++ post)) := by
    simp [utf8_append, kwBytes]
  have hq : (lexKw Quo.zero .beginText) = (⟨1, 0, 0, 0, 0, 0, 0⟩, none) := rfl
  rw [e1, (lex_kw (by decide) isolated_beginText rfl _).1, hq]
  simp only [Option.toList, List.nil_append]
  have hact : ∀ id, active ⟨1, 0, 0, 0, 0, 0, 0⟩ false id = inText id := fun id => rfl
  have hnk := lex_nokw ⟨1, 0, 0, 0, 0, 0, 0⟩ s (by
    intro s1 s2 hs
    cases e : kwAt ⟨1, 0, 0, 0, 0, 0, 0⟩ false (utf8 s2) with
    | none => rfl
    | some r =>
      obtain ⟨id, m⟩ := r
      have ha := (kwAt_spells e).2.1
      rw [hact] at ha
      have hmem : ∀ k, kwStr id = [k] → k ∈ s := by
        intro k hk
        obtain ⟨s', h', _⟩ := kwAt_single e hk
        rw [hs, h']; simp
      rcases inText_cases ha with rfl | rfl | rfl | rfl
      · exact absurd (by decide) (h _ (hmem '‘' rfl))
      · exact absurd (by decide) (h _ (hmem '’' rfl))
      · exact absurd (by decide) (h _ (hmem '“' rfl))
      · exact absurd (by decide) (h _ (hmem '”' rfl)))
  have hj : Spec.NoJoin s (kwStr .endText ++ post) := noJoin_opener (c := '”') (by decide)
  rw [(lex_append _ _ _ (noStraddle_of_noJoin hj)).1, hnk.1, hnk.2, utf8_append]
  have hb : utf8 (kwStr .endText) = kwBytes .endText := rfl
  have hq2 : (lexKw ⟨1, 0, 0, 0, 0, 0, 0⟩ .endText) = (Quo.zero, none) := rfl
  rw [hb, (lex_kw (by decide) isolated_endText rfl _).1, hq2]
  simp only [Option.toList, List.nil_append]
  rfl

/-- A quoted or verbatim text. -/
inductive Spec.Lit where
  | quote (s : Str)
  | verb (s : Str)

/-- How it is written. -/
def Spec.Lit.src : Spec.Lit → Str
  | .quote s => ['“'] ++ s ++ ['”']
  | .verb s => c!"下原样" ++ s ++ c!"上原样"

/-- The text it stands for: a verbatim text stands for its content, a quoted one for its content without
control characters. -/
def Spec.Lit.text : Spec.Lit → Str
  | .quote s => s.filter fun c => decide (32 ≤ c.toNat)
  | .verb s => s

/-- What may be written in it, and that it has no continuation marks (see C50). -/
def Spec.Lit.Ok (l : Spec.Lit) : Prop :=
  (match l with | .quote s => Spec.QuoteOk s | .verb s => Spec.VerbOk s) ∧
    ¬ ['续', '\n'] <+: l.text ∧ ¬ ['\n', '续'] <:+ l.text

/-- The item it becomes; an empty text becomes nothing. -/
def Spec.Lit.item (l : Spec.Lit) : List Code := if l.text = [] then [] else [.text l.text]

theorem lex_lit (l : Spec.Lit) (h : l.Ok) (post : Str) :
    lex Quo.zero (utf8 (l.src ++ post)) = (utf8 l.text).map (LTok.byte · true) ++ lex Quo.zero (utf8 post) := by
  cases l with
  | quote s => exact lex_quote s post h.1
  | verb s => exact lex_verb s post h.1

/-- The separators `、` and `。`. -/
def Spec.sepStr (stop : Bool) : Str := if stop then ['。'] else ['、']
def Spec.sepItem (stop : Bool) : Code := .kw1 (if stop then .jvhao else .dunhao)

/-- A sequence of texts, each followed by a separator, and a last text. -/
def Spec.litsSrc : List (Spec.Lit × Bool) → Spec.Lit → Str
  | [], l => l.src
  | (a, b) :: r, l => a.src ++ Spec.sepStr b ++ Spec.litsSrc r l

/-- The program it stands for. -/
def Spec.litsItems : List (Spec.Lit × Bool) → Spec.Lit → List Code
  | [], l => l.item
  | (a, b) :: r, l => a.item ++ [Spec.sepItem b] ++ Spec.litsItems r l

theorem isolated_jvhao : Isolated .jvhao := by decide +kernel
theorem isolated_dunhao : Isolated .dunhao := by decide +kernel

theorem lex_sep (b : Bool) (post : Str) : lex Quo.zero (utf8 (Spec.sepStr b ++ post)) =
    LTok.kw (if b then .jvhao else .dunhao) :: lex Quo.zero (utf8 post) := by
  cases b with
  | true =>
    have : utf8 (Spec.sepStr true ++ post) = kwBytes .jvhao ++ utf8 post := rfl
    rw [this, (lex_kw (by decide) isolated_jvhao rfl _).1]
    rfl
  | false =>
    have : utf8 (Spec.sepStr false ++ post) = kwBytes .dunhao ++ utf8 post := rfl
    rw [this, (lex_kw (by decide) isolated_dunhao rfl _).1]
    rfl

/-- A state of the outermost sentence with nothing collected. -/
structure TopIdle (s : PS) : Prop where
  ret0 : s.ret0 = 1
  text : s.text = []
  first : s.is.first = false

theorem addText_top {s : PS} (t : Str) (h1 : s.ret0 = 1) (ht : s.text = utf8 t) (hne : t ≠ [])
    (hold : s.is.old = true) (hx : ¬ ['续', '\n'] <+: t ∧ ¬ ['\n', '续'] <:+ t) :
    addText s = .ok { s with text := [], is := s.is.clear, c1 := s.c1 ++ [.text t] } := by
  unfold addText
  have hnil : s.text.isEmpty = false := by
    rw [ht]; cases e : utf8 t with
    | nil => exact absurd (utf8_eq_nil.1 e) hne
    | cons => rfl
  rw [hnil, ht, decode_utf8, hold]
  simp only [Bool.false_eq_true, if_false, Bool.not_true, textCode, (C50_marks_partial t).2.2.2 hx.1 hx.2]
  simp [addCode, h1]

/-- Collecting a literal and closing it with anything that flushes. -/
theorem addText_lit {s : PS} (l : Spec.Lit) (hl : l.Ok) (h : TopIdle s) :
    ∃ is', is'.first = false ∧
      addText { s with is := if l.text = [] then s.is else (s.is.needClear true).2,
                       text := s.text ++ utf8 l.text } =
        .ok { s with text := [], is := is', c1 := s.c1 ++ l.item } := by
  by_cases he : l.text = []
  · refine ⟨s.is.clear, rfl, ?_⟩
    simp [he, addText, h.text, Spec.Lit.item]
  · refine ⟨((s.is.needClear true).2).clear, rfl, ?_⟩
    rw [addText_top l.text (by exact h.ret0) (by simp [h.text]) he (by simp [he, IsText.needClear, h.first]) hl.2]
    simp [he, Spec.Lit.item]

theorem parsT_lit (n : Nat) (s : PS) (l : Spec.Lit) (h : TopIdle s) (ts : List LTok)
    (hn : (utf8 l.text).length ≤ n) :
    parsT n 0 none [] s ((utf8 l.text).map (LTok.byte · true) ++ ts) =
      parsT (n - (utf8 l.text).length) 0 none []
        { s with is := if l.text = [] then s.is else (s.is.needClear true).2,
                 text := s.text ++ utf8 l.text } ts := by
  by_cases he : l.text = []
  · simp [he]
  · rw [parsT_bytes 0 none [] true ts (utf8 l.text) n s (by simp [IsText.needClear, h.first])
      (by rw [ne_eq, utf8_eq_nil]; exact he), if_pos hn]
    simp [he]

theorem kwMain_sep (b : Bool) (s r : PS) (ha : addText s = .ok r) (hr : r.ret0 = 1) :
    kwMain 0 none [] (if b then .jvhao else .dunhao) s =
      .ok (.loop { r with c1 := r.c1 ++ [Spec.sepItem b] }) := by
  unfold kwMain
  rw [ha]
  cases b <;>
    simp [layerKw, inIf, inIf2, layerI1, layerScan, jvhaoScan, kwRest, kwRet0, ownKw, addKw, addCode, hr,
      Spec.sepItem]

theorem parsT_lits : ∀ (ls : List (Spec.Lit × Bool)) (l : Spec.Lit) (n : Nat) (s : PS), TopIdle s →
    (∀ p ∈ ls, p.1.Ok) → l.Ok → (lex Quo.zero (utf8 (Spec.litsSrc ls l))).length < n →
    ∃ r, parsT n 0 none [] s (lex Quo.zero (utf8 (Spec.litsSrc ls l))) = .ok (r, []) ∧
      r.c1 = s.c1 ++ Spec.litsItems ls l := by
  intro ls
  induction ls with
  | nil =>
    intro l n s hs _ hl hn
    have hx : lex Quo.zero (utf8 (Spec.litsSrc [] l)) = (utf8 l.text).map (LTok.byte · true) ++ [] := by
      have := lex_lit l hl []
      rw [List.append_nil, utf8_nil, lex_nil] at this
      exact this
    rw [hx] at hn ⊢
    simp only [List.append_nil, List.length_map] at hn
    rw [parsT_lit n s l hs [] (by omega)]
    obtain ⟨k, hk⟩ : ∃ k, n - (utf8 l.text).length = k + 1 := ⟨n - (utf8 l.text).length - 1, by omega⟩
    obtain ⟨is', _, h2⟩ := addText_lit l hl hs
    rw [hk]
    simp only [parsT, h2, PR.ok_bind]
    exact ⟨_, rfl, rfl⟩
  | cons p ls ih =>
    obtain ⟨a, b⟩ := p
    intro l n s hs hls hl hn
    have ha : a.Ok := hls (a, b) (by simp)
    have hx : lex Quo.zero (utf8 (Spec.litsSrc ((a, b) :: ls) l)) = (utf8 a.text).map (LTok.byte · true) ++
        (LTok.kw (if b then .jvhao else .dunhao) :: lex Quo.zero (utf8 (Spec.litsSrc ls l))) := by
      rw [Spec.litsSrc, List.append_assoc, lex_lit a ha, lex_sep]
    rw [hx] at hn ⊢
    simp only [List.length_append, List.length_map, List.length_cons] at hn
    rw [parsT_lit n s a hs _ (by omega)]
    obtain ⟨k, hk⟩ : ∃ k, n - (utf8 a.text).length = k + 1 := ⟨n - (utf8 a.text).length - 1, by omega⟩
    obtain ⟨is', hf, h2⟩ := addText_lit a ha hs
    rw [hk]
    simp only [parsT]
    rw [kwMain_sep b _ _ h2 hs.ret0]
    simp only [PR.ok_bind]
    obtain ⟨r, hr1, hr2⟩ := ih l k
      { s with text := [], is := is', c1 := s.c1 ++ a.item ++ [Spec.sepItem b] }
      ⟨hs.ret0, rfl, hf⟩ (fun p hp => hls p (by simp [hp])) hl (by omega)
    refine ⟨r, hr1, ?_⟩
    rw [hr2]
    simp [Spec.litsItems]

/-- **C19, C20.** A program that consists of any number of verbatim and quoted texts, separated by `、` and
`。`, parses to exactly these texts and separators: a verbatim text to its content, character for
character, including blanks, newlines and all keywords but its own delimiters; a quoted text to its
content without control characters. -/
theorem C19_C20_texts (ls : List (Spec.Lit × Bool)) (l : Spec.Lit) (hls : ∀ p ∈ ls, p.1.Ok) (hl : l.Ok) :
    parse (Spec.litsSrc ls l) = .ok (.ok (Spec.litsItems ls l)) := by
  have h1 := parse_tokens (Spec.litsSrc ls l)
    ((utf8 (Spec.litsSrc ls l)).length + (lex Quo.zero (utf8 (Spec.litsSrc ls l))).length + 1) (by omega)
  obtain ⟨r, hr1, hr2⟩ := parsT_lits ls l
    ((utf8 (Spec.litsSrc ls l)).length + (lex Quo.zero (utf8 (Spec.litsSrc ls l))).length + 1) PS.init
    ⟨rfl, rfl, rfl⟩ hls hl (by omega)
  rw [hr1] at h1
  simp only at h1
  rw [h1, hr2]
  rfl

/-- **C19.** The verbatim construct alone. -/
theorem C19_verbatim (s : Str) (h : Spec.VerbOk s) (hne : s ≠ [])
    (hx : ¬ ['续', '\n'] <+: s ∧ ¬ ['\n', '续'] <:+ s) :
    parse (c!"下原样" ++ s ++ c!"上原样") = .ok (.ok [.text s]) := by
  have := C19_C20_texts [] (.verb s) (by simp) ⟨h, hx⟩
  simpa [Spec.litsSrc, Spec.Lit.src, Spec.litsItems, Spec.Lit.item, Spec.Lit.text, hne] using this

/-- **C19, in context.** Wherever it stands in code, a verbatim text is handed on byte for byte: replacing
it by the quoted text with the same content (if that can be written between quotation marks) gives the
same program. -/
theorem C19_in_context (pre s post : Str) (hpre : PlainAfter pre) (h : Spec.VerbOk s)
    (hq : Spec.QuoteOk s) (hc : ∀ c ∈ s, 32 ≤ c.toNat) :
    Spec.SameParse (parse (pre ++ (c!"下原样" ++ s ++ c!"上原样" ++ post)))
      (parse (pre ++ (['“'] ++ s ++ ['”'] ++ post))) := by
  apply sameParse_of_lex
  have j1 : Spec.NoJoin pre (c!"下原样" ++ s ++ c!"上原样" ++ post) := noJoin_opener (c := '下') (by decide)
  have j2 : Spec.NoJoin pre (['“'] ++ s ++ ['”'] ++ post) := noJoin_opener (c := '“') (by decide)
  have hf : (s.filter fun c => decide (32 ≤ c.toNat)) = s :=
    List.filter_eq_self.2 fun c hc' => by simpa using hc c hc'
  rw [utf8_append pre, utf8_append pre, (lex_append _ _ _ (noStraddle_of_noJoin j1)).1,
    (lex_append _ _ _ (noStraddle_of_noJoin j2)).1, hpre]
  have e1 := lex_verb s post h
  have e2 := lex_quote s post hq
  rw [hf] at e2
  have k1 : c!"下原样" = kwStr .beginYuanyang := rfl
  have k2 : c!"上原样" = kwStr .endYuanyang := rfl
  have k3 : ['“'] = kwStr .beginText := rfl
  have k4 : ['”'] = kwStr .endText := rfl
  rw [k1, k2, k3, k4, e1, e2]

/-- **C20.** The quoted text alone. -/
theorem C20_quoted (s : Str) (h : Spec.QuoteOk s)
    (hne : s.filter (fun c => decide (32 ≤ c.toNat)) ≠ [])
    (hx : ¬ ['续', '\n'] <+: s.filter (fun c => decide (32 ≤ c.toNat)) ∧
      ¬ ['\n', '续'] <:+ s.filter (fun c => decide (32 ≤ c.toNat))) :
    parse (['“'] ++ s ++ ['”']) = .ok (.ok [.text (s.filter fun c => decide (32 ≤ c.toNat))]) := by
  have := C19_C20_texts [] (.quote s) (by simp) ⟨h, hx⟩
  simpa [Spec.litsSrc, Spec.Lit.src, Spec.litsItems, Spec.Lit.item, Spec.Lit.text, hne] using this

/-- **C20, in context.** Control characters in a quoted text can be left out, wherever it stands. -/
theorem C20_in_context (pre s t post : Str) (hpre : PlainAfter pre) (hs : Spec.QuoteOk s)
    (h : s.filter (fun c => decide (32 ≤ c.toNat)) = t.filter (fun c => decide (32 ≤ c.toNat)))
    (ht : Spec.QuoteOk t) :
    Spec.SameParse (parse (pre ++ (['“'] ++ s ++ ['”'] ++ post))) (parse (pre ++ (['“'] ++ t ++ ['”'] ++ post))) := by
  apply sameParse_of_lex
  have j1 : Spec.NoJoin pre (['“'] ++ s ++ ['”'] ++ post) := noJoin_opener (c := '“') (by decide)
  have j2 : Spec.NoJoin pre (['“'] ++ t ++ ['”'] ++ post) := noJoin_opener (c := '“') (by decide)
  rw [utf8_append pre, utf8_append pre, (lex_append _ _ _ (noStraddle_of_noJoin j1)).1,
    (lex_append _ _ _ (noStraddle_of_noJoin j2)).1, hpre]
  have e1 := lex_quote s post hs
  have e2 := lex_quote t post ht
  have k3 : ['“'] = kwStr .beginText := rfl
  have k4 : ['”'] = kwStr .endText := rfl
  rw [k3, k4, e1, e2, h]

/-- Found while modelling: nested quotation marks with nothing around them are not a text at all but two
unknown words. -/
theorem C20_nested_counterexample :
    (match parse c!"““””" with
      | .ok (.ok [.undef a, .undef b]) => decide (a = c!"“" ∧ b = c!"”") | _ => false) = true := by
  decide +kernel

/-- Non-vacuity of C18: a comment full of keywords and quotation marks, in the middle of a program. -/
example : CommentAfter c!"显示甲" ∧ Spec.Balanced c!"如果“（）先下原样" ∧ Spec.NoJoin c!"显示甲" c!"乙。" := by
  refine ⟨commentAfter_code _ ?_, ?_, ?_⟩
  · decide +kernel
  · unfold Spec.Balanced; decide +kernel
  · intro id hid k1 k2 hk h1 h2 ⟨hs, hp⟩
    -- every keyword part that ends in `甲` is impossible
    have : ∀ id ∈ kwOrder, '甲' ∉ kwStr id := by decide +kernel
    apply this id hid
    rw [hk]
    have hl : k1.getLast? = some '甲' := by
      have hst : Spec.strip c!"显示甲" = c!"显示甲" := by decide +kernel
      rw [hst] at hs
      obtain ⟨z, hz⟩ := hs
      rcases List.eq_nil_or_concat k1 with h | ⟨l, d, rfl⟩
      · exact absurd h h1
      · have := congrArg List.getLast? hz
        simp at this
        simp [this]
    exact List.mem_append_left _ (List.mem_of_getLast? hl)

/-- Non-vacuity of C19 and C20. -/
example : (Spec.Lit.verb c!"如果 “甲”\n。").Ok ∧ (Spec.Lit.quote c!"甲 。\n乙").Ok := by
  refine ⟨⟨?_, ?_, ?_⟩, ⟨?_, ?_, ?_⟩⟩
  · show Spec.VerbOk _; unfold Spec.VerbOk; decide +kernel
  · decide +kernel
  · decide +kernel
  · show Spec.QuoteOk _; unfold Spec.QuoteOk; decide +kernel
  · decide +kernel
  · decide +kernel

end Zh
