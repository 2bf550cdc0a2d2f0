import Verif.Props.Lex
/-!
# Collected texts are valid UTF-8 (C16)
-/
namespace Zh

/-- Tokens in which the bytes come as whole characters. -/
inductive Chunked : List LTok → Prop
  | nil : Chunked []
  | char (c : Char) (now : Bool) {ts} : Chunked ts → Chunked ((encChar c).map (LTok.byte · now) ++ ts)
  | kwText (id : KwId) (b : Bool) {ts} : Chunked ts → Chunked (.kwText id b :: ts)
  | kw (id : KwId) {ts} : Chunked ts → Chunked (.kw id :: ts)

theorem lex_chunked (q : Quo) (s : Str) : Chunked (lex q (utf8 s)) := by
  generalize hn : s.length = n
  induction n using Nat.strongRecOn generalizing q s with
  | ind n ih =>
    cases s with
    | nil => rw [utf8_nil, lex_nil]; exact .nil
    | cons c s =>
      cases e : kwAt q false (utf8 (c :: s)) with
      | none =>
        rw [lex_char e]
        have := ih s.length (by simp at hn; omega) q s rfl
        split
        · exact .char c _ this
        · exact this
      | some r =>
        obtain ⟨id, m⟩ := r
        obtain ⟨s1, s2, h1, h2, h3, h4, _⟩ := kwAt_cut e
        have hm := kwAt_len e
        have hs1 : s1 ≠ [] := by rintro rfl; simp at h2; omega
        rw [lex_cons_hit e, ← h3]
        have := ih s2.length (by
          have h5 := congrArg List.length h1
          have := List.length_pos_iff.2 hs1
          simp at h5 hn; omega) (lexKw q id).1 s2 rfl
        cases h : (lexKw q id).2 with
        | none => simpa using this
        | some t =>
          simp only [Option.toList, List.singleton_append]
          cases t with
          | byte c b => exact absurd h lexKw_ne_byte
          | kwText id b => exact .kwText _ _ this
          | kw id => exact .kw _ this

/-- After a byte, further bytes with the same flag are simply collected. -/
theorem keepByte_more {b : Nat} {now : Bool} {s : PS} (h : (s.is.needClear now).1 = false) :
    keepByte b now s = .ok { s with is := (s.is.needClear now).2, text := s.text ++ [b] } := by
  simp [keepByte, h]

theorem needClear_again (is : IsText) (now : Bool) (h : (is.needClear now).1 = false) :
    (is.needClear now).2.needClear now = (false, (is.needClear now).2) := by
  obtain ⟨q, first, old, now', data⟩ := is
  cases first <;> cases old <;> cases now <;> simp_all [IsText.needClear]

theorem parsT_bytes (me : Int) (kw : Option KwId) (ups : List Layer) (now : Bool) (ts : List LTok) :
    ∀ (bs : List Nat) (n : Nat) (s : PS), (s.is.needClear now).1 = false → bs ≠ [] →
      parsT n me kw ups s (bs.map (LTok.byte · now) ++ ts) =
        if bs.length ≤ n then
          parsT (n - bs.length) me kw ups { s with is := (s.is.needClear now).2, text := s.text ++ bs } ts
        else .fuel
  | [], _, _, _, hne => absurd rfl hne
  | b :: bs, 0, s, h, _ => by simp [parsT]
  | b :: bs, n + 1, s, h, _ => by
    simp only [List.map_cons, List.cons_append, parsT, keepByte_more h, PR.ok_bind]
    by_cases hb : bs = []
    · subst hb; simp
    · have h2 := needClear_again s.is now h
      rw [parsT_bytes me kw ups now ts bs n _ (by rw [h2]) hb]
      simp [h2]

/-- What holds of errors and results. -/
def Safe16 (x : PR (PS × List LTok)) : Prop :=
  match x with
  | .ok (r, ts) => r.text = [] ∧ Chunked ts
  | .err e _ => e.s ≠ errUtf8.s
  | _ => True

def Safe16S (x : PR PS) : Prop :=
  match x with
  | .ok r => r.text = []
  | .err e _ => e.s ≠ errUtf8.s
  | _ => True

theorem addCode_safe (c : Code) (s : PS) : match addCode c s with
    | .ok r => r.text = s.text
    | .err e _ => e.s ≠ errUtf8.s
    | _ => True := by
  have h0 : (Err.msg c!"缺少前句").s ≠ errUtf8.s := by decide
  unfold addCode
  by_cases h2 : s.ret0 = 2
  · simp only [h2, if_true]
    cases s.c2
    · exact h0
    · rfl
  · by_cases h3 : s.ret0 = 3
    · simp only [h3]
      cases s.c3
      · exact h0
      · rfl
    · simp [h2, h3]

theorem addText_safe {s : PS} {t : Str} (ht : s.text = utf8 t) : Safe16S (addText s) := by
  unfold addText
  split
  · rename_i h; simpa [Safe16S] using h
  · rw [ht, decode_utf8]
    simp only
    split
    · trivial
    · trivial
    · rename_i c _
      have := addCode_safe c { s with text := [], is := s.is.clear }
      generalize addCode c { s with text := [], is := s.is.clear } = x at this
      cases x <;> exact this

theorem addKw_safe (id : KwId) (s : PS) (hs : s.text = []) : Safe16S (addKw id s) := by
  have h : ∀ c, Safe16S (addCode c s) := by
    intro c
    have := addCode_safe c s
    generalize addCode c s = x at this
    cases x <;> simp_all [Safe16S]
  unfold addKw
  split
  · exact h _
  · split
    all_goals first | exact h _ | trivial

theorem Safe16S.bind {x : PR PS} {f : PS → PR (PS × List LTok)} (h : Safe16S x)
    (hf : ∀ r, r.text = [] → Safe16 (f r)) : Safe16 (x >>= f) := by
  cases x with
  | ok r => exact hf r h
  | err e i => exact h
  | panic => trivial
  | fuel => trivial

theorem Safe16S.bindS {x : PR PS} {f : PS → PR PS} (h : Safe16S x)
    (hf : ∀ r, r.text = [] → Safe16S (f r)) : Safe16S (x >>= f) := by
  cases x with
  | ok r => exact hf r h
  | err e i => exact h
  | panic => trivial
  | fuel => trivial

def Safe16N (x : PR Next) : Prop :=
  match x with
  | .ok (.loop r) => r.text = []
  | .ok (.brk r) => r.text = []
  | .ok (.child r) => r.text = []
  | .err e _ => e.s ≠ errUtf8.s
  | _ => True

theorem kwRet0_text (id : KwId) (s : PS) : (kwRet0 id s).text = s.text := by
  unfold kwRet0; split <;> rfl

theorem kwRest_safe (id : KwId) (s : PS) (hs : s.text = []) : Safe16N (kwRest id s) := by
  have h1 : (kwRet0 id s).text = [] := by rw [kwRet0_text, hs]
  unfold kwRest
  split
  · have := addKw_safe id _ h1
    generalize addKw id (kwRet0 id s) = x at this
    cases x <;> exact this
  · unfold kwKind
    split <;> exact h1

theorem layerI1_text (selfI : Int) (ls : List Layer) (id : KwId) (s : PS) :
    (layerI1 selfI ls id s).1.text = s.text := by
  unfold layerI1
  generalize layerScan selfI ls id = t
  obtain ⟨ret, must, u⟩ := t
  simp only
  by_cases hu : u = 0
  · simp only [hu, if_true]
    split
    · rfl
    · split <;> rfl
  · simp only [hu, if_false]
    split
    · rfl
    · split <;> rfl

theorem kwMain_safe (me : Int) (kw : Option KwId) (ups : List Layer) (id : KwId) {s : PS} {t : Str}
    (ht : s.text = utf8 t) : Safe16N (kwMain me kw ups id s) := by
  have h1 := addText_safe ht
  unfold kwMain
  generalize addText s = x at h1
  cases x with
  | err e i => exact h1
  | panic => trivial
  | fuel => trivial
  | ok r =>
    have h1 : r.text = [] := h1
    simp only [PR.ok_bind]
    split
    · exact h1
    · split
      · have h2 := layerI1_text me (⟨me, kw, r.ret0⟩ :: ups) id r
        cases hl : layerI1 me (⟨me, kw, r.ret0⟩ :: ups) id r with
        | mk r2 b =>
          rw [hl] at h2
          have h3 : r2.text = [] := Eq.trans h2 h1
          cases b with
          | true => exact h3
          | false => exact kwRest_safe id r2 h3
      · exact kwRest_safe id r h1

/-- The text of an error about a keyword begins with the quotation mark. -/
theorem textStr_ne (s r : Str) : textStr s ++ r ≠ errUtf8.s := by
  intro h
  have := congrArg List.head? h
  simp [textStr, kwStr, errUtf8, Err.msg] at this

def Safe16B (x : PR (PS × Bool)) : Prop :=
  match x with
  | .ok p => p.1.text = []
  | .err e _ => e.s ≠ errUtf8.s
  | _ => True

theorem afterChild_safe (me : Int) (id : KwId) (s ch : PS) (hs : s.text = []) :
    Safe16B (afterChild me id s ch) := by
  unfold afterChild
  split
  · exact textStr_ne _ _
  · exact textStr_ne _ _
  · rename_i c _
    have h1 := addCode_safe c { ch with ret0 := s.ret0, c1 := s.c1, c2 := s.c2, c3 := s.c3, text := s.text }
    generalize addCode c ({ ch with ret0 := s.ret0, c1 := s.c1, c2 := s.c2, c3 := s.c3, text := s.text } : PS)
      = x at h1
    cases x with
    | err e i => exact h1
    | panic => trivial
    | fuel => trivial
    | ok r =>
      have h1 : r.text = [] := by rw [← hs]; exact h1
      simp only [PR.ok_bind]
      split
      · exact h1
      · split
        · exact h1
        · cases r.mkw with
          | none => exact h1
          | some k =>
            simp only
            split
            · have := addKw_safe k r h1
              generalize addKw k r = y at this
              cases y <;> exact this
            · split <;> exact h1

/-- `keepByte` on the first byte of a character. -/
theorem keepByte_safe (b : Nat) (now : Bool) {s : PS} {t : Str} (ht : s.text = utf8 t) :
    match keepByte b now s with
    | .ok r => (∃ t', r.text = utf8 t' ++ [b]) ∧ (r.is.needClear now).1 = false
    | .err e _ => e.s ≠ errUtf8.s
    | _ => True := by
  unfold keepByte
  cases hc : (s.is.needClear now).1 with
  | false =>
    simp only [Bool.false_eq_true, if_false, PR.ok_bind]
    refine ⟨⟨t, by simp [ht]⟩, ?_⟩
    have := needClear_again s.is now hc
    simp [this]
  | true =>
    simp only [if_true]
    have h1 := addText_safe (s := { s with is := (s.is.needClear now).2 }) ht
    have h2 : ∀ r, addText { s with is := (s.is.needClear now).2 } = .ok r →
        r.is = ((s.is.needClear now).2).clear := by
      intro r hr
      unfold addText at hr
      split at hr
      · injection hr with hr; rw [← hr]
      · split at hr
        · simp at hr
        · split at hr
          · simp at hr
          · simp at hr
          · unfold addCode at hr
            split at hr
            · split at hr
              · injection hr with hr; rw [← hr]
              · simp at hr
            · split at hr
              · split at hr
                · injection hr with hr; rw [← hr]
                · simp at hr
              · injection hr with hr; rw [← hr]
    generalize addText { s with is := (s.is.needClear now).2 } = x at h1 h2
    cases x with
    | err e i => exact h1
    | panic => trivial
    | fuel => trivial
    | ok r =>
      have h3 : r.text = [] := h1
      refine ⟨⟨[], by simp [h3]⟩, ?_⟩
      simp only [h2 r rfl]
      simp [IsText.clear, IsText.needClear]

theorem parsT_safe : ∀ (n : Nat) (me : Int) (kw : Option KwId) (ups : List Layer) (s : PS) (ts : List LTok)
    (t : Str), s.text = utf8 t → Chunked ts → Safe16 (parsT n me kw ups s ts) := by
  intro n
  induction n using Nat.strongRecOn with
  | ind n ih =>
    intro me kw ups s ts t ht hts
    cases n with
    | zero => trivial
    | succ n =>
      cases hts with
      | nil =>
        simp only [parsT]
        exact (addText_safe ht).bind fun r hr => ⟨hr, .nil⟩
      | char c now hts' =>
        rename_i ts
        obtain ⟨b, bs, hb, _⟩ := encChar_shape c
        rw [hb]
        simp only [List.map_cons, List.cons_append, parsT]
        have h1 := keepByte_safe b now ht
        generalize keepByte b now s = x at h1
        cases x with
        | err e i => exact h1
        | panic => trivial
        | fuel => trivial
        | ok r =>
          obtain ⟨⟨t', ht'⟩, h2⟩ := h1
          simp only [PR.ok_bind]
          by_cases hbs : bs = []
          · subst hbs
            simp only [List.map_nil, List.nil_append]
            refine ih n (by omega) me kw ups r ts (t' ++ [c]) ?_ hts'
            rw [ht', utf8_append]; simp [utf8, hb]
          · rw [parsT_bytes me kw ups now ts bs n r h2 hbs]
            split
            · refine ih _ (by omega) me kw ups _ ts (t' ++ [c]) ?_ hts'
              rw [ht', utf8_append]; simp [utf8, hb]
            · trivial
      | kwText id b hts' =>
        rename_i ts
        simp only [parsT]
        have hgo : ∀ (r : PS) (t' : Str), r.text = utf8 t' →
            Safe16 (parsT n me kw ups { r with text := r.text ++ kwBytes id } ts) := by
          intro r t' h
          refine ih n (by omega) me kw ups _ ts (t' ++ kwStr id) ?_ hts'
          simp only [h, utf8_append, kwBytes]
        split
        · exact (addText_safe ht).bind fun r hr => hgo r [] hr
        · exact hgo s t ht
      | kw id hts' =>
        rename_i ts
        simp only [parsT]
        have h1 := kwMain_safe me kw ups id ht
        generalize kwMain me kw ups id s = x at h1
        cases x with
        | err e i => exact h1
        | panic => trivial
        | fuel => trivial
        | ok nx =>
          simp only [PR.ok_bind]
          cases nx with
          | loop r => exact ih n (by omega) me kw ups r ts [] h1 hts'
          | brk r => exact (addText_safe (t := []) h1).bind fun r hr => ⟨hr, hts'⟩
          | child r =>
            have h1 : r.text = [] := h1
            simp only
            have h2 := ih n (by omega) (me + 1) (some id) (⟨me, kw, r.ret0⟩ :: ups) (childState id r) ts []
              rfl hts'
            generalize parsT n (me + 1) (some id) (⟨me, kw, r.ret0⟩ :: ups) (childState id r) ts = y at h2
            cases y with
            | err e i => exact h2
            | panic => trivial
            | fuel => trivial
            | ok ch =>
              obtain ⟨ch, ts2⟩ := ch
              obtain ⟨h3, h4⟩ := h2
              simp only [PR.ok_bind]
              have h5 := afterChild_safe me id r ch h1
              generalize afterChild me id r ch = z at h5
              cases z with
              | err e i => exact h5
              | panic => trivial
              | fuel => trivial
              | ok p =>
                have h5 : p.1.text = [] := h5
                simp only [PR.ok_bind]
                split
                · refine ih n (by omega) me kw ups p.1 _ [] h5 ?_
                  split
                  · exact .kw _ h4
                  · exact h4
                · exact (addText_safe (t := []) h5).bind fun r hr => ⟨hr, h4⟩

/-- **C16.** A source that is valid UTF-8 (every source text) is never rejected with the message about
invalid UTF-8: keywords, comments and quotation changes cut the source only at characters, so every
collected text is the encoding of some text. -/
theorem C16_no_utf8_error (s : Str) (e : Err) (h : parse s = .ok (.error e)) : e.s ≠ errUtf8.s := by
  have h1 := parse_tokens s ((utf8 s).length + 1) (by omega)
  have h2 := parsT_safe ((utf8 s).length + 1) 0 none [] PS.init (lex Quo.zero (utf8 s)) [] rfl
    (lex_chunked _ s)
  generalize parsT ((utf8 s).length + 1) 0 none [] PS.init (lex Quo.zero (utf8 s)) = x at h1 h2
  cases x with
  | ok r => simp only at h1; rw [h1] at h; simp at h
  | err e' i' =>
    obtain ⟨i, h1⟩ := h1
    rw [h1] at h
    simp only [Out.ok.injEq, Except.error.injEq] at h
    rw [← h]
    exact h2
  | panic => simp only at h1; rw [h1] at h; simp at h
  | fuel => exact h1.elim

/-- The message does exist: bytes that are not UTF-8 produce it. -/
theorem C16_bytes_rejected : (match parseBytes [0xE5, 0x85] with
    | .ok (.error e) => decide (e.s = errUtf8.s) | _ => false) = true := by decide +kernel

end Zh
