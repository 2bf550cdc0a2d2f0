import Verif.Props.Lex
/-!
# Blanks in code (C17)
-/
namespace Zh

theorem isKwGo_strip : ∀ (cs ks : List Nat) (n : Nat), (∀ k ∈ ks, 32 < k) →
    (∀ m, isKwGo ks cs true n = .hit m →
      isKwGo ks (stripB cs) true 0 = .hit ks.length ∧ n ≤ m ∧
        stripB (cs.drop (m - n)) = (stripB cs).drop ks.length) ∧
    (isKwGo ks cs true n = .miss → isKwGo ks (stripB cs) true 0 = .miss)
  | cs, [], n, _ => by
    simp [isKwGo]
  | [], k :: ks, n, _ => by simp [isKwGo, stripB]
  | c :: cs, k :: ks, n, hk => by
    by_cases hc : isSp c = true
    · have h32 : ¬ 32 < c := by simpa [isSp] using hc
      have hst : stripB (c :: cs) = stripB cs := by simp [stripB, h32]
      have ih := isKwGo_strip cs (k :: ks) (n + 1) hk
      simp only [isKwGo, hc, if_true, hst]
      refine ⟨?_, ih.2⟩
      intro m hm
      obtain ⟨h1, h2, h3⟩ := ih.1 m hm
      refine ⟨h1, by omega, ?_⟩
      rw [← h3]
      obtain ⟨j, rfl⟩ : ∃ j, m = n + 1 + j := ⟨m - (n + 1), by omega⟩
      rw [show n + 1 + j - n = j + 1 by omega, show n + 1 + j - (n + 1) = j by omega]
      rfl
    · have h32 : 32 < c := by simpa [isSp] using hc
      have hst : stripB (c :: cs) = c :: stripB cs := by simp [stripB, h32]
      have hks : ∀ k ∈ ks, 32 < k := fun x hx => hk x (by simp [hx])
      have ih := isKwGo_strip cs ks (n + 1) hks
      simp only [isKwGo, hc, Bool.false_eq_true, if_false, hst]
      by_cases hck : c = k
      · subst hck
        simp only [ne_eq, not_true_eq_false, if_false]
        constructor
        · intro m hm
          obtain ⟨h1, h2, h3⟩ := ih.1 m hm
          rw [isKwGo_n, h1]
          refine ⟨by simp [Nat.add_comm], by omega, ?_⟩
          obtain ⟨j, rfl⟩ : ∃ j, m = n + 1 + j := ⟨m - (n + 1), by omega⟩
          rw [show n + 1 + j - n = j + 1 by omega]
          rw [show n + 1 + j - (n + 1) = j by omega] at h3
          simpa using h3
        · intro hm
          rw [isKwGo_n, ih.2 hm]
      · simp [hck]

/-- Recognition without the blanks. -/
theorem findKw_strip (c : Nat) (cs : List Nat) (hc : 32 < c) : ∀ (ids : List KwId),
    (∀ i ∈ ids, kwBytes i ≠ []) →
    match findKw (c :: cs) ids with
    | some (id, m) => findKw (c :: stripB cs) ids = some (id, (kwBytes id).length) ∧ 1 ≤ m ∧
        stripB ((c :: cs).drop m) = (c :: stripB cs).drop (kwBytes id).length
    | none => findKw (c :: stripB cs) ids = none
  | [], _ => by simp [findKw]
  | i :: ids, hne => by
    have ih := findKw_strip c cs hc ids (fun j hj => hne j (by simp [hj]))
    have hsp : isSp c = false := by simp [isSp]; omega
    cases hk : kwBytes i with
    | nil => exact absurd hk (hne i (by simp))
    | cons k ks =>
      have hgt : ∀ x ∈ ks, 32 < x := fun x hx => kwBytes_gt i x (by rw [hk]; simp [hx])
      have h1 := isKwGo_strip cs ks 1 hgt
      simp only [findKw, hk, isKwGo, hsp, Bool.false_eq_true, if_false]
      by_cases hck : c = k
      · subst hck
        simp only [ne_eq, not_true_eq_false, if_false, Nat.zero_add]
        cases e : isKwGo ks cs true 1 with
        | hit m =>
          obtain ⟨h2, h3, h4⟩ := h1.1 m e
          rw [isKwGo_n, h2]
          simp only
          refine ⟨by simp [hk, Nat.add_comm], h3, ?_⟩
          obtain ⟨j, rfl⟩ : ∃ j, m = j + 1 := ⟨m - 1, by omega⟩
          simpa [hk] using h4
        | miss =>
          rw [isKwGo_n, h1.2 e]
          exact ih
        | blank =>
          exfalso
          have key : ∀ (src ks : List Nat) n, isKwGo ks src true n ≠ .blank := by
            intro src
            induction src with
            | nil => intro ks n; cases ks <;> simp [isKwGo]
            | cons c cs ih =>
              intro ks n
              cases ks with
              | nil => simp [isKwGo]
              | cons k ks =>
                simp only [isKwGo]
                split
                · exact ih _ _
                · split
                  · simp
                  · exact ih _ _
          exact key _ _ _ e
      · simp only [ne_eq, hck, not_false_eq_true, if_true]
        exact ih

/-- A state in which blanks between words are dropped: no text, verbatim, comment or variable is open. -/
def Quo.Plain (q : Quo) : Prop := q.rem ≤ 0 ∧ q.yuan ≤ 0 ∧ q.text ≤ 0 ∧ q.var ≤ 0 ∧ q.text2 ≤ 0

theorem Quo.Plain.keep {q : Quo} (h : q.Plain) (c : Nat) : q.keep c = decide (32 < c) := by
  obtain ⟨h1, h2, h3, h4, h5⟩ := h
  unfold Quo.keep
  rw [if_neg (by omega), if_neg (by omega), if_neg (by omega), if_neg (by omega)]

/-- The keywords that open or close a quotation, a comment or a variable. -/
def Spec.quoting : List KwId :=
  [.beginRem, .endRem, .beginVar, .endVar, .beginText, .endText, .beginYuanyang, .endYuanyang,
   .beginText2, .endText2]

theorem lexKw_plain {q : Quo} {id : KwId} (h : q.Plain) (hid : id ∉ Spec.quoting) :
    (lexKw q id).1.Plain := by
  unfold lexKw
  have h2 : ((q.add4 id).1.Plain) ∧ (∀ q', q.bracket id = some q' → q'.Plain) := by
    cases id <;> first
      | (exfalso; revert hid; decide)
      | exact ⟨h, fun q' hq => by simp only [Quo.bracket, Option.some.injEq] at hq; rw [← hq]; exact h⟩
      | exact ⟨h, fun q' hq => by simp [Quo.bracket] at hq⟩
  split
  · exact h2.1
  · split
    · exact h2.1
    · split
      · exact h2.2 _ (by assumption)
      · exact h

/-- The tokens do not depend on blanks as long as no quoting keyword occurs. -/
theorem lex_strip (q : Quo) (src : List Nat) (hq : q.Plain)
    (hn : ∀ id ∈ Spec.quoting, ¬ kwBytes id <:+: stripB src) :
    lex q src = lex q (stripB src) ∧ lexEnd q src = lexEnd q (stripB src) ∧ (lexEnd q src).Plain := by
  generalize hl : src.length = n
  induction n using Nat.strongRecOn generalizing q src with
  | ind n ih =>
    cases src with
    | nil => exact ⟨rfl, rfl, by rw [lexEnd_nil]; exact hq⟩
    | cons c cs =>
      by_cases hc : 32 < c
      · have hst : stripB (c :: cs) = c :: stripB cs := by simp [stripB, hc]
        have hf := findKw_strip c cs hc (kwOrder.filter (active q false)) (active_ne q false)
        cases e : kwAt q false (c :: cs) with
        | none =>
          rw [kwAt] at e
          rw [e] at hf
          have hf : kwAt q false (c :: stripB cs) = none := hf
          have e : kwAt q false (c :: cs) = none := e
          rw [hst, lex_cons_miss e, lex_cons_miss hf, lexEnd_miss e, lexEnd_miss hf]
          have := ih cs.length (by simp at hl; omega) q cs hq (fun id hid h => hn id hid (by
            rw [hst]; exact h.trans (List.suffix_cons _ _).isInfix)) rfl
          rw [← this.1, ← this.2.1]
          exact ⟨rfl, rfl, this.2.2⟩
        | some r =>
          obtain ⟨id, m⟩ := r
          have hspell := kwAt_spells e
          rw [kwAt] at e
          rw [e] at hf
          obtain ⟨hf, hm, hd⟩ := hf
          have hf : kwAt q false (c :: stripB cs) = some (id, (kwBytes id).length) := hf
          have e : kwAt q false (c :: cs) = some (id, m) := e
          have hml := kwAt_len e
          have hpre : kwBytes id <:+: stripB (c :: cs) := by
            obtain ⟨_, _, t, r, h1, h2, h3, _⟩ := hspell
            rw [h1]
            unfold stripB
            rw [List.filter_append, h3]
            exact (List.prefix_append _ _).isInfix
          have hid : id ∉ Spec.quoting := fun h => hn id h hpre
          rw [hst, lex_cons_hit e, lex_cons_hit hf, lexEnd_hit e, lexEnd_hit hf]
          have := ih ((c :: cs).drop m).length (by simp at hl ⊢; omega) (lexKw q id).1 _ (lexKw_plain hq hid)
            (fun i hi h => hn i hi (by
              rw [hd, ← hst] at h
              exact h.trans (List.drop_suffix _ _).isInfix)) rfl
          rw [hd] at this
          rw [← this.1, ← this.2.1]
          exact ⟨rfl, rfl, this.2.2⟩
      · have hst : stripB (c :: cs) = stripB cs := by simp [stripB, hc]
        have e : kwAt q false (c :: cs) = none := kwAt_blank (by omega)
        rw [hst, lex_cons_miss e, lexEnd_miss e, hq.keep]
        have := ih cs.length (by simp at hl; omega) q cs hq (fun id hid h => hn id hid (by rw [hst]; exact h)) rfl
        simpa [hc] using this

/-- A text in which no quoting keyword occurs, even with blanks inside. -/
def Spec.NoQuoting (s : Str) : Prop := ∀ id ∈ Spec.quoting, ¬ kwStr id <:+: Spec.strip s

theorem utf8_infix {s t : Str} (h : utf8 s <:+: utf8 t) : s <:+: t := by
  obtain ⟨a, b, hab⟩ := h
  by_cases hs : s = []
  · subst hs; exact List.nil_infix
  · rw [List.append_assoc] at hab
    obtain ⟨t1, t2, rfl, _, h2⟩ := utf8_cut t a (utf8 s ++ b) hab.symm (by
      intro x hx
      cases e : utf8 s with
      | nil => exact absurd (utf8_eq_nil.1 e) hs
      | cons y ys =>
        rw [e] at hx; simp at hx; rw [← hx]; exact utf8_head e)
    have hp : s <+: t2 := utf8_prefix ⟨b, h2.symm⟩
    obtain ⟨z, rfl⟩ := hp
    exact ⟨t1, z, by simp⟩

theorem noQuoting_bytes {s : Str} (h : Spec.NoQuoting s) :
    ∀ id ∈ Spec.quoting, ¬ kwBytes id <:+: stripB (utf8 s) := by
  intro id hid hi
  rw [stripB_utf8] at hi
  exact h id hid (utf8_infix hi)

/-- The state the parser is in after a text is "code position": no quotation, comment or variable open. -/
def CodeAfter (pre : Str) : Prop := (lexEnd Quo.zero (utf8 pre)).Plain

/-- **C17.** In code that contains no quoting construct, blanks and control characters may be inserted and
removed anywhere, even inside a keyword: two sources that differ only in them parse to the same program. -/
theorem C17_blanks_irrelevant (s t : Str) (h : Spec.strip s = Spec.strip t) (hs : Spec.NoQuoting s) :
    Spec.SameParse (parse s) (parse t) := by
  have ht : Spec.NoQuoting t := by intro id hid; rw [← h]; exact hs id hid
  apply sameParse_of_lex
  have hz : Quo.zero.Plain := by simp [Quo.Plain, Quo.zero]
  rw [(lex_strip _ _ hz (noQuoting_bytes hs)).1, (lex_strip _ _ hz (noQuoting_bytes ht)).1, stripB_utf8,
    stripB_utf8, h]

/-- **C17, in context.** The same inside a larger source: whatever stands before (as long as it leaves the
parser in code position) and after, if no keyword is formed across the borders. -/
theorem C17_blanks_irrelevant_inside (pre s t post : Str) (h : Spec.strip s = Spec.strip t)
    (hs : Spec.NoQuoting s) (hpre : CodeAfter pre) (h1 : Spec.NoJoin pre (s ++ post))
    (h2 : Spec.NoJoin s post) :
    Spec.SameParse (parse (pre ++ s ++ post)) (parse (pre ++ t ++ post)) := by
  have ht : Spec.NoQuoting t := by intro id hid; rw [← h]; exact hs id hid
  have h1' : Spec.NoJoin pre (t ++ post) := by
    intro id hid k1 k2 hk hk1 hk2
    have := h1 id hid k1 k2 hk hk1 hk2
    unfold Spec.strip at h this ⊢
    rw [List.filter_append] at this ⊢
    rwa [← h]
  have h2' : Spec.NoJoin t post := by
    intro id hid k1 k2 hk hk1 hk2
    have := h2 id hid k1 k2 hk hk1 hk2
    rwa [← h]
  apply sameParse_of_lex
  have e : ∀ x : Str, Spec.strip s = Spec.strip x → Spec.NoQuoting x → Spec.NoJoin pre (x ++ post) →
      Spec.NoJoin x post →
      lex Quo.zero (utf8 (pre ++ x ++ post)) = lex Quo.zero (utf8 pre) ++
        (lex (lexEnd Quo.zero (utf8 pre)) (utf8 (Spec.strip s)) ++
          lex (lexEnd (lexEnd Quo.zero (utf8 pre)) (utf8 (Spec.strip s))) (utf8 post)) := by
    intro x hx hnq hj1 hj2
    have hst := lex_strip _ _ hpre (noQuoting_bytes hnq)
    rw [stripB_utf8, ← hx] at hst
    rw [List.append_assoc, utf8_append, (lex_append _ _ _ (noStraddle_of_noJoin hj1)).1, utf8_append,
      (lex_append _ _ _ (noStraddle_of_noJoin hj2)).1, hst.1, hst.2.1]
  rw [e s rfl hs h1 h2, e t h ht h1' h2']

/-- Non-vacuity: blanks inside a keyword, in the middle of a program. -/
example : Spec.NoQuoting c!"如 果甲\n那么显\t示乙。" ∧
    Spec.strip c!"如 果甲\n那么显\t示乙。" = Spec.strip c!"如果甲那么显示乙。" ∧
    (match parse c!"如 果甲\n那么显\t示乙。" with | .ok (.ok p) => decide (p.length = 2) | _ => false) = true := by
  refine ⟨?_, ?_, ?_⟩
  · unfold Spec.NoQuoting; decide +kernel
  · decide +kernel
  · decide +kernel

end Zh
