import Verif.Props.Grammar
import Verif.Props.Pipes2
/-!
# C75: words and quoted texts side by side

In a sentence words and quoted texts may stand side by side: `甲“和”乙`.  Each of them becomes an item of its own, unless it consists of a
single byte and stands between two others: then it is joined with the one after it.
-/
namespace Zh

/-- A word, or a text in `“…”`. -/
structure Spec.Bit where
  quoted : Bool
  s : Str

def Spec.Bit.src (x : Spec.Bit) : Str := if x.quoted then c!"“" ++ x.s ++ c!"”" else x.s

/-- Without blanks (in a quoted text: without tabs and line ends). -/
def Spec.Bit.kept (x : Spec.Bit) : Str := if x.quoted then Spec.printable x.s else Spec.strip x.s

/-- A text or a word in the program. -/
def Spec.bitItem (quoted : Bool) (t : Str) : Code := if quoted then .text t else .undef t

/-- Not empty, and the marks are in their places. -/
def Spec.Bit.Ok (x : Spec.Bit) : Prop := x.kept ≠ [] ∧ (if x.quoted then Spec.Free inText x.s else Spec.Free Spec.anyKw x.s)

/-- Words and quoted texts by turns. -/
def Spec.ByTurns : List Spec.Bit → Prop
  | a :: b :: l => a.quoted ≠ b.quoted ∧ Spec.ByTurns (b :: l)
  | _ => True

/-! ## Tokens -/

def bitTok (x : Spec.Bit) : List LTok := (utf8 x.kept).map (LTok.byte · x.quoted)

theorem lex_bit {x : Spec.Bit} (h : x.Ok) (rest : Str) (hj : x.quoted = false → Spec.NoJoin x.s rest) :
    lex Quo.zero (utf8 (x.src ++ rest)) = bitTok x ++ lex Quo.zero (utf8 rest) := by
  obtain ⟨b, s⟩ := x
  cases b with
  | false => exact lex_word s rest h.2 (hj rfl)
  | true => exact lex_atom (.quote [] s) ⟨nofun, h.2⟩ rest nofun

theorem lex_bits : ∀ l : List Spec.Bit, (∀ x ∈ l, x.Ok) → Spec.ByTurns l → lex Quo.zero (utf8 (l.flatMap Spec.Bit.src)) = l.flatMap bitTok
  | [], _, _ => by simp [utf8, lex_nil]
  | [x], h, _ => by
    rw [List.flatMap_cons, List.flatMap_nil, lex_bit (h x (by simp)) _ fun _ => noJoin_nil _]
    simp [utf8, lex_nil]
  | x :: y :: l, h, ht => by
    rw [List.flatMap_cons, lex_bit (h x (by simp)) _ ?_, lex_bits (y :: l) (fun z hz => h z (by simp [hz])) ht.2]
    · rfl
    · intro hx
      have hy : y.quoted = true := by
        have := ht.1
        rw [hx] at this
        cases e : y.quoted with
        | true => rfl
        | false => exact absurd e.symm this
      rw [List.flatMap_cons, Spec.Bit.src, if_pos hy, List.append_assoc, List.append_assoc]
      exact noJoin_one (c := '“') (by decide)

theorem bit_nl (x : Spec.Bit) : '\n' ∉ x.kept := by
  unfold Spec.Bit.kept
  split
  · exact nl_printable _
  · exact nl_strip _

/-! ## Steps -/

section
variable {me : Int} {kw : Option KwId} {ups : List Layer} {s s1 : PS} {l : List Code}

/-- As if the kind of the text had been noted already. -/
def noted (s : PS) : PS := { s with is := { s.is with first := true } }

theorem noted_eq {s : PS} (h : s.is.first = true) : noted s = s := by
  unfold noted
  rw [← h]

theorem addText_noted {s : PS} (h : s.text ≠ []) : addText (noted s) = addText s := by
  have : s.text.isEmpty = false := by
    cases e : s.text with
    | nil => exact absurd e h
    | cons => rfl
  unfold addText noted
  simp only [this, Bool.false_eq_true, if_false]
  rfl

theorem steps_first (b : Bool) (t : Str) (ht : t ≠ []) (h : At s l none s1) (ts : List LTok) :
    ∃ s2, At s l (some (b, t)) s2 ∧ s2.is.first = true ∧ Steps me kw ups s1 ((utf8 t).map (LTok.byte · b) ++ ts) s2 ts := by
  have h0 : (s1.is.needClear b).1 = false := by
    have := h.is; simp only [PendIs] at this; simp [IsText.needClear, this]
  refine ⟨{ s1 with is := (s1.is.needClear b).2, text := s1.text ++ utf8 t },
    ⟨h.ret0, h.c1, h.c2, h.c3, ?_, ?_, h.mi, h.mkw, h.mu⟩, ?_, ?_⟩
  · show s1.text ++ utf8 t = utf8 t
    rw [h.text]; rfl
  · have := h.is; simp only [PendIs] at this; simp [PendIs, IsText.needClear, this]
  · have := h.is; simp only [PendIs] at this; simp [IsText.needClear, this]
  · intro r ⟨n, hn⟩
    refine ⟨n + (utf8 t).length, ?_⟩
    rw [parsT_bytes me kw ups b ts (utf8 t) _ s1 h0 (by rw [ne_eq, utf8_eq_nil]; exact ht), if_pos (by omega),
      show n + (utf8 t).length - (utf8 t).length = n by omega]
    exact hn

/-- From a word to a quoted text or back.  The kind of the new text is noted only at its second byte. -/
theorem steps_turn (b : Bool) (w t : Str) (ht : t ≠ []) (h : At s l (some (b, w)) s1) (hf : s1.is.first = true) (hp : PutOk s)
    (hk : PendOk (some (b, w))) (ts : List LTok) :
    ∃ s2, At s (l ++ pendItems (some (b, w))) (some (!b, t)) (noted s2) ∧ s2.is.first = decide (2 ≤ (utf8 t).length) ∧
      Steps me kw ups s1 ((utf8 t).map (LTok.byte · (!b)) ++ ts) s2 ts := by
  have hne : (utf8 w).isEmpty = false := by
    cases e : utf8 w with
    | nil => exact absurd (utf8_eq_nil.1 e) hk.1
    | cons => rfl
  have h0 : s1.is.needClear (!b) = (true, { s1.is with now := !b }) := by
    cases b <;> simp [IsText.needClear, hf, h.is.1]
  have h1 : At s l (some (b, w)) { s1 with is := { s1.is with now := !b } } :=
    ⟨h.ret0, h.c1, h.c2, h.c3, h.text, ⟨h.is.1, fun _ => hf⟩, h.mi, h.mkw, h.mu⟩
  obtain ⟨s2, e2, h2⟩ := h1.flush hp hk
  have ho : s2.is.old = !b := by
    have hd : decode (utf8 w) = some w := decode_utf8 w
    have ht : s1.text = utf8 w := h.text
    obtain ⟨c, hc⟩ : ∃ c, textCode (!b) w = .ok c := by
      cases b with
      | false => exact ⟨_, rfl⟩
      | true => exact ⟨_, by simp [textCode, (C50_marks_partial w).2.2.2 (hk.2 rfl).1 (hk.2 rfl).2]; rfl⟩
    simp only [addText, ht, hne, hd, Bool.false_eq_true, if_false, h.is.1, hc] at e2
    rw [addCode_put (by exact h1.putOk hp)] at e2
    cases e2
    rfl
  cases hb : utf8 t with
  | nil => exact absurd (utf8_eq_nil.1 hb) ht
  | cons y ys =>
    have hk1 : keepByte y (!b) s1 = .ok { s2 with text := s2.text ++ [y] } := by
      unfold keepByte
      rw [h0]
      simp only [if_true, e2, PR.ok_bind]
    have hfs : s2.is.first = false := h2.is
    have n0 : (s2.is.needClear (!b)).1 = false := by simp [IsText.needClear, hfs]
    by_cases hys : ys = []
    · subst hys
      refine ⟨{ s2 with text := s2.text ++ [y] }, ⟨h2.ret0, h2.c1, h2.c2, h2.c3, ?_, ⟨ho, fun _ => rfl⟩, h2.mi, h2.mkw, h2.mu⟩, ?_, ?_⟩
      · show s2.text ++ [y] = utf8 t
        rw [h2.text, hb]; rfl
      · simpa using hfs
      · intro r ⟨n, hn⟩
        refine ⟨n + 1, ?_⟩
        simp only [List.map_cons, List.map_nil, List.cons_append, List.nil_append, parsT, hk1, PR.ok_bind]
        exact hn
    · refine ⟨{ s2 with is := (s2.is.needClear (!b)).2, text := s2.text ++ [y] ++ ys },
        ⟨h2.ret0, h2.c1, h2.c2, h2.c3, ?_, ⟨?_, fun _ => rfl⟩, h2.mi, h2.mkw, h2.mu⟩, ?_, ?_⟩
      · show s2.text ++ [y] ++ ys = utf8 t
        rw [h2.text, hb]; rfl
      · simp [noted, IsText.needClear, hfs]
      · cases ys with
        | nil => exact absurd rfl hys
        | cons => simp [IsText.needClear, hfs]
      · intro r ⟨n, hn⟩
        refine ⟨n + ys.length + 1, ?_⟩
        simp only [List.map_cons, List.cons_append, parsT, hk1, PR.ok_bind]
        rw [parsT_bytes me kw ups (!b) ts ys _ { s2 with text := s2.text ++ [y] } n0 hys, if_pos (by omega), show n + ys.length - ys.length = n by omega]
        exact hn

/-- What follows a single byte is joined with it. -/
theorem steps_joined (b : Bool) (w t : Str) (ht : t ≠ []) (h : At s l (some (!b, w)) (noted s1)) (hf : s1.is.first = false) (ts : List LTok) :
    ∃ s2, At s l (some (b, w ++ t)) s2 ∧ Steps me kw ups s1 ((utf8 t).map (LTok.byte · b) ++ ts) s2 ts := by
  have h0 : (s1.is.needClear b).1 = false := by simp [IsText.needClear, hf]
  refine ⟨{ s1 with is := (s1.is.needClear b).2, text := s1.text ++ utf8 t }, ⟨h.ret0, h.c1, h.c2, h.c3, ?_, ?_, h.mi, h.mkw, h.mu⟩, ?_⟩
  · show s1.text ++ utf8 t = utf8 (w ++ t)
    rw [utf8_append]
    exact congrArg (· ++ utf8 t) h.text
  · simp [PendIs, IsText.needClear, hf]
  · intro r ⟨n, hn⟩
    refine ⟨n + (utf8 t).length, ?_⟩
    rw [parsT_bytes me kw ups b ts (utf8 t) _ s1 h0 (by rw [ne_eq, utf8_eq_nil]; exact ht), if_pos (by omega),
      show n + (utf8 t).length - (utf8 t).length = n by omega]
    exact hn

theorem pendItems_bit (b : Bool) (t : Str) : pendItems (some (b, t)) = [Spec.bitItem b t] := by cases b <;> rfl

/-- The rest of the sentence, after the first byte of a piece that is not followed by another one, or has been noted. -/
theorem reads_bits (hp : PutOk s) : ∀ (bs : List Spec.Bit) (b : Bool) (w : Str) (l : List Code) (s1 : PS), At s l (some (b, w)) (noted s1) →
    PendOk (some (b, w)) → (bs ≠ [] → s1.is.first = true) → (∀ x ∈ bs, x.Ok) → Spec.ByTurns (⟨b, w⟩ :: bs) →
    (∀ x ∈ bs.dropLast, 2 ≤ (utf8 x.kept).length) →
    ∃ s', Reads me kw ups s1 (bs.flatMap bitTok) (s', []) ∧ At s (l ++ Spec.bitItem b w :: bs.map fun x => Spec.bitItem x.quoted x.kept) none s'
  | [], b, w, l, s1, h, hk, _, _, _, _ => by
    obtain ⟨s', e, h'⟩ := h.flush hp hk
    have ht : s1.text ≠ [] := by
      rw [show s1.text = utf8 w from h.text, ne_eq, utf8_eq_nil]
      exact hk.1
    rw [addText_noted ht] at e
    exact ⟨s', .nil e, by rw [pendItems_bit] at h'; exact h'⟩
  | x :: bs, b, w, l, s1, h, hk, hf, hok, ht, hwide => by
    have hf := hf nofun
    rw [noted_eq hf] at h
    have hx : x.quoted = !b := by
      have := ht.1
      cases e : x.quoted <;> cases b <;> simp_all
    obtain ⟨s2, h2, e2, st⟩ := steps_turn (me := me) (kw := kw) (ups := ups) b w x.kept (hok x (by simp)).1 h hf hp hk (bs.flatMap bitTok)
    rw [pendItems_bit, ← hx] at h2
    obtain ⟨s', h3, h4⟩ := reads_bits hp bs x.quoted x.kept _ s2 h2 ⟨(hok x (by simp)).1, fun _ => no_marks (bit_nl x)⟩ (fun hne => by
        rw [e2]
        refine decide_eq_true (hwide x ?_)
        cases bs with
        | nil => exact absurd rfl hne
        | cons y ys => simp) (fun y hy => hok y (by simp [hy])) (by
        cases bs with
        | nil => trivial
        | cons y ys => exact ht.2) (fun y hy => hwide y (by
        cases bs with
        | nil => simp at hy
        | cons z zs => simp only [List.dropLast_cons_cons, List.mem_cons]; exact .inr hy))
    refine ⟨s', ?_, by simpa using h4⟩
    rw [List.flatMap_cons, bitTok, hx]
    exact st _ h3

end

/-- **C75, partial.**  Words and quoted texts by turns, any number of them: each becomes an item of its own, if all but the first and
the last have more than one byte. -/
theorem C75_apart_partial (l : List Spec.Bit) (hok : ∀ x ∈ l, x.Ok) (ht : Spec.ByTurns l) (hw : ∀ x ∈ l.tail.dropLast, 2 ≤ (utf8 x.kept).length) :
    parse (l.flatMap Spec.Bit.src) = .ok (.ok (l.map fun x => Spec.bitItem x.quoted x.kept)) := by
  have hp : PutOk PS.init := by constructor <;> decide
  have hlex := lex_bits l hok ht
  cases l with
  | nil =>
    refine parse_reads (s := { PS.init with is := PS.init.is.clear }) ?_
    rw [hlex]
    exact .nil rfl
  | cons x bs =>
    obtain ⟨s2, h2, hf, st⟩ := steps_first (me := 0) (kw := none) (ups := []) x.quoted x.kept (hok x (by simp)).1
      (AtM.start (s := PS.init) rfl rfl rfl) (bs.flatMap bitTok)
    obtain ⟨s', h3, h4⟩ := reads_bits (me := 0) (kw := none) (ups := []) hp bs x.quoted x.kept _ s2 (by rw [noted_eq hf]; exact h2)
      ⟨(hok x (by simp)).1, fun _ => no_marks (bit_nl x)⟩ (fun _ => hf) (fun y hy => hok y (by simp [hy])) (by
        cases bs with
        | nil => trivial
        | cons y ys => exact ht) hw
    have := parse_reads (src := (x :: bs).flatMap Spec.Bit.src) (s := s') (by rw [hlex]; exact st _ h3)
    rw [this, h4.c1]
    rfl

/-- **C75, what happens otherwise.**  A piece of one byte between two others is joined with the one after it, and taken for what that is:
a quoted text becomes part of a word, a word becomes part of a quoted text. -/
theorem C75_joined (a c b : Spec.Bit) (ha : a.Ok) (hc : c.Ok) (hb : b.Ok) (h1 : a.quoted ≠ c.quoted) (h2 : c.quoted ≠ b.quoted)
    (hw : (utf8 c.kept).length = 1) :
    parse (a.src ++ c.src ++ b.src) = .ok (.ok [Spec.bitItem a.quoted a.kept, Spec.bitItem b.quoted (c.kept ++ b.kept)]) := by
  have hp : PutOk PS.init := by constructor <;> decide
  have hlex := lex_bits [a, c, b] (by simp [ha, hb, hc]) ⟨h1, h2, trivial⟩
  simp only [List.flatMap_cons, List.flatMap_nil, List.append_nil] at hlex
  have hcq : c.quoted = !a.quoted := by cases e : c.quoted <;> cases e' : a.quoted <;> simp_all
  have hbq : b.quoted = a.quoted := by cases e : c.quoted <;> cases e' : a.quoted <;> cases e'' : b.quoted <;> simp_all
  obtain ⟨s2, k2, f2, st2⟩ := steps_first (me := 0) (kw := none) (ups := []) a.quoted a.kept ha.1 (AtM.start (s := PS.init) rfl rfl rfl) (bitTok c ++ bitTok b)
  obtain ⟨s3, k3, f3, st3⟩ := steps_turn (me := 0) (kw := none) (ups := []) a.quoted a.kept c.kept hc.1 k2 f2 hp ⟨ha.1, fun _ => no_marks (bit_nl a)⟩ (bitTok b)
  obtain ⟨s4, k4, st4⟩ := steps_joined (me := 0) (kw := none) (ups := []) a.quoted c.kept b.kept hb.1 k3 (by rw [f3, hw]; rfl) []
  obtain ⟨s5, e5, k5⟩ := k4.flush hp ⟨by simp [hc.1], fun _ => no_marks fun hm => (List.mem_append.1 hm).elim (bit_nl c) (bit_nl b)⟩
  have := parse_reads (src := a.src ++ c.src ++ b.src) (s := s5) (by
    rw [List.append_assoc, hlex]
    have hb' : bitTok b = (utf8 b.kept).map (LTok.byte · a.quoted) ++ [] := by rw [List.append_nil, bitTok, hbq]
    have hc' : bitTok c = (utf8 c.kept).map (LTok.byte · (!a.quoted)) := by rw [bitTok, hcq]
    rw [hc'] at st2 ⊢
    rw [hb'] at st2 st3 ⊢
    exact st2 _ (st3 _ (st4 _ (.nil e5))))
  rw [this, k5.c1, pendItems_bit, pendItems_bit, hbq]
  rfl

/-- Pieces that meet the hypotheses of `C75_apart_partial`. -/
theorem C75_apart_witness : parse c!"甲“和”乙“或”丙" = .ok (.ok [.undef c!"甲", .text c!"和", .undef c!"乙", .text c!"或", .undef c!"丙"]) :=
  C75_apart_partial [⟨false, c!"甲"⟩, ⟨true, c!"和"⟩, ⟨false, c!"乙"⟩, ⟨true, c!"或"⟩, ⟨false, c!"丙"⟩]
    (fun x hx => by
      simp only [List.mem_cons, List.not_mem_nil, or_false] at hx
      rcases hx with rfl | rfl | rfl | rfl | rfl <;> exact ⟨by decide +kernel, by simp only [if_true, Bool.false_eq_true, if_false]; decide +kernel⟩)
    (by simp [Spec.ByTurns]) (by decide +kernel)

/-- The variable `b` between two texts, and a quoted digit between two words: they are joined with what follows. -/
theorem C75_joined_counterexample :
    parse c!"“a=”b“。”" = .ok (.ok [.text c!"a=", .text c!"b。"]) ∧ parse c!"甲“5”乙" = .ok (.ok [.undef c!"甲", .undef c!"5乙"]) := by
  have ok : ∀ x ∈ ([⟨true, c!"a="⟩, ⟨false, c!"b"⟩, ⟨true, c!"。"⟩, ⟨false, c!"甲"⟩, ⟨true, c!"5"⟩, ⟨false, c!"乙"⟩] : List Spec.Bit), x.Ok := by
    intro x hx
    simp only [List.mem_cons, List.not_mem_nil, or_false] at hx
    rcases hx with rfl | rfl | rfl | rfl | rfl | rfl <;> exact ⟨by decide +kernel, by simp only [if_true, Bool.false_eq_true, if_false]; decide +kernel⟩
  exact ⟨C75_joined ⟨true, c!"a="⟩ ⟨false, c!"b"⟩ ⟨true, c!"。"⟩ (ok _ (by simp)) (ok _ (by simp)) (ok _ (by simp)) nofun nofun (by decide),
    C75_joined ⟨false, c!"甲"⟩ ⟨true, c!"5"⟩ ⟨false, c!"乙"⟩ (ok _ (by simp)) (ok _ (by simp)) (ok _ (by simp)) nofun nofun (by decide)⟩

/-- A script sees it: the definition `bb` between two texts is called, the definition `b` is not. -/
theorem C75_script_counterexample :
    demo 14 c!"定义bb【无参】以“5”。显示“a是”bb“。”。" = (.ok (.ok ()), [.out c!"a是5。"]) ∧
    demo 14 c!"定义b【无参】以“5”。显示“a是”b“。”。" = (.ok (.ok ()), [.out c!"a是b。"]) := by
  decide +kernel

end Zh
