import Verif.Props.GrammarSpec
import Verif.Props.KwMatch
/-!
# C60: the tokens of a script
-/
namespace Zh

def noteTok (s : Str) : List LTok := .kw .beginRem2 :: (bytesT s ++ [.kw .endRem2])

def varTok (name : Str) (notes : List Str) : List LTok :=
  .kw .beginVar :: (bytesT name ++ (notes.flatMap noteTok ++ [.kw .endVar]))

def longTok (a : Spec.LongAt) : List Spec.LongBit → List LTok
  | [] => []
  | .chars s :: bs => bytesT (a.kept s) ++ longTok a bs
  | .mark id :: bs => .kwText id true :: longTok ((a.after id).getD a) bs
  | .name n :: bs => varTok (Spec.printable n.text) [] ++ longTok a bs

def atomTok : Spec.Atom → List LTok
  | .quote ps l => partsTok 0 (Spec.quoteParts ps) l
  | .long bs => longTok ⟨0, 0, 0⟩ bs
  | .verb s => bytesT s
  | .kept ps => piecesTok 1 ps
  | .word s => (utf8 (Spec.strip s)).map (LTok.byte · false)
  | .var n ns => varTok (Spec.printable n.text) ((n.own ++ ns).map Spec.printable)
  | .note s => noteTok (Spec.strip s)
  | .sep => [.kw .dunhao]

def unitTok : Spec.Frag → List LTok
  | .kw id => [.kw id]
  | .atom a => atomTok a

def unitsTok (us : List Spec.Frag) : List LTok := us.flatMap unitTok

/-! ## Keywords -/

theorem noJoin_first {u v : Str} {c : Char} (h32 : 32 < c.toNat) (hc : ∀ id ∈ kwOrder, c ∉ (kwStr id).tail) :
    Spec.NoJoin u (c :: v) := by
  intro id hid k1 k2 hk h1 h2 ⟨_, hp⟩
  have hs : Spec.strip (c :: v) = c :: Spec.strip v := by simp [Spec.strip, h32]
  rw [hs] at hp
  cases k2 with
  | nil => exact h2 rfl
  | cons d k2 =>
    have : d = c := by
      obtain ⟨r, hr⟩ := hp
      simp at hr; exact hr.1
    subst this
    apply hc id hid
    rw [hk]
    cases k1 with
    | nil => exact absurd rfl h1
    | cons x xs => simp

/-- The first character of the keyword occurs only at the beginning of keywords. -/
def firstOnly (id : KwId) : Bool :=
  match kwStr id with
  | [] => false
  | c :: _ => decide (32 < c.toNat) && kwOrder.all fun id' => !(kwStr id').tail.contains c

theorem noJoin_kw {u v : Str} {id : KwId} (h : firstOnly id = true) : Spec.NoJoin u (kwStr id ++ v) := by
  unfold firstOnly at h
  split at h
  · simp at h
  · rename_i c t e
    rw [e]
    simp only [Bool.and_eq_true, decide_eq_true_eq, List.all_eq_true] at h
    exact noJoin_first h.1 fun id' hid' hm => by have := h.2 id' hid'; simp [hm] at this

theorem dengyu_cut : ∀ id ∈ kwOrder, ∀ i ∈ List.range 5, 0 < i → (kwStr id)[i]? = some '等' →
    (kwStr id).take i = c!"小于" ∨ (kwStr id).take i = c!"大于" := by decide +kernel

theorem kwStr_short : ∀ id ∈ kwOrder, (kwStr id).length ≤ 5 := by decide +kernel

theorem noJoin_dengyu {u v : Str} (h : Spec.Free Spec.anyKw u) : Spec.NoJoin u (kwStr .dengyu ++ v) := by
  intro id hid k1 k2 hk h1 h2 ⟨hs, hp⟩
  have e : Spec.strip (kwStr .dengyu ++ v) = '等' :: '于' :: Spec.strip v := by
    simp [Spec.strip, kwStr]
  rw [e] at hp
  cases k2 with
  | nil => exact h2 rfl
  | cons d k2 =>
    have : d = '等' := by
      obtain ⟨r, hr⟩ := hp
      simp at hr; exact hr.1
    subst this
    have hl := kwStr_short id hid
    have h3 := dengyu_cut id hid k1.length (by rw [hk] at hl; simp at hl ⊢; omega) (List.length_pos_iff.2 h1) (by rw [hk]; simp)
    rw [hk, List.take_left] at h3
    rcases h3 with rfl | rfl
    · exact h .xiaoyu rfl hs.isInfix
    · exact h .dayu rfl hs.isInfix

/-- The keywords of the grammar. -/
def kwsAll : List KwId :=
  [.print_, .has, .expl, .exec, .guandaodu, .guandaojie, .guandaojie2, .mod_, .modFree, .name, .eval_, .load, .break_, .continue_,
    .break2, .continue2, .return_, .quit, .range, .for_, .set_, .alias, .def_, .equ, .jvhao, .beginBlock, .endBlock, .if_, .then_,
    .else_, .switch, .switch2, .dengyu, .xiaoyudengyu, .xiaoyu, .dayudengyu, .dayu, .not_, .and_, .or_]

theorem kwsAll_mem : ∀ id ∈ kwsAll, id ∈ kwOrder := by decide

theorem kwsAll_lexKw : ∀ id ∈ kwsAll, lexKw Quo.zero id = (Quo.zero, some (.kw id)) := by decide +kernel

theorem kwsAll_first : ∀ id ∈ kwsAll, id = .mod_ ∨ id = .modFree ∨ id = .dengyu ∨ firstOnly id = true := by decide +kernel

/-- No other keyword is longer, except by `等于`. -/
theorem kwsAll_longer : ∀ id ∈ kwsAll, ∀ id' ∈ kwOrder, id' ≠ id → kwStr id <+: kwStr id' →
    (id = .xiaoyu ∨ id = .dayu) ∧ kwStr id' = kwStr id ++ c!"等于" := by decide +kernel

theorem strip_kw (id : KwId) : Spec.strip (kwStr id) = kwStr id := by cases id <;> decide

theorem spells_strip {id' : KwId} {src : Str} {m : Nat} (h : Spec.Spells (kwBytes id') (utf8 src) m) :
    kwStr id' <+: Spec.strip src := by
  obtain ⟨t, r, h1, _, h3, _⟩ := h
  have : kwBytes id' <+: stripB (utf8 src) := by
    rw [h1]; unfold stripB; rw [List.filter_append, h3]
    exact List.prefix_append _ _
  rw [stripB_utf8] at this
  exact utf8_prefix this

theorem spells_strip_take {id' : KwId} {src : List Nat} {m : Nat} (h : Spec.Spells (kwBytes id') src m) :
    stripB (src.take m) = kwBytes id' := by
  obtain ⟨t, r, h1, h2, h3, _⟩ := h
  rw [h1, ← h2, List.take_left]
  exact h3

/-- A keyword outside of quotations. -/
theorem lex_kwU {id : KwId} (h : id ∈ kwsAll) (rest : Str)
    (hd : id = .xiaoyu ∨ id = .dayu → (Spec.strip rest).head? ≠ some '等') :
    lex Quo.zero (utf8 (kwStr id ++ rest)) = .kw id :: lex Quo.zero (utf8 rest) := by
  rw [utf8_append]
  have h1 := C45_reachable id (kwsAll_mem id h) (utf8 rest) (by
    intro id' m' hid' hne hsp
    rcases Nat.lt_or_ge (kwBytes id).length m' with hlt | hle
    · exfalso
      have e := spells_strip_take hsp
      rw [List.take_append, List.take_of_length_le (by omega)] at e
      have hpre : kwBytes id <+: kwBytes id' := by
        rw [← e]; unfold stripB
        rw [List.filter_append, List.filter_eq_self.2 (by intro c hc; simpa using kwBytes_gt id c hc)]
        exact List.prefix_append _ _
      obtain ⟨hx, e2⟩ := kwsAll_longer id h id' hid' hne (utf8_prefix hpre)
      have hs : kwStr id' <+: Spec.strip (kwStr id ++ rest) := spells_strip (m := m') (by
        rw [utf8_append]; exact hsp)
      have e3 : Spec.strip (kwStr id ++ rest) = kwStr id ++ Spec.strip rest := by
        have := strip_kw id
        unfold Spec.strip at this ⊢
        rw [List.filter_append, this]
      rw [e3, e2, List.prefix_append_right_inj] at hs
      apply hd hx
      obtain ⟨r, hr⟩ := hs
      rw [← hr]; rfl
    · exact hle)
  show lex Quo.zero (kwBytes id ++ utf8 rest) = _
  rw [lex_cons_hit h1, kwsAll_lexKw id h]
  simp

/-! ## Pieces -/

/-- A word outside of quotations. -/
theorem lex_word (s rest : Str) (h : Spec.Free Spec.anyKw s) (hj : Spec.NoJoin s rest) :
    lex Quo.zero (utf8 (s ++ rest)) = (utf8 (Spec.strip s)).map (LTok.byte · false) ++ lex Quo.zero (utf8 rest) := by
  have hnk := lex_nokw Quo.zero s (by
    intro s1 s2 hs
    cases e : kwAt Quo.zero false (utf8 s2) with
    | none => rfl
    | some r =>
      obtain ⟨id, m⟩ := r
      have hi := kwAt_infix (s1 := s1) e
      rw [← hs] at hi
      have hne : id ≠ .undef := by
        rintro rfl
        exact absurd (kwAt_spells e).1 (by decide)
      exact absurd hi (h id (by simp [Spec.anyKw, hne])))
  rw [utf8_append, (lex_append _ _ _ (noStraddle_of_noJoin hj)).1, hnk.1, hnk.2]
  rfl

def Qv : Quo := ⟨0, 0, 0, 0, 0, 0, 1⟩
def Qvn : Quo := ⟨0, 0, 0, 0, 0, 1, 1⟩

/-- Annotations inside a name. -/
theorem lex_varNotes (rest : Str) : ∀ (ns : List Str), (∀ s ∈ ns, Spec.Free inVar s) →
    lex Qv (utf8 ((ns.flatMap fun s => c!"【" ++ s ++ c!"】") ++ (c!"’" ++ rest))) =
      (ns.map Spec.printable).flatMap noteTok ++ .kw .endVar :: lex Quo.zero (utf8 rest)
  | [], _ => by
    show lex Qv (utf8 (kwStr .endVar ++ rest)) = _
    rw [lex_mark _ (by decide) isolated_endVar rfl]
    rfl
  | s :: ns, h => by
    have e : ((s :: ns).flatMap fun s => c!"【" ++ s ++ c!"】") ++ (c!"’" ++ rest) =
        kwStr .beginRem2 ++ (s ++ (kwStr .endRem2 ++ ((ns.flatMap fun s => c!"【" ++ s ++ c!"】") ++ (c!"’" ++ rest)))) := by
      simp [List.flatMap_cons, kwStr]
    rw [e, lex_mark _ (by decide) isolated_beginRem2 rfl]
    show LTok.kw .beginRem2 :: lex Qvn _ = _
    rw [lex_seg Qvn s (kwStr .endRem2 ++ _) (h s (by simp)) (noJoin_one (c := '】') (by decide)), lex_mark _ (by decide) isolated_endRem2 rfl]
    show LTok.kw .beginRem2 :: (_ ++ (LTok.kw .endRem2 :: lex Qv _)) = _
    rw [lex_varNotes rest ns fun x hx => h x (by simp [hx])]
    simp [noteTok, bytesT, Spec.printable, Quo.keep, Qvn, Quo.inText]

theorem lex_var (name : Str) (ns : List Str) (rest : Str) (h : Spec.Free inVar name) (hn : ∀ s ∈ ns, Spec.Free inVar s) :
    lex Quo.zero (utf8 (c!"‘" ++ name ++ (ns.flatMap fun s => c!"【" ++ s ++ c!"】") ++ c!"’" ++ rest)) =
      varTok (Spec.printable name) (ns.map Spec.printable) ++ lex Quo.zero (utf8 rest) := by
  have e : c!"‘" ++ name ++ (ns.flatMap fun s => c!"【" ++ s ++ c!"】") ++ c!"’" ++ rest =
      kwStr .beginVar ++ (name ++ ((ns.flatMap fun s => c!"【" ++ s ++ c!"】") ++ (c!"’" ++ rest))) := by
    simp [kwStr]
  have hj : Spec.NoJoin name ((ns.flatMap fun s => c!"【" ++ s ++ c!"】") ++ (c!"’" ++ rest)) := by
    cases ns with
    | nil => exact noJoin_one (c := '’') (by decide)
    | cons x xs => exact noJoin_one (c := '【') (by decide)
  rw [e, lex_mark _ (by decide) isolated_beginVar rfl]
  show LTok.kw .beginVar :: lex Qv _ = _
  rw [lex_seg Qv name _ h hj, lex_varNotes rest ns hn]
  simp [varTok, bytesT, Spec.printable, Quo.keep, Qv, Quo.inText]

theorem lex_note (s rest : Str) (h : Spec.Free inVar s) :
    lex Quo.zero (utf8 (c!"【" ++ s ++ c!"】" ++ rest)) = noteTok (Spec.strip s) ++ lex Quo.zero (utf8 rest) := by
  have e : c!"【" ++ s ++ c!"】" ++ rest = kwStr .beginRem2 ++ (s ++ (kwStr .endRem2 ++ rest)) := by simp [kwStr]
  rw [e, lex_mark _ (by decide) isolated_beginRem2 rfl]
  show LTok.kw .beginRem2 :: lex ⟨0, 0, 0, 0, 0, 1, 0⟩ _ = _
  rw [lex_seg ⟨0, 0, 0, 0, 0, 1, 0⟩ s (kwStr .endRem2 ++ _) h (noJoin_one (c := '】') (by decide)), lex_mark _ (by decide) isolated_endRem2 rfl]
  show LTok.kw .beginRem2 :: (_ ++ (LTok.kw .endRem2 :: lex Quo.zero _)) = _
  simp [noteTok, bytesT, Spec.strip, Quo.keep, Quo.inText]

theorem name_free (n : Spec.Name) (ns : List Str) (h : n.Ok ns) : Spec.Free inVar n.text := by
  have lit : ∀ t ∈ [c!"参数", c!"参数栈", c!"参数数目"], Spec.Free inVar t := by
    intro t ht id hid
    simp only [List.mem_cons, List.not_mem_nil, or_false] at ht
    rcases ht with rfl | rfl | rfl <;> (cases id <;> first | (exfalso; revert hid; decide) | decide)
  cases n with
  | plain s => exact h.1
  | args line bs =>
    cases line
    · simpa [Spec.Name.text] using lit c!"参数栈" (by decide)
    · simpa [Spec.Name.text] using lit c!"参数" (by decide)
  | argc => exact lit _ (by decide)
  | arg s i => exact h.1

theorem own_free (n : Spec.Name) (ns : List Str) (h : n.Ok ns) : ∀ s ∈ n.own, Spec.Free inVar s := by
  cases n with
  | args line bs =>
    intro s hs
    simp only [Spec.Name.own, List.mem_map] at hs
    obtain ⟨b, hb, rfl⟩ := hs
    have hd := (h.2.1 b hb).1
    intro id hid hi
    rw [← strip_printable] at hi
    -- the characters of a number
    have hch : ∀ c ∈ Spec.strip (Spec.printable b.1), c.toNat < 128 := by
      intro c hc
      have hc : c ∈ Spec.printable b.1 := (List.mem_filter.1 hc).1
      obtain ⟨ds, _, h3⟩ := hd
      have hdig : ∀ c ∈ Spec.digits ds, c.toNat < 128 := by
        intro c hc
        simp only [Spec.digits, List.mem_map] at hc
        obtain ⟨d, _, rfl⟩ := hc
        exact (show ∀ d, (Spec.digit d).toNat < 128 by decide) d
      rcases h3 with ⟨h3 | h3, _⟩ | ⟨h3, _⟩ <;> rw [h3] at hc
      · exact hdig c hc
      · rcases List.mem_cons.1 hc with rfl | hc
        · decide
        · exact hdig c hc
      · rcases List.mem_cons.1 hc with rfl | hc
        · decide
        · exact hdig c hc
    have : ∀ c ∈ kwStr id, c.toNat < 128 := fun c hc => hch c (hi.subset hc)
    revert this
    revert hid
    cases id <;> decide
  | _ => intro s hs; simp [Spec.Name.own] at hs

theorem isolated_beginText2 : Isolated .beginText2 := by decide +kernel
theorem isolated_endText2 : Isolated .endText2 := by decide +kernel

/-- The state of the lexer inside a long text. -/
def Ql (a : Spec.LongAt) : Quo := ⟨a.quote, a.long + 1, a.verb, 0, 0, 0, 0⟩

theorem longAfter {a b : Spec.LongAt} {id : KwId} (h : a.after id = some b) :
    (id ∈ kwOrder ∧ Isolated id) ∧ active (Ql a) false id = true ∧ lexKw (Ql a) id = (Ql b, some (.kwText id true)) := by
  obtain ⟨e, k, y⟩ := a
  have he : (0 : Int) < (e : Int) + 1 := by omega
  have he' : (0 : Int) < (e : Int) + 1 + 1 := by omega
  have he2 : (1 : Int) < (e : Int) + 1 + 1 := by omega
  cases id <;> simp only [Spec.LongAt.after, reduceCtorEq] at h
  case beginText =>
    split at h <;> cases h
    rename_i hy
    have hy : y = 0 := hy
    subst hy
    refine ⟨⟨by decide, isolated_beginText⟩, ?_, ?_⟩
    · unfold active Ql
      cases k <;> simp [inText, inText2, he]
    · simp [lexKw, Quo.add4, Quo.add4End, Ql, he]
  case endText =>
    split at h <;> cases h
    rename_i hy
    obtain ⟨hy, hk⟩ := hy
    have hy : y = 0 := hy
    subst hy
    have hk : 0 < k := hk
    refine ⟨⟨by decide, isolated_endText⟩, ?_, ?_⟩
    · unfold active Ql
      simp [inText, hk]
    · simp only [lexKw, Quo.add4, Quo.add4End, Ql]
      simp [he]
      omega
  case beginYuanyang =>
    split at h <;> cases h
    rename_i hk
    have hk : k = 0 := hk
    subst hk
    refine ⟨⟨by decide, isolated_beginYuanyang⟩, ?_, ?_⟩
    · unfold active Ql
      cases y <;> simp [inYuan, inText2, he]
    · simp [lexKw, Quo.add4, Quo.add4End, Ql, he]
  case endYuanyang =>
    split at h <;> cases h
    rename_i hy
    obtain ⟨hk, hy⟩ := hy
    have hk : k = 0 := hk
    subst hk
    have hy : 0 < y := hy
    refine ⟨⟨by decide, isolated_endYuanyang⟩, ?_, ?_⟩
    · unfold active Ql
      simp [inYuan, hy]
    · simp only [lexKw, Quo.add4, Quo.add4End, Ql]
      simp [he]
      omega
  case beginText2 =>
    split at h <;> cases h
    rename_i hy
    obtain ⟨hk, hy⟩ := hy
    have hk : k = 0 := hk
    have hy : y = 0 := hy
    subst hk hy
    refine ⟨⟨by decide, isolated_beginText2⟩, ?_, ?_⟩
    · unfold active Ql
      simp [inText2, he]
    · simp [lexKw, Quo.add4, Quo.add4End, Ql, he2]
  case endText2 =>
    split at h <;> cases h
    rename_i hy
    obtain ⟨hk, hy, he0⟩ := hy
    have hk : k = 0 := hk
    have hy : y = 0 := hy
    have he0 : 0 < e := he0
    subst hk hy
    refine ⟨⟨by decide, isolated_endText2⟩, ?_, ?_⟩
    · unfold active Ql
      simp [inText2, he]
    · simp only [lexKw, Quo.add4, Quo.add4End, Ql]
      simp [he0]
      omega

theorem lex_longs (rest : Str) : ∀ (bs : List Spec.LongBit) (a : Spec.LongAt) (acc : Str), Spec.LongOk a acc bs →
    lex (Ql a) (utf8 (bs.flatMap Spec.LongBit.src ++ (kwStr .endText2 ++ rest))) =
      longTok a bs ++ lex (Ql ⟨0, 0, 0⟩) (utf8 (kwStr .endText2 ++ rest))
  | [], a, acc, h => by rw [h.1]; rfl
  | .chars s :: bs, a, acc, h => by
    have hact : ∀ id, active (Ql a) false id = a.marks id := by
      intro id
      have he : (0 : Int) < (a.long : Int) + 1 := by omega
      simp [active, Ql, Spec.LongAt.marks, he]
    have hkeep : (s.filter fun c => (Ql a).keep c.toNat) = a.kept s := by
      unfold Spec.LongAt.kept Quo.keep Ql
      have he : (0 : Int) < (a.long : Int) + 1 := by omega
      by_cases hy : a.verb = 0
      · by_cases hk : 0 < a.quote
        · simp [hk, hy, Spec.printable]
        · simp [hk, hy, he]
      · simp [hy, Nat.pos_of_ne_zero hy]
    have hin : (Ql a).inText = true := by
      have he : (0 : Int) < (a.long : Int) + 1 := by omega
      simp [Quo.inText, Ql, he]
    rw [List.flatMap_cons, List.append_assoc, show (Spec.LongBit.chars s).src = s from rfl,
      lex_seg _ s _ (h.1.1.mono fun id hid => by rwa [hact] at hid) ?_, hin, hkeep, lex_longs rest bs a _ h.2]
    · simp [longTok, bytesT]
    · cases bs with
      | nil => exact noJoin_opener (c := '上') (by decide)
      | cons b bs =>
        have hb := h.1.2.2
        cases b with
        | chars => simp [Spec.LongBit.isChars] at hb
        | name n =>
          simp only [List.flatMap_cons, Spec.LongBit.src, List.append_assoc]
          exact noJoin_one (by decide)
        | mark id =>
          have hm : (a.after id).isSome = true := h.2.1.1
          simp only [List.flatMap_cons, Spec.LongBit.src, List.append_assoc]
          cases id <;> first
            | (simp [Spec.LongAt.after] at hm; done)
            | exact noJoin_opener (c := '上') (by decide)
            | exact noJoin_opener (c := '下') (by decide)
            | exact noJoin_one (c := '“') (by decide)
            | exact noJoin_one (c := '”') (by decide)
  | .mark id :: bs, a, acc, h => by
    obtain ⟨b, hb⟩ := Option.isSome_iff_exists.1 h.1.1
    obtain ⟨⟨h1, h2⟩, h3, h4⟩ := longAfter hb
    have h5 := h.2
    rw [hb] at h5
    rw [List.flatMap_cons, List.append_assoc, show (Spec.LongBit.mark id).src = kwStr id from rfl, lex_mark _ h1 h2 h3, h4]
    simp only
    rw [lex_longs rest bs b _ h5]
    simp [longTok, hb]
  | .name n :: bs, a, acc, h => by
    have e : (Spec.LongBit.name n :: bs).flatMap Spec.LongBit.src ++ (kwStr .endText2 ++ rest) =
        c!"‘" ++ (n.text ++ (c!"’" ++ (bs.flatMap Spec.LongBit.src ++ (kwStr .endText2 ++ rest)))) := by
      simp [Spec.LongBit.src]
    have hy := h.1.1
    have ha : active (Ql a) false .beginVar = true := by
      have he : (0 : Int) < (a.long : Int) + 1 := by omega
      unfold active Ql
      cases hk : a.quote <;> simp [hy, inText, inText2, he]
    rw [e, lex_varIn _ 0 (by simp [Quo.as2, Ql, hy]) rfl rfl (by simp [Ql, hy]) _ _ (name_free n [] h.1.2.2.1) ha, lex_longs rest bs a _ h.2]
    simp [longTok, varTok, vTok]

theorem lex_atom (a : Spec.Atom) (h : a.Ok) (rest : Str)
    (hr : ∀ s, a = .word s → Spec.NoJoin s rest) :
    lex Quo.zero (utf8 (a.src ++ rest)) = atomTok a ++ lex Quo.zero (utf8 rest) := by
  cases a with
  | quote ps l =>
    have hok : (Spec.CodePiece.quote (Spec.quoteParts ps) l).Ok := by
      refine ⟨fun p hp => ?_, h.2⟩
      simp only [Spec.quoteParts, List.mem_map] at hp
      obtain ⟨x, hx, rfl⟩ := hp
      exact ⟨(h.1 x hx).1, name_free x.2 [] (h.1 x hx).2.1⟩
    have := lex_piece 0 (.quote (Spec.quoteParts ps) l) hok rest (.inr nofun) nofun
    rw [show pieceTok 0 (.quote (Spec.quoteParts ps) l) = partsTok 0 (Spec.quoteParts ps) l by simp [pieceTok, qTok]] at this
    exact this
  | long bs =>
    have e : (Spec.Atom.long bs).src ++ rest =
        kwStr .beginText2 ++ (bs.flatMap Spec.LongBit.src ++ (kwStr .endText2 ++ rest)) := by
      simp [Spec.Atom.src, kwStr]
    rw [e, lex_mark _ (by decide) isolated_beginText2 rfl]
    show [] ++ lex (Ql ⟨0, 0, 0⟩) _ = _
    rw [List.nil_append, lex_longs rest bs _ _ h, lex_mark _ (by decide) isolated_endText2 rfl]
    rfl
  | verb s =>
    have := lex_piece 0 (.verb s) h.1 rest (.inr nofun) nofun
    rw [show pieceTok 0 (.verb s) = bytesT s by simp [pieceTok, qTok]] at this
    exact this
  | kept ps =>
    have hj : ∀ u, Spec.NoJoin u (kwStr .endCode ++ rest) := fun u => noJoin_opener (c := '上') (by decide)
    have h1 := lex_pieces 1 (kwStr .endCode ++ rest) hj ps 0 h.1
    have e : (Spec.Atom.kept ps).src ++ rest = kwStr .beginCode ++ (Spec.piecesSrc ps ++ (kwStr .endCode ++ rest)) := by
      simp [Spec.Atom.src, kwStr]
    rw [e, lex_mark _ (by decide) isolated_beginCode rfl]
    show [] ++ lex (Qc 1) _ = _
    rw [List.nil_append, h1, lex_mark _ (by decide) isolated_endCode rfl]
    rfl
  | word s =>
    show lex Quo.zero (utf8 (s ++ rest)) = _
    exact lex_word s rest h.1 (hr s rfl)
  | var n ns =>
    refine lex_var n.text (n.own ++ ns) rest (name_free n ns h.1) fun s hs => ?_
    rcases List.mem_append.1 hs with hs | hs
    · exact own_free n ns h.1 s hs
    · exact h.2 s hs
  | note s => exact lex_note s rest h
  | sep =>
    show lex Quo.zero (utf8 (kwStr .dunhao ++ rest)) = _
    rw [lex_mark _ (by decide) isolated_dunhao rfl]
    rfl

theorem atom_noJoin (a : Spec.Atom) (ha : a.isText = false ∨ a.isQuote = true) (u v : Str) : Spec.NoJoin u (a.src ++ v) := by
  cases a with
  | quote =>
    simp only [Spec.Atom.src, List.append_assoc]
    exact noJoin_one (c := '“') (by decide)
  | long => simp [Spec.Atom.isText, Spec.Atom.isQuote] at ha
  | verb => simp [Spec.Atom.isText, Spec.Atom.isQuote] at ha
  | kept => simp [Spec.Atom.isText, Spec.Atom.isQuote] at ha
  | word s => simp [Spec.Atom.isText, Spec.Atom.isQuote] at ha
  | var n ns =>
    simp only [Spec.Atom.src, List.append_assoc]
    exact noJoin_one (c := '‘') (by decide)
  | note s =>
    simp only [Spec.Atom.src, List.append_assoc]
    exact noJoin_one (c := '【') (by decide)
  | sep => exact noJoin_kw (id := .dunhao) (by decide +kernel)

/-! ## All of it -/

def KwsOk (us : List Spec.Frag) : Prop := ∀ id, .kw id ∈ us → id ∈ kwsAll

theorem kwsAll_deng : ∀ id ∈ kwsAll, id ≠ .dengyu → (kwStr id).head? ≠ some '等' := by decide +kernel
theorem head_append {a b : Str} (h : a ≠ []) : (a ++ b).head? = a.head? := by
  cases a with
  | nil => exact absurd rfl h
  | cons => rfl

theorem kwsAll_ne : ∀ id ∈ kwsAll, kwStr id ≠ [] := by decide +kernel

theorem head_deng (u : Spec.Frag) (hu : ∀ a, u = .atom a → a.Ok) (hk : ∀ id, u = .kw id → id ∈ kwsAll) (h : u.deng = false) (rest : Str) :
    (Spec.strip (u.src ++ rest)).head? ≠ some '等' := by
  have e : Spec.strip (u.src ++ rest) = Spec.strip u.src ++ Spec.strip rest := by simp [Spec.strip]
  rw [e]
  cases u with
  | kw id =>
    show (Spec.strip (kwStr id) ++ _).head? ≠ _
    rw [strip_kw, head_append (kwsAll_ne id (hk id rfl))]
    exact kwsAll_deng id (hk id rfl) (by rintro rfl; simp [Spec.Frag.deng] at h)
  | atom a =>
    cases a with
    | word s =>
      have := hu _ rfl
      show (Spec.strip s ++ _).head? ≠ _
      rw [head_append this.2]
      simpa [Spec.Frag.deng] using h
    | quote ps l => simp [Spec.Frag.src, Spec.Atom.src, Spec.strip]
    | long bs => simp [Spec.Frag.src, Spec.Atom.src, Spec.strip]
    | verb s => simp [Spec.Frag.src, Spec.Atom.src, Spec.strip]
    | kept s => simp [Spec.Frag.src, Spec.Atom.src, Spec.strip]
    | var n ns => simp [Spec.Frag.src, Spec.Atom.src, Spec.strip]
    | note s => simp [Spec.Frag.src, Spec.Atom.src, Spec.strip]
    | sep => simp [Spec.Frag.src, Spec.Atom.src, Spec.strip]

theorem lex_units : ∀ (us : List Spec.Frag), Spec.Clear us → KwsOk us → lex Quo.zero (utf8 (Spec.unitsSrc us)) = unitsTok us
  | [], _, _ => lex_nil _
  | .kw id :: us, h, hk => by
    have e : Spec.unitsSrc (.kw id :: us) = kwStr id ++ Spec.unitsSrc us := rfl
    rw [e, lex_kwU (hk id (by simp)) _ ?_, lex_units us h.2.2 fun i hi => hk i (by simp [hi])]
    · rfl
    · intro hx
      cases us with
      | nil => simp [Spec.unitsSrc, Spec.strip]
      | cons v us =>
        have hb := h.2.1 v (by simp)
        have hd : v.deng = false := by
          rcases hx with rfl | rfl <;> simpa [Spec.Frag.before] using hb
        show (Spec.strip (v.src ++ Spec.unitsSrc us)).head? ≠ _
        exact head_deng v (h.2.2.1) (fun id hid => hk id (by simp [hid])) hd _
  | .atom a :: us, h, hk => by
    have e : Spec.unitsSrc (.atom a :: us) = a.src ++ Spec.unitsSrc us := rfl
    rw [e, lex_atom a (h.1 a rfl) _ ?_, lex_units us h.2.2 fun i hi => hk i (by simp [hi])]
    · rfl
    · rintro s rfl
      cases us with
      | nil => exact noJoin_nil _
      | cons x us =>
        have h2 := h.2.1 x (by simp)
        cases x with
        | kw id =>
          have hid := hk id (by simp)
          rcases kwsAll_first id hid with rfl | rfl | rfl | hf
          · simp [Spec.Frag.before, Spec.Atom.isText] at h2
          · simp [Spec.Frag.before, Spec.Atom.isText] at h2
          · exact noJoin_dengyu (h.1 _ rfl).1
          · exact noJoin_kw hf
        | atom b =>
          exact atom_noJoin b (by simpa [Spec.Frag.before, Spec.Atom.isText, Spec.Atom.isWord] using h2) _ _

theorem cmd_kws (k : Spec.Cmd) : k.kw ∈ kwsAll := by
  cases k with
  | jump k => cases k <;> decide
  | loop r c =>
    cases r
    · exact (by decide : KwId.for_ ∈ kwsAll)
    · exact (by decide : KwId.range ∈ kwsAll)
  | eval => exact (by decide : (Spec.Cmd.eval false none).kw ∈ kwsAll)
  | load => exact (by decide : KwId.load ∈ kwsAll)
  | _ => decide

theorem asg_kws (k : Spec.Asg) : k.kw ∈ kwsAll := by cases k <;> decide

theorem inIf_kws {id : KwId} (h : inIf id = true) : id ∈ kwsAll := by
  cases id <;> first | (exfalso; revert h; decide) | decide

theorem KwsOk.nil : KwsOk [] := nofun
theorem KwsOk.atoms (a : List Spec.Atom) : KwsOk (Spec.atoms a) := by
  intro id h; simp [Spec.atoms] at h
theorem KwsOk.notes (a : List Str) : KwsOk (Spec.noteUnits a) := by
  intro id h; simp [Spec.noteUnits] at h
theorem KwsOk.append {a b : List Spec.Frag} (ha : KwsOk a) (hb : KwsOk b) : KwsOk (a ++ b) := by
  intro id h
  rcases List.mem_append.1 h with h | h
  · exact ha id h
  · exact hb id h
theorem KwsOk.cons {k : KwId} {b : List Spec.Frag} (hk : k ∈ kwsAll) (hb : KwsOk b) : KwsOk (.kw k :: b) := by
  intro id h
  rcases List.mem_cons.1 h with h | h
  · cases h; exact hk
  · exact hb id h
theorem KwsOk.one {k : KwId} (hk : k ∈ kwsAll) : KwsOk [.kw k] := .cons hk .nil

mutual
theorem kwsOk_el : ∀ e : Spec.El, e.Ok → KwsOk e.units
  | .atom a, _ => by intro id h; simp [Spec.El.units] at h
  | .block b, h => by
    simp only [Spec.El.Ok] at h
    simp only [Spec.El.units]
    exact .cons (by decide) (.append (kwsOk_script b h) (.one (by decide)))
  | .cond c t e b, h => by
    simp only [Spec.El.Ok] at h
    simp only [Spec.El.units]
    exact .cons (by decide) (.append (kwsOk_cond c h.1) (.cons (by decide) (.append (kwsOk_phrase t h.2.1) (.cons (by decide)
      (.append (kwsOk_phrase e h.2.2.2.1) (.cons (by decide) (.append (kwsOk_script b h.2.2.2.2.2.2) (.one (by decide)))))))))
  | .loop r k a b, h => by
    simp only [Spec.El.Ok] at h
    simp only [Spec.El.units]
    exact .cons (cmd_kws _) (.append (.notes _) (.append (kwsOk_phrase a h.1) (.cons (by decide) (.append (kwsOk_script b h.2.2.2.1)
      (.one (by decide))))))
  | .switch one a b, h => by
    simp only [Spec.El.Ok] at h
    simp only [Spec.El.units]
    exact .cons (by cases one <;> decide) (.append (.atoms a) (.cons (by decide) (.append (kwsOk_script b h.2.1) (.one (by decide)))))
theorem kwsOk_phrase : ∀ p : Spec.Phrase, p.Ok → KwsOk p.units
  | .nil, _ => by simp only [Spec.Phrase.units]; exact .nil
  | .el e p, h => by
    simp only [Spec.Phrase.Ok] at h
    simp only [Spec.Phrase.units]
    exact .append (kwsOk_el e h.1) (kwsOk_phrase p h.2)
  | .cmd k p, h => by
    simp only [Spec.Phrase.Ok] at h
    simp only [Spec.Phrase.units]
    exact .cons (cmd_kws k) (.append (.notes _) (kwsOk_phrase p h.2.1))
  | .asg k a p, h => by
    simp only [Spec.Phrase.Ok] at h
    simp only [Spec.Phrase.units]
    exact .cons (asg_kws k) (.append (kwsOk_phrase a h.2.1) (.cons (by decide) (kwsOk_phrase p h.2.2.2)))
  | .cond c t, h => by
    simp only [Spec.Phrase.Ok] at h
    simp only [Spec.Phrase.units]
    exact .cons (by decide) (.append (kwsOk_cond c h.1) (.cons (by decide) (kwsOk_phrase t h.2)))
  | .cond2 c t e, h => by
    simp only [Spec.Phrase.Ok] at h
    simp only [Spec.Phrase.units]
    exact .cons (by decide) (.append (kwsOk_cond c h.1) (.cons (by decide) (.append (kwsOk_phrase t h.2.1) (.cons (by decide)
      (kwsOk_phrase e h.2.2.2.1)))))
theorem kwsOk_cond : ∀ c : Spec.Condition, c.Ok → KwsOk c.units
  | .last p, h => by
    simp only [Spec.Condition.Ok] at h
    simp only [Spec.Condition.units]
    exact kwsOk_phrase p h.1
  | .more p id c, h => by
    simp only [Spec.Condition.Ok] at h
    simp only [Spec.Condition.units]
    exact .append (kwsOk_phrase p h.1) (.cons (inIf_kws h.2.1) (kwsOk_cond c h.2.2))
theorem kwsOk_script : ∀ q : Spec.Script, q.Ok → KwsOk q.units
  | .done p, h => by
    simp only [Spec.Script.Ok] at h
    simp only [Spec.Script.units]
    exact kwsOk_phrase p h
  | .sent p q, h => by
    simp only [Spec.Script.Ok] at h
    simp only [Spec.Script.units]
    exact .append (kwsOk_phrase p h.1) (.cons (by decide) (kwsOk_script q h.2))
end

end Zh
