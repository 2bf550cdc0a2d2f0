import Verif.Props.Utf8Safe
/-!
# Error reports (C64), first part: what is wrong in a source, and where

The report of a source that cannot be parsed quotes the source from its beginning to the place of the mistake
(`ret3__`, `src/u_/world_.rs:126-136`).
-/
namespace Zh

/-! ## Specification -/

/-- The keywords that begin a statement, a name, an annotation or a block; the others stand between them. -/
def Spec.begins : List KwId :=
  [.beginRem2, .beginVar, .beginBlock, .for_, .break_, .continue_, .range, .break2, .continue2, .return_, .quit, .if_, .switch,
   .switch2, .guandaodu, .guandaojie, .guandaojie2, .mod_, .modFree, .name, .set_, .alias, .def_, .has, .eval_, .load, .print_,
   .expl, .exec]

/-- What can be wrong with the statement of a keyword. -/
inductive Spec.Mistake : KwId → Str → Prop
  /-- nothing is given to a statement that needs something -/
  | missing (id : KwId) (h : id ∈ [.eval_, .load, .print_, .expl, .switch, .switch2]) : Spec.Mistake id c!"缺"
  | missingKw (id : KwId) (h : id ∈ [.guandaodu, .guandaojie, .guandaojie2, .exec]) : Spec.Mistake id (kwStr id ++ c!"缺")
  | noName : Spec.Mistake .def_ (kwStr .def_ ++ c!"名缺")
  /-- the counter of a loop has an empty name -/
  | badName (id : KwId) (h : id ∈ [.for_, .range]) : Spec.Mistake id c!"名非法"
  /-- a switch without branches, or with two defaults -/
  | noBody (id : KwId) (h : id ∈ [.switch, .switch2]) : Spec.Mistake id c!"无体"
  | twoDefaults (id : KwId) (h : id ∈ [.switch, .switch2]) : Spec.Mistake id c!"只能有一个其他"
  /-- `加载` with an annotation that is not `【在当前区】` -/
  | noArg0 : Spec.Mistake .load c!"不能设参数0"
  /-- a keyword that begins nothing -/
  | unknown (id : KwId) (h : id ∉ Spec.begins) : Spec.Mistake id c!"没实现"

/-- The messages about a source: something stands where nothing can stand (after `以`, `那么`, `否则` without their statement), or a
mistake in a statement, with its keyword. -/
inductive Spec.SyntaxMsg : Str → Prop
  | nowhere : Spec.SyntaxMsg c!"缺少前句"
  | stmt (id : KwId) (s : Str) (h : Spec.Mistake id s) : Spec.SyntaxMsg (c!"“" ++ kwStr id ++ c!"”" ++ s)

/-! ## Errors of the helper functions -/

/-- Every error satisfies `E`. -/
def PR.Fails {α : Type} (x : PR α) (E : Err → Nat → Prop) : Prop := ∀ e i, x = .err e i → E e i

theorem PR.Fails.ok {α : Type} {a : α} {E} : (PR.ok a).Fails E := nofun
theorem PR.Fails.panic {α : Type} {E} : (PR.panic : PR α).Fails E := nofun
theorem PR.Fails.fuel {α : Type} {E} : (PR.fuel : PR α).Fails E := nofun
theorem PR.Fails.err {α : Type} {e i} {E : Err → Nat → Prop} (h : E e i) : (PR.err e i : PR α).Fails E := by
  rintro _ _ ⟨⟩; exact h
theorem PR.Fails.mono {α : Type} {x : PR α} {E F : Err → Nat → Prop} (h : x.Fails E) (hf : ∀ e i, E e i → F e i) : x.Fails F :=
  fun e i he => hf e i (h e i he)
theorem PR.Fails.bind {α β : Type} {x : PR α} {f : α → PR β} {E : Err → Nat → Prop} (h : x.Fails E)
    (hf : ∀ a, x = .ok a → (f a).Fails E) : (x >>= f).Fails E := by
  cases x with
  | ok a => exact hf a rfl
  | err e i => exact .err (h e i rfl)
  | panic => exact .panic
  | fuel => exact .fuel

/-- An error at the position of the state. -/
def PS.At (s : PS) (e : Err) (i : Nat) : Prop :=
  i = s.i ∧ e.s2 = [] ∧ (Spec.SyntaxMsg e.s ∨ e.s = errUtf8.s)

theorem PS.At.of_i {s r : PS} (h : r.i = s.i) {e : Err} {i : Nat} (g : r.At e i) : s.At e i := ⟨g.1.trans h, g.2⟩

theorem addCode_fails (c : Code) (s : PS) : (addCode c s).Fails s.At := by
  unfold addCode
  split
  · split
    · exact .ok
    · exact .err ⟨rfl, rfl, .inl .nowhere⟩
  · split
    · split
      · exact .ok
      · exact .err ⟨rfl, rfl, .inl .nowhere⟩
    · exact .ok

theorem addText_fails (s : PS) : (addText s).Fails fun e i => s.At e i ∧ s.text ≠ [] := by
  unfold addText
  split
  · exact .ok
  · rename_i h
    have h : s.text ≠ [] := by simpa using h
    split
    · exact .err ⟨⟨rfl, rfl, .inr rfl⟩, h⟩
    · split
      · exact .panic
      · exact .fuel
      · exact (addCode_fails _ _).mono fun e i g => ⟨g, h⟩

theorem addText_fails' (s : PS) : (addText s).Fails s.At := (addText_fails s).mono fun _ _ h => h.1

theorem addKw_fails (id : KwId) (s : PS) : (addKw id s).Fails s.At := by
  unfold addKw
  split
  · exact addCode_fails _ _
  · split
    all_goals first | exact addCode_fails _ _ | exact .panic

theorem kwRest_fails (id : KwId) (s : PS) : (kwRest id s).Fails s.At := by
  unfold kwRest
  split
  · exact ((addKw_fails id _).mono fun e i g => g.of_i (kwRet0_same id s).i).bind fun _ _ => .ok
  · exact .ok

theorem kwMain_fails (me : Int) (kw : Option KwId) (ups : List Layer) (id : KwId) (s : PS) :
    (kwMain me kw ups id s).Fails s.At := by
  unfold kwMain
  refine (addText_fails' s).bind ?_
  intro r hr
  have hi := ((addText_post s).2 r hr).i
  split
  · exact .ok
  · split
    · cases hl : layerI1 me (⟨me, kw, r.ret0⟩ :: ups) id r with
      | mk r2 b =>
        cases b with
        | true => exact .ok
        | false =>
          have := layerI1_stay hl
          subst this
          exact (kwRest_fails id r2).mono fun e i g => g.of_i hi
    · exact (kwRest_fails id r).mono fun e i g => g.of_i hi

theorem kwStep_fails (me : Int) (kw : Option KwId) (ups : List Layer) (id : KwId) (s : PS) :
    (kwStep me kw ups id s).Fails s.At := by
  unfold kwStep
  simp only
  split
  · exact .ok
  · split
    · split
      · exact .ok
      · exact (addText_fails' _).bind fun _ _ => .ok
    · split
      · split
        · exact .ok
        · exact kwMain_fails _ _ _ _ _
      · exact kwMain_fails _ _ _ _ _

/-- The flag that nothing sets. -/
def Next.data : Next → Bool
  | .loop r => r.is.data
  | .child r => r.is.data
  | .brk r => r.is.data

theorem Next.GoodI.data {id : KwId} {s : PS} {nx : Next} (g : Next.GoodI id s nx) : nx.data = s.is.data := by
  cases nx with
  | loop r => exact PS.Same.data g
  | child r => exact PS.Same.data g
  | brk r => exact g.2.2.1

theorem kwStep_data (me : Int) (kw : Option KwId) (ups : List Layer) (id : KwId) (s : PS) :
    (kwStep me kw ups id s).Post (fun nx => nx.data = s.is.data) := by
  unfold kwStep
  simp only
  split
  · exact .ok rfl
  · split
    · split
      · exact .ok rfl
      · refine (addText_post _).bind ?_
        intro r hr
        exact .ok hr.data
    · split
      · split
        · exact .ok rfl
        · exact (kwMain_post _ _ _ _ _).mono fun nx g => g.data
      · exact (kwMain_post _ _ _ _ _).mono fun nx g => g.data

/-! ## The errors of statements -/

theorem forScan_error {no : Bool} : ∀ {a : List Code} {idx : Nat} {c : Cnt} {e : Err}, forScan no a idx c = .error e →
    e = .msg c!"名非法" := by
  intro a
  induction a with
  | nil => intro idx c e h; simp [forScan] at h
  | cons x a ih =>
    intro idx c e h
    unfold forScan at h
    split at h
    · split at h
      · rename_i r _ e' he
        injection h with h; subst h
        unfold Cnt.hello at he
        split at he
        · simp at he
        · split at he
          · simp at he
          · split at he
            · split at he
              · injection he with he; exact he.symm
              · simp at he
            · simp at he
      · exact ih h
      · simp at h
    · split at h
      · rename_i e' he
        injection h with h; subst h
        exact ih he
      · simp at h

theorem switchScan_error {len : Nat} : ∀ {a : List Code} {idx : Nat} {st : SwSt} {e : Err}, switchScan len a idx st = .error e →
    e = .msg c!"只能有一个其他" := by
  have hd : ∀ {st : SwSt} {idx : Nat} {e : Err}, st.setDefault idx = .error e → e = .msg c!"只能有一个其他" := by
    intro st idx e h
    unfold SwSt.setDefault at h
    split at h
    · injection h with h; exact h.symm
    · simp at h
  intro a
  induction a with
  | nil =>
    intro idx st e h
    unfold switchScan at h
    split at h
    · split at h
      · exact hd h
      · simp at h
    · simp at h
  | cons x a ih =>
    intro idx st e h
    unfold switchScan at h
    split at h
    · simp only at h
      split at h
      · rename_i e' he
        injection h with h; subst h
        split at he
        · simp at he
        · split at he
          · exact hd he
          · simp at he
      · exact ih h
    · exact ih h

theorem mkCode_none {id : KwId} {a a2 a3 : List Code} (h : mkCode id a a2 a3 = none) : id ∉ Spec.begins := by
  cases id <;> first | (simp [mkCode] at h; done) | decide

theorem mkCode_error {id : KwId} {a a2 a3 : List Code} {e : Err} (h : mkCode id a a2 a3 = some (.error e)) :
    ∃ s, e = .msg s ∧ Spec.Mistake id s := by
  have hfor : ∀ {r : Bool}, forAdd r a = .error e → e = .msg c!"名非法" := by
    intro r h
    unfold forAdd at h
    split at h
    · rename_i e' he
      injection h with h; subst h
      exact forScan_error he
    · simp at h
  have hsw : ∀ {r : Bool} {id : KwId} (_ : id ∈ [KwId.switch, .switch2]), switchAdd r a = .error e →
      ∃ s, e = .msg s ∧ Spec.Mistake id s := by
    intro r id hid h
    unfold switchAdd at h
    split at h
    · injection h with h
      refine ⟨c!"缺", h.symm, .missing id ?_⟩
      simp at hid
      rcases hid with rfl | rfl <;> simp
    · split at h
      · split at h
        · rename_i e' he
          injection h with h; subst h
          exact ⟨_, switchScan_error he, .twoDefaults id hid⟩
        · simp at h
      · injection h with h
        exact ⟨_, h.symm, .noBody id hid⟩
  have hev : ∀ {l : Bool}, evalAdd l a = .error e → (l = true ∧ e = .msg c!"不能设参数0") ∨ e = .qve := by
    intro l h
    unfold evalAdd at h
    simp only at h
    split at h
    · injection h with h; exact .inl ⟨rfl, h.symm⟩
    · split at h
      · injection h with h; exact .inr h.symm
      · simp at h
  cases id
  all_goals simp only [mkCode, Option.some.injEq, reduceCtorEq] at h
  case for_ => exact ⟨_, hfor h, .badName _ (by simp)⟩
  case range => exact ⟨_, hfor h, .badName _ (by simp)⟩
  case switch => exact hsw (by simp) h
  case switch2 => exact hsw (by simp) h
  case eval_ =>
    rcases hev h with ⟨h, _⟩ | h
    · cases h
    · exact ⟨_, h, .missing _ (by simp)⟩
  case load =>
    rcases hev h with ⟨_, h⟩ | h
    · exact ⟨_, h, .noArg0⟩
    · exact ⟨_, h, .missing _ (by simp)⟩
  all_goals
    split at h
    · injection h with h
      first
        | exact ⟨_, h.symm, .missing _ (by simp)⟩
        | exact ⟨_, h.symm, .missingKw _ (by simp)⟩
        | exact ⟨_, h.symm, .noName⟩
    · simp at h

theorem afterChild_fails (me : Int) (id : KwId) (s ch : PS) : (afterChild me id s ch).Fails ch.At := by
  unfold afterChild
  split
  · rename_i h
    exact .err ⟨rfl, rfl, .inl (.stmt id _ (.unknown id (mkCode_none h)))⟩
  · rename_i e h
    obtain ⟨t, rfl, ht⟩ := mkCode_error h
    exact .err ⟨rfl, rfl, .inl (.stmt id t ht)⟩
  · refine PR.Fails.bind ((addCode_fails _ _).mono fun e i g => g.of_i rfl) ?_
    intro r hr
    have hi : r.i = ch.i := ((addCode_post _ _).2 r hr).i
    split
    · exact .ok
    · split
      · exact .ok
      · refine PR.Fails.bind ?_ fun _ _ => .ok
        split
        · split
          · exact (addKw_fails _ _).mono fun e i g => g.of_i hi
          · split <;> exact .ok
        · exact .ok

/-! ## Where the parser stands -/

/-- The position is between two characters. -/
def Spec.OnChar (src : Str) (i : Nat) : Prop := ∃ s1 s2, src = s1 ++ s2 ∧ (utf8 s1).length = i

theorem Spec.OnChar.le {src : Str} {i : Nat} (h : Spec.OnChar src i) : i ≤ (utf8 src).length := by
  obtain ⟨s1, s2, rfl, rfl⟩ := h
  simp [utf8_append]

theorem between_end (src : Str) : Spec.OnChar src (utf8 src).length := ⟨src, [], by simp, rfl⟩

theorem between_kw {src : Str} {i : Nat} {q : Quo} {id : KwId} {m : Nat} (h : Spec.OnChar src i)
    (hk : kwAt q false ((utf8 src).drop i) = some (id, m)) : Spec.OnChar src (i + m) := by
  obtain ⟨s1, s2, rfl, rfl⟩ := h
  rw [utf8_append, List.drop_left] at hk
  obtain ⟨u, v, rfl, hu, _⟩ := kwAt_cut hk
  exact ⟨s1 ++ u, v, by simp, by rw [utf8_append]; simp [hu]⟩

/-- A byte further on: between two characters, or inside a character of several bytes. -/
theorem between_or {src : Str} {i : Nat} (hi : i < (utf8 src).length) : Spec.OnChar src (i + 1) ∨
    ∃ b, (utf8 src)[i + 1]? = some b ∧ isCont b = true ∧ 0x80 ≤ ((utf8 src)[i]?).getD 0 := by
  rcases utf8_cut_any src ((utf8 src).take (i + 1)) ((utf8 src).drop (i + 1)) (List.take_append_drop _ _).symm with
    ⟨s1, s2, e0, e1, _⟩ | ⟨s1, c, s2, p1, p2, e0, e1, e2, e3, e4, e5⟩
  · exact .inl ⟨s1, s2, e0, by rw [e1]; simp; omega⟩
  · right
    obtain ⟨b, bs, hb, _, hb2, _, hb4, _⟩ := encChar_shape c
    cases p2 with
    | nil => exact absurd rfl e3
    | cons x xs =>
      have hne : bs ≠ [] := by
        intro h0
        rw [hb, h0] at e1
        cases p1 with
        | nil => exact e2 rfl
        | cons y ys => simp at e1
      have hx : isCont x = true := by
        apply hb2
        cases p1 with
        | nil => exact absurd rfl e2
        | cons y ys =>
          rw [hb] at e1; simp at e1
          rw [e1.2]; simp
      have h1 : (utf8 src)[i + 1]? = some x := by
        have : ((utf8 src).drop (i + 1))[0]? = some x := by rw [e5]; rfl
        rw [List.getElem?_drop] at this
        simpa using this
      refine ⟨x, h1, hx, ?_⟩
      have h2 : ((utf8 src).take (i + 1)).getLast? = (utf8 src)[i]? := by
        rw [List.getLast?_eq_getElem?, List.length_take]
        rw [show min (i + 1) (utf8 src).length - 1 = i by omega, List.getElem?_take]
        simp
      rw [← h2, e4, List.getLast?_append]
      obtain ⟨y, hy⟩ : ∃ y, p1.getLast? = some y := by
        cases h : p1.getLast? with
        | none => exact absurd (List.getLast?_eq_none_iff.1 h) e2
        | some y => exact ⟨y, rfl⟩
      rw [hy]
      have hmem : y ∈ encChar c := by rw [e1]; exact List.mem_append_left _ (List.mem_of_getLast? hy)
      rw [hb] at hmem
      simp only [Option.getD_some, Option.some_or]
      rcases List.mem_cons.1 hmem with rfl | h
      · have := hb4 hne; omega
      · exact (isCont_gt (hb2 y h)).1

theorem keep_high (q : Quo) {b c : Nat} (hb : 0x80 ≤ b) (hc : 0x80 ≤ c) : q.keep b = q.keep c := by
  have h1 : 32 ≤ b := by omega
  have h2 : 32 ≤ c := by omega
  have h3 : 32 < b := by omega
  have h4 : 32 < c := by omega
  simp [Quo.keep, h1, h2, h3, h4]

theorem addCode_is {c : Code} {s r : PS} (h : addCode c s = .ok r) : r.is = s.is := by
  unfold addCode at h
  split at h
  · split at h
    · injection h with h; rw [← h]
    · simp at h
  · split at h
    · split at h
      · injection h with h; rw [← h]
      · simp at h
    · injection h with h; rw [← h]

theorem addText_is {s r : PS} (h : addText s = .ok r) : r.is = s.is.clear := by
  unfold addText at h
  split at h
  · injection h with h; rw [← h]
  · split at h
    · simp at h
    · split at h
      · simp at h
      · simp at h
      · exact addCode_is h

/-- After a byte was collected, a further one of the same kind is collected without ado. -/
theorem keepByte_clear {b : Nat} {now : Bool} {s r : PS} (h : keepByte b now s = .ok r) : (r.is.needClear now).1 = false := by
  cases hc : (s.is.needClear now).1 with
  | false =>
    rw [keepByte_more hc] at h
    injection h with h
    rw [← h]
    simp [needClear_again s.is now hc]
  | true =>
    unfold keepByte at h
    rw [if_pos hc] at h
    cases ht : addText { s with is := (s.is.needClear now).2 } with
    | ok t =>
      rw [ht] at h
      injection h with h
      rw [← h]
      simp only [addText_is ht]
      simp [IsText.clear, IsText.needClear]
    | err e i => rw [ht] at h; simp at h
    | panic => rw [ht] at h; simp at h
    | fuel => rw [ht] at h; simp at h

/-- What holds whenever the loop goes on. -/
structure Stands (src : Str) (s : PS) : Prop where
  mu : s.mu = 0
  data : s.is.data = false
  start : s.i = 0 → s.text = []
  pos : Spec.OnChar src s.i ∨ ∃ b, (utf8 src)[s.i]? = some b ∧ isCont b = true ∧
    (s.is.q.keep b = true → (s.is.needClear s.is.q.inText).1 = false)

/-- The errors of the parser: where, and which. -/
def Spec.Located (src : Str) (e : Err) (i : Nat) : Prop :=
  Spec.OnChar src i ∧ 0 < i ∧ e.s2 = [] ∧ (Spec.SyntaxMsg e.s ∨ e.s = errUtf8.s)

theorem PS.At.located {src : Str} {s : PS} {e : Err} {i : Nat} (g : s.At e i) (hb : Spec.OnChar src s.i) (h0 : 0 < s.i) :
    Spec.Located src e i := ⟨g.1 ▸ hb, g.1 ▸ h0, g.2⟩

theorem byteStep_stands {src : Str} {s : PS} (h : Stands src s) (hlt : s.i < (utf8 src).length) :
    (byteStep (((utf8 src)[s.i]?).getD 0) s).Fails (Spec.Located src) ∧
    ∀ r, byteStep (((utf8 src)[s.i]?).getD 0) s = .ok r → Stands src r ∧ r.i = s.i + 1 := by
  generalize hb : ((utf8 src)[s.i]?).getD 0 = b
  have hnext := between_or (src := src) hlt
  rw [hb] at hnext
  unfold byteStep
  cases hk : s.is.q.keep b with
  | false =>
    simp only [Bool.false_eq_true, if_false, PR.ok_bind]
    refine ⟨.ok, ?_⟩
    rintro r ⟨⟩
    refine ⟨⟨h.mu, h.data, fun h0 => by simp at h0, ?_⟩, rfl⟩
    rcases hnext with hn | ⟨c, h1, h2, h3⟩
    · exact .inl hn
    · refine .inr ⟨c, h1, h2, fun hc => ?_⟩
      rw [← keep_high s.is.q h3 (isCont_gt h2).1, hk] at hc
      cases hc
  | true =>
    simp only [if_true]
    have hpost := keepByte_post b s.is.q.inText s
    have hfail : (keepByte b s.is.q.inText s).Fails (Spec.Located src) := by
      cases hc : (s.is.needClear s.is.q.inText).1 with
      | false => rw [keepByte_more hc]; exact .ok
      | true =>
        unfold keepByte
        rw [if_pos hc]
        refine PR.Fails.bind ?_ fun _ _ => .ok
        refine (addText_fails _).mono ?_
        rintro e i ⟨g, ht⟩
        have h0 : 0 < s.i := Nat.pos_of_ne_zero fun h0 => ht (h.start h0)
        refine PS.At.located (s := { s with is := (s.is.needClear s.is.q.inText).2 }) g ?_ h0
        rcases h.pos with hp | ⟨c, h1, _, h3⟩
        · exact hp
        · rw [h1] at hb
          simp only [Option.getD_some] at hb
          rw [hb] at h3
          rw [h3 hk] at hc
          cases hc
    refine ⟨hfail.bind fun _ _ => .ok, ?_⟩
    intro r hr
    cases hkb : keepByte b s.is.q.inText s with
    | err e i => rw [hkb] at hr; simp at hr
    | panic => rw [hkb] at hr; simp at hr
    | fuel => rw [hkb] at hr; simp at hr
    | ok x =>
      rw [hkb] at hr
      simp only [PR.ok_bind, PR.ok.injEq] at hr
      subst hr
      obtain ⟨p1, p2, p3, p4⟩ := hpost.2 x hkb
      refine ⟨⟨p2.trans h.mu, p4.trans h.data, fun h0 => by simp at h0, ?_⟩, by simp [p1]⟩
      simp only [p1, p3]
      rcases hnext with hn | ⟨c, h1, h2, h3⟩
      · exact .inl hn
      · exact .inr ⟨c, h1, h2, fun _ => keepByte_clear hkb⟩

/-- The invariant of the parser. -/
theorem pars_located (src : Str) : ∀ (n : Nat) (me : Int) (kw : Option KwId) (ups : List Layer) (s : PS), Stands src s →
    (pars (utf8 src) n me kw ups s).Fails (Spec.Located src) ∧
    ∀ r, pars (utf8 src) n me kw ups s = .ok r →
      Spec.OnChar src r.i ∧ Spec.OnChar src (r.i - r.mu) ∧ r.is.data = false ∧ s.i + r.mu ≤ r.i := by
  intro n
  induction n with
  | zero =>
    intro me kw ups s _
    rw [show pars (utf8 src) 0 me kw ups s = .fuel by rw [pars]]
    exact ⟨.fuel, (fun _ h => by simp at h)⟩
  | succ n ih =>
    intro me kw ups s hs
    unfold pars
    by_cases hlt : (utf8 src).length ≤ s.i
    · rw [if_pos hlt]
      have hb : Spec.OnChar src s.i := by
        rcases hs.pos with h | ⟨b, h, _⟩
        · exact h
        · rw [List.getElem?_eq_none hlt] at h; cases h
      constructor
      · refine (addText_fails s).mono ?_
        rintro e i ⟨g, ht⟩
        exact g.located hb (Nat.pos_of_ne_zero fun h0 => ht (hs.start h0))
      · intro r hr
        have h := (addText_post s).2 r hr
        rw [h.i, h.mu, h.data, hs.mu]
        exact ⟨hb, hb, hs.data, by omega⟩
    · rw [if_neg hlt]
      have hlt : s.i < (utf8 src).length := by omega
      split
      · rename_i id m hk
        rw [hs.data] at hk
        have hb : Spec.OnChar src s.i := by
          rcases hs.pos with h | ⟨b, h, hc, _⟩
          · exact h
          · have : (utf8 src).drop s.i = b :: (utf8 src).drop (s.i + 1) := by
              rw [List.drop_eq_getElem_cons hlt]
              rw [List.getElem?_eq_getElem hlt] at h
              injection h with h
              rw [h]
            rw [this, kwAt_cont hc] at hk
            cases hk
        have hbm := between_kw hb hk
        obtain ⟨_, hm1, _⟩ := kwAt_len hk
        have h0 : 0 < s.i + m := by omega
        have hf := kwStep_fails me kw ups id { s with i := s.i + m }
        have hp := kwStep_post me kw ups id { s with i := s.i + m }
        have hd := kwStep_data me kw ups id { s with i := s.i + m }
        cases hx : kwStep me kw ups id { s with i := s.i + m } with
        | err e i =>
          simp only [PR.err_bind]
          refine ⟨.err ?_, (fun _ h => by simp at h)⟩
          exact PS.At.located (s := { s with i := s.i + m }) (hf e i hx) hbm h0
        | panic => exact ⟨.panic, (fun _ h => by simp at h)⟩
        | fuel => exact ⟨.fuel, (fun _ h => by simp at h)⟩
        | ok nx =>
          simp only [PR.ok_bind]
          have g := hp.2 nx hx
          have gd : nx.data = false := (hd.2 nx hx).trans hs.data
          cases nx with
          | loop r =>
            obtain ⟨g1, g2⟩ := g
            simp only at g1 g2
            obtain ⟨i1, i2⟩ := ih me kw ups r ⟨g2.trans hs.mu, gd, by omega, .inl (g1 ▸ hbm)⟩
            refine ⟨i1, fun x hx => ?_⟩
            obtain ⟨a1, a2, a3, a4⟩ := i2 x hx
            exact ⟨a1, a2, a3, by omega⟩
          | brk r =>
            obtain ⟨g1, g2⟩ := g
            simp only at g1 g2
            constructor
            · exact (addText_fails' r).mono fun e i g => g.located (g1 ▸ hbm) (by omega)
            · intro x hx
              have h := (addText_post r).2 x hx
              rw [h.i, h.mu, h.data, g1]
              rcases g2 with g2 | ⟨rfl, g2⟩
              · rw [g2, hs.mu]
                exact ⟨hbm, hbm, gd, by omega⟩
              · have hm : m = 3 := blockLen_utf8 src s.i _ m hk
                subst hm
                rw [g2]
                exact ⟨hbm, by simpa using hb, gd, by omega⟩
          | child r =>
            obtain ⟨g1, g2⟩ := g
            simp only at g1 g2
            obtain ⟨c1, c2⟩ := ih (me + 1) (some id) (⟨me, kw, r.ret0⟩ :: ups) (childState id r)
              ⟨g2.trans hs.mu, gd, fun h => rfl, .inl (by simpa [childState, g1] using hbm)⟩
            simp only
            cases hc : pars (utf8 src) n (me + 1) (some id) (⟨me, kw, r.ret0⟩ :: ups) (childState id r) with
            | err e i =>
              simp only [PR.err_bind]
              exact ⟨.err (c1 e i hc), (fun _ h => by simp at h)⟩
            | panic => exact ⟨.panic, (fun _ h => by simp at h)⟩
            | fuel => exact ⟨.fuel, (fun _ h => by simp at h)⟩
            | ok ch =>
              obtain ⟨b1, b2, b3, b4⟩ := c2 ch hc
              have b4 : r.i + ch.mu ≤ ch.i := b4
              simp only [PR.ok_bind]
              have hpa := afterChild_post2 me id r ch
              have hfa := afterChild_fails me id r ch
              cases ha : afterChild me id r ch with
              | err e i =>
                simp only [PR.err_bind]
                exact ⟨.err ((hfa e i ha).located b1 (by omega)), (fun _ h => by simp at h)⟩
              | panic => exact ⟨.panic, (fun _ h => by simp at h)⟩
              | fuel => exact ⟨.fuel, (fun _ h => by simp at h)⟩
              | ok p =>
                obtain ⟨p1, p2, _, p4, _⟩ := hpa.2 p ha
                simp only [PR.ok_bind]
                by_cases hb2 : p.2 = true
                · rw [if_pos hb2]
                  obtain ⟨i1, i2⟩ := ih me kw ups p.1 ⟨p2, p4.trans b3, by omega, .inl (p1 ▸ b2)⟩
                  refine ⟨i1, fun x hx => ?_⟩
                  obtain ⟨a1, a2, a3, a4⟩ := i2 x hx
                  exact ⟨a1, a2, a3, by omega⟩
                · rw [if_neg hb2]
                  constructor
                  · exact (addText_fails' p.1).mono fun e i g => g.located (p1 ▸ b2) (by omega)
                  · intro x hx
                    have h := (addText_post p.1).2 x hx
                    rw [h.i, h.mu, h.data, p2, p1]
                    exact ⟨b2, b2, p4.trans b3, by omega⟩
      · obtain ⟨f1, f2⟩ := byteStep_stands hs hlt
        cases hx : byteStep (((utf8 src)[s.i]?).getD 0) s with
        | err e i =>
          simp only [PR.err_bind]
          exact ⟨.err (f1 e i hx), (fun _ h => by simp at h)⟩
        | panic => exact ⟨.panic, (fun _ h => by simp at h)⟩
        | fuel => exact ⟨.fuel, (fun _ h => by simp at h)⟩
        | ok r =>
          obtain ⟨g1, g2⟩ := f2 r hx
          simp only [PR.ok_bind]
          obtain ⟨i1, i2⟩ := ih me kw ups r g1
          refine ⟨i1, fun x hx => ?_⟩
          obtain ⟨a1, a2, a3, a4⟩ := i2 x hx
          exact ⟨a1, a2, a3, by omega⟩

/-! ## C64: the report of a source that cannot be parsed -/

/-- **C64.**  The report about a source that cannot be parsed quotes the source itself, from its first character to the place of the
mistake, and nothing else: a part of the source that is not empty and ends between two characters.  The message is one of a fixed
list, with the keyword of the statement that is wrong. -/
theorem C64_syntax_report (src : Str) (e : Err) (h : parse src = .ok (.error e)) :
    Spec.SyntaxMsg e.s ∧ ∃ t, t ≠ [] ∧ t <+: src ∧ e.s2 = c!"\n“" ++ t ++ c!"”" := by
  have hu := C16_no_utf8_error src e h
  have hl := (pars_located src ((utf8 src).length + 1) 0 none [] PS.init
    ⟨rfl, rfl, fun _ => rfl, .inl ⟨[], src, rfl, rfl⟩⟩).1
  unfold parse parseBytes at h
  cases hx : pars (utf8 src) ((utf8 src).length + 1) 0 none [] PS.init with
  | ok r => rw [hx] at h; simp at h
  | panic => rw [hx] at h; simp at h
  | fuel => rw [hx] at h; simp at h
  | err e' i =>
    rw [hx] at h
    simp only [Out.ok.injEq, Except.error.injEq] at h
    obtain ⟨⟨s1, s2, rfl, rfl⟩, h2, h3, h4⟩ := hl e' i hx
    subst h
    refine ⟨h4.resolve_right hu, s1, ?_, List.prefix_append _ _, ?_⟩
    · rintro rfl; simp [utf8] at h2
    · simp only [ret3, h3, utf8_append, List.take_left, decode_utf8]
      rfl

/-- It happens: a switch without branches in the second sentence; the report ends after it. -/
theorem C64_syntax_example : (match parse c!"显示“甲”。分叉‘乙’。显示“丙”" with
    | .ok (.error e) => decide (e.s = c!"“分叉”缺" ∧ e.s2 = c!"\n“显示“甲”。分叉‘乙’。”") | _ => false) = true := by
  decide +kernel

end Zh
