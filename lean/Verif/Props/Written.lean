import Verif.Props.NoText2
import Verif.Props.Blanks
/-!
# C79: every statement of a program is written in its text

An item that is not a word or a quoted text comes from its keyword, and the keyword stands in the text (blanks aside).
-/
namespace Zh
open Spec (Occurs)

/-- The keyword stands in the text, perhaps with blanks inside. -/
def Spec.Stands (src : Str) (id : KwId) : Prop := kwStr id <:+: Spec.strip src

/-- Words and quoted texts. -/
def Spec.isPlain : Code → Bool
  | .undef _ | .text _ => true
  | _ => false

variable {src : Str}

/-- All items in an item come from keywords of the text. -/
abbrev OkW (src : Str) (c : Code) : Prop := ∀ y, Occurs y c → Spec.isPlain y = true ∨ Spec.Stands src y.id
abbrev AllK (src : Str) (l : List Code) : Prop := ∀ x ∈ l, OkW src x

theorem AllK.nil : AllK src [] := fun _ h => nomatch h
theorem AllK.snoc {l : List Code} {c : Code} (h : AllK src l) (hc : OkW src c) : AllK src (l ++ [c]) := by
  intro x hx
  rcases List.mem_append.1 hx with hx | hx
  · exact h x hx
  · cases List.mem_singleton.1 hx; exact hc

theorem okW_mk {c : Code} (h : Spec.isPlain c = true ∨ Spec.Stands src c.id) (hp : ∀ x ∈ Spec.parts c, OkW src x) : OkW src c := by
  intro y hy
  cases hy with
  | self => exact h
  | part h1 h2 => exact hp _ h1 y h2

theorem okW_parts {c : Code} (h : OkW src c) : ∀ x ∈ Spec.parts c, OkW src x := fun _ hx y hy => h y (.part hx hy)

/-! ## What a keyword makes of its lists -/

theorem remNew_parts {a : List Code} : (remNew a).id = .beginRem2 ∧ ∀ x ∈ Spec.parts (remNew a), x ∈ a := by
  unfold remNew
  split
  · exact ⟨rfl, nofun⟩
  · exact ⟨rfl, fun x h => h⟩

theorem varNew_parts {a : List Code} : (varNew a).id = .beginVar ∧ ∀ x ∈ Spec.parts (varNew a), x ∈ a := by
  unfold varNew
  repeat' split
  all_goals first | exact ⟨rfl, fun x h => h⟩ | exact ⟨rfl, nofun⟩

theorem forAdd_parts {range : Bool} {a : List Code} {c : Code} (he : forAdd range a = .ok c) :
    c.id = (if range then .range else .for_) ∧ ∀ x ∈ Spec.parts c, x ∈ a := by
  unfold forAdd at he
  split at he
  · cases he
  · rename_i cnt l e
    cases he
    obtain ⟨h1, -, -⟩ := forScan_sub e
    refine ⟨rfl, fun x hx => ?_⟩
    rcases List.mem_append.1 hx with hx | hx <;> exact h1 x (List.mem_filter.1 hx).1

theorem switchAdd_parts {one : Bool} {a : List Code} {c : Code} (he : switchAdd one a = .ok c) :
    c.id = (if one then .switch2 else .switch) ∧ ∀ x ∈ Spec.parts c, x ∈ a ∨ ∃ b, .block b ∈ a ∧ x ∈ b := by
  have hsw : ∃ one' a' case bs d, c = .switch one' a' case bs d := by
    unfold switchAdd at he
    split at he
    · cases he
    · split at he
      · split at he
        · cases he
        · cases he; exact ⟨_, _, _, _, _, rfl⟩
      · cases he
  obtain ⟨one', a', case, bs, d, rfl⟩ := hsw
  obtain ⟨h1, h2, h3⟩ := C32_parsed he
  subst h1 h2
  refine ⟨rfl, fun x hx => ?_⟩
  rcases List.mem_append.1 hx with hx | hx
  · exact .inl (List.mem_append_left _ hx)
  · exact .inr ⟨case, List.mem_append_right _ (List.mem_singleton.2 rfl), hx⟩

theorem evalAdd_parts {load : Bool} {a : List Code} {c : Code} (he : evalAdd load a = .ok c) :
    c.id = (if load then .load else .eval_) ∧ ∀ x ∈ Spec.parts c, x ∈ a := by
  unfold evalAdd at he
  rcases e : evalScan a false with ⟨cur, x, l⟩
  rw [e] at he
  dsimp only at he
  obtain ⟨h1, h2⟩ := evalScan_sub e
  split at he
  · cases he
  · split at he
    · cases he
    · cases he
      refine ⟨rfl, fun y hy => ?_⟩
      rcases List.mem_append.1 hy with hy | hy
      · cases x with
        | none => cases hy
        | some z => cases List.mem_singleton.1 hy; exact (h2 _ rfl).1
      · exact h1 y hy

theorem mkCode_parts {id : KwId} {a a2 a3 : List Code} {c : Code} (he : mkCode id a a2 a3 = some (.ok c)) :
    c.id = id ∧ ∀ x ∈ Spec.parts c, (x ∈ a ∨ x ∈ a2 ∨ x ∈ a3) ∨ ∃ b, .block b ∈ a ∧ x ∈ b := by
  have ne : ∀ {e : Err} {c' : Code}, (some (if a.isEmpty = true then Except.error e else Except.ok c') = some (.ok c)) → c' = c := by
    intro e c' h
    split at h
    · cases h
    · cases h; rfl
  have one : ∀ {c' : Code}, (c'.id = id ∧ ∀ x ∈ Spec.parts c', x ∈ a) →
      c'.id = id ∧ ∀ x ∈ Spec.parts c', (x ∈ a ∨ x ∈ a2 ∨ x ∈ a3) ∨ ∃ b, .block b ∈ a ∧ x ∈ b :=
    fun h => ⟨h.1, fun x hx => .inl (.inl (h.2 x hx))⟩
  have two : ∀ {x : Code}, x ∈ a ++ a2 → (x ∈ a ∨ x ∈ a2 ∨ x ∈ a3) ∨ ∃ b, .block b ∈ a ∧ x ∈ b :=
    fun h => .inl ((List.mem_append.1 h).elim .inl fun h => .inr (.inl h))
  cases id <;> simp only [mkCode, reduceCtorEq] at he
  case beginRem2 => cases he; exact one remNew_parts
  case beginVar => cases he; exact one varNew_parts
  case for_ => exact one (forAdd_parts (Option.some.inj he))
  case range => exact one (forAdd_parts (Option.some.inj he))
  case if_ =>
    cases he
    refine ⟨rfl, fun x hx => .inl ?_⟩
    rcases List.mem_append.1 hx with hx | hx
    · exact (List.mem_append.1 hx).elim .inl fun h => .inr (.inl h)
    · exact .inr (.inr hx)
  case switch =>
    obtain ⟨h1, h2⟩ := switchAdd_parts (Option.some.inj he)
    exact ⟨h1, fun x hx => (h2 x hx).imp .inl id⟩
  case switch2 =>
    obtain ⟨h1, h2⟩ := switchAdd_parts (Option.some.inj he)
    exact ⟨h1, fun x hx => (h2 x hx).imp .inl id⟩
  case guandaojie =>
    split at he
    · cases he
    · cases he
      refine ⟨rfl, fun x hx => .inl (.inl ?_)⟩
      rcases List.mem_append.1 hx with hx | hx <;> exact (List.mem_filter.1 hx).1
  case set_ => cases he; exact ⟨rfl, fun x hx => two hx⟩
  case «alias» => cases he; exact ⟨rfl, fun x hx => two hx⟩
  case def_ => cases ne he; exact ⟨rfl, fun x hx => two hx⟩
  case eval_ => exact one (evalAdd_parts (Option.some.inj he))
  case load => exact one (evalAdd_parts (Option.some.inj he))
  all_goals first | (cases he; exact one ⟨rfl, fun x h => h⟩) | (cases ne he; exact one ⟨rfl, fun x h => h⟩)

/-! ## The parser -/

/-- All items collected so far come from keywords of the text, and so does the one that ended the sentence before. -/
structure PS.FromText (src : Str) (s : PS) : Prop where
  c1 : AllK src s.c1
  c2 : ∀ l, s.c2 = some l → AllK src l
  c3 : ∀ l, s.c3 = some l → AllK src l
  kw : ∀ k, s.mkw = some k → Spec.Stands src k

theorem addCode_from {c : Code} {s s' : PS} (hc : OkW src c) (h : s.FromText src) (he : addCode c s = .ok s') : s'.FromText src := by
  unfold addCode at he
  split at he
  · split at he
    · rename_i l e
      cases he
      exact ⟨h.c1, fun l' e' => by cases e'; exact (h.c2 l e).snoc hc, h.c3, h.kw⟩
    · cases he
  · split at he
    · split at he
      · rename_i l e
        cases he
        exact ⟨h.c1, h.c2, fun l' e' => by cases e'; exact (h.c3 l e).snoc hc, h.kw⟩
      · cases he
    · cases he
      exact ⟨h.c1.snoc hc, h.c2, h.c3, h.kw⟩

theorem addText_from {s s' : PS} (h : s.FromText src) (he : addText s = .ok s') : s'.FromText src := by
  unfold addText at he
  split at he
  · cases he; exact ⟨h.c1, h.c2, h.c3, h.kw⟩
  · split at he
    · cases he
    · split at he
      · cases he
      · cases he
      · rename_i c hc
        refine addCode_from ?_ ?_ he
        rotate_left
        · exact ⟨h.c1, h.c2, h.c3, h.kw⟩
        unfold textCode at hc
        split at hc
        · cases hc; exact okW_mk (.inl rfl) nofun
        · split at hc
          · cases hc; exact okW_mk (.inl rfl) nofun
          · cases hc
          · cases hc

theorem addKw_from {id : KwId} {s s' : PS} (hid : Spec.Stands src id) (h : s.FromText src) (he : addKw id s = .ok s') : s'.FromText src := by
  have h1 : OkW src (.kw1 id) := okW_mk (c := .kw1 id) (.inr hid) fun _ h => nomatch h
  have h2 : OkW src (.kw2 id) := okW_mk (c := .kw2 id) (.inr hid) fun _ h => nomatch h
  unfold addKw at he
  split at he
  · exact addCode_from h2 h he
  · split at he
    all_goals first | exact addCode_from h1 h he | (cases he; done)

theorem kwRest_from {id : KwId} {s : PS} {nx : Next} (hid : Spec.Stands src id) (h : s.FromText src) (he : kwRest id s = .ok nx) :
    nx.ps.FromText src := by
  have h0 : (kwRet0 id s).FromText src := by unfold kwRet0; split <;> exact ⟨h.c1, h.c2, h.c3, h.kw⟩
  unfold kwRest at he
  split at he
  · obtain ⟨s1, h1, h2⟩ := PR.bind_ok he
    cases h2
    exact addKw_from hid h0 h1
  · cases he
    unfold kwKind
    split <;> exact h0

theorem kwMain_from {me : Int} {kw : Option KwId} {ups : List Layer} {id : KwId} {s : PS} {nx : Next} (hid : Spec.Stands src id)
    (h : s.FromText src) (he : kwMain me kw ups id s = .ok nx) : nx.ps.FromText src := by
  unfold kwMain at he
  obtain ⟨s1, h1, h2⟩ := PR.bind_ok he
  have hw := addText_from h h1
  split at h2
  · cases h2; exact hw
  · split at h2
    · have hl : (layerI1 me (⟨me, kw, s1.ret0⟩ :: ups) id s1).1.FromText src := by
        unfold layerI1
        dsimp only
        repeat' split
        all_goals first | exact ⟨hw.c1, hw.c2, hw.c3, hw.kw⟩ | exact ⟨hw.c1, hw.c2, hw.c3, fun k hk => by cases hk; exact hid⟩
      split at h2
      · rename_i s2 e; cases h2; rw [e] at hl; exact hl
      · rename_i s2 e; rw [e] at hl; exact kwRest_from hid hl h2
    · exact kwRest_from hid hw h2

theorem kwStep_from {me : Int} {kw : Option KwId} {ups : List Layer} {id : KwId} {s : PS} {nx : Next} (hid : Spec.Stands src id)
    (h : s.FromText src) (he : kwStep me kw ups id s = .ok nx) : nx.ps.FromText src := by
  unfold kwStep at he
  dsimp only at he
  split at he
  · cases he; exact ⟨h.c1, h.c2, h.c3, h.kw⟩
  · split at he
    · obtain ⟨s1, h1, h2⟩ := PR.bind_ok he
      cases h2
      have : s1.FromText src := by
        split at h1
        · cases h1; exact ⟨h.c1, h.c2, h.c3, h.kw⟩
        · (refine addText_from ?_ h1; exact ⟨h.c1, h.c2, h.c3, h.kw⟩)
      exact ⟨this.c1, this.c2, this.c3, this.kw⟩
    · split at he
      · split at he
        · cases he; exact ⟨h.c1, h.c2, h.c3, h.kw⟩
        · (refine kwMain_from hid ?_ he; exact ⟨h.c1, h.c2, h.c3, h.kw⟩)
      · exact kwMain_from hid h he

theorem childState_from (id : KwId) {s : PS} (h : s.FromText src) : (childState id s).FromText src := by
  refine ⟨AllK.nil, fun l e => ?_, fun l e => ?_, h.kw⟩
  · simp only [childState] at e
    split at e
    · cases e; exact AllK.nil
    · cases e
  · simp only [childState] at e
    split at e
    · cases e; exact AllK.nil
    · cases e

theorem getD_allK {o : Option (List Code)} (h : ∀ l, o = some l → AllK src l) : AllK src (o.getD []) := by
  cases o with
  | none => exact AllK.nil
  | some l => exact h l rfl

theorem reset_from {s : PS} (h : s.FromText src) : s.reset.FromText src := ⟨h.c1, h.c2, h.c3, nofun⟩

theorem afterChild_from {me : Int} {id : KwId} {s ch : PS} {p : PS × Bool} (hid : Spec.Stands src id) (h : s.FromText src)
    (hc : ch.FromText src) (he : afterChild me id s ch = .ok p) : p.1.FromText src := by
  unfold afterChild at he
  split at he
  · cases he
  · cases he
  · rename_i c e
    obtain ⟨e1, e2⟩ := mkCode_parts e
    have hcc : OkW src c := by
      refine okW_mk (.inr (e1 ▸ hid)) fun x hx => ?_
      rcases e2 x hx with (h | h | h) | ⟨b, h1, h2⟩
      · exact hc.c1 x h
      · exact getD_allK hc.c2 x h
      · exact getD_allK hc.c3 x h
      · exact okW_parts (hc.c1 _ h1) x h2
    obtain ⟨s1, h1, h2⟩ := PR.bind_ok he
    have hw : s1.FromText src := by
      refine addCode_from hcc ?_ h1
      exact ⟨h.c1, h.c2, h.c3, hc.kw⟩
    split at h2
    · cases h2; exact reset_from ⟨hw.c1, hw.c2, hw.c3, hw.kw⟩
    · split at h2
      · cases h2; exact hw
      · obtain ⟨s2, h3, h4⟩ := PR.bind_ok h2
        cases h4
        refine reset_from ?_
        split at h3
        · rename_i k hk
          split at h3
          · exact addKw_from (hw.kw k hk) hw h3
          · split at h3
            · cases h3; exact ⟨hw.c1, hw.c2, hw.c3, hw.kw⟩
            · cases h3; exact ⟨hw.c1, hw.c2, hw.c3, hw.kw⟩
            · cases h3; exact hw
        · cases h3; exact hw

theorem byteStep_from {c : Nat} {s s' : PS} (h : s.FromText src) (he : byteStep c s = .ok s') : s'.FromText src := by
  unfold byteStep at he
  obtain ⟨s1, h1, h2⟩ := PR.bind_ok he
  cases h2
  have : s1.FromText src := by
    split at h1
    · unfold keepByte at h1
      obtain ⟨s2, h3, h4⟩ := PR.bind_ok h1
      cases h4
      have : s2.FromText src := by
        split at h3
        · (refine addText_from ?_ h3; exact ⟨h.c1, h.c2, h.c3, h.kw⟩)
        · cases h3; exact ⟨h.c1, h.c2, h.c3, h.kw⟩
      exact ⟨this.c1, this.c2, this.c3, this.kw⟩
    · cases h1; exact h
  exact ⟨this.c1, this.c2, this.c3, this.kw⟩

theorem kwAt_written {q : Quo} {data : Bool} {i : Nat} {id : KwId} {m : Nat} (h : kwAt q data ((utf8 src).drop i) = some (id, m)) :
    Spec.Stands src id := by
  obtain ⟨t, r, h1, h2, h3, -⟩ := (C45_longest q data _ id m h).1
  refine utf8_infix ?_
  rw [← stripB_utf8]
  have : stripB ((utf8 src).drop i) <:+: stripB (utf8 src) := (List.IsSuffix.filter _ (List.drop_suffix i (utf8 src))).isInfix
  refine List.IsInfix.trans ?_ this
  rw [h1]
  unfold stripB
  rw [List.filter_append, h3]
  exact (List.prefix_append _ _).isInfix

theorem pars_from {n : Nat} {me : Int} {kw : Option KwId} {ups : List Layer} {s s' : PS} (h : s.FromText src)
    (he : pars (utf8 src) n me kw ups s = .ok s') : s'.FromText src := by
  induction n generalizing me kw ups s s' with
  | zero => cases he
  | succ n ih =>
    unfold pars at he
    split at he
    · exact addText_from h he
    · split at he
      · rename_i id m hk
        have hid := kwAt_written hk
        obtain ⟨nx, h1, h2⟩ := PR.bind_ok he
        have hw := kwStep_from hid (s := { s with i := s.i + m }) ⟨h.c1, h.c2, h.c3, h.kw⟩ h1
        cases nx with
        | loop s1 => exact ih hw h2
        | brk s1 => exact addText_from hw h2
        | child s1 =>
          obtain ⟨ch, h3, h4⟩ := PR.bind_ok h2
          obtain ⟨p, h5, h6⟩ := PR.bind_ok h4
          have hp := afterChild_from hid hw (ih (childState_from id hw) h3) h5
          split at h6
          · exact ih hp h6
          · exact addText_from hp h6
      · obtain ⟨s1, h1, h2⟩ := PR.bind_ok he
        exact ih (byteStep_from h h1) h2

/-- **C79.** In a program every item that is not a word or a quoted text, at any depth, comes from a keyword that stands in the source
text, perhaps with blanks inside. -/
theorem C79_written {l : List Code} (h : parse src = .ok (.ok l)) :
    ∀ c ∈ l, ∀ y, Occurs y c → Spec.isPlain y = true ∨ Spec.Stands src y.id := by
  unfold parse parseBytes at h
  split at h
  · rename_i s e
    cases h
    exact (pars_from (s := PS.init) ⟨AllK.nil, (fun l h => nomatch h), (fun l h => nomatch h), nofun⟩ e).c1
  · cases h
  · cases h
  · cases h

/-- **C79.** A text in which no keyword stands that makes the items `bad` is a program without them. -/
theorem C79_without {bad : Code → Bool} (hb : ∀ y, bad y = true → Spec.isPlain y = false ∧ ¬ Spec.Stands src y.id) : Spec.TextWithout bad src := by
  intro l hl c hc y hy
  cases e : bad y with
  | false => rfl
  | true =>
    obtain ⟨h1, h2⟩ := hb y e
    rcases C79_written hl c hc y hy with h | h
    · rw [h1] at h; cases h
    · exact absurd h h2

end Zh
