import Verif.Props.GrammarSteps
/-!
# C60: the items made of the lists of a statement
-/
namespace Zh

/-! ## What items are -/

/-- Items whose keyword tells what they are. -/
structure Norm (c : Code) : Prop where
  note : (c.id == .beginRem2) = Spec.isNote c
  sep : c.id = .dunhao ↔ c = .kw1 .dunhao
  stop : c.id ≠ .jvhao

theorem norm_text (s : Str) : Norm (.text s) := ⟨rfl, by simp [Code.id], by simp [Code.id]⟩
theorem norm_undef (s : Str) : Norm (.undef s) := ⟨rfl, by simp [Code.id], by simp [Code.id]⟩
theorem norm_block (b : List Code) : Norm (.block b) := ⟨rfl, by simp [Code.id], by simp [Code.id]⟩
theorem norm_if (a b c : List Code) : Norm (.if_ a b c) := ⟨rfl, by simp [Code.id], by simp [Code.id]⟩
theorem norm_sep : Norm (.kw1 .dunhao) := ⟨rfl, by simp [Code.id], by simp [Code.id]⟩
theorem norm_note (s : Str) : Norm (Spec.noteItem s) := by
  unfold Spec.noteItem
  split <;> exact ⟨rfl, by simp [Code.id], by simp [Code.id]⟩
theorem norm_switch (one : Bool) (a b : List Code) (f : List (Nat × Nat)) (d : Option Nat) : Norm (.switch one a b f d) := by
  cases one <;> exact ⟨rfl, by simp [Code.id], by simp [Code.id]⟩
theorem norm_for (r : Bool) (c : Cnt) (a b : List Code) : Norm (.for_ r c a b) := by
  cases r <;> exact ⟨rfl, by simp [Code.id], by simp [Code.id]⟩
theorem norm_kw2 {id : KwId} (h : inIf id = true) : Norm (.kw2 id) := by
  revert h
  cases id <;> first | (intro h; exact absurd h (by decide)) | (intro _; exact ⟨rfl, by simp [Code.id], by simp [Code.id]⟩)

theorem norm_name (n : Spec.Name) (ns : List Str) : Norm (n.item ns) := by
  cases n with
  | arg s i =>
    show Norm (if i = 0 then _ else _)
    split <;> exact ⟨rfl, by simp [Code.id], by simp [Code.id]⟩
  | _ => exact ⟨rfl, by simp [Spec.Name.item, Code.id], by simp [Spec.Name.item, Code.id]⟩

theorem norm_textItem (s : Str) : ∀ c ∈ Spec.textItem s, Norm c := by
  unfold Spec.textItem
  split
  · nofun
  · intro c hc; simp at hc; subst hc; exact norm_text s

theorem norm_longs : ∀ (bs : List Spec.LongBit) (a : Spec.LongAt) (acc : Str), ∀ c ∈ Spec.longItems a acc bs, Norm c
  | [], _, acc => norm_textItem acc
  | .chars _ :: bs, _, _ => norm_longs bs _ _
  | .mark _ :: bs, _, _ => norm_longs bs _ _
  | .name n :: bs, a, acc => fun c hc => by
    rcases List.mem_append.1 hc with hc | hc
    · exact norm_textItem acc c hc
    · rcases List.mem_cons.1 hc with rfl | hc
      · exact norm_name _ _
      · exact norm_longs bs _ _ c hc

theorem norm_atom (a : Spec.Atom) : ∀ c ∈ a.items, Norm c := by
  intro c hc
  cases a with
  | quote ps l =>
    simp only [Spec.Atom.items, List.mem_append, List.mem_flatMap, List.mem_singleton] at hc
    rcases hc with ⟨x, _, hc | rfl⟩ | hc
    · exact norm_textItem _ c hc
    · exact norm_name _ _
    · exact norm_textItem _ c hc
  | long bs => exact norm_longs bs _ _ c hc
  | verb s => simp [Spec.Atom.items] at hc; subst hc; exact norm_text _
  | kept s => simp [Spec.Atom.items] at hc; subst hc; exact norm_text _
  | word s => simp [Spec.Atom.items] at hc; subst hc; exact norm_undef _
  | var n ns => simp [Spec.Atom.items] at hc; subst hc; exact norm_name _ _
  | note s => simp [Spec.Atom.items] at hc; subst hc; exact norm_note _
  | sep => simp [Spec.Atom.items] at hc; subst hc; exact norm_sep

theorem norm_cmd (k : Spec.Cmd) (l : List Code) : Norm (k.build l) := by
  cases k with
  | jump k => cases k <;> exact ⟨rfl, by simp [Spec.Cmd.build, Code.id, JumpKind.kw], by simp [Spec.Cmd.build, Code.id, JumpKind.kw]⟩
  | loop r c => exact norm_for _ _ _ _
  | _ => exact ⟨rfl, by simp [Spec.Cmd.build, Code.id], by simp [Spec.Cmd.build, Code.id]⟩

theorem norm_asg (k : Spec.Asg) (a b : List Code) : Norm (k.build a b) := by
  cases k <;> exact ⟨rfl, by simp [Spec.Asg.build, Code.id], by simp [Spec.Asg.build, Code.id]⟩

theorem norm_el (e : Spec.El) : ∀ c ∈ e.code, Norm c := by
  intro c hc
  cases e with
  | atom a => simp only [Spec.El.code] at hc; exact norm_atom a c hc
  | block b => simp [Spec.El.code] at hc; subst hc; exact norm_block _
  | cond => simp [Spec.El.code] at hc; subst hc; exact norm_if _ _ _
  | loop => simp [Spec.El.code] at hc; subst hc; exact norm_cmd _ _
  | switch => simp [Spec.El.code] at hc; subst hc; exact norm_switch _ _ _ _ _

theorem norm_phrase : ∀ p : Spec.Phrase, ∀ c ∈ p.code, Norm c
  | .nil => by intro c hc; simp [Spec.Phrase.code] at hc
  | .el e p => by
    intro c hc
    simp only [Spec.Phrase.code, List.mem_append] at hc
    rcases hc with hc | hc
    · exact norm_el e c hc
    · exact norm_phrase p c hc
  | .cmd k p => by intro c hc; simp [Spec.Phrase.code] at hc; subst hc; exact norm_cmd _ _
  | .asg k a p => by intro c hc; simp [Spec.Phrase.code] at hc; subst hc; exact norm_asg _ _ _
  | .cond c t => by intro c hc; simp [Spec.Phrase.code] at hc; subst hc; exact norm_if _ _ _
  | .cond2 c t e => by intro c hc; simp [Spec.Phrase.code] at hc; subst hc; exact norm_if _ _ _

theorem firstSep_eq (l : List Code) (h : ∀ c ∈ l, Norm c) : l.findIdx? (fun c => c.id == .dunhao) = Spec.firstSep l := by
  induction l with
  | nil => rfl
  | cons c l ih =>
    have ih := ih fun x hx => h x (by simp [hx])
    have hc := (h c (by simp)).sep
    rw [List.findIdx?_cons]
    by_cases he : c = .kw1 .dunhao
    · subst he; rfl
    · have h1 : (c.id == KwId.dunhao) = false := by
        simp only [beq_eq_false_iff_ne, ne_eq, hc]; exact he
      rw [h1, ih]
      rw [Spec.firstSep]
      · cases Spec.firstSep l <;> rfl
      · exact he

theorem sepPos_eq (l : List Code) (h : ∀ c ∈ l, Norm c) : split21 l = Spec.sepAt l := by
  unfold split21 Spec.sepAt
  rw [firstSep_eq l h]; rfl

theorem filter_note (l : List Code) (h : ∀ c ∈ l, Norm c) :
    l.filter (fun i => i.id == .beginRem2) = l.filter Spec.isNote ∧
    l.filter (fun i => i.id != .beginRem2) = l.filter (fun c => !Spec.isNote c) := by
  constructor
  · exact List.filter_congr fun c hc => (h c hc).note
  · exact List.filter_congr fun c hc => by
      have := (h c hc).note
      rw [bne, this]

/-! ## `解释`, `加载` -/

theorem evalScan_plain (l : List Code) (cur : Bool) (h : ∀ c ∈ l, Norm c) (hn : ∀ c ∈ l, Spec.isNote c = false) :
    evalScan l cur = (cur, none, l) := by
  induction l with
  | nil => rfl
  | cons c l ih =>
    have h1 := (h c (by simp)).note
    rw [hn c (by simp)] at h1
    have h2 : ¬ c.id = .beginRem2 := by simpa using h1
    rw [evalScan, if_neg h2, ih (fun x hx => h x (by simp [hx])) (fun x hx => hn x (by simp [hx]))]

theorem id_note (s : Str) : (Spec.noteItem s).id = .beginRem2 := by unfold Spec.noteItem; split <;> rfl

theorem evalScan_cur (b : Bool) (l : List Code) : evalScan (Spec.noteItem c!"在当前区" :: l) b = evalScan l true := by
  rw [evalScan, if_pos (id_note _), remText_note]
  exact if_pos rfl

theorem evalScan_arg (s : Str) (b : Bool) (l : List Code) (h : s ≠ c!"在当前区") :
    evalScan (Spec.noteItem s :: l) b = (b, some (Spec.noteItem s), l) := by
  rw [evalScan, if_pos (id_note _), remText_note, if_neg]
  intro e
  simp only [Option.some.injEq] at e
  exact h e

def noteItems (ns : List Str) : List Code := ns.map fun s => Spec.noteItem (Spec.strip s)

theorem strip_cur : Spec.strip c!"在当前区" = c!"在当前区" := by decide

/-! ## Loops -/

theorem forScan_plain (no : Bool) (c : Cnt) : ∀ (l : List Code) (idx : Nat), (∀ x ∈ l, Spec.isNote x = false) → forScan no l idx c = .ok (c, l)
  | [], _, _ => rfl
  | x :: l, idx, h => by
    have h1 : remText x = none := by
      have := h x (by simp)
      cases x <;> simp [Spec.isNote] at this <;> rfl
    rw [forScan, h1, forScan_plain no c l _ fun y hy => h y (by simp [hy])]

theorem forScan_take {no : Bool} {s : Str} {idx : Nat} {c c' : Cnt} (l : List Code) (h : c.hello no s idx = .ok (c', true)) :
    forScan no (Spec.noteItem s :: l) idx c = forScan no l (idx + 1) c' := by
  rw [forScan, remText_note]
  simp only [h]

theorem forScan_stop {no : Bool} {s : Str} {idx : Nat} {c c' : Cnt} (l : List Code) (h : c.hello no s idx = .ok (c', false)) :
    forScan no (Spec.noteItem s :: l) idx c = .ok (c', Spec.noteItem s :: l) := by
  rw [forScan, remText_note]
  simp only [h]

/-- The counter as written. -/
def Spec.Counter.cnt (c : Spec.Counter) : Cnt :=
  ⟨c.max.map fun n => (n.map (·.2)).getD (2 ^ 63 - 1), c.start.map (·.2), c.name.map Spec.strip⟩

theorem forScan_more (c : Spec.Counter) (r : Bool) (h : c.Ok r) (l : List Code) (hl : ∀ x ∈ l, Spec.isNote x = false) (idx : Nat)
    (hi : 0 < idx ∨ c.more = []) : forScan r (noteItems c.more ++ l) idx c.cnt = .ok (c.cnt, noteItems c.more ++ l) := by
  cases hm : c.more with
  | nil => exact forScan_plain r _ l idx hl
  | cons s ss =>
    obtain ⟨h1, h2⟩ := h.more s (by rw [hm]; rfl)
    have hi : 0 < idx := by
      rcases hi with hi | hi
      · exact hi
      · rw [hm] at hi; exact nomatch hi
    refine forScan_stop _ ?_
    have e1 : (idx == 0) = false := by simp; omega
    have e3 : c.cnt.name.isNone = false := by
      show (c.name.map _).isNone = false
      cases e : c.name with
      | none => exact absurd e h1
      | some => rfl
    have e2 : (!r && c.cnt.start.isNone && (parseI64 (Spec.strip s)).isSome) = false := by
      cases r with
      | true => rfl
      | false =>
        cases e : c.start with
        | some x => simp [Spec.Counter.cnt, e]
        | none => simp [notNum64 (h2 e rfl)]
    unfold Cnt.hello
    rw [e1, e2, e3]
    simp

theorem forScan_name (c : Spec.Counter) (r : Bool) (h : c.Ok r) (l : List Code) (hl : ∀ x ∈ l, Spec.isNote x = false) (idx : Nat)
    (hi : c.max ≠ none → 0 < idx) :
    forScan r (noteItems c.name.toList ++ (noteItems c.more ++ l)) idx { c.cnt with name := none } =
      .ok (c.cnt, noteItems c.more ++ l) := by
  cases hn : c.name with
  | none =>
    have hm : c.more = [] := by
      cases e : c.more with
      | nil => rfl
      | cons s ss => exact absurd hn (h.more s (by rw [e]; rfl)).1
    have := forScan_more c r h l hl idx (.inr hm)
    have e : ({ c.cnt with name := none } : Cnt) = c.cnt := by simp [Spec.Counter.cnt, hn]
    rw [e]
    exact this
  | some s =>
    obtain ⟨h1, h2⟩ := h.name s hn
    have hs : (Spec.strip s).isEmpty = false := by
      cases e : Spec.strip s with
      | nil => exact absurd e h1
      | cons => rfl
    have key : ({ c.cnt with name := none } : Cnt).hello r (Spec.strip s) idx = .ok (c.cnt, true) := by
      have e2 : (!r && c.cnt.start.isNone && (parseI64 (Spec.strip s)).isSome) = false := by
        cases r with
        | true => rfl
        | false =>
          cases e : c.start with
          | some x => simp [Spec.Counter.cnt, e]
          | none => simp [notNum64 (h2 e rfl)]
      have e1 : (!r && idx == 0 && c.cnt.max.isNone && ((parseI64 (Spec.strip s)).isSome || (Spec.strip s).isEmpty)) = false := by
        cases r with
        | true => rfl
        | false =>
          cases e : c.max with
          | some x =>
            have := hi (by rw [e]; exact nofun)
            have : (idx == 0) = false := by simp; omega
            simp [this]
          | none =>
            have e3 : c.start = none := by
              cases e4 : c.start with
              | none => rfl
              | some x => exact absurd e (h.start x.1 x.2 e4).2
            simp [notNum64 (h2 e3 rfl), h1]
      have hello : ∀ c' : Cnt, c'.name = none →
          (!r && idx == 0 && c'.max.isNone && ((parseI64 (Spec.strip s)).isSome || (Spec.strip s).isEmpty)) = false →
          (!r && c'.start.isNone && (parseI64 (Spec.strip s)).isSome) = false →
          c'.hello r (Spec.strip s) idx = .ok ({ c' with name := some (Spec.strip s) }, true) := by
        intro c' f1 f2 f3
        unfold Cnt.hello
        rw [f2, f3, f1, hs]; rfl
      have := hello { c.cnt with name := none } rfl e1 e2
      rw [show ({ c.cnt with name := some (Spec.strip s) } : Cnt) = c.cnt by simp [Spec.Counter.cnt, hn]] at this
      exact this
    show forScan r (Spec.noteItem (Spec.strip s) :: (noteItems c.more ++ l)) idx _ = _
    rw [forScan_take _ key]
    exact forScan_more c r h l hl _ (.inl (by omega))

theorem forScan_start (c : Spec.Counter) (r : Bool) (h : c.Ok r) (l : List Code) (hl : ∀ x ∈ l, Spec.isNote x = false) (idx : Nat)
    (hi : c.max ≠ none → 0 < idx) :
    forScan r (noteItems (c.start.toList.map (·.1)) ++ (noteItems c.name.toList ++ (noteItems c.more ++ l))) idx
      { c.cnt with start := none, name := none } = .ok (c.cnt, noteItems c.more ++ l) := by
  cases hs : c.start with
  | none =>
    have := forScan_name c r h l hl idx hi
    have e : ({ c.cnt with start := none, name := none } : Cnt) = { c.cnt with name := none } := by simp [Spec.Counter.cnt, hs]
    rw [e]
    exact this
  | some x =>
    obtain ⟨s, i⟩ := x
    obtain ⟨h1, h2⟩ := h.start s i hs
    have hr : r = false := by
      cases r with
      | false => rfl
      | true => exact absurd (h.range rfl).1 h2
    have e1 : (idx == 0) = false := by have := hi h2; simp; omega
    have key : ({ c.cnt with start := none, name := none } : Cnt).hello r (Spec.strip s) idx = .ok ({ c.cnt with name := none }, true) := by
      unfold Cnt.hello
      simp [e1, hr, num64 h1, Spec.Counter.cnt, hs]
    show forScan r (Spec.noteItem (Spec.strip s) :: _) idx _ = _
    rw [forScan_take _ key]
    exact forScan_name c r h l hl _ fun _ => by omega

theorem forScan_all (c : Spec.Counter) (r : Bool) (h : c.Ok r) (l : List Code) (hl : ∀ x ∈ l, Spec.isNote x = false) :
    forScan r (noteItems (Spec.Cmd.loop r c).notes ++ l) 0 ⟨none, none, none⟩ = .ok (c.cnt, noteItems c.more ++ l) := by
  have e : noteItems (Spec.Cmd.loop r c).notes ++ l =
      noteItems (match c.max with | none => [] | some none => [[]] | some (some n) => [n.1]) ++
        (noteItems (c.start.toList.map (·.1)) ++ (noteItems c.name.toList ++ (noteItems c.more ++ l))) := by
    simp only [Spec.Cmd.notes, noteItems, List.map_append, List.append_assoc]
    cases c.max with
    | none => rfl
    | some x => cases x <;> rfl
  rw [e]
  cases hm : c.max with
  | none =>
    have := forScan_start c r h l hl 0 fun hne => absurd hm hne
    have e : ({ c.cnt with start := none, name := none } : Cnt) = ⟨none, none, none⟩ := by simp [Spec.Counter.cnt, hm]
    rw [e] at this
    exact this
  | some n =>
    have hr : r = false := by
      cases r with
      | false => rfl
      | true => have := (h.range rfl).1; rw [hm] at this; exact nomatch this
    have := forScan_start c r h l hl 1 fun _ => by omega
    cases n with
    | none =>
      show forScan r (Spec.noteItem (Spec.strip []) :: _) 0 _ = _
      rw [forScan_take (c' := { c.cnt with start := none, name := none }) _ ?_]
      · exact this
      · subst hr; simp [Cnt.hello, Spec.Counter.cnt, hm, Spec.strip, show parseI64 [] = none from rfl, i64Max]
    | some x =>
      obtain ⟨s, i⟩ := x
      show forScan r (Spec.noteItem (Spec.strip s) :: _) 0 _ = _
      rw [forScan_take (c' := { c.cnt with start := none, name := none }) _ ?_]
      · exact this
      · subst hr; simp [Cnt.hello, Spec.Counter.cnt, hm, num64 (h.max s i hm)]

theorem isNote_note (s : Str) : Spec.isNote (Spec.noteItem s) = true := by unfold Spec.noteItem; split <;> rfl

/-! ## Statements -/

theorem norm_notes (ns : List Str) : ∀ c ∈ noteItems ns, Norm c := by
  intro c hc
  simp only [noteItems, List.mem_map] at hc
  obtain ⟨s, _, rfl⟩ := hc
  exact norm_note _

theorem loop_mk (r : Bool) (c : Spec.Counter) (l a2 a3 : List Code) (h : c.Ok r) (hl : ∀ x ∈ l, Spec.isNote x = false) (hn : ∀ c ∈ l, Norm c) :
    mkCode (Spec.Cmd.loop r c).kw (noteItems (Spec.Cmd.loop r c).notes ++ l) a2 a3 = some (.ok ((Spec.Cmd.loop r c).build l)) := by
  have h1 : ∀ x ∈ noteItems c.more ++ l, Norm x := by
    intro x hx
    rcases List.mem_append.1 hx with hx | hx
    · exact norm_notes _ x hx
    · exact hn x hx
  have h3 : forAdd r (noteItems (Spec.Cmd.loop r c).notes ++ l) = .ok ((Spec.Cmd.loop r c).build l) := by
    unfold forAdd
    rw [forScan_all c r h l hl]
    simp only [(filter_note _ h1).1, (filter_note _ h1).2, List.filter_append]
    have f1 : (noteItems c.more).filter Spec.isNote = noteItems c.more :=
      List.filter_eq_self.2 (by intro x hx; simp only [noteItems, List.mem_map] at hx; obtain ⟨s, _, rfl⟩ := hx; exact isNote_note _)
    have f2 : (noteItems c.more).filter (fun c => !Spec.isNote c) = [] :=
      List.filter_eq_nil_iff.2 (by intro x hx; simp only [noteItems, List.mem_map] at hx; obtain ⟨s, _, rfl⟩ := hx; simp [isNote_note])
    have f3 : l.filter Spec.isNote = [] := List.filter_eq_nil_iff.2 (by intro x hx; simp [hl x hx])
    have f4 : l.filter (fun c => !Spec.isNote c) = l := List.filter_eq_self.2 (by intro x hx; simp [hl x hx])
    rw [f1, f2, f3, f4]
    simp [Spec.Cmd.build, Spec.Counter.cnt, noteItems]
  cases r <;> simp only [Spec.Cmd.kw, Bool.false_eq_true, if_false, if_true, mkCode, h3]

theorem cmd_mk (k : Spec.Cmd) (l a2 a3 : List Code) (h : k.Ok l) (hn : ∀ c ∈ l, Norm c) :
    mkCode k.kw (noteItems k.notes ++ l) a2 a3 = some (.ok (k.build l)) := by
  have hne : l ≠ [] → l.isEmpty = false := by cases l <;> simp
  cases k with
  | jump k => cases k <;> rfl
  | has => rfl
  | mod_ => rfl
  | modFree => rfl
  | name => rfl
  | print => simp [mkCode, Spec.Cmd.kw, Spec.Cmd.build, Spec.Cmd.notes, noteItems, hne h]
  | expl => simp [mkCode, Spec.Cmd.kw, Spec.Cmd.build, Spec.Cmd.notes, noteItems, hne h]
  | exec => simp [mkCode, Spec.Cmd.kw, Spec.Cmd.build, Spec.Cmd.notes, noteItems, hne h]
  | du => simp [mkCode, Spec.Cmd.kw, Spec.Cmd.build, Spec.Cmd.notes, noteItems, hne h]
  | jie2 => simp [mkCode, Spec.Cmd.kw, Spec.Cmd.build, Spec.Cmd.notes, noteItems, hne h]
  | jie =>
    have h2 : (l.filter fun c => !Spec.isNote c).isEmpty = false := by
      obtain ⟨c, hc, hc2⟩ := h
      have : c ∈ l.filter fun c => !Spec.isNote c := by simp [hc, hc2]
      cases e : l.filter fun c => !Spec.isNote c with
      | nil => rw [e] at this; simp at this
      | cons => rfl
    simp only [mkCode, Spec.Cmd.kw, Spec.Cmd.build, Spec.Cmd.notes, noteItems, List.map_nil, List.nil_append, (filter_note l hn).1, (filter_note l hn).2, h2]
    rfl
  | eval cur arg0 =>
    have hscan : evalScan (noteItems (Spec.Cmd.eval cur arg0).notes ++ l) false = (cur, arg0.map fun s => Spec.noteItem (Spec.strip s), l) ∧ l ≠ [] := by
      cases arg0 with
      | none =>
        refine ⟨?_, h.1⟩
        cases cur
        · exact evalScan_plain l false hn h.2
        · show evalScan (Spec.noteItem (Spec.strip c!"在当前区") :: l) false = _
          rw [strip_cur, evalScan_cur]
          exact evalScan_plain l true hn h.2
      | some s =>
        refine ⟨?_, h.1⟩
        cases cur
        · show evalScan (Spec.noteItem (Spec.strip s) :: l) false = _
          rw [evalScan_arg _ _ _ h.2]; rfl
        · show evalScan (Spec.noteItem (Spec.strip c!"在当前区") :: Spec.noteItem (Spec.strip s) :: l) false = _
          rw [strip_cur, evalScan_cur, evalScan_arg _ _ _ h.2]; rfl
    simp only [mkCode, Spec.Cmd.kw, Spec.Cmd.build, evalAdd, hscan.1, hne hscan.2, sepPos_eq l hn]
    cases arg0 with
    | none => rfl
    | some s => simp [remText_note]
  | load cur =>
    have hscan : evalScan (noteItems (Spec.Cmd.load cur).notes ++ l) false = (cur, none, l) := by
      cases cur
      · exact evalScan_plain l false hn h.2
      · show evalScan (Spec.noteItem (Spec.strip c!"在当前区") :: l) false = _
        rw [strip_cur, evalScan_cur]
        exact evalScan_plain l true hn h.2
    simp only [mkCode, Spec.Cmd.kw, Spec.Cmd.build, evalAdd, hscan, hne h.1, sepPos_eq l hn]
    rfl
  | loop r c => exact loop_mk r c l a2 a3 h.1 h.2 hn

theorem asg_mk (k : Spec.Asg) (a b a3 : List Code) (h : k.Ok a) (hn : ∀ c ∈ a, Norm c) :
    mkCode k.kw a b a3 = some (.ok (k.build a b)) := by
  cases k with
  | set_ => rfl
  | «alias» => rfl
  | def_ =>
    have hne : a.isEmpty = false := by cases a with | nil => exact absurd rfl h | cons => rfl
    simp [mkCode, Spec.Asg.kw, Spec.Asg.build, hne, sepPos_eq a hn]

/-! ## Switches -/

/-- The sentences with the stops between them. -/
def joinL : List (List Code) → List Code
  | [] => []
  | [l] => l
  | l :: ls => l ++ .kw1 .jvhao :: joinL ls

theorem lines_ne (q : Spec.Script) : q.lines ≠ [] := by
  cases q <;> simp [Spec.Script.lines]

theorem code_lines : ∀ q : Spec.Script, q.code = joinL q.lines
  | .done p => by simp [Spec.Script.code, Spec.Script.lines, joinL]
  | .sent p q => by
    rw [Spec.Script.code, Spec.Script.lines, code_lines q]
    cases e : q.lines with
    | nil => exact absurd e (lines_ne q)
    | cons x xs => rfl

theorem lines_norm : ∀ q : Spec.Script, ∀ l ∈ q.lines, ∀ c ∈ l, Norm c
  | .done p => by
    intro l hl
    simp [Spec.Script.lines] at hl
    subst hl; exact norm_phrase p
  | .sent p q => by
    intro l hl
    simp only [Spec.Script.lines, List.mem_cons] at hl
    rcases hl with rfl | hl
    · exact norm_phrase p
    · exact lines_norm q l hl

theorem switchScan_line (len : Nat) (rest : List Code) : ∀ (l : List Code) (idx : Nat) (F : List (Nat × Nat)) (D : Option Nat) (i2 i3 : Nat),
    (∀ c ∈ l, Norm c) →
    switchScan len (l ++ rest) idx ⟨F, D, i2, i3⟩ = switchScan len rest (idx + l.length) ⟨F, D, i2 + l.length, i3⟩
  | [], idx, F, D, i2, i3, _ => rfl
  | c :: l, idx, F, D, i2, i3, h => by
    rw [List.cons_append, switchScan, if_neg (h c (by simp)).stop, switchScan_line len rest l _ _ _ _ _ fun x hx => h x (by simp [hx])]
    simp only [List.length_cons]
    rw [show idx + (l.length + 1) = idx + 1 + l.length by omega, show i2 + (l.length + 1) = i2 + 1 + l.length by omega]

theorem switchScan_lines (len : Nat) : ∀ (ls : List (List Code)) (n : Nat) (F : List (Nat × Nat)) (D : Option Nat), ls ≠ [] →
    (∀ l ∈ ls, ∀ c ∈ l, Norm c) → len = n + (joinL ls).length → (D.toList ++ Spec.others n ls).length ≤ 1 →
    ∃ i2 i3, switchScan len (joinL ls) n ⟨F, D, 0, n⟩ =
      .ok ⟨F ++ Spec.branches n ls, (D.toList ++ Spec.others n ls).head?, i2, i3⟩
  | [], _, _, _, h, _, _, _ => absurd rfl h
  | [l], n, F, D, _, hN, hlen, hD => by
    have e := switchScan_line len [] l n F D 0 n (hN l (by simp))
    rw [List.append_nil] at e
    simp only [joinL] at hlen ⊢
    rw [e, switchScan]
    simp only [Nat.zero_add, Spec.branches, Spec.others, List.append_nil] at hD ⊢
    by_cases h0 : l.length = 0
    · rw [if_neg (by omega)]
      exact ⟨l.length, n, by simp [h0]⟩
    · rw [if_pos (by omega)]
      by_cases h1 : l.length = 1
      · rw [if_pos h1]
        simp only [h1] at hD ⊢
        cases D with
        | some d => simp at hD
        | none => exact ⟨1, n, by simp [SwSt.setDefault]⟩
      · rw [if_neg h1]
        refine ⟨l.length, n, ?_⟩
        simp [SwSt.add, h1, show ¬ l.length < 2 by omega, hlen]
  | l :: l2 :: ls, n, F, D, _, hN, hlen, hD => by
    have e := switchScan_line len (.kw1 .jvhao :: joinL (l2 :: ls)) l n F D 0 n (hN l (by simp))
    have ej : joinL (l :: l2 :: ls) = l ++ .kw1 .jvhao :: joinL (l2 :: ls) := rfl
    rw [ej] at hlen ⊢
    rw [e, switchScan, if_pos (show (Code.kw1 KwId.jvhao).id = .jvhao from rfl)]
    have hlen' : len = n + l.length + 1 + (joinL (l2 :: ls)).length := by
      rw [hlen]; simp; omega
    have eb : Spec.branches n (l :: l2 :: ls) = (if l.length < 2 then [] else [(n, n + l.length - 1)]) ++ Spec.branches (n + l.length + 1) (l2 :: ls) := rfl
    have eo : Spec.others n (l :: l2 :: ls) = (if l.length = 1 then [n] else []) ++ Spec.others (n + l.length + 1) (l2 :: ls) := rfl
    rw [eb, eo]
    rw [eo] at hD
    have ih := fun F D => switchScan_lines len (l2 :: ls) (n + l.length + 1) F D (by simp) (fun x hx => hN x (List.mem_cons_of_mem _ hx)) hlen'
    simp only [Nat.zero_add]
    by_cases h0 : l.length = 0
    · simp only [h0] at hD ih ⊢
      simp at hD ih ⊢
      exact ih F D hD
    · by_cases h1 : l.length = 1
      · simp only [h1] at hD ih ⊢
        cases D with
        | some d => simp at hD
        | none =>
          have := ih F (some n) (by simpa using hD)
          simpa [SwSt.setDefault] using this
      · rw [if_neg h0, if_neg h1]
        have := ih (F ++ [(n, n + l.length - 1)]) D (by simpa [h1] using hD)
        simpa [SwSt.add, h1, show ¬ l.length < 2 by omega] using this

theorem switch_mk (one : Bool) (a : List Code) (q : Spec.Script) (a2 a3 : List Code) (ha : a ≠ []) (hq : (Spec.others 0 q.lines).length ≤ 1) :
    mkCode (if one then .switch2 else .switch) (a ++ [.block q.code]) a2 a3 =
      some (.ok (.switch one a q.code (Spec.branches 0 q.lines) (Spec.others 0 q.lines).head?)) := by
  have h1 : switchAdd one (a ++ [.block q.code]) = .ok (.switch one a q.code (Spec.branches 0 q.lines) (Spec.others 0 q.lines).head?) := by
    obtain ⟨i2, i3, e⟩ := switchScan_lines q.code.length q.lines 0 [] none (lines_ne q) (lines_norm q) (by rw [code_lines]; omega) (by simpa using hq)
    rw [← code_lines] at e
    unfold switchAdd
    have hlen : ¬ (a ++ [Code.block q.code]).length < 2 := by
      cases a with
      | nil => exact absurd rfl ha
      | cons => simp
    rw [if_neg hlen]
    simp [e]
  cases one <;> simp [mkCode, h1]

end Zh
