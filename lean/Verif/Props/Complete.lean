import Verif.Props.Switch
import Verif.Props.GrammarSpec
/-!
# C77: only complete statements come out of the parser

`Spec.Complete` says what is promised about a code item and everything inside it.
-/
namespace Zh

/-- An item of a program and all items in it have the parts they need: a word has a character, a mark is one of the three marks, the
annotations of a loop are annotations and its body has none, a switch has a subject and its table of branches describes its body, a
statement that needs something to work on has it, the noted place of a separator is the place of the first `、`. -/
inductive Spec.Complete : Code → Prop
  | word {s : Str} : s ≠ [] → Complete (.undef s)
  | text {s : Str} : Complete (.text s)
  | mark {id : KwId} : id ∈ [KwId.jvhao, .dunhao, .brkpoint] → Complete (.kw1 id)
  | compare {id : KwId} : id ∈ [KwId.dengyu, .xiaoyudengyu, .xiaoyu, .dayudengyu, .dayu, .not_, .and_, .or_] → Complete (.kw2 id)
  | note {s : Str} : Complete (.remS s)
  | notes {a : List Code} : (∀ s, a ≠ [.text s]) → (∀ x ∈ a, Complete x) → Complete (.rem a)
  | simple {name : Str} {rems : List Str} : name ∉ [c!"参数", c!"参数栈", c!"参数数目"] →
      (∀ n i, name = c!"参数" ++ n → ¬ Spec.IsNum 32 n i) → Complete (.simp name rems)
  | args {rems : List Str} {b e : Int} {line : Bool} : Complete (.args rems b e line)
  | argc {rems : List Str} : Complete (.argc rems)
  | argi {rems : List Str} {i : Int} : i ≠ 0 → -2 ^ 31 ≤ i → i < 2 ^ 31 → Complete (.argi rems i)
  | arg0 {rems : List Str} {z : Str} : Spec.IsNum 32 z 0 → Complete (.arg0 rems z)
  | var {rems : List Str} {a : List Code} : (∃ x ∈ a, ∀ s, x ≠ .text s ∧ x ≠ .remS s) → (∀ x ∈ a, Complete x) →
      Complete (.var rems a)
  | block {a : List Code} : (∀ x ∈ a, Complete x) → Complete (.block a)
  | loop {range : Bool} {cnt : Cnt} {rems codes : List Code} : (∀ x ∈ rems, Spec.isNote x = true) →
      (∀ x ∈ codes, Spec.isNote x = false) → (range = true → cnt.max = none ∧ cnt.start = none) → cnt.name ≠ some [] →
      (∀ x ∈ rems, Complete x) → (∀ x ∈ codes, Complete x) → Complete (.for_ range cnt rems codes)
  | jump {k : JumpKind} {a : List Code} : (∀ x ∈ a, Complete x) → Complete (.jump k a)
  | cond {a th el : List Code} : (∀ x ∈ a, Complete x) → (∀ x ∈ th, Complete x) → (∀ x ∈ el, Complete x) → Complete (.if_ a th el)
  | switch {one : Bool} {a case : List Code} {bs : List (Nat × Nat)} {d : Option Nat} : a ≠ [] → Spec.Branches case bs d →
      (∀ x ∈ a, Complete x) → (∀ x ∈ case, Complete x) → Complete (.switch one a case bs d)
  | du {a : List Code} : a ≠ [] → (∀ x ∈ a, Complete x) → Complete (.du a)
  | jie {rems a : List Code} : a ≠ [] → (∀ x ∈ rems, Spec.isNote x = true) → (∀ x ∈ a, Spec.isNote x = false) →
      (∀ x ∈ rems, Complete x) → (∀ x ∈ a, Complete x) → Complete (.jie rems a)
  | jie2 {a : List Code} : a ≠ [] → (∀ x ∈ a, Complete x) → Complete (.jie2 a)
  | mod_ {a : List Code} : (∀ x ∈ a, Complete x) → Complete (.mod_ a)
  | modFree {a : List Code} : (∀ x ∈ a, Complete x) → Complete (.modFree a)
  | name {a : List Code} : (∀ x ∈ a, Complete x) → Complete (.name a)
  | set_ {names vals : List Code} : (∀ x ∈ names, Complete x) → (∀ x ∈ vals, Complete x) → Complete (.set_ names vals)
  | alias {names vals : List Code} : (∀ x ∈ names, Complete x) → (∀ x ∈ vals, Complete x) → Complete (.alias names vals)
  | def_ {names vals : List Code} {sp : Nat} : names ≠ [] → sp = Spec.sepAt names → (∀ x ∈ names, Complete x) →
      (∀ x ∈ vals, Complete x) → Complete (.def_ names vals sp)
  | has {a : List Code} : (∀ x ∈ a, Complete x) → Complete (.has a)
  | eval {load cur : Bool} {arg0 : Str} {iArg0 a : List Code} {sp : Nat} {e : Bool} : a ≠ [] → sp = Spec.sepAt a →
      (e = true ↔ sp + 1 = a.length) → (load = true → iArg0 = []) → iArg0.length ≤ 1 → (∀ x ∈ iArg0, Spec.isNote x = true) →
      (∀ s, iArg0 = [.remS s] → arg0 = s) → (∀ x ∈ iArg0, Complete x) → (∀ x ∈ a, Complete x) →
      Complete (.eval load cur arg0 iArg0 a sp e)
  | print {a : List Code} : a ≠ [] → (∀ x ∈ a, Complete x) → Complete (.print a)
  | expl {a : List Code} : a ≠ [] → (∀ x ∈ a, Complete x) → Complete (.expl a)
  | exec {a : List Code} : a ≠ [] → (∀ x ∈ a, Complete x) → Complete (.exec a)

open Spec (Complete)

/-- All items of a list are complete. -/
abbrev AllC (l : List Code) : Prop := ∀ x ∈ l, Complete x

theorem AllC.nil : AllC [] := fun _ h => nomatch h
theorem AllC.snoc {l : List Code} {c : Code} (h : AllC l) (hc : Complete c) : AllC (l ++ [c]) := by
  intro x hx
  rcases List.mem_append.1 hx with hx | hx
  · exact h x hx
  · cases List.mem_singleton.1 hx; exact hc
theorem AllC.append {l l' : List Code} (h : AllC l) (h' : AllC l') : AllC (l ++ l') := by
  intro x hx
  rcases List.mem_append.1 hx with hx | hx
  · exact h x hx
  · exact h' x hx

/-! ## What a keyword makes of its lists -/

theorem id_rem_note {c : Code} (h : Complete c) : (c.id == .beginRem2) = Spec.isNote c := by
  cases h with
  | mark h => simp only [List.mem_cons, List.not_mem_nil, or_false] at h; rcases h with rfl | rfl | rfl <;> rfl
  | compare h =>
    simp only [List.mem_cons, List.not_mem_nil, or_false] at h
    rcases h with rfl | rfl | rfl | rfl | rfl | rfl | rfl | rfl <;> rfl
  | @loop r => cases r <;> rfl
  | @switch r => cases r <;> rfl
  | @eval r => cases r <;> rfl
  | @jump k => cases k <;> rfl
  | _ => rfl

theorem id_rem_note' {c : Code} (h : Complete c) : (c.id != .beginRem2) = !Spec.isNote c := by
  rw [bne, id_rem_note h]

theorem id_dun {c : Code} (h : Complete c) : (c.id == .dunhao) = true ↔ c = .kw1 .dunhao := by
  cases h with
  | mark h => simp only [List.mem_cons, List.not_mem_nil, or_false] at h; rcases h with rfl | rfl | rfl <;> simp [Code.id]
  | compare h =>
    simp only [List.mem_cons, List.not_mem_nil, or_false] at h
    rcases h with rfl | rfl | rfl | rfl | rfl | rfl | rfl | rfl <;> simp [Code.id]
  | @loop r => cases r <;> simp [Code.id]
  | @switch r => cases r <;> simp [Code.id]
  | @eval r => cases r <;> simp [Code.id]
  | @jump k => cases k <;> simp [Code.id, JumpKind.kw]
  | _ => simp [Code.id]

theorem split21_sep {l : List Code} (h : AllC l) : split21 l = Spec.sepAt l := by
  have : l.findIdx? (fun c => c.id == .dunhao) = Spec.firstSep l := by
    induction l with
    | nil => rfl
    | cons c cs ih =>
      rw [List.findIdx?_cons, ih fun x hx => h x (List.mem_cons_of_mem _ hx)]
      have hd := id_dun (h c (List.mem_cons_self ..))
      by_cases hc : c = .kw1 .dunhao
      · rw [if_pos (hd.2 hc), hc]; rfl
      · rw [if_neg (fun e => hc (hd.1 e))]
        rw [Spec.firstSep]
        exact hc
  unfold split21 Spec.sepAt
  rw [this]
  rfl

theorem AllC.filter {l : List Code} (h : AllC l) (p : Code → Bool) : AllC (l.filter p) :=
  fun x hx => h x (List.mem_filter.1 hx).1

theorem notes_filter {l : List Code} (h : AllC l) : ∀ x ∈ l.filter (fun i => i.id == .beginRem2), Spec.isNote x = true := by
  intro x hx
  obtain ⟨h1, h2⟩ := List.mem_filter.1 hx
  rw [← id_rem_note (h x h1)]; exact h2

theorem others_filter {l : List Code} (h : AllC l) : ∀ x ∈ l.filter (fun i => i.id != .beginRem2), Spec.isNote x = false := by
  intro x hx
  obtain ⟨h1, h2⟩ := List.mem_filter.1 hx
  rw [id_rem_note' (h x h1)] at h2
  simpa using h2

theorem remNew_complete {a : List Code} (h : AllC a) : Complete (remNew a) := by
  unfold remNew
  split
  · exact .note
  · rename_i hn
    exact .notes (fun s e => hn s e) h

theorem remText_plain {c : Code} {r : Option Str} (h : remText c = some r) : (∃ s, c = .remS s) ∨ ∃ a, c = .rem a := by
  unfold remText at h
  split at h
  · exact .inl ⟨_, rfl⟩
  · exact .inr ⟨_, rfl⟩
  · cases h

/-- When the scan of a name stops, something is neither a text nor a simple annotation. -/
theorem varScan_none {a : List Code} {name : Str} {rems rems' : List Str} (h : varScan a name rems = (none, rems')) :
    ∃ x ∈ a, ∀ s, x ≠ .text s ∧ x ≠ .remS s := by
  induction a generalizing name rems with
  | nil => cases h
  | cons c cs ih =>
    unfold varScan at h
    split at h
    · obtain ⟨x, h1, h2⟩ := ih h
      exact ⟨x, List.mem_cons_of_mem _ h1, h2⟩
    · rename_i e
      refine ⟨c, List.mem_cons_self .., fun s => ⟨fun e' => ?_, fun e' => ?_⟩⟩
      · subst e'; cases e
      · subst e'; cases e
    · rename_i e
      split at h
      · obtain ⟨x, h1, h2⟩ := ih h
        exact ⟨x, List.mem_cons_of_mem _ h1, h2⟩
      · rename_i hn
        refine ⟨c, List.mem_cons_self .., fun s => ⟨fun e' => hn s e', fun e' => ?_⟩⟩
        subst e'; cases e

theorem isNum_iff {s : Str} {i : Int} : parseI32 s = some i ↔ Spec.IsNum 32 s i := by
  rw [C56_read_i32]
  exact ⟨fun h => ⟨h.2.2, h.1, h.2.1⟩, fun h => ⟨h.2.1, h.2.2, h.1⟩⟩

theorem varNew_complete {a : List Code} (h : AllC a) : Complete (varNew a) := by
  unfold varNew
  split
  · rename_i e; exact .var (varScan_none e) h
  · rename_i name rems e
    split
    · exact .args
    · rename_i e1
      split
      · exact .argc
      · rename_i e2
        split
        · rename_i i e3
          have hi : parseI32 (name.drop ARG.length) = some i := by
            unfold argiWith at e3
            split at e3
            · exact e3
            · cases e3
          split
          · rename_i e4; exact .arg0 (isNum_iff.1 (e4 ▸ hi))
          · rename_i e4; exact .argi e4 (isNum_iff.1 hi).2.1 (isNum_iff.1 hi).2.2
        · rename_i e3
          refine .simple ?_ ?_
          · intro hm
            simp only [List.mem_cons, List.not_mem_nil, or_false] at hm
            unfold argsWith at e1
            rcases hm with hm | hm | hm
            · rw [if_pos (.inr hm)] at e1; cases e1
            · rw [if_pos (.inl hm)] at e1; cases e1
            · exact e2 hm
          · intro n i hn hi
            unfold argiWith at e3
            rw [hn] at e3
            have h1 : ARG.isPrefixOf (c!"参数" ++ n) = true := List.isPrefixOf_iff_prefix.2 ⟨n, rfl⟩
            rw [if_pos h1] at e3
            exact nomatch (isNum_iff.2 hi).symm.trans e3

theorem forScan_sub {no : Bool} {l l' : List Code} {idx : Nat} {c c' : Cnt} (h : forScan no l idx c = .ok (c', l')) :
    (∀ x ∈ l', x ∈ l) ∧ (no = true → c.max = none ∧ c.start = none → c'.max = none ∧ c'.start = none) ∧
      (c.name ≠ some [] → c'.name ≠ some []) := by
  induction l generalizing idx c l' with
  | nil => cases h; exact ⟨fun x hx => hx, fun _ h => h, fun h => h⟩
  | cons i is ih =>
    unfold forScan at h
    split at h
    · rename_i r e
      split at h
      · cases h
      · rename_i c1 e1
        obtain ⟨h1, h2, h3⟩ := ih h
        refine ⟨fun x hx => List.mem_cons_of_mem _ (h1 x hx), fun hn hc => h2 hn ?_, fun hc => h3 ?_⟩
        · subst hn
          unfold Cnt.hello at e1
          simp only [Bool.not_true, Bool.false_and, Bool.false_eq_true, if_false] at e1
          split at e1
          · split at e1
            · cases e1
            · cases e1; exact hc
          · cases e1
        · unfold Cnt.hello at e1
          split at e1
          · cases e1; exact hc
          · split at e1
            · cases e1; exact hc
            · split at e1
              · split at e1
                · cases e1
                · rename_i he
                  cases e1
                  intro e'
                  cases e'
                  exact he rfl
              · cases e1
      · rename_i c1 e1
        cases h
        have : c' = c := by
          unfold Cnt.hello at e1
          split at e1
          · cases e1
          · split at e1
            · cases e1
            · split at e1
              · split at e1 <;> cases e1
              · cases e1; rfl
        subst this
        exact ⟨fun x hx => hx, fun _ h => h, fun h => h⟩
    · split at h
      · cases h
      · rename_i c1 rest e1
        cases h
        obtain ⟨h1, h2, h3⟩ := ih e1
        refine ⟨fun x hx => ?_, h2, h3⟩
        rcases List.mem_cons.1 hx with rfl | hx
        · exact List.mem_cons_self ..
        · exact List.mem_cons_of_mem _ (h1 x hx)

theorem forAdd_complete {range : Bool} {a : List Code} {c : Code} (h : AllC a) (he : forAdd range a = .ok c) : Complete c := by
  unfold forAdd at he
  split at he
  · cases he
  · rename_i cnt l e
    cases he
    obtain ⟨h1, h2, h3⟩ := forScan_sub e
    have hl : AllC l := fun x hx => h x (h1 x hx)
    refine .loop (notes_filter hl) (others_filter hl) (fun hr => h2 hr ⟨rfl, rfl⟩) (h3 nofun) (hl.filter _) (hl.filter _)

theorem complete_block {a : List Code} (h : Complete (.block a)) : AllC a := by cases h; assumption

theorem switchAdd_complete {one : Bool} {a : List Code} {c : Code} (h : AllC a) (he : switchAdd one a = .ok c) : Complete c := by
  have hsw : ∃ one' a' case bs d, c = .switch one' a' case bs d := by
    unfold switchAdd at he
    split at he
    · cases he
    · split at he
      · split at he
        · cases he
        · cases he; exact ⟨_, _, _, _, _, rfl⟩
      · cases he
  obtain ⟨one', a', case, bs, d, rfl⟩ := hsw
  obtain ⟨-, h2, h3⟩ := C32_parsed he
  subst h2
  refine .switch ?_ h3 (fun x hx => h x (List.mem_append_left _ hx)) ?_
  · rintro rfl
    unfold switchAdd at he
    simp at he
  · exact complete_block (h _ (List.mem_append_right _ (List.mem_singleton.2 rfl)))

theorem evalScan_sub {l : List Code} {b cur : Bool} {x : Option Code} {l' : List Code} (h : evalScan l b = (cur, x, l')) :
    (∀ y ∈ l', y ∈ l) ∧ ∀ y, x = some y → y ∈ l ∧ y.id = .beginRem2 := by
  induction l generalizing b cur x l' with
  | nil => cases h; exact ⟨fun y hy => hy, nofun⟩
  | cons i is ih =>
    unfold evalScan at h
    split at h
    · rename_i hi
      split at h
      · obtain ⟨h1, h2⟩ := ih h
        exact ⟨fun y hy => List.mem_cons_of_mem _ (h1 y hy), fun y hy => ⟨List.mem_cons_of_mem _ (h2 y hy).1, (h2 y hy).2⟩⟩
      · cases h
        exact ⟨fun y hy => List.mem_cons_of_mem _ hy, fun y hy => by cases hy; exact ⟨List.mem_cons_self .., hi⟩⟩
    · rcases e : evalScan is b with ⟨c1, x1, l1⟩
      rw [e] at h
      cases h
      obtain ⟨h1, h2⟩ := ih e
      refine ⟨fun y hy => ?_, fun y hy => ⟨List.mem_cons_of_mem _ (h2 y hy).1, (h2 y hy).2⟩⟩
      rcases List.mem_cons.1 hy with rfl | hy
      · exact List.mem_cons_self ..
      · exact List.mem_cons_of_mem _ (h1 y hy)

theorem evalAdd_complete {load : Bool} {a : List Code} {c : Code} (h : AllC a) (he : evalAdd load a = .ok c) : Complete c := by
  unfold evalAdd at he
  rcases e : evalScan a false with ⟨cur, x, l⟩
  rw [e] at he
  dsimp only at he
  obtain ⟨h1, h2⟩ := evalScan_sub e
  have hl : AllC l := fun y hy => h y (h1 y hy)
  split at he
  · cases he
  · rename_i hno
    split at he
    · cases he
    · rename_i hne
      cases he
      have hne : l ≠ [] := by rintro rfl; exact hne rfl
      have hpos : 0 < l.length := List.length_pos_iff.2 hne
      refine .eval hne (split21_sep hl) ?_ ?_ ?_ ?_ ?_ ?_ hl
      · rw [decide_eq_true_eq]; omega
      · intro hld
        cases x with
        | none => rfl
        | some y => exact (hno y hld rfl).elim
      · cases x <;> simp
      · intro y hy
        cases x with
        | none => cases hy
        | some z =>
          cases List.mem_singleton.1 hy
          obtain ⟨h3, h4⟩ := h2 _ rfl
          rw [← id_rem_note (h _ h3), h4]; rfl
      · intro s hs
        cases x with
        | none => cases hs
        | some z => cases hs; rfl
      · intro y hy
        cases x with
        | none => cases hy
        | some z => cases List.mem_singleton.1 hy; exact h _ (h2 _ rfl).1

theorem mkCode_complete {id : KwId} {a a2 a3 : List Code} {c : Code} (h : AllC a) (h2 : AllC a2) (h3 : AllC a3)
    (he : mkCode id a a2 a3 = some (.ok c)) : Complete c := by
  have ne : ∀ {e : Err} {c' : Code}, (some (if a.isEmpty = true then Except.error e else Except.ok c') = some (.ok c)) → a ≠ [] ∧ c' = c := by
    intro e c' h
    split at h
    · cases h
    · rename_i hn; cases h; exact ⟨fun e => hn (by rw [e]; rfl), rfl⟩
  cases id <;> simp only [mkCode, reduceCtorEq] at he
  case beginRem2 => cases he; exact remNew_complete h
  case beginVar => cases he; exact varNew_complete h
  case beginBlock => cases he; exact .block h
  case for_ => exact forAdd_complete h (Option.some.inj he)
  case range => exact forAdd_complete h (Option.some.inj he)
  case break_ => cases he; exact .jump h
  case continue_ => cases he; exact .jump h
  case break2 => cases he; exact .jump h
  case continue2 => cases he; exact .jump h
  case return_ => cases he; exact .jump h
  case quit => cases he; exact .jump h
  case if_ => cases he; exact .cond h h2 h3
  case switch => exact switchAdd_complete h (Option.some.inj he)
  case switch2 => exact switchAdd_complete h (Option.some.inj he)
  case guandaodu => obtain ⟨h4, rfl⟩ := ne he; exact .du h4 h
  case guandaojie =>
    split at he
    · cases he
    · rename_i hn
      cases he
      exact .jie (fun e => hn (by rw [e]; rfl)) (notes_filter h) (others_filter h) (h.filter _) (h.filter _)
  case guandaojie2 => obtain ⟨h4, rfl⟩ := ne he; exact .jie2 h4 h
  case mod_ => cases he; exact .mod_ h
  case modFree => cases he; exact .modFree h
  case name => cases he; exact .name h
  case set_ => cases he; exact .set_ h h2
  case «alias» => cases he; exact .alias h h2
  case def_ => obtain ⟨h4, rfl⟩ := ne he; exact .def_ h4 (split21_sep h) h h2
  case has => cases he; exact .has h
  case eval_ => exact evalAdd_complete h (Option.some.inj he)
  case load => exact evalAdd_complete h (Option.some.inj he)
  case print_ => obtain ⟨h4, rfl⟩ := ne he; exact .print h4 h
  case expl => obtain ⟨h4, rfl⟩ := ne he; exact .expl h4 h
  case exec => obtain ⟨h4, rfl⟩ := ne he; exact .exec h4 h

/-! ## The parser -/

theorem PR.bind_ok {α β : Type} {x : PR α} {f : α → PR β} {b : β} (h : (x >>= f) = .ok b) : ∃ a, x = .ok a ∧ f a = .ok b := by
  cases x with
  | ok a => exact ⟨a, rfl, h⟩
  | err e i => cases h
  | panic => cases h
  | fuel => cases h

/-- All items collected so far are complete. -/
structure PS.Whole (s : PS) : Prop where
  c1 : AllC s.c1
  c2 : ∀ l, s.c2 = some l → AllC l
  c3 : ∀ l, s.c3 = some l → AllC l

theorem addCode_whole {c : Code} {s s' : PS} (hc : Complete c) (h : s.Whole) (he : addCode c s = .ok s') : s'.Whole := by
  unfold addCode at he
  split at he
  · split at he
    · rename_i l e
      cases he
      exact ⟨h.c1, fun l' e' => by cases e'; exact (h.c2 l e).snoc hc, h.c3⟩
    · cases he
  · split at he
    · split at he
      · rename_i l e
        cases he
        exact ⟨h.c1, h.c2, fun l' e' => by cases e'; exact (h.c3 l e).snoc hc⟩
      · cases he
    · cases he
      exact ⟨h.c1.snoc hc, h.c2, h.c3⟩

theorem decode_nil {l : List Nat} (h : decode l = some []) : l = [] := by
  cases l with
  | nil => rfl
  | cons b r =>
    exfalso
    rw [decode.eq_def] at h
    dsimp only at h
    revert h
    repeat' split
    all_goals (intro h; first | cases h | (obtain ⟨x, h1, h2⟩ := Option.map_eq_some_iff.1 h; cases h2))

theorem addText_whole {s s' : PS} (h : s.Whole) (he : addText s = .ok s') : s'.Whole := by
  unfold addText at he
  split at he
  · cases he; exact ⟨h.c1, h.c2, h.c3⟩
  · rename_i hn
    split at he
    · cases he
    · rename_i t e
      split at he
      · cases he
      · cases he
      · rename_i c hc
        refine addCode_whole ?_ ?_ he
        rotate_left
        · exact ⟨h.c1, h.c2, h.c3⟩
        unfold textCode at hc
        split at hc
        · cases hc
          refine .word ?_
          rintro rfl
          exact hn (by rw [decode_nil e]; rfl)
        · split at hc
          · cases hc; exact .text
          · cases hc
          · cases hc

theorem inIf_mem {id : KwId} (h : inIf id = true) :
    id ∈ [KwId.dengyu, .xiaoyudengyu, .xiaoyu, .dayudengyu, .dayu, .not_, .and_, .or_] := by
  cases id <;> first | (cases h; done) | decide

theorem addKw_whole {id : KwId} {s s' : PS} (hid : ownKw id = true) (h : s.Whole) (he : addKw id s = .ok s') : s'.Whole := by
  unfold addKw at he
  split at he
  · rename_i hi
    exact addCode_whole (.compare (inIf_mem hi)) h he
  · rename_i hi
    have : id ∈ [KwId.jvhao, .dunhao, .brkpoint] := by
      cases id <;> first | decide | (cases hid; done) | exact (hi rfl).elim
    split at he
    · exact addCode_whole (.mark this) h he
    · exact addCode_whole (.mark this) h he
    · exact addCode_whole (.mark this) h he
    · exact addCode_whole (.mark this) h he
    · exact addCode_whole (.mark this) h he
    · cases he

/-- The state in the answer. -/
def Next.ps : Next → PS
  | .loop s | .brk s | .child s => s

theorem kwRest_whole {id : KwId} {s : PS} {nx : Next} (h : s.Whole) (he : kwRest id s = .ok nx) : nx.ps.Whole := by
  have h0 : (kwRet0 id s).Whole := by unfold kwRet0; split <;> exact ⟨h.c1, h.c2, h.c3⟩
  unfold kwRest at he
  split at he
  · rename_i ho
    obtain ⟨s1, h1, h2⟩ := PR.bind_ok he
    cases h2
    exact addKw_whole ho h0 h1
  · cases he
    unfold kwKind
    split <;> exact h0

theorem kwMain_whole {me : Int} {kw : Option KwId} {ups : List Layer} {id : KwId} {s : PS} {nx : Next} (h : s.Whole)
    (he : kwMain me kw ups id s = .ok nx) : nx.ps.Whole := by
  unfold kwMain at he
  obtain ⟨s1, h1, h2⟩ := PR.bind_ok he
  have hw := addText_whole h h1
  split at h2
  · cases h2; exact hw
  · split at h2
    · have hl : (layerI1 me (⟨me, kw, s1.ret0⟩ :: ups) id s1).1.Whole := by
        unfold layerI1
        dsimp only
        repeat' split
        all_goals exact ⟨hw.c1, hw.c2, hw.c3⟩
      split at h2
      · rename_i s2 e; cases h2; rw [e] at hl; exact hl
      · rename_i s2 e; rw [e] at hl; exact kwRest_whole hl h2
    · exact kwRest_whole hw h2

theorem kwStep_whole {me : Int} {kw : Option KwId} {ups : List Layer} {id : KwId} {s : PS} {nx : Next} (h : s.Whole)
    (he : kwStep me kw ups id s = .ok nx) : nx.ps.Whole := by
  unfold kwStep at he
  dsimp only at he
  split at he
  · cases he; exact ⟨h.c1, h.c2, h.c3⟩
  · split at he
    · obtain ⟨s1, h1, h2⟩ := PR.bind_ok he
      cases h2
      have : s1.Whole := by
        split at h1
        · cases h1; exact ⟨h.c1, h.c2, h.c3⟩
        · (refine addText_whole ?_ h1; exact ⟨h.c1, h.c2, h.c3⟩)
      exact ⟨this.c1, this.c2, this.c3⟩
    · split at he
      · split at he
        · cases he; exact ⟨h.c1, h.c2, h.c3⟩
        · (refine kwMain_whole ?_ he; exact ⟨h.c1, h.c2, h.c3⟩)
      · exact kwMain_whole h he

theorem childState_whole (id : KwId) (s : PS) : (childState id s).Whole := by
  refine ⟨AllC.nil, fun l e => ?_, fun l e => ?_⟩
  · simp only [childState] at e
    split at e
    · cases e; exact AllC.nil
    · cases e
  · simp only [childState] at e
    split at e
    · cases e; exact AllC.nil
    · cases e

theorem getD_allC {o : Option (List Code)} (h : ∀ l, o = some l → AllC l) : AllC (o.getD []) := by
  cases o with
  | none => exact AllC.nil
  | some l => exact h l rfl

theorem afterChild_whole {me : Int} {id : KwId} {s ch : PS} {p : PS × Bool} (h : s.Whole) (hc : ch.Whole)
    (he : afterChild me id s ch = .ok p) : p.1.Whole := by
  unfold afterChild at he
  split at he
  · cases he
  · cases he
  · rename_i c e
    have hcc := mkCode_complete hc.c1 (getD_allC hc.c2) (getD_allC hc.c3) e
    obtain ⟨s1, h1, h2⟩ := PR.bind_ok he
    have hw : s1.Whole := by
      refine addCode_whole hcc ?_ h1
      exact ⟨h.c1, h.c2, h.c3⟩
    split at h2
    · cases h2; exact ⟨hw.c1, hw.c2, hw.c3⟩
    · split at h2
      · cases h2; exact hw
      · obtain ⟨s2, h3, h4⟩ := PR.bind_ok h2
        cases h4
        have : s2.Whole := by
          split at h3
          · rename_i k _
            split at h3
            · rename_i hk
              refine addKw_whole ?_ hw h3
              rcases hk with rfl | hk
              · rfl
              · unfold ownKw; rw [hk, Bool.or_true]
            · split at h3
              · cases h3; exact ⟨hw.c1, hw.c2, hw.c3⟩
              · cases h3; exact ⟨hw.c1, hw.c2, hw.c3⟩
              · cases h3; exact hw
          · cases h3; exact hw
        exact ⟨this.c1, this.c2, this.c3⟩

theorem byteStep_whole {c : Nat} {s s' : PS} (h : s.Whole) (he : byteStep c s = .ok s') : s'.Whole := by
  unfold byteStep at he
  obtain ⟨s1, h1, h2⟩ := PR.bind_ok he
  cases h2
  have : s1.Whole := by
    split at h1
    · unfold keepByte at h1
      obtain ⟨s2, h3, h4⟩ := PR.bind_ok h1
      cases h4
      have : s2.Whole := by
        split at h3
        · (refine addText_whole ?_ h3; exact ⟨h.c1, h.c2, h.c3⟩)
        · cases h3; exact ⟨h.c1, h.c2, h.c3⟩
      exact ⟨this.c1, this.c2, this.c3⟩
    · cases h1; exact h
  exact ⟨this.c1, this.c2, this.c3⟩

theorem pars_whole {a2 : List Nat} {n : Nat} {me : Int} {kw : Option KwId} {ups : List Layer} {s s' : PS} (h : s.Whole)
    (he : pars a2 n me kw ups s = .ok s') : s'.Whole := by
  induction n generalizing me kw ups s s' with
  | zero => cases he
  | succ n ih =>
    unfold pars at he
    split at he
    · exact addText_whole h he
    · split at he
      · rename_i id m _
        obtain ⟨nx, h1, h2⟩ := PR.bind_ok he
        have hw := kwStep_whole (s := { s with i := s.i + m }) ⟨h.c1, h.c2, h.c3⟩ h1
        cases nx with
        | loop s1 => exact ih hw h2
        | brk s1 => exact addText_whole hw h2
        | child s1 =>
          obtain ⟨ch, h3, h4⟩ := PR.bind_ok h2
          obtain ⟨p, h5, h6⟩ := PR.bind_ok h4
          have hp := afterChild_whole hw (ih (childState_whole id s1) h3) h5
          split at h6
          · exact ih hp h6
          · exact addText_whole hp h6
      · obtain ⟨s1, h1, h2⟩ := PR.bind_ok he
        exact ih (byteStep_whole h h1) h2

/-- **C77.** Every text that is a program is one made of complete statements only. -/
theorem C77_parsed {src : Str} {l : List Code} (h : parse src = .ok (.ok l)) : ∀ x ∈ l, Complete x := by
  unfold parse parseBytes at h
  split at h
  · rename_i s e
    cases h
    exact (pars_whole (s := PS.init) ⟨AllC.nil, (fun l h => nomatch h), (fun l h => nomatch h)⟩ e).c1
  · cases h
  · cases h
  · cases h

end Zh
