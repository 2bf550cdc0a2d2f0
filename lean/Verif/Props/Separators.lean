import Verif.Props.Calls
/-!
# C62: arguments between separators

`定义加、甲、和【隔】、乙` is called by `加1和2`.
-/
namespace Zh

variable {H : Host}

/-! ## Specification -/

/-- The text before and after the first occurrence of `g`. -/
def Spec.cutAt (g : Str) : Str → Option (Str × Str)
  | [] => none
  | c :: t => if g <+: c :: t then some ([], (c :: t).drop g.length)
    else (cutAt g t).map fun (u, v) => (c :: u, v)

/-- A text cut at the first separator, what follows at the second, and so on, as long as they are found: the pieces, the
text after the last separator found, and the separators that are left. -/
def Spec.cuts : List Str → Str → List Str × Str × List Str
  | [], t => ([], t, [])
  | g :: gs, t => match cutAt g t with
    | none => ([], t, g :: gs)
    | some (u, v) => (u :: (cuts gs v).1, (cuts gs v).2)

/-- A piece of text in a sentence. -/
def Spec.piece (u : Str) : List Code := if u = [] then [] else [.undef u]

/-- The arguments written in a word: the pieces, each followed by `、`, and the rest. -/
def Spec.asArgs (ps : List Str) (r : Str) : List Code :=
  ps.flatMap (fun u => piece u ++ [Code.kw1 .dunhao]) ++ piece r

/-- The arguments in the items that follow the word, with the separators that are still to come: everything up to `。`, or up
to `、` after the last separator; the number of items taken.  `none` if a separator is missing. -/
def Spec.following : List Str → List Code → Option (List Code × Nat)
  | gs, [] => if gs = [] then some ([], 0) else none
  | gs, c :: rest =>
    if c.id = .jvhao then if gs = [] then some ([], 0) else none
    else if c.id = .dunhao then if gs = [] then some ([], 0) else none
    else if c.id = .undef ∧ (cuts gs c.s2).1 ≠ [] then
      (following (cuts gs c.s2).2.2 rest).map fun (l, n) => (asArgs (cuts gs c.s2).1 (cuts gs c.s2).2.1 ++ l, n + 1)
    else (following gs rest).map fun (l, n) => (c :: l, n + 1)

/-- The arguments of a definition with the separators `gs`, when its name is followed by the text `v` in its word and by the
items `rest` after it. -/
def Spec.between (gs : List Str) (v : Str) (rest : List Code) : Option (List Code × Nat) :=
  (following (cuts gs v).2.2 rest).map fun (l, n) => (asArgs (cuts gs v).1 (cuts gs v).2.1 ++ l, n)

/-- The names of a definition are arguments with separators between them. -/
inductive Spec.Alternates : List ArgName → List Str → Prop where
  | last {n} : n.ge = false → Alternates [n] []
  | sep {n g ns gs} : n.ge = false → g.ge = true → g.s ≠ [] → Alternates ns gs → Alternates (n :: g :: ns) (g.s :: gs)

/-! ## Cutting -/

theorem cutAt_some {g t u v : Str} (h : Spec.cutAt g t = some (u, v)) : t = u ++ (g ++ v) ∧
    ∀ u1 v1, t = u1 ++ (g ++ v1) → g ≠ [] → u.length ≤ u1.length := by
  induction t generalizing u with
  | nil => cases h
  | cons c t ih =>
    unfold Spec.cutAt at h
    split at h
    · rename_i hp
      cases h
      obtain ⟨r, hr⟩ := hp
      refine ⟨by rw [← hr]; simp, fun _ _ _ _ => Nat.zero_le _⟩
    · rename_i hp
      obtain ⟨⟨u', v'⟩, h1, h2⟩ := Option.map_eq_some_iff.1 h
      cases h2
      obtain ⟨h3, h4⟩ := ih h1
      refine ⟨by rw [h3]; rfl, ?_⟩
      intro u1 v1 e hg
      cases u1 with
      | nil => exact absurd ⟨v1, e.symm⟩ hp
      | cons c' u1 =>
        simp only [List.cons_append, List.cons.injEq] at e
        have := h4 u1 v1 e.2 hg
        simp only [List.length_cons]
        omega

theorem cutAt_none {g t : Str} (h : Spec.cutAt g t = none) (hg : g ≠ []) (u v : Str) : t ≠ u ++ (g ++ v) := by
  intro e
  induction t generalizing u with
  | nil =>
    have := (List.append_eq_nil_iff.1 e.symm).2
    exact hg (List.append_eq_nil_iff.1 this).1
  | cons c t ih =>
    unfold Spec.cutAt at h
    split at h
    · cases h
    · rename_i hp
      have h1 := Option.map_eq_none_iff.1 h
      cases u with
      | nil => exact hp ⟨v, e.symm⟩
      | cons c' u =>
        simp only [List.cons_append, List.cons.injEq] at e
        exact ih h1 u e.2

/-- The pieces and the separators between them are the text. -/
theorem C62_pieces (gs : List Str) (t : Str) :
    ∃ found, gs = found ++ (Spec.cuts gs t).2.2 ∧ (Spec.cuts gs t).1.length = found.length ∧
      t = ((Spec.cuts gs t).1.zip found).flatMap (fun x => x.1 ++ x.2) ++ (Spec.cuts gs t).2.1 := by
  induction gs generalizing t with
  | nil => exact ⟨[], rfl, rfl, rfl⟩
  | cons g gs ih =>
    unfold Spec.cuts
    cases hc : Spec.cutAt g t with
    | none => exact ⟨[], rfl, rfl, rfl⟩
    | some x =>
      obtain ⟨u, v⟩ := x
      obtain ⟨found, h1, h2, h3⟩ := ih v
      refine ⟨g :: found, by rw [List.cons_append, ← h1], by simp [h2], ?_⟩
      rw [(cutAt_some hc).1]
      dsimp only
      rw [List.zip_cons_cons, List.flatMap_cons, List.append_assoc, List.append_assoc, ← h3]

theorem cuts_drop (gs : List Str) (t : Str) : gs.drop (Spec.cuts gs t).1.length = (Spec.cuts gs t).2.2 ∧
    (Spec.cuts gs t).1.length ≤ gs.length := by
  induction gs generalizing t with
  | nil => exact ⟨rfl, Nat.le_refl _⟩
  | cons g gs ih =>
    unfold Spec.cuts
    cases Spec.cutAt g t with
    | none => exact ⟨rfl, Nat.zero_le _⟩
    | some x => exact ⟨(ih x.2).1, Nat.succ_le_succ (ih x.2).2⟩

theorem findSep_cut {cs g : Str} (hg : g ≠ []) : ∀ (n from_ : Nat), from_ ≤ cs.length → cs.length ≤ from_ + n →
    findSep cs g from_ n = (Spec.cutAt g (cs.drop from_)).map fun (u, _) => (from_ + u.length, g.length) := by
  intro n
  induction n with
  | zero =>
    intro from_ h1 h2
    rw [List.drop_eq_nil_of_le (by omega)]
    rfl
  | succ n ih =>
    intro from_ h1 h2
    unfold findSep
    obtain ⟨hs, hn⟩ := C10_prefix_match cs g from_ h1
    rcases Nat.lt_or_ge from_ cs.length with hlt | hge
    · rw [List.drop_eq_getElem_cons hlt] at hs hn ⊢
      unfold Spec.cutAt
      split
      · rename_i len e hw
        obtain ⟨hp, rfl, -⟩ := (hs _ _).1 hw
        rw [if_pos hp]
        simp
      · rename_i hw
        rw [if_neg (hn.1 hw), ih (from_ + 1) hlt (by omega)]
        cases Spec.cutAt g (cs.drop (from_ + 1)) with
        | none => rfl
        | some x =>
          simp only [Option.map_some, List.length_cons, Option.some.injEq, Prod.mk.injEq, and_true]
          omega
    · have hnil := List.drop_eq_nil_of_le hge
      rw [hnil] at hn ⊢
      rw [hn.2 (fun h => hg (List.prefix_nil.1 h))]
      dsimp only [Spec.cutAt, Option.map_none]
      have : ∀ n i, cs.length < i → findSep cs g i n = none := by
        intro n
        induction n with
        | zero => intro i _; rfl
        | succ n ih =>
          intro i hi
          unfold findSep withAt
          rw [if_neg (by omega), if_neg (by simpa using hg)]
          exact ih _ (by omega)
      exact this _ _ (by omega)

/-! ## The names -/

theorem alternates {ns : List ArgName} {gs : List Str} (h : Spec.Alternates ns gs) :
    ns.length = 2 * gs.length + 1 ∧ (∃ n, ns[0]? = some n ∧ n.ge = false) ∧
      ∀ k g, gs[k]? = some g → g ≠ [] ∧ ∃ n, ns[2 * k + 1]? = some n ∧ n.ge = true ∧ n.s = g := by
  induction h with
  | last h => exact ⟨rfl, ⟨_, rfl, h⟩, fun k g h => by simp at h⟩
  | @sep n g ns gs h1 h2 h3 _ ih =>
    refine ⟨by simp [ih.1]; omega, ⟨_, rfl, h1⟩, ?_⟩
    intro k g' hk
    cases k with
    | zero => cases hk; exact ⟨h3, g, rfl, h2, rfl⟩
    | succ k =>
      have := ih.2.2 k g' (by simpa using hk)
      have e : 2 * (k + 1) + 1 = (2 * k + 1) + 1 + 1 := by omega
      rw [e]
      simpa using this

/-- The search for the separator that comes next. -/
theorem sepAt_cut {ns : List ArgName} {gs gs' : List Str} {g : Str} {k end2 from_ : Nat} {cs : Str} {plus : Bool}
    (h : Spec.Alternates ns gs) (hk : gs.drop k = g :: gs') (hf : from_ ≤ cs.length) (he : cs.length ≤ end2) :
    sepAt ns end2 cs from_ (2 * k + 1) plus = match Spec.cutAt g (cs.drop from_) with
      | some (u, _) => (some (from_ + u.length, g.length), 2 * (k + 1) + 1)
      | none => (if plus then some (0, 0) else none, 2 * k + 1) := by
  obtain ⟨-, -, h3⟩ := alternates h
  have hg : gs[k]? = some g := by
    have : (gs.drop k)[0]? = some g := by rw [hk]; rfl
    simpa using this
  obtain ⟨hne, n, hn, hge, rfl⟩ := h3 k g hg
  unfold sepAt
  rw [hn]
  dsimp only
  rw [if_pos hge, findSep_cut hne _ _ hf (by omega)]
  cases Spec.cutAt n.s (cs.drop from_) with
  | none => rfl
  | some x => rfl

theorem sepAt_cut_none {ns : List ArgName} {gs : List Str} {k end2 from_ : Nat} {cs : Str} {plus : Bool}
    (h : Spec.Alternates ns gs) (hk : k = gs.length) : sepAt ns end2 cs from_ (2 * k + 1) plus = (none, 2 * k + 1) := by
  obtain ⟨h1, -⟩ := alternates h
  unfold sepAt
  rw [List.getElem?_eq_none (by omega)]

/-! ## The pieces -/

theorem dunhao3_piece {cs u g v : Str} {i : Nat} (h : cs.drop i = u ++ (g ++ v)) (hg : g ≠ []) :
    dunhao3 i (i + u.length) cs.length cs = .ok (Spec.piece u ++ [Code.kw1 .dunhao]) := by
  have hl := congrArg List.length h
  have hp : 0 < g.length := List.length_pos_iff.2 hg
  simp only [List.length_drop, List.length_append] at hl
  unfold dunhao3
  rw [if_neg (by omega), if_pos (show i + u.length < cs.length by omega)]
  unfold Spec.piece
  by_cases hu : u = []
  · subst hu; simp
  · have : 0 < u.length := List.length_pos_iff.2 hu
    rw [if_pos (by omega), if_neg hu, List.drop_take, h]
    simp

theorem dunhao3_rest {cs : Str} {i : Nat} (hi : i ≤ cs.length) :
    dunhao3 i cs.length cs.length cs = .ok (Spec.piece (cs.drop i)) := by
  unfold dunhao3
  rw [if_neg (by omega), if_neg (Nat.lt_irrefl _)]
  unfold Spec.piece
  by_cases hu : cs.length > i
  · rw [if_pos hu, if_neg (by simp; omega)]
    simp
  · rw [if_neg hu, if_pos (by simp; omega)]
    simp

/-- The word of the definition itself. -/
theorem sparg1_cuts {ns : List ArgName} {gs : List Str} {cs : Str} (h : Spec.Alternates ns gs) :
    ∀ (left : List Str) (fuel k i : Nat) (a2 : List Code), gs.drop k = left → k ≤ gs.length → i ≤ cs.length → left.length < fuel →
      sparg1 ns 0 cs.length cs cs fuel i (2 * k + 1) a2 =
        .ok (2 * (k + (Spec.cuts left (cs.drop i)).1.length) + 1,
          a2 ++ ((Spec.cuts left (cs.drop i)).1.flatMap (fun u => Spec.piece u ++ [Code.kw1 .dunhao]) ++
            if (Spec.cuts left (cs.drop i)).2.2 = [] then Spec.piece (Spec.cuts left (cs.drop i)).2.1 else [])) := by
  intro left
  induction left with
  | nil =>
    intro fuel k i a2 hk hk2 hi hfuel
    have hk' : k = gs.length := by
      have := congrArg List.length hk
      simp only [List.length_drop, List.length_nil] at this
      omega
    cases fuel with
    | zero => omega
    | succ fuel =>
      unfold sparg1
      rw [sepAt_cut_none h hk']
      dsimp only
      rw [if_neg (by omega)]
      split
      · rw [dunhao3_rest hi]
        simp [Spec.cuts]
      · rename_i hge
        simp [Spec.cuts, Spec.piece]
        omega
  | cons g left ih =>
    intro fuel k i a2 hk hk2 hi hfuel
    have hg : g ≠ [] := ((alternates h).2.2 k g (by
      have : (gs.drop k)[0]? = some g := by rw [hk]; rfl
      simpa using this)).1
    cases fuel with
    | zero => omega
    | succ fuel =>
      unfold sparg1
      rw [sepAt_cut h hk hi (Nat.le_refl _)]
      unfold Spec.cuts
      cases hc : Spec.cutAt g (cs.drop i) with
      | none => simp
      | some x =>
        obtain ⟨u, v⟩ := x
        have hcut := (cutAt_some hc).1
        have hv : v = cs.drop (i + u.length + g.length) := by
          rw [← List.drop_drop, ← drop_split hcut, List.drop_left]
        have hlen := congrArg List.length hcut
        simp only [List.length_drop, List.length_append] at hlen
        dsimp only
        rw [if_neg (by simpa using hg), dunhao3_piece hcut hg]
        dsimp only
        rw [ih fuel (k + 1) (i + u.length + g.length) _ (by rw [← List.drop_drop, hk]; rfl) (by
            have := congrArg List.length hk
            simp only [List.length_drop, List.length_cons] at this
            omega) (by omega) (by simp only [List.length_cons] at hfuel; omega), ← hv]
        simp only [List.length_cons, List.flatMap_cons, List.append_assoc, Out.ok.injEq, Prod.mk.injEq, and_true]
        omega

/-- A word after that of the definition. -/
theorem spargWord_cuts {ns : List ArgName} {gs : List Str} {cs : Str} {end2 : Nat} (h : Spec.Alternates ns gs)
    (he : cs.length ≤ end2) :
    ∀ (left : List Str) (fuel k i : Nat) (a2 : List Code), gs.drop k = left → k ≤ gs.length → i ≤ cs.length → left.length < fuel →
      ∃ j, i ≤ j ∧ j ≤ cs.length ∧ cs.drop j = (Spec.cuts left (cs.drop i)).2.1 ∧
        (i < j ↔ (Spec.cuts left (cs.drop i)).1 ≠ []) ∧
        spargWord ns end2 cs fuel i (2 * k + 1) a2 = .ok (j, 2 * (k + (Spec.cuts left (cs.drop i)).1.length) + 1,
          a2 ++ (Spec.cuts left (cs.drop i)).1.flatMap (fun u => Spec.piece u ++ [Code.kw1 .dunhao])) := by
  intro left
  induction left with
  | nil =>
    intro fuel k i a2 hk hk2 hi hfuel
    have hk' : k = gs.length := by
      have := congrArg List.length hk
      simp only [List.length_drop, List.length_nil] at this
      omega
    cases fuel with
    | zero => omega
    | succ fuel =>
      unfold spargWord
      rw [sepAt_cut_none h hk']
      exact ⟨i, Nat.le_refl _, hi, rfl, by simp [Spec.cuts], by simp [Spec.cuts]⟩
  | cons g left ih =>
    intro fuel k i a2 hk hk2 hi hfuel
    have hg : g ≠ [] := ((alternates h).2.2 k g (by
      have : (gs.drop k)[0]? = some g := by rw [hk]; rfl
      simpa using this)).1
    cases fuel with
    | zero => omega
    | succ fuel =>
      unfold spargWord
      rw [sepAt_cut h hk hi he]
      unfold Spec.cuts
      cases hc : Spec.cutAt g (cs.drop i) with
      | none => exact ⟨i, Nat.le_refl _, hi, rfl, by simp, by simp⟩
      | some x =>
        obtain ⟨u, v⟩ := x
        have hcut := (cutAt_some hc).1
        have hv : v = cs.drop (i + u.length + g.length) := by
          rw [← List.drop_drop, ← drop_split hcut, List.drop_left]
        have hlen := congrArg List.length hcut
        have hpos : 0 < g.length := List.length_pos_iff.2 hg
        simp only [List.length_drop, List.length_append] at hlen
        dsimp only
        rw [dunhao3_piece hcut hg]
        dsimp only
        obtain ⟨j, h1, h2, h3, h4, h5⟩ := ih fuel (k + 1) (i + u.length + g.length)
          (a2 ++ (Spec.piece u ++ [Code.kw1 .dunhao])) (by rw [← List.drop_drop, hk]; rfl) (by
            have := congrArg List.length hk
            simp only [List.length_drop, List.length_cons] at this
            omega) (by omega) (by simp only [List.length_cons] at hfuel; omega)
        rw [← hv] at h3 h4 h5
        refine ⟨j, by omega, h2, h3, by simp; omega, ?_⟩
        rw [h5]
        simp only [List.length_cons, List.flatMap_cons, List.append_assoc, Out.ok.injEq, Prod.mk.injEq, true_and, and_true]
        omega

theorem spargWord_nil {ns : List ArgName} {gs : List Str} {cs : Str} {end2 fuel : Nat} {a2 : List Code} (h : Spec.Alternates ns gs) :
    spargWord ns end2 cs (fuel + 1) 0 (2 * gs.length + 1) a2 = .ok (0, 2 * gs.length + 1, a2) := by
  unfold spargWord
  rw [sepAt_cut_none h rfl]

/-- The decision after the loop over the items. -/
def spargEnd (n : Nat) : Out (Option (Nat × Nat × List Code)) → Out (Option (List Code × Nat))
  | .ok (some (idx, i, a2)) => if i < n then .ok none else .ok (some (a2, idx))
  | .ok none => .ok none
  | .panic => .panic
  | .fuel => .fuel

theorem sparg2_following {ns : List ArgName} {gs : List Str} {end2 : Nat} (h : Spec.Alternates ns gs) :
    ∀ (rest : List Code) (k idx : Nat) (left : List Str) (a2 : List Code), gs.drop k = left → k ≤ gs.length →
      (left = [] ∨ ∀ c ∈ rest.takeWhile (fun c => c.id ≠ .jvhao), c.id = .undef → c.s2.length ≤ end2) →
      spargEnd ns.length (sparg2 ns end2 rest idx (2 * k + 1) a2) =
        .ok ((Spec.following left rest).map fun (l, n) => (a2 ++ l, idx + n)) := by
  obtain ⟨hlen, -, hsep⟩ := alternates h
  have hnil : ∀ {k left}, gs.drop k = left → k ≤ gs.length → (left = [] ↔ k = gs.length) := by
    intro k left hk hk2
    have := congrArg List.length hk
    simp only [List.length_drop] at this
    rw [← List.length_eq_zero_iff]
    omega
  have stop : ∀ {k left idx a2}, gs.drop k = left → k ≤ gs.length →
      spargEnd ns.length (.ok (some (idx, 2 * k + 1, a2))) =
        .ok ((if left = [] then some (([] : List Code), 0) else none).map fun (l, n) => (a2 ++ l, idx + n)) := by
    intro k left idx a2 hk hk2
    dsimp only [spargEnd]
    by_cases hl : left = []
    · have := (hnil hk hk2).1 hl
      rw [if_neg (by omega), if_pos hl]
      simp
    · have : k ≠ gs.length := fun e => hl ((hnil hk hk2).2 e)
      rw [if_pos (by omega), if_neg hl]
      rfl
  intro rest
  induction rest with
  | nil =>
    intro k idx left a2 hk hk2 _
    unfold sparg2 Spec.following
    exact stop hk hk2
  | cons c rest ih =>
    intro k idx left a2 hk hk2 hw
    unfold sparg2 Spec.following
    by_cases hj : c.id = .jvhao
    · rw [if_pos hj, hj]
      exact stop hk hk2
    rw [if_neg hj]
    have hw' : ∀ {left' : List Str}, (left = [] → left' = []) → left' = [] ∨ ∀ c ∈ rest.takeWhile (fun c => c.id ≠ .jvhao), c.id = .undef → c.s2.length ≤ end2 := by
      intro left' himp
      rcases hw with h | h
      · exact .inl (himp h)
      · refine .inr fun c' hc' => h c' ?_
        rw [List.takeWhile_cons, if_pos (by simpa using hj)]
        exact List.mem_cons_of_mem _ hc'
    by_cases hd : c.id = .dunhao
    · rw [if_pos hd, hd]
      dsimp only
      by_cases hl : left = []
      · have := (hnil hk hk2).1 hl
        rw [List.getElem?_eq_none (by omega)]
        exact stop hk hk2
      · rw [if_neg hl]
        cases hleft : left with
        | nil => exact absurd hleft hl
        | cons g left' =>
          obtain ⟨-, n, hn, hge, -⟩ := hsep k g (by
            have : (gs.drop k)[0]? = some g := by rw [hk, hleft]; rfl
            simpa using this)
          rw [hn]
          dsimp only
          rw [if_pos hge]
          rfl
    rw [if_neg hd]
    by_cases hu : c.id = .undef
    · rw [hu]
      dsimp only
      by_cases hl : left = []
      · obtain rfl := (hnil hk hk2).1 hl
        rw [spargWord_nil h]
        dsimp only
        rw [if_neg (Nat.lt_irrefl 0), if_neg (by rw [hl]; simp [Spec.cuts]), ih _ _ left _ hk hk2 (.inl hl)]
        cases Spec.following left rest with
        | none => rfl
        | some x => simp only [Option.map_some, List.append_assoc, List.singleton_append, Out.ok.injEq, Option.some.injEq,
            Prod.mk.injEq, true_and]; omega
      · have hcl : c.s2.length ≤ end2 := by
          rcases hw with h | h
          · exact absurd h hl
          · exact h c (by rw [List.takeWhile_cons, if_pos (by simpa using hj)]; exact List.mem_cons_self ..) hu
        obtain ⟨j, -, h2, h3, h4, h5⟩ := spargWord_cuts (cs := c.s2) h hcl left (ns.length + 1) k 0 a2 hk hk2 (Nat.zero_le _) (by
          have := congrArg List.length hk
          simp only [List.length_drop] at this
          omega)
        rw [List.drop_zero] at h3 h4 h5
        rw [h5]
        dsimp only
        have hdrop : gs.drop (k + (Spec.cuts left c.s2).1.length) = (Spec.cuts left c.s2).2.2 := by
          rw [← List.drop_drop, hk]
          exact (cuts_drop left c.s2).1
        have hle : k + (Spec.cuts left c.s2).1.length ≤ gs.length := by
          have e1 := congrArg List.length hk
          have e2 := (cuts_drop left c.s2).2
          simp only [List.length_drop] at e1
          omega
        by_cases hp : (Spec.cuts left c.s2).1 ≠ []
        · rw [if_pos (h4.2 hp), dunhao3_rest h2, h3, if_pos ⟨rfl, hp⟩]
          dsimp only
          rw [ih _ _ _ _ hdrop hle (hw' fun e => absurd e hl)]
          cases Spec.following (Spec.cuts left c.s2).2.2 rest with
          | none => rfl
          | some x => simp only [Option.map_some, Spec.asArgs, List.append_assoc, Out.ok.injEq, Option.some.injEq,
              Prod.mk.injEq, true_and]; omega
        · rw [if_neg (fun e => hp (h4.1 e)), if_neg (fun e => hp e.2)]
          have hp : (Spec.cuts left c.s2).1 = [] := Decidable.byContradiction hp
          rw [hp]
          simp only [List.length_nil, Nat.add_zero, List.flatMap_nil, List.append_nil]
          rw [ih _ _ left _ hk hk2 (hw' id)]
          cases Spec.following left rest with
          | none => rfl
          | some x => simp only [Option.map_some, List.append_assoc, List.singleton_append, Out.ok.injEq, Option.some.injEq,
              Prod.mk.injEq, true_and]; omega
    · rw [if_neg (fun e => hu e.1)]
      split
      · contradiction
      · contradiction
      · contradiction
      rw [ih _ _ left _ hk hk2 (hw' id)]
      cases Spec.following left rest with
      | none => rfl
      | some x => simp only [Option.map_some, List.append_assoc, List.singleton_append, Out.ok.injEq, Option.some.injEq,
          Prod.mk.injEq, true_and]; omega

/-- **C62** A definition whose arguments have separators between them, called in the word `w` in which its name is followed
by `v`: it is applied iff all separators are found, one after the other, in `v` and the words that follow up to the end of
the sentence, and its arguments are what stands between them. -/
theorem C62_separators_partial {d : Def} {gs : List Str} {a : List Code} {w v : Str} {end_ i : Nat}
    (hge : d.names.hasGe = true) (hb : d.backarg = 0) (h : Spec.Alternates d.names.a gs) (hw : a[i]? = some (.undef w)) (hv : v <:+ w)
    (hr : (Spec.cuts gs v).2.2 = [] ∨ (Spec.cuts gs v).2.1 = [] ∧
      ∀ c ∈ ((a.take end_).drop (i + 1)).takeWhile (fun c => c.id ≠ .jvhao), c.id = .undef → c.s2.length ≤ w.length) :
    sparg d a w w.length end_ i (w.length - v.length) =
      .ok ((Spec.between gs v ((a.take end_).drop (i + 1))).map fun (l, n) => (l, i + 1 + n)) := by
  have hd : w.drop (w.length - v.length) = v := by
    obtain ⟨u, rfl⟩ := hv
    simp
  obtain ⟨hlen, ⟨n0, hn0, hg0⟩, -⟩ := alternates h
  unfold sparg
  rw [if_pos hge, hw, hb]
  dsimp only [Code.s2]
  have h1 : sparg1 d.names.a 0 w.length w w (d.names.a.length + 0 + 2) (w.length - v.length) 0 [] =
      sparg1 d.names.a 0 w.length w w (d.names.a.length + 0 + 1) (w.length - v.length) 1 [] := by
    conv => lhs; unfold sparg1
    unfold sepAt
    rw [hn0]
    simp only [hg0]
    rw [if_neg (by simp)]
    rfl
  rw [h1, sparg1_cuts h gs _ 0 _ _ (List.drop_zero) (Nat.zero_le _) (by omega) (by omega), hd]
  dsimp only
  rw [Nat.zero_add, List.nil_append]
  obtain ⟨hdrop, hle⟩ := cuts_drop gs v
  have hpiece : (if (Spec.cuts gs v).2.2 = [] then Spec.piece (Spec.cuts gs v).2.1 else []) = Spec.piece (Spec.cuts gs v).2.1 := by
    split
    · rfl
    · rename_i hne
      rcases hr with h | ⟨h, -⟩
      · exact absurd h hne
      · rw [h]; rfl
  rw [hpiece]
  have := sparg2_following h ((a.take end_).drop (i + 1)) (Spec.cuts gs v).1.length (i + 1) _
    ((Spec.cuts gs v).1.flatMap (fun u => Spec.piece u ++ [Code.kw1 .dunhao]) ++ Spec.piece (Spec.cuts gs v).2.1) hdrop hle
    (hr.imp id And.right)
  unfold Spec.between
  rw [Option.map_map]
  exact this

/-- The names of `定义加、甲、和【隔】、乙` are of this kind, and what follows in `加1和2‘它’。` meets the hypotheses. -/
theorem C62_hypotheses :
    let names := [ArgName.mk c!"甲" 0 false false, ⟨c!"和", 0, true, false⟩, ⟨c!"乙", 1, false, false⟩]
    Spec.Alternates names [c!"和"] ∧ (Spec.cuts [c!"和"] c!"1和2") = ([c!"1"], c!"2", []) ∧
      Spec.between [c!"和"] c!"1和2" [.simp c!"它" [], .kw1 .jvhao] =
        some ([.undef c!"1", .kw1 .dunhao, .undef c!"2", .simp c!"它" []], 1) :=
  ⟨.sep rfl rfl (by decide) (.last rfl), by decide, rfl⟩

/-- What a script sees: separators in the word itself, in a later word, at the end of a word; arguments that are names; a
sentence without the separator is no call. -/
theorem C62_example :
    let pre := c!"赋予它以7。定义加、甲、和【隔】、乙以下代码显示‘甲’。显示‘乙’。上代码。"
    demo 80 (pre ++ c!"加1和3。") = (.ok (.ok ()), [.out c!"1", .out c!"3"]) ∧
    demo 80 (pre ++ c!"加‘它’和3。") = (.ok (.ok ()), [.out c!"7", .out c!"3"]) ∧
    demo 80 (pre ++ c!"加1和‘它’4。") = (.ok (.ok ()), [.out c!"1", .out c!"74"]) ∧
    demo 80 (pre ++ c!"加1、2和3。显示5。") = (.ok (.ok ()), [.out c!"5"]) := by
  decide +kernel

/-- Found: text between the name and the end of its word is lost when the separator comes later in the sentence: the first
argument here is `7` and not `17`. -/
theorem C62_lost_counterexample :
    demo 80 c!"赋予它以7。定义加、甲、和【隔】、乙以下代码显示‘甲’。显示‘乙’。上代码。加1‘它’和3。" =
      (.ok (.ok ()), [.out c!"7", .out c!"3"]) := by
  decide +kernel

/-- Found: later words are searched only up to the length of the first one: the definition is not called here, although the
separator is there. -/
theorem C62_window_counterexample :
    demo 80 c!"赋予它以7。定义加、甲、和【隔】、乙以下代码显示‘甲’。显示‘乙’。上代码。加‘它’23和3。显示5。" =
      (.ok (.ok ()), [.out c!"5"]) := by
  decide +kernel

end Zh
