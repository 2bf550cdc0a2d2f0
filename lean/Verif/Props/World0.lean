import Verif.Model.Jump
import Mathlib.Data.List.Induction
/-!
# C21, C35, C37: parse cache, exit status, include path
-/
namespace Zh

/-! ## C21 -/

section
variable {α : Type} (hash : Str → Nat) (pars : Str → Out (Except Err α))

/-- A cache reached by a history of cached parses. -/
inductive Spec.Reach : Cache α → Prop where
  | nil : Reach []
  | step {c c' : Cache α} {src : Str} {r : Except Err α} :
      Reach c → codesCache hash pars c src = .ok (r, c') → Reach c'

theorem reach_sound {c : Cache α} (h : Spec.Reach hash pars c) :
    ∀ e ∈ c, ∃ src, hash src = e.1 ∧ pars src = .ok (.ok e.2) := by
  induction h with
  | nil => intro e he; cases he
  | @step c c' src r _ hs ih =>
    unfold codesCache at hs
    cases hg : c.get hash src with
    | some codes => rw [hg] at hs; cases hs; exact ih
    | none =>
      rw [hg] at hs
      cases hp : pars src with
      | panic => rw [hp] at hs; cases hs
      | fuel => rw [hp] at hs; cases hs
      | ok q =>
        cases q with
        | error e => rw [hp] at hs; cases hs; exact ih
        | ok codes =>
          rw [hp] at hs
          simp only [Cache.get, Cache.set, List.find?_cons, decide_true, Option.map_some] at hs
          cases hs
          intro e he
          rcases List.mem_cons.1 he with rfl | he
          · exact ⟨src, rfl, hp⟩
          · exact ih e he

/-- **C21.** After any history of cached parses, if no other source has the hash of `src`, asking the
cache for `src` answers exactly what parsing `src` afresh answers (program, error, crash or
divergence alike). -/
theorem C21_cache_transparent (c : Cache α) (h : Spec.Reach hash pars c) (src : Str)
    (inj : ∀ s, hash s = hash src → s = src) :
    (∀ r, pars src = .ok r ↔ ∃ c', codesCache hash pars c src = .ok (r, c')) ∧
    (pars src = .panic ↔ codesCache hash pars c src = .panic) ∧
    (pars src = .fuel ↔ codesCache hash pars c src = .fuel) := by
  unfold codesCache
  cases hg : c.get hash src with
  | some codes =>
    unfold Cache.get at hg
    obtain ⟨e, he, rfl⟩ := Option.map_eq_some_iff.1 hg
    obtain ⟨s, h1, h2⟩ := reach_sound hash pars h e (List.mem_of_find?_eq_some he)
    have h3 := List.find?_some he
    simp only [decide_eq_true_eq] at h3
    have := inj s (h1.trans h3)
    subst this
    simp [h2]
  | none =>
    cases hp : pars src with
    | panic => simp
    | fuel => simp
    | ok q =>
      cases q with
      | error e => simp
      | ok codes => simp [Cache.get, Cache.set]

/-- **C21.** The parser runs at most once per source: after a successful cached parse the same source
is answered from the cache. -/
theorem C21_parsed_once (c c' : Cache α) (src : Str) (codes : α)
    (h : codesCache hash pars c src = .ok (.ok codes, c')) (pars' : Str → Out (Except Err α)) :
    codesCache hash pars' c' src = .ok (.ok codes, c') := by
  unfold codesCache at h
  cases hg : c.get hash src with
  | some d =>
    rw [hg] at h; cases h
    simp [codesCache, hg]
  | none =>
    rw [hg] at h
    cases hp : pars src with
    | panic => rw [hp] at h; cases h
    | fuel => rw [hp] at h; cases h
    | ok q =>
      cases q with
      | error e => rw [hp] at h; cases h
      | ok d =>
        rw [hp] at h
        simp only [Cache.get, Cache.set, List.find?_cons, decide_true, Option.map_some] at h
        cases h
        simp [codesCache, Cache.get]

/-- **C21, the hypothesis is needed.** Two sources with the same hash: the second one is answered with
the program of the first. -/
theorem C21_collision_counterexample (s1 s2 : Str) (p1 : α) (hh : hash s1 = hash s2)
    (h1 : pars s1 = .ok (.ok p1)) :
    ∃ c, Spec.Reach hash pars c ∧ codesCache hash pars c s2 = .ok (.ok p1, c) := by
  refine ⟨[(hash s1, p1)], ?_, ?_⟩
  · refine .step (src := s1) (r := .ok p1) .nil ?_
    simp [codesCache, h1, Cache.get, Cache.set]
  · simp [codesCache, Cache.get, hh]

end

example : (codesCache (fun s => s.length) (fun s => .ok (.ok s)) [] c!"ab") = .ok (.ok c!"ab", [(2, c!"ab")]) := rfl
example : (codesCache (fun s => s.length) (fun s => .ok (.ok s)) [(2, c!"ab")] c!"cd") = .ok (.ok c!"ab", [(2, c!"ab")]) := rfl

/-! ## C35 -/

/-- **C35.** A script that ends normally exits 0 and reports nothing. -/
theorem C35_normal : worldRet (.ok ()) = (0, []) := rfl

/-- **C35.** Quit with a number other than 1000 exits with exactly that number, silently (words before
the number that are not numbers and not empty are skipped). -/
theorem C35_quit_code (named : Str → Option Int) (labels : List Str) (depth : Int) (ws : List Str)
    (w : Str) (rest : List Str) (n : Int) (hws : ∀ x ∈ ws, x ≠ [] ∧ parseI32 x = none)
    (hw : parseI32 w = some n) (hn : n ≠ 1000) :
    worldRet (.error (jumpErr .quit named labels depth (ws ++ w :: rest))) = (n, []) := by
  have hne : w ≠ [] := by rintro rfl; simp [parseI32, parseSigned, parseDigits] at hw
  have key : ∀ st, (jumpWords .quit named labels (ws ++ w :: rest) st) = { st with s := [], i := n } := by
    induction ws with
    | nil => intro st; simp [jumpWords, jumpWord, hne, hw]
    | cons x ws ih =>
      intro st
      have hx := hws x (by simp)
      simp only [List.cons_append, jumpWords, jumpWord, hx.1, hx.2, if_false]
      rw [ih (fun y hy => hws y (by simp [hy]))]
  have hv : ws ++ w :: rest ≠ [] := by simp
  have : jumpErr .quit named labels depth (ws ++ w :: rest) = ⟨QUIT, n, [], []⟩ := by
    unfold jumpErr
    cases h : ws ++ w :: rest with
    | nil => exact absurd h hv
    | cons a b =>
      have k := key ⟨[], NO, -1, 0⟩
      rw [h] at k
      have hn' : ¬ n = NO := hn
      simp [jumpEnd, jumpI, k, hn', JumpKind.code]
  rw [this]
  have hn' : n ≠ NO := hn
  simp [worldRet, hn']

/-- **C35.** Quit without words, or with an empty word, exits 0. -/
theorem C35_quit_plain (named : Str → Option Int) (labels : List Str) (depth : Int) (rest : List Str) :
    worldRet (.error (jumpErr .quit named labels depth [])) = (0, []) ∧
    worldRet (.error (jumpErr .quit named labels depth ([] :: rest))) = (0, []) := by
  constructor <;> simp [jumpErr, jumpEnd, jumpI, jumpWords, jumpWord, worldRet, JumpKind.code, NO, QUIT]

/-- **C35.** Every failure that is not a quit exits with a status in 0..=255, and with 254 if its code
is not itself such a status; the message and the trace go to the error output. -/
theorem C35_failure (e : Err) (h : e.i ≠ QUIT) :
    0 ≤ (worldRet (.error e)).1 ∧ (worldRet (.error e)).1 ≤ 255 ∧
    (¬ (0 ≤ e.i ∧ e.i ≤ 255) → (worldRet (.error e)).1 = 254) ∧
    (worldRet (.error e)).2 = e.s ++ e.s2 ++ ['\n'] := by
  simp only [worldRet, h, false_and, if_false, exitcode]
  refine ⟨?_, ?_, ?_, trivial⟩
  · split <;> omega
  · split <;> omega
  · intro hh; rw [if_neg hh]

/-- **C35.** A jump that no construct consumed (break, continue, return) exits 254, whatever its words. -/
theorem C35_jump (k : JumpKind) (hk : k ≠ .quit) (named : Str → Option Int) (labels : List Str)
    (depth : Int) (v : List Str) :
    (worldRet (.error (jumpErr k named labels depth v))).1 = 254 := by
  have hcode : (jumpErr k named labels depth v).i = ERR ∨ (jumpErr k named labels depth v).i = k.code := by
    unfold jumpErr
    simp only
    split
    · exact Or.inl rfl
    · exact Or.inr rfl
  have hq : (jumpErr k named labels depth v).i ≠ QUIT ∧ 255 < (jumpErr k named labels depth v).i := by
    rcases hcode with h | h <;> rw [h]
    · decide
    · cases k <;> first | exact absurd rfl hk | decide
  exact (C35_failure _ hq.1).2.2.1 (by omega)

/-- **C35, counterexample.** Quit 1000 is taken for "no code": it does not exit with 1000 but fails
like an error, with status 254. -/
theorem C35_quit_1000_counterexample (named : Str → Option Int) (labels : List Str) (depth : Int) :
    worldRet (.error (jumpErr .quit named labels depth [c!"1000"])) = (254, ['\n']) := by
  have : parseI32 c!"1000" = some 1000 := by decide
  simp [jumpErr, jumpEnd, jumpI, jumpWords, jumpWord, this, worldRet, NO, ERR, QUIT, exitcode]

example : worldRet (.error (jumpErr .quit (fun _ => none) [] 3 [c!"x", c!"-7", c!"9"])) = (-7, []) := by
  decide
example : worldRet (.error (Err.msg c!"e")) = (254, c!"e\n") := by decide
example : worldRet (.error (jumpErr .break_ (fun _ => none) [] 3 [c!"x"])) = (254, c!"x\n") := by decide

/-! ## C37 -/

/-- The directory part of a path: specification. -/
def Spec.IsDir (s d : Str) : Prop :=
  (∃ f, s = d ++ f ∧ '/' ∉ f) ∧ (d = [] ∨ d.getLast? = some '/')

theorem dropWhile_suffix_last (l : Str) :
    (l.dropWhile (· ≠ '/')) = [] ∨ (l.dropWhile (· ≠ '/')).head? = some '/' := by
  induction l with
  | nil => exact Or.inl rfl
  | cons c l ih =>
    by_cases h : c = '/'
    · right; simp [h]
    · rw [List.dropWhile_cons_of_pos (by simp [h])]; exact ih

theorem dirPart_spec (s : Str) : Spec.IsDir s (dirPart s) := by
  unfold Spec.IsDir dirPart
  refine ⟨⟨(s.reverse.takeWhile (· ≠ '/')).reverse, ?_, ?_⟩, ?_⟩
  · rw [← List.reverse_append, List.takeWhile_append_dropWhile, List.reverse_reverse]
  · intro h
    rw [List.mem_reverse] at h
    have key : ∀ l : Str, '/' ∉ l.takeWhile (· ≠ '/') := by
      intro l
      induction l with
      | nil => simp
      | cons c l ih =>
        by_cases hc : c = '/'
        · simp [hc]
        · rw [List.takeWhile_cons_of_pos (by simp [hc])]
          intro h; rcases List.mem_cons.1 h with h | h
          · exact hc h.symm
          · exact ih h
    exact key _ h
  · rcases dropWhile_suffix_last s.reverse with h | h
    · left; rw [h]; rfl
    · right; rw [List.getLast?_reverse]; exact h

theorem isDir_unique (s d d' : Str) (h : Spec.IsDir s d) (h' : Spec.IsDir s d') : d = d' := by
  have key : ∀ (d d' f f' : Str), d ++ f = d' ++ f' → '/' ∉ f → (d' = [] ∨ d'.getLast? = some '/') →
      d'.length ≤ d.length := by
    intro d d' f f' e hf hd'
    refine Nat.not_lt.1 fun hlt => ?_
    rcases hd' with rfl | hd'
    · simp at hlt
    · have : d' = d ++ f.take (d'.length - d.length) := by
        have := congrArg (List.take d'.length) e
        rw [List.take_left, List.take_append, List.take_of_length_le (Nat.le_of_lt hlt)] at this
        exact this.symm
      rw [this, List.getLast?_append] at hd'
      cases hg : (f.take (d'.length - d.length)).getLast? with
      | none =>
        rw [List.getLast?_eq_none_iff] at hg
        rw [hg] at this
        rw [this] at hlt
        simp at hlt
      | some c =>
        rw [hg] at hd'
        simp at hd'
        subst hd'
        exact hf (List.mem_of_mem_take (List.mem_of_getLast? hg))
  obtain ⟨⟨f, e, hf⟩, hd⟩ := h
  obtain ⟨⟨f', e', hf'⟩, hd'⟩ := h'
  have e2 : d ++ f = d' ++ f' := e.symm.trans e'
  exact (List.append_inj e2 (Nat.le_antisymm (key _ _ _ _ e2.symm hf' hd) (key _ _ _ _ e2 hf hd'))).1

/-- **C37.** The directory part is what precedes the last slash, slash included. -/
theorem C37_directory (s d : Str) : dirPart s = d ↔ Spec.IsDir s d :=
  ⟨fun h => h ▸ dirPart_spec s, fun h => isDir_unique s _ _ (dirPart_spec s) h⟩

/-- **C37.** After any history of additions the include path is a subsequence of the additions (so in
their order), has at most one entry per directory, only entries with a directory, an entry for every
directory ever added, and for each directory the entry is the first addition with it. -/
theorem C37_include_path (hist : List Str) :
    let path := hist.foldl path2 []
    path.Sublist hist ∧
    path.Pairwise (fun x y => dirPart x ≠ dirPart y) ∧
    (∀ x ∈ path, dirPart x ≠ []) ∧
    (∀ x ∈ hist, dirPart x ≠ [] → ∃ y ∈ path, dirPart y = dirPart x) ∧
    (∀ pre x post, hist = pre ++ x :: post → dirPart x ≠ [] →
      (∀ y ∈ pre, dirPart y ≠ dirPart x) → x ∈ path) := by
  induction hist using List.reverseRecOn with
  | nil => simp
  | append_singleton hist s ih =>
    simp only [List.foldl_append, List.foldl_cons, List.foldl_nil]
    simp only at ih
    generalize hist.foldl path2 [] = path at ih
    obtain ⟨h1, h2, h3, h4, h5⟩ := ih
    have hold : ∀ p' : List Str, (∀ x ∈ path, x ∈ p') → (dirPart s ≠ [] →
        (∀ y ∈ hist, dirPart y ≠ dirPart s) → s ∈ p') →
        ∀ pre x post, hist ++ [s] = pre ++ x :: post → dirPart x ≠ [] →
        (∀ y ∈ pre, dirPart y ≠ dirPart x) → x ∈ p' := by
      intro p' hp hs pre x post e hx hy
      rcases List.eq_nil_or_concat post with rfl | ⟨post', b, rfl⟩
      · obtain ⟨e1, e2⟩ := List.append_inj' e rfl
        cases e2
        subst e1
        exact hs hx hy
      · have e' : hist ++ [s] = (pre ++ x :: post') ++ [b] := by simpa using e
        obtain ⟨e1, e2⟩ := List.append_inj' e' rfl
        exact hp x (h5 pre x post' e1 hx hy)
    unfold path2
    simp only
    by_cases hd : (dirPart s).isEmpty = true
    · rw [if_pos hd]
      have hd' : dirPart s = [] := by simpa using hd
      refine ⟨h1.trans (List.sublist_append_left _ _), h2, h3, ?_, hold path (fun _ h => h) (fun h => absurd hd' h)⟩
      intro x hx hxd
      rcases List.mem_append.1 hx with hx | hx
      · exact h4 x hx hxd
      · simp at hx; subst hx; exact absurd hd' hxd
    · rw [if_neg hd]
      have hd' : dirPart s ≠ [] := by simpa using hd
      by_cases ha : (path.any fun i => dirPart i == dirPart s) = true
      · rw [if_pos ha]
        rw [List.any_eq_true] at ha
        obtain ⟨y, hy, hys⟩ := ha
        have hys' : dirPart y = dirPart s := by simpa using hys
        refine ⟨h1.trans (List.sublist_append_left _ _), h2, h3, ?_, hold path (fun _ h => h)
          (fun _ h => absurd hys' (h y (h1.subset hy)))⟩
        intro x hx hxd
        rcases List.mem_append.1 hx with hx | hx
        · exact h4 x hx hxd
        · simp at hx; subst hx; exact ⟨y, hy, hys'⟩
      · rw [if_neg ha]
        have ha' : ∀ y ∈ path, dirPart y ≠ dirPart s := by simpa using ha
        refine ⟨h1.append (List.Sublist.refl _), ?_, ?_, ?_,
          hold _ (fun x h => List.mem_append_left _ h) (fun _ _ => by simp)⟩
        · rw [List.pairwise_append]
          exact ⟨h2, by simp, by intro a hap b hb; simp at hb; subst hb; exact ha' a hap⟩
        · intro x hx
          rcases List.mem_append.1 hx with hx | hx
          · exact h3 x hx
          · simp at hx; subst hx; exact hd'
        · intro x hx hxd
          rcases List.mem_append.1 hx with hx | hx
          · obtain ⟨y, hy, e⟩ := h4 x hx hxd; exact ⟨y, by simp [hy], e⟩
          · simp at hx; subst hx; exact ⟨x, by simp, rfl⟩

example : [c!"/a/b", c!"x", c!"/a/c", c!"/d"].foldl path2 [] = [c!"/a/b", c!"/d"] := by decide

end Zh
