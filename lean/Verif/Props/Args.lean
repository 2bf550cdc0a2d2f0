import Verif.Props.ResultList
import Mathlib.Data.List.Induction
/-!
# C05, C06, C07, C08, C09, C46: reading arguments
-/
namespace Zh
open Spec

theorem addAll_a (l : RList) (is : List Item) : (l.addAll is).a = l.a ++ is := by
  unfold RList.addAll
  induction is generalizing l with
  | nil => simp
  | cons i is ih => simp [ih, RList.add]

theorem addAll_nil (l : RList) : l.addAll [] = l := rfl

/-! ## Groups by position -/

private def startOf (ps : List Nat) : Nat → Nat
  | 0 => 0
  | j + 1 => ps.getD j 0 + 1

private theorem getD_map_succ (ps : List Nat) (j : Nat) (h : j < ps.length) :
    (ps.map (· + 1)).getD j 0 = ps.getD j 0 + 1 := by
  simp [List.getD, h]

private theorem groups_by_pos (a : List Item) (i : Nat) (hi : i ≤ (sepPos 0 a).length) :
    (groups isSep a)[i]? =
      some ((a.take ((sepPos 0 a ++ [a.length]).getD i 0)).drop (startOf (sepPos 0 a) i)) := by
  induction a generalizing i with
  | nil =>
    simp only [sepPos, List.length_nil, Nat.le_zero_eq] at hi
    subst hi
    simp [groups, sepPos, startOf]
  | cons x a ih =>
    have hs : sepPos (0 + 1) a = (sepPos 0 a).map (· + 1) := sepPos_shift 0 1 a
    by_cases hx : isSep x = true
    · simp only [groups, hx, if_true]
      have e : sepPos 0 (x :: a) = 0 :: (sepPos 0 a).map (· + 1) := by
        simp only [sepPos, hx, if_true, hs]
      rw [e] at hi ⊢
      cases i with
      | zero => simp [startOf]
      | succ j =>
        have hj : j ≤ (sepPos 0 a).length := by simpa using hi
        rw [List.getElem?_cons_succ, ih j hj]
        have e1 : (0 :: (sepPos 0 a).map (· + 1) ++ [(x :: a).length]).getD (j + 1) 0
            = (sepPos 0 a ++ [a.length]).getD j 0 + 1 := by
          have : 0 :: (sepPos 0 a).map (· + 1) ++ [(x :: a).length]
              = 0 :: (sepPos 0 a ++ [a.length]).map (· + 1) := by simp
          rw [this, List.getD_cons_succ, getD_map_succ _ _ (by simp; omega)]
        have e2 : startOf (0 :: (sepPos 0 a).map (· + 1)) (j + 1)
            = startOf (sepPos 0 a) j + 1 := by
          cases j with
          | zero => simp [startOf]
          | succ m =>
            simp only [startOf, List.getD_cons_succ]
            rw [getD_map_succ _ _ (by omega)]
        rw [e1, e2]
        simp
    · have e : sepPos 0 (x :: a) = (sepPos 0 a).map (· + 1) := by
        simp only [sepPos, hx, Bool.false_eq_true, if_false, hs]
      rw [e] at hi ⊢
      have hj : i ≤ (sepPos 0 a).length := by simpa using hi
      have e1 : ((sepPos 0 a).map (· + 1) ++ [(x :: a).length]).getD i 0
            = (sepPos 0 a ++ [a.length]).getD i 0 + 1 := by
        have : (sepPos 0 a).map (· + 1) ++ [(x :: a).length]
            = (sepPos 0 a ++ [a.length]).map (· + 1) := by simp
        rw [this, getD_map_succ _ _ (by simp; omega)]
      have ihj := ih i hj
      simp only [groups, hx, Bool.false_eq_true, if_false]
      cases hg : groups isSep a with
      | nil => exact absurd hg (groups_ne_nil a)
      | cons g gs =>
        rw [hg] at ihj
        simp only
        rw [e1]
        cases i with
        | zero =>
          simp only [List.getElem?_cons_zero, Option.some.injEq, startOf, List.drop_zero] at ihj ⊢
          rw [ihj]; simp
        | succ m =>
          rw [List.getElem?_cons_succ] at ihj ⊢
          rw [ihj]
          have e2 : startOf ((sepPos 0 a).map (· + 1)) (m + 1)
              = startOf (sepPos 0 a) (m + 1) + 1 := by
            simp only [startOf]
            rw [getD_map_succ _ _ (by simp at hi; omega)]
          rw [e2]
          simp

/-- The separator record of a well-formed list has one entry less than its groups. -/
theorem Spec.WF.dun_length {l : RList} (h : WF l) : (groups isSep l.a).length = l.dun.length + 1 := by
  rw [groups_length, h, sepPos_length]

theorem Spec.WF.len_eq {l : RList} (h : WF l) : l.len = (argsOf l).length := by
  unfold RList.len argsOf
  cases ha : l.a with
  | nil => simp
  | cons x xs =>
    rw [if_neg (by simp), if_neg (by simp), ← ha, h.dun_length]

/-- Reading slot `i` (from 0) of a well-formed list appends exactly group `i`. -/
theorem retArg_spec {a : RList} (h : WF a) (ret : RList) (i : Nat) (hi : i < (argsOf a).length) :
    a.retArg i ret = .ok (ret.addAll ((argsOf a).getD i [])) := by
  have hne : a.a ≠ [] := by
    intro e; simp [argsOf, e] at hi
  have hargs : argsOf a = groups isSep a.a := by simp [argsOf, hne]
  rw [hargs] at hi ⊢
  have hdl := h.dun_length
  have hid : i ≤ a.dun.length := by omega
  have hsp : sepPos 0 a.a = a.dun := h.symm
  have hg := groups_by_pos a.a i (by rw [hsp]; exact hid)
  rw [hsp] at hg
  have hlen : a.len = a.dun.length + 1 := by
    unfold RList.len; cases hh : a.a with
    | nil => exact absurd hh hne
    | cons => simp
  -- the two ends as computed by the code
  have hstart : (if i > 0 ∧ i ≤ a.dun.length then a.dun.getD (i - 1) 0 + 1 else 0)
      = startOf a.dun i := by
    cases i with
    | zero => simp [startOf]
    | succ j => simp only [startOf]; rw [if_pos ⟨by omega, hid⟩]; rfl
  have hend : (if i ≥ a.dun.length then a.a.length else a.dun.getD i 0)
      = (a.dun ++ [a.a.length]).getD i 0 := by
    by_cases e : i ≥ a.dun.length
    · have : i = a.dun.length := by omega
      subst this
      simp [List.getD]
    · rw [if_neg e]
      have hlt : i < a.dun.length := by omega
      simp [List.getD, List.getElem?_append_left hlt]
  have hle : (a.dun ++ [a.a.length]).getD i 0 ≤ a.a.length := by
    rw [← hend]
    split
    · exact Nat.le_refl _
    · next e =>
      have hlt : i < a.dun.length := by omega
      obtain ⟨_, hw⟩ := h.weak
      obtain ⟨j, hj, _⟩ := hw (a.dun.getD i 0) (by simp [List.getD, hlt])
      exact Nat.le_of_lt (List.getElem?_eq_some_iff.1 hj).1
  have hgd : (groups isSep a.a).getD i [] =
      (a.a.take ((a.dun ++ [a.a.length]).getD i 0)).drop (startOf a.dun i) := by
    simp [List.getD, hg]
  rw [hgd]
  unfold RList.retArg RList.posi
  simp only [hlen, Nat.add_sub_cancel, hstart, hend, Nat.succ_pos, gt_iff_lt, if_true]
  split
  · next hh =>
    split at hh
    · cases hh
    · next hge =>
      have : (List.take ((a.dun ++ [a.a.length]).getD i 0) a.a).drop (startOf a.dun i) = [] := by
        rw [List.drop_eq_nil_iff, List.length_take]
        omega
      rw [this, addAll_nil]
  · next st en hh =>
    split at hh
    · simp only [Option.some.injEq, Prod.mk.injEq] at hh
      obtain ⟨rfl, rfl⟩ := hh
      simp only [RList.slice]
      rw [if_pos hle, Out.ok_bind]
    · cases hh

/-! ## C05 -/

/-- **C05.** Reading argument `i ≥ 1` of a well-formed argument list appends exactly the items of
the `i`-th group to the result, and nothing at all when there are fewer arguments; the result stays
well formed. -/
theorem C05_positional_argument (ovf : Bool) (a ret : RList) (ha : WF a) (i : Nat) (hi : 1 ≤ i) :
    ∃ r, argGet ovf i a ret = .ok r ∧ r.a = ret.a ++ (argsOf a).getD (i - 1) [] ∧
      (WF ret → WF r) := by
  have h0 : (0 : Int) ≤ (i : Int) := by omega
  have hi2 : i2u ovf (i : Int) a.len = .ok i := by simp [i2u, h0]
  by_cases hle : i ≤ a.len
  · have hidx : argIndex ovf i a = .ok (some (i - 1)) := by
      simp only [argIndex, hi2, Out.ok_bind, hle, if_true]
      rw [if_neg (by omega)]
    refine ⟨ret.addAll ((argsOf a).getD (i - 1) []), ?_, addAll_a _ _, fun h => WF_addAll h _⟩
    simp only [argGet, hidx, Out.ok_bind]
    exact retArg_spec ha ret (i - 1) (by rw [← ha.len_eq]; omega)
  · have hidx : argIndex ovf i a = .ok none := by
      simp only [argIndex, hi2, Out.ok_bind, hle, if_false]
    refine ⟨ret, ?_, ?_, id⟩
    · simp only [argGet, hidx, Out.ok_bind]
    · have : (argsOf a).length ≤ i - 1 := by rw [← ha.len_eq]; omega
      simp [List.getD, List.getElem?_eq_none this]

/-- Non-vacuity: `a、bc` has two arguments; the second is `b`,`c`. -/
example : WF ⟨[exS 0 c!"a", exD 1, exS 2 c!"b", exS 3 c!"c"], [1]⟩ ∧
    argGet true 2 ⟨[exS 0 c!"a", exD 1, exS 2 c!"b", exS 3 c!"c"], [1]⟩ RList.empty
      = .ok ⟨[exS 2 c!"b", exS 3 c!"c"], []⟩ := ⟨rfl, by decide⟩

/-- **C05 (existence test).** `存在` of argument `i ≥ 1` appends `1` iff there are at least `i`
arguments. -/
theorem C05_argument_exists (ovf : Bool) (a ret : RList) (ha : WF a) (i : Nat) (one : Item) :
    argHas ovf i a one ret
      = .ok (if i ≤ (argsOf a).length then ret.add one else ret) := by
  have h0 : (0 : Int) ≤ (i : Int) := by omega
  simp only [argHas, i2u, h0, if_true, Int.toNat_natCast, Out.ok_bind, ← ha.len_eq]
  split <;> rfl

/-! ## C06 -/

theorem i2u_neg (ovf : Bool) (k m : Nat) (hk : 1 ≤ k) (hmax : k < 2147483648) :
    i2u ovf (-(k : Int)) m = .ok (if k ≤ m then m - k + 1 else 0) := by
  have c1 : ¬ (0 : Int) ≤ -(k : Int) := by omega
  have c2 : ¬ -(k : Int) = i32Min := by simp only [i32Min]; omega
  simp only [i2u, c1, c2, if_false, Int.neg_neg, Int.toNat_natCast]

/-- **C06.** Argument `-k` of an `n`-argument list is argument `n - k + 1`, for `1 ≤ k ≤ n`. -/
theorem C06_negative_index_partial (ovf : Bool) (a ret : RList) (ha : WF a) (k : Nat)
    (hk : 1 ≤ k) (hn : k ≤ (argsOf a).length) (hmax : k < 2147483648) :
    argGet ovf (-(k : Int)) a ret = argGet ovf (((argsOf a).length - k + 1 : Nat) : Int) a ret := by
  have hlen := ha.len_eq
  have h1 : i2u ovf (-(k : Int)) a.len = .ok (a.len - k + 1) := by
    rw [i2u_neg ovf k a.len hk hmax, if_pos (by omega)]
  have h2 : i2u ovf (((argsOf a).length - k + 1 : Nat) : Int) a.len = .ok (a.len - k + 1) := by
    simp only [i2u]
    rw [if_pos (by omega), Int.toNat_natCast, hlen]
  simp only [argGet, argIndex, h1, h2]

example : argGet true (-1) ⟨[exS 0 c!"a", exD 1, exS 2 c!"b"], [1]⟩ RList.empty
    = .ok ⟨[exS 2 c!"b"], []⟩ := by decide

/-- **C06 is false for `k > n` (all such cases).**  With overflow checks the interpreter crashes;
without them the read yields the *whole* argument list, separators included. -/
theorem C06_beyond_front_counterexample (a ret : RList) (ha : WF a) (k : Nat)
    (hn : (argsOf a).length < k) (hmax : k < 2147483648) (hbig : a.dun.length < usizeMax) :
    argGet true (-(k : Int)) a ret = .panic ∧
      ∃ r, argGet false (-(k : Int)) a ret = .ok r ∧ r.a = ret.a ++ a.a := by
  have hlen := ha.len_eq
  have h1 : ∀ ovf, i2u ovf (-(k : Int)) a.len = .ok 0 := by
    intro ovf
    rw [i2u_neg ovf k a.len (by omega) hmax, if_neg (by omega)]
  constructor
  · simp [argGet, argIndex, h1]
  · simp only [argGet, argIndex, h1, Out.ok_bind, Nat.zero_le, if_true, Bool.false_eq_true,
      if_false]
    by_cases hne : a.a = []
    · refine ⟨ret, ?_, by simp [hne]⟩
      have : a.len = 0 := by simp [RList.len, hne]
      simp [RList.retArg, RList.posi, this]
    · have hl : a.len = a.dun.length + 1 := by
        unfold RList.len; cases hh : a.a with
        | nil => exact absurd hh hne
        | cons => simp
      have hpos : 0 < a.a.length := List.length_pos_iff.2 hne
      refine ⟨ret.addAll a.a, ?_, addAll_a _ _⟩
      have hp : a.posi usizeMax = some (0, a.a.length) := by
        unfold RList.posi
        have c1 : ¬ (usizeMax > 0 ∧ usizeMax ≤ a.dun.length) := by omega
        have c2 : usizeMax ≥ a.dun.length := by omega
        simp only [hl, Nat.add_sub_cancel, c1, c2, if_true, if_false, hpos]
        simp
      simp [RList.retArg, hp, RList.slice]

example : argGet false (-5) ⟨[exS 0 c!"a", exD 1, exS 2 c!"b"], [1]⟩ RList.empty
    = .ok ⟨[exS 0 c!"a", exD 1, exS 2 c!"b"], [1]⟩ := by decide

/-- **C06 (existence test).** `存在` of argument `-k` answers "yes" for every `k`, even beyond the
front and with no arguments at all: the test cannot be used to guard the read. -/
theorem C06_exists_always_counterexample (a ret : RList) (one : Item) (k : Nat) (hk : 1 ≤ k)
    (hmax : k < 2147483648) : argHas true (-(k : Int)) a one ret = .ok (ret.add one) := by
  simp only [argHas, i2u_neg true k a.len hk hmax, Out.ok_bind]
  rw [if_pos]
  split <;> omega

/-! ## C07 -/

/-- An item that delimits strings: `、` or `。`. -/
def isDelim (i : Item) : Bool := isSep i || isStop i

/-- The text of one item: a string's characters, a keyword's spelling, `obj` for an object.  With
`otherkw = false` keywords have no text. -/
def itemText (otherkw : Bool) (i : Item) : Str :=
  match i.val with
  | .s s => s
  | .k kw => if otherkw then kw.s else []
  | .o _ => c!"obj"

/-- An item that counts as content: strings, objects, delimiters, and keywords if they are
rendered. -/
def isContent (otherkw : Bool) (i : Item) : Bool :=
  match i.val with
  | .k _ => otherkw || isDelim i
  | _ => true

private def consStr (s : Str) : List Str → List Str
  | [] => [s]
  | g :: gs => (s ++ g) :: gs

private theorem toVecGo_spec (otherkw : Bool) (is : List Item) (s : Str) (b : Bool) :
    RList.toVecGo otherkw is s b =
      if b || !s.isEmpty || is.any (isContent otherkw) then
        consStr s ((groups isDelim is).map fun g => g.flatMap (itemText otherkw))
      else [] := by
  induction is generalizing s b with
  | nil => simp [RList.toVecGo, groups, consStr]
  | cons i is ih =>
    have hcons : isDelim i = false →
        consStr s ((groups isDelim (i :: is)).map fun g => g.flatMap (itemText otherkw))
          = consStr (s ++ itemText otherkw i)
              ((groups isDelim is).map fun g => g.flatMap (itemText otherkw)) := by
      intro hd
      simp only [groups, hd, Bool.false_eq_true, if_false]
      cases hg : groups isDelim is with
      | nil => exact absurd hg (groups_ne_nil is)
      | cons g gs => simp [consStr]
    have hnil : consStr [] ((groups isDelim is).map fun g => g.flatMap (itemText otherkw))
        = (groups isDelim is).map fun g => g.flatMap (itemText otherkw) := by
      cases hg : groups isDelim is with
      | nil => exact absurd hg (groups_ne_nil is)
      | cons g gs => simp [consStr]
    rcases i with ⟨r, v⟩
    cases v with
    | s t =>
      simp only [RList.toVecGo, Val.s3, Bool.false_eq_true, if_false]
      rw [ih, hcons rfl]
      simp [isContent, itemText]
    | o hd =>
      simp only [RList.toVecGo, Val.s3]
      rw [ih, hcons rfl]
      simp [isContent, itemText]
    | k kw =>
      by_cases hd : isDelim ⟨r, .k kw⟩ = true
      · have hd' : (kw.id == .jvhao || kw.id == .dunhao) = true := by
          simpa [isDelim, isSep, isStop, Or.comm] using hd
        simp only [RList.toVecGo, Val.s3, Bool.not_true, Bool.false_and, Bool.false_eq_true,
          if_false, if_true, hd', Bool.and_self]
        rw [ih]
        have hc : isContent otherkw ⟨r, .k kw⟩ = true := by simp [isContent, hd]
        simp only [Bool.true_or, if_true, hnil, groups, hd, List.map_cons, List.any_cons, hc,
          Bool.or_true, List.append_nil]
        simp [consStr]
      · have hd' : (kw.id == .jvhao || kw.id == .dunhao) = false := by
          have : isDelim ⟨r, .k kw⟩ = false := by simpa using hd
          rw [← this]
          simp [isDelim, isSep, isStop, Bool.or_comm]
        have hd2 : isDelim ⟨r, .k kw⟩ = false := by simpa using hd
        simp only [RList.toVecGo, Val.s3, Bool.not_true, Bool.false_and, Bool.false_eq_true,
          if_false, if_true, hd', Bool.and_false, Bool.true_and, Bool.not_eq_true']
        cases otherkw with
        | true =>
          simp only [Bool.true_eq_false, if_false]
          rw [ih, hcons hd2]
          simp [isContent, itemText]
        | false =>
          simp only [if_true]
          rw [ih, hcons hd2]
          simp [isContent, itemText, hd2]

/-- **C07.** Converting a result list to strings yields one string per delimiter-separated group,
each the concatenation of its items' texts; a list without content yields no strings. -/
theorem C07_to_strings (l : RList) (otherkw : Bool) :
    l.toVec2 otherkw =
      if l.a.any (isContent otherkw) then
        (groups isDelim l.a).map fun g => g.flatMap (itemText otherkw)
      else [] := by
  unfold RList.toVec2 RList.toVec0
  simp only [List.take_length, List.drop_zero]
  rw [toVecGo_spec]
  cases hg : groups isDelim l.a with
  | nil => exact absurd hg (groups_ne_nil l.a)
  | cons g gs => simp [consStr]

/-- **C07.** In the default form (keywords rendered), a non-empty list of `d` delimiters yields
exactly `d + 1` strings and the empty list none. -/
theorem C07_to_strings_default (l : RList) :
    l.toVec = (if l.a = [] then [] else
      (groups isDelim l.a).map fun g => g.flatMap (itemText true)) := by
  have h : l.toVec = l.toVec2 true := rfl
  rw [h, C07_to_strings]
  cases ha : l.a with
  | nil => simp
  | cons x xs =>
    have : isContent true x = true := by
      unfold isContent; split <;> simp
    simp [this]

theorem C07_count (l : RList) (h : l.a ≠ []) :
    l.toVec.length = (l.a.filter isDelim).length + 1 := by
  rw [C07_to_strings_default, if_neg h, List.length_map, groups_length]

example : (⟨[exS 0 c!"a", exS 1 c!"b", exD 2, exD 3, exS 4 c!"c"], [2, 3]⟩ : RList).toVec
    = [c!"ab", [], c!"c"] := by
  rw [C07_to_strings_default]; decide

/-! ## C08 -/

/-- The text of one item in the argument line: keywords have none. -/
def lineText1 (i : Item) : Str :=
  match i.val with
  | .s s => s
  | .k _ => []
  | .o _ => c!"obj"

theorem escQuote_id (s : Str) (h : '"' ∉ s) : escQuote s = s := by
  unfold escQuote
  induction s with
  | nil => rfl
  | cons c s ih =>
    have hc : c ≠ '"' := fun e => h (by simp [e])
    simp [hc, ih (fun e => h (by simp [e]))]

/-- The piece written for a field. -/
def fieldPiece (s : Str) : Piece :=
  if RList.needYin .one s then .quoted '"' s else .plain s

private theorem bare_ok (c : Char) (h : RList.bareChar c = true) : blank c = false ∧ quote c = false := by
  have key : ∀ d : Char, RList.bareChar d = false → c ≠ d := by
    intro d hd e; subst e; rw [h] at hd; cases hd
  have h1 := key ' ' (by decide)
  have h2 := key '\t' (by decide)
  have h3 := key '\r' (by decide)
  have h4 := key '\n' (by decide)
  have h5 := key '"' (by decide)
  have h6 := key '\'' (by decide)
  simp [blank, quote, h1, h2, h3, h4, h5, h6]

theorem fieldPiece_ok (s : Str) (h : '"' ∉ s) : (fieldPiece s).Ok := by
  unfold fieldPiece
  by_cases hy : RList.needYin .one s = true
  · rw [if_pos hy]; exact ⟨rfl, h⟩
  · rw [if_neg hy]
    simp only [RList.needYin, Bool.or_eq_true, Bool.not_eq_true', not_or, Bool.not_eq_false,
      Bool.not_eq_true] at hy
    refine ⟨?_, fun c hc => bare_ok c (List.all_eq_true.1 hy.2 c hc)⟩
    simpa using hy.1

theorem fieldPiece_value (s : Str) : (fieldPiece s).value = s := by
  unfold fieldPiece; split <;> rfl

theorem fieldPiece_text_ne (s : Str) (h : '"' ∉ s) : (fieldPiece s).text ≠ [] := by
  have := fieldPiece_ok s h
  unfold fieldPiece at this ⊢
  split
  · simp [Piece.text]
  · next hy => rw [if_neg hy] at this; exact this.1

theorem s2s_one (s2 s1 : Str) :
    RList.s2s .one s2 s1 = s1 ++ ((if s1 = [] then [] else [' ']) ++ (fieldPiece s2).text) := by
  unfold RList.s2s fieldPiece
  cases s1 <;> by_cases h : RList.needYin .one s2 = true <;> simp [h, Piece.text]

/-- The line of a list of fields: each field's piece, one blank between. -/
def fieldsLine : List Str → Str
  | [] => []
  | [f] => (fieldPiece f).text
  | f :: g :: fs => (fieldPiece f).text ++ ' ' :: fieldsLine (g :: fs)

theorem fieldsLine_snoc (fs : List Str) (f : Str) (h : ∀ g ∈ fs, '"' ∉ g) :
    RList.s2s .one f (fieldsLine fs) = fieldsLine (fs ++ [f]) := by
  rw [s2s_one]
  induction fs with
  | nil => simp [fieldsLine]
  | cons g fs ih =>
    have hg : (fieldPiece g).text ≠ [] := fieldPiece_text_ne g (h g (by simp))
    have ih := ih (fun x hx => h x (by simp [hx]))
    cases fs with
    | nil => simp [fieldsLine, hg]
    | cons k fs =>
      have hne : fieldsLine (k :: fs) ≠ [] := by
        have := fieldPiece_text_ne k (h k (by simp))
        cases fs <;> simp [fieldsLine, this]
      rw [if_neg hne] at ih
      have hne2 : fieldsLine (g :: k :: fs) ≠ [] := by simp [fieldsLine]
      rw [if_neg hne2]
      simp only [fieldsLine, List.cons_append, List.append_assoc] at ih ⊢
      rw [← ih]

private theorem lineGo_spec (is : List Item) (s2 : Str) (fs : List Str)
    (h : ∀ i ∈ is, '"' ∉ lineText1 i) (h2 : '"' ∉ s2) (hf : ∀ g ∈ fs, '"' ∉ g) :
    RList.lineGo .one is s2 (fieldsLine fs)
      = fieldsLine (fs ++ consStr s2 ((groups isDelim is).map fun g => g.flatMap lineText1)) := by
  induction is generalizing s2 fs with
  | nil =>
    simp only [RList.lineGo, groups, List.map_cons, List.flatMap_nil, List.map_nil, consStr,
      List.append_nil]
    exact fieldsLine_snoc fs s2 hf
  | cons i is ih =>
    have h' : ∀ i ∈ is, '"' ∉ lineText1 i := fun j hj => h j (by simp [hj])
    have hi := h i (by simp)
    have hcons : isDelim i = false →
        consStr s2 ((groups isDelim (i :: is)).map fun g => g.flatMap lineText1)
          = consStr (s2 ++ lineText1 i)
              ((groups isDelim is).map fun g => g.flatMap lineText1) := by
      intro hd
      simp only [groups, hd, Bool.false_eq_true, if_false]
      cases hg : groups isDelim is with
      | nil => exact absurd hg (groups_ne_nil is)
      | cons g gs => simp [consStr]
    have hnil : consStr [] ((groups isDelim is).map fun g => g.flatMap lineText1)
        = (groups isDelim is).map fun g => g.flatMap lineText1 := by
      cases hg : groups isDelim is with
      | nil => exact absurd hg (groups_ne_nil is)
      | cons g gs => simp [consStr]
    rcases i with ⟨r, v⟩
    cases v with
    | s t =>
      have ht : '"' ∉ t := hi
      have e : ((Val.s t).s3 false (decide (RList.Ctl.one ≠ RList.Ctl.zero)) false false false
          false).1 = t := by
        simp [Val.s3, escQuote_id t ht]
      simp only [RList.lineGo, e]
      rw [ih _ _ h' (by simp [h2, ht]) hf, hcons rfl]
      rfl
    | o hd =>
      simp only [RList.lineGo]
      have e : ((Val.o hd).s3 false (decide (RList.Ctl.one ≠ RList.Ctl.zero)) false false false
          false).1 = c!"obj" := rfl
      rw [e, ih _ _ h' (by simp [h2]) hf, hcons rfl]
      rfl
    | k kw =>
      simp only [RList.lineGo]
      by_cases hd : isDelim ⟨r, .k kw⟩ = true
      · have hd' : (kw.id == .dunhao || kw.id == .jvhao) = true := by
          simpa [isDelim, isSep, isStop] using hd
        rw [if_pos hd', fieldsLine_snoc fs s2 hf,
          ih [] (fs ++ [s2]) h' (by simp) (by
            intro g hg
            rcases List.mem_append.1 hg with hg | hg
            · exact hf g hg
            · simp only [List.mem_singleton] at hg; exact hg ▸ h2)]
        rw [hnil]
        simp only [groups, hd, if_true, List.map_cons, List.flatMap_nil, consStr, List.append_nil,
          List.append_assoc, List.singleton_append]
      · have hd2 : isDelim ⟨r, .k kw⟩ = false := by simpa using hd
        have hd' : (kw.id == .dunhao || kw.id == .jvhao) = false := by
          simpa [isDelim, isSep, isStop] using hd2
        rw [if_neg (by simp [hd']), ih _ _ h' h2 hf, hcons hd2]
        simp [lineText1]

/-- Splitting the line of a list of fields gives the fields back. -/
theorem split_fieldsLine (fs : List Str) (hq : ∀ f ∈ fs, '"' ∉ f) : split (fieldsLine fs) = fs := by
  -- the line as a specification line
  have key : ∀ fs : List Str, (∀ f ∈ fs, '"' ∉ f) → ∃ line : List (List Piece × List Char),
      LineOk line ∧ lineText line = fieldsLine fs ∧ line.map (fun w => wordValue w.1) = fs := by
    intro fs
    induction fs with
    | nil => intro _; exact ⟨[], trivial, rfl, rfl⟩
    | cons f fs ih =>
      intro hq
      obtain ⟨line, h1, h2, h3⟩ := ih (fun x hx => hq x (by simp [hx]))
      have hok := fieldPiece_ok f (hq f (by simp))
      cases fs with
      | nil =>
        refine ⟨[([fieldPiece f], [])], ⟨by simp, by simpa using hok, by simp, by simp, trivial⟩,
          ?_, ?_⟩
        · simp [lineText, wordText, fieldsLine]
        · simp [wordValue, fieldPiece_value]
      | cons g gs =>
        refine ⟨([fieldPiece f], [' ']) :: line,
          ⟨by simp, by simpa using hok, by simp [blank], by simp, h1⟩, ?_, ?_⟩
        · simp only [lineText, h2, fieldsLine]; simp [wordText]
        · rw [List.map_cons, h3]; simp [wordValue, fieldPiece_value]
  obtain ⟨line, h1, h2, h3⟩ := key fs hq
  have := C01_split_line [] (by simp) line h1
  rw [List.nil_append, h2, h3] at this
  exact this

/-- **C08.** For arguments without the character `"`, splitting the argument line gives back the
argument texts (groups delimited by `、` or `。`), in order, including empty ones and ones with blanks
or single quotes. -/
theorem C08_argument_line_partial (l : RList) (hne : l.a ≠ [])
    (h : ∀ i ∈ l.a, '"' ∉ lineText1 i) :
    split l.to1 = (groups isDelim l.a).map fun g => g.flatMap lineText1 := by
  have hto : l.to1 = fieldsLine ((groups isDelim l.a).map fun g => g.flatMap lineText1) := by
    have hl : l.a.isEmpty = false := by simpa using hne
    unfold RList.to1 RList.line
    simp only [hl, Bool.false_eq_true, if_false]
    have := lineGo_spec l.a [] [] h (by simp) (by simp)
    simp only [fieldsLine, List.nil_append] at this
    rw [this]
    have hj : ((RList.Ctl.one == RList.Ctl.j) && decide (l.len > 1)) = false := rfl
    simp only [hj, Bool.false_eq_true, if_false]
    cases hg : groups isDelim l.a with
    | nil => exact absurd hg (groups_ne_nil l.a)
    | cons g gs => simp [consStr]
  have hq : ∀ f ∈ (groups isDelim l.a).map (fun g => g.flatMap lineText1), '"' ∉ f := by
    intro f hf
    obtain ⟨g, hg, rfl⟩ := List.mem_map.1 hf
    intro hm
    obtain ⟨i, hi, hc⟩ := List.mem_flatMap.1 hm
    refine h i ?_ hc
    clear hto hf hm hc hne h
    generalize l.a = is at hg
    induction is generalizing g with
    | nil => simp [groups] at hg; subst hg; simp at hi
    | cons y ys ih =>
      simp only [groups] at hg
      by_cases hy : isDelim y
      · simp only [hy, if_true, List.mem_cons] at hg
        rcases hg with rfl | hg
        · simp at hi
        · exact List.mem_cons_of_mem _ (ih g hi hg)
      · simp only [hy, Bool.false_eq_true, if_false] at hg
        cases hgs : groups isDelim ys with
        | nil => exact absurd hgs (groups_ne_nil ys)
        | cons g0 gs =>
          rw [hgs] at hg ih
          simp only [List.mem_cons] at hg
          rcases hg with rfl | hg
          · rcases List.mem_cons.1 hi with rfl | hi
            · simp
            · exact List.mem_cons_of_mem _ (ih g0 hi (by simp))
          · exact List.mem_cons_of_mem _ (ih g hi (by simp [hg]))
  rw [hto]
  exact split_fieldsLine _ hq

example : split (⟨[exS 0 c!"a b", exD 1, exD 2, exS 3 c!"it's"], [1, 2]⟩ : RList).to1
    = [c!"a b", [], c!"it's"] := by
  rw [C08_argument_line_partial _ (by decide) (by decide)]; decide

/-- **C08 is false for arguments containing `"`**: they are rendered with a backslash the splitter
does not understand. -/
theorem C08_argument_line_counterexample :
    ∃ l : RList, WF l ∧ l.toVec = [c!"a\"b c"] ∧ split l.to1 ≠ l.toVec :=
  ⟨⟨[exS 0 c!"a\"b c"], []⟩, rfl, by decide, by decide⟩

/-! ## C09 -/

private theorem argsPick_after (b e k : Nat) (is : List Item) (hk : b ≤ k) (hke : k ≤ e) :
    ∃ rest, is = argsPick b e is k ++ rest ∧
      groups isSep (argsPick b e is k) = (groups isSep is).take (e - k + 1) ∧
      (rest = [] ∨ ∃ i r, rest = i :: r ∧ isSep i = true) := by
  induction is generalizing k with
  | nil => exact ⟨[], by simp [argsPick], by simp [argsPick, groups], by simp⟩
  | cons i is ih =>
    by_cases hs : isSep i = true
    · simp only [argsPick, dunhao_eq, hs, if_true]
      rw [if_neg (by omega), if_neg (by omega)]
      by_cases hlt : k + 1 > e
      · rw [if_pos hlt]
        have : e - k + 1 = 1 := by omega
        exact ⟨i :: is, by simp, by simp [groups, hs, this], Or.inr ⟨i, is, rfl, hs⟩⟩
      · rw [if_neg hlt]
        obtain ⟨rest, h1, h2, h3⟩ := ih (k + 1) (by omega) (by omega)
        refine ⟨rest, by rw [List.cons_append, ← h1], ?_, h3⟩
        simp only [groups, hs, if_true, h2]
        have : e - k + 1 = (e - (k + 1) + 1) + 1 := by omega
        rw [this, List.take_succ_cons]
    · simp only [argsPick, dunhao_eq, hs, Bool.false_eq_true, if_false]
      rw [if_neg (by omega), if_neg (by omega)]
      obtain ⟨rest, h1, h2, h3⟩ := ih k hk hke
      refine ⟨rest, by rw [List.cons_append, ← h1], ?_, h3⟩
      simp only [groups, hs, Bool.false_eq_true, if_false, h2]
      cases hg : groups isSep is with
      | nil => exact absurd hg (groups_ne_nil is)
      | cons g gs => simp

private theorem argsPick_before (b e k : Nat) (is : List Item) (hk : k < b) (hbe : b ≤ e) :
    (∃ pre rest, is = pre ++ argsPick b e is k ++ rest) ∧
      (groups isSep (argsPick b e is k) =
          (if b - k < (groups isSep is).length then
            ((groups isSep is).drop (b - k)).take (e - b + 1) else [[]])) ∧
      ((groups isSep is).length ≤ b - k → argsPick b e is k = []) := by
  induction is generalizing k with
  | nil =>
    refine ⟨⟨[], [], by simp [argsPick]⟩, ?_, by simp [argsPick]⟩
    rw [if_neg (by simp [groups]; omega)]
    simp [argsPick, groups]
  | cons i is ih =>
    by_cases hs : isSep i = true
    · simp only [argsPick, dunhao_eq, hs, if_true]
      by_cases he : k + 1 = b
      · rw [if_pos he]
        obtain ⟨rest, h1, h2, _⟩ := argsPick_after b e (k + 1) is (by omega) (by omega)
        have hne := List.length_pos_iff.2 (groups_ne_nil (p := isSep) is)
        refine ⟨⟨[i], rest, ?_⟩, ?_, ?_⟩
        · rw [List.append_assoc, ← h1, List.singleton_append]
        · rw [h2]
          have h1b : b - k = 1 := by omega
          simp only [groups, hs, if_true, h1b, List.length_cons, List.drop_succ_cons,
            List.drop_zero]
          rw [if_pos (by omega), he]
        · simp only [groups, hs, if_true, List.length_cons]
          intro h
          omega
      · rw [if_neg he, if_pos (by omega)]
        obtain ⟨⟨pre, rest, h1⟩, h2, h3⟩ := ih (k + 1) (by omega)
        refine ⟨⟨i :: pre, rest, by rw [List.cons_append, List.cons_append, ← h1]⟩, ?_, ?_⟩
        · rw [h2]
          simp only [groups, hs, if_true, List.length_cons]
          have : b - k = (b - (k + 1)) + 1 := by omega
          rw [this, List.drop_succ_cons]
          by_cases hh : b - (k + 1) < (groups isSep is).length
          · rw [if_pos hh, if_pos (by omega)]
          · rw [if_neg hh, if_neg (by omega)]
        · simp only [groups, hs, if_true, List.length_cons]
          intro h
          exact h3 (by omega)
    · simp only [argsPick, dunhao_eq, hs, Bool.false_eq_true, if_false]
      rw [if_pos hk]
      obtain ⟨⟨pre, rest, h1⟩, h2, h3⟩ := ih k hk
      refine ⟨⟨i :: pre, rest, by rw [List.cons_append, List.cons_append, ← h1]⟩, ?_, ?_⟩
      · rw [h2]
        simp only [groups, hs, Bool.false_eq_true, if_false]
        cases hg : groups isSep is with
        | nil => exact absurd hg (groups_ne_nil is)
        | cons g gs =>
          simp only [List.length_cons]
          have : b - k = (b - k - 1) + 1 := by omega
          rw [this]
          simp only [List.drop_succ_cons]
      · simp only [groups, hs, Bool.false_eq_true, if_false]
        cases hg : groups isSep is with
        | nil => exact absurd hg (groups_ne_nil is)
        | cons g gs =>
          rw [hg] at h3
          simpa using h3

/-- **C09.** Reading the argument stack from `b` to `e` (`1 ≤ b ≤ e`): the items appended are one
contiguous stretch of the argument list whose groups are exactly the arguments `b .. min(e, n)`; with
fewer than `b` arguments nothing is appended.  If nothing is appended, a separator at the end of the
result is removed; otherwise the result is only extended. -/
theorem C09_argument_range (ovf : Bool) (a ret : RList) (b e : Nat) (hb : 1 ≤ b)
    (hbe : b ≤ e) :
    ∃ items r, argsList ovf a b e ret = .ok r ∧
      (∃ pre post, a.a = pre ++ items ++ post) ∧
      (b ≤ (argsOf a).length →
        groups isSep items = ((argsOf a).drop (b - 1)).take (e - b + 1)) ∧
      ((argsOf a).length < b → items = []) ∧
      (items ≠ [] → r.a = ret.a ++ items) ∧
      (items = [] → r = ret.popEnd) ∧
      (WF ret → WF r) := by
  by_cases hne : a.a = []
  · have hargs : argsOf a = [] := by simp [argsOf, hne]
    refine ⟨[], ret.popEnd, ?_, ⟨[], [], by simp [hne]⟩, ?_, by simp, by simp, by simp,
      fun h => WF_popEnd h⟩
    · simp [argsList, argsAct, hne]
    · rw [hargs]; simp; omega
  · have hargs : argsOf a = groups isSep a.a := by simp [argsOf, hne]
    have hempty : a.a.isEmpty = false := by simpa using hne
    have hbi : ∀ m, i2u ovf (b : Int) m = .ok b := by intro m; simp [i2u]
    have hei : ∀ m, i2u ovf (e : Int) m = .ok e := by intro m; simp [i2u]
    have hact : argsAct ovf false a b e false = .ok (.addItems (argsPick b e a.a 1)) := by
      simp [argsAct, hempty, hbi, hei, hbe]
    have hr : argsList ovf a b e ret = .ok
        (if (argsPick b e a.a 1).isEmpty then ret.popEnd else ret.addAll (argsPick b e a.a 1)) := by
      simp only [argsList, hact, Out.ok_bind, Out.pure_def]
      by_cases hp : argsPick b e a.a 1 = []
      · simp [hp, addAll_nil]
      · have : (argsPick b e a.a 1).isEmpty = false := by simpa using hp
        simp [this]
    refine ⟨argsPick b e a.a 1, _, hr, ?_, ?_, ?_, ?_, ?_, ?_⟩
    · by_cases h1 : b = 1
      · obtain ⟨rest, h, _⟩ := argsPick_after b e 1 a.a (by omega) (by omega)
        exact ⟨[], rest, by simpa using h⟩
      · obtain ⟨⟨pre, rest, h⟩, _⟩ := argsPick_before b e 1 a.a (by omega) hbe
        exact ⟨pre, rest, h⟩
    · intro hn
      rw [hargs] at hn ⊢
      by_cases h1 : b = 1
      · obtain ⟨rest, _, h, _⟩ := argsPick_after b e 1 a.a (by omega) (by omega)
        rw [h, h1]; simp
      · obtain ⟨_, h, _⟩ := argsPick_before b e 1 a.a (by omega) hbe
        rw [h, if_pos (by omega)]
    · intro hn
      rw [hargs] at hn
      have hpos := List.length_pos_iff.2 (groups_ne_nil (p := isSep) a.a)
      obtain ⟨_, _, h⟩ := argsPick_before b e 1 a.a (by omega) hbe
      exact h (by omega)
    · intro hp
      have : (argsPick b e a.a 1).isEmpty = false := by simpa using hp
      simp [this, addAll_a]
    · intro hp
      simp [hp]
    · intro h
      split
      · exact WF_popEnd h
      · exact WF_addAll h _

example : argsList true ⟨[exS 0 c!"a", exD 1, exS 2 c!"b", exD 3, exS 4 c!"c"], [1, 3]⟩ 2 9
    ⟨[exS 7 c!"x"], []⟩ = .ok ⟨[exS 7 c!"x", exS 2 c!"b", exD 3, exS 4 c!"c"], [2]⟩ := by decide

/-! ## C46 -/

private theorem backGo_moves (pre mid : List Item) (d : List Nat) (r : RList)
    (hm : ∀ i ∈ mid, isStop i = false) (hd : ∀ p ∈ d, p < pre.length) :
    ∃ r', RList.backGo ((pre.length : Int) - 1) (pre ++ mid).length ⟨pre ++ mid, d⟩ r
        = (⟨pre, d⟩, r') ∧ r'.a = mid ++ r.a := by
  induction mid using List.reverseRecOn generalizing r with
  | nil =>
    refine ⟨r, ?_, by simp⟩
    simp only [List.append_nil]
    cases hp : pre.length with
    | zero => simp [RList.backGo]
    | succ n =>
      simp only [RList.backGo]
      rw [if_pos (by omega)]
  | append_singleton mid x ih =>
    have hx : isStop x = false := hm x (by simp)
    obtain ⟨r', h1, h2⟩ := ih (r.ins x) (fun i hi => hm i (by simp [hi]))
    refine ⟨r', ?_, by simp [h2, RList.ins]⟩
    have hlen : (pre ++ (mid ++ [x])).length = (pre ++ mid).length + 1 := by
      simp; omega
    rw [hlen]
    simp only [RList.backGo]
    rw [if_neg (by simp; omega)]
    have hget : (pre ++ (mid ++ [x]))[(pre ++ mid).length]? = some x := by
      rw [← List.append_assoc, List.getElem?_append_right (Nat.le_refl _)]; simp
    simp only [hget, jvhao_eq, hx, Bool.false_eq_true, if_false]
    have hrm : (RList.rm ⟨pre ++ (mid ++ [x]), d⟩ (pre ++ mid).length) = ⟨pre ++ mid, d⟩ := by
      unfold RList.rm
      simp only [RList.mk.injEq]
      constructor
      · rw [← List.append_assoc, List.eraseIdx_append_of_length_le (Nat.le_refl _)]
        simp
      · have hlt : ∀ p ∈ d, p < (pre ++ mid).length := fun p hp => by
          have := hd p hp
          simp; omega
        rw [List.filter_eq_self.2 (fun p hp => by have := hlt p hp; simp only [decide_eq_true_eq]; omega)]
        conv => rhs; rw [← List.map_id d]
        apply List.map_congr_left
        intro p hp
        have := hlt p hp
        simp only [id]
        rw [if_neg (by omega)]
    rw [hrm]
    exact h1

/-- **C46.** Moving `n ≥ 1` left-hand groups out of a well-formed list, when the moved part contains
no sentence end: the last `n` groups (with the separators between them) go, in order, followed by one
separator, in front of the call's own arguments; the earlier groups stay.  Stated by cases: `n` equal
to the number of groups (everything moves), or a separator standing before the last `n` groups. -/
theorem C46_move_all_groups_partial (l ret : RList) (hl : WF l) (sep : Item) (n : Nat)
    (hn : n = (groups isSep l.a).length) (hstop : ∀ i ∈ l.a, isStop i = false) :
    ∃ r', l.backarg n sep ret = .ok (some (⟨[], []⟩, r')) ∧ r'.a = l.a ++ sep :: ret.a := by
  have hdl := hl.dun_length
  obtain ⟨r', h1, h2⟩ := backGo_moves [] l.a [] (ret.ins sep) hstop (by simp)
  refine ⟨r', ?_, by simp [h2, RList.ins]⟩
  unfold RList.backarg
  rw [if_neg (by omega)]
  have hlt : l.dun.length < n := by omega
  simp only [hlt, if_true, List.take_zero]
  simpa using h1

theorem C46_move_last_groups_partial (l ret : RList) (hl : WF l) (sep sep0 : Item) (n : Nat)
    (pre post : List Item) (ha : l.a = pre ++ sep0 :: post) (hs : isSep sep0 = true)
    (hpost : (groups isSep post).length = n) (hstop : ∀ i ∈ post, isStop i = false) :
    ∃ r', l.backarg n sep ret = .ok (some (⟨pre ++ [sep0], sepPos 0 pre⟩, r')) ∧
      r'.a = post ++ sep :: ret.a := by
  have hdun : l.dun = sepPos 0 pre ++ pre.length :: sepPos (pre.length + 1) post := by
    rw [hl, ha, sepPos_append]
    simp [sepPos, hs]
  have hpl : (sepPos (pre.length + 1) post).length + 1 = n := by
    rw [sepPos_length, ← hpost, groups_length]
  obtain ⟨r', h1, h2⟩ := backGo_moves (pre ++ [sep0]) post (sepPos 0 pre) (ret.ins sep) hstop
    (by
      intro p hp
      obtain ⟨i, _, hi, _⟩ := mem_sepPos.1 hp
      have := (List.getElem?_eq_some_iff.1 hi).1
      simp at this ⊢; omega)
  refine ⟨r', ?_, by simp [h2, RList.ins]⟩
  have hlen : l.dun.length = (sepPos 0 pre).length + n := by
    rw [hdun]; simp; omega
  unfold RList.backarg
  rw [if_neg (by omega)]
  have hlt : ¬ l.dun.length < n := by omega
  have hi : l.dun.length - n = (sepPos 0 pre).length := by omega
  have hget : l.dun[(sepPos 0 pre).length]? = some pre.length := by
    rw [hdun, List.getElem?_append_right (Nat.le_refl _)]; simp
  have htake : l.dun.take (sepPos 0 pre).length = sepPos 0 pre := by
    rw [hdun, List.take_left']; rfl
  simp only [hlt, if_false, hi, hget, htake, Option.map_some]
  have e1 : Int.ofNat pre.length = ((pre ++ [sep0]).length : Int) - 1 := by simp
  have e2 : l.a = (pre ++ [sep0]) ++ post := by simp [ha]
  rw [e1, e2, h1]

/-- **C46.** With fewer than `n` groups an error is reported (and nothing moves: the result carries
no lists). -/
theorem C46_not_enough (l ret : RList) (hl : WF l) (sep : Item) (n : Nat)
    (hn : (groups isSep l.a).length < n) : l.backarg n sep ret = .ok none := by
  have := hl.dun_length
  unfold RList.backarg
  rw [if_pos (by omega)]

/-- **C46 is false when a sentence end stands among the groups**: only the items after it move,
fewer than the requested groups, and still no error is reported. -/
theorem C46_stop_counterexample :
    ∃ (l l' r' : RList) (sep : Item), WF l ∧ isSep sep = true ∧
      (groups isSep l.a).length = 2 ∧
      l.backarg 2 sep RList.empty = .ok (some (l', r')) ∧
      groups isSep r'.a = [[exS 4 c!"c"], []] :=
  ⟨⟨[exS 0 c!"a", exD 1, exS 2 c!"b", ⟨3, .k (kw .jvhao)⟩, exS 4 c!"c"], [1]⟩,
    ⟨[exS 0 c!"a", exD 1, exS 2 c!"b", ⟨3, .k (kw .jvhao)⟩], []⟩, ⟨[exS 4 c!"c", exD 9], [1]⟩, exD 9,
    rfl, rfl, by decide, by decide, by decide⟩

/-- **C46.** Asking for zero groups crashes. -/
theorem C46_zero_counterexample (l ret : RList) (sep : Item) : l.backarg 0 sep ret = .panic := by
  simp [RList.backarg]

example : (⟨[exS 0 c!"a", exD 1, exS 2 c!"b", exD 3, exS 4 c!"c"], [1, 3]⟩ : RList).backarg 2 (exD 9)
    ⟨[exS 5 c!"x"], []⟩ = .ok (some (⟨[exS 0 c!"a", exD 1], []⟩,
      ⟨[exS 2 c!"b", exD 3, exS 4 c!"c", exD 9, exS 5 c!"x"], [1, 3]⟩)) := by decide

/-! ### The line form of a range -/

/-- The groups with the numbers `b` to `e` that are not empty; the first group has the number `k`. -/
def pickLine (b e : Nat) : Nat → List (List Item) → List (List Item)
  | _, [] => []
  | k, g :: gs => (if b ≤ k ∧ k ≤ e ∧ g ≠ [] then [g] else []) ++ pickLine b e (k + 1) gs

theorem pickLine_nil (b e k : Nat) (gs : List (List Item)) (h : e < k) : pickLine b e k gs = [] := by
  induction gs generalizing k with
  | nil => rfl
  | cons g gs ih =>
    rw [pickLine, if_neg (by omega), ih (k + 1) (by omega)]
    rfl

theorem pickLine_eq (b e : Nat) (gs : List (List Item)) (k : Nat) :
    pickLine b e k gs = ((gs.drop (b - k)).take (e + 1 - max b k)).filter fun g => !g.isEmpty := by
  induction gs generalizing k with
  | nil => simp [pickLine]
  | cons g gs ih =>
    rw [pickLine, ih]
    by_cases hb : b ≤ k
    · have h0 : b - k = 0 := by omega
      have h1 : b - (k + 1) = 0 := by omega
      rw [h0, h1, List.drop_zero, List.drop_zero]
      by_cases he : k ≤ e
      · have h2 : e + 1 - max b k = (e + 1 - max b (k + 1)) + 1 := by omega
        rw [h2, List.take_succ_cons]
        cases g with
        | nil => simp
        | cons i is => rw [if_pos ⟨hb, he, by simp⟩]; simp
      · have h2 : e + 1 - max b k = 0 := by omega
        have h3 : e + 1 - max b (k + 1) = 0 := by omega
        rw [h2, h3, if_neg (by omega)]
        simp
    · have h0 : b - k = (b - (k + 1)) + 1 := by omega
      have h1 : max b (k + 1) = max b k := by omega
      rw [h0, h1, List.drop_succ_cons, if_neg (by omega)]
      rfl

/-- The text of a group. -/
def groupText (g : List Item) : Str := g.flatMap fun i => i.val.plain

theorem argsLineGo_spec (b e : Nat) (is : List Item) (h : ∀ i ∈ is, '"' ∉ i.val.plain) (k : Nat) (fs : List Str)
    (hf : ∀ g ∈ fs, '"' ∉ g) :
    argsLineGo b e is k [] false (fieldsLine fs) =
        fieldsLine (fs ++ (pickLine b e k (groups isSep is)).map groupText) ∧
      ∀ s2, '"' ∉ s2 → b ≤ k → k ≤ e → ∀ g gs, groups isSep is = g :: gs →
        argsLineGo b e is k s2 true (fieldsLine fs) =
          fieldsLine (fs ++ (s2 ++ groupText g) :: (pickLine b e (k + 1) gs).map groupText) := by
  induction is generalizing k fs with
  | nil =>
    refine ⟨by simp [argsLineGo, groups, pickLine], fun s2 h2 hb he g gs hg => ?_⟩
    simp only [groups, List.cons.injEq] at hg
    obtain ⟨rfl, rfl⟩ := hg
    simp only [argsLineGo, if_true, groupText, List.flatMap_nil, List.append_nil, pickLine, List.map_nil]
    exact fieldsLine_snoc fs s2 hf
  | cons i is ih =>
    have h' : ∀ i ∈ is, '"' ∉ i.val.plain := fun j hj => h j (by simp [hj])
    have hi := h i (by simp)
    by_cases hs : isSep i = true
    · simp only [argsLineGo, dunhao_eq, hs, if_true, groups]
      refine ⟨?_, fun s2 h2 hb he g gs hg => ?_⟩
      · simp only [Bool.false_eq_true, if_false]
        rw [(ih h' (k + 1) fs hf).1, pickLine, if_neg (by simp), List.nil_append]
      · simp only [List.cons.injEq] at hg
        obtain ⟨rfl, rfl⟩ := hg
        rw [fieldsLine_snoc fs s2 hf, (ih h' (k + 1) (fs ++ [s2]) (by
          intro g hg
          rcases List.mem_append.1 hg with hg | hg
          · exact hf g hg
          · simp only [List.mem_singleton] at hg; exact hg ▸ h2)).1]
        simp [groupText]
    · have hs' : isSep i = false := by simpa using hs
      obtain ⟨g0, gs0, hg0⟩ : ∃ g gs, groups isSep is = g :: gs := by
        cases hg : groups isSep is with
        | nil => exact absurd hg (groups_ne_nil is)
        | cons g gs => exact ⟨g, gs, rfl⟩
      simp only [argsLineGo, dunhao_eq, hs', Bool.false_eq_true, if_false, groups, hg0]
      refine ⟨?_, fun s2 h2 hb he g gs hg => ?_⟩
      · by_cases hb : k < b
        · rw [if_pos hb, (ih h' k fs hf).1, hg0]
          simp only [pickLine]
          rw [if_neg (by omega), if_neg (by omega)]
        · rw [if_neg hb]
          by_cases he : k > e
          · rw [if_pos he, pickLine_nil _ _ _ _ he]
            simp
          · rw [if_neg he, List.nil_append, (ih h' k fs hf).2 _ hi (by omega) (by omega) g0 gs0 hg0, pickLine,
              if_pos ⟨by omega, by omega, by simp⟩]
            simp [groupText]
      · simp only [List.cons.injEq] at hg
        obtain ⟨rfl, rfl⟩ := hg
        rw [if_neg (by omega), if_neg (by omega),
          (ih h' k fs hf).2 _ (by simp [h2, hi]) hb he g0 gs0 hg0]
        simp [groupText]

theorem mem_groups_sub {i : Item} {is g : List Item} (hg : g ∈ groups isSep is) (hi : i ∈ g) : i ∈ is := by
  induction is generalizing g with
  | nil => simp [groups] at hg; subst hg; simp at hi
  | cons y ys ih =>
    simp only [groups] at hg
    by_cases hy : isSep y
    · simp only [hy, if_true, List.mem_cons] at hg
      rcases hg with rfl | hg
      · simp at hi
      · exact List.mem_cons_of_mem _ (ih hg hi)
    · simp only [hy, Bool.false_eq_true, if_false] at hg
      cases hgs : groups isSep ys with
      | nil => exact absurd hgs (groups_ne_nil ys)
      | cons g0 gs =>
        rw [hgs] at hg ih
        simp only [List.mem_cons] at hg
        rcases hg with rfl | hg
        · rcases List.mem_cons.1 hi with rfl | hi
          · simp
          · exact List.mem_cons_of_mem _ (ih (g := g0) (by simp) hi)
        · exact List.mem_cons_of_mem _ (ih (g := g) (by simp [hg]) hi)

/-- **C08, ranges.**  The line of the arguments `b` to `e`: the whole line when all items are meant; otherwise a text
that splits into the texts of the arguments `b .. min(e, n)` that are not empty, in order (for arguments without the
character `"`).  The empty ones are missing, see `C08_range_line_counterexample`. -/
theorem C08_range_line_partial (ovf : Bool) (l : RList) (b e : Nat) (hb : 1 ≤ b) (hbe : b ≤ e) (hne : l.a ≠ []) :
    (b = 1 ∧ l.a.length ≤ e → argsAct ovf false l b e true = .ok .addLine) ∧
      (¬ (b = 1 ∧ l.a.length ≤ e) → (∀ i ∈ l.a, '"' ∉ i.val.plain) →
        ∃ t, argsAct ovf false l b e true = .ok (.addText t) ∧
          split t = ((((argsOf l).drop (b - 1)).take (e + 1 - b)).filter fun g => !g.isEmpty).map groupText) := by
  have hargs : argsOf l = groups isSep l.a := by simp [argsOf, hne]
  have hempty : l.a.isEmpty = false := by simpa using hne
  have hbi : ∀ m, i2u ovf (b : Int) m = .ok b := by intro m; simp [i2u]
  have hei : ∀ m, i2u ovf (e : Int) m = .ok e := by intro m; simp [i2u]
  refine ⟨fun h => ?_, fun h hq => ⟨argsLineGo b e l.a 1 [] false [], ?_, ?_⟩⟩
  · have hc : (b = 1 ∧ e ≥ l.a.length) = True := eq_true h
    have hge : (e ≥ b) = True := eq_true hbe
    simp only [argsAct, hempty, hbi, hei, Out.ok_bind, hge, Bool.false_eq_true, if_false, if_true, hc, Bool.not_false]
    rfl
  · have : ¬ (b = 1 ∧ e ≥ l.a.length) := h
    simp [argsAct, hempty, hbi, hei, hbe, this]
  · have := (argsLineGo_spec b e l.a hq 1 [] (by simp)).1
    rw [pickLine_eq, ← hargs, show max b 1 = b by omega, List.nil_append] at this
    change argsLineGo b e l.a 1 [] false [] = _ at this
    rw [this]
    refine split_fieldsLine _ fun f hf => ?_
    obtain ⟨g, hg, rfl⟩ := List.mem_map.1 hf
    intro hm
    obtain ⟨i, hi, hc⟩ := List.mem_flatMap.1 hm
    refine hq i ?_ hc
    rw [hargs] at hg
    exact mem_groups_sub (List.mem_of_mem_drop (List.mem_of_mem_take (List.mem_filter.1 hg).1)) hi

/-- The arguments 2 to 4 of `a`, `b c`, nothing, `d`, `e`: the empty one is lost. -/
theorem C08_range_line_counterexample :
    argsAct false false ⟨[exS 0 c!"a", exD 1, exS 2 c!"b c", exD 3, exD 4, exS 5 c!"d", exD 6, exS 7 c!"e"],
      [1, 3, 4, 6]⟩ 2 4 true = .ok (.addText c!"\"b c\" d") := by
  decide

end Zh
