import Verif.Model.Tree
import Verif.Model.Pars
/-!
# C85: the tree shown for a program is the program

The printer carries one array over the whole tree, in which every level leaves the mark of its latest line.  The specification has
no such array: a line is given by the levels around it, each of which says whether more lines follow on it.
-/
namespace Zh

namespace Spec

/-- One line of the tree.  `bars`: for every level around it, outermost first, whether the line it hangs on has another line after it
on the same list.  `first`, `last`: its place on its own list.  `inner`: a keyword inside a statement. -/
structure TreeLine where
  bars : List Bool
  tail : Bool
  first : Bool
  last : Bool
  inner : Bool
  text : Str

/-- The mark in front of a line. -/
def TreeLine.mark (l : TreeLine) : Char :=
  match l.bars, l.first, l.last with
  | [], true, true => '<'
  | [], true, false => '/'
  | _, _, true => '\\'
  | _, _, false => '|'

/-- How a line is printed. -/
def TreeLine.str (l : TreeLine) : Str :=
  pad2 l.bars.length ++ yn l.tail ++ yn l.first ++ yn l.last ++ c!" " ++ ansiOn
    ++ l.bars.flatMap (fun b => if b then c!"|  " else c!"   ")
    ++ [l.mark] ++ (if l.inner then c!" " else c!"-") ++ l.text ++ ansiOff ++ c!"\n"

/-- The flag `tail`: decided by the lines of the outermost list, passed on to what hangs on them. -/
def tailAt (bars : List Bool) (tail now : Bool) : Bool := if bars.isEmpty then now else tail

mutual
/-- The lines of one item.  An item has its own line, one for `kw2` and one for `kw3`. -/
def itemLines : Tr → List Bool → Bool → Bool → Bool → List TreeLine
  | .node s a none a2 _ a3, bars, tail, first, last =>
    let t := tailAt bars tail last
    ⟨bars, t, first, last, false, s⟩ :: (listLines a (bars ++ [!last]) t true ++ listLines a2 (bars ++ [!last]) t true
      ++ listLines a3 (bars ++ [!last]) t true)
  | .node s a (some k) a2 none a3, bars, tail, first, last =>
    let t := tailAt bars tail last
    ⟨bars, tailAt bars tail false, first, false, false, s⟩ :: (listLines a (bars ++ [true]) (tailAt bars tail false) true
      ++ ⟨bars, t, false, last, true, k⟩ :: (listLines a2 (bars ++ [!last]) t true ++ listLines a3 (bars ++ [!last]) t true))
  | .node s a (some k) a2 (some k3) a3, bars, tail, first, last =>
    let t := tailAt bars tail false
    ⟨bars, t, first, false, false, s⟩ :: (listLines a (bars ++ [true]) t true
      ++ ⟨bars, t, false, false, true, k⟩ :: (listLines a2 (bars ++ [true]) t true
      ++ ⟨bars, t, false, last, true, k3⟩ :: listLines a3 (bars ++ [!last]) t true))
/-- The lines of a list of items. -/
def listLines : List Tr → List Bool → Bool → Bool → List TreeLine
  | [], _, _, _ => []
  | t :: ts, bars, tail, first => itemLines t bars tail first ts.isEmpty ++ listLines ts bars tail false
end

/-- The tree of a program. -/
def treeOf (l : List Code) : List TreeLine := listLines (trL l) [] false true

mutual
/-- How deep lists stand inside each other. -/
def Tr.depth : Tr → Nat
  | .node _ a _ a2 _ a3 => max (depthL a) (max (depthL a2) (depthL a3)) + 1
def depthL : List Tr → Nat
  | [] => 0
  | t :: ts => max (Tr.depth t) (depthL ts)
end

mutual
/-- A third keyword only after a second one. -/
def Tr.Ok : Tr → Prop
  | .node _ a kw2 a2 kw3 a3 => (kw2 = none → kw3 = none) ∧ OkL a ∧ OkL a2 ∧ OkL a3
def OkL : List Tr → Prop
  | [] => True
  | t :: ts => Tr.Ok t ∧ OkL ts
end

end Spec

open Spec

/-- What the array says about a level. -/
def weiBar (c : Char) : Bool := !(c == '\\' || c == '<')

theorem weiBar_mark (d : Nat) (e f t : Bool) (h : d = 0 → t = true → e = true) : weiBar (treeMark d e f t) = !e := by
  cases d with
  | zero => cases e <;> cases f <;> cases t <;> first | rfl | (simp at h)
  | succ d => cases e <;> cases f <;> cases t <;> rfl

theorem mark_eq (bars : List Bool) (e f t i : Bool) (s : Str) (h : bars.length = 0 → t = true → e = true) :
    treeMark bars.length e f t = (TreeLine.mark ⟨bars, t, f, e, i, s⟩) := by
  cases bars with
  | nil => cases e <;> cases f <;> cases t <;> first | rfl | (simp at h)
  | cons b bs => cases e <;> cases f <;> cases t <;> rfl

theorem cols_eq (cs : List Char) : cs.flatMap treeCol = (cs.map weiBar).flatMap (fun b => if b then c!"|  " else c!"   ") := by
  induction cs with
  | nil => rfl
  | cons c cs ih =>
    simp only [List.flatMap_cons, List.map_cons, ih]
    congr 1
    unfold treeCol weiBar
    cases (c == '\\' || c == '<') <;> rfl

theorem take_set_self (l : List Char) (d : Nat) (c : Char) : (l.set d c).take d = l.take d := by
  rw [List.take_set_of_le (Nat.le_refl _)]

theorem take_succ_set (l : List Char) (d : Nat) (c : Char) (h : d < l.length) : (l.set d c).take (d + 1) = l.take d ++ [c] := by
  rw [List.take_add_one, take_set_self]
  simp [h]

/-- A line. -/
theorem line_ok (bars : List Bool) (wei : List Char) (sp : Bool) (s : Str) (e f t : Bool)
    (hw : (wei.take bars.length).map weiBar = bars) (hd : bars.length < wei.length)
    (ht : bars.length = 0 → t = true → e = true) :
    ∃ w', treeLine (if sp then c!" " else c!"-") s bars.length wei e f t = (TreeLine.str ⟨bars, t, f, e, sp, s⟩, some w')
      ∧ w'.length = wei.length ∧ w'.take bars.length = wei.take bars.length
      ∧ (w'.take (bars.length + 1)).map weiBar = bars ++ [!e] := by
  refine ⟨wei.set bars.length (treeMark bars.length e f t), ?_, by simp, take_set_self .., ?_⟩
  · unfold treeLine
    simp only [hd, if_true]
    rw [take_set_self, cols_eq, hw, mark_eq bars e f t sp s ht]
    simp only [TreeLine.str, List.append_assoc]
  · rw [take_succ_set _ _ _ hd, List.map_append, hw, List.map_singleton, weiBar_mark _ _ _ _ ht]

/-- What is shown of a piece of the tree: its text is printed, the levels around it are untouched. -/
def Shown (x : TreeOut) (d n : Nat) (keep : List Char) (ls : List TreeLine) : Prop :=
  ∃ w', x = (ls.flatMap TreeLine.str, some w') ∧ w'.length = n ∧ w'.take d = keep

theorem Shown.seq {x : TreeOut} {f : List Char → TreeOut} {d d' n : Nat} {k k' : List Char} {l1 l2 : List TreeLine}
    (hx : Shown x d n k l1) (hf : ∀ w, w.length = n → w.take d = k → Shown (f w) d' n k' l2) :
    Shown (TreeOut.seq x f) d' n k' (l1 ++ l2) := by
  obtain ⟨w, rfl, hl, hk⟩ := hx
  obtain ⟨w2, h2, hl2, hk2⟩ := hf w hl hk
  exact ⟨w2, by simp [TreeOut.seq, h2], hl2, hk2⟩

theorem Shown.weaken {x : TreeOut} {d n : Nat} {k : List Char} {ls : List TreeLine} (h : Shown x (d + 1) n k ls) :
    Shown x d n (k.take d) ls := by
  obtain ⟨w, rfl, hl, hk⟩ := h
  exact ⟨w, rfl, hl, by rw [← hk, List.take_take]; simp⟩

/-- A line, with the levels up to and including its own afterwards. -/
theorem line_shown (bars : List Bool) (wei : List Char) (sp : Bool) (s : Str) (e f t : Bool)
    (hw : (wei.take bars.length).map weiBar = bars) (hd : bars.length < wei.length)
    (ht : bars.length = 0 → t = true → e = true) :
    ∃ k, Shown (treeLine (if sp then c!" " else c!"-") s bars.length wei e f t) (bars.length + 1) wei.length k
        [⟨bars, t, f, e, sp, s⟩] ∧ k.take bars.length = wei.take bars.length ∧ k.map weiBar = bars ++ [!e] := by
  obtain ⟨w', h1, h2, h3, h4⟩ := line_ok bars wei sp s e f t hw hd ht
  refine ⟨w'.take (bars.length + 1), ⟨w', by simp [h1], h2, rfl⟩, ?_, h4⟩
  rw [List.take_take, ← h3]; simp

/-- The statement about an item. -/
def ItemOk (t : Tr) : Prop :=
  Tr.Ok t → ∀ (bars : List Bool) (tail first last : Bool) (wei : List Char),
    (wei.take bars.length).map weiBar = bars → bars.length + Spec.Tr.depth t ≤ wei.length →
    Shown (t.dump bars.length tail first last wei) bars.length wei.length (wei.take bars.length) (itemLines t bars tail first last)

/-- The statement about a list. -/
def ListOk (l : List Tr) : Prop :=
  OkL l → ∀ (bars : List Bool) (tail first : Bool) (wei : List Char),
    (wei.take bars.length).map weiBar = bars → bars.length + depthL l ≤ wei.length →
    Shown (dumpL l bars.length tail first wei) bars.length wei.length (wei.take bars.length) (listLines l bars tail first)

/-- A list hanging on a line. -/
theorem list_under {l : List Tr} (h : ListOk l) (ho : OkL l) {bars : List Bool} {b : Bool} {k : List Char} {n : Nat}
    (hk : k.map weiBar = bars ++ [b]) (hd : bars.length + 1 + depthL l ≤ n) (t : Bool) (w : List Char) (hl : w.length = n)
    (hw : w.take (bars.length + 1) = k) :
    Shown (dumpL l (bars.length + 1) t true w) (bars.length + 1) n k (listLines l (bars ++ [b]) t true) := by
  have h1 := h ho (bars ++ [b]) t true w (by simp [hw, hk]) (by simp; omega)
  simpa [hl, hw] using h1

theorem end2_eq (bars : List Bool) (last tail e : Bool) :
    treeEnd2 bars.length last tail e = tailAt bars tail (last && e) := by
  cases bars <;> rfl

theorem tailAt_end (bars : List Bool) (tail e : Bool) : bars.length = 0 → tailAt bars tail e = true → e = true := by
  intro h; cases bars with
  | nil => exact id
  | cons => simp at h

theorem item_ok (s : Str) (a : List Tr) (kw2 : Option Str) (a2 : List Tr) (kw3 : Option Str) (a3 : List Tr)
    (ha : ListOk a) (ha2 : ListOk a2) (ha3 : ListOk a3) : ItemOk (.node s a kw2 a2 kw3 a3) := by
  intro ⟨hk, o1, o2, o3⟩ bars tail first last wei hw hd
  simp only [Spec.Tr.depth] at hd
  have hlt : bars.length < wei.length := by omega
  have d1 : bars.length + 1 + depthL a ≤ wei.length := by omega
  have d2 : bars.length + 1 + depthL a2 ≤ wei.length := by omega
  have d3 : bars.length + 1 + depthL a3 ≤ wei.length := by omega
  -- a keyword line after a list
  have kwl : ∀ (k : List Char) (b e t : Bool) (s : Str), k.take bars.length = wei.take bars.length →
      (bars.length = 0 → t = true → e = true) →
      ∃ k', k'.take bars.length = wei.take bars.length ∧ k'.map weiBar = bars ++ [!e] ∧
        ∀ w : List Char, w.length = wei.length → w.take (bars.length + 1) = k →
          Shown (treeLine c!" " s bars.length w e false t) (bars.length + 1) wei.length k' [⟨bars, t, false, e, true, s⟩] := by
    intro k b e t s hk0 ht
    refine ⟨wei.take bars.length ++ [treeMark bars.length e false t], ?_, ?_, ?_⟩
    · rw [List.take_append_of_le_length (by simp; omega), List.take_take]; simp
    · rw [List.map_append, hw, List.map_singleton, weiBar_mark _ _ _ _ ht]
    · intro w hl hwk
      have hwt : w.take bars.length = wei.take bars.length := by
        rw [← hk0, ← hwk, List.take_take]; simp
      refine ⟨w.set bars.length (treeMark bars.length e false t), ?_, by simp [hl], ?_⟩
      · unfold treeLine
        have : bars.length < w.length := by omega
        simp only [this, if_true]
        rw [take_set_self, cols_eq, hwt, hw, mark_eq bars e false t true s ht]
        simp [TreeLine.str]
      · rw [take_succ_set _ _ _ (by omega), hwt]
  cases kw2 with
  | none =>
    cases hk rfl
    simp only [Tr.dump, itemLines, end2_eq, Option.isNone_none, Bool.true_and, Bool.and_self, treeKw]
    obtain ⟨k, h1, h2, h3⟩ := line_shown bars wei false s last first (tailAt bars tail last) hw hlt (tailAt_end _ _ _)
    rw [← h2]
    have nop : ∀ w : List Char, w.length = wei.length → w.take (bars.length + 1) = k →
        Shown (([] : Str), some w) (bars.length + 1) wei.length k [] := fun w hl hw => ⟨w, rfl, hl, hw⟩
    have := ((((h1.seq (list_under ha o1 h3 d1 (tailAt bars tail last))).seq nop).seq
      (list_under ha2 o2 h3 d2 (tailAt bars tail last))).seq nop).seq
      (list_under ha3 o3 h3 d3 (tailAt bars tail last))
    simpa using this.weaken
  | some kw =>
    simp only [Tr.dump, end2_eq, Option.isNone_some, Bool.false_and, Bool.and_false, treeKw]
    obtain ⟨k, h1, h2, h3⟩ := line_shown bars wei false s false first (tailAt bars tail false) hw hlt (tailAt_end _ _ _)
    cases kw3 with
    | none =>
      simp only [itemLines, Option.isNone_none, Bool.true_and, Bool.and_self]
      obtain ⟨k', g1, g2, g3⟩ := kwl k true last (tailAt bars tail last) kw h2 (tailAt_end _ _ _)
      rw [← g1]
      have nop : ∀ w : List Char, w.length = wei.length → w.take (bars.length + 1) = k' →
          Shown (([] : Str), some w) (bars.length + 1) wei.length k' [] := fun w hl hw => ⟨w, rfl, hl, hw⟩
      have := ((((h1.seq (list_under ha o1 h3 d1 (tailAt bars tail false))).seq g3).seq
        (list_under ha2 o2 g2 d2 (tailAt bars tail last))).seq nop).seq
        (list_under ha3 o3 g2 d3 (tailAt bars tail last))
      simpa using this.weaken
    | some kw3 =>
      simp only [itemLines, Option.isNone_some, Bool.false_and, Bool.and_false]
      obtain ⟨k', g1, g2, g3⟩ := kwl k true false (tailAt bars tail false) kw h2 (tailAt_end _ _ _)
      obtain ⟨k'', f1, f2, f3⟩ := kwl k' true last (tailAt bars tail false) kw3 g1
        (fun h0 h => by have := tailAt_end bars tail false h0 h; simp at this)
      rw [← f1]
      have := ((((h1.seq (list_under ha o1 h3 d1 (tailAt bars tail false))).seq g3).seq
        (list_under ha2 o2 g2 d2 (tailAt bars tail false))).seq f3).seq
        (list_under ha3 o3 f2 d3 (tailAt bars tail false))
      simpa using this.weaken

theorem list_ok (l : List Tr) : ListOk l :=
  Tr.rec_1 (motive_1 := ItemOk) (motive_2 := ListOk)
    (fun s a kw2 a2 kw3 a3 h1 h2 h3 => item_ok s a kw2 a2 kw3 a3 h1 h2 h3)
    (by
      intro _ bars tail first wei hw _
      exact ⟨wei, by simp [dumpL, listLines], rfl, rfl⟩)
    (by
      intro t ts iht ihts ho bars tail first wei hw hd
      simp only [depthL] at hd
      simp only [dumpL, listLines]
      refine (iht ho.1 bars tail first ts.isEmpty wei hw (by omega)).seq ?_
      intro w hl hwk
      have := ihts ho.2 bars tail false w (by rw [hwk, hw]) (by omega)
      rwa [hl, hwk] at this)
    l

/-! ## Too deep -/

/-- The piece does not come to an end of its own. -/
def Broken (x : TreeOut) : Prop := x.2 = none

theorem Broken.left {x : TreeOut} {f : List Char → TreeOut} (h : Broken x) : Broken (TreeOut.seq x f) := by
  simp only [Broken] at h; simp [TreeOut.seq, Broken, h]

theorem Broken.of {x : TreeOut} {f : List Char → TreeOut} {n : Nat} (hl : ∀ w, x.2 = some w → w.length = n)
    (h : ∀ w, w.length = n → Broken (f w)) : Broken (TreeOut.seq x f) := by
  unfold TreeOut.seq
  cases hx : x.2 with
  | none => exact hx
  | some w => exact h w (hl w hx)

/-- The array keeps its length. -/
def Keeps (x : TreeOut) (n : Nat) : Prop := ∀ w, x.2 = some w → w.length = n

theorem Keeps.seq {x : TreeOut} {f : List Char → TreeOut} {n : Nat} (hx : Keeps x n) (hf : ∀ w, w.length = n → Keeps (f w) n) :
    Keeps (TreeOut.seq x f) n := by
  unfold TreeOut.seq
  cases h : x.2 with
  | none => intro w hw; simp [h] at hw
  | some w => intro w' hw'; exact hf w (hx w h) w' hw'

theorem keeps_line (sp s : Str) (d : Nat) (w : List Char) (e f t : Bool) (n : Nat) (h : w.length = n) :
    Keeps (treeLine sp s d w e f t) n := by
  unfold treeLine
  intro w' hw'
  split at hw'
  · simp at hw'; simp [← hw', h]
  · simp at hw'

theorem keeps_kw (k : Option Str) (d : Nat) (w : List Char) (e t : Bool) (n : Nat) (h : w.length = n) :
    Keeps (treeKw k d w e t) n := by
  cases k with
  | none => intro w' hw'; simp [treeKw] at hw'; rw [← hw', h]
  | some k => exact keeps_line _ _ _ _ _ _ _ _ h

theorem node_keeps (s : Str) (a : List Tr) (kw2 : Option Str) (a2 : List Tr) (kw3 : Option Str) (a3 : List Tr)
    (h1 : ∀ d t f w n, w.length = n → Keeps (dumpL a d t f w) n) (h2 : ∀ d t f w n, w.length = n → Keeps (dumpL a2 d t f w) n)
    (h3 : ∀ d t f w n, w.length = n → Keeps (dumpL a3 d t f w) n) :
    ∀ d e f l w n, w.length = n → Keeps ((Tr.node s a kw2 a2 kw3 a3).dump d e f l w) n := by
  intro d e f l w n hw
  simp only [Tr.dump]
  exact (((((keeps_line _ _ _ _ _ _ _ _ hw).seq (fun w hw => h1 _ _ _ w n hw)).seq
    (fun w hw => keeps_kw _ _ _ _ _ _ hw)).seq (fun w hw => h2 _ _ _ w n hw)).seq
    (fun w hw => keeps_kw _ _ _ _ _ _ hw)).seq (fun w hw => h3 _ _ _ w n hw)

theorem list_keeps (l : List Tr) : ∀ d t f w n, w.length = n → Keeps (dumpL l d t f w) n :=
  Tr.rec_1 (motive_1 := fun t => ∀ d e f l w n, w.length = n → Keeps (t.dump d e f l w) n)
    (motive_2 := fun l => ∀ d t f w n, w.length = n → Keeps (dumpL l d t f w) n)
    (fun s a kw2 a2 kw3 a3 h1 h2 h3 => node_keeps s a kw2 a2 kw3 a3 h1 h2 h3)
    (by intro d t f w n hw w' hw'; simp [dumpL] at hw'; rw [← hw', hw])
    (by
      intro t ts h1 h2 d e f w n hw
      simp only [dumpL]
      exact (h1 _ _ _ _ w n hw).seq (fun w hw => h2 _ _ _ w n hw))
    l

theorem item_keeps (t : Tr) : ∀ d e f l w n, w.length = n → Keeps (t.dump d e f l w) n :=
  match t with
  | .node s a kw2 a2 kw3 a3 => node_keeps s a kw2 a2 kw3 a3 (list_keeps a) (list_keeps a2) (list_keeps a3)

theorem list_breaks (l : List Tr) : ∀ d t f w, d ≤ w.length → w.length < d + depthL l → Broken (dumpL l d t f w) :=
  Tr.rec_1 (motive_1 := fun t => ∀ d e f l w, d ≤ w.length → w.length < d + Spec.Tr.depth t → Broken (t.dump d e f l w))
    (motive_2 := fun l => ∀ d t f w, d ≤ w.length → w.length < d + depthL l → Broken (dumpL l d t f w))
    (by
      intro s a kw2 a2 kw3 a3 h1 h2 h3 d e f l w hle hlt
      simp only [Tr.dump]
      by_cases hd : d = w.length
      · refine (((((Broken.left ?_).left).left).left).left)
        simp [Broken, treeLine, hd]
      simp only [Spec.Tr.depth] at hlt
      have k0 := keeps_line c!"-" s d w (kw2.isNone && l) f (treeEnd2 d l e (kw2.isNone && l)) _ rfl
      by_cases c1 : w.length < d + 1 + depthL a
      · exact ((((Broken.of k0 (fun w' hw' => h1 _ _ _ w' (by omega) (by omega))).left).left).left).left
      have k1 := (k0.seq (f := dumpL a (d + 1) (treeEnd2 d l e (kw2.isNone && l)) true)
        (fun w hw => list_keeps a _ _ _ w _ hw)).seq
        (f := fun wei => treeKw kw2 d wei (kw3.isNone && l) (treeEnd2 d l e (kw3.isNone && l)))
        (fun w hw => keeps_kw _ _ _ _ _ _ hw)
      by_cases c2 : w.length < d + 1 + depthL a2
      · exact ((Broken.of k1 (fun w' hw' => h2 _ _ _ w' (by omega) (by omega))).left).left
      have k2 := (k1.seq (f := dumpL a2 (d + 1) (treeEnd2 d l e (kw3.isNone && l)) true)
        (fun w hw => list_keeps a2 _ _ _ w _ hw)).seq
        (f := fun wei => treeKw kw3 d wei l (treeEnd2 d l e (kw3.isNone && l)))
        (fun w hw => keeps_kw _ _ _ _ _ _ hw)
      exact Broken.of k2 (fun w' hw' => h3 _ _ _ w' (by omega) (by omega)))
    (by intro d t f w h1 h2; simp [depthL] at h2; omega)
    (by
      intro t ts h1 h2 d e f w hle hlt
      simp only [dumpL]
      simp only [depthL] at hlt
      by_cases c : w.length < d + Spec.Tr.depth t
      · exact (h1 _ _ _ _ w hle c).left
      · exact Broken.of (item_keeps t d e f ts.isEmpty w _ rfl) (fun w' hw' => h2 _ _ _ w' (by omega) (by omega)))
    l

/-! ## The statements -/

mutual
theorem Code.tr_ok : (c : Code) → Tr.Ok c.tr := by
  intro c
  cases c <;> simp only [Code.tr, Tr.Ok, OkL, true_and, and_true, implies_true, reduceCtorEq, false_implies] <;>
    first
      | exact trL_ok _
      | exact ⟨trL_ok _, trL_ok _⟩
      | exact ⟨trL_ok _, trL_ok _, trL_ok _⟩
theorem trL_ok : (l : List Code) → OkL (trL l)
  | [] => trivial
  | c :: cs => ⟨c.tr_ok, trL_ok cs⟩
end

mutual
theorem Code.tr_text : (c : Code) → ∀ bars t f l, (itemLines c.tr bars t f l).flatMap TreeLine.text = c.show := by
  intro c
  cases c <;> intro bars t f l <;>
    simp [Code.tr, itemLines, listLines, Code.show] <;>
    first
      | exact trL_text _ _ _ _
      | (simp only [trL_text])
theorem trL_text : (l : List Code) → ∀ bars t f, (listLines (trL l) bars t f).flatMap TreeLine.text = showL l
  | [], _, _, _ => rfl
  | c :: cs, bars, t, f => by
    simp only [trL, listLines, List.flatMap_append, showL, c.tr_text, trL_text cs]
end

/-- **C85.**  The tree printed for a program is the one of the specification, when the program is not deeper than the array. -/
theorem C85_tree (l : List Code) (h : depthL (trL l) ≤ 64) :
    treeDump l = ('\n' :: (treeOf l).flatMap TreeLine.str, .ok ()) := by
  obtain ⟨w, h1, -, -⟩ := list_ok (trL l) (trL_ok l) [] false true (List.replicate 64 '*') rfl (by simpa using h)
  simp only [List.length_nil] at h1
  simp only [treeDump, h1, treeOf]

/-- A deeper program crashes the printer. -/
theorem C85_crash (l : List Code) (h : 64 < depthL (trL l)) : (treeDump l).2 = .panic := by
  have := list_breaks (trL l) 0 false true (List.replicate 64 '*') (by simp) (by simpa using h)
  simp only [Broken] at this
  simp only [treeDump, this]

/-- The texts of the lines, one after the other, are the program written out. -/
theorem C85_text (l : List Code) : (treeOf l).flatMap TreeLine.text = showL l := trL_text l [] false true

/-- A program with a tree of several levels. -/
theorem C85_witness : (match parse c!"如果甲那么显示乙否则先丙、丁了。循环【3】显示戊" with
    | .ok (.ok l) => decide (depthL (trL l) = 3) && decide ((treeOf l).length = 15) | _ => false) = true := by
  decide +kernel

/-- One line of it, as printed. -/
theorem C85_witness_line : (match parse c!"先甲了。" with
    | .ok (.ok l) => (treeDump l).1 ==
      c!"\n 0nyn \x1b[0;32m/-先\x1b[0m\n 1nyy \x1b[0;32m|  \\-甲\x1b[0m\n 0nnn \x1b[0;32m| 了\x1b[0m\n 0yny \x1b[0;32m\\-。\x1b[0m\n"
    | _ => false) = true := by
  decide +kernel

/-- **C85 fails for deep programs.**  A script the parser accepts for which the printing of the tree ends the whole run in a crash:
sixty-four blocks inside each other. -/
theorem C85_counterexample : ∃ src l, parse src = .ok (.ok l) ∧ (treeDump l).2 = .panic := by
  have h : (match parse (List.replicate 64 '先' ++ c!"甲") with
    | .ok (.ok l) => decide (64 < depthL (trL l)) | _ => false) = true := by decide +kernel
  split at h
  · next l hl => exact ⟨_, l, hl, C85_crash l (by simpa using h)⟩
  · simp at h

end Zh
