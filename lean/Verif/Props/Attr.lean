import Verif.Model.Attr
/-!
# C47: reading attributes

An attribute set is described by its history: the pairs given to `add__`, oldest first.
-/
namespace Zh
namespace Spec

/-- The value of a name: the one given last. -/
def attrLast (n : Str) (h : List (Str × Str)) : Option Str :=
  ((h.filter fun p => p.1 = n).getLast?).map (·.2)

/-- The names in the order in which they were first given. -/
def attrNames : List (Str × Str) → List Str
  | [] => []
  | (n, _) :: h => n :: (attrNames h).filter (· ≠ n)

/-- `f` of the nearest set for which there is one. -/
def nearest {α : Type} (f : List (Str × Str) → Option α) : List (List (Str × Str)) → Option α
  | [] => none
  | h :: up => (f h).or (nearest f up)

end Spec

/-- The set built by a history. -/
def AttrSet.built (h : List (Str × Str)) : AttrSet := h.foldl (fun s p => s.add p.1 p.2) .empty

theorem mapGet_insert (n v m : Str) (l : List (Str × Str)) :
    mapGet m (mapInsert n v l) = if n = m then some v else mapGet m l := by
  induction l with
  | nil => by_cases h : n = m <;> simp [mapInsert, mapGet, h]
  | cons p l ih =>
    obtain ⟨k, w⟩ := p
    simp only [mapInsert]
    by_cases hk : k = n
    · subst hk
      by_cases h : k = m <;> simp [mapGet, h]
    · simp only [hk, if_false]
      by_cases h : k = m
      · subst h
        have : ¬ n = k := fun e => hk e.symm
        simp [mapGet, this]
      · have e1 : mapGet m ((k, w) :: mapInsert n v l) = mapGet m (mapInsert n v l) := by simp [mapGet, h]
        have e2 : mapGet m ((k, w) :: l) = mapGet m l := by simp [mapGet, h]
        rw [e1, e2, ih]

theorem built_get (n : Str) (h : List (Str × Str)) :
    mapGet n (AttrSet.built h).a = Spec.attrLast n h := by
  have key : ∀ (h : List (Str × Str)) (s : AttrSet),
      mapGet n (h.foldl (fun s p => s.add p.1 p.2) s).a = (Spec.attrLast n h).or (mapGet n s.a) := by
    intro h
    induction h with
    | nil => intro s; simp [Spec.attrLast]
    | cons p h ih =>
      intro s
      rw [List.foldl_cons, ih, AttrSet.add, mapGet_insert]
      by_cases e : p.1 = n
      · subst e
        cases hf : (h.filter fun q => q.1 = p.1) with
        | nil => simp [Spec.attrLast, hf]
        | cons a l => simp [Spec.attrLast, hf, List.getLast?_cons]
      · simp [Spec.attrLast, e]
  simpa [AttrSet.built, AttrSet.empty, mapGet] using key h .empty

theorem built_idx (h : List (Str × Str)) : (AttrSet.built h).idx = Spec.attrNames h := by
  have key : ∀ (h : List (Str × Str)) (s : AttrSet),
      (h.foldl (fun s p => s.add p.1 p.2) s).idx = s.idx ++ (Spec.attrNames h).filter (fun n => !s.idx.contains n) := by
    intro h
    induction h with
    | nil => intro s; simp [Spec.attrNames]
    | cons p h ih =>
      intro s
      obtain ⟨n, v⟩ := p
      rw [List.foldl_cons, ih]
      simp only [AttrSet.add, Spec.attrNames]
      by_cases e : n ∈ s.idx
      · have : (fun m : Str => !s.idx.contains m && decide (m ≠ n)) = fun m => !s.idx.contains m := by
          funext m
          by_cases hm : m = n
          · subst hm; simp [e]
          · simp [hm]
        rw [if_pos (by simpa using e), List.filter_cons, if_neg (by simpa using e), List.filter_filter, this]
      · rw [if_neg (by simpa using e), List.filter_cons, if_pos (by simpa using e), List.filter_filter,
          List.append_assoc]
        congr 1
        simp only [List.cons_append, List.nil_append, List.cons.injEq, true_and]
        congr 1
        funext m
        simp
  have := key h .empty
  simp only [AttrSet.empty, List.nil_append, List.contains_nil, Bool.not_false] at this
  rw [AttrSet.built, AttrSet.empty, this]
  exact List.filter_eq_self.2 fun _ _ => rfl

theorem mem_attrNames (n : Str) (h : List (Str × Str)) :
    n ∈ Spec.attrNames h ↔ ∃ v, Spec.attrLast n h = some v := by
  induction h with
  | nil => simp [Spec.attrNames, Spec.attrLast]
  | cons p h ih =>
    obtain ⟨m, w⟩ := p
    simp only [Spec.attrNames, List.mem_cons, List.mem_filter]
    by_cases e : m = n
    · subst e
      simp only [true_or, true_iff]
      cases hf : (h.filter fun q => q.1 = m) with
      | nil => exact ⟨w, by simp [Spec.attrLast, hf]⟩
      | cons a l => exact ⟨_, by simp [Spec.attrLast, hf, List.getLast?_cons]; rfl⟩
    · have : Spec.attrLast n ((m, w) :: h) = Spec.attrLast n h := by simp [Spec.attrLast, e]
      rw [this, ← ih]
      have : ¬ n = m := fun x => e x.symm
      simp [this]

/-- The `k`-th name of a set. -/
def Spec.attrNth (k : Nat) (h : List (Str × Str)) : Option Str := (Spec.attrNames h)[k - 1]?

/-- A name that is no number is looked up as it is. -/
theorem attrVal_name (isHas : Bool) (n : Str) (hn : ∀ k, parseUsize n = some k → k = 0)
    (c : List (List (Str × Str))) :
    attrVal isHas n (c.map AttrSet.built) = (Spec.nearest (Spec.attrLast n) c).map (attrText isHas) := by
  induction c with
  | nil => rfl
  | cons h c ih =>
    have e : attrResolve (.built h) n = n := by
      unfold attrResolve
      cases hp : parseUsize n with
      | none => rfl
      | some k => simp [hn k hp]
    simp only [List.map_cons, attrVal, e, built_get, Spec.nearest]
    cases Spec.attrLast n h with
    | none => simpa using ih
    | some t => rfl

theorem attrName_nth (isHas : Bool) (k : Nat) (c : List (List (Str × Str))) :
    attrName isHas k (c.map AttrSet.built) = (Spec.nearest (Spec.attrNth k) c).map (attrText isHas) := by
  induction c with
  | nil => rfl
  | cons h c ih =>
    simp only [List.map_cons, attrName, built_idx, Spec.nearest, Spec.attrNth]
    cases (Spec.attrNames h)[k - 1]? with
    | none => simpa [Spec.attrNth] using ih
    | some t => rfl

theorem attrResolve_hit (k : Nat) (n w : Str) (hn : parseUsize n = some k) (hk : 0 < k)
    (h : List (Str × Str)) (hw : Spec.attrNth k h = some w) : attrResolve (.built h) n = w := by
  rw [Spec.attrNth] at hw
  obtain ⟨hl, he⟩ := List.getElem?_eq_some_iff.1 hw
  have hc : 0 < k ∧ k ≤ (AttrSet.built h).idx.length := ⟨hk, by rw [built_idx]; omega⟩
  simp only [attrResolve, hn]
  rw [if_pos hc]
  simp only [built_idx, List.getD_eq_getElem?_getD, hw, Option.getD_some]

theorem attrResolve_miss (k : Nat) (n : Str) (hn : parseUsize n = some k) (h : List (Str × Str))
    (hw : Spec.attrNth k h = none) : attrResolve (.built h) n = n := by
  rw [Spec.attrNth, List.getElem?_eq_none_iff] at hw
  have hc : ¬ (0 < k ∧ k ≤ (AttrSet.built h).idx.length) := by rw [built_idx]; omega
  simp only [attrResolve, hn, if_neg hc]

/-- The value of the `k`-th name of a set; with fewer names, the value of a name that is written as the
number is. -/
def Spec.attrNthVal (k : Nat) (n : Str) (h : List (Str × Str)) : Option Str :=
  match Spec.attrNth k h with
  | some m => Spec.attrLast m h
  | none => Spec.attrLast n h

theorem attrVal_number (isHas : Bool) (k : Nat) (n : Str) (hn : parseUsize n = some k) (hk : 0 < k)
    (c : List (List (Str × Str))) :
    attrVal isHas n (c.map AttrSet.built) = (Spec.nearest (Spec.attrNthVal k n) c).map (attrText isHas) := by
  induction c with
  | nil => rfl
  | cons h c ih =>
    simp only [List.map_cons, attrVal, Spec.nearest, Spec.attrNthVal]
    cases hw : Spec.attrNth k h with
    | none =>
      rw [attrResolve_miss k n hn h hw]
      simp only [built_get]
      cases Spec.attrLast n h with
      | none => simpa using ih
      | some t => rfl
    | some w =>
      rw [attrResolve_hit k n w hn hk h hw]
      simp only [built_get]
      have : w ∈ Spec.attrNames h := List.mem_of_getElem? hw
      obtain ⟨v, hv⟩ := (mem_attrNames w h).1 this
      simp [hv]

theorem attr_prefix (n : Str) : ATTR.isPrefixOf (ATTR ++ n) = true := by simp
theorem attr_drop (n : Str) : (ATTR ++ n).drop ATTR.length = n := by simp

/-- **C47**, by name.  Reading `属性` followed by a name that is neither a positive number nor `名` with a
positive number gives the value given last to this name in the nearest set that has it, and nothing if none has it; asking
whether it exists answers `1` in the same cases. -/
theorem C47_name_partial (c : List (List (Str × Str))) (n : Str) (isHas : Bool)
    (hn : ∀ k, parseUsize n = some k → k = 0) (hm : ∀ r k, n = '名' :: r → parseUsize r = some k → k = 0) :
    attrGet (c.map AttrSet.built) (ATTR ++ n) isHas =
      (Spec.nearest (Spec.attrLast n) c).map fun t => if isHas then c!"1" else t := by
  have e : attrGet (c.map AttrSet.built) (ATTR ++ n) isHas = attrVal isHas n (c.map AttrSet.built) := by
    simp only [attrGet, attr_prefix, attr_drop, if_true]
    cases n with
    | nil => rfl
    | cons a r =>
      by_cases ha : a = '名'
      · subst ha
        have h1 : ATTRNAME.isPrefixOf (ATTR ++ '名' :: r) = true := by simp [ATTRNAME, ATTR, List.isPrefixOf]
        have h2 : (ATTR ++ '名' :: r).drop ATTRNAME.length = r := rfl
        cases hr : parseUsize r with
        | none => simp only [h1, h2, hr, if_true]
        | some k => simp only [h1, h2, hr, if_true, hm r k rfl hr, Nat.lt_irrefl, if_false]
      · have h' : ¬ '名' = a := fun e => ha e.symm
        have h1 : ATTRNAME.isPrefixOf (ATTR ++ a :: r) = false := by
          simp [ATTRNAME, ATTR, List.isPrefixOf, h']
        simp only [h1]
        rfl
  rw [e, attrVal_name isHas n hn]
  rfl

/-- **C47**, by number.  Reading `属性` followed by a number `k > 0` gives the value of the `k`-th attribute
(in the order of their first appearance) of the nearest set that has so many, unless a nearer one has an
attribute that is named by that number. -/
theorem C47_number (c : List (List (Str × Str))) (n : Str) (k : Nat) (isHas : Bool)
    (hn : parseUsize n = some k) (hk : 0 < k) :
    attrGet (c.map AttrSet.built) (ATTR ++ n) isHas =
      (Spec.nearest (Spec.attrNthVal k n) c).map fun t => if isHas then c!"1" else t := by
  have : ATTRNAME.isPrefixOf (ATTR ++ n) = false := by
    cases n with
    | nil => decide
    | cons a n =>
      have h : a ≠ '名' := by
        rintro rfl
        rw [show parseUsize ('名' :: n) = none from by
          simp [parseUsize, parseUnsigned, parseDigits, digitsVal, digitVal]] at hn
        cases hn
      have h' : ¬ '名' = a := fun e => h e.symm
      simp [ATTRNAME, ATTR, List.isPrefixOf, h']
  simp only [attrGet, this, attr_prefix, attr_drop, if_true, attrVal_number isHas k n hn hk]
  rfl

/-- **C47**, names by number.  Reading `属性名` followed by a number `k > 0` gives the `k`-th name of the
nearest set with so many names; if there is none, the value of the attribute that is called `名` with the
number. -/
theorem C47_attrname (c : List (List (Str × Str))) (n : Str) (k : Nat) (isHas : Bool)
    (hn : parseUsize n = some k) (hk : 0 < k) :
    attrGet (c.map AttrSet.built) (ATTRNAME ++ n) isHas =
      ((Spec.nearest (Spec.attrNth k) c).or (Spec.nearest (Spec.attrLast ('名' :: n)) c)).map
        fun t => if isHas then c!"1" else t := by
  have h1 : ATTRNAME.isPrefixOf (ATTRNAME ++ n) = true := by simp
  have h2 : (ATTRNAME ++ n).drop ATTRNAME.length = n := by simp
  have h3 : ATTR.isPrefixOf (ATTRNAME ++ n) = true := by simp [ATTRNAME, ATTR, List.isPrefixOf]
  have h4 : (ATTRNAME ++ n).drop ATTR.length = '名' :: n := rfl
  have h5 : parseUsize ('名' :: n) = none := by
    simp [parseUsize, parseUnsigned, parseDigits, digitsVal, digitVal]
  simp only [attrGet, h1, h2, h3, h4, hn, if_true, if_pos hk, attrName_nth]
  cases Spec.nearest (Spec.attrNth k) c with
  | some m => rfl
  | none =>
    simp only [Option.map_none, Option.or, Option.none_or]
    rw [attrVal_name isHas _ (by intro k hk; rw [h5] at hk; cases hk)]
    rfl

/-- Two sets; the nearer one hides `色`, its second attribute is `大`, and the outer one has a third. -/
def attrDemo : List (List (Str × Str)) :=
  [[(c!"色", c!"红"), (c!"大", c!"5"), (c!"色", c!"绿")], [(c!"色", c!"蓝"), (c!"甲", c!"6"), (c!"乙", c!"7")]]

/-- The hypotheses of the theorems above are met, and their answers are these. -/
theorem C47_witness :
    parseUsize c!"色" = none ∧ parseUsize c!"名字" = none ∧ parseUsize c!"字" = none ∧
    attrGet (attrDemo.map AttrSet.built) c!"属性色" false = some c!"绿" ∧
    attrGet (attrDemo.map AttrSet.built) c!"属性甲" false = some c!"6" ∧
    attrGet (attrDemo.map AttrSet.built) c!"属性丙" true = none ∧
    attrGet (attrDemo.map AttrSet.built) c!"属性2" false = some c!"5" ∧
    attrGet (attrDemo.map AttrSet.built) c!"属性3" false = some c!"7" ∧
    attrGet (attrDemo.map AttrSet.built) c!"属性名1" false = some c!"色" ∧
    attrGet (attrDemo.map AttrSet.built) c!"属性名3" false = some c!"乙" ∧
    attrGet ([[(c!"名0", c!"8"), (c!"名5", c!"9")]].map AttrSet.built) c!"属性名0" false = some c!"8" ∧
    attrGet ([[(c!"名0", c!"8"), (c!"名5", c!"9")]].map AttrSet.built) c!"属性名5" false = some c!"9" := by decide +kernel

/-- An attribute that is called `名1` cannot be read by its name: the name of the first attribute is
given. -/
theorem C47_name_counterexample :
    Spec.nearest (Spec.attrLast c!"名1") [[(c!"甲", c!"6"), (c!"名1", c!"7")]] = some c!"7" ∧
    attrGet ([[(c!"甲", c!"6"), (c!"名1", c!"7")]].map AttrSet.built) (ATTR ++ c!"名1") false =
      some c!"甲" := by decide +kernel

/-- An attribute whose name is a number is hidden by the attribute at that place. -/
theorem C47_number_counterexample :
    Spec.nearest (Spec.attrLast c!"1") [[(c!"甲", c!"6"), (c!"1", c!"7")]] = some c!"7" ∧
    attrGet ([[(c!"甲", c!"6"), (c!"1", c!"7")]].map AttrSet.built) (ATTR ++ c!"1") false =
      some c!"6" := by decide +kernel

end Zh
