import Verif.Props.Switch
/-!
# C43: an assignment with several names and values
-/
namespace Zh

variable {H : Host}

/-! ## Specification -/

/-- The groups of items between the separators `、`. -/
def Spec.values (l : List Item) : List (List Item) := Spec.groups Item.dunhao l

/-- The names: a last separator may be left without a name after it. -/
def Spec.names (l : List Item) : List (List Item) :=
  if (l.getLast?.map Item.dunhao) = some true then (Spec.values l).dropLast else Spec.values l

/-- An item that is an object. -/
def Spec.isObj (i : Item) : Bool := match i.val with | .o _ => true | _ => false

/-- What is assigned: an object, or a text with annotations. -/
structure Spec.Given where
  obj : Option Item
  text : Str
  rems : List Str

/-- The last object of a group of items, or else their texts and annotations, in order. -/
def Spec.given (s : St) (g : List Item) : Spec.Given :=
  let t := g.filter fun i => !Spec.isObj i
  ⟨g.reverse.find? Spec.isObj, t.flatMap fun i => i.val.plainKw, t.flatMap fun i => s.items i.ref⟩

/-- The item that is assigned: an object itself, or a new item with the text. -/
def Spec.Given.item (v : Spec.Given) (s : St) : Item := v.obj.getD ⟨s.nitem, .s v.text⟩

/-- The state with that item. -/
def Spec.Given.st (v : Spec.Given) (s : St) : St :=
  if v.obj.isSome then s else { s with items := upd s.items s.nitem v.rems, nitem := s.nitem + 1 }

/-- Where a name with annotations is assigned to, starting in scope `q`: each annotation goes on to a scope,
or is one of the flags `私` and `值` (the pair). -/
inductive Spec.Place (s : St) (inq : Option Nat) : List Str → Nat → Bool × Bool → Except Err (Nat × Bool × Bool) → Prop where
  | nil {q x} : Spec.Place s inq [] q x (.ok (q, x))
  | bad {r rs q x e} : rem4Z s r false inq q = .error e → Spec.Place s inq (r :: rs) q x (.error e)
  | scope {r rs q x q' y} : rem4Z s r false inq q = .ok (.scope (some q')) → Spec.Place s inq rs q' x y → Spec.Place s inq (r :: rs) q x y
  | priv {r rs q x y} : rem4Z s r false inq q = .ok .other → r = PRIV → Spec.Place s inq rs q (true, x.2) y → Spec.Place s inq (r :: rs) q x y
  | equ {r rs q x y} : rem4Z s r false inq q = .ok .other → r = REM → Spec.Place s inq rs q (x.1, true) y → Spec.Place s inq (r :: rs) q x y
  | unknown {r rs q x} : rem4Z s r false inq q = .ok .other → r ≠ PRIV → r ≠ REM → Spec.Place s inq (r :: rs) q x (.error (errNoRem2 r))

/-- What an assignment hands to a pipe that asks for names and values; `cnt` results were handed on before. -/
inductive Spec.Handed (ret : Nat) (name : Str) (v : Item) : Str → Nat → St → Except Err Nat → St → Prop where
  | nil {cnt s} : Spec.Handed ret name v [] cnt s (.ok cnt) s
  | name {c cs cnt s r s'} : c = '1' ∨ c = '名' →
    Spec.Handed ret name v cs (cnt + 1) ((if cnt = 0 then s else s.push ret Spec.sep).push ret (.s name)) r s' →
    Spec.Handed ret name v (c :: cs) cnt s r s'
  | val {c cs cnt s s1 r s'} : c = '值' → s1 = (if cnt = 0 then s else s.push ret Spec.sep) →
    Spec.Handed ret name v cs (cnt + 1) { s1 with lists := upd s1.lists ret ((s1.lists ret).add v) } r s' →
    Spec.Handed ret name v (c :: cs) cnt s r s'
  | bad {c cs cnt s} : c ≠ '1' → c ≠ '名' → c ≠ '值' →
    Spec.Handed ret name v (c :: cs) cnt s (.error (errNoJie c)) (if cnt = 0 then s else s.push ret Spec.sep)

/-- The value of a name: its own, or else the one before. -/
def Spec.now (s : St) (last : Spec.Given) : Option (List Item) → Spec.Given
  | some v => Spec.given s v
  | none => last

/-- The state in which the variable `v` of scope `q` is assigned. -/
def Spec.assigned (q : Nat) (v : Var) (s : St) : St :=
  { s with scopes := upd s.scopes q { s.scopes q with vars := setVar v (s.scopes q).vars } }

/-- The assignments are made one after the other.  A name has a value of its own, or the one of the name
before (`last`). -/
inductive Spec.Assigns (isAlias : Bool) (env : Env) :
    List (List Item × Option (List Item)) → Spec.Given → Bool × Bool → Nat → St → Except Err Unit → St → Prop where
  | nil {last x cnt s} : Spec.Assigns isAlias env [] last x cnt s (.ok ()) s
  | badName {g v rest last x cnt s e} : Spec.Place s env.inq (g.flatMap fun i => s.items i.ref) env.q x (.error e) →
    Spec.Assigns isAlias env ((g, v) :: rest) last x cnt s (.error e) s
  | badPipe {g v rest last x cnt s q x' now e s'} :
    Spec.Place s env.inq (g.flatMap fun i => s.items i.ref) env.q x (.ok (q, x')) →
    now = Spec.now s last v → s.held.contains (.scope q) = false →
    Spec.Handed env.ret (g.flatMap fun i => i.val.plainKw) (now.item s) env.gd.jie cnt
      (Spec.assigned q ⟨g.flatMap fun i => i.val.plainKw, now.item s, isAlias, x'.1, x'.2⟩ (now.st s)) (.error e) s' →
    Spec.Assigns isAlias env ((g, v) :: rest) last x cnt s (.error e) s'
  | cons {g v rest last x cnt s q x' now cnt' s1 r s'} :
    Spec.Place s env.inq (g.flatMap fun i => s.items i.ref) env.q x (.ok (q, x')) →
    now = Spec.now s last v → s.held.contains (.scope q) = false →
    Spec.Handed env.ret (g.flatMap fun i => i.val.plainKw) (now.item s) env.gd.jie cnt
      (Spec.assigned q ⟨g.flatMap fun i => i.val.plainKw, now.item s, isAlias, x'.1, x'.2⟩ (now.st s)) (.ok cnt') s1 →
    Spec.Assigns isAlias env rest now x' cnt' s1 r s' →
    Spec.Assigns isAlias env ((g, v) :: rest) last x cnt s r s'

/-- The `i`-th name with the `i`-th value, if there is one. -/
def Spec.pairs (names values : List (List Item)) : List (List Item × Option (List Item)) :=
  names.zipIdx.map fun p => (p.1, values[p.2]?)

/-- An assignment: the names are evaluated, then the values, each into a result list of its own; then the
assignments are made. -/
inductive Spec.Assignment (H : Host) (isAlias : Bool) (names vals : List Code) (env : Env) (s : St) : Except Err Unit → St → Prop where
  | badNames {x e s'} : Evals H (.codes names 0 usizeMax { env with gd := { env.gd with names := true }, ret := s.nlist })
      (Spec.fresh (Spec.fresh s)) x s' → x.r = .error e → Spec.Assignment H isAlias names vals env s (.error e) s'
  | badVals {x s1 y e s'} : Evals H (.codes names 0 usizeMax { env with gd := { env.gd with names := true }, ret := s.nlist })
      (Spec.fresh (Spec.fresh s)) x s1 → x.r = .ok () →
    Evals H (.codes vals 0 usizeMax { env with gd := { env.gd with vals := true }, ret := s.nlist + 1 }) s1 y s' → y.r = .error e →
    Spec.Assignment H isAlias names vals env s (.error e) s'
  | assign {x s1 y s2 r s'} : Evals H (.codes names 0 usizeMax { env with gd := { env.gd with names := true }, ret := s.nlist })
      (Spec.fresh (Spec.fresh s)) x s1 → x.r = .ok () →
    Evals H (.codes vals 0 usizeMax { env with gd := { env.gd with vals := true }, ret := s.nlist + 1 }) s1 y s2 → y.r = .ok () →
    Spec.Assigns isAlias env (Spec.pairs (Spec.names (s2.lists s.nlist).a) (Spec.values (s2.lists (s.nlist + 1)).a))
      ⟨none, [], []⟩ (false, false) 0 s2 r s' →
    Spec.Assignment H isAlias names vals env s r s'

/-! ## Proofs -/

/-- The flags of `赋予`. -/
def setShou (x : Bool × Bool) (r : Str) : Option (Bool × Bool) :=
  if r = PRIV then some (true, x.2) else if r = REM then some (x.1, true) else none

theorem rem4Z_scope {s : St} {r : Str} {inq : Option Nat} {q : Nat} {z : Option Nat}
    (h : rem4Z s r false inq q = .ok (.scope z)) : ∃ q', z = some q' := by
  unfold rem4Z at h
  repeat' split at h
  all_goals first | (cases h; exact ⟨_, rfl⟩) | contradiction | cases h

theorem place_rem4 (s : St) (inq : Option Nat) (rs : List Str) (q : Nat) (x : Bool × Bool) :
    ∃ y : Except Err (Nat × Bool × Bool), rem4 s false inq setShou rs (some q) x = .ok (y.map fun p => (some p.1, p.2)) ∧
      ∀ z, Spec.Place s inq rs q x z ↔ z = y := by
  induction rs generalizing q x with
  | nil => exact ⟨.ok (q, x), rfl, fun z => ⟨fun h => by cases h; rfl, fun h => h ▸ .nil⟩⟩
  | cons r rs ih =>
    simp only [rem4]
    rcases hz : rem4Z s r false inq q with e | z
    · refine ⟨.error e, rfl, fun z => ⟨fun h => ?_, fun h => h ▸ .bad hz⟩⟩
      cases h <;> simp_all
    · cases z with
      | scope z =>
        obtain ⟨q', rfl⟩ := rem4Z_scope hz
        obtain ⟨y, h1, h2⟩ := ih q' x
        refine ⟨y, h1, fun z => ⟨fun h => ?_, fun h => .scope hz ((h2 z).2 h)⟩⟩
        cases h <;> simp_all
      | other =>
        have ne : REM ≠ PRIV := by decide
        by_cases hp : r = PRIV
        · obtain ⟨y, h1, h2⟩ := ih q (true, x.2)
          refine ⟨y, by simpa [setShou, hp] using h1, fun z => ⟨fun h => ?_, fun h => .priv hz hp ((h2 z).2 h)⟩⟩
          cases h <;> simp_all
        · by_cases hq : r = REM
          · obtain ⟨y, h1, h2⟩ := ih q (x.1, true)
            refine ⟨y, by simpa [setShou, hp, hq, ne] using h1, fun z => ⟨fun h => ?_, fun h => .equ hz hq ((h2 z).2 h)⟩⟩
            cases h <;> simp_all
          · refine ⟨.error (errNoRem2 r), by simp [setShou, hp, hq, Except.map], fun z => ⟨fun h => ?_, fun h => h ▸ .unknown hz hp hq⟩⟩
            cases h <;> simp_all

theorem rem4_append (s : St) (inq : Option Nat) (a b : List Str) (q : Nat) (x : Bool × Bool) :
    rem4 s false inq setShou (a ++ b) (some q) x = match rem4 s false inq setShou a (some q) x with
      | .ok (.ok (q, x)) => rem4 s false inq setShou b q x
      | y => y := by
  induction a generalizing q x with
  | nil => rfl
  | cons r rs ih =>
    simp only [List.cons_append, rem4]
    rcases hz : rem4Z s r false inq q with e | z
    · rfl
    · cases z with
      | scope z =>
        obtain ⟨q', rfl⟩ := rem4Z_scope hz
        exact ih q' x
      | other =>
        simp only
        cases setShou x r with
        | none => rfl
        | some x' => exact ih q x'

theorem setName_cons (s : St) (inq : Option Nat) (i : Item) (is : List Item) (name : Str) (q : Option Nat) (x : Bool × Bool) :
    setName s inq (i :: is) name q x = match rem4 s false inq setShou (s.items i.ref) q x with
      | .ok (.error e) => .ok (.error e)
      | .ok (.ok (q, x)) => setName s inq is (name ++ i.val.plainKw) q x
      | .panic => .panic
      | .fuel => .fuel := rfl

theorem place_setName (s : St) (inq : Option Nat) (g : List Item) (name : Str) (q : Nat) (x : Bool × Bool) :
    ∃ y : Except Err (Nat × Bool × Bool),
      setName s inq g name (some q) x = .ok (y.map fun p => (name ++ g.flatMap fun i => i.val.plainKw, some p.1, p.2)) ∧
      ∀ z, Spec.Place s inq (g.flatMap fun i => s.items i.ref) q x z ↔ z = y := by
  have key : ∀ (g : List Item) (name : Str) (q : Nat) (x : Bool × Bool),
      setName s inq g name (some q) x = match rem4 s false inq setShou (g.flatMap fun i => s.items i.ref) (some q) x with
        | .ok (.ok (q, x)) => .ok (.ok (name ++ g.flatMap fun i => i.val.plainKw, q, x))
        | .ok (.error e) => .ok (.error e)
        | .panic => .panic
        | .fuel => .fuel := by
    intro g
    induction g with
    | nil => intro name q x; simp [setName, rem4]
    | cons i is ih =>
      intro name q x
      rw [setName_cons, List.flatMap_cons, List.flatMap_cons, rem4_append]
      obtain ⟨y, hy, -⟩ := place_rem4 s inq (s.items i.ref) q x
      rw [hy]
      cases y with
      | error e => rfl
      | ok p =>
        simp only [Except.map]
        rw [ih, List.append_assoc]
  obtain ⟨y, h1, h2⟩ := place_rem4 s inq (g.flatMap fun i => s.items i.ref) q x
  refine ⟨y, ?_, h2⟩
  rw [key, h1]
  cases y <;> rfl

/-! ### Values -/

theorem takeVal_spec (rems : Nat → List Str) (l : List Item) (v : Str) (r : List Str) (o : Option Item) :
    ∃ g gs, Spec.values l = g :: gs ∧ ∃ rest de, takeVal rems l v r o =
        (rest, de, v ++ ((g.filter fun i => !Spec.isObj i).flatMap fun i => i.val.plainKw),
          r ++ ((g.filter fun i => !Spec.isObj i).flatMap fun i => rems i.ref), (g.reverse.find? Spec.isObj).or o) ∧
      ((de = true ∧ rest = [] ∧ gs = [[]]) ∨ (de = false ∧ rest = [] ∧ gs = []) ∨
        (de = false ∧ rest ≠ [] ∧ gs = Spec.values rest)) := by
  unfold Spec.values
  induction l generalizing v r o with
  | nil => exact ⟨[], [], rfl, [], false, by simp [takeVal], by simp⟩
  | cons i is ih =>
    rw [Spec.groups]
    by_cases hd : i.dunhao = true
    · refine ⟨[], Spec.groups Item.dunhao is, by simp [hd], is, is.isEmpty, by simp [takeVal, hd], ?_⟩
      cases is with
      | nil => simp [Spec.groups]
      | cons j js => simp
    · rw [if_neg hd]
      by_cases ho : Spec.isObj i = true
      · obtain ⟨g, gs, h1, rest, de, h2, h3⟩ := ih v r (some i)
        refine ⟨i :: g, gs, by rw [h1], rest, de, ?_, h3⟩
        have : takeVal rems (i :: is) v r o = takeVal rems is v r (some i) := by
          rw [takeVal, if_neg hd]
          unfold Spec.isObj at ho
          split at ho
          · rename_i hv; rw [hv]
          · cases ho
        rw [this, h2]
        simp [ho]
      · obtain ⟨g, gs, h1, rest, de, h2, h3⟩ := ih (v ++ i.val.plainKw) (r ++ rems i.ref) o
        refine ⟨i :: g, gs, by rw [h1], rest, de, ?_, h3⟩
        have : takeVal rems (i :: is) v r o = takeVal rems is (v ++ i.val.plainKw) (r ++ rems i.ref) o := by
          rw [takeVal, if_neg hd]
          unfold Spec.isObj at ho
          cases hv : i.val with
          | o n => rw [hv] at ho; exact absurd rfl ho
          | s t => rfl
          | k w => rfl
        rw [this, h2]
        simp [ho]

/-- The value of the loop. -/
def SetSt.given (st : SetSt) : Spec.Given := ⟨st.obj, st.val, st.valRem⟩

/-- The values still to come. -/
def SetSt.Rep (st : SetSt) (vs : List (List Item)) : Prop :=
  (st.dunEnd = true ∧ st.vals = [] ∧ vs = [[]]) ∨ (st.dunEnd = false ∧ st.vals = [] ∧ vs = []) ∨
  (st.dunEnd = false ∧ st.vals = [] ∧ vs = [[]] ∧ st.given = ⟨none, [], []⟩) ∨
  (st.dunEnd = false ∧ st.vals ≠ [] ∧ vs = Spec.values st.vals)

theorem SetSt.next_spec (s : St) (st : SetSt) (vs : List (List Item)) (h : st.Rep vs) :
    (st.next s.items).Rep vs.tail ∧
    (st.next s.items).given = Spec.now s st.given vs.head? ∧
    (st.next s.items).priv = st.priv ∧ (st.next s.items).equ = st.equ ∧ (st.next s.items).cnt = st.cnt := by
  unfold SetSt.next
  rcases h with ⟨h1, h2, rfl⟩ | ⟨h1, h2, rfl⟩ | ⟨h1, h2, rfl, h3⟩ | ⟨h1, h2, rfl⟩
  · simp [h1, h2, SetSt.Rep, SetSt.given, Spec.given, Spec.now]
  · simp [h1, h2, SetSt.Rep, Spec.now]
  · simp only [h1, h2, Bool.false_eq_true, if_false, List.isEmpty_nil, if_true]
    exact ⟨.inr (.inl ⟨h1, h2, rfl⟩), h3, trivial, trivial, trivial⟩
  · have he : st.vals.isEmpty = false := by cases hv : st.vals <;> simp_all
    obtain ⟨g, gs, h3, rest, de, h4, h5⟩ := takeVal_spec s.items st.vals [] [] none
    simp only [h1, he, Bool.false_eq_true, if_false, h3, h4]
    refine ⟨?_, by simp [SetSt.given, Spec.given, Spec.now], trivial, trivial, trivial⟩
    rcases h5 with ⟨rfl, rfl, rfl⟩ | ⟨rfl, rfl, rfl⟩ | ⟨rfl, h6, rfl⟩
    · exact .inl ⟨rfl, rfl, rfl⟩
    · exact .inr (.inl ⟨rfl, rfl, rfl⟩)
    · exact .inr (.inr (.inr ⟨rfl, h6, rfl⟩))

theorem pairs_cons (g : List Item) (gs vs : List (List Item)) :
    Spec.pairs (g :: gs) vs = (g, vs.head?) :: Spec.pairs gs vs.tail := by
  unfold Spec.pairs
  apply List.ext_getElem?
  intro i
  cases i with
  | zero => cases vs <;> simp
  | succ i =>
    simp only [List.getElem?_map, List.getElem?_zipIdx, List.getElem?_cons_succ]
    cases gs[i]? <;> simp [Nat.add_comm]

theorem nameGroups_spec (l cur : List Item) : nameGroups l cur = match Spec.names l with
    | [] => []
    | g :: gs => (cur ++ g) :: gs := by
  induction l generalizing cur with
  | nil => simp [nameGroups, Spec.names, Spec.values, Spec.groups]
  | cons i is ih =>
    simp only [nameGroups]
    by_cases hd : i.dunhao = true
    · rw [if_pos hd]
      cases is with
      | nil => simp [Spec.names, Spec.values, Spec.groups, hd]
      | cons j js =>
        rw [if_neg (by simp), ih]
        have hn : Spec.names (i :: j :: js) = [] :: Spec.names (j :: js) := by
          unfold Spec.names
          have : (i :: j :: js).getLast? = (j :: js).getLast? := by simp
          rw [this]
          have e : Spec.values (i :: j :: js) = [] :: Spec.values (j :: js) := by
            unfold Spec.values; rw [Spec.groups.eq_def]; simp only [hd, if_true]
          rw [e]
          split
          · have := Spec.groups_ne_nil (p := Item.dunhao) (j :: js)
            unfold Spec.values
            rw [List.dropLast_cons_of_ne_nil this]
          · rfl
        rw [hn]
        simp only [List.append_nil]
        cases Spec.names (j :: js) <;> simp
    · rw [if_neg hd, ih]
      cases is with
      | nil => simp [Spec.names, Spec.values, Spec.groups, hd]
      | cons j js =>
        unfold Spec.names Spec.values
        have : (i :: j :: js).getLast? = (j :: js).getLast? := by simp
        rw [this]
        have hl : ∀ x, (j :: js).getLast? = some x → x.dunhao = true → 1 < (Spec.groups Item.dunhao (j :: js)).length := by
          intro x hx hx'
          rw [Spec.groups_length]
          have : x ∈ (j :: js).filter Item.dunhao := List.mem_filter.2 ⟨List.mem_of_getLast? hx, hx'⟩
          have := List.length_pos_of_mem this
          omega
        rw [show Spec.groups Item.dunhao (i :: j :: js) = match Spec.groups Item.dunhao (j :: js) with
            | g :: gs => (i :: g) :: gs | [] => [[i]] by
              rw [Spec.groups, if_neg hd]; cases Spec.groups Item.dunhao (j :: js) <;> rfl]
        have hne := Spec.groups_ne_nil (p := Item.dunhao) (j :: js)
        cases hg : Spec.groups Item.dunhao (j :: js) with
        | nil => exact absurd hg hne
        | cons g gs =>
          by_cases h : (j :: js).getLast?.map Item.dunhao = some true
          · rw [if_pos h, if_pos h]
            obtain ⟨x, hx, hx'⟩ := Option.map_eq_some_iff.1 h
            have := hl x hx hx'
            rw [hg] at this
            cases gs with
            | nil => simp at this
            | cons g' gs' => simp
          · rw [if_neg h, if_neg h]
            simp

/-! ### The loop -/

section
variable {R : Call → St → Res → St → Prop}

theorem ev_addItem {r : Nat} {v : Item} {s s' : St} {u : Unit} :
    Ev H R (addItem r v) s u s' ↔ s' = { s with lists := upd s.lists r ((s.lists r).add v) } := by
  unfold addItem
  constructor
  · intro h
    obtain ⟨b, s2, h2, h3⟩ := ev_bind.1 h
    obtain ⟨rfl, rfl⟩ := ev_getSt.1 h2
    have h3 := ev_doOp.1 h3
    simp only [Op.run, Prod.mk.injEq] at h3
    exact h3.2.symm
  · rintro rfl
    exact ev_bind.2 ⟨_, _, ev_getSt.2 ⟨rfl, rfl⟩, ev_doOp.2 rfl⟩

theorem evE_setJie {ret : Nat} {name : Str} {v : Item} {cs : Str} {cnt : Nat} {s s' : St} {r : Except Err Nat} :
    EvE H R (setJie ret name v cs cnt) s r s' ↔ Spec.Handed ret name v cs cnt s r s' := by
  induction cs generalizing cnt s with
  | nil =>
    rw [setJie, evE_pure]
    constructor
    · rintro ⟨rfl, rfl⟩; exact .nil
    · intro h; cases h; exact ⟨rfl, rfl⟩
  | cons c cs ih =>
    rw [setJie]
    have hs : ∀ {f : Unit → E Nat}, EvE H R (if cnt + 1 > 1 then (liftM (addDun ret) : E Unit) >>= f else f ()) s r s' ↔
        EvE H R (f ()) (if cnt = 0 then s else s.push ret Spec.sep) r s' := by
      intro f
      by_cases h : cnt = 0
      · rw [if_neg (by omega), if_pos h]
      · rw [if_pos (by omega), if_neg h, evE_lift_bind]
        exact ⟨fun ⟨_, _, h1, h2⟩ => ev_addDun.1 h1 ▸ h2, fun h => ⟨(), _, ev_addDun.2 rfl, h⟩⟩
    rw [show EvE H R _ s r s' ↔ _ from hs]
    by_cases h1 : c = '1' ∨ c = '名'
    · rw [if_pos h1, evE_lift_bind]
      constructor
      · rintro ⟨_, s1, h2, h3⟩
        rw [ev_addT] at h2
        subst h2
        exact .name h1 (ih.1 h3)
      · intro h
        cases h with
        | name _ h => exact ⟨(), _, ev_addT.2 rfl, ih.2 h⟩
        | val h => subst h; exact absurd h1 (by decide)
        | bad ha hb => exact absurd h1 (by simp [ha, hb])
    · rw [if_neg h1]
      by_cases h2 : c = '值'
      · rw [if_pos h2, evE_lift_bind]
        constructor
        · rintro ⟨_, s1, h3, h4⟩
          rw [ev_addItem] at h3
          subst h3
          exact .val h2 rfl (ih.1 h4)
        · intro h
          cases h with
          | name ha h => exact absurd ha h1
          | val _ hs h => subst hs; exact ⟨(), _, ev_addItem.2 rfl, ih.2 h⟩
          | bad ha hb hc => exact absurd h2 hc
      · rw [if_neg h2, evE_bind]
        constructor
        · rintro (⟨a, s1, h3, h4⟩ | ⟨e, h3, rfl⟩)
          · exact nomatch (evE_fail.1 h3).1
          · obtain ⟨h3, h4⟩ := evE_fail.1 h3
            cases h3
            rw [h4]
            exact .bad (fun h => h1 (.inl h)) (fun h => h1 (.inr h)) h2
        · intro h
          cases h with
          | name ha h => exact absurd ha h1
          | val ha => exact absurd ha h2
          | bad ha hb hc => exact .inr ⟨_, evE_fail.2 ⟨rfl, rfl⟩, rfl⟩

theorem evE_ofOut_bind {α β : Type} {y : Except Err α} {f : α → E β} {s s' : St} {r : Except Err β} :
    EvE H R ((ExceptT.mk (ofOut (.ok y)) : E α) >>= f) s r s' ↔
      (∃ a, y = .ok a ∧ EvE H R (f a) s r s') ∨ ∃ e, y = .error e ∧ r = .error e ∧ s' = s := by
  have key : ∀ z t, EvE H R (ExceptT.mk (ofOut (.ok y)) : E α) s z t ↔ z = y ∧ t = s := fun z t => evE_mk
  rw [evE_bind]
  simp only [key]
  constructor
  · rintro (⟨a, s1, ⟨h1, rfl⟩, h2⟩ | ⟨e, ⟨h1, rfl⟩, rfl⟩)
    · exact .inl ⟨a, h1.symm, h2⟩
    · exact .inr ⟨e, h1.symm, rfl, rfl⟩
  · rintro (⟨a, rfl, h⟩ | ⟨e, rfl, rfl, rfl⟩)
    · exact .inl ⟨a, s, ⟨rfl, rfl⟩, h⟩
    · exact .inr ⟨e, ⟨rfl, rfl⟩, rfl⟩

theorem ev_item {st : SetSt} {s s' : St} {i : Item} :
    Ev H R (match st.obj with | some o => pure o | none => doOp (.newItem (.s st.val) st.valRem) : Prog Item) s i s' ↔
      i = st.given.item s ∧ s' = st.given.st s := by
  unfold SetSt.given Spec.Given.item Spec.Given.st
  cases st.obj with
  | some o => exact ev_pure
  | none =>
    constructor
    · intro h
      have h := ev_doOp.1 h
      simp only [Op.run, Prod.mk.injEq, Out.ok.injEq] at h
      exact ⟨h.1.symm, h.2.symm⟩
    · rintro ⟨rfl, rfl⟩
      exact ev_doOp.2 rfl

theorem ev_setVar {q : Nat} {v : Var} {s s' : St} {u : Unit} :
    Ev H R (doOp (.setVar q v)) s u s' ↔ s.held.contains (.scope q) = false ∧ s' = Spec.assigned q v s := by
  constructor
  · intro h
    have h := ev_doOp.1 h
    simp only [Op.run, St.modScope] at h
    split at h
    · simp at h
    · rename_i hh
      simp only [Prod.mk.injEq] at h
      exact ⟨by simpa using hh, h.2.symm⟩
  · rintro ⟨h, rfl⟩
    refine ev_doOp.2 ?_
    simp only [Op.run, St.modScope, h]
    rfl

theorem given_st_held (v : Spec.Given) (s : St) : (v.st s).held = s.held := by
  unfold Spec.Given.st; split <;> rfl

theorem evE_setGo {al : Bool} {env : Env} {gs : List (List Item)} {st : SetSt} {vs : List (List Item)} (hv : st.Rep vs)
    {s s' : St} {r : Except Err Unit} :
    EvE H R (setGo al env gs st) s r s' ↔ Spec.Assigns al env (Spec.pairs gs vs) st.given (st.priv, st.equ) st.cnt s r s' := by
  induction gs generalizing st vs s with
  | nil =>
    rw [setGo, evE_pure]
    constructor
    · rintro ⟨rfl, rfl⟩; exact .nil
    · intro h; cases h; exact ⟨rfl, rfl⟩
  | cons g gs ih =>
    rw [setGo, evE_lift_bind, pairs_cons]
    have e1 : ∀ (f : St → E Unit), (∃ a s1, Ev H R (getSt : Prog St) s a s1 ∧ EvE H R (f a) s1 r s') ↔ EvE H R (f s) s r s' := fun f =>
      ⟨fun ⟨a, s1, h1, h2⟩ => by obtain ⟨rfl, rfl⟩ := ev_getSt.1 h1; exact h2, fun h => ⟨s, s, ev_getSt.2 ⟨rfl, rfl⟩, h⟩⟩
    rw [e1]
    obtain ⟨y, hy1, hy2⟩ := place_setName s env.inq g [] env.q (st.priv, st.equ)
    rw [hy1, evE_ofOut_bind]
    cases y with
    | error e =>
      constructor
      · rintro (⟨a, h, -⟩ | ⟨e', h, rfl, rfl⟩)
        · cases h
        · cases h
          exact .badName ((hy2 _).2 rfl)
      · intro h
        cases h with
        | badName h => cases (hy2 _).1 h; exact .inr ⟨_, rfl, rfl, rfl⟩
        | badPipe h => cases (hy2 _).1 h
        | cons h => cases (hy2 _).1 h
    | ok p =>
      obtain ⟨q, priv, equ⟩ := p
      obtain ⟨n1, n2, n3, n4, n5⟩ := SetSt.next_spec s { st with priv, equ } vs hv
      rw [show (∃ a, Except.map (fun p : Nat × Bool × Bool => ([] ++ g.flatMap fun i => i.val.plainKw, some p.1, p.2))
          (Except.ok (q, priv, equ)) = (Except.ok a : Except Err _) ∧ _) ↔ _ from
        ⟨fun ⟨a, h1, h2⟩ => by cases h1; exact h2, fun h => ⟨_, rfl, h⟩⟩]
      rw [or_iff_left (by rintro ⟨e, h, -⟩; cases h)]
      dsimp only
      rw [evE_lift_bind]
      simp only [List.nil_append]
      generalize (SetSt.next s.items { st with priv, equ }) = st' at n1 n2 n3 n4 n5
      dsimp only at n3 n4 n5
      have hx : (priv, equ) = (st'.priv, st'.equ) := by rw [n3, n4]
      have n2' : st'.given = Spec.now s st.given vs.head? := n2
      have hp := (hy2 _).2 rfl
      constructor
      · rintro ⟨i, s1, h1, h2⟩
        obtain ⟨rfl, rfl⟩ := ev_item.1 h1
        obtain ⟨u, s2, h3, h4⟩ := evE_lift_bind.1 h2
        obtain ⟨h9, rfl⟩ := ev_setVar.1 h3
        rw [given_st_held] at h9
        rw [evE_bind] at h4
        rcases h4 with ⟨cnt, s3, h5, h6⟩ | ⟨e, h5, rfl⟩
        · rw [evE_setJie, n5] at h5
          refine .cons hp n2' h9 h5 ?_
          rw [hx]
          exact (ih (st := { st' with cnt := cnt }) n1).1 h6
        · rw [evE_setJie, n5] at h5
          exact .badPipe hp n2' h9 h5
      · intro h
        cases h with
        | badName h => cases (hy2 _).1 h
        | badPipe h0 h1 h2 h3 =>
          cases (hy2 _).1 h0
          rw [← n2'] at h1
          subst h1
          refine ⟨_, _, ev_item.2 ⟨rfl, rfl⟩, evE_lift_bind.2 ⟨(), _, ev_setVar.2 ⟨by rw [given_st_held]; exact h2, rfl⟩, ?_⟩⟩
          rw [evE_bind]
          exact .inr ⟨_, evE_setJie.2 (n5 ▸ h3), rfl⟩
        | @cons _ _ _ _ _ _ _ _ _ _ cnt' _ _ _ h0 h1 h2 h3 h4 =>
          cases (hy2 _).1 h0
          rw [← n2'] at h1
          subst h1
          refine ⟨_, _, ev_item.2 ⟨rfl, rfl⟩, evE_lift_bind.2 ⟨(), _, ev_setVar.2 ⟨by rw [given_st_held]; exact h2, rfl⟩, ?_⟩⟩
          rw [evE_bind]
          refine .inl ⟨_, _, evE_setJie.2 (n5 ▸ h3), ?_⟩
          refine (ih (st := { st' with cnt := cnt' }) n1).2 ?_
          rw [hx] at h4
          exact h4

theorem evE_setP [Sub H R] {al : Bool} {names vals : List Code} {env : Env} {s s' : St} {r : Except Err Unit} :
    EvE H R (setP al names vals env) s r s' ↔
      (∃ x e, R (.codes names 0 usizeMax { env with gd := { env.gd with names := true }, ret := s.nlist })
        (Spec.fresh (Spec.fresh s)) x s' ∧ x.r = .error e ∧ r = .error e) ∨
      ∃ x s1, R (.codes names 0 usizeMax { env with gd := { env.gd with names := true }, ret := s.nlist })
        (Spec.fresh (Spec.fresh s)) x s1 ∧ x.r = .ok () ∧
        ((∃ y e, R (.codes vals 0 usizeMax { env with gd := { env.gd with vals := true }, ret := s.nlist + 1 }) s1 y s' ∧
          y.r = .error e ∧ r = .error e) ∨
        ∃ y s2, R (.codes vals 0 usizeMax { env with gd := { env.gd with vals := true }, ret := s.nlist + 1 }) s1 y s2 ∧ y.r = .ok () ∧
          Spec.Assigns al env (Spec.pairs (Spec.names (s2.lists s.nlist).a) (Spec.values (s2.lists (s.nlist + 1)).a))
            ⟨none, [], []⟩ (false, false) 0 s2 r s') := by
  have hgo : ∀ s2 : St, EvE H R (setGo al env (nameGroups (s2.lists s.nlist).a []) { vals := (s2.lists (s.nlist + 1)).a }) s2 r s' ↔
      Spec.Assigns al env (Spec.pairs (Spec.names (s2.lists s.nlist).a) (Spec.values (s2.lists (s.nlist + 1)).a))
            ⟨none, [], []⟩ (false, false) 0 s2 r s' := by
    intro s2
    have hn : nameGroups (s2.lists s.nlist).a [] = Spec.names (s2.lists s.nlist).a := by
      rw [nameGroups_spec]
      cases Spec.names (s2.lists s.nlist).a <;> simp
    rw [hn]
    refine evE_setGo ?_
    by_cases he : (s2.lists (s.nlist + 1)).a = []
    · exact .inr (.inr (.inl ⟨rfl, he, by rw [he]; rfl, rfl⟩))
    · exact .inr (.inr (.inr ⟨rfl, he, rfl⟩))
  rw [setP, evE_newList_bind, evE_newList_bind, evE_hello_bind]
  simp only [evE_hello_bind, evE_getList_bind]
  change (∃ x s1, R (.codes names 0 usizeMax { env with gd := { env.gd with names := true }, ret := s.nlist })
        (Spec.fresh (Spec.fresh s)) x s1 ∧ x.r = .ok () ∧ (
      (∃ y s2, R (.codes vals 0 usizeMax { env with gd := { env.gd with vals := true }, ret := s.nlist + 1 }) s1 y s2 ∧ y.r = .ok () ∧
        EvE H R (setGo al env (nameGroups (s2.lists s.nlist).a []) { vals := (s2.lists (s.nlist + 1)).a }) s2 r s') ∨ _)) ∨ _ ↔ _
  simp only [hgo]
  constructor
  · rintro (⟨x, s1, h1, h2, h3 | h3⟩ | h)
    · exact .inr ⟨x, s1, h1, h2, .inr h3⟩
    · exact .inr ⟨x, s1, h1, h2, .inl h3⟩
    · exact .inl h
  · rintro (h | ⟨x, s1, h1, h2, h3 | h3⟩)
    · exact .inr h
    · exact .inl ⟨x, s1, h1, h2, .inr h3⟩
    · exact .inl ⟨x, s1, h1, h2, .inl h3⟩
end

/-! ## The property -/

theorem assignment_iff {al : Bool} {names vals : List Code} {env : Env} {s s' : St} {r : Except Err Unit} :
    EvE H (Evals H) (setP al names vals env) s r s' ↔ Spec.Assignment H al names vals env s r s' := by
  rw [evE_setP]
  constructor
  · rintro (⟨x, e, h1, h2, rfl⟩ | ⟨x, s1, h1, h2, ⟨y, e, h3, h4, rfl⟩ | ⟨y, s2, h3, h4, h5⟩⟩)
    · exact .badNames h1 h2
    · exact .badVals h1 h2 h3 h4
    · exact .assign h1 h2 h3 h4 h5
  · rintro (⟨h1, h2⟩ | ⟨h1, h2, h3, h4⟩ | ⟨h1, h2, h3, h4, h5⟩)
    · exact .inl ⟨_, _, h1, h2, rfl⟩
    · exact .inr ⟨_, _, h1, h2, .inl ⟨_, _, h3, h4, rfl⟩⟩
    · exact .inr ⟨_, _, h1, h2, .inr ⟨_, _, h3, h4, h5⟩⟩

/-- **C43.** What `赋予` does, exactly. -/
theorem C43_assignment {names vals : List Code} {env : Env} {s s' : St} {r : Res} :
    Evals H (.item (.set_ names vals) env) s r s' ↔ ∃ x, Spec.Assignment H false names vals env s x s' ∧ r = { r := x } := by
  rw [evals_item]
  exact exists_congr fun x => and_congr_left' assignment_iff

/-- **C43.** What `别名` does, exactly. -/
theorem C43_alias {names vals : List Code} {env : Env} {s s' : St} {r : Res} :
    Evals H (.item (.alias names vals) env) s r s' ↔ ∃ x, Spec.Assignment H true names vals env s x s' ∧ r = { r := x } := by
  rw [evals_item]
  exact exists_congr fun x => and_congr_left' assignment_iff

/-! ### Names without annotations -/

/-- The value of a name: the `k`-th one, or the last one if there are not so many. -/
def Spec.valueOf (vs : List (List Item)) (k : Nat) : List Item := vs.getD (min k (vs.length - 1)) []

/-- The item `i` is the value given by the group `v`: its last object, or else a text. -/
def Spec.IsValue (v : List Item) (i : Item) : Prop :=
  match v.reverse.find? Spec.isObj with
  | some o => i = o
  | none => i.val = .s ((v.filter fun i => !Spec.isObj i).flatMap fun i => i.val.plainKw)

/-- The name written by a group of items. -/
def Spec.nameOf (g : List Item) : Str := g.flatMap fun i => i.val.plainKw

theorem handed_keeps {ret : Nat} {name : Str} {v : Item} {cs : Str} {cnt : Nat} {s s' : St} {r : Except Err Nat}
    (h : Spec.Handed ret name v cs cnt s r s') :
    s'.scopes = s.scopes ∧ s.nitem ≤ s'.nitem ∧ ∀ k, k < s.nitem → s'.items k = s.items k := by
  have push : ∀ (v : Val) (s : St), (s.push ret v).scopes = s.scopes ∧ s.nitem ≤ (s.push ret v).nitem ∧
      ∀ k, k < s.nitem → (s.push ret v).items k = s.items k := by
    intro v s
    refine ⟨rfl, Nat.le_succ _, fun k hk => ?_⟩
    have : k ≠ s.nitem := by omega
    simp [St.push, upd, this]
  have sep : ∀ (cnt : Nat) (s : St), (if cnt = 0 then s else s.push ret Spec.sep).scopes = s.scopes ∧
      s.nitem ≤ (if cnt = 0 then s else s.push ret Spec.sep).nitem ∧
      ∀ k, k < s.nitem → (if cnt = 0 then s else s.push ret Spec.sep).items k = s.items k := by
    intro cnt s
    split
    · exact ⟨rfl, Nat.le_refl _, fun _ _ => rfl⟩
    · exact push _ _
  induction h with
  | nil => exact ⟨rfl, Nat.le_refl _, fun _ _ => rfl⟩
  | @name c cs cnt s r s' _ _ ih =>
    obtain ⟨a1, a2, a3⟩ := sep cnt s
    obtain ⟨b1, b2, b3⟩ := push (.s name) (if cnt = 0 then s else s.push ret Spec.sep)
    exact ⟨ih.1.trans (b1.trans a1), by omega, fun k hk => by rw [ih.2.2 k (by omega), b3 k (by omega), a3 k hk]⟩
  | @val c cs cnt s s1 r s' _ h1 _ ih =>
    obtain ⟨a1, a2, a3⟩ := sep cnt s
    rw [← h1] at a1 a2 a3
    exact ⟨ih.1.trans a1, Nat.le_trans a2 ih.2.1, fun k hk => by rw [ih.2.2 k (Nat.lt_of_lt_of_le hk a2)]; exact a3 k hk⟩
  | bad => exact sep _ _

theorem assigns_plain {al : Bool} {env : Env} {ns vs : List (List Item)} {v0 : List Item} {last : Spec.Given} {cnt : Nat} {s s' : St}
    (h : Spec.Assigns al env (Spec.pairs ns vs) last (false, false) cnt s (.ok ()) s')
    (hl1 : last.obj = v0.reverse.find? Spec.isObj)
    (hl2 : last.text = (v0.filter fun i => !Spec.isObj i).flatMap fun i => i.val.plainKw)
    (hn : ∀ g ∈ ns, ∀ i ∈ g, i.ref < s.nitem ∧ s.items i.ref = []) :
    ∃ its : List Item, its.length = ns.length ∧
      (∀ k i, its[k]? = some i → Spec.IsValue ((v0 :: vs).getD (min (k + 1) vs.length) []) i) ∧
      (s'.scopes env.q).vars = (ns.zip its).foldl (fun vars p => setVar ⟨Spec.nameOf p.1, p.2, al, false, false⟩ vars) (s.scopes env.q).vars ∧
      ∀ q, q ≠ env.q → s'.scopes q = s.scopes q := by
  induction ns generalizing vs v0 last cnt s with
  | nil =>
    cases h
    exact ⟨[], rfl, by simp, by simp, fun _ _ => rfl⟩
  | cons g gs ih =>
    rw [pairs_cons] at h
    cases h with
    | @cons _ _ _ _ _ _ _ q x' now cnt' s1 _ _ h0 h1 h2 h3 h4 =>
      have hr : (g.flatMap fun i => s.items i.ref) = [] := by
        rw [List.flatMap_eq_nil_iff]
        exact fun i hi => (hn g (by simp) i hi).2
      rw [hr] at h0
      cases h0
      obtain ⟨k1, k2, k3⟩ := handed_keeps h3
      have g2 : s.nitem ≤ (now.st s).nitem := by unfold Spec.Given.st; split <;> simp
      have g3 : ∀ k, k < s.nitem → (now.st s).items k = s.items k := by
        intro k hk
        unfold Spec.Given.st
        split
        · rfl
        · have : k ≠ s.nitem := by omega
          simp [upd, this]
      have g1 : (now.st s).scopes = s.scopes := by unfold Spec.Given.st; split <;> rfl
      obtain ⟨v1, hv1, o1, t1⟩ : ∃ v1, v1 = (v0 :: vs).getD (min 1 vs.length) [] ∧ now.obj = v1.reverse.find? Spec.isObj ∧
          now.text = (v1.filter fun i => !Spec.isObj i).flatMap fun i => i.val.plainKw := by
        cases vs with
        | nil => exact ⟨v0, by simp, by rw [h1]; exact hl1, by rw [h1]; exact hl2⟩
        | cons v vs => exact ⟨v, by simp, by rw [h1]; rfl, by rw [h1]; rfl⟩
      obtain ⟨its, i1, i2, i3, i4⟩ := ih h4 o1 t1 (fun g' hg' i hi => by
        obtain ⟨a, b⟩ := hn g' (by simp [hg']) i hi
        refine ⟨Nat.lt_of_lt_of_le a (Nat.le_trans g2 k2), ?_⟩
        rw [k3 _ (Nat.lt_of_lt_of_le a g2)]
        exact (g3 _ a).trans b)
      refine ⟨now.item s :: its, by simp [i1], ?_, ?_, ?_⟩
      · intro k i hk
        cases k with
        | zero =>
          simp only [List.getElem?_cons_zero, Option.some.injEq] at hk
          subst hk
          rw [Nat.zero_add, ← hv1]
          unfold Spec.IsValue Spec.Given.item
          rw [o1]
          cases hf : v1.reverse.find? Spec.isObj with
          | some o => simp
          | none => simp [t1]
        | succ k =>
          simp only [List.getElem?_cons_succ] at hk
          have := i2 k i hk
          cases vs with
          | nil => simp only [List.tail_nil, List.length_nil, Nat.min_zero] at this ⊢; rw [hv1] at this; simpa using this
          | cons v vs =>
            simp only [List.length_cons, List.tail_cons] at this ⊢
            rw [show min (k + 1 + 1) (vs.length + 1) = min (k + 1) vs.length + 1 by omega, List.getD_cons_succ]
            rw [hv1] at this
            simpa using this
      · rw [i3, k1, List.zip_cons_cons, List.foldl_cons]
        congr 1
        simp only [Spec.assigned, upd, if_pos, g1]
        rfl
      · intro q hq
        rw [i4 q hq, k1]
        simp [Spec.assigned, upd, hq, g1]

/-- **C43.** If no name is annotated: exactly `n` assignments are made to variables of the scope, in order; the
`k`-th name gets the `k`-th value, names without a value of their own get the last value; nothing else in
any scope changes. -/
theorem C43_distributes {al : Bool} {env : Env} {names vals : List Item} {s s' : St}
    (h : Spec.Assigns al env (Spec.pairs (Spec.names names) (Spec.values vals)) ⟨none, [], []⟩ (false, false) 0 s (.ok ()) s')
    (hn : ∀ g ∈ Spec.names names, ∀ i ∈ g, i.ref < s.nitem ∧ s.items i.ref = []) :
    ∃ its : List Item, its.length = (Spec.names names).length ∧
      (∀ k i, its[k]? = some i → Spec.IsValue (Spec.valueOf (Spec.values vals) k) i) ∧
      (s'.scopes env.q).vars = ((Spec.names names).zip its).foldl
        (fun vars p => setVar ⟨Spec.nameOf p.1, p.2, al, false, false⟩ vars) (s.scopes env.q).vars ∧
      ∀ q, q ≠ env.q → s'.scopes q = s.scopes q := by
  obtain ⟨its, h1, h2, h3, h4⟩ := assigns_plain (v0 := []) h rfl rfl hn
  refine ⟨its, h1, fun k i hk => ?_, h3, h4⟩
  have := h2 k i hk
  have hv : Spec.values vals ≠ [] := Spec.groups_ne_nil _
  unfold Spec.valueOf
  cases hg : Spec.values vals with
  | nil => exact absurd hg hv
  | cons v vs =>
    rw [hg] at this
    simp only [List.length_cons, Nat.add_sub_cancel] at this ⊢
    rwa [show min (k + 1) (vs.length + 1) = min k vs.length + 1 by omega, List.getD_cons_succ] at this

theorem findVar_set_self (v : Var) (vs : List Var) : findVar false v.name (setVar v vs) = some v := by
  unfold findVar
  induction vs with
  | nil => simp [setVar]
  | cons w ws ih =>
    rw [setVar]
    split
    · simp
    · rename_i hw
      have : (w.name == v.name) = false := beq_eq_false_iff_ne.2 hw
      simpa [List.find?_cons, this] using ih

theorem findVar_set_other (v : Var) (n : Str) (vs : List Var) (h : v.name ≠ n) :
    findVar false n (setVar v vs) = findVar false n vs := by
  unfold findVar
  have hb : (v.name == n) = false := beq_eq_false_iff_ne.2 h
  induction vs with
  | nil => simp [setVar, hb]
  | cons w ws ih =>
    rw [setVar]
    split
    · rename_i hw
      rw [← hw] at hb
      simp [hb, hw ▸ hb]
    · simp only [List.find?_cons]
      rw [ih]

/-- **C43.** Reading a name after the assignment (that no later name of the same assignment repeats) gives its value. -/
theorem C43_read {al : Bool} {names : List (List Item)} {its : List Item} {vars : List Var} {k : Nat} {g : List Item} {i : Item}
    (hg : names[k]? = some g) (hi : its[k]? = some i)
    (hd : ∀ j g', k < j → names[j]? = some g' → Spec.nameOf g' ≠ Spec.nameOf g) :
    findVar false (Spec.nameOf g) ((names.zip its).foldl
      (fun vars p => setVar ⟨Spec.nameOf p.1, p.2, al, false, false⟩ vars) vars) = some ⟨Spec.nameOf g, i, al, false, false⟩ := by
  induction names generalizing its vars k with
  | nil => simp at hg
  | cons g0 gs ih =>
    cases its with
    | nil => simp at hi
    | cons i0 is =>
      rw [List.zip_cons_cons, List.foldl_cons]
      cases k with
      | zero =>
        simp only [List.getElem?_cons_zero, Option.some.injEq] at hg hi
        subst hg hi
        have : ∀ (ps : List (List Item × Item)) (vars : List Var), (∀ p ∈ ps, Spec.nameOf p.1 ≠ Spec.nameOf g0) →
            findVar false (Spec.nameOf g0) (ps.foldl (fun vars p => setVar ⟨Spec.nameOf p.1, p.2, al, false, false⟩ vars) vars) =
              findVar false (Spec.nameOf g0) vars := by
          intro ps
          induction ps with
          | nil => intro vars _; rfl
          | cons p ps ihp =>
            intro vars hp
            rw [List.foldl_cons, ihp _ (fun q hq => hp q (by simp [hq]))]
            exact findVar_set_other _ _ _ (hp p (by simp))
        rw [this]
        · exact findVar_set_self ⟨Spec.nameOf g0, i0, al, false, false⟩ vars
        · intro p hp
          obtain ⟨p1, p2⟩ := p
          have hp := (List.of_mem_zip hp).1
          obtain ⟨j, hj⟩ := List.getElem?_of_mem hp
          exact hd (j + 1) p1 (by omega) (by simpa using hj)
      | succ k =>
        simp only [List.getElem?_cons_succ] at hg hi
        exact ih hg hi fun j g' hj hj' => hd (j + 1) g' (by omega) (by simpa using hj')

/-! ## Concrete cases -/

/-- What a script sees. -/
theorem C43_example :
    demo 20 c!"赋予甲、乙、丙以1、2。显示‘甲’‘乙’‘丙’。" = (.ok (.ok ()), [.out c!"122"]) ∧
    demo 20 c!"赋予甲、乙以1、2、3。显示‘甲’‘乙’。" = (.ok (.ok ()), [.out c!"12"]) ∧
    demo 20 c!"赋予甲、乙、丙以1、。显示‘甲’‘乙’‘丙’。" = (.ok (.ok ()), [.out c!"1"]) := by
  decide +kernel

/-- Found: the annotation `私` of a name stays in force for the names after it, here `乙`; in the other order
`乙` is not private. -/
theorem C43_private_sticks_counterexample :
    (demo 40 c!"赋予甲【私】、乙以1、2。定义丙以下代码显示‘乙’上代码。丙。").2 = [] ∧
    demo 40 c!"赋予乙、甲【私】以2、1。定义丙以下代码显示‘乙’上代码。丙。" = (.ok (.ok ()), [.out c!"2"]) ∧
    demo 40 c!"赋予甲、乙以1、2。定义丙以下代码显示‘乙’上代码。丙。" = (.ok (.ok ()), [.out c!"2"]) := by
  decide +kernel

/-- The test of `C43_witness`. -/
def assignB (n : Nat) (ns vs : List Code) (env : Env) (s : St) : Bool :=
  match run H0 n (.codes ns 0 usizeMax { env with gd := { env.gd with names := true }, ret := s.nlist }) (Spec.fresh (Spec.fresh s)) with
  | (.ok x, s1) => match x.r with
    | .ok () => match run H0 n (.codes vs 0 usizeMax { env with gd := { env.gd with vals := true }, ret := s.nlist + 1 }) s1 with
      | (.ok y, s2) => match y.r with
        | .ok () => (Spec.names (s2.lists s.nlist).a).length == 3 && (Spec.values (s2.lists (s.nlist + 1)).a).length == 2 &&
            ((Spec.names (s2.lists s.nlist).a).all fun g => g.all fun i => decide (i.ref < s2.nitem) && (s2.items i.ref).isEmpty) &&
            (match run H0 n (.item (.set_ ns vs) env) s with | (.ok ⟨_, _, _, .ok ()⟩, _) => true | _ => false)
        | _ => false
      | _ => false
    | _ => false
  | _ => false

/-- A run reaches an assignment of two values to three names without annotations that ends well. -/
theorem C43_witness : ∃ ns vs env s s1 s2 s', Reached H0 false (demoArgv c!"赋予甲、乙、丙以1、2。") (.item (.set_ ns vs) env) s ∧
    s1 = (s2.lists s.nlist).a ∧ (Spec.names s1).length = 3 ∧ (Spec.values (s2.lists (s.nlist + 1)).a).length = 2 ∧
    (∀ g ∈ Spec.names s1, ∀ i ∈ g, i.ref < s2.nitem ∧ s2.items i.ref = []) ∧
    Spec.Assigns false env (Spec.pairs (Spec.names s1) (Spec.values (s2.lists (s.nlist + 1)).a)) ⟨none, [], []⟩ (false, false) 0 s2
      (.ok ()) s' := by
  obtain ⟨c, s, hr, h⟩ := demoB_sound (n := 9) (src := c!"赋予甲、乙、丙以1、2。")
    (P := fun c s => match c with
    | .item (.set_ ns vs) env => assignB 9 ns vs env s
    | _ => false) (by decide +kernel)
  split at h
  · rename_i ns vs env
    unfold assignB at h
    split at h
    · rename_i x s1 h1
      split at h
      · rename_i h2
        split at h
        · rename_i y s2 h3
          split at h
          · rename_i h4
            simp only [Bool.and_eq_true, beq_iff_eq, List.all_eq_true, decide_eq_true_eq, List.isEmpty_iff] at h
            obtain ⟨⟨⟨a1, a2⟩, a3⟩, h⟩ := h
            split at h
            · rename_i s' h5
              obtain ⟨z, h6, h7⟩ := C43_assignment.1 ⟨9, h5⟩
              cases h7
              cases h6 with
              | assign b1 b2 b3 b4 b5 =>
                obtain ⟨rfl, rfl⟩ := Evals.unique ⟨9, h1⟩ b1
                obtain ⟨rfl, rfl⟩ := Evals.unique ⟨9, h3⟩ b3
                exact ⟨ns, vs, env, s, _, s2, s', hr, rfl, a1, a2, a3, b5⟩
            · cases h
          · cases h
        · cases h
      · cases h
    · cases h
  · cases h

end Zh
