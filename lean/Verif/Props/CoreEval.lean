import Verif.Props.CoreSpec
import Verif.Props.Evaluate
import Verif.Props.Print
import Verif.Props.Sums
import Verif.Props.Cached
import Verif.Props.ArgNames
/-!
# C68: texts, values, comparisons, assignments and printing
-/
namespace Zh

variable {H : Host}

/-! ## Reading names -/

/-- What a scope answers is what the store says. -/
def Says (c : Scope) (σ : Spec.Store) : Prop := ∀ x ns, match c.get x false false ns with
  | none => σ x = none
  | some (.val it) => ∃ t, it.val = .s t ∧ σ x = some t
  | some (.text t) => σ x = some t
  | some _ => False

/-- Scopes and stores, one for each. -/
inductive Stacks (scopes : Nat → Scope) : List Nat → List Spec.Store → Prop where
  | nil : Stacks scopes [] []
  | cons {p ps σ ρ} : Says (scopes p) σ → Stacks scopes ps ρ → Stacks scopes (p :: ps) (σ :: ρ)

theorem stacks_find {scopes : Nat → Scope} {ps : List Nat} {ρ : List Spec.Store} (h : Stacks scopes ps ρ) (x : Str) (ns : Nat → Bool) :
    match ((ps.map fun p => (p, ns p)).findSome? fun v => ((scopes v.1).get x false false v.2).map fun a => (v.1, a) :
        Option (Nat × GetAct)) with
    | none => Spec.look ρ x = none
    | some (_, .val it) => ∃ t, it.val = .s t ∧ Spec.look ρ x = some t
    | some (_, .text t) => Spec.look ρ x = some t
    | some _ => False := by
  induction h with
  | nil => rfl
  | @cons p ps σ ρ ha _ ih =>
    have h1 := ha x (ns p)
    simp only [List.map_cons, List.findSome?_cons, Spec.look]
    revert h1
    cases (scopes p).get x false false (ns p) with
    | none =>
      intro h1
      dsimp only at h1 ⊢
      rw [h1]
      exact ih
    | some a =>
      intro h1
      dsimp only [Option.map]
      cases a <;> dsimp only at h1 ⊢
      · obtain ⟨t, h2, h3⟩ := h1
        exact ⟨t, h2, by rw [h3]⟩
      · rw [h1]

/-- Reading a name. -/
theorem stacks_get {s : St} {q : Nat} {ρ : List Spec.Store} (hm : s.mods = []) (h : Stacks s.scopes (chain s.scopes q) ρ) (x : Str) :
    match getName s.scopes s.mods q x false false true false with
    | none => Spec.look ρ x = none
    | some (_, .val it) => ∃ t, it.val = .s t ∧ Spec.look ρ x = some t
    | some (_, .text t) => Spec.look ρ x = some t
    | some _ => False := by
  have hq : ∃ ps, chain s.scopes q = q :: ps ∧ ∀ p ∈ ps, p < q := by
    rw [chain]
    refine ⟨_, rfl, ?_⟩
    cases hu : (s.scopes q).up with
    | none => simp
    | some p =>
      intro p' hp'
      by_cases hlt : p < q
      · simp only [hlt, dif_pos] at hp'
        have := mem_chain_le _ _ _ hp'
        omega
      · simp [hlt] at hp'
  obtain ⟨ps, hc, hlt⟩ := hq
  have key := stacks_find h x fun p => decide (p ≠ q)
  rw [hc, List.map_cons] at key
  have e : (ps.map fun p => (p, decide (p ≠ q))) = ps.map fun p => (p, true) := by
    refine List.map_congr_left fun p hp => ?_
    have := hlt p hp
    have : p ≠ q := by omega
    simp [this]
  rw [e] at key
  unfold getName visits
  simp only [hm, hc, Bool.false_eq_true, if_false, Bool.not_false, Bool.true_and, if_true, List.tail_cons, List.map_nil, List.append_nil,
    List.cons_append, List.nil_append]
  simp only [ne_eq, not_true_eq_false, decide_false] at key
  exact key

/-! ## States that differ in results only -/

/-- Everything but the items and the lists. -/
def St.bare (s : St) : St := { s with items := fun _ => [], nitem := 0, lists := fun _ => .empty, nlist := 0 }

/-- Only the list `r` and new lists have changed. -/
structure CalmIn (r : Nat) (s s' : St) : Prop where
  bare : s'.bare = s.bare
  more : s.nlist ≤ s'.nlist
  lists : ∀ l, l < s.nlist → l ≠ r → s'.lists l = s.lists l
  moreItems : s.nitem ≤ s'.nitem
  items : ∀ k, k < s.nitem → s'.items k = s.items k

theorem CalmIn.refl (r : Nat) (s : St) : CalmIn r s s := ⟨rfl, Nat.le_refl _, fun _ _ _ => rfl, Nat.le_refl _, fun _ _ => rfl⟩

theorem CalmIn.trans {r : Nat} {s s1 s2 : St} (h : CalmIn r s s1) (h' : CalmIn r s1 s2) : CalmIn r s s2 :=
  ⟨h'.bare.trans h.bare, Nat.le_trans h.more h'.more, fun l hl hr => (h'.lists l (by have := h.more; omega) hr).trans (h.lists l hl hr),
    Nat.le_trans h.moreItems h'.moreItems, fun k hk => (h'.items k (by have := h.moreItems; omega)).trans (h.items k hk)⟩

theorem CalmIn.scopes {r : Nat} {s s' : St} (h : CalmIn r s s') : s'.scopes = s.scopes :=
  show s'.bare.scopes = s.bare.scopes from congrArg _ h.bare
theorem CalmIn.nscope {r : Nat} {s s' : St} (h : CalmIn r s s') : s'.nscope = s.nscope :=
  show s'.bare.nscope = s.bare.nscope from congrArg _ h.bare
theorem CalmIn.mods {r : Nat} {s s' : St} (h : CalmIn r s s') : s'.mods = s.mods :=
  show s'.bare.mods = s.bare.mods from congrArg _ h.bare
theorem CalmIn.held {r : Nat} {s s' : St} (h : CalmIn r s s') : s'.held = s.held :=
  show s'.bare.held = s.bare.held from congrArg _ h.bare
theorem CalmIn.trace {r : Nat} {s s' : St} (h : CalmIn r s s') : s'.trace = s.trace :=
  show s'.bare.trace = s.bare.trace from congrArg _ h.bare

theorem calm_push (r : Nat) (v : Val) (s : St) : CalmIn r s (s.push r v) :=
  ⟨rfl, Nat.le_refl _, fun l _ hr => by simp [St.push, upd, hr], Nat.le_succ _, fun k hk => by simp [St.push, upd, Nat.ne_of_lt hk]⟩

theorem calm_append (r : Nat) (i : Item) (s : St) : CalmIn r s (Spec.append r i s) :=
  ⟨rfl, Nat.le_refl _, fun l _ hr => by simp [Spec.append, upd, hr], Nat.le_refl _, fun _ _ => rfl⟩

theorem calm_fresh (r : Nat) (s : St) : CalmIn r s (Spec.fresh s) :=
  ⟨rfl, Nat.le_succ _, fun l hl _ => by simp [Spec.fresh, upd, Nat.ne_of_lt hl], Nat.le_refl _, fun _ _ => rfl⟩

/-- What happens in a new list. -/
theorem CalmIn.inner {r : Nat} {s s' : St} (h : CalmIn s.nlist (Spec.fresh s) s') : CalmIn r s s' := by
  refine ⟨h.bare, Nat.le_trans (Nat.le_succ _) h.more, fun l hl hr => ?_, h.moreItems, h.items⟩
  rw [h.lists l (by simp only [Spec.fresh]; omega) (by omega)]
  simp [Spec.fresh, upd, Nat.ne_of_lt hl]

/-! ## Arguments -/

/-- All items are texts. -/
def AllText (l : List Item) : Prop := ∀ i ∈ l, ∃ t, i.val = .s t

/-- What they are together. -/
def textOfItems (l : List Item) : Option Str := if l = [] then none else some (l.flatMap fun i => i.val.plain)

/-- Items that are texts. -/
def Texts (l : List Item) (u : Option Str) : Prop := AllText l ∧ textOfItems l = u

theorem texts_nil : Texts [] none := ⟨nofun, rfl⟩

theorem texts_one {i : Item} {t : Str} (h : i.val = .s t) : Texts [i] (some t) := by
  refine ⟨fun j hj => ?_, ?_⟩
  · rw [List.mem_singleton.1 hj]; exact ⟨t, h⟩
  · simp [textOfItems, h, Val.plain, Val.s3]

theorem texts_append {l l' : List Item} {u u' : Option Str} (h : Texts l u) (h' : Texts l' u') : Texts (l ++ l') (Spec.beside u u') := by
  refine ⟨fun i hi => ?_, ?_⟩
  · rcases List.mem_append.1 hi with hi | hi
    · exact h.1 i hi
    · exact h'.1 i hi
  · rw [← h.2, ← h'.2]
    cases l with
    | nil => rfl
    | cons a l =>
      cases l' with
      | nil => simp [textOfItems, Spec.beside]
      | cons b l' => simp [textOfItems, Spec.beside]

/-- The arguments in a list. -/
def Given (l : RList) (as : List (Option Str)) : Prop :=
  Spec.WF l ∧ (∀ g ∈ Spec.argsOf l, AllText g) ∧ (Spec.argsOf l).map textOfItems = as

/-- What scope `q` sees. -/
structure Seen (q : Nat) (s : St) (ρ : List Spec.Store) : Prop where
  mods : s.mods = []
  stacks : Stacks s.scopes (chain s.scopes q) ρ
  args : (s.scopes q).args < s.nlist
  given : Given (s.lists (s.scopes q).args) (Spec.args ρ)

theorem Seen.calm {q r : Nat} {s s' : St} {ρ : List Spec.Store} (h : Seen q s ρ) (hc : CalmIn r s s') (hr : (s.scopes q).args ≠ r) : Seen q s' ρ := by
  refine ⟨hc.mods.trans h.mods, by rw [hc.scopes]; exact h.stacks, by rw [hc.scopes]; exact Nat.lt_of_lt_of_le h.args hc.more, ?_⟩
  rw [hc.scopes, hc.lists _ h.args hr]
  exact h.given

theorem Seen.fresh {q : Nat} {s : St} {ρ : List Spec.Store} (h : Seen q s ρ) : Seen q (Spec.fresh s) ρ :=
  h.calm (calm_fresh s.nlist s) (Nat.ne_of_lt h.args)

/-! ## Texts -/

/-- The value of a piece of text or a name. -/
def pieceC (ρ : List Spec.Store) : Code → Option (Option Str)
  | .text s => some (some s)
  | .simp x [] => (Spec.look ρ x).map some
  | .argi [] i => some ((Spec.args ρ).getD (i.toNat - 1) none)
  | .argc [] => some (some (natStr (Spec.args ρ).length))
  | _ => none

/-- The value of pieces of text and names. -/
def fillC (ρ : List Spec.Store) : List Code → Option (Option Str)
  | [] => some none
  | c :: l => (pieceC ρ c).bind fun v => (fillC ρ l).map (Spec.beside v)

/-- A piece of text or a name. -/
def IsPiece (c : Code) : Prop := (∃ s, c = .text s) ∨ (∃ x, c = .simp x []) ∨ (∃ i : Int, 1 ≤ i ∧ c = .argi [] i) ∨ c = .argc []

/-- Pieces of text and names. -/
def IsTxt (l : List Code) : Prop := ∀ c ∈ l, IsPiece c

def Spec.Txt.code (t : Spec.Txt) : List Code :=
  (t.parts.flatMap fun p => Spec.textItem (Spec.printable p.1) ++ [p.2.name.item []]) ++ Spec.textItem (Spec.printable t.last)

theorem textItem_isTxt (s : Str) : IsTxt (Spec.textItem s) := by
  intro c hc
  unfold Spec.textItem at hc
  split at hc
  · cases hc
  · exact .inl ⟨s, List.mem_singleton.1 hc⟩

/-- The item of a name. -/
theorem ref_item {r : Spec.Ref} (h : r.Ok) : r.name.item [] = match r with
    | .var x => .simp (Spec.printable x) []
    | .arg _ i => .argi [] i
    | .count => .argc [] := by
  cases r with
  | var x => rfl
  | arg s i =>
    have := h.2 s i rfl
    show (if i = 0 then _ else _) = _
    rw [if_neg (by omega)]
  | count => rfl

theorem ref_piece {r : Spec.Ref} (h : r.Ok) : IsPiece (r.name.item []) := by
  rw [ref_item h]
  cases r with
  | var x => exact .inr (.inl ⟨_, rfl⟩)
  | arg s i => exact .inr (.inr (.inl ⟨i, h.2 s i rfl, rfl⟩))
  | count => exact .inr (.inr (.inr rfl))

theorem ref_read (ρ : List Spec.Store) {r : Spec.Ref} (h : r.Ok) : pieceC ρ (r.name.item []) = Spec.read ρ r := by
  rw [ref_item h]
  cases r <;> rfl

theorem Spec.Txt.isTxt {t : Spec.Txt} (ht : t.Ok) : IsTxt t.code := by
  intro c hc
  rcases List.mem_append.1 hc with h | h
  · obtain ⟨p, hp, h⟩ := List.mem_flatMap.1 h
    rcases List.mem_append.1 h with h | h
    · exact textItem_isTxt _ _ h
    · rw [List.mem_singleton.1 h]
      exact ref_piece (ht.1 p hp).2
  · exact textItem_isTxt _ _ h

theorem beside_none (a : Option Str) : Spec.beside a none = a := by
  cases a <;> simp [Spec.beside]

theorem fillC_textItem (ρ : List Spec.Store) (s : Str) (l : List Code) :
    fillC ρ (Spec.textItem (Spec.printable s) ++ l) = (fillC ρ l).map (Spec.beside (Spec.lit s)) := by
  unfold Spec.textItem Spec.lit
  split
  · rename_i h
    cases h2 : fillC ρ l with
    | none => simp [h2]
    | some u => simp [h2, Spec.beside]
  · rfl

theorem fill_code (ρ : List Spec.Store) {t : Spec.Txt} (ht : t.Ok) : fillC ρ t.code = t.val ρ := by
  obtain ⟨ps, last⟩ := t
  replace ht := ht.1
  unfold Spec.Txt.code Spec.Txt.val
  dsimp only at ht ⊢
  induction ps with
  | nil =>
    have := fillC_textItem ρ last []
    rw [List.append_nil] at this
    rw [List.flatMap_nil, List.nil_append, this]
    simp [fillC, Spec.fill, beside_none]
  | cons p ps ih =>
    rw [List.flatMap_cons, List.append_assoc, List.append_assoc, fillC_textItem, List.cons_append, List.nil_append, fillC,
      ih fun q hq => ht q (by simp [hq]), Spec.fill, ref_read ρ (ht p (by simp)).2]
    cases Spec.read ρ p.2 with
    | none => rfl
    | some v =>
      cases Spec.fill ρ ps last with
      | none => rfl
      | some r => simp

theorem code_solid {t : Spec.Txt} (h : t.Solid) : t.code ≠ [] := by
  unfold Spec.Txt.code
  rcases h with h | h
  · cases hp : t.parts with
    | nil => exact absurd hp h
    | cons p ps => simp
  · simp [Spec.textItem, h]

theorem toVecGo_texts (k : Bool) {l : List Item} (h : ∀ i ∈ l, ∃ t, i.val = .s t) (u : Str) (b : Bool) :
    RList.toVecGo k l u b = if b || !l.isEmpty || !u.isEmpty then [u ++ l.flatMap fun i => i.val.plain] else [] := by
  induction l generalizing u b with
  | nil => simp [RList.toVecGo]
  | cons i l ih =>
    obtain ⟨t, ht⟩ := h i (by simp)
    unfold RList.toVecGo
    rw [ht]
    simp only [Val.s3, Bool.false_eq_true, if_false]
    rw [ih fun j hj => h j (by simp [hj])]
    simp [ht, Val.plain, Val.s3]

theorem addAll_items (l : RList) (is : List Item) : (l.addAll is).a = l.a ++ is := by
  unfold RList.addAll
  induction is generalizing l with
  | nil => simp
  | cons i is ih =>
    rw [List.foldl_cons, ih]
    simp [RList.add]

/-- The words of a list of texts: one, or none if it is empty. -/
theorem toVec_texts {l : RList} {u : Option Str} (h : Texts l.a u) (k : Bool) : l.toVec0 0 l.a.length k = u.toList := by
  unfold RList.toVec0
  rw [List.take_length, List.drop_zero, toVecGo_texts k h.1, ← h.2]
  cases hl : l.a with
  | nil => simp [textOfItems]
  | cons => simp [textOfItems]

theorem z2_single {a : List Code} {i j : Nat} {env : Env} {c : Code} {s s' : St} {r : Res} (hi : i < j) (hc : a[i]? = some c)
    (hu : c.id ≠ .undef) (hj : c.id ≠ .jvhao) (hd : c.id ≠ .dunhao) :
    Evals H (.z2 a i j env) s r s' ↔ Ev H (Evals H) (z2Item a i j env c) s r s' := by
  rw [evals_iff]
  change Ev H _ (z2P a i j env) s r s' ↔ _
  unfold z2P
  rw [if_pos hi, hc]
  dsimp only
  split
  · contradiction
  · contradiction
  · contradiction
  · exact Iff.rfl

theorem z2_end {a : List Code} {i j : Nat} {env : Env} {s s' : St} {r : Res} (hi : j ≤ i) :
    Evals H (.z2 a i j env) s r s' ↔ r = { idx := i } ∧ s' = s := by
  rw [evals_iff]
  change Ev H _ (z2P a i j env) s r s' ↔ _
  unfold z2P
  rw [if_neg (by omega)]
  exact ev_pure

theorem item_text {t : Str} {env : Env} {s s' : St} {r : Res} :
    Evals H (.item (.text t) env) s r s' ↔ r = {} ∧ s' = s.push env.ret (.s t) := by
  rw [evals_item]
  constructor
  · rintro ⟨x, h, rfl⟩
    obtain ⟨_, rfl, g⟩ := evE_lift.1 (show EvE H (Evals H) (liftM (addT env.ret t) : E Unit) s x s' from h)
    exact ⟨rfl, ev_addT.1 g⟩
  · rintro ⟨rfl, rfl⟩
    exact ⟨.ok (), evE_lift.2 ⟨(), rfl, ev_addT.2 rfl⟩, rfl⟩

/-- Reading a name. -/
theorem item_simp {x : Str} {env : Env} {s : St} {ρ : List Spec.Store} (hm : s.mods = [])
    (h : Stacks s.scopes (chain s.scopes env.q) ρ) :
    match Spec.look ρ x with
    | none => Evals H (.item (.simp x []) env) s { r := .error (errNoVar x) } s
    | some t => ∃ it s', Evals H (.item (.simp x []) env) s {} s' ∧ it.val = .s t ∧ CalmIn env.ret s s' ∧
        s'.lists env.ret = (s.lists env.ret).add it := by
  have key := stacks_get hm h x
  have hg := fun z s' => ev_getP (H := H) (R := Evals H) (name := x) (isHas := false) (equ := false) (canUp := true) (noSelf := false)
    (env := env) (q := env.q) (s := s) (s' := s') (z := z)
  have run : ∀ {y s1} {r : Except Err Unit} {s'}, Ev H (Evals H) (getP x false false true false { env with q := env.q }) s y s1 →
      EvE H (Evals H) (match y with
        | none => fail (errNoVar x)
        | some none => pure ()
        | some (some (it, byName, q)) => callE [] (.get [it] false (if byName then ⟨true, x⟩ else {}) { env with q }) : E Unit) s1 r s' →
      Evals H (.item (.simp x []) env) s { r := r } s' := by
    intro y s1 r s' h1 h2
    rw [evals_item]
    refine ⟨r, ?_, rfl⟩
    show EvE H (Evals H) (simpP x [] env) s r s'
    unfold simpP var1P
    refine evE_bind.2 (.inl ⟨env.q, s, ?_, ?_⟩)
    · rw [evE_getSt_bind]
      refine evE_ofOut_bind.2 (.inl ⟨(some env.q, false), rfl, ?_⟩)
      simp only [Bool.false_eq_true, if_false]
      exact evE_pure.2 ⟨rfl, rfl⟩
    · exact evE_lift_bind.2 ⟨y, s1, h1, h2⟩
  cases hn : getName s.scopes s.mods env.q x false false true false with
  | none =>
    rw [hn] at key hg
    dsimp only at key
    rw [key]
    exact run ((hg none s).2 ⟨rfl, rfl⟩) (evE_fail.2 ⟨rfl, rfl⟩)
  | some pa =>
    obtain ⟨p, a⟩ := pa
    rw [hn] at key hg
    dsimp only at hg
    cases a with
    | val it =>
      obtain ⟨t, h1, h2⟩ := key
      rw [h2]
      exact ⟨it, Spec.append env.ret it s, run ((hg (some none) _).2 ⟨rfl, .val⟩) (evE_pure.2 ⟨rfl, rfl⟩), h1, calm_append _ _ _,
        by simp [Spec.append, upd]⟩
    | text t =>
      dsimp only at key
      rw [key]
      exact ⟨⟨s.nitem, .s t⟩, s.push env.ret (.s t), run ((hg (some none) _).2 ⟨rfl, .text⟩) (evE_pure.2 ⟨rfl, rfl⟩), rfl,
        calm_push _ _ _, by simp [St.push, upd]⟩
    | _ => exact key.elim

theorem item_argi {i : Int} (hi : 1 ≤ i) {env : Env} {s : St} {ρ : List Spec.Store} (h : Seen env.q s ρ) (hn : (s.scopes env.q).args ≠ env.ret) :
    ∃ its s', Evals H (.item (.argi [] i) env) s {} s' ∧ Texts its ((Spec.args ρ).getD (i.toNat - 1) none) ∧ CalmIn env.ret s s' ∧
      (s'.lists env.ret).a = (s.lists env.ret).a ++ its ∧ (Spec.WF (s.lists env.ret) → Spec.WF (s'.lists env.ret)) := by
  obtain ⟨n, rfl⟩ := Int.eq_ofNat_of_zero_le (show 0 ≤ i by omega)
  obtain ⟨r, h1, h2, h3⟩ := C05_positional_argument s.ovf (s.lists (s.scopes env.q).args) (s.lists env.ret) h.given.1 n (by omega)
  refine ⟨(Spec.argsOf (s.lists (s.scopes env.q).args)).getD (n - 1) [], { s with lists := upd s.lists env.ret r }, ?_, ?_, ⟨rfl, Nat.le_refl _, fun l _ hr => ?_, Nat.le_refl _, fun _ _ => rfl⟩, ?_, ?_⟩
  · refine evals_item.2 ⟨.ok (), ?_, rfl⟩
    simp only [itemP, evE_two]
    refine ⟨trivial, (ev_argiP (env := ⟨{}, 0, env.ret, none⟩)).2 (.arg rfl hn nofun h1)⟩
  · have e := h.given.2.2
    constructor
    · intro it hit
      rw [List.getD_eq_getElem?_getD] at hit
      cases hg : (Spec.argsOf (s.lists (s.scopes env.q).args))[n - 1]? with
      | none => rw [hg] at hit; cases hit
      | some g =>
        rw [hg] at hit
        exact h.given.2.1 g (List.mem_of_getElem? hg) it hit
    · rw [← e, List.getD_eq_getElem?_getD, List.getD_eq_getElem?_getD, List.getElem?_map]
      show _ = (Option.map textOfItems (Spec.argsOf (s.lists (s.scopes env.q).args))[n - 1]?).getD none
      cases (Spec.argsOf (s.lists (s.scopes env.q).args))[n - 1]? with
      | none => rfl
      | some g => rfl
  · simp [upd, hr]
  · simp only [upd, if_true]
    exact h2
  · simp only [upd, if_true]
    exact h3

theorem item_argc {env : Env} {s : St} {ρ : List Spec.Store} (h : Seen env.q s ρ) (hn : (s.scopes env.q).args ≠ env.ret) :
    Evals H (.item (.argc []) env) s {} (s.push env.ret (.s (natStr (Spec.args ρ).length))) := by
  refine evals_item.2 ⟨.ok (), ?_, rfl⟩
  simp only [itemP, evE_two]
  refine ⟨trivial, ?_⟩
  unfold argcP
  simp only [Bool.false_eq_true, if_false]
  refine ev_bind.2 ⟨s, s, ev_getSt.2 ⟨rfl, rfl⟩, ?_⟩
  rw [if_neg hn, h.given.1.len_eq, ← h.given.2.2, List.length_map]
  exact ev_addT.2 rfl

/-- Evaluating a piece of text. -/
theorem item_piece {c : Code} (hc : IsPiece c) {env : Env} {s : St} {ρ : List Spec.Store} (h : Seen env.q s ρ) (hn : (s.scopes env.q).args ≠ env.ret) :
    match pieceC ρ c with
    | none => ∃ e, Evals H (.item c env) s { r := .error e } s ∧ e.i = ERR
    | some u => ∃ its s', Evals H (.item c env) s {} s' ∧ Texts its u ∧ CalmIn env.ret s s' ∧
        (s'.lists env.ret).a = (s.lists env.ret).a ++ its ∧ (Spec.WF (s.lists env.ret) → Spec.WF (s'.lists env.ret)) := by
  have push : ∀ v, (∀ t, v = .s t → Texts [⟨s.nitem, v⟩] (some t)) ∧ ((s.push env.ret v).lists env.ret).a = (s.lists env.ret).a ++ [⟨s.nitem, v⟩] ∧
      (Spec.WF (s.lists env.ret) → Spec.WF ((s.push env.ret v).lists env.ret)) := by
    intro v
    refine ⟨fun t ht => texts_one (i := ⟨s.nitem, v⟩) ht, ?_, fun hw => ?_⟩
    · simp [St.push, upd, RList.add]
    · simp only [St.push, upd, if_true]
      exact WF_add hw _
  rcases hc with ⟨t, rfl⟩ | ⟨x, rfl⟩ | ⟨i, hi, rfl⟩ | rfl
  · have hp := push (.s t)
    exact ⟨_, _, item_text.2 ⟨rfl, rfl⟩, hp.1 t rfl, calm_push _ _ _, hp.2⟩
  · have hx := item_simp (H := H) (x := x) h.mods h.stacks
    rw [show pieceC ρ (.simp x []) = (Spec.look ρ x).map some from rfl]
    cases hl : Spec.look ρ x with
    | none =>
      rw [hl] at hx
      exact ⟨_, hx, rfl⟩
    | some t =>
      rw [hl] at hx
      obtain ⟨it, s1, k1, k2, k3, k4⟩ := hx
      refine ⟨[it], s1, k1, texts_one k2, k3, by rw [k4]; rfl, fun hw => by rw [k4]; exact WF_add hw _⟩
  · exact item_argi hi h hn
  · have hp := push (.s (natStr (Spec.args ρ).length))
    exact ⟨_, _, item_argc h hn, hp.1 _ rfl, calm_push _ _ _, hp.2⟩

theorem piece_id {c : Code} (h : IsPiece c) : c.id ≠ .undef ∧ c.id ≠ .jvhao ∧ c.id ≠ .dunhao := by
  rcases h with ⟨t, rfl⟩ | ⟨x, rfl⟩ | ⟨i, hi, rfl⟩ | rfl <;> simp [Code.id]

/-- Evaluating pieces of text. -/
theorem z2_texts {a : List Code} {env : Env} {ρ : List Spec.Store} {post : List Code} {j : Nat} (l : List Code) :
    ∀ {i : Nat} {s : St}, IsTxt l → a.drop i = l ++ post → i + l.length ≤ j → Seen env.q s ρ → (s.scopes env.q).args ≠ env.ret →
    ∃ s' its, CalmIn env.ret s s' ∧ match fillC ρ l with
      | none => ∃ r e, Evals H (.z2 a i j env) s r s' ∧ r.r = .error e ∧ e.i = ERR
      | some u => (s'.lists env.ret).a = (s.lists env.ret).a ++ its ∧ Texts its u ∧ (Spec.WF (s.lists env.ret) → Spec.WF (s'.lists env.ret)) ∧
          ∀ {r s''}, Evals H (.z2 a (i + l.length) j env) s' r s'' → Evals H (.z2 a i j env) s r s'' := by
  induction l with
  | nil =>
    intro i s _ _ _ _ _
    exact ⟨s, [], .refl _ _, by simp, texts_nil, id, id⟩
  | cons c l ih =>
    intro i s ht ha hj hs hn
    have hi : a[i]? = some c := by
      have := congrArg (·[0]?) ha
      simpa using this
    have ha' : a.drop (i + 1) = l ++ post := by
      rw [← List.drop_drop, ha]; rfl
    have hlt : i < j := by simp only [List.length_cons] at hj; omega
    have e1 : i + (c :: l).length = i + 1 + l.length := by simp; omega
    have ht' : IsTxt l := fun d hd => ht d (by simp [hd])
    have hp := ht c (by simp)
    have hid := piece_id hp
    have hx := item_piece (H := H) hp hs hn
    unfold fillC
    cases hc : pieceC ρ c with
    | none =>
      rw [hc] at hx
      obtain ⟨e, h1, h2⟩ := hx
      refine ⟨s, [], .refl _ _, { idx := i, r := .error e }, e, ?_, rfl, h2⟩
      rw [z2_single hlt hi hid.1 hid.2.1 hid.2.2, ev_z2Item]
      exact .inr ⟨_, h1, rfl⟩
    | some v =>
      rw [hc] at hx
      obtain ⟨is, s1, k1, k2, k3, k4, k5⟩ := hx
      obtain ⟨s', its, h2, h3⟩ := ih (i := i + 1) (s := s1) ht' ha' (by rw [← e1]; exact hj) (hs.calm k3 hn) (by rw [k3.scopes]; exact hn)
      have go : ∀ {r s''}, Evals H (.z2 a (i + 1) j env) s1 r s'' → Evals H (.z2 a i j env) s r s'' := by
        intro r s'' h
        rw [z2_single hlt hi hid.1 hid.2.1 hid.2.2, ev_z2Item]
        exact .inl ⟨_, k1, h⟩
      refine ⟨s', is ++ its, k3.trans h2, ?_⟩
      dsimp only [Option.bind]
      cases hf : fillC ρ l with
      | none =>
        rw [hf] at h3
        obtain ⟨r, e, g1, g2, g3⟩ := h3
        exact ⟨r, e, go g1, g2, g3⟩
      | some u =>
        rw [hf] at h3
        obtain ⟨g1, g2, g3, g4⟩ := h3
        refine ⟨by rw [g1, k4, List.append_assoc], texts_append k2 g2, fun h => g3 (k5 h), fun {r s''} h => go (g4 ?_)⟩
        rw [← e1]
        exact h

/-- A text that stands in a longer list. -/
theorem codes_texts {a l post : List Code} {env : Env} {ρ : List Spec.Store} {i : Nat} {s : St} (hl : IsTxt l) (ha : a.drop i = l ++ post)
    (hs : Seen env.q s ρ) (hn : (s.scopes env.q).args ≠ env.ret) {j : Nat} (hj : min j a.length = i + l.length) :
    ∃ r s' its, Evals H (.codes a i j env) s r s' ∧ CalmIn env.ret s s' ∧
      match fillC ρ l with
      | none => ∃ e, r.r = .error e ∧ e.i = ERR
      | some u => r.r = .ok () ∧ (s'.lists env.ret).a = (s.lists env.ret).a ++ its ∧ Texts its u := by
  obtain ⟨s', its, h2, h3⟩ := z2_texts (H := H) (a := a) (env := env) (j := i + l.length) l hl ha (Nat.le_refl _) hs hn
  cases hf : fillC ρ l with
  | none =>
    rw [hf] at h3
    obtain ⟨r, e, h1, h4, h5⟩ := h3
    refine ⟨_, s', its, codes_z2.2 ⟨r, by rw [hj]; exact h1, rfl⟩, h2, ?_⟩
    dsimp only
    rw [h4]
    dsimp only
    rw [if_neg (by rw [h5]; decide)]
    exact ⟨_, rfl, h5⟩
  | some u =>
    rw [hf] at h3
    obtain ⟨h4, h5, -, h6⟩ := h3
    exact ⟨_, s', its, codes_z2.2 ⟨_, by rw [hj]; exact h6 ((z2_end (Nat.le_refl _)).2 ⟨rfl, rfl⟩), rfl⟩, h2, rfl, h4, h5⟩

/-! ## Values -/

def Spec.Value.code : Spec.Value → List Code
  | .text t => t.code
  | .sum t => [.expl t.code]

/-- The words of a text. -/
theorem words_text {t : Spec.Txt} {env : Env} {ρ : List Spec.Store} {s : St} (hs : Seen env.q s ρ) (hok : t.Ok)
    (hl : t.code.length ≤ usizeMax) :
    match t.val ρ with
    | none => ∃ x e s', Evals H (.codes t.code 0 usizeMax { env with ret := s.nlist }) (Spec.fresh s) x s' ∧ x.r = .error e ∧ e.i = ERR ∧
        ∀ r, CalmIn r s s'
    | some u => ∃ s', Spec.Words H t.code env s u.toList s' ∧ ∀ r, CalmIn r s s' := by
  obtain ⟨x, s', its, h1, h2, h3⟩ := codes_texts (H := H) (a := t.code) (l := t.code) (post := []) (i := 0) (j := usizeMax)
    (env := { env with ret := s.nlist }) (s := Spec.fresh s) (Spec.Txt.isTxt hok) (by simp) hs.fresh (Nat.ne_of_lt hs.args) (by omega)
  rw [fill_code ρ hok] at h3
  cases hv : t.val ρ with
  | none =>
    rw [hv] at h3
    obtain ⟨e, h4, h5⟩ := h3
    exact ⟨x, e, s', h1, h4, h5, fun r => h2.inner⟩
  | some u =>
    rw [hv] at h3
    obtain ⟨h4, h5, h6⟩ := h3
    refine ⟨s', ⟨x, h1, h4, ?_⟩, fun r => h2.inner⟩
    have e : (s'.lists s.nlist).a = its := by
      have h5 : (s'.lists s.nlist).a = _ := h5
      rw [h5]
      simp [Spec.fresh, upd, RList.empty]
    rw [RList.toVec, toVec_texts (by rw [e]; exact h6)]

theorem item_expl {t : Spec.Txt} {env : Env} {ρ : List Spec.Store} {s : St} (hr : env.ret < s.nlist)
    (hs : Seen env.q s ρ) (hok : t.Ok) (hl : t.code.length ≤ usizeMax) {o : Option (Option Str)}
    (hg : Spec.Gives H ρ (.sum t) o) :
    ∃ x s', Evals H (.item (.expl t.code) env) s { r := x } s' ∧ CalmIn env.ret s s' ∧ match (generalizing := false) o with
      | none => ∃ e, x = .error e ∧ e.i = ERR
      | some u => x = .ok () ∧ ∃ it t, s'.lists env.ret = (s.lists env.ret).add it ∧ u = some t ∧ it.val = .s t := by
  have hw := words_text (H := H) hs hok hl
  have run : ∀ {x s'}, EvE H (Evals H) (helloVec t.code env >>= explEnd env) s x s' → Evals H (.item (.expl t.code) env) s { r := x } s' :=
    fun h => evals_item.2 ⟨_, by rw [← explP_eq] at h; exact h, rfl⟩
  have sumOf : ∀ {u : List Str} {y}, expl H.f64 Zh.quote u = .ok y → ∀ {s1}, Ev H (Evals H) (doOp (.expl u)) s1 y s1 := by
    intro u y h s1
    rw [ev_doOp]
    exact Prod.ext h rfl
  cases hg with
  | noText h =>
    rw [h] at hw
    obtain ⟨x, e, s', h1, h2, h3, h4⟩ := hw
    exact ⟨_, s', run (evE_helloVec_bind.2 (.inr ⟨x, e, h1, h2, rfl⟩)), h4 _, e, rfl, h3⟩
  | @sum _ u r h h' =>
    rw [h] at hw
    obtain ⟨s1, h1, h2⟩ := hw
    have hq := calm_push env.ret (.s r) s1
    refine ⟨.ok (), s1.push env.ret (.s r), run (evE_helloVec_bind.2 (.inl ⟨_, _, h1, ?_⟩)), (h2 _).trans hq, rfl, ⟨s1.nitem, .s r⟩, r, ?_, rfl, rfl⟩
    · unfold explEnd
      rw [evE_lift_bind]
      exact ⟨_, _, sumOf h', evE_lift.2 ⟨(), rfl, ev_addT.2 rfl⟩⟩
    · have e := (h2 (env.ret + 1)).lists env.ret hr (by omega)
      simp [St.push, upd, e]
  | @noSum _ u e h h' =>
    rw [h] at hw
    obtain ⟨s1, h1, h2⟩ := hw
    refine ⟨.error (.msg e), s1, run (evE_helloVec_bind.2 (.inl ⟨_, _, h1, ?_⟩)), h2 _, _, rfl, rfl⟩
    unfold explEnd
    rw [evE_lift_bind]
    exact ⟨_, _, sumOf h', evE_fail.2 ⟨rfl, rfl⟩⟩

/-- An arithmetic expression that is evaluated has a value or an error. -/
theorem expl_total {t : Spec.Txt} {env : Env} {ρ : List Spec.Store} {s s' : St} {x : Res} (hs : Seen env.q s ρ) (hok : t.Ok)
    (hl : t.code.length ≤ usizeMax) (h : Evals H (.item (.expl t.code) env) s x s') : ∃ o, Spec.Gives H ρ (.sum t) o := by
  cases hv : t.val ρ with
  | none => exact ⟨none, .noText hv⟩
  | some u =>
    have hw := words_text (H := H) hs hok hl
    rw [hv] at hw
    obtain ⟨s1, ⟨y, h1, h2, h3⟩, -⟩ := hw
    obtain ⟨y', h4, -⟩ := evals_item.1 h
    have h4 : EvE H (Evals H) (explP t.code env) s y' s' := h4
    rw [explP_eq] at h4
    rcases evE_helloVec_bind.1 h4 with ⟨v, s2, ⟨z, h5, h6, rfl⟩, h7⟩ | ⟨z, e, h5, h6, -⟩
    · obtain ⟨rfl, rfl⟩ := Evals.unique h1 h5
      rw [← h3] at h7
      unfold explEnd at h7
      obtain ⟨o, s3, h8, -⟩ := evE_lift_bind.1 h7
      have h8 := ev_doOp.1 h8
      have h8 : expl H.f64 Zh.quote u.toList = .ok o := (Prod.mk.inj h8).1
      cases o with
      | ok r => exact ⟨some (some r), .sum hv h8⟩
      | error e => exact ⟨none, .noSum hv h8⟩
    · obtain ⟨rfl, rfl⟩ := Evals.unique h1 h5
      rw [h2] at h6
      cases h6

/-- Evaluating a value. -/
theorem codes_value {v : Spec.Value} {env : Env} {ρ : List Spec.Store} {s : St} (hr : env.ret < s.nlist)
    (hs : Seen env.q s ρ) (hn : (s.scopes env.q).args ≠ env.ret) (hok : v.Ok) (hl : ∀ t, v = .text t ∨ v = .sum t → t.code.length ≤ usizeMax)
    {o : Option (Option Str)} (hg : Spec.Gives H ρ v o) :
    ∃ x s', Evals H (.codes v.code 0 usizeMax env) s x s' ∧ CalmIn env.ret s s' ∧ match (generalizing := false) o with
      | none => ∃ e, x.r = .error e ∧ e.i = ERR
      | some u => x.r = .ok () ∧ ∃ its, (s'.lists env.ret).a = (s.lists env.ret).a ++ its ∧ Texts its u := by
  cases v with
  | text t =>
    have hl := hl t (.inl rfl)
    obtain ⟨x, s', its, h1, h2, h3⟩ := codes_texts (H := H) (a := t.code) (l := t.code) (post := []) (i := 0) (j := usizeMax)
      (env := env) (Spec.Txt.isTxt hok) (by simp) hs hn (by omega)
    refine ⟨x, s', h1, h2, ?_⟩
    rw [fill_code ρ hok] at h3
    cases hg
    cases hv : t.val ρ with
    | none => rw [hv] at h3; exact h3
    | some u =>
      rw [hv] at h3
      obtain ⟨h4, h5, h6⟩ := h3
      exact ⟨h4, its, h5, h6⟩
  | sum t =>
    obtain ⟨x, s', h1, h2, h3⟩ := item_expl (H := H) hr hs hok.1 (hl t (.inr rfl)) hg
    have one : min usizeMax [Code.expl t.code].length = 1 := rfl
    have z : ∀ {r}, Ev H (Evals H) (z2Item [.expl t.code] 0 1 env (.expl t.code)) s r s' → Evals H (.z2 [.expl t.code] 0 1 env) s r s' :=
      fun h => (z2_single (by decide) rfl (by simp [Code.id]) (by simp [Code.id]) (by simp [Code.id])).2 h
    show ∃ x s', Evals H (.codes [.expl t.code] 0 usizeMax env) s x s' ∧ _
    cases o with
    | none =>
      obtain ⟨e, rfl, h4⟩ := h3
      refine ⟨_, s', codes_z2.2 ⟨_, by rw [one]; exact z (ev_z2Item.2 (.inr ⟨e, h1, rfl⟩)), rfl⟩, h2, ?_⟩
      dsimp only
      rw [if_neg (by rw [h4]; decide)]
      exact ⟨_, rfl, h4⟩
    | some u =>
      obtain ⟨rfl, it, w, h4, rfl, h5⟩ := h3
      refine ⟨_, s', codes_z2.2 ⟨_, by rw [one]; exact z (ev_z2Item.2 (.inl ⟨s', h1, (z2_end (by decide)).2 ⟨rfl, rfl⟩⟩)), rfl⟩, h2, rfl, [it], ?_, texts_one h5⟩
      rw [h4]; rfl

/-- A value that is evaluated gives a text or an error. -/
theorem value_total {v : Spec.Value} {env : Env} {ρ : List Spec.Store} {s s' : St} {x : Res} (hs : Seen env.q s ρ) (hok : v.Ok) (hl : ∀ t, v = .text t ∨ v = .sum t → t.code.length ≤ usizeMax)
    (h : Evals H (.codes v.code 0 usizeMax env) s x s') : ∃ o, Spec.Gives H ρ v o := by
  cases v with
  | text t => exact ⟨_, .text⟩
  | sum t =>
    have h : Evals H (.codes [.expl t.code] 0 usizeMax env) s x s' := h
    obtain ⟨y, h1, -⟩ := codes_z2.1 h
    have one : min usizeMax [Code.expl t.code].length = 1 := rfl
    rw [one] at h1
    have h1 := (z2_single (by decide) rfl (by simp [Code.id]) (by simp [Code.id]) (by simp [Code.id])).1 h1
    rcases ev_z2Item.1 h1 with ⟨s1, h2, -⟩ | ⟨e, h2, -⟩
    · exact expl_total hs hok.1 (hl t (.inr rfl)) h2
    · exact expl_total hs hok.1 (hl t (.inr rfl)) h2

end Zh
