import Verif.Props.KwMatch
/-!
# Parsing always finishes (C15)
-/
namespace Zh

/-- The result is not out of fuel, and a successful one satisfies `P`. -/
def PR.Post {α : Type} (x : PR α) (P : α → Prop) : Prop :=
  x ≠ .fuel ∧ ∀ r, x = .ok r → P r

theorem PR.Post.bind {α β : Type} {x : PR α} {f : α → PR β} {P : α → Prop} {Q : β → Prop}
    (h : x.Post P) (hf : ∀ a, P a → (f a).Post Q) : (x >>= f).Post Q := by
  cases x with
  | ok a => exact hf a (h.2 a rfl)
  | err e i => exact ⟨by simp, by simp⟩
  | panic => exact ⟨by simp, by simp⟩
  | fuel => exact absurd rfl h.1

theorem PR.Post.ok {α : Type} {a : α} {P : α → Prop} (h : P a) : (PR.ok a).Post P :=
  ⟨by simp, by rintro r ⟨⟩; exact h⟩
theorem PR.Post.err {α : Type} {e : Err} {i : Nat} {P : α → Prop} : (PR.err e i : PR α).Post P :=
  ⟨by simp, by simp⟩
theorem PR.Post.panic {α : Type} {P : α → Prop} : (PR.panic : PR α).Post P := ⟨by simp, by simp⟩
theorem PR.Post.mono {α : Type} {x : PR α} {P Q : α → Prop} (h : x.Post P) (hpq : ∀ a, P a → Q a) :
    x.Post Q := ⟨h.1, fun r hr => hpq r (h.2 r hr)⟩

/-- What the helper functions leave alone: position, `Mut2_`, quoting counters. -/
structure PS.Same (s r : PS) : Prop where
  i : r.i = s.i
  mu : r.mu = s.mu
  mi : r.mi = s.mi
  mkw : r.mkw = s.mkw
  q : r.is.q = s.is.q
  data : r.is.data = s.is.data

theorem addCode_post (c : Code) (s : PS) : (addCode c s).Post (fun r => s.Same r) := by
  unfold addCode
  split
  · split
    · exact .ok ⟨rfl, rfl, rfl, rfl, rfl, rfl⟩
    · exact .err
  · split
    · split
      · exact .ok ⟨rfl, rfl, rfl, rfl, rfl, rfl⟩
      · exact .err
    · exact .ok ⟨rfl, rfl, rfl, rfl, rfl, rfl⟩

theorem textNew_ne_fuel (t : Str) : textNew t ≠ .fuel := by
  unfold textNew
  generalize CONT1.isPrefixOf t = a
  generalize CONT2.isSuffixOf t = b
  simp only
  split
  · generalize (if a = true then CONT1.length else 0) = x
    generalize t.length - (if b = true then CONT2.length else 0) = y
    by_cases h : x ≤ y <;> simp [h]
  · simp

theorem textCode_ne_fuel (b : Bool) (t : Str) : textCode b t ≠ .fuel := by
  unfold textCode
  split
  · simp
  · have := textNew_ne_fuel t
    split <;> simp_all

theorem addText_post (s : PS) : (addText s).Post (fun r => s.Same r) := by
  unfold addText
  split
  · exact .ok ⟨rfl, rfl, rfl, rfl, rfl, rfl⟩
  · split
    · exact .err
    · split
      · exact .panic
      · rename_i h; exact absurd h (textCode_ne_fuel _ _)
      · refine (addCode_post _ _).mono ?_
        intro r h
        exact ⟨h.i, h.mu, h.mi, h.mkw, h.q, h.data⟩

theorem addKw_post (id : KwId) (s : PS) : (addKw id s).Post (fun r => s.Same r) := by
  unfold addKw
  split
  · exact addCode_post _ _
  · split
    all_goals first | exact addCode_post _ _ | exact .panic

/-- A layer is left with `mu > 0` only for `先`, and then `mu` is its length. -/
theorem layerScan_u (selfI : Int) (ls : List Layer) (id : KwId) :
    (layerScan selfI ls id).2.2 = 0 ∨ (id = .beginBlock ∧ (layerScan selfI ls id).2.2 = 3) := by
  unfold layerScan
  split
  · left; rfl
  · left; rfl
  · split
    · right; exact ⟨rfl, rfl⟩
    · left; rfl
  · left; rfl
  · split
    · left; rfl
    · split <;> (left; rfl)

theorem layerI1_facts (selfI : Int) (ls : List Layer) (id : KwId) (s : PS) :
    (layerI1 selfI ls id s).1.i = s.i ∧ (layerI1 selfI ls id s).1.is = s.is ∧
      ((layerI1 selfI ls id s).1.mu = s.mu ∨ (id = .beginBlock ∧ (layerI1 selfI ls id s).1.mu = 3)) := by
  have hu := layerScan_u selfI ls id
  unfold layerI1
  simp only
  generalize layerScan selfI ls id = t at hu ⊢
  obtain ⟨ret, must, u⟩ := t
  simp only at hu ⊢
  rcases hu with rfl | ⟨rfl, rfl⟩
  · simp only [if_true]
    split
    · exact ⟨rfl, rfl, .inl rfl⟩
    · split <;> exact ⟨rfl, rfl, .inl rfl⟩
  · simp only [Nat.succ_ne_zero, if_false]
    split
    · exact ⟨rfl, rfl, .inr (by first | exact ⟨rfl, rfl⟩ | exact ⟨trivial, rfl⟩ | simp)⟩
    · split <;> exact ⟨rfl, rfl, .inr (by first | exact ⟨rfl, rfl⟩ | exact ⟨trivial, rfl⟩ | simp)⟩

theorem layerI1_stay {selfI : Int} {ls : List Layer} {id : KwId} {s r : PS}
    (h : layerI1 selfI ls id s = (r, false)) : r = s := by
  unfold layerI1 at h
  simp only at h
  have hm : (layerScan selfI ls id).2.2 ≠ 0 → (layerScan selfI ls id).2.1 = true := by
    unfold layerScan
    split
    · simp
    · simp
    · split <;> simp
    · simp
    · split
      · simp
      · split <;> simp
  generalize layerScan selfI ls id = t at h hm
  obtain ⟨ret, must, u⟩ := t
  simp only at h hm
  split at h
  · simp at h
  · split at h
    · simp at h
    · by_cases hu : u = 0
      · simp [hu] at h; exact h.symm
      · have := hm hu
        simp_all

/-- What may follow the keyword `id`. -/
def Next.GoodI (id : KwId) (s : PS) : Next → Prop
  | .loop r => s.Same r
  | .child r => s.Same r
  | .brk r => r.i = s.i ∧ r.is.q = s.is.q ∧ r.is.data = s.is.data ∧
      (r.mu = s.mu ∨ (id = .beginBlock ∧ r.mu = 3))

theorem PS.Same.trans {a b c : PS} (h : a.Same b) (h2 : b.Same c) : a.Same c :=
  ⟨h2.i.trans h.i, h2.mu.trans h.mu, h2.mi.trans h.mi, h2.mkw.trans h.mkw, h2.q.trans h.q,
    h2.data.trans h.data⟩

theorem kwRet0_same (id : KwId) (s : PS) : s.Same (kwRet0 id s) := by
  unfold kwRet0
  split <;> exact ⟨rfl, rfl, rfl, rfl, rfl, rfl⟩

theorem kwKind_good (id : KwId) (s r : PS) (h : s.Same r) : Next.GoodI id s (kwKind id r) := by
  unfold kwKind
  split
  all_goals first | exact h | exact ⟨h.i, h.q, h.data, .inl h.mu⟩

theorem kwRest_postI (id : KwId) (s : PS) : (kwRest id s).Post (fun nx => Next.GoodI id s nx) := by
  unfold kwRest
  split
  · refine (addKw_post id _).bind ?_
    intro r hr
    exact .ok ((kwRet0_same id s).trans hr)
  · exact .ok (kwKind_good id s _ (kwRet0_same id s))

theorem Next.GoodI.of_same {id : KwId} {a b : PS} {nx : Next} (h : a.Same b) (g : Next.GoodI id b nx) :
    Next.GoodI id a nx := by
  cases nx with
  | loop r => exact h.trans g
  | child r => exact h.trans g
  | brk r =>
    obtain ⟨g1, g2, g3, g4⟩ := g
    exact ⟨g1.trans h.i, g2.trans h.q, g3.trans h.data, by rwa [h.mu] at g4⟩

theorem kwMain_post (me : Int) (kw : Option KwId) (ups : List Layer) (id : KwId) (s : PS) :
    (kwMain me kw ups id s).Post (fun nx => Next.GoodI id s nx) := by
  unfold kwMain
  refine (addText_post s).bind ?_
  intro r hr
  split
  · exact .ok hr
  · split
    · have hf := layerI1_facts me (⟨me, kw, r.ret0⟩ :: ups) id r
      cases hl : layerI1 me (⟨me, kw, r.ret0⟩ :: ups) id r with
      | mk r2 b =>
        rw [hl] at hf
        cases b with
        | true =>
          refine .ok ?_
          obtain ⟨h1, h2, h3⟩ := hf
          simp only at h1 h2 h3
          exact ⟨h1.trans hr.i, by rw [h2, hr.q], by rw [h2, hr.data], by rwa [hr.mu] at h3⟩
        | false =>
          have := layerI1_stay hl
          subst this
          exact (kwRest_postI id r2).mono fun nx g => g.of_same hr
    · exact (kwRest_postI id r).mono fun nx g => g.of_same hr

/-- Position and `Mut2_` after a keyword. -/
def Next.GoodK (id : KwId) (s : PS) : Next → Prop
  | .loop r => r.i = s.i ∧ r.mu = s.mu
  | .child r => r.i = s.i ∧ r.mu = s.mu
  | .brk r => r.i = s.i ∧ (r.mu = s.mu ∨ (id = .beginBlock ∧ r.mu = 3))

theorem Next.GoodI.k {id : KwId} {s : PS} {nx : Next} (g : Next.GoodI id s nx) : Next.GoodK id s nx := by
  cases nx with
  | loop r => exact ⟨g.i, g.mu⟩
  | child r => exact ⟨g.i, g.mu⟩
  | brk r => exact ⟨g.1, g.2.2.2⟩

theorem kwStep_post (me : Int) (kw : Option KwId) (ups : List Layer) (id : KwId) (s : PS) :
    (kwStep me kw ups id s).Post (fun nx => Next.GoodK id s nx) := by
  unfold kwStep
  simp only
  split
  · exact .ok ⟨rfl, rfl⟩
  · split
    · split
      · exact .ok ⟨rfl, rfl⟩
      · refine (addText_post _).bind ?_
        intro r hr
        exact .ok ⟨hr.i, hr.mu⟩
    · split
      · split
        · exact .ok ⟨rfl, rfl⟩
        · exact (kwMain_post _ _ _ _ _).mono fun nx g => by
            have := g.k
            cases nx <;> exact this
      · exact (kwMain_post _ _ _ _ _).mono fun nx g => g.k

theorem byteStep_post (c : Nat) (s : PS) : (byteStep c s).Post (fun r => r.i = s.i + 1 ∧ r.mu = s.mu) := by
  unfold byteStep
  refine PR.Post.bind (P := fun r => r.i = s.i ∧ r.mu = s.mu) ?_ ?_
  · split
    · unfold keepByte
      refine PR.Post.bind (P := fun r => r.i = s.i ∧ r.mu = s.mu) ?_ ?_
      · split
        · exact (addText_post _).mono fun r h => ⟨h.i, h.mu⟩
        · exact .ok ⟨rfl, rfl⟩
      · intro r hr; exact .ok hr
    · exact .ok ⟨rfl, rfl⟩
  · rintro r ⟨h1, h2⟩; exact .ok ⟨by simp [h1], h2⟩

theorem afterChild_post (me : Int) (id : KwId) (s ch : PS) :
    (afterChild me id s ch).Post (fun p => p.1.i = ch.i - ch.mu ∧ p.1.mu = 0) := by
  unfold afterChild
  split
  · exact .err
  · exact .err
  · refine (addCode_post _ _).bind ?_
    intro r hr
    have hi : r.i = ch.i := hr.i
    have hm : r.mu = ch.mu := hr.mu
    split
    · exact .ok ⟨by simp [PS.reset, hi, hm], rfl⟩
    · have h0 : r.mu = 0 := by omega
      split
      · exact .ok ⟨by simp; omega, h0⟩
      · refine PR.Post.bind (P := fun x => x.i = ch.i) ?_ ?_
        · split
          · split
            · exact (addKw_post _ _).mono fun x hx => hx.i.trans hi
            · split
              · exact .ok hi
              · exact .ok hi
              · exact .ok hi
          · exact .ok hi
        · intro x hx
          exact .ok ⟨by simp [PS.reset, hx]; omega, rfl⟩

theorem kwAt_len {q : Quo} {d : Bool} {src : List Nat} {id : KwId} {m : Nat}
    (h : kwAt q d src = some (id, m)) : (kwBytes id).length ≤ m ∧ 1 ≤ m ∧ m ≤ src.length := by
  have h1 := (C45_longest q d src id m h).1.le
  obtain ⟨l, r, h2, _⟩ := findKw_some (active_ne q d) h
  have hid : id ∈ kwOrder := mem_active (q := q) (d := d) (by rw [h2]; simp)
  have := List.length_pos_iff.2 (kwOrder_ne id hid)
  exact ⟨h1.1, by omega, h1.2⟩

/-- With more fuel than bytes left the loop finishes, and it does not go back before its start. -/
theorem pars_post (a : List Nat) : ∀ (n : Nat) (me : Int) (kw : Option KwId) (ups : List Layer) (s : PS),
    s.mu = 0 → a.length - s.i < n → (pars a n me kw ups s).Post fun r => s.i + r.mu ≤ r.i := by
  intro n
  induction n with
  | zero => intro me kw ups s _ h; omega
  | succ n ih =>
    intro me kw ups s hmu hn
    unfold pars
    split
    · exact (addText_post s).mono fun r h => by rw [h.i, h.mu, hmu]; omega
    · rename_i hlt
      split
      · rename_i id m hk
        obtain ⟨hm1, hm2, hm3⟩ := kwAt_len hk
        refine (kwStep_post me kw ups id { s with i := s.i + m }).bind ?_
        intro nx g
        cases nx with
        | loop r =>
          obtain ⟨g1, g2⟩ := g
          simp only at g1 g2
          refine (ih me kw ups r (by omega) (by omega)).mono ?_
          intro x hx; omega
        | brk r =>
          obtain ⟨g1, g2⟩ := g
          simp only at g1 g2
          refine (addText_post r).mono ?_
          intro x hx
          rw [hx.i, hx.mu]
          rcases g2 with g2 | ⟨rfl, g2⟩
          · omega
          · have : (kwBytes .beginBlock).length = 3 := by decide
            omega
        | child r =>
          obtain ⟨g1, g2⟩ := g
          simp only at g1 g2
          refine PR.Post.bind (ih (me + 1) (some id) (⟨me, kw, r.ret0⟩ :: ups) (childState id r)
            (by simp [childState]; omega) (by simp [childState]; omega)) ?_
          intro ch hch
          simp only [childState] at hch
          refine (afterChild_post me id r ch).bind ?_
          rintro ⟨p, b⟩ ⟨hp1, hp2⟩
          simp only at hp1 hp2 ⊢
          split
          · refine (ih me kw ups p hp2 (by omega)).mono ?_
            intro x hx; omega
          · refine (addText_post p).mono ?_
            intro x hx; rw [hx.i, hx.mu]; omega
      · refine (byteStep_post _ s).bind ?_
        rintro r ⟨h1, h2⟩
        refine (ih me kw ups r (by omega) (by omega)).mono ?_
        intro x hx; omega

/-- More fuel does not change a result. -/
theorem pars_mono (a : List Nat) : ∀ (n : Nat) (me : Int) (kw : Option KwId) (ups : List Layer) (s : PS),
    pars a n me kw ups s ≠ .fuel → ∀ k, pars a (n + k) me kw ups s = pars a n me kw ups s := by
  intro n
  induction n with
  | zero => intro me kw ups s h; exact absurd rfl h
  | succ n ih =>
    intro me kw ups s h k
    rw [show n + 1 + k = (n + k) + 1 by omega]
    unfold pars at h ⊢
    split
    · rfl
    · rename_i hlt
      rw [if_neg hlt] at h
      split
      · rename_i id m hk
        rw [hk] at h
        simp only at h
        cases e : kwStep me kw ups id { s with i := s.i + m } with
        | ok nx =>
          rw [e] at h
          cases nx with
          | loop r => exact ih _ _ _ _ h k
          | brk r => rfl
          | child r =>
            simp only [PR.ok_bind] at h ⊢
            have hc : pars a n (me + 1) (some id) (⟨me, kw, r.ret0⟩ :: ups) (childState id r) ≠ .fuel := by
              intro hc; rw [hc] at h; exact h rfl
            rw [ih _ _ _ _ hc k]
            cases e2 : pars a n (me + 1) (some id) (⟨me, kw, r.ret0⟩ :: ups) (childState id r) with
            | ok ch =>
              rw [e2] at h
              simp only [PR.ok_bind] at h ⊢
              cases e3 : afterChild me id r ch with
              | ok p =>
                rw [e3] at h
                simp only [PR.ok_bind] at h ⊢
                split
                · rename_i hp
                  rw [if_pos hp] at h
                  exact ih _ _ _ _ h k
                · rfl
              | err e i => rfl
              | panic => rfl
              | fuel => rfl
            | err e i => rfl
            | panic => rfl
            | fuel => rfl
        | err e i => rfl
        | panic => rfl
        | fuel => rfl
      · rename_i hk
        rw [hk] at h
        simp only at h
        cases e : byteStep ((a[s.i]?).getD 0) s with
        | ok r =>
          rw [e] at h
          exact ih _ _ _ _ h k
        | err e i => rfl
        | panic => rfl
        | fuel => rfl

/-- C15.  Parsing finishes for every byte string: with any amount of fuel above the number of bytes the
parser does not run out of it, and the result does not depend on the amount. -/
theorem C15_parse_finishes (a : List Nat) (n : Nat) (hn : a.length < n) :
    pars a n 0 none [] PS.init ≠ .fuel ∧
      pars a n 0 none [] PS.init = pars a (a.length + 1) 0 none [] PS.init := by
  have h1 := pars_post a (a.length + 1) 0 none [] PS.init rfl (by simp [PS.init])
  have h2 := pars_mono a _ 0 none [] PS.init h1.1 (n - (a.length + 1))
  rw [show a.length + 1 + (n - (a.length + 1)) = n by omega] at h2
  exact ⟨by rw [h2]; exact h1.1, h2⟩

/-- C15: the parser as a whole gives a program, an error, or the crash of `C50`. -/
theorem C15_parse_total (a : List Nat) : parseBytes a ≠ .fuel := by
  have h := (C15_parse_finishes a (a.length + 1) (by omega)).1
  unfold parseBytes
  split <;> simp_all

/-- C15: the parser never goes back: the position it stops at in a sentence is not before its start
(the rewind of `先` included), for every layer and state it can be started in. -/
theorem C15_parse_forward (a : List Nat) (n : Nat) (me : Int) (kw : Option KwId) (ups : List Layer)
    (s r : PS) (hmu : s.mu = 0) (hn : a.length - s.i < n) (h : pars a n me kw ups s = .ok r) :
    s.i ≤ r.i - r.mu ∧ r.mu ≤ r.i := by
  have := (pars_post a n me kw ups s hmu hn).2 r h
  omega

end Zh
