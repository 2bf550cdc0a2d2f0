import Verif.Props.TameOk
/-!
# Where an evaluation can crash by itself: statement lists and words of definitions
-/
namespace Zh
open Spec

variable {α β : Type} {H : Host} {s0 : St} {c0 : Call} {B : Prop}

/-! ## Separators of a definition's arguments -/

theorem withGo_le (cs s2 : Str) (k : Nat) {len : Nat} {b : Bool} (h : withGo cs s2 k = some (len, b)) :
    len = k + s2.length ∧ s2.length ≤ cs.length := by
  induction s2 generalizing cs k with
  | nil =>
    cases cs with
    | nil => simp [withGo] at h; exact ⟨by simp [h.1], Nat.le_refl _⟩
    | cons c cs => simp [withGo] at h; exact ⟨by simp [h.1], Nat.zero_le _⟩
  | cons d s2 ih =>
    cases cs with
    | nil => simp [withGo] at h
    | cons c cs =>
      simp only [withGo] at h
      split at h
      · have := ih cs (k + 1) h
        simp only [List.length_cons]
        omega
      · cases h

theorem withAt_le {cs s2 : Str} {i len : Nat} {b : Bool} (h : withAt cs s2 i = some (len, b)) :
    s2 = [] ∨ i + len ≤ cs.length := by
  unfold withAt at h
  split at h
  · rename_i hi
    have := withGo_le _ _ _ h
    rw [List.length_drop] at this
    exact .inr (by omega)
  · split at h
    · rename_i he
      exact .inl (by simpa using he)
    · cases h

theorem findSep_some {cs s : Str} {f n i len : Nat} (h : findSep cs s f n = some (i, len)) :
    (f ≤ i ∧ i < f + n) ∧ (i = f ∨ i + len ≤ cs.length) := by
  induction n generalizing f with
  | zero => simp [findSep] at h
  | succ n ih =>
    unfold findSep at h
    cases hw : withAt cs s f with
    | some x =>
      obtain ⟨l, b⟩ := x
      rw [hw] at h
      cases h
      exact ⟨by omega, .inl rfl⟩
    | none =>
      rw [hw] at h
      have h1 := ih h
      refine ⟨by omega, ?_⟩
      rcases h1.2 with e | e
      · by_cases hs : s = []
        · subst hs
          exfalso
          unfold withAt at hw
          split at hw
          · cases hd : cs.drop f <;> rw [hd] at hw <;> simp [withGo] at hw
          · simp at hw
        · right
          -- the first position tried after a failure matches a word that is not empty
          have : ∃ b, withAt cs s i = some (len, b) := by
            subst e
            clear ih h1 hw
            cases n with
            | zero => simp [findSep] at h
            | succ n =>
              unfold findSep at h
              cases hw : withAt cs s (f + 1) with
              | some x => rw [hw] at h; cases h; exact ⟨_, rfl⟩
              | none =>
                rw [hw] at h
                have : ∀ n f', findSep cs s f' n = some (f + 1, len) → f + 1 < f' → False := by
                  intro n
                  induction n with
                  | zero => intro f' h; simp [findSep] at h
                  | succ n ih =>
                    intro f' h hlt
                    unfold findSep at h
                    cases hw : withAt cs s f' with
                    | some x => rw [hw] at h; cases h; omega
                    | none => rw [hw] at h; exact ih _ h (by omega)
                exact (this n _ h (by omega)).elim
          obtain ⟨b, hb⟩ := this
          rcases withAt_le hb with e' | e'
          · exact (hs e').elim
          · exact e'
      · exact .inr e

theorem sepAt_some {names : List ArgName} {end2 : Nat} {cs : Str} {f i : Nat} {plus : Bool} {i4 len i' : Nat}
    (h : sepAt names end2 cs f i plus = (some (i4, len), i')) :
    (len = 0 ∧ plus = true ∧ i4 = 0 ∧ i' = i) ∨
      (i < names.length ∧ i' = i + 2 ∧ (i4 < end2) ∧ (i4 = f ∨ i4 + len ≤ cs.length)) := by
  unfold sepAt at h
  cases hn : names[i]? with
  | none => rw [hn] at h; cases h
  | some nm =>
    have hl := (List.getElem?_eq_some_iff.1 hn).1
    rw [hn] at h
    dsimp only at h
    split at h
    · cases hf : findSep cs nm.s f (end2 - f) with
      | none =>
        rw [hf] at h
        dsimp only at h
        cases plus
        · simp at h
        · simp at h
          exact .inl ⟨h.1.2.symm, rfl, h.1.1.symm, h.2.symm⟩
      | some x =>
        obtain ⟨a, b⟩ := x
        rw [hf] at h
        cases h
        have := findSep_some hf
        exact .inr ⟨hl, rfl, by omega, this.2⟩
    · cases h

theorem sepAt_none {names : List ArgName} {end2 : Nat} {cs : Str} {f i : Nat} {plus : Bool} {i' : Nat}
    (h : sepAt names end2 cs f i plus = (none, i')) : i' = i := by
  unfold sepAt at h
  split at h
  · cases h; rfl
  · split at h
    · split at h
      · cases h
      · cases plus <;> simp at h
        exact h.symm
    · cases h; rfl

theorem dunhao3_fine {i2 i4 len : Nat} {cs : Str} (h : i4 ≤ i2 ∨ i4 ≤ cs.length) : ∃ l, dunhao3 i2 i4 len cs = .ok l := by
  unfold dunhao3
  rw [if_neg (by omega)]
  exact ⟨_, rfl⟩

theorem sparg1_fine (names : List ArgName) (backarg : Nat) (cs : Str) (n i2 i : Nat) (a2 : List Code)
    (hn : names.length + backarg + 1 - i < n) :
    ∃ x, sparg1 names backarg cs.length cs cs n i2 i a2 = .ok x := by
  induction n generalizing i2 i a2 with
  | zero => omega
  | succ n ih =>
    unfold sparg1
    rcases hs : sepAt names cs.length cs i2 i true with ⟨_ | ⟨i4, len⟩, i'⟩
    · have := sepAt_none hs
      subst this
      dsimp only
      split
      · exact ih _ _ _ (by omega)
      · split
        · obtain ⟨l, e⟩ := dunhao3_fine (i2 := i2) (i4 := cs.length) (len := cs.length) (cs := cs) (.inr (Nat.le_refl _))
          rw [e]
          exact ⟨_, rfl⟩
        · exact ⟨_, rfl⟩
    · have := sepAt_some hs
      dsimp only
      split
      · exact ⟨_, rfl⟩
      · rename_i hl
        rcases this with ⟨e, _⟩ | ⟨h1, h2, h3, h4⟩
        · exact (hl e).elim
        · obtain ⟨l, e⟩ := dunhao3_fine (i2 := i2) (i4 := i4) (len := cs.length) (cs := cs) (.inr (by omega))
          rw [e]
          exact ih _ _ _ (by omega)

theorem spargWord_fine (names : List ArgName) (end2 : Nat) (cs2 : Str) (n i2 i : Nat) (a2 : List Code)
    (hn : names.length - i < n) : ∃ x, spargWord names end2 cs2 n i2 i a2 = .ok x := by
  induction n generalizing i2 i a2 with
  | zero => omega
  | succ n ih =>
    unfold spargWord
    rcases hs : sepAt names end2 cs2 i2 i false with ⟨_ | ⟨i4, len⟩, i'⟩
    · exact ⟨_, rfl⟩
    · rcases sepAt_some hs with ⟨_, e, _⟩ | ⟨h1, h2, h3, h4⟩
      · cases e
      · obtain ⟨l, e⟩ := dunhao3_fine (i2 := i2) (i4 := i4) (len := cs2.length) (cs := cs2) (by omega)
        dsimp only
        rw [e]
        exact ih _ _ _ (by omega)

theorem sparg2_fine (names : List ArgName) (end2 : Nat) (l : List Code) (idx i : Nat) (a2 : List Code) :
    ∃ x, sparg2 names end2 l idx i a2 = .ok x := by
  induction l generalizing idx i a2 with
  | nil => exact ⟨_, rfl⟩
  | cons c rest ih =>
    unfold sparg2
    split
    · obtain ⟨⟨x1, x2, x3⟩, e⟩ := spargWord_fine names end2 c.s2 (names.length + 1) 0 i a2 (by omega)
      rw [e]
      dsimp only
      split
      · obtain ⟨l, e⟩ := dunhao3_fine (i2 := x1) (i4 := c.s2.length) (len := c.s2.length) (cs := c.s2)
          (.inr (Nat.le_refl _))
        rw [e]
        exact ih _ _ _
      · exact ih _ _ _
    · split
      · split
        · exact ⟨_, rfl⟩
        · exact ih _ _ _
      · exact ⟨_, rfl⟩
    · exact ⟨_, rfl⟩
    · exact ih _ _ _

/-- Taking the arguments between the words of a definition never crashes. -/
theorem sparg_fine (d : Def) (a : List Code) (cs : Str) (end_ idx i2 : Nat)
    (h : a[idx]?.map Code.s2 = some cs) : ∃ x, sparg d a cs cs.length end_ idx i2 = .ok x := by
  unfold sparg
  split
  · cases ha : a[idx]? with
    | none => rw [ha] at h; cases h
    | some c =>
      rw [ha] at h
      have hc : c.s2 = cs := by simpa using h
      dsimp only
      rw [hc]
      obtain ⟨⟨i, a2⟩, e⟩ := sparg1_fine d.names.a d.backarg cs (d.names.a.length + d.backarg + 2) i2 0 [] (by omega)
      rw [e]
      dsimp only
      obtain ⟨x, e⟩ := sparg2_fine d.names.a cs.length ((a.take end_).drop (idx + 1)) (idx + 1) i a2
      rw [e]
      rcases x with _ | ⟨x1, x2, x3⟩
      · exact ⟨_, rfl⟩
      · dsimp only
        split <;> exact ⟨_, rfl⟩
  · exact ⟨_, rfl⟩

theorem findDefAt_lt {cs : Str} {pos : Nat} {pc : List Str} {ds : List Def} {k len : Nat}
    (h : findDefAt cs pos pc ds = some (k, len)) : ∃ d, ds[k]? = some d := by
  unfold findDefAt at h
  obtain ⟨⟨d, k'⟩, hm, h⟩ := List.exists_of_findSome?_eq_some h
  dsimp only at h
  split at h
  · cases h
  · cases hw : withAt cs d.name0 pos with
    | none => rw [hw] at h; cases h
    | some x =>
      rw [hw] at h
      cases h
      have := List.mem_zipIdx_iff_getElem?.1 hm
      exact ⟨d, this⟩

theorem findDef_lt {sc : Nat → Scope} {ms : List Nat} {cs : Str} {f e : Nat} {pc : List Str} {q i len p k : Nat}
    (h : findDef sc ms cs f e pc q = some (i, len, p, k)) :
    (∃ d, (sc p).defs[k]? = some d) := by
  unfold findDef at h
  generalize e - f = n at h
  induction n generalizing f with
  | zero => cases h
  | succ n ih =>
    unfold findDefGo at h
    split at h
    · rename_i r hr
      obtain ⟨⟨p', b⟩, hm, hf⟩ := List.exists_of_findSome?_eq_some hr
      cases h
      dsimp only at hf
      cases hd : findDefAt cs f pc (sc p').defs with
      | none => rw [hd] at hf; cases hf
      | some x =>
        obtain ⟨k', l'⟩ := x
        rw [hd] at hf
        cases hf
        exact findDefAt_lt hd
    · exact ih h

/-! ## `z4__` -/

theorem Call.Fit_z4 {a : List Code} {cs : Str} {end2 end_ : Nat} {env : Env} {st : Z4} :
    (Call.z4 a cs end2 end_ env st).Fit ↔ end2 = cs.length ∧ end_ ≤ a.length ∧
      (st.idx2 < end2 → a[st.idx]?.map Code.s2 = some cs) := Iff.rfl

theorem backarg_fine {l r : RList} {n : Nat} {sep : Item} (hn : n > 0) : ∃ x, l.backarg n sep r = .ok x := by
  unfold RList.backarg
  by_cases h : l.dun.length + 1 < n
  · rw [if_pos h]
    exact ⟨_, rfl⟩
  · rw [if_neg h]
    dsimp only
    by_cases h1 : l.dun.length < n
    · rw [if_pos h1]
      exact ⟨_, rfl⟩
    · rw [if_neg h1, if_neg h1]
      have : l.dun.length - n < l.dun.length := by omega
      rw [List.getElem?_eq_getElem this]
      exact ⟨_, rfl⟩

theorem m_z4Args (hz : ∀ p k, c0.Holds (.def_ p k)) {p k : Nat} {d : Def} {a : List Code} {cs : Str}
    {end2 end_ : Nat} {env : Env} {idx2 idx : Nat} {a2 : List Code} {end2a args : Nat} (h1 : end2 = cs.length)
    (h2 : end_ ≤ a.length) (h3 : a[idx]?.map Code.s2 = some cs) :
    Tm H s0 c0 B (z4Args (.def_ p k) d a cs end2 end_ env idx2 idx a2 end2a args)
      fun r => r.r = .ok () → (r.idx = idx ∧ r.idx2 = idx2) ∨ end2 ≤ r.idx2 := by
  have hh : ∀ x ∈ [Held.def_ p k], c0.Holds x := fun x hx => by
    rw [List.mem_singleton] at hx; subst hx; exact hz p k
  unfold z4Args
  split
  · exact fun _ => .inl ⟨rfl, rfl⟩
  · refine Tm.bind (Q := fun r => r.r = .ok () → end2 ≤ r.idx2) ?_ fun r hr => ?_
    · split
      · exact ⟨⟨⟨h1, h2, fun _ => h3⟩, hh⟩, fun r hr => hr⟩
      · refine Tm.bind (Q := fun _ => True) ⟨⟨Nat.le_refl _, hh⟩, fun _ _ => trivial⟩ fun r _ => ?_
        cases hr : r.r with
        | ok u => exact fun _ => Nat.le_refl _
        | error e => exact fun h => by cases h
    · cases hr' : r.r with
      | error e => exact fun h => by cases h
      | ok u =>
        have hr := hr hr'
        dsimp only
        refine Tm.bind (Q := fun _ => True) ⟨⟨h2, hh⟩, fun _ _ => trivial⟩ fun r' _ => ?_
        cases hr2 : r'.r with
        | error e => exact fun h => by cases h
        | ok u => exact fun _ => .inr hr

theorem m_z4Body (hz : ∀ p k, c0.Holds (.def_ p k)) {p' k' : Nat} {d : Def} {src : Str} {env : Env}
    {p q2 args : Nat} (hp : c0.Parses) :
    TE H s0 c0 B (z4Body (.def_ p' k') d src env p q2 args) := by
  have hh : ∀ x ∈ [Held.def_ p' k'], c0.Holds x := fun x hx => by
    rw [List.mem_singleton] at hx; subst hx; exact hz p' k'
  have tail : ∀ codes : List Code, TE H s0 c0 B (do
      let r ← callP [.def_ p' k'] (.codes codes 0 usizeMax ⟨{ env.gd with jvhao := false }, q2, env.ret, some p⟩)
      returnP q2 r.r) := fun codes =>
    TE.bind (TE.lift ⟨⟨trivial, hh⟩, fun _ _ => trivial⟩) fun _ => m_returnP
  unfold z4Body
  refine TE.bind (t_doOp hp) fun codes => ?_
  dsimp only
  split
  · rename_i hb
    refine TE.bind (TE.lift (t_doOp trivial)) fun sep => TE.bind_getSt fun s hs => ?_
    refine TE.bind_ofOut (fun h => (not_ok (backarg_fine hb) h).elim) fun x hx => ?_
    cases x with
    | none => trivial
    | some x =>
      obtain ⟨l, la⟩ := x
      have hw := C04_backarg_weak_partial _ _ d.backarg sep (hs.weak env.ret) (hs.weak args) l la hx
      exact TE.bind (TE.lift (t_doOp hw.1)) fun _ => TE.bind (TE.lift (t_doOp hw.2)) fun _ => tail codes
  · exact tail codes

theorem m_z4Call (hz : ∀ p k, c0.Holds (.def_ p k)) {a : List Code} {cs : Str}
    {end2 end_ : Nat} {env : Env} {st : Z4} {idx2 p k : Nat} {d : Def} {src : Str} {a2 : List Code} {end2a : Nat}
    (h1 : end2 = cs.length) (h2 : end_ ≤ a.length) (h3 : a[st.idx]?.map Code.s2 = some cs)
    (hp : c0.Parses) :
    Tm H s0 c0 B (z4Call a cs end2 end_ env st idx2 p k d src a2 end2a) fun r => r.r = .ok () → end2 ≤ r.idx2 := by
  unfold z4Call
  refine T.bind (t_doOp trivial) fun q2 => T.bind_getSt fun s hs => ?_
  refine Tm.bind (m_z4Args hz h1 h2 h3) fun r hr => ?_
  cases hr' : r.r with
  | error e => exact fun h => by cases h
  | ok u =>
    have hr := hr hr'
    dsimp only
    refine T.bind (m_z4Body hz hp) fun x => ?_
    cases x with
    | error e => exact fun h => by cases h
    | ok u =>
      refine ⟨⟨⟨h1, h2, fun hlt => ?_⟩, fun _ h => nomatch h⟩, fun r hr => hr⟩
      rcases hr with ⟨e, _⟩ | e
      · dsimp only; rw [e]; exact h3
      · dsimp only at hlt; omega

/-- The part of `z4__` after looking at the state. -/
theorem m_z4 (hz : ∀ p k, c0.Holds (.def_ p k)) {s : St} {a : List Code} {cs : Str} {end2 end_ : Nat} {env : Env}
    {st : Z4} (hf : (Call.z4 a cs end2 end_ env st).Fit) (hlt : st.idx2 < end2)
    (hp : c0.Parses) :
    Tm H s0 c0 B (match findDef s.scopes s.mods cs st.idx2 end2 st.paichu env.q with
      | none =>
        match cs[st.idx2]? with
        | none => .panic
        | some c =>
          callP [] (.z4 a cs end2 end_ env
            { st with idx2 := st.idx2 + 1, buf := if st.has then st.buf ++ [c] else st.buf })
      | some (idx3, len, p, k) =>
        match (s.scopes p).defs[k]? with
        | none => .panic
        | some d => do
          match ← ofOut (sparg d a cs end2 end_ st.idx (idx3 + len)) with
          | none => callP [] (.z4 a cs end2 end_ env { st with paichu := st.paichu ++ [d.name] })
          | some (a2, end2a) =>
            addTs env.ret (((cs.take idx3).drop st.idx2).map fun c => [c])
            match d.val with
            | .si t =>
              addT env.ret t
              callP [] (.z4 a cs end2 end_ env ⟨idx3 + len, true, st.idx, [], st.buf⟩)
            | .s src => z4Call a cs end2 end_ env st (idx3 + len) p k d src a2 end2a)
      fun r => r.r = .ok () → end2 ≤ r.idx2 := by
  obtain ⟨h1, h2, h3⟩ := Call.Fit_z4.1 hf
  have h3 := h3 hlt
  split
  · split
    · rename_i h
      rw [List.getElem?_eq_none_iff] at h
      omega
    · exact ⟨⟨⟨h1, h2, fun _ => h3⟩, fun _ h => nomatch h⟩, fun r hr => hr⟩
  · rename_i i3 len p k hd
    obtain ⟨d, e⟩ := findDef_lt hd
    rw [e]
    dsimp only
    refine T.bind_ofOut (fun h => (not_ok (by rw [h1]; exact sparg_fine d a cs end_ st.idx (i3 + len) h3) h).elim)
      fun x _ => ?_
    split
    · exact ⟨⟨⟨h1, h2, fun _ => h3⟩, fun _ h => nomatch h⟩, fun r hr => hr⟩
    · refine T.bind m_addTs fun _ => ?_
      split
      · refine T.bind m_addT fun _ => ?_
        exact ⟨⟨⟨h1, h2, fun _ => h3⟩, fun _ h => nomatch h⟩, fun r hr => hr⟩
      · rename_i src hs
        exact m_z4Call hz h1 h2 h3 hp

/-! ## Statement lists -/

theorem m_codesP {a : List Code} {idx end_ : Nat} {env : Env} : T H s0 c0 B (codesP a idx end_ env) := by
  unfold codesP
  refine T.bind (t_callP (Nat.min_le_right _ _)) fun r => ?_
  split <;> trivial

theorem m_z2Item {a : List Code} {idx end_ : Nat} {env : Env} {c : Code} (h : end_ ≤ a.length) :
    T H s0 c0 B (z2Item a idx end_ env c) := by
  unfold z2Item
  refine T.bind (t_callP trivial) fun r => ?_
  split
  · exact t_callP h
  · trivial

theorem m_z2P {a : List Code} {idx end_ : Nat} {env : Env} (h : end_ ≤ a.length) :
    T H s0 c0 B (z2P a idx end_ env) := by
  unfold z2P
  split
  · rename_i hi
    split
    · rename_i hn
      rw [List.getElem?_eq_none_iff] at hn
      omega
    · rename_i c hc
      split
      · split
        · exact m_z2Item h
        · refine T.bind (t_callP ⟨rfl, h, fun _ => by rw [hc]; rfl⟩) fun r => ?_
          split
          · trivial
          · split
            · exact t_callP h
            · exact m_z2Item h
      · split
        · trivial
        · refine T.bind_getSt fun s hs => ?_
          split
          · exact m_z2Item h
          · exact t_callP h
      · split
        · trivial
        · exact m_z2Item h
      · exact m_z2Item h
  · trivial

end Zh
