import Verif.Props.Deeper
/-!
# C86: what is endless in an endless chain (main theorem)
-/
namespace Zh
open Spec
namespace Deep

variable {α β : Type} {m : Nat × Nat × Nat} {H : Host}

theorem g_srcP {src : Str} {env : Env} : DE (1, 0, 0) (srcP src env) := by
  unfold srcP
  refine DE.bind (show D _ _ from d_doOp) fun l => DE.bind (DE.lift (d_codes (.inl Nat.zero_lt_one))) fun r => ?_
  deep

theorem g_z2ItemQ {a : List Code} {i k e : Nat} {env : Env} {c : Code} (hc : a[i]? = some c) (hk : i ≤ k) :
    Df (rank (.z2 a i e env)) (z2Item a k e env c) (After (.z2 a i e env)) := by
  unfold z2Item
  have h1 : sizeOf c < sizeOf a := List.sizeOf_lt_of_mem (List.mem_of_getElem? hc)
  have h2 : i < a.length := (List.getElem?_eq_some_iff.1 hc).1
  refine D.bind (d_callP (c := .item ..) trivial (.inr ⟨rfl, .inl (by dsimp only [rank]; omega)⟩)) fun r => ?_
  split
  · refine Df.mono (d_callQ (c := .z2 ..) trivial (.inr ⟨rfl, .inr ⟨rfl, by dsimp only [rank]; omega⟩⟩)) fun r hr h => ?_
    have := hr h
    omega
  · exact fun h => nomatch h

theorem g_z2P {a : List Code} {i e : Nat} {env : Env} : Df (rank (.z2 a i e env)) (z2P a i e env) (After (.z2 a i e env)) := by
  unfold z2P
  have next : ∀ {k}, i < k → i < a.length → Df (rank (.z2 a i e env)) (callP [] (.z2 a k e env)) (After (.z2 a i e env)) := fun hk h2 =>
    Df.mono (d_callQ (m := rank (.z2 a i e env)) (c := .z2 a _ e env) trivial (.inr ⟨rfl, .inr ⟨rfl, by dsimp only [rank]; omega⟩⟩)) fun r hr h => by
      have := hr h
      omega
  split
  · split
    · trivial
    · rename_i c hc
      have this : Df (rank (.z2 a i e env)) (z2Item a i e env c) (After (.z2 a i e env)) := g_z2ItemQ hc (Nat.le_refl _)
      have h2 : i < a.length := (List.getElem?_eq_some_iff.1 hc).1
      split
      · split
        · exact this
        · refine Df.bind (d_freeQ (c := .z4 ..) trivial) fun r hr => ?_
          split
          · exact fun h => nomatch h
          · rename_i hok
            obtain ⟨h3, h4⟩ := hr hok
            split
            · rename_i h
              exact next (h4 (.inr h)) h2
            · exact g_z2ItemQ hc h3
      · split
        · exact fun _ => Nat.le_refl _
        · refine D.bind d_getSt fun s => ?_
          split
          · exact this
          · exact next (Nat.lt_succ_self _) h2
      · split
        · exact fun _ => Nat.le_succ _
        · exact this
      · exact this
  · exact fun _ => Nat.le_refl _

theorem sparg2_le {names : List ArgName} {end2 : Nat} {l : List Code} {idx i : Nat} {a2 : List Code} {x : Nat × Nat × List Code}
    (h : sparg2 names end2 l idx i a2 = .ok (some x)) : idx ≤ x.1 := by
  induction l generalizing idx i a2 with
  | nil => cases h; exact Nat.le_refl _
  | cons c l ih =>
    unfold sparg2 at h
    repeat' split at h
    all_goals first
      | (have := ih h; omega)
      | (cases h; exact Nat.le_refl _)
      | cases h

theorem sparg_le {d : Def} {a : List Code} {cs : Str} {e2 e idx k : Nat} {x : List Code × Nat} (h : sparg d a cs e2 e idx k = .ok (some x)) :
    x.2 = 0 ∨ idx < x.2 := by
  unfold sparg at h
  split at h
  · dsimp only at h
    repeat' split at h
    all_goals first
      | (rename_i h2 _; have := sparg2_le h2; cases h; exact .inr this)
      | cases h
  · cases h; exact .inl rfl

theorem g_z4Args {hd : Held} {d : Def} {a : List Code} {cs : Str} {e2 e : Nat} {env : Env} {idx2 idx : Nat} {a2 : List Code} {end2a args : Nat}
    (he : end2a = 0 ∨ idx < end2a) :
    Df (1, 0, 0) (z4Args hd d a cs e2 e env idx2 idx a2 end2a args) fun r => r.r = .ok () → idx ≤ r.idx := by
  unfold z4Args
  have z2 : ∀ {hd a i e env}, Df (1, 0, 0) (callP hd (.z2 a i e env)) (After (.z2 a i e env)) :=
    d_callQ (c := .z2 ..) trivial (.inl Nat.zero_lt_one)
  split
  · exact fun _ => Nat.le_refl _
  · refine Df.bind (Q := fun r => r.r = .ok () → idx < r.idx) ?_ fun r hr => ?_
    · split
      · exact Df.mono (d_freeQ (c := .z4 ..) trivial) fun r hr h => (hr h).2 (.inl rfl)
      · rename_i h0
        refine Df.bind z2 fun r _ => ?_
        split
        · exact fun _ => he.resolve_left h0
        · exact fun h => nomatch h
    · split
      · exact fun h => nomatch h
      · rename_i hok
        have hr := hr hok
        refine Df.bind z2 fun r' hr' => ?_
        split
        · exact fun h => nomatch h
        · rename_i hok'
          have hr' : r.idx ≤ r'.idx := hr' hok'
          intro _
          dsimp only
          split <;> omega

theorem g_z4Body {hd : Held} {d : Def} {src : Str} {env : Env} {p q2 args : Nat} : DE (1, 0, 0) (z4Body hd d src env p q2 args) := by
  have h : ∀ {hd a i e env}, D (1, 0, 0) (callP hd (.codes a i e env)) := d_codes (.inl Nat.zero_lt_one)
  unfold z4Body
  refine DE.bind (show D _ _ from d_doOp) fun l => ?_
  deep <;> exact h

theorem g_z4P {a : List Code} {cs : Str} {e2 e : Nat} {env : Env} {st : Z4} :
    Df (1, 0, 0) (z4P a cs e2 e env st) (After (.z4 a cs e2 e env st)) := by
  have again : ∀ st' : Z4, st.idx ≤ st'.idx → (st.has = true → st'.has = true) → Df (1, 0, 0) (callP [] (.z4 a cs e2 e env st'))
      (After (.z4 a cs e2 e env st)) := fun st' h1 h2 =>
    Df.mono (d_freeQ (m := (1, 0, 0)) (c := .z4 a cs e2 e env st') trivial) fun r hr h => by
      obtain ⟨h3, h4⟩ := hr h
      refine ⟨by omega, fun h5 => ?_⟩
      have := h4 (h5.imp h2 id)
      omega
  unfold z4P
  split
  · refine d_getSt_bind fun s => ?_
    split
    · split
      · trivial
      · exact again _ (Nat.le_refl _) id
    · split
      · trivial
      · rename_i d hd
        refine Df.bind (Q := fun r => ∀ x, r = some x → x.2 = 0 ∨ st.idx < x.2) ?_ fun r hr => ?_
        · generalize hx : sparg .. = x
          cases x with
          | ok r => exact fun y hy => sparg_le (hy ▸ hx)
          | panic => trivial
          | fuel => trivial
        · split
          · exact again _ (Nat.le_refl _) id
          · have hx := hr _ rfl
            refine D.bind g_addTs fun _ => ?_
            split
            · exact D.bind g_addT fun _ => again _ (Nat.le_refl _) fun _ => rfl
            · unfold z4Call
              refine D.bind d_doOp fun q2 => d_getSt_bind fun s => Df.bind (g_z4Args hx) fun r hr => ?_
              split
              · exact fun h => nomatch h
              · rename_i hok
                have hr := hr hok
                refine D.bind g_z4Body fun r' => ?_
                split
                · exact fun h => nomatch h
                · exact again _ hr fun _ => rfl
  · split
    · have last : Df (1, 0, 0) (pure { idx := st.idx + 1, idx2 := st.idx2, has := true } : Prog Res) (After (.z4 a cs e2 e env st)) :=
        fun _ => ⟨Nat.le_succ _, fun _ => Nat.lt_succ_self _⟩
      split
      · exact D.bind g_addT fun _ => last
      · exact last
    · rename_i h
      exact fun _ => ⟨Nat.le_refl _, fun h1 => by rcases h1 with h1 | h1; exact absurd h1 h; cases h1⟩

theorem g_evalF (c : Call) : Df (rank c) (evalF c) (After c) := by
  cases c with
  | codes a i e env => exact g_codesP
  | z2 a i e env => exact g_z2P
  | z4 a cs e2 e env st => exact g_z4P
  | item c env => exact g_resE g_itemP
  | src s env => exact g_resE g_srcP
  | loop r a mx u cnt env i n =>
    cases u with
    | true => exact g_loopP
    | false => exact g_spin
  | cond a env st => exact g_condP
  | get l b e env => exact g_resE g_get2P
  | slave h' o e b env => exact g_slaveP

theorem deep_interp {rec : Call → St → Out Res × St} (ha : ∀ c s r s', rec c s = (.ok r, s') → After c r) {p : Prog α} {R : α → Prop}
    (hd : Df m p R) {s : St} : (∀ a s', p.interp H rec s = (.ok a, s') → R a) ∧ ∀ c t, Calls H rec p s c t → Again c ∨ Less (rank c) m := by
  induction p generalizing s with
  | ret a => exact ⟨fun b s' e => by cases e; exact hd, fun _ _ h => h.elim⟩
  | panic => exact ⟨fun b s' e => by (cases e), fun _ _ h => h.elim⟩
  | op o k ih =>
    refine ⟨fun b s' e => ?_, ?_⟩
    · simp only [Prog.interp] at e
      rcases hx : o.run H s with ⟨x | _ | _, s1⟩ <;> rw [hx] at e
      · exact (ih x (hd x)).1 b s' e
      · cases e
      · cases e
    · rintro c t ⟨x, s1, -, h⟩
      exact (ih x (hd x)).2 c t h
  | call hd' c0 k ih =>
    refine ⟨fun b s' e => ?_, ?_⟩
    · have step : (Prog.call hd' c0 k).interp H rec s = match rec c0 (s.hold hd') with
        | (.ok r, s') => (k r).interp H rec { s' with held := s.held }
        | (.panic, s') => (.panic, s')
        | (.fuel, s') => (.fuel, s') := by
        simp only [Prog.interp]
        rfl
      rw [step] at e
      rcases hx : rec c0 (s.hold hd') with ⟨x | _ | _, s1⟩ <;> rw [hx] at e
      · exact (ih x (hd.2 x (ha _ _ _ _ hx))).1 b s' e
      · cases e
      · cases e
    · rintro c t (⟨rfl, rfl⟩ | ⟨r, s1, e, h⟩)
      · exact hd.1
      · exact (ih r (hd.2 r (ha _ _ _ _ e))).2 c t h

theorem after_run (n : Nat) : ∀ c s r s', run H n c s = (.ok r, s') → After c r := by
  induction n with
  | zero => intro c s r s' h; cases h
  | succ n ih => intro c s r s' h; exact (deep_interp ih (g_evalF c)).1 r s' h

theorem calls_rank {n : Nat} {c c' : Call} {s s' : St} (h : Calls H (run H n) (evalF c) s c' s') : Again c' ∨ Less (rank c') (rank c) :=
  (deep_interp (after_run n) (g_evalF c)).2 c' s' h

end Deep

/-- **C86.**  Statements, conditions, branches, assignments and loops that count cannot go on for ever by themselves: in an endless chain of
evaluations there are endlessly many in which a text is run, definitions are looked for in a word, a name is followed, the output of a process is
read, or a loop that does not count makes a turn. -/
theorem C86_again {H : Host} {f : Nat → Call × St} (h : EndlessChain H f) (i : Nat) : ∃ j, i < j ∧ Again (f j).1 := by
  by_contra hn
  have hn : ∀ j, i < j → ¬ Again (f j).1 := fun j hj ha => hn ⟨j, hj, ha⟩
  have key : ∀ (m : Nat × Nat × Nat) (j : Nat), i ≤ j → Deep.rank (f j).1 = m → False := by
    intro m
    induction m using less_wf.induction with
    | _ m ih =>
      rintro j hj rfl
      obtain ⟨n, hc⟩ := h j
      exact ih _ ((Deep.calls_rank hc).resolve_left (hn (j + 1) (by omega))) (j + 1) (by omega) rfl
  exact key _ i (Nat.le_refl _) rfl

/-- **C86.**  And so a run that goes on for ever has a chain of evaluations in which this happens again and again. -/
theorem C86_run_again {H : Host} {ovf : Bool} {argv : List Str} (h : ∀ n, (runMain H n ovf argv).1 = .fuel) :
    ∃ f, EndlessChain H f ∧ (∃ n, Calls H (run H n) (mainP argv).run (St.init ovf) (f 0).1 (f 0).2) ∧ ∀ i, ∃ j, i < j ∧ Again (f j).1 := by
  obtain ⟨f, h1, h2⟩ := C86_endless.1 h
  exact ⟨f, h1, h2, C86_again h1⟩

/-- The situation of `C86_again`: a script with a loop that goes on for ever. -/
example : ∃ f, EndlessChain H0 f ∧ ∀ i, ∃ j, i < j ∧ Again (f j).1 := by
  obtain ⟨f, h1, -, h2⟩ := C86_run_again C70_witness_endless.2
  exact ⟨f, h1, h2⟩

end Zh
