import Verif.Props.Reports
import Verif.Props.Grammar
import Verif.Props.Calls
import Verif.Props.Cached
import Verif.Props.Started
/-!
# Error reports (C64), second part: errors at run time

A statement list that fails adds to the report its own text up to the statement that failed (`hello2__`, `src/u_/code_.rs:145-169`).
The text is made again from the program (`s__`); for a plainly written script it is the script itself.
-/
namespace Zh

variable {H : Host}

/-! ## Specification -/

/-- Several positions of a list are evaluated one after the other without failure. -/
inductive Spec.Walk (H : Host) (a : List Code) (end_ : Nat) (env : Env) : Nat → St → Nat → St → Prop where
  | start {i s} : Walk H a end_ env i s i s
  | turn {i j k s s1 s'} : i < end_ → Spec.Turn H a end_ env i s (.ok j) s1 → Walk H a end_ env j s1 k s' → Walk H a end_ env i s k s'

/-- At position `k` stands a word in which definitions are looked for. -/
def Spec.WordAt (a : List Code) (env : Env) (k : Nat) : Prop :=
  ∃ c, a[k]? = some c ∧ c.id = .undef ∧ env.gd.undefEqText = false

/-- The report of an error with one more line: a quoted text. -/
def Spec.quoted (e : Err) (t : Str) : Err := { e with s2 := e.s2 ++ (c!"\n“" ++ t ++ c!"”") }

/-! ## Positions only grow -/

def idxGoal : Call → St → Res → St → Prop
  | .z2 _ i _ _, _, r, _ => i ≤ r.idx
  | .z4 _ _ _ _ _ st, _, r, _ => st.idx ≤ r.idx ∧
      (r.r = .ok () → (st.has = true → r.has = true) ∧ (r.has = true → st.idx + 1 ≤ r.idx) ∧ (r.has = false → r.idx = st.idx))
  | _, _, _, _ => True

theorem sparg2_ge {names : List ArgName} {end2 : Nat} : ∀ {rest : List Code} {n i : Nat} {a2 : List Code} {y : Nat × Nat × List Code},
    sparg2 names end2 rest n i a2 = .ok (some y) → n ≤ y.1 := by
  intro rest
  induction rest with
  | nil => intro n i a2 y h; simp only [sparg2, Out.ok.injEq, Option.some.injEq] at h; subst h; exact Nat.le_refl _
  | cons c rest ih =>
    intro n i a2 y h
    simp only [sparg2] at h
    repeat' split at h
    all_goals first
      | (have := ih h; omega)
      | (simp only [Out.ok.injEq, Option.some.injEq] at h; subst h; dsimp only; omega)
      | simp at h

theorem sparg_ge {d : Def} {a : List Code} {cs : Str} {end2 end_ idx idx2m : Nat} {a2 : List Code} {j : Nat}
    (h : sparg d a cs end2 end_ idx idx2m = .ok (some (a2, j))) : j = 0 ∨ idx + 1 ≤ j := by
  unfold sparg at h
  split at h
  · dsimp only at h
    split at h
    · split at h
      · rename_i h2
        split at h
        · simp at h
        · simp only [Out.ok.injEq, Option.some.injEq, Prod.mk.injEq] at h
          obtain ⟨rfl, rfl⟩ := h
          exact .inr (sparg2_ge h2)
      · simp at h
      · simp at h
      · simp at h
    · simp at h
    · simp at h
  · simp only [Out.ok.injEq, Option.some.injEq, Prod.mk.injEq] at h
    exact .inl h.2.symm

theorem idx_grow {c : Call} {s s' : St} {r : Res} (h : Evals H c s r s') : idxGoal c s r s' := by
  refine Evals.ind (P := idxGoal) ?_ h
  clear h
  intro c s r s' h
  cases c with
  | z2 a i end_ env =>
    change Ev H _ (z2P a i end_ env) s r s' at h
    change i ≤ r.idx
    have item : ∀ {c : Code} {j : Nat} {t : St}, i ≤ j →
        Ev H (fun c s r s' => Evals H c s r s' ∧ idxGoal c s r s') (z2Item a j end_ env c) t r s' → i ≤ r.idx := by
      intro c j t hj h
      rcases ev_z2Item.1 h with ⟨s1, h1, h2⟩ | ⟨e, h1, rfl⟩
      · have : j + 1 ≤ r.idx := h2.2
        omega
      · exact hj
    unfold z2P at h
    split at h
    · split at h
      · exact absurd h ev_panic
      · split at h
        · split at h
          · exact item (Nat.le_refl _) h
          · obtain ⟨x, s1, h1, h2⟩ := ev_bind.1 h
            have h1 := (ev_callP.1 h1).2
            have hx : i ≤ x.idx := h1.1
            cases hr : x.r with
            | error e =>
              rw [hr] at h2
              obtain ⟨rfl, rfl⟩ := ev_pure.1 h2
              exact hx
            | ok u =>
              rw [hr] at h2
              dsimp only at h2
              split at h2
              · have : x.idx ≤ r.idx := (ev_callP.1 h2).2
                omega
              · exact item hx h2
        · split at h
          · obtain ⟨rfl, rfl⟩ := ev_pure.1 h
            exact Nat.le_refl _
          · obtain ⟨x, s1, h1, h2⟩ := ev_bind.1 h
            split at h2
            · exact item (Nat.le_refl _) h2
            · have : i + 1 ≤ r.idx := (ev_callP.1 h2).2
              omega
        · split at h
          · obtain ⟨rfl, rfl⟩ := ev_pure.1 h
            exact Nat.le_succ _
          · exact item (Nat.le_refl _) h
        · exact item (Nat.le_refl _) h
    · obtain ⟨rfl, rfl⟩ := ev_pure.1 h
      exact Nat.le_refl _
  | z4 a cs end2 end_ env st =>
    change Ev H _ (z4P a cs end2 end_ env st) s r s' at h
    -- after a call
    have called : ∀ {st2 : Z4} {t t' : St},
        Ev H (fun c s r s' => Evals H c s r s' ∧ idxGoal c s r s') (callP [] (.z4 a cs end2 end_ env st2)) t r t' →
        st.idx ≤ st2.idx → st2.has = true → idxGoal (.z4 a cs end2 end_ env st) s r s' := by
      intro st2 t t' h h1 h2
      obtain ⟨g1, g2⟩ := (ev_callP.1 h).2
      refine ⟨by omega, fun hr => ?_⟩
      obtain ⟨g3, g4, g5⟩ := g2 hr
      have := g3 h2
      refine ⟨fun _ => this, fun hh => ?_, fun hh => ?_⟩
      · have := g4 hh; omega
      · rw [this] at hh; cases hh
    -- the same again
    have again : ∀ {st2 : Z4} {t t' : St},
        Ev H (fun c s r s' => Evals H c s r s' ∧ idxGoal c s r s') (callP [] (.z4 a cs end2 end_ env st2)) t r t' →
        st2.idx = st.idx → st2.has = st.has → idxGoal (.z4 a cs end2 end_ env st) s r s' := by
      intro st2 t t' h h1 h2
      have := (ev_callP.1 h).2
      change _ ∧ _ at this
      rw [h1, h2] at this
      exact this
    unfold z4P at h
    split at h
    · obtain ⟨x, s1, h1, h2⟩ := ev_bind.1 h
      split at h2
      · split at h2
        · exact absurd h2 ev_panic
        · exact again h2 rfl rfl
      · split at h2
        · exact absurd h2 ev_panic
        · obtain ⟨y, s2, h3, h4⟩ := ev_bind.1 h2
          obtain ⟨h3, -⟩ := ev_ofOut.1 h3
          split at h4
          · exact again h4 rfl rfl
          · obtain ⟨_, s3, _, h5⟩ := ev_bind.1 h4
            split at h5
            · obtain ⟨_, s4, _, h6⟩ := ev_bind.1 h5
              exact called h6 (Nat.le_refl _) rfl
            · rename_i a2 j _ src _
              have hj := sparg_ge h3
              unfold z4Call at h5
              obtain ⟨q2, s4, _, h6⟩ := ev_bind.1 h5
              obtain ⟨u, s5, _, h7⟩ := ev_bind.1 h6
              obtain ⟨x, s6, h8, h9⟩ := ev_bind.1 h7
              have hx : st.idx ≤ x.idx := by
                unfold z4Args at h8
                split at h8
                · obtain ⟨rfl, rfl⟩ := ev_pure.1 h8; exact Nat.le_refl _
                · obtain ⟨y, s7, h10, h11⟩ := ev_bind.1 h8
                  have hy : st.idx ≤ y.idx ∧ (y.r = .ok () → st.idx + 1 ≤ y.idx) := by
                    split at h10
                    · obtain ⟨y', _, h12, h13⟩ := ev_call.1 h10
                      obtain ⟨rfl, rfl⟩ := ev_ret.1 h13
                      obtain ⟨g1, g2⟩ := h12.2
                      exact ⟨g1, fun hr => (g2 hr).2.1 ((g2 hr).1 rfl)⟩
                    · obtain ⟨z, s8, h12, h13⟩ := ev_bind.1 h10
                      split at h13
                      · obtain ⟨rfl, rfl⟩ := ev_pure.1 h13
                        dsimp only
                        omega
                      · obtain ⟨rfl, rfl⟩ := ev_pure.1 h13
                        exact ⟨Nat.le_refl _, by simp⟩
                  split at h11
                  · obtain ⟨rfl, rfl⟩ := ev_pure.1 h11
                    exact hy.1
                  · rename_i hyr
                    have hy2 := hy.2 hyr
                    obtain ⟨z, s8, h12, h13⟩ := ev_bind.1 h11
                    have hz : y.idx ≤ z.idx := by
                      obtain ⟨z', _, h14, h15⟩ := ev_call.1 h12
                      obtain ⟨rfl, rfl⟩ := ev_ret.1 h15
                      exact h14.2
                    split at h13
                    · obtain ⟨rfl, rfl⟩ := ev_pure.1 h13
                      dsimp only; omega
                    · obtain ⟨rfl, rfl⟩ := ev_pure.1 h13
                      dsimp only
                      split <;> omega
              split at h9
              · obtain ⟨rfl, rfl⟩ := ev_pure.1 h9
                exact ⟨hx, by simp⟩
              · obtain ⟨y, s7, _, h11⟩ := ev_bind.1 h9
                split at h11
                · obtain ⟨rfl, rfl⟩ := ev_pure.1 h11
                  exact ⟨hx, by simp⟩
                · exact called h11 hx rfl
    · split at h
      · rename_i hh
        have last : ∀ {t t' : St}, Ev H (fun c s r s' => Evals H c s r s' ∧ idxGoal c s r s')
            (pure { idx := st.idx + 1, idx2 := st.idx2, has := true } : Prog Res) t r t' →
            idxGoal (.z4 a cs end2 end_ env st) s r s' := by
          intro t t' h
          obtain ⟨rfl, rfl⟩ := ev_pure.1 h
          exact ⟨Nat.le_succ _, fun _ => ⟨fun _ => rfl, fun _ => Nat.le_refl _, by simp⟩⟩
        dsimp only at h
        split at h
        · obtain ⟨_, s1, _, h2⟩ := ev_bind.1 h
          exact last h2
        · exact last h
      · rename_i hh
        obtain ⟨rfl, rfl⟩ := ev_pure.1 h
        exact ⟨Nat.le_refl _, fun _ => ⟨fun h => absurd h hh, by simp, fun _ => rfl⟩⟩
  | _ => trivial

/-! ## Where a list failed -/

def failGoal (H : Host) : Call → St → Res → St → Prop
  | .z2 a i end_ env, s, r, s' => ∀ e, r.r = .error e → ∃ k s1, Spec.Walk H a end_ env i s k s1 ∧ k < end_ ∧
      Spec.Turn H a end_ env k s1 (.error e) s' ∧ k ≤ r.idx ∧ (¬ Spec.WordAt a env k → r.idx = k)
  | _, _, _, _ => True

theorem z2_failed {c : Call} {s s' : St} {r : Res} (h : Evals H c s r s') : failGoal H c s r s' := by
  refine Evals.ind (P := failGoal H) ?_ h
  clear h
  intro c s r s' h
  cases c with
  | z2 a i end_ env =>
    intro e he
    change Ev H _ (z2P a i end_ env) s r s' at h
    unfold z2P at h
    split at h
    · rename_i hi
      have step : ∀ {j s1}, Spec.Turn H a end_ env i s (.ok j) s1 → failGoal H (.z2 a j end_ env) s1 r s' →
          ∃ k s1, Spec.Walk H a end_ env i s k s1 ∧ k < end_ ∧
            Spec.Turn H a end_ env k s1 (.error e) s' ∧ k ≤ r.idx ∧ (¬ Spec.WordAt a env k → r.idx = k) := by
        intro j s1 ht hg
        obtain ⟨k, s2, h1, h2⟩ := hg e he
        exact ⟨k, s2, .turn hi ht h1, h2⟩
      have here : Spec.Turn H a end_ env i s (.error e) s' → i ≤ r.idx → (¬ Spec.WordAt a env i → r.idx = i) →
          ∃ k s1, Spec.Walk H a end_ env i s k s1 ∧ k < end_ ∧
            Spec.Turn H a end_ env k s1 (.error e) s' ∧ k ≤ r.idx ∧ (¬ Spec.WordAt a env k → r.idx = k) :=
        fun ht h1 h2 => ⟨i, s, .start, hi, ht, h1, h2⟩
      have one : ∀ {c}, Spec.Single a env i c →
          Ev H (fun c s r s' => Evals H c s r s' ∧ failGoal H c s r s') (z2Item a i end_ env c) s r s' →
          ∃ k s1, Spec.Walk H a end_ env i s k s1 ∧ k < end_ ∧
            Spec.Turn H a end_ env k s1 (.error e) s' ∧ k ≤ r.idx ∧ (¬ Spec.WordAt a env k → r.idx = k) := by
        intro c hc h
        rcases ev_z2Item.1 h with ⟨s1, h1, h2⟩ | ⟨e', h1, rfl⟩
        · exact step (.ok hc h1.1) h2.2
        · cases he
          exact here (.fail hc h1.1) (Nat.le_refl _) fun _ => rfl
      split at h
      · exact absurd h ev_panic
      · rename_i c hc
        split at h
        · rename_i hid
          split at h
          · rename_i hu
            exact one ⟨hc, fun _ => hu, by simp [hid], by simp [hid]⟩ h
          · rename_i hu
            have hu : env.gd.undefEqText = false := by simpa using hu
            have hw : Spec.WordAt a env i := ⟨c, hc, hid, hu⟩
            obtain ⟨x, s1, h1, h2⟩ := ev_bind.1 h
            have h1 := ev_callP.1 h1
            have hx := (idx_grow h1.1).1
            dsimp only at hx
            cases hr : x.r with
            | error e' =>
              rw [hr] at h2
              obtain ⟨rfl, rfl⟩ := ev_pure.1 h2
              cases he
              exact here (.callFail hc hid hu h1.1 hr) hx fun h => absurd hw h
            | ok u =>
              rw [hr] at h2
              dsimp only at h2
              cases hh : x.has with
              | true =>
                rw [hh, if_pos rfl] at h2
                exact step (.call hc hid hu h1.1 hr hh) (ev_callP.1 h2).2
              | false =>
                rw [hh, if_neg (by simp)] at h2
                rcases ev_z2Item.1 h2 with ⟨s2, h3, h4⟩ | ⟨e', h3, rfl⟩
                · exact step (.word hc hid hu h1.1 hr hh h3.1) h4.2
                · cases he
                  exact here (.wordFail hc hid hu h1.1 hr hh h3.1) hx fun h => absurd hw h
        · rename_i hid
          split at h
          · obtain ⟨rfl, rfl⟩ := ev_pure.1 h
            cases he
          · rename_i hj
            have hj : env.gd.jvhao = false := by simpa using hj
            obtain ⟨x, s1, h1, h2⟩ := ev_bind.1 h
            obtain ⟨rfl, rfl⟩ := ev_getSt.1 h1
            split at h2
            · rename_i ha
              rcases ev_z2Item.1 h2 with ⟨s2, h3, h4⟩ | ⟨e', h3, rfl⟩
              · exact step (.dotOk hc hid hj ha h3.1) h4.2
              · cases he
                exact here (.dotFail hc hid hj ha h3.1) (Nat.le_refl _) fun _ => rfl
            · rename_i ha
              exact step (.dot hc hid hj (by simpa using ha)) (ev_callP.1 h2).2
        · rename_i hid
          split at h
          · obtain ⟨rfl, rfl⟩ := ev_pure.1 h
            cases he
          · rename_i hj
            exact one ⟨hc, by simp [hid], by simp [hid], fun _ => by simpa using hj⟩ h
        · rename_i h1 h2 h3
          exact one ⟨hc, fun h => absurd h h1, h2, fun h => absurd h h3⟩ h
    · obtain ⟨rfl, rfl⟩ := ev_pure.1 h
      cases he
  | _ => trivial

/-- **C64.**  A statement list that fails, not by a jump, has evaluated its items one after the other up to some item, and that one
failed.  The report is the report of the item with one more line: the text of the list from its first item to this one.  (When a word
with calls failed, the text may go on to the item where the reading of the arguments stopped.)  Everything else in the error is as the
item left it. -/
theorem C64_trace {a : List Code} {i end_ : Nat} {env : Env} {s s' : St} {x : Res} {e' : Err}
    (h : Evals H (.codes a i end_ env) s x s') (hx : x.r = .error e') (hj : isJump e'.i = false) :
    ∃ k s1 e j, Spec.Walk H a (min end_ a.length) env i s k s1 ∧ k < min end_ a.length ∧
      Spec.Turn H a (min end_ a.length) env k s1 (.error e) s' ∧ k ≤ j ∧ (¬ Spec.WordAt a env k → j = k) ∧
      e' = Spec.quoted e (showL (a.take (j + 1))) := by
  obtain ⟨y, h', rfl⟩ := codes_z2.1 h
  cases hr : y.r with
  | ok u => rw [hr] at hx; cases hx
  | error e =>
    rw [hr] at hx
    dsimp only at hx
    obtain ⟨k, s1, h1, h2, h3, h4, h5⟩ := z2_failed h' e hr
    injection hx with hx
    have hje : isJump e.i = false := by
      rw [← hx] at hj
      split at hj
      · exact hj
      · exact hj
    rw [if_neg (by simp [hje])] at hx
    refine ⟨k, s1, e, y.idx, h1, h2, h3, h4, h5, ?_⟩
    rw [← hx]
    rfl

/-! ## Scripts written plainly -/

def Spec.Name.Plain : Spec.Name → Prop
  | .plain s => Spec.printable s = s
  | .args _ bs => bs.length ≤ 2 ∧ (∀ b ∈ bs, intStr b.2 = b.1) ∧ (∀ b, bs[0]? = some b → b.2 ≠ 1) ∧
      (∀ b, bs[1]? = some b → b.2 ≠ 2 ^ 31 - 1)
  | .argc => True
  | .arg s i => (i = 0 → Spec.printable s = s) ∧ (i ≠ 0 → intStr i = s)

/-- Written as the program would be written back: no blanks that are dropped, numbers in the usual form and not the default, no
names inside quotes, no `下文本`, `下原样`, `下代码`. -/
def Spec.Atom.Plain : Spec.Atom → Prop
  | .quote ps l => ps = [] ∧ l ≠ [] ∧ Spec.printable l = l
  | .long _ => False
  | .verb _ => False
  | .kept _ => False
  | .word s => Spec.strip s = s
  | .var n ns => n.Plain ∧ ∀ s ∈ ns, Spec.printable s = s
  | .note s => Spec.strip s = s
  | .sep => True

def Spec.Counter.Plain (c : Spec.Counter) : Prop :=
  c.max ≠ some none ∧ (∀ s i, c.max = some (some (s, i)) → intStr i = s) ∧ (∀ s i, c.start = some (s, i) → intStr i = s) ∧
    (∀ s, c.name = some s → Spec.strip s = s) ∧ ∀ s ∈ c.more, Spec.strip s = s

/-- The annotations of `管道接` first. -/
def Spec.Cmd.Plain : Spec.Cmd → List Code → Prop
  | .jie, l => l.filter Spec.isNote ++ l.filter (fun c => !Spec.isNote c) = l
  | .eval _ arg0, _ => ∀ s, arg0 = some s → Spec.strip s = s
  | .loop _ c, _ => c.Plain
  | _, _ => True

mutual
def Spec.El.Plain : Spec.El → Prop
  | .atom a => a.Plain
  | .block b => b.Plain
  | .cond c t e b => c.Plain ∧ t.Plain ∧ e.Plain ∧ b.Plain
  | .loop _ k a b => k.Plain ∧ a.Plain ∧ b.Plain
  | .switch _ a b => (∀ x ∈ a, x.Plain) ∧ b.Plain
def Spec.Phrase.Plain : Spec.Phrase → Prop
  | .nil => True
  | .el e p => e.Plain ∧ p.Plain
  | .cmd k p => k.Plain p.code ∧ p.Plain
  | .asg _ a p => a.Plain ∧ p.Plain
  /- written back, it gets an `否则` -/
  | .cond _ _ => False
  | .cond2 c t e => c.Plain ∧ t.Plain ∧ e.Plain
def Spec.Condition.Plain : Spec.Condition → Prop
  | .last p => p.Plain
  | .more p _ c => p.Plain ∧ c.Plain
def Spec.Script.Plain : Spec.Script → Prop
  | .done p => p.Plain
  | .sent p q => p.Plain ∧ q.Plain
end

theorem showL_append (a b : List Code) : showL (a ++ b) = showL a ++ showL b := by
  induction a with
  | nil => rfl
  | cons c a ih => rw [List.cons_append, showL, ih, showL, List.append_assoc]

theorem showL_one (c : Code) : showL [c] = c.show := by simp [showL]

theorem showL_take (a : List Code) (k : Nat) : showL (a.take k) <+: showL a := by
  refine ⟨showL (a.drop k), ?_⟩
  rw [← showL_append, List.take_append_drop]

theorem map_plain {f : Str → Str} {l : List Str} (h : ∀ s ∈ l, f s = s) : l.map f = l := by
  conv => rhs; rw [← List.map_id l]
  exact List.map_congr_left h

theorem show_note (s : Str) : (Spec.noteItem s).show = remStr s := by
  unfold Spec.noteItem
  split
  · rename_i h; subst h; rfl
  · rfl

theorem show_notes (l : List Str) (h : ∀ s ∈ l, Spec.strip s = s) :
    showL (l.map fun s => Spec.noteItem (Spec.strip s)) = l.flatMap remStr := by
  induction l with
  | nil => rfl
  | cons s l ih =>
    rw [List.map_cons, showL, show_note, h s (by simp), ih fun x hx => h x (by simp [hx])]
    rfl

theorem unitsSrc_append (a b : List Spec.Frag) : Spec.unitsSrc (a ++ b) = Spec.unitsSrc a ++ Spec.unitsSrc b := by
  simp [Spec.unitsSrc]

theorem unitsSrc_kw (id : KwId) (b : List Spec.Frag) : Spec.unitsSrc (.kw id :: b) = kwStr id ++ Spec.unitsSrc b := rfl

theorem unitsSrc_notes (l : List Str) : Spec.unitsSrc (Spec.noteUnits l) = l.flatMap remStr := by
  induction l with
  | nil => rfl
  | cons s l ih =>
    change (Spec.Atom.note s).src ++ Spec.unitsSrc (Spec.noteUnits l) = _
    rw [ih]
    rfl

theorem show_name (n : Spec.Name) (ns : List Str) (h : n.Plain) :
    (n.item ns).show = kwStr .beginVar ++ (n.text ++ (n.own ++ ns).flatMap remStr) ++ kwStr .endVar := by
  cases n with
  | plain s =>
    simp only [Spec.Name.Plain] at h
    simp only [Spec.Name.item, Code.show, varStr, Spec.Name.text, Spec.Name.own, h, List.nil_append]
  | argc => rfl
  | arg s i =>
    by_cases hi : i = 0
    · simp only [Spec.Name.item, if_pos hi, Code.show, varStr, Spec.Name.text, Spec.Name.own, h.1 hi, List.nil_append]
      rfl
    · simp only [Spec.Name.item, if_neg hi, Code.show, varStr, Spec.Name.text, Spec.Name.own, h.2 hi, List.nil_append]
      rfl
  | args line bs =>
    obtain ⟨h1, h2, h3, h4⟩ := h
    have hm : i32Max = 2 ^ 31 - 1 := by decide
    match bs, h1, h2, h3, h4 with
    | [], _, _, _, _ =>
      cases line <;> simp [Spec.Name.item, Code.show, varStr, argsName, Spec.Name.text, Spec.Name.own, hm, ARG, ARGS]
    | [b], _, h2, h3, _ =>
      have h2 := h2 b (by simp)
      have h3 := h3 b rfl
      cases line <;>
        simp [Spec.Name.item, Code.show, varStr, argsName, Spec.Name.text, Spec.Name.own, hm, ARG, ARGS, h2, h3]
    | [b, c], _, h2, h3, h4 =>
      have h2b := h2 b (by simp)
      have h2c := h2 c (by simp)
      have h3 := h3 b rfl
      have h4 := h4 c rfl
      have h4 : c.2 ≠ 2147483647 := h4
      cases line <;>
        simp [Spec.Name.item, Code.show, varStr, argsName, Spec.Name.text, Spec.Name.own, hm, ARG, ARGS, h2b, h2c, h3, h4]

theorem show_atom (a : Spec.Atom) (h : a.Plain) : showL a.items = a.src := by
  cases a with
  | quote ps l =>
    obtain ⟨rfl, h1, h2⟩ := h
    simp only [Spec.Atom.items, Spec.Atom.src, h2, Spec.textItem, if_neg h1, List.flatMap_nil, List.nil_append, showL_one]
    rfl
  | long bs => exact h.elim
  | verb s => exact h.elim
  | kept ps => exact h.elim
  | word s =>
    simp only [Spec.Atom.Plain] at h
    simp only [Spec.Atom.items, Spec.Atom.src, h, showL_one, Code.show]
  | var n ns =>
    simp only [Spec.Atom.items, Spec.Atom.src, map_plain h.2, showL_one, show_name n ns h.1]
    simp
    rfl
  | note s =>
    simp only [Spec.Atom.Plain] at h
    simp only [Spec.Atom.items, Spec.Atom.src, h, showL_one, show_note]
    rfl
  | sep => rfl

theorem show_atoms (a : List Spec.Atom) (h : ∀ x ∈ a, x.Plain) :
    showL (a.flatMap Spec.Atom.items) = Spec.unitsSrc (Spec.atoms a) := by
  induction a with
  | nil => rfl
  | cons x a ih =>
    rw [List.flatMap_cons, showL_append, show_atom x (h x (by simp)), ih fun y hy => h y (by simp [hy])]
    rfl

theorem show_counter (r : Bool) (c : Spec.Counter) (l : List Code) (h : c.Plain) :
    ((Spec.Cmd.loop r c).build l).show =
      kwStr (Spec.Cmd.loop r c).kw ++ ((Spec.Cmd.loop r c).notes.flatMap remStr ++ showL l) := by
  obtain ⟨h1, h2, h3, h4, h5⟩ := h
  obtain ⟨max, start, name, more⟩ := c
  simp only at h1 h2 h3 h4 h5
  simp only [Spec.Cmd.build, Code.show, Spec.Cmd.notes, Spec.Cmd.kw, Cnt.str, show_notes more h5]
  rcases max with _ | _ | ⟨m, i⟩
  · rcases start with _ | ⟨st, j⟩ <;> rcases name with _ | n <;> simp [h3, h4]
  · exact absurd rfl h1
  · rcases start with _ | ⟨st, j⟩ <;> rcases name with _ | n <;> simp [h2, h3, h4]

theorem show_cmd (k : Spec.Cmd) (l : List Code) (h : k.Plain l) :
    (k.build l).show = kwStr k.kw ++ (k.notes.flatMap remStr ++ showL l) := by
  cases k with
  | loop r c => exact show_counter r c l h
  | jie =>
    have h : l.filter Spec.isNote ++ l.filter (fun c => !Spec.isNote c) = l := h
    conv => rhs; rw [← h, showL_append]
    simp [Spec.Cmd.build, Code.show, Spec.Cmd.kw, Spec.Cmd.notes]
  | eval cur arg0 =>
    have h : ∀ s, arg0 = some s → Spec.strip s = s := h
    cases arg0 with
    | none => cases cur <;> simp [Spec.Cmd.build, Code.show, Spec.Cmd.kw, Spec.Cmd.notes, showL, IN_CUR_QV]
    | some s =>
      have h0 := h s rfl
      cases cur <;> simp [Spec.Cmd.build, Code.show, Spec.Cmd.kw, Spec.Cmd.notes, showL, show_note, h0, IN_CUR_QV]
  | load cur => cases cur <;> simp [Spec.Cmd.build, Code.show, Spec.Cmd.kw, Spec.Cmd.notes, showL, IN_CUR_QV]
  | jump k => cases k <;> rfl
  | _ => rfl

mutual
theorem show_el : (e : Spec.El) → e.Plain → showL e.code = Spec.unitsSrc e.units
  | .atom a, h => by
    rw [Spec.El.code, show_atom a h, Spec.El.units]
    simp [Spec.unitsSrc, Spec.Frag.src]
  | .block b, h => by
    rw [Spec.El.code, Spec.El.units, showL_one, Code.show, show_script b h, unitsSrc_kw, unitsSrc_append]
    simp [Spec.unitsSrc, Spec.Frag.src]
  | .cond c t e b, h => by
    obtain ⟨h1, h2, h3, h4⟩ := h
    rw [Spec.El.code, Spec.El.units, showL_one, Code.show, showL_append, showL_one, Code.show, show_condition c h1,
      show_phrase t h2, show_phrase e h3, show_script b h4]
    simp [unitsSrc_kw, unitsSrc_append]
    simp [Spec.unitsSrc]
  | .loop r k a b, h => by
    obtain ⟨h1, h2, h3⟩ := h
    rw [Spec.El.code, Spec.El.units, showL_one, show_counter r k _ h1, showL_append, showL_one, Code.show, show_phrase a h2,
      show_script b h3]
    simp [unitsSrc_kw, unitsSrc_append, unitsSrc_notes]
    simp [Spec.unitsSrc]
  | .switch one a b, h => by
    obtain ⟨h1, h2⟩ := h
    rw [Spec.El.code, Spec.El.units, showL_one, Code.show, show_atoms a h1, show_script b h2]
    simp [unitsSrc_kw, unitsSrc_append]
    simp [Spec.unitsSrc]
theorem show_phrase : (p : Spec.Phrase) → p.Plain → showL p.code = Spec.unitsSrc p.units
  | .nil, _ => rfl
  | .el e p, h => by
    obtain ⟨h1, h2⟩ := h
    rw [Spec.Phrase.code, Spec.Phrase.units, showL_append, show_el e h1, show_phrase p h2, unitsSrc_append]
  | .cmd k p, h => by
    obtain ⟨h1, h2⟩ := h
    rw [Spec.Phrase.code, Spec.Phrase.units, showL_one, show_cmd k _ h1, show_phrase p h2, unitsSrc_kw, unitsSrc_append,
      unitsSrc_notes]
  | .asg k a p, h => by
    obtain ⟨h1, h2⟩ := h
    rw [Spec.Phrase.code, Spec.Phrase.units, showL_one, unitsSrc_kw, unitsSrc_append, unitsSrc_kw, ← show_phrase a h1,
      ← show_phrase p h2]
    cases k <;> simp [Spec.Asg.build, Code.show, Spec.Asg.kw]
  | .cond _ _, h => h.elim
  | .cond2 c t e, h => by
    obtain ⟨h1, h2, h3⟩ := h
    rw [Spec.Phrase.code, Spec.Phrase.units, showL_one, Code.show, show_condition c h1, show_phrase t h2, show_phrase e h3]
    simp [unitsSrc_kw, unitsSrc_append]
theorem show_condition : (c : Spec.Condition) → c.Plain → showL c.code = Spec.unitsSrc c.units
  | .last p, h => show_phrase p h
  | .more p id c, h => by
    obtain ⟨h1, h2⟩ := h
    rw [Spec.Condition.code, Spec.Condition.units, showL_append, showL, show_phrase p h1, show_condition c h2, unitsSrc_append,
      unitsSrc_kw]
    rfl
theorem show_script : (q : Spec.Script) → q.Plain → showL q.code = Spec.unitsSrc q.units
  | .done p, h => show_phrase p h
  | .sent p q, h => by
    obtain ⟨h1, h2⟩ := h
    rw [Spec.Script.code, Spec.Script.units, showL_append, showL, show_phrase p h1, show_script q h2, unitsSrc_append, unitsSrc_kw]
    rfl
end

/-! ## What the user reads -/

/-- The environment of the statements of a script. -/
def Spec.inside (env : Env) : Env := { env with gd := { du := env.gd.du, jie := env.gd.jie } }

theorem jumpReturn_error {d : Int} {r : Except Err Unit} {e : Err} (h : jumpReturn d r = .error e) : r = .error e := by
  unfold jumpReturn at h
  split at h
  · split at h
    · cases h
    · exact h
  · cases h

/-- **C64.**  A plainly written script that fails, not by a jump: the last line of the report is a beginning of the script, up to the
statement item that failed. -/
theorem C64_script {q : Spec.Script} (hok : q.Ok) (hcl : Spec.Clear q.units) (hp : q.Plain) {env : Env} {s s' : St} {x : Res} {e' : Err}
    (hs : Spec.Reach H.hash parse s.cache) (inj : ∀ t, H.hash t = H.hash q.src → t = q.src)
    (h : Evals H (.src q.src env) s x s') (hx : x.r = .error e') (hj : isJump e'.i = false) :
    ∃ t e, t <+: q.src ∧ e' = Spec.quoted e t ∧
      ∃ c k s1 j, Spec.Walk H q.code (min usizeMax q.code.length) (Spec.inside env) 0 { s with cache := c } k s1 ∧
        k < min usizeMax q.code.length ∧ Spec.Turn H q.code (min usizeMax q.code.length) (Spec.inside env) k s1 (.error e) s' ∧
        k ≤ j ∧ (¬ Spec.WordAt q.code (Spec.inside env) k → j = k) ∧ t = showL (q.code.take (j + 1)) := by
  obtain ⟨c, -, hc⟩ := evals_src (env := env) hs inj
  have hpar := C60_structure q hok hcl
  rcases (hc x s').1 h with ⟨e, h1, -, -⟩ | ⟨codes, y, h1, h2, rfl⟩
  · rw [hpar] at h1; cases h1
  · rw [hpar] at h1
    cases h1
    obtain ⟨k, s1, e, j, g1, g2, g3, g4, g5, g6⟩ := C64_trace h2 (jumpReturn_error hx) hj
    refine ⟨_, e, ?_, g6, c, k, s1, j, g1, g2, g3, g4, g5, rfl⟩
    have := showL_take q.code (j + 1)
    rwa [show_script q hp] at this

/-- **C64.**  The same in every run, wherever the script is evaluated. -/
theorem C64_reached {q : Spec.Script} (hok : q.Ok) (hcl : Spec.Clear q.units) (hp : q.Plain) {ovf : Bool} {argv : List Str} {env : Env}
    {s s' : St} {x : Res} {e' : Err} (hr : Reached H ovf argv (.src q.src env) s) (inj : ∀ t, H.hash t = H.hash q.src → t = q.src)
    (h : Evals H (.src q.src env) s x s') (hx : x.r = .error e') (hj : isJump e'.i = false) :
    ∃ t e, t <+: q.src ∧ e' = Spec.quoted e t := by
  obtain ⟨t, e, h1, h2, -⟩ := C64_script hok hcl hp (C21_reached hr) inj h hx hj
  exact ⟨t, e, h1, h2⟩

/-- **C64.**  A plainly written script on the command line: when the interpreter ends with an error that is no jump, the last line of the
report is a beginning of the script. -/
theorem C64_run {q : Spec.Script} (hok : q.Ok) (hcl : Spec.Clear q.units) (hp : q.Plain) {ovf : Bool} {argv : List Str}
    {opts : List Spec.CliOpt} {ws : List Str} (hl : Spec.CliLine argv opts q.src ws) (hc : Spec.CliOpt.isCode ∈ opts)
    (inj : ∀ t, H.hash t = H.hash q.src → t = q.src) {e' : Err} {s' : St} (h : Spec.Ran H ovf argv (.error e') s')
    (hj : isJump e'.i = false) : ∃ t e, t <+: q.src ∧ e' = Spec.quoted e t := by
  obtain ⟨s1, -, -, -, h4, hk, h5⟩ := main_line (H := H) (ovf := ovf) hl
  have h := (h5 _ _).1 h
  rw [h4.2 hc] at h
  obtain ⟨x, h, hx⟩ := evE_callE.1 (show EvE H (Evals H) (callE [] (.src q.src Env.init)) s1 (.error e') s' from h)
  obtain ⟨t, e, h1, h2, -⟩ := C64_script hok hcl hp (hk _ (kept_cache H) .nil) inj h hx hj
  exact ⟨t, e, h1, h2⟩

/-! ## The hypotheses are met -/

/-- A script that fails in its second statement. -/
def failScript : Spec.Script :=
  .sent (.cmd .print (demoEls [.quote [] c!"甲"] .nil))
  (.sent (.cond2 (.last (demoEls [.word c!"1"] .nil)) (.cmd (.load false) (demoEls [.quote [] c!"x"] .nil)) .nil)
  (.sent (.cmd .print (demoEls [.quote [] c!"乙"] .nil)) (.done .nil)))

example : failScript.src = c!"显示“甲”。如果1那么加载“x”否则。显示“乙”。" := by decide +kernel

/-- The hash of the demonstration host tells all texts apart. -/
theorem hash0_inj {s t : Str} (h : H0.hash s = H0.hash t) : s = t := by
  have key : ∀ a b : Str, a.foldr (fun c n => n * 1114112 + c.toNat + 1) 0 = b.foldr (fun c n => n * 1114112 + c.toNat + 1) 0 → a = b := by
    intro a
    induction a with
    | nil =>
      intro b h
      cases b with
      | nil => rfl
      | cons d b => simp only [List.foldr_nil, List.foldr_cons] at h; omega
    | cons c a ih =>
      intro b h
      cases b with
      | nil => simp only [List.foldr_nil, List.foldr_cons] at h; omega
      | cons d b =>
        simp only [List.foldr_cons] at h
        have lt : ∀ c : Char, c.toNat < 1114112 := fun c => by
          rcases c.valid with h | h
          · have : c.toNat < 55296 := h
            omega
          · exact h.2
        have h1 := lt c
        have h2 := lt d
        have h3 : c.toNat = d.toNat := by omega
        have h4 := ih b (by omega)
        rw [Char.toNat_inj.1 h3, h4]
  have := key s.reverse t.reverse (by rw [List.foldr_reverse, List.foldr_reverse]; exact h)
  exact List.reverse_inj.1 this

theorem failScript_ok : failScript.Ok ∧ Spec.Clear failScript.units ∧ failScript.Plain := by
  refine ⟨?_, clearB_sound _ (by decide +kernel), ?_⟩
  · simp [failScript, demoEls, Spec.Script.Ok, Spec.Phrase.Ok, Spec.El.Ok, Spec.Condition.Ok, Spec.Cmd.Ok, Spec.Phrase.code, Spec.El.code,
      Spec.Atom.items, Spec.Phrase.noBlock, Spec.Phrase.noIf, Spec.Cmd.isLoop, Spec.isNote, show Spec.printable c!"甲" = c!"甲" by decide +kernel,
      show Spec.printable c!"乙" = c!"乙" by decide +kernel, show Spec.printable c!"x" = c!"x" by decide +kernel, Spec.textItem]
  · simp only [failScript, demoEls, Spec.Script.Plain, Spec.Phrase.Plain, Spec.El.Plain, Spec.Condition.Plain, Spec.Cmd.Plain, Spec.Atom.Plain]
    decide +kernel

theorem ran_of {n : Nat} {ovf : Bool} {argv : List Str} {r : Except Err Unit} (h : (runMain H n ovf argv).1 = .ok r) :
    ∃ s', Spec.Ran H ovf argv r s' := ⟨(runMain H n ovf argv).2, n, Prod.ext h rfl⟩

/-- The script meets the hypotheses of `C64_run`: the run ends with an error, and the report quotes the script up to the statement. -/
theorem C64_witness : Spec.CliLine (demoArgv failScript.src) [.isCode] failScript.src [] ∧
    (∀ t, H0.hash t = H0.hash failScript.src → t = failScript.src) ∧
    ∃ s', Spec.Ran H0 false (demoArgv failScript.src)
      (.error ⟨ERR, 0, c!"\"x\" ", c!"\n“加载“x””\n“显示“甲”。如果1那么加载“x”否则”"⟩) s' := by
  refine ⟨.plain c!"zs" [.isCode] failScript.src [] ?_ ?_ (by decide +kernel) (by decide), fun t h => hash0_inj h, ?_⟩
  · intro w hw hm
    have h : ([c!"-zhscript-src-is-code", failScript.src] : List Str).all (fun w => !Spec.MARK.isSuffixOf w) = true := by decide +kernel
    have := List.all_eq_true.1 h w hw
    rw [List.isSuffixOf_iff_suffix.2 hm] at this
    cases this
  · rw [← List.isPrefixOf_iff_prefix]; decide +kernel
  · exact ran_of (n := 20) (by decide +kernel)

/-- A condition without `否则` is quoted with one: the quoted text is then no part of the script. -/
theorem C64_else_counterexample :
    (demo 20 c!"如果1那么加载“x”。").1 = .ok (.error ⟨ERR, 0, c!"\"x\" ", c!"\n“加载“x””\n“如果1那么加载“x”否则”"⟩) ∧
    ¬ c!"如果1那么加载“x”否则" <:+: c!"如果1那么加载“x”。" := by
  constructor
  · decide +kernel
  · decide +kernel

end Zh
