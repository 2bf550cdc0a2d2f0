import Verif.Props.Reads
/-!
# C61: calling definitions

A word is read from left to right.  `Spec.Word` tells what this means: the text before the first name of a
definition is written, the definition is called, and the reading goes on after it.
-/
namespace Zh

variable {H : Host}

/-! ## Specification -/

/-- The scopes whose definitions can be used in the scope `q`: itself, the scopes around it, the modules. -/
def Spec.seen (s : St) (q : Nat) : List Nat := Spec.visible (chain s.scopes q) s.mods

/-- The text begins with the name of the definition, which is not one of the excluded ones. -/
def Spec.Begins (x : List Str) (t : Str) (d : Def) : Prop := d.name ∉ x ∧ d.name0 <+: t

/-- No definition that can be used has its name anywhere in the text. -/
def Spec.NoCall (s : St) (q : Nat) (x : List Str) (t : Str) : Prop :=
  ∀ u v, t = u ++ v → v ≠ [] → ∀ p ∈ Spec.seen s q, ∀ d ∈ (s.scopes p).defs, ¬ Spec.Begins x v d

/-- The definition that is called first in the text `t` is `d`, the `k`-th one of the scope `p`: the text is `u`, the name,
`v`.  No name begins further left; no scope before `p` and no earlier definition of `p` has a name that fits there. -/
structure Spec.FirstCall (s : St) (q : Nat) (x : List Str) (t u : Str) (p k : Nat) (d : Def) (v : Str) : Prop where
  text : t = u ++ (d.name0 ++ v)
  inside : d.name0 ++ v ≠ []
  left : ∀ u1 u2, u = u1 ++ u2 → u2 ≠ [] → ∀ p' ∈ Spec.seen s q, ∀ d' ∈ (s.scopes p').defs,
    ¬ Spec.Begins x (u2 ++ (d.name0 ++ v)) d'
  inner : ∃ i : Nat, (Spec.seen s q)[i]? = some p ∧ ∀ (j : Nat) p', j < i → (Spec.seen s q)[j]? = some p' →
    ∀ d' ∈ (s.scopes p').defs, ¬ Spec.Begins x (d.name0 ++ v) d'
  def_ : (s.scopes p).defs[k]? = some d
  allowed : d.name ∉ x
  oldest : ∀ k' d', k' < k → (s.scopes p).defs[k']? = some d' → ¬ Spec.Begins x (d.name0 ++ v) d'

/-- The state with a fresh scope inside `q` for a call of `d`: its number, and that of its argument list. -/
def Spec.opened (s : St) (d : Def) (q : Nat) : St :=
  { s with
    lists := upd s.lists s.nlist .empty, nlist := s.nlist + 1
    scopes := upd s.scopes s.nscope (Scope.new [] [] d.name (some d.names) (some (q, (s.scopes q).i)) s.nlist)
    nscope := s.nscope + 1 }

/-- The body `src` of `d` is evaluated in the scope `q2`: it is parsed (through the cache), the left-hand arguments are
moved from the results to the front of the list `args`, the code runs, and a return that is meant for it ends here. -/
inductive Spec.RunsBody (H : Host) (d : Def) (src : Str) (env : Env) (p q2 args : Nat) :
    St → Except Err Unit → St → Prop where
  | syntaxError {s s1 e} : (Op.parse src).run H s = (.ok (.error e), s1) → RunsBody H d src env p q2 args s (.error e) s1
  | plain {s s1 codes r s'} : (Op.parse src).run H s = (.ok (.ok codes), s1) → d.backarg = 0 →
    Evals H (.codes codes 0 usizeMax ⟨{ env.gd with jvhao := false }, q2, env.ret, some p⟩) s1 r s' →
    RunsBody H d src env p q2 args s (jumpReturn (s'.scopes q2).i r.r) s'
  | left {s s1 codes l largs r s'} : (Op.parse src).run H s = (.ok (.ok codes), s1) → d.backarg ≠ 0 →
    RList.backarg (s1.lists env.ret) d.backarg ⟨s1.nitem, .k (kw .dunhao)⟩ (s1.lists args) = .ok (some (l, largs)) →
    Evals H (.codes codes 0 usizeMax ⟨{ env.gd with jvhao := false }, q2, env.ret, some p⟩)
      { s1 with items := upd s1.items s1.nitem [], nitem := s1.nitem + 1, lists := upd (upd s1.lists env.ret l) args largs } r s' →
    RunsBody H d src env p q2 args s (jumpReturn (s'.scopes q2).i r.r) s'
  | missing {s s1 codes} : (Op.parse src).run H s = (.ok (.ok codes), s1) → d.backarg ≠ 0 →
    RList.backarg (s1.lists env.ret) d.backarg ⟨s1.nitem, .k (kw .dunhao)⟩ (s1.lists args) = .ok none →
    RunsBody H d src env p q2 args s (.error (.msg c!"倒挂不足"))
      { s1 with items := upd s1.items s1.nitem [], nitem := s1.nitem + 1 }

/-- The state after an evaluation during which the definition was borrowed. -/
def St.release (s s' : St) : St := { s' with held := s.held }

mutual
/-- The text `t` (the rest of the word `w` at place `i`) is read in the environment `env`; `called`: a definition was
called in this word before; `x`: the patterns that are excluded here.  The outcome is an error, or `none` if nothing was
called, or the place where the evaluation goes on. -/
inductive Spec.Word (H : Host) (a : List Code) (w : Str) (end_ : Nat) :
    Env → (called : Bool) → (x : List Str) → (t : Str) → (i : Nat) → St → Except Err (Option Nat) → St → Prop where
  /-- no definition at all: nothing is done here (the word is a text) -/
  | none {env x t i s} : Spec.NoCall s env.q x t → Word H a w end_ env false x t i s (.ok none) s
  /-- the text after the last call is written as it is -/
  | last {env x t i s} : Spec.NoCall s env.q x t →
    Word H a w end_ env true x t i s (.ok (some (i + 1))) (if t = [] then s else s.push env.ret (.s t))
  /-- a definition with separators that are not there does not count -/
  | skip {env b x t i s u p k d v r s'} : Spec.FirstCall s env.q x t u p k d v →
    sparg d a w w.length end_ i (w.length - v.length) = .ok none →
    Word H a w end_ env b (x ++ [d.name]) t i s r s' → Word H a w end_ env b x t i s r s'
  /-- a constant -/
  | const {env b x t i s u p k d v c y r s'} : Spec.FirstCall s env.q x t u p k d v →
    sparg d a w w.length end_ i (w.length - v.length) = .ok (some y) → d.val = .si c →
    Word H a w end_ env true [] v i (s.pushs env.ret (u.map (fun c => Val.s [c]) ++ [.s c])) r s' →
    Word H a w end_ env b x t i s r s'
  /-- a definition is called: arguments, body, and on with what is left -/
  | call {env b x t i s u p k d v src y v' j s1 s2 r s'} : Spec.FirstCall s env.q x t u p k d v →
    sparg d a w w.length end_ i (w.length - v.length) = .ok (some y) → d.val = .s src →
    Args H a w end_ d y env s.nlist v i
      ((Spec.opened (s.pushs env.ret (u.map fun c => Val.s [c])) d env.q).hold [.def_ p k]) (.ok (v', j)) s1 →
    Spec.RunsBody H d src env p s.nscope s.nlist s1 (.ok ()) s2 →
    Word H a w end_ env true [] v' j (St.release s s2) r s' → Word H a w end_ env b x t i s r s'
  /-- the arguments fail -/
  | argsFail {env b x t i s u p k d v src y e s1} : Spec.FirstCall s env.q x t u p k d v →
    sparg d a w w.length end_ i (w.length - v.length) = .ok (some y) → d.val = .s src →
    Args H a w end_ d y env s.nlist v i
      ((Spec.opened (s.pushs env.ret (u.map fun c => Val.s [c])) d env.q).hold [.def_ p k]) (.error e) s1 →
    Word H a w end_ env b x t i s (.error e) (St.release s s1)
  /-- the body fails -/
  | bodyFail {env b x t i s u p k d v src y v' j s1 e s2} : Spec.FirstCall s env.q x t u p k d v →
    sparg d a w w.length end_ i (w.length - v.length) = .ok (some y) → d.val = .s src →
    Args H a w end_ d y env s.nlist v i
      ((Spec.opened (s.pushs env.ret (u.map fun c => Val.s [c])) d env.q).hold [.def_ p k]) (.ok (v', j)) s1 →
    Spec.RunsBody H d src env p s.nscope s.nlist s1 (.error e) s2 →
    Word H a w end_ env b x t i s (.error e) (St.release s s2)

/-- The arguments of a call of `d` whose name is followed by `v` in the word at place `i` are evaluated into the list
`args`, in the scope of the caller.  What is left of the word, and the place reached. -/
inductive Spec.Args (H : Host) (a : List Code) (w : Str) (end_ : Nat) : Def → List Code × Nat → Env → (args : Nat) →
    (v : Str) → (i : Nat) → St → Except Err (Str × Nat) → St → Prop where
  /-- a definition without arguments takes nothing -/
  | none {d y env args v i s} : d.argc = 0 → Args H a w end_ d y env args v i s (.ok (v, i)) s
  /-- the rest of the word and what follows up to the end of the sentence -/
  | rest {d y env args v i s j s1 r s'} : d.argc ≠ 0 → d.names.hasGe = false →
    Word H a w end_ { env with ret := args } true [] v i s (.ok (some j)) s1 →
    Evals H (.z2 a j end_ { env with gd := { env.gd with jvhao := true }, ret := args }) s1 r s' → r.r = .ok () →
    Args H a w end_ d y env args v i s (.ok ([], if r.idx ≥ end_ then r.idx - 1 else r.idx)) s'
  | restFail1 {d y env args v i s e s'} : d.argc ≠ 0 → d.names.hasGe = false →
    Word H a w end_ { env with ret := args } true [] v i s (.error e) s' → Args H a w end_ d y env args v i s (.error e) s'
  | restFail2 {d y env args v i s j s1 r e s'} : d.argc ≠ 0 → d.names.hasGe = false →
    Word H a w end_ { env with ret := args } true [] v i s (.ok (some j)) s1 →
    Evals H (.z2 a j end_ { env with gd := { env.gd with jvhao := true }, ret := args }) s1 r s' → r.r = .error e →
    Args H a w end_ d y env args v i s (.error e) s'
  /-- the arguments between the separators, then what follows up to the end of the sentence -/
  | sep {d a2 j env args v i s r1 s1 r s'} : d.argc ≠ 0 → d.names.hasGe = true →
    Evals H (.z2 a2 0 a2.length { env with ret := args }) s r1 s1 → r1.r = .ok () →
    Evals H (.z2 a j end_ { env with gd := { env.gd with jvhao := true }, ret := args }) s1 r s' → r.r = .ok () →
    Args H a w end_ d (a2, j) env args v i s (.ok ([], if r.idx ≥ end_ then r.idx - 1 else r.idx)) s'
  | sepFail1 {d a2 j env args v i s r1 e s'} : d.argc ≠ 0 → d.names.hasGe = true →
    Evals H (.z2 a2 0 a2.length { env with ret := args }) s r1 s' → r1.r = .error e →
    Args H a w end_ d (a2, j) env args v i s (.error e) s'
  | sepFail2 {d a2 j env args v i s r1 s1 r e s'} : d.argc ≠ 0 → d.names.hasGe = true →
    Evals H (.z2 a2 0 a2.length { env with ret := args }) s r1 s1 → r1.r = .ok () →
    Evals H (.z2 a j end_ { env with gd := { env.gd with jvhao := true }, ret := args }) s1 r s' → r.r = .error e →
    Args H a w end_ d (a2, j) env args v i s (.error e) s'
end

/-! ## The definition found -/

theorem begins_matches {cs : Str} {x : List Str} {pos : Nat} {d : Def} :
    Spec.Matches cs x pos d ↔ Spec.Begins x (cs.drop pos) d := Iff.rfl

theorem drop_split {cs u v : Str} {pos : Nat} (h : cs.drop pos = u ++ v) : v = cs.drop (pos + u.length) := by
  rw [← List.drop_drop, h, List.drop_left]

theorem noCall_iff {s : St} {q : Nat} {cs : Str} {pos : Nat} {x : List Str} :
    findDef s.scopes s.mods cs pos cs.length x q = none ↔ Spec.NoCall s q x (cs.drop pos) := by
  rw [findDef_none_iff s.scopes s.mods q _ rfl cs pos cs.length (Nat.le_refl _) x]
  constructor
  · intro h u v huv hv p hp d hd
    have e := drop_split huv
    subst e
    exact h _ (by omega) (by
      rcases Nat.lt_or_ge (pos + u.length) cs.length with h | h
      · exact h
      · exact absurd (List.drop_eq_nil_of_le h) hv) p hp d hd
  · intro h pos' h1 h2 p hp d hd
    refine h ((cs.drop pos).take (pos' - pos)) (cs.drop pos') ?_ (by simp; omega) p hp d hd
    have : cs.drop pos' = (cs.drop pos).drop (pos' - pos) := by rw [List.drop_drop]; congr 1; omega
    rw [this, List.take_append_drop]

theorem firstCall_of {s : St} {q : Nat} {cs : Str} {pos : Nat} {x : List Str} {idx3 len p k : Nat} {d : Def}
    (h : findDef s.scopes s.mods cs pos cs.length x q = some (idx3, len, p, k)) (hd : (s.scopes p).defs[k]? = some d) :
    pos ≤ idx3 ∧ idx3 + len ≤ cs.length ∧ len = d.name0.length ∧
      Spec.FirstCall s q x (cs.drop pos) ((cs.take idx3).drop pos) p k d (cs.drop (idx3 + len)) := by
  obtain ⟨h1, h2, h3, i, h4, h5, d', h6, h7, h8, h9⟩ :=
    (findDef_some_iff s.scopes s.mods q _ rfl cs pos cs.length (Nat.le_refl _) x idx3 len p k).1 h
  rw [hd] at h6
  cases h6
  have hpre : cs.drop idx3 = d.name0 ++ cs.drop (idx3 + len) := by
    obtain ⟨r, hr⟩ := h7.2
    rw [← hr]
    congr 1
    exact drop_split hr.symm ▸ (by rw [h8])
  have hsplit : cs.drop pos = (cs.take idx3).drop pos ++ cs.drop idx3 := by
    have : cs.drop idx3 = (cs.drop pos).drop (idx3 - pos) := by rw [List.drop_drop]; congr 1; omega
    rw [this, List.drop_take, List.take_append_drop]
  have hlen : idx3 + len ≤ cs.length := by
    have := h7.2.length_le
    simp only [List.length_drop] at this
    omega
  refine ⟨h1, hlen, h8, ?_⟩
  constructor
  · rw [← hpre]; exact hsplit
  · rw [← hpre]; simp; omega
  · intro u1 u2 hu hu2 p' hp' d' hd'
    rw [← hpre]
    have hl : ((cs.take idx3).drop pos).length = idx3 - pos := by simp; omega
    rw [hu, List.length_append] at hl
    have hpos : 0 < u2.length := List.length_pos_iff.2 hu2
    have := h3 (pos + u1.length) (by omega) (by omega) p' hp' d' hd'
    rw [begins_matches, ← drop_split (u := u1) (v := u2 ++ cs.drop idx3) (by rw [hsplit, hu, List.append_assoc])] at this
    exact this
  · refine ⟨i, h4, fun j p' hj hp' d' hd' => ?_⟩
    rw [← hpre]
    exact h5 j p' hj hp' d' hd'
  · exact hd
  · exact h7.1
  · intro k' d' hk hd'
    rw [← hpre]
    exact h9 k' d' hk hd'

theorem of_firstCall {s : St} {q : Nat} {cs u v : Str} {pos : Nat} {x : List Str} {p k : Nat} {d : Def}
    (hpos : pos ≤ cs.length) (h : Spec.FirstCall s q x (cs.drop pos) u p k d v) :
    findDef s.scopes s.mods cs pos cs.length x q = some (pos + u.length, d.name0.length, p, k) ∧
      (cs.take (pos + u.length)).drop pos = u ∧ v = cs.drop (pos + u.length + d.name0.length) ∧
      pos + u.length + d.name0.length = cs.length - v.length := by
  obtain ⟨h1, h2, h3, ⟨i, h4, h5⟩, h6, h7, h8⟩ := h
  have e1 := drop_split h1
  have e2 := drop_split e1.symm
  have hlen : cs.length = pos + u.length + (d.name0.length + v.length) := by
    have := congrArg List.length h1
    simp only [List.length_drop, List.length_append] at this
    omega
  refine ⟨?_, ?_, e2, by omega⟩
  · rw [findDef_some_iff s.scopes s.mods q _ rfl cs pos cs.length (Nat.le_refl _) x]
    refine ⟨by omega, ?_, ?_, i, h4, ?_, d, h6, ?_, rfl, ?_⟩
    · have : 0 < (d.name0 ++ v).length := List.length_pos_iff.2 h2
      simp only [List.length_append] at this
      omega
    · intro pos' hp1 hp2 p' hp' d' hd'
      have := h3 (u.take (pos' - pos)) (u.drop (pos' - pos)) (List.take_append_drop ..).symm (by simp; omega) p' hp' d' hd'
      rw [begins_matches]
      have e : u.drop (pos' - pos) ++ (d.name0 ++ v) = cs.drop pos' := by
        have := drop_split (cs := cs) (pos := pos) (u := u.take (pos' - pos)) (v := u.drop (pos' - pos) ++ (d.name0 ++ v))
          (by rw [← List.append_assoc, List.take_append_drop, h1])
        rw [this]
        congr 1
        simp; omega
      rw [← e]; exact this
    · intro j p' hj hp' d' hd'
      rw [begins_matches, ← e1]; exact h5 j p' hj hp' d' hd'
    · rw [begins_matches, ← e1]; exact ⟨h7, List.prefix_append _ _⟩
    · intro k' d' hk hd'
      rw [begins_matches, ← e1]; exact h8 k' d' hk hd'
  · rw [List.drop_take, h1]
    simp

/-! ## Writing -/

variable {R : Call → St → Res → St → Prop}

theorem ev_addTs {r : Nat} {ts : List Str} {s s' : St} {u : Unit} :
    Ev H R (addTs r ts) s u s' ↔ s' = s.pushs r (ts.map .s) := by
  induction ts generalizing s with
  | nil => exact ev_pure.trans (by simp [St.pushs])
  | cons t ts ih =>
    simp only [addTs, List.map_cons, St.pushs]
    rw [ev_bind]
    simp only [ev_addT, ih]
    constructor
    · rintro ⟨_, _, rfl, h⟩; exact h
    · rintro rfl; exact ⟨(), _, rfl, rfl⟩

theorem pushs_append (r : Nat) (vs ws : List Val) (s : St) : s.pushs r (vs ++ ws) = (s.pushs r vs).pushs r ws := by
  induction vs generalizing s with
  | nil => rfl
  | cons v vs ih => exact ih _

theorem pushs_nums (r : Nat) (vs : List Val) (s : St) :
    (s.pushs r vs).nlist = s.nlist ∧ (s.pushs r vs).nscope = s.nscope ∧ (s.pushs r vs).held = s.held := by
  induction vs generalizing s with
  | nil => exact ⟨rfl, rfl, rfl⟩
  | cons v vs ih => exact ih _

theorem rehold {s t : St} {h : List Held} (ht : t.held = h ++ s.held) : ({ t with held := s.held } : St).hold h = t := by
  simp only [St.hold]
  rw [← ht]

/-! ## A text without names of definitions -/

theorem z4_noCall {a : List Code} {cs : Str} {end_ : Nat} {env : Env} {st : Z4} {s s' : St} {r : Res}
    (hc : Spec.NoCall s env.q st.paichu (cs.drop st.idx2)) (hpos : st.idx2 ≤ cs.length) :
    Evals H (.z4 a cs cs.length end_ env st) s r s' ↔
      if st.has then r = { idx := st.idx + 1, idx2 := cs.length, has := true } ∧
          s' = if st.buf ++ cs.drop st.idx2 = [] then s else s.push env.ret (.s (st.buf ++ cs.drop st.idx2))
      else r = { idx := st.idx, idx2 := cs.length } ∧ s' = s := by
  generalize hn : cs.length - st.idx2 = n
  induction n generalizing st with
  | zero =>
    have e : st.idx2 = cs.length := by omega
    rw [evals_iff]
    change Ev H _ (z4P a cs cs.length end_ env st) s r s' ↔ _
    rw [z4P, if_neg (by omega), e, List.drop_length, List.append_nil]
    cases hh : st.has with
    | false =>
      simp only [Bool.false_eq_true, if_false]
      exact ev_pure
    | true =>
      simp only [if_true]
      cases hb : st.buf with
      | nil =>
        simp only [List.isEmpty_nil, Bool.not_true, Bool.false_eq_true, if_false, if_true]
        exact ev_pure
      | cons c l =>
        simp only [List.isEmpty_cons, Bool.not_false, if_true, reduceCtorEq, if_false]
        rw [ev_bind]
        simp only [ev_addT]
        constructor
        · rintro ⟨_, _, rfl, h⟩; exact ev_pure.1 h
        · intro h; exact ⟨(), _, rfl, ev_pure.2 h⟩
  | succ n ih =>
    have hlt : st.idx2 < cs.length := by omega
    obtain ⟨c, hcs⟩ : ∃ c, cs[st.idx2]? = some c := ⟨_, List.getElem?_eq_getElem hlt⟩
    have hdrop : cs.drop st.idx2 = c :: cs.drop (st.idx2 + 1) := by
      rw [List.drop_eq_getElem_cons hlt]
      rw [List.getElem?_eq_getElem hlt] at hcs
      simp only [Option.some.injEq] at hcs
      rw [hcs]
    have hc' : Spec.NoCall s env.q st.paichu (cs.drop (st.idx2 + 1)) := by
      intro u v huv hv
      exact hc (c :: u) v (by rw [hdrop, huv]; rfl) hv
    have ih := ih (st := { st with idx2 := st.idx2 + 1, buf := if st.has then st.buf ++ [c] else st.buf }) hc'
      (by change st.idx2 + 1 ≤ _; omega) (by change cs.length - (st.idx2 + 1) = n; omega)
    rw [evals_iff]
    change Ev H _ (z4P a cs cs.length end_ env st) s r s' ↔ _
    rw [z4P, if_pos hlt, ev_bind]
    have step : (∃ t s1, Ev H (Evals H) getSt s t s1 ∧ Ev H (Evals H) (match findDef t.scopes t.mods cs st.idx2 cs.length st.paichu env.q with
        | none => match cs[st.idx2]? with
          | none => .panic
          | some c => callP [] (.z4 a cs cs.length end_ env
              { st with idx2 := st.idx2 + 1, buf := if st.has then st.buf ++ [c] else st.buf })
        | some (idx3, len, p, k) => match (t.scopes p).defs[k]? with
          | none => .panic
          | some d => do
            match ← ofOut (sparg d a cs cs.length end_ st.idx (idx3 + len)) with
            | none => callP [] (.z4 a cs cs.length end_ env { st with paichu := st.paichu ++ [d.name] })
            | some (a2, end2a) =>
              addTs env.ret (((cs.take idx3).drop st.idx2).map fun c => [c])
              match d.val with
              | .si t =>
                addT env.ret t
                callP [] (.z4 a cs cs.length end_ env ⟨idx3 + len, true, st.idx, [], st.buf⟩)
              | .s src => z4Call a cs cs.length end_ env st (idx3 + len) p k d src a2 end2a) s1 r s') ↔
        Evals H (.z4 a cs cs.length end_ env
              { st with idx2 := st.idx2 + 1, buf := if st.has then st.buf ++ [c] else st.buf }) s r s' := by
      constructor
      · rintro ⟨t, s1, h1, h2⟩
        obtain ⟨rfl, rfl⟩ := ev_getSt.1 h1
        rw [noCall_iff.2 hc, hcs] at h2
        exact ev_callP.1 h2
      · intro h
        refine ⟨s, s, ev_getSt.2 ⟨rfl, rfl⟩, ?_⟩
        rw [noCall_iff.2 hc, hcs]
        exact ev_callP.2 h
    refine Iff.trans step ?_
    rw [ih, hdrop]
    cases hh : st.has with
    | false => simp
    | true => simp

/-! ## From the evaluation to the reading -/

/-- The outcome of the loop over a word. -/
def Res.word (r : Res) : Except Err (Option Nat) :=
  match r.r with
  | .error e => .error e
  | .ok () => .ok (if r.has then some r.idx else none)

theorem run_newScope {d : Def} {q : Nat} {s : St} :
    (Op.newScope d.name (some d.names) q).run H s = (.ok s.nscope, Spec.opened s d q) := rfl

theorem parse_hold {src : Str} {s s1 : St} {x : Except Err (List Code)} {h : List Held} :
    (Op.parse src).run H s = (.ok x, s1) ↔ (Op.parse src).run H (s.hold h) = (.ok x, s1.hold h) ∧ s1.held = s.held := by
  simp only [Op.run, St.hold]
  cases codesCache H.hash parse s.cache src with
  | ok y =>
    obtain ⟨r, c⟩ := y
    simp only [Prod.mk.injEq, Out.ok.injEq]
    constructor
    · rintro ⟨rfl, rfl⟩; exact ⟨⟨rfl, rfl⟩, rfl⟩
    · rintro ⟨⟨rfl, h1⟩, h2⟩
      refine ⟨rfl, ?_⟩
      cases s1
      simp only [St.mk.injEq] at h1 h2 ⊢
      simp_all
  | panic => simp
  | fuel => simp

theorem evE_seq {α β : Type} {p : Prog α} {f : α → E β} {s s' : St} {r : Except Err β} :
    EvE H R ((liftM p : E α) >>= f) s r s' ↔ ∃ a s1, Ev H R p s a s1 ∧ EvE H R (f a) s1 r s' := by
  rw [evE_bind]
  constructor
  · rintro (⟨a, s1, h, h'⟩ | ⟨e, h, -⟩)
    · obtain ⟨_, e, h⟩ := evE_lift.1 h
      cases e
      exact ⟨a, s1, h, h'⟩
    · obtain ⟨_, e, -⟩ := evE_lift.1 h
      cases e
  · rintro ⟨a, s1, h, h'⟩
    exact .inl ⟨a, s1, evE_lift.2 ⟨a, rfl, h⟩, h'⟩

/-- The body of a definition: the model does what `Spec.RunsBody` says. -/
theorem z4Body_runs [Sub H R] {h : Held} {d : Def} {src : Str} {env : Env} {p q2 args : Nat} {s s' : St} {x : Except Err Unit}
    (hx : EvE H R (z4Body h d src env p q2 args) s x s') :
    ∃ s2, Spec.RunsBody H d src env p q2 args (s.hold [h]) x s2 ∧ s' = St.release s s2 := by
  unfold z4Body at hx
  rcases evE_bind.1 hx with ⟨codes, s1, h1, h2⟩ | ⟨e, h1, rfl⟩
  · have h1 := ev_doOp.1 h1
    obtain ⟨hp, hheld⟩ := (parse_hold (h := [h])).1 h1
    have body : ∀ {t t' : St}, t.held = s.held → EvE H R (do
        let r ← callP [h] (.codes codes 0 usizeMax ⟨{ env.gd with jvhao := false }, q2, env.ret, some p⟩)
        returnP q2 r.r : E Unit) t x t' →
        ∃ r s2, Evals H (.codes codes 0 usizeMax ⟨{ env.gd with jvhao := false }, q2, env.ret, some p⟩) (t.hold [h]) r s2 ∧
          x = jumpReturn (s2.scopes q2).i r.r ∧ t' = St.release s s2 := by
      intro t t' ht hb
      rcases evE_bind.1 hb with ⟨r, t1, h3, h4⟩ | ⟨e, h3, rfl⟩
      · obtain ⟨r', hr, h3⟩ := evE_lift.1 h3
        cases hr
        obtain ⟨r', s2, h3', h5⟩ := ev_call.1 h3
        obtain ⟨rfl, rfl⟩ := ev_ret.1 h5
        refine ⟨_, s2, Sub.evals h3', ?_⟩
        unfold returnP at h4
        rcases evE_bind.1 h4 with ⟨t2, t3, h6, h7⟩ | ⟨e, h6, -⟩
        · obtain ⟨t2', hr, h6⟩ := evE_lift.1 h6
          cases hr
          obtain ⟨rfl, rfl⟩ := ev_getSt.1 h6
          obtain ⟨rfl, rfl⟩ := evE_mk.1 h7
          exact ⟨rfl, by rw [St.release, ht]⟩
        · obtain ⟨_, hr, -⟩ := evE_lift.1 h6
          cases hr
      · obtain ⟨_, hr, -⟩ := evE_lift.1 h3
        cases hr
    by_cases hb : d.backarg > 0
    · rw [if_pos hb] at h2
      obtain ⟨sep, t1, h3, h4⟩ := evE_seq.1 h2
      have h3 := ev_doOp.1 h3
      simp only [Op.run, Prod.mk.injEq, Out.ok.injEq] at h3
      obtain ⟨rfl, rfl⟩ := h3
      obtain ⟨t2, t3, h5, h6⟩ := evE_seq.1 h4
      obtain ⟨rfl, rfl⟩ := ev_getSt.1 h5
      obtain ⟨o, t4, h7, h8⟩ := evE_seq.1 h6
      obtain ⟨h7', rfl⟩ := ev_ofOut.1 h7
      cases o with
      | none =>
        rcases evE_bind.1 h8 with ⟨_, _, h9, -⟩ | ⟨e, h9, rfl⟩
        · exact nomatch (evE_fail.1 h9).1
        · obtain ⟨he, rfl⟩ := evE_fail.1 h9
          cases he
          refine ⟨_, .missing hp (by omega) h7', ?_⟩
          simp only [St.release, St.hold, ← hheld]
      | some y =>
        obtain ⟨l, largs⟩ := y
        obtain ⟨_, t5, h9, h10⟩ := evE_seq.1 h8
        obtain ⟨_, t6, h11, h12⟩ := evE_seq.1 h10
        have h9 := ev_doOp.1 h9
        have h11 := ev_doOp.1 h11
        simp only [Op.run, Prod.mk.injEq, true_and] at h9 h11
        subst h9 h11
        obtain ⟨r, s2, h3, rfl, rfl⟩ := body (by exact hheld) h12
        exact ⟨s2, .left hp (by omega) h7' h3, rfl⟩
    · rw [if_neg hb] at h2
      obtain ⟨r, s2, h3, rfl, rfl⟩ := body hheld h2
      exact ⟨s2, .plain hp (by omega) h3, rfl⟩
  · have h1 := ev_doOp.1 h1
    obtain ⟨hp, hheld⟩ := (parse_hold (h := [h])).1 h1
    refine ⟨_, .syntaxError hp, ?_⟩
    exact (St.held_eta (by rw [hheld]) : _).symm

theorem release_hold {s t : St} {h : List Held} (ht : t.held = s.held) : St.release s (t.hold h) = t := by
  simp only [St.release, St.hold, ← ht]

theorem runs_z4Body {h : Held} {d : Def} {src : Str} {env : Env} {p q2 args : Nat} {s s2 : St} {x : Except Err Unit}
    (hx : Spec.RunsBody H d src env p q2 args (s.hold [h]) x s2) :
    EvE H (Evals H) (z4Body h d src env p q2 args) s x (St.release s s2) := by
  have parse : ∀ {y s1}, (Op.parse src).run H (s.hold [h]) = (.ok y, s1) →
      EvE H (Evals H) (parseE src) s y (St.release s s1) ∧ s1 = (St.release s s1).hold [h] := by
    intro y s1 hp
    have hs1 : s1.held = h :: s.held := by
      have := op_held (H := H) (.parse src) (s.hold [h])
      rw [hp] at this
      exact this
    have e : s1 = (St.release s s1).hold [h] := (rehold (s := s) (t := s1) (h := [h]) hs1).symm
    refine ⟨ev_doOp.2 ?_, e⟩
    rw [parse_hold (h := [h])]
    exact ⟨by rw [← e]; exact hp, rfl⟩
  have body : ∀ {codes : List Code} {t : St} {r : Res} {s2 : St}, t.held = s.held →
      Evals H (.codes codes 0 usizeMax ⟨{ env.gd with jvhao := false }, q2, env.ret, some p⟩) (t.hold [h]) r s2 →
      EvE H (Evals H) (do
        let r ← callP [h] (.codes codes 0 usizeMax ⟨{ env.gd with jvhao := false }, q2, env.ret, some p⟩)
        returnP q2 r.r : E Unit) t (jumpReturn (s2.scopes q2).i r.r) (St.release s s2) := by
    intro codes t r s2 ht hr
    refine evE_seq.2 ⟨r, { s2 with held := t.held }, ev_call.2 ⟨r, s2, hr, ev_ret.2 ⟨rfl, rfl⟩⟩, ?_⟩
    unfold returnP
    refine evE_seq.2 ⟨_, _, ev_getSt.2 ⟨rfl, rfl⟩, evE_mk.2 ⟨rfl, ?_⟩⟩
    rw [St.release, ht]
  unfold z4Body
  cases hx with
  | syntaxError hp => exact evE_bind.2 (.inr ⟨_, (parse hp).1, rfl⟩)
  | plain hp hb hr =>
    refine evE_bind.2 (.inl ⟨_, _, (parse hp).1, ?_⟩)
    rw [if_neg (by omega)]
    rw [(parse hp).2] at hr
    exact body rfl hr
  | missing hp hb ho =>
    refine evE_bind.2 (.inl ⟨_, _, (parse hp).1, ?_⟩)
    rw [if_pos (by omega)]
    refine evE_seq.2 ⟨_, _, ev_doOp.2 rfl, evE_seq.2 ⟨_, _, ev_getSt.2 ⟨rfl, rfl⟩, evE_seq.2 ⟨_, _, ev_ofOut.2 ⟨ho, rfl⟩, ?_⟩⟩⟩
    exact evE_bind.2 (.inr ⟨_, evE_fail.2 ⟨rfl, rfl⟩, rfl⟩)
  | left hp hb ho hr =>
    refine evE_bind.2 (.inl ⟨_, _, (parse hp).1, ?_⟩)
    rw [if_pos (by omega)]
    refine evE_seq.2 ⟨_, _, ev_doOp.2 rfl, evE_seq.2 ⟨_, _, ev_getSt.2 ⟨rfl, rfl⟩, evE_seq.2 ⟨_, _, ev_ofOut.2 ⟨ho, rfl⟩, ?_⟩⟩⟩
    refine evE_seq.2 ⟨_, _, ev_doOp.2 rfl, evE_seq.2 ⟨_, _, ev_doOp.2 rfl, body rfl ?_⟩⟩
    have hs := (parse hp).2
    refine cast ?_ hr
    congr 1
    rw [hs]
    rfl

/-- What the induction shows about the loop over a word. -/
def z4Goal (H : Host) : Call → St → Res → St → Prop
  | .z4 a cs end2 end_ env st, s, r, s' => end2 = cs.length → st.idx2 ≤ cs.length → st.buf = [] →
    Spec.Word H a cs end_ env st.has st.paichu (cs.drop st.idx2) st.idx s r.word s' ∧
      (r.r = .ok () → r.idx2 = cs.length ∧ (st.has = true → r.has = true))
  | _, _, _, _ => True

/-- The place after the name of a definition with separators is behind the word. -/
theorem sparg_place {d : Def} {a : List Code} {cs : Str} {end2 end_ idx idx2m : Nat} {a2 : List Code} {j : Nat}
    (h : sparg d a cs end2 end_ idx idx2m = .ok (some (a2, j))) : (d.names.hasGe = true → j ≠ 0) ∧ (d.names.hasGe = false → j = 0) := by
  have key : ∀ {names : List ArgName} {rest : List Code} {n i : Nat} {a2 : List Code} {y : Nat × Nat × List Code},
      sparg2 names end2 rest n i a2 = .ok (some y) → n ≤ y.1 := by
    intro names rest
    induction rest with
    | nil => intro n i a2 y h; simp only [sparg2, Out.ok.injEq, Option.some.injEq] at h; subst h; exact Nat.le_refl _
    | cons c rest ih =>
      intro n i a2 y h
      simp only [sparg2] at h
      split at h
      · split at h
        · split at h
          · split at h
            · exact Nat.le_of_succ_le (ih h)
            · simp at h
            · simp at h
          · exact Nat.le_of_succ_le (ih h)
        · simp at h
        · simp at h
      · split at h
        · split at h
          · simp at h
          · exact Nat.le_of_succ_le (ih h)
        · simp only [Out.ok.injEq, Option.some.injEq] at h; subst h; exact Nat.le_refl _
      · simp only [Out.ok.injEq, Option.some.injEq] at h; subst h; exact Nat.le_refl _
      · exact Nat.le_of_succ_le (ih h)
  unfold sparg at h
  split at h
  · rename_i hg
    refine ⟨fun _ => ?_, fun h' => absurd hg (by simp [h'])⟩
    dsimp only at h
    split at h
    · split at h
      · rename_i h2
        split at h
        · simp at h
        · have := key h2
          simp only [Out.ok.injEq, Option.some.injEq, Prod.mk.injEq] at h
          obtain ⟨_, rfl⟩ := h
          simp only at this
          omega
      · simp at h
      · simp at h
      · simp at h
    · simp at h
    · simp at h
  · rename_i hg
    refine ⟨fun h' => absurd h' hg, fun _ => ?_⟩
    simp only [Out.ok.injEq, Option.some.injEq, Prod.mk.injEq] at h
    exact h.2.symm

/-- The arguments of a call. -/
theorem z4Args_spec {h : Held} {d : Def} {a : List Code} {cs : Str} {end_ : Nat} {env : Env} {idx2 idx : Nat} {a2 : List Code}
    {j args : Nat} {s s' : St} {r : Res} (hidx : idx2 ≤ cs.length)
    (hs : (d.names.hasGe = true → j ≠ 0) ∧ (d.names.hasGe = false → j = 0))
    (hx : Ev H (fun c s r s' => Evals H c s r s' ∧ z4Goal H c s r s')
      (z4Args h d a cs cs.length end_ env idx2 idx a2 j args) s r s') :
    ∃ o s1, Spec.Args H a cs end_ d (a2, j) env args (cs.drop idx2) idx (s.hold [h]) o s1 ∧ s' = St.release s s1 ∧
      s1.held = h :: s.held ∧ ((∃ e, o = .error e ∧ r.r = .error e) ∨
        ∃ v, o = .ok (v, r.idx) ∧ r.r = .ok () ∧ r.idx2 ≤ cs.length ∧ v = cs.drop r.idx2) := by
  unfold z4Args at hx
  split at hx
  · rename_i h0
    obtain ⟨rfl, rfl⟩ := ev_pure.1 hx
    exact ⟨_, _, .none h0, (release_hold rfl).symm, rfl, .inr ⟨_, rfl, rfl, hidx, rfl⟩⟩
  · rename_i h0
    obtain ⟨r1, t1, h1, h2⟩ := ev_bind.1 hx
    -- what follows, up to the end of the sentence
    have tail : ∀ {u : St} {n n2 : Nat}, u.held = h :: s.held → Ev H (fun c s r s' => Evals H c s r s' ∧ z4Goal H c s r s') (do
        let r' ← callP [h] (.z2 a n end_ { env with gd := { env.gd with jvhao := true }, ret := args })
        match r'.r with
        | .error e => return { idx := r'.idx, idx2 := n2, r := .error e }
        | .ok () => return { idx := if r'.idx ≥ end_ then r'.idx - 1 else r'.idx, idx2 := n2 } : Prog Res) (St.release s u) r s' →
        ∃ r' u', Evals H (.z2 a n end_ { env with gd := { env.gd with jvhao := true }, ret := args }) u r' u' ∧
          s' = St.release s u' ∧ u'.held = h :: s.held ∧ ((∃ e, r'.r = .error e ∧ r.r = .error e) ∨
            (r'.r = .ok () ∧ r = { idx := if r'.idx ≥ end_ then r'.idx - 1 else r'.idx, idx2 := n2 })) := by
      intro u n n2 hu hb
      obtain ⟨r', u1, h3, h4⟩ := ev_bind.1 hb
      obtain ⟨r'', u', h5, h6⟩ := ev_call.1 h3
      obtain ⟨rfl, rfl⟩ := ev_ret.1 h6
      have e : (St.release s u).hold [h] = u := rehold hu
      rw [e] at h5
      have hu' : u'.held = h :: s.held := h5.1.held.trans hu
      refine ⟨_, u', h5.1, ?_⟩
      cases hr : r'.r with
      | error e =>
        rw [hr] at h4
        obtain ⟨rfl, rfl⟩ := ev_pure.1 h4
        exact ⟨rfl, hu', .inl ⟨e, rfl, rfl⟩⟩
      | ok _ =>
        rw [hr] at h4
        obtain ⟨rfl, rfl⟩ := ev_pure.1 h4
        exact ⟨rfl, hu', .inr ⟨rfl, rfl⟩⟩
    split at h1
    · rename_i hj
      have hge : d.names.hasGe = false := by
        cases hg : d.names.hasGe with
        | false => rfl
        | true => exact absurd hj (hs.1 hg)
      obtain ⟨r2, u, h3, h4⟩ := ev_call.1 h1
      obtain ⟨rfl, rfl⟩ := ev_ret.1 h4
      have hu : u.held = h :: s.held := h3.1.held
      obtain ⟨hw, hok⟩ := h3.2 rfl hidx rfl
      cases hr : r1.r with
      | error e =>
        rw [hr] at h2
        obtain ⟨rfl, rfl⟩ := ev_pure.1 h2
        rw [Res.word, hr] at hw
        exact ⟨_, u, .restFail1 h0 hge hw, rfl, hu, .inl ⟨e, rfl, rfl⟩⟩
      | ok _ =>
        rw [hr] at h2
        obtain ⟨he, hh⟩ := hok hr
        rw [Res.word, hr, hh rfl] at hw
        obtain ⟨r', u', h5, rfl, hu', ⟨e, h6, h7⟩ | ⟨h6, rfl⟩⟩ := tail hu h2
        · exact ⟨_, u', .restFail2 h0 hge hw h5 h6, rfl, hu', .inl ⟨e, rfl, h7⟩⟩
        · exact ⟨_, u', .rest h0 hge hw h5 h6, rfl, hu', .inr ⟨_, rfl, rfl, by simp [he], by simp [he]⟩⟩
    · rename_i hj
      have hge : d.names.hasGe = true := by
        cases hg : d.names.hasGe with
        | true => rfl
        | false => exact absurd (hs.2 hg) hj
      obtain ⟨r2, t2, h3, h4⟩ := ev_bind.1 h1
      obtain ⟨r3, u, h5, h6⟩ := ev_call.1 h3
      obtain ⟨rfl, rfl⟩ := ev_ret.1 h6
      have hu : u.held = h :: s.held := h5.1.held
      cases hr : r2.r with
      | error e =>
        rw [hr] at h4
        obtain ⟨rfl, rfl⟩ := ev_pure.1 h4
        obtain ⟨rfl, rfl⟩ := ev_pure.1 h2
        exact ⟨_, u, .sepFail1 h0 hge h5.1 hr, rfl, hu, .inl ⟨e, rfl, rfl⟩⟩
      | ok _ =>
        rw [hr] at h4
        obtain ⟨rfl, rfl⟩ := ev_pure.1 h4
        obtain ⟨r', u', h7, rfl, hu', ⟨e, h8, h9⟩ | ⟨h8, rfl⟩⟩ := tail hu h2
        · exact ⟨_, u', .sepFail2 h0 hge h5.1 hr h7 h8, rfl, hu', .inl ⟨e, rfl, h9⟩⟩
        · exact ⟨_, u', .sep h0 hge h5.1 hr h7 h8, rfl, hu', .inr ⟨_, rfl, rfl, by simp, by simp⟩⟩

theorem Ev.sub {α : Type} {R R' : Call → St → Res → St → Prop} (hR : ∀ {c s r s'}, R c s r s' → R' c s r s')
    {p : Prog α} {s : St} {x : α} {s' : St} (h : Ev H R p s x s') : Ev H R' p s x s' := by
  induction p generalizing s with
  | ret b => exact h
  | panic => exact h
  | op o k ih => obtain ⟨b, s1, h1, h2⟩ := h; exact ⟨b, s1, h1, ih b h2⟩
  | call hd c k ih => obtain ⟨b, s1, h1, h2⟩ := h; exact ⟨b, s1, hR h1, ih b h2⟩

theorem z4_word {a : List Code} {cs : Str} {end2 end_ : Nat} {env : Env} {st : Z4} {s s' : St} {r : Res}
    (h : Evals H (.z4 a cs end2 end_ env st) s r s') : z4Goal H (.z4 a cs end2 end_ env st) s r s' := by
  refine Evals.ind (P := z4Goal H) ?_ h
  clear h
  intro c s r s' h
  cases c with
  | z4 a cs end2 end_ env st =>
    intro hend hidx hbuf
    subst hend
    have plain : Spec.NoCall s env.q st.paichu (cs.drop st.idx2) →
        Spec.Word H a cs end_ env st.has st.paichu (cs.drop st.idx2) st.idx s r.word s' ∧
          (r.r = .ok () → r.idx2 = cs.length ∧ (st.has = true → r.has = true)) := by
      intro hn
      have := (z4_noCall hn hidx).1 (evals_iff.2 (h.sub fun h => h.1))
      rw [hbuf, List.nil_append] at this
      cases hh : st.has with
      | true =>
        rw [hh, if_pos rfl] at this
        obtain ⟨rfl, rfl⟩ := this
        exact ⟨.last hn, fun _ => ⟨rfl, fun _ => rfl⟩⟩
      | false =>
        rw [hh, if_neg (by simp)] at this
        obtain ⟨rfl, rfl⟩ := this
        exact ⟨.none hn, fun _ => ⟨rfl, fun h => by simp at h⟩⟩
    change Ev H _ (z4P a cs cs.length end_ env st) s r s' at h
    by_cases hlt : st.idx2 < cs.length
    · rw [z4P, if_pos hlt] at h
      obtain ⟨t, s1, h1, h2⟩ := ev_bind.1 h
      obtain ⟨e1, e2⟩ := ev_getSt.1 h1
      rw [e1, e2] at h2
      clear h1 e1 e2 t s1
      cases hf : findDef s.scopes s.mods cs st.idx2 cs.length st.paichu env.q with
      | none => exact plain (noCall_iff.1 hf)
      | some y =>
        obtain ⟨idx3, len, p, k⟩ := y
        rw [hf] at h2
        dsimp only at h2
        cases hd : (s.scopes p).defs[k]? with
        | none => rw [hd] at h2; exact absurd h2 ev_panic
        | some d =>
          rw [hd] at h2
          dsimp only at h2
          obtain ⟨g1, g2, g3, g4⟩ := firstCall_of hf hd
          have hpl : idx3 + len = cs.length - (cs.drop (idx3 + len)).length := by simp; omega
          obtain ⟨o, t1, h3, h4⟩ := ev_bind.1 h2
          obtain ⟨h3', e1⟩ := ev_ofOut.1 h3
          rw [e1] at h4
          clear h3 e1 t1
          cases o with
          | none =>
            obtain ⟨h5, h6⟩ := (ev_callP.1 h4).2 rfl hidx hbuf
            exact ⟨.skip g4 (by rw [← hpl]; exact h3') h5, h6⟩
          | some y =>
            obtain ⟨a2, j⟩ := y
            dsimp only at h4
            obtain ⟨_, t2, h5, h6⟩ := ev_bind.1 h4
            have h5 := ev_addTs.1 h5
            rw [List.map_map] at h5
            cases hv : d.val with
            | si c =>
              rw [hv] at h6
              dsimp only at h6
              obtain ⟨_, t3, h7, h8⟩ := ev_bind.1 h6
              have h7 := ev_addT.1 h7
              subst h7 h5
              obtain ⟨h9, h10⟩ := (ev_callP.1 h8).2 rfl g2 hbuf
              refine ⟨.const g4 (by rw [← hpl]; exact h3') hv ?_, fun hr => ⟨(h10 hr).1, fun _ => (h10 hr).2 rfl⟩⟩
              rw [pushs_append]
              exact h9
            | s src =>
              rw [hv] at h6
              dsimp only at h6
              unfold z4Call at h6
              obtain ⟨q2, t3, h7, h8⟩ := ev_bind.1 h6
              have h7 := ev_doOp.1 h7
              rw [run_newScope] at h7
              simp only [Prod.mk.injEq, Out.ok.injEq] at h7
              obtain ⟨rfl, rfl⟩ := h7
              obtain ⟨_, _, h9, h10⟩ := ev_bind.1 h8
              obtain ⟨rfl, rfl⟩ := ev_getSt.1 h9
              obtain ⟨n1, n2, n3⟩ := pushs_nums env.ret ((List.drop st.idx2 (List.take idx3 cs)).map (fun c => Val.s [c])) s
              have n4 : ((Spec.opened t2 d env.q).scopes t2.nscope).args = t2.nlist := by simp [Spec.opened, upd, Scope.new]
              have e5 : t2 = s.pushs env.ret ((List.drop st.idx2 (List.take idx3 cs)).map (fun c => Val.s [c])) := h5
              rw [← e5] at n1 n2 n3
              rw [n4, n1] at h10
              obtain ⟨r1, t4, h11, h12⟩ := ev_bind.1 h10
              obtain ⟨o, u, hargs, rfl, hu, ho⟩ := z4Args_spec (s := Spec.opened t2 d env.q) g2 (sparg_place h3') h11
              have hrel : ∀ x, St.release (Spec.opened t2 d env.q) x = St.release s x := by
                intro x; simp only [St.release, Spec.opened, n3]
              rw [e5] at hargs
              rcases ho with ⟨e, rfl, hr⟩ | ⟨v, rfl, hr, hle, rfl⟩
              · rw [hr] at h12
                obtain ⟨rfl, rfl⟩ := ev_pure.1 h12
                rw [hrel]
                exact ⟨.argsFail g4 (by rw [← hpl]; exact h3') hv hargs, fun hr => by simp at hr⟩
              · rw [hr] at h12
                dsimp only at h12
                obtain ⟨x, t5, h13, h14⟩ := ev_bind.1 h12
                obtain ⟨u2, hbody, rfl⟩ := z4Body_runs h13
                have e6 : (St.release (Spec.opened t2 d env.q) u).hold [.def_ p k] = u := rehold hu
                rw [e6] at hbody
                have hrel2 : St.release (St.release (Spec.opened t2 d env.q) u) u2 = St.release s u2 := hrel u2
                rw [hrel2] at h14
                rw [n2] at hbody
                cases x with
                | error e =>
                  obtain ⟨rfl, rfl⟩ := ev_pure.1 h14
                  exact ⟨.bodyFail g4 (by rw [← hpl]; exact h3') hv hargs hbody, fun hr => by simp at hr⟩
                | ok _ =>
                  obtain ⟨h15, h16⟩ := (ev_callP.1 h14).2 rfl hle hbuf
                  exact ⟨.call g4 (by rw [← hpl]; exact h3') hv hargs hbody h15,
                    fun hr => ⟨(h16 hr).1, fun _ => (h16 hr).2 rfl⟩⟩
    · refine plain fun u v huv hv => ?_
      rw [List.drop_eq_nil_of_le (by omega)] at huv
      exact absurd (List.append_eq_nil_iff.1 huv.symm).2 hv
  | _ => trivial

/-! ## From the reading to the evaluation -/

/-- One turn of the loop, when a definition is found. -/
theorem z4_found {a : List Code} {cs u v : Str} {end_ : Nat} {env : Env} {st : Z4} {s s' : St} {r : Res} {p k : Nat} {d : Def}
    (hidx : st.idx2 ≤ cs.length) (hf : Spec.FirstCall s env.q st.paichu (cs.drop st.idx2) u p k d v)
    {o : Option (List Code × Nat)} (hs : sparg d a cs cs.length end_ st.idx (cs.length - v.length) = .ok o)
    (h : Ev H (Evals H) (match o with
        | none => callP [] (.z4 a cs cs.length end_ env { st with paichu := st.paichu ++ [d.name] })
        | some (a2, end2a) => do
          addTs env.ret (u.map fun c => [c])
          match d.val with
          | .si t =>
            addT env.ret t
            callP [] (.z4 a cs cs.length end_ env ⟨cs.length - v.length, true, st.idx, [], st.buf⟩)
          | .s src => z4Call a cs cs.length end_ env st (cs.length - v.length) p k d src a2 end2a : Prog Res) s r s') :
    Evals H (.z4 a cs cs.length end_ env st) s r s' := by
  obtain ⟨h1, h2, h3, h4⟩ := of_firstCall hidx hf
  have hlt : st.idx2 < cs.length := by
    rcases Nat.lt_or_ge st.idx2 cs.length with h | h
    · exact h
    · have := hf.text
      rw [List.drop_eq_nil_of_le h] at this
      exact absurd (List.append_eq_nil_iff.1 this.symm).2 hf.inside
  rw [evals_iff]
  change Ev H _ (z4P a cs cs.length end_ env st) s r s'
  rw [z4P, if_pos hlt]
  refine ev_bind.2 ⟨s, s, ev_getSt.2 ⟨rfl, rfl⟩, ?_⟩
  rw [h1]
  dsimp only
  rw [hf.def_]
  dsimp only
  rw [h4, hs]
  refine ev_bind.2 ⟨o, s, ev_ofOut.2 ⟨rfl, rfl⟩, ?_⟩
  cases o with
  | none => exact h
  | some y =>
    obtain ⟨a2, j⟩ := y
    dsimp only at h ⊢
    rw [h2]
    exact h

/-- A call of a definition. -/
theorem z4_calls {a : List Code} {cs u v : Str} {end_ : Nat} {env : Env} {st : Z4} {s s' : St} {r : Res} {p k : Nat} {d : Def}
    (hidx : st.idx2 ≤ cs.length) (hf : Spec.FirstCall s env.q st.paichu (cs.drop st.idx2) u p k d v)
    {a2 : List Code} {j : Nat} (hs : sparg d a cs cs.length end_ st.idx (cs.length - v.length) = .ok (some (a2, j)))
    {src : Str} (hv : d.val = .s src) {r1 : Res} {s1 : St}
    (h1 : Ev H (Evals H) (z4Args (.def_ p k) d a cs cs.length end_ env (cs.length - v.length) st.idx a2 j s.nlist)
      (Spec.opened (s.pushs env.ret (u.map fun c => Val.s [c])) d env.q) r1 s1)
    (h2 : match r1.r with
      | .error e => r = { idx := r1.idx, idx2 := r1.idx2, has := true, r := .error e } ∧ s' = s1
      | .ok () => ∃ x s2, EvE H (Evals H) (z4Body (.def_ p k) d src env p s.nscope s.nlist) s1 x s2 ∧
        match x with
        | .error e => r = { idx := r1.idx, idx2 := r1.idx2, has := true, r := .error e } ∧ s' = s2
        | .ok () => Evals H (.z4 a cs cs.length end_ env ⟨r1.idx2, true, r1.idx, [], st.buf⟩) s2 r s') :
    Evals H (.z4 a cs cs.length end_ env st) s r s' := by
  refine z4_found hidx hf hs ?_
  dsimp only
  refine ev_bind.2 ⟨(), _, ev_addTs.2 rfl, ?_⟩
  rw [hv]
  dsimp only
  unfold z4Call
  obtain ⟨n1, n2, n3⟩ := pushs_nums env.ret (u.map (fun c => Val.s [c])) s
  rw [List.map_map, show (Val.s ∘ fun c : Char => [c]) = fun c => Val.s [c] from rfl]
  refine ev_bind.2 ⟨_, _, ev_doOp.2 run_newScope, ev_bind.2 ⟨_, _, ev_getSt.2 ⟨rfl, rfl⟩, ?_⟩⟩
  have n4 : ∀ t : St, ((Spec.opened t d env.q).scopes t.nscope).args = t.nlist := by
    intro t; simp [Spec.opened, upd, Scope.new]
  rw [n4, n1, n2]
  refine ev_bind.2 ⟨r1, s1, h1, ?_⟩
  cases hr : r1.r with
  | error e =>
    rw [hr] at h2
    exact ev_pure.2 h2
  | ok _ =>
    rw [hr] at h2
    obtain ⟨x, s2, h3, h4⟩ := h2
    refine ev_bind.2 ⟨x, s2, h3, ?_⟩
    cases x with
    | error e => exact ev_pure.2 h4
    | ok _ => exact ev_callP.2 h4

/-- The arguments: the outcome of the program and that of the specification. -/
def argsOut (w : Str) (r : Res) : Except Err (Str × Nat) → Prop
  | .error e => r.r = .error e
  | .ok (v, j) => r.r = .ok () ∧ r.idx = j ∧ r.idx2 ≤ w.length ∧ v = w.drop r.idx2

theorem release_opened {s t : St} {d : Def} {q r : Nat} {vs : List Val} :
    St.release (Spec.opened (s.pushs r vs) d q) t = St.release s t := by
  have := (pushs_nums r vs s).2.2
  simp only [St.release, Spec.opened, this]

theorem z4Args_rest {h : Held} {d : Def} {a : List Code} {w : Str} {end_ : Nat} {env : Env} {pos i : Nat} {a2 : List Code}
    {args : Nat} {s s1 s' : St} {r1 r : Res} (h0 : d.argc ≠ 0)
    (h1 : Evals H (.z4 a w w.length end_ { env with ret := args } ⟨pos, true, i, [], []⟩) (s.hold [h]) r1 s1)
    (h2 : match r1.r with
      | .error e => r = { idx := r1.idx, idx2 := r1.idx2, r := .error e } ∧ s' = s1
      | .ok () => ∃ r', Evals H (.z2 a r1.idx end_ { env with gd := { env.gd with jvhao := true }, ret := args }) s1 r' s' ∧
        match r'.r with
        | .error e => r = { idx := r'.idx, idx2 := r1.idx2, r := .error e }
        | .ok () => r = { idx := if r'.idx ≥ end_ then r'.idx - 1 else r'.idx, idx2 := r1.idx2 }) :
    Ev H (Evals H) (z4Args h d a w w.length end_ env pos i a2 0 args) s r (St.release s s') := by
  unfold z4Args
  rw [if_neg h0, if_pos rfl]
  refine ev_bind.2 ⟨r1, St.release s s1, ev_call.2 ⟨r1, s1, h1, ev_ret.2 ⟨rfl, rfl⟩⟩, ?_⟩
  cases hr : r1.r with
  | error e =>
    rw [hr] at h2
    obtain ⟨rfl, rfl⟩ := h2
    exact ev_pure.2 ⟨rfl, rfl⟩
  | ok _ =>
    rw [hr] at h2
    obtain ⟨r', h3, h4⟩ := h2
    refine ev_bind.2 ⟨r', St.release s s', ev_call.2 ⟨r', s', ?_, ev_ret.2 ⟨rfl, rfl⟩⟩, ?_⟩
    · have e : (St.release s s1).hold [h] = s1 := rehold h1.held
      rw [e]; exact h3
    · cases hr' : r'.r with
      | error e => rw [hr'] at h4; exact ev_pure.2 ⟨h4, rfl⟩
      | ok _ => rw [hr'] at h4; exact ev_pure.2 ⟨h4, rfl⟩

theorem z4Args_sep {h : Held} {d : Def} {a : List Code} {w : Str} {end_ : Nat} {env : Env} {pos i j : Nat} {a2 : List Code}
    {args : Nat} {s s1 s' : St} {r1 r : Res} (h0 : d.argc ≠ 0) (hj : j ≠ 0)
    (h1 : Evals H (.z2 a2 0 a2.length { env with ret := args }) (s.hold [h]) r1 s1)
    (h2 : match r1.r with
      | .error e => r = { idx := i, idx2 := pos, r := .error e } ∧ s' = s1
      | .ok () => ∃ r', Evals H (.z2 a j end_ { env with gd := { env.gd with jvhao := true }, ret := args }) s1 r' s' ∧
        match r'.r with
        | .error e => r = { idx := r'.idx, idx2 := w.length, r := .error e }
        | .ok () => r = { idx := if r'.idx ≥ end_ then r'.idx - 1 else r'.idx, idx2 := w.length }) :
    Ev H (Evals H) (z4Args h d a w w.length end_ env pos i a2 j args) s r (St.release s s') := by
  unfold z4Args
  rw [if_neg h0, if_neg hj]
  refine ev_bind.2 ⟨(match r1.r with
    | .ok () => { idx := j, idx2 := w.length }
    | .error e => { idx := i, idx2 := pos, r := .error e }), St.release s s1, ev_bind.2 ⟨r1, St.release s s1,
      ev_call.2 ⟨r1, s1, h1, ev_ret.2 ⟨rfl, rfl⟩⟩, ?_⟩, ?_⟩
  · cases hr : r1.r <;> exact ev_pure.2 ⟨rfl, rfl⟩
  cases hr : r1.r with
  | error e =>
    rw [hr] at h2
    obtain ⟨rfl, rfl⟩ := h2
    exact ev_pure.2 ⟨rfl, rfl⟩
  | ok _ =>
    rw [hr] at h2
    obtain ⟨r', h3, h4⟩ := h2
    refine ev_bind.2 ⟨r', St.release s s', ev_call.2 ⟨r', s', ?_, ev_ret.2 ⟨rfl, rfl⟩⟩, ?_⟩
    · have e : (St.release s s1).hold [h] = s1 := rehold h1.held
      rw [e]; exact h3
    · cases hr' : r'.r with
      | error e => rw [hr'] at h4; exact ev_pure.2 ⟨h4, rfl⟩
      | ok _ => rw [hr'] at h4; exact ev_pure.2 ⟨h4, rfl⟩

/-- What is read is what the loop over the word does. -/
theorem word_z4 {a : List Code} {w : Str} {end_ : Nat} {env : Env} {b : Bool} {x : List Str} {t : Str} {i : Nat} {s : St}
    {o : Except Err (Option Nat)} {s' : St} (h : Spec.Word H a w end_ env b x t i s o s') : ∀ pos ≤ w.length, t = w.drop pos →
    ∃ r, Evals H (.z4 a w w.length end_ env ⟨pos, b, i, x, []⟩) s r s' ∧ r.word = o ∧ (r.r = .ok () → r.idx2 = w.length) := by
  refine Spec.Word.rec (H := H) (a := a) (w := w) (end_ := end_)
    (motive_1 := fun env b x t i s o s' _ => ∀ pos ≤ w.length, t = w.drop pos →
      ∃ r, Evals H (.z4 a w w.length end_ env ⟨pos, b, i, x, []⟩) s r s' ∧ r.word = o ∧ (r.r = .ok () → r.idx2 = w.length))
    (motive_2 := fun d y env args v i t o s' _ => ∀ (s : St) (h : Held), t = s.hold [h] → ∀ pos ≤ w.length, v = w.drop pos →
      ((d.names.hasGe = true → y.2 ≠ 0) ∧ (d.names.hasGe = false → y.2 = 0)) →
      ∃ r, Ev H (Evals H) (z4Args h d a w w.length end_ env pos i y.1 y.2 args) s r (St.release s s') ∧ argsOut w r o ∧
        s'.held = h :: s.held)
    ?_ ?_ ?_ ?_ ?_ ?_ ?_ ?_ ?_ ?_ ?_ ?_ ?_ ?_ h
  · rintro env x t i s hn pos hpos rfl
    exact ⟨_, (z4_noCall (st := ⟨pos, false, i, x, []⟩) hn hpos).2 ⟨rfl, rfl⟩, rfl, fun _ => rfl⟩
  · rintro env x t i s hn pos hpos rfl
    exact ⟨_, (z4_noCall (st := ⟨pos, true, i, x, []⟩) hn hpos).2 ⟨rfl, rfl⟩, rfl, fun _ => rfl⟩
  · rintro env b x t i s u p k d v r s' hf hs - ih pos hpos rfl
    obtain ⟨r, h1, h2, h3⟩ := ih pos hpos rfl
    exact ⟨r, z4_found (st := ⟨pos, b, i, x, []⟩) hpos hf hs (ev_callP.2 h1), h2, h3⟩
  · rintro env b x t i s u p k d v c y r s' hf hs hv - ih pos hpos rfl
    have hf' := of_firstCall hpos hf
    obtain ⟨r, h1, h2, h3⟩ := ih (w.length - v.length) (by omega) (by rw [← hf'.2.2.2]; exact hf'.2.2.1)
    refine ⟨r, z4_found (st := ⟨pos, b, i, x, []⟩) hpos hf hs ?_, h2, h3⟩
    dsimp only
    refine ev_bind.2 ⟨(), _, ev_addTs.2 rfl, ?_⟩
    rw [hv]
    refine ev_bind.2 ⟨(), _, ev_addT.2 rfl, ev_callP.2 ?_⟩
    rw [pushs_append] at h1
    rw [List.map_map]
    exact h1
  · rintro env b x t i s u p k d v src ⟨a2, j⟩ v' j' s1 s2 r s' hf hs hv ha hb - iha ihw pos hpos rfl
    have hf' := of_firstCall hpos hf
    obtain ⟨r1, h1, ⟨h4, rfl, h6, h7⟩, h3⟩ := iha _ _ rfl (w.length - v.length) (by omega)
      (by rw [← hf'.2.2.2]; exact hf'.2.2.1) (sparg_place hs)
    obtain ⟨r, h8, h9, h10⟩ := ihw r1.idx2 h6 h7
    refine ⟨r, z4_calls (st := ⟨pos, b, i, x, []⟩) hpos hf hs hv h1 ?_, h9, h10⟩
    rw [h4]
    have e := rehold (h := [Held.def_ p k]) h3
    refine ⟨_, _, runs_z4Body (by rw [show (St.release _ s1).hold _ = s1 from e]; exact hb), ?_⟩
    dsimp only
    rw [show ∀ z, St.release (St.release z s1) s2 = St.release z s2 from fun _ => rfl, release_opened]
    exact h8
  · rintro env b x t i s u p k d v src ⟨a2, j⟩ e s1 hf hs hv ha iha pos hpos rfl
    have hf' := of_firstCall hpos hf
    obtain ⟨r1, h1, h4, h3⟩ := iha _ _ rfl (w.length - v.length) (by omega)
      (by rw [← hf'.2.2.2]; exact hf'.2.2.1) (sparg_place hs)
    have h4 : r1.r = .error e := h4
    rw [release_opened] at h1
    refine ⟨{ idx := r1.idx, idx2 := r1.idx2, has := true, r := .error e },
      z4_calls (st := ⟨pos, b, i, x, []⟩) hpos hf hs hv h1 ?_, rfl, fun h => by cases h⟩
    rw [h4]
    exact ⟨rfl, rfl⟩
  · rintro env b x t i s u p k d v src ⟨a2, j⟩ v' j' s1 e s2 hf hs hv ha hb iha pos hpos rfl
    have hf' := of_firstCall hpos hf
    obtain ⟨r1, h1, ⟨h4, rfl, h6, h7⟩, h3⟩ := iha _ _ rfl (w.length - v.length) (by omega)
      (by rw [← hf'.2.2.2]; exact hf'.2.2.1) (sparg_place hs)
    refine ⟨{ idx := r1.idx, idx2 := r1.idx2, has := true, r := .error e },
      z4_calls (st := ⟨pos, b, i, x, []⟩) hpos hf hs hv h1 ?_, rfl, fun h => by cases h⟩
    rw [h4]
    have e' := rehold (h := [Held.def_ p k]) h3
    refine ⟨.error e, _, runs_z4Body (by rw [show (St.release _ s1).hold _ = s1 from e']; exact hb), rfl, ?_⟩
    rw [show ∀ z, St.release (St.release z s1) s2 = St.release z s2 from fun _ => rfl, release_opened]
  · rintro d y env args v i s h0 s0 h rfl pos hpos rfl hy
    unfold z4Args
    rw [if_pos h0]
    exact ⟨_, ev_pure.2 ⟨rfl, release_hold rfl⟩, ⟨rfl, rfl, hpos, rfl⟩, rfl⟩
  · rintro d ⟨a2, j0⟩ env args v i s j s1 r s' h0 hg - h2 h3 ih s0 h rfl pos hpos rfl hy
    obtain ⟨r1, h4, h5, h6⟩ := ih pos hpos rfl
    obtain rfl : j0 = 0 := hy.2 hg
    have hr : r1.r = .ok () ∧ r1.idx = j := by
      unfold Res.word at h5
      split at h5
      · cases h5
      · rename_i hr
        refine ⟨hr, ?_⟩
        split at h5 <;> simp_all
    refine ⟨{ idx := if r.idx ≥ end_ then r.idx - 1 else r.idx, idx2 := r1.idx2 }, z4Args_rest h0 h4 ?_, ?_,
      (h2.held.trans h4.held)⟩
    · rw [hr.1]
      refine ⟨r, by rw [hr.2]; exact h2, ?_⟩
      rw [h3]
    · exact ⟨rfl, rfl, by rw [h6 hr.1]; exact Nat.le_refl _, by rw [h6 hr.1, List.drop_length]⟩
  · rintro d ⟨a2, j0⟩ env args v i s e s' h0 hg - ih s0 h rfl pos hpos rfl hy
    obtain ⟨r1, h4, h5, h6⟩ := ih pos hpos rfl
    obtain rfl : j0 = 0 := hy.2 hg
    have hr : r1.r = .error e := by
      unfold Res.word at h5
      split at h5
      · cases h5; assumption
      · cases h5
    refine ⟨{ idx := r1.idx, idx2 := r1.idx2, r := .error e }, z4Args_rest h0 h4 ?_, rfl, h4.held⟩
    rw [hr]
    exact ⟨rfl, rfl⟩
  · rintro d ⟨a2, j0⟩ env args v i s j s1 r e s' h0 hg - h2 h3 ih s0 h rfl pos hpos rfl hy
    obtain ⟨r1, h4, h5, h6⟩ := ih pos hpos rfl
    obtain rfl : j0 = 0 := hy.2 hg
    have hr : r1.r = .ok () ∧ r1.idx = j := by
      unfold Res.word at h5
      split at h5
      · cases h5
      · rename_i hr
        refine ⟨hr, ?_⟩
        split at h5 <;> simp_all
    refine ⟨{ idx := r.idx, idx2 := r1.idx2, r := .error e }, z4Args_rest h0 h4 ?_, rfl, (h2.held.trans h4.held)⟩
    rw [hr.1]
    refine ⟨r, by rw [hr.2]; exact h2, ?_⟩
    rw [h3]
  · rintro d a2 j env args v i s r1 s1 r s' h0 hg h1 h2 h3 h4 s0 h rfl pos hpos rfl hy
    refine ⟨{ idx := if r.idx ≥ end_ then r.idx - 1 else r.idx, idx2 := w.length }, z4Args_sep h0 (hy.1 hg) h1 ?_, ?_,
      (h3.held.trans h1.held)⟩
    · rw [h2]
      refine ⟨r, h3, ?_⟩
      rw [h4]
    · exact ⟨rfl, rfl, Nat.le_refl _, by rw [List.drop_length]⟩
  · rintro d a2 j env args v i s r1 e s' h0 hg h1 h2 s0 h rfl pos hpos rfl hy
    refine ⟨{ idx := i, idx2 := pos, r := .error e }, z4Args_sep h0 (hy.1 hg) h1 ?_, rfl, h1.held⟩
    rw [h2]
    exact ⟨rfl, rfl⟩
  · rintro d a2 j env args v i s r1 s1 r e s' h0 hg h1 h2 h3 h4 s0 h rfl pos hpos rfl hy
    refine ⟨{ idx := r.idx, idx2 := w.length, r := .error e }, z4Args_sep h0 (hy.1 hg) h1 ?_, rfl, (h3.held.trans h1.held)⟩
    rw [h2]
    refine ⟨r, h3, ?_⟩
    rw [h4]

/-! ## C61 -/

/-- A word in which nothing is called. -/
theorem word_none {a : List Code} {w : Str} {end_ : Nat} {env : Env} {b : Bool} {x : List Str} {t : Str} {i : Nat} {s s' : St}
    (h : Spec.Word H a w end_ env b x t i s (.ok none) s') : s' = s ∧ ∀ pos ≤ w.length, t = w.drop pos →
      Evals H (.z4 a w w.length end_ env ⟨pos, b, i, x, []⟩) s { idx := i, idx2 := w.length } s := by
  have key := Spec.Word.rec (H := H) (a := a) (w := w) (end_ := end_)
    (motive_1 := fun env b x t i s o s' _ => (b = true → o ≠ .ok none) ∧ (o = .ok none → s' = s ∧
      ∀ pos ≤ w.length, t = w.drop pos →
        Evals H (.z4 a w w.length end_ env ⟨pos, b, i, x, []⟩) s { idx := i, idx2 := w.length } s))
    (motive_2 := fun _ _ _ _ _ _ _ _ _ _ => True)
    (by rintro env x t i s hn
        refine ⟨nofun, fun _ => ⟨rfl, ?_⟩⟩
        rintro pos hpos rfl
        exact (z4_noCall (st := ⟨pos, false, i, x, []⟩) hn hpos).2 ⟨rfl, rfl⟩)
    (by intros; simp)
    (by rintro env b x t i s u p k d v r s' hf hs - ih
        refine ⟨ih.1, fun h => ⟨(ih.2 h).1, ?_⟩⟩
        rintro pos hpos rfl
        exact z4_found (st := ⟨pos, b, i, x, []⟩) hpos hf hs (ev_callP.2 ((ih.2 h).2 pos hpos rfl)))
    (by rintro env b x t i s u p k d v c y r s' hf hs hv - ih
        exact ⟨fun _ => ih.1 rfl, fun h => absurd h (ih.1 rfl)⟩)
    (by rintro env b x t i s u p k d v src y v' j s1 s2 r s' hf hs hv ha hb - - ih
        exact ⟨fun _ => ih.1 rfl, fun h => absurd h (ih.1 rfl)⟩)
    (by intros; simp) (by intros; simp) (by intros; trivial) (by intros; trivial) (by intros; trivial) (by intros; trivial)
    (by intros; trivial) (by intros; trivial) (by intros; trivial) h
  exact key.2 rfl

/-- **C61** A word in a sentence is read as `Spec.Word` says, and if no definition is called in it, it is a text. -/
theorem C61_word {a : List Code} {w : Str} {i end_ : Nat} {env : Env} {s s' : St} {o : Except Err Nat}
    (hc : a[i]? = some (.undef w)) (hu : env.gd.undefEqText = false) :
    Spec.Turn H a end_ env i s o s' ↔
      (∃ j, o = .ok j ∧ Spec.Word H a w end_ env false [] w i s (.ok (some j)) s') ∨
      (∃ e, o = .error e ∧ Spec.Word H a w end_ env false [] w i s (.error e) s') ∨
      (o = .ok (i + 1) ∧ Spec.Word H a w end_ env false [] w i s (.ok none) s ∧ s' = s.push env.ret (.s w)) := by
  have fwd : ∀ {r : Res} {s1 : St}, Evals H (.z4 a w w.length end_ env ⟨0, false, i, [], []⟩) s r s1 →
      Spec.Word H a w end_ env false [] w i s r.word s1 := fun {r s1} h => by
    have := z4_word h
    exact (this rfl (Nat.zero_le _) rfl).1
  have item : ∀ {t t' : St} {r : Res}, Evals H (.item (.undef w) env) t r t' ↔ r = {} ∧ t' = t.push env.ret (.s w) := by
    intro t t' r
    rw [evals_item]
    constructor
    · rintro ⟨x, h, rfl⟩
      obtain ⟨_, e, h⟩ := evE_lift.1 h
      rw [ev_addT] at h
      subst h e
      exact ⟨rfl, rfl⟩
    · rintro ⟨rfl, rfl⟩
      exact ⟨.ok (), evE_lift.2 ⟨(), rfl, ev_addT.2 rfl⟩, rfl⟩
  have idx : ∀ {r : Res} {s1 : St}, Evals H (.z4 a w w.length end_ env ⟨0, false, i, [], []⟩) s r s1 → r.r = .ok () → r.has = false →
      r.idx = i ∧ s1 = s := by
    intro r s1 h1 h2 h3
    have h4 := fwd h1
    rw [Res.word, h2] at h4
    simp only [h3] at h4
    obtain ⟨rfl, h5⟩ := word_none h4
    obtain ⟨rfl, -⟩ := Evals.unique h1 (h5 0 (Nat.zero_le _) rfl)
    exact ⟨rfl, rfl⟩
  constructor
  · intro h
    cases h with
    | ok h1 h2 =>
      obtain ⟨h3, h4, -⟩ := h1
      rw [hc] at h3; cases h3
      rw [h4 rfl] at hu; cases hu
    | fail h1 h2 =>
      obtain ⟨h3, h4, -⟩ := h1
      rw [hc] at h3; cases h3
      rw [h4 rfl] at hu; cases hu
    | dot h1 h2 => rw [hc] at h1; cases h1; cases h2
    | dotOk h1 h2 => rw [hc] at h1; cases h1; cases h2
    | dotFail h1 h2 => rw [hc] at h1; cases h1; cases h2
    | call h1 h2 h3 h4 h5 h6 =>
      rw [hc] at h1; cases h1
      have := fwd h4
      rw [Res.word, h5] at this
      simp only [h6, if_true] at this
      exact .inl ⟨_, rfl, this⟩
    | callFail h1 h2 h3 h4 h5 =>
      rw [hc] at h1; cases h1
      have := fwd h4
      rw [Res.word, h5] at this
      exact .inr (.inl ⟨_, rfl, this⟩)
    | word h1 h2 h3 h4 h5 h6 h7 =>
      rw [hc] at h1; cases h1
      have := fwd h4
      rw [Res.word, h5] at this
      simp only [h6] at this
      obtain ⟨e1, rfl⟩ := idx h4 h5 h6
      exact .inr (.inr ⟨by rw [e1], this, (item.1 h7).2⟩)
    | wordFail h1 h2 h3 h4 h5 h6 h7 =>
      rw [hc] at h1; cases h1
      have := (item.1 h7).1
      cases this
  · rintro (⟨j, rfl, h⟩ | ⟨e, rfl, h⟩ | ⟨rfl, h, rfl⟩)
    · obtain ⟨r, h1, h2, -⟩ := word_z4 h 0 (Nat.zero_le _) rfl
      unfold Res.word at h2
      split at h2
      · cases h2
      · rename_i hr
        split at h2
        · rename_i hh
          cases h2
          exact .call hc rfl hu h1 hr hh
        · cases h2
    · obtain ⟨r, h1, h2, -⟩ := word_z4 h 0 (Nat.zero_le _) rfl
      unfold Res.word at h2
      split at h2
      · cases h2
        rename_i hr
        exact .callFail hc rfl hu h1 hr
      · cases h2
    · obtain ⟨r, h1, h2, -⟩ := word_z4 h 0 (Nat.zero_le _) rfl
      unfold Res.word at h2
      split at h2
      · cases h2
      · rename_i hr
        split at h2
        · cases h2
        · rename_i hh
          have hh : r.has = false := by simpa using hh
          obtain ⟨e, -⟩ := idx h1 hr hh
          have := Spec.Turn.word (end_ := end_) hc rfl hu h1 hr hh (item.2 ⟨rfl, rfl⟩)
          rw [e] at this
          exact this

/-- The reading of a word has one outcome. -/
theorem word_unique {a : List Code} {w : Str} {end_ : Nat} {env : Env} {b : Bool} {x : List Str} {i : Nat} {s s1 s2 : St}
    {o1 o2 : Except Err (Option Nat)} (h1 : Spec.Word H a w end_ env b x w i s o1 s1) (h2 : Spec.Word H a w end_ env b x w i s o2 s2) :
    o1 = o2 ∧ s1 = s2 := by
  obtain ⟨r1, e1, rfl, -⟩ := word_z4 h1 0 (Nat.zero_le _) rfl
  obtain ⟨r2, e2, rfl, -⟩ := word_z4 h2 0 (Nat.zero_le _) rfl
  obtain ⟨rfl, rfl⟩ := Evals.unique e1 e2
  exact ⟨rfl, rfl⟩

/-- **C61** A word in which the name of no usable definition occurs is a text. -/
theorem C61_text {a : List Code} {w : Str} {i end_ : Nat} {env : Env} {s s' : St} {o : Except Err Nat}
    (hc : a[i]? = some (.undef w)) (hu : env.gd.undefEqText = false) (hn : Spec.NoCall s env.q [] w) :
    Spec.Turn H a end_ env i s o s' ↔ o = .ok (i + 1) ∧ s' = s.push env.ret (.s w) := by
  rw [C61_word hc hu]
  have h0 : Spec.Word H a w end_ env false [] w i s (.ok none) s := .none hn
  constructor
  · rintro (⟨j, rfl, h⟩ | ⟨e, rfl, h⟩ | ⟨rfl, -, rfl⟩)
    · cases (word_unique h h0).1
    · cases (word_unique h h0).1
    · exact ⟨rfl, rfl⟩
  · rintro ⟨rfl, rfl⟩
    exact .inr (.inr ⟨rfl, h0, rfl⟩)

theorem firstCall_unique {s : St} {q : Nat} {x : List Str} {t u v u' v' : Str} {p k p' k' : Nat} {d d' : Def}
    (h : Spec.FirstCall s q x t u p k d v) (h' : Spec.FirstCall s q x t u' p' k' d' v') :
    u = u' ∧ p = p' ∧ k = k' ∧ d = d' ∧ v = v' := by
  obtain ⟨h1, h2, h3, -⟩ := of_firstCall (cs := t) (pos := 0) (Nat.zero_le _) h
  obtain ⟨h1', h2', h3', -⟩ := of_firstCall (cs := t) (pos := 0) (Nat.zero_le _) h'
  rw [h1] at h1'
  simp only [Option.some.injEq, Prod.mk.injEq] at h1'
  obtain ⟨e1, e2, rfl, rfl⟩ := h1'
  obtain rfl : d = d' := Option.some.inj (h.def_.symm.trans h'.def_)
  rw [e1] at h2 h3
  exact ⟨h2.symm.trans h2', rfl, rfl, rfl, h3.trans h3'.symm⟩

theorem firstCall_not_noCall {s : St} {q : Nat} {x : List Str} {t u v : Str} {p k : Nat} {d : Def}
    (h : Spec.FirstCall s q x t u p k d v) : ¬ Spec.NoCall s q x t := by
  intro hn
  obtain ⟨j, hj, -⟩ := h.inner
  exact hn u (d.name0 ++ v) h.text h.inside p (List.mem_of_getElem? hj) d (List.mem_of_getElem? h.def_)
    ⟨h.allowed, List.prefix_append _ _⟩

/-- The reading of a word in which the first definition is called. -/
theorem word_call {a : List Code} {w : Str} {end_ : Nat} {env : Env} {b : Bool} {x : List Str} {t : Str} {i : Nat} {s s' : St}
    {o : Except Err (Option Nat)} {u v : Str} {p k : Nat} {d : Def} {src : Str} {y : List Code × Nat}
    (hf : Spec.FirstCall s env.q x t u p k d v) (hs : sparg d a w w.length end_ i (w.length - v.length) = .ok (some y))
    (hv : d.val = .s src) :
    Spec.Word H a w end_ env b x t i s o s' ↔ ∃ oa s1, Spec.Args H a w end_ d y env s.nlist v i
      ((Spec.opened (s.pushs env.ret (u.map fun c => Val.s [c])) d env.q).hold [.def_ p k]) oa s1 ∧ match oa with
      | .error e => o = .error e ∧ s' = St.release s s1
      | .ok (v', j) => ∃ x s2, Spec.RunsBody H d src env p s.nscope s.nlist s1 x s2 ∧ match x with
        | .error e => o = .error e ∧ s' = St.release s s2
        | .ok () => Spec.Word H a w end_ env true [] v' j (St.release s s2) o s' := by
  constructor
  · intro h
    cases h with
    | none h => exact absurd h (firstCall_not_noCall hf)
    | last h => exact absurd h (firstCall_not_noCall hf)
    | skip h h1 h2 =>
      obtain ⟨rfl, rfl, rfl, rfl, rfl⟩ := firstCall_unique hf h
      rw [hs] at h1; cases h1
    | const h h1 h2 h3 =>
      obtain ⟨rfl, rfl, rfl, rfl, rfl⟩ := firstCall_unique hf h
      rw [hv] at h2; cases h2
    | call h h1 h2 h3 h4 h5 =>
      obtain ⟨rfl, rfl, rfl, rfl, rfl⟩ := firstCall_unique hf h
      rw [hs] at h1; cases h1
      rw [hv] at h2; cases h2
      exact ⟨_, _, h3, _, _, h4, h5⟩
    | argsFail h h1 h2 h3 =>
      obtain ⟨rfl, rfl, rfl, rfl, rfl⟩ := firstCall_unique hf h
      rw [hs] at h1; cases h1
      exact ⟨_, _, h3, rfl, rfl⟩
    | bodyFail h h1 h2 h3 h4 =>
      obtain ⟨rfl, rfl, rfl, rfl, rfl⟩ := firstCall_unique hf h
      rw [hs] at h1; cases h1
      rw [hv] at h2; cases h2
      exact ⟨_, _, h3, _, _, h4, rfl, rfl⟩
  · rintro ⟨oa, s1, h1, h2⟩
    cases oa with
    | error e =>
      obtain ⟨rfl, rfl⟩ := h2
      exact .argsFail hf hs hv h1
    | ok z =>
      obtain ⟨v', j⟩ := z
      obtain ⟨x, s2, h3, h4⟩ := h2
      cases x with
      | error e =>
        obtain ⟨rfl, rfl⟩ := h4
        exact .bodyFail hf hs hv h1 h3
      | ok _ => exact .call hf hs hv h1 h3 h4

theorem word_end {a : List Code} {w : Str} {end_ : Nat} {env : Env} {i : Nat} {s s' : St} {o : Except Err (Option Nat)} :
    Spec.Word H a w end_ env true [] [] i s o s' ↔ o = .ok (some (i + 1)) ∧ s' = s := by
  have hn : ∀ {q}, Spec.NoCall s q [] [] := fun u v h hv => absurd (List.append_eq_nil_iff.1 h.symm).2 hv
  constructor
  · intro h
    cases h with
    | last h => exact ⟨rfl, rfl⟩
    | skip h => exact (firstCall_not_noCall h hn).elim
    | const h => exact (firstCall_not_noCall h hn).elim
    | call h => exact (firstCall_not_noCall h hn).elim
    | argsFail h => exact (firstCall_not_noCall h hn).elim
    | bodyFail h => exact (firstCall_not_noCall h hn).elim
  · rintro ⟨rfl, rfl⟩
    exact .last (t := []) hn

/-- `sparg` of a definition without separators. -/
theorem sparg_plain {d : Def} {a : List Code} {cs : Str} {end2 end_ i j : Nat} (h : d.names.hasGe = false) :
    sparg d a cs end2 end_ i j = .ok (some ([], 0)) := by
  unfold sparg
  rw [if_neg (by simp [h])]

/-- **C61** A word with a definition that has no arguments: the text before its name is written, the body runs in a fresh
scope, and the text after the name is read in the same way. -/
theorem C61_no_arguments {a : List Code} {w u v : Str} {i end_ : Nat} {env : Env} {s s' : St} {p k : Nat} {d : Def} {src : Str}
    {o : Except Err (Option Nat)} (hf : Spec.FirstCall s env.q [] w u p k d v) (hg : d.names.hasGe = false) (h0 : d.argc = 0)
    (hv : d.val = .s src) :
    Spec.Word H a w end_ env false [] w i s o s' ↔ ∃ x s1, Spec.RunsBody H d src env p s.nscope s.nlist
      ((Spec.opened (s.pushs env.ret (u.map fun c => Val.s [c])) d env.q).hold [.def_ p k]) x s1 ∧ match x with
        | .error e => o = .error e ∧ s' = St.release s s1
        | .ok () => Spec.Word H a w end_ env true [] v i (St.release s s1) o s' := by
  rw [word_call hf (sparg_plain hg) hv]
  constructor
  · rintro ⟨oa, s1, h1, h2⟩
    cases h1 with
    | none => exact h2
    | _ => exact absurd h0 (by assumption)
  · intro h
    exact ⟨_, _, .none h0, h⟩

/-- **C61** A word with a definition that has arguments, and with no other name after it: the rest of the word and what
follows up to the end of the sentence is evaluated, in the scope of the caller, into the list of arguments of a fresh
scope; then the body runs in that scope; then the evaluation goes on behind the sentence. -/
theorem C61_arguments_partial {a : List Code} {w u v : Str} {i end_ : Nat} {env : Env} {s s' : St} {p k : Nat} {d : Def} {src : Str}
    {o : Except Err (Option Nat)} (hf : Spec.FirstCall s env.q [] w u p k d v) (hg : d.names.hasGe = false) (h0 : d.argc ≠ 0)
    (hv : d.val = .s src)
    (hn : Spec.NoCall (Spec.opened (s.pushs env.ret (u.map fun c => Val.s [c])) d env.q) env.q [] v) :
    Spec.Word H a w end_ env false [] w i s o s' ↔ ∃ r s1,
      Evals H (.z2 a (i + 1) end_ { env with gd := { env.gd with jvhao := true }, ret := s.nlist })
        (if v = [] then (Spec.opened (s.pushs env.ret (u.map fun c => Val.s [c])) d env.q).hold [.def_ p k]
          else ((Spec.opened (s.pushs env.ret (u.map fun c => Val.s [c])) d env.q).hold [.def_ p k]).push s.nlist (.s v)) r s1 ∧
      match r.r with
      | .error e => o = .error e ∧ s' = St.release s s1
      | .ok () => ∃ x s2, Spec.RunsBody H d src env p s.nscope s.nlist s1 x s2 ∧ s' = St.release s s2 ∧ match x with
        | .error e => o = .error e
        | .ok () => o = .ok (some (if r.idx ≥ end_ then r.idx - 1 + 1 else r.idx + 1)) := by
  have hl : ∀ {o s1}, Spec.Word H a w end_ { env with ret := s.nlist } true [] v i
      ((Spec.opened (s.pushs env.ret (u.map fun c => Val.s [c])) d env.q).hold [.def_ p k]) o s1 →
      o = .ok (some (i + 1)) ∧ s1 = if v = [] then (Spec.opened (s.pushs env.ret (u.map fun c => Val.s [c])) d env.q).hold [.def_ p k]
          else ((Spec.opened (s.pushs env.ret (u.map fun c => Val.s [c])) d env.q).hold [.def_ p k]).push s.nlist (.s v) := by
    intro o s1 h
    cases h with
    | last h => exact ⟨rfl, rfl⟩
    | skip h => exact (firstCall_not_noCall h hn).elim
    | const h => exact (firstCall_not_noCall h hn).elim
    | call h => exact (firstCall_not_noCall h hn).elim
    | argsFail h => exact (firstCall_not_noCall h hn).elim
    | bodyFail h => exact (firstCall_not_noCall h hn).elim
  have hm : Spec.Word H a w end_ { env with ret := s.nlist } true [] v i
      ((Spec.opened (s.pushs env.ret (u.map fun c => Val.s [c])) d env.q).hold [.def_ p k]) (.ok (some (i + 1))) _ :=
    .last (env := { env with ret := s.nlist }) hn
  rw [word_call hf (sparg_plain hg) hv]
  constructor
  · rintro ⟨oa, s1, h1, h2⟩
    cases h1 with
    | none h => exact absurd h h0
    | rest _ _ h3 h4 h5 =>
      obtain ⟨e, rfl⟩ := hl h3
      cases e
      refine ⟨_, _, h4, ?_⟩
      rw [h5]
      obtain ⟨x, s2, h6, h7⟩ := h2
      refine ⟨x, s2, h6, ?_⟩
      cases x with
      | error e => exact ⟨h7.2, h7.1⟩
      | ok _ =>
        obtain ⟨rfl, rfl⟩ := word_end.1 h7
        refine ⟨rfl, ?_⟩
        dsimp only
        split <;> rfl
    | restFail1 _ _ h3 => cases (hl h3).1
    | restFail2 _ _ h3 h4 h5 =>
      obtain ⟨e, rfl⟩ := hl h3
      cases e
      refine ⟨_, _, h4, ?_⟩
      rw [h5]
      exact h2
    | sep _ h => rw [hg] at h; cases h
    | sepFail1 _ h => rw [hg] at h; cases h
    | sepFail2 _ h => rw [hg] at h; cases h
  · rintro ⟨r, s1, h1, h2⟩
    cases hr : r.r with
    | error e =>
      rw [hr] at h2
      exact ⟨_, _, .restFail2 h0 hg hm h1 hr, h2⟩
    | ok _ =>
      rw [hr] at h2
      obtain ⟨x, s2, h3, rfl, h4⟩ := h2
      refine ⟨_, _, .rest h0 hg hm h1 hr, x, s2, h3, ?_⟩
      cases x with
      | error e => exact ⟨h4, rfl⟩
      | ok _ =>
        refine word_end.2 ⟨?_, rfl⟩
        rw [h4]
        split <;> rfl

/-- Whenever a run evaluates a list of statements, the fresh scope of a call does not change which definitions can be
used: `C61_arguments_partial` may be applied when no name occurs in `v` before the call. -/
theorem C61_reached {ovf : Bool} {argv : List Str} {a : List Code} {i end_ : Nat} {env : Env} {s : St}
    (h : Reached H ovf argv (.z2 a i end_ env) s) {u v : Str} {d : Def} (hn : Spec.NoCall s env.q [] v) :
    Spec.NoCall (Spec.opened (s.pushs env.ret (u.map fun c => Val.s [c])) d env.q) env.q [] v := by
  obtain ⟨C, hok, he, -⟩ := reached_frame h
  have hq := (he env rfl).q.1
  obtain ⟨ps, hp, -, hle⟩ := C42_lookups_end h env.q hq
  have ho := C42_parents_older h
  obtain ⟨n1, n2, n3⟩ := pushs_nums env.ret (u.map fun c => Val.s [c]) s
  have hsc : ∀ t : List Val, ∀ s : St, (s.pushs env.ret t).scopes = s.scopes ∧ (s.pushs env.ret t).mods = s.mods := by
    intro t
    induction t with
    | nil => intro s; exact ⟨rfl, rfl⟩
    | cons v t ih => intro s; exact ih _
  obtain ⟨e1, e2⟩ := hsc (u.map fun c => Val.s [c]) s
  have same : ∀ p, p < s.nscope →
      (Spec.opened (s.pushs env.ret (u.map fun c => Val.s [c])) d env.q).scopes p = s.scopes p := by
    intro p hp
    simp only [Spec.opened, upd, n2, e1]
    rw [if_neg (by omega)]
  have path : ∀ {q ps}, Spec.Path s.scopes q ps → (∀ p ∈ ps, p < s.nscope) →
      Spec.Path (Spec.opened (s.pushs env.ret (u.map fun c => Val.s [c])) d env.q).scopes q ps := by
    intro q ps hp
    induction hp with
    | top hu => intro h; exact .top (by rw [same _ (h _ (by simp))]; exact hu)
    | up hu _ ih => intro h; exact .up (by rw [same _ (h _ (by simp))]; exact hu) (ih fun p hp => h p (by simp [hp]))
  have hlt : ∀ p ∈ ps, p < s.nscope := fun p hp' => by have := hle p hp'; omega
  have hc := path_chain s.scopes ho hp
  have ho' : Spec.ParentsOlder (Spec.opened (s.pushs env.ret (u.map fun c => Val.s [c])) d env.q).scopes := by
    intro q p hup
    simp only [Spec.opened, upd, n2, e1] at hup
    split at hup
    · rename_i e
      simp only [Scope.new, Option.map_some, Option.some.injEq] at hup
      omega
    · exact ho q p hup
  have hc' := path_chain _ ho' (path hp hlt)
  intro x y hxy hy p hp' d' hd'
  have hseen : p ∈ Spec.seen s env.q := by
    unfold Spec.seen at hp' ⊢
    rw [hc'] at hp'
    rw [hc]
    change p ∈ Spec.visible ps (s.pushs env.ret (u.map fun c => Val.s [c])).mods at hp'
    rw [e2] at hp'
    exact hp'
  have hplt : p < s.nscope := by
    unfold Spec.seen Spec.visible at hseen
    rw [hc] at hseen
    rcases List.mem_append.1 hseen with h | h
    · exact hlt p h
    · exact (hok.1.mods p h).1
  rw [same p hplt] at hd'
  exact hn x y hxy hy p hseen d' hd'

/-- What a script sees: text before and after calls, a call with arguments up to the end of the sentence. -/
theorem C61_example :
    demo 80 c!"定义乙【无参】以“2”。定义戊【无参】以“5”。显示1乙3戊4。" = (.ok (.ok ()), [.out c!"12354"]) ∧
    demo 80 c!"定义甲以下代码显示“‘参数1’”。上代码。甲1。显示3。" = (.ok (.ok ()), [.out c!"1", .out c!"3"]) := by
  decide +kernel

/-- Found: when a definition is called in the arguments of another one, the outer one takes the next sentence too: `显示3`
is evaluated before the body of `甲`. -/
theorem C61_nested_counterexample :
    demo 80 c!"定义甲以下代码显示“‘参数1’”。上代码。定义乙以下代码2‘参数1’。上代码。甲1乙。显示3。" =
      (.ok (.ok ()), [.out c!"3", .out c!"12", .flush]) := by
  decide +kernel

end Zh
