import Verif.Props.Conts
/-!
# `返回` (C26)
-/
namespace Zh

variable {H : Host} {α β : Type}

/-! ## Who takes a `返回` -/

/-- What a script does after its body. -/
theorem conts_src {x : Str} {env : Env} {a : List Code} {i j : Nat} {env1 : Env} {k : Res → Prog Res}
    (h : Conts (evalF (.src x env)) (.codes a i j env1) k) :
    env1.q = env.q ∧ k = fun r => getSt >>= fun s => pure { r := jumpReturn (s.scopes env.q).i r.r } := by
  change Conts ((srcP x env).run.bind _) _ _ at h
  rcases conts_bind h with ⟨k', h1, rfl⟩ | ⟨a, h⟩
  · unfold srcP at h1
    rcases conts_bindE h1 with ⟨k2, h2, -⟩ | ⟨codes, h2⟩
    · cases h2 with | op h2 => cases h2
    · cases h2 with
      | call => exact ⟨rfl, rfl⟩
      | next h2 =>
        unfold returnP at h2
        cases h2 with | op h2 => cases h2
  · cases h

/-- What a call of a definition does after the body. -/
def z4Rest (a : List Code) (cs : Str) (end2 end_ : Nat) (env : Env) (idx2 idx : Nat) (buf : Str) (x : Except Err Unit) :
    Prog Res :=
  match x with
  | .error e => pure { idx, idx2, has := true, r := .error e }
  | .ok () => callP [] (.z4 a cs end2 end_ env ⟨idx2, true, idx, [], buf⟩)

theorem conts_noCodes {O : Allow} {p : Prog α} {e : Err} {X : Call → St → Prop} {B : α → Prop} (h : Passes O e X B p)
    (hO : ∀ a i j env, ¬ O.call (.codes a i j env)) {a : List Code} {i j : Nat} {env : Env} {k : Res → Prog α}
    (hc : Conts p (.codes a i j env) k) : False := hO _ _ _ _ (h.allowed hc)

theorem conts_z4Args {h : Held} {d : Def} {a : List Code} {cs : Str} {end2 end_ : Nat} {env : Env}
    {idx2 idx : Nat} {a2 : List Code} {end2a : Nat} {args : Nat} {b : List Code} {x y : Nat} {env1 : Env} {k : Res → Prog Res}
    (hc : Conts (z4Args h d a cs end2 end_ env idx2 idx a2 end2a args) (.codes b x y env1) k) : False := by
  unfold z4Args at hc
  split at hc
  · cases hc
  · rcases conts_bind hc with ⟨k', h1, -⟩ | ⟨r, h1⟩
    · split at h1
      · cases h1 with | next h1 => cases h1
      · rcases conts_bind h1 with ⟨k', h1, -⟩ | ⟨r, h1⟩
        · cases h1 with | next h1 => cases h1
        · split at h1 <;> cases h1
    · split at h1
      · cases h1
      · rcases conts_bind h1 with ⟨k', h1, -⟩ | ⟨r, h1⟩
        · cases h1 with | next h1 => cases h1
        · split at h1 <;> cases h1

theorem conts_addT {ret : Nat} {x : Str} {c : Call} {k : Res → Prog Unit} (h : Conts (addT ret x) c k) : False := by
  unfold addT addVal at h
  rcases conts_bind h with ⟨k', h, -⟩ | ⟨r, h⟩
  · cases h with | op h => cases h
  · unfold addItem at h
    rcases conts_bind h with ⟨k', h, -⟩ | ⟨r, h⟩
    · cases h with | op h => cases h
    · cases h with | op h => cases h

theorem conts_addTs {ret : Nat} {l : List Str} {c : Call} {k : Res → Prog Unit} (h : Conts (addTs ret l) c k) : False := by
  induction l generalizing k with
  | nil => cases h
  | cons t ts ih =>
    unfold addTs at h
    rcases conts_bind h with ⟨k', h, -⟩ | ⟨r, h⟩
    · exact conts_addT h
    · exact ih h

theorem conts_z4Body {h : Held} {d : Def} {src : Str} {env : Env} {p q2 args : Nat} {b : List Code} {x y : Nat} {env1 : Env}
    {k : Res → Prog (Except Err Unit)} (hc : Conts (z4Body h d src env p q2 args).run (.codes b x y env1) k) :
    env1.q = q2 ∧ k = fun r => getSt >>= fun s => pure (jumpReturn (s.scopes q2).i r.r) := by
  have tail : ∀ {codes : List Code} {k : Res → Prog (Except Err Unit)}, Conts ((callP [h] (.codes codes 0 usizeMax
      ⟨{ env.gd with jvhao := false }, q2, env.ret, some p⟩) : Prog Res) >>= fun r => returnP q2 r.r : E Unit).run
      (.codes b x y env1) k → env1.q = q2 ∧ k = fun r => getSt >>= fun s => pure (jumpReturn (s.scopes q2).i r.r) := by
    intro codes k h
    cases h with
    | call => exact ⟨rfl, rfl⟩
    | next h =>
      unfold returnP at h
      cases h with | op h => cases h
  unfold z4Body at hc
  rcases conts_bindE hc with ⟨k2, h2, -⟩ | ⟨codes, h2⟩
  · cases h2 with | op h2 => cases h2
  · dsimp only at h2
    split at h2
    · rcases conts_bindE h2 with ⟨k2, h2, -⟩ | ⟨sep, h2⟩
      · cases h2 with | op h2 => cases h2
      · rcases conts_bindE h2 with ⟨k2, h2, -⟩ | ⟨s, h2⟩
        · cases h2 with | op h2 => cases h2
        · rcases conts_bindE h2 with ⟨k2, h2, -⟩ | ⟨x, h2⟩
          · rcases hx : RList.backarg (s.lists env.ret) d.backarg sep (s.lists args) with _ | _ | _ <;>
              (rw [hx] at h2; cases h2)
          · split at h2
            · rcases conts_bindE h2 with ⟨k2, h2, -⟩ | ⟨x, h2⟩
              · cases h2
              · exact tail h2
            · rcases conts_bindE h2 with ⟨k2, h2, -⟩ | ⟨x, h2⟩
              · cases h2 with | op h2 => cases h2
              · rcases conts_bindE h2 with ⟨k2, h2, -⟩ | ⟨x, h2⟩
                · cases h2 with | op h2 => cases h2
                · exact tail h2
    · exact tail h2

theorem conts_z4Call {a : List Code} {cs : Str} {end2 end_ : Nat} {env : Env} {st : Z4} {idx2 p k0 : Nat} {d : Def}
    {src : Str} {a2 : List Code} {end2a : Nat} {b : List Code} {x y : Nat} {env1 : Env} {k : Res → Prog Res}
    (hc : Conts (z4Call a cs end2 end_ env st idx2 p k0 d src a2 end2a) (.codes b x y env1) k) :
    ∃ i2 i, k = fun r => getSt >>= fun s =>
      z4Rest a cs end2 end_ env i2 i st.buf (jumpReturn (s.scopes env1.q).i r.r) := by
  unfold z4Call at hc
  rcases conts_bind hc with ⟨k2, h2, -⟩ | ⟨q2, h2⟩
  · cases h2 with | op h2 => cases h2
  · rcases conts_bind h2 with ⟨k2, h2, -⟩ | ⟨s, h2⟩
    · cases h2 with | op h2 => cases h2
    · rcases conts_bind h2 with ⟨k2, h2, -⟩ | ⟨r, h2⟩
      · exact (conts_z4Args h2).elim
      · split at h2
        · cases h2
        · rcases conts_bind h2 with ⟨k2, h4, rfl⟩ | ⟨x, h2⟩
          · obtain ⟨h3, rfl⟩ := conts_z4Body h4
            refine ⟨r.idx2, r.idx, ?_⟩
            subst h3
            funext r'
            change Prog.op _ _ = Prog.op _ _
            congr 1
          · split at h2
            · cases h2
            · cases h2 with | next h2 => cases h2

theorem conts_z4 {a : List Code} {cs : Str} {end2 end_ : Nat} {env : Env} {st : Z4} {b : List Code} {x y : Nat} {env1 : Env}
    {k : Res → Prog Res} (hc : Conts (evalF (.z4 a cs end2 end_ env st)) (.codes b x y env1) k) :
    ∃ i2 i, k = fun r => getSt >>= fun s =>
      z4Rest a cs end2 end_ env i2 i st.buf (jumpReturn (s.scopes env1.q).i r.r) := by
  have no : ∀ {c : Call} {k : Res → Prog Res}, Conts (callP [] c) (.codes b x y env1) k → c.IsCodes := by
    intro c k h
    cases h with
    | call => trivial
    | next h => cases h
  change Conts (z4P a cs end2 end_ env st) _ _ at hc
  unfold z4P at hc
  split at hc
  · rcases conts_bind hc with ⟨k2, h2, -⟩ | ⟨s, h2⟩
    · cases h2 with | op h2 => cases h2
    · split at h2
      · split at h2
        · cases h2
        · exact (no h2).elim
      · split at h2
        · cases h2
        · rename_i idx3 len p k0 _ _ d _
          rcases conts_bind h2 with ⟨k2, h2, -⟩ | ⟨x, h2⟩
          · rcases hx : sparg d a cs end2 end_ st.idx (idx3 + len) with _ | _ | _ <;> (rw [hx] at h2; cases h2)
          · split at h2
            · exact (no h2).elim
            · rcases conts_bind h2 with ⟨k2, h2, -⟩ | ⟨_, h2⟩
              · exact (conts_addTs h2).elim
              · split at h2
                · rcases conts_bind h2 with ⟨k2, h2, -⟩ | ⟨_, h2⟩
                  · exact (conts_addT h2).elim
                  · exact (no h2).elim
                · exact conts_z4Call h2
  · split at hc
    · split at hc
      · rcases conts_bind hc with ⟨k2, h2, -⟩ | ⟨_, h2⟩
        · exact (conts_addT h2).elim
        · cases h2
      · cases hc
    · cases hc

/-- The evaluation `c`, one part of which ended in `t`, ends or goes on normally from `t`: a script ends
normally; the text after the call of a definition is evaluated. -/
def Spec.Resumes (H : Host) (c : Call) (s t : St) : Prop :=
  match c with
  | .src .. => ∃ r t', Evals H c s r t' ∧ r.r = .ok () ∧ Spec.Same t t'
  | .z4 a cs end2 end_ env st => ∃ i2 i t1, Spec.Same t t1 ∧ ∀ r t',
      Evals H c s r t' ↔ Evals H (.z4 a cs end2 end_ env ⟨i2, true, i, [], st.buf⟩) t1 r t'
  | _ => False

/-- `c'` is the evaluation of the text of a script or of the body of a called definition. -/
def Spec.Body : Call → Call → Prop
  | .src .., .codes .. => True
  | .z4 .., .codes .. => True
  | _, _ => False

/-- The body of a script or definition that ended normally, or with a `返回` whose depth reaches its scope. -/
theorem resumes {c c' : Call} {s s1 : St} {r : Res} {t : St} (hb : Spec.Body c c') (hp : Spec.Part H c s c' s1)
    (he : Evals H c' s1 r t) (hr : jumpReturn (t.scopes c'.scope).i r.r = .ok ()) : Spec.Resumes H c s t := by
  obtain ⟨k, hd, h1, h2⟩ := part_conts hp
  replace h2 := h2 r t he
  cases c' with
  | codes a i j env1 =>
    cases c with
    | src x env =>
      obtain ⟨h3, rfl⟩ := conts_src h1
      refine ⟨{ r := .ok () }, { t with held := hd }, (h2 _ _).2 ?_, rfl, rfl⟩
      refine ev_bind.2 ⟨_, _, ev_getSt.2 ⟨rfl, rfl⟩, ev_pure.2 ⟨?_, rfl⟩⟩
      change _ = ({ r := jumpReturn (t.scopes env.q).i r.r } : Res)
      rw [← h3, ← hr]; rfl
    | z4 a' cs end2 end_ env st =>
      obtain ⟨i2, i, rfl⟩ := conts_z4 h1
      refine ⟨i2, i, { t with held := hd }, rfl, fun r' t' => ?_⟩
      rw [h2, ev_bind]
      have hr : jumpReturn (t.scopes env1.q).i r.r = .ok () := hr
      constructor
      · rintro ⟨_, _, h3, h4⟩
        obtain ⟨rfl, rfl⟩ := ev_getSt.1 h3
        dsimp only at h4
        rw [hr] at h4
        exact ev_callP.1 h4
      · intro h
        refine ⟨_, _, ev_getSt.2 ⟨rfl, rfl⟩, ?_⟩
        dsimp only
        rw [hr]
        exact ev_callP.2 h
    | _ => exact hb.elim
  | _ => cases c <;> exact hb.elim

/-! ## The statement -/

/-- **C26.**  A plain `返回` in a scope of depth `d` is the jump with the number `d + 1` (but for `d = 999`, see
`C26_depth_999`). -/
theorem C26_statement_plain (env : Env) (s : St) (hd : (s.scopes env.q).i ≠ 999) (h0 : 0 ≤ (s.scopes env.q).i) :
    Evals H (.item (.jump .return_ []) env) s
      { r := .error ⟨RETURN, (s.scopes env.q).i + 1, [], []⟩ } (Spec.fresh s) := by
  have h := jump_item (k := .return_) (words_nil (H := H) (env := env) (s := s))
  have e : (Spec.fresh s).scopes = s.scopes := rfl
  rw [e] at h
  have h1 : (s.scopes env.q).i + 1 ≠ NO := by unfold NO; omega
  simpa [jumpErr, jumpEnd, jumpI, h0, h1, JumpKind.code] using h

/-- A plain `返回` at depth 999 is not a jump but an error. -/
theorem C26_depth_999 (env : Env) (s : St) (hd : (s.scopes env.q).i = 999) :
    Evals H (.item (.jump .return_ []) env) s { r := .error ⟨ERR, 1000, [], []⟩ } (Spec.fresh s) := by
  have h := jump_item (k := .return_) (words_nil (H := H) (env := env) (s := s))
  have e : (Spec.fresh s).scopes = s.scopes := rfl
  rw [e, hd] at h
  exact h

/-- The nearest scope with the name `w`, seen from `q`: the scope itself, the scopes around it from the inside
outwards, then the modules. -/
def Spec.Nearest (s : St) (q : Nat) (w : Str) (p : Nat) : Prop :=
  ∃ ps pre post, Spec.Path s.scopes q ps ∧ ps ++ s.mods = pre ++ p :: post ∧ w ∈ (s.scopes p).name ∧
    ∀ x ∈ pre, w ∉ (s.scopes x).name

theorem older_after {ovf : Bool} {argv : List Str} {c : Call} {s t : St} {r : Res} (hR : Reached H ovf argv c s)
    (he : Evals H c s r t) : ∃ C, Inv C t ∧ Spec.ParentsOlder t.scopes := by
  obtain ⟨n, hn⟩ := he
  obtain ⟨C, hp⟩ := reached_frame hR
  have hi := ((run_frame H n C c s hp).2 r t hn).1
  refine ⟨C, hi, ?_⟩
  intro q p hu
  by_cases hq : q < t.nscope
  · exact (hi.up q hq p hu).1
  · have h' := (kept_unused H).trans ((kept_unused H).reached hR) ((kept_unused H).run n c s)
    rw [hn] at h'
    have h0 : 2 ≤ t.nscope := h'.1
    rw [(h'.2 q (by exact Nat.le_of_not_lt hq) : (t.scopes q).up = _)] at hu
    simp only [St.init] at hu
    rw [if_neg (by omega)] at hu
    simp only [Scope.new, Option.map_some, Option.some.injEq] at hu
    omega

theorem Inv.depth {C : Ctx} {t : St} (hi : Inv C t) (q : Nat) (hq : q < t.nscope) : 0 ≤ (t.scopes q).i := by
  induction q using Nat.strongRecOn with
  | ind q ih =>
    cases hu : (t.scopes q).up with
    | none => rw [hi.root q hq hu]; omega
    | some p =>
      obtain ⟨h1, h2, -⟩ := hi.up q hq p hu
      have := ih p h1 (by omega)
      omega

theorem path_le {scopes : Nat → Scope} (h : Spec.ParentsOlder scopes) {q : Nat} {ps : List Nat}
    (hp : Spec.Path scopes q ps) : ∀ p ∈ ps, p ≤ q := by
  induction hp with
  | top _ => simp
  | up hu _ ih =>
    intro p hp
    rcases List.mem_cons.1 hp with rfl | hp
    · exact Nat.le_refl _
    · exact Nat.le_trans (ih p hp) (Nat.le_of_lt (h _ _ hu))

theorem findSome_split {f : Nat → Option Nat} {P : Nat → Prop} [DecidablePred P] (hf : ∀ x, f x = if P x then some x else none)
    (l : List Nat) (p : Nat) : l.findSome? f = some p ↔ ∃ pre post, l = pre ++ p :: post ∧ P p ∧ ∀ x ∈ pre, ¬ P x := by
  induction l with
  | nil => simp
  | cons a l ih =>
    rw [List.findSome?_cons, hf a]
    by_cases ha : P a
    · rw [if_pos ha]
      constructor
      · rintro ⟨⟩; exact ⟨[], l, rfl, ha, by simp⟩
      · rintro ⟨pre, post, h1, h2, h3⟩
        cases pre with
        | nil => simp only [List.nil_append, List.cons.injEq] at h1; rw [h1.1]
        | cons b pre =>
          simp only [List.cons_append, List.cons.injEq] at h1
          exact absurd (h1.1 ▸ ha) (h3 b (List.mem_cons_self ..))
    · rw [if_neg ha]
      dsimp only
      rw [ih]
      constructor
      · rintro ⟨pre, post, rfl, h2, h3⟩
        refine ⟨a :: pre, post, rfl, h2, ?_⟩
        intro x hx
        rcases List.mem_cons.1 hx with rfl | hx
        · exact ha
        · exact h3 x hx
      · rintro ⟨pre, post, h1, h2, h3⟩
        cases pre with
        | nil => simp only [List.nil_append, List.cons.injEq] at h1; exact absurd (h1.1 ▸ h2) ha
        | cons b pre =>
          simp only [List.cons_append, List.cons.injEq] at h1
          exact ⟨pre, post, h1.2, h2, fun x hx => h3 x (List.mem_cons_of_mem _ hx)⟩

theorem namedScope_iff {t : St} (h : Spec.ParentsOlder t.scopes) (q : Nat) (w : Str) (p : Nat) :
    namedScope t.scopes t.mods q w = some p ↔ Spec.Nearest t q w p := by
  unfold namedScope
  rw [visits_true t.scopes t.mods q _ rfl _ (fun p => if (t.scopes p).name.contains w then some p else none) fun _ _ => rfl]
  rw [findSome_split (P := fun p => w ∈ (t.scopes p).name) (fun x => by simp)]
  unfold Spec.Nearest Spec.visible
  constructor
  · rintro ⟨pre, post, h1⟩
    exact ⟨_, pre, post, chain_path _ h q, h1⟩
  · rintro ⟨ps, pre, post, h0, h1⟩
    rw [path_chain _ h h0]
    exact ⟨pre, post, h1⟩

/-- The words of a reached jump statement are evaluated in a run. -/
theorem words_reached {ovf : Bool} {argv : List Str} {k : JumpKind} {a : List Code} {env : Env} {s : St}
    (hR : Reached H ovf argv (.item (.jump k a) env) s) :
    Reached H ovf argv (.codes a 0 usizeMax { env with ret := s.nlist }) (Spec.fresh s) := by
  refine .step 0 hR ?_
  change Calls H _ ((jumpP k a env).run.bind _) _ _ _
  exact ⟨s.nlist, Spec.fresh s, rfl, .inl ⟨rfl, rfl⟩⟩

theorem env_scope {ovf : Bool} {argv : List Str} {c : Call} {env : Env} (hc : c.env = some env) {s t : St} {r : Res}
    (hR : Reached H ovf argv c s) (he : Evals H c s r t) : env.q < t.nscope := by
  obtain ⟨n, hn⟩ := he
  obtain ⟨C, hp⟩ := reached_frame hR
  have h := ((run_frame H n C c s hp).2 r t hn).2.1
  exact Nat.lt_of_lt_of_le (hp.2.1 env hc).q.1 h.nscope

/-- **C26.**  A `返回` with the word `w` (other than `上`) is the jump with the depth of the nearest scope of that name, plus
one; an error that is not a jump if there is no such scope. -/
theorem C26_statement_named {ovf : Bool} {argv : List Str} {a : List Code} {env : Env} {s t : St} {w : Str}
    (hR : Reached H ovf argv (.item (.jump .return_ a) env) s) (h : Spec.Words H a env s [w] t) (hw : w ≠ c!"上") :
    (∀ p, Spec.Nearest t env.q w p → (t.scopes p).i ≠ 999 →
      Evals H (.item (.jump .return_ a) env) s { r := .error ⟨RETURN, (t.scopes p).i + 1, w, []⟩ } t) ∧
    ((∀ p, ¬ Spec.Nearest t env.q w p) →
      Evals H (.item (.jump .return_ a) env) s { r := .error ⟨ERR, NO, w, []⟩ } t) := by
  have hj := jump_item (k := .return_) h
  obtain ⟨x, h1, -, -⟩ := h
  obtain ⟨C, hi, ho⟩ := older_after (words_reached hR) h1
  have hq : env.q < t.nscope := env_scope (env := { env with ret := s.nlist }) rfl (words_reached hR) h1
  have hw : w ≠ UP := hw
  constructor
  · intro p hp hd
    have hn := (namedScope_iff ho _ _ _).2 hp
    have h0 : 0 ≤ (t.scopes p).i := by
      obtain ⟨ps, pre, post, hps, h2, -, -⟩ := hp
      have hm : p ∈ ps ++ t.mods := by rw [h2]; simp
      refine hi.depth p ?_
      rcases List.mem_append.1 hm with hm | hm
      · exact Nat.lt_of_le_of_lt (path_le ho hps p hm) hq
      · exact (hi.mods p hm).1
    have h1 : (t.scopes p).i + 1 ≠ NO := by unfold NO; omega
    simpa [jumpErr, jumpEnd, jumpI, jumpWords, jumpWord, hw, hn, h0, h1, JumpKind.code] using hj
  · intro hn
    have hn : namedScope t.scopes t.mods env.q w = none := by
      cases h : namedScope t.scopes t.mods env.q w with
      | none => rfl
      | some p => exact absurd ((namedScope_iff ho _ _ _).1 h) (hn p)
    simpa [jumpErr, jumpEnd, jumpI, jumpWords, jumpWord, hw, hn, JumpKind.code] using hj

theorem jumpWords_up (named : Str → Option Int) (labels : List Str) (k : Nat) (st : JumpSt) :
    jumpWords .return_ named labels (List.replicate k UP) st =
      { st with s := if k = 0 then st.s else UP, up := st.up + k } := by
  induction k generalizing st with
  | zero => simp [jumpWords]
  | succ k ih =>
    rw [List.replicate_succ, jumpWords]
    simp only [jumpWord, if_true]
    rw [ih]
    simp only [JumpSt.mk.injEq, Nat.add_eq_zero_iff, true_and]
    refine ⟨?_, ?_⟩
    · simp
    · push_cast; omega

/-- **C26.**  `返回` with `k + 1` words `上` in a scope of depth `d` is the jump with the number `d - k`; an error when
there are not so many levels. -/
theorem C26_statement_up {a : List Code} {env : Env} {s t : St} {k : Nat}
    (h : Spec.Words H a env s (List.replicate (k + 1) c!"上") t)
    (hd : (t.scopes env.q).i - k ≠ 1000) :
    Evals H (.item (.jump .return_ a) env) s { r := .error (if (k : Int) + 1 ≤ (t.scopes env.q).i
      then ⟨RETURN, (t.scopes env.q).i - k, c!"上", []⟩ else ⟨ERR, NO, c!"上", []⟩) } t := by
  have hj := jump_item (k := .return_) h
  revert hj
  generalize (fun w => (namedScope t.scopes t.mods env.q w).map fun p => (t.scopes p).i) = named
  intro hj
  have e : jumpErr .return_ named t.labels (t.scopes env.q).i (List.replicate (k + 1) c!"上") =
      if (k : Int) + 1 ≤ (t.scopes env.q).i then ⟨RETURN, (t.scopes env.q).i - k, c!"上", []⟩
       else ⟨ERR, NO, c!"上", []⟩ := by
    have hx := jumpWords_up named t.labels (k + 1) ⟨[], NO, -1, 0⟩
    rw [if_neg (by omega)] at hx
    have hl : List.replicate (k + 1) c!"上" = UP :: List.replicate k UP := rfl
    have hl' : List.replicate (k + 1) UP = UP :: List.replicate k UP := rfl
    have he : jumpEnd .return_ named t.labels (t.scopes env.q).i (List.replicate (k + 1) c!"上") =
        ⟨UP, NO, (t.scopes env.q).i, k + 1⟩ := by
      rw [hl, jumpEnd, ← hl', hx]
      simp only [Int.zero_add]
      rw [if_pos ⟨by push_cast; omega, by decide⟩]
      simp
    unfold jumpErr
    rw [he]
    dsimp only
    by_cases hk : (k : Int) + 1 ≤ (t.scopes env.q).i
    · rw [if_pos hk]
      have e1 : jumpI .return_ ⟨UP, NO, (t.scopes env.q).i, k + 1⟩ = (t.scopes env.q).i - k := by
        simp only [jumpI, hk, if_true]; omega
      rw [e1, if_neg (by unfold NO; exact hd)]
      rfl
    · rw [if_neg hk]
      simp only [jumpI, hk, if_false]
      rfl
  rw [e] at hj
  exact hj

/-! ## Which evaluation a `返回` ends -/

/-- On this step outwards no text of a scope ends, and no `管道节` or handler of a passive process is left. -/
def Spec.SameText : Call → Call → Prop
  | .src .., .codes .. => False
  | .z4 .., .codes .. => False
  | .item (.jie2 _) _, .codes .. => False
  | .slave .., .src .. => False
  | .item (.exec _) _, .slave .. => False
  | _, _ => True

/-- On this step outwards the text that ends is that of a scope of a depth over `d` (in the state `t`), and no
`管道节` or handler of a passive process is left. -/
def Spec.Deeper (t : St) (d : Int) : Call → Call → Prop
  | .src .., .codes _ _ _ env => d < (t.scopes env.q).i
  | .z4 .., .codes _ _ _ env => d < (t.scopes env.q).i
  | .item (.jie2 _) _, .codes .. => False
  | .slave .., .src .. => False
  | .item (.exec _) _, .slave .. => False
  | _, _ => True

theorem sameText_deeper {t : St} {d : Int} {c c' : Call} (h : Spec.SameText c c') : Spec.Deeper t d c c' := by
  cases c with
  | item c env => cases c <;> cases c' <;> first | exact h.elim | trivial
  | _ => cases c' <;> first | exact h.elim | trivial

theorem return_not_consumed {range : Bool} {name : Option Str} {e : Err} (h : e.i = RETURN) :
    ¬ Spec.Consumes range name e := by
  intro hc
  obtain ⟨⟨brk, h1⟩, -⟩ := consumes_iff.1 hc
  rw [h] at h1
  revert h1
  cases range <;> cases brk <;> decide

theorem deeper_catches {t t' : St} {e : Err} (hi : e.i = RETURN) (ht : t'.scopes = t.scopes) {c c' : Call}
    (h : Spec.Deeper t e.i2 c c') : ¬ Spec.Catches c e c' t' := by
  cases c with
  | item c env => cases c <;> cases c' <;> first | exact h.elim | exact id
  | slave _ _ _ _ _ => cases c' <;> first | exact h.elim | exact id
  | loop range codes max useI cnt env i hn =>
    cases c' <;> first | exact id | exact return_not_consumed hi
  | src _ _ =>
    cases c' <;> first | exact id | skip
    rintro ⟨-, h2⟩
    rw [ht] at h2
    exact Int.not_le.2 h h2
  | z4 _ _ _ _ _ _ =>
    cases c' <;> first | exact id | skip
    rintro ⟨-, h2⟩
    rw [ht] at h2
    exact Int.not_le.2 h h2
  | _ => exact id

theorem return_jump {i2 : Int} {s s2 : Str} : Spec.Jump ⟨RETURN, i2, s, s2⟩ := rfl

/-- **C26.**  A statement that ended with a `返回` of the number `i2` ends the innermost enclosing text of a scope of depth at
most `i2`, and nothing more: that text is left at once and what evaluates it goes on normally. -/
theorem C26_unwinds {c c' c2 : Call} {s s1 s2 : St} {r : Res} {t : St} {i2 : Int} {w m : Str}
    (hb : Spec.Body c c') (hp : Spec.Part H c s c' s1) (hw : Spec.Within H (Spec.Deeper t i2) c' s1 c2 s2)
    (he : Evals H c2 s2 r t) (hr : r.r = .error ⟨RETURN, i2, w, m⟩) (hd : (t.scopes c'.scope).i ≤ i2) :
    ∃ t', Spec.Same t t' ∧ Spec.Resumes H c s t' := by
  obtain ⟨r', t', h1, h2, h3⟩ := C24_through (e := ⟨RETURN, i2, w, m⟩) return_jump
    (hw.mono fun _ _ h => deeper_catches rfl rfl h) he hr
  refine ⟨t', h3, resumes hb hp h1 ?_⟩
  rw [h2, h3.scopes]
  simp only [jumpReturn, true_and]
  rw [if_pos hd]

theorem part_src {x : Str} {env : Env} {s : St} {c' : Call} {s' : St} (h : Spec.Part H (.src x env) s c' s') :
    c'.IsCodes := by
  obtain ⟨k, hd, h1, -⟩ := part_conts h
  change Conts ((srcP x env).run.bind _) _ _ at h1
  rcases conts_bind h1 with ⟨k', h1, -⟩ | ⟨a, h⟩
  · unfold srcP at h1
    rcases conts_bindE h1 with ⟨k2, h2, -⟩ | ⟨codes, h2⟩
    · cases h2 with | op h2 => cases h2
    · cases h2 with
      | call => trivial
      | next h2 =>
        unfold returnP at h2
        cases h2 with | op h2 => cases h2
  · cases h

theorem part_get {l : List Item} {isHas : Bool} {equ : EquName} {env : Env} {s : St} {c' : Call} {s' : St}
    (h : Spec.Part H (.get l isHas equ env) s c' s') (q : Nat) : c'.Stays q := by
  obtain ⟨k, hd, h1, -⟩ := part_conts h
  have h2 := passes_resE (p_get2P (q0 := q) .qve (fun _ _ => True) (l := l) (a := isHas) (b := equ) (env := env))
  exact h2.allowed h1

/-- The scope of a statement is that of the text it is in. -/
theorem sameText_scope {c c' : Call} {s s' : St} (h : Spec.Within H Spec.SameText c s c' s') (hi : ∃ x env, c' = .item x env) :
    match c with
    | .src .. => False
    | .get .. => False
    | _ => c'.scope = c.scope := by
  induction h with
  | here =>
    obtain ⟨x, env, rfl⟩ := hi
    exact rfl
  | @step c s c1 s1 c' s' h1 h2 h3 ih =>
    replace ih := ih hi
    have get0 : ∀ {l isHas equ env}, c = .get l isHas equ env → False := by
      rintro l isHas equ env rfl
      have h4 := part_get h1 c1.scope
      have h5 := part_get h1 (c1.scope + 1)
      cases c1 <;> first | exact ih | exact h4 | exact Nat.succ_ne_self _ (h4.symm.trans h5).symm
    have src0 : ∀ {x env}, c = .src x env → False := by
      rintro x env rfl
      have h4 := part_src h1
      cases c1 <;> first | exact h4 | exact h2
    have main : c'.scope = c.scope := by
      rcases part_in h1 with h4 | ⟨h4, h5⟩
      · cases c1 <;> first | exact ih.elim | exact ih.trans h4
      · cases c <;> first | exact h4.elim | (cases c1 <;> first | exact h5.elim | exact h2.elim)
    cases c <;> first | exact main | exact (get0 rfl).elim | exact (src0 rfl).elim

theorem Spec.Within.kept {P : Call → Call → Prop} {R : St → St → Prop} (k : Kept H R) {c c' : Call} {s s' : St}
    (h : Spec.Within H P c s c' s') : R s s' := by
  induction h with
  | here => exact k.refl _
  | step h1 _ _ ih => obtain ⟨n, h1⟩ := h1; exact k.trans (k.calls (k.run n) _ _ h1) ih

theorem reached_scope {ovf : Bool} {argv : List Str} {c : Call} {env : Env} (hc : c.env = some env) {s : St}
    (hR : Reached H ovf argv c s) : env.q < s.nscope ∧ 0 ≤ (s.scopes env.q).i := by
  obtain ⟨C, hp⟩ := reached_frame hR
  have h := (hp.2.1 env hc).q.1
  exact ⟨h, hp.1.inv.depth _ h⟩

/-- **C26.**  A plain `返回` ends exactly the text of the scope it is in: the innermost script or body of a definition
that is being evaluated around it (when no `管道节` and no handler of a passive process lies in between). -/
theorem C26_plain {ovf : Bool} {argv : List Str} {c : Call} {a : List Code} {i j : Nat} {env env' : Env} {s s1 s2 : St}
    (hR : Reached H ovf argv c s) (hb : Spec.Body c (.codes a i j env)) (hp : Spec.Part H c s (.codes a i j env) s1)
    (hw : Spec.Within H Spec.SameText (.codes a i j env) s1 (.item (.jump .return_ []) env') s2)
    (hd : (s2.scopes env'.q).i ≠ 999) :
    env'.q = env.q ∧ ∃ t, Spec.Same (Spec.fresh s2) t ∧ Spec.Resumes H c s t := by
  have hq : env'.q = env.q := sameText_scope hw ⟨_, _, rfl⟩
  have h0 : 0 ≤ (s2.scopes env'.q).i := by
    obtain ⟨n, hp⟩ := hp
    exact (reached_scope rfl (hw.reached (.step n hR hp))).2
  refine ⟨hq, C26_unwinds hb hp (hw.mono fun _ _ h => sameText_deeper h) (C26_statement_plain env' s2 hd h0) rfl ?_⟩
  change (s2.scopes env.q).i ≤ (s2.scopes env'.q).i + 1
  rw [hq]; omega

/-- **C26.**  A `返回` with the name `w` ends the text of every scope that lies deeper than the nearest scope `p` of that
name, up to the text of a child of `p` (or of `p` itself), and nothing more: the evaluation goes on in `p` (or
where the text of `p` was evaluated). -/
theorem C26_named {ovf : Bool} {argv : List Str} {c : Call} {a b : List Code} {i j : Nat} {env env' : Env} {s s1 s2 t : St}
    {w : Str} {p : Nat} (hR : Reached H ovf argv c s)
    (hb : Spec.Body c (.codes a i j env)) (hp : Spec.Part H c s (.codes a i j env) s1)
    (hw : Spec.Within H (Spec.Deeper t ((t.scopes p).i + 1)) (.codes a i j env) s1 (.item (.jump .return_ b) env') s2)
    (hv : Spec.Words H b env' s2 [w] t) (hu : w ≠ c!"上") (hn : Spec.Nearest t env'.q w p) (hd : (t.scopes p).i ≠ 999)
    (hc : (t.scopes env.q).up = some p ∨ env.q = p) : ∃ t', Spec.Same t t' ∧ Spec.Resumes H c s t' := by
  have hR1 : Reached H ovf argv (.codes a i j env) s1 := by obtain ⟨n, hp⟩ := hp; exact .step n hR hp
  replace hR := hw.reached hR1
  refine C26_unwinds hb hp hw ((C26_statement_named hR hv hu).1 p hn hd) rfl ?_
  change (t.scopes env.q).i ≤ _
  rcases hc with hc | rfl
  · obtain ⟨x, h1, -, -⟩ := hv
    obtain ⟨C, hi, -⟩ := older_after (words_reached hR) h1
    have hq : env.q < t.nscope := by
      refine Nat.lt_of_lt_of_le (reached_scope rfl hR1).1 (Nat.le_trans (hw.kept (kept_unused H)).1 ?_)
      obtain ⟨n, h1⟩ := h1
      have := ((kept_unused H).run n (.codes b 0 usizeMax { env' with ret := s2.nlist }) (Spec.fresh s2)).1
      rw [h1] at this
      exact this
    have := (hi.up _ hq _ hc).2.1
    omega
  · omega

/-! ## No `返回` escapes -/

/-- **C26.**  Whatever lies between: when a statement ended with a `返回` inside the text of a scope that the number of the
`返回` reaches, then some evaluation around the statement (that of this text, or one inside it) ends it. -/
theorem C26_never_escapes {P : Call → Call → Prop} {c c' c2 : Call} {s s1 s2 : St} {r : Res} {t : St} {i2 : Int} {w m : Str}
    (hb : Spec.Body c c') (hp : Spec.Part H c s c' s1) (hw : Spec.Within H P c' s1 c2 s2)
    (he : Evals H c2 s2 r t) (hr : r.r = .error ⟨RETURN, i2, w, m⟩) (hd : (t.scopes c'.scope).i ≤ i2) :
    ∃ c3 s3 c4 s4 r4 t4, Spec.Within H (fun _ _ => True) c s c3 s3 ∧ Spec.Part H c3 s3 c4 s4 ∧
      Spec.Within H (fun c c' => ¬ Spec.Catches c ⟨RETURN, i2, w, m⟩ c' t) c4 s4 c2 s2 ∧
      Evals H c4 s4 r4 t4 ∧ r4.r = .error ⟨RETURN, i2, w, m⟩ ∧ Spec.Same t t4 ∧
      Spec.Catches c3 ⟨RETURN, i2, w, m⟩ c4 t4 := by
  have key : ∀ {c0 s0}, Spec.Within H P c0 s0 c2 s2 →
      Spec.Within H (fun c c' => ¬ Spec.Catches c ⟨RETURN, i2, w, m⟩ c' t) c0 s0 c2 s2 ∨
      ∃ c3 s3 c4 s4, Spec.Within H (fun _ _ => True) c0 s0 c3 s3 ∧ Spec.Part H c3 s3 c4 s4 ∧
        Spec.Within H (fun c c' => ¬ Spec.Catches c ⟨RETURN, i2, w, m⟩ c' t) c4 s4 c2 s2 ∧
        Spec.Catches c3 ⟨RETURN, i2, w, m⟩ c4 t := by
    intro c0 s0 h
    clear hb hp hw
    induction h with
    | here => exact .inl .here
    | @step c0 s0 c1 s1 c2 s2 h1 h2 h3 ih =>
      rcases ih he with h | ⟨c3, s3, c4, s4, h4, h5, h6, h7⟩
      · by_cases hc : Spec.Catches c0 ⟨RETURN, i2, w, m⟩ c1 t
        · exact .inr ⟨c0, s0, c1, s1, .here, h1, h, hc⟩
        · exact .inl (.step h1 hc h)
      · exact .inr ⟨c3, s3, c4, s4, .step h1 trivial h4, h5, h6, h7⟩
  obtain ⟨c3, s3, c4, s4, h1, h2, h3, h4⟩ : ∃ c3 s3 c4 s4, Spec.Within H (fun _ _ => True) c s c3 s3 ∧
      Spec.Part H c3 s3 c4 s4 ∧
      Spec.Within H (fun c c' => ¬ Spec.Catches c ⟨RETURN, i2, w, m⟩ c' t) c4 s4 c2 s2 ∧
      Spec.Catches c3 ⟨RETURN, i2, w, m⟩ c4 t := by
    rcases key hw with h | ⟨c3, s3, c4, s4, h1, h2, h3, h4⟩
    · refine ⟨c, s, c', s1, .here, hp, h, ?_⟩
      cases c' with
      | codes a i j env => cases c <;> first | exact hb.elim | exact ⟨rfl, hd⟩
      | _ => cases c <;> exact hb.elim
    · exact ⟨c3, s3, c4, s4, .step hp trivial h1, h2, h3, h4⟩
  obtain ⟨r4, t4, h5, h6, h7⟩ := C24_through (e := ⟨RETURN, i2, w, m⟩) return_jump h3 he hr
  exact ⟨c3, s3, c4, s4, r4, t4, h1, h2, h3, h5, h6, h7, (catches_same h7).2 h4⟩

/-! ## Concrete cases -/

/-- `Spec.Deeper`, computed: the texts of the scopes `qs` may end. -/
def deeperB (qs : List Nat) : Call → Call → Bool
  | .src .., .codes _ _ _ env => qs.contains env.q
  | .z4 .., .codes _ _ _ env => qs.contains env.q
  | .item (.jie2 _) _, .codes .. => false
  | .slave .., .src .. => false
  | .item (.exec _) _, .slave .. => false
  | _, _ => true

/-- The texts of the scopes `qs` may end. -/
def Spec.Texts (qs : List Nat) : Call → Call → Prop
  | .src .., .codes _ _ _ env => env.q ∈ qs
  | .z4 .., .codes _ _ _ env => env.q ∈ qs
  | .item (.jie2 _) _, .codes .. => False
  | .slave .., .src .. => False
  | .item (.exec _) _, .slave .. => False
  | _, _ => True

theorem deeperB_sound {qs : List Nat} (c c' : Call) (h : deeperB qs c c' = true) : Spec.Texts qs c c' := by
  cases c with
  | item c env => cases c <;> cases c' <;> first | trivial | cases h
  | src _ _ => cases c' <;> first | trivial | (simp only [deeperB, List.contains_iff_mem] at h; exact h)
  | z4 _ _ _ _ _ _ => cases c' <;> first | trivial | (simp only [deeperB, List.contains_iff_mem] at h; exact h)
  | _ => cases c' <;> first | trivial | cases h

theorem texts_sameText {c c' : Call} (h : Spec.Texts [] c c') : Spec.SameText c c' := by
  cases c with
  | item c env => cases c <;> cases c' <;> first | trivial | exact h.elim
  | src _ _ => cases c' <;> first | trivial | cases h
  | z4 _ _ _ _ _ _ => cases c' <;> first | trivial | cases h
  | _ => cases c' <;> first | trivial | exact h.elim

theorem texts_deeper {qs : List Nat} {t : St} {d : Int} (hd : ∀ q ∈ qs, d < (t.scopes q).i) {c c' : Call}
    (h : Spec.Texts qs c c') : Spec.Deeper t d c c' := by
  cases c with
  | item c env => cases c <;> cases c' <;> first | trivial | exact h.elim
  | src _ _ => cases c' <;> first | trivial | exact hd _ h
  | z4 _ _ _ _ _ _ => cases c' <;> first | trivial | exact hd _ h
  | _ => cases c' <;> first | trivial | exact h.elim

/-- Words with a property of the state after them, computed. -/
def wordsB' (H : Host) (n : Nat) (a : List Code) (env : Env) (s : St) (v : List Str) (P : St → Bool) : Bool :=
  match run H n (.codes a 0 usizeMax { env with ret := s.nlist }) (Spec.fresh s) with
  | (.ok x, t) => (match x.r with | .ok _ => true | .error _ => false) && (t.lists s.nlist).toVec == v && P t
  | _ => false

theorem wordsB'_sound {n : Nat} {a : List Code} {env : Env} {s : St} {v : List Str} {P : St → Bool}
    (h : wordsB' H n a env s v P = true) : ∃ t, Spec.Words H a env s v t ∧ P t = true := by
  unfold wordsB' at h
  split at h
  · rename_i x t hr
    simp only [Bool.and_eq_true, beq_iff_eq] at h
    refine ⟨t, ⟨x, ⟨n, hr⟩, ?_, h.1.2.symm⟩, h.2⟩
    rcases hx : x.r with _ | _
    · simp [hx] at h
    · rfl
  · cases h

def isBodyB : Call → Call → Bool
  | .src .., .codes .. => true
  | .z4 .., .codes .. => true
  | _, _ => false

theorem isBodyB_sound {c c' : Call} (h : isBodyB c c' = true) : Spec.Body c c' ∧ ∃ a i j env, c' = .codes a i j env := by
  cases c <;> cases c' <;> first | exact ⟨trivial, _, _, _, _, rfl⟩ | cases h

/-- Whether the evaluation has a body with a statement in it, that has the property. -/
def bodyB (n : Nat) (q : Nat) (qs : List Nat) (P : Call → St → Bool) (c : Call) (s : St) : Bool :=
  callsB H0 (run H0 n) (fun c' s' => isBodyB c c' && c'.scope == q && withinB H0 n (deeperB qs) P n c' s') (evalF c) s

theorem bodyB_sound {n : Nat} {q : Nat} {qs : List Nat} {P : Call → St → Bool} {c : Call} {s : St} (h : bodyB n q qs P c s = true) :
    ∃ a i j env s1 c2 s2, Spec.Body c (.codes a i j env) ∧ Spec.Part H0 c s (.codes a i j env) s1 ∧ env.q = q ∧
      Spec.Within H0 (Spec.Texts qs) (.codes a i j env) s1 c2 s2 ∧ P c2 s2 = true := by
  obtain ⟨c', s1, h1, h2⟩ := callsB_sound _ _ h
  simp only [Bool.and_eq_true, beq_iff_eq] at h2
  obtain ⟨c2, s2, h3, h4⟩ := withinB_sound deeperB_sound _ h2.2
  obtain ⟨h5, a, i, j, env, rfl⟩ := isBodyB_sound h2.1.1
  exact ⟨a, i, j, env, s1, c2, s2, h5, ⟨n, h1⟩, h2.1.2, h3, h4⟩

/-- The hypotheses of `C26_plain` are met by a `返回` in the body of a definition that is called in a run. -/
theorem C26_plain_witness : ∃ c a i j env env' s s1 s2,
    Reached H0 false (demoArgv c!"定义乙以“返回。显示1”。乙。显示3") c s ∧
    Spec.Body c (.codes a i j env) ∧ Spec.Part H0 c s (.codes a i j env) s1 ∧
    Spec.Within H0 Spec.SameText (.codes a i j env) s1 (.item (.jump .return_ []) env') s2 ∧
    (s2.scopes env'.q).i ≠ 999 := by
  obtain ⟨c, s, hR, h⟩ := demoB_sound (n := 22) (src := c!"定义乙以“返回。显示1”。乙。显示3")
    (P := bodyB 22 2 [] fun c s => match c with
      | .item (.jump .return_ []) env => (s.scopes env.q).i != 999
      | _ => false) (by decide +kernel)
  obtain ⟨a, i, j, env, s1, c2, s2, h1, h2, -, h3, h4⟩ := bodyB_sound h
  split at h4
  · rename_i env'
    exact ⟨c, a, i, j, env, env', s, s1, s2, hR, h1, h2, h3.mono fun _ _ h => texts_sameText h, by simpa using h4⟩
  · cases h4

/-- The hypotheses of `C26_named` are met by a `返回甲` two definitions below the scope `甲`. -/
theorem C26_named_witness : ∃ c a b i j env env' s s1 s2 t p,
    Reached H0 false (demoArgv c!"命名甲。定义乙以“返回甲。显示1”。定义丙以“乙。显示2”。丙。显示3") c s ∧
    Spec.Body c (.codes a i j env) ∧ Spec.Part H0 c s (.codes a i j env) s1 ∧
    Spec.Within H0 (Spec.Deeper t ((t.scopes p).i + 1)) (.codes a i j env) s1 (.item (.jump .return_ b) env') s2 ∧
    Spec.Words H0 b env' s2 [c!"甲"] t ∧ Spec.Nearest t env'.q c!"甲" p ∧ (t.scopes p).i ≠ 999 ∧
    (t.scopes env.q).up = some p ∧ (t.scopes env'.q).i = (t.scopes p).i + 2 := by
  obtain ⟨c, s, hR, h⟩ := demoB_sound (n := 26) (src := c!"命名甲。定义乙以“返回甲。显示1”。定义丙以“乙。显示2”。丙。显示3")
    (P := bodyB 26 2 [3] fun c s => match c with
      | .item (.jump .return_ b) env => wordsB' H0 26 b env s [c!"甲"] fun t =>
          namedScope t.scopes t.mods env.q c!"甲" == some 1 && (t.scopes 1).i == 1 && (t.scopes 3).i == 3 &&
            (t.scopes 2).up == some 1 && env.q == 3
      | _ => false) (by decide +kernel)
  obtain ⟨a, i, j, env, s1, c2, s2, h1, h2, hq, h3, h4⟩ := bodyB_sound h
  split at h4
  · rename_i b env'
    obtain ⟨t, h5, h6⟩ := wordsB'_sound h4
    simp only [Bool.and_eq_true, beq_iff_eq] at h6
    obtain ⟨⟨⟨⟨h6, h7⟩, h8⟩, h9⟩, h10⟩ := h6
    have h2' := h2
    obtain ⟨n, h2'⟩ := h2'
    have hR2 := h3.reached (.step n hR h2')
    have ho := h5
    obtain ⟨x, h11, -, -⟩ := ho
    obtain ⟨C, hi, ho⟩ := older_after (words_reached hR2) h11
    refine ⟨c, a, b, i, j, env, env', s, s1, s2, t, 1, hR, h1, h2, ?_, h5, (namedScope_iff ho _ _ _).1 h6, ?_, ?_, ?_⟩
    · refine h3.mono fun _ _ h => texts_deeper ?_ h
      intro q hq
      obtain rfl := List.mem_singleton.1 hq
      rw [h7, h8]; decide
    · rw [h7]; decide
    · rw [hq, h9]
    · rw [h10, h8, h7]; rfl
  · cases h4

/-- What the three scripts print: the plain `返回` goes on in the calling definition, the named one in the
named scope. -/
example : demo 60 c!"定义乙以“返回。显示1”。定义丙以“乙。显示2”。丙。显示3" = (.ok (.ok ()), [.out c!"2", .out c!"3"]) ∧
    demo 60 c!"命名甲。定义乙以“返回甲。显示1”。定义丙以“乙。显示2”。丙。显示3" = (.ok (.ok ()), [.out c!"3"]) := by
  decide +kernel

end Zh
