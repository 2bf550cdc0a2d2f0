import Verif.Props.CoreArgs
/-!
# C68: running a program
-/
namespace Zh

variable {H : Host} {R : Call → St → Res → St → Prop}

/-! ## The steps of the evaluator -/

def wrap (a : List Code) (i : Nat) : Except Err Unit → Except Err Unit
  | .ok () => .ok ()
  | .error e => .error (if isJump e.i then e else { e with s2 := e.s2 ++ ('\n' :: quote (showL (a.take (i + 1)))) })

theorem wrap_flow {a : List Code} {i d : Nat} {f : Spec.Flow} {r : Except Err Unit} (h : FlowIs d f r) : FlowIs d f (wrap a i r) := by
  have h1 : ∀ e : Err, (if isJump e.i then e else { e with s2 := e.s2 ++ ('\n' :: quote (showL (a.take (i + 1)))) }).i = e.i := by
    intro e; split <;> rfl
  have h2 : ∀ e : Err, (if isJump e.i then e else { e with s2 := e.s2 ++ ('\n' :: quote (showL (a.take (i + 1)))) }).i2 = e.i2 := by
    intro e; split <;> rfl
  have h3 : ∀ e : Err, (if isJump e.i then e else { e with s2 := e.s2 ++ ('\n' :: quote (showL (a.take (i + 1)))) }).s = e.s := by
    intro e; split <;> rfl
  cases f with
  | next => cases h; exact rfl
  | brk => obtain ⟨e, rfl, h4, h5⟩ := h; exact ⟨_, rfl, by rw [h1, h4], by rw [h3, h5]⟩
  | cont => obtain ⟨e, rfl, h4, h5⟩ := h; exact ⟨_, rfl, by rw [h1, h4], by rw [h3, h5]⟩
  | ret => obtain ⟨e, rfl, h4, h5⟩ := h; exact ⟨_, rfl, by rw [h1, h4], by rw [h2]; exact h5⟩
  | fail => obtain ⟨e, rfl, h4⟩ := h; exact ⟨_, rfl, by rw [h1, h4]⟩

theorem ev_codes [Sub H R] {a : List Code} {i j : Nat} {env : Env} {s s' : St} {x : Res} :
    Ev H R (codesP a i j env) s x s' ↔ ∃ y, R (.z2 a i (min j a.length) env) s y s' ∧ x = { idx := y.idx, r := wrap a y.idx y.r } := by
  unfold codesP
  rw [ev_bind]
  constructor
  · rintro ⟨y, s1, h, h'⟩
    have h := ev_callP.1 h
    refine ⟨y, ?_⟩
    cases hr : y.r with
    | ok u => rw [hr] at h'; obtain ⟨rfl, rfl⟩ := ev_pure.1 h'; exact ⟨h, rfl⟩
    | error e => rw [hr] at h'; obtain ⟨rfl, rfl⟩ := ev_pure.1 h'; exact ⟨h, rfl⟩
  · rintro ⟨y, h, rfl⟩
    refine ⟨y, s', ev_callP.2 h, ?_⟩
    cases hr : y.r with
    | ok u => exact ev_pure.2 ⟨rfl, rfl⟩
    | error e => exact ev_pure.2 ⟨rfl, rfl⟩

theorem ev_z2_item [Sub H R] {a : List Code} {i j : Nat} {env : Env} {c : Code} {s s' : St} {r : Res} (hi : i < j) (hc : a[i]? = some c)
    (hu : c.id ≠ .undef) (hj : c.id ≠ .jvhao) (hd : c.id ≠ .dunhao) :
    Ev H R (z2P a i j env) s r s' ↔ (∃ s1, R (.item c env) s { r := .ok () } s1 ∧ R (.z2 a (i + 1) j env) s1 r s') ∨
      ∃ e, R (.item c env) s { r := .error e } s' ∧ r = { idx := i, r := .error e } := by
  unfold z2P
  rw [if_pos hi, hc]
  refine Iff.trans ?_ (ev_z2Item (H := H) (R := R) (a := a) (end_ := j) (env := env) (c := c))
  dsimp only
  split
  · exact absurd (by assumption) hu
  · exact absurd (by assumption) hj
  · exact absurd (by assumption) hd
  · exact Iff.rfl

theorem ev_z2_end {a : List Code} {i j : Nat} {env : Env} {s s' : St} {r : Res} (hi : j ≤ i) :
    Ev H R (z2P a i j env) s r s' ↔ r = { idx := i } ∧ s' = s := by
  unfold z2P
  rw [if_neg (by omega)]
  exact ev_pure

theorem ev_z2_jvhao [Sub H R] {a : List Code} {i j : Nat} {env : Env} {s s' : St} {r : Res} (hi : i < j) (hc : a[i]? = some (.kw1 .jvhao))
    (hg : env.gd.jvhao = false) (he : (s.lists env.ret).a = []) :
    Ev H R (z2P a i j env) s r s' ↔ R (.z2 a (i + 1) j env) s r s' := by
  unfold z2P
  rw [if_pos hi, hc]
  show Ev H R (if env.gd.jvhao = true then _ else _) s r s' ↔ _
  rw [if_neg (by rw [hg]; decide), ev_bind]
  have e : addsJvhao s a i env = false := by
    unfold addsJvhao
    simp [RList.last?, he]
  constructor
  · rintro ⟨t, s1, h1, h2⟩
    obtain ⟨e1, e2⟩ := ev_getSt.1 h1
    rw [e1, e2, e] at h2
    exact ev_callP.1 h2
  · intro h
    refine ⟨s, s, ev_getSt.2 ⟨rfl, rfl⟩, ?_⟩
    rw [e]
    exact ev_callP.2 h

/-- A word that is a call. -/
theorem ev_z2_word [Sub H R] {a : List Code} {i j : Nat} {env : Env} {f : Str} {s s' : St} {r : Res} (hi : i < j)
    (hc : a[i]? = some (.undef f)) (hg : env.gd.undefEqText = false) :
    Ev H R (z2P a i j env) s r s' ↔ ∃ y s1, R (.z4 a f f.length j env ⟨0, false, i, [], []⟩) s y s1 ∧ match y.r with
      | .error e => r = { idx := y.idx, r := .error e } ∧ s' = s1
      | .ok () => if y.has then R (.z2 a y.idx j env) s1 r s' else Ev H R (z2Item a y.idx j env (.undef f)) s1 r s' := by
  unfold z2P
  rw [if_pos hi, hc]
  show Ev H R (if env.gd.undefEqText = true then _ else _) s r s' ↔ _
  rw [if_neg (by rw [hg]; decide), ev_bind]
  refine exists_congr fun y => exists_congr fun s1 => ?_
  rw [ev_callP]
  refine and_congr_right fun _ => ?_
  cases y.r with
  | error e => exact ev_pure
  | ok u =>
    dsimp only
    split
    · exact ev_callP
    · exact Iff.rfl

theorem ev_block [Sub H R] {a : List Code} {env : Env} {s s' : St} {r : Res} :
    Ev H R (resE (itemP (.block a) env)) s r s' ↔
      ∃ x, R (.codes a 0 usizeMax { env with gd := { env.gd with jvhao := false } }) s x s' ∧ r = { r := x.r } := by
  unfold resE
  rw [ev_bind]
  constructor
  · rintro ⟨y, s1, h1, h2⟩
    obtain ⟨x, h3, rfl⟩ := evE_hello.1 (show EvE H R (hello [] a _) s y s1 from h1)
    obtain ⟨rfl, rfl⟩ := ev_pure.1 h2
    exact ⟨x, h3, rfl⟩
  · rintro ⟨x, h, rfl⟩
    exact ⟨x.r, s', show EvE H R (hello [] a _) s x.r s' from evE_hello.2 ⟨x, h, rfl⟩, ev_pure.2 ⟨rfl, rfl⟩⟩

theorem ev_itemR [Sub H R] {c : Code} {env : Env} {s s' : St} {r : Res} :
    Ev H R (resE (itemP c env)) s r s' ↔ ∃ x, EvE H R (itemP c env) s x s' ∧ r = { r := x } := by
  unfold resE
  rw [ev_bind]
  constructor
  · rintro ⟨y, s1, h1, h2⟩
    obtain ⟨rfl, rfl⟩ := ev_pure.1 h2
    exact ⟨y, h1, rfl⟩
  · rintro ⟨x, h, rfl⟩
    exact ⟨x, s', h, ev_pure.2 ⟨rfl, rfl⟩⟩

/-- The counter of a loop is set. -/
def countSt (cnt : Cnt) (q : Nat) (j : Nat) (hn : Bool) (s : St) : St :=
  match cnt.name with
  | none => s
  | some x => { s with items := upd s.items s.nitem [], nitem := s.nitem + 1,
                       scopes := upd s.scopes q { s.scopes q with
                         vars := setVar ⟨x, ⟨s.nitem, .s (cnt.value j)⟩, false, false, false⟩ (s.scopes q).vars },
                       labels := if hn then s.labels else s.labels ++ [x] }

theorem det_loopSet {cnt : Cnt} {env : Env} {j : Nat} {hn : Bool} {s : St} (hh : .scope env.q ∉ s.held) :
    Det H R (loopSet cnt env j hn) s () (countSt cnt env.q j hn s) := by
  unfold loopSet countSt
  cases cnt.name with
  | none => exact det_pure () s
  | some x =>
    dsimp only
    have hh : s.held.contains (.scope env.q) = false := by simpa using hh
    refine Det.bind (det_op (o := .newItem (.s (cnt.value j)) []) rfl) ?_
    have e : ∀ (v : Var) (t : St), t.held = s.held →
        (Op.setVar env.q v).run H t = (.ok (), { t with scopes := upd t.scopes env.q { t.scopes env.q with vars := setVar v (t.scopes env.q).vars } }) := by
      intro v t ht
      simp only [Op.run, St.modScope, ht, hh, Bool.false_eq_true, if_false]
    refine Det.bind (det_op (e _ _ rfl)) ?_
    cases hn with
    | true => exact det_pure () _
    | false => exact det_op (o := .pushLabel x) rfl

/-- A turn of a loop. -/
theorem ev_loop [Sub H R] {a : List Code} (ha : a ≠ []) {max : Nat} {useI : Bool} {cnt : Cnt} {i : Nat} {hn : Bool} {env : Env} {s s' : St} {r : Res}
    (hh : .scope env.q ∉ s.held) (hl : (useI && decide ((if useI then i + 1 else i) > max)) = false) :
    Ev H R (loopP false a max useI cnt env i hn) s r s' ↔
      ∃ x s1, R (.codes a 0 usizeMax env) (countSt cnt env.q (if useI then i + 1 else i) hn s) x s1 ∧ match x.r with
        | .ok () => R (.loop false a max useI cnt env (if useI then i + 1 else i) cnt.name.isSome) s1 r s'
        | .error e => if loopTakes false cnt.name e then
            (if e.i = BREAK then r = { has := cnt.name.isSome } ∧ s' = s1
             else R (.loop false a max useI cnt env (if useI then i + 1 else i) cnt.name.isSome) s1 r s')
            else r = { has := cnt.name.isSome, r := .error e } ∧ s' = s1 := by
  have hne : a.isEmpty = false := by cases a <;> simp_all
  rw [loopP_eq, hl, if_neg (by decide), (det_loopSet hh).ev_bind]
  generalize (if useI = true then i + 1 else i) = j
  unfold loopTail
  rw [hne]
  dsimp only
  rw [if_neg (by decide), ev_bind]
  refine exists_congr fun x => exists_congr fun s1 => ?_
  rw [ev_callP]
  refine and_congr_right fun _ => ?_
  cases x.r with
  | ok u => exact ev_callP
  | error e =>
    dsimp only
    split
    · show Ev H R (if e.i = BREAK then _ else _) s1 r s' ↔ _
      split
      · exact ev_pure
      · exact ev_callP
    · exact ev_pure

/-- All turns have been made. -/
theorem ev_loop_over {a : List Code} {max : Nat} {useI : Bool} {cnt : Cnt} {i : Nat} {hn : Bool} {env : Env} {s s' : St} {r : Res}
    (hl : (useI && decide ((if useI then i + 1 else i) > max)) = true) :
    Ev H R (loopP false a max useI cnt env i hn) s r s' ↔ r = { has := hn } ∧ s' = s := by
  rw [loopP_eq, hl, if_pos rfl]
  exact ev_pure

/-- The label of a loop is given up. -/
def popSt (b : Bool) (s : St) : St := if b then { s with labels := s.labels.dropLast } else s

/-- How often a loop is made, and whether turns are counted. -/
def limits (cnt : Cnt) : Nat × Bool := match cnt.max with
  | some i => (i.toNat, true)
  | none => (usizeMax - 1, cnt.name.isSome)

theorem evE_pop {x : Res} {s s' : St} {y : Except Err Unit} :
    EvE H R (do
      if x.has then doOp .popLabel
      ExceptT.mk (pure x.r) : E Unit) s y s' ↔ y = x.r ∧ s' = popSt x.has s := by
  unfold popSt
  cases x.has with
  | true =>
    constructor
    · intro h
      obtain ⟨u, s1, h1, h2⟩ := evE_lift_bind.1 h
      obtain ⟨-, rfl⟩ := (det_op (o := .popLabel) rfl _ _).1 h1
      exact evE_mk.1 h2
    · intro h
      exact evE_lift_bind.2 ⟨(), _, (det_op (o := .popLabel) rfl _ _).2 ⟨rfl, rfl⟩, evE_mk.2 h⟩
  | false => exact evE_mk

theorem forP_nil (cnt : Cnt) (a : List Code) (env : Env) : forP false cnt [] a env = (do
    let rs ← remsP [] env
    let cnt ← ExceptT.mk (pure (cntRems false rs 0 cnt))
    let r ← callP [] (.loop false a (limits cnt).1 (limits cnt).2 cnt env 0 false)
    if r.has then doOp .popLabel
    ExceptT.mk (pure r.r) : E Unit) := by
  unfold forP limits
  rfl

theorem ev_for_of [Sub H R] {a : List Code} {cnt : Cnt} {env : Env} {s s' : St} {y : Except Err Unit}
    (h : EvE H R (forP false cnt [] a env) s y s') :
    ∃ x s1, R (.loop false a (limits cnt).1 (limits cnt).2 cnt env 0 false) (Spec.noted s) x s1 ∧ y = x.r ∧ s' = popSt x.has s1 := by
  rw [forP_nil] at h
  rcases evE_bind.1 h with ⟨rs, s1, h1, h2⟩ | ⟨e, h1, -⟩
  · obtain ⟨h3, h4⟩ := ev_unique (remsP_nil (env := env) (s := s)) (Ev.mono (fun _ _ _ _ h => Sub.evals h) h1)
    cases h3
    subst h4
    rcases evE_bind.1 h2 with ⟨c, s2, h5, h6⟩ | ⟨e, h5, -⟩
    · obtain ⟨h7, rfl⟩ := evE_mk.1 h5
      cases h7
      obtain ⟨x, s3, h8, h9⟩ := evE_lift_bind.1 h6
      exact ⟨x, s3, ev_callP.1 h8, evE_pop.1 h9⟩
    · obtain ⟨h7, -⟩ := evE_mk.1 h5
      cases h7
  · obtain ⟨h3, -⟩ := ev_unique (remsP_nil (env := env) (s := s)) (Ev.mono (fun _ _ _ _ h => Sub.evals h) h1)
    cases h3

theorem for_of {a : List Code} {cnt : Cnt} {env : Env} {s s' : St} {x : Res}
    (h : Evals H (.loop false a (limits cnt).1 (limits cnt).2 cnt env 0 false) (Spec.noted s) x s') :
    EvE H (Evals H) (forP false cnt [] a env) s x.r (popSt x.has s') := by
  rw [forP_nil]
  refine evE_bind.2 (.inl ⟨_, _, remsP_nil, ?_⟩)
  refine evE_bind.2 (.inl ⟨_, _, evE_mk.2 ⟨rfl, rfl⟩, ?_⟩)
  exact evE_lift_bind.2 ⟨x, s', ev_callP.2 h, evE_pop.2 ⟨rfl, rfl⟩⟩

/-- The call of a definition, by its name. -/
theorem ev_z4_call [Sub H R] {a : List Code} {f src : Str} {end_ i p k : Nat} {env : Env} {s s' : St} {r : Res} {d : Def}
    (hf : Spec.FirstCall s env.q [] f [] p k d []) (hg : d.names.hasGe = false) (hv : d.val = .s src) :
    Ev H R (z4P a f f.length end_ env ⟨0, false, i, [], []⟩) s r s' ↔
      ∃ r1 t1, Ev H R (z4Args (.def_ p k) d a f f.length end_ env f.length i [] 0 s.nlist) (Spec.opened s d env.q) r1 t1 ∧
        match r1.r with
        | .error e => r = { idx := r1.idx, idx2 := r1.idx2, has := true, r := .error e } ∧ s' = t1
        | .ok () => ∃ x t2, EvE H R (z4Body (.def_ p k) d src env p s.nscope s.nlist) t1 x t2 ∧ match x with
          | .error e => r = { idx := r1.idx, idx2 := r1.idx2, has := true, r := .error e } ∧ s' = t2
          | .ok () => R (.z4 a f f.length end_ env ⟨r1.idx2, true, r1.idx, [], []⟩) t2 r s' := by
  obtain ⟨f1, f2, f3, f4⟩ := of_firstCall (cs := f) (pos := 0) (Nat.zero_le _) hf
  have hpos : 0 < f.length := by
    have h1 := hf.text
    have h2 := hf.inside
    rcases Nat.eq_zero_or_pos f.length with h | h
    · rw [List.length_eq_zero_iff.1 h] at h1
      exact absurd h1.symm h2
    · exact h
  have hlen : 0 + ([] : Str).length + d.name0.length = f.length := by rw [f4]; simp
  unfold z4P
  rw [if_pos hpos, ev_bind]
  have call : Ev H R (z4Call a f f.length end_ env ⟨0, false, i, [], []⟩ f.length p k d src [] 0) s r s' ↔
      ∃ r1 t1, Ev H R (z4Args (.def_ p k) d a f f.length end_ env f.length i [] 0 s.nlist) (Spec.opened s d env.q) r1 t1 ∧
        match r1.r with
        | .error e => r = { idx := r1.idx, idx2 := r1.idx2, has := true, r := .error e } ∧ s' = t1
        | .ok () => ∃ x t2, EvE H R (z4Body (.def_ p k) d src env p s.nscope s.nlist) t1 x t2 ∧ match x with
          | .error e => r = { idx := r1.idx, idx2 := r1.idx2, has := true, r := .error e } ∧ s' = t2
          | .ok () => R (.z4 a f f.length end_ env ⟨r1.idx2, true, r1.idx, [], []⟩) t2 r s' := by
    have ea : ((Spec.opened s d env.q).scopes s.nscope).args = s.nlist := by simp [Spec.opened, upd, Scope.new]
    unfold z4Call
    constructor
    · intro h
      obtain ⟨q2, s1, h1, h2⟩ := ev_bind.1 h
      have h1 := ev_doOp.1 h1
      rw [run_newScope] at h1
      simp only [Prod.mk.injEq, Out.ok.injEq] at h1
      obtain ⟨rfl, rfl⟩ := h1
      obtain ⟨st, s2, h3, h4⟩ := ev_bind.1 h2
      obtain ⟨e1, e2⟩ := ev_getSt.1 h3
      rw [e1, e2, ea] at h4
      dsimp only at h4
      obtain ⟨r1, t1, h5, h6⟩ := ev_bind.1 h4
      refine ⟨r1, t1, h5, ?_⟩
      cases hr : r1.r with
      | error e => rw [hr] at h6; exact ev_pure.1 h6
      | ok u =>
        rw [hr] at h6
        obtain ⟨x, s4, h7, h8⟩ := ev_bind.1 h6
        refine ⟨x, s4, h7, ?_⟩
        cases x with
        | error e => exact ev_pure.1 h8
        | ok u => exact ev_callP.1 h8
    · rintro ⟨r1, t1, h1, h2⟩
      refine ev_bind.2 ⟨_, _, ev_doOp.2 run_newScope, ev_bind.2 ⟨_, _, ev_getSt.2 ⟨rfl, rfl⟩, ?_⟩⟩
      rw [ea]
      dsimp only
      refine ev_bind.2 ⟨_, _, h1, ?_⟩
      cases hr : r1.r with
      | error e => rw [hr] at h2; exact ev_pure.2 h2
      | ok u =>
        rw [hr] at h2
        obtain ⟨x, t2, h3, h4⟩ := h2
        refine ev_bind.2 ⟨_, _, h3, ?_⟩
        cases x with
        | error e => exact ev_pure.2 h4
        | ok u => exact ev_callP.2 h4
  rw [← call]
  constructor
  · rintro ⟨st, s1, h1, h2⟩
    obtain ⟨e1, e2⟩ := ev_getSt.1 h1
    rw [e1, e2, f1] at h2
    dsimp only at h2
    rw [hf.def_] at h2
    dsimp only at h2
    rw [sparg_plain hg, hlen] at h2
    obtain ⟨o, s2, h3, h4⟩ := ev_bind.1 h2
    obtain ⟨h5, rfl⟩ := ev_ofOut.1 h3
    cases h5
    dsimp only at h4
    obtain ⟨u, s3, h6, h7⟩ := ev_bind.1 h4
    have h6 := ev_addTs.1 h6
    rw [hv] at h7
    have : s3 = s2 := by rw [h6]; simp [St.pushs]
    rw [this] at h7
    exact h7
  · intro h
    refine ⟨s, s, ev_getSt.2 ⟨rfl, rfl⟩, ?_⟩
    rw [f1]
    dsimp only
    rw [hf.def_]
    dsimp only
    rw [sparg_plain hg, hlen]
    refine ev_bind.2 ⟨_, s, ev_ofOut.2 ⟨rfl, rfl⟩, ?_⟩
    dsimp only
    refine ev_bind.2 ⟨(), s, ev_addTs.2 (by simp [St.pushs]), ?_⟩
    rw [hv]
    exact h

/-- The body of a called definition. -/
theorem ev_z4Body [Sub H R] {h : Held} {d : Def} {src : Str} {env : Env} {p q l : Nat} {t t' : St} {x : Except Err Unit} (hb : d.backarg = 0)
    {codes : List Code} {c : Cache (List Code)} (hp : codesCache H.hash parse t.cache src = .ok (.ok codes, c)) :
    EvE H R (z4Body h d src env p q l) t x t' ↔
      ∃ y s1, R (.codes codes 0 usizeMax ⟨{ env.gd with jvhao := false }, q, env.ret, some p⟩) (({ t with cache := c } : St).hold [h]) y s1 ∧
        x = jumpReturn (s1.scopes q).i y.r ∧ t' = { s1 with held := t.held } := by
  have hz : z4Body h d src env p q l = (parseE src >>= fun codes => do
      let r ← liftM (callP [h] (.codes codes 0 usizeMax ⟨{ env.gd with jvhao := false }, q, env.ret, some p⟩))
      returnP q r.r) := by
    unfold z4Body
    rw [hb]
    rfl
  rw [hz]
  unfold parseE
  have hrun : (Op.parse src).run H t = (.ok (.ok codes), { t with cache := c }) := by
    simp only [Op.run]
    rw [hp]
  constructor
  · intro h
    rcases evE_bind.1 h with ⟨cs, s1, h1, h2⟩ | ⟨e, h1, -⟩
    · have h1 := ev_doOp.1 h1
      rw [hrun] at h1
      simp only [Prod.mk.injEq, Out.ok.injEq, Except.ok.injEq] at h1
      obtain ⟨rfl, rfl⟩ := h1
      obtain ⟨y, s2, h3, h4⟩ := evE_lift_bind.1 h2
      obtain ⟨y', s3, h5, h6⟩ := ev_call.1 h3
      obtain ⟨rfl, rfl⟩ := ev_ret.1 h6
      unfold returnP at h4
      obtain ⟨st, s4, h7, h8⟩ := evE_lift_bind.1 h4
      obtain ⟨e1, e2⟩ := ev_getSt.1 h7
      rw [e1, e2] at h8
      obtain ⟨rfl, rfl⟩ := evE_mk.1 h8
      exact ⟨y, s3, h5, rfl, rfl⟩
    · have h1 := ev_doOp.1 h1
      rw [hrun] at h1
      simp at h1
  · rintro ⟨y, s1, h1, rfl, rfl⟩
    refine evE_bind.2 (.inl ⟨codes, _, ev_doOp.2 hrun, ?_⟩)
    refine evE_lift_bind.2 ⟨y, _, ev_call.2 ⟨y, s1, h1, ev_ret.2 ⟨rfl, rfl⟩⟩, ?_⟩
    unfold returnP
    exact evE_lift_bind.2 ⟨_, _, ev_getSt.2 ⟨rfl, rfl⟩, evE_mk.2 ⟨rfl, rfl⟩⟩

/-! ## The code of programs -/

/-- The counter of a loop as the parser keeps it. -/
def Spec.Counter.kept (c : Spec.Counter) : Cnt :=
  ⟨c.max.map fun n => (n.map (·.2)).getD (2 ^ 63 - 1), c.start.map (·.2), c.name.map Spec.strip⟩

mutual
/-- The code item of a statement. -/
def Spec.Stmt.item : Spec.Stmt → Code
  | .assign x v => .set_ [.undef x] v.code
  | .print v => .print v.code
  | .cond t a b => .if_ t.code [.block a.code] [.block b.code]
  | .loop c a => .for_ false c.kept [] [.block a.code]
  | .brk => .jump .break_ []
  | .cont => .jump .continue_ []
  | .ret => .jump .return_ []
  | .call f _ => .undef f
def Spec.Core.code : Spec.Core → List Code
  | .nil => []
  | .cons x k => x.item :: ((match x with | .call _ ts => Spec.argsCode ts | _ => []) ++ .kw1 .jvhao :: k.code)
end

/-- What stands after it, up to the `。`. -/
def Spec.Stmt.rest : Spec.Stmt → List Code
  | .call _ ts => Spec.argsCode ts
  | _ => []

theorem code_cons (x : Spec.Stmt) (k : Spec.Core) : (Spec.Core.cons x k).code = x.item :: (x.rest ++ .kw1 .jvhao :: k.code) := by
  cases x <;> simp [Spec.Core.code, Spec.Stmt.rest]

theorem sigs_defs (g : Spec.Prg) : g.sigs.map (·.1) ++ Spec.chars.map (·.1) = g.defs := by
  simp [Spec.Prg.sigs, Spec.Prg.defs, Spec.Prg.names, List.map_map, Function.comp_def]

mutual
/-- All lists of code are short enough for a `usize`. -/
def Spec.Stmt.Fits : Spec.Stmt → Prop
  | .assign _ v => ∀ t, v = .text t ∨ v = .sum t → t.code.length ≤ usizeMax
  | .print v => ∀ t, v = .text t ∨ v = .sum t → t.code.length ≤ usizeMax
  | .cond t a b => t.code.length ≤ usizeMax ∧ a.Fits ∧ b.Fits
  | .loop _ a => a.Fits
  | _ => True
def Spec.Core.Fits : Spec.Core → Prop
  | .nil => True
  | .cons x k => (Spec.Core.cons x k).code.length ≤ usizeMax ∧ x.Fits ∧ k.Fits
end

theorem Spec.Core.Fits.length {k : Spec.Core} (h : k.Fits) : k.code.length ≤ usizeMax := by
  cases k with
  | nil => simp [Spec.Core.code]
  | cons x k => simp only [Spec.Core.Fits] at h; exact h.1

/-- What is needed of the procedures of a program. -/
structure Ready (H : Host) (g : Spec.Prg) : Prop where
  word : ∀ d ∈ g.defs, d ≠ Spec.printWord
  apart : g.defs.Pairwise fun a b => ¬ a <:+: b ∧ ¬ b <:+: a
  ne : ∀ p ∈ g.procs, p.name ≠ []
  text : ∀ p ∈ g.procs, parse p.text = .ok (.ok p.body.code)
  body : ∀ p ∈ g.procs, p.body.Ok g.sigs
  fits : ∀ p ∈ g.procs, p.body.Fits
  hash : ∀ p ∈ g.procs, ∀ t, H.hash t = H.hash p.text → t = p.text

/-! ## Calls -/

theorem apart_eq {l : List Str} (h : l.Pairwise fun a b => ¬ a <:+: b ∧ ¬ b <:+: a) {x y : Str} (hx : x ∈ l) (hy : y ∈ l) (hxy : x <:+: y) :
    x = y := by
  induction h with
  | nil => cases hx
  | cons h1 _ ih =>
    rcases List.mem_cons.1 hx with rfl | hx
    · rcases List.mem_cons.1 hy with rfl | hy
      · rfl
      · exact absurd hxy (h1 y hy).1
    · rcases List.mem_cons.1 hy with rfl | hy
      · exact absurd hxy (h1 x (by assumption)).2
      · exact ih (by assumption) hy

open Classical in
theorem first_of {α : Type} (P : α → Prop) : ∀ l : List α, (∃ x ∈ l, P x) →
    ∃ (i : Nat) (x : α), l[i]? = some x ∧ P x ∧ ∀ (j : Nat) (y : α), j < i → l[j]? = some y → ¬ P y := by
  intro l
  induction l with
  | nil => rintro ⟨x, hx, -⟩; cases hx
  | cons a l ih =>
    rintro ⟨x, hx, h⟩
    by_cases ha : P a
    · exact ⟨0, a, rfl, ha, fun j y hj => absurd hj (Nat.not_lt_zero j)⟩
    · rcases List.mem_cons.1 hx with rfl | hx
      · exact absurd h ha
      · obtain ⟨i, y, h1, h2, h3⟩ := ih ⟨x, hx, h⟩
        refine ⟨i + 1, y, h1, h2, fun j z hj hz => ?_⟩
        cases j with
        | zero => cases hz; exact ha
        | succ j => exact h3 j z (by omega) hz

theorem find_proc {g : Spec.Prg} (h : g.defs.Pairwise fun a b => ¬ a <:+: b ∧ ¬ b <:+: a) {p : Spec.Proc} (hp : p ∈ g.procs) :
    g.procs.find? (fun q => q.name == p.name) = some p := by
  have : ∀ l : List Spec.Proc, (l.map (·.name)).Pairwise (fun a b => ¬ a <:+: b ∧ ¬ b <:+: a) → p ∈ l →
      l.find? (fun q => q.name == p.name) = some p := by
    intro l
    induction l with
    | nil => intro _ h; cases h
    | cons q l ih =>
      intro hl hp
      rw [List.map_cons, List.pairwise_cons] at hl
      rw [List.find?_cons]
      rcases List.mem_cons.1 hp with rfl | hp
      · simp
      · have : q.name ≠ p.name := fun e => (hl.1 _ (List.mem_map_of_mem hp)).1 (by rw [e]; exact List.infix_refl _)
        rw [beq_eq_false_iff_ne.2 this]
        exact ih hl.2 hp
  exact this g.procs (List.pairwise_append.1 h).1 hp

theorem proc_of {g : Spec.Prg} (h : g.defs.Pairwise fun a b => ¬ a <:+: b ∧ ¬ b <:+: a) {p : Spec.Proc} (hp : p ∈ g.procs) :
    g.proc p.name = some p.body ∧ ∀ ws, g.start ws p.name = some p.text := by
  have := find_proc h hp
  simp [Spec.Prg.proc, Spec.Prg.start, this]

def Spec.Proc.def_ (p : Spec.Proc) : Def := ⟨p.name, p.name, ⟨[], false⟩, .s p.text, if p.args then usizeMax else 0, 0⟩

theorem first_call {g : Spec.Prg} {env : Env} {s : St} {σ : Spec.Store} {ρ : List Spec.Store} (hr : Ready H g) (hs : Sim H g env s σ ρ)
    {pr : Spec.Proc} (hpr : pr ∈ g.procs) : ∃ q k, Spec.FirstCall s env.q [] pr.name [] q k pr.def_ [] := by
  have seen : Spec.seen s env.q = chain s.scopes env.q := by simp [Spec.seen, Spec.visible, hs.mods]
  have hf : pr.name ∈ g.names := List.mem_map_of_mem hpr
  obtain ⟨q, hq, d, hd, hn⟩ := hs.procs pr hpr
  have hb : ∀ {p d}, p ∈ chain s.scopes env.q → d ∈ (s.scopes p).defs → Spec.Begins [] pr.name d → d = pr.def_ := by
    intro p d hp hd hb
    have hk := hs.known p hp d hd
    have hm := hk.mem
    have e : d.name = pr.name := apart_eq hr.apart hm.1 (List.mem_append_left _ hf) (by
      rw [← hm.2.1]; exact hb.2.isInfix)
    rcases hk with ⟨p', hp', rfl⟩ | ⟨c, hc, h1, -⟩
    · have h1 := find_proc hr.apart hp'
      have h2 := find_proc hr.apart hpr
      have e : p'.name = pr.name := e
      rw [e] at h1
      rw [Option.some.inj (h1.symm.trans h2)]
      rfl
    · have := (List.pairwise_append.1 hr.apart).2.2 _ hf _ (List.mem_map_of_mem hc)
      rw [← h1, e] at this
      exact absurd (List.infix_refl _) this.1
  obtain ⟨i, p, h1, ⟨d', h2, h3⟩, h4⟩ := first_of (fun p => ∃ d ∈ (s.scopes p).defs, Spec.Begins [] pr.name d) (chain s.scopes env.q)
    ⟨q, hq, d, hd, by simp, by rw [(hs.known q hq d hd).mem.2.1, hn]; exact List.prefix_refl _⟩
  obtain ⟨k, d'', h5, h6, h7⟩ := first_of (fun d => Spec.Begins [] pr.name d) _ ⟨d', h2, h3⟩
  have e := hb (List.mem_of_getElem? h1) (List.mem_of_getElem? h5) h6
  subst e
  have en : pr.def_.name0 ++ ([] : Str) = pr.name := List.append_nil _
  refine ⟨p, k, (List.append_nil _).symm, ?_, ?_, ?_, h5, by simp, ?_⟩
  · rw [en]; exact hr.ne pr hpr
  · intro u1 u2 hu hne
    exact absurd (List.append_eq_nil_iff.1 hu.symm).2 hne
  · rw [seen, en]
    exact ⟨i, h1, fun j p' hj hp' d' hd' h => h4 j p' hj hp' ⟨d', hd', h⟩⟩
  · rw [en]; exact h7

/-- The states around a call: `t` is that after the arguments. -/
theorem opened_facts {g : Spec.Prg} {env : Env} {s t : St} {σ : Spec.Store} {ρ : List Spec.Store} (hs : Sim H g env s σ ρ) {pr : Spec.Proc}
    (ht : CalmIn s.nlist (Spec.opened s pr.def_ env.q) t) :
    (∀ q, q < s.nscope → t.scopes q = s.scopes q) ∧
    t.scopes s.nscope = Scope.new [] [] pr.name (some ⟨[], false⟩) (some (env.q, (s.scopes env.q).i)) s.nlist ∧
    t.nscope = s.nscope + 1 ∧ s.nlist + 1 ≤ t.nlist ∧ (∀ l, l < s.nlist → t.lists l = s.lists l) ∧ t.mods = s.mods ∧ t.held = s.held ∧
    t.trace = s.trace ∧ t.cache = s.cache := by
  refine ⟨fun q hq => ?_, ?_, ht.nscope, ht.more, fun l hl => ?_, ht.mods, ht.held, ht.trace,
    show t.bare.cache = (Spec.opened s pr.def_ env.q).bare.cache from congrArg _ ht.bare⟩
  · rw [ht.scopes]
    show upd s.scopes s.nscope _ q = _
    rw [upd, if_neg (Nat.ne_of_lt hq)]
  · rw [ht.scopes]
    exact upd_same _ _ _
  · rw [ht.lists l (Nat.lt_succ_of_lt hl) (Nat.ne_of_lt hl)]
    show upd s.lists s.nlist _ l = _
    rw [upd, if_neg (Nat.ne_of_lt hl)]

/-- In a called procedure. -/
theorem sim_call {g : Spec.Prg} {env : Env} {s t : St} {σ : Spec.Store} {ρ : List Spec.Store} (hs : Sim H g env s σ ρ) {pr : Spec.Proc}
    (ht : CalmIn s.nlist (Spec.opened s pr.def_ env.q) t) {as : List (Option Str)} (hg : Given (t.lists s.nlist) as)
    {codes : Except Err (List Code)} {c : Cache (List Code)} (hc : codesCache H.hash parse s.cache pr.text = .ok (codes, c)) (p k : Nat) :
    Sim H g ⟨{ env.gd with jvhao := false }, s.nscope, env.ret, some p⟩ (({ t with cache := c } : St).hold [.def_ p k]) (.enter as) (σ :: ρ) := by
  obtain ⟨hold, hnew, ns, nl, ls, md, hd, -, -⟩ := opened_facts hs ht
  have hch : chain t.scopes s.nscope = s.nscope :: chain s.scopes env.q := by
    rw [chain, hnew]
    show s.nscope :: (if h : env.q < s.nscope then _ else _) = _
    rw [dif_pos hs.q, chain_upd hold env.q hs.q]
  have lt : ∀ p ∈ chain s.scopes env.q, p < s.nscope := fun p hp => Nat.lt_of_le_of_lt (mem_chain_le _ _ _ hp) hs.q
  have hargs : (t.scopes s.nscope).args = s.nlist := by rw [hnew]; rfl
  refine ⟨by rw [hs.gd], ?_, ?_, ?_, md.trans hs.mods, ?_, ?_, ?_, ?_, ?_, .step hs.cache hc, ?_, ?_, ?_⟩
  · show env.ret < t.nlist
    have := hs.ret
    omega
  · show (t.lists env.ret).a = []
    rw [ls _ hs.ret]
    exact hs.empty
  · intro q hq
    rcases List.mem_append.1 (show _ ∈ [Held.def_ p k] ++ t.held from hq) with h | h
    · simp at h
    · rw [hd] at h
      exact hs.held q h
  · show s.nscope < t.nscope
    omega
  · show Stacks t.scopes (chain t.scopes s.nscope) _
    rw [hch]
    refine .cons ?_ (hs.stacks.congr fun q hq => hold q (lt q hq))
    rw [hnew]
    intro x ns
    simp [Scope.new, Scope.get, findVar, Spec.Store.enter]
  · intro q hq d hd
    rw [show chain _ (Env.q _) = _ from hch] at hq
    have hd : d ∈ (t.scopes q).defs := hd
    rcases List.mem_cons.1 hq with rfl | hq
    · rw [hnew] at hd
      cases hd
    · rw [hold q (lt q hq)] at hd
      exact hs.known q hq d hd
  · intro pr' hp'
    obtain ⟨q, hq, d, hd, hn⟩ := hs.procs pr' hp'
    exact ⟨q, by rw [show chain _ (Env.q _) = _ from hch]; exact List.mem_cons_of_mem _ hq, d, by
      show d ∈ (t.scopes q).defs
      rw [hold q (lt q hq)]; exact hd, hn⟩
  · show (t.scopes s.nscope).i = _
    rw [hnew]
    show (s.scopes env.q).i + 1 = _
    rw [hs.depth]
    rfl
  · show (t.scopes s.nscope).args < t.nlist
    rw [hargs]
    exact nl
  · show Given (t.lists (t.scopes s.nscope).args) as
    rw [hargs]
    exact hg
  · show (t.scopes s.nscope).args ≠ env.ret
    rw [hargs]
    exact (Nat.ne_of_lt hs.ret).symm

/-- After a called procedure. -/
theorem went_call {g : Spec.Prg} {env : Env} {s t s1 : St} {σ : Spec.Store} {ρ : List Spec.Store} (hs : Sim H g env s σ ρ) {pr : Spec.Proc}
    (ht : CalmIn s.nlist (Spec.opened s pr.def_ env.q) t) {c : Cache (List Code)} {p k : Nat} {w : List Str}
    (h : Went ⟨{ env.gd with jvhao := false }, s.nscope, env.ret, some p⟩ (({ t with cache := c } : St).hold [.def_ p k]) s1 w) :
    Went env s { s1 with held := t.held } w ∧ Says (s1.scopes env.q) σ ∧ (s1.scopes s.nscope).i = (ρ.length + 1 : Nat) := by
  obtain ⟨hold, hnew, ns, nl, ls, md, hd, tr, -⟩ := opened_facts hs ht
  have m1 : t.nscope ≤ s1.nscope := h.scopesMore
  have m2 : t.nlist ≤ s1.nlist := h.listsMore
  have sc : ∀ q, q < s.nscope → s1.scopes q = s.scopes q := by
    intro q hq
    rw [h.scopes q (show q < t.nscope by omega) (Nat.ne_of_lt hq)]
    exact hold q hq
  refine ⟨⟨show s.nscope ≤ s1.nscope by omega, show s.nlist ≤ s1.nlist by omega, fun l hl => ?_, fun q hq _ => sc q hq,
    ⟨_, sc _ hs.q⟩, h.mods.trans md, h.trace.trans (by show t.trace ++ _ = _; rw [tr])⟩, ?_, ?_⟩
  · show s1.lists l = _
    rw [h.lists l (show l < t.nlist by omega)]
    exact ls l hl
  · rw [sc _ hs.q]
    exact hs.says
  · obtain ⟨v, hv⟩ := h.own
    have hv : s1.scopes s.nscope = { t.scopes s.nscope with vars := v } := hv
    rw [hnew] at hv
    rw [hv]
    show (s.scopes env.q).i + 1 = _
    rw [hs.depth]
    rfl

/-- After arguments that fail. -/
theorem went_args {g : Spec.Prg} {env : Env} {s t : St} {σ : Spec.Store} {ρ : List Spec.Store} (hs : Sim H g env s σ ρ) {pr : Spec.Proc}
    (ht : CalmIn s.nlist (Spec.opened s pr.def_ env.q) t) : Went env s t [] ∧ Says (t.scopes env.q) σ := by
  obtain ⟨hold, hnew, ns, nl, ls, md, hd, tr, -⟩ := opened_facts hs ht
  refine ⟨⟨by omega, by omega, ls, fun q hq _ => hold q hq, ⟨_, hold _ hs.q⟩, md, by rw [tr]; simp⟩, ?_⟩
  rw [hold _ hs.q]
  exact hs.says

/-- The arguments of a call. -/
theorem call_args {g : Spec.Prg} {env : Env} {s : St} {σ : Spec.Store} {ρ : List Spec.Store} (hr : Ready H g) (hs : Sim H g env s σ ρ)
    {f : Str} {ts : List Spec.Txt} (hok : (Spec.Stmt.call f ts).Ok g.sigs) {a post : List Code} {i : Nat}
    (ha : a.drop i = .undef f :: (Spec.argsCode ts ++ .kw1 .jvhao :: post)) :
    ∃ pr ∈ g.procs, pr.name = f ∧ ∃ p n, Spec.FirstCall s env.q [] f [] p n pr.def_ [] ∧
      ∃ r1 t1, Ev H (Evals H) (z4Args (.def_ p n) pr.def_ a f f.length a.length env f.length i [] 0 s.nlist) (Spec.opened s pr.def_ env.q) r1 t1 ∧
        CalmIn s.nlist (Spec.opened s pr.def_ env.q) t1 ∧ r1.idx2 = f.length ∧ match Spec.pass (σ :: ρ) ts with
        | none => ∃ e, r1.r = .error e ∧ e.i = ERR
        | some as => r1.r = .ok () ∧ Given (t1.lists s.nlist) as ∧ (a.drop (r1.idx + 1) = .kw1 .jvhao :: post ∨ a.drop (r1.idx + 1) = post) := by
  simp only [Spec.Stmt.Ok] at hok
  obtain ⟨⟨b, hb, hb'⟩, hts⟩ := hok
  obtain ⟨pr, hpr, e⟩ := List.mem_map.1 hb
  obtain ⟨rfl, rfl⟩ := Prod.mk.inj e
  obtain ⟨p, n, h1⟩ := first_call hr hs hpr
  refine ⟨pr, hpr, rfl, p, n, h1, ?_⟩
  obtain ⟨hi, ha1⟩ := drop_head ha
  cases hb : pr.args with
  | false =>
    rw [hb' hb] at ha1 ⊢
    refine ⟨{ idx := i, idx2 := pr.name.length }, Spec.opened s pr.def_ env.q, ?_, .refl _ _, rfl, rfl, given_none ?_, .inl ha1⟩
    · unfold z4Args
      rw [if_pos (by simp [Spec.Proc.def_, hb])]
      exact ev_pure.2 ⟨rfl, rfl⟩
    · simp [Spec.opened, upd]
  | true =>
    have hold : ∀ q, q < s.nscope → (Spec.opened s pr.def_ env.q).scopes q = s.scopes q := by
      intro q hq
      show upd s.scopes s.nscope _ q = _
      rw [upd, if_neg (Nat.ne_of_lt hq)]
    have lt : ∀ p ∈ chain s.scopes env.q, p < s.nscope := fun p hp => Nat.lt_of_le_of_lt (mem_chain_le _ _ _ hp) hs.q
    have hseen : Seen env.q (Spec.opened s pr.def_ env.q) (σ :: ρ) := by
      refine ⟨hs.mods, ?_, ?_, ?_⟩
      · rw [chain_upd hold env.q hs.q]
        exact hs.stacks.congr fun q hq => hold q (lt q hq)
      · rw [hold _ hs.q]
        exact Nat.lt_succ_of_lt hs.args
      · rw [hold _ hs.q]
        show Given (upd s.lists s.nlist _ _) _
        rw [upd, if_neg (Nat.ne_of_lt hs.args)]
        exact hs.given
    obtain ⟨r, t1, h2, h3, h4, h5⟩ := ev_z4Args (H := H) (f := pr.name) (l := s.nlist) (h := .def_ p n) (d := pr.def_) (env := env)
      (by simp [Spec.Proc.def_, hb, usizeMax]) hs.gd hts ha1 hseen (by rw [hold _ hs.q]; exact Nat.ne_of_lt hs.args) (by simp [Spec.opened, upd])
    refine ⟨r, t1, h2, h3, h4, ?_⟩
    cases hp : Spec.pass (σ :: ρ) ts with
    | none => rw [hp] at h5; exact h5
    | some as =>
      rw [hp] at h5
      refine ⟨h5.1, h5.2.2, .inr ?_⟩
      rw [h5.2.1]
      exact (drop_head (drop_next ha1)).2

/-! ## Runs -/

/-- The evaluator's result `r` and state `s'`, and the outcome of a program. -/
structure Meets (env : Env) (s : St) (n : Nat) (w : List Str) (f : Spec.Flow) (σ' : Spec.Store) (r : Except Err Unit) (s' : St) : Prop where
  flow : FlowIs n f r
  went : Went env s s' w
  vars : Says (s'.scopes env.q) σ'

theorem FlowIs.ok {n : Nat} {f : Spec.Flow} (h : FlowIs n f (.ok ())) : f = .next := by
  cases f with
  | next => rfl
  | brk => obtain ⟨e, h, -⟩ := h; cases h
  | cont => obtain ⟨e, h, -⟩ := h; cases h
  | ret => obtain ⟨e, h, -⟩ := h; cases h
  | fail => obtain ⟨e, h, -⟩ := h; cases h

theorem FlowIs.error {n : Nat} {f : Spec.Flow} {e : Err} (h : FlowIs n f (.error e)) : f ≠ .next := by
  rintro rfl
  cases h

/-- The end of a call. -/
theorem flow_call {n : Nat} {f : Spec.Flow} {r : Except Err Unit} (h : FlowIs (n + 1) f r) :
    ((f = .next ∨ f = .ret) ∧ jumpReturn (n + 1 : Nat) r = .ok ()) ∨
    ((f = .brk ∨ f = .cont ∨ f = .fail) ∧ ∃ e, jumpReturn (n + 1 : Nat) r = .error e ∧ FlowIs n f (.error e)) := by
  cases f with
  | next => cases h; exact .inl ⟨.inl rfl, rfl⟩
  | ret => obtain ⟨e, rfl, h1, h2⟩ := h; exact .inl ⟨.inr rfl, by simp only [jumpReturn]; rw [if_pos ⟨h1, h2⟩]⟩
  | brk =>
    obtain ⟨e, rfl, h1, h2⟩ := h
    refine .inr ⟨.inl rfl, e, ?_, e, rfl, h1, h2⟩
    simp only [jumpReturn]
    rw [if_neg (by rw [h1]; exact fun h => absurd h.1 (by decide))]
  | cont =>
    obtain ⟨e, rfl, h1, h2⟩ := h
    refine .inr ⟨.inr (.inl rfl), e, ?_, e, rfl, h1, h2⟩
    simp only [jumpReturn]
    rw [if_neg (by rw [h1]; exact fun h => absurd h.1 (by decide))]
  | fail =>
    obtain ⟨e, rfl, h1⟩ := h
    refine .inr ⟨.inr (.inr rfl), e, ?_, e, rfl, h1⟩
    simp only [jumpReturn]
    rw [if_neg (by rw [h1]; exact fun h => absurd h.1 (by decide))]

/-- What a loop makes of the end of a turn. -/
theorem flow_turn {n : Nat} {o : Option Str} {f : Spec.Flow} {e : Err} (h : FlowIs n f (.error e)) :
    (f = .brk ∧ loopTakes false o e = true ∧ e.i = BREAK) ∨ (f = .cont ∧ loopTakes false o e = true ∧ e.i ≠ BREAK) ∨
    ((f = .ret ∨ f = .fail) ∧ loopTakes false o e = false) := by
  cases f with
  | next => cases h
  | brk =>
    obtain ⟨_, h, h1, h2⟩ := h
    cases h
    exact .inl ⟨rfl, by simp [loopTakes, loopBreak, h1, h2], h1⟩
  | cont =>
    obtain ⟨_, h, h1, h2⟩ := h
    cases h
    exact .inr (.inl ⟨rfl, by simp [loopTakes, loopContinue, h1, h2], by rw [h1]; decide⟩)
  | ret =>
    obtain ⟨_, h, h1, -⟩ := h
    cases h
    exact .inr (.inr ⟨.inl rfl, by simp [loopTakes, loopBreak, loopContinue, h1, RETURN, BREAK, CONTINUE]⟩)
  | fail =>
    obtain ⟨_, h, h1⟩ := h
    cases h
    exact .inr (.inr ⟨.inr rfl, by simp [loopTakes, loopBreak, loopContinue, h1, ERR, BREAK, CONTINUE]⟩)

theorem calm_noted (s : St) (r : Nat) : CalmIn r s (Spec.noted s) := by
  refine ⟨rfl, Nat.le_succ _, fun l hl _ => ?_, Nat.le_succ _, fun k hk => ?_⟩
  · show upd s.lists s.nlist _ l = _
    rw [upd, if_neg (Nat.ne_of_lt hl)]
  · show upd s.items s.nitem _ k = _
    rw [upd, if_neg (Nat.ne_of_lt hk)]

theorem Sim.calm {g : Spec.Prg} {env : Env} {s s1 : St} {σ : Spec.Store} {ρ : List Spec.Store} (h : Sim H g env s σ ρ)
    (hc : ∀ r, CalmIn r s s1) (hr : Spec.Reach H.hash parse s1.cache) : Sim H g env s1 σ ρ :=
  h.step (CalmIn.went hc) (by rw [(hc 0).scopes]; exact h.says) rfl (hc 0).held hr

/-- The environment of a block is that around it. -/
theorem Sim.env {g : Spec.Prg} {env : Env} {s : St} {σ : Spec.Store} {ρ : List Spec.Store} (h : Sim H g env s σ ρ) :
    { env with gd := { env.gd with jvhao := false } } = env := by
  have := h.gd
  cases env
  simp_all

theorem not_word {x : Spec.Stmt} (hx : ∀ f ts, x ≠ .call f ts) : x.item.id ≠ .undef ∧ x.item.id ≠ .jvhao ∧ x.item.id ≠ .dunhao := by
  cases x with
  | call f ts => exact absurd rfl (hx f ts)
  | _ => simp [Spec.Stmt.item, Code.id, JumpKind.kw]

theorem rest_nil {x : Spec.Stmt} (hx : ∀ f ts, x ≠ .call f ts) : x.rest = [] := by
  cases x with
  | call f ts => exact absurd rfl (hx f ts)
  | _ => rfl

theorem is_call {x : Spec.Stmt} (hx : ¬ ∀ f ts, x ≠ .call f ts) : ∃ f ts, x = .call f ts := by
  cases x with
  | call f ts => exact ⟨f, ts, rfl⟩
  | _ => exact absurd nofun hx

theorem count_args (σ : Spec.Store) (x : Option Str) (i : Int) : (σ.count x i).args = σ.args := by
  cases x <;> rfl

/-- The arguments of a procedure stay. -/
theorem Does.args {D : Str → Option Spec.Core} {ρ : List Spec.Store} {k : Spec.Core} {σ : Spec.Store} {w : List Str} {f : Spec.Flow}
    {σ' : Spec.Store} (h : Spec.Does H D ρ k σ w f σ') : σ'.args = σ.args := by
  refine Spec.Does.rec (motive_1 := fun _ _ σ _ _ σ' _ => σ'.args = σ.args) (motive_2 := fun _ _ σ _ _ σ' _ => σ'.args = σ.args)
    (motive_3 := fun _ _ _ _ _ σ _ _ σ' _ => σ'.args = σ.args)
    ?_ ?_ ?_ ?_ ?_ ?_ ?_ ?_ ?_ ?_ ?_ ?_ ?_ ?_ ?_ ?_ ?_ ?_ ?_ ?_ ?_ h
  all_goals intros
  all_goals first
    | rfl
    | assumption
    | exact Eq.trans (by assumption) (by assumption)
    | exact Eq.trans (by assumption) (count_args ..)
    | exact Eq.trans (by assumption) (Eq.trans (by assumption) (count_args ..))

theorem DoesOne.args {D : Str → Option Spec.Core} {ρ : List Spec.Store} {x : Spec.Stmt} {σ : Spec.Store} {w : List Str} {f : Spec.Flow}
    {σ' : Spec.Store} (h : Spec.DoesOne H D ρ x σ w f σ') : σ'.args = σ.args := by
  cases f with
  | next => exact Does.args (.next h .nil)
  | _ => exact Does.args (k := .cons x .nil) (.stop h nofun)

/-- The loop in the evaluator and in the small language: the counter `x`, the turns left, and the number of the last turn. -/
structure LoopAt (cnt : Cnt) (max : Nat) (useI : Bool) (j : Nat) (x : Option Str) (n : Option Nat) (i : Int) : Prop where
  name : cnt.name = x
  left : n = if useI then some (max - j) else none
  number : x ≠ none → useI = true ∧ i = j + cnt.start.getD 0

theorem loopAt_start (c : Spec.Counter) : LoopAt c.kept (limits c.kept).1 (limits c.kept).2 0 (c.name.map Spec.strip) c.turns ((c.start.map (·.2)).getD 0) := by
  have e : usizeMax - 1 = 2 ^ 64 - 2 := rfl
  obtain ⟨m, st, nm, mo⟩ := c
  refine ⟨rfl, ?_, fun h => ⟨?_, ?_⟩⟩
  · cases m with
    | none => cases nm <;> simp [limits, Spec.Counter.kept, Spec.Counter.turns, e]
    | some m => cases m <;> simp [limits, Spec.Counter.kept, Spec.Counter.turns]
  · cases m with
    | none => cases nm <;> simp [limits, Spec.Counter.kept] at h ⊢
    | some m => rfl
  · simp [Spec.Counter.kept]

theorem LoopAt.over {cnt : Cnt} {max : Nat} {useI : Bool} {j : Nat} {x : Option Str} {n : Option Nat} {i : Int} (h : LoopAt cnt max useI j x n i) :
    n = some 0 ↔ (useI && decide ((if useI then j + 1 else j) > max)) = true := by
  rw [h.left]
  cases useI with
  | false => simp
  | true => simp; omega

theorem LoopAt.more {cnt : Cnt} {max : Nat} {useI : Bool} {j : Nat} {x : Option Str} {n : Option Nat} {i : Int} (h : LoopAt cnt max useI j x n i)
    (hn : n ≠ some 0) : (useI && decide ((if useI then j + 1 else j) > max)) = false :=
  Bool.eq_false_iff.2 fun e => hn (h.over.2 e)

theorem LoopAt.next {cnt : Cnt} {max : Nat} {useI : Bool} {j : Nat} {x : Option Str} {n : Option Nat} {i : Int} (h : LoopAt cnt max useI j x n i)
    (_ : n ≠ some 0) : LoopAt cnt max useI (if useI then j + 1 else j) x (n.map (· - 1)) (i + 1) := by
  refine ⟨h.name, ?_, fun hx => ?_⟩
  · rw [h.left]
    cases useI with
    | false => rfl
    | true => simp; omega
  · obtain ⟨rfl, rfl⟩ := h.number hx
    refine ⟨rfl, ?_⟩
    rw [if_pos rfl]
    omega

theorem went_count (cnt : Cnt) (env : Env) (j : Nat) (hn : Bool) (s : St) : Went env s (countSt cnt env.q j hn s) [] := by
  unfold countSt
  cases cnt.name with
  | none => exact Went.refl _ _
  | some x =>
    refine ⟨Nat.le_refl _, Nat.le_refl _, fun _ _ => rfl, fun p _ hq => ?_,
      ⟨setVar ⟨x, ⟨s.nitem, .s (cnt.value j)⟩, false, false, false⟩ (s.scopes env.q).vars, ?_⟩, rfl, by simp⟩
    · show upd s.scopes env.q _ p = _
      rw [upd, if_neg hq]
    · show upd s.scopes env.q _ env.q = _
      rw [upd_same]

theorem went_pop (env : Env) (b : Bool) (s : St) : Went env s (popSt b s) [] := by
  unfold popSt
  cases b with
  | false => exact Went.refl _ _
  | true => exact ⟨Nat.le_refl _, Nat.le_refl _, fun _ _ => rfl, fun _ _ _ => rfl, ⟨_, rfl⟩, rfl, by simp⟩

theorem pop_scopes (b : Bool) (s : St) : (popSt b s).scopes = s.scopes := by
  unfold popSt
  cases b <;> rfl

/-- The counter in the small language. -/
theorem Sim.count {g : Spec.Prg} {env : Env} {s : St} {σ : Spec.Store} {ρ : List Spec.Store} (hs : Sim H g env s σ ρ)
    {cnt : Cnt} {max : Nat} {useI : Bool} {j : Nat} {x : Option Str} {n : Option Nat} {i : Int} (h : LoopAt cnt max useI j x n i)
    (_ : n ≠ some 0) (hn : Bool) : Sim H g env (countSt cnt env.q (if useI then j + 1 else j) hn s) (σ.count x (i + 1)) ρ := by
  refine hs.step (went_count cnt env _ hn s) ?_ (count_args ..) ?_ ?_
  · have hnm := h.name
    subst hnm
    unfold countSt
    cases hx : cnt.name with
    | none => exact hs.says
    | some x =>
      obtain ⟨rfl, rfl⟩ := h.number (by rw [hx]; exact nofun)
      show Says (upd s.scopes env.q _ env.q) (σ.set x _)
      rw [upd_same, cnt_value, if_pos rfl]
      have e : intStr ((j : Int) + cnt.start.getD 0 + 1) = Spec.number cnt (j + 1) := by
        unfold Spec.number
        congr 1
        omega
      rw [e]
      exact says_set (v := ⟨x, ⟨s.nitem, .s (Spec.number cnt (j + 1))⟩, false, false, false⟩) hs.says rfl rfl rfl rfl
  · unfold countSt
    cases cnt.name <;> rfl
  · unfold countSt
    cases cnt.name <;> exact hs.cache

/-- What a statement's evaluation is. -/
def OneRuns (H : Host) (a : List Code) (i : Nat) (post : List Code) (x : Spec.Stmt) (env : Env) (s : St) (r : Except Err Unit) (s' : St) : Prop :=
  match x with
  | .call f _ => ∃ y, Evals H (.z4 a f f.length a.length env ⟨0, false, i, [], []⟩) s y s' ∧ y.r = r ∧
      (r = .ok () → y.has = true ∧ (a.drop y.idx = .kw1 .jvhao :: post ∨ a.drop y.idx = post))
  | x => Evals H (.item x.item env) s { r } s'

theorem codes_of_z2 {g : Spec.Prg} {k : Spec.Core} {env : Env} {s s' : St} {σ σ' : Spec.Store} {ρ : List Spec.Store} {f : Spec.Flow}
    {w : List Str} (_ : Sim H g env s σ ρ) (hf : k.Fits) {y : Res} (h : Evals H (.z2 k.code 0 k.code.length env) s y s')
    (hm : Meets env s ρ.length w f σ' y.r s') :
    ∃ x, Evals H (.codes k.code 0 usizeMax env) s x s' ∧ Meets env s ρ.length w f σ' x.r s' :=
  ⟨_, evals_iff.2 (ev_codes.2 ⟨y, by rw [Nat.min_eq_right hf.length]; exact h, rfl⟩), wrap_flow hm.flow, hm.went, hm.vars⟩

theorem block_of {g : Spec.Prg} {k : Spec.Core} {env : Env} {s s' : St} {σ σ' : Spec.Store} {ρ : List Spec.Store} {f : Spec.Flow}
    {w : List Str} (hs : Sim H g env s σ ρ) {y : Res} (h : Evals H (.codes k.code 0 usizeMax env) s y s')
    (hm : Meets env s ρ.length w f σ' y.r s') :
    ∃ x, Evals H (.codes [.block k.code] 0 usizeMax env) s x s' ∧ Meets env s ρ.length w f σ' x.r s' := by
  have hlt : 0 < min usizeMax [Code.block k.code].length := by
    show 0 < min usizeMax 1
    decide
  have hle : min usizeMax [Code.block k.code].length ≤ 0 + 1 := Nat.min_le_right _ _
  have h1 : Evals H (.item (.block k.code) env) s { r := y.r } s' := evals_iff.2 (ev_block.2 ⟨y, by rw [hs.env]; exact h, rfl⟩)
  cases hr : y.r with
  | ok u =>
    refine ⟨_, evals_iff.2 (ev_codes.2 ⟨{ idx := 1 }, evals_iff.2 ((ev_z2_item (a := [.block k.code]) hlt rfl (by simp [Code.id])
      (by simp [Code.id]) (by simp [Code.id])).2 (.inl ⟨s', by rw [← hr]; exact h1, evals_iff.2 ((ev_z2_end (a := [.block k.code]) (env := env) hle).2 ⟨rfl, rfl⟩)⟩)), rfl⟩),
      ?_, hm.went, hm.vars⟩
    have := hm.flow
    rw [hr] at this
    exact this
  | error e =>
    refine ⟨_, evals_iff.2 (ev_codes.2 ⟨{ idx := 0, r := .error e }, evals_iff.2 ((ev_z2_item (a := [.block k.code]) hlt rfl
      (by simp [Code.id]) (by simp [Code.id]) (by simp [Code.id])).2 (.inr ⟨e, by rw [← hr]; exact h1, rfl⟩)), rfl⟩), ?_, hm.went, hm.vars⟩
    have := hm.flow
    rw [hr] at this
    exact wrap_flow this

/-- A statement as an item of code. -/
theorem item_of {g : Spec.Prg} {x : Spec.Stmt} (hx : ∀ f ts, x ≠ .call f ts) {env : Env} {s : St} {σ σ' : Spec.Store}
    {ρ : List Spec.Store} {f : Spec.Flow} {w : List Str} (hs : Sim H g env s σ ρ)
    {a post : List Code} {i : Nat} (h : ∀ {s}, Sim H g env s σ ρ → ∃ r s', OneRuns H a i post x env s r s' ∧ Meets env s ρ.length w f σ' r s') :
    ∃ r s', Evals H (.item x.item env) s { r } s' ∧ Meets env s ρ.length w f σ' r s' := by
  cases x with
  | call f ts => exact absurd rfl (hx f ts)
  | _ =>
    obtain ⟨r, s', h1, h2⟩ := h hs
    exact ⟨r, s', h1, h2⟩

/-- What the small language says is what the evaluator does. -/
theorem does_evals {g : Spec.Prg} (hr : Ready H g) {ρ : List Spec.Store} {k : Spec.Core} {σ : Spec.Store} {w : List Str} {f : Spec.Flow}
    {σ' : Spec.Store} (h : Spec.Does H g.proc ρ k σ w f σ') :
    ∀ {env s}, Sim H g env s σ ρ → k.Ok g.sigs → k.Fits → ∀ {a i}, a.drop i = k.code →
      ∃ r s', Evals H (.z2 a i a.length env) s r s' ∧ Meets env s ρ.length w f σ' r.r s' := by
  refine Spec.Does.rec
    (motive_1 := fun ρ k σ w f σ' _ => ∀ {env s}, Sim H g env s σ ρ → k.Ok g.sigs → k.Fits → ∀ {a i}, a.drop i = k.code →
      ∃ r s', Evals H (.z2 a i a.length env) s r s' ∧ Meets env s ρ.length w f σ' r.r s')
    (motive_2 := fun ρ x σ w f σ' _ => ∀ {env s}, Sim H g env s σ ρ → x.Ok g.sigs → x.Fits →
      ∀ {a i post}, a.drop i = x.item :: (x.rest ++ .kw1 .jvhao :: post) → ∃ r s', OneRuns H a i post x env s r s' ∧ Meets env s ρ.length w f σ' r s')
    (motive_3 := fun ρ x n i k σ w f σ' _ => ∀ {env s}, Sim H g env s σ ρ → k.Ok g.sigs → k.Fits → ∀ {max useI cnt j hn}, LoopAt cnt max useI j x n i →
      ∃ r s', Evals H (.loop false [.block k.code] max useI cnt env j hn) s r s' ∧ Meets env s ρ.length w f σ' r.r s')
    ?nil ?next ?stop ?assign ?assignFail ?print ?printFail ?cond ?condFail ?loop ?brk ?cont ?ret ?retDeep ?call ?callOut ?callFail
    ?over ?again ?leave ?out h
  case nil =>
    intro ρ σ env s hs _ _ a i ha
    have : a.length ≤ i := by
      have := congrArg List.length ha
      simp [Spec.Core.code] at this
      omega
    exact ⟨_, _, evals_iff.2 ((ev_z2_end this).2 ⟨rfl, rfl⟩), rfl, Went.refl _ _, hs.says⟩
  case next =>
    intro ρ x k σ w σ1 w' f σ' _ _ ih1 ih2 env s hs hok hft a i ha
    simp only [Spec.Core.Ok] at hok
    simp only [Spec.Core.Fits] at hft
    rw [code_cons] at ha
    obtain ⟨hi, ha1⟩ := drop_head ha
    have hlt : i < a.length := (List.getElem?_eq_some_iff.1 hi).1
    have done : ∀ {s1 : St} {m : Nat}, Meets env s ρ.length w .next σ1 (.ok ()) s1 → s1.held = s.held → Spec.Reach H.hash parse s1.cache →
        a.drop m = .kw1 .jvhao :: k.code ∨ a.drop m = k.code →
        ∃ r s', Evals H (.z2 a m a.length env) s1 r s' ∧ Meets env s ρ.length (w ++ w') f σ' r.r s' := by
      intro s1 m hm hh hc hd
      have hs1 := hs.step hm.went hm.vars (DoesOne.args (by assumption)) hh hc
      rcases hd with hd | hd
      · obtain ⟨hi1, ha2⟩ := drop_head hd
        obtain ⟨r, s', h1, h2⟩ := ih2 hs1 hok.2 hft.2.2 ha2
        exact ⟨r, s', evals_iff.2 ((ev_z2_jvhao (List.getElem?_eq_some_iff.1 hi1).1 hi1 (by rw [hs.gd]) hs1.empty).2 h1), h2.flow,
          hm.went.trans h2.went, h2.vars⟩
      · obtain ⟨r, s', h1, h2⟩ := ih2 hs1 hok.2 hft.2.2 hd
        exact ⟨r, s', h1, h2.flow, hm.went.trans h2.went, h2.vars⟩
    by_cases hx : ∀ f ts, x ≠ .call f ts
    · obtain ⟨n1, n2, n3⟩ := not_word hx
      obtain ⟨r, s1, h1, h2⟩ := item_of hx hs (fun hs => ih1 hs hok.1 hft.2.1 ha)
      have hr' : r = .ok () := h2.flow
      subst hr'
      rw [rest_nil hx] at ha1
      obtain ⟨r', s', h3, h4⟩ := done h2 h1.held (h1.cache hs.cache) (.inl ha1)
      exact ⟨r', s', evals_iff.2 ((ev_z2_item hlt hi n1 n2 n3).2 (.inl ⟨s1, h1, h3⟩)), h4⟩
    · obtain ⟨fn, ts, rfl⟩ := is_call hx
      obtain ⟨r, s1, ⟨y, h0, h3, h4⟩, h2⟩ := ih1 hs hok.1 hft.2.1 ha
      have hr' : r = .ok () := h2.flow
      subst hr'
      obtain ⟨r', s', h5, h6⟩ := done h2 h0.held (h0.cache hs.cache) (h4 rfl).2
      refine ⟨r', s', evals_iff.2 ((ev_z2_word hlt hi (by rw [hs.gd])).2 ⟨y, s1, h0, ?_⟩), h6⟩
      rw [h3]
      dsimp only
      rw [if_pos (h4 rfl).1]
      exact h5
  case stop =>
    intro ρ x k σ w f σ' _ hf ih1 env s hs hok hft a i ha
    simp only [Spec.Core.Ok] at hok
    simp only [Spec.Core.Fits] at hft
    rw [code_cons] at ha
    obtain ⟨hi, -⟩ := drop_head ha
    have hlt : i < a.length := (List.getElem?_eq_some_iff.1 hi).1
    by_cases hx : ∀ f ts, x ≠ .call f ts
    · obtain ⟨n1, n2, n3⟩ := not_word hx
      obtain ⟨r, s1, h1, h2⟩ := item_of hx hs (fun hs => ih1 hs hok.1 hft.2.1 ha)
      cases r with
      | ok u => exact absurd h2.flow.ok hf
      | error e => exact ⟨_, s1, evals_iff.2 ((ev_z2_item hlt hi n1 n2 n3).2 (.inr ⟨e, h1, rfl⟩)), h2⟩
    · obtain ⟨fn, ts, rfl⟩ := is_call hx
      obtain ⟨r, s1, ⟨y, h0, h3, h4⟩, h2⟩ := ih1 hs hok.1 hft.2.1 ha
      cases r with
      | ok u => exact absurd h2.flow.ok hf
      | error e =>
        refine ⟨{ idx := y.idx, r := .error e }, s1, evals_iff.2 ((ev_z2_word hlt hi (by rw [hs.gd])).2 ⟨y, s1, h0, ?_⟩), h2⟩
        rw [h3]
        exact ⟨rfl, rfl⟩
  case assign =>
    intro ρ x v σ t hg env s hs hok hft a0 i0 post0 ha0
    simp only [Spec.Stmt.Ok] at hok
    obtain ⟨r, s', h1, h2, h3, h4⟩ := item_assign hs (sigs_defs g ▸ hok.2.1) hok.2.2 hft hg
    exact ⟨r, s', h1, h3, h2, h4⟩
  case assignFail =>
    intro ρ x v σ hg env s hs hok hft a0 i0 post0 ha0
    simp only [Spec.Stmt.Ok] at hok
    obtain ⟨r, s', h1, h2, h3, h4⟩ := item_assign hs (sigs_defs g ▸ hok.2.1) hok.2.2 hft hg
    exact ⟨r, s', h1, h3, h2, h4⟩
  case print =>
    intro ρ v σ t hg env s hs hok hft a0 i0 post0 ha0
    simp only [Spec.Stmt.Ok] at hok
    obtain ⟨r, s', h1, h2, h3, h4⟩ := item_print hs hr.word hok.1 hft hg
    exact ⟨r, s', h1, h3, h4, by rw [h2]; exact hs.says⟩
  case printFail =>
    intro ρ v σ hg env s hs hok hft a0 i0 post0 ha0
    simp only [Spec.Stmt.Ok] at hok
    obtain ⟨r, s', h1, h2, h3, h4⟩ := item_print hs hr.word hok.1 hft hg
    exact ⟨r, s', h1, h3, h4, by rw [h2]; exact hs.says⟩
  case cond =>
    intro ρ t a b σ c w f σ' ht _ ih env s hs hok hft a0 i0 post0 ha0
    simp only [Spec.Stmt.Ok] at hok
    simp only [Spec.Stmt.Fits] at hft
    obtain ⟨x, s1, h1, h2, h3, e, h4, h5⟩ := cond_call (env := env) hs.seen hok.1 hft.1 ht
    have hs1 := hs.calm h2 (h1.cache hs.cache)
    have hk : (if c then a else b).Ok g.sigs ∧ (if c then a else b).Fits := by
      cases c
      · exact ⟨hok.2.2, hft.2.2⟩
      · exact ⟨hok.2.1, hft.2.1⟩
    obtain ⟨r, s', h6, h7⟩ := ih hs1 hk.1 hk.2 (a := (if c then a else b).code) (i := 0) rfl
    obtain ⟨r2, h8, h9⟩ := codes_of_z2 hs1 hk.2 h6 h7
    obtain ⟨r3, h10, h11⟩ := block_of hs1 h8 h9
    refine ⟨r3.r, s', evals_iff.2 (ev_itemR.2 ⟨_, ev_if.2 ⟨x, s1, h1, ?_⟩, rfl⟩), h11.flow,
      by simpa using (CalmIn.went (env := env) h2).trans h11.went, h11.vars⟩
    rw [h4]
    dsimp only
    rw [if_pos (show e.i = COND_OK ∨ e.i = COND_CT from h5), h3]
    refine ⟨r3, ?_, rfl⟩
    cases c <;> exact h10
  case condFail =>
    intro ρ t a b σ ht env s hs hok hft a0 i0 post0 ha0
    simp only [Spec.Stmt.Ok] at hok
    simp only [Spec.Stmt.Fits] at hft
    obtain ⟨x, s1, h1, h2, e, h4, h5⟩ := cond_call (env := env) hs.seen hok.1 hft.1 ht
    refine ⟨.error e, s1, evals_iff.2 (ev_itemR.2 ⟨_, ev_if.2 ⟨x, s1, h1, ?_⟩, rfl⟩), ⟨e, rfl, h5⟩, CalmIn.went h2, ?_⟩
    · rw [h4]
      dsimp only
      rw [if_neg (by rw [h5]; decide)]
      exact ⟨rfl, rfl⟩
    · rw [(h2 0).scopes]
      exact hs.says
  case loop =>
    intro ρ c a σ w f σ' _ ih env s hs hok hft a0 i0 post0 ha0
    simp only [Spec.Stmt.Ok] at hok
    simp only [Spec.Stmt.Fits] at hft
    have hc := calm_noted s
    obtain ⟨r, s1, h1, h2⟩ := ih (hs.calm hc hs.cache) hok.2 hft (loopAt_start c)
    exact ⟨r.r, _, evals_iff.2 (ev_itemR.2 ⟨_, for_of h1, rfl⟩),
      h2.flow, by simpa using ((CalmIn.went (env := env) hc).trans h2.went).trans (went_pop env r.has s1), by rw [pop_scopes]; exact h2.vars⟩
  case over =>
    intro ρ x i k σ env s hs hok hft max useI cnt j hn hl
    exact ⟨_, _, evals_iff.2 ((ev_loop_over (hl.over.1 rfl)).2 ⟨rfl, rfl⟩), rfl, Went.refl _ _, hs.says⟩
  case again =>
    intro ρ x n i k σ w f σ1 w' f' σ' hn0 hd hf _ ih1 ih2 env s hs hok hft max useI cnt j hn hl
    have hs0 := hs.count hl hn0 hn
    obtain ⟨r, s1, h1, h2⟩ := ih1 hs0 hok hft (a := k.code) (i := 0) rfl
    obtain ⟨r2, h3, h4⟩ := codes_of_z2 hs0 hft h1 h2
    obtain ⟨r3, h5, h6⟩ := block_of hs0 h3 h4
    have hs1 := hs0.step h6.went h6.vars (Does.args hd) h5.held (h5.cache hs0.cache)
    obtain ⟨y, s', h7, h10⟩ := ih2 hs1 hok hft (hn := cnt.name.isSome) (hl.next hn0)
    refine ⟨y, s', evals_iff.2 ((ev_loop (by simp) (hs.held _) (hl.more hn0)).2 ⟨r3, s1, h5, ?_⟩), h10.flow,
      by simpa using (went_count cnt env _ hn s).trans (h6.went.trans h10.went), h10.vars⟩
    have hfl := h6.flow
    cases hr3 : r3.r with
    | ok u => exact h7
    | error e =>
      rw [hr3] at hfl
      rcases flow_turn (o := cnt.name) hfl with ⟨h, -⟩ | ⟨-, h11, h12⟩ | ⟨h, -⟩
      · rw [h] at hf; rcases hf with h | h <;> cases h
      · dsimp only
        rw [if_pos h11, if_neg h12]
        exact h7
      · rcases h with h | h <;> rw [h] at hf <;> rcases hf with h | h <;> cases h
  case leave =>
    intro ρ x n i k σ w σ' hn0 _ ih1 env s hs hok hft max useI cnt j hn hl
    have hs0 := hs.count hl hn0 hn
    obtain ⟨r, s1, h1, h2⟩ := ih1 hs0 hok hft (a := k.code) (i := 0) rfl
    obtain ⟨r2, h3, h4⟩ := codes_of_z2 hs0 hft h1 h2
    obtain ⟨r3, h5, h6⟩ := block_of hs0 h3 h4
    refine ⟨{ has := cnt.name.isSome }, s1, evals_iff.2 ((ev_loop (by simp) (hs.held _) (hl.more hn0)).2 ⟨r3, s1, h5, ?_⟩), rfl,
      (went_count cnt env _ hn s).trans h6.went, h6.vars⟩
    have hfl := h6.flow
    cases hr3 : r3.r with
    | ok u => rw [hr3] at hfl; cases hfl.ok
    | error e =>
      rw [hr3] at hfl
      rcases flow_turn (o := cnt.name) hfl with ⟨-, h11, h12⟩ | ⟨h, -⟩ | ⟨h, -⟩
      · dsimp only
        rw [if_pos h11, if_pos h12]
        exact ⟨rfl, rfl⟩
      · cases h
      · rcases h with h | h <;> cases h
  case out =>
    intro ρ x n i k σ w f σ' hn0 _ hf ih1 env s hs hok hft max useI cnt j hn hl
    have hs0 := hs.count hl hn0 hn
    obtain ⟨r, s1, h1, h2⟩ := ih1 hs0 hok hft (a := k.code) (i := 0) rfl
    obtain ⟨r2, h3, h4⟩ := codes_of_z2 hs0 hft h1 h2
    obtain ⟨r3, h5, h6⟩ := block_of hs0 h3 h4
    have hfl := h6.flow
    cases hr3 : r3.r with
    | ok u => rw [hr3] at hfl; rw [hfl.ok] at hf; rcases hf with h | h <;> cases h
    | error e =>
      rw [hr3] at hfl
      refine ⟨{ has := cnt.name.isSome, r := .error e }, s1, evals_iff.2 ((ev_loop (by simp) (hs.held _) (hl.more hn0)).2 ⟨r3, s1, h5, ?_⟩), hfl,
        (went_count cnt env _ hn s).trans h6.went, h6.vars⟩
      rw [hr3]
      rcases flow_turn (o := cnt.name) hfl with ⟨h, -⟩ | ⟨h, -⟩ | ⟨-, h⟩
      · rw [h] at hf; rcases hf with h | h <;> cases h
      · rw [h] at hf; rcases hf with h | h <;> cases h
      · dsimp only
        rw [if_neg (by rw [h]; decide)]
        exact ⟨rfl, rfl⟩
  case brk =>
    intro ρ σ env s hs _ _ _ _ _ _
    obtain ⟨r, h1, h2⟩ := item_brk (H := H) (env := env) (s := s) (n := ρ.length)
    exact ⟨r, _, h1, h2, CalmIn.went (calm_fresh' s), hs.says⟩
  case cont =>
    intro ρ σ env s hs _ _ _ _ _ _
    obtain ⟨r, h1, h2⟩ := item_cont (H := H) (env := env) (s := s) (n := ρ.length)
    exact ⟨r, _, h1, h2, CalmIn.went (calm_fresh' s), hs.says⟩
  case ret =>
    intro ρ σ hd env s hs _ _ _ _ _ _
    obtain ⟨r, h1, h2⟩ := item_ret (H := H) (env := env) (s := s) (n := ρ.length) hs.depth
    rw [if_neg hd] at h2
    exact ⟨r, _, h1, h2, CalmIn.went (calm_fresh' s), hs.says⟩
  case retDeep =>
    intro ρ σ hd env s hs _ _ _ _ _ _
    obtain ⟨r, h1, h2⟩ := item_ret (H := H) (env := env) (s := s) (n := ρ.length) hs.depth
    rw [if_pos hd] at h2
    exact ⟨r, _, h1, h2, CalmIn.went (calm_fresh' s), hs.says⟩
  case call =>
    intro ρ fn k ts as σ w f σ' hp hpass _ hf ih env s hs hok _ a i post ha
    obtain ⟨pr, h1, rfl, p, n, h3, r1, t1, a1, a2, a3, a4⟩ := call_args hr hs hok ha
    rw [(proc_of hr.apart h1).1] at hp
    cases hp
    rw [hpass] at a4
    obtain ⟨a5, a6, a7⟩ := a4
    obtain ⟨c, hc⟩ := ((C21_cache_transparent H.hash parse s.cache hs.cache pr.text (hr.hash pr h1)).1 _).1 (hr.text pr h1)
    have hs2 := sim_call hs a2 a6 hc p n
    obtain ⟨r, s1, h4, h5⟩ := ih hs2 (hr.body pr h1) (hr.fits pr h1) (a := pr.body.code) (i := 0) rfl
    obtain ⟨r2, h6, h7⟩ := codes_of_z2 hs2 (hr.fits pr h1) h4 h5
    obtain ⟨h8, h9, h10⟩ := went_call hs a2 h7.went
    have hb := fun x t' => (ev_z4Body (H := H) (R := Evals H) (h := .def_ p n) (d := pr.def_) (src := pr.text) (env := env) (p := p) (q := s.nscope)
      (l := s.nlist) (x := x) (t' := t') rfl (by rw [(opened_facts hs a2).2.2.2.2.2.2.2.2]; exact hc)).2
    refine ⟨.ok (), { s1 with held := t1.held }, ⟨{ idx := r1.idx + 1, idx2 := pr.name.length, has := true },
      evals_iff.2 ((ev_z4_call h3 rfl rfl).2 ⟨r1, t1, a1, ?_⟩), rfl, fun _ => ⟨rfl, a7⟩⟩, rfl, h8, h9⟩
    rw [a5]
    rcases flow_call h7.flow with ⟨-, h⟩ | ⟨h, -⟩
    · refine ⟨_, _, hb _ _ ⟨r2, s1, h6, by rw [h10, h], rfl⟩, ?_⟩
      dsimp only
      rw [a3]
      exact z4_last.2 ⟨rfl, rfl⟩
    · rcases hf with rfl | rfl <;> simp at h
  case callOut =>
    intro ρ fn k ts as σ w f σ' hp hpass _ hf ih env s hs hok _ a i post ha
    obtain ⟨pr, h1, rfl, p, n, h3, r1, t1, a1, a2, a3, a4⟩ := call_args hr hs hok ha
    rw [(proc_of hr.apart h1).1] at hp
    cases hp
    rw [hpass] at a4
    obtain ⟨a5, a6, a7⟩ := a4
    obtain ⟨c, hc⟩ := ((C21_cache_transparent H.hash parse s.cache hs.cache pr.text (hr.hash pr h1)).1 _).1 (hr.text pr h1)
    have hs2 := sim_call hs a2 a6 hc p n
    obtain ⟨r, s1, h4, h5⟩ := ih hs2 (hr.body pr h1) (hr.fits pr h1) (a := pr.body.code) (i := 0) rfl
    obtain ⟨r2, h6, h7⟩ := codes_of_z2 hs2 (hr.fits pr h1) h4 h5
    obtain ⟨h8, h9, h10⟩ := went_call hs a2 h7.went
    have hb := fun x t' => (ev_z4Body (H := H) (R := Evals H) (h := .def_ p n) (d := pr.def_) (src := pr.text) (env := env) (p := p) (q := s.nscope)
      (l := s.nlist) (x := x) (t' := t') rfl (by rw [(opened_facts hs a2).2.2.2.2.2.2.2.2]; exact hc)).2
    rcases flow_call h7.flow with ⟨h, -⟩ | ⟨-, e, h11, h12⟩
    · rcases hf with rfl | rfl | rfl <;> simp at h
    · refine ⟨.error e, { s1 with held := t1.held }, ⟨{ idx := r1.idx, idx2 := r1.idx2, has := true, r := .error e },
        evals_iff.2 ((ev_z4_call h3 rfl rfl).2 ⟨r1, t1, a1, ?_⟩), rfl, nofun⟩, h12, h8, h9⟩
      rw [a5]
      exact ⟨.error e, _, hb _ _ ⟨r2, s1, h6, by rw [h10, h11], rfl⟩, rfl, rfl⟩
  case callFail =>
    intro ρ fn k ts σ hp hpass env s hs hok _ a i post ha
    obtain ⟨pr, h1, rfl, p, n, h3, r1, t1, a1, a2, a3, a4⟩ := call_args hr hs hok ha
    rw [hpass] at a4
    obtain ⟨e, a5, a6⟩ := a4
    obtain ⟨h8, h9⟩ := went_args hs a2
    refine ⟨.error e, t1, ⟨{ idx := r1.idx, idx2 := r1.idx2, has := true, r := .error e },
        evals_iff.2 ((ev_z4_call h3 rfl rfl).2 ⟨r1, t1, a1, ?_⟩), rfl, nofun⟩, ⟨e, rfl, a6⟩, h8, h9⟩
    rw [a5]
    exact ⟨rfl, rfl⟩

/-! ## The other direction -/

/-- The evaluation of a piece of a program is what the small language says. -/
def Back (H : Host) (g : Spec.Prg) : Call → St → Res → St → Prop
  | .z2 a i j env, s, r, s' => j = a.length → ∀ σ ρ, Sim H g env s σ ρ → ∀ k : Spec.Core, k.Ok g.sigs → k.Fits →
      a.drop i = k.code ∨ a.drop i = .kw1 .jvhao :: k.code ∨ a.drop i = [.block k.code] →
      ∃ w f σ', Spec.Does H g.proc ρ k σ w f σ' ∧ Meets env s ρ.length w f σ' r.r s'
  | .codes a i j env, s, r, s' => i = 0 → j = usizeMax → ∀ σ ρ, Sim H g env s σ ρ → ∀ k : Spec.Core, k.Ok g.sigs → k.Fits →
      a = k.code ∨ a = [.block k.code] → ∃ w f σ', Spec.Does H g.proc ρ k σ w f σ' ∧ Meets env s ρ.length w f σ' r.r s'
  | .item c env, s, r, s' => ∀ σ ρ, Sim H g env s σ ρ →
      (∀ k : Spec.Core, k.Ok g.sigs → k.Fits → c = .block k.code →
        ∃ w f σ', Spec.Does H g.proc ρ k σ w f σ' ∧ Meets env s ρ.length w f σ' r.r s') ∧
      ∀ x : Spec.Stmt, (∀ f ts, x ≠ .call f ts) → x.Ok g.sigs → x.Fits → c = x.item →
        ∃ w f σ', Spec.DoesOne H g.proc ρ x σ w f σ' ∧ Meets env s ρ.length w f σ' r.r s'
  | .z4 a fn n e env st, s, r, s' => ∀ σ ρ, Sim H g env s σ ρ → n = fn.length → e = a.length → ∀ i, st = ⟨0, false, i, [], []⟩ →
      ∀ ts post, (Spec.Stmt.call fn ts).Ok g.sigs → a.drop i = .undef fn :: (Spec.argsCode ts ++ .kw1 .jvhao :: post) →
      (∃ w f σ', Spec.DoesOne H g.proc ρ (.call fn ts) σ w f σ' ∧ Meets env s ρ.length w f σ' r.r s') ∧
      (r.r = .ok () → r.has = true ∧ (a.drop r.idx = .kw1 .jvhao :: post ∨ a.drop r.idx = post))
  | .loop range codes max useI cnt env j _, s, r, s' => range = false → ∀ x n i, LoopAt cnt max useI j x n i →
      ∀ σ ρ, Sim H g env s σ ρ → ∀ k : Spec.Core, k.Ok g.sigs → k.Fits → codes = [.block k.code] →
      ∃ w f σ', Spec.Repeats H g.proc ρ x n i k σ w f σ' ∧ Meets env s ρ.length w f σ' r.r s'
  | _, _, _, _ => True

theorem evals_back {g : Spec.Prg} (hr : Ready H g) {c : Call} {s s' : St} {r : Res} (h : Evals H c s r s') : Back H g c s r s' := by
  refine Evals.ind (P := Back H g) ?_ h
  intro c s r s' h
  cases c with
  | codes a i j env =>
    intro hi hj σ ρ hs k hok hft ha
    obtain ⟨y, ⟨h1, h2⟩, rfl⟩ := ev_codes.1 h
    have hl : min j a.length = a.length := by
      rw [hj]
      apply Nat.min_eq_right
      rcases ha with rfl | rfl
      · exact hft.length
      · show 1 ≤ usizeMax
        decide
    rw [hl] at h1 h2
    obtain ⟨w, f, σ', h3, h4⟩ := h2 rfl σ ρ hs k hok hft (by rw [hi]; exact ha.imp id .inr)
    exact ⟨w, f, σ', h3, wrap_flow h4.flow, h4.went, h4.vars⟩
  | z2 a i j env =>
    intro hj σ ρ hs k hok hft ha
    subst hj
    rcases ha with ha | ha | ha
    · cases k with
      | nil =>
        have : a.length ≤ i := by
          have := congrArg List.length ha
          simp [Spec.Core.code] at this
          omega
        obtain ⟨rfl, rfl⟩ := (ev_z2_end this).1 h
        exact ⟨_, _, _, .nil, rfl, Went.refl _ _, hs.says⟩
      | cons x k =>
        simp only [Spec.Core.Ok] at hok
        simp only [Spec.Core.Fits] at hft
        rw [code_cons] at ha
        obtain ⟨hi, ha1⟩ := drop_head ha
        have hlt : i < a.length := (List.getElem?_eq_some_iff.1 hi).1
        have done : ∀ {s1 : St} {w σ1}, Spec.DoesOne H g.proc ρ x σ w .next σ1 → Meets env s ρ.length w .next σ1 (.ok ()) s1 →
            s1.held = s.held → Spec.Reach H.hash parse s1.cache → ∀ {m}, a.drop m = .kw1 .jvhao :: k.code ∨ a.drop m = k.code →
            Back H g (.z2 a m a.length env) s1 r s' →
            ∃ w f σ', Spec.Does H g.proc ρ (.cons x k) σ w f σ' ∧ Meets env s ρ.length w f σ' r.r s' := by
          intro s1 w σ1 hd hm hh hc m ham hb
          obtain ⟨w', f, σ', h1, h2⟩ := hb rfl σ1 ρ (hs.step hm.went hm.vars (DoesOne.args hd) hh hc) k hok.2 hft.2.2
            (ham.elim (fun h => .inr (.inl h)) .inl)
          exact ⟨_, _, _, .next hd h1, h2.flow, hm.went.trans h2.went, h2.vars⟩
        by_cases hx : ∀ f ts, x ≠ .call f ts
        · obtain ⟨n1, n2, n3⟩ := not_word hx
          rcases (ev_z2_item hlt hi n1 n2 n3).1 h with ⟨s1, ⟨h1, h2⟩, ⟨h3, h4⟩⟩ | ⟨e, ⟨h1, h2⟩, rfl⟩
          · obtain ⟨w, f, σ1, h5, h6⟩ := (h2 σ ρ hs).2 x hx hok.1 hft.2.1 rfl
            have := h6.flow.ok
            subst this
            rw [rest_nil hx] at ha1
            exact done h5 h6 h1.held (h1.cache hs.cache) (.inl ha1) h4
          · obtain ⟨w, f, σ1, h5, h6⟩ := (h2 σ ρ hs).2 x hx hok.1 hft.2.1 rfl
            exact ⟨w, f, σ1, .stop h5 h6.flow.error, h6⟩
        · obtain ⟨fn, ts, rfl⟩ := is_call hx
          obtain ⟨y, s1, ⟨h1, h2⟩, h3⟩ := (ev_z2_word hlt hi (by rw [hs.gd])).1 h
          obtain ⟨⟨w, f, σ1, h5, h6⟩, h7⟩ := h2 σ ρ hs rfl rfl i rfl ts k.code hok.1 ha
          cases hy : y.r with
          | error e =>
            rw [hy] at h3 h6
            obtain ⟨rfl, rfl⟩ := h3
            exact ⟨w, f, σ1, .stop h5 h6.flow.error, h6⟩
          | ok u =>
            rw [hy] at h3 h6
            dsimp only at h3
            rw [if_pos (h7 hy).1] at h3
            have := h6.flow.ok
            subst this
            exact done h5 h6 h1.held (h1.cache hs.cache) (h7 hy).2 h3.2
    · obtain ⟨hi, ha1⟩ := drop_head ha
      have hlt : i < a.length := (List.getElem?_eq_some_iff.1 hi).1
      have h1 := (ev_z2_jvhao hlt hi (by rw [hs.gd]) hs.empty).1 h
      exact h1.2 rfl σ ρ hs k hok hft (.inl ha1)
    · obtain ⟨hi, ha1⟩ := drop_head ha
      have hlt : i < a.length := (List.getElem?_eq_some_iff.1 hi).1
      rcases (ev_z2_item hlt hi (by simp [Code.id]) (by simp [Code.id]) (by simp [Code.id])).1 h with
        ⟨s1, ⟨h1, h2⟩, ⟨h3, -⟩⟩ | ⟨e, ⟨h1, h2⟩, rfl⟩
      · obtain ⟨w, f, σ1, h5, h6⟩ := (h2 σ ρ hs).1 k hok hft rfl
        have : a.length ≤ i + 1 := by
          have := congrArg List.length ha1
          simp at this
          omega
        obtain ⟨rfl, rfl⟩ := (ev_z2_end this).1 (evals_iff.1 h3)
        exact ⟨w, f, σ1, h5, h6⟩
      · exact (h2 σ ρ hs).1 k hok hft rfl
  | z4 a fn n e env st =>
    intro σ ρ hs hn he i hst ts post hok ha
    subst hn hst he
    obtain ⟨pr, h1, rfl, p, n, h3, r1, t1, a1, a2, a3, a4⟩ := call_args hr hs hok ha
    obtain ⟨r1', t1', b1, b2⟩ := (ev_z4_call h3 rfl rfl).1 h
    obtain ⟨rfl, rfl⟩ := ev_unique a1 (Ev.mono (fun _ _ _ _ h => h.1) b1)
    cases hpass : Spec.pass (σ :: ρ) ts with
    | none =>
      rw [hpass] at a4
      obtain ⟨e, a5, a6⟩ := a4
      obtain ⟨h8, h9⟩ := went_args hs a2
      rw [a5] at b2
      obtain ⟨rfl, rfl⟩ := b2
      exact ⟨⟨[], .fail, σ, .callFail (proc_of hr.apart h1).1 hpass, ⟨e, rfl, a6⟩, h8, h9⟩, nofun⟩
    | some as =>
      rw [hpass] at a4
      obtain ⟨a5, a6, a7⟩ := a4
      rw [a5] at b2
      obtain ⟨x, t2, b3, b4⟩ := b2
      obtain ⟨c, hc⟩ := ((C21_cache_transparent H.hash parse s.cache hs.cache pr.text (hr.hash pr h1)).1 _).1 (hr.text pr h1)
      have hs2 := sim_call hs a2 a6 hc p n
      obtain ⟨y, s1, ⟨h4, h5⟩, rfl, rfl⟩ := (ev_z4Body (by rfl) (by rw [(opened_facts hs a2).2.2.2.2.2.2.2.2]; exact hc)).1 b3
      obtain ⟨w, f, σ', h7, h8⟩ := h5 rfl rfl _ _ hs2 pr.body (hr.body pr h1) (hr.fits pr h1) (.inl rfl)
      obtain ⟨h9, h10, h11⟩ := went_call hs a2 h8.went
      rw [h11] at b4
      rcases flow_call h8.flow with ⟨h12, h13⟩ | ⟨h12, e', h13, h14⟩
      · rw [h13, a3] at b4
        obtain ⟨rfl, rfl⟩ := z4_last.1 b4.1
        exact ⟨⟨w, .next, σ, .call (proc_of hr.apart h1).1 hpass h7 h12, rfl, h9, h10⟩, fun _ => ⟨rfl, a7⟩⟩
      · rw [h13] at b4
        obtain ⟨rfl, rfl⟩ := b4
        exact ⟨⟨w, f, σ, .callOut (proc_of hr.apart h1).1 hpass h7 h12, h14, h9, h10⟩, nofun⟩
  | item c env =>
    intro σ ρ hs
    constructor
    · rintro k hok hft rfl
      obtain ⟨x, ⟨h1, h2⟩, rfl⟩ := ev_block.1 h
      rw [hs.env] at h1 h2
      exact h2 rfl rfl σ ρ hs k hok hft (.inl rfl)
    · rintro x hx hok hft rfl
      have hev : Evals H (.item x.item env) s r s' := evals_iff.2 (Ev.mono (fun _ _ _ _ h => h.1) h)
      cases x with
      | call f ts => exact absurd rfl (hx f ts)
      | assign x v =>
        simp only [Spec.Stmt.Ok] at hok
        simp only [Spec.Stmt.Fits] at hft
        obtain ⟨o, ho⟩ := assign_total hs (sigs_defs g ▸ hok.2.1) hok.2.2 hft hev
        obtain ⟨r1, s1, h1, h2, h3⟩ := item_assign hs (sigs_defs g ▸ hok.2.1) hok.2.2 hft ho
        obtain ⟨rfl, rfl⟩ := h1.unique hev
        cases o with
        | none => exact ⟨_, _, _, .assignFail ho, h3.1, h2, h3.2⟩
        | some u => exact ⟨_, _, _, .assign ho, h3.1, h2, h3.2⟩
      | print v =>
        simp only [Spec.Stmt.Ok] at hok
        simp only [Spec.Stmt.Fits] at hft
        obtain ⟨o, ho⟩ := print_total hs.seen hok.1 hft hev
        obtain ⟨r1, s1, h1, h2, h3⟩ := item_print hs hr.word hok.1 hft ho
        obtain ⟨rfl, rfl⟩ := h1.unique hev
        have hv : Says (s1.scopes env.q) σ := by rw [h2]; exact hs.says
        cases o with
        | none => exact ⟨_, _, _, .printFail ho, h3.1, h3.2, hv⟩
        | some u => exact ⟨_, _, _, .print ho, h3.1, h3.2, hv⟩
      | brk =>
        obtain ⟨r1, h1, h2⟩ := item_brk (H := H) (env := env) (s := s) (n := ρ.length)
        obtain ⟨rfl, rfl⟩ := h1.unique hev
        exact ⟨_, _, _, .brk, h2, CalmIn.went (calm_fresh' s), hs.says⟩
      | cont =>
        obtain ⟨r1, h1, h2⟩ := item_cont (H := H) (env := env) (s := s) (n := ρ.length)
        obtain ⟨rfl, rfl⟩ := h1.unique hev
        exact ⟨_, _, _, .cont, h2, CalmIn.went (calm_fresh' s), hs.says⟩
      | ret =>
        obtain ⟨r1, h1, h2⟩ := item_ret (H := H) (env := env) (s := s) (n := ρ.length) hs.depth
        obtain ⟨rfl, rfl⟩ := h1.unique hev
        by_cases hd : ρ.length = 999
        · rw [if_pos hd] at h2
          exact ⟨_, _, _, .retDeep hd, h2, CalmIn.went (calm_fresh' s), hs.says⟩
        · rw [if_neg hd] at h2
          exact ⟨_, _, _, .ret hd, h2, CalmIn.went (calm_fresh' s), hs.says⟩
      | loop c k =>
        simp only [Spec.Stmt.Ok] at hok
        simp only [Spec.Stmt.Fits] at hft
        obtain ⟨y, h1, rfl⟩ := ev_itemR.1 h
        obtain ⟨x, s1, ⟨h2, h3⟩, rfl, rfl⟩ := ev_for_of h1
        have hc := calm_noted s
        obtain ⟨w, f, σ', h5, h6⟩ := h3 rfl _ _ _ (loopAt_start c) σ ρ (hs.calm hc hs.cache) k hok.2 hft rfl
        exact ⟨w, f, σ', .loop h5, h6.flow, by simpa using ((CalmIn.went (env := env) hc).trans h6.went).trans (went_pop env x.has s1),
          by rw [pop_scopes]; exact h6.vars⟩
      | cond t a b =>
        simp only [Spec.Stmt.Ok] at hok
        simp only [Spec.Stmt.Fits] at hft
        obtain ⟨y, h1, rfl⟩ := ev_itemR.1 h
        obtain ⟨x, s1, ⟨h2, -⟩, h3⟩ := ev_if.1 h1
        obtain ⟨o, ho⟩ := (tests_total H (σ :: ρ) t).1 []
        obtain ⟨x', s1', h4, h5, h6⟩ := cond_call (env := env) hs.seen hok.1 hft.1 ho
        obtain ⟨rfl, rfl⟩ := h4.unique h2
        have hs1 := hs.calm h5 (h2.cache hs.cache)
        cases o with
        | none =>
          obtain ⟨e, h7, h8⟩ := h6
          rw [h7] at h3
          dsimp only at h3
          rw [if_neg (by rw [h8]; decide)] at h3
          obtain ⟨rfl, rfl⟩ := h3
          exact ⟨_, _, _, .condFail ho, ⟨e, rfl, h8⟩, CalmIn.went h5, hs1.says⟩
        | some b' =>
          obtain ⟨h7, e, h8, h9⟩ := h6
          rw [h8] at h3
          dsimp only at h3
          rw [if_pos (show e.i = COND_OK ∨ e.i = COND_CT from h9), h7] at h3
          obtain ⟨z, ⟨-, h10⟩, rfl⟩ := h3
          have : ∃ w f σ', Spec.Does H g.proc ρ (if b' then a else b) σ w f σ' ∧ Meets env s1' ρ.length w f σ' z.r s' := by
            cases b' with
            | true => exact h10 rfl rfl σ ρ hs1 a hok.2.1 hft.2.1 (.inr rfl)
            | false => exact h10 rfl rfl σ ρ hs1 b hok.2.2 hft.2.2 (.inr rfl)
          obtain ⟨w, f, σ', h11, h12⟩ := this
          exact ⟨w, f, σ', .cond ho h11, h12.flow, by simpa using (CalmIn.went (env := env) h5).trans h12.went, h12.vars⟩
  | loop range codes max useI cnt env j hn =>
    rintro rfl x n i hl σ ρ hs k hok hft rfl
    by_cases hn0 : n = some 0
    · obtain ⟨rfl, rfl⟩ := (ev_loop_over (hl.over.1 hn0)).1 h
      subst hn0
      exact ⟨_, _, _, .over, rfl, Went.refl _ _, hs.says⟩
    obtain ⟨y, s1, ⟨h1, h2⟩, h3⟩ := (ev_loop (List.cons_ne_nil _ _) (hs.held _) (hl.more hn0)).1 h
    have hs0 := hs.count hl hn0 hn
    have hw := went_count cnt env (if useI then j + 1 else j) hn s
    obtain ⟨w, f, σ1, h4, h5⟩ := h2 rfl rfl _ ρ hs0 k hok hft (.inr rfl)
    have hs1 := hs0.step h5.went h5.vars (Does.args h4) h1.held (h1.cache hs0.cache)
    have again : f = .next ∨ f = .cont →
        Back H g (.loop false [.block k.code] max useI cnt env (if useI then j + 1 else j) cnt.name.isSome) s1 r s' →
        ∃ w f σ', Spec.Repeats H g.proc ρ x n i k σ w f σ' ∧ Meets env s ρ.length w f σ' r.r s' := by
      intro hf hb
      obtain ⟨w', f', σ', h6, h7⟩ := hb rfl _ _ _ (hl.next hn0) σ1 ρ hs1 k hok hft rfl
      exact ⟨_, _, _, .again hn0 h4 hf h6, h7.flow, by simpa using hw.trans (h5.went.trans h7.went), h7.vars⟩
    have hfl := h5.flow
    cases hx : y.r with
    | ok u =>
      rw [hx] at h3 hfl
      exact again (.inl hfl.ok) h3.2
    | error e =>
      rw [hx] at h3 hfl
      dsimp only at h3
      rcases flow_turn (o := cnt.name) hfl with ⟨rfl, h6, h7⟩ | ⟨h6, h7, h8⟩ | ⟨h6, h7⟩
      · rw [if_pos h6, if_pos h7] at h3
        obtain ⟨rfl, rfl⟩ := h3
        exact ⟨_, _, _, .leave hn0 h4, rfl, hw.trans h5.went, h5.vars⟩
      · rw [if_pos h7, if_neg h8] at h3
        exact again (.inr h6) h3.2
      · rw [if_neg (by rw [h7]; decide)] at h3
        obtain ⟨rfl, rfl⟩ := h3
        exact ⟨_, _, _, .out hn0 h4 h6, hfl, hw.trans h5.went, h5.vars⟩
  | _ => trivial

/-- C68, for a piece of a program in a state where it can run. -/
theorem core_codes {g : Spec.Prg} (hr : Ready H g) {k : Spec.Core} {env : Env} {s : St} {σ : Spec.Store} {ρ : List Spec.Store}
    (hs : Sim H g env s σ ρ) (hok : k.Ok g.sigs) (hft : k.Fits) :
    (∀ {r s'}, Evals H (.codes k.code 0 usizeMax env) s r s' →
      ∃ w f σ', Spec.Does H g.proc ρ k σ w f σ' ∧ Meets env s ρ.length w f σ' r.r s') ∧
    ∀ {w f σ'}, Spec.Does H g.proc ρ k σ w f σ' →
      ∃ r s', Evals H (.codes k.code 0 usizeMax env) s r s' ∧ Meets env s ρ.length w f σ' r.r s' := by
  constructor
  · intro r s' h
    exact evals_back hr h rfl rfl σ ρ hs k hok hft (.inl rfl)
  · intro w f σ' h
    obtain ⟨r, s', h1, h2⟩ := does_evals hr h hs hok hft (a := k.code) (i := 0) rfl
    obtain ⟨x, h3, h4⟩ := codes_of_z2 hs hft h1 h2
    exact ⟨x, s', h3, h4⟩

end Zh
