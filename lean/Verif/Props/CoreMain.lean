import Verif.Props.CoreText
import Verif.Props.Defines
import Verif.Props.Traces
/-!
# C68: plain scripts run like programs of a small language
-/
namespace Zh

variable {H : Host}

/-! ## Definitions of procedures -/

/-- The state after the name and the mark of a definition. -/
def namedSt (args : Bool) (name : Str) (s : St) : St :=
  let a := (Spec.fresh (Spec.fresh s)).push (s.nlist + 1) (.s name)
  if args then a else
  let b := (Spec.fresh a).push (s.nlist + 2) (.s c!"无参")
  { b with items := upd b.items s.nitem (b.items s.nitem ++ [c!"无参"]) }

theorem z2_undefText {a : List Code} {i j : Nat} {env : Env} {f : Str} {s s' : St} {r : Res} (hi : i < j)
    (hc : a[i]? = some (.undef f)) (hg : env.gd.undefEqText = true) :
    Evals H (.z2 a i j env) s r s' ↔ Ev H (Evals H) (z2Item a i j env (.undef f)) s r s' := by
  rw [evals_iff]
  change Ev H _ (z2P a i j env) s r s' ↔ _
  unfold z2P
  rw [if_pos hi, hc]
  show Ev H _ (if env.gd.undefEqText = true then _ else _) s r s' ↔ _
  rw [if_pos hg]

theorem item_undef {t : Str} {env : Env} {s s' : St} {r : Res} :
    Evals H (.item (.undef t) env) s r s' ↔ r = {} ∧ s' = s.push env.ret (.s t) := by
  rw [evals_item]
  constructor
  · rintro ⟨x, h, rfl⟩
    obtain ⟨_, rfl, g⟩ := evE_lift.1 (show EvE H (Evals H) (liftM (addT env.ret t) : E Unit) s x s' from h)
    exact ⟨rfl, ev_addT.1 g⟩
  · rintro ⟨rfl, rfl⟩
    exact ⟨.ok (), evE_lift.2 ⟨(), rfl, ev_addT.2 rfl⟩, rfl⟩

theorem z2_go {a : List Code} {i j : Nat} {env : Env} {c : Code} {s s1 s' : St} {r : Res} (hi : i < j) (hc : a[i]? = some c)
    (hu : c.id ≠ .undef) (hj : c.id ≠ .jvhao) (hd : c.id ≠ .dunhao) (h1 : Evals H (.item c env) s {} s1)
    (h2 : Evals H (.z2 a (i + 1) j env) s1 r s') : Evals H (.z2 a i j env) s r s' :=
  (z2_single hi hc hu hj hd).2 (ev_z2Item.2 (.inl ⟨s1, h1, h2⟩))

/-- An annotation after a text. -/
theorem item_remS {t u : Str} {env : Env} {s : St} {k : Nat} (hg : env.gd.names = false) (hv : env.gd.vals = false) (hr : env.ret < s.nlist)
    (hl : (s.lists env.ret).last? = some ⟨k, .s u⟩) :
    Evals H (.item (.remS t) env) s {} (let b := (Spec.fresh s).push s.nlist (.s t)
      { b with items := upd b.items k (b.items k ++ [t]) }) := by
  rw [evals_item]
  refine ⟨.ok (), ?_, rfl⟩
  show EvE H (Evals H) ((liftM (doOp .newList) : E Nat) >>= fun r2 => liftM (addT r2 t) >>= fun _ => liftM (remP r2 env)) s _ _
  rw [evE_newList_bind]
  refine evE_lift_bind.2 ⟨(), _, ev_addT.2 rfl, evE_lift.2 ⟨(), rfl, ?_⟩⟩
  unfold remP
  refine ev_bind.2 ⟨⟨k, .s u⟩, (Spec.fresh s).push s.nlist (.s t), ?_, ev_bind.2 ⟨_, _, ev_getList.2 ⟨rfl, rfl⟩, ?_⟩⟩
  · unfold remTarget
    rw [hg, hv]
    refine ev_bind.2 ⟨_, _, ev_getList.2 ⟨rfl, rfl⟩, ?_⟩
    have : (((Spec.fresh s).push s.nlist (.s t)).lists env.ret).last? = some ⟨k, .s u⟩ := by
      rw [← hl]
      simp [St.push, Spec.fresh, upd, Nat.ne_of_lt hr]
    rw [this]
    exact ev_pure.2 ⟨rfl, rfl⟩
  · refine ev_doOp.2 ?_
    simp [Op.run, St.push, Spec.fresh, upd, RList.add, RList.empty, Val.plain, Val.s3]

theorem name_eval {args : Bool} {name : Str} {env : Env} {s : St} (hg : env.gd = {}) :
    Spec.NameEval H (.undef name :: (if args then [] else [.remS c!"无参"])) (2 ^ 64 - 2) env s (.ok ()) (namedSt args name s) := by
  cases args with
  | true =>
    refine ⟨_, evals_iff.2 (ev_codes.2 ⟨{ idx := 1 }, ?_, rfl⟩), rfl⟩
    show Evals H (.z2 _ 0 1 _) _ _ _
    refine (z2_undefText (show 0 < 1 by decide) rfl rfl).2 (ev_z2Item.2 (.inl ⟨_, item_undef.2 ⟨rfl, rfl⟩, ?_⟩))
    exact (z2_end (Nat.le_refl 1)).2 ⟨rfl, rfl⟩
  | false =>
    refine ⟨_, evals_iff.2 (ev_codes.2 ⟨{ idx := 2 }, ?_, rfl⟩), rfl⟩
    show Evals H (.z2 _ 0 2 _) _ _ _
    refine (z2_undefText (show 0 < 2 by decide) rfl rfl).2 (ev_z2Item.2 (.inl ⟨_, item_undef.2 ⟨rfl, rfl⟩, ?_⟩))
    refine z2_go (s1 := namedSt false name s) (c := .remS c!"无参") (show 1 < 2 by decide) rfl (by decide) (by decide) (by decide) ?_ ?_
    · exact item_remS (k := s.nitem) (u := name) (by rw [hg]) (by rw [hg]) (by simp [St.push, Spec.fresh])
        (by simp [St.push, Spec.fresh, upd, RList.last?, RList.add, RList.empty])
    · exact (z2_end (Nat.le_refl 2)).2 ⟨rfl, rfl⟩

theorem namedSt_calm (args : Bool) (name : Str) (r : Nat) (s : St) : CalmIn r s (namedSt args name s) := by
  cases args with
  | true =>
    refine ⟨rfl, ?_, fun l hl hr => ?_, ?_, fun k hk => ?_⟩
    · simp only [namedSt, St.push, Spec.fresh, if_true]; omega
    · have h1 : l ≠ s.nlist := by omega
      have h2 : l ≠ s.nlist + 1 := by omega
      simp [namedSt, St.push, Spec.fresh, upd, h1, h2]
    · simp only [namedSt, St.push, Spec.fresh, if_true]; omega
    · have h1 : k ≠ s.nitem := by omega
      simp [namedSt, St.push, Spec.fresh, upd, h1]
  | false =>
    refine ⟨rfl, ?_, fun l hl hr => ?_, ?_, fun k hk => ?_⟩
    · simp only [namedSt, St.push, Spec.fresh, if_false, Bool.false_eq_true]; omega
    · have h1 : l ≠ s.nlist := by omega
      have h2 : l ≠ s.nlist + 1 := by omega
      have h3 : l ≠ s.nlist + 2 := by omega
      simp [namedSt, St.push, Spec.fresh, upd, h1, h2, h3]
    · simp only [namedSt, St.push, Spec.fresh, if_false, Bool.false_eq_true]; omega
    · have h1 : k ≠ s.nitem := by omega
      have h2 : k ≠ s.nitem + 1 := by omega
      simp [namedSt, St.push, Spec.fresh, upd, h1, h2]

/-- A procedure is defined. -/
theorem item_def {p : Spec.Proc} {env : Env} {s : St} (hg : env.gd = {}) (hn : p.name ≠ []) (hm : s.mods = []) (hh : ∀ q, .scope q ∉ s.held)
    (hc : ∀ q ∈ chain s.scopes env.q, ∀ d ∈ (s.scopes q).defs, ¬ d.name0 <+: p.name)
    (hf : findDefName p.name (s.scopes env.q).defs = none) :
    ∃ s1, (∀ r, CalmIn r s s1) ∧ Evals H (.item p.item env) s {} (Spec.defined env.q p.def_ s1) := by
  have c1 := namedSt_calm p.args p.name env.ret s
  have c2 : ∀ r, CalmIn r s ((Spec.fresh (namedSt p.args p.name s)).push (namedSt p.args p.name s).nlist (.s p.text)) := by
    intro r
    have h1 : CalmIn (namedSt p.args p.name s).nlist (Spec.fresh (namedSt p.args p.name s))
      ((Spec.fresh (namedSt p.args p.name s)).push (namedSt p.args p.name s).nlist (.s p.text)) := calm_push _ _ _
    exact (namedSt_calm p.args p.name r s).trans h1.inner
  refine ⟨_, c2, C63_definition.2 ⟨.ok (), ?_, rfl⟩⟩
  refine .done (s1 := namedSt p.args p.name s) (s2 := namedSt p.args p.name s) (n := if p.args then usizeMax else 0) (b := 0) (name := p.name) (ns := ⟨[], false⟩) (name_eval hg) ?_ ?_ ?_ hn ?_
    ?_ ?_ ?_ ?_ ?_
  · cases hb : p.args with
    | true =>
      have : Spec.nameMarks (s.nlist + 1) (namedSt true p.name s) = [] := by
        simp [Spec.nameMarks, namedSt, St.push, Spec.fresh, upd, RList.add, RList.empty]
      rw [this]
      exact .nil
    | false =>
      have : Spec.nameMarks (s.nlist + 1) (namedSt false p.name s) = [c!"无参"] := by
        simp [Spec.nameMarks, namedSt, St.push, Spec.fresh, upd, RList.add, RList.empty]
      rw [this]
      exact .noArg .nil
  · refine ⟨_, evals_iff.2 (ev_codes.2 ⟨{ idx := 2 ^ 64 - 2 + 1 }, ?_, rfl⟩), rfl⟩
    refine (z2_end ?_).2 ⟨rfl, rfl⟩
    cases p.args with
    | false => exact (by decide : min usizeMax 2 ≤ 2 ^ 64 - 2 + 1)
    | true => exact (by decide : min usizeMax 1 ≤ 2 ^ 64 - 2 + 1)
  · cases hb : p.args <;> simp [namedSt, St.push, Spec.fresh, upd, RList.add, RList.empty, RList.text, Val.plain, Val.s3]
  · intro q hq d hd hx
    rw [c1.scopes] at hd
    rw [Spec.seen, c1.scopes, c1.mods, hm] at hq
    exact hc q (by simpa [Spec.visible] using hq) d hd hx.1
  · refine ⟨_, evals_iff.2 (ev_codes.2 ⟨{ idx := 1 }, ?_, rfl⟩), rfl⟩
    show Evals H (.z2 _ 0 1 _) _ _ _
    exact z2_go (c := .text p.text) (by decide) rfl (by simp [Code.id]) (by simp [Code.id]) (by simp [Code.id])
      (item_text.2 ⟨rfl, rfl⟩) ((z2_end (Nat.le_refl 1)).2 ⟨rfl, rfl⟩)
  · rw [(c2 0).held]
    simpa using hh env.q
  · have hz : s.nlist ≠ s.nlist + 1 + 1 + 1 := by omega
    have hz' : s.nlist ≠ s.nlist + 1 + 1 := by omega
    cases hb : p.args
    · simp [hz, Spec.argNames, namedSt, St.push, Spec.fresh, upd, RList.empty, ArgNames.new, argNamesGo]
      exact ⟨rfl, rfl⟩
    · simp [hz', Spec.argNames, namedSt, St.push, Spec.fresh, upd, RList.empty, ArgNames.new, argNamesGo]
      exact ⟨rfl, rfl⟩
  · have hz : s.nlist ≠ s.nlist + 1 + 1 + 1 := by omega
    have hz' : s.nlist ≠ s.nlist + 1 + 1 := by omega
    cases hb : p.args <;> simp [hb, hz, hz', Spec.Proc.def_, Def.mk', mkArg0, namedSt, St.push, Spec.fresh, upd, RList.empty, RList.add, RList.text, Val.plain, Val.s3]
  · intro k hk
    rw [(c2 0).scopes] at hk
    rw [show p.def_.name = p.name from rfl, hf] at hk
    cases hk

/-- The state when the procedures `done` are defined. -/
structure Half (H : Host) (shl : Str) (ws : List Str) (done : List Spec.Proc) (s : St) : Prop where
  nscope : 1 < s.nscope
  nlist : 2 < s.nlist
  empty : (s.lists 2).a = []
  mods : s.mods = []
  held : ∀ q, .scope q ∉ s.held
  vars : (s.scopes 1).vars = []
  defs : (s.scopes 1).defs = done.map Spec.Proc.def_
  args : (s.scopes 1).argnames = none
  up : (s.scopes 1).up = some 0
  i : (s.scopes 1).i = 1
  top : Says (s.scopes 0) (Spec.outer shl)
  topUp : (s.scopes 0).up = none
  chars : ∀ d ∈ (s.scopes 0).defs, ∃ c ∈ Spec.chars, d.name = c.1 ∧ d.name0 = c.1 ∧ d.names.hasGe = false ∧ d.val = .si c.2
  cache : Spec.Reach H.hash parse s.cache
  line : (s.scopes 1).args = 1
  given : Given (s.lists 1) (ws.map some)

theorem Half.chain {shl : Str} {ws : List Str} {done : List Spec.Proc} {s : St} (h : Half H shl ws done s) : chain s.scopes 1 = [1, 0] := by
  rw [Zh.chain, h.up]
  simp only [Nat.zero_lt_one, dif_pos]
  rw [Zh.chain, h.topUp]

theorem setDef_new {d : Def} {ds : List Def} (h : findDefName d.name ds = none) : setDef d ds = ds ++ [d] := by
  induction ds with
  | nil => rfl
  | cons e es ih =>
    simp only [findDefName, List.findIdx?_cons] at h
    by_cases he : e.name = d.name
    · simp [he] at h
    · rw [setDef, if_neg he, ih, List.cons_append]
      simpa [he, findDefName] using h

theorem Half.define {g : Spec.Prg} (hg : g.Ok) {shl : Str} {ws : List Str} {done rest : List Spec.Proc} {p : Spec.Proc} {s : St} (h : Half H shl ws done s)
    (hp : g.procs = done ++ p :: rest) :
    ∃ s1, Evals H (.item p.item Env.init) s {} s1 ∧ Half H shl ws (done ++ [p]) s1 ∧ s1.trace = s.trace := by
  have hap := hg.apart
  have hd : ∀ d, d ∈ (s.scopes 1).defs ∨ d ∈ (s.scopes 0).defs → ¬ d.name0 <+: p.name ∧ d.name ≠ p.name := by
    rw [show g.defs = done.map (·.name) ++ (p.name :: (rest.map (·.name) ++ Spec.chars.map (·.1))) by
      simp [Spec.Prg.defs, Spec.Prg.names, hp]] at hap
    obtain ⟨-, h2, h3⟩ := List.pairwise_append.1 hap
    obtain ⟨h4, -⟩ := List.pairwise_cons.1 h2
    rintro d (hd | hd)
    · rw [h.defs] at hd
      obtain ⟨p', hp', rfl⟩ := List.mem_map.1 hd
      have := (h3 p'.name (List.mem_map_of_mem hp') p.name (.head _)).1
      refine ⟨fun hx => this hx.isInfix, fun hx => this ?_⟩
      have hx : p'.name = p.name := hx
      rw [hx]
      exact List.infix_refl _
    · obtain ⟨c, hc, h5, h6, -⟩ := h.chars d hd
      have := (h4 c.1 (List.mem_append_right _ (List.mem_map_of_mem hc))).2
      rw [h5, h6]
      refine ⟨fun hx => this hx.isInfix, fun hx => this ?_⟩
      rw [hx]
      exact List.infix_refl _
  have hf : findDefName p.name (s.scopes 1).defs = none := by
    simp only [findDefName, List.findIdx?_eq_none_iff, beq_eq_false_iff_ne]
    exact fun d hd' => (hd d (.inl hd')).2
  have hpo := hg.procs p (by rw [hp]; simp)
  obtain ⟨s1, h1, h2⟩ := item_def (H := H) (p := p) (env := Env.init) (s := s) rfl hpo.name.1 h.mods h.held
    (fun q hq d hd' => by
      rw [show Env.init.q = 1 from rfl, h.chain] at hq
      rcases List.mem_cons.1 hq with rfl | hq
      · exact (hd d (.inl hd')).1
      · cases List.mem_singleton.1 hq
        exact (hd d (.inr hd')).1) hf
  have hsc := (h1 0).scopes
  have e1 : (Spec.defined Env.init.q p.def_ s1).scopes 1 = { s.scopes 1 with defs := (done ++ [p]).map Spec.Proc.def_ } := by
    show upd s1.scopes 1 { s1.scopes 1 with defs := setDef p.def_ (s1.scopes 1).defs } 1 = _
    rw [hsc]
    simp only [upd, if_true]
    rw [setDef_new (d := p.def_) hf, h.defs, List.map_append]
    rfl
  have e0 : (Spec.defined Env.init.q p.def_ s1).scopes 0 = s.scopes 0 := by
    show upd s1.scopes 1 { s1.scopes 1 with defs := setDef p.def_ (s1.scopes 1).defs } 0 = _
    rw [hsc]
    rfl
  refine ⟨_, h2, ?_, (h1 0).trace⟩
  have hb := h2.cache h.cache
  constructor
  · exact (h1 0).nscope ▸ h.nscope
  · exact Nat.lt_of_lt_of_le h.nlist (h1 0).more
  · show (s1.lists 2).a = []
    rw [(h1 0).lists 2 h.nlist (by decide)]
    exact h.empty
  · exact (h1 0).mods.trans h.mods
  · show ∀ q, _ ∉ s1.held
    rw [(h1 0).held]
    exact h.held
  · rw [e1]; exact h.vars
  · rw [e1]
  · rw [e1]; exact h.args
  · rw [e1]; exact h.up
  · rw [e1]; exact h.i
  · rw [e0]; exact h.top
  · rw [e0]; exact h.topUp
  · rw [e0]; exact h.chars
  · exact hb
  · rw [e1]; exact h.line
  · show Given (s1.lists 1) _
    rw [(h1 0).lists 1 (Nat.lt_of_succ_lt h.nlist) (by decide)]
    exact h.given

/-- All procedures are defined, one after the other. -/
theorem defs_run {g : Spec.Prg} (hg : g.Ok) {shl : Str} {ws : List Str} : ∀ (rest done : List Spec.Proc) {s : St} {a : List Code} {i : Nat},
    Half H shl ws done s → g.procs = done ++ rest → a.drop i = (rest.flatMap fun p => [p.item, .kw1 .jvhao]) ++ g.main.code →
    ∃ s1 j, Half H shl ws g.procs s1 ∧ s1.trace = s.trace ∧ a.drop j = g.main.code ∧
      ∀ r s', Evals H (.z2 a i a.length Env.init) s r s' ↔ Evals H (.z2 a j a.length Env.init) s1 r s' := by
  intro rest
  induction rest with
  | nil =>
    intro done s a i h hp ha
    rw [List.append_nil] at hp
    exact ⟨s, i, hp ▸ h, rfl, ha, fun _ _ => Iff.rfl⟩
  | cons p rest ih =>
    intro done s a i h hp ha
    obtain ⟨s1, h1, h2, h3⟩ := h.define hg hp
    rw [List.flatMap_cons, List.append_assoc, List.cons_append, List.cons_append, List.nil_append] at ha
    obtain ⟨hi, ha1⟩ := drop_head ha
    obtain ⟨hi1, ha2⟩ := drop_head ha1
    have hlt : i < a.length := (List.getElem?_eq_some_iff.1 hi).1
    have hlt1 : i + 1 < a.length := (List.getElem?_eq_some_iff.1 hi1).1
    obtain ⟨s2, j, h4, h5, h6, h7⟩ := ih (done ++ [p]) h2 (by simp [hp]) ha2
    refine ⟨s2, j, h4, h5.trans h3, h6, fun r s' => ?_⟩
    rw [← h7, ← show Evals H (.z2 a (i + 1) a.length Env.init) s1 r s' ↔ Evals H (.z2 a (i + 1 + 1) a.length Env.init) s1 r s' from
      evals_iff.trans (ev_z2_jvhao hlt1 hi1 rfl h2.empty)]
    rw [z2_single hlt hi (by simp [Spec.Proc.item, Code.id]) (by simp [Spec.Proc.item, Code.id]) (by simp [Spec.Proc.item, Code.id]), ev_z2Item]
    constructor
    · rintro (⟨s3, h8, h9⟩ | ⟨e, h8, -⟩)
      · obtain ⟨-, rfl⟩ := h1.unique h8
        exact h9
      · obtain ⟨h10, -⟩ := h1.unique h8
        cases h10
    · exact fun h8 => .inl ⟨s1, h1, h8⟩

theorem Half.sim {g : Spec.Prg} {shl : Str} {ws : List Str} {s : St} (h : Half H shl ws g.procs s) : Sim H g Env.init s (g.start ws) [Spec.outer shl] where
  gd := rfl
  ret := h.nlist
  empty := h.empty
  held := h.held
  mods := h.mods
  q := h.nscope
  stacks := by
    rw [show Env.init.q = 1 from rfl, h.chain]
    refine .cons ?_ (.cons h.top .nil)
    intro x ns
    unfold Scope.get
    rw [h.vars, h.defs, h.args]
    have e : ((g.procs.map Spec.Proc.def_).find? fun d => d.name == x) = (g.procs.find? fun p => p.name == x).map Spec.Proc.def_ := by
      rw [List.find?_map]
      rfl
    rw [e]
    unfold Spec.Prg.start
    dsimp only
    cases g.procs.find? fun p => p.name == x with
    | none => exact rfl
    | some p => exact rfl
  known := by
    rw [show Env.init.q = 1 from rfl, h.chain]
    intro p hp d hd
    rcases List.mem_cons.1 hp with rfl | hp
    · rw [h.defs] at hd
      obtain ⟨p, hp, rfl⟩ := List.mem_map.1 hd
      exact .inl ⟨p, hp, rfl⟩
    · cases List.mem_singleton.1 hp
      exact .inr (h.chars d hd)
  procs := fun p hp => ⟨1, by rw [show Env.init.q = 1 from rfl, h.chain]; exact .head _, p.def_, by rw [h.defs]; exact List.mem_map_of_mem hp, rfl⟩
  depth := h.i
  cache := h.cache
  args := by
    rw [show Env.init.q = 1 from rfl, h.line]
    exact Nat.lt_of_succ_lt h.nlist
  given := by
    rw [show Env.init.q = 1 from rfl, h.line]
    exact h.given
  sep := by
    rw [show Env.init.q = 1 from rfl, h.line]
    decide

/-! ## The beginning of a run -/

/-- What has been printed. -/
def Spec.printed (s : St) : List Str := s.trace.filterMap fun | .out t => some t | _ => none

/-- Before the script runs; `c` is the scope outside of it. -/
structure Begun (c : Scope) (s : St) : Prop where
  nscope : 1 < s.nscope
  nlist : 2 < s.nlist
  empty : (s.lists 2).a = []
  mods : s.mods = []
  held : s.held = []
  vars : (s.scopes 1).vars = []
  defs : (s.scopes 1).defs = []
  names : (s.scopes 1).argnames = none
  args : (s.scopes 1).args = 1
  up : (s.scopes 1).up = some 0
  i : (s.scopes 1).i = 1
  top : s.scopes 0 = c
  cache : s.cache = []
  out : Spec.printed s = []

theorem begun_init (ovf : Bool) : Begun ((St.init ovf).scopes 0) (St.init ovf) := by
  constructor <;> first | rfl | exact Nat.le_refl _

theorem Begun.src {c : Scope} {s : St} (h : Begun c s) (t : Str) : Begun c { s with scopes := upd s.scopes 1 { s.scopes 1 with src := t } } :=
  { h with }

theorem Begun.file {c : Scope} {s : St} (h : Begun c s) (t : Bool) :
    Begun c { s with scopes := upd s.scopes 1 { s.scopes 1 with srcIsFile := t } } :=
  { h with }

theorem Begun.event {c : Scope} {s : St} (h : Begun c s) (e : Event) (he : ∀ t, e ≠ .out t) : Begun c { s with trace := s.trace ++ [e] } := by
  refine { h with out := ?_ }
  have := h.out
  unfold Spec.printed at this ⊢
  rw [List.filterMap_append, this]
  cases e <;> first | rfl | exact absurd rfl (he _)

theorem Begun.push {c : Scope} {s : St} (h : Begun c s) (v : Val) : Begun c (s.push 1 v) :=
  { h with }

theorem Begun.act {c : Scope} {s : St} (h : Begun c s) (a : CliAct) : Begun c (actSt 1 s a) := by
  cases a with
  | src t => exact h.src t
  | arg t =>
    simp only [actSt]
    rw [h.args]
    split
    · exact h.push _
    · exact (h.push _).push _
  | isCode => exact { h with }
  | path p => exact { h with }
  | jhdh => exact { h with }
  | ignore t => exact h.event _ nofun

theorem acts_shl (acts : List CliAct) (s : St) : (acts.foldl (actSt 1) s).shl = s.shl := by
  induction acts generalizing s with
  | nil => rfl
  | cons a acts ih =>
    rw [List.foldl_cons, ih]
    cases a with
    | arg t => simp only [actSt]; split <;> rfl
    | _ => rfl

/-- The words of the command line. -/
theorem Begun.clpars {c : Scope} {shl : Str} {a : List Str} {hs oz plus : Bool} {s s' : St} {r : Except Err Unit} (h : Begun c s)
    (he : EvE H (Evals H) (clparsP (shl :: a) true hs oz plus 1) s r s') :
    Begun c s' ∧ s'.shl = (shlSt shl s).shl := by
  cases hx : shebangScan oz plus a hs false none with
  | ok y =>
    obtain ⟨a2, h', so⟩ := y
    rcases hy : Clpars.for3 (cliCb oz) (fun st _ => (0, st)) (cliTable oz) issue a2 (h', []) with ⟨x, b, acts⟩
    obtain ⟨-, rfl⟩ := (evE_clpars h.held hx hy).1 he
    have h1 : Begun c (srcSt 1 (shlSt shl s) so) := by
      have h2 : Begun c (shlSt shl s) := { h with }
      cases so with
      | none => exact h2
      | some t => exact h2.src t
    refine ⟨?_, ?_⟩
    · clear hx hy he
      generalize srcSt 1 (shlSt shl s) so = s0 at h1
      induction acts generalizing s0 with
      | nil => exact h1
      | cons x xs ih => exact ih _ (h1.act x)
    · rw [acts_shl]
      cases so <;> rfl
  | panic =>
    unfold clparsP at he
    obtain ⟨b, s1, h1, h2⟩ := evE_lift_bind.1 he
    obtain ⟨rfl, rfl⟩ := ev_shlP.1 h1
    rw [hx] at h2
    obtain ⟨b, s1, h1, h2⟩ := evE_lift_bind.1 h2
    exact h1.elim
  | fuel =>
    unfold clparsP at he
    obtain ⟨b, s1, h1, h2⟩ := evE_lift_bind.1 he
    obtain ⟨rfl, rfl⟩ := ev_shlP.1 h1
    rw [hx] at h2
    obtain ⟨b, s1, h1, h2⟩ := evE_lift_bind.1 h2
    exact h1.elim

/-- A variable outside of the script. -/
theorem Begun.topVal {c : Scope} {s : St} (h : Begun c s) (name val : Str) :
    ∃ s1, Det H (Evals H) (topVal name val) s () s1 ∧ Begun { c with vars := Zh.setVar ⟨name, ⟨s.nitem, .s val⟩, false, false, false⟩ c.vars } s1 ∧
      s1.scopes 1 = s.scopes 1 ∧ s1.srcIsFile = s.srcIsFile ∧ s1.lists = s.lists := by
  let s0 : St := { s with items := upd s.items s.nitem [], nitem := s.nitem + 1 }
  let f : Scope → Scope := fun c => { c with vars := Zh.setVar ⟨name, ⟨s.nitem, .s val⟩, false, false, false⟩ c.vars }
  refine ⟨{ s0 with scopes := upd s0.scopes 0 (f (s0.scopes 0)) }, ?_, ?_, by simp [upd, s0], rfl, rfl⟩
  · refine Det.bind (det_op (o := .newItem (.s val) []) rfl) ?_
    exact det_op (o := .setVar 0 _) (modScope_free (s := s0) h.held 0 f)
  · refine { h with top := ?_ }
    show upd s0.scopes 0 (f (s0.scopes 0)) 0 = _
    simp only [upd, if_true, f, s0, h.top]

/-- Looking for a file. -/
theorem Begun.open {c : Scope} {f : Str} {s s' : St} {b : Bool} (h : Begun c s) (he : Ev H (Evals H) (openP f true 1) s b s') : Begun c s' := by
  let s0 : St := { s with trace := s.trace ++ [.open_ f] }
  have h0 : Begun c s0 := h.event _ nofun
  obtain ⟨b1, s1, h1, h2⟩ := ev_bind.1 he
  obtain ⟨rfl, rfl⟩ := (det_op (o := .open_ f) (a := H.open_ s.trace f) (s1 := s0) rfl _ _).1 h1
  cases e : H.open_ s.trace f with
  | false =>
    rw [e] at h2
    obtain ⟨-, rfl⟩ := ev_pure.1 h2
    exact h0
  | true =>
    rw [e] at h2
    let s2 : St := { s0 with scopes := upd s0.scopes 1 { s0.scopes 1 with src := f } }
    have h3 := h0.src f
    obtain ⟨_, _, g1, h2⟩ := ev_bind.1 h2
    obtain ⟨-, rfl⟩ := (det_op (o := .setSrc 1 f) (modScope_free (s := s0) h0.held 1 fun c => { c with src := f }) _ _).1 g1
    obtain ⟨_, _, g2, h2⟩ := ev_bind.1 h2
    obtain ⟨-, rfl⟩ := (det_op (o := .setIsFile 1) (modScope_free (s := s2) h0.held 1 fun c => { c with srcIsFile := true }) _ _).1 g2
    obtain ⟨-, rfl⟩ := ev_pure.1 h2
    exact h3.file true

theorem Begun.openFirst {c : Scope} {src : Str} {ps : List Str} : ∀ {s s' : St} {b : Bool}, Begun c s →
    Ev H (Evals H) (openFirst src true 1 ps) s b s' → Begun c s' := by
  induction ps with
  | nil =>
    intro s s' b h he
    obtain ⟨-, rfl⟩ := ev_pure.1 he
    exact h
  | cons p ps ih =>
    intro s s' b h he
    obtain ⟨o, s1, h1, h2⟩ := ev_bind.1 he
    obtain ⟨rfl, rfl⟩ := (det_op (o := .fileName p src) (a := H.fileName p src) (s1 := s) rfl _ _).1 h1
    cases e : H.fileName p src with
    | none => rw [e] at h2; exact ih h h2
    | some f =>
      rw [e] at h2
      obtain ⟨b1, s2, h3, h4⟩ := ev_bind.1 h2
      have h5 := h.open h3
      cases b1 with
      | true =>
        obtain ⟨-, rfl⟩ := ev_pure.1 h4
        exact h5
      | false => exact ih h5 h4

theorem Begun.okSrc {c : Scope} {src : Str} {s s' : St} {b : Bool} (h : Begun c s) (he : Ev H (Evals H) (okSrcP src true 1) s b s') :
    Begun c s' := by
  cases src with
  | nil =>
    obtain ⟨-, rfl⟩ := ev_pure.1 he
    exact h
  | cons x xs =>
    unfold okSrcP at he
    by_cases hx : x = '/'
    · simp only [hx, if_true] at he
      exact h.open he
    · simp only [hx, if_false] at he
      obtain ⟨s0, s1, h1, h2⟩ := ev_bind.1 he
      obtain ⟨e1, e2⟩ := ev_getSt.1 h1
      rw [e1, e2] at h2
      obtain ⟨b1, s2, h3, h4⟩ := ev_bind.1 h2
      have h5 := h.openFirst h3
      cases b1 with
      | true =>
        obtain ⟨-, rfl⟩ := ev_pure.1 h4
        exact h5
      | false => exact h5.open h4

/-- The scope outside of the script, with its two variables. -/
def topScope (c : Scope) (shl : Str) (i j : Nat) : Scope :=
  { c with vars := Zh.setVar ⟨c!"窗口", ⟨j, .s c!"linux"⟩, false, false, false⟩ (Zh.setVar ⟨c!"外壳", ⟨i, .s shl⟩, false, false, false⟩ c.vars) }

open Spec in
theorem main_begun {ovf : Bool} {shl : Str} {a : List Str} {opts : List CliOpt} {src : Str} {ws : List Str}
    (hl : CliLine (shl :: a) opts src ws) :
    ∃ i j s1, Begun (topScope ((St.init ovf).scopes 0) shl i j) s1 ∧ (s1.scopes 1).src = src ∧
      (s1.srcIsFile = false ↔ CliOpt.isCode ∈ opts) ∧ HasArgs s1 1 ws ∧
      ∀ r s', Ran H ovf (shl :: a) r s' ↔ EvE H (Evals H) ((if s1.srcIsFile then do
        let _ ← (okSrcP src true 1 : Prog Bool)
        let s ← (getSt : Prog St)
        src2P (s.scopes 1).src 1
      else pure src : E Str) >>= fun t => callE [] (.src t Env.init)) s1 r s' := by
  obtain ⟨s1, h1, h2, h3, h4, h5⟩ := clpars_line (H := H) (R := Evals H) ovf hl
  obtain ⟨b1, b2⟩ := (begun_init ovf).clpars ((h1 _ _).2 ⟨rfl, rfl⟩)
  have b2 : s1.shl = shl := b2
  obtain ⟨s2, g1, b3, g4, g5, g6⟩ := b1.topVal (H := H) c!"外壳" s1.shl
  obtain ⟨s3, k1, b4, k4, k5, k6⟩ := b3.topVal (H := H) c!"窗口" c!"linux"
  rw [b2] at b4
  refine ⟨s1.nitem, s2.nitem, s3, b4, by rw [k4, g4, h4], by rw [k5, g5, h5], h3.congr (k6.trans g6) (by rw [k4, g4]), fun r s' => ?_⟩
  rw [ran_iff]
  unfold mainP
  rw [evE_bind]
  simp only [h1]
  constructor
  · rintro (⟨_, _, ⟨_, rfl⟩, h⟩ | ⟨e, ⟨h, -⟩, -⟩)
    · rw [evE_getSt_bind, g1.evE_bind, k1.evE_bind, h4, ← g5, ← k5] at h
      exact h
    · cases h
  · intro h
    refine .inl ⟨(), _, ⟨trivial, rfl⟩, ?_⟩
    rw [evE_getSt_bind, g1.evE_bind, k1.evE_bind, h4, ← g5, ← k5]
    exact h

theorem top_says (ovf : Bool) (shl : Str) (i j : Nat) : Says (topScope ((St.init ovf).scopes 0) shl i j) (Spec.outer shl) := by
  intro x ns
  by_cases h1 : x = c!"外壳"
  · subst h1
    cases ns <;> exact ⟨shl, rfl, rfl⟩
  · by_cases h2 : x = c!"窗口"
    · subst h2
      cases ns <;> exact ⟨c!"linux", rfl, rfl⟩
    · have h0 : findVar ns x (topScope ((St.init ovf).scopes 0) shl i j).vars = none := by
        have : (topScope ((St.init ovf).scopes 0) shl i j).vars =
          [⟨c!"外壳", ⟨i, .s shl⟩, false, false, false⟩, ⟨c!"窗口", ⟨j, .s c!"linux"⟩, false, false, false⟩] := rfl
        rw [this]
        simp [findVar, Ne.symm h1, Ne.symm h2]
      unfold Scope.get
      rw [h0]
      unfold Spec.outer
      dsimp only
      rw [if_neg h1, if_neg h2]
      have e1 : (topScope ((St.init ovf).scopes 0) shl i j).defs = ((St.init ovf).scopes 0).defs := rfl
      have e2 : (topScope ((St.init ovf).scopes 0) shl i j).argnames = none := rfl
      rw [e1, e2]
      have e3 : ((St.init ovf).scopes 0).defs = Spec.chars.map fun c => Def.mk' c.1 (.si c.2) 0 0 ⟨[], false⟩ := rfl
      rw [e3]
      by_cases k1 : x = c!"换行"
      · subst k1; exact rfl
      by_cases k2 : x = c!"回车"
      · subst k2; exact rfl
      by_cases k3 : x = c!"制表符"
      · subst k3; exact rfl
      by_cases k4 : x = c!"ESC"
      · subst k4; exact rfl
      have hb : ∀ c ∈ Spec.chars, ¬ c.1 = x := by
        intro c hc
        simp only [Spec.chars, List.mem_cons, List.not_mem_nil, or_false] at hc
        rcases hc with rfl | rfl | rfl | rfl
        · exact Ne.symm k1
        · exact Ne.symm k2
        · exact Ne.symm k3
        · exact Ne.symm k4
      have f1 : (List.find? (fun d : Def => d.name == x) (Spec.chars.map fun c => Def.mk' c.1 (.si c.2) 0 0 ⟨[], false⟩)) = none := by
        rw [List.find?_eq_none]
        intro d hd
        obtain ⟨c, hc, rfl⟩ := List.mem_map.1 hd
        have : (Def.mk' c.1 (.si c.2) 0 0 ⟨[], false⟩).name = c.1 := by simp [Def.mk', mkArg0]
        rw [this]
        simpa using hb c hc
      rw [f1]
      show List.lookup x Spec.chars = none
      rw [List.lookup_eq_none_iff]
      intro c hc
      have := hb c hc
      simpa using fun h => this h.symm

theorem given_words {l : RList} {ws : List Str} (h : Spec.WF l) (he : (Spec.argsOf l).map (·.map Item.val) = ws.map fun w => [Val.s w]) :
    Given l (ws.map some) := by
  refine ⟨h, ?_⟩
  generalize Spec.argsOf l = gs at he
  induction gs generalizing ws with
  | nil =>
    cases ws with
    | nil => exact ⟨nofun, rfl⟩
    | cons w ws => simp at he
  | cons g gs ih =>
    cases ws with
    | nil => simp at he
    | cons w ws =>
      simp only [List.map_cons, List.cons.injEq] at he
      obtain ⟨h1, h2⟩ := ih he.2
      obtain ⟨i, rfl⟩ : ∃ i, g = [i] := List.length_eq_one_iff.1 (by simpa using congrArg List.length he.1)
      have hi : i.val = .s w := by simpa using he.1
      refine ⟨fun g' hg' => ?_, ?_⟩
      · rcases List.mem_cons.1 hg' with rfl | hg'
        · exact fun j hj => ⟨w, by rw [List.mem_singleton.1 hj, hi]⟩
        · exact h1 g' hg'
      · rw [List.map_cons, List.map_cons, h2]
        simp [textOfItems, hi, Val.plain, Val.s3]

theorem Begun.half {ovf : Bool} {shl : Str} {ws : List Str} {i j : Nat} {s : St} (h : Begun (topScope ((St.init ovf).scopes 0) shl i j) s)
    (hw : Spec.HasArgs s 1 ws) :
    Half H shl ws [] s where
  nscope := h.nscope
  nlist := h.nlist
  empty := h.empty
  mods := h.mods
  held := by rw [h.held]; exact nofun
  vars := h.vars
  defs := h.defs
  args := h.names
  up := h.up
  i := h.i
  top := by rw [h.top]; exact top_says ovf shl i j
  topUp := by rw [h.top]; rfl
  chars := by
    rw [h.top]
    intro d hd
    have hd : d ∈ Spec.chars.map fun c => Def.mk' c.1 (.si c.2) 0 0 ⟨[], false⟩ := hd
    obtain ⟨c, hc, rfl⟩ := List.mem_map.1 hd
    exact ⟨c, hc, by simp [Def.mk', mkArg0], rfl, rfl, rfl⟩
  cache := by rw [h.cache]; exact .nil
  line := h.args
  given := by
    have := given_words hw.1 hw.2
    rwa [h.args] at this

/-! ## Running the script -/

/-- How a run of the script ends. -/
def Spec.Finishes : Spec.Flow → Except Err _root_.Unit → Prop
  | .next, r | .ret, r => r = .ok ()
  | .brk, r => ∃ e, r = .error e ∧ e.i = BREAK
  | .cont, r => ∃ e, r = .error e ∧ e.i = CONTINUE
  | .fail, r => ∃ e, r = .error e ∧ e.i = ERR

theorem finishes {f : Spec.Flow} {r : Except Err Unit} (h : FlowIs 1 f r) : Spec.Finishes f (jumpReturn 1 r) := by
  cases f with
  | next => cases h; exact rfl
  | ret =>
    obtain ⟨e, rfl, h1, h2⟩ := h
    unfold jumpReturn
    dsimp only
    rw [if_pos ⟨h1, h2⟩]
    exact rfl
  | brk =>
    obtain ⟨e, rfl, h1, h2⟩ := h
    unfold jumpReturn
    dsimp only
    rw [if_neg (by rw [h1]; exact fun h => absurd h.1 (by decide))]
    exact ⟨e, rfl, h1⟩
  | cont =>
    obtain ⟨e, rfl, h1, h2⟩ := h
    unfold jumpReturn
    dsimp only
    rw [if_neg (by rw [h1]; exact fun h => absurd h.1 (by decide))]
    exact ⟨e, rfl, h1⟩
  | fail =>
    obtain ⟨e, rfl, h1⟩ := h
    unfold jumpReturn
    dsimp only
    rw [if_neg (by rw [h1]; exact fun h => absurd h.1 (by decide))]
    exact ⟨e, rfl, h1⟩

/-- The hash of the script and the kept texts distinguishes them from other texts. -/
def Spec.Prg.Hashes (H : Host) (g : Spec.Prg) : Prop :=
  (∀ t, H.hash t = H.hash g.src → t = g.src) ∧ ∀ p ∈ g.procs, ∀ t, H.hash t = H.hash p.text → t = p.text

theorem printed_out (w : List Str) : List.filterMap ((fun e => match e with | .out t => some t | _ => none) ∘ Event.out) w = w :=
  List.filterMap_some

theorem src_run {g : Spec.Prg} (hg : g.Ok) (hh : g.Hashes H) {shl : Str} {ws : List Str} {s : St} (hs : Half H shl ws [] s) (hp : Spec.printed s = []) :
    (∀ {x s'}, Evals H (.src g.src Env.init) s x s' →
      ∃ w f σ', Spec.Does H g.proc [Spec.outer shl] g.main (g.start ws) w f σ' ∧ Spec.Finishes f x.r ∧ Spec.printed s' = w) ∧
    ∀ {w f σ'}, Spec.Does H g.proc [Spec.outer shl] g.main (g.start ws) w f σ' →
      ∃ x s', Evals H (.src g.src Env.init) s x s' ∧ Spec.Finishes f x.r ∧ Spec.printed s' = w := by
  have hr := prg_ready (H := H) hg hh.2
  have hft := (core_fits (prg_sigs hg) g.main hg.main).2 (prg_small hg).1
  obtain ⟨c, hc, he⟩ := evals_src (env := Env.init) hs.cache hh.1
  have hs1 : Half H shl ws [] { s with cache := c } := { hs with cache := hc }
  obtain ⟨s2, j, h1, h2, h3, h4⟩ := defs_run hg g.procs [] hs1 rfl (a := g.code) (i := 0) rfl
  have e0 : ({ Env.init with gd := { du := Env.init.gd.du, jie := Env.init.gd.jie } } : Env) = Env.init := rfl
  have em : min usizeMax g.code.length = g.code.length := Nat.min_eq_right (prg_small hg).2.2
  have key : ∀ x s', Evals H (.src g.src Env.init) s x s' ↔
      ∃ y, Evals H (.z2 g.code j g.code.length Env.init) s2 y s' ∧ x = { r := jumpReturn (s'.scopes 1).i (wrap g.code y.idx y.r) } := by
    intro x s'
    rw [he, prg_read hg]
    constructor
    · rintro (⟨e, h, -⟩ | ⟨codes, y, h, h5, rfl⟩)
      · cases h
      · cases h
        obtain ⟨y', h6, rfl⟩ := ev_codes.1 (evals_iff.1 h5)
        rw [em, e0, h4] at h6
        exact ⟨y', h6, rfl⟩
    · rintro ⟨y, h5, rfl⟩
      refine .inr ⟨g.code, _, rfl, evals_iff.2 (ev_codes.2 ⟨y, ?_, rfl⟩), rfl⟩
      rw [em, e0, h4]
      exact h5
  have done : ∀ {y : Res} {s' : St} {w f σ'}, Meets Env.init s2 1 w f σ' y.r s' →
      Spec.Finishes f (jumpReturn (s'.scopes 1).i (wrap g.code y.idx y.r)) ∧ Spec.printed s' = w := by
    intro y s' w f σ' hm
    have hi : (s'.scopes 1).i = 1 := by
      rw [(hm.went.same h1.nscope).2.2.1]
      exact h1.i
    refine ⟨?_, ?_⟩
    · rw [hi]
      exact finishes (wrap_flow hm.flow)
    · unfold Spec.printed at hp ⊢
      rw [hm.went.trace, h2, List.filterMap_append]
      rw [show ({ s with cache := c } : St).trace = s.trace from rfl, hp, List.nil_append, List.filterMap_map]
      exact printed_out w
  constructor
  · intro x s' h
    obtain ⟨y, h5, rfl⟩ := (key x s').1 h
    obtain ⟨w, f, σ', h6, h7⟩ := evals_back hr h5 rfl _ _ h1.sim g.main hg.main hft (.inl h3)
    exact ⟨w, f, σ', h6, done h7⟩
  · intro w f σ' h
    obtain ⟨y, s', h5, h6⟩ := does_evals hr h h1.sim hg.main hft h3
    exact ⟨_, s', (key _ s').2 ⟨y, h5, rfl⟩, done h6⟩

/-- The script does not begin with `#!`. -/
theorem prg_hashed {g : Spec.Prg} (hg : g.Ok) : ¬ Spec.Hashed g.src := by
  rintro ⟨⟨t, ht⟩, -⟩
  have no : ∀ c, c ≠ '#' → ¬ ∃ u, g.src = c :: u := by
    rintro c hc ⟨u, hu⟩
    rw [hu] at ht
    exact hc (List.cons.inj ht).1.symm
  obtain ⟨procs, main⟩ := g
  cases procs with
  | cons p ps => exact no '定' (by decide) ⟨_, rfl⟩
  | nil =>
    cases main with
    | nil => cases ht
    | cons x k =>
      cases x with
      | assign x v => exact no '赋' (by decide) ⟨_, rfl⟩
      | print v => exact no '显' (by decide) ⟨_, rfl⟩
      | cond t a b => exact no '如' (by decide) ⟨_, rfl⟩
      | loop c a => exact no '循' (by decide) ⟨_, rfl⟩
      | brk => exact no '跳' (by decide) ⟨_, rfl⟩
      | cont => exact no '再' (by decide) ⟨_, rfl⟩
      | ret => exact no '返' (by decide) ⟨_, rfl⟩
      | call f ts =>
        have := hg.main.1
        simp only [Spec.Stmt.Ok] at this
        obtain ⟨⟨b, hb, -⟩, -⟩ := this
        cases hb

open Spec in
/-- **C68.**  A program of the small language, given as code on the command line. -/
theorem C68_code {g : Spec.Prg} (hg : g.Ok) (hh : g.Hashes H) {ovf : Bool} {shl : Str} {a : List Str} {opts : List CliOpt} {ws : List Str}
    (hl : CliLine (shl :: a) opts g.src ws) (hc : CliOpt.isCode ∈ opts) :
    (∀ r s', Ran H ovf (shl :: a) r s' →
      ∃ w f σ', Spec.Does H g.proc [Spec.outer shl] g.main (g.start ws) w f σ' ∧ Spec.Finishes f r ∧ Spec.printed s' = w) ∧
    ∀ w f σ', Spec.Does H g.proc [Spec.outer shl] g.main (g.start ws) w f σ' →
      ∃ r s', Ran H ovf (shl :: a) r s' ∧ Spec.Finishes f r ∧ Spec.printed s' = w := by
  obtain ⟨i, j, s1, h1, h2, h3, hw, h4⟩ := main_begun (H := H) (ovf := ovf) hl
  obtain ⟨k1, k2⟩ := src_run (H := H) hg hh (h1.half hw) h1.out
  have key : ∀ r s', Ran H ovf (shl :: a) r s' ↔ ∃ x, Evals H (.src g.src Env.init) s1 x s' ∧ x.r = r := by
    intro r s'
    rw [h4, h3.2 hc]
    exact evE_callE
  constructor
  · intro r s' h
    obtain ⟨x, h5, rfl⟩ := (key r s').1 h
    exact k1 h5
  · intro w f σ' h
    obtain ⟨x, s', h5, h6⟩ := k2 h
    exact ⟨x.r, s', (key _ _).2 ⟨x, h5, rfl⟩, h6⟩

open Spec in
/-- A program of the small language in a file: one of the places where the script is looked for. -/
theorem C68_file {g : Spec.Prg} (hg : g.Ok) (hh : g.Hashes H) {ovf : Bool} {shl src : Str} {a : List Str} {opts : List CliOpt} {ws : List Str}
    (hl : CliLine (shl :: a) opts src ws) (hc : CliOpt.isCode ∉ opts)
    (hf : ∀ tr f, (f = src ∨ ∃ p, H.fileName p src = some f) → H.read tr f = .ok g.src) :
    (∀ r s', Ran H ovf (shl :: a) r s' →
      ∃ w f σ', Spec.Does H g.proc [Spec.outer shl] g.main (g.start ws) w f σ' ∧ Spec.Finishes f r ∧ Spec.printed s' = w) ∧
    ∀ w f σ', Spec.Does H g.proc [Spec.outer shl] g.main (g.start ws) w f σ' →
      ∃ r s', Ran H ovf (shl :: a) r s' ∧ Spec.Finishes f r ∧ Spec.printed s' = w := by
  obtain ⟨i, j, s0, h1, h2, h3, hw, h4⟩ := main_begun (H := H) (ovf := ovf) hl
  have h3 : s0.srcIsFile = true := by
    cases e : s0.srcIsFile
    · exact absurd (h3.1 e) hc
    · rfl
  obtain ⟨b, s1, g1, g2, g3⟩ := det_okSrc (H := H) (R := Evals H) h1.held h2
  have h5 := h1.okSrc ((g1 _ _).2 ⟨rfl, rfl⟩)
  have hd : H.read s1.trace (s1.scopes 1).src = .ok g.src := by
    refine hf _ _ ?_
    rcases g3 with g3 | ⟨p, -, g3⟩
    · exact .inl g3
    · exact .inr ⟨p, g3⟩
  have h6 := h5.event (.read (s1.scopes 1).src) nofun
  obtain ⟨k1, k2⟩ := src_run (H := H) hg hh (h6.half (hw.congr g2.lists (by rw [h6.args, h1.args]))) h6.out
  have key : ∀ r s', Ran H ovf (shl :: a) r s' ↔
      ∃ x, Evals H (.src g.src Env.init) { s1 with trace := s1.trace ++ [.read (s1.scopes 1).src] } x s' ∧ x.r = r := by
    intro r s'
    rw [h4, h3, evE_bind]
    simp only [if_true, g1.evE_bind, evE_getSt_bind, evE_src2_plain hd (prg_hashed hg), evE_callE]
    constructor
    · rintro (⟨a, s2, ⟨k1, k2⟩, k3⟩ | ⟨e, ⟨k1, k2⟩, k3⟩)
      · cases k1
        subst k2
        exact k3
      · cases k1
    · intro h
      exact .inl ⟨_, _, ⟨rfl, rfl⟩, h⟩
  constructor
  · intro r s' h
    obtain ⟨x, h5, rfl⟩ := (key r s').1 h
    exact k1 h5
  · intro w f σ' h
    obtain ⟨x, s', h5, h6⟩ := k2 h
    exact ⟨x.r, s', (key _ _).2 ⟨x, h5, rfl⟩, h6⟩

end Zh
