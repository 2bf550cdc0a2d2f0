import Verif.Props.CoreEval
import Verif.Props.Returns
/-!
# C68: the states of a running program; assignments, printing and jumps
-/
namespace Zh

variable {H : Host}

/-! ## The state of a running program -/

/-- A definition that a script of the small language can have: a procedure, or one of the characters. -/
def Known (g : Spec.Prg) (d : Def) : Prop :=
  (∃ p ∈ g.procs, d = ⟨p.name, p.name, ⟨[], false⟩, .s p.text, if p.args then usizeMax else 0, 0⟩) ∨
  ∃ c ∈ Spec.chars, d.name = c.1 ∧ d.name0 = c.1 ∧ d.names.hasGe = false ∧ d.val = .si c.2

theorem Known.mem {g : Spec.Prg} {d : Def} (h : Known g d) : d.name ∈ g.defs ∧ d.name0 = d.name ∧ d.names.hasGe = false := by
  rcases h with ⟨p, hp, rfl⟩ | ⟨c, hc, h1, h2, h3, -⟩
  · exact ⟨List.mem_append_left _ (List.mem_map_of_mem hp), rfl, rfl⟩
  · refine ⟨?_, h2.trans h1.symm, h3⟩
    rw [h1]
    exact List.mem_append_right _ (List.mem_map_of_mem hc)

/-- The state `s` is that of a program with the variables `σ`, and `ρ` further out. -/
structure Sim (H : Host) (g : Spec.Prg) (env : Env) (s : St) (σ : Spec.Store) (ρ : List Spec.Store) : Prop where
  gd : env.gd = {}
  ret : env.ret < s.nlist
  empty : (s.lists env.ret).a = []
  held : ∀ q, .scope q ∉ s.held
  mods : s.mods = []
  q : env.q < s.nscope
  stacks : Stacks s.scopes (chain s.scopes env.q) (σ :: ρ)
  known : ∀ p ∈ chain s.scopes env.q, ∀ d ∈ (s.scopes p).defs, Known g d
  procs : ∀ p ∈ g.procs, ∃ q ∈ chain s.scopes env.q, ∃ d ∈ (s.scopes q).defs, d.name = p.name
  depth : (s.scopes env.q).i = ρ.length
  cache : Spec.Reach H.hash parse s.cache
  args : (s.scopes env.q).args < s.nlist
  given : Given (s.lists (s.scopes env.q).args) σ.args
  sep : (s.scopes env.q).args ≠ env.ret

theorem Sim.seen {g : Spec.Prg} {env : Env} {s : St} {σ : Spec.Store} {ρ : List Spec.Store} (h : Sim H g env s σ ρ) :
    Seen env.q s (σ :: ρ) := ⟨h.mods, h.stacks, h.args, h.given⟩

/-- What a program changes: the variables of its scope, and the output. -/
structure Went (env : Env) (s s' : St) (w : List Str) : Prop where
  scopesMore : s.nscope ≤ s'.nscope
  listsMore : s.nlist ≤ s'.nlist
  lists : ∀ l, l < s.nlist → s'.lists l = s.lists l
  scopes : ∀ p, p < s.nscope → p ≠ env.q → s'.scopes p = s.scopes p
  own : ∃ vars, s'.scopes env.q = { s.scopes env.q with vars }
  mods : s'.mods = s.mods
  trace : s'.trace = s.trace ++ w.map .out

theorem Went.refl (env : Env) (s : St) : Went env s s [] :=
  ⟨Nat.le_refl _, Nat.le_refl _, fun _ _ => rfl, fun _ _ _ => rfl, ⟨_, rfl⟩, rfl, by simp⟩

theorem Went.trans {env : Env} {s s1 s2 : St} {w w' : List Str} (h : Went env s s1 w) (h' : Went env s1 s2 w') : Went env s s2 (w ++ w') := by
  refine ⟨Nat.le_trans h.scopesMore h'.scopesMore, Nat.le_trans h.listsMore h'.listsMore, fun l hl => ?_, fun p hp hq => ?_, ?_,
    h'.mods.trans h.mods, ?_⟩
  · exact (h'.lists l (Nat.lt_of_lt_of_le hl h.listsMore)).trans (h.lists l hl)
  · exact (h'.scopes p (Nat.lt_of_lt_of_le hp h.scopesMore) hq).trans (h.scopes p hp hq)
  · obtain ⟨v, hv⟩ := h.own
    obtain ⟨v', hv'⟩ := h'.own
    exact ⟨v', by rw [hv', hv]⟩
  · rw [h'.trace, h.trace, List.map_append, List.append_assoc]

/-- Results that are thrown away. -/
theorem CalmIn.went {env : Env} {s s' : St} (h : ∀ r, CalmIn r s s') : Went env s s' [] := by
  refine ⟨Nat.le_of_eq (h 0).nscope.symm, (h 0).more, fun l hl => (h (l + 1)).lists l hl (by omega), fun p _ _ => by rw [(h 0).scopes],
    ⟨_, by rw [(h 0).scopes]⟩, (h 0).mods, by rw [(h 0).trace]; simp⟩

theorem chain_ups {f f' : Nat → Scope} {n : Nat} (h : ∀ p, p < n → (f' p).up = (f p).up) : ∀ q, q < n → chain f' q = chain f q := by
  intro q
  induction q using Nat.strongRecOn with
  | ind q ih =>
    intro hq
    rw [chain, chain, h q hq]
    cases hu : (f q).up with
    | none => rfl
    | some p =>
      dsimp only
      by_cases hp : p < q
      · rw [dif_pos hp, dif_pos hp, ih p hp (by omega)]
      · rw [dif_neg hp, dif_neg hp]

theorem Went.same {env : Env} {s s' : St} {w : List Str} (h : Went env s s' w) {p : Nat} (hp : p < s.nscope) :
    (s'.scopes p).up = (s.scopes p).up ∧ (s'.scopes p).defs = (s.scopes p).defs ∧ (s'.scopes p).i = (s.scopes p).i ∧
      (s'.scopes p).args = (s.scopes p).args := by
  by_cases hq : p = env.q
  · obtain ⟨v, hv⟩ := h.own
    rw [hq, hv]
    exact ⟨rfl, rfl, rfl, rfl⟩
  · rw [h.scopes p hp hq]
    exact ⟨rfl, rfl, rfl, rfl⟩

theorem Went.chain {env : Env} {s s' : St} {w : List Str} (h : Went env s s' w) {q : Nat} (hq : q < s.nscope) :
    chain s'.scopes q = chain s.scopes q := chain_ups (fun _ hp => (h.same hp).1) q hq

theorem Stacks.congr {f f' : Nat → Scope} {ps : List Nat} {ρ : List Spec.Store} (hf : ∀ p ∈ ps, f' p = f p) (h : Stacks f ps ρ) :
    Stacks f' ps ρ := by
  induction h with
  | nil => exact .nil
  | cons h1 _ ih => exact .cons (by rw [hf _ (by simp)]; exact h1) (ih fun p hp => hf p (by simp [hp]))

/-- The chain begins with the scope itself; the others are older. -/
theorem chain_head (f : Nat → Scope) (q : Nat) : ∃ ps, chain f q = q :: ps ∧ ∀ p ∈ ps, p < q := by
  rw [chain]
  refine ⟨_, rfl, ?_⟩
  cases hu : (f q).up with
  | none => simp
  | some p =>
    intro p' hp'
    by_cases hlt : p < q
    · simp only [hlt, dif_pos] at hp'
      have := mem_chain_le _ _ _ hp'
      omega
    · simp [hlt] at hp'

theorem Sim.says {g : Spec.Prg} {env : Env} {s : St} {σ : Spec.Store} {ρ : List Spec.Store} (h : Sim H g env s σ ρ) :
    Says (s.scopes env.q) σ := by
  obtain ⟨ps, hc, -⟩ := chain_head s.scopes env.q
  have := h.stacks
  rw [hc] at this
  cases this
  assumption

/-- After a statement. -/
theorem Sim.step {g : Spec.Prg} {env : Env} {s s' : St} {σ σ' : Spec.Store} {ρ : List Spec.Store} {w : List Str} (h : Sim H g env s σ ρ)
    (hw : Went env s s' w) (hs : Says (s'.scopes env.q) σ') (ha : σ'.args = σ.args) (hh : s'.held = s.held) (hc : Spec.Reach H.hash parse s'.cache) :
    Sim H g env s' σ' ρ := by
  have ec := hw.chain h.q
  obtain ⟨ps, he, hlt⟩ := chain_head s.scopes env.q
  have lt : ∀ p ∈ chain s.scopes env.q, p < s.nscope := fun p hp => Nat.lt_of_le_of_lt (mem_chain_le _ _ _ hp) h.q
  refine ⟨h.gd, Nat.lt_of_lt_of_le h.ret hw.listsMore, by rw [hw.lists _ h.ret]; exact h.empty, by rw [hh]; exact h.held,
    hw.mods.trans h.mods, Nat.lt_of_lt_of_le h.q hw.scopesMore, ?_, ?_, ?_, by rw [(hw.same h.q).2.2.1]; exact h.depth, hc, ?_, ?_, ?_⟩
  · rw [ec, he]
    have := h.stacks
    rw [he] at this
    cases this with
    | cons _ h2 =>
      refine .cons hs (h2.congr fun p hp => hw.scopes p ?_ ?_)
      · exact lt p (by rw [he]; simp [hp])
      · exact Nat.ne_of_lt (hlt p hp)
  · intro p hp d hd
    rw [ec] at hp
    rw [(hw.same (lt p hp)).2.1] at hd
    exact h.known p hp d hd
  · intro p hp
    obtain ⟨q, hq, d, hd, hn⟩ := h.procs p hp
    exact ⟨q, by rw [ec]; exact hq, d, by rw [(hw.same (lt q hq)).2.1]; exact hd, hn⟩
  · rw [(hw.same h.q).2.2.2]
    exact Nat.lt_of_lt_of_le h.args hw.listsMore
  · rw [(hw.same h.q).2.2.2, hw.lists _ h.args, ha]
    exact h.given
  · rw [(hw.same h.q).2.2.2]
    exact h.sep

theorem Evals.cache {c : Call} {s s' : St} {r : Res} (h : Evals H c s r s') (hs : Spec.Reach H.hash parse s.cache) :
    Spec.Reach H.hash parse s'.cache := by
  obtain ⟨n, h⟩ := h
  have := (kept_cache H).run n c s
  rw [h] at this
  exact this hs

/-- The evaluator's result for a flow; `d` is the depth of the scope. -/
def FlowIs (d : Nat) : Spec.Flow → Except Err Unit → Prop
  | .next, r => r = .ok ()
  | .brk, r => ∃ e, r = .error e ∧ e.i = BREAK ∧ e.s = []
  | .cont, r => ∃ e, r = .error e ∧ e.i = CONTINUE ∧ e.s = []
  | .ret, r => ∃ e, r = .error e ∧ e.i = RETURN ∧ (d : Int) ≤ e.i2
  | .fail, r => ∃ e, r = .error e ∧ e.i = ERR

/-! ## Jumps -/

theorem calm_fresh' (s : St) (r : Nat) : CalmIn r s (Spec.fresh s) := calm_fresh r s

theorem item_ret {env : Env} {s : St} {n : Nat} (hd : (s.scopes env.q).i = n) :
    ∃ r, Evals H (.item (.jump .return_ []) env) s { r } (Spec.fresh s) ∧
      FlowIs n (if n = 999 then .fail else .ret) r := by
  by_cases h : n = 999
  · rw [if_pos h]
    exact ⟨_, C26_depth_999 env s (by rw [hd, h]; rfl), _, rfl, rfl⟩
  · rw [if_neg h]
    exact ⟨_, C26_statement_plain env s (by omega) (by omega), _, rfl, rfl, by rw [hd]; dsimp only; omega⟩

theorem item_brk {env : Env} {s : St} {n : Nat} :
    ∃ r, Evals H (.item (.jump .break_ []) env) s { r } (Spec.fresh s) ∧ FlowIs n .brk r := by
  have h := jump_item (k := .break_) (words_nil (H := H) (env := env) (s := s))
  exact ⟨_, h, _, rfl, rfl, rfl⟩

theorem item_cont {env : Env} {s : St} {n : Nat} :
    ∃ r, Evals H (.item (.jump .continue_ []) env) s { r } (Spec.fresh s) ∧ FlowIs n .cont r := by
  have h := jump_item (k := .continue_) (words_nil (H := H) (env := env) (s := s))
  exact ⟨_, h, _, rfl, rfl, rfl⟩

/-! ## Printing -/

/-- The words of a value. -/
theorem words_value {v : Spec.Value} {env : Env} {ρ : List Spec.Store} {s : St} (hs : Seen env.q s ρ)
    (hok : v.Ok) (hl : ∀ t, v = .text t ∨ v = .sum t → t.code.length ≤ usizeMax) {o : Option (Option Str)} (hg : Spec.Gives H ρ v o) :
    match (generalizing := false) o with
    | none => ∃ x e s', Evals H (.codes v.code 0 usizeMax { env with ret := s.nlist }) (Spec.fresh s) x s' ∧ x.r = .error e ∧ e.i = ERR ∧
        ∀ r, CalmIn r s s'
    | some u => ∃ s', Spec.Words H v.code env s u.toList s' ∧ ∀ r, CalmIn r s s' := by
  obtain ⟨x, s', h1, h2, h3⟩ := codes_value (H := H) (env := { env with ret := s.nlist }) (s := Spec.fresh s)
    (by show s.nlist < s.nlist + 1; omega) hs.fresh (Nat.ne_of_lt hs.args) hok hl hg
  cases o with
  | none =>
    obtain ⟨e, h4, h5⟩ := h3
    exact ⟨x, e, s', h1, h4, h5, fun r => h2.inner⟩
  | some u =>
    obtain ⟨h4, its, h5, h6⟩ := h3
    refine ⟨s', ⟨x, h1, h4, ?_⟩, fun r => h2.inner⟩
    have e : (s'.lists s.nlist).a = its := by
      have h5 : (s'.lists s.nlist).a = _ := h5
      rw [h5]
      simp [Spec.fresh, upd, RList.empty]
    rw [RList.toVec, toVec_texts (by rw [e]; exact h6)]

/-- Nobody defines `显示`. -/
theorem noHandler {g : Spec.Prg} (hg : ∀ d ∈ g.defs, d ≠ Spec.printWord) {s : St} {q : Nat}
    (hk : ∀ p ∈ chain s.scopes q, ∀ d ∈ (s.scopes p).defs, Known g d) : printHandler s q = none := by
  unfold printHandler
  rw [List.findSome?_eq_none_iff]
  intro p hp
  rw [Option.map_eq_none_iff, List.find?_eq_none]
  intro d hd e
  have : kwStr .print_ = Spec.printWord := by decide
  rw [this] at e
  exact hg _ (hk p hp d hd).mem.1 (by simpa using e)

theorem item_print {g : Spec.Prg} {v : Spec.Value} {env : Env} {σ : Spec.Store} {ρ : List Spec.Store} {s : St} (hsim : Sim H g env s σ ρ)
    (hgd : ∀ d ∈ g.defs, d ≠ Spec.printWord) (hok : v.Ok) (hl : ∀ t, v = .text t ∨ v = .sum t → t.code.length ≤ usizeMax)
    {o : Option (Option Str)} (hg : Spec.Gives H (σ :: ρ) v o) :
    ∃ x s', Evals H (.item (.print v.code) env) s { r := x } s' ∧ s'.scopes = s.scopes ∧ match (generalizing := false) o with
      | none => (∃ e, x = .error e ∧ e.i = ERR) ∧ Went env s s' []
      | some u => x = .ok () ∧ Went env s s' u.toList := by
  have hw := words_value (H := H) (env := env) hsim.seen hok hl hg
  cases o with
  | none =>
    obtain ⟨x, e, s', h1, h2, h3, h4⟩ := hw
    refine ⟨.error e, s', evals_item.2 ⟨_, ?_, rfl⟩, (h4 0).scopes, ⟨e, rfl, h3⟩, CalmIn.went h4⟩
    show EvE H (Evals H) (printP v.code env) s _ s'
    rw [printP_eq]
    exact evE_helloVec_bind.2 (.inr ⟨x, e, h1, h2, rfl⟩)
  | some u =>
    obtain ⟨s1, h1, h2⟩ := hw
    cases u with
    | none =>
      refine ⟨.ok (), s1, (printRest_iff h1).2 ⟨_, ?_, rfl⟩, (h2 0).scopes, rfl, CalmIn.went h2⟩
      unfold printRest
      exact evE_pure.2 ⟨rfl, rfl⟩
    | some u =>
      refine ⟨.ok (), { s1 with trace := s1.trace ++ [.out u] }, (printRest_iff h1).2 ⟨_, ?_, rfl⟩, (h2 0).scopes, rfl, ?_⟩
      · unfold printRest
        refine (evE_mk_bind).2 (.inl ⟨_, rfl, ?_⟩)
        rw [evE_getSt_bind]
        have hn : printHandler s1 env.q = none := noHandler hgd (by rw [(h2 0).scopes]; exact hsim.known)
        rw [hn]
        show EvE H (Evals H) (do
          liftM (doOp (Op.emit (.out u)))
          printJie env.ret u env.gd.jie) s1 _ _
        rw [hsim.gd]
        refine evE_lift_bind.2 ⟨_, _, ev_doOp.2 rfl, ?_⟩
        exact evE_printJie.2 .nil
      · have h3 := CalmIn.went (env := env) h2
        exact ⟨h3.scopesMore, h3.listsMore, h3.lists, h3.scopes, h3.own, h3.mods, by
          show s1.trace ++ _ = _
          rw [h3.trace]
          simp⟩

theorem print_total {v : Spec.Value} {env : Env} {ρ : List Spec.Store} {s s' : St} {x : Res} (hs : Seen env.q s ρ)
    (hok : v.Ok) (hl : ∀ t, v = .text t ∨ v = .sum t → t.code.length ≤ usizeMax)
    (h : Evals H (.item (.print v.code) env) s x s') : ∃ o, Spec.Gives H ρ v o := by
  obtain ⟨y', h4, -⟩ := evals_item.1 h
  have h4 : EvE H (Evals H) (printP v.code env) s y' s' := h4
  rw [printP_eq] at h4
  rcases evE_helloVec_bind.1 h4 with ⟨w, s2, ⟨z, h5, -⟩, -⟩ | ⟨z, e, h5, -⟩
  · exact value_total (env := { env with ret := s.nlist }) (s := Spec.fresh s) hs.fresh hok hl h5
  · exact value_total (env := { env with ret := s.nlist }) (s := Spec.fresh s) hs.fresh hok hl h5

/-! ## Assignment -/

theorem noCall_of {g : Spec.Prg} {s : St} {q : Nat} {x : Str} (hm : s.mods = []) (hk : ∀ p ∈ chain s.scopes q, ∀ d ∈ (s.scopes p).defs, Known g d)
    (hx : ∀ d ∈ g.defs, ¬ d <:+: x) : Spec.NoCall s q [] x := by
  rintro u v rfl - p hp d hd ⟨-, w, hw⟩
  have hp : p ∈ chain s.scopes q := by simpa [Spec.seen, Spec.visible, hm] using hp
  have := (hk p hp d hd).mem
  rw [this.2.1] at hw
  exact hx _ this.1 ⟨u, w, by rw [List.append_assoc, hw]⟩

theorem codes_name {g : Spec.Prg} {env : Env} {s : St} {x : Str} (hg : env.gd.undefEqText = false) (hm : s.mods = [])
    (hk : ∀ p ∈ chain s.scopes env.q, ∀ d ∈ (s.scopes p).defs, Known g d) (hx : ∀ d ∈ g.defs, ¬ d <:+: x) :
    Evals H (.codes [.undef x] 0 usizeMax env) s { idx := 1 } (s.push env.ret (.s x)) := by
  refine codes_z2.2 ⟨{ idx := 1 }, ?_, rfl⟩
  show Evals H (.z2 [.undef x] 0 1 env) s _ _
  refine evals_iff.2 ?_
  change Ev H _ (z2P [.undef x] 0 1 env) s _ _
  unfold z2P
  rw [if_pos (by omega)]
  show Ev H _ (if env.gd.undefEqText = true then _ else _) s _ _
  rw [if_neg (by rw [hg]; decide)]
  refine ev_bind.2 ⟨{ idx := 0, idx2 := x.length }, s, ev_callP.2 ((z4_noCall (st := ⟨0, false, 0, [], []⟩) (noCall_of hm hk hx)
    (Nat.zero_le _)).2 ⟨rfl, rfl⟩), ?_⟩
  show Ev H _ (z2Item [.undef x] 0 1 env (.undef x)) s _ _
  refine ev_z2Item.2 (.inl ⟨_, ?_, (z2_end (Nat.le_refl _)).2 ⟨rfl, rfl⟩⟩)
  exact evals_item.2 ⟨.ok (), evE_lift.2 ⟨(), rfl, ev_addT.2 rfl⟩, rfl⟩

theorem findVar_set (ns : Bool) (v : Var) (hv : v.priv = false) (vs : List Var) (x : Str) :
    findVar ns x (setVar v vs) = if x = v.name then some v else findVar ns x vs := by
  unfold findVar
  by_cases hx : x = v.name
  · rw [if_pos hx]
    induction vs with
    | nil => simp [setVar, hv, hx]
    | cons w ws ih =>
      rw [setVar]
      split
      · simp [hv, hx]
      · rename_i hw
        have hw : (w.name == x) = false := beq_eq_false_iff_ne.2 fun e => hw (e.trans hx)
        rw [List.find?_cons, hw, Bool.and_false]
        exact ih
  · rw [if_neg hx]
    have hb : (v.name == x) = false := beq_eq_false_iff_ne.2 fun e => hx e.symm
    induction vs with
    | nil => simp [setVar, hb]
    | cons w ws ih =>
      rw [setVar]
      split
      · rename_i hw
        have hw : (w.name == x) = false := by rw [hw]; exact hb
        rw [List.find?_cons, List.find?_cons, hb, hw, Bool.and_false, Bool.and_false]
      · rw [List.find?_cons, List.find?_cons]
        split
        · rfl
        · exact ih

theorem says_set {c : Scope} {σ : Spec.Store} (h : Says c σ) {v : Var} {t : Str} (h1 : v.priv = false) (h2 : v.alias = false)
    (h3 : v.equ = false) (h4 : v.val.val = .s t) : Says { c with vars := setVar v c.vars } (σ.set v.name t) := by
  intro x ns
  have := h x ns
  unfold Scope.get at this ⊢
  dsimp only
  rw [findVar_set ns v h1]
  unfold Spec.Store.set
  dsimp only
  by_cases hx : x = v.name
  · rw [if_pos hx, if_pos hx]
    simp [Var.act, h2, h3, h4]
  · rw [if_neg hx, if_neg hx]
    exact this

theorem groups_texts {l : List Item} (h : ∀ i ∈ l, ∃ t, i.val = .s t) : Spec.values l = [l] := by
  unfold Spec.values
  induction l with
  | nil => rfl
  | cons i l ih =>
    obtain ⟨t, ht⟩ := h i (by simp)
    rw [Spec.groups.eq_def]
    have : i.dunhao = false := by simp [Item.dunhao, Item.isKw, ht]
    simp [this, ih fun j hj => h j (by simp [hj])]

theorem item_assign {g : Spec.Prg} {x : Str} {v : Spec.Value} {env : Env} {σ : Spec.Store} {ρ : List Spec.Store} {s : St}
    (hsim : Sim H g env s σ ρ) (hx : ∀ d ∈ g.defs, ¬ d <:+: x) (hok : v.Ok)
    (hl : ∀ t, v = .text t ∨ v = .sum t → t.code.length ≤ usizeMax) {o : Option (Option Str)} (hg : Spec.Gives H (σ :: ρ) v o) :
    ∃ r s', Evals H (.item (.set_ [.undef x] v.code) env) s { r } s' ∧ Went env s s' [] ∧ match (generalizing := false) o with
      | none => (∃ e, r = .error e ∧ e.i = ERR) ∧ Says (s'.scopes env.q) σ
      | some u => r = .ok () ∧ Says (s'.scopes env.q) (σ.set x (u.getD [])) := by
  have e0 : ({ env.gd with names := true } : Opt).undefEqText = false := by rw [hsim.gd]
  have h1 := codes_name (H := H) (env := { env with gd := { env.gd with names := true }, ret := s.nlist }) (s := Spec.fresh (Spec.fresh s))
    (x := x) e0 hsim.mods hsim.known hx
  generalize hs1 : (Spec.fresh (Spec.fresh s)).push s.nlist (.s x) = s1 at h1
  have c1 : ∀ r, CalmIn r s s1 := by
    intro r
    rw [← hs1]
    refine CalmIn.inner (CalmIn.trans (calm_fresh _ _) (calm_push _ _ _))
  have e1 : s1.nlist = s.nlist + 2 := by rw [← hs1]; rfl
  have l1 : s1.lists s.nlist = RList.empty.add ⟨s.nitem, .s x⟩ := by
    rw [← hs1]
    simp [Spec.fresh, St.push, upd]
  have i1 : s1.items s.nitem = [] := by
    rw [← hs1]
    simp [Spec.fresh, St.push, upd]
  have n1 : s1.nitem = s.nitem + 1 := by rw [← hs1]; rfl
  have l2 : s1.lists (s.nlist + 1) = .empty := by
    rw [← hs1]
    simp [Spec.fresh, St.push, upd]
  obtain ⟨y, s2, h2, h3, h4⟩ := codes_value (H := H) (env := { env with gd := { env.gd with vals := true }, ret := s.nlist + 1 }) (s := s1)
    (by show s.nlist + 1 < s1.nlist; omega) (hsim.seen.calm (c1 s.nlist) (Nat.ne_of_lt hsim.args))
    (by show (s1.scopes env.q).args ≠ s.nlist + 1; rw [(c1 0).scopes]; have := hsim.args; omega) hok hl hg
  have c2 : ∀ r, CalmIn r s s2 := by
    intro r
    refine ⟨h3.bare.trans (c1 0).bare, Nat.le_trans (c1 0).more h3.more, fun l hl' _ => ?_, Nat.le_trans (c1 0).moreItems h3.moreItems,
      fun k hk => (h3.items k (by omega)).trans ((c1 0).items k hk)⟩
    rw [h3.lists l (by omega) (by show l ≠ s.nlist + 1; omega)]
    exact (c1 (l + 1)).lists l hl' (by omega)
  cases o with
  | none =>
    obtain ⟨e, h5, h6⟩ := h4
    refine ⟨.error e, s2, C43_assignment.2 ⟨_, .badVals h1 rfl h2 h5, rfl⟩, CalmIn.went c2, ⟨e, rfl, h6⟩, ?_⟩
    rw [(c2 0).scopes]
    exact hsim.says
  | some u =>
    obtain ⟨h5, its, h6, h7⟩ := h4
    have l3 : s2.lists s.nlist = RList.empty.add ⟨s.nitem, .s x⟩ := by
      rw [h3.lists s.nlist (by omega) (by show s.nlist ≠ s.nlist + 1; omega), l1]
    have l4 : (s2.lists (s.nlist + 1)).a = its := by
      have h6 : (s2.lists (s.nlist + 1)).a = (s1.lists (s.nlist + 1)).a ++ its := h6
      rw [h6, l2]
      rfl
    have a3 : (s2.lists s.nlist).a = [⟨s.nitem, .s x⟩] := by rw [l3]; rfl
    have i2 : s2.items s.nitem = [] := by rw [h3.items s.nitem (by omega), i1]
    have en : Spec.names [(⟨s.nitem, .s x⟩ : Item)] = [[⟨s.nitem, .s x⟩]] := rfl
    have ht : its.filter (fun i => !Spec.isObj i) = its := by
      rw [List.filter_eq_self]
      intro i hi
      obtain ⟨t, ht⟩ := h7.1 i hi
      simp [Spec.isObj, ht]
    have ho : its.reverse.find? Spec.isObj = none := by
      rw [List.find?_eq_none]
      intro i hi
      obtain ⟨t, ht⟩ := h7.1 i (List.mem_reverse.1 hi)
      simp [Spec.isObj, ht]
    have hp : (its.flatMap fun i => i.val.plainKw) = u.getD [] := by
      have hu : u.getD [] = its.flatMap fun i => i.val.plain := by
        rw [← h7.2, textOfItems]
        split
        · rename_i h; rw [h]; rfl
        · rfl
      rw [hu]
      have : ∀ l : List Item, (∀ i ∈ l, ∃ t, i.val = .s t) → (l.flatMap fun i => i.val.plainKw) = l.flatMap fun i => i.val.plain := by
        intro l hl
        induction l with
        | nil => rfl
        | cons i l ih =>
          obtain ⟨t, ht⟩ := hl i (by simp)
          rw [List.flatMap_cons, List.flatMap_cons, ih fun j hj => hl j (by simp [hj]), ht]
          rfl
      exact this its h7.1
    have hgv : Spec.given s2 its = ⟨none, u.getD [], its.flatMap fun i => s2.items i.ref⟩ := by
      unfold Spec.given
      rw [ht, ho]
      dsimp only
      rw [hp]
    have w2 := CalmIn.went (env := env) c2
    refine ⟨.ok (), Spec.assigned env.q ⟨x, ⟨s2.nitem, .s (u.getD [])⟩, false, false, false⟩ ((Spec.given s2 its).st s2),
      C43_assignment.2 ⟨_, .assign h1 rfl h2 h5 (r := .ok ()) ?_, rfl⟩, ?_, rfl, ?_⟩
    · rw [a3, l4, en, groups_texts h7.1]
      refine .cons (q := env.q) (x' := (false, false)) (now := Spec.given s2 its) (cnt' := 0) ?_ rfl ?_ ?_ .nil
      · simp only [List.flatMap_cons, List.flatMap_nil, i2]
        exact .nil
      · rw [(c2 0).held]
        simpa using hsim.held env.q
      · rw [hsim.gd, show (Spec.given s2 its).item s2 = ⟨s2.nitem, .s (u.getD [])⟩ by rw [hgv]; rfl]
        have : (List.flatMap (fun i => i.val.plainKw) [(⟨s.nitem, .s x⟩ : Item)]) = x := by
          show x ++ [] = x
          simp
        rw [this]
        exact .nil
    · rw [hgv]
      refine ⟨w2.scopesMore, w2.listsMore, w2.lists, fun p hp hq => ?_,
        ⟨setVar ⟨x, ⟨s2.nitem, .s (u.getD [])⟩, false, false, false⟩ (s2.scopes env.q).vars, ?_⟩, w2.mods, w2.trace⟩
      · show upd s2.scopes env.q _ p = _
        rw [upd, if_neg hq]
        exact w2.scopes p hp hq
      · show upd s2.scopes env.q _ env.q = _
        rw [upd_same, ← (c2 0).scopes]
        rfl
    · rw [hgv]
      show Says (upd s2.scopes env.q _ env.q) _
      rw [upd_same]
      refine says_set (c := s2.scopes env.q) ?_ rfl rfl rfl rfl
      rw [(c2 0).scopes]
      exact hsim.says

theorem assign_total {g : Spec.Prg} {x : Str} {v : Spec.Value} {env : Env} {σ : Spec.Store} {ρ : List Spec.Store} {s s' : St} {r : Res}
    (hsim : Sim H g env s σ ρ) (hx : ∀ d ∈ g.defs, ¬ d <:+: x) (hok : v.Ok)
    (hl : ∀ t, v = .text t ∨ v = .sum t → t.code.length ≤ usizeMax)
    (h : Evals H (.item (.set_ [.undef x] v.code) env) s r s') : ∃ o, Spec.Gives H (σ :: ρ) v o := by
  have e0 : ({ env.gd with names := true } : Opt).undefEqText = false := by rw [hsim.gd]
  have h1 := codes_name (H := H) (env := { env with gd := { env.gd with names := true }, ret := s.nlist }) (s := Spec.fresh (Spec.fresh s))
    (x := x) e0 hsim.mods hsim.known hx
  have c1 : CalmIn s.nlist s ((Spec.fresh (Spec.fresh s)).push s.nlist (.s x)) :=
    CalmIn.inner (CalmIn.trans (calm_fresh _ _) (calm_push _ _ _))
  have val : ∀ {env' : Env} {s1 s2 : St} {y : Res}, env'.q = env.q → Evals H (.codes [.undef x] 0 usizeMax
      { env with gd := { env.gd with names := true }, ret := s.nlist }) (Spec.fresh (Spec.fresh s)) y s1 →
      ∀ {z : Res}, Evals H (.codes v.code 0 usizeMax env') s1 z s2 → ∃ o, Spec.Gives H (σ :: ρ) v o := by
    intro env' s1 s2 y hq h2 z h3
    obtain ⟨-, rfl⟩ := Evals.unique h1 h2
    exact value_total (by rw [hq]; exact hsim.seen.calm c1 (Nat.ne_of_lt hsim.args)) hok hl h3
  obtain ⟨y, h, -⟩ := C43_assignment.1 h
  cases h with
  | badNames h2 h3 =>
    obtain ⟨rfl, -⟩ := Evals.unique h1 h2
    cases h3
  | badVals h2 _ h3 => exact val (by rfl) h2 h3
  | assign h2 _ h3 => exact val (by rfl) h2 h3

end Zh
