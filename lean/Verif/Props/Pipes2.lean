import Verif.Props.Pipes
import Verif.Props.Loops
import Verif.Props.Print
import Verif.Props.Runs
import Verif.Props.Demo
/-!
# C72: the copying pipe `管道接` and the blocking pipe `管道堵`
-/
namespace Zh

variable {H : Host}

/-! ## Specification -/

/-- From `s` to `s'` only cells and lists that did not exist before are new. -/
structure Spec.OnlyNew (s s' : St) : Prop where
  nitem : s.nitem ≤ s'.nitem
  nlist : s.nlist ≤ s'.nlist
  items : ∀ k < s.nitem, s'.items k = s.items k
  lists : ∀ k < s.nlist, s'.lists k = s.lists k
  rest : s' = { s with items := s'.items, nitem := s'.nitem, lists := s'.lists, nlist := s'.nlist }

/-- What a copying pipe with these annotations asks for: their texts, or `1` if there is none. -/
def Spec.pipeAsks (ts : List Str) : Str := if ts.flatten = [] then c!"1" else ts.flatten

/-- The environment inside a copying pipe that asks for `t`. -/
def Spec.copying (t : Str) (env : Env) : Env := { env with gd := { env.gd with jie := t } }

/-- The environment inside a blocking pipe whose results go to the list `l`. -/
def Spec.blocked (l : Nat) (env : Env) : Env := { env with gd := { env.gd with du := true }, ret := l }

/-- The state with a new empty list. -/
def Spec.newList (s : St) : St := { s with lists := upd s.lists s.nlist .empty, nlist := s.nlist + 1 }

/-! ## Proofs -/

/-- The state in the middle of the evaluation of constant annotations. -/
structure Noting (s : St) (acc : List Str) (t : St) : Prop where
  new : Spec.OnlyNew s t
  nitem : s.nitem < t.nitem
  nlist : s.nlist < t.nlist
  last : (t.lists s.nlist).last? = some ⟨s.nitem, .k (kw .beginText)⟩
  acc : t.items s.nitem = acc

theorem item_remS_noting {s t : St} {acc : List Str} {env : Env} (hg : env.gd.names = false ∧ env.gd.vals = false) (hr : env.ret = s.nlist)
    (h : Noting s acc t) (u : Str) : ∃ t', Evals H (.item (.remS u) env) t { r := .ok () } t' ∧ Noting s (acc ++ [u]) t' := by
  have hne : s.nlist ≠ t.nlist := Nat.ne_of_lt h.nlist
  refine ⟨{ t with
      items := upd (upd t.items t.nitem []) s.nitem (acc ++ [u]), nitem := t.nitem + 1
      lists := upd t.lists t.nlist (RList.empty.add ⟨t.nitem, .s u⟩), nlist := t.nlist + 1 }, ?_, ?_⟩
  · refine evals_item.2 ⟨.ok (), ?_, rfl⟩
    change EvE H (Evals H) (do
      let r2 ← doOp .newList
      addT r2 u
      remP r2 env : E Unit) _ _ _
    refine evE_bind.2 (.inl ⟨t.nlist, _, evE_lift.2 ⟨_, rfl, ev_doOp.2 rfl⟩, ?_⟩)
    refine evE_bind.2 (.inl ⟨(), _, evE_addVal.2 ⟨rfl, rfl⟩, ?_⟩)
    refine evE_lift.2 ⟨(), rfl, ?_⟩
    unfold remP
    have e1 : ∀ x, upd (upd t.lists t.nlist RList.empty) t.nlist x = upd t.lists t.nlist x := fun x => upd_upd _ _ _ _
    simp only [St.push, upd_same, e1]
    refine ev_bind.2 ⟨⟨s.nitem, .k (kw .beginText)⟩, { t with
      items := upd t.items t.nitem [], nitem := t.nitem + 1
      lists := upd t.lists t.nlist (RList.empty.add ⟨t.nitem, .s u⟩), nlist := t.nlist + 1 }, ?_, ?_⟩
    · unfold remTarget
      simp only [hg.1, hg.2, Bool.or_false, Bool.false_eq_true, if_false]
      unfold getList
      refine ev_bind.2 ⟨_, _, ev_bind.2 ⟨_, _, ev_getSt.2 ⟨rfl, rfl⟩, ev_pure.2 ⟨rfl, rfl⟩⟩, ?_⟩
      dsimp only
      rw [hr, show upd t.lists t.nlist (RList.empty.add ⟨t.nitem, .s u⟩) s.nlist = t.lists s.nlist from by simp [upd, hne], h.last]
      exact ev_pure.2 ⟨rfl, rfl⟩
    · unfold getList
      refine ev_bind.2 ⟨_, _, ev_bind.2 ⟨_, _, ev_getSt.2 ⟨rfl, rfl⟩, ev_pure.2 ⟨rfl, rfl⟩⟩, ?_⟩
      refine ev_doOp.2 ?_
      have e2 : upd t.items t.nitem [] s.nitem = acc := by
        have : s.nitem ≠ t.nitem := Nat.ne_of_lt h.nitem
        simp [upd, this, h.acc]
      simp only [Op.run, upd_same, e2]
      rfl
  · obtain ⟨⟨h1, h2, h3, h4, h5⟩, h6, h7, h8, h9⟩ := h
    refine ⟨⟨Nat.le_succ_of_le h1, Nat.le_succ_of_le h2, fun k hk => ?_, fun k hk => ?_, ?_⟩, Nat.lt_succ_of_lt h6, Nat.lt_succ_of_lt h7, ?_, ?_⟩
    · have e1 : k ≠ s.nitem := by omega
      have e2 : k ≠ t.nitem := by omega
      simp [upd, e1, e2, h3 k hk]
    · have e2 : k ≠ t.nlist := by omega
      simp [upd, e2, h4 k hk]
    · rw [h5]
    · simpa [upd, hne] using h8
    · simp [upd]

theorem rems_const {s : St} {env : Env} (hg : env.gd.names = false ∧ env.gd.vals = false) (hr : env.ret = s.nlist) (ts : List Str) :
    ∀ (pre : List Str) (t : St), Noting s pre t →
      ∃ t', Spec.InOrder H ((pre ++ ts).map .remS) (pre ++ ts).length env pre.length t (.ok ()) t' ∧ Noting s (pre ++ ts) t' := by
  induction ts with
  | nil => exact fun pre t h => ⟨t, .done (.all (by simp)), by simpa using h⟩
  | cons u us ih =>
    intro pre t h
    obtain ⟨t1, h1, h2⟩ := item_remS_noting (H := H) hg hr h u
    obtain ⟨t2, h3, h4⟩ := ih (pre ++ [u]) t1 h2
    rw [List.append_assoc, List.singleton_append] at h3 h4
    refine ⟨t2, .next (by simp) (.ok ?_ h1) (by simpa using h3), h4⟩
    exact ⟨by simp, nofun, nofun, nofun⟩

theorem remsP_const {env : Env} {s : St} (hg : env.gd.names = false ∧ env.gd.vals = false) (ts : List Str) (hl : ts.length ≤ usizeMax) :
    ∃ s1, EvE H (Evals H) (remsP (ts.map .remS) env) s (.ok ts) s1 ∧ Spec.OnlyNew s s1 := by
  have h0 : Noting s [] (Spec.noted s) := by
    refine ⟨⟨Nat.le_succ _, Nat.le_succ _, fun k hk => ?_, fun k hk => ?_, rfl⟩, Nat.lt_succ_self _, Nat.lt_succ_self _, ?_, ?_⟩
    · have : k ≠ s.nitem := by omega
      simp [Spec.noted, upd, this]
    · have : k ≠ s.nlist := by omega
      simp [Spec.noted, upd, this]
    · simp [Spec.noted, upd, RList.last?, RList.add]
    · simp [Spec.noted, upd]
  obtain ⟨s1, h1, h2⟩ := rems_const (H := H) (env := { env with ret := s.nlist }) hg rfl ts [] _ h0
  obtain ⟨x, h3, h4⟩ := C22_in_order_conv (end_ := usizeMax) (a := ts.map .remS) (by
    rw [List.length_map, Nat.min_eq_right hl]; exact h1)
  refine ⟨s1, ?_, h2.new⟩
  unfold remsP
  refine evE_bind.2 (.inl ⟨s.nlist, _, evE_lift.2 ⟨_, rfl, ev_doOp.2 rfl⟩, ?_⟩)
  refine evE_bind.2 (.inl ⟨(), Spec.noted s, evE_lift.2 ⟨_, rfl, ?_⟩, ?_⟩)
  · unfold addKwI addVal
    refine ev_bind.2 ⟨_, _, ev_doOp.2 rfl, ?_⟩
    unfold addItem
    refine ev_bind.2 ⟨_, _, ev_getSt.2 ⟨rfl, rfl⟩, ev_doOp.2 ?_⟩
    simp only [Op.run, upd_same, upd_upd]
    rfl
  · refine evE_bind.2 (.inl ⟨(), s1, evE_hello.2 ⟨_, h3, h4⟩, ?_⟩)
    refine evE_bind.2 (.inl ⟨s1, s1, evE_lift.2 ⟨_, rfl, ev_getSt.2 ⟨rfl, rfl⟩⟩, ?_⟩)
    rw [h2.last]
    exact evE_pure.2 ⟨by rw [h2.acc]; rfl, rfl⟩

/-! ## The property -/

/-- **C72.**  `管道接` evaluates its body with the wish that the texts printed in it be copied to the results; the outcome is that of the body. -/
theorem C72_copying {a : List Code} {env : Env} {s s' : St} {x : Res} :
    Evals H (.item (.jie [] a) env) s x s' ↔
      ∃ y, Evals H (.codes a 0 usizeMax (Spec.copying c!"1" env)) s y s' ∧ x = { r := y.r } := by
  rw [evals_item]
  change (∃ r, EvE H (Evals H) (jieP [] a env) s r s' ∧ _) ↔ _
  have e : jieP [] a env = hello [] a (Spec.copying c!"1" env) := rfl
  rw [e]
  simp only [evE_hello]
  constructor
  · rintro ⟨r, ⟨y, h, rfl⟩, rfl⟩
    exact ⟨y, h, rfl⟩
  · rintro ⟨y, h, rfl⟩
    exact ⟨_, ⟨y, h, rfl⟩, rfl⟩

/-- **C72.**  With constant annotations it asks for what they say, outside the names and values of an assignment (inside them
annotations but the last are lost, see `C72_lost_annotation_counterexample`). -/
theorem C72_copying_annotated_partial {ts : List Str} (hts : ts.length ≤ usizeMax) {a : List Code} {env : Env}
    (hg : env.gd.names = false ∧ env.gd.vals = false) {s : St} :
    ∃ s1, Spec.OnlyNew s s1 ∧ ∀ x s', Evals H (.item (.jie (ts.map .remS) a) env) s x s' ↔
      ∃ y, Evals H (.codes a 0 usizeMax (Spec.copying (Spec.pipeAsks ts) env)) s1 y s' ∧ x = { r := y.r } := by
  cases ts with
  | nil => exact ⟨s, ⟨Nat.le_refl _, Nat.le_refl _, fun _ _ => rfl, fun _ _ => rfl, rfl⟩, fun x s' => C72_copying⟩
  | cons u us =>
    obtain ⟨s1, h1, h2⟩ := remsP_const (H := H) (s := s) hg (u :: us) hts
    refine ⟨s1, h2, fun x s' => ?_⟩
    rw [evals_item]
    change (∃ r, EvE H (Evals H) (jieP ((u :: us).map .remS) a env) s r s' ∧ _) ↔ _
    unfold jieP
    have hk : (if (u :: us).flatten.isEmpty then c!"1" else (u :: us).flatten) = Spec.pipeAsks (u :: us) := by
      unfold Spec.pipeAsks
      simp only [List.isEmpty_iff]
    simp only [List.map_cons, List.isEmpty_cons, Bool.false_eq_true, if_false, evE_bind, evE_hello]
    rw [← List.map_cons]
    constructor
    · rintro ⟨r, ⟨rs, s2, h3, y, h4, rfl⟩ | ⟨e, h3, -⟩, rfl⟩
      · obtain ⟨h5, rfl⟩ := ev_unique h3 h1
        cases h5
        rw [hk] at h4
        exact ⟨y, h4, rfl⟩
      · cases (ev_unique h3 h1).1
    · rintro ⟨y, h, rfl⟩
      refine ⟨_, .inl ⟨_, s1, h1, y, ?_, rfl⟩, rfl⟩
      rw [hk]
      exact h

/-- **C72.**  `管道堵` evaluates its body with a new list for the results; the outcome is that of the body. -/
theorem C72_blocking {a : List Code} {env : Env} {s s' : St} {x : Res} :
    Evals H (.item (.du a) env) s x s' ↔
      ∃ y, Evals H (.codes a 0 usizeMax (Spec.blocked s.nlist env)) (Spec.newList s) y s' ∧ x = { r := y.r } := by
  rw [evals_item]
  change (∃ r, EvE H (Evals H) (do
    let r ← doOp .newList
    hello [] a { env with gd := { env.gd with du := true }, ret := r } : E Unit) s r s' ∧ _) ↔ _
  simp only [evE_bind, evE_hello]
  constructor
  · rintro ⟨r, ⟨l, s1, h1, y, h2, rfl⟩ | ⟨e, h1, -⟩, rfl⟩
    · obtain ⟨_, h0, h1⟩ := evE_lift.1 h1
      cases h0
      have h1 := ev_doOp.1 h1
      cases h1
      exact ⟨y, h2, rfl⟩
    · obtain ⟨_, h0, -⟩ := evE_lift.1 h1
      cases h0
  · rintro ⟨y, h, rfl⟩
    exact ⟨_, .inl ⟨s.nlist, _, evE_lift.2 ⟨_, rfl, ev_doOp.2 rfl⟩, y, h, rfl⟩, rfl⟩

/-- **C72.**  In every run: nothing that happens in the body of `管道堵` gets into the results of the statement it stands in, however the body
ends. -/
theorem C72_nothing_passes {ovf : Bool} {argv : List Str} {a : List Code} {env : Env} {s s' : St} {x : Res}
    (hr : Reached H ovf argv (.item (.du a) env) s) (h : Evals H (.item (.du a) env) s x s') :
    s'.lists env.ret = s.lists env.ret := by
  obtain ⟨C, ok, he, -⟩ := reached_frame hr
  have he := he env rfl
  obtain ⟨y, h, -⟩ := C72_blocking.1 h
  obtain ⟨X0, hX0, hX0'⟩ := he.iso
  let C' : Ctx := ⟨C.X, fun l => C.P l ∨ l = env.ret⟩
  have hpb : ∀ l, C'.P l → l < s.nlist := by
    rintro l (hl | rfl)
    · exact ok.inv.pb l hl
    · exact he.ret.1
  have hargs : ∀ q < s.nscope, (s.scopes q).args ≠ s.nlist := fun q hq e => by
    have := ok.inv.args q hq
    omega
  have hinv : Inv C' (Spec.newList s) := ⟨ok.inv.top, ok.inv.mods, ok.inv.datas, ok.inv.up, ok.inv.root,
    fun q hq => Nat.lt_succ_of_lt (ok.inv.args q hq), ok.inv.inj, ok.inv.xb, fun l hl => Nat.lt_succ_of_lt (hpb l hl), fun q hq => by
      have e : upd s.lists s.nlist .empty (s.scopes q).args = s.lists (s.scopes q).args := by
        simp only [upd]; rw [if_neg (hargs q hq)]
      exact ⟨(ok.inv.line q hq).1, fun h => ((ok.inv.line q hq).2 h).trans (congrArg RList.to1 e.symm)⟩⟩
  have hok : Ok C' (Spec.newList s) := by
    refine ⟨hinv, ?_, ok.held⟩
    rintro l (hl | rfl)
    · exact ok.prot l hl
    · exact ⟨X0, hX0, hX0'⟩
  have henv : EnvOk C' (Spec.newList s) (Spec.blocked s.nlist env) := by
    refine ⟨he.q, he.inq, ⟨Nat.lt_succ_self _, fun hp => absurd (hpb _ hp) (Nat.lt_irrefl _),
      fun q hq e => absurd e (hargs q hq)⟩, X0, hX0, ?_⟩
    exact fun q hq _ e => absurd e (hargs q hq)
  obtain ⟨n, hn⟩ := h
  have := (run_frame H n C' (.codes a 0 usizeMax (Spec.blocked s.nlist env)) (Spec.newList s) ⟨hok, fun e he' => by cases he'; exact henv, trivial⟩).1.2.lists env.ret (.inr rfl)
  rw [hn] at this
  have hne : env.ret ≠ s.nlist := Nat.ne_of_lt he.ret.1
  simpa [Spec.newList, upd, hne] using this

/-- **C72.**  What `显示` prints inside a copying pipe is written and is appended to the results once. -/
theorem C72_print_copied {a : List Code} {env : Env} {s s1 s' : St} {r : Res} {t : Str} {opts : List Str} {ps : List Nat}
    (hw : Spec.Words H a (Spec.copying c!"1" env) s (t :: opts) s1) (hg : Spec.GoodOpts opts)
    (ho : Spec.ParentsOlder s1.scopes) (hp : Spec.Path s1.scopes env.q ps)
    (h : Spec.raw ∈ opts ∨ ∀ p ∈ ps, ¬ Spec.Defines s1 Spec.printWord p) :
    Evals H (.item (.print a) (Spec.copying c!"1" env)) s r s' ↔
      r = { r := .ok () } ∧ s' = (Spec.written t opts s1).push env.ret (.s t) := by
  rw [C48_written hw hg ho hp h]
  constructor
  · rintro ⟨x, h, rfl⟩
    cases h with
    | one h =>
      cases h
      exact ⟨rfl, rfl⟩
    | bad h => exact absurd rfl h
  · rintro ⟨rfl, rfl⟩
    exact ⟨_, .one .nil, rfl⟩

/-- A run reaches a blocking pipe whose body has results and that ends. -/
theorem C72_witness : ∃ a env s x s', Reached H0 false (demoArgv c!"管道堵先甲。显示乙。了。") (.item (.du a) env) s ∧
    Evals H0 (.item (.du a) env) s x s' ∧ (s'.lists s.nlist).a ≠ [] := by
  obtain ⟨c, s, hr, h⟩ := demoB_sound (n := 13) (src := c!"管道堵先甲。显示乙。了。") (P := fun c s => match c with
    | .item (.du a) env => (match run H0 13 (.item (.du a) env) s with
      | (.ok _, s1) => !(s1.lists s.nlist).a.isEmpty
      | _ => false)
    | _ => false) (by decide +kernel)
  split at h
  · rename_i a env
    split at h
    · rename_i x s1 hx
      exact ⟨a, env, s, x, s1, hr, ⟨13, hx⟩, by simpa using h⟩
    · cases h
  · cases h

/-- What a script sees: printed texts copied into a variable, names and values of assignments, nothing of a blocked body. -/
theorem C72_script :
    demo 30 c!"赋予甲以管道接先显示乙。显示丙。了。显示‘甲’。" = (.ok (.ok ()), [.out c!"乙", .out c!"丙", .out c!"乙丙"]) ∧
    demo 30 c!"赋予甲、乙以管道接【名值】赋予丙以1。显示‘甲’‘乙’。" = (.ok (.ok ()), [.out c!"丙1"]) ∧
    demo 30 c!"赋予甲以先乙。管道堵先丙。显示丁。了。戊了。显示‘甲’。" = (.ok (.ok ()), [.out c!"丁", .out c!"乙戊"]) := by
  decide +kernel

/-- Inside the values of an assignment all annotations of the pipe but the last are lost: asked for name and value, it gives the value only
(so that it goes to both variables), while the same annotations in one give both. -/
theorem C72_lost_annotation_counterexample :
    demo 30 c!"赋予甲、乙以管道接【名】【值】赋予丙以1。显示‘甲’‘乙’。" = (.ok (.ok ()), [.out c!"11"]) ∧
    demo 30 c!"赋予甲、乙以管道接【名值】赋予丙以1。显示‘甲’‘乙’。" = (.ok (.ok ()), [.out c!"丙1"]) := by
  decide +kernel

end Zh
