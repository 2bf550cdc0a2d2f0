import Verif.Props.CoreMain
import Verif.Props.Sums
/-!
# C70: plain scripts do not crash

A program of the small language (C68) without the sign `%` either ends as its rules say or runs forever.
-/
namespace Zh

variable {H : Host} {α β : Type}

/-! ## Programs that do not crash within a number of steps -/

def Safe (H : Host) (n : Nat) (p : Prog α) (s : St) : Prop := (p.interp H (run H n) s).1 ≠ .panic

def SafeE (H : Host) (n : Nat) (p : E α) (s : St) : Prop := Safe H n p.run s

theorem safe_bind {n : Nat} {p : Prog α} {f : α → Prog β} {s : St} (h : Safe H n p s)
    (hf : ∀ a s1, Ev H (Evals H) p s a s1 → Safe H n (f a) s1) : Safe H n (p >>= f) s := by
  unfold Safe
  change ((p.bind f).interp H (run H n) s).1 ≠ .panic
  rw [interp_bind]
  unfold Safe at h
  rcases hx : p.interp H (run H n) s with ⟨x, s1⟩
  rw [hx] at h
  cases x with
  | ok a => exact hf a s1 (ev_of_interp (fun _ _ _ _ h => ⟨n, h⟩) hx)
  | panic => exact absurd rfl h
  | fuel => simp

theorem safe_of_ev {n : Nat} {p : Prog α} {s s' : St} {a : α} (h : Ev H (Evals H) p s a s') : Safe H n p s := by
  obtain ⟨m, hm⟩ := interp_of_ev h
  intro hp
  have h1 := interp_more (Nat.le_add_left m n) hm
  have := (interp_agree (H := H) (run_agree' H n m) ((kept_trace H).run (n + m)) p s).2 (by rw [hp]; simp)
  rw [h1] at this
  rw [← this] at hp
  cases hp

theorem safe_callP {n : Nat} {c : Call} {s : St} (h : (run H n c s).1 ≠ .panic) : Safe H n (callP [] c) s := by
  unfold Safe callP
  simp only [Prog.interp, List.nil_append]
  rcases hx : run H n c s with ⟨x, s1⟩
  rw [hx] at h
  cases x with
  | ok a => simp
  | panic => exact absurd rfl h
  | fuel => simp

theorem safe_callH {n : Nat} {hd : List Held} {c : Call} {s : St} (h : (run H n c (s.hold hd)).1 ≠ .panic) : Safe H n (callP hd c) s := by
  unfold Safe callP
  simp only [Prog.interp]
  rcases hx : run H n c (s.hold hd) with ⟨x, s1⟩
  have hx' : run H n c { s with held := hd ++ s.held } = (x, s1) := hx
  rw [hx] at h
  rw [hx']
  cases x with
  | ok a => simp
  | panic => exact absurd rfl h
  | fuel => simp

theorem safe_pure {n : Nat} {a : α} {s : St} : Safe H n (pure a) s := safe_of_ev (ev_pure.2 ⟨rfl, rfl⟩)

theorem safeE_bind {n : Nat} {p : E α} {f : α → E β} {s : St} (h : SafeE H n p s)
    (hf : ∀ a s1, EvE H (Evals H) p s (.ok a) s1 → SafeE H n (f a) s1) : SafeE H n (p >>= f) s := by
  refine safe_bind (f := _) h fun a s1 h1 => ?_
  cases a with
  | ok a => exact hf a s1 h1
  | error e => exact safe_pure

theorem safeE_lift {n : Nat} {p : Prog α} {s : St} (h : Safe H n p s) : SafeE H n (liftM p : E α) s :=
  safe_bind (f := _) h fun _ _ _ => safe_pure

theorem safeE_of_ev {n : Nat} {p : E α} {s s' : St} {a : Except Err α} (h : EvE H (Evals H) p s a s') : SafeE H n p s := safe_of_ev h

theorem safe_resE {n : Nat} {p : E Unit} {s : St} (h : SafeE H n p s) : Safe H n (resE p) s :=
  safe_bind (f := _) h fun _ _ _ => safe_pure

theorem safeE_hello {n : Nat} {a : List Code} {env : Env} {s : St} (h : (run H n (.codes a 0 usizeMax env) s).1 ≠ .panic) :
    SafeE H n (hello [] a env) s :=
  safeE_bind (safeE_lift (safe_callP h)) fun _ _ _ => safe_pure

theorem run_of_evals {n : Nat} {c : Call} {s s' : St} {r : Res} (h : Evals H c s r s') : (run H n c s).1 ≠ .panic := by
  cases n with
  | zero => simp [run]
  | succ n => exact safe_of_ev (evals_iff.1 h)

/-! ## Values without `%` -/

def PctFree (t : Str) : Prop := '%' ∉ t

def PctFreeS (σ : Spec.Store) : Prop := (∀ x t, σ x = some t → PctFree t) ∧ ∀ t, some t ∈ σ.args → PctFree t

theorem clean_append {a b : Str} : PctFree (a ++ b) ↔ PctFree a ∧ PctFree b := by
  unfold PctFree
  simp [not_or]

theorem clean_filter {t : Str} {p : Char → Bool} (h : PctFree t) : PctFree (t.filter p) := fun hm => h (List.mem_filter.1 hm).1

theorem clean_set {σ : Spec.Store} {x t : Str} (h : PctFreeS σ) (ht : PctFree t) : PctFreeS (σ.set x t) := by
  refine ⟨fun y u => ?_, h.2⟩
  unfold Spec.Store.set
  dsimp only
  split
  · rintro ⟨⟩; exact ht
  · exact h.1 y u

/-- The text is written without `%`. -/
def TxtClean (t : Spec.Txt) : Prop := (∀ p ∈ t.parts, PctFree p.1) ∧ PctFree t.last

def ValueClean : Spec.Value → Prop
  | .text t => TxtClean t
  | .sum t => TxtClean t

mutual
def StmtClean : Spec.Stmt → Prop
  | .assign _ v => ValueClean v
  | .print v => ValueClean v
  | .cond _ a b => CoreClean a ∧ CoreClean b
  | .loop _ a => CoreClean a
  | .call _ ts => ∀ t ∈ ts, TxtClean t
  | _ => True
def CoreClean : Spec.Core → Prop
  | .nil => True
  | .cons x k => StmtClean x ∧ CoreClean k
end

theorem look_clean {ρ : List Spec.Store} (h : ∀ σ ∈ ρ, PctFreeS σ) {x v : Str} (hl : Spec.look ρ x = some v) : PctFree v := by
  obtain ⟨σ, h1, h2⟩ := List.exists_of_findSome?_eq_some hl
  exact (h σ h1).1 x v h2

theorem natStr_clean (n : Nat) : PctFree (natStr n) := by
  intro h
  have := Nat.isDigit_of_mem_toDigits (by decide) (by decide) h
  revert this
  decide

theorem read_clean {ρ : List Spec.Store} (h : ∀ σ ∈ ρ, PctFreeS σ) {r : Spec.Ref} {v : Str} (hr : Spec.read ρ r = some (some v)) : PctFree v := by
  cases r with
  | var x =>
    obtain ⟨a, h1, h2⟩ := Option.map_eq_some_iff.1 hr
    cases h2
    exact look_clean h h1
  | arg s i =>
    have hr : (Spec.args ρ).getD (i.toNat - 1) none = some v := Option.some.inj hr
    have hm : some v ∈ Spec.args ρ := by
      rw [List.getD_eq_getElem?_getD] at hr
      cases e : (Spec.args ρ)[i.toNat - 1]? with
      | none => rw [e] at hr; cases hr
      | some y => rw [e] at hr; cases hr; exact List.mem_of_getElem? e
    cases ρ with
    | nil => cases hm
    | cons σ ρ => exact (h σ (by simp)).2 v hm
  | count => cases hr; exact natStr_clean _

theorem beside_clean {a b : Option Str} (ha : ∀ t, a = some t → PctFree t) (hb : ∀ t, b = some t → PctFree t) :
    ∀ t, Spec.beside a b = some t → PctFree t := by
  intro t h
  cases a with
  | none => exact hb t h
  | some a =>
    cases h
    refine clean_append.2 ⟨ha a rfl, ?_⟩
    cases b with
    | none => exact nofun
    | some b => exact hb b rfl

theorem lit_clean {t : Str} (h : PctFree t) : ∀ u, Spec.lit t = some u → PctFree u := by
  intro u hu
  unfold Spec.lit at hu
  split at hu
  · cases hu
  · cases hu
    exact clean_filter h

theorem val_clean {ρ : List Spec.Store} (h : ∀ σ ∈ ρ, PctFreeS σ) {t : Spec.Txt} (ht : TxtClean t) {u : Str} (hu : t.val ρ = some (some u)) :
    PctFree u := by
  obtain ⟨parts, last⟩ := t
  unfold Spec.Txt.val at hu
  obtain ⟨h1, h2⟩ := ht
  dsimp only at hu h1 h2
  have key : ∀ o, Spec.fill ρ parts last = some o → ∀ t, o = some t → PctFree t := by
    clear hu
    induction parts with
    | nil =>
      intro o ho
      cases ho
      exact lit_clean h2
    | cons p ps ih =>
      intro o ho
      simp only [Spec.fill, Option.bind_eq_some_iff, Option.map_eq_some_iff] at ho
      obtain ⟨v, hv, r, hr, rfl⟩ := ho
      refine beside_clean (lit_clean (h1 p (by simp))) (beside_clean (fun t ht => ?_) (ih (fun p hp => h1 p (by simp [hp])) r hr))
      exact read_clean h (by rw [hv, ht])
  exact key _ hu u rfl

theorem pass_clean {ρ : List Spec.Store} (h : ∀ σ ∈ ρ, PctFreeS σ) {ts : List Spec.Txt} (ht : ∀ t ∈ ts, TxtClean t) {as : List (Option Str)}
    (hp : Spec.pass ρ ts = some as) : PctFreeS (.enter as) := by
  refine ⟨nofun, ?_⟩
  show ∀ t, some t ∈ as → PctFree t
  obtain ⟨vs, hv, rfl⟩ := Option.map_eq_some_iff.1 hp
  have key : ∀ t, some t ∈ vs → PctFree t := by
    clear hp
    induction ts generalizing vs with
    | nil => cases hv; exact nofun
    | cons x ts ih =>
      simp only [Spec.vals, Option.bind_eq_some_iff, Option.map_eq_some_iff] at hv
      obtain ⟨v, hv, r, hr, rfl⟩ := hv
      intro t hm
      rcases List.mem_cons.1 hm with rfl | hm
      · exact val_clean h (ht x (by simp)) hv
      · exact ih (fun t hm => ht t (by simp [hm])) r hr t hm
  split
  · exact nofun
  · exact key

/-- The host writes numbers without `%`. -/
def Spec.PlainNumbers (H : Host) : Prop := ∀ x, '%' ∉ H.f64.str x

theorem expl_one {q : Str → Str} {u r : Str} (hs : Spec.PlainNumbers H) (h : expl H.f64 q [u] = .ok (.ok r)) : PctFree r := by
  unfold expl at h
  dsimp only at h
  rcases hx : explVal H.f64 q u with (_ | v) | _ | _
  · rw [hx] at h; cases h
  · rw [hx] at h
    have : r = H.f64.str v := by
      simp only [R.bind, R.ret] at h
      cases h; rfl
    rw [this]
    exact hs v
  · rw [hx] at h; cases h
  · rw [hx] at h; cases h

theorem gives_clean (hs : Spec.PlainNumbers H) {ρ : List Spec.Store} (h : ∀ σ ∈ ρ, PctFreeS σ) {v : Spec.Value} (hv : ValueClean v) {t : Str}
    (hg : Spec.Gives H ρ v (some (some t))) : PctFree t := by
  generalize ho : some (some t) = o at hg
  cases hg with
  | text => exact val_clean h hv ho.symm
  | noText => cases ho
  | @sum t' u r h1 h2 =>
    cases ho
    cases u with
    | none => cases h2
    | some u => exact expl_one hs h2
  | noSum => cases ho

theorem gives_total {ρ : List Spec.Store} (h : ∀ σ ∈ ρ, PctFreeS σ) {v : Spec.Value} (hv : ValueClean v) : ∃ o, Spec.Gives H ρ v o := by
  cases v with
  | text t => exact ⟨_, .text⟩
  | sum t =>
    cases hu : t.val ρ with
    | none => exact ⟨_, .noText hu⟩
    | some u => cases u with
      | none => exact ⟨_, .noSum hu rfl⟩
      | some u =>
      have h1 := C34_no_crash_partial (o := H.f64) Zh.quote u (val_clean h hv hu)
      have h2 := C34_ends (o := H.f64) Zh.quote u
      rcases hx : explVal H.f64 Zh.quote u with (e | v) | _ | _
      · exact ⟨_, .noSum hu (by show expl _ _ [u] = _; unfold expl; dsimp only; rw [hx]; rfl)⟩
      · exact ⟨_, .sum hu (by show expl _ _ [u] = _; unfold expl; dsimp only; rw [hx]; rfl)⟩
      · exact absurd hx h1
      · exact absurd hx h2

theorem intStr_clean (i : Int) : PctFree (intStr i) := by
  cases i with
  | ofNat n => exact natStr_clean n
  | negSucc n =>
    intro h
    rcases List.mem_cons.1 h with h | h
    · exact absurd h (by decide)
    · exact natStr_clean _ h

theorem count_clean {σ : Spec.Store} {ρ : List Spec.Store} {x : Option Str} {i : Int} (h : ∀ τ ∈ σ :: ρ, PctFreeS τ) :
    ∀ τ ∈ σ.count x i :: ρ, PctFreeS τ := by
  intro τ hτ
  rcases List.mem_cons.1 hτ with rfl | hτ
  · cases x with
    | none => exact h σ (by simp)
    | some x => exact clean_set (h σ (by simp)) (intStr_clean i)
  · exact h τ (by simp [hτ])

/-- Programs without `%` bring no `%` into the variables. -/
theorem does_clean (hs : Spec.PlainNumbers H) {D : Str → Option Spec.Core} {ρ : List Spec.Store} {k : Spec.Core}
    {σ : Spec.Store} {w : List Str} {f : Spec.Flow} {σ' : Spec.Store} (h : Spec.Does H D ρ k σ w f σ') :
    (∀ τ ∈ σ :: ρ, PctFreeS τ) → CoreClean k → PctFreeS σ' := by
  refine Spec.Does.rec
    (motive_1 := fun ρ k σ w f σ' _ => (∀ τ ∈ σ :: ρ, PctFreeS τ) → CoreClean k → PctFreeS σ')
    (motive_2 := fun ρ x σ w f σ' _ => (∀ τ ∈ σ :: ρ, PctFreeS τ) → StmtClean x → PctFreeS σ')
    (motive_3 := fun ρ _ _ _ k σ w f σ' _ => (∀ τ ∈ σ :: ρ, PctFreeS τ) → CoreClean k → PctFreeS σ')
    ?nil ?next ?stop ?assign ?assignFail ?print ?printFail ?cond ?condFail ?loop ?brk ?cont ?ret ?retDeep ?call ?callOut ?callFail
    ?over ?again ?leave ?out h
  case nil => intro ρ σ h _; exact h σ (by simp)
  case next =>
    intro ρ x k σ w σ1 w' f σ' _ _ ih1 ih2 h hk
    simp only [CoreClean] at hk
    have h1 := ih1 h hk.1
    refine ih2 (fun τ hτ => ?_) hk.2
    rcases List.mem_cons.1 hτ with rfl | hτ
    · exact h1
    · exact h τ (by simp [hτ])
  case stop =>
    intro ρ x k σ w f σ' _ _ ih h hk
    simp only [CoreClean] at hk
    exact ih h hk.1
  case assign =>
    intro ρ x v σ t hg h hk
    simp only [StmtClean] at hk
    refine clean_set (h σ (by simp)) ?_
    cases t with
    | none => exact nofun
    | some t => exact gives_clean hs h hk hg
  case cond =>
    intro ρ t a b σ c w f σ' _ _ ih h hk
    simp only [StmtClean] at hk
    refine ih h ?_
    cases c
    · exact hk.2
    · exact hk.1
  case loop =>
    intro ρ c a σ w f σ' _ ih h hk
    simp only [StmtClean] at hk
    exact ih h hk
  case again =>
    intro ρ x n i a σ w f σ1 w' f' σ' _ _ _ _ ih1 ih2 h hk
    have h1 := ih1 (count_clean h) hk
    refine ih2 (fun τ hτ => ?_) hk
    rcases List.mem_cons.1 hτ with rfl | hτ
    · exact h1
    · exact h τ (by simp [hτ])
  case leave =>
    intro ρ x n i a σ w σ' _ _ ih h hk
    exact ih (count_clean h) hk
  case out =>
    intro ρ x n i a σ w f σ' _ _ _ ih h hk
    exact ih (count_clean h) hk
  all_goals intros; rename_i h _; exact h _ (by simp)

/-! ## Running programs -/

/-- The evaluation is that of a piece of a program without `%`. -/
def Shape (H : Host) (g : Spec.Prg) : Call → St → Prop
  | .z2 a i j env, s => j = a.length ∧ ∃ σ ρ, Sim H g env s σ ρ ∧ (∀ τ ∈ σ :: ρ, PctFreeS τ) ∧ ∃ k : Spec.Core, k.Ok g.sigs ∧ k.Fits ∧
      CoreClean k ∧ (a.drop i = k.code ∨ a.drop i = .kw1 .jvhao :: k.code ∨ a.drop i = [.block k.code])
  | .codes a i j env, s => i = 0 ∧ j = usizeMax ∧ ∃ σ ρ, Sim H g env s σ ρ ∧ (∀ τ ∈ σ :: ρ, PctFreeS τ) ∧ ∃ k : Spec.Core, k.Ok g.sigs ∧
      k.Fits ∧ CoreClean k ∧ (a = k.code ∨ a = [.block k.code])
  | .item c env, s => ∃ σ ρ, Sim H g env s σ ρ ∧ (∀ τ ∈ σ :: ρ, PctFreeS τ) ∧
      ((∃ k : Spec.Core, k.Ok g.sigs ∧ k.Fits ∧ CoreClean k ∧ c = .block k.code) ∨
      ∃ x : Spec.Stmt, (∀ f ts, x ≠ .call f ts) ∧ x.Ok g.sigs ∧ x.Fits ∧ StmtClean x ∧ c = x.item)
  | .z4 a fn n e env st, s => ∃ σ ρ, Sim H g env s σ ρ ∧ (∀ τ ∈ σ :: ρ, PctFreeS τ) ∧ n = fn.length ∧ e = a.length ∧
      ∃ i ts post, st = ⟨0, false, i, [], []⟩ ∧ (Spec.Stmt.call fn ts).Ok g.sigs ∧ (∀ t ∈ ts, TxtClean t) ∧
      a.drop i = .undef fn :: (Spec.argsCode ts ++ .kw1 .jvhao :: post)
  | .loop range codes max useI cnt env j _, s => range = false ∧ ∃ x n i, LoopAt cnt max useI j x n i ∧ ∃ σ ρ, Sim H g env s σ ρ ∧ (∀ τ ∈ σ :: ρ, PctFreeS τ) ∧ ∃ k : Spec.Core, k.Ok g.sigs ∧ k.Fits ∧
      CoreClean k ∧ codes = [.block k.code]
  | _, _ => False

theorem safe_z2_item {n : Nat} {a : List Code} {i : Nat} {env : Env} {s : St} {c : Code} (hi : a[i]? = some c) (hlt : i < a.length)
    (hu : c.id ≠ .undef) (hj : c.id ≠ .jvhao) (hd : c.id ≠ .dunhao) (h1 : (run H n (.item c env) s).1 ≠ .panic)
    (h2 : ∀ s1, Evals H (.item c env) s {} s1 → (run H n (.z2 a (i + 1) a.length env) s1).1 ≠ .panic) :
    Safe H n (z2P a i a.length env) s := by
  have e : z2P a i a.length env = z2Item a i a.length env c := by
    unfold z2P
    rw [if_pos hlt, hi]
    dsimp only
    split
    · exact absurd (by assumption) hu
    · exact absurd (by assumption) hj
    · exact absurd (by assumption) hd
    · rfl
  rw [e]
  unfold z2Item
  refine safe_bind (safe_callP h1) fun r s1 h3 => ?_
  have h3 := ev_callP.1 h3
  cases hrr : r.r with
  | error e => exact safe_pure
  | ok u =>
    obtain ⟨y, -, rfl⟩ := evals_item.1 h3
    dsimp only at hrr
    subst hrr
    exact safe_callP (h2 s1 h3)

theorem safe_z2_jvhao {n : Nat} {a : List Code} {i : Nat} {env : Env} {s : St} (hi : a[i]? = some (.kw1 .jvhao)) (hlt : i < a.length)
    (hg : env.gd.jvhao = false) (he : (s.lists env.ret).a = []) (h : (run H n (.z2 a (i + 1) a.length env) s).1 ≠ .panic) :
    Safe H n (z2P a i a.length env) s := by
  have e : z2P a i a.length env = (do
      let s ← getSt
      if addsJvhao s a i env then z2Item a i a.length env (.kw1 .jvhao)
      else callP [] (.z2 a (i + 1) a.length env)) := by
    unfold z2P
    rw [if_pos hlt, hi]
    show (if env.gd.jvhao = true then _ else _) = _
    rw [if_neg (by rw [hg]; decide)]
  rw [e]
  refine safe_bind (safe_of_ev (ev_getSt.2 ⟨rfl, rfl⟩)) fun t s1 h1 => ?_
  obtain ⟨e1, e2⟩ := ev_getSt.1 h1
  have e : addsJvhao s a i env = false := by
    unfold addsJvhao
    simp [RList.last?, he]
  rw [e1, e2, e]
  exact safe_callP h

/-- A turn of a loop. -/
theorem safe_loop {n : Nat} {a : List Code} (ha : a ≠ []) {max : Nat} {useI : Bool} {cnt : Cnt} {j : Nat} {hn : Bool} {env : Env} {s : St}
    (hh : .scope env.q ∉ s.held) (hl : (useI && decide ((if useI then j + 1 else j) > max)) = false)
    (h1 : (run H n (.codes a 0 usizeMax env) (countSt cnt env.q (if useI then j + 1 else j) hn s)).1 ≠ .panic)
    (h2 : ∀ r s1, Evals H (.codes a 0 usizeMax env) (countSt cnt env.q (if useI then j + 1 else j) hn s) r s1 →
      (run H n (.loop false a max useI cnt env (if useI then j + 1 else j) cnt.name.isSome) s1).1 ≠ .panic) :
    Safe H n (loopP false a max useI cnt env j hn) s := by
  have hne : a.isEmpty = false := by cases a <;> simp_all
  rw [loopP_eq, hl, if_neg (by decide)]
  have hd := det_loopSet (H := H) (R := Evals H) (cnt := cnt) (j := if useI then j + 1 else j) (hn := hn) hh
  refine safe_bind (safe_of_ev ((hd _ _).2 ⟨rfl, rfl⟩)) fun u s0 h0 => ?_
  obtain ⟨-, rfl⟩ := (hd _ _).1 h0
  unfold loopTail
  rw [hne]
  dsimp only
  rw [if_neg (by decide)]
  refine safe_bind (safe_callP h1) fun r s1 h3 => ?_
  have again := safe_callP (h2 r s1 (ev_callP.1 h3))
  cases r.r with
  | ok u => exact again
  | error e =>
    dsimp only
    split
    · split
      · exact safe_pure
      · exact again
    · exact safe_pure

/-- A call. -/
theorem safe_z4 {n : Nat} {a : List Code} {f src : Str} {end_ i p k : Nat} {env : Env} {s : St} {d : Def}
    (hf : Spec.FirstCall s env.q [] f [] p k d []) (hg : d.names.hasGe = false) (hb : d.backarg = 0) (hv : d.val = .s src)
    {r1 : Res} {t1 : St} (ha : Ev H (Evals H) (z4Args (.def_ p k) d a f f.length end_ env f.length i [] 0 s.nlist) (Spec.opened s d env.q) r1 t1)
    {codes : List Code} {c : Cache (List Code)} (hn : r1.r = .ok () → codesCache H.hash parse t1.cache src = .ok (.ok codes, c) ∧
      (run H n (.codes codes 0 usizeMax ⟨{ env.gd with jvhao := false }, s.nscope, env.ret, some p⟩)
          (({ t1 with cache := c } : St).hold [.def_ p k])).1 ≠ .panic ∧
      ∀ s1, (run H n (.z4 a f f.length end_ env ⟨r1.idx2, true, r1.idx, [], []⟩) s1).1 ≠ .panic) :
    Safe H n (z4P a f f.length end_ env ⟨0, false, i, [], []⟩) s := by
  obtain ⟨f1, f2, f3, f4⟩ := of_firstCall (cs := f) (pos := 0) (Nat.zero_le _) hf
  have hpos : 0 < f.length := by
    have h1 := hf.text
    have h2 := hf.inside
    rcases Nat.eq_zero_or_pos f.length with h | h
    · rw [List.length_eq_zero_iff.1 h] at h1
      exact absurd h1.symm h2
    · exact h
  have hlen : 0 + ([] : Str).length + d.name0.length = f.length := by rw [f4]; simp
  have body : r1.r = .ok () → SafeE H n (z4Body (.def_ p k) d src env p s.nscope s.nlist) t1 := by
    intro hok
    obtain ⟨hp, h1, -⟩ := hn hok
    have hz : z4Body (.def_ p k) d src env p s.nscope s.nlist = (parseE src >>= fun codes => do
        let r ← liftM (callP [.def_ p k] (.codes codes 0 usizeMax ⟨{ env.gd with jvhao := false }, s.nscope, env.ret, some p⟩))
        returnP s.nscope r.r) := by
      unfold z4Body
      rw [hb]
      rfl
    have hrun : (Op.parse src).run H t1 = (.ok (.ok codes), { t1 with cache := c }) := by
      simp only [Op.run]
      rw [hp]
    rw [hz]
    unfold parseE
    refine safeE_bind (safe_of_ev (ev_doOp.2 hrun)) fun cs s1 h3 => ?_
    have h3 := ev_doOp.1 h3
    rw [hrun] at h3
    simp only [Prod.mk.injEq, Out.ok.injEq, Except.ok.injEq] at h3
    obtain ⟨rfl, rfl⟩ := h3
    refine safeE_bind (safeE_lift (safe_callH h1)) fun r s2 _ => ?_
    unfold returnP
    exact safeE_of_ev (evE_lift_bind.2 ⟨_, _, ev_getSt.2 ⟨rfl, rfl⟩, evE_mk.2 ⟨rfl, rfl⟩⟩)
  have call : Safe H n (z4Call a f f.length end_ env ⟨0, false, i, [], []⟩ f.length p k d src [] 0) s := by
    have ea : ((Spec.opened s d env.q).scopes s.nscope).args = s.nlist := by simp [Spec.opened, upd, Scope.new]
    unfold z4Call
    refine safe_bind (safe_of_ev (ev_doOp.2 run_newScope)) fun q2 s1 h3 => ?_
    have h3 := ev_doOp.1 h3
    rw [run_newScope] at h3
    simp only [Prod.mk.injEq, Out.ok.injEq] at h3
    obtain ⟨rfl, rfl⟩ := h3
    refine safe_bind (safe_of_ev (ev_getSt.2 ⟨rfl, rfl⟩)) fun st s2 h3 => ?_
    obtain ⟨e1, e2⟩ := ev_getSt.1 h3
    rw [e1, e2, ea]
    dsimp only
    refine safe_bind (safe_of_ev ha) fun r2 s3 h5 => ?_
    obtain ⟨rfl, rfl⟩ := ev_unique ha h5
    cases hr : r1.r with
    | error e => exact safe_pure
    | ok u =>
      refine safe_bind (body hr) fun x s4 _ => ?_
      cases x with
      | error e => exact safe_pure
      | ok u => exact safe_callP ((hn hr).2.2 _)
  unfold z4P
  rw [if_pos hpos]
  refine safe_bind (safe_of_ev (ev_getSt.2 ⟨rfl, rfl⟩)) fun st s1 h3 => ?_
  obtain ⟨e1, e2⟩ := ev_getSt.1 h3
  rw [e1, e2, f1]
  dsimp only
  rw [hf.def_]
  dsimp only
  rw [sparg_plain hg, hlen]
  refine safe_bind (safe_of_ev (ev_ofOut.2 ⟨rfl, rfl⟩)) fun o s2 h3 => ?_
  obtain ⟨h5, rfl⟩ := ev_ofOut.1 h3
  cases h5
  dsimp only
  refine safe_bind (safe_of_ev (a := ()) (ev_addTs.2 rfl)) fun u s3 h6 => ?_
  have h6 := ev_addTs.1 h6
  rw [hv]
  have : s3 = s2 := by rw [h6]; simp [St.pushs]
  rw [this]
  exact call

theorem shape_safe {g : Spec.Prg} (hr : Ready H g) (hn : Spec.PlainNumbers H) (hb : ∀ p ∈ g.procs, CoreClean p.body) (n : Nat) :
    ∀ c s, Shape H g c s → (run H n c s).1 ≠ .panic := by
  induction n with
  | zero => intro c s _; simp [run]
  | succ n ih =>
    intro c s hsh
    change Safe H n (evalF c) s
    cases c with
    | codes a i j env =>
      obtain ⟨rfl, rfl, σ, ρ, hs, hcl, k, hok, hft, hk, ha⟩ := hsh
      have hl : min usizeMax a.length = a.length := by
        apply Nat.min_eq_right
        rcases ha with rfl | rfl
        · exact hft.length
        · show 1 ≤ usizeMax
          decide
      show Safe H n (codesP a 0 usizeMax env) s
      unfold codesP
      rw [hl]
      refine safe_bind (safe_callP (ih _ _ ⟨rfl, σ, ρ, hs, hcl, k, hok, hft, hk, ha.imp id .inr⟩)) fun r s1 _ => ?_
      cases r.r <;> exact safe_pure
    | z2 a i j env =>
      obtain ⟨rfl, σ, ρ, hs, hcl, k, hok, hft, hk, ha⟩ := hsh
      show Safe H n (z2P a i a.length env) s
      rcases ha with ha | ha | ha
      · cases k with
        | nil =>
          have : a.length ≤ i := by
            have := congrArg List.length ha
            simp [Spec.Core.code] at this
            omega
          exact safe_of_ev ((ev_z2_end this).2 ⟨rfl, rfl⟩)
        | cons x k =>
          simp only [Spec.Core.Ok] at hok
          simp only [Spec.Core.Fits] at hft
          simp only [CoreClean] at hk
          rw [code_cons] at ha
          obtain ⟨hi, ha1⟩ := drop_head ha
          have hlt : i < a.length := (List.getElem?_eq_some_iff.1 hi).1
          have done : ∀ {s1 : St} {w σ1}, Spec.DoesOne H g.proc ρ x σ w .next σ1 → Meets env s ρ.length w .next σ1 (.ok ()) s1 →
              s1.held = s.held → Spec.Reach H.hash parse s1.cache → ∀ {m}, a.drop m = .kw1 .jvhao :: k.code ∨ a.drop m = k.code →
              (run H n (.z2 a m a.length env) s1).1 ≠ .panic := by
            intro s1 w σ1 hd hm hh hc m ham
            refine ih _ _ ⟨rfl, σ1, ρ, hs.step hm.went hm.vars (DoesOne.args hd) hh hc, fun τ hτ => ?_, k, hok.2, hft.2.2, hk.2,
              ham.elim (fun h => .inr (.inl h)) .inl⟩
            rcases List.mem_cons.1 hτ with rfl | hτ
            · exact does_clean hn (.next hd .nil) hcl (by simp only [CoreClean]; exact ⟨hk.1, trivial⟩)
            · exact hcl τ (by simp [hτ])
          by_cases hx : ∀ f ts, x ≠ .call f ts
          · obtain ⟨n1, n2, n3⟩ := not_word hx
            refine safe_z2_item hi hlt n1 n2 n3 (ih _ _ ⟨σ, ρ, hs, hcl, .inr ⟨x, hx, hok.1, hft.2.1, hk.1, rfl⟩⟩) fun s1 h1 => ?_
            obtain ⟨w, f, σ1, h5, h6⟩ := (evals_back hr h1 σ ρ hs).2 x hx hok.1 hft.2.1 rfl
            have := h6.flow.ok
            subst this
            rw [rest_nil hx] at ha1
            exact done h5 h6 h1.held (h1.cache hs.cache) (.inl ha1)
          · obtain ⟨fn, ts, rfl⟩ := is_call hx
            have e : z2P a i a.length env = (do
                let r ← callP [] (.z4 a fn fn.length a.length env ⟨0, false, i, [], []⟩)
                match r.r with
                | .error e => return { idx := r.idx, r := .error e }
                | .ok () =>
                  if r.has then callP [] (.z2 a r.idx a.length env)
                  else z2Item a r.idx a.length env (.undef fn)) := by
              unfold z2P
              rw [if_pos hlt, hi]
              show (if env.gd.undefEqText = true then _ else _) = _
              rw [if_neg (by rw [hs.gd]; decide)]
              rfl
            rw [e]
            refine safe_bind (safe_callP (ih _ _ ⟨σ, ρ, hs, hcl, rfl, rfl, i, ts, k.code, rfl, hok.1, by simpa only [StmtClean] using hk.1, ha⟩)) fun r s1 h1 => ?_
            have h1 := ev_callP.1 h1
            obtain ⟨⟨w, f, σ1, h5, h6⟩, h7⟩ := evals_back hr h1 σ ρ hs rfl rfl i rfl ts k.code hok.1 ha
            cases hy : r.r with
            | error e => exact safe_pure
            | ok u =>
              rw [hy] at h6
              dsimp only
              rw [if_pos (h7 hy).1]
              have := h6.flow.ok
              subst this
              exact safe_callP (done h5 h6 h1.held (h1.cache hs.cache) (h7 hy).2)
      · obtain ⟨hi, ha1⟩ := drop_head ha
        have hlt : i < a.length := (List.getElem?_eq_some_iff.1 hi).1
        exact safe_z2_jvhao hi hlt (by rw [hs.gd]) hs.empty (ih _ _ ⟨rfl, σ, ρ, hs, hcl, k, hok, hft, hk, .inl ha1⟩)
      · obtain ⟨hi, ha1⟩ := drop_head ha
        have hlt : i < a.length := (List.getElem?_eq_some_iff.1 hi).1
        refine safe_z2_item hi hlt (by simp [Code.id]) (by simp [Code.id]) (by simp [Code.id])
          (ih _ _ ⟨σ, ρ, hs, hcl, .inl ⟨k, hok, hft, hk, rfl⟩⟩) fun s1 _ => ?_
        have : a.length ≤ i + 1 := by
          have := congrArg List.length ha1
          simp at this
          omega
        exact run_of_evals (evals_iff.2 ((ev_z2_end (a := a) (env := env) this).2 ⟨rfl, rfl⟩))
    | item c env =>
      obtain ⟨σ, ρ, hs, hcl, ⟨k, hok, hft, hk, rfl⟩ | ⟨x, hx, hok, hft, hk, rfl⟩⟩ := hsh
      · refine safe_resE ?_
        show SafeE H n (hello [] k.code { env with gd := { env.gd with jvhao := false } }) s
        rw [hs.env]
        exact safeE_hello (ih _ _ ⟨rfl, rfl, σ, ρ, hs, hcl, k, hok, hft, hk, .inl rfl⟩)
      · have ev : ∀ {r s'}, Evals H (.item x.item env) s r s' → Safe H n (evalF (.item x.item env)) s := fun h => safe_of_ev (evals_iff.1 h)
        cases x with
        | call f ts => exact absurd rfl (hx f ts)
        | assign x v =>
          simp only [Spec.Stmt.Ok] at hok
          simp only [Spec.Stmt.Fits] at hft
          obtain ⟨o, ho⟩ := gives_total hcl (by simpa only [StmtClean] using hk)
          obtain ⟨r1, s1, h1, -⟩ := item_assign hs (sigs_defs g ▸ hok.2.1) hok.2.2 hft ho
          exact ev h1
        | print v =>
          simp only [Spec.Stmt.Ok] at hok
          simp only [Spec.Stmt.Fits] at hft
          obtain ⟨o, ho⟩ := gives_total hcl (by simpa only [StmtClean] using hk)
          obtain ⟨r1, s1, h1, -⟩ := item_print hs hr.word hok.1 hft ho
          exact ev h1
        | brk =>
          obtain ⟨r1, h1, -⟩ := item_brk (H := H) (env := env) (s := s) (n := ρ.length)
          exact ev h1
        | cont =>
          obtain ⟨r1, h1, -⟩ := item_cont (H := H) (env := env) (s := s) (n := ρ.length)
          exact ev h1
        | ret =>
          obtain ⟨r1, h1, -⟩ := item_ret (H := H) (env := env) (s := s) (n := ρ.length) hs.depth
          exact ev h1
        | loop c k =>
          simp only [Spec.Stmt.Ok] at hok
          simp only [Spec.Stmt.Fits] at hft
          simp only [StmtClean] at hk
          refine safe_resE ?_
          show SafeE H n (forP false c.kept [] [.block k.code] env) s
          rw [forP_nil]
          refine safeE_bind (safeE_of_ev (remsP_nil (env := env) (s := s))) fun rs s1 h1 => ?_
          obtain ⟨h3, h4⟩ := ev_unique (remsP_nil (env := env) (s := s)) h1
          cases h3
          subst h4
          refine safeE_bind (safeE_of_ev (evE_mk.2 ⟨rfl, rfl⟩)) fun c' s2 h5 => ?_
          obtain ⟨h7, rfl⟩ := evE_mk.1 h5
          cases h7
          have hc := calm_noted s
          refine safeE_bind (safeE_lift (safe_callP (ih _ _ ⟨rfl, _, _, _, loopAt_start c, σ, ρ, hs.calm hc hs.cache, hcl, k, hok.2, hft, hk, rfl⟩)))
            fun r s3 _ => ?_
          exact safeE_of_ev (evE_pop.2 ⟨rfl, rfl⟩)
        | cond t a b =>
          simp only [Spec.Stmt.Ok] at hok
          simp only [Spec.Stmt.Fits] at hft
          simp only [StmtClean] at hk
          refine safe_resE ?_
          show SafeE H n (ifP t.code [.block a.code] [.block b.code] env) s
          unfold ifP
          refine safeE_bind (safeE_lift (safe_of_ev ((ev_doOp (H := H) (o := .newList) (s := s) (s' := Spec.fresh s) (b := s.nlist)).2 rfl))) fun r2 s1 h1 => ?_
          obtain ⟨r', hr', h1⟩ := evE_lift.1 h1
          cases hr'
          have h1 := ev_doOp.1 h1
          have h1 : (Out.ok s.nlist, Spec.fresh s) = (Out.ok r2, s1) := h1
          cases h1
          obtain ⟨o, ho⟩ := (tests_total H (σ :: ρ) t).1 []
          obtain ⟨x', s1', h4, h5, -⟩ := cond_call (env := env) hs.seen hok.1 hft.1 ho
          have hs1 := hs.calm h5 (h4.cache hs.cache)
          refine safeE_bind (safeE_lift (safe_callP (run_of_evals h4))) fun r s2 h6 => ?_
          obtain ⟨r', hr', h6⟩ := evE_lift.1 h6
          cases hr'
          obtain ⟨rfl, rfl⟩ := h4.unique (ev_callP.1 h6)
          have br : SafeE H n (if x'.has = true then hello [] [.block a.code] env else hello [] [.block b.code] env) s1' := by
            cases x'.has
            · exact safeE_hello (ih _ _ ⟨rfl, rfl, σ, ρ, hs1, hcl, b, hok.2.2, hft.2.2, hk.2, .inr rfl⟩)
            · exact safeE_hello (ih _ _ ⟨rfl, rfl, σ, ρ, hs1, hcl, a, hok.2.1, hft.2.1, hk.1, .inr rfl⟩)
          dsimp only
          cases x'.r with
          | ok u => exact br
          | error e =>
            dsimp only
            split
            · exact br
            · exact safeE_of_ev (evE_fail.2 ⟨rfl, rfl⟩)
    | loop range codes max useI cnt env j hn' =>
      obtain ⟨rfl, x, m, i, hl, σ, ρ, hs, hcl, k, hok, hft, hk, rfl⟩ := hsh
      show Safe H n (loopP false [.block k.code] max useI cnt env j hn') s
      by_cases hn0 : m = some 0
      · exact safe_of_ev ((ev_loop_over (hl.over.1 hn0)).2 ⟨rfl, rfl⟩)
      have hs0 := hs.count hl hn0 hn'
      have hcl0 := count_clean (x := x) (i := i + 1) hcl
      refine safe_loop (List.cons_ne_nil _ _) (hs.held _) (hl.more hn0) (ih _ _ ⟨rfl, rfl, _, ρ, hs0, hcl0, k, hok, hft, hk, .inr rfl⟩) fun r s1 h1 => ?_
      obtain ⟨w, f, σ1, h4, h5⟩ := evals_back hr h1 rfl rfl _ ρ hs0 k hok hft (.inr rfl)
      refine ih _ _ ⟨rfl, _, _, _, hl.next hn0, σ1, ρ, hs0.step h5.went h5.vars (Does.args h4) h1.held (h1.cache hs0.cache), fun τ hτ => ?_,
        k, hok, hft, hk, rfl⟩
      rcases List.mem_cons.1 hτ with rfl | hτ
      · exact does_clean hn h4 hcl0 hk
      · exact hcl τ (by simp [hτ])
    | z4 a fn m e env st =>
      obtain ⟨σ, ρ, hs, hcl, rfl, rfl, i, ts, post, rfl, hok, hts, ha⟩ := hsh
      obtain ⟨pr, h1, rfl, p, k, h3, r1, t1, a1, a2, a3, a4⟩ := call_args hr hs hok ha
      obtain ⟨c, hc⟩ := ((C21_cache_transparent H.hash parse s.cache hs.cache pr.text (hr.hash pr h1)).1 _).1 (hr.text pr h1)
      refine safe_z4 (src := pr.text) h3 rfl rfl rfl a1 (codes := pr.body.code) (c := c) fun ho => ?_
      cases hpass : Spec.pass (σ :: ρ) ts with
      | none =>
        rw [hpass] at a4
        obtain ⟨e, a5, -⟩ := a4
        rw [ho] at a5
        cases a5
      | some as =>
        rw [hpass] at a4
        refine ⟨by rw [(opened_facts hs a2).2.2.2.2.2.2.2.2]; exact hc, ih _ _ ⟨rfl, rfl, _, _, sim_call hs a2 a4.2.1 hc p k, ?_, pr.body,
          hr.body pr h1, hr.fits pr h1, hb pr h1, .inl rfl⟩, fun s1 => run_of_evals (by rw [a3]; exact z4_last.2 ⟨rfl, rfl⟩)⟩
        intro τ hτ
        rcases List.mem_cons.1 hτ with rfl | hτ
        · exact pass_clean hcl hts hpass
        · exact hcl τ hτ
    | _ => exact hsh.elim

/-! ## Texts without `%` -/

theorem pct_flat {γ : Type} {l : List γ} {f : γ → Str} : PctFree (l.flatMap f) ↔ ∀ x ∈ l, PctFree (f x) := by
  unfold PctFree
  simp [List.mem_flatMap]

theorem pct_cons {u : Spec.Frag} {us : List Spec.Frag} : PctFree (Spec.unitsSrc (u :: us)) ↔ PctFree u.src ∧ PctFree (Spec.unitsSrc us) := by
  unfold Spec.unitsSrc
  rw [List.flatMap_cons, clean_append]

theorem pct_append {us vs : List Spec.Frag} : PctFree (Spec.unitsSrc (us ++ vs)) ↔ PctFree (Spec.unitsSrc us) ∧ PctFree (Spec.unitsSrc vs) := by
  unfold Spec.unitsSrc
  rw [List.flatMap_append, clean_append]

theorem txt_clean {t : Spec.Txt} (h : PctFree (Spec.unitsSrc t.phrase.units)) : TxtClean t := by
  have h : PctFree (Spec.unitsSrc [.atom t.atom]) := h
  have h := (pct_cons.1 h).1
  have h : PctFree (c!"“" ++ Spec.partsSrc (Spec.quoteParts (t.parts.map fun p => (p.1, p.2.name))) t.last ++ c!"”") := h
  have h := (clean_append.1 (clean_append.1 h).1).2
  obtain ⟨h1, h2⟩ := clean_append.1 h
  refine ⟨fun p hp => ?_, h2⟩
  have h3 := pct_flat.1 h1 (p.1, p.2.name.text) (List.mem_map.2 ⟨(p.1, p.2.name), List.mem_map.2 ⟨p, hp, rfl⟩, rfl⟩)
  exact (clean_append.1 (clean_append.1 (clean_append.1 h3).1).1).1

theorem value_clean {v : Spec.Value} (h : PctFree (Spec.unitsSrc v.phrase.units)) : ValueClean v := by
  cases v with
  | text t => exact txt_clean h
  | sum t =>
    have h : PctFree (Spec.unitsSrc (.kw .expl :: (Spec.noteUnits [] ++ t.phrase.units))) := h
    exact txt_clean (pct_append.1 (pct_cons.1 h).2).2

theorem args_clean {ts : List Spec.Txt} (h : PctFree (Spec.unitsSrc (Spec.argsPhrase ts).units)) : ∀ t ∈ ts, TxtClean t := by
  induction ts with
  | nil => exact nofun
  | cons t ts ih =>
    cases ts with
    | nil =>
      intro u hu
      cases List.mem_singleton.1 hu
      exact txt_clean h
    | cons t' ts =>
      have hu : (Spec.argsPhrase (t :: t' :: ts)).units = [.atom t.atom] ++ ([.atom .sep] ++ (Spec.argsPhrase (t' :: ts)).units) := by
        simp [Spec.argsPhrase, Spec.Phrase.units, Spec.El.units]
      rw [hu] at h
      intro u hu
      rcases List.mem_cons.1 hu with rfl | hu
      · exact txt_clean (by rw [Spec.Txt.phrase_units]; exact (pct_append.1 h).1)
      · exact ih (pct_append.1 (pct_append.1 h).2).2 u hu

mutual
theorem stmt_clean : ∀ x : Spec.Stmt, PctFree (Spec.unitsSrc x.phrase.units) → StmtClean x
  | .assign x v, h => by
    have h : PctFree (Spec.unitsSrc (.kw .set_ :: (_ ++ .kw .equ :: v.phrase.units))) := h
    exact value_clean (pct_cons.1 (pct_append.1 (pct_cons.1 h).2).2).2
  | .print v, h => by
    have h : PctFree (Spec.unitsSrc (.kw .print_ :: (Spec.noteUnits [] ++ v.phrase.units))) := h
    exact value_clean (pct_append.1 (pct_cons.1 h).2).2
  | .cond t a b, h => by
    have h : PctFree (Spec.unitsSrc ((.kw .if_ :: (t.condition.units ++ .kw .then_ :: ((.kw .beginBlock :: (a.script.units ++ [.kw .endBlock])) ++ [] ++ .kw .else_ ::
      ([] ++ .kw .beginBlock :: (b.script.units ++ [.kw .endBlock]))))) ++ [])) := by
        rw [Spec.Stmt.phrase] at h
        simp only [Spec.Phrase.units, Spec.El.units] at h
        exact h
    have h := (pct_cons.1 (pct_append.1 (pct_cons.1 (pct_append.1 h).1).2).2).2
    obtain ⟨h1, h2⟩ := pct_append.1 h
    have h3 := (pct_cons.1 (pct_append.1 h1).1).2
    have h4 := (pct_cons.1 (pct_append.1 (pct_cons.1 h2).2).2).2
    simp only [StmtClean]
    exact ⟨core_clean a (pct_append.1 h3).1, core_clean b (pct_append.1 h4).1⟩
  | .loop c a, h => by
    have h : PctFree (Spec.unitsSrc ((.kw .for_ :: (Spec.noteUnits (Spec.Cmd.loop false c).notes ++ ([] ++ .kw .beginBlock :: (a.script.units ++ [.kw .endBlock])))) ++ [])) := by
        rw [Spec.Stmt.phrase] at h
        simp only [Spec.Phrase.units, Spec.El.units] at h
        exact h
    have h := (pct_cons.1 (pct_append.1 (pct_append.1 (pct_cons.1 (pct_append.1 h).1).2).2).2).2
    simp only [StmtClean]
    exact core_clean a (pct_append.1 h).1
  | .brk, _ => by simp only [StmtClean]
  | .cont, _ => by simp only [StmtClean]
  | .ret, _ => by simp only [StmtClean]
  | .call f ts, h => by
    have h : PctFree (Spec.unitsSrc ([.atom (.word f)] ++ (Spec.argsPhrase ts).units)) := by
      rw [Spec.Stmt.phrase] at h
      simp only [Spec.Phrase.units, Spec.El.units] at h
      exact h
    simp only [StmtClean]
    exact args_clean (pct_append.1 h).2
theorem core_clean : ∀ k : Spec.Core, PctFree (Spec.unitsSrc k.script.units) → CoreClean k
  | .nil, _ => by simp only [CoreClean]
  | .cons x k, h => by
    have h : PctFree (Spec.unitsSrc (x.phrase.units ++ .kw .jvhao :: k.script.units)) := by
      rw [Spec.Core.script] at h
      simp only [Spec.Script.units] at h
      exact h
    simp only [CoreClean]
    exact ⟨stmt_clean x (pct_append.1 h).1, core_clean k (pct_cons.1 (pct_append.1 h).2).2⟩
end

theorem prg_clean {g : Spec.Prg} (hg : g.Ok) (h : '%' ∉ g.src) : CoreClean g.main ∧ ∀ p ∈ g.procs, CoreClean p.body ∧ PctFree p.text := by
  have key : ∀ ps : List Spec.Proc, PctFree (Spec.unitsSrc (ps.foldr (fun p q => Spec.Script.sent p.phrase q) g.main.script).units) →
      PctFree (Spec.unitsSrc g.main.script.units) ∧ ∀ p ∈ ps, PctFree (Spec.piecesSrc p.pieces) := by
    intro ps
    induction ps with
    | nil => exact fun h => ⟨h, nofun⟩
    | cons p ps ih =>
      intro h
      have h : PctFree (Spec.unitsSrc (p.phrase.units ++ .kw .jvhao :: (ps.foldr (fun p q => Spec.Script.sent p.phrase q) g.main.script).units)) := by
        rw [List.foldr_cons] at h
        simp only [Spec.Script.units] at h
        exact h
      obtain ⟨h1, h2⟩ := pct_append.1 h
      obtain ⟨h3, h4⟩ := ih (pct_cons.1 h2).2
      refine ⟨h3, fun q hq => ?_⟩
      rcases List.mem_cons.1 hq with rfl | hq
      · have h1' := h1
        have h1 : PctFree (Spec.unitsSrc (.kw Spec.Asg.def_.kw :: (([.atom (.word q.name)] ++ (if q.args then Spec.Phrase.nil else .el (.atom (.note c!"无参")) .nil).units) ++
          .kw .equ :: [.atom (.kept q.pieces)]))) := by
            simpa only [Spec.Proc.phrase, Spec.Phrase.units, Spec.El.units, List.append_nil] using h1'
        have h5 := (pct_cons.1 (pct_cons.1 (pct_append.1 (pct_cons.1 h1).2).2).2).1
        have h5 : PctFree (c!"下代码" ++ Spec.piecesSrc q.pieces ++ c!"上代码") := h5
        exact (clean_append.1 (clean_append.1 h5).1).2
      · exact h4 q hq
  obtain ⟨h1, h2⟩ := key g.procs h
  refine ⟨core_clean _ h1, fun p hp => ⟨core_clean _ ?_, ?_⟩⟩
  · have := h2 p hp
    rw [(hg.procs p hp).src] at this
    exact this
  · refine pct_flat.2 fun c hc => ?_
    obtain ⟨d, hd, rfl⟩ := List.mem_map.1 hc
    have h3 := pct_flat.1 (h2 p hp) d hd
    have st : ∀ {t : Str}, PctFree t → PctFree (Spec.strip t) := fun h => clean_filter h
    cases d with
    | plain s => exact st h3
    | quote ps l =>
      have h3 : PctFree (c!"“" ++ Spec.partsSrc ps l ++ c!"”") := h3
      have h3 := (clean_append.1 (clean_append.1 h3).1).2
      obtain ⟨h4, h5⟩ := clean_append.1 h3
      show PctFree (c!"“" ++ Spec.partsSrc (ps.map fun p => (Spec.printable p.1, Spec.printable p.2)) (Spec.printable l) ++ c!"”")
      refine clean_append.2 ⟨clean_append.2 ⟨by unfold PctFree; decide, clean_append.2 ⟨pct_flat.2 fun q hq => ?_, clean_filter h5⟩⟩, by unfold PctFree; decide⟩
      obtain ⟨q', hq', rfl⟩ := List.mem_map.1 hq
      have h6 := pct_flat.1 h4 q' hq'
      obtain ⟨h7, h8⟩ := clean_append.1 h6
      obtain ⟨h9, h10⟩ := clean_append.1 h7
      obtain ⟨h11, h12⟩ := clean_append.1 h9
      exact clean_append.2 ⟨clean_append.2 ⟨clean_append.2 ⟨clean_filter h11, h12⟩, clean_filter h10⟩, h8⟩
    | verb s => exact h3
    | var s =>
      obtain ⟨h4, h5⟩ := clean_append.1 (show PctFree (c!"‘" ++ s ++ c!"’") from h3)
      obtain ⟨h6, h7⟩ := clean_append.1 h4
      exact clean_append.2 ⟨clean_append.2 ⟨h6, clean_filter h7⟩, h5⟩
    | note s =>
      obtain ⟨h4, h5⟩ := clean_append.1 (show PctFree (c!"【" ++ s ++ c!"】") from h3)
      obtain ⟨h6, h7⟩ := clean_append.1 h4
      exact clean_append.2 ⟨clean_append.2 ⟨h6, st h7⟩, h5⟩
    | opn => exact h3
    | cls => exact h3

/-! ## Whole scripts -/

theorem defs_safe {g : Spec.Prg} (hg : g.Ok) {shl : Str} {ws : List Str}
    (hm : ∀ {s : St} {a : List Code} {j : Nat}, Half H shl ws g.procs s → a.drop j = g.main.code → ∀ n, (run H n (.z2 a j a.length Env.init) s).1 ≠ .panic) :
    ∀ (rest done : List Spec.Proc) {s : St} {a : List Code} {i : Nat}, Half H shl ws done s → g.procs = done ++ rest →
      a.drop i = (rest.flatMap fun p => [p.item, .kw1 .jvhao]) ++ g.main.code → ∀ n, (run H n (.z2 a i a.length Env.init) s).1 ≠ .panic := by
  intro rest
  induction rest with
  | nil =>
    intro done s a i h hp ha n
    rw [List.append_nil] at hp
    exact hm (hp ▸ h) ha n
  | cons p rest ih =>
    intro done s a i h hp ha n
    obtain ⟨s1, h1, h2, h3⟩ := h.define hg hp
    rw [List.flatMap_cons, List.append_assoc, List.cons_append, List.cons_append, List.nil_append] at ha
    obtain ⟨hi, ha1⟩ := drop_head ha
    obtain ⟨hi1, ha2⟩ := drop_head ha1
    have hlt : i < a.length := (List.getElem?_eq_some_iff.1 hi).1
    have hlt1 : i + 1 < a.length := (List.getElem?_eq_some_iff.1 hi1).1
    cases n with
    | zero => simp [run]
    | succ n =>
      refine safe_z2_item hi hlt (by simp [Spec.Proc.item, Code.id]) (by simp [Spec.Proc.item, Code.id]) (by simp [Spec.Proc.item, Code.id])
        (run_of_evals h1) fun s2 h4 => ?_
      obtain ⟨-, rfl⟩ := h1.unique h4
      cases n with
      | zero => simp [run]
      | succ n => exact safe_z2_jvhao hi1 hlt1 rfl h2.empty (ih (done ++ [p]) h2 (by simp [hp]) ha2 n)

theorem start_clean {g : Spec.Prg} (h : ∀ p ∈ g.procs, PctFree p.text) {shl : Str} (hs : '%' ∉ shl) {ws : List Str}
    (hw : ∀ w ∈ ws, '%' ∉ w) : ∀ τ ∈ [g.start ws, Spec.outer shl], PctFreeS τ := by
  intro τ hτ
  rcases List.mem_cons.1 hτ with rfl | hτ
  · refine ⟨fun x t hx => ?_, fun t ht => ?_⟩
    · obtain ⟨p, hp, rfl⟩ := Option.map_eq_some_iff.1 hx
      exact h p (List.mem_of_find?_eq_some hp)
    · obtain ⟨w, hm, e⟩ := List.mem_map.1 ht
      rw [← Option.some.inj e]
      exact hw _ hm
  · cases List.mem_singleton.1 hτ
    refine ⟨fun x t hx => ?_, nofun⟩
    unfold Spec.outer at hx
    dsimp only at hx
    split at hx
    · cases hx; exact hs
    · split at hx
      · cases hx; show '%' ∉ c!"linux"; decide
      · have : ∀ l : List (Str × Str), (∀ c ∈ l, PctFree c.2) → ∀ {t}, l.lookup x = some t → PctFree t := by
          intro l
          induction l with
          | nil => intro _ t h; cases h
          | cons c l ih =>
            intro hl t h
            rw [List.lookup_cons] at h
            split at h
            · cases h; exact hl c (by simp)
            · exact ih (fun d hd => hl d (by simp [hd])) h
        refine this Spec.chars ?_ hx
        unfold PctFree
        decide

theorem src_safe {g : Spec.Prg} (hg : g.Ok) (hh : g.Hashes H) (hn : Spec.PlainNumbers H) (hp : '%' ∉ g.src) {shl : Str} (hsh : '%' ∉ shl)
    {ws : List Str} (hw : ∀ w ∈ ws, '%' ∉ w) {s : St} (hs : Half H shl ws [] s) (n : Nat) : (run H n (.src g.src Env.init) s).1 ≠ .panic := by
  have hr := prg_ready (H := H) hg hh.2
  have hft := (core_fits (prg_sigs hg) g.main hg.main).2 (prg_small hg).1
  obtain ⟨k1, k2⟩ := prg_clean hg hp
  obtain ⟨c, hc⟩ := ((C21_cache_transparent H.hash parse s.cache hs.cache g.src hh.1).1 _).1 (prg_read hg)
  have hs1 : Half H shl ws [] { s with cache := c } := { hs with cache := .step hs.cache hc }
  have em : min usizeMax g.code.length = g.code.length := Nat.min_eq_right (prg_small hg).2.2
  have hz : ∀ n, (run H n (.z2 g.code 0 g.code.length Env.init) { s with cache := c }).1 ≠ .panic := by
    refine defs_safe hg (fun {s a j} h1 h3 n => ?_) g.procs [] hs1 rfl rfl
    exact shape_safe hr hn (fun p hp => (k2 p hp).1) n _ _ ⟨rfl, g.start ws, [Spec.outer shl], h1.sim, start_clean (fun p hp => (k2 p hp).2) hsh hw,
      g.main, hg.main, hft, k1, .inl h3⟩
  cases n with
  | zero => simp [run]
  | succ n =>
    refine safe_resE ?_
    show SafeE H n (srcP g.src Env.init) s
    unfold srcP parseE
    have hrun : (Op.parse g.src).run H s = (.ok (.ok g.code), { s with cache := c }) := by
      simp only [Op.run]
      rw [hc]
    refine safeE_bind (safe_of_ev (ev_doOp.2 hrun)) fun cs s1 h3 => ?_
    have h3 := ev_doOp.1 h3
    rw [hrun] at h3
    simp only [Prod.mk.injEq, Out.ok.injEq, Except.ok.injEq] at h3
    obtain ⟨rfl, rfl⟩ := h3
    refine safeE_bind (safeE_lift (safe_callP ?_)) fun r s2 _ => ?_
    · cases n with
      | zero => simp [run]
      | succ n =>
        show Safe H n (codesP g.code 0 usizeMax Env.init) { s with cache := c }
        unfold codesP
        rw [em]
        refine safe_bind (safe_callP (hz n)) fun r s1 _ => ?_
        cases r.r <;> exact safe_pure
    · unfold returnP
      exact safeE_of_ev (evE_lift_bind.2 ⟨_, _, ev_getSt.2 ⟨rfl, rfl⟩, evE_mk.2 ⟨rfl, rfl⟩⟩)

open Spec in
/-- What the interpreter does before the script does not crash. -/
theorem main_safe {ovf : Bool} {shl : Str} {a : List Str} {opts : List CliOpt} {src : Str} {ws : List Str}
    (hl : CliLine (shl :: a) opts src ws) {n : Nat}
    (h : ∀ i j s1, Begun (topScope ((St.init ovf).scopes 0) shl i j) s1 → (s1.scopes 1).src = src →
      (s1.srcIsFile = false ↔ CliOpt.isCode ∈ opts) → HasArgs s1 1 ws → SafeE H n ((if s1.srcIsFile then do
        let _ ← (okSrcP src true 1 : Prog Bool)
        let s ← (getSt : Prog St)
        src2P (s.scopes 1).src 1
      else pure src : E Str) >>= fun t => callE [] (.src t Env.init)) s1) :
    (runMain H n ovf (shl :: a)).1 ≠ .panic := by
  obtain ⟨s1, h1, h2, h3, h4, h5⟩ := clpars_line (H := H) (R := Evals H) ovf hl
  obtain ⟨b1, b2⟩ := (begun_init ovf).clpars ((h1 _ _).2 ⟨rfl, rfl⟩)
  have b2 : s1.shl = shl := b2
  obtain ⟨s2, g1, b3, g4, g5, g6⟩ := b1.topVal (H := H) c!"外壳" s1.shl
  obtain ⟨s3, k1, b4, k4, k5, k6⟩ := b3.topVal (H := H) c!"窗口" c!"linux"
  rw [b2] at b4
  have key := h s1.nitem s2.nitem s3 b4 (by rw [k4, g4, h4]) (by rw [k5, g5, h5]) (h3.congr (k6.trans g6) (by rw [k4, g4]))
  show SafeE H n (mainP (shl :: a)) (St.init ovf)
  unfold mainP
  refine safeE_bind (safeE_of_ev ((h1 _ _).2 ⟨rfl, rfl⟩)) fun u t1 e1 => ?_
  obtain ⟨-, rfl⟩ := (h1 _ _).1 e1
  refine safeE_bind (safeE_lift (safe_of_ev (ev_getSt.2 ⟨rfl, rfl⟩))) fun t t1 e1 => ?_
  obtain ⟨y, hy, e1⟩ := evE_lift.1 e1
  cases hy
  obtain ⟨e2, e3⟩ := ev_getSt.1 e1
  rw [e2, e3]
  refine safeE_bind (safeE_lift (safe_of_ev ((g1 _ _).2 ⟨rfl, rfl⟩))) fun u t2 e1 => ?_
  obtain ⟨y, -, e1⟩ := evE_lift.1 e1
  obtain ⟨-, rfl⟩ := (g1 _ _).1 e1
  refine safeE_bind (safeE_lift (safe_of_ev ((k1 _ _).2 ⟨rfl, rfl⟩))) fun u t2 e1 => ?_
  obtain ⟨y, -, e1⟩ := evE_lift.1 e1
  obtain ⟨-, rfl⟩ := (k1 _ _).1 e1
  dsimp only
  rw [h4, ← g5, ← k5]
  exact key

theorem safeE_callE {n : Nat} {c : Call} {s : St} (h : (run H n c s).1 ≠ .panic) : SafeE H n (callE [] c) s :=
  safeE_bind (safeE_lift (safe_callP h)) fun _ _ _ => safe_pure

open Spec in
/-- **C70.**  A program of the small language without `%`, given as code on the command line, does not crash; if the rules give no end, it
runs forever. -/
theorem C70_code {g : Spec.Prg} (hg : g.Ok) (hh : g.Hashes H) (hn : PlainNumbers H) (hp : '%' ∉ g.src) {ovf : Bool} {shl : Str}
    (hsh : '%' ∉ shl) {a : List Str} {opts : List CliOpt} {ws : List Str}
    (hw : ∀ w ∈ ws, '%' ∉ w) (hl : CliLine (shl :: a) opts g.src ws) (hc : CliOpt.isCode ∈ opts) :
    (∀ n, (runMain H n ovf (shl :: a)).1 ≠ .panic) ∧
    ((¬ ∃ w f σ', Spec.Does H g.proc [Spec.outer shl] g.main (g.start ws) w f σ') → ∀ n, (runMain H n ovf (shl :: a)).1 = .fuel) := by
  have safe : ∀ n, (runMain H n ovf (shl :: a)).1 ≠ .panic := by
    intro n
    refine main_safe hl fun i j s1 h1 h2 h3 ha => ?_
    rw [h3.2 hc]
    exact safeE_callE (src_safe hg hh hn hp hsh hw (h1.half ha) n)
  refine ⟨safe, fun h n => ?_⟩
  have h1 := safe n
  rcases hx : runMain H n ovf (shl :: a) with ⟨x, s'⟩
  rw [hx] at h1
  cases x with
  | ok r =>
    obtain ⟨w, f, σ', h2, -⟩ := (C68_code hg hh (ovf := ovf) hl hc).1 r s' ⟨n, hx⟩
    exact absurd ⟨w, f, σ', h2⟩ h
  | panic => exact absurd rfl h1
  | fuel => rfl

open Spec in
/-- The same for a program in a file. -/
theorem C70_file {g : Spec.Prg} (hg : g.Ok) (hh : g.Hashes H) (hn : PlainNumbers H) (hp : '%' ∉ g.src) {ovf : Bool} {shl src : Str}
    (hsh : '%' ∉ shl) {a : List Str} {opts : List CliOpt} {ws : List Str} (hw : ∀ w ∈ ws, '%' ∉ w)
    (hl : CliLine (shl :: a) opts src ws) (hc : CliOpt.isCode ∉ opts)
    (hf : ∀ tr f, (f = src ∨ ∃ p, H.fileName p src = some f) → H.read tr f = .ok g.src) :
    (∀ n, (runMain H n ovf (shl :: a)).1 ≠ .panic) ∧
    ((¬ ∃ w f σ', Spec.Does H g.proc [Spec.outer shl] g.main (g.start ws) w f σ') → ∀ n, (runMain H n ovf (shl :: a)).1 = .fuel) := by
  have safe : ∀ n, (runMain H n ovf (shl :: a)).1 ≠ .panic := by
    intro n
    refine main_safe hl fun i j s0 h1 h2 h3 ha => ?_
    have h3 : s0.srcIsFile = true := by
      cases e : s0.srcIsFile
      · exact absurd (h3.1 e) hc
      · rfl
    obtain ⟨b, s1, g1, g2, g3⟩ := det_okSrc (H := H) (R := Evals H) h1.held h2
    have h5 := h1.okSrc ((g1 _ _).2 ⟨rfl, rfl⟩)
    have hd : H.read s1.trace (s1.scopes 1).src = .ok g.src := by
      refine hf _ _ ?_
      rcases g3 with g3 | ⟨p, -, g3⟩
      · exact .inl g3
      · exact .inr ⟨p, g3⟩
    have h6 := h5.event (.read (s1.scopes 1).src) nofun
    rw [h3]
    have e : EvE H (Evals H) (do
        let _ ← (okSrcP src true 1 : Prog Bool)
        let s ← (getSt : Prog St)
        src2P (s.scopes 1).src 1 : E Str) s0 (.ok g.src) { s1 with trace := s1.trace ++ [.read (s1.scopes 1).src] } := by
      rw [g1.evE_bind, evE_getSt_bind, evE_src2_plain hd (prg_hashed hg)]
      exact ⟨rfl, rfl⟩
    refine safeE_bind (safeE_of_ev e) fun t s2 h7 => ?_
    obtain ⟨h8, rfl⟩ := ev_unique e h7
    cases h8
    exact safeE_callE (src_safe hg hh hn hp hsh hw (h6.half (ha.congr g2.lists (by rw [h6.args, h1.args]))) n)
  refine ⟨safe, fun h n => ?_⟩
  have h1 := safe n
  rcases hx : runMain H n ovf (shl :: a) with ⟨x, s'⟩
  rw [hx] at h1
  cases x with
  | ok r =>
    obtain ⟨w, f, σ', h2, -⟩ := (C68_file hg hh (ovf := ovf) hl hc hf).1 r s' ⟨n, hx⟩
    exact absurd ⟨w, f, σ', h2⟩ h
  | panic => exact absurd rfl h1
  | fuel => rfl

end Zh
