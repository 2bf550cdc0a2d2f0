import Verif.Props.Crash
import Verif.Props.CompleteRun
import Verif.Props.Expl
/-!
# C44: every crash has one of the causes
-/
namespace Zh
open Spec

variable {α β : Type} {H : Host}

/-! ## Calls keep the separator indices -/

theorem Since.unheld {s0 s : St} {hd : List Held} (h : Since { s0 with held := hd } s) : Since s0 s :=
  ⟨h.weak, h.ovf, h.nlist, h.nscope, h.args⟩

theorem Since.empty {s : St} (h0 : ∀ l, WeakWF (s.lists l)) : Since { s with held := [] } s :=
  ⟨h0, rfl, Nat.le_refl _, Nat.le_refl _, fun _ => .inl rfl⟩

theorem doesOp_open1 {rec : Call → St → Out Res × St} {p : Prog α} {s t : St} {o : Op} (h : DoesOp H rec (open1 s p) s o t) :
    DoesOp H rec p s o t := by
  unfold open1 at h
  split at h
  · exact .inr ⟨s, s, rfl, h⟩
  · exact h

theorem recOk0 (hH : HostOk H) (n : Nat) : RecOk0 (run H n) := by
  induction n with
  | zero => exact fun c s hf h0 => ⟨Since.refl (s0 := s) h0, fun r e => by cases e⟩
  | succ n ih =>
    intro c s hf h0
    have := tm_interp hH ih (tame (H := H) c s hf h0) (Since.empty h0)
    rw [interp_open1] at this
    exact ⟨this.1.unheld, this.2.1⟩

/-- A program that cannot crash by itself crashes in a call. -/
theorem noown (hH : HostOk H) {n : Nat} {s : St} {c0 : Call} {p : Prog α} {Q : α → Prop} (h0 : ∀ l, WeakWF (s.lists l))
    (h : Tm H s c0 False p Q) (hc : ¬ c0.Parses) (hp : (p.interp H (run H n) s).1 = .panic) :
    ∃ c t, Calls H (run H n) p s c t ∧ (run H n c t).1 = .panic :=
  ((tm_interp hH (recOk0 hH n) h (Since.refl h0)).2.2.1 hp).resolve_left fun h => by
    rcases h with h | ⟨_, _, _, _, _, h⟩
    · exact h
    · exact (h rfl).elim id hc

theorem noown_weak (hH : HostOk H) {n : Nat} {s s1 : St} {c0 : Call} {p : Prog α} {Q : α → Prop} {a : α} {B : Prop}
    (h0 : ∀ l, WeakWF (s.lists l)) (h : Tm H s c0 B p Q) (hp : p.interp H (run H n) s = (.ok a, s1)) :
    ∀ l, WeakWF (s1.lists l) := by
  have := (tm_interp hH (recOk0 hH n) h (Since.refl h0)).1.weak
  rw [hp] at this
  exact this

/-! ## Without files that have an unreadable `#!` line -/

open Classical in
/-- The same host without the files that have an unreadable `#!` line. -/
noncomputable def Host.guard (H : Host) : Host :=
  { H with read := fun t p => match H.read t p with
      | .ok text => if BadFirstLine text then .error [] else .ok text
      | .error e => .error e }

theorem guard_read {t : List Event} {p text : Str} (h : H.guard.read t p = .ok text) : ¬ BadFirstLine text := by
  simp only [Host.guard] at h
  split at h
  · split at h
    · cases h
    · cases h; assumption
  · cases h

theorem guard_ok (hH : HostOk H) : HostOk H.guard := hH

theorem guard_op {o : Op} {s : St} (h : ∀ f, o = .read f → ∀ text, H.read s.trace f = .ok text → ¬ BadFirstLine text) :
    o.run H.guard s = o.run H s := by
  cases o with
  | read f =>
    have := h f rfl
    simp only [Op.run, Host.guard]
    cases hr : H.read s.trace f with
    | error e => rfl
    | ok text => rw [hr] at this; dsimp only; rw [if_neg (this text rfl)]
  | _ => rfl

/-- A program that reads no such file runs as with the other host. -/
theorem guard_interp {rec : Call → St → Out Res × St} {p : Prog α} {s : St}
    (h : ∀ f t, DoesOp H rec p s (.read f) t → ∀ text, H.read t.trace f = .ok text → ¬ BadFirstLine text) :
    p.interp H.guard rec s = p.interp H rec s ∧ (∀ o t, DoesOp H.guard rec p s o t → DoesOp H rec p s o t) ∧
      ∀ c t, Calls H.guard rec p s c t → Calls H rec p s c t := by
  induction p generalizing s with
  | ret a => exact ⟨rfl, fun _ _ h => h, fun _ _ h => h⟩
  | panic => exact ⟨rfl, fun _ _ h => h, fun _ _ h => h⟩
  | op o k ih =>
    have ho : o.run H.guard s = o.run H s := guard_op fun f e => by subst e; exact h f s (.inl ⟨rfl, rfl⟩)
    have hk : ∀ a s', o.run H s = (.ok a, s') → _ := fun a s' e => ih a (s := s') fun f t hd => h f t (.inr ⟨a, s', e, hd⟩)
    refine ⟨?_, ?_, ?_⟩
    · simp only [Prog.interp, ho]
      rcases hx : o.run H s with ⟨a | _ | _, s'⟩
      · exact (hk a s' hx).1
      · rfl
      · rfl
    · rintro o' t (hd | ⟨a, s', e, hd⟩)
      · exact .inl hd
      · rw [ho] at e
        exact .inr ⟨a, s', e, (hk a s' e).2.1 o' t hd⟩
    · rintro c t ⟨a, s', e, hd⟩
      rw [ho] at e
      exact ⟨a, s', e, (hk a s' e).2.2 c t hd⟩
  | call hd c k ih =>
    have hk : ∀ r s', rec c (s.hold hd) = (.ok r, s') → _ := fun r s' e =>
      ih r (s := { s' with held := s.held }) fun f t hd => h f t ⟨r, s', e, hd⟩
    refine ⟨?_, ?_, ?_⟩
    · simp only [Prog.interp]
      simp only [St.hold] at hk
      rcases hx : rec c { s with held := hd ++ s.held } with ⟨a | _ | _, s'⟩
      · exact (hk a s' hx).1
      · rfl
      · rfl
    · rintro o' t ⟨r, s', e, hd⟩
      exact ⟨r, s', e, (hk r s' e).2.1 o' t hd⟩
    · rintro c' t (hd | ⟨r, s', e, hd⟩)
      · exact .inl hd
      · exact .inr ⟨r, s', e, (hk r s' e).2.2 c' t hd⟩

/-! ## Parts of a program -/

section
variable {rec : Call → St → Out Res × St} {s : St}

theorem bindE_panic {p : E α} {f : α → E β} (h : ((p >>= f).run.interp H rec s).1 = .panic) :
    (p.run.interp H rec s).1 = .panic ∨
      ∃ a s1, p.run.interp H rec s = (.ok (.ok a), s1) ∧ ((f a).run.interp H rec s1).1 = .panic := by
  have e : (p >>= f).run = p.run.bind (ExceptT.bindCont f) := rfl
  rw [e, interp_bind] at h
  rcases hx : p.run.interp H rec s with ⟨(_ | a) | _ | _, s1⟩
  · rw [hx] at h; cases h
  · rw [hx] at h; exact .inr ⟨a, s1, rfl, h⟩
  · exact .inl rfl
  · rw [hx] at h; cases h

theorem resE_panic {p : E _root_.Unit} (h : ((resE p).interp H rec s).1 = .panic) : (p.run.interp H rec s).1 = .panic := by
  have e : resE p = p.run.bind fun r => pure { r } := rfl
  rw [e, interp_bind] at h
  rcases hx : p.run.interp H rec s with ⟨a | _ | _, s1⟩
  · rw [hx] at h; cases h
  · rfl
  · rw [hx] at h; cases h

theorem callsE_left {p : E α} {f : α → E β} {c : Call} {t : St} (h : Calls H rec p.run s c t) :
    Calls H rec (p >>= f).run s c t := calls_bind_left (f := ExceptT.bindCont f) h

theorem callsE_right {p : E α} {f : α → E β} {c : Call} {t s1 : St} {a : α}
    (h1 : p.run.interp H rec s = (.ok (.ok a), s1)) (h2 : Calls H rec (f a).run s1 c t) :
    Calls H rec (p >>= f).run s c t := calls_bind_right (f := ExceptT.bindCont f) h1 h2

theorem calls_resE {p : E _root_.Unit} {c : Call} {t : St} (h : Calls H rec p.run s c t) : Calls H rec (resE p) s c t := by
  have e : resE p = p.run.bind fun r => pure { r } := rfl
  rw [e]
  exact calls_bind_left h

theorem doesOp_bind_left {p : Prog α} {f : α → Prog β} {s t : St} {o : Op} (h : DoesOp H rec p s o t) : DoesOp H rec (p.bind f) s o t := by
  induction p generalizing s with
  | ret a => exact h.elim
  | panic => exact h.elim
  | op o k ih =>
    rcases h with h | ⟨a, s1, ho, h⟩
    · exact .inl h
    · exact .inr ⟨a, s1, ho, ih a h⟩
  | call hd c0 k ih =>
    obtain ⟨r, s1, hr, h⟩ := h
    exact ⟨r, s1, hr, ih r h⟩

theorem doesOp_bind_right {p : Prog α} {f : α → Prog β} {s t s1 : St} {a : α} {o : Op} (h1 : p.interp H rec s = (.ok a, s1))
    (h2 : DoesOp H rec (f a) s1 o t) : DoesOp H rec (p.bind f) s o t := by
  induction p generalizing s with
  | ret b => cases h1; exact h2
  | panic => cases h1
  | op o k ih =>
    simp only [Prog.interp] at h1
    rcases ho : o.run H s with ⟨x, s2⟩
    rw [ho] at h1
    cases x with
    | ok b => exact .inr ⟨b, s2, ho, ih b h1⟩
    | panic => simp at h1
    | fuel => simp at h1
  | call hd c0 k ih =>
    simp only [Prog.interp] at h1
    rcases ho : rec c0 { s with held := hd ++ s.held } with ⟨x, s2⟩
    rw [ho] at h1
    cases x with
    | ok b => exact ⟨b, s2, ho, ih b h1⟩
    | panic => simp at h1
    | fuel => simp at h1

theorem doesOpE_left {p : E α} {f : α → E β} {o : Op} {t : St} (h : DoesOp H rec p.run s o t) :
    DoesOp H rec (p >>= f).run s o t := doesOp_bind_left (f := ExceptT.bindCont f) h

theorem doesOpE_right {p : E α} {f : α → E β} {o : Op} {t s1 : St} {a : α}
    (h1 : p.run.interp H rec s = (.ok (.ok a), s1)) (h2 : DoesOp H rec (f a).run s1 o t) :
    DoesOp H rec (p >>= f).run s o t := doesOp_bind_right (f := ExceptT.bindCont f) h1 h2

theorem doesOp_resE {p : E _root_.Unit} {o : Op} {t : St} (h : DoesOp H rec p.run s o t) : DoesOp H rec (resE p) s o t := by
  have e : resE p = p.run.bind fun r => pure { r } := rfl
  rw [e]
  exact doesOp_bind_left h

theorem liftOp_panic {o : Op} (h : ((liftM (doOp o) : E o.Res).run.interp H rec s).1 = .panic) :
    (o.run H s).1 = .panic := by
  change ((Prog.op o _).interp H rec s).1 = _ at h
  simp only [Prog.interp] at h
  rcases hx : o.run H s with ⟨x | _ | _, s1⟩
  · rw [hx] at h; cases h
  · rfl
  · rw [hx] at h; cases h

end

/-! ## `算术` -/

theorem expl_panic {F : Type} (o : F64 F) (q : Str → Str) {v : List Str} (h : expl o q v = .panic) :
    ∃ src more, v = src :: more ∧ ('%' ∈ src ∧ explVal o q src = .panic ∨
      ∃ s2 i x, more.head? = some s2 ∧ parseUsize s2 = some i ∧ explVal o q src = .ok (.ok x) ∧ o.strFixed x i = none) := by
  cases v with
  | nil => cases h
  | cons src more =>
    refine ⟨src, more, rfl, ?_⟩
    unfold expl at h
    dsimp only at h
    have h2 := C34_ends (o := o) q src
    rcases hx : explVal o q src with (e | x) | _ | _
    · rw [hx] at h; cases h
    · rw [hx] at h
      refine .inr ?_
      cases more with
      | nil => cases h
      | cons s2 more =>
        simp only [R.ok_bind] at h
        split at h
        · cases h
        · split at h
          · rename_i i hi
            split at h
            · cases h
            · exact ⟨s2, i, x, rfl, hi, rfl, by assumption⟩
          · cases h
    · exact .inl ⟨Classical.byContradiction fun hs => C34_no_crash_partial (o := o) q src hs hx, rfl⟩
    · exact (h2 hx).elim

theorem own_expl (hH : HostOk H) {n : Nat} {a : List Code} {env : Env} {s : St} (h0 : ∀ l, WeakWF (s.lists l))
    (hp : (run H (n + 1) (.item (.expl a) env) s).1 = .panic) : Cause H (.item (.expl a) env) s ∨
      ∃ c t, Calls H (run H n) (evalF (.item (.expl a) env)) s c t ∧ (run H n c t).1 = .panic := by
  have hp := resE_panic hp
  have hv : TE H s (.item (.expl a) env) False (helloVec a env) := m_helloVec
  change ((explP a env).run.interp H (run H n) s).1 = _ at hp
  unfold explP at hp
  rcases bindE_panic hp with h | ⟨v, s1, h1, h⟩
  · obtain ⟨c, t, hc, ht⟩ := noown hH h0 hv id h
    exact .inr ⟨c, t, calls_resE (callsE_left hc), ht⟩
  · rcases bindE_panic h with h | ⟨x, s2, h2, h⟩
    · refine .inl ?_
      obtain ⟨src, more, rfl, h'⟩ := expl_panic H.f64 quote (liftOp_panic h)
      exact .arithmetic h1 h'
    · exfalso
      cases x <;> cases h

/-! ## `释放模块` -/

theorem findMod_lt {s : St} {name : Str} {d : Bool} {i q : Nat} (h : findMod s name = some (d, i, q)) :
    i < (if d then s.datas.length else s.mods.length) := by
  have key : ∀ (l : List Nat) i q, ((l.zipIdx.find? fun (q, _) => (s.scopes q).name.contains name).map
      fun (q, i) => (i, q)) = some (i, q) → i < l.length := by
    intro l i q h
    rw [Option.map_eq_some_iff] at h
    obtain ⟨⟨q', i'⟩, hf, e⟩ := h
    cases e
    have := List.mem_of_find?_eq_some hf
    rw [List.mem_zipIdx_iff_getElem?] at this
    obtain ⟨hl, -⟩ := List.getElem?_eq_some_iff.1 this
    exact hl
  unfold findMod at h
  dsimp only at h
  split at h
  · cases h; exact key _ _ _ (by assumption)
  · rw [Option.map_eq_some_iff] at h
    obtain ⟨⟨i', q'⟩, hf, e⟩ := h
    cases e
    exact key _ _ _ hf

theorem own_modFreeGo {rec : Call → St → Out Res × St} {env : Env} {names : List Str} {s : St}
    (hp : ((modFreeGo env names).run.interp H rec s).1 = .panic) :
    (∃ src env' t r t', Calls H rec (modFreeGo env names).run s (.src src env') t ∧ rec (.src src env') t = (.ok r, t') ∧
      (t'.mods.length < t.mods.length ∨ t'.datas.length < t.datas.length) ∧
      ∃ d i t2, DoesOp H rec (modFreeGo env names).run s (.rmMod d i) t2 ∧ (if d then t2.datas else t2.mods).length ≤ i) ∨
    ∃ c t, Calls H rec (modFreeGo env names).run s c t ∧ (rec c t).1 = .panic := by
  induction names generalizing s with
  | nil => cases hp
  | cons name names ih =>
    unfold modFreeGo at hp ⊢
    rcases bindE_panic hp with h | ⟨s1, s2, h1, h⟩
    · cases h
    · cases h1
      suffices (∃ src env' t r t', Calls H rec _ s (.src src env') t ∧ rec (.src src env') t = (.ok r, t') ∧
          (t'.mods.length < t.mods.length ∨ t'.datas.length < t.datas.length) ∧
          ∃ d i t2, DoesOp H rec _ s (.rmMod d i) t2 ∧ (if d then t2.datas else t2.mods).length ≤ i) ∨
          ∃ c t, Calls H rec _ s c t ∧ (rec c t).1 = .panic by
        rcases this with ⟨a, b, c, r, t', h, g1, g2, d, i, t2, h5, g5⟩ | ⟨c, t, h, g⟩
        · exact .inl ⟨a, b, c, r, t', callsE_right rfl h, g1, g2, d, i, t2, doesOpE_right rfl h5, g5⟩
        · exact .inr ⟨c, t, callsE_right rfl h, g⟩
      revert h
      cases hf : findMod s name with
      | none => exact fun h => ih h
      | some x =>
        obtain ⟨d, i, q2⟩ := x
        dsimp only
        by_cases ho : (s.scopes q2).onFree.isEmpty
        · rw [if_neg (by simp [ho])]
          intro h
          have hi := findMod_lt hf
          rcases bindE_panic h with h | ⟨_, s3, h2, h⟩
          · exfalso
            have h := liftOp_panic h
            simp only [Op.run] at h
            cases d <;> simp only [Bool.false_eq_true, if_false, if_true] at hi h
            · rw [if_pos hi] at h; cases h
            · rw [if_pos hi] at h; cases h
          · rcases ih h with ⟨a, b, c, r, t', h, g1, g3, d, i, t2, h5, g5⟩ | ⟨c, t, h, g⟩
            · exact .inl ⟨a, b, c, r, t', callsE_right h2 h, g1, g3, d, i, t2, doesOpE_right h2 h5, g5⟩
            · exact .inr ⟨c, t, callsE_right h2 h, g⟩
        · rw [if_pos (by simp [ho])]
          intro h
          have hi := findMod_lt hf
          rcases bindE_panic h with h | ⟨_, s3, h2, h⟩
          · refine .inr ⟨_, _, .inl ⟨rfl, rfl⟩, ?_⟩
            change ((Prog.call [.scope q2] _ _).interp H rec s).1 = _ at h
            simp only [Prog.interp] at h
            simp only [St.hold]
            generalize rec _ { s with held := [.scope q2] ++ s.held } = x at h ⊢
            rcases x with ⟨x | _ | _, s3⟩
            · cases h
            · rfl
            · cases h
          · have hc : ∃ r t', rec (.src (s.scopes q2).onFree { env with q := q2, inq := some q2 }) (s.hold [.scope q2]) = (.ok r, t') ∧
                s3.mods = t'.mods ∧ s3.datas = t'.datas := by
              change (Prog.call [.scope q2] _ _).interp H rec s = _ at h2
              simp only [Prog.interp] at h2
              simp only [St.hold]
              generalize rec _ { s with held := [.scope q2] ++ s.held } = x at h2 ⊢
              rcases x with ⟨x | _ | _, s4⟩
              · have := congrArg Prod.snd h2
                change { s4 with held := s.held } = s3 at this
                subst this
                exact ⟨_, _, rfl, rfl, rfl⟩
              · cases h2
              · cases h2
            obtain ⟨r, t', hrec, hm, hd⟩ := hc
            rcases bindE_panic h with h | ⟨_, s5, h3, h⟩
            · have h := liftOp_panic h
              have hx : (if d then s3.datas else s3.mods).length ≤ i := by
                simp only [Op.run] at h
                cases d <;> simp only [Bool.false_eq_true, if_false, if_true] at h ⊢ <;> split at h
                · cases h
                · omega
                · cases h
                · omega
              refine .inl ⟨_, _, _, r, t', .inl ⟨rfl, rfl⟩, hrec, ?_, d, i, s3, doesOpE_right h2 (doesOpE_left (.inl ⟨rfl, rfl⟩)), hx⟩
              cases d <;> simp only [Bool.false_eq_true, if_false, if_true] at hi hx
              · refine .inl ?_
                show t'.mods.length < s.mods.length
                rw [← hm]; omega
              · refine .inr ?_
                show t'.datas.length < s.datas.length
                rw [← hd]; omega
            · rcases ih h with ⟨a, b, c, r, t', h, g1, g3, d, i, t2, h5, g5⟩ | ⟨c, t, h, g⟩
              · exact .inl ⟨a, b, c, r, t', callsE_right h2 (callsE_right h3 h), g1, g3, d, i, t2,
                  doesOpE_right h2 (doesOpE_right h3 h5), g5⟩
              · exact .inr ⟨c, t, callsE_right h2 (callsE_right h3 h), g⟩

theorem own_modFree (hH : HostOk H) {n : Nat} {a : List Code} {env : Env} {s : St} (h0 : ∀ l, WeakWF (s.lists l))
    (hp : (run H (n + 1) (.item (.modFree a) env) s).1 = .panic) : Cause H (.item (.modFree a) env) s ∨
      ∃ c t, Calls H (run H n) (evalF (.item (.modFree a) env)) s c t ∧ (run H n c t).1 = .panic := by
  have hp := resE_panic hp
  have hv : TE H s (.item (.modFree a) env) False (helloVec a env) := m_helloVec
  rcases bindE_panic hp with h | ⟨v, s1, h1, h⟩
  · obtain ⟨c, t, hc, ht⟩ := noown hH h0 hv id h
    exact .inr ⟨c, t, calls_resE (callsE_left hc), ht⟩
  · rcases own_modFreeGo h with ⟨src, env', t, r, t', hc, hr, hl, d, i, t2, h5, g5⟩ | ⟨c, t, hc, ht⟩
    · exact .inl (.free (calls_resE (callsE_right h1 hc)) hr hl (doesOp_resE (doesOpE_right h1 h5)) g5)
    · exact .inr ⟨c, t, calls_resE (callsE_right h1 hc), ht⟩

/-! ## Annotations evaluated by themselves -/

/-- The result list of the evaluation is not empty. -/
def Filled (l : Nat) (s : St) : Prop := (s.lists l).a ≠ []

theorem remP_filled {rec : Call → St → Out Res × St} {r2 : Nat} {env : Env} {s : St} (h : Filled env.ret s) :
    Filled env.ret ((remP r2 env).interp H rec s).2 := by
  have key : ∃ i s', (remTarget env).interp H rec s = (.ok i, s') ∧ Filled env.ret s' := by
    unfold remTarget
    dsimp only
    split
    · exact ⟨_, _, rfl, by simp [Filled, upd, RList.add]⟩
    · change ∃ i s', ((match (s.lists env.ret).last? with
        | some i => if i.dunhao || i.jvhao then _ else _
        | none => _ : Prog Item).interp H rec s) = (.ok i, s') ∧ _
      cases (s.lists env.ret).last? with
      | none => exact ⟨_, _, rfl, by simp [Filled, upd, RList.add]⟩
      | some i =>
        dsimp only
        split
        · exact ⟨_, _, rfl, by simp [Filled, upd, RList.add]⟩
        · exact ⟨_, _, rfl, h⟩
  obtain ⟨i, s', e, hs⟩ := key
  change Filled env.ret (((remTarget env).bind _).interp H rec s).2
  rw [interp_bind, e]
  exact hs

/-- A context with one more protected list. -/
theorem Ok.protect {C : Ctx} {s : St} {env : Env} (hok : Ok C s) (he : EnvOk C s env) : Ok (C.protect env.ret) s :=
  ⟨⟨hok.inv.top, hok.inv.mods, hok.inv.datas, hok.inv.up, hok.inv.root, hok.inv.args,
    hok.inv.inj, hok.inv.xb, fun l hl => by
      rcases hl with hl | rfl
      · exact hok.inv.pb l hl
      · exact he.ret.1, hok.inv.line⟩, fun l hl => by
    rcases hl with hl | rfl
    · exact hok.prot l hl
    · exact he.iso, hok.held⟩

/-- Evaluating something into a fresh list leaves the result list of the statement alone. -/
theorem helloNew_lists {ovf : Bool} {argv : List Str} {c : Call} {env : Env} {s : St} (hr : Reached H ovf argv c s)
    (hc : c.env = some env) (a : List Code) (n : Nat) :
    ((helloNew [] a env).run.interp H (run H n) s).2.lists env.ret = s.lists env.ret := by
  obtain ⟨C, hok, he, -⟩ := reached_frame hr
  have he := he env hc
  have k := K.refl (hok.protect he)
  have hw : NlE H (C.protect env.ret) s (helloNew [] a env) s fun _ _ => True := by
    refine NlE.bind (NlE.lift (nl_newList k)) ?_
    rintro r s1 k1 ⟨h1, -⟩
    refine NlE.bind (nlE_hello k1 [] a ?_) fun _ s2 k2 _ => NlE.ret k2 trivial
    obtain ⟨h2, h3⟩ := h1
    have sc : ∀ {q}, ScOk C s q → ScOk (C.protect env.ret) s1 q :=
      fun h => ⟨Nat.lt_of_lt_of_le h.1 k1.later.step.nscope, h.2⟩
    obtain ⟨X, hX, -⟩ := he.iso
    exact ⟨sc he.q, fun p hp => sc (he.inq p hp), h2, X, hX, fun q hq _ ha => absurd ha (h3 q hq)⟩
  have := (wp_interp (run_frame H n) _ _ _ hw).1
  exact this.2.lists env.ret (Or.inr rfl)

theorem rem_filled {ovf : Bool} {argv : List Str} {x : Code} {env : Env} {s : St}
    (hr : Reached H ovf argv (.item x env) s) (hx : x.IsRem) (n : Nat) (h : Filled env.ret s) :
    Filled env.ret (run H n (.item x env) s).2 := by
  cases n with
  | zero => exact h
  | succ n =>
    have hret : env.ret < s.nlist := by
      obtain ⟨C, -, he, -⟩ := reached_frame hr
      exact (he env rfl).ret.1
    have fin : ∀ (p : E _root_.Unit), Filled env.ret (p.run.interp H (run H n) s).2 →
        Filled env.ret ((resE p).interp H (run H n) s).2 := by
      intro p hp
      have e : resE p = p.run.bind fun r => pure { r } := rfl
      rw [e, interp_bind]
      rcases hx : p.run.interp H (run H n) s with ⟨a | _ | _, s1⟩ <;> rw [hx] at hp <;> exact hp
    cases x with
    | rem a =>
      refine fin _ ?_
      change Filled env.ret (((helloNew [] a env).run.bind (ExceptT.bindCont fun r2 => liftM (remP r2 env))).interp H (run H n) s).2
      have h1 := helloNew_lists hr rfl a n
      rw [interp_bind]
      rcases hy : (helloNew [] a env).run.interp H (run H n) s with ⟨(_ | r2) | _ | _, s1⟩ <;> rw [hy] at h1
      · exact (congrArg RList.a h1).trans_ne h
      · have h2 : Filled env.ret s1 := (congrArg RList.a h1).trans_ne h
        have h3 := remP_filled (H := H) (rec := run H n) (r2 := r2) h2
        change Filled env.ret (((remP r2 env).bind _).interp H (run H n) s1).2
        rw [interp_bind]
        rcases hz : (remP r2 env).interp H (run H n) s1 with ⟨_ | _ | _, s2⟩ <;> rw [hz] at h3 <;> exact h3
      · exact (congrArg RList.a h1).trans_ne h
      · exact (congrArg RList.a h1).trans_ne h
    | remS t =>
      refine fin _ ?_
      have e : (itemP (.remS t) env).run = Prog.bind (α := Nat) (do let r2 ← doOp .newList; addT r2 t; return r2)
          fun r2 => (remP r2 env).bind fun a => pure (.ok a) := rfl
      have h1 : ∃ s1, (do let r2 ← doOp .newList; addT r2 t; return r2 : Prog Nat).interp H (run H n) s = (.ok s.nlist, s1) ∧
          Filled env.ret s1 := by
        refine ⟨_, rfl, ?_⟩
        have : env.ret ≠ s.nlist := by omega
        simpa [Filled, upd, this] using h
      obtain ⟨s1, h1, h2⟩ := h1
      rw [e, interp_bind, h1]
      have h3 := remP_filled (H := H) (rec := run H n) (r2 := s.nlist) h2
      change Filled env.ret (((remP s.nlist env).bind _).interp H (run H n) s1).2
      rw [interp_bind]
      rcases hz : (remP s.nlist env).interp H (run H n) s1 with ⟨_ | _ | _, s2⟩ <;> rw [hz] at h3 <;> exact h3
    | _ => exact hx.elim

theorem z2_filled {ovf : Bool} {argv : List Str} {a : List Code} (ha : ∀ x ∈ a, x.IsRem) (n : Nat) {i e : Nat} {env : Env} {s : St}
    (hr : Reached H ovf argv (.z2 a i e env) s) (h : Filled env.ret s) :
    Filled env.ret (run H n (.z2 a i e env) s).2 := by
  induction n generalizing i s with
  | zero => exact h
  | succ n ih =>
    change Filled env.ret ((z2P a i e env).interp H (run H n) s).2
    have hcall : ∀ c t, Calls H (run H n) (z2P a i e env) s c t → Reached H ovf argv c t := fun c t hc => .step n hr hc
    by_cases hi : i < e
    · cases hc : a[i]? with
      | none =>
        unfold z2P
        rw [if_pos hi, hc]
        exact h
      | some c =>
        have hx := ha c (List.mem_of_getElem? hc)
        have hid : z2P a i e env = z2Item a i e env c := by
          unfold z2P
          rw [if_pos hi, hc]
          cases c <;> first | exact hx.elim | rfl
        rw [hid] at hcall ⊢
        have h1 : Filled env.ret (run H n (.item c env) (s.hold [])).2 :=
          rem_filled (hcall _ _ (.inl ⟨rfl, rfl⟩)) hx n h
        unfold z2Item at hcall ⊢
        change Filled env.ret ((Prog.call [] (.item c env) _).interp H (run H n) s).2
        simp only [Prog.interp]
        simp only [St.hold] at h1
        rcases hres : run H n (.item c env) { s with held := [] ++ s.held } with ⟨x | _ | _, s1⟩
        · rw [hres] at h1
          dsimp only [Prog.bind]
          cases hxr : x.r with
          | error e => exact h1
          | ok u =>
            have h2 := ih (i := i + 1) (s := { s1 with held := s.held }.hold []) (hcall _ _ (.inr ⟨x, s1, hres, by
              dsimp only [Prog.bind]; rw [hxr]; exact .inl ⟨rfl, rfl⟩⟩)) h1
            change Filled env.ret ((callP [] (.z2 a (i + 1) e env)).interp H (run H n) { s1 with held := s.held }).2
            change Filled env.ret ((Prog.call [] (.z2 a (i + 1) e env) _).interp H (run H n) { s1 with held := s.held }).2
            simp only [Prog.interp]
            simp only [St.hold] at h2
            rcases hq : run H n (.z2 a (i + 1) e env) { s1 with held := [] ++ s.held } with ⟨y | _ | _, s2⟩ <;>
              rw [hq] at h2 <;> exact h2
        · rw [hres] at h1; exact h1
        · rw [hres] at h1; exact h1
    · unfold z2P
      rw [if_neg hi]
      exact h

theorem codes_filled {ovf : Bool} {argv : List Str} {a : List Code} (ha : ∀ x ∈ a, x.IsRem) (n : Nat) {i e : Nat} {env : Env} {s : St}
    (hr : Reached H ovf argv (.codes a i e env) s) (h : Filled env.ret s) :
    Filled env.ret (run H n (.codes a i e env) s).2 := by
  cases n with
  | zero => exact h
  | succ n =>
    have h1 := z2_filled ha n (.step n hr (.inl ⟨rfl, rfl⟩)) h
    change Filled env.ret ((Prog.call [] _ _).interp H (run H n) s).2
    simp only [Prog.interp]
    simp only [St.hold] at h1
    rcases hq : run H n (.z2 a i (min e a.length) env) { s with held := [] ++ s.held } with ⟨y | _ | _, s2⟩ <;>
      rw [hq] at h1
    · dsimp only [Prog.bind]
      cases y.r <;> exact h1
    · exact h1
    · exact h1

/-- Evaluating annotations by themselves crashes only inside. -/
theorem own_remsP {ovf : Bool} {argv : List Str} {c : Call} {f : List Str → E _root_.Unit} {env : Env} {rems : List Code} {s : St}
    {n : Nat} (hr : Reached H ovf argv c s) (he : evalF c = resE (remsP rems env >>= f)) (ha : ∀ x ∈ rems, x.IsRem)
    (hp : ((remsP rems env).run.interp H (run H n) s).1 = .panic) :
    ∃ c' t, Calls H (run H n) (remsP rems env).run s c' t ∧ (run H n c' t).1 = .panic := by
  have hcall : ∀ c' t, Calls H (run H n) (remsP rems env).run s c' t → Reached H ovf argv c' t :=
    fun c' t hc => .step n hr (he ▸ calls_resE (callsE_left hc))
  unfold remsP at hp hcall ⊢
  rcases bindE_panic hp with h | ⟨r3, s1, h1, h⟩
  · cases h
  · cases h1
    rcases bindE_panic h with h | ⟨_, s2, h2, h⟩
    · cases h
    · have hs2 : Filled s.nlist s2 := by
        cases h2
        simp [Filled, upd, RList.add]
      have hcall : ∀ c' t, Calls H (run H n) _ s2 c' t → Reached H ovf argv c' t :=
        fun c' t hc => hcall c' t (callsE_right (a := s.nlist) rfl (callsE_right h2 hc))
      suffices ∃ c' t, Calls H (run H n) _ s2 c' t ∧ (run H n c' t).1 = .panic by
        obtain ⟨c', t, hc, ht⟩ := this
        exact ⟨c', t, callsE_right (a := s.nlist) rfl (callsE_right h2 hc), ht⟩
      have h3 := codes_filled ha n (hcall _ _ (.inl ⟨rfl, rfl⟩)) hs2
      rcases bindE_panic h with h | ⟨_, s3, h4, h⟩
      · refine ⟨_, _, .inl ⟨rfl, rfl⟩, ?_⟩
        change ((Prog.call [] _ _).interp H (run H n) s2).1 = _ at h
        simp only [Prog.interp] at h
        simp only [St.hold]
        generalize run H n _ { s2 with held := [] ++ s2.held } = x at h ⊢
        rcases x with ⟨x | _ | _, s3⟩
        · cases h
        · rfl
        · cases h
      · exfalso
        have h5 : Filled s.nlist s3 := by
          change (Prog.call [] _ _).interp H (run H n) s2 = _ at h4
          simp only [Prog.interp] at h4
          simp only [St.hold] at h3
          generalize run H n _ { s2 with held := [] ++ s2.held } = x at h4 h3
          rcases x with ⟨x | _ | _, s4⟩
          · have := congrArg Prod.snd h4
            change { s4 with held := s2.held } = s3 at this
            subst this
            exact h3
          · cases h4
          · cases h4
        rcases bindE_panic h with h | ⟨_, s4, h6, h⟩
        · cases h
        · cases h6
          have : ∃ i, (s3.lists s.nlist).last? = some i := by
            unfold Filled at h5
            exact ⟨_, List.getLast?_eq_some_getLast h5⟩
          obtain ⟨i, e⟩ := this
          rw [e] at h
          cases h

theorem isRem_of_note {x : Code} (h : Spec.isNote x = true) : x.IsRem := by
  cases x <;> first | trivial | cases h

theorem own_for (hH : HostOk H) {ovf : Bool} {argv : List Str} {n : Nat} {b : Bool} {cnt : Cnt} {rems codes : List Code}
    {env : Env} {s : St} (hr : Reached H ovf argv (.item (.for_ b cnt rems codes) env) s) (h0 : ∀ l, WeakWF (s.lists l))
    (hp : (run H (n + 1) (.item (.for_ b cnt rems codes) env) s).1 = .panic) :
    Cause H (.item (.for_ b cnt rems codes) env) s ∨
      ∃ c t, Calls H (run H n) (evalF (.item (.for_ b cnt rems codes) env)) s c t ∧ (run H n c t).1 = .panic := by
  have ha : ∀ x ∈ rems, x.IsRem := by
    have := C77_run hr _ (List.mem_singleton.2 rfl)
    cases this
    exact fun x hx => isRem_of_note ((by assumption : ∀ x ∈ rems, Spec.isNote x = true) x hx)
  refine .inr ?_
  rcases bindE_panic (resE_panic hp) with h | ⟨v, s1, h1, h⟩
  · obtain ⟨c, t, hc, ht⟩ := own_remsP hr rfl ha h
    exact ⟨c, t, calls_resE (callsE_left hc), ht⟩
  · have hw : ∀ l, WeakWF (s1.lists l) :=
      noown_weak hH h0 (c0 := .item (.for_ b cnt rems codes) env) (B := True) (m_remsP trivial) h1
    obtain ⟨c, t, hc, ht⟩ := noown hH (c0 := .item (.for_ b cnt rems codes) env) (Q := fun _ => True) hw (by
      show TE H s1 _ False _
      dsimp only
      tame) id h
    exact ⟨c, t, calls_resE (callsE_right h1 hc), ht⟩

theorem own_jie (hH : HostOk H) {ovf : Bool} {argv : List Str} {n : Nat} {rems a : List Code}
    {env : Env} {s : St} (hr : Reached H ovf argv (.item (.jie rems a) env) s) (h0 : ∀ l, WeakWF (s.lists l))
    (hp : (run H (n + 1) (.item (.jie rems a) env) s).1 = .panic) :
    Cause H (.item (.jie rems a) env) s ∨
      ∃ c t, Calls H (run H n) (evalF (.item (.jie rems a) env)) s c t ∧ (run H n c t).1 = .panic := by
  have ha : ∀ x ∈ rems, x.IsRem := by
    have := C77_run hr _ (List.mem_singleton.2 rfl)
    cases this
    exact fun x hx => isRem_of_note ((by assumption : ∀ x ∈ rems, Spec.isNote x = true) x hx)
  refine .inr ?_
  by_cases he : rems = []
  · subst he
    have : Tm H s (.item (.jie [] a) env) False (evalF (.item (.jie [] a) env)) fun _ => True :=
      Tm.resE (m_jieP fun h => h rfl)
    exact noown hH h0 this id hp
  · have e : evalF (.item (.jie rems a) env) = resE (remsP rems env >>= fun rs =>
        hello [] a { env with gd := { env.gd with jie := if rs.flatten.isEmpty then c!"1" else rs.flatten } }) := by
      cases rems with
      | nil => exact (he rfl).elim
      | cons x xs => rfl
    change ((evalF (.item (.jie rems a) env)).interp H (run H n) s).1 = _ at hp
    rw [e] at hp ⊢
    rcases bindE_panic (resE_panic hp) with h | ⟨v, s1, h1, h⟩
    · obtain ⟨c, t, hc, ht⟩ := own_remsP hr e ha h
      exact ⟨c, t, calls_resE (callsE_left hc), ht⟩
    · have hw : ∀ l, WeakWF (s1.lists l) :=
        noown_weak hH h0 (c0 := .item (.jie rems a) env) (B := True) (m_remsP trivial) h1
      obtain ⟨c, t, hc, ht⟩ := noown hH (c0 := .item (.jie rems a) env) (Q := fun _ => True) hw tE_hello id h
      exact ⟨c, t, calls_resE (callsE_right h1 hc), ht⟩

/-! ## All evaluations -/

theorem reached_sane {ovf : Bool} {argv : List Str} {c : Call} {s : St} (hr : Reached H ovf argv c s) : Sane c s := by
  obtain ⟨C, hok, he, -⟩ := reached_frame hr
  exact ⟨fun env h => (he env h).ret.1, hok.held⟩

/-- An evaluation that crashes is in a situation of `Cause`, or an evaluation it needs crashes. -/
theorem own_cause (hH : HostOk H) {ovf : Bool} {argv : List Str} {n : Nat} {c : Call} {s : St} (hr : Reached H ovf argv c s)
    (hf : c.Fit) (h0 : ∀ l, WeakWF (s.lists l)) (hp : (run H (n + 1) c s).1 = .panic) : Cause H c s ∨
      ∃ c' t, Calls H (run H n) (evalF c) s c' t ∧ (run H n c' t).1 = .panic := by
  by_cases hl : c.Loads ∧ ∃ f t, DoesOp H (run H n) (evalF c) s (.read f) t ∧ ∃ text, H.read t.trace f = .ok text ∧ BadFirstLine text
  · obtain ⟨hl, f, t, h1, text, h2, h3⟩ := hl
    exact .inl (.line hl h1 h2 h3)
  have key : (Own c s ∨ c.Special ∨ ¬ Sane c s) ∨ (∃ o t, DoesOp H (run H n) (evalF c) s o t ∧ o.Blocked H t ∧ t.held = s.held) ∨
      ∃ c' t, Calls H (run H n) (evalF c) s c' t ∧ (run H n c' t).1 = .panic := by
    by_cases hc : c.Loads
    · have hg := guard_interp (H := H) (rec := run H n) (p := evalF c) (s := s) fun f t hd text hr hb => hl ⟨hc, f, t, hd, text, hr, hb⟩
      have key := (tm_interp (guard_ok hH) (recOk0 hH n) (tame (H := H.guard) c s hf h0) (Since.empty h0)).2.2.1
      rw [interp_open1, hg.1] at key
      rcases key hp with ((h | h | h | ⟨-, t, p, text, h1, h2⟩) | ⟨o, t, hd, hb, ht, -⟩) | ⟨c', t, hc, ht⟩
      · exact .inl (.inl h)
      · exact .inl (.inr (.inl h))
      · exact .inl (.inr (.inr h))
      · exact absurd h2 (guard_read h1)
      · exact .inr (.inl ⟨o, t, hg.2.1 _ _ (doesOp_open1 hd), hb, ht⟩)
      · exact .inr (.inr ⟨c', t, hg.2.2 _ _ ((calls_open1 _ _ _ _ _).1 hc), ht⟩)
    · have key := (tm_interp hH (recOk0 hH n) (tame (H := H) c s hf h0) (Since.empty h0)).2.2.1
      rw [interp_open1] at key
      rcases key hp with ((h | h | h | h) | ⟨o, t, hd, hb, ht, -⟩) | ⟨c', t, hc, ht⟩
      · exact .inl (.inl h)
      · exact .inl (.inr (.inl h))
      · exact .inl (.inr (.inr h))
      · exact absurd h.1 hc
      · exact .inr (.inl ⟨o, t, doesOp_open1 hd, hb, ht⟩)
      · exact .inr (.inr ⟨c', t, (calls_open1 _ _ _ _ _).1 hc, ht⟩)
  rcases key with (h | h | h) | ⟨o, t, hd, hb, ht⟩ | ⟨c', t, hc, ht⟩
  · exact .inl (.own h)
  · cases c with
    | item c env =>
      cases c with
      | for_ => exact own_for hH hr h0 hp
      | jie => exact own_jie hH hr h0 hp
      | modFree => exact own_modFree hH h0 hp
      | expl => exact own_expl hH h0 hp
      | _ => exact h.elim
    | _ => exact h.elim
  · exact (h (reached_sane hr)).elim
  · rcases hb with ⟨src, rfl, h1, h2⟩ | ⟨q, h1, h2⟩ | ⟨q, d, k, rfl, h1, h2⟩
    · exact .inl (.text hd h1 h2)
    · exact .inl (.scope hd h1 (ht ▸ h2))
    · exact .inl (.definition hd h1 (ht ▸ h2))
  · exact .inr ⟨c', t, hc, ht⟩

theorem crash_cause (hH : HostOk H) {ovf : Bool} {argv : List Str} (n : Nat) {c : Call} {s : St} (hr : Reached H ovf argv c s)
    (hf : c.Fit) (h0 : ∀ l, WeakWF (s.lists l)) (hp : (run H n c s).1 = .panic) :
    ∃ c' s', Happens H n c s c' s' ∧ Cause H c' s' ∧ ∃ m, (run H m c' s').1 = .panic := by
  induction n generalizing c s with
  | zero => cases hp
  | succ n ih =>
    rcases own_cause hH hr hf h0 hp with h | ⟨c', t, hc, ht⟩
    · exact ⟨c, s, .self n c s, h, n + 1, hp⟩
    · have := (tm_interp hH (recOk0 hH n) (tame (H := H) c s hf h0) (Since.empty h0)).2.2.2 c' t
        ((calls_open1 _ _ _ _ _).2 hc)
      obtain ⟨c2, s2, h1, h2⟩ := ih (.step n hr hc) this.1 this.2.1 ht
      exact ⟨c2, s2, .step hc h1, h2⟩

end Zh
