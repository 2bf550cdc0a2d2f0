import Verif.Props.TameOk3
import Verif.Props.Modules
/-!
# C44: where the interpreter can crash

`Cause H c s` lists the situations in which the evaluation `c`, started in the state `s`, can crash by itself.
The main theorem (in `Crash2.lean`) says: when a run of the interpreter crashes, one of the evaluations that happened
in it is in such a situation.
-/
namespace Zh
open Spec

variable {α β : Type} {H : Host}

/-! ## The causes -/

/-- The evaluations that read arguments of a definition or script: `‘参数…’` and variables read by a name that is
computed. -/
def Call.ReadsArgs : Call → Prop
  | .item (.simp ..) _ | .item (.args ..) _ | .item (.argc ..) _ | .item (.argi ..) _ | .get .. => True
  | _ => False

/-- `加载`. -/
def Call.Loads : Call → Prop
  | .item (.eval true ..) _ => True
  | _ => False

/-- An annotation. -/
def Code.IsRem : Code → Prop
  | .rem _ | .remS _ => True
  | _ => False

/-- The words of an `算术`: a text with a remainder sign whose computation crashes, or a number of decimals with which its value
cannot be printed. -/
def Spec.BadSum (H : Host) : List Str → Prop
  | [] => False
  | src :: more => '%' ∈ src ∧ explVal H.f64 Zh.quote src = .panic ∨
      ∃ s2 i x, more.head? = some s2 ∧ parseUsize s2 = some i ∧ explVal H.f64 Zh.quote src = .ok (.ok x) ∧ H.f64.strFixed x i = none

/-- The situations that depend only on the call and the state it starts in. -/
inductive Own : Call → St → Prop
  /-- Arguments are read into the list of arguments itself. -/
  | ownArgs {c : Call} {env : Env} {s : St} {q : Nat} : c.ReadsArgs → c.env = some env →
    (s.scopes q).args = env.ret → Own c s
  /-- Arguments are read in a build with overflow checks. -/
  | overflow {c : Call} {s : St} : c.ReadsArgs → s.ovf = true → Own c s
  /-- `存在` of a name with the annotation `上` followed by another one, and looking at the annotations crashes. -/
  | up {l : List Item} {equ : EquName} {env : Env} {s : St} {it : Item} {a b : List Str} {r : Str} : it ∈ l →
    s.items it.ref = a ++ UP :: r :: b → nameScan s true env.inq l [] [] false env.q = .panic → Own (.get l true equ env) s

/-- The situations in which the evaluation `c` started in `s` can crash by itself. -/
inductive Cause (H : Host) : Call → St → Prop
  /-- It parses a text that crashes the parser (and the code cache has nothing for it). -/
  | text {c : Call} {s t : St} {src : Str} {n : Nat} : DoesOp H (run H n) (evalF c) s (.parse src) t → parse src = .panic →
    t.cache.get H.hash src = none → Cause H c s
  /-- See `Own`. -/
  | own {c : Call} {s : St} : Own c s → Cause H c s
  /-- It borrows a scope mutably that is borrowed. -/
  | scope {c : Call} {s t : St} {o : Op} {q n : Nat} : DoesOp H (run H n) (evalF c) s o t → o.scope? = some q → .scope q ∈ s.held →
    Cause H c s
  /-- It defines again, with the same full name in the same scope, a definition that is borrowed. -/
  | definition {c : Call} {s t : St} {d : Def} {q k n : Nat} : DoesOp H (run H n) (evalF c) s (.setDef q d) t →
    findDefName d.name (t.scopes q).defs = some k → .def_ q k ∈ s.held → Cause H c s
  /-- `算术` of words as in `BadSum`. -/
  | arithmetic {a : List Code} {env : Env} {s s' : St} {n : Nat} {v : List Str} :
    (helloVec a env).run.interp H (run H n) s = (.ok (.ok v), s') → Spec.BadSum H v → Cause H (.item (.expl a) env) s
  /-- `释放模块` that runs the code a module has for this event, and there are fewer modules when it comes back, so that the module is
  not where it was. -/
  | free {a : List Code} {env env' : Env} {s t t' t2 : St} {n i : Nat} {d : Bool} {src : Str} {r : Res} :
    Calls H (run H n) (evalF (.item (.modFree a) env)) s (.src src env') t → run H n (.src src env') t = (.ok r, t') →
    t'.mods.length < t.mods.length ∨ t'.datas.length < t.datas.length →
    DoesOp H (run H n) (evalF (.item (.modFree a) env)) s (.rmMod d i) t2 → (if d then t2.datas else t2.mods).length ≤ i → Cause H (.item (.modFree a) env) s
  /-- `加载` of a file with a `#!` line that cannot be read. -/
  | line {c : Call} {s t : St} {n : Nat} {p text : Str} : c.Loads → DoesOp H (run H n) (evalF c) s (.read p) t →
    H.read t.trace p = .ok text → BadFirstLine text → Cause H c s

/-! ## The first look at the state -/

/-- A program that starts by looking at the state, after it did so. -/
def open1 (s : St) : Prog α → Prog α
  | .op .st k => k s
  | p => p

theorem interp_open1 (rec : Call → St → Out Res × St) (p : Prog α) (s : St) :
    (open1 s p).interp H rec s = p.interp H rec s := by
  unfold open1
  split
  · simp [Prog.interp, Op.run]
  · rfl

theorem calls_open1 (rec : Call → St → Out Res × St) (p : Prog α) (s : St) (c : Call) (t : St) :
    Calls H rec (open1 s p) s c t ↔ Calls H rec p s c t := by
  unfold open1
  split
  · simp [Calls, Op.run]
  · rfl

theorem Tm.open1 {s0 s : St} {c0 : Call} {B : Prop} {p : Prog α} {Q : α → Prop} (h : Tm H s0 c0 B p Q)
    (h0 : Since s0 s) : Tm H s0 c0 B (open1 s p) Q := by
  unfold Zh.open1
  split
  · exact h.2 s h0
  · exact h

/-! ## The causes of each evaluation -/

theorem rem4_panic {σ : Type} {s : St} {inq : Option Nat} {shou : σ → Str → Option σ} {rems : List Str} {q : Option Nat}
    {x : σ} (h : ∀ y, rem4 s true inq shou rems q x ≠ .ok y) : (q = none ∧ ∃ r b, rems = r :: b) ∨
      ∃ a r b, rems = a ++ UP :: r :: b := by
  induction rems generalizing q x with
  | nil => exact (h _ rfl).elim
  | cons r rs ih =>
    cases q with
    | none => exact .inl ⟨rfl, r, rs, rfl⟩
    | some q =>
      unfold rem4 at h
      dsimp only at h
      refine .inr ?_
      cases hz : rem4Z s r true inq q with
      | error e => rw [hz] at h; exact (h _ rfl).elim
      | ok v =>
        rw [hz] at h
        cases v with
        | scope q1 =>
          rcases ih h with ⟨rfl, r', b, rfl⟩ | ⟨a, r', b, rfl⟩
          · have hr : r = UP := by
              unfold rem4Z at hz
              split at hz
              · cases hz
              · split at hz
                · assumption
                · split at hz
                  · split at hz <;> cases hz
                  · split at hz
                    · cases hz
                    · split at hz <;> cases hz
            subst hr
            exact ⟨[], r', b, rfl⟩
          · exact ⟨r :: a, r', b, rfl⟩
        | other =>
          dsimp only at h
          cases hs : shou x r with
          | none => rw [hs] at h; exact (h _ rfl).elim
          | some x' =>
            rw [hs] at h
            rcases ih h with ⟨e, -⟩ | ⟨a, r', b, rfl⟩
            · cases e
            · exact ⟨r :: a, r', b, rfl⟩

theorem nameScan_panic {s : St} {inq : Option Nat} {l : List Item} {n : Str} {r : List Str} {w : Bool} {q : Nat}
    (h : ∀ y, nameScan s true inq l n r w q ≠ .ok y) : ∃ it ∈ l, ∃ a r b, s.items it.ref = a ++ UP :: r :: b := by
  induction l generalizing n r w q with
  | nil => exact (h _ rfl).elim
  | cons it its ih =>
    unfold nameScan at h
    rcases hz : rem4 s true inq
        (fun (x : List Str × Bool) r => some (if r = WITH_NAME then (x.1, true) else (x.1 ++ [r], x.2)))
        (s.items it.ref) (some q) (r, w) with (e | ⟨_ | q', x⟩) | _ | _
    · rw [hz] at h; exact (h _ rfl).elim
    · rw [hz] at h; exact (h _ rfl).elim
    · rw [hz] at h
      obtain ⟨i, hi, h⟩ := ih h
      exact ⟨i, List.mem_cons_of_mem _ hi, h⟩
    all_goals
      rcases rem4_panic (fun y => by rw [hz]; nofun) with ⟨e, -⟩ | h
      · cases e
      · exact ⟨it, List.mem_cons_self, h⟩

theorem rem4_crash {σ : Type} {s : St} {isHas : Bool} {inq : Option Nat} {shou : σ → Str → Option σ} {rems : List Str} {q : Option Nat}
    {x : σ} : rem4 s isHas inq shou rems q x ≠ .fuel := by
  induction rems generalizing q x with
  | nil => nofun
  | cons r rs ih =>
    unfold rem4
    split
    · nofun
    · split
      · nofun
      · exact ih
      · split
        · exact ih
        · nofun

theorem nameScan_crash {s : St} {isHas : Bool} {inq : Option Nat} {l : List Item} {n : Str} {r : List Str} {w : Bool} {q : Nat}
    (h : ∀ y, nameScan s isHas inq l n r w q ≠ .ok y) : nameScan s isHas inq l n r w q = .panic := by
  have key : nameScan s isHas inq l n r w q ≠ .fuel := by
    clear h
    induction l generalizing n r w q with
    | nil => nofun
    | cons it its ih =>
      unfold nameScan
      split
      · nofun
      · nofun
      · exact ih
      · nofun
      · rename_i hf
        exact absurd hf rem4_crash
  cases hx : nameScan s isHas inq l n r w q with
  | ok y => exact absurd hx (h y)
  | panic => rfl
  | fuel => exact absurd hx key

variable {s0 : St} {c0 : Call} {B : Prop}

theorem Tm.resE {p : E Unit} (h : TE H s0 c0 B p) : Tm H s0 c0 B (Zh.resE p) fun _ => True :=
  Tm.bind h fun _ _ => trivial

theorem Since.refl (h0 : ∀ l, WeakWF (s0.lists l)) : Since s0 s0 :=
  ⟨h0, rfl, Nat.le_refl _, Nat.le_refl _, fun _ => .inl rfl⟩

theorem m_get2P_open {s : St} {l : List Item} {isHas : Bool} {equ : EquName} {env : Env} (hA : ArgB s0 B env.ret)
    (hh : ∀ q, .scope q ∈ s0.held → B)
    (hB : isHas = true → ∀ it ∈ l, ∀ a r b, s.items it.ref = a ++ UP :: r :: b →
      nameScan s true env.inq l [] [] false env.q = .panic → B) :
    Tm H s0 c0 B (open1 s (resE (get2P l isHas equ env))) fun _ => True := by
  change Tm H s0 c0 B (Zh.resE (ExceptT.mk (ofOut (nameScan s isHas env.inq l [] [] false env.q)) >>= _)) fun _ => True
  refine Tm.resE (TE.bind_mkOut (fun h => ?_) fun a _ => ?_)
  · cases isHas with
    | true =>
      obtain ⟨it, hi, a, r, b, e⟩ := nameScan_panic h
      exact hB rfl it hi a r b e (nameScan_crash h)
    | false => exact (not_ok (nameScan_fine _ _ _ _ _ _ _) h).elim
  · tame

/-- The statements that need a closer look than `tame` gives. -/
def Call.Special : Call → Prop
  | .item (.for_ ..) _ | .item (.jie ..) _ | .item (.modFree _) _ | .item (.expl _) _ => True
  | _ => False

/-- What is known about a call that happens. -/
structure Sane (c : Call) (s : St) : Prop where
  ret : ∀ env, c.env = some env → env.ret < s.nlist
  held : ∀ q, Held.scope q ∈ s.held → q < s.nscope

/-- What `tame` gives when the evaluation crashes by itself. -/
def Bad (H : Host) (c : Call) (s : St) : Prop :=
  Own c s ∨ c.Special ∨ ¬ Sane c s ∨ c.Loads ∧ ∃ t p text, H.read t p = .ok text ∧ BadFirstLine text

theorem tame (c : Call) (s0 : St) (hf : c.Fit) (h0 : ∀ l, WeakWF (s0.lists l)) :
    Tm H { s0 with held := [] } c (Bad H c s0) (open1 s0 (evalF c)) c.Post := by
  have h0 : Since { s0 with held := [] } s0 := ⟨h0, rfl, Nat.le_refl _, Nat.le_refl _, fun _ => .inl rfl⟩
  have none' : ∀ q, Held.scope q ∈ ({ s0 with held := [] } : St).held → Bad H c s0 := fun q h => nomatch h
  have argB : ∀ env, c.ReadsArgs → c.env = some env → ArgB { s0 with held := [] } (Bad H c s0) env.ret := by
    rintro env hr he s' h' (h | ⟨q, h⟩)
    · exact .inl (.overflow hr (h'.ovf.symm.trans h))
    · rcases h'.args q with e | e
      · exact .inl (.ownArgs hr he (e ▸ h))
      · exact .inr (.inr (.inl fun hs => Nat.not_lt.2 (h ▸ e) (hs.ret env he)))
  cases c with
  | codes a i e env => exact m_codesP.open1 h0
  | z2 a i e env => exact (m_z2P hf).open1 h0
  | z4 a cs end2 end_ env st =>
    by_cases hlt : st.idx2 < end2
    · have := m_z4 (H := H) (s0 := { s0 with held := [] }) (c0 := .z4 a cs end2 end_ env st)
        (B := Bad H (.z4 a cs end2 end_ env st) s0) (s := s0) (fun _ _ => trivial)
        hf hlt trivial
      dsimp only [evalF]
      unfold z4P
      rw [if_pos hlt]
      exact this
    · refine Tm.open1 ?_ h0
      simp only [evalF, z4P, if_neg hlt]
      have fin : ∀ i, (Call.z4 a cs end2 end_ env st).Post { idx := i, idx2 := st.idx2, has := true } :=
        fun _ _ => Nat.not_lt.1 hlt
      split
      · split
        · exact T.bind m_addT fun _ => fin _
        · exact fin _
      · exact fun _ => Nat.not_lt.1 hlt
  | src t env => exact (Tm.resE (m_srcP (c0 := .src t env) trivial)).open1 h0
  | loop r c m u cnt env i hn =>
    exact (m_loopP fun h1 h2 => none' _ h2).open1 h0
  | cond c env st => exact m_condP.open1 h0
  | slave h o e b env => exact m_slaveP.open1 h0
  | get l isHas equ env =>
    refine m_get2P_open (argB env trivial rfl) none' ?_
    rintro rfl it hi a r b e h
    exact .inl (.up hi e h)
  | item c env =>
    refine Tm.open1 (Tm.resE ?_) h0
    cases c with
    | simp name rems => exact m_simpP (argB env trivial rfl)
    | args rems b e line =>
      have hA := argB env trivial rfl
      dsimp only [itemP]
      exact TE.bind m_var1P fun q => TE.lift (m_argsP hA none')
    | argc rems => exact TE.bind m_var1P fun q => TE.lift (m_argcP (argB env trivial rfl))
    | argi rems i => exact TE.bind m_var1P fun q => TE.lift (m_argiP (argB env trivial rfl))
    | for_ => exact m_forP (.inr (.inl trivial))
    | jie => exact m_jieP fun _ => .inr (.inl trivial)
    | modFree a => exact TE.bind m_helloVec fun v => m_modFreeGo (c0 := .item (.modFree a) env) (fun _ => trivial) (.inr (.inl trivial))
    | expl => exact m_explP (.inr (.inl trivial))
    | if_ => exact m_ifP
    | switch => exact m_switchP
    | jump => exact m_jumpP
    | jie2 => exact m_jie2P
    | mod_ => exact m_nameP (none' _)
    | name => exact m_nameP (none' _)
    | set_ => exact m_setP none'
    | «alias» => exact m_setP none'
    | def_ => exact m_defP none' fun q k h => nomatch h
    | eval load cur arg0 iArg0 a sp e =>
      refine m_evalP (c0 := .item (.eval load cur arg0 iArg0 a sp e) env) (fun _ => trivial)
        (fun q h1 _ => none' q h1) ?_ ?_
      · rintro - h
        exact none' _ h
      · rintro t p text rfl h1 h2
        exact .inr (.inr (.inr ⟨trivial, t, p, text, h1, h2⟩))
    | print a => exact m_printP (c0 := .item (.print a) env) fun _ => trivial
    | exec => exact m_execP
    | _ => dsimp only [itemP]; tame

end Zh
