import Verif.Props.Runs
import Verif.Props.World0
import Verif.Props.Reads
import Verif.Props.Print
/-!
# C21 in every run: the cache of a running interpreter
-/
namespace Zh

variable {H : Host}

theorem modScope_cache (s : St) (q : Nat) (f : Scope → Scope) : (s.modScope q f).2.cache = s.cache := by
  unfold St.modScope; split <;> rfl

theorem kept_cache (H : Host) : Kept H fun s s' => Spec.Reach H.hash parse s.cache → Spec.Reach H.hash parse s'.cache where
  refl s := id
  trans h h' := h' ∘ h
  hold s h := id
  op o s := by
    have self : ∀ {s' : St}, s'.cache = s.cache → Spec.Reach H.hash parse s.cache → Spec.Reach H.hash parse s'.cache :=
      fun h h' => h ▸ h'
    cases o with
    | touch q => exact self (modScope_cache ..)
    | setVar q v => exact self (modScope_cache ..)
    | addName q n f => exact self (modScope_cache ..)
    | setSrc q n => exact self (modScope_cache ..)
    | setIsFile q => exact self (modScope_cache ..)
    | setArg0 q n => exact self (modScope_cache ..)
    | clearArgs1 q => exact self (modScope_cache ..)
    | setDef q d =>
      refine self ?_
      simp only [Op.run]
      split
      · split
        · rfl
        · exact modScope_cache ..
      · exact modScope_cache ..
    | argsLine q =>
      refine self ?_
      simp only [Op.run]
      have h := modScope_cache s q fun c =>
        { c with argsTo1 := true, args1 := if (s.scopes q).argsTo1 then (s.scopes q).args1 else
            (s.lists (s.scopes q).args).line .one (s.scopes q).args1 }
      revert h
      generalize s.modScope q _ = x
      intro h
      rcases x with ⟨x, s1⟩
      cases x <;> exact h
    | addMod d q => refine self ?_; simp only [Op.run]; split <;> rfl
    | rmMod d i => refine self ?_; simp only [Op.run]; split <;> split <;> rfl
    | parse src =>
      intro h
      simp only [Op.run]
      split
      · next r c' hc => exact .step h hc
      · exact h
      · exact h
    | _ => exact self rfl

/-- **C21.**  In every run, whatever the program did before, the cache only holds what parses put there. -/
theorem C21_reached {ovf : Bool} {argv : List Str} {c : Call} {s : St} (h : Reached H ovf argv c s) :
    Spec.Reach H.hash parse s.cache :=
  (kept_cache H).reached h .nil

/-- What evaluating a text does when no other text has its hash: nothing but the cache changes, and then the program that the text means
is evaluated, or the report of the parser is the error. -/
theorem evals_src {src : Str} {env : Env} {s : St} (hs : Spec.Reach H.hash parse s.cache)
    (inj : ∀ t, H.hash t = H.hash src → t = src) :
    ∃ c, Spec.Reach H.hash parse c ∧ ∀ x s', Evals H (.src src env) s x s' ↔
      (∃ e, parse src = .ok (.error e) ∧ x = { r := .error e } ∧ s' = { s with cache := c }) ∨
      ∃ codes y, parse src = .ok (.ok codes) ∧
        Evals H (.codes codes 0 usizeMax { env with gd := { du := env.gd.du, jie := env.gd.jie } }) { s with cache := c } y s' ∧
        x = { r := jumpReturn (s'.scopes env.q).i y.r } := by
  have tr := C21_cache_transparent H.hash parse s.cache hs src inj
  have hp : ∀ {r : Except Err Unit} {s' : St}, EvE H (Evals H) (srcP src env) s r s' ↔
      (∃ e c, codesCache H.hash parse s.cache src = .ok (.error e, c) ∧ r = .error e ∧ s' = { s with cache := c }) ∨
      ∃ codes c y, codesCache H.hash parse s.cache src = .ok (.ok codes, c) ∧
        Evals H (.codes codes 0 usizeMax { env with gd := { du := env.gd.du, jie := env.gd.jie } }) { s with cache := c } y s' ∧
        r = jumpReturn (s'.scopes env.q).i y.r := by
    intro r s'
    have run : (Op.parse src).run H s = (match codesCache H.hash parse s.cache src with
      | .ok (r, cache) => (.ok r, { s with cache })
      | .panic => (.panic, s)
      | .fuel => (.fuel, s)) := rfl
    have tail : ∀ codes s1, EvE H (Evals H) (do
          let r ← (callP [] (.codes codes 0 usizeMax { env with gd := { du := env.gd.du, jie := env.gd.jie } }) : Prog Res)
          returnP env.q r.r) s1 r s' ↔
        ∃ y, Evals H (.codes codes 0 usizeMax { env with gd := { du := env.gd.du, jie := env.gd.jie } }) s1 y s' ∧
          r = jumpReturn (s'.scopes env.q).i y.r := by
      intro codes s1
      have ret : ∀ (y : Res) s2, EvE H (Evals H) (returnP env.q y.r) s2 r s' ↔ r = jumpReturn (s2.scopes env.q).i y.r ∧ s' = s2 := by
        intro y s2
        unfold returnP
        rw [evE_getSt_bind, evE_mk]
      rw [evE_lift_bind]
      constructor
      · rintro ⟨y, s2, h1, h2⟩
        obtain ⟨h3, rfl⟩ := (ret y s2).1 h2
        exact ⟨y, ev_callP.1 h1, h3⟩
      · rintro ⟨y, h1, h2⟩
        exact ⟨y, s', ev_callP.2 h1, (ret y s').2 ⟨h2, rfl⟩⟩
    unfold srcP
    rw [evE_bind]
    have pe : ∀ y s1, EvE H (Evals H) (parseE src) s y s1 ↔ (Op.parse src).run H s = (.ok y, s1) := fun y s1 => ev_doOp
    constructor
    · rintro (⟨codes, s1, h1, h2⟩ | ⟨e, h1, rfl⟩)
      · rw [pe, run] at h1
        split at h1
        · next r2 c h3 =>
          obtain ⟨h4, rfl⟩ := Prod.mk.inj h1
          cases h4
          obtain ⟨y, h5, h6⟩ := (tail codes _).1 h2
          exact .inr ⟨codes, c, y, h3, h5, h6⟩
        · cases (Prod.mk.inj h1).1
        · cases (Prod.mk.inj h1).1
      · rw [pe, run] at h1
        split at h1
        · next r2 c h3 =>
          obtain ⟨h4, rfl⟩ := Prod.mk.inj h1
          cases h4
          exact .inl ⟨e, c, h3, rfl, rfl⟩
        · cases (Prod.mk.inj h1).1
        · cases (Prod.mk.inj h1).1
    · rintro (⟨e, c, h1, rfl, rfl⟩ | ⟨codes, c, y, h1, h2, h3⟩)
      · refine .inr ⟨e, (pe _ _).2 ?_, rfl⟩
        rw [run, h1]
      · refine .inl ⟨codes, { s with cache := c }, (pe _ _).2 ?_, (tail _ _).2 ⟨y, h2, h3⟩⟩
        rw [run, h1]
  have ev : ∀ x s', Evals H (.src src env) s x s' ↔ ∃ r, x = { r := r } ∧ EvE H (Evals H) (srcP src env) s r s' := by
    intro x s'
    rw [evals_iff]
    change Ev H (Evals H) (resE (srcP src env)) s x s' ↔ _
    rw [evE_callE']
  obtain ⟨c, hc, hd⟩ : ∃ c, Spec.Reach H.hash parse c ∧ ∀ r c', codesCache H.hash parse s.cache src = .ok (r, c') → c' = c := by
    cases h : codesCache H.hash parse s.cache src with
    | ok y => exact ⟨y.2, .step hs h, fun r c' h => by cases h; rfl⟩
    | panic => exact ⟨_, hs, nofun⟩
    | fuel => exact ⟨_, hs, nofun⟩
  refine ⟨c, hc, fun x s' => ?_⟩
  rw [ev]
  constructor
  · rintro ⟨r, rfl, h⟩
    rcases hp.1 h with ⟨e, c, h1, rfl, h2⟩ | ⟨codes, c, y, h1, h2, rfl⟩
    · cases hd _ _ h1
      exact .inl ⟨e, (tr.1 _).2 ⟨c, h1⟩, rfl, h2⟩
    · cases hd _ _ h1
      exact .inr ⟨codes, y, (tr.1 _).2 ⟨c, h1⟩, h2, rfl⟩
  · rintro (⟨e, h1, rfl, rfl⟩ | ⟨codes, y, h1, h2, rfl⟩)
    · obtain ⟨c', h3⟩ := (tr.1 _).1 h1
      cases hd _ _ h3
      exact ⟨_, rfl, hp.2 (.inl ⟨e, c, h3, rfl, rfl⟩)⟩
    · obtain ⟨c', h3⟩ := (tr.1 _).1 h1
      cases hd _ _ h3
      exact ⟨_, rfl, hp.2 (.inr ⟨codes, c, y, h3, h2, rfl⟩)⟩

/-- **C21.**  In every run, whatever was parsed before: a text (a script, a loaded file, the text of `解释`) that shares its hash with no
other text is evaluated as the program it parses to, or fails with the report of its parse. -/
theorem C21_run_transparent {ovf : Bool} {argv : List Str} {src : Str} {env : Env} {s : St}
    (h : Reached H ovf argv (.src src env) s) (inj : ∀ t, H.hash t = H.hash src → t = src) :
    ∃ c, ∀ x s', Evals H (.src src env) s x s' ↔
      (∃ e, parse src = .ok (.error e) ∧ x = { r := .error e } ∧ s' = { s with cache := c }) ∨
      ∃ codes y, parse src = .ok (.ok codes) ∧
        Evals H (.codes codes 0 usizeMax { env with gd := { du := env.gd.du, jie := env.gd.jie } }) { s with cache := c } y s' ∧
        x = { r := jumpReturn (s'.scopes env.q).i y.r } := by
  obtain ⟨c, -, h⟩ := evals_src (env := env) (C21_reached h) inj
  exact ⟨c, h⟩

end Zh
