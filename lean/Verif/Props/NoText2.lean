import Verif.Props.NoText
import Verif.Props.FirstLine
/-!
# C78: scripts that run no text do not crash (the interpreter as a whole)
-/
namespace Zh

variable {α β : Type} {H : Host} {bad : Code → Bool}

/-! ## The start -/

/-- If the program crashes, then in a call as `K`. -/
def Blame (H : Host) (n : Nat) (K : Call → Prop) (p : Prog α) (s : St) : Prop :=
  (p.interp H (run H n) s).1 = .panic → ∃ c t, K c ∧ Calls H (run H n) p s c t ∧ (run H n c t).1 = .panic

abbrev BlameE (H : Host) (n : Nat) (K : Call → Prop) (p : E α) (s : St) : Prop := Blame H n K p.run s

variable {n : Nat} {K : Call → Prop}

theorem blame_bind {p : Prog α} {f : α → Prog β} {s : St} (h : Blame H n K p s)
    (hf : ∀ a s1, Ev H (Evals H) p s a s1 → Blame H n K (f a) s1) : Blame H n K (p >>= f) s := by
  intro hp
  change ((p.bind f).interp H (run H n) s).1 = .panic at hp
  rw [interp_bind] at hp
  rcases hx : p.interp H (run H n) s with ⟨x, s1⟩
  rw [hx] at hp
  cases x with
  | ok a =>
    obtain ⟨c, t, h1, h2, h3⟩ := hf a s1 (ev_of_interp (fun _ _ _ _ h => ⟨n, h⟩) hx) hp
    exact ⟨c, t, h1, calls_bind_right hx h2, h3⟩
  | panic =>
    obtain ⟨c, t, h1, h2, h3⟩ := h (by rw [hx])
    exact ⟨c, t, h1, calls_bind_left h2, h3⟩
  | fuel => cases hp

theorem blame_of_ev {p : Prog α} {s s' : St} {a : α} (h : Ev H (Evals H) p s a s') : Blame H n K p s :=
  fun hp => absurd hp (safe_of_ev h)

theorem blame_pure {a : α} {s : St} : Blame H n K (pure a) s := blame_of_ev (ev_pure.2 ⟨rfl, rfl⟩)

theorem blameE_bind {p : E α} {f : α → E β} {s : St} (h : BlameE H n K p s)
    (hf : ∀ a s1, EvE H (Evals H) p s (.ok a) s1 → BlameE H n K (f a) s1) : BlameE H n K (p >>= f) s := by
  refine blame_bind (f := _) h fun a s1 h1 => ?_
  cases a with
  | ok a => exact hf a s1 h1
  | error e => exact blame_pure

theorem blameE_lift {p : Prog α} {s : St} (h : Blame H n K p s) : BlameE H n K (liftM p : E α) s :=
  blame_bind (f := _) h fun _ _ _ => blame_pure

theorem blameE_of_ev {p : E α} {s s' : St} {a : Except Err α} (h : EvE H (Evals H) p s a s') : BlameE H n K p s := blame_of_ev h

theorem blame_callE {c : Call} {s : St} (h : K c) : BlameE H n K (callE [] c) s := by
  refine blameE_bind (blameE_lift ?_) fun _ _ _ => blame_pure
  intro hp
  have e : s.hold [] = s := rfl
  refine ⟨c, s, h, .inl ⟨rfl, e⟩, ?_⟩
  unfold callP at hp
  simp only [Prog.interp] at hp
  have e : ({ s with held := [] ++ s.held } : St) = s := rfl
  rw [e] at hp
  rcases hx : run H n c s with ⟨x | _ | _, s1⟩
  · rw [hx] at hp; cases hp
  · rfl
  · rw [hx] at hp; cases hp

open Spec in
/-- If the interpreter crashes, then in the evaluation of the script. -/
theorem main_blame {ovf : Bool} {shl : Str} {a : List Str} {opts : List CliOpt} {src : Str} {ws : List Str}
    (hl : CliLine (shl :: a) opts src ws)
    (h : ∀ i j s1, Begun (topScope ((St.init ovf).scopes 0) shl i j) s1 → (s1.scopes 1).src = src →
      (s1.srcIsFile = false ↔ CliOpt.isCode ∈ opts) → BlameE H n K ((if s1.srcIsFile then do
        let _ ← (okSrcP src true 1 : Prog Bool)
        let s ← (getSt : Prog St)
        src2P (s.scopes 1).src 1
      else pure src : E Str) >>= fun t => callE [] (.src t Env.init)) s1) :
    BlameE H n K (mainP (shl :: a)) (St.init ovf) := by
  obtain ⟨s1, h1, h2, h3, h4, h5⟩ := clpars_line (H := H) (R := Evals H) ovf hl
  obtain ⟨b1, b2⟩ := (begun_init ovf).clpars ((h1 _ _).2 ⟨rfl, rfl⟩)
  have b2 : s1.shl = shl := b2
  obtain ⟨s2, g1, b3, g4, g5, g6⟩ := b1.topVal (H := H) c!"外壳" s1.shl
  obtain ⟨s3, k1, b4, k4, k5, k6⟩ := b3.topVal (H := H) c!"窗口" c!"linux"
  rw [b2] at b4
  have key := h s1.nitem s2.nitem s3 b4 (by rw [k4, g4, h4]) (by rw [k5, g5, h5])
  unfold mainP
  refine blameE_bind (blameE_of_ev ((h1 _ _).2 ⟨rfl, rfl⟩)) fun u t1 e1 => ?_
  obtain ⟨-, rfl⟩ := (h1 _ _).1 e1
  refine blameE_bind (blameE_lift (blame_of_ev (ev_getSt.2 ⟨rfl, rfl⟩))) fun t t1 e1 => ?_
  obtain ⟨y, hy, e1⟩ := evE_lift.1 e1
  cases hy
  obtain ⟨e2, e3⟩ := ev_getSt.1 e1
  rw [e2, e3]
  refine blameE_bind (blameE_lift (blame_of_ev ((g1 _ _).2 ⟨rfl, rfl⟩))) fun u t2 e1 => ?_
  obtain ⟨y, -, e1⟩ := evE_lift.1 e1
  obtain ⟨-, rfl⟩ := (g1 _ _).1 e1
  refine blameE_bind (blameE_lift (blame_of_ev ((k1 _ _).2 ⟨rfl, rfl⟩))) fun u t2 e1 => ?_
  obtain ⟨y, -, e1⟩ := evE_lift.1 e1
  obtain ⟨-, rfl⟩ := (k1 _ _).1 e1
  dsimp only
  rw [h4, ← g5, ← k5]
  exact key

/-! ## What is left of the causes -/

/-- The crash of an `算术`. -/
def Spec.SumCrash (H : Host) (n : Nat) (argv : List Str) : Prop :=
  ∃ a env s m v s', HappensMain H n false argv (.item (.expl a) env) s ∧
    (helloVec a env).run.interp H (run H m) s = (.ok (.ok v), s') ∧ Spec.BadSum H v

/-- The crash of a `存在`. -/
def Spec.HasCrash (H : Host) (n : Nat) (argv : List Str) : Prop :=
  ∃ l equ env s it a r b, HappensMain H n false argv (.get l true equ env) s ∧ it ∈ l ∧ s.items it.ref = a ++ UP :: r :: b ∧
    nameScan s true env.inq l [] [] false env.q = .panic

theorem sf_doesOp {T : Str → Prop} {rec : Call → St → Out Res × St} (hT : ∀ x, T x → Spec.TextWithout bad x)
    (hr : ∀ c s, c.Ok bad T → Still bad s → Still bad (rec c s).2) {p : Prog α} {Q : α → Prop} {s : St} (h : Sf bad T p Q) (hs : Still bad s)
    {o : Op} {t : St} (hd : DoesOp H rec p s o t) : o.May bad T := by
  induction p generalizing s with
  | ret a => exact hd.elim
  | panic => exact hd.elim
  | op o0 k ih =>
    obtain ⟨h1, h2⟩ := still_op (H := H) hT h.1 hs
    rcases hd with ⟨rfl, -⟩ | ⟨a, s1, ho, hd⟩
    · exact h.1
    · rw [ho] at h1
      exact ih a (h.2 a (h2 a s1 ho)) h1 hd
  | call hd' c0 k ih =>
    obtain ⟨⟨rfl, hok⟩, h2⟩ := h
    obtain ⟨r, s', e, hd⟩ := hd
    have h3 := hr c0 s hok hs
    have e2 : s.hold [] = s := rfl
    rw [e2] at e
    rw [e] at h3
    refine ih r (h2 r) ?_ hd
    exact ⟨h3.defs, h3.args, h3.nlist, hs.held, h3.cache, h3.ovf, h3.plain⟩

theorem cause_left {T : Str → Prop} (hb : ∀ c, Spec.runsText c = true → bad c = true) (hW : ∀ x, T x → Spec.TextWithout bad x)
    (hT : ∀ x, T x → parse x ≠ .panic) {c : Call} {s : St}
    (hc : c.Ok bad T) (hs : Still bad s) (h : Cause H c s) :
    (∃ a env m v s', c = .item (.expl a) env ∧ bad (.expl a) = false ∧
      (helloVec a env).run.interp H (run H m) s = (.ok (.ok v), s') ∧ Spec.BadSum H v) ∨
    (∃ l equ env it a r b, c = .get l true equ env ∧ (∃ x, bad (.has x) = false) ∧ it ∈ l ∧ s.items it.ref = a ++ UP :: r :: b ∧
      nameScan s true env.inq l [] [] false env.q = .panic) := by
  have no : ∀ {i : Code} {env : Env}, Call.Ok bad T (.item i env) → Spec.runsText i = true → False := by
    intro i env h hr
    have h1 := h.1 i (List.mem_singleton.2 rfl) i .self
    rw [hb i hr] at h1
    cases h1
  cases h with
  | text h1 h2 _ => exact absurd h2 (hT _ (sf_doesOp hW (still_run hb hW _) (f_evalF hb hc) hs h1))
  | own h =>
    cases h with
    | @ownArgs c env s q h1 h2 h3 =>
      have : 2 ≤ env.ret := by
        cases c <;> simp only [Call.env, Option.some.injEq] at h2 <;> (try subst h2) <;> first | exact hc.2 | exact hc.elim
      exact absurd (hs.args q) (by omega)
    | overflow h1 h2 => rw [hs.ovf] at h2; cases h2
    | up h1 h2 h3 => exact .inr ⟨_, _, _, _, _, _, _, rfl, hc.1 rfl, h1, h2, h3⟩
  | scope _ _ h2 => rw [hs.held] at h2; cases h2
  | definition _ _ h2 => rw [hs.held] at h2; cases h2
  | arithmetic h1 h2 => exact .inl ⟨_, _, _, _, _, rfl, hc.1 _ (List.mem_singleton.2 rfl) _ .self, h1, h2⟩
  | free => exact (no hc rfl).elim
  | line hl =>
    exfalso
    unfold Call.Loads at hl
    split at hl
    · exact no hc rfl
    · exact hl

/-! ## The state in which the script starts -/

/-- As `Sf`, but what is called last may be anything. -/
def Lastly (bad : Code → Bool) (T : Str → Prop) : Prog α → Prop
  | .ret _ => True
  | .panic => True
  | .op o k => o.May bad T ∧ ∀ r, o.Gives bad r → Lastly bad T (k r)
  | .call hd c k => hd = [] ∧ ((c.Ok bad T ∧ ∀ r, Lastly bad T (k r)) ∨ ∀ r, ∃ x, k r = .ret x)

theorem Lastly.bind {T : Str → Prop} {p : Prog α} {f : α → Prog β} (h : S bad T p) (hf : ∀ a, Lastly bad T (f a)) : Lastly bad T (p >>= f) := by
  change Lastly bad T (p.bind f)
  induction p with
  | ret a => exact hf a
  | panic => trivial
  | op o k ih => exact ⟨h.1, fun a ha => ih a (h.2 a ha)⟩
  | call hd c k ih => exact ⟨h.1.1, .inl ⟨h.1.2, fun r => ih r (h.2 r)⟩⟩

theorem Lastly.bindE {T : Str → Prop} {p : E α} {f : α → E β} (h : SE bad T p) (hf : ∀ a, Lastly bad T (f a).run) : Lastly bad T (p >>= f).run := by
  change Lastly bad T (p.run >>= _)
  refine Lastly.bind h fun a => ?_
  cases a with
  | ok a => exact hf a
  | error e => trivial

theorem lastly_mainP {T : Str → Prop} {argv : List Str} : Lastly bad T (mainP argv).run := by
  unfold mainP
  refine Lastly.bindE f_clparsP fun _ => Lastly.bindE (by sf) fun s => Lastly.bindE (SE.lift f_topVal) fun _ => Lastly.bindE (SE.lift f_topVal) fun _ =>
    Lastly.bindE (by sf) fun t => ?_
  exact ⟨rfl, .inr fun r => by cases r; rename_i x; cases x <;> exact ⟨_, rfl⟩⟩

theorem lastly_calls {T : Str → Prop} {rec : Call → St → Out Res × St} (hT : ∀ x, T x → Spec.TextWithout bad x)
    (hr : ∀ c s, c.Ok bad T → Still bad s → Still bad (rec c s).2) {p : Prog α} {s : St} (h : Lastly bad T p) (hs : Still bad s) {c : Call} {t : St}
    (hc : Calls H rec p s c t) : Still bad t := by
  induction p generalizing s with
  | ret a => exact hc.elim
  | panic => exact hc.elim
  | op o k ih =>
    obtain ⟨h1, h2⟩ := still_op (H := H) hT h.1 hs
    obtain ⟨a, s1, ho, hc⟩ := hc
    rw [ho] at h1
    exact ih a (h.2 a (h2 a s1 ho)) h1 hc
  | call hd c0 k ih =>
    obtain ⟨rfl, h⟩ := h
    rcases hc with ⟨rfl, rfl⟩ | ⟨r, s', e, hc⟩
    · exact hs
    · rcases h with ⟨h1, h2⟩ | h
      · have h3 := hr c0 s h1 hs
        have e2 : s.hold [] = s := rfl
        rw [e2] at e
        rw [e] at h3
        refine ih r (h2 r) ?_ hc
        exact ⟨h3.defs, h3.args, h3.nlist, hs.held, h3.cache, h3.ovf, h3.plain⟩
      · obtain ⟨x, hx⟩ := h r
        rw [hx] at hc
        exact hc.elim

theorem noText (hH : HostOk H) (hb : ∀ c, Spec.runsText c = true → bad c = true) {T : Str → Prop}
    (hT : ∀ x, T x → Spec.TextWithout bad x ∧ parse x ≠ .panic) {n : Nat} {argv : List Str}
    (hm : BlameE H n (fun c => ∃ x, T x ∧ c = .src x Env.init) (mainP argv) (St.init false))
    (hp : (runMain H n false argv).1 = .panic) :
    ((∃ a, bad (.expl a) = false) ∧ Spec.SumCrash H n argv) ∨ ((∃ a, bad (.has a) = false) ∧ Spec.HasCrash H n argv) := by
  obtain ⟨_, t, ⟨x, hx, rfl⟩, hc, hr⟩ := hm hp
  have h0 : ∀ l, Spec.WeakWF ((St.init false).lists l) := fun _ => WeakWF_empty
  have key := (tm_interp hH (recOk0 hH n) (m_mainP (H := H) (s0 := St.init false) (c0 := .codes [] 0 0 Env.init) (argv := argv) rfl)
    (Since.refl h0)).2.2.2 _ t hc
  obtain ⟨c', s', h1, h2, -⟩ := crash_cause hH n (.main n hc) key.1 key.2.1 hr
  have st : Still bad t := lastly_calls (fun x h => (hT x h).1) (still_run hb (fun x h => (hT x h).1) n) lastly_mainP still_init hc
  obtain ⟨h3, h4⟩ := still_happens hb (fun x h => (hT x h).1) h1 ⟨hx, Nat.le_refl _⟩ st
  rcases cause_left hb (fun x h => (hT x h).1) (fun x h => (hT x h).2) h3 h4 h2 with ⟨a, env, m, v, s2, rfl, g1, g2, g3⟩ | ⟨l, equ, env, it, a, r, b, rfl, g1, g2, g3⟩
  · exact .inl ⟨⟨a, g1⟩, a, env, _, m, v, s2, ⟨_, t, hc, h1⟩, g2, g3⟩
  · exact .inr ⟨g1, l, equ, env, _, it, a, r, b, ⟨_, t, hc, h1⟩, g2, g3⟩

open Spec in
theorem blame_code {ovf : Bool} {T : Str → Prop} {shl : Str} {a : List Str} {opts : List CliOpt} {src : Str} {ws : List Str}
    (hl : CliLine (shl :: a) opts src ws) (hc : CliOpt.isCode ∈ opts) (hT : T src) :
    BlameE H n (fun c => ∃ x, T x ∧ c = .src x Env.init) (mainP (shl :: a)) (St.init ovf) := by
  refine main_blame hl fun i j s1 h1 h2 h3 => ?_
  rw [h3.2 hc]
  exact blame_callE ⟨src, hT, rfl⟩

open Spec in
theorem blame_file {ovf : Bool} {T : Str → Prop} {shl src : Str} {a : List Str} {opts : List CliOpt} {ws : List Str}
    (hl : CliLine (shl :: a) opts src ws) (hc : CliOpt.isCode ∉ opts)
    (hf : ∀ tr f, (f = src ∨ ∃ p, H.fileName p src = some f) → ∀ t, H.read tr f = .ok t → ¬ BadFirstLine t ∧ ∀ b, Unhashed t b → T b) :
    BlameE H n (fun c => ∃ x, T x ∧ c = .src x Env.init) (mainP (shl :: a)) (St.init ovf) := by
  refine main_blame hl fun i j s0 h1 h2 h3 => ?_
  have h3 : s0.srcIsFile = true := by
    cases e : s0.srcIsFile
    · exact absurd (h3.1 e) hc
    · rfl
  obtain ⟨b, s1, g1, g2, g3⟩ := det_okSrc (H := H) (R := Evals H) h1.held h2
  have hd : ∀ tr t, H.read tr (s1.scopes 1).src = .ok t → ¬ BadFirstLine t ∧ ∀ b, Unhashed t b → T b := fun tr => by
    refine hf _ _ ?_
    rcases g3 with g3 | ⟨p, -, g3⟩
    · exact .inl g3
    · exact .inr ⟨p, g3⟩
  rw [h3]
  have e : ∀ r s', EvE H (Evals H) (do
      let _ ← (okSrcP src true 1 : Prog Bool)
      let s ← (getSt : Prog St)
      src2P (s.scopes 1).src 1 : E Str) s0 r s' ↔ EvE H (Evals H) (src2P (s1.scopes 1).src 1) s1 r s' := by
    intro r s'
    rw [g1.evE_bind, evE_getSt_bind]
  obtain ⟨r, s2, h7⟩ := np_interp (H := H) (rec := run H 0) (np_src2P (q := 1) fun tr t h => (hd tr t h).1) (g2.held.trans h1.held)
  have h8 : EvE H (Evals H) (src2P (s1.scopes 1).src 1) s1 r s2 := ev_of_interp (fun _ _ _ _ h => ⟨0, h⟩) h7
  refine blameE_bind (blameE_of_ev ((e _ _).2 h8)) fun b s3 h9 => ?_
  obtain ⟨t, ht, hb⟩ := body_of_ev ((e _ _).1 h9)
  exact blame_callE ⟨b, (hd _ t ht).2 b hb, rfl⟩

/-- `算术` and `存在`. -/
def Spec.sumOrHas : Code → Bool
  | .expl _ | .has _ => true
  | _ => false

open Spec in
/-- **C78.**  A script given as code on the command line that runs no text crashes, in a release build, only in an `算术` or a `存在`. -/
theorem C78_code (hH : HostOk H) {shl : Str} {a : List Str} {opts : List CliOpt} {src : Str} {ws : List Str}
    (hl : CliLine (shl :: a) opts src ws) (hc : CliOpt.isCode ∈ opts) (hp : parse src ≠ .panic) (ht : TextWithout runsText src) :
    ∀ n, (runMain H n false (shl :: a)).1 = .panic → SumCrash H n (shl :: a) ∨ HasCrash H n (shl :: a) := by
  intro n h
  rcases noText hH (fun _ h => h) (T := fun x => TextWithout runsText x ∧ parse x ≠ .panic) (fun _ h => h) (blame_code hl hc ⟨ht, hp⟩) h with h | h
  · exact .inl h.2
  · exact .inr h.2

open Spec in
/-- **C78.**  The same for a script in a file. -/
theorem C78_file (hH : HostOk H) {shl : Str} {a : List Str} {opts : List CliOpt} {src : Str} {ws : List Str}
    (hl : CliLine (shl :: a) opts src ws) (hc : CliOpt.isCode ∉ opts)
    (hf : ∀ tr f, (f = src ∨ ∃ p, H.fileName p src = some f) → ∀ t, H.read tr f = .ok t →
      ¬ BadFirstLine t ∧ ∀ b, Unhashed t b → parse b ≠ .panic ∧ TextWithout runsText b) :
    ∀ n, (runMain H n false (shl :: a)).1 = .panic → SumCrash H n (shl :: a) ∨ HasCrash H n (shl :: a) := by
  intro n h
  rcases noText hH (fun _ h => h) (T := fun x => TextWithout runsText x ∧ parse x ≠ .panic) (fun _ h => h)
    (blame_file hl hc fun tr f h t ht => ⟨(hf tr f h t ht).1, fun b hb => ⟨((hf tr f h t ht).2 b hb).2, ((hf tr f h t ht).2 b hb).1⟩⟩) h with h | h
  · exact .inl h.2
  · exact .inr h.2

open Spec in
/-- **C78.**  A script that runs no text and uses neither `算术` nor `存在` never crashes: as code on the command line. -/
theorem C78_never_code (hH : HostOk H) {shl : Str} {a : List Str} {opts : List CliOpt} {src : Str} {ws : List Str}
    (hl : CliLine (shl :: a) opts src ws) (hc : CliOpt.isCode ∈ opts) (hp : parse src ≠ .panic)
    (ht : TextWithout (fun c => runsText c || sumOrHas c) src) : ∀ n, (runMain H n false (shl :: a)).1 ≠ .panic := by
  intro n h
  rcases noText hH (bad := fun c => runsText c || sumOrHas c) (fun _ h => by simp [h])
    (T := fun x => TextWithout (fun c => runsText c || sumOrHas c) x ∧ parse x ≠ .panic) (fun _ h => h) (blame_code hl hc ⟨ht, hp⟩) h with
    ⟨⟨_, h⟩, -⟩ | ⟨⟨_, h⟩, -⟩ <;> cases h

open Spec in
/-- **C78.**  And in a file, whether the file can be read or not. -/
theorem C78_never_file (hH : HostOk H) {shl : Str} {a : List Str} {opts : List CliOpt} {src : Str} {ws : List Str}
    (hl : CliLine (shl :: a) opts src ws) (hc : CliOpt.isCode ∉ opts)
    (hf : ∀ tr f, (f = src ∨ ∃ p, H.fileName p src = some f) → ∀ t, H.read tr f = .ok t →
      ¬ BadFirstLine t ∧ ∀ b, Unhashed t b → parse b ≠ .panic ∧ TextWithout (fun c => runsText c || sumOrHas c) b) :
    ∀ n, (runMain H n false (shl :: a)).1 ≠ .panic := by
  intro n h
  rcases noText hH (bad := fun c => runsText c || sumOrHas c) (fun _ h => by simp [h])
    (T := fun x => TextWithout (fun c => runsText c || sumOrHas c) x ∧ parse x ≠ .panic) (fun _ h => h)
    (blame_file hl hc fun tr f h t ht => ⟨(hf tr f h t ht).1, fun b hb => ⟨((hf tr f h t ht).2 b hb).2, ((hf tr f h t ht).2 b hb).1⟩⟩) h with
    ⟨⟨_, h⟩, -⟩ | ⟨⟨_, h⟩, -⟩ <;> cases h

end Zh
