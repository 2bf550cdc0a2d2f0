import Verif.Props.Deeper2
import Verif.Props.Crash5
/-!
# C86: a module that releases itself when it is released

The text that runs when a module is released can release the module again: the module is taken out
of the list only after its text has run.  Such a release goes on for ever.
-/
namespace Zh
open Spec

variable {H : Host}

/-- The words of a constant text. -/
theorem helloVec_text (name : Str) (env : Env) (s : St) :
    ((helloVec [.text name] env).run.interp H (run H 5) s).1 = .ok (.ok [name]) := by
  have e : ((helloVec [.text name] env).run.interp H (run H 5) s).1 =
      .ok (.ok ((((helloNew [] [.text name] env).run.interp H (run H 5) s).2.lists s.nlist).toVec)) := rfl
  rw [e]
  have e2 : ((helloNew [] [.text name] env).run.interp H (run H 5) s).2.lists =
      upd (upd s.lists s.nlist .empty) s.nlist ((upd s.lists s.nlist .empty s.nlist).add ⟨s.nitem, .s name⟩) := rfl
  rw [e2]
  simp [upd, RList.toVec, RList.toVec0, RList.toVecGo, RList.add, RList.empty, Val.s3]

theorem step_endless {n : Nat} {c c' : Call} {s t : St} (h : Calls H (run H 5) (evalF c) s c' t) (hc : ∀ m < n, (run H m c' t).1 = .fuel) :
    (run H n c s).1 = .fuel := by
  cases n with
  | zero => rfl
  | succ n => exact calls_endless h (hc n (by omega))

namespace Spec
/-- In the state `s` the modules with the names `P` release each other: each of them exists, the text that runs at its release is not
empty, and the text has been read before: it starts with the release of one of them. -/
def ReleaseCircle (H : Host) (P : Str → Prop) (s : St) : Prop :=
  ∀ name, P name → ∃ d i q next rest, P next ∧ findMod s name = some (d, i, q) ∧ (s.scopes q).onFree ≠ [] ∧
    s.cache.get H.hash (s.scopes q).onFree = some (.modFree [.text next] :: rest)

/-- The same for one module that releases itself. -/
def ReleasesItself (H : Host) (name : Str) (s : St) : Prop :=
  ∃ d i q rest, findMod s name = some (d, i, q) ∧ (s.scopes q).onFree ≠ [] ∧
    s.cache.get H.hash (s.scopes q).onFree = some (.modFree [.text name] :: rest)
end Spec

/-- **C86.** The release of a module goes on for ever if it is one of several whose release texts start with the release of one of them. -/
theorem C86_release_circle {P : Str → Prop} {name : Str} (hp : P name) (n : Nat) (env : Env) (s : St) (h : Spec.ReleaseCircle H P s) :
    (run H n (.item (.modFree [.text name]) env) s).1 = .fuel := by
  induction n using Nat.strongRecOn generalizing name env s with
  | ind n ih =>
    obtain ⟨d, i, q, next, rest, hnext, hf, hne, hc⟩ := h name hp
    have hv := helloVec_text (H := H) name env s
    rcases hx : (helloVec [.text name] env).run.interp H (run H 5) s with ⟨o, s1⟩
    rw [hx] at hv
    cases hv
    have hs : s1 = ((helloVec [.text name] env).run.interp H (run H 5) s).2 := by rw [hx]
    have em : s1.mods = s.mods := by rw [hs]; rfl
    have ed : s1.datas = s.datas := by rw [hs]; rfl
    have es : s1.scopes = s.scopes := by rw [hs]; rfl
    have ec : s1.cache = s.cache := by rw [hs]; rfl
    have hfm : ∀ x, findMod s1 x = findMod s x := fun x => by unfold findMod; rw [em, ed, es]
    have hf1 : findMod s1 name = some (d, i, q) := by rw [hfm, hf]
    let t := s1.hold [.scope q]
    have c1 : Calls H (run H 5) (evalF (.item (.modFree [.text name]) env)) s (.src (s1.scopes q).onFree { env with q := q, inq := some q }) t := by
      refine calls_resE (callsE_right (p := helloVec [.text name] env) hx ?_)
      refine ⟨s1, s1, rfl, ?_⟩
      show Calls H (run H 5) (ExceptT.run (match findMod s1 name with
        | none => modFreeGo env []
        | some (data, i, q2) => (do
          let onFree := (s1.scopes q2).onFree
          if !onFree.isEmpty then
            callE [.scope q2] (.src onFree { env with q := q2, inq := some q2 })
          doOp (.rmMod data i)
          modFreeGo env [] : E _root_.Unit))) s1 _ _
      rw [hf1]
      have hne1 : (s1.scopes q).onFree.isEmpty = false := by rw [es]; simpa using hne
      simp only [hne1, Bool.not_false, ↓reduceIte]
      exact .inl ⟨rfl, rfl⟩
    refine step_endless c1 fun m hm => ?_
    have hc1 : t.cache.get H.hash (s1.scopes q).onFree = some (.modFree [.text next] :: rest) := by
      show s1.cache.get H.hash (s1.scopes q).onFree = _
      rw [ec, es, hc]
    refine step_endless (t := t) (c' := .codes (.modFree [.text next] :: rest) 0 usizeMax
      { env with q := q, inq := some q, gd := { du := env.gd.du, jie := env.gd.jie } }) ?_ fun m2 hm2 => ?_
    · refine calls_resE ⟨.ok (.modFree [.text next] :: rest), t, ?_, .inl ⟨rfl, rfl⟩⟩
      simp only [Op.run, codesCache, hc1]
    refine step_endless (t := t) (c' := .z2 (.modFree [.text next] :: rest) 0 (min usizeMax (rest.length + 1))
      { env with q := q, inq := some q, gd := { du := env.gd.du, jie := env.gd.jie } }) (.inl ⟨rfl, rfl⟩) fun m3 hm3 => ?_
    refine step_endless (t := t) (c' := .item (.modFree [.text next])
      { env with q := q, inq := some q, gd := { du := env.gd.du, jie := env.gd.jie } }) ?_ fun m4 hm4 => ?_
    · have hl : 0 < min usizeMax (rest.length + 1) := by
        have : 0 < usizeMax := by decide
        omega
      simp only [evalF, z2P]
      rw [if_pos hl]
      exact .inl ⟨rfl, rfl⟩
    refine ih m4 (by omega) hnext _ t fun x hx => ?_
    obtain ⟨d, i, q, y, rest, hy, h1, h2, h3⟩ := h x hx
    refine ⟨d, i, q, y, rest, hy, (hfm x).trans h1, ?_, ?_⟩
    · show (s1.scopes q).onFree ≠ []
      rw [es]; exact h2
    · show s1.cache.get H.hash (s1.scopes q).onFree = _
      rw [ec, es, h3]

/-- **C86.** The release of a module whose release text starts with the release of the same module goes on for ever. -/
theorem C86_release_itself (name : Str) (n : Nat) (env : Env) (s : St) (h : Spec.ReleasesItself H name s) :
    (run H n (.item (.modFree [.text name]) env) s).1 = .fuel := by
  refine C86_release_circle (P := (· = name)) rfl n env s fun x hx => ?_
  obtain ⟨d, i, q, rest, h1, h2, h3⟩ := h
  subst hx
  exact ⟨d, i, q, x, rest, rfl, h1, h2, h3⟩

/-- A run that reaches an evaluation that goes on for ever goes on for ever. -/
theorem reached_endless {ovf : Bool} {argv : List Str} {c : Call} {s : St} (hr : Reached H ovf argv c s) (h : ∀ n, (run H n c s).1 = .fuel)
    (n : Nat) : (runMain H n ovf argv).1 = .fuel := by
  induction hr with
  | main k hc =>
    have e := calls_endless hc (h n)
    unfold runMain
    exact e
  | step k _ hc ih =>
    refine ih fun m => ?_
    cases m with
    | zero => rfl
    | succ m => exact calls_endless hc (h m)

/-- **C86.** A run that reaches the release of such a module goes on for ever. -/
theorem C86_run_release_itself {ovf : Bool} {argv : List Str} {name : Str} {env : Env} {s : St}
    (hr : Reached H ovf argv (.item (.modFree [.text name]) env) s) (h : Spec.ReleasesItself H name s) (n : Nat) :
    (runMain H n ovf argv).1 = .fuel :=
  reached_endless hr (fun m => C86_release_itself name m env s h) n

/-- A computable check for `Spec.ReleasesItself` at a release. -/
def releaseSelfB (H : Host) (c : Call) (s : St) : Bool :=
  match c with
  | .item (.modFree [.text name]) _ =>
    match findMod s name with
    | some (_, _, q) =>
      !(s.scopes q).onFree.isEmpty &&
        match s.cache.get H.hash (s.scopes q).onFree with
        | some (.modFree [.text m] :: _) => m == name
        | _ => false
    | none => false
  | _ => false

theorem releaseSelfB_sound {c : Call} {s : St} (h : releaseSelfB H c s = true) :
    ∃ name env, c = .item (.modFree [.text name]) env ∧ Spec.ReleasesItself H name s := by
  unfold releaseSelfB at h
  split at h
  · rename_i name env
    split at h
    · rename_i d i q hf
      rw [Bool.and_eq_true] at h
      obtain ⟨h1, h2⟩ := h
      split at h2
      · rename_i m rest hc
        have e : m = name := by simpa using h2
        subst e
        exact ⟨m, env, rfl, d, i, q, rest, hf, by simpa using h1, hc⟩
      · cases h2
    · cases h
  · cases h

/-- The script of the witness: the module 甲 with a text that releases 甲, and the release of 甲. -/
def releaseSelfDemo : Str := c!"模块“甲”、“释放模块“甲”。”。释放模块“甲”。"

/-- There is such a run. -/
theorem C86_run_release_itself_witness : ∃ name env s, Reached H0 false (demoArgv releaseSelfDemo) (.item (.modFree [.text name]) env) s ∧
    Spec.ReleasesItself H0 name s := by
  have h : demoB 14 (releaseSelfB H0) releaseSelfDemo = true := by decide +kernel
  obtain ⟨c, s, h1, h2⟩ := demoB_sound h
  obtain ⟨name, env, rfl, h3⟩ := releaseSelfB_sound h2
  exact ⟨name, env, s, h1, h3⟩

/-- **C86.** A script without loops, jumps, definitions and aliases whose run goes on for ever. -/
theorem C86_release_counterexample (n : Nat) : (runMain H0 n false (demoArgv releaseSelfDemo)).1 = .fuel := by
  obtain ⟨name, env, s, h1, h2⟩ := C86_run_release_itself_witness
  exact C86_run_release_itself h1 h2 n

/-- A computable check for `Spec.ReleaseCircle` with the names `l`, at the release of one of them. -/
def releaseCircleB (H : Host) (l : List Str) (c : Call) (s : St) : Bool :=
  (match c with
    | .item (.modFree [.text name]) _ => l.contains name
    | _ => false) &&
  l.all fun name =>
    match findMod s name with
    | some (_, _, q) =>
      !(s.scopes q).onFree.isEmpty &&
        match s.cache.get H.hash (s.scopes q).onFree with
        | some (.modFree [.text m] :: _) => l.contains m
        | _ => false
    | none => false

theorem releaseCircleB_sound {l : List Str} {c : Call} {s : St} (h : releaseCircleB H l c s = true) :
    ∃ name env, c = .item (.modFree [.text name]) env ∧ name ∈ l ∧ Spec.ReleaseCircle H (· ∈ l) s := by
  unfold releaseCircleB at h
  rw [Bool.and_eq_true, List.all_eq_true] at h
  obtain ⟨h0, h⟩ := h
  split at h0
  · rename_i name env
    refine ⟨name, env, rfl, by simpa using h0, fun x hx => ?_⟩
    have h := h x hx
    split at h
    · rename_i d i q hf
      rw [Bool.and_eq_true] at h
      obtain ⟨h1, h2⟩ := h
      split at h2
      · rename_i m rest hc
        exact ⟨d, i, q, m, rest, by simpa using h2, hf, by simpa using h1, hc⟩
      · cases h2
    · cases h
  · cases h0

/-- Two modules that release each other. -/
def releaseCircleDemo : Str :=
  c!"解释下代码模块“甲”、“释放模块“乙”。”。上代码。解释下代码模块“乙”、“释放模块“甲”。”。上代码。释放模块“甲”。"

/-- There is a run that reaches the release of a module of a circle of two. -/
theorem C86_release_circle_witness : ∃ name env s, Reached H0 false (demoArgv releaseCircleDemo) (.item (.modFree [.text name]) env) s ∧
    name ∈ [c!"甲", c!"乙"] ∧ Spec.ReleaseCircle H0 (· ∈ [c!"甲", c!"乙"]) s := by
  have h : demoB 18 (releaseCircleB H0 [c!"甲", c!"乙"]) releaseCircleDemo = true := by decide +kernel
  obtain ⟨c, s, h1, h2⟩ := demoB_sound h
  obtain ⟨name, env, rfl, h3⟩ := releaseCircleB_sound h2
  exact ⟨name, env, s, h1, h3⟩

/-- **C86.** That run goes on for ever. -/
theorem C86_release_circle_counterexample (n : Nat) : (runMain H0 n false (demoArgv releaseCircleDemo)).1 = .fuel := by
  obtain ⟨name, env, s, h1, h2, h3⟩ := C86_release_circle_witness
  exact reached_endless h1 (fun m => C86_release_circle (P := (· ∈ [c!"甲", c!"乙"])) h2 m env s h3) n

/-! ## A rule for evaluations that go on for ever -/

/-- The evaluation `x.1` from the state `x.2` makes, directly or through others, the evaluation `y.1` from the state `y.2`. -/
def Spec.Inside (H : Host) : Call × St → Call × St → Prop :=
  Relation.TransGen fun x y => ∃ n, Calls H (run H n) (evalF x.1) x.2 y.1 y.2

theorem inside_endless {x y : Call × St} (h : Spec.Inside H x y) {n : Nat} (hy : ∀ m < n, (run H m y.1 y.2).1 = .fuel) :
    (run H n x.1 x.2).1 = .fuel := by
  have one : ∀ {a b : Call × St} {n : Nat}, (∃ k, Calls H (run H k) (evalF a.1) a.2 b.1 b.2) → (∀ m < n, (run H m b.1 b.2).1 = .fuel) →
      (run H n a.1 a.2).1 = .fuel := by
    rintro a b (_ | n) ⟨k, hk⟩ hb
    · rfl
    · exact calls_endless (p := evalF a.1) hk (hb n (by omega))
  unfold Spec.Inside at h
  induction h generalizing n with
  | single h => exact one h hy
  | tail _ h ih => exact ih fun m hm => one h fun k hk => hy k (by omega)

/-- **C86.**  An evaluation goes on for ever exactly when it is in a class of situations each of which leads, inside, to another one of the
class. -/
theorem C86_rule {c : Call} {s : St} : (∀ n, (run H n c s).1 = .fuel) ↔
    ∃ P : Call → St → Prop, P c s ∧ ∀ c s, P c s → ∃ c' s', Spec.Inside H (c, s) (c', s') ∧ P c' s' := by
  constructor
  · intro h
    refine ⟨fun c s => ∀ n, (run H n c s).1 = .fuel, h, fun c s h => ?_⟩
    obtain ⟨n, c', s', h1, h2⟩ := endless_calls (p := evalF c) (s := s) fun n => h (n + 1)
    exact ⟨c', s', .single ⟨n, h1⟩, h2⟩
  · rintro ⟨P, h0, h⟩ n
    induction n using Nat.strongRecOn generalizing c s with
    | ind n ih =>
      obtain ⟨c', s', h1, h2⟩ := h c s h0
      exact inside_endless h1 fun m hm => ih m hm h2

/-- The situation of `C86_rule`: the release of the module in `C86_run_release_itself_witness`. -/
example : ∃ c s, Reached H0 false (demoArgv releaseSelfDemo) c s ∧
    ∃ P : Call → St → Prop, P c s ∧ ∀ c s, P c s → ∃ c' s', Spec.Inside H0 (c, s) (c', s') ∧ P c' s' := by
  obtain ⟨name, env, s, h1, h2⟩ := C86_run_release_itself_witness
  exact ⟨_, s, h1, C86_rule.1 fun n => C86_release_itself name n env s h2⟩

end Zh
