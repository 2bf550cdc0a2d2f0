import Verif.Props.Passing2
/-!
# Jumps out of loops and circles (C24)
-/
namespace Zh

variable {H : Host} {α β : Type}

/-! ## Specification -/

/-- The evaluation `c` that starts in `s` evaluates `c'` as one of its parts, starting in `s'`. -/
def Spec.Part (H : Host) (c : Call) (s : St) (c' : Call) (s' : St) : Prop :=
  ∃ n, Calls H (run H n) (evalF c) s c' s'

/-- `c'` (starting in `s'`) is a part of a part ... of `c` (starting in `s`), and `P` holds for each step. -/
inductive Spec.Within (H : Host) (P : Call → Call → Prop) : Call → St → Call → St → Prop where
  | here {c s} : Within H P c s c s
  | step {c s c1 s1 c' s'} : Spec.Part H c s c1 s1 → P c c1 → Within H P c1 s1 c' s' → Within H P c s c' s'

/-- The same state, but for the active labels and borrows. -/
def Spec.Same (t t' : St) : Prop := t' = { t with labels := t'.labels, held := t'.held }

theorem Spec.Same.refl (t : St) : Spec.Same t t := rfl

theorem Spec.Same.trans {a b c : St} (h : Spec.Same a b) (h' : Spec.Same b c) : Spec.Same a c := by
  unfold Spec.Same at *
  rw [h'] ; rw [h]

theorem Spec.Same.scopes {a b : St} (h : Spec.Same a b) : b.scopes = a.scopes := by rw [h]

theorem catches_same {c c' : Call} {e : Err} {a b : St} (h : Spec.Same a b) :
    Spec.Catches c e c' b ↔ Spec.Catches c e c' a := by
  have hs := h.scopes
  cases c with
  | item c env => cases c <;> cases c' <;> rfl
  | _ => cases c' <;> first | rfl | (simp only [Spec.Catches, hs])

/-! ## Handing on -/

theorem ends_ev {R : Call → St → Res → St → Prop} {B : α → Prop} {p : Prog α} {s : St} (h : Ends B p s) :
    ∃ b s', Ev H R p s b s' ∧ B b ∧ Spec.Same s s' := by
  induction p generalizing s with
  | ret b => exact ⟨b, s, ⟨rfl, rfl⟩, h, rfl⟩
  | panic => exact h.elim
  | op o k ih =>
    cases o with
    | st =>
      obtain ⟨b, s', h1, h2, h3⟩ := ih _ h
      exact ⟨b, s', ⟨_, s, rfl, h1⟩, h2, h3⟩
    | popLabel =>
      obtain ⟨b, s', h1, h2, h3⟩ := ih _ h
      exact ⟨b, s', ⟨_, _, rfl, h1⟩, h2, Spec.Same.trans (b := { s with labels := s.labels.dropLast }) rfl h3⟩
    | _ => exact h.elim
  | call hd c k ih => exact h.elim

theorem calls_ev {O : Allow} {e : Err} {X : Call → St → Prop} {B : α → Prop} {n : Nat} {p : Prog α} {s : St}
    {c : Call} {t : St} {r : Res} {t' : St} (hp : Passes O e X B p) (hc : Calls H (run H n) p s c t)
    (he : Evals H c t r t') (hr : r.r = .error e) (hx : ∀ u, Spec.Same t' u → ¬ X c u) :
    ∃ b s', Ev H (Evals H) p s b s' ∧ B b ∧ Spec.Same t' s' := by
  induction p generalizing s with
  | ret a => exact hc.elim
  | panic => exact hc.elim
  | op o k ih =>
    obtain ⟨a, s1, ho, hc⟩ := hc
    obtain ⟨b, s', h1, h2, h3⟩ := ih a (hp.2 a) hc
    exact ⟨b, s', ⟨a, s1, ho, h1⟩, h2, h3⟩
  | call hd c0 k ih =>
    rcases hc with ⟨rfl, rfl⟩ | ⟨r0, s1, h0, hc⟩
    · have hs : Spec.Same t' { t' with held := s.held } := rfl
      obtain ⟨b, s', h1, h2, h3⟩ := ends_ev (H := H) (R := Evals H) ((hp.2 r).1 hr _ (hx _ hs))
      exact ⟨b, s', ⟨r, t', he, h1⟩, h2, hs.trans h3⟩
    · obtain ⟨b, s', h1, h2, h3⟩ := ih r0 (hp.2 r0).2 hc
      exact ⟨b, s', ⟨r0, s1, ⟨n, h0⟩, h1⟩, h2, h3⟩

/-- One step outwards. -/
theorem hand_on {O : Allow} {e : Err} {c c' : Call} {s s' : St} {r : Res} {t : St}
    (hP : Passes O e (Spec.Catches c e) (fun r => r.r = .error e) (evalF c))
    (hp : Spec.Part H c s c' s') (hc : ¬ Spec.Catches c e c' t) (he : Evals H c' s' r t) (hr : r.r = .error e) :
    ∃ r' t', Evals H c s r' t' ∧ r'.r = .error e ∧ Spec.Same t t' := by
  obtain ⟨n, hp⟩ := hp
  obtain ⟨r', t', h1, h2, h3⟩ := calls_ev hP hp he hr fun u hu h => hc ((catches_same hu).1 h)
  exact ⟨r', t', evals_iff.2 h1, h2, h3⟩

/-- **C24, C26, C28.**  A jump with which a part of an evaluation ended goes outwards through everything that
does not catch it: nothing else is evaluated, nothing else is changed, and the whole evaluation ends with
the same jump. -/
theorem C24_through {e : Err} (hj : Spec.Jump e) {c c' : Call} {s s' : St} {r : Res} {t : St}
    (hp : Spec.Within H (fun c c1 => ¬ Spec.Catches c e c1 t) c s c' s') (he : Evals H c' s' r t)
    (hr : r.r = .error e) : ∃ r' t', Evals H c s r' t' ∧ r'.r = .error e ∧ Spec.Same t t' := by
  induction hp with
  | here => exact ⟨r, t, he, hr, rfl⟩
  | step h1 h2 _ ih =>
    obtain ⟨r1, t1, h3, h4, h5⟩ := ih he
    obtain ⟨r2, t2, h6, h7, h8⟩ := hand_on (passes_eval hj _).1 h1 (fun h => h2 ((catches_same h5).1 h)) h3 h4
    exact ⟨r2, t2, h6, h7, h5.trans h8⟩

/-! ## What a loop does with the end of its body -/

/-- The code of a jump of a loop (`range = false`) or circle (`range = true`): its break or its continue. -/
def Spec.code (range brk : Bool) : Int :=
  match range, brk with
  | false, true => 11032 | false, false => 11033 | true, true => 11035 | true, false => 11036

/-- The jump statement of a loop (`跳出`, `再来`) or circle (`遁出`, `重来`). -/
def Spec.kind (range brk : Bool) : JumpKind :=
  match range, brk with
  | false, true => .break_ | false, false => .continue_ | true, true => .break2 | true, false => .continue2

theorem Spec.code_inj {a b c d : Bool} (h : Spec.code a b = Spec.code c d) : a = c ∧ b = d := by
  revert h; cases a <;> cases b <;> cases c <;> cases d <;> decide

theorem consumes_iff {range : Bool} {name : Option Str} {e : Err} :
    Spec.Consumes range name e ↔ (∃ brk, e.i = Spec.code range brk) ∧ (e.s = [] ∨ name = some e.s) := by
  unfold Spec.Consumes Spec.code
  constructor
  · rintro ⟨h1, h2⟩
    refine ⟨?_, h2⟩
    rcases h1 with h1 | h1
    · exact ⟨true, by rw [h1]; cases range <;> rfl⟩
    · exact ⟨false, by rw [h1]; cases range <;> rfl⟩
  · rintro ⟨⟨b, h1⟩, h2⟩
    refine ⟨?_, h2⟩
    rw [h1]
    cases range <;> cases b <;> simp

theorem calls_bind {rec : Call → St → Out Res × St} {p : Prog α} {f : α → Prog β} {s : St} {c : Call} {t : St}
    (h : Calls H rec (p.bind f) s c t) :
    Calls H rec p s c t ∨ ∃ a s1, p.interp H rec s = (.ok a, s1) ∧ Calls H rec (f a) s1 c t := by
  induction p generalizing s with
  | ret a => exact .inr ⟨a, s, rfl, h⟩
  | panic => exact h.elim
  | op o k ih =>
    obtain ⟨a, s1, ho, h⟩ := h
    rcases ih a h with h | ⟨b, s2, h1, h2⟩
    · exact .inl ⟨a, s1, ho, h⟩
    · exact .inr ⟨b, s2, by simp only [Prog.interp]; rw [ho]; exact h1, h2⟩
  | call hd c0 k ih =>
    rcases h with ⟨rfl, rfl⟩ | ⟨r, s1, hr, h⟩
    · exact .inl (.inl ⟨rfl, rfl⟩)
    · rcases ih r h with h | ⟨b, s2, h1, h2⟩
      · exact .inl (.inr ⟨r, s1, hr, h⟩)
      · refine .inr ⟨b, s2, ?_, h2⟩
        simp only [Prog.interp]
        simp only [St.hold] at hr
        rw [hr]; exact h1

/-- The next turn of a loop. -/
def Spec.next (useI : Bool) (i : Nat) : Nat := if useI then i + 1 else i

theorem loopSet_noCalls {rec : Call → St → Out Res × St} {cnt : Cnt} {env : Env} {j : Nat} {hn : Bool} {s : St}
    {c : Call} {t : St} : ¬ Calls H rec (loopSet cnt env j hn) s c t := by
  unfold loopSet
  split
  · rintro ⟨a, s1, -, a2, s2, -, h⟩
    split at h
    · obtain ⟨_, _, -, h⟩ := h; exact h
    · exact h
  · exact id

/-- A loop that evaluates its body: the state before it, and what comes after it. -/
theorem loop_body {n : Nat} {range : Bool} {codes : List Code} {max : Nat} {useI : Bool} {cnt : Cnt} {env : Env}
    {i : Nat} {hn : Bool} {s : St} {a : List Code} {x y : Nat} {env' : Env} {s1 : St}
    (h : Calls H (run H n) (loopP range codes max useI cnt env i hn) s (.codes a x y env') s1) :
    (∃ v, Ev H (Evals H) (loopSet cnt env (Spec.next useI i) hn) s v s1) ∧
      (.codes a x y env' : Call) = .codes codes 0 usizeMax env ∧ codes ≠ [] ∧
      loopP range codes max useI cnt env i hn =
        (loopSet cnt env (Spec.next useI i) hn >>= fun _ => loopTail range codes max useI cnt env (Spec.next useI i)) := by
  rw [loopP_eq] at h ⊢
  change Calls H _ (if (useI && decide (Spec.next useI i > max)) = true then _ else _) _ _ _ at h
  change _ ∧ _ ∧ _ ∧ (if (useI && decide (Spec.next useI i > max)) = true then _ else _) = _
  split at h
  · exact h.elim
  · rename_i hc
    rw [if_neg hc]
    rcases calls_bind (f := fun _ => loopTail range codes max useI cnt env (Spec.next useI i)) h with h | ⟨v, s2, h1, h2⟩
    · exact absurd h loopSet_noCalls
    · have hs := ev_of_interp (R := Evals H) (fun _ _ _ _ h => ⟨n, h⟩) h1
      unfold loopTail at h2
      dsimp only at h2
      split at h2
      · split at h2
        · exact h2.elim
        · rcases h2 with ⟨h2, -⟩ | ⟨_, _, _, h2⟩
          · cases h2
          · exact h2.elim
      · rename_i hne
        have hne : codes ≠ [] := by simpa using hne
        rcases h2 with ⟨h2, h3⟩ | ⟨r, s3, h3, h4⟩
        · refine ⟨⟨v, ?_⟩, h2, hne, rfl⟩
          rw [h3]; exact hs
        · exfalso
          dsimp only [Prog.bind] at h4
          have noLoop : ∀ {u : St}, Calls H (run H n) (callP [] (.loop range codes max useI cnt env
              (Spec.next useI i) cnt.name.isSome)) u (.codes a x y env') s1 → False := by
            rintro u (⟨h5, -⟩ | ⟨_, _, _, h5⟩)
            · cases h5
            · exact h5
          cases hr : r.r with
          | ok u =>
            rw [hr] at h4
            dsimp only at h4
            split at h4
            · exact h4
            · exact noLoop h4
          | error e =>
            rw [hr] at h4
            dsimp only at h4
            split at h4
            · split at h4
              · exact h4
              · exact noLoop h4
            · exact h4

/-- **C24.**  A loop or circle whose body ended with its own break, unlabelled or with the name of its
counter, has ended normally; after its own continue it makes its next turn. -/
theorem C24_taken {range : Bool} {codes : List Code} {max : Nat} {useI : Bool} {cnt : Cnt} {env : Env}
    {i : Nat} {hn : Bool} {s : St} {a : List Code} {x y : Nat} {env' : Env} {s1 : St} {r : Res} {t : St} {e : Err}
    {brk : Bool}
    (hp : Spec.Part H (.loop range codes max useI cnt env i hn) s (.codes a x y env') s1)
    (he : Evals H (.codes a x y env') s1 r t) (hr : r.r = .error e)
    (hi : e.i = Spec.code range brk) (hs : e.s = [] ∨ cnt.name = some e.s) :
    if brk then ∃ r', Evals H (.loop range codes max useI cnt env i hn) s r' t ∧ r'.r = .ok ()
    else ∀ r' t', Evals H (.loop range codes max useI cnt env i hn) s r' t' ↔
      Evals H (.loop range codes max useI cnt env (Spec.next useI i) cnt.name.isSome) t r' t' := by
  obtain ⟨n, hp⟩ := hp
  obtain ⟨⟨v, hv⟩, hcall, hne, hloop⟩ := loop_body hp
  rw [hcall] at he
  have ht : loopTakes range cnt.name e = true := (loopTakes_iff _ _ _).2 (consumes_iff.2 ⟨⟨brk, hi⟩, hs⟩)
  have tail : ∀ r' t', Evals H (.loop range codes max useI cnt env i hn) s r' t' ↔
      Ev H (Evals H) (if e.i = loopBreak range then pure { has := cnt.name.isSome, r := .ok () }
        else callP [] (.loop range codes max useI cnt env (Spec.next useI i) cnt.name.isSome)) t r' t' := by
    intro r' t'
    rw [evals_iff]
    change Ev H _ (loopP range codes max useI cnt env i hn) s r' t' ↔ _
    rw [hloop, ev_bind]
    constructor
    · rintro ⟨v', s2, h1, h2⟩
      obtain ⟨rfl, rfl⟩ := ev_unique hv h1
      unfold loopTail at h2
      dsimp only at h2
      rw [if_neg (by simpa using hne)] at h2
      obtain ⟨r2, s3, h3, h4⟩ := ev_bind.1 h2
      obtain ⟨rfl, rfl⟩ := he.unique (ev_callP.1 h3)
      rw [hr] at h4
      dsimp only at h4
      rw [if_pos ht] at h4
      exact h4
    · intro h
      refine ⟨v, s1, hv, ?_⟩
      unfold loopTail
      dsimp only
      rw [if_neg (by simpa using hne)]
      refine ev_bind.2 ⟨r, t, ev_callP.2 he, ?_⟩
      rw [hr]
      dsimp only
      rw [if_pos ht]
      exact h
  cases brk with
  | true =>
    have hb : e.i = loopBreak range := by rw [hi]; cases range <;> rfl
    refine ⟨{ has := cnt.name.isSome, r := .ok () }, (tail _ _).2 ?_, rfl⟩
    rw [if_pos hb]; exact ev_pure.2 ⟨rfl, rfl⟩
  | false =>
    have hb : e.i ≠ loopBreak range := by rw [hi]; cases range <;> decide
    intro r' t'
    rw [tail, if_neg hb]
    exact ev_callP

/-- **C24.**  Every other error or jump with which the body ended passes through the loop unchanged and at
once. -/
theorem C24_passed {range : Bool} {codes : List Code} {max : Nat} {useI : Bool} {cnt : Cnt} {env : Env}
    {i : Nat} {hn : Bool} {s : St} {a : List Code} {x y : Nat} {env' : Env} {s1 : St} {r : Res} {t : St} {e : Err}
    (hp : Spec.Part H (.loop range codes max useI cnt env i hn) s (.codes a x y env') s1)
    (he : Evals H (.codes a x y env') s1 r t) (hr : r.r = .error e)
    (hc : ¬ ((∃ brk, e.i = Spec.code range brk) ∧ (e.s = [] ∨ cnt.name = some e.s))) :
    ∃ r' t', Evals H (.loop range codes max useI cnt env i hn) s r' t' ∧ r'.r = .error e ∧ Spec.Same t t' :=
  hand_on (p_loopP fun _ _ _ _ _ h => h) hp (fun h => hc (consumes_iff.1 h)) he hr

/-! ## Which labels are active -/

theorem modScope_labels (s : St) (q : Nat) (f : Scope → Scope) : (s.modScope q f).2.labels = s.labels := by
  unfold St.modScope; split <;> rfl

theorem op_labels {o : Op} (s : St) (h : o.NoLabel) : (o.run H s).2.labels = s.labels := by
  cases o with
  | pushLabel x => exact h.elim
  | popLabel => exact h.elim
  | setDef q d =>
    simp only [Op.run]
    split
    · split
      · rfl
      · exact modScope_labels ..
    · exact modScope_labels ..
  | argsLine q =>
    simp only [Op.run]
    have h := modScope_labels s q fun c =>
      { c with argsTo1 := true, args1 := if (s.scopes q).argsTo1 then (s.scopes q).args1 else
          (s.lists (s.scopes q).args).line .one (s.scopes q).args1 }
    revert h
    generalize s.modScope q _ = x
    intro h
    rcases x with ⟨x, s1⟩
    cases x <;> exact h
  | addMod d q => simp only [Op.run]; split <;> rfl
  | rmMod d i => simp only [Op.run]; split <;> split <;> rfl
  | parse src => simp only [Op.run]; split <;> rfl
  | touch q => exact modScope_labels ..
  | setVar q v => exact modScope_labels ..
  | addName q n f => exact modScope_labels ..
  | setSrc q n => exact modScope_labels ..
  | setIsFile q => exact modScope_labels ..
  | setArg0 q n => exact modScope_labels ..
  | clearArgs1 q => exact modScope_labels ..
  | _ => rfl

/-- Programs that make no call. -/
def NoCalls : Prog α → Prop
  | .ret _ => True
  | .panic => True
  | .op _ k => ∀ a, NoCalls (k a)
  | .call .. => False

theorem NoCalls.calls {rec : Call → St → Out Res × St} {p : Prog α} (h : NoCalls p) {s : St} {c : Call} {t : St} :
    ¬ Calls H rec p s c t := by
  induction p generalizing s with
  | ret a => exact id
  | panic => exact id
  | op o k ih => rintro ⟨a, s1, -, h1⟩; exact ih a (h a) h1
  | call hd c k ih => exact h.elim

/-- Programs that leave the labels alone up to their last call. -/
def Lab : Prog α → Prop
  | .ret _ => True
  | .panic => True
  | .op o k => o.NoLabel ∧ ∀ a, Lab (k a)
  | .call _ c k => (c.NotLoop ∧ ∀ r, Lab (k r)) ∨ ∀ r, NoCalls (k r)

theorem Passes.lab {e : Err} {X : Call → St → Prop} {B : α → Prop} {p : Prog α} (h : Passes Quieter e X B p) : Lab p := by
  induction p with
  | ret a => trivial
  | panic => trivial
  | op o k ih => exact ⟨h.1, fun a => ih a (h.2 a)⟩
  | call hd c k ih => exact .inl ⟨h.1, fun r => ih r (h.2 r).2⟩

theorem Passes.lab_bind {e : Err} {X : Call → St → Prop} {B : α → Prop} {p : Prog α} {f : α → Prog β}
    (h : Passes Quieter e X B p) (hf : ∀ a, Lab (f a)) : Lab (p.bind f) := by
  induction p with
  | ret a => exact hf a
  | panic => trivial
  | op o k ih => exact ⟨h.1, fun a => ih a (h.2 a)⟩
  | call hd c k ih => exact .inl ⟨h.1, fun r => ih r (h.2 r).2⟩

theorem Lab.calls {ovf : Bool} {argv : List Str} {n : Nat} {p : Prog α} {s : St} (hp : Lab p)
    (hR : ∀ c t, Calls H (run H n) p s c t → Reached H ovf argv c t) {c : Call} {t : St}
    (hc : Calls H (run H n) p s c t) : t.labels = s.labels := by
  induction p generalizing s with
  | ret a => exact hc.elim
  | panic => exact hc.elim
  | op o k ih =>
    obtain ⟨a, s1, ho, hc⟩ := hc
    have h1 := op_labels (H := H) s hp.1
    rw [ho] at h1
    rw [ih a (hp.2 a) (fun c t h => hR c t ⟨a, s1, ho, h⟩) hc]
    exact h1
  | call hd c0 k ih =>
    rcases hc with ⟨rfl, rfl⟩ | ⟨r, s1, hr, hc⟩
    · rfl
    · rcases hp with ⟨hp1, hp2⟩ | hp
      · rw [ih r (hp2 r) (fun c t h => hR c t (.inr ⟨r, s1, hr, h⟩)) hc]
        exact (C25_labels_restored (hR c0 _ (.inl ⟨rfl, rfl⟩)) hp1 n r s1 hr :)
      · exact absurd hc (hp r).calls

theorem lab_bindE {e : Err} {X : Call → St → Prop} {p : E α} {f : α → E β} (h : PassE Quieter e X p)
    (hf : ∀ a, Lab (f a).run) : Lab (p >>= f : E β).run := by
  refine Passes.lab_bind (p := p.run) h fun a => ?_
  cases a with
  | ok a => exact hf a
  | error e => trivial

/-- The labels a call enters for its parts: a loop or circle with a named counter enters that name at
its first turn. -/
def Spec.entered : Call → List Str
  | .loop _ _ _ _ cnt _ _ hasName => if hasName then [] else cnt.name.toList
  | _ => []

theorem noCalls_forEnd {r : Res} : NoCalls (ExceptT.run (do
      if r.has then doOp .popLabel
      ExceptT.mk (pure r.r) : E Unit)) := by
  cases hh : r.has with
  | false => exact trivial
  | true => exact fun _ => trivial

theorem lab_resE {p : E Unit} (h : Lab p.run) : Lab (resE p) := by
  have nc : ∀ {p : Prog (Except Err Unit)}, NoCalls p → NoCalls (p.bind fun r => Prog.ret ({ r } : Res)) := by
    intro p h
    induction p with
    | ret a => trivial
    | panic => trivial
    | op o k ih => exact fun a => ih a (h a)
    | call hd c k ih => exact h.elim
  have : ∀ {p : Prog (Except Err Unit)}, Lab p → Lab (p.bind fun r => Prog.ret ({ r } : Res)) := by
    intro p h
    induction p with
    | ret a => trivial
    | panic => trivial
    | op o k ih => exact ⟨h.1, fun a => ih a (h.2 a)⟩
    | call hd c k ih =>
      rcases h with ⟨h1, h2⟩ | h
      · exact .inl ⟨h1, fun r => ih r (h2 r)⟩
      · exact .inr fun r => nc (h r)
  exact this h

theorem lab_forP {range : Bool} {cnt : Cnt} {rems codes : List Code} {env : Env} :
    Lab (forP range cnt rems codes env).run := by
  unfold forP
  refine lab_bindE (e := .qve) (X := fun _ _ => True) (passE_quieter (p_remsP _ _ rfl)) fun rs => ?_
  refine lab_bindE (e := .qve) (X := fun _ _ => True) passE_mk fun cnt' => ?_
  have hl : ∀ x : Nat × Bool, Lab (ExceptT.run (do
      let r ← (callP [] (.loop range codes x.1 x.2 cnt' env 0 false) : Prog Res)
      if r.has then doOp .popLabel
      ExceptT.mk (pure r.r) : E Unit)) := fun x => .inr fun r => noCalls_forEnd
  exact hl _

theorem lab_loopTail {range : Bool} {codes : List Code} {max : Nat} {useI : Bool} {cnt : Cnt} {env : Env} {j : Nat} :
    Lab (loopTail range codes max useI cnt env j) := by
  have again : Lab (callP [] (.loop range codes max useI cnt env j cnt.name.isSome)) := .inr fun _ => trivial
  unfold loopTail
  dsimp only
  split
  · split
    · trivial
    · exact again
  · refine .inl ⟨trivial, fun r => ?_⟩
    dsimp only [Prog.bind]
    split
    · split
      · trivial
      · exact again
    · split
      · split
        · trivial
        · exact again
      · trivial

theorem loopSet_labels {cnt : Cnt} {env : Env} {j : Nat} {hn : Bool} {s s1 : St} {v : Unit}
    (h : Ev H (Evals H) (loopSet cnt env j hn) s v s1) :
    s1.labels = s.labels ++ (if hn then [] else cnt.name.toList) := by
  unfold loopSet at h
  split at h
  · rename_i name hname
    obtain ⟨v1, s2, h1, h2⟩ := ev_bind.1 h
    obtain ⟨v2, s3, h3, h4⟩ := ev_bind.1 h2
    have e1 := op_labels (H := H) (o := .newItem (.s (cnt.value j)) []) s trivial
    rw [ev_doOp.1 h1] at e1
    have e2 := op_labels (H := H) (o := .setVar env.q ⟨name, v1, false, false, false⟩) s2 trivial
    rw [ev_doOp.1 h3] at e2
    dsimp only at e1 e2
    rw [hname]
    cases hn with
    | true =>
      obtain ⟨-, rfl⟩ := ev_pure.1 h4
      rw [e2, e1]; simp
    | false =>
      have h5 := ev_doOp.1 h4
      simp only [Op.run, Prod.mk.injEq] at h5
      rw [← h5.2, ← e1, ← e2]; simp
  · rename_i hname
    obtain ⟨-, rfl⟩ := ev_pure.1 h
    simp [hname]

theorem calls_bind_right {rec : Call → St → Out Res × St} {p : Prog α} {f : α → Prog β} {s : St} {c : Call} {t : St}
    {a : α} {s1 : St} (h1 : p.interp H rec s = (.ok a, s1)) (h2 : Calls H rec (f a) s1 c t) :
    Calls H rec (p.bind f) s c t := by
  induction p generalizing s with
  | ret b => cases h1; exact h2
  | panic => cases h1
  | op o k ih =>
    simp only [Prog.interp] at h1
    rcases ho : o.run H s with ⟨x, s2⟩
    rw [ho] at h1
    cases x with
    | ok b => exact ⟨b, s2, ho, ih b h1⟩
    | panic => simp at h1
    | fuel => simp at h1
  | call hd c0 k ih =>
    simp only [Prog.interp] at h1
    rcases hx : rec c0 { s with held := hd ++ s.held } with ⟨x, s2⟩
    rw [hx] at h1
    cases x with
    | ok b => exact .inr ⟨b, s2, hx, ih b h1⟩
    | panic => simp at h1
    | fuel => simp at h1

/-- **C24.**  The active labels are exactly the names of the counters of the enclosing loops and circles: in
any run of the interpreter, a part of an evaluation starts with the labels of the evaluation, plus the
name of the counter if the evaluation is a loop or circle that enters its first turn. -/
theorem C24_labels {ovf : Bool} {argv : List Str} {c c' : Call} {s s' : St} (hR : Reached H ovf argv c s)
    (hp : Spec.Part H c s c' s') : s'.labels = s.labels ++ Spec.entered c := by
  obtain ⟨n, hp⟩ := hp
  have hR' : ∀ c' t, Calls H (run H n) (evalF c) s c' t → Reached H ovf argv c' t := fun _ _ h => .step n hR h
  have quiet : ¬ c.OfLoop → s'.labels = s.labels := fun h =>
    ((passes_eval (e := ⟨BREAK, 0, [], []⟩) rfl c).2.1 h).lab.calls hR' hp
  cases c with
  | loop range codes max useI cnt env i hn =>
    have e : evalF (.loop range codes max useI cnt env i hn) = loopP range codes max useI cnt env i hn := rfl
    rw [e, loopP_eq] at hp hR'
    generalize (if useI = true then i + 1 else i) = j at hp hR'
    split at hp
    · exact hp.elim
    · rename_i hcond
      rw [if_neg hcond] at hR'
      rcases calls_bind (f := fun _ => loopTail range codes max useI cnt env j) hp with
        hp | ⟨v, s2, h1, h2⟩
      · exact absurd hp loopSet_noCalls
      · have h3 := loopSet_labels (ev_of_interp (R := Evals H) (fun _ _ _ _ h => ⟨n, h⟩) h1)
        rw [← show s2.labels = s.labels ++ Spec.entered (.loop range codes max useI cnt env i hn) from h3]
        exact lab_loopTail.calls (fun c t h => hR' c t (calls_bind_right
          (f := fun _ => loopTail range codes max useI cnt env j) h1 h)) h2
  | item c env =>
    cases c with
    | for_ range cnt rems codes =>
      exact ((lab_resE lab_forP).calls hR' hp).trans (List.append_nil _).symm
    | _ => exact (quiet id).trans (List.append_nil _).symm
  | _ => exact (quiet id).trans (List.append_nil _).symm

end Zh
