import Verif.Props.Traverse2
/-!
# Every evaluation function keeps the invariants: loops, and the whole
-/
namespace Zh

variable {H : Host} {C : Ctx} {s0 s : St} {α β : Type}

/-- Like `nl_call`, for the loop inside a loop statement when its label was entered. -/
theorem nl_call' (k : K C s0 s) (c : Call)
    (he : ∀ env, c.env = some env → EnvOk C s env) (hl : c.labelOk) (hr : ∀ r, c.labels r = []) :
    Nl H C s0 (callP [] c) s fun r _ => c.labelOk' r := by
  refine ⟨C, ⟨k.ok.hold [], fun env e => (he env e).hold [], hl⟩, fun s' hi => ?_⟩
  have hst : Step C s0 s' := k.later.step.trans
    ⟨hi.2.nscope, hi.2.nlist, hi.2.up, hi.2.i, hi.2.args, hi.2.fresh, hi.2.lists,
      fun x hx => hi.2.held x (List.mem_append_right _ hx),
      fun q hq hx => hi.2.to1 q hq (hx.imp (List.mem_append_right _) id)⟩
  refine ⟨⟨hi.1, hst⟩, fun r hp => ?_⟩
  have hst' : Step C s0 { s' with held := s.held } :=
    ⟨hst.nscope, hst.nlist, hst.up, hst.i, hst.args, hst.fresh, hst.lists,
      fun x hx => by rw [k.later.held]; exact hx, hst.to1⟩
  refine ⟨⟨hi.1.hold _, hst'⟩, ⟨k.ok0, ⟨hi.1.hold _, hst', k.later.held⟩, ?_⟩, hp.2.2.2⟩
  have := hp.2.2.1
  rw [hr, List.append_nil] at this
  exact this.trans k.labels

/-- The part of a turn of a loop after the counter was set. -/
def loopTail (range : Bool) (codes : List Code) (max : Nat) (useI : Bool) (cnt : Cnt) (env : Env) (i : Nat) :
    Prog Res := do
  let again := callP [] (.loop range codes max useI cnt env i cnt.name.isSome)
  let stop (r : Except Err Unit) : Prog Res := return { has := cnt.name.isSome, r }
  if codes.isEmpty then (if range then stop (.ok ()) else again)
  else
    let r ← callP [] (.codes codes 0 usizeMax env)
    match r.r with
    | .ok () => if range then stop (.ok ()) else again
    | .error e =>
      if loopTakes range cnt.name e then
        (if e.i = loopBreak range then stop (.ok ()) else again)
      else stop (.error e)

/-- The counter of a loop is set. -/
def loopSet (cnt : Cnt) (env : Env) (i : Nat) (hasName : Bool) : Prog Unit := do
  match cnt.name with
  | some name =>
    let v ← doOp (.newItem (.s (cnt.value i)) [])
    doOp (.setVar env.q ⟨name, v, false, false, false⟩)
    if !hasName then doOp (.pushLabel name)
  | none => pure ()

theorem Prog.bind_pure {γ : Type} (p : Prog γ) : p.bind Prog.ret = p := by
  induction p with
  | ret a => rfl
  | panic => rfl
  | op o k ih => simp only [Prog.bind, ih]
  | call h c k ih => simp only [Prog.bind, ih]

theorem Prog.bind_assoc' {γ δ ε : Type} (p : Prog γ) (f : γ → Prog δ) (g : δ → Prog ε) :
    (p.bind f).bind g = p.bind fun a => (f a).bind g := by
  induction p with
  | ret a => rfl
  | panic => rfl
  | op o k ih => simp only [Prog.bind, ih]
  | call h c k ih => simp only [Prog.bind, ih]

theorem loopP_eq (range : Bool) (codes : List Code) (max : Nat) (useI : Bool) (cnt : Cnt) (env : Env) (i : Nat)
    (hasName : Bool) :
    loopP range codes max useI cnt env i hasName =
      if useI && decide ((if useI then i + 1 else i) > max) then pure { has := hasName }
      else (do
        loopSet cnt env (if useI then i + 1 else i) hasName
        loopTail range codes max useI cnt env (if useI then i + 1 else i)) := by
  unfold loopP loopSet loopTail
  dsimp only
  generalize (if useI = true then i + 1 else i) = j
  split
  · rfl
  · cases cnt.name with
    | none => rfl
    | some name => cases hasName <;> rfl

theorem nl_loopTail (k : K C s0 s) {env : Env} (he : EnvOk C s0 env) (range : Bool) (codes : List Code) (max : Nat)
    (useI : Bool) (cnt : Cnt) (i : Nat) :
    Nl H C s0 (loopTail range codes max useI cnt env i) s fun r _ => r.has = cnt.name.isSome := by
  have again : ∀ {s1}, K C s0 s1 → Nl H C s0 (callP [] (.loop range codes max useI cnt env i cnt.name.isSome)) s1
      fun r _ => r.has = cnt.name.isSome := by
    intro s1 k1
    refine (nl_call' k1 (.loop range codes max useI cnt env i cnt.name.isSome)
      (fun env' e => by cases e; exact he.k k1) (fun h => h) ?_).mono ?_
    · intro r
      simp only [Call.labels]
      cases cnt.name <;> simp
    · intro r _ _ h
      simp only [Call.labelOk'] at h
      cases hn : cnt.name.isSome <;> cases hr : r.has <;> simp [hn, hr] at h ⊢
  unfold loopTail
  dsimp only
  split
  · split
    · exact Nl.ret k rfl
    · exact again k
  · refine Nl.bind (nl_callP k [] _ rfl ((he.k k).hold []) trivial) ?_
    rintro r s1 k1 -
    split
    · split
      · exact Nl.ret k1 rfl
      · exact again k1
    · split
      · split
        · exact Nl.ret k1 rfl
        · exact again k1
      · exact Nl.ret k1 rfl

/-- A program whose effect on the labels depends on its result. -/
def Tl (H : Host) (C : Ctx) (s0 : St) {α : Type} (p : Prog α) (s : St) (L : α → List Str) (Q : α → Prop) : Prop :=
  wp H frame (fun s' => Inv C s' ∧ Step C s0 s') p s
    fun a s' => Later C s0 s' ∧ s'.labels = L a ∧ Q a

theorem Nl.tl {p : Prog α} {Q : α → Prop} (h : Nl H C s0 p s fun a _ => Q a) :
    Tl H C s0 p s (fun _ => s0.labels) Q :=
  wp_mono (fun _ h => h) p s (fun _ _ _ h => ⟨h.1.later, h.1.labels, h.2⟩) h

theorem k_pushLabel (k : K C s0 s) (x : Str) : Later C s0 { s with labels := s.labels ++ [x] } :=
  ⟨⟨k.later.inv.top, k.later.inv.mods, k.later.inv.datas, k.later.inv.up, k.later.inv.root, k.later.inv.args,
      k.later.inv.inj, k.later.inv.xb, k.later.inv.pb, k.later.inv.line⟩,
    k.later.step.trans ⟨Nat.le_refl _, Nat.le_refl _, fun _ _ => rfl, fun _ _ => rfl, fun _ _ => rfl,
      fun q h h' => absurd (show q < s.nscope from h') (by omega), fun _ _ => rfl, fun _ h => h, fun _ _ _ => rfl⟩, k.later.held⟩

theorem tl_loopP (k : K C s s) {env : Env} (he : EnvOk C s env) (range : Bool) (codes : List Code) (max : Nat)
    (useI : Bool) (cnt : Cnt) (i : Nat) (hasName : Bool) (hl : hasName = true → cnt.name.isSome = true) :
    Tl H C s (loopP range codes max useI cnt env i hasName) s
      (fun r => s.labels ++ Call.labels (.loop range codes max useI cnt env i hasName) r)
      (fun r => Call.labelOk' (.loop range codes max useI cnt env i hasName) r) := by
  rw [loopP_eq]
  generalize (if useI = true then i + 1 else i) = j
  split
  · refine wp_mono (fun _ h => h) _ s ?_ (Nl.tl (Nl.ret (H := H) (Q := fun (r : Res) _ => r = { has := hasName }) k rfl))
    rintro r s' - ⟨h1, h2, rfl⟩
    refine ⟨h1, ?_, fun h => h, hl⟩
    rw [h2]
    cases hasName <;> simp [Call.labels]
  · cases hn : cnt.name with
    | none =>
      have hf : hasName = false := by cases hasName with
        | false => rfl
        | true => simp [hn] at hl
      subst hf
      have e : loopSet cnt env j false = pure () := by
        unfold loopSet; rw [hn]
      rw [e]
      refine wp_mono (fun _ h => h) _ s ?_ (Nl.tl (nl_loopTail (H := H) k he range codes max useI cnt _))
      rintro r s' - ⟨h1, h2, h3⟩
      rw [hn] at h3
      refine ⟨h1, ?_, ?_, ?_⟩
      · rw [h2]; simp [Call.labels, hn]
      · intro h; cases h
      · intro h; rw [h3] at h; cases h
    | some name =>
      -- the state after the counter is set
      have set : ∀ (f : Prog Res) (L : Res → List Str) (Q : Res → Prop),
          (∀ s1, K C s s1 → Tl H C s f s1 L Q) →
          Tl H C s (do
            let v ← doOp (.newItem (.s (cnt.value j)) [])
            doOp (.setVar env.q ⟨name, v, false, false, false⟩)
            f) s L Q := by
        intro f L Q hf
        refine wp_bind _ _ _ (wp_mono (fun _ h => h) _ _ ?_ (nl_opT k (.newItem _ _) trivial))
        rintro v s1 - ⟨k1, -⟩
        refine wp_bind _ _ _ (wp_mono (fun _ h => h) _ _ ?_ (nl_opT k1 (.setVar _ _) trivial))
        rintro _ s2 - ⟨k2, -⟩
        exact hf s2 k2
      cases hasName with
      | true =>
        have e : (do loopSet cnt env j true
                     loopTail range codes max useI cnt env j) = (do
            let v ← doOp (.newItem (.s (cnt.value j)) [])
            doOp (.setVar env.q ⟨name, v, false, false, false⟩)
            loopTail range codes max useI cnt env j) := by
          unfold loopSet; rw [hn]; rfl
        rw [e]
        refine set _ _ _ ?_
        intro s1 k1
        refine wp_mono (fun _ h => h) _ s1 ?_ (Nl.tl (nl_loopTail (H := H) k1 he range codes max useI cnt _))
        rintro r s' - ⟨h1, h2, h3⟩
        rw [hn] at h3
        refine ⟨h1, ?_, ?_, ?_⟩
        · rw [h2]; simp [Call.labels]
        · intro _; exact h3
        · intro _; rw [hn]; rfl
      | false =>
        have e : (do loopSet cnt env j false
                     loopTail range codes max useI cnt env j) = (do
            let v ← doOp (.newItem (.s (cnt.value j)) [])
            doOp (.setVar env.q ⟨name, v, false, false, false⟩)
            (do
              doOp (.pushLabel name)
              loopTail range codes max useI cnt env j)) := by
          unfold loopSet; rw [hn]; rfl
        rw [e]
        refine set _ _ _ ?_
        intro s1 k1
        have l2 := k_pushLabel k1 name
        refine ⟨⟨l2.inv, l2.step⟩, fun a s2 e => ?_⟩
        simp only [Op.run, Prod.mk.injEq] at e
        obtain ⟨-, rfl⟩ := e
        have ok2 := k.ok0.later l2
        refine wp_mono ?_ _ _ ?_ (Nl.tl (nl_loopTail (H := H) (K.refl ok2) (he.later l2) range codes max useI cnt _))
        · exact fun _ h => ⟨h.1, l2.step.trans h.2⟩
        · rintro r s' - ⟨h1, h2, h3⟩
          rw [hn] at h3
          refine ⟨l2.trans h1, ?_, ?_, ?_⟩
          · rw [h2]; simp [Call.labels, h3, hn, k1.labels]
          · intro h; cases h
          · intro _; rw [hn]; rfl

/-- The loop of a loop statement, and the removal of its label. -/
theorem nlE_loopCall (k : K C s0 s) {env : Env} (he : EnvOk C s env) (range : Bool) (codes : List Code) (max : Nat)
    (useI : Bool) (cnt : Cnt) :
    NlE H C s0 (do
      let r ← callP [] (.loop range codes max useI cnt env 0 false)
      if r.has then doOp .popLabel
      ExceptT.mk (pure r.r) : E Unit) s fun _ _ => True := by
  refine ⟨C, ⟨k.ok.hold [], fun env e => by cases e; exact he.hold [], fun h => by cases h⟩, fun s' hi => ?_⟩
  have hst : Step C s0 s' := k.later.step.trans
    ⟨hi.2.nscope, hi.2.nlist, hi.2.up, hi.2.i, hi.2.args, hi.2.fresh, hi.2.lists,
      fun x hx => hi.2.held x (List.mem_append_right _ hx),
      fun q hq hx => hi.2.to1 q hq (hx.imp (List.mem_append_right _) id)⟩
  refine ⟨⟨hi.1, hst⟩, fun r hp => ?_⟩
  have hl := hp.2.2.1
  have ho := hp.2.2.2.2
  have hst' : Step C s0 { s' with held := s.held } :=
    ⟨hst.nscope, hst.nlist, hst.up, hst.i, hst.args, hst.fresh, hst.lists,
      fun x hx => by rw [k.later.held]; exact hx, hst.to1⟩
  cases hr : r.has with
  | false =>
    have k' : K C s0 { s' with held := s.held } := by
      refine ⟨k.ok0, ⟨hi.1.hold _, hst', k.later.held⟩, ?_⟩
      have : s'.labels = s.labels := by rw [hl]; simp [Call.labels, hr, St.hold]
      exact this.trans k.labels
    have := NlE.true (nlE_pure (H := H) k' r.r)
    change NlE H C s0 (if r.has = true then _ else _) _ _
    rw [hr]
    exact this
  | true =>
    obtain ⟨name, hn⟩ := Option.isSome_iff_exists.1 (ho hr)
    have k' : K C s0 { s' with held := s.held, labels := s'.labels.dropLast } := by
      refine ⟨k.ok0, ⟨⟨hi.1.top, hi.1.mods, hi.1.datas, hi.1.up, hi.1.root, hi.1.args, hi.1.inj, hi.1.xb, hi.1.pb, hi.1.line⟩,
        ⟨hst.nscope, hst.nlist, hst.up, hst.i, hst.args, hst.fresh, hst.lists,
          fun x hx => by rw [k.later.held]; exact hx, hst.to1⟩, k.later.held⟩, ?_⟩
      have : s'.labels.dropLast = s.labels := by rw [hl]; simp [Call.labels, hr, hn, St.hold]
      exact this.trans k.labels
    change NlE H C s0 (if r.has = true then _ else _) _ _
    rw [hr]
    refine ⟨⟨k'.later.inv, k'.later.step⟩, fun a s2 e => ?_⟩
    simp only [Op.run, Prod.mk.injEq] at e
    obtain ⟨-, rfl⟩ := e
    exact NlE.true (nlE_pure (H := H) k' r.r)

theorem nlE_forP (k : K C s0 s) {env : Env} (he : EnvOk C s0 env) (range : Bool) (cnt : Cnt) (rems codes : List Code) :
    NlE H C s0 (forP range cnt rems codes env) s fun _ _ => True := by
  refine NlE.bind (nlE_remsP k (he.k k) _) ?_
  rintro rs s1 k1 -
  refine NlE.bind (nlE_pure k1 _) ?_
  rintro cnt s2 k2 ⟨-, rfl⟩
  dsimp only
  exact nlE_loopCall k2 (he.k k2) range codes _ _ cnt

theorem nlE_itemP (k : K C s0 s) {env : Env} (he : EnvOk C s0 env) (c : Code) :
    NlE H C s0 (itemP c env) s fun _ _ => True := by
  have hr := (he.k k).ret
  have two : ∀ {p : E Nat} {f : Nat → Prog Unit} {Q : Nat → St → Prop}, NlE H C s0 p s Q →
      (∀ r s1, K C s0 s1 → Q r s1 → Nl H C s0 (f r) s1 fun _ _ => True) →
      NlE H C s0 (do let r ← p; f r : E Unit) s fun _ _ => True := by
    intro p f Q hp hf
    exact NlE.bind hp fun r s1 k1 hq => NlE.lift (hf r s1 k1 hq)
  cases c with
  | undef t => exact NlE.lift (nl_addT k hr _)
  | text t => exact NlE.lift (nl_addT k hr _)
  | kw1 id =>
    unfold itemP
    dsimp only
    split
    · exact NlE.ret k trivial
    · exact NlE.lift (nl_addKwI k hr _)
  | kw2 id => exact NlE.lift (nl_addT k hr _)
  | remS t =>
    refine NlE.bind (NlE.lift (nl_newList k)) ?_
    rintro r s1 k1 ⟨h1, -⟩
    refine NlE.bind (NlE.lift (nl_addT k1 h1.1 _)) ?_
    rintro _ s2 k2 -
    exact NlE.lift (nl_remP k2 (he.k k2) _)
  | rem a => exact two (nlE_helloNew k [] a (he.k k)) fun r s1 k1 _ => nl_remP k1 (he.k k1) r
  | simp name rems => exact nlE_simpP k he _ _
  | args rems b e l => exact two (nlE_var1P k (he.k k) _ _) fun r s1 k1 hq => nl_argsP k1 (he.k k1).ri _ hq _ _ _
  | argc rems => exact two (nlE_var1P k (he.k k) _ _) fun r s1 k1 _ => nl_argcP k1 (he.k k1).ret _ _
  | argi rems i => exact two (nlE_var1P k (he.k k) _ _) fun r s1 k1 _ => nl_argiP k1 (he.k k1).ret _ _ _ _ _
  | arg0 rems z => exact two (nlE_var1P k (he.k k) _ _) fun r s1 k1 _ => nl_arg0P k1 (he.k k1).ret _ _ _
  | var rems a =>
    refine NlE.bind (nlE_helloNew k [] a (he.k k)) ?_
    rintro r s1 k1 -
    refine NlE.bind (NlE.lift (nl_getList k1 _)) ?_
    rintro l s2 k2 -
    exact nlE_callE k2 [] _ rfl ((he.k k2).hold []) trivial
  | has a =>
    refine NlE.bind (nlE_helloNew k [] a (he.k k)) ?_
    rintro r s1 k1 -
    refine NlE.bind (NlE.lift (nl_getList k1 _)) ?_
    rintro l s2 k2 -
    exact nlE_callE k2 [] _ rfl ((he.k k2).hold []) trivial
  | block a => exact nlE_hello k [] a ((he.k k).gd _)
  | for_ range cnt rems codes => exact nlE_forP k he _ _ _ _
  | jump j a => exact nlE_jumpP k he _ _
  | if_ a th el => exact nlE_ifP k he _ _ _
  | switch one a case f d => exact nlE_switchP k he _ _ _ _ _
  | du a =>
    refine NlE.bind (NlE.lift (nl_newList k)) ?_
    rintro r s1 k1 ⟨h1, -⟩
    exact nlE_hello k1 [] a ((he.k k1).fresh h1 _)
  | jie rems a => exact nlE_jieP k he _ _
  | jie2 a => exact nlE_jie2P k he _
  | mod_ a => exact nlE_nameP k he _ _
  | modFree a =>
    refine NlE.bind (nlE_helloVec k a (he.k k)) ?_
    rintro v s1 k1 -
    exact nlE_modFreeGo k1 he _
  | name a => exact nlE_nameP k he _ _
  | set_ names vals => exact nlE_setP k he _ _ _
  | alias names vals => exact nlE_setP k he _ _ _
  | def_ names vals sp => exact nlE_defP k he _ _ _
  | eval l c a0 ia a sp se => exact nlE_evalP k he _ _ _ _ _ _ _
  | print a => exact nlE_printP k he _
  | expl a => exact nlE_explP k he _
  | exec a => exact nlE_execP k he _

theorem nl_resE {p : E Unit} (h : NlE H C s0 p s fun _ _ => True) : Nl H C s0 (resE p) s fun _ _ => True := by
  refine Nl.bind (NlE.catch h) ?_
  rintro r s1 k1 -
  exact Nl.ret k1 trivial

theorem frame_ok (C : Ctx) (c : Call) (s : St) (h : frame.pre C c s) :
    wp H frame (frame.inv C s) (evalF c) s (frame.post C c s) := by
  obtain ⟨ok, he, hl⟩ := h
  have k := K.refl ok
  have fin : c.plain → Nl H C s (evalF c) s (fun _ _ => True) →
      wp H frame (frame.inv C s) (evalF c) s (frame.post C c s) := by
    intro hp h
    refine wp_mono (fun _ h => h) _ s (fun r s' _ h => ?_) h
    refine ⟨h.1.later.inv, h.1.later.step, ?_, ?_⟩
    · rw [(Call.plain_labels hp).1, List.append_nil]; exact h.1.labels
    · cases c <;> first | exact hp.elim | trivial
  cases c with
  | codes a i e env => exact fin trivial (nl_codesP k (he env rfl) _ _ _)
  | z2 a i e env => exact fin trivial (nl_z2P k (he env rfl) _ _ _)
  | z4 a cs e2 e env st => exact fin trivial (nl_z4P k (he env rfl) _ _ _ _ _)
  | item c env => exact fin trivial (nl_resE (nlE_itemP k (he env rfl) _))
  | src t env => exact fin trivial (nl_resE (nlE_srcP k (he env rfl) _))
  | loop range codes max useI cnt env i hasName =>
    refine wp_mono (fun _ h => h) _ s (fun r s' _ h => ?_)
      (tl_loopP k (he env rfl) range codes max useI cnt i hasName hl)
    exact ⟨h.1.inv, h.1.step, h.2.1, h.2.2⟩
  | cond codes env st => exact fin trivial (nl_condP k (he env rfl) _ _)
  | get l b e env => exact fin trivial (nl_resE (nlE_get2P k (he env rfl) _ _ _))
  | slave h o e b env => exact fin trivial (nl_slaveP k (he env rfl) _ _ _ _)

theorem frame_refl (C : Ctx) (c : Call) (s : St) (h : frame.pre C c s) : frame.inv C s s :=
  ⟨h.1.inv, Step.refl _ _⟩

/-- Every run of an evaluation function keeps the invariants. -/
theorem run_frame (H : Host) (n : Nat) : RecOk frame (run H n) := run_ok frame_refl frame_ok n

end Zh
