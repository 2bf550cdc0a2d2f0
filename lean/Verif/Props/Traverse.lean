import Verif.Props.Frame
/-!
# Every evaluation function keeps the invariants

One lemma per program of `Model/Eval.lean`; the result is `frame_ok`.
-/
namespace Zh

variable {H : Host} {C : Ctx} {s0 s : St} {α β : Type}

/-! ## Lookups lead to reachable scopes only -/

theorem chain_ok (hi : Inv C s) (q : Nat) (hq : ScOk C s q) : ∀ p ∈ chain s.scopes q, ScOk C s p := by
  induction q using Nat.strongRecOn with
  | _ q ih =>
    intro p hp
    rw [chain] at hp
    rcases List.mem_cons.1 hp with rfl | hp
    · exact hq
    · cases hu : (s.scopes q).up with
      | none => simp [hu] at hp
      | some u =>
        obtain ⟨h1, -, h3⟩ := hi.up q hq.1 u hu
        simp only [hu, h1, dite_true] at hp
        exact ih u h1 ⟨Nat.lt_trans h1 hq.1, fun X hX => h3 X hX (hq.2 X hX)⟩ p hp

theorem visits_ok (hi : Inv C s) {q : Nat} (hq : ScOk C s q) {next ns im : Bool} {x : Nat × Bool}
    (hx : x ∈ visits s.scopes s.mods q next ns im) : ScOk C s x.1 := by
  unfold visits at hx
  rcases List.mem_append.1 hx with h | h
  · cases ns
    · rw [if_neg (by simp), List.mem_singleton] at h; subst h; exact hq
    · simp at h
  · cases next
    · simp at h
    · rw [if_pos rfl] at h
      rcases List.mem_append.1 h with h | h
      · obtain ⟨p, hp, rfl⟩ := List.mem_map.1 h
        exact chain_ok hi q hq p (List.mem_of_mem_tail hp)
      · cases im
        · simp at h
        · rw [if_pos rfl] at h
          obtain ⟨p, hp, rfl⟩ := List.mem_map.1 h
          exact hi.mods p hp

theorem findSome_mem {γ δ : Type} {l : List γ} {f : γ → Option δ} {b : δ} (h : l.findSome? f = some b) :
    ∃ a ∈ l, f a = some b := by
  induction l with
  | nil => simp at h
  | cons a l ih =>
    rw [List.findSome?_cons] at h
    cases hf : f a with
    | some c => rw [hf] at h; exact ⟨a, List.mem_cons_self .., hf.trans h⟩
    | none =>
      rw [hf] at h
      obtain ⟨x, hx, e⟩ := ih h
      exact ⟨x, List.mem_cons_of_mem _ hx, e⟩

theorem getName_ok (hi : Inv C s) {q : Nat} (hq : ScOk C s q) {name : Str} {a b c d : Bool} {p : Nat}
    {act : GetAct} (h : getName s.scopes s.mods q name a b c d = some (p, act)) : ScOk C s p := by
  obtain ⟨x, hx, e⟩ := findSome_mem h
  obtain ⟨x1, x2⟩ := x
  have hv := visits_ok hi hq hx
  cases hg : (s.scopes x1).get name a b x2 with
  | none => simp [hg] at e
  | some g =>
    simp only [hg, Option.map_some, Option.some.injEq, Prod.mk.injEq] at e
    exact e.1 ▸ hv

theorem findDef_ok (hi : Inv C s) {q : Nat} (hq : ScOk C s q) {cs : Str} {pc : List Str} {f e a b p k : Nat}
    (h : findDef s.scopes s.mods cs f e pc q = some (a, b, p, k)) : ScOk C s p := by
  unfold findDef at h
  revert h
  generalize e - f = n
  induction n generalizing f with
  | zero => simp [findDefGo]
  | succ n ih =>
    intro h
    rw [findDefGo] at h
    split at h
    · rename_i r hr
      cases h
      obtain ⟨x, hx, e⟩ := findSome_mem hr
      obtain ⟨x1, x2⟩ := x
      have hv := visits_ok hi hq hx
      cases hg : findDefAt cs f pc (s.scopes x1).defs with
      | none => simp [hg] at e
      | some g =>
        simp only [hg, Option.map_some, Option.some.injEq, Prod.mk.injEq] at e
        exact e.2.2.1 ▸ hv
    · exact ih h

theorem namedScope_ok (hi : Inv C s) {q : Nat} (hq : ScOk C s q) {n : Str} {p : Nat}
    (h : namedScope s.scopes s.mods q n = some p) : ScOk C s p := by
  obtain ⟨x, hx, e⟩ := findSome_mem h
  obtain ⟨x1, x2⟩ := x
  have hv := visits_ok hi hq hx
  simp only at e
  split at e
  · cases e; exact hv
  · cases e

theorem rem4Z_ok (hi : Inv C s) {q : Nat} (hq : ScOk C s q) {inq : Option Nat}
    (hn : ∀ p, inq = some p → ScOk C s p) {rem : Str} {has : Bool} {p : Nat}
    (h : rem4Z s rem has inq q = .ok (.scope (some p))) : ScOk C s p := by
  unfold rem4Z at h
  split at h
  · cases h; exact hi.top
  · split at h
    · cases hu : (s.scopes q).up with
      | none => rw [hu] at h; cases has <;> simp at h
      | some u =>
        rw [hu] at h; cases h
        obtain ⟨h1, -, h3⟩ := hi.up q hq.1 p hu
        exact ⟨Nat.lt_trans h1 hq.1, fun X hX => h3 X hX (hq.2 X hX)⟩
    · split at h
      · cases inq with
        | none => simp at h
        | some u => cases h; exact hn p rfl
      · split at h
        · rename_i u hu; cases h; exact namedScope_ok hi hq hu
        · split at h
          · rename_i u hu
            cases h; exact hi.datas p (List.mem_of_find?_eq_some hu)
          · cases h

theorem rem4_ok (hi : Inv C s) {σ : Type} {inq : Option Nat} (hn : ∀ p, inq = some p → ScOk C s p)
    {has : Bool} {shou : σ → Str → Option σ} {rems : List Str} {q : Option Nat} {x : σ}
    (hq : ∀ p, q = some p → ScOk C s p) {p : Nat} {y : σ}
    (h : rem4 s has inq shou rems q x = .ok (.ok (some p, y))) : ScOk C s p := by
  induction rems generalizing q x with
  | nil =>
    simp only [rem4, Out.ok.injEq, Except.ok.injEq, Prod.mk.injEq] at h
    exact hq p h.1
  | cons r rs ih =>
    cases q with
    | none => simp [rem4] at h
    | some q0 =>
      simp only [rem4] at h
      split at h
      · simp at h
      · rename_i q1 hz
        exact ih (fun p hp => rem4Z_ok hi (hq q0 rfl) hn (hp ▸ hz)) h
      · split at h
        · exact ih hq h
        · simp at h

theorem nameScan_ok (hi : Inv C s) {inq : Option Nat} (hn : ∀ p, inq = some p → ScOk C s p) {has : Bool}
    {l : List Item} {name : Str} {rems : List Str} {w : Bool} {q : Nat} (hq : ScOk C s q) {a : Str}
    {b : List Str} {c : Bool} {p : Nat}
    (h : nameScan s has inq l name rems w q = .ok (.ok (some (a, b, c, p)))) : ScOk C s p := by
  induction l generalizing name rems w q with
  | nil =>
    simp only [nameScan, Out.ok.injEq, Except.ok.injEq, Option.some.injEq, Prod.mk.injEq] at h
    exact h.2.2.2 ▸ hq
  | cons it its ih =>
    rw [nameScan] at h
    split at h
    · simp at h
    · simp at h
    · rename_i q1 x hr
      exact ih (rem4_ok hi hn (fun p hp => by cases hp; exact hq) hr) h
    · cases h
    · cases h

theorem setName_ok (hi : Inv C s) {inq : Option Nat} (hn : ∀ p, inq = some p → ScOk C s p)
    {l : List Item} {name : Str} {q : Option Nat} (hq : ∀ p, q = some p → ScOk C s p) {x : Bool × Bool}
    {a : Str} {c : Bool × Bool} {p : Nat}
    (h : setName s inq l name q x = .ok (.ok (a, some p, c))) : ScOk C s p := by
  induction l generalizing name q x with
  | nil =>
    simp only [setName, Out.ok.injEq, Except.ok.injEq, Prod.mk.injEq] at h
    exact hq p h.2.1
  | cons it its ih =>
    rw [setName] at h
    split at h
    · simp at h
    · rename_i q1 x1 hr
      exact ih (fun p hp => rem4_ok hi hn hq (hp ▸ hr)) h
    · cases h
    · cases h

theorem findMod_ok (hi : Inv C s) {name : Str} {d : Bool} {i q : Nat} (h : findMod s name = some (d, i, q)) :
    ScOk C s q := by
  have key : ∀ (l : List Nat), (∀ p ∈ l, ScOk C s p) → ∀ i q,
      ((l.zipIdx.find? fun x => (s.scopes x.1).name.contains name).map fun x => (x.2, x.1)) = some (i, q) →
        ScOk C s q := by
    intro l hl i q h
    cases hf : l.zipIdx.find? fun x => (s.scopes x.1).name.contains name with
    | none => rw [hf] at h; simp at h
    | some y =>
      simp only [hf, Option.map_some, Option.some.injEq, Prod.mk.injEq] at h
      have := List.mem_of_find?_eq_some hf
      obtain ⟨y1, y2⟩ := y
      exact h.2 ▸ hl y1 (List.fst_mem_of_mem_zipIdx this)
  unfold findMod at h
  simp only at h
  split at h
  · rename_i i' q' hf
    cases h
    exact key s.mods hi.mods _ _ hf
  · rename_i hf
    cases hg : (s.datas.zipIdx.find? fun x => (s.scopes x.1).name.contains name).map fun x => (x.2, x.1) with
    | none => simp only [hg] at h; simp at h
    | some y =>
      simp only [hg] at h
      simp only [Option.map_some, Option.some.injEq, Prod.mk.injEq] at h
      obtain ⟨-, rfl, rfl⟩ := h
      exact key s.datas hi.datas _ _ hg

/-! ## Small programs -/

theorem EnvOk.k {env : Env} (h : EnvOk C s0 env) (k : K C s0 s) : EnvOk C s env := h.later k.later

/-- A list that exists, is not protected and is no argument list. -/
def FreshL (C : Ctx) (s : St) (r : Nat) : Prop := LsOk C s r ∧ ∀ q < s.nscope, (s.scopes q).args ≠ r

theorem FreshL.k {r : Nat} (h : FreshL C s0 r) (k : K C s0 s) : FreshL C s r := by
  have hn : ∀ q < s.nscope, (s.scopes q).args ≠ r := by
    intro q hq
    by_cases hlt : q < s0.nscope
    · rw [k.later.step.args q hlt]; exact h.2 q hlt
    · have := k.later.step.fresh q (by omega) hq
      have := h.1.1
      omega
  exact ⟨⟨Nat.lt_of_lt_of_le h.1.1 k.later.step.nlist, h.1.2.1, fun q hq e => absurd e (hn q hq)⟩, hn⟩

/-- A list that may be written to, and no scope that has it as its argument list can be reached. -/
def LsIso (C : Ctx) (s : St) (r : Nat) : Prop := LsOk C s r ∧ ∃ X, C.X X ∧ Prot X r s

theorem LsIso.k {r : Nat} (h : LsIso C s0 r) (k : K C s0 s) : LsOk C s r := h.1.later h.2 k.later.step

theorem LsIso.k' {r : Nat} (h : LsIso C s0 r) (k : K C s0 s) : LsIso C s r :=
  ⟨h.k k, h.2.imp fun _ hX => ⟨hX.1, hX.2.step h.1.1 k.later.step k.later.held⟩⟩

theorem EnvOk.ri {env : Env} (h : EnvOk C s env) : LsIso C s env.ret := ⟨h.ret, h.iso⟩

theorem EnvOk.fresh {env : Env} (h : EnvOk C s env) {r : Nat} (hr : FreshL C s r) (gd : Opt) :
    EnvOk C s ⟨gd, env.q, r, env.inq⟩ :=
  ⟨h.q, h.inq, hr.1, h.iso.imp fun _ hX => ⟨hX.1, fun q hq _ ha => absurd ha (hr.2 q hq)⟩⟩

theorem EnvOk.gd {env : Env} (h : EnvOk C s env) (gd : Opt) : EnvOk C s ⟨gd, env.q, env.ret, env.inq⟩ :=
  ⟨h.q, h.inq, h.ret, h.iso⟩

theorem EnvOk.at {env : Env} (h : EnvOk C s env) (gd : Opt) {q : Nat} (hq : ScOk C s q) {inq : Option Nat}
    (hn : ∀ p, inq = some p → ScOk C s p) : EnvOk C s ⟨gd, q, env.ret, inq⟩ := ⟨hq, hn, h.ret, h.iso⟩

theorem nl_opT (k : K C s0 s) (o : Op) (ho : OpOk C s o) : Nl H C s0 (doOp o) s fun _ _ => True :=
  (nl_op k o ho).true

theorem nl_newList (k : K C s0 s) : Nl H C s0 (doOp .newList) s fun r s' => FreshL C s' r ∧ K C s s' := by
  refine (Nl.rebase k (nl_op k.rebase .newList trivial)).mono ?_
  intro r s' _ ⟨k1, h⟩
  simp only [Op.run, Prod.mk.injEq, Out.ok.injEq] at h
  obtain ⟨rfl, rfl⟩ := h
  have hn : ∀ q < s.nscope, (s.scopes q).args ≠ s.nlist := by
    intro q hq e
    have := k.later.inv.args q hq
    omega
  refine ⟨⟨⟨Nat.lt_succ_self _, fun hp => ?_, fun q hq e => absurd e (hn q hq)⟩, hn⟩, k1⟩
  have := k.later.inv.pb _ hp; omega

theorem nl_addItemC (k : K C s0 s) {ret : Nat} (hr : LsOk C s ret) (i : Item) :
    Nl H C s0 (addItem ret i) s fun _ s' => Calm s s' := by
  refine Nl.bind (nl_getSt k) ?_
  rintro a s' k ⟨rfl, rfl⟩
  exact nl_opC k _ hr.2 trivial

theorem nl_addValC (k : K C s0 s) {ret : Nat} (hr : LsOk C s ret) (v : Val) (rems : List Str) :
    Nl H C s0 (addVal ret v rems) s fun _ s' => Calm s s' := by
  refine Nl.bind (nl_opC k (.newItem v rems) trivial trivial) ?_
  rintro a s' k' h
  exact (nl_addItemC k' (hr.calm h) a).mono fun _ _ _ h' => h.trans h'

theorem nl_addTC (k : K C s0 s) {ret : Nat} (hr : LsOk C s ret) (t : Str) :
    Nl H C s0 (addT ret t) s fun _ s' => Calm s s' := nl_addValC k hr _ _

theorem nl_addDunC (k : K C s0 s) {ret : Nat} (hr : LsOk C s ret) :
    Nl H C s0 (addDun ret) s fun _ s' => Calm s s' := nl_addValC k hr _ _

theorem nl_addItem (k : K C s0 s) {ret : Nat} (hr : LsOk C s ret) (i : Item) :
    Nl H C s0 (addItem ret i) s fun _ _ => True := (nl_addItemC k hr i).true

theorem nl_addVal (k : K C s0 s) {ret : Nat} (hr : LsOk C s ret) (v : Val) (rems : List Str) :
    Nl H C s0 (addVal ret v rems) s fun _ _ => True := (nl_addValC k hr v rems).true

theorem nl_addT (k : K C s0 s) {ret : Nat} (hr : LsOk C s ret) (t : Str) :
    Nl H C s0 (addT ret t) s fun _ _ => True := nl_addVal k hr _ _

theorem nl_addKwI (k : K C s0 s) {ret : Nat} (hr : LsOk C s ret) (id : KwId) :
    Nl H C s0 (addKwI ret id) s fun _ _ => True := nl_addVal k hr _ _

theorem nl_addDun (k : K C s0 s) {ret : Nat} (hr : LsOk C s ret) :
    Nl H C s0 (addDun ret) s fun _ _ => True := nl_addVal k hr _ _

theorem nl_addTs (k : K C s0 s) {ret : Nat} (hr : LsOk C s ret) (ts : List Str) :
    Nl H C s0 (addTs ret ts) s fun _ _ => True := by
  induction ts generalizing s with
  | nil => exact Nl.ret k trivial
  | cons t ts ih =>
    refine Nl.bind (nl_addTC k hr t) ?_
    rintro _ s' k' h
    exact ih k' (hr.calm h)

theorem nl_getList (k : K C s0 s) (r : Nat) :
    Nl H C s0 (getList r) s fun a s' => a = s.lists r ∧ s' = s := by
  refine Nl.bind (nl_getSt k) ?_
  rintro a s' k ⟨rfl, rfl⟩
  exact Nl.ret k ⟨rfl, rfl⟩

/-- Calls other than the loop inside a loop statement. -/
def Call.plain : Call → Prop
  | .loop .. => False
  | _ => True

theorem Call.plain_labels {c : Call} (h : c.plain) : (∀ r, c.labels r = []) ∧ c.labelOk := by
  cases c <;> first | exact h.elim | exact ⟨fun _ => rfl, trivial⟩

theorem nl_callP (k : K C s0 s) (h : List Held) (c : Call) {env : Env} (hc : c.env = some env)
    (he : EnvOk C (s.hold h) env) (hp : c.plain) (hs : HeldIn s h := by simp [HeldIn]) :
    Nl H C s0 (callP h c) s fun _ _ => True :=
  nl_call k h c (fun env' e => by rw [hc] at e; cases e; exact he) (Call.plain_labels hp).2 (Call.plain_labels hp).1 hs

theorem nlE_callE (k : K C s0 s) (h : List Held) (c : Call) {env : Env} (hc : c.env = some env)
    (he : EnvOk C (s.hold h) env) (hp : c.plain) (hs : HeldIn s h := by simp [HeldIn]) :
    NlE H C s0 (callE h c) s fun _ _ => True := by
  refine NlE.bind (NlE.lift (nl_callP k h c hc he hp hs)) ?_
  intro r s' k _
  exact NlE.mk (Nl.ret k fun _ _ => trivial)

theorem nlE_callH (k : K C s0 s) (h : List Held) (c : Call) {env : Env} (hc : c.env = some env)
    (he : EnvOk C (s.hold h) env) (hp : c.plain) (hs : HeldIn s h := by simp [HeldIn]) :
    NlE H C s0 (callE h c) s fun _ s' => ∀ q, Held.scope q ∈ h → q < s.nscope →
      (s'.scopes q).argsTo1 = (s.scopes q).argsTo1 := by
  refine NlE.bind (NlE.lift (nl_callH k h c (fun env' e => by rw [hc] at e; cases e; exact he)
    (Call.plain_labels hp).2 (Call.plain_labels hp).1 hs)) ?_
  intro r s' k h
  exact NlE.mk (Nl.ret k fun _ _ => h)

theorem nlE_hello (k : K C s0 s) (h : List Held) (a : List Code) {env : Env} (he : EnvOk C s env)
    (hs : HeldIn s h := by simp [HeldIn]) :
    NlE H C s0 (hello h a env) s fun _ _ => True := nlE_callE k h _ rfl (he.hold h) trivial hs

theorem nlE_helloNew (k : K C s0 s) (h : List Held) (a : List Code) {env : Env} (he : EnvOk C s env)
    (hs : HeldIn s h := by simp [HeldIn]) :
    NlE H C s0 (helloNew h a env) s fun r s' => FreshL C s' r := by
  refine NlE.bind (NlE.lift (nl_newList k)) ?_
  rintro r s1 k1 ⟨hf, k01⟩
  refine NlE.bind (NlE.rebase k1 (nlE_hello k1.rebase h a ((he.k k01).fresh hf _) fun q hq => Nat.lt_of_lt_of_le (hs q hq) k01.later.step.nscope)) ?_
  rintro _ s2 k2 ⟨k12, -⟩
  exact NlE.ret k2 (hf.k k12)

theorem nlE_helloVec (k : K C s0 s) (a : List Code) {env : Env} (he : EnvOk C s env) :
    NlE H C s0 (helloVec a env) s fun _ _ => True := by
  refine NlE.bind (nlE_helloNew k [] a he) ?_
  rintro r s1 k1 -
  refine NlE.bind (NlE.lift (nl_getList k1 r)) ?_
  rintro l s2 k2 -
  exact NlE.ret k2 trivial

/-! ## Reading variables and arguments -/

theorem nl_argiP (k : K C s0 s) {ret : Nat} (hr : LsOk C s ret) (i : Int) (isHas equ : Bool) (name : Str)
    (q : Nat) : Nl H C s0 (argiP i isHas equ name q ret) s fun _ _ => True := by
  refine Nl.bind (nl_getSt k) ?_
  rintro a s' k ⟨rfl, rfl⟩
  dsimp only
  split
  · exact Nl.panic k
  · split
    · refine Nl.bind (nl_ofOut k _) ?_
      rintro i s' k ⟨-, rfl⟩
      split
      · exact nl_addT k hr _
      · exact Nl.ret k trivial
    · refine Nl.bind (nl_ofOut k _) ?_
      rintro i s' k ⟨-, rfl⟩
      split
      · exact Nl.ret k trivial
      · refine Nl.bind (Q := fun _ s'' => s'' = s') ?_ ?_
        · split
          · exact (nl_ofOut k _).mono fun _ _ _ h => h.2
          · exact Nl.ret k rfl
        · rintro x s'' k rfl
          split
          · exact nl_addT k hr _
          · refine Nl.bind (nl_ofOut k _) ?_
            rintro i s' k ⟨-, rfl⟩
            exact nl_opT k _ hr.2

theorem nl_arg0P (k : K C s0 s) {ret : Nat} (hr : LsOk C s ret) (zero : Str) (isHas : Bool) (q : Nat) :
    Nl H C s0 (arg0P zero isHas q ret) s fun _ _ => True := by
  unfold arg0P
  split
  · exact nl_addT k hr _
  · refine Nl.bind (nl_getSt k) ?_
    rintro a s' k ⟨rfl, rfl⟩
    dsimp only
    split
    · split
      · exact nl_addT k hr _
      · split
        · exact nl_addT k hr _
        · exact Nl.ret k trivial
    · split
      · exact nl_addTs k hr _
      · exact Nl.ret k trivial

theorem nl_argcP (k : K C s0 s) {ret : Nat} (hr : LsOk C s ret) (isHas : Bool) (q : Nat) :
    Nl H C s0 (argcP isHas q ret) s fun _ _ => True := by
  unfold argcP
  split
  · exact nl_addT k hr _
  · refine Nl.bind (nl_getSt k) ?_
    rintro a s' k ⟨rfl, rfl⟩
    split
    · exact Nl.panic k
    · exact nl_addT k hr _

theorem nl_argsP (k : K C s0 s) {ret : Nat} (hi : LsIso C s ret) (isHas : Bool) {q : Nat} (hq : ScOk C s q)
    (b e : Int) (l : Bool) : Nl H C s0 (argsP isHas q b e l ret) s fun _ _ => True := by
  have hr := hi.1
  refine Nl.bind (nl_getSt k) ?_
  rintro a s' k ⟨rfl, rfl⟩
  split
  · exact Nl.panic k
  · refine Nl.bind (nl_ofOut k _) ?_
    rintro i s' k ⟨-, rfl⟩
    split
    · exact nl_addT k hr _
    · exact nl_addT k hr _
    · refine Nl.bind (Nl.rebase k (nl_opT k.rebase (.argsLine q) hq)) ?_
      rintro t s'' k' ⟨k1, -⟩
      exact nl_addT k' (hi.k k1) _
    · exact nl_opT k _ hr.2
    · exact nl_opT k _ hr.2

theorem nl_getP (k : K C s0 s) {env : Env} (he : EnvOk C s env) (name : Str) (a b c d : Bool) :
    Nl H C s0 (getP name a b c d env) s fun r s' => ∀ it n q, r = some (some (it, n, q)) → ScOk C s' q := by
  refine Nl.bind (nl_getSt k) ?_
  rintro s' s'' k ⟨rfl, rfl⟩
  split
  · exact Nl.ret k (by simp)
  · rename_i q act hg
    have hq := getName_ok k.later.inv he.q hg
    have fin : ∀ {p : Prog Unit}, Nl H C s0 p s'' (fun _ _ => True) → Nl H C s0 (do p; return some none) s''
        (fun (r : Option (Option (Item × Bool × Nat))) s1 => ∀ it n q, r = some (some (it, n, q)) → ScOk C s1 q) := by
      intro p hp
      exact Nl.bind hp fun _ _ k _ => Nl.ret k (by simp)
    split
    · exact Nl.ret k (by rintro _ _ _ ⟨⟩; exact hq)
    · exact fin (nl_addVal k he.ret _ _)
    · exact fin (nl_addT k he.ret _)
    · exact Nl.ret k (by simp)
    · exact fin (nl_addItem k he.ret _)
    · exact fin (nl_addT k he.ret _)
    · exact fin (nl_argiP k he.ret _ _ _ _ _)

theorem nlE_getAliasP (k : K C s0 s) {env : Env} (he : EnvOk C s env) (name : Str) (isHas : Bool) (equ : EquName)
    (canUp : Bool) {q2 : Nat} (hq : ScOk C s q2) :
    NlE H C s0 (getAliasP name isHas equ canUp q2 env) s fun _ _ => True := by
  refine NlE.bind (NlE.lift (Nl.rebase k (nl_getP k.rebase (he.at _ hq he.inq) _ _ _ _ _))) ?_
  rintro x s' k' ⟨k1, hx⟩
  split
  · exact NlE.ret k' trivial
  · exact NlE.ret k' trivial
  · rename_i it n q
    refine NlE.bind (nlE_callE k' [] _ rfl
      (((he.k k1).at _ (hx it n q rfl) (he.k k1).inq).hold []) trivial) ?_
    intro _ _ k _
    exact NlE.ret k trivial

theorem nlE_getArgs (k : K C s0 s) {env : Env} (he : EnvOk C s env) (name : Str) (rems : List Str) (isHas : Bool)
    (equ : EquName) {q2 : Nat} (hq : ScOk C s q2) :
    NlE H C s0 (getArgs name rems isHas equ q2 env) s fun _ _ => True := by
  unfold getArgs
  split
  · exact NlE.lift (nl_argsP k he.ri _ hq _ _ _)
  · split
    · exact NlE.lift (nl_argcP k he.ret _ _)
    · split
      · split
        · exact NlE.lift (nl_arg0P k he.ret _ _ _)
        · exact NlE.lift (nl_argiP k he.ret _ _ _ _ _)
      · refine NlE.bind (nlE_getAliasP k he _ _ _ _ hq) ?_
        intro b s' k _
        cases b
        · simp only [Bool.false_eq_true, if_false]
          split
          · exact NlE.ret k trivial
          · exact NlE.fail k
        · exact NlE.ret k trivial

theorem nlE_ofOut (k : K C s0 s) (x : Out (Except Err α)) :
    NlE H C s0 (ExceptT.mk (ofOut x)) s fun a s' => x = .ok (.ok a) ∧ s' = s :=
  NlE.mk ((nl_ofOut k x).mono fun _ _ _ h _ ha => ⟨ha ▸ h.1, h.2⟩)

theorem nlE_ite_unit (k : K C s0 s) {c : Prop} [Decidable c] {p : E Unit}
    (h : NlE H C s0 p s fun _ _ => True) :
    NlE H C s0 (if c then p else pure ()) s fun _ _ => True := by
  split
  · exact h
  · exact NlE.ret k trivial

theorem nlE_get2P (k : K C s0 s) {env : Env} (he : EnvOk C s env) (l : List Item) (isHas : Bool)
    (equ : EquName) : NlE H C s0 (get2P l isHas equ env) s fun _ _ => True := by
  refine NlE.bind (NlE.lift (nl_getSt k)) ?_
  rintro s' s'' k ⟨rfl, rfl⟩
  refine NlE.bind (nlE_ofOut k _) ?_
  rintro x s1 k ⟨hx, rfl⟩
  split
  · exact NlE.ret k trivial
  · rename_i name rems w q2
    have hq := nameScan_ok k.later.inv he.inq he.q hx
    have key : ∀ {s2}, K C s0 s2 → K C s1 s2 → NlE H C s0 (do
        if !rems.isEmpty && !argsWith2 name rems then
          if isHas then return () else fail (errNoRem2 (rems.getLast?.getD []))
        else if ← getAliasP name isHas equ false q2 env then return ()
        else if name.isEmpty then
          if ← getAliasP name isHas equ true q2 env then return ()
          else if isHas then return ()
          else fail (errNoVar name)
        else getArgs name rems isHas equ q2 env : E Unit) s2 fun _ _ => True := by
      intro s2 k2 k12
      split
      · split
        · exact NlE.ret k2 trivial
        · exact NlE.fail k2
      · refine NlE.bind (NlE.rebase k2
          (nlE_getAliasP k2.rebase (he.k k12) _ _ _ _ (hq.step k12.later.step))) ?_
        rintro b s3 k3 ⟨k23, -⟩
        have hq3 := (hq.step k12.later.step).step k23.later.step
        have he3 := (he.k k12).k k23
        split
        · exact NlE.ret k3 trivial
        · split
          · refine NlE.bind (nlE_getAliasP k3 he3 _ _ _ _ hq3) ?_
            intro b s4 k4 _
            split
            · exact NlE.ret k4 trivial
            · split
              · exact NlE.ret k4 trivial
              · exact NlE.fail k4
          · exact nlE_getArgs k3 he3 _ _ _ _ hq3
    cases w
    · exact key k k.rebase
    · refine NlE.bind (NlE.lift (Nl.rebase k (nl_addT k.rebase he.ret _))) ?_
      rintro _ s2 k2 ⟨k12, -⟩
      exact key k2 k12

theorem nlE_var1P (k : K C s0 s) {env : Env} (he : EnvOk C s env) (rems : List Str) (name : Str) :
    NlE H C s0 (var1P rems name env) s fun q s' => ScOk C s' q := by
  refine NlE.bind (NlE.lift (nl_getSt k)) ?_
  rintro s' s'' k ⟨rfl, rfl⟩
  refine NlE.bind (nlE_ofOut k _) ?_
  rintro ⟨q, w⟩ s1 k ⟨hx, rfl⟩
  have fin : ∀ {s2}, K C s0 s2 → Step C s1 s2 → NlE H C s0 (match (generalizing := false) q with
      | some q => return q
      | none => (Prog.panic : Prog Nat) : E Nat) s2 fun q s' => ScOk C s' q := by
    intro s2 k2 st
    cases q
    rotate_left
    · refine NlE.ret k2 (ScOk.step ?_ st)
      exact rem4_ok k.later.inv he.inq (fun p hp => by cases hp; exact he.q) hx
    · exact NlE.lift (Nl.panic k2)
  cases w
  · exact fin k (Step.refl _ _)
  · refine NlE.bind (NlE.lift (Nl.rebase k (nl_addT k.rebase he.ret _))) ?_
    rintro _ s2 k2 ⟨k12, -⟩
    exact fin k2 k12.later.step

theorem nlE_simpP (k : K C s0 s) {env : Env} (he : EnvOk C s0 env) (rems : List Str) (name : Str) :
    NlE H C s0 (simpP name rems env) s fun _ _ => True := by
  refine NlE.bind (nlE_var1P k (he.k k) rems name) ?_
  rintro q2 s1 k1 hq
  refine NlE.bind (NlE.lift (nl_getP k1 ((he.k k1).at _ hq (he.k k1).inq) _ _ _ _ _)) ?_
  rintro x s2 k2 hx
  split
  · exact NlE.fail k2
  · exact NlE.ret k2 trivial
  · rename_i it n q
    exact nlE_callE k2 [] _ rfl (((he.k k2).at _ (hx it n q rfl) (he.k k2).inq).hold []) trivial

/-! ## Annotations -/

theorem nl_remTarget (k : K C s0 s) {env : Env} (he : EnvOk C s env) :
    Nl H C s0 (remTarget env) s fun _ _ => True := by
  have fresh : ∀ {s1}, K C s0 s1 → EnvOk C s1 env → Nl H C s0 (do
      let i ← doOp (.newItem (.s []) [])
      addItem env.ret i
      return i) s1 fun _ _ => True := by
    intro s1 k1 he1
    refine Nl.bind (Nl.rebase k1 (nl_op k1.rebase (.newItem _ _) trivial)) ?_
    rintro i s2 k2 ⟨k12, -⟩
    refine Nl.bind (nl_addItem k2 (he1.k k12).ret _) ?_
    rintro _ _ k _
    exact Nl.ret k trivial
  unfold remTarget
  dsimp only
  split
  · exact fresh k he
  · refine Nl.bind (nl_getList k _) ?_
    rintro l s1 k1 ⟨rfl, rfl⟩
    split
    · split
      · exact fresh k1 he
      · exact Nl.ret k1 trivial
    · exact fresh k1 he

theorem nl_remP (k : K C s0 s) {env : Env} (he : EnvOk C s env) (r2 : Nat) :
    Nl H C s0 (remP r2 env) s fun _ _ => True := by
  refine Nl.bind (nl_remTarget k he) ?_
  rintro i s1 k1 -
  refine Nl.bind (nl_getList k1 _) ?_
  rintro l s2 k2 -
  exact nl_opT k2 _ trivial

theorem nlE_remsP (k : K C s0 s) {env : Env} (he : EnvOk C s env) (rems : List Code) :
    NlE H C s0 (remsP rems env) s fun _ _ => True := by
  refine NlE.bind (NlE.lift (nl_newList k)) ?_
  rintro r s1 k1 ⟨hf, k01⟩
  refine NlE.bind (NlE.lift (Nl.rebase k1 (nl_addKwI k1.rebase hf.1 _))) ?_
  rintro _ s2 k2 ⟨k12, -⟩
  refine NlE.bind (nlE_hello k2 [] rems (((he.k k01).k k12).fresh (hf.k k12) _)) ?_
  rintro _ s3 k3 -
  refine NlE.bind (NlE.lift (nl_getSt k3)) ?_
  rintro s' s'' k ⟨rfl, rfl⟩
  split
  · exact NlE.ret k trivial
  · exact NlE.lift (Nl.panic k)

theorem nlE_split2aH (k : K C s0 s) {env : Env} (hd : List Held) (a : List Code) (sp : Nat) (he : EnvOk C s env)
    (hs : HeldIn s hd := by simp [HeldIn]) :
    NlE H C s0 (split2a hd a sp env) s fun _ s' => ∀ q, Held.scope q ∈ hd → q < s.nscope →
      (s'.scopes q).argsTo1 = (s.scopes q).argsTo1 := by
  refine NlE.bind (NlE.lift (Nl.rebase k (nl_op k.rebase .newList trivial))) ?_
  rintro r s1 k1 ⟨k01, e⟩
  have hc := op_calm (H := H) .newList trivial s
  have hf : FreshL C s1 r := by
    simp only [Op.run, Prod.mk.injEq, Out.ok.injEq] at e
    obtain ⟨rfl, rfl⟩ := e
    have hn : ∀ q < s.nscope, (s.scopes q).args ≠ s.nlist := by
      intro q hq e
      have := k.later.inv.args q hq
      omega
    refine ⟨⟨Nat.lt_succ_self _, fun hp => ?_, fun q hq e => absurd e (hn q hq)⟩, hn⟩
    have := k.later.inv.pb _ hp; omega
  rw [e] at hc
  refine NlE.bind (nlE_callH k1 hd _ rfl (((he.k k01).fresh hf _).hold hd) trivial
    fun q hq => Nat.lt_of_lt_of_le (hs q hq) k01.later.step.nscope) ?_
  rintro _ s2 k2 h2
  refine NlE.bind (NlE.lift (nl_getSt k2)) ?_
  rintro s' s'' k ⟨rfl, rfl⟩
  exact NlE.ret k fun q hq hl => (h2 q hq (Nat.lt_of_lt_of_le hl k01.later.step.nscope)).trans (hc.to1 q)

theorem nlE_split2a (k : K C s0 s) {env : Env} (hd : List Held) (a : List Code) (sp : Nat) (he : EnvOk C s env)
    (hs : HeldIn s hd := by simp [HeldIn]) :
    NlE H C s0 (split2a hd a sp env) s fun _ _ => True := (nlE_split2aH k hd a sp he hs).true

theorem nlE_split2a_ret (k : K C s0 s) {env : Env} (hd : List Held) (a : List Code) (sp : Nat)
    (he : EnvOk C s env) (r : Nat) (hs : HeldIn s hd := by simp [HeldIn]) :
    NlE H C s0 (split2a hd a sp { env with ret := r }) s fun _ s' => ∀ q, Held.scope q ∈ hd → q < s.nscope →
      (s'.scopes q).argsTo1 = (s.scopes q).argsTo1 := by
  have h := nlE_split2aH (H := H) k hd a sp he hs
  exact h

/-! ## Statement lists and called definitions -/

theorem nl_codesP (k : K C s0 s) {env : Env} (he : EnvOk C s env) (a : List Code) (i e : Nat) :
    Nl H C s0 (codesP a i e env) s fun _ _ => True := by
  refine Nl.bind (nl_callP k [] _ rfl (he.hold []) trivial) ?_
  rintro r s' k -
  split <;> exact Nl.ret k trivial

theorem nl_z2Item (k : K C s0 s) {env : Env} (he : EnvOk C s env) (a : List Code) (i e : Nat) (c : Code) :
    Nl H C s0 (z2Item a i e env c) s fun _ _ => True := by
  refine Nl.bind (Nl.rebase k (nl_callP k.rebase [] _ rfl (he.hold []) trivial)) ?_
  rintro r s' k' ⟨k1, -⟩
  split
  · exact nl_callP k' [] _ rfl ((he.k k1).hold []) trivial
  · exact Nl.ret k' trivial

theorem nl_z2P (k : K C s0 s) {env : Env} (he : EnvOk C s env) (a : List Code) (i e : Nat) :
    Nl H C s0 (z2P a i e env) s fun _ _ => True := by
  unfold z2P
  split
  · split
    · exact Nl.panic k
    · rename_i c _
      split
      · split
        · exact nl_z2Item k he _ _ _ _
        · refine Nl.bind (Nl.rebase k (nl_callP k.rebase [] _ rfl (he.hold []) trivial)) ?_
          rintro r s' k' ⟨k1, -⟩
          split
          · exact Nl.ret k' trivial
          · split
            · exact nl_callP k' [] _ rfl ((he.k k1).hold []) trivial
            · exact nl_z2Item k' (he.k k1) _ _ _ _
      · split
        · exact Nl.ret k trivial
        · refine Nl.bind (nl_getSt k) ?_
          rintro s' s'' k ⟨rfl, rfl⟩
          split
          · exact nl_z2Item k he _ _ _ _
          · exact nl_callP k [] _ rfl (he.hold []) trivial
      · split
        · exact Nl.ret k trivial
        · exact nl_z2Item k he _ _ _ _
      · exact nl_z2Item k he _ _ _ _
  · exact Nl.ret k trivial

/-- What is known right after a scope was made in state `s`. -/
structure NewScope (C : Ctx) (s s' : St) (q : Nat) : Prop where
  k : K C s s'
  sc : ScOk C s' q
  ls : LsOk C s' (s'.scopes q).args
  eq : q = s.nscope
  n : s'.nscope = s.nscope + 1
  mods : s'.mods = s.mods
  datas : s'.datas = s.datas
  args : (s'.scopes q).args = s.nlist

theorem nl_newScope (k : K C s0 s) (a : Str) (an : Option ArgNames) {up : Nat} (hu : ScOk C s up) :
    Nl H C s0 (doOp (.newScope a an up)) s fun q s' => NewScope C s s' q := by
  refine (Nl.rebase k (nl_op k.rebase (.newScope a an up) hu)).mono ?_
  intro q s' _ ⟨k1, h⟩
  simp only [Op.run, Prod.mk.injEq, Out.ok.injEq] at h
  obtain ⟨rfl, rfl⟩ := h
  have hi := k.later.inv
  have ha : (upd s.scopes s.nscope (Scope.new [] [] a an (some (up, (s.scopes up).i)) s.nlist) s.nscope).args
      = s.nlist := by simp [upd, Scope.new]
  refine ⟨k1, ⟨Nat.lt_succ_self _, fun X hX h => ?_⟩, ⟨?_, fun h => ?_, fun q hq e => ?_⟩, rfl, rfl, rfl, rfl, ha⟩
  · have := hi.xb X hX _ h; omega
  · exact Nat.lt_of_le_of_lt (Nat.le_of_eq ha) (Nat.lt_succ_self _)
  · have := hi.pb _ h
    dsimp only at this
    rw [ha] at this; omega
  · dsimp only at e hq ⊢
    rw [ha] at e
    by_cases hlt : q < s.nscope
    · have := hi.args q hlt
      rw [show upd s.scopes s.nscope (Scope.new [] [] a an (some (up, (s.scopes up).i)) s.nlist) q = s.scopes q by
        simp only [upd]; rw [if_neg (by omega)]] at e
      omega
    · have : q = s.nscope := by omega
      subst this
      simp [upd, Scope.new]

/-- The context with one more set of unreachable scopes. -/
def Ctx.add (C : Ctx) (Y : Nat → Prop) : Ctx := ⟨fun X => C.X X ∨ X = Y, C.P⟩

theorem Inv.of_add {Y : Nat → Prop} (h : Inv (C.add Y) s) : Inv C s :=
  ⟨⟨h.top.1, fun X hX => h.top.2 X (.inl hX)⟩, fun q hq => ⟨(h.mods q hq).1, fun X hX => (h.mods q hq).2 X (.inl hX)⟩,
    fun q hq => ⟨(h.datas q hq).1, fun X hX => (h.datas q hq).2 X (.inl hX)⟩,
    fun q hq p hp => ⟨(h.up q hq p hp).1, (h.up q hq p hp).2.1, fun X hX => (h.up q hq p hp).2.2 X (.inl hX)⟩,
    h.root, h.args, h.inj, fun X hX => h.xb X (.inl hX), h.pb, h.line⟩

theorem Step.of_add {Y : Nat → Prop} {s s' : St} (h : Step (C.add Y) s s') : Step C s s' :=
  ⟨h.nscope, h.nlist, h.up, h.i, h.args, h.fresh, h.lists, h.held,
    fun q hq hx => h.to1 q hq (hx.imp id fun ⟨X, hX, hx⟩ => ⟨X, .inl hX, hx⟩)⟩

theorem Nl.of_add {Y : Nat → Prop} {p : Prog α} {Q : α → St → Prop} (k : K C s0 s)
    (h : Nl H (C.add Y) s p s Q) : Nl H C s0 p s Q := by
  refine wp_mono (fun s' h => ⟨h.1.of_add, k.later.step.trans h.2.of_add⟩) p s (fun a s' _ h => ⟨⟨k.ok0, ?_, ?_⟩, h.2⟩) h
  · exact k.later.trans ⟨h.1.later.inv.of_add, h.1.later.step.of_add, h.1.later.held⟩
  · exact h.1.labels.trans k.labels

theorem Inv.add {Y : Nat → Prop} (h : Inv C s) (h0 : ¬ Y 0) (hm : ∀ q ∈ s.mods, ¬ Y q) (hd : ∀ q ∈ s.datas, ¬ Y q)
    (hu : ∀ q < s.nscope, ∀ p, (s.scopes q).up = some p → ¬ Y q → ¬ Y p) (hb : ∀ q, Y q → q < s.nscope) :
    Inv (C.add Y) s := by
  have e : ∀ {q}, ScOk C s q → ¬ Y q → ScOk (C.add Y) s q := fun h hy =>
    ⟨h.1, fun X hX => by rcases hX with hX | rfl; exact h.2 X hX; exact hy⟩
  refine ⟨e h.top h0, fun q hq => e (h.mods q hq) (hm q hq), fun q hq => e (h.datas q hq) (hd q hq), ?_, h.root,
    h.args, h.inj, ?_, h.pb, h.line⟩
  · intro q hq p hp
    refine ⟨(h.up q hq p hp).1, (h.up q hq p hp).2.1, fun X hX => ?_⟩
    rcases hX with hX | rfl
    · exact (h.up q hq p hp).2.2 X hX
    · exact hu q hq p hp
  · intro X hX
    rcases hX with hX | rfl
    · exact h.xb X hX
    · exact hb

/-- Right after a scope was made, its argument list can be the result list of an evaluation in the old
scope. -/
theorem NewScope.argsEnv {s1 : St} {q : Nat} (n : NewScope C s s1 q) (ok : Ok C s1) {env : Env}
    (hs : Ok C s) (he : EnvOk C s env) :
    ∃ Y, Ok (C.add Y) s1 ∧ ∀ gd, EnvOk (C.add Y) s1 ⟨gd, env.q, (s1.scopes q).args, env.inq⟩ := by
  obtain ⟨X, hX, hp⟩ := he.iso
  have lt : ∀ {p}, ScOk C s p → ¬ (X p ∨ p = q) := by
    rintro p h (h' | rfl)
    · exact h.2 X hX h'
    · have := h.1; have := n.eq; omega
  have e : ∀ {p}, ScOk C s p → ScOk (C.add fun p => X p ∨ p = q) s1 p := fun h =>
    ⟨by have := h.1; have := n.n; omega, fun X' hX' => by
      rcases hX' with hX' | rfl
      · exact h.2 X' hX'
      · exact lt h⟩
  refine ⟨fun p => X p ∨ p = q, ⟨ok.inv.add ?_ ?_ ?_ ?_ ?_, ?_, ok.held⟩, fun gd => ⟨e he.q, fun p hp => e (he.inq p hp), n.ls, ?_⟩⟩
  · exact lt hs.inv.top
  · intro p hp; exact lt (hs.inv.mods p (n.mods ▸ hp))
  · intro p hp; exact lt (hs.inv.datas p (n.datas ▸ hp))
  · rintro p hp u hu hy (h | rfl)
    · exact (ok.inv.up p hp u hu).2.2 X hX (fun h => hy (.inl h)) h
    · have := (ok.inv.up p hp u hu).1
      have := n.n; have := n.eq
      omega
  · rintro p (h | rfl)
    · exact ok.inv.xb X hX p h
    · exact n.sc.1
  · intro l hl
    obtain ⟨X', hX', hp'⟩ := ok.prot l hl
    exact ⟨X', .inl hX', hp'⟩
  · refine ⟨_, .inr rfl, fun p hp hy ha => ?_⟩
    exact absurd (.inr (ok.inv.inj p hp q n.sc.1 ha)) hy

theorem nl_z4Args (k : K C s0 s) {env : Env} {args : Nat} (he : ∀ gd, EnvOk C s ⟨gd, env.q, args, env.inq⟩)
    (h : Held) (hh : ∀ st, HeldIn st [h]) (d : Def) (a : List Code) (cs : Str) (end2 end_ idx2 idx : Nat) (a2 : List Code) (end2a : Nat) :
    Nl H C s0 (z4Args h d a cs end2 end_ env idx2 idx a2 end2a args) s fun _ _ => True := by
  unfold z4Args
  split
  · exact Nl.ret k trivial
  · refine Nl.bind (Q := fun _ s' => K C s s') ?_ ?_
    · split
      · refine (Nl.rebase k (nl_callP k.rebase [h] _ rfl ((he env.gd).hold [h]) ?_ (hh _))).mono fun _ _ _ h => h.1
        trivial
      · refine Nl.bind (Nl.rebase k (nl_callP k.rebase [h] _ rfl ((he env.gd).hold [h]) trivial (hh _))) ?_
        rintro r s1 k1 ⟨k01, -⟩
        split <;> exact Nl.ret k1 k01
    · rintro r s1 k1 k01
      split
      · exact Nl.ret k1 trivial
      · refine Nl.bind (nl_callP k1 [h] _ rfl (((he _).k k01).hold [h]) trivial (hh _)) ?_
        rintro r' s2 k2 -
        split <;> exact Nl.ret k2 trivial

theorem nlE_parseE (k : K C s0 s) (src : Str) : NlE H C s0 (parseE src) s fun _ _ => True :=
  NlE.mk ((nl_opT k (.parse src) trivial).mono fun _ _ _ _ _ _ => trivial)

theorem nlE_parseC (k : K C s0 s) (src : Str) : NlE H C s0 (parseE src) s fun _ s' => Calm s s' :=
  NlE.mk ((nl_opC k (.parse src) trivial trivial).mono fun _ _ _ h _ _ => h)

theorem nlE_pure (k : K C s0 s) (x : Except Err α) : NlE H C s0 (ExceptT.mk (pure x)) s fun a s' => x = .ok a ∧ s' = s :=
  NlE.mk (Nl.ret k fun _ h => ⟨h, rfl⟩)

theorem nlE_returnP (k : K C s0 s) (q : Nat) (r : Except Err Unit) :
    NlE H C s0 (returnP q r) s fun _ _ => True := by
  refine NlE.bind (NlE.lift (nl_getSt k)) ?_
  rintro s' s'' k ⟨rfl, rfl⟩
  exact (nlE_pure k _).true

theorem nlE_z4Body (k : K C s0 s) {env : Env} (he : EnvOk C s env) {p q2 args : Nat} (hp : ScOk C s p)
    (hq : ScOk C s q2) (ha : LsOk C s args) (h : Held) (hh : ∀ st, HeldIn st [h]) (d : Def) (src : Str) :
    NlE H C s0 (z4Body h d src env p q2 args) s fun _ _ => True := by
  refine NlE.bind (NlE.rebase k (nlE_parseC k.rebase src)) ?_
  rintro codes s1 k1 ⟨k01, c01⟩
  have fin : ∀ {s2}, K C s0 s2 → K C s1 s2 → NlE H C s0 (do
      let r ← callP [h] (.codes codes 0 usizeMax ⟨{ env.gd with jvhao := false }, q2, env.ret, some p⟩)
      returnP q2 r.r) s2 fun _ _ => True := by
    intro s2 k2 k12
    have e2 : EnvOk C s2 ⟨{ env.gd with jvhao := false }, q2, env.ret, some p⟩ :=
      ((he.k k01).k k12).at _ ((hq.step k01.later.step).step k12.later.step)
        fun p' e => by cases e; exact (hp.step k01.later.step).step k12.later.step
    refine NlE.bind (NlE.lift (nl_callP k2 [h] _ rfl (e2.hold [h]) trivial (hh _))) ?_
    rintro r s3 k3 -
    exact nlE_returnP k3 _ _
  have skip : NlE H C s0 (do
      let r ← callP [h] (.codes codes 0 usizeMax ⟨{ env.gd with jvhao := false }, q2, env.ret, some p⟩)
      returnP q2 r.r) s1 fun _ _ => True := fin k1 k1.rebase
  split
  · refine NlE.bind (NlE.lift (Nl.rebase k1 (nl_opC k1.rebase (.newItem _ _) trivial trivial))) ?_
    rintro sep s2 k2 ⟨k12, c12⟩
    refine NlE.bind (NlE.lift (nl_getSt k2)) ?_
    rintro s' s'' k2 ⟨rfl, rfl⟩
    refine NlE.bind (NlE.lift (nl_ofOut k2 _)) ?_
    rintro x s3 k3 ⟨-, rfl⟩
    cases x with
    | none => exact NlE.bind (Q := fun _ _ => False) (NlE.fail k3) (fun _ _ _ h => h.elim)
    | some x =>
      obtain ⟨l, largs⟩ := x
      refine NlE.bind (NlE.lift (Nl.rebase k3 (nl_opC k3.rebase (.setList _ _) ((he.k k01).k k12).ret.2 trivial))) ?_
      rintro _ s4 k4 ⟨k34, c34⟩
      refine NlE.bind (NlE.lift (Nl.rebase k4 (nl_opT k4.rebase (.setList _ _) (((ha.calm c01).calm c12).calm c34).2))) ?_
      rintro _ s5 k5 ⟨k45, -⟩
      exact fin k5 ⟨k1.ok, (k12.later.trans k34.later).trans k45.later, (k45.labels.trans k34.labels).trans k12.labels⟩
  · exact skip

theorem nl_z4Call (k : K C s0 s) {env : Env} (he : EnvOk C s env) {p : Nat} (hp : ScOk C s p) (a : List Code)
    (cs : Str) (end2 end_ : Nat) (st : Z4) (idx2 kk : Nat) (d : Def) (src : Str) (a2 : List Code) (end2a : Nat) :
    Nl H C s0 (z4Call a cs end2 end_ env st idx2 p kk d src a2 end2a) s fun _ _ => True := by
  refine Nl.bind (nl_newScope k _ _ he.q) ?_
  rintro q2 s1 k1 n
  refine Nl.bind (nl_getSt k1) ?_
  rintro s' s'' k1 ⟨rfl, rfl⟩
  dsimp only
  obtain ⟨Y, hY, heY⟩ := n.argsEnv k1.ok k.ok he
  refine Nl.bind (Nl.rebase k1 (Nl.of_add k1.rebase (Nl.rebase (K.refl hY)
    (nl_z4Args (K.refl hY) heY _ (by simp [HeldIn]) _ _ _ _ _ _ _ _ _)))) ?_
  rintro r s2 k2 ⟨k12, kY, -⟩
  have ls2 : LsOk C s2 (s''.scopes q2).args := ((heY {}).k kY).ret
  have st02 := n.k.later.step.trans k12.later.step
  have he2 := (he.k n.k).k k12
  split
  · exact Nl.ret k2 trivial
  · refine Nl.bind (Nl.rebase k2 (NlE.catch (nlE_z4Body k2.rebase he2 (hp.step st02)
      (n.sc.step k12.later.step) ls2 _ (by simp [HeldIn]) _ _))) ?_
    rintro r' s3 k3 ⟨k23, -⟩
    split
    · exact Nl.ret k3 trivial
    · exact nl_callP k3 [] _ rfl ((he2.k k23).hold []) trivial

theorem nl_z4P (k : K C s0 s) {env : Env} (he : EnvOk C s env) (a : List Code)
    (cs : Str) (end2 end_ : Nat) (st : Z4) :
    Nl H C s0 (z4P a cs end2 end_ env st) s fun _ _ => True := by
  unfold z4P
  split
  · refine Nl.bind (nl_getSt k) ?_
    rintro s' s'' k ⟨rfl, rfl⟩
    split
    · split
      · exact Nl.panic k
      · exact nl_callP k [] _ rfl (he.hold []) trivial
    · rename_i idx3 len p kk hf
      have hp := findDef_ok k.later.inv he.q hf
      split
      · exact Nl.panic k
      · refine Nl.bind (nl_ofOut k _) ?_
        rintro x s1 k ⟨-, rfl⟩
        split
        · exact nl_callP k [] _ rfl (he.hold []) trivial
        · refine Nl.bind (Nl.rebase k (nl_addTs k.rebase he.ret _)) ?_
          rintro _ s2 k2 ⟨k12, -⟩
          split
          · refine Nl.bind (Nl.rebase k2 (nl_addT k2.rebase (he.k k12).ret _)) ?_
            rintro _ s3 k3 ⟨k23, -⟩
            exact nl_callP k3 [] _ rfl (((he.k k12).k k23).hold []) trivial
          · exact nl_z4Call k2 (he.k k12) (hp.step k12.later.step) _ _ _ _ _ _ _ _ _ _ _
  · split
    · split
      · refine Nl.bind (nl_addT k he.ret _) ?_
        rintro _ s1 k -
        exact Nl.ret k trivial
      · exact Nl.ret k trivial
    · exact Nl.ret k trivial

/-! ## Sources -/

theorem nlE_srcP (k : K C s0 s) {env : Env} (he : EnvOk C s env) (src : Str) :
    NlE H C s0 (srcP src env) s fun _ _ => True := by
  refine NlE.bind (NlE.rebase k (nlE_parseE k.rebase src)) ?_
  rintro codes s1 k1 ⟨k01, -⟩
  refine NlE.bind (NlE.lift (nl_callP k1 [] _ rfl (((he.k k01).gd _).hold []) trivial)) ?_
  rintro r s2 k2 -
  exact nlE_returnP k2 _ _

theorem nl_openP (k : K C s0 s) (f : Str) (b : Bool) (q : Nat) :
    Nl H C s0 (openP f b q) s fun _ s' => Calm s s' := by
  refine Nl.bind (nl_opC k (.open_ f) trivial trivial) ?_
  rintro x s1 k c1
  split
  · have fin : ∀ {s2}, K C s0 s2 → Calm s s2 →
        Nl H C s0 (do doOp (.setIsFile q); return true) s2 fun _ s' => Calm s s' := by
      intro s2 k c
      refine Nl.bind (nl_opC k _ trivial trivial) ?_
      rintro _ s2 k c'
      exact Nl.ret k (c.trans c')
    cases b
    · exact fin k c1
    · refine Nl.bind (nl_opC k (.setSrc _ _) trivial trivial) ?_
      rintro _ s2 k c2
      exact fin k (c1.trans c2)
  · exact Nl.ret k c1

theorem nl_openFirst (k : K C s0 s) (f : Str) (b : Bool) (q : Nat) (ps : List Str) :
    Nl H C s0 (openFirst f b q ps) s fun _ s' => Calm s s' := by
  induction ps generalizing s with
  | nil => exact Nl.ret k (Calm.refl _)
  | cons p ps ih =>
    refine Nl.bind (nl_opC k (.fileName _ _) trivial trivial) ?_
    rintro x s1 k c1
    split
    · refine Nl.bind (nl_openP k _ _ _) ?_
      rintro x s2 k c2
      split
      · exact Nl.ret k (c1.trans c2)
      · exact (ih k).mono fun _ _ _ c => (c1.trans c2).trans c
    · exact (ih k).mono fun _ _ _ c => c1.trans c

theorem nl_okSrcP (k : K C s0 s) (f : Str) (b : Bool) (q : Nat) :
    Nl H C s0 (okSrcP f b q) s fun _ s' => Calm s s' := by
  unfold okSrcP
  split
  · exact Nl.ret k (Calm.refl _)
  · split
    · exact nl_openP k _ _ _
    · refine Nl.bind (nl_getSt k) ?_
      rintro s' s'' k ⟨rfl, rfl⟩
      refine Nl.bind (nl_openFirst k _ _ _ _) ?_
      rintro x s1 k c1
      split
      · exact Nl.ret k c1
      · exact (nl_openP k _ _ _).mono fun _ _ _ c => c1.trans c

theorem nl_cliArg (k : K C s0 s) {args : Nat} (ha : LsOk C s args) (t : Str) :
    Nl H C s0 (cliArg args t) s fun _ s' => Calm s s' := by
  refine Nl.bind (nl_getList k _) ?_
  rintro l s1 k ⟨rfl, rfl⟩
  split
  · refine Nl.bind (nl_addDunC k ha) ?_
    rintro _ s2 k2 c
    exact (nl_addTC k2 (ha.calm c) _).mono fun _ _ _ c' => c.trans c'
  · exact nl_addTC k ha _

theorem nl_cliActs (k : K C s0 s) {q : Nat} (ha : LsOk C s (s.scopes q).args)
    (acts : List CliAct) : Nl H C s0 (cliActs q acts) s fun _ s' => Calm s s' := by
  induction acts generalizing s with
  | nil => exact Nl.ret k (Calm.refl _)
  | cons act acts ih =>
    have fin : ∀ {p : Prog Unit}, Nl H C s0 p s (fun _ s' => Calm s s') →
        Nl H C s0 (do p; cliActs q acts) s fun _ s' => Calm s s' := by
      intro p hp
      refine Nl.bind hp ?_
      rintro _ s2 k2 c
      exact (ih k2 (ha.calmArgs c)).mono fun _ _ _ c' => c.trans c'
    unfold cliActs
    cases act with
    | src t => exact fin (nl_opC k _ trivial trivial)
    | arg t =>
      refine fin (p := do let s ← getSt; cliArg (s.scopes q).args t) ?_
      refine Nl.bind (nl_getSt k) ?_
      rintro s' s'' k ⟨rfl, rfl⟩
      exact nl_cliArg k ha _
    | isCode => exact fin (nl_opC k _ trivial trivial)
    | path t => exact fin (nl_opC k _ trivial trivial)
    | jhdh => exact fin (nl_opC k _ trivial trivial)
    | ignore t => exact fin (nl_opC k _ trivial trivial)

theorem nl_shlP (k : K C s0 s) (b : Bool) (a : List Str) :
    Nl H C s0 (shlP b a) s fun _ s' => Calm s s' := by
  unfold shlP
  split
  · split
    · exact Nl.panic k
    · rename_i shl a
      refine Nl.bind (nl_getSt k) ?_
      rintro s' s'' k ⟨rfl, rfl⟩
      have fin : ∀ {s1}, K C s0 s1 → Calm s'' s1 →
          Nl H C s0 (do doOp (.path shl); return a) s1 fun _ s' => Calm s'' s' := by
        intro s1 k c
        refine Nl.bind (nl_opC k _ trivial trivial) ?_
        rintro _ s2 k c'
        exact Nl.ret k (c.trans c')
      split
      · refine Nl.bind (nl_opC k (.shl _) trivial trivial) ?_
        rintro _ s2 k c
        exact fin k c
      · exact fin k (Calm.refl _)
  · exact Nl.ret k (Calm.refl _)

theorem nlE_clparsP (k : K C s0 s) {q : Nat} (ha : LsOk C s (s.scopes q).args) (a : List Str)
    (b1 b2 b3 b4 : Bool) : NlE H C s0 (clparsP a b1 b2 b3 b4 q) s fun _ s' => Calm s s' := by
  refine NlE.bind (NlE.lift (nl_shlP k _ _)) ?_
  rintro a1 s1 k1 c1
  refine NlE.bind (NlE.lift (nl_ofOut k1 _)) ?_
  rintro ⟨a2, hs, src⟩ s2 k2 ⟨-, rfl⟩
  have fin : ∀ {s3}, K C s0 s3 → Calm s s3 → NlE H C s0 (do
      let (r, (_, acts)) := Clpars.for3 (cliCb b3) (fun st _ => (0, st)) (cliTable b3) issue a2 (hs, [])
      cliActs q acts
      ExceptT.mk (pure (clparsRet r))) s3 fun _ s' => Calm s s' := by
    intro s3 k3 c3
    dsimp only
    refine NlE.bind (NlE.lift (nl_cliActs k3 (ha.calmArgs c3) _)) ?_
    rintro _ s4 k4 c4
    exact (nlE_pure k4 _).mono fun _ _ _ h => by rw [h.2]; exact c3.trans c4
  cases src with
  | none => exact fin k2 c1
  | some s =>
    refine NlE.bind (NlE.lift (nl_opC k2 (.setSrc _ _) trivial trivial)) ?_
    rintro _ s3 k3 c3
    exact fin k3 (c1.trans c3)

theorem unheld_args (ok : Ok C s) {q : Nat} (hq : ScOk C s q) (h : Held.scope q ∉ s.held)
    (hc : (s.scopes q).argsTo1 = false) : LsOk C s (s.scopes q).args := by
  refine ⟨ok.inv.args q hq.1, fun hp => ?_, fun p hp e => ?_⟩
  · obtain ⟨X, hX, hp⟩ := ok.prot _ hp
    exact h (hp q hq.1 (hq.2 X hX) rfl)
  · rw [ok.inv.inj p hp q hq.1 e]; exact hc

theorem modScope_unheld {q : Nat} {f : Scope → Scope} {a : Unit} {s' : St} (h : s.modScope q f = (.ok a, s')) :
    Held.scope q ∉ s.held := by
  intro hm
  rw [St.modScope, if_pos (by simpa using hm)] at h
  simp at h

theorem nl_touch (k : K C s0 s) (q : Nat) (hq : ScOk C s q) (hc : (s.scopes q).argsTo1 = false) :
    Nl H C s0 (doOp (.touch q)) s fun _ s' => Calm s s' ∧ LsOk C s' (s'.scopes q).args := by
  refine (nl_op k (.touch q) trivial).mono ?_
  rintro _ s' _ h
  have c := op_calm (H := H) (.touch q) trivial s
  rw [h] at c
  exact ⟨c, (unheld_args k.ok hq (modScope_unheld h) hc).calmArgs c⟩

theorem nlE_src2P (k : K C s0 s) {q : Nat} (hq : ScOk C s q) (hc : (s.scopes q).argsTo1 = false) (src : Str) :
    NlE H C s0 (src2P src q) s fun _ _ => True := by
  refine NlE.bind (NlE.lift (nl_opC k (.read _) trivial trivial)) ?_
  rintro x s1 k1 c1
  split
  · exact NlE.fail k1
  · split
    · refine NlE.bind (NlE.lift (nl_touch k1 q ⟨c1.nscope ▸ hq.1, hq.2⟩ ((c1.to1 q).trans hc))) ?_
      rintro _ s2 k2 ⟨-, ha2⟩
      refine NlE.bind (nlE_clparsP k2 ha2 _ _ _ _ _) ?_
      rintro _ s3 k3 -
      exact NlE.ret k3 trivial
    · exact NlE.ret k1 trivial

theorem nlE_loadP (k : K C s0 s) {q : Nat} (hq : ScOk C s q) (hc : (s.scopes q).argsTo1 = false) (src : Str)
    (b : Bool) : NlE H C s0 (loadP src b q) s fun _ _ => True := by
  refine NlE.bind (NlE.lift (nl_okSrcP k _ _ _)) ?_
  rintro _ s1 k1 c1
  refine NlE.bind (NlE.lift (nl_getSt k1)) ?_
  rintro s' s'' k1 ⟨rfl, rfl⟩
  split
  · exact NlE.ret k1 trivial
  · refine NlE.bind (nlE_src2P k1 ⟨c1.nscope ▸ hq.1, hq.2⟩ ((c1.to1 q).trans hc) _) ?_
    rintro _ s3 k3 -
    exact NlE.ret k3 trivial

theorem nlE_evalArg0 (k : K C s0 s) {env : Env} (he : EnvOk C s env) (arg0 : Str) (i : List Code) :
    NlE H C s0 (evalArg0 arg0 i env) s fun _ _ => True := by
  unfold evalArg0
  split
  · exact NlE.ret k trivial
  · split
    · refine NlE.bind (nlE_helloNew k [] _ he) ?_
      rintro r s1 k1 -
      refine NlE.bind (NlE.lift (nl_getList k1 r)) ?_
      rintro l s2 k2 -
      exact NlE.ret k2 trivial
    · exact NlE.ret k trivial

theorem EnvOk.argsHeld {env : Env} (h : EnvOk C s env) (ok : Ok C s) {q : Nat} (hq : ScOk C s q)
    (ha : LsOk C s (s.scopes q).args) (gd : Opt) :
    EnvOk C (s.hold [.scope q]) ⟨gd, env.q, (s.scopes q).args, env.inq⟩ :=
  ⟨h.q, h.inq, ha, h.iso.imp fun _ hX => ⟨hX.1, fun p hp _ e => by
    have := ok.inv.inj p hp q hq.1 e
    subst this
    exact List.mem_append_left _ (List.mem_singleton.2 rfl)⟩⟩

/-- The argument list of a scope that was borrowed meanwhile. -/
theorem args_kept {q : Nat} (h : LsOk C s0 (s0.scopes q).args) (hq : ScOk C s0 q) (k : K C s0 s) (ok : Ok C s)
    (hc : (s.scopes q).argsTo1 = (s0.scopes q).argsTo1) : LsOk C s (s.scopes q).args := by
  have hq' := hq.step k.later.step
  refine ⟨ok.inv.args q hq'.1, ?_, fun p hp e => ?_⟩
  · rw [k.later.step.args q hq.1]; exact h.2.1
  · rw [ok.inv.inj p hp q hq'.1 e, hc]; exact h.2.2 q hq.1 rfl

theorem nlE_evalP (k : K C s0 s) {env : Env} (he : EnvOk C s0 env) (load cur : Bool) (arg0 : Str)
    (iArg0 a : List Code) (sp : Nat) (spInEnd : Bool) :
    NlE H C s0 (evalP load cur arg0 iArg0 a sp spInEnd env) s fun _ _ => True := by
  refine NlE.bind (Q := fun q s' => ScOk C s' q) ?_ ?_
  · split
    · exact NlE.lift (Nl.ret k (he.k k).q)
    · exact NlE.lift ((nl_newScope k _ _ (he.k k).q).mono fun _ _ _ n => n.sc)
  rintro q2 s1 k1 hq1
  refine NlE.bind (Q := fun _ s' => ScOk C s' q2 ∧ LsOk C s' (s'.scopes q2).args) (NlE.lift ?_) ?_
  · refine (Nl.rebase k1 (nl_op k1.rebase (.clearArgs1 q2) hq1)).mono ?_
    rintro _ s' k' ⟨k12, h⟩
    have h' : s1.modScope q2 (fun c => { c with argsTo1 := false, args1 := [] }) = _ := h
    have hu := modScope_unheld h'
    refine ⟨hq1.step k12.later.step, unheld_args k'.ok (hq1.step k12.later.step) (k12.later.held ▸ hu) ?_⟩
    rw [St.modScope, if_neg (by simpa using hu)] at h'
    obtain ⟨-, rfl⟩ := Prod.mk.inj h'
    simp [upd]
  rintro _ s2 k2 ⟨hq2, ha2⟩
  refine NlE.bind (NlE.lift (nl_getSt k2)) ?_
  rintro s' s'' k2 ⟨rfl, rfl⟩
  dsimp only
  have rest2 : ∀ {s5}, K C s0 s5 → ScOk C s5 q2 → ∀ src2 : Str,
      NlE H C s0 (callE [] (.src src2 { env with q := q2 })) s5 fun _ _ => True := by
    intro s5 k5 hq5 src2
    exact nlE_callE k5 [] _ rfl (((he.k k5).at _ hq5 (he.k k5).inq).hold []) trivial
  have rest1 : ∀ {s4}, K C s0 s4 → ScOk C s4 q2 → (s4.scopes q2).argsTo1 = false → ∀ src : Str, NlE H C s0 (do
      match ← (if load then loadP src cur q2 else pure (some src) : E (Option Str)) with
      | none => return ()
      | some src2 =>
        if !cur then
          let arg0 ← evalArg0 arg0 iArg0 env
          if !arg0.isEmpty then doOp (.setArg0 q2 arg0)
        callE [] (.src src2 { env with q := q2 }) : E Unit) s4 fun _ _ => True := by
    intro s4 k4 hq4 hc4 src
    refine NlE.bind (Q := fun _ s' => K C s4 s') ?_ ?_
    · split
      · exact (NlE.rebase k4 (nlE_loadP k4.rebase hq4 hc4 _ _)).mono fun _ _ _ h => h.1
      · exact NlE.ret k4 k4.rebase
    rintro x s5 k5 k45
    have hq5 := hq4.step k45.later.step
    split
    · exact NlE.ret k5 trivial
    · cases cur
      · refine NlE.bind (NlE.rebase k5 (nlE_evalArg0 k5.rebase (he.k k5) _ _)) ?_
        rintro arg0 s6 k6 ⟨k56, -⟩
        have hq6 := hq5.step k56.later.step
        split
        · refine NlE.bind (NlE.lift (Nl.rebase k6 (nl_opT k6.rebase (.setArg0 _ _) trivial))) ?_
          rintro _ s7 k7 ⟨k67, -⟩
          exact rest2 k7 (hq6.step k67.later.step) _
        · exact rest2 k6 hq6 _
      · exact rest2 k5 hq5 _
  have rest0 : ∀ {s3}, K C s0 s3 → ScOk C s3 q2 → LsOk C s3 (s3.scopes q2).args →
      NlE H C s0 (do
        let (src, rems) ← split2a [.scope q2] a sp { env with ret := (s3.scopes q2).args }
        match rems with
        | r :: _ => fail (errNoRem2 r)
        | [] =>
          split2b [.scope q2] a sp { env with ret := (s3.scopes q2).args }
          let l ← getList (s3.scopes q2).args
          if l.a.isEmpty && spInEnd then addT (s3.scopes q2).args []
          if !cur then doOp (.setSrc q2 src)
          match ← (if load then loadP src cur q2 else pure (some src) : E (Option Str)) with
          | none => return ()
          | some src2 =>
            if !cur then
              let arg0 ← evalArg0 arg0 iArg0 env
              if !arg0.isEmpty then doOp (.setArg0 q2 arg0)
            callE [] (.src src2 { env with q := q2 }) : E Unit) s3 fun _ _ => True := by
    intro s3 k3 hq3 ha3
    refine NlE.bind (NlE.rebase k3 (nlE_split2a_ret k3.rebase [.scope q2] a sp (he.k k3) _
      (by simpa [HeldIn] using hq3.1))) ?_
    rintro ⟨src, rems⟩ s4 k4 ⟨k34, c34⟩
    have hq4 := hq3.step k34.later.step
    have ha4 : LsOk C s4 (s4.scopes q2).args := args_kept ha3 hq3 k34 k4.ok (c34 q2 (List.mem_singleton.2 rfl) hq3.1)
    dsimp only
    split
    · exact NlE.fail k4
    · rw [← k34.later.step.args q2 hq3.1]
      refine NlE.bind (NlE.rebase k4 (nlE_callH k4.rebase [.scope q2] _ rfl
        ((he.k k4).argsHeld k4.ok hq4 ha4 _) trivial (by simpa [HeldIn] using hq4.1))) ?_
      rintro _ s5 k5 ⟨k45, c45⟩
      have hq5 := hq4.step k45.later.step
      have ha5 : LsOk C s5 (s5.scopes q2).args := args_kept ha4 hq4 k45 k5.ok (c45 q2 (List.mem_singleton.2 rfl) hq4.1)
      rw [← k45.later.step.args q2 hq4.1]
      refine NlE.bind (NlE.lift (nl_getList k5 _)) ?_
      rintro l s6 k6 ⟨rfl, rfl⟩
      have fin : ∀ {s7}, K C s0 s7 → ScOk C s7 q2 → (s7.scopes q2).argsTo1 = false → NlE H C s0 (do
          if !cur then doOp (.setSrc q2 src)
          match ← (if load then loadP src cur q2 else pure (some src) : E (Option Str)) with
          | none => return ()
          | some src2 =>
            if !cur then
              let arg0 ← evalArg0 arg0 iArg0 env
              if !arg0.isEmpty then doOp (.setArg0 q2 arg0)
            callE [] (.src src2 { env with q := q2 }) : E Unit) s7 fun _ _ => True := by
        intro s7 k7 hq7 hc7
        cases cur
        · refine NlE.bind (NlE.lift (Nl.rebase k7 (nl_opC k7.rebase (.setSrc _ _) trivial trivial))) ?_
          rintro _ s8 k8 ⟨k78, c78⟩
          exact rest1 k8 (hq7.step k78.later.step) ((c78.to1 q2).trans hc7) _
        · exact rest1 k7 hq7 hc7 _
      split
      · refine NlE.bind (NlE.lift (Nl.rebase k6 (nl_addTC k6.rebase ha5 _))) ?_
        rintro _ s7 k7 ⟨k67, c67⟩
        exact fin k7 (hq5.step k67.later.step) ((c67.to1 q2).trans (ha5.2.2 q2 hq5.1 rfl))
      · exact fin k6 hq5 (ha5.2.2 q2 hq5.1 rfl)
  split
  · refine NlE.bind (NlE.lift (Nl.rebase k2 (nl_addDunC k2.rebase ha2))) ?_
    rintro _ s3 k3 ⟨k23, c23⟩
    rw [← k23.later.step.args q2 hq2.1]
    exact rest0 k3 (hq2.step k23.later.step) (ha2.calmArgs c23)
  · exact rest0 k2 hq2 ha2

end Zh
