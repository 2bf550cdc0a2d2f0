import Verif.Props.Wp
/-!
# The heap of the evaluator

The invariants of the scopes and result lists that every evaluation keeps:

* a parent is older than its child and one level above it; parents, depths and argument lists of scopes
  never change;
* an evaluation writes only to its own result list, to lists made during it, and to the argument lists
  of scopes it can reach and that are not borrowed;
* the stack of loop labels is the same before and after (except inside the loop statement itself).

"Scopes it can reach" is expressed by sets `X` of scopes that are closed the other way round: nothing
outside `X` (the top scope, modules, parents of scopes outside `X`, the current scope) leads into `X`.
-/
namespace Zh

/-- What is kept apart from an evaluation: families of unreachable scopes and protected lists. -/
structure Ctx where
  X : (Nat → Prop) → Prop
  P : Nat → Prop

/-- The scope exists and is outside all sets of unreachable scopes. -/
def ScOk (C : Ctx) (s : St) (q : Nat) : Prop := q < s.nscope ∧ ∀ X, C.X X → ¬ X q

/-- Nothing is remembered of the argument line of the scope, or its present value is. -/
def Lined (s : St) (q : Nat) : Prop :=
  ((s.scopes q).argsTo1 = false → (s.scopes q).args1 = []) ∧
  ((s.scopes q).argsTo1 = true → (s.scopes q).args1 = (s.lists (s.scopes q).args).to1)

/-- The invariant of the heap. -/
structure Inv (C : Ctx) (s : St) : Prop where
  top : ScOk C s 0
  mods : ∀ q ∈ s.mods, ScOk C s q
  datas : ∀ q ∈ s.datas, ScOk C s q
  up : ∀ q < s.nscope, ∀ p, (s.scopes q).up = some p →
    p < q ∧ (s.scopes q).i = (s.scopes p).i + 1 ∧ ∀ X, C.X X → ¬ X q → ¬ X p
  root : ∀ q < s.nscope, (s.scopes q).up = none → (s.scopes q).i = 0
  args : ∀ q < s.nscope, (s.scopes q).args < s.nlist
  inj : ∀ q < s.nscope, ∀ q' < s.nscope, (s.scopes q).args = (s.scopes q').args → q = q'
  xb : ∀ X, C.X X → ∀ q, X q → q < s.nscope
  pb : ∀ l, C.P l → l < s.nlist
  /-- A remembered argument line is the line of the arguments. -/
  line : ∀ q < s.nscope, Lined s q

/-- What may have happened between two states. -/
structure Step (C : Ctx) (s s' : St) : Prop where
  nscope : s.nscope ≤ s'.nscope
  nlist : s.nlist ≤ s'.nlist
  up : ∀ q < s.nscope, (s'.scopes q).up = (s.scopes q).up
  i : ∀ q < s.nscope, (s'.scopes q).i = (s.scopes q).i
  args : ∀ q < s.nscope, (s'.scopes q).args = (s.scopes q).args
  fresh : ∀ q, s.nscope ≤ q → q < s'.nscope → s.nlist ≤ (s'.scopes q).args
  lists : ∀ l, C.P l → s'.lists l = s.lists l
  held : ∀ x ∈ s.held, x ∈ s'.held
  /-- No argument line is remembered or forgotten in a scope that is borrowed or unreachable. -/
  to1 : ∀ q < s.nscope, (Held.scope q ∈ s.held ∨ ∃ X, C.X X ∧ X q) →
    (s'.scopes q).argsTo1 = (s.scopes q).argsTo1

theorem Step.refl (C : Ctx) (s : St) : Step C s s :=
  ⟨Nat.le_refl _, Nat.le_refl _, fun _ _ => rfl, fun _ _ => rfl, fun _ _ => rfl, fun q h h' => by omega,
    fun _ _ => rfl, fun _ h => h, fun _ _ _ => rfl⟩

theorem Step.trans {C : Ctx} {s s' s'' : St} (h : Step C s s') (h' : Step C s' s'') : Step C s s'' where
  nscope := Nat.le_trans h.nscope h'.nscope
  nlist := Nat.le_trans h.nlist h'.nlist
  up q hq := (h'.up q (Nat.lt_of_lt_of_le hq h.nscope)).trans (h.up q hq)
  i q hq := (h'.i q (Nat.lt_of_lt_of_le hq h.nscope)).trans (h.i q hq)
  args q hq := (h'.args q (Nat.lt_of_lt_of_le hq h.nscope)).trans (h.args q hq)
  fresh q h1 h2 := by
    by_cases hq : q < s'.nscope
    · rw [h'.args q hq]; exact h.fresh q h1 hq
    · exact Nat.le_trans h.nlist (h'.fresh q (by omega) h2)
  lists l hl := (h'.lists l hl).trans (h.lists l hl)
  held x hx := h'.held x (h.held x hx)
  to1 q hq hx := (h'.to1 q (Nat.lt_of_lt_of_le hq h.nscope) (hx.imp (h.held _) id)).trans (h.to1 q hq hx)

/-- Every scope outside `X` that has the list as its argument list is borrowed. -/
def Prot (X : Nat → Prop) (l : Nat) (s : St) : Prop :=
  ∀ q < s.nscope, ¬ X q → (s.scopes q).args = l → Held.scope q ∈ s.held

/-- Invariant and protection. -/
structure Ok (C : Ctx) (s : St) : Prop where
  inv : Inv C s
  prot : ∀ l, C.P l → ∃ X, C.X X ∧ Prot X l s
  /-- Only scopes that exist are borrowed. -/
  held : ∀ q, Held.scope q ∈ s.held → q < s.nscope

/-- No scope with this argument list remembers its argument line. -/
def Clean1 (s : St) (l : Nat) : Prop :=
  ∀ q < s.nscope, (s.scopes q).args = l → (s.scopes q).argsTo1 = false

/-- The list exists, is not protected, and nothing is remembered of it. -/
def LsOk (C : Ctx) (s : St) (l : Nat) : Prop := l < s.nlist ∧ ¬ C.P l ∧ Clean1 s l

/-- An environment in which something may be evaluated. -/
structure EnvOk (C : Ctx) (s : St) (env : Env) : Prop where
  q : ScOk C s env.q
  inq : ∀ p, env.inq = some p → ScOk C s p
  ret : LsOk C s env.ret
  iso : ∃ X, C.X X ∧ Prot X env.ret s

/-- `s'` is a later state of the same evaluation. -/
structure Later (C : Ctx) (s s' : St) : Prop where
  inv : Inv C s'
  step : Step C s s'
  held : s'.held = s.held

theorem Later.trans {C : Ctx} {s s' s'' : St} (h : Later C s s') (h' : Later C s' s'') : Later C s s'' :=
  ⟨h'.inv, h.step.trans h'.step, h'.held.trans h.held⟩

theorem ScOk.step {C : Ctx} {s s' : St} {q : Nat} (h : ScOk C s q) (h' : Step C s s') : ScOk C s' q :=
  ⟨Nat.lt_of_lt_of_le h.1 h'.nscope, h.2⟩

theorem Prot.step {C : Ctx} {X : Nat → Prop} {l : Nat} {s s' : St} (h : Prot X l s) (hl : l < s.nlist)
    (h' : Step C s s') (hh : s'.held = s.held) : Prot X l s' := by
  intro q hq hX ha
  rw [hh]
  by_cases hlt : q < s.nscope
  · exact h q hlt hX (by rw [← h'.args q hlt]; exact ha)
  · have := h'.fresh q (by omega) hq
    omega

theorem LsOk.later {C : Ctx} {s s' : St} {l : Nat} (h : LsOk C s l) (hi : ∃ X, C.X X ∧ Prot X l s)
    (h' : Step C s s') : LsOk C s' l := by
  obtain ⟨X, hX, hp⟩ := hi
  refine ⟨Nat.lt_of_lt_of_le h.1 h'.nlist, h.2.1, fun q hq ha => ?_⟩
  by_cases hlt : q < s.nscope
  · rw [h'.args q hlt] at ha
    by_cases hx : X q
    · rw [h'.to1 q hlt (.inr ⟨X, hX, hx⟩)]; exact h.2.2 q hlt ha
    · rw [h'.to1 q hlt (.inl (hp q hlt hx ha))]; exact h.2.2 q hlt ha
  · have := h'.fresh q (by omega) hq
    have := h.1
    omega

theorem EnvOk.later {C : Ctx} {s s' : St} {env : Env} (h : EnvOk C s env) (h' : Later C s s') :
    EnvOk C s' env where
  q := h.q.step h'.step
  inq p hp := (h.inq p hp).step h'.step
  ret := h.ret.later h.iso h'.step
  iso := by
    obtain ⟨X, hX, hp⟩ := h.iso
    exact ⟨X, hX, hp.step h.ret.1 h'.step h'.held⟩

theorem Ok.later {C : Ctx} {s s' : St} (h : Ok C s) (h' : Later C s s') : Ok C s' where
  inv := h'.inv
  prot l hl := by
    obtain ⟨X, hX, hp⟩ := h.prot l hl
    exact ⟨X, hX, hp.step (h.inv.pb l hl) h'.step h'.held⟩
  held q hq := Nat.lt_of_lt_of_le (h.held q (h'.held ▸ hq)) h'.step.nscope

theorem Inv.hold {C : Ctx} {s : St} (h : Inv C s) (h' : List Held) : Inv C { s with held := h' } :=
  ⟨h.top, h.mods, h.datas, h.up, h.root, h.args, h.inj, h.xb, h.pb, h.line⟩

theorem Prot.hold {X : Nat → Prop} {l : Nat} {s : St} (h : Prot X l s) (hd : List Held) :
    Prot X l (s.hold hd) := fun q hq hX ha => List.mem_append_right _ (h q hq hX ha)

/-- The scopes borrowed for a call exist. -/
def HeldIn (s : St) (hd : List Held) : Prop := ∀ q, Held.scope q ∈ hd → q < s.nscope

theorem Ok.hold {C : Ctx} {s : St} (h : Ok C s) (hd : List Held)
    (hs : HeldIn s hd := by simp [HeldIn]) : Ok C (s.hold hd) where
  inv := h.inv.hold _
  held q hq := (List.mem_append.1 hq).elim (hs q) (h.held q)
  prot l hl := by
    obtain ⟨X, hX, hp⟩ := h.prot l hl
    exact ⟨X, hX, hp.hold hd⟩

theorem EnvOk.hold {C : Ctx} {s : St} {env : Env} (h : EnvOk C s env) (hd : List Held) :
    EnvOk C (s.hold hd) env where
  q := h.q
  inq := h.inq
  ret := h.ret
  iso := by
    obtain ⟨X, hX, hp⟩ := h.iso
    exact ⟨X, hX, hp.hold hd⟩

/-- The environment of a call. -/
def Call.env : Call → Option Env
  | .codes _ _ _ env | .z2 _ _ _ env | .z4 _ _ _ _ env _ | .item _ env | .src _ env
  | .loop _ _ _ _ _ env _ _ | .cond _ env _ | .get _ _ _ env | .slave _ _ _ _ env => some env

/-- The labels a call leaves behind in addition: only the loop inside a loop statement leaves its own. -/
def Call.labels : Call → Res → List Str
  | .loop _ _ _ _ cnt _ _ hasName, r => if r.has && !hasName then cnt.name.toList else []
  | _, _ => []

/-- The name of a loop is only marked as entered when there is one. -/
def Call.labelOk : Call → Prop
  | .loop _ _ _ _ cnt _ _ hasName => hasName = true → cnt.name.isSome = true
  | _ => True

/-- A loop whose name was entered says so. -/
def Call.labelOk' : Call → Res → Prop
  | .loop _ _ _ _ cnt _ _ hasName, r => (hasName = true → r.has = true) ∧ (r.has = true → cnt.name.isSome = true)
  | _, _ => True

/-- The specification of the calls. -/
def frame : CallSpec Ctx where
  pre C c s := Ok C s ∧ (∀ env, c.env = some env → EnvOk C s env) ∧ c.labelOk
  inv C s s' := Inv C s' ∧ Step C s s'
  post C c s r s' := Inv C s' ∧ Step C s s' ∧ s'.labels = s.labels ++ c.labels r ∧ c.labelOk' r

/-- What is known in the middle of a program that started in `s0`. -/
structure K (C : Ctx) (s0 s : St) : Prop where
  ok0 : Ok C s0
  later : Later C s0 s
  labels : s.labels = s0.labels

theorem K.ok {C : Ctx} {s0 s : St} (h : K C s0 s) : Ok C s := h.ok0.later h.later

theorem K.refl {C : Ctx} {s : St} (h : Ok C s) : K C s s := ⟨h, ⟨h.inv, Step.refl _ _, rfl⟩, rfl⟩

theorem K.rebase {C : Ctx} {s0 s : St} (h : K C s0 s) : K C s s := K.refl h.ok

/-- A program without effect on the labels that keeps the invariants. -/
def Nl (H : Host) (C : Ctx) (s0 : St) {α : Type} (p : Prog α) (s : St) (Q : α → St → Prop) : Prop :=
  wp H frame (fun s' => Inv C s' ∧ Step C s0 s') p s fun a s' => K C s0 s' ∧ Q a s'

/-- The same with `?`. -/
def NlE (H : Host) (C : Ctx) (s0 : St) {α : Type} (p : E α) (s : St) (Q : α → St → Prop) : Prop :=
  Nl H C s0 p.run s fun r s' => ∀ a, r = .ok a → Q a s'

variable {H : Host} {C : Ctx} {s0 s : St} {α β : Type}

theorem Nl.mono {p : Prog α} {Q Q' : α → St → Prop} (h : Nl H C s0 p s Q)
    (hQ : ∀ a s', K C s0 s' → Q a s' → Q' a s') : Nl H C s0 p s Q' :=
  wp_mono (fun _ h => h) p s (fun a s' _ h => ⟨h.1, hQ a s' h.1 h.2⟩) h

theorem Nl.true {p : Prog α} {Q : α → St → Prop} (h : Nl H C s0 p s Q) :
    Nl H C s0 p s fun _ _ => True := h.mono fun _ _ _ _ => trivial

theorem Nl.rebase {p : Prog α} {Q : α → St → Prop} (k : K C s0 s) (h : Nl H C s p s Q) :
    Nl H C s0 p s fun a s' => K C s s' ∧ Q a s' :=
  wp_mono (fun _ h => ⟨h.1, k.later.step.trans h.2⟩) p s
    (fun a s' _ h => ⟨⟨k.ok0, k.later.trans h.1.later, h.1.labels.trans k.labels⟩, h⟩) h

theorem Nl.ret {a : α} {Q : α → St → Prop} (k : K C s0 s) (h : Q a s) : Nl H C s0 (pure a) s Q :=
  ⟨⟨k.later.inv, k.later.step⟩, k, h⟩

theorem Nl.panic {Q : α → St → Prop} (k : K C s0 s) : Nl H C s0 Prog.panic s Q :=
  ⟨k.later.inv, k.later.step⟩

theorem Nl.bind {p : Prog α} {f : α → Prog β} {Q : α → St → Prop} {R : β → St → Prop}
    (h : Nl H C s0 p s Q) (hf : ∀ a s', K C s0 s' → Q a s' → Nl H C s0 (f a) s' R) :
    Nl H C s0 (p >>= f) s R :=
  wp_bind p f s (wp_mono (fun _ h => h) p s (fun _ _ _ h => hf _ _ h.1 h.2) h)

theorem NlE.bind {p : E α} {f : α → E β} {Q : α → St → Prop} {R : β → St → Prop}
    (h : NlE H C s0 p s Q) (hf : ∀ a s', K C s0 s' → Q a s' → NlE H C s0 (f a) s' R) :
    NlE H C s0 (p >>= f) s R := by
  refine Nl.bind h ?_
  intro r s' k hq
  cases r with
  | ok a => exact hf a s' k (hq a rfl)
  | error e => exact Nl.ret k (fun b hb => by simp at hb)

theorem NlE.ret {a : α} {Q : α → St → Prop} (k : K C s0 s) (h : Q a s) : NlE H C s0 (pure a) s Q :=
  Nl.ret (H := H) (a := Except.ok (ε := Err) a) k (fun b hb => by cases hb; exact h)

theorem NlE.fail {e : Err} {Q : α → St → Prop} (k : K C s0 s) : NlE H C s0 (fail e) s Q :=
  Nl.ret (H := H) (a := Except.error (α := α) e) k (fun b hb => by cases hb)

theorem NlE.lift {p : Prog α} {Q : α → St → Prop} (h : Nl H C s0 p s Q) :
    NlE H C s0 (liftM p : E α) s Q := by
  refine Nl.bind h ?_
  intro a s' k hq
  exact Nl.ret k (fun b hb => by cases hb; exact hq)

theorem NlE.mk {p : Prog (Except Err α)} {Q : α → St → Prop}
    (h : Nl H C s0 p s fun r s' => ∀ a, r = .ok a → Q a s') : NlE H C s0 (ExceptT.mk p) s Q := h

theorem NlE.mono {p : E α} {Q Q' : α → St → Prop} (h : NlE H C s0 p s Q)
    (hQ : ∀ a s', K C s0 s' → Q a s' → Q' a s') : NlE H C s0 p s Q' :=
  Nl.mono h fun _ s' k h a ha => hQ a s' k (h a ha)

theorem NlE.true {p : E α} {Q : α → St → Prop} (h : NlE H C s0 p s Q) :
    NlE H C s0 p s fun _ _ => True := h.mono fun _ _ _ _ => trivial

theorem NlE.rebase {p : E α} {Q : α → St → Prop} (k : K C s0 s) (h : NlE H C s p s Q) :
    NlE H C s0 p s fun a s' => K C s s' ∧ Q a s' :=
  (Nl.rebase k h).mono fun _ _ _ h a ha => ⟨h.1, h.2 a ha⟩

theorem NlE.catch {p : E α} {Q : α → St → Prop} (h : NlE H C s0 p s Q) :
    Nl H C s0 p.run s fun _ _ => True := Nl.true h

/-! ## Operations -/

/-- What an operation needs. -/
def OpOk (C : Ctx) (s : St) : Op → Prop
  | .setList r _ => ¬ C.P r ∧ Clean1 s r
  | .clearArgs1 q => ScOk C s q
  | .argsLine q => ScOk C s q
  | .newScope _ _ up => ScOk C s up
  | .addMod _ q => ScOk C s q
  | .pushLabel _ => False
  | .popLabel => False
  | _ => True

/-- States that differ in nothing the invariants speak about. -/
structure Same (s s' : St) : Prop where
  nscope : s'.nscope = s.nscope
  nlist : s'.nlist = s.nlist
  mods : ∀ q ∈ s'.mods, q ∈ s.mods
  datas : ∀ q ∈ s'.datas, q ∈ s.datas
  up : ∀ q, (s'.scopes q).up = (s.scopes q).up
  i : ∀ q, (s'.scopes q).i = (s.scopes q).i
  args : ∀ q, (s'.scopes q).args = (s.scopes q).args
  lists : s'.lists = s.lists
  to1 : ∀ q, (s'.scopes q).argsTo1 = (s.scopes q).argsTo1
  args1 : ∀ q, (s'.scopes q).args1 = (s.scopes q).args1
  held : s'.held = s.held
  labels : s'.labels = s.labels

theorem Same.k {s1 s' : St} (h : Same s1 s') (k : K C s0 s1) : K C s0 s' := by
  have hi := k.later.inv
  refine ⟨k.ok0, k.later.trans ⟨?_, ?_, h.held⟩, h.labels.trans k.labels⟩
  · constructor
    · exact ⟨h.nscope ▸ hi.top.1, hi.top.2⟩
    · intro q hq; exact ⟨h.nscope ▸ (hi.mods q (h.mods q hq)).1, (hi.mods q (h.mods q hq)).2⟩
    · intro q hq; exact ⟨h.nscope ▸ (hi.datas q (h.datas q hq)).1, (hi.datas q (h.datas q hq)).2⟩
    · intro q hq p; rw [h.up, h.i, h.i]; exact hi.up q (h.nscope ▸ hq) p
    · intro q hq; rw [h.up, h.i]; exact hi.root q (h.nscope ▸ hq)
    · intro q hq; rw [h.args, h.nlist]; exact hi.args q (h.nscope ▸ hq)
    · intro q hq q' hq'; rw [h.args, h.args]; exact hi.inj q (h.nscope ▸ hq) q' (h.nscope ▸ hq')
    · intro X hX q hq; rw [h.nscope]; exact hi.xb X hX q hq
    · intro l hl; rw [h.nlist]; exact hi.pb l hl
    · intro q hq; unfold Lined; rw [h.to1, h.args1, h.args, h.lists]; exact hi.line q (h.nscope ▸ hq)
  · exact ⟨h.nscope ▸ Nat.le_refl _, h.nlist ▸ Nat.le_refl _, fun q _ => h.up q, fun q _ => h.i q,
      fun q _ => h.args q, fun q h1 h2 => by rw [h.nscope] at h2; omega, fun l _ => by rw [h.lists],
      fun x hx => by rw [h.held]; exact hx, fun q _ _ => h.to1 q⟩

theorem Same.rfl' (s : St) : Same s s :=
  ⟨rfl, rfl, fun _ h => h, fun _ h => h, fun _ => rfl, fun _ => rfl, fun _ => rfl, rfl, fun _ => rfl, fun _ => rfl, rfl, rfl⟩

theorem same_modScope (s : St) (q : Nat) (f : Scope → Scope)
    (h : ∀ c, (f c).up = c.up ∧ (f c).i = c.i ∧ (f c).args = c.args ∧ (f c).argsTo1 = c.argsTo1 ∧
      (f c).args1 = c.args1) : Same s (s.modScope q f).2 := by
  unfold St.modScope
  split
  · exact Same.rfl' s
  · refine ⟨rfl, rfl, fun _ h => h, fun _ h => h, ?_, ?_, ?_, rfl, ?_, ?_, rfl, rfl⟩ <;>
    · intro p
      simp only [upd]
      split
      · rename_i e; subst e
        first | exact (h _).1 | exact (h _).2.1 | exact (h _).2.2.1 | exact (h _).2.2.2.1 | exact (h _).2.2.2.2
      · rfl

/-- A scope that is not borrowed changes what it remembers of its argument line. -/
theorem k_line (k : K C s0 s) (q : Nat) (hq : ScOk C s q) (b : Bool) (t : Str) (hb : b = false → t = [])
    (ht : b = true → t = (s.lists (s.scopes q).args).to1) :
    K C s0 (s.modScope q fun c => { c with argsTo1 := b, args1 := t }).2 := by
  unfold St.modScope
  split
  · exact k
  · rename_i hh
    have hi := k.later.inv
    have hu : ∀ p, ((upd s.scopes q { s.scopes q with argsTo1 := b, args1 := t }) p).up = (s.scopes p).up ∧
        ((upd s.scopes q { s.scopes q with argsTo1 := b, args1 := t }) p).i = (s.scopes p).i ∧
        ((upd s.scopes q { s.scopes q with argsTo1 := b, args1 := t }) p).args = (s.scopes p).args := by
      intro p
      simp only [upd]
      split
      · rename_i e; subst e; exact ⟨rfl, rfl, rfl⟩
      · exact ⟨rfl, rfl, rfl⟩
    refine ⟨k.ok0, k.later.trans ⟨⟨hi.top, hi.mods, hi.datas, ?_, ?_, ?_, ?_, hi.xb, hi.pb, ?_⟩,
      ⟨Nat.le_refl _, Nat.le_refl _, fun p _ => (hu p).1, fun p _ => (hu p).2.1, fun p _ => (hu p).2.2,
        fun p h h' => absurd (show p < s.nscope from h') (by omega), fun _ _ => rfl, fun _ h => h, ?_⟩, rfl⟩, k.labels⟩
    · intro p hp u; rw [(hu p).1, (hu p).2.1, (hu u).2.1]; exact hi.up p hp u
    · intro p hp; rw [(hu p).1, (hu p).2.1]; exact hi.root p hp
    · intro p hp; rw [(hu p).2.2]; exact hi.args p hp
    · intro p hp p' hp'; rw [(hu p).2.2, (hu p').2.2]; exact hi.inj p hp p' hp'
    · intro p hp
      unfold Lined
      by_cases e : p = q
      · subst e
        simp only [upd, if_true]
        exact ⟨hb, ht⟩
      · simp only [upd, if_neg e]; exact hi.line p hp
    · intro p hp hx
      by_cases e : p = q
      · subst e
        exfalso
        rcases hx with hx | ⟨X, hX, hx⟩
        · exact hh (by simpa using hx)
        · exact hq.2 X hX hx
      · simp only [upd, if_neg e]

theorem k_setList (k : K C s0 s) (r : Nat) (l : RList) (h : ¬ C.P r ∧ Clean1 s r) :
    K C s0 { s with lists := upd s.lists r l } := by
  have hi := k.later.inv
  refine ⟨k.ok0, k.later.trans ⟨⟨hi.top, hi.mods, hi.datas, hi.up, hi.root, hi.args, hi.inj, hi.xb, hi.pb, ?_⟩,
    ⟨Nat.le_refl _, Nat.le_refl _, fun _ _ => rfl, fun _ _ => rfl, fun _ _ => rfl, fun q h h' => ?_, ?_, fun _ h => h,
      fun _ _ _ => rfl⟩, rfl⟩, k.labels⟩
  · intro q hq
    refine ⟨(hi.line q hq).1, fun hc => ?_⟩
    have hne : (s.scopes q).args ≠ r := fun e => by
      have := h.2 q hq e
      exact absurd ((show (s.scopes q).argsTo1 = true from hc).symm.trans this) (by decide)
    have : upd s.lists r l (s.scopes q).args = s.lists (s.scopes q).args := by simp only [upd]; rw [if_neg hne]
    exact ((hi.line q hq).2 hc).trans (congrArg RList.to1 this.symm)
  · change q < s.nscope at h'; omega
  · intro l' hl'
    simp only [upd]
    split
    · rename_i e; exact absurd (e ▸ hl') h.1
    · rfl

theorem k_newList (k : K C s0 s) :
    K C s0 { s with lists := upd s.lists s.nlist .empty, nlist := s.nlist + 1 } := by
  have hi := k.later.inv
  refine ⟨k.ok0, k.later.trans ⟨⟨hi.top, hi.mods, hi.datas, hi.up, hi.root, ?_, hi.inj, hi.xb, ?_, ?_⟩,
    ⟨Nat.le_refl _, Nat.le_succ _, fun _ _ => rfl, fun _ _ => rfl, fun _ _ => rfl, fun q h h' => ?_, ?_, fun _ h => h,
      fun _ _ _ => rfl⟩, rfl⟩, k.labels⟩
  · intro q hq; exact Nat.lt_succ_of_lt (hi.args q hq)
  · intro l hl; exact Nat.lt_succ_of_lt (hi.pb l hl)
  · intro q hq
    refine ⟨(hi.line q hq).1, fun hc => ?_⟩
    have := hi.args q hq
    have : upd s.lists s.nlist .empty (s.scopes q).args = s.lists (s.scopes q).args := by
      simp only [upd]; rw [if_neg (by omega)]
    exact ((hi.line q hq).2 hc).trans (congrArg RList.to1 this.symm)
  · change q < s.nscope at h'; omega
  · intro l' hl'
    have := hi.pb l' hl'
    simp only [upd]
    split
    · omega
    · rfl

theorem k_newScope (k : K C s0 s) (arg0 : Str) (an : Option ArgNames) (up : Nat) (hu : ScOk C s up) :
    K C s0 (Op.run H (.newScope arg0 an up) s).2 := by
  have hi := k.later.inv
  have hold : ∀ q, q < s.nscope →
      (upd s.scopes s.nscope (Scope.new [] [] arg0 an (some (up, (s.scopes up).i)) s.nlist)) q = s.scopes q := by
    intro q hq; simp only [upd]; rw [if_neg (by omega)]
  have hnew : (upd s.scopes s.nscope (Scope.new [] [] arg0 an (some (up, (s.scopes up).i)) s.nlist)) s.nscope
      = Scope.new [] [] arg0 an (some (up, (s.scopes up).i)) s.nlist := by simp [upd]
  have hu1 := hu.1
  have hcase : ∀ q, q < s.nscope + 1 → q < s.nscope ∨ q = s.nscope := by omega
  have hx : ∀ X, C.X X → ¬ X s.nscope := fun X hX h => by have := hi.xb X hX _ h; omega
  have hsc : ∀ {q}, ScOk C s q → ScOk C (Op.run H (.newScope arg0 an up) s).2 q := by
    intro q hq; exact ⟨Nat.lt_succ_of_lt hq.1, hq.2⟩
  refine ⟨k.ok0, k.later.trans ⟨⟨hsc hi.top, fun q hq => hsc (hi.mods q hq), fun q hq => hsc (hi.datas q hq),
    ?_, ?_, ?_, ?_, ?_, ?_, ?_⟩, ⟨Nat.le_succ _, Nat.le_succ _, ?_, ?_, ?_, ?_, ?_, fun _ h => h, ?_⟩, rfl⟩, k.labels⟩
  · intro q hq p hp
    simp only [Op.run] at hq hp ⊢
    rcases hcase q hq with h | rfl
    · rw [hold q h] at hp ⊢
      obtain ⟨h1, h2, h3⟩ := hi.up q h p hp
      rw [hold p (by omega)]
      exact ⟨h1, h2, h3⟩
    · rw [hnew] at hp ⊢
      have hp' : up = p := by simpa [Scope.new] using hp
      subst hp'
      rw [hold up hu1]
      exact ⟨hu1, rfl, fun X hX _ => hu.2 X hX⟩
  · intro q hq hp
    simp only [Op.run] at hq hp ⊢
    rcases hcase q hq with h | rfl
    · rw [hold q h] at hp ⊢; exact hi.root q h hp
    · rw [hnew] at hp; simp [Scope.new] at hp
  · intro q hq
    simp only [Op.run] at hq ⊢
    rcases hcase q hq with h | rfl
    · rw [hold q h]; exact Nat.lt_succ_of_lt (hi.args q h)
    · rw [hnew]; exact Nat.lt_succ_self _
  · intro q hq q' hq'
    simp only [Op.run] at hq hq' ⊢
    rcases hcase q hq with h | rfl <;> rcases hcase q' hq' with h' | rfl
    · rw [hold q h, hold q' h']; exact hi.inj q h q' h'
    · rw [hold q h, hnew]; intro e
      have := hi.args q h
      simp only [Scope.new] at e; omega
    · rw [hold q' h', hnew]; intro e
      have := hi.args q' h'
      simp only [Scope.new] at e; omega
    · intro _; rfl
  · intro X hX q hq; exact Nat.lt_succ_of_lt (hi.xb X hX q hq)
  · intro l hl; exact Nat.lt_succ_of_lt (hi.pb l hl)
  · intro q hq
    simp only [Op.run] at hq
    unfold Lined
    simp only [Op.run]
    rcases hcase q hq with h | rfl
    · rw [hold q h]
      have := hi.args q h
      have e : upd s.lists s.nlist .empty (s.scopes q).args = s.lists (s.scopes q).args := by
        simp only [upd]; rw [if_neg (by omega)]
      rw [e]
      exact hi.line q h
    · rw [hnew]; exact ⟨fun _ => rfl, fun h => by cases h⟩
  · intro q hq; simp only [Op.run]; rw [hold q hq]
  · intro q hq; simp only [Op.run]; rw [hold q hq]
  · intro q hq; simp only [Op.run]; rw [hold q hq]
  · intro q h1 h2
    simp only [Op.run] at h2 ⊢
    have : q = s.nscope := by omega
    subst this
    rw [hnew]; exact Nat.le_refl _
  · intro l hl
    have := hi.pb l hl
    simp only [Op.run, upd]
    rw [if_neg (by omega)]
  · intro q hq _; simp only [Op.run]; rw [hold q hq]

theorem op_k (k : K C s0 s) (o : Op) (ho : OpOk C s o) : K C s0 (o.run H s).2 := by
  have hi := k.later.inv
  have sm : ∀ q f, (∀ c : Scope, (f c).up = c.up ∧ (f c).i = c.i ∧ (f c).args = c.args ∧
      (f c).argsTo1 = c.argsTo1 ∧ (f c).args1 = c.args1) → K C s0 (s.modScope q f).2 := fun q f h => (same_modScope s q f h).k k
  have st : ∀ s', Same s s' → K C s0 s' := fun s' h => h.k k
  cases o with
  | setList r l => exact k_setList k r l ho
  | newList => exact k_newList k
  | newScope a b c => exact k_newScope k a b c ho
  | touch q => exact sm q _ fun c => ⟨rfl, rfl, rfl, rfl, rfl⟩
  | setVar q v => exact sm q _ fun c => ⟨rfl, rfl, rfl, rfl, rfl⟩
  | setDef q d =>
    simp only [Op.run]
    split
    · split
      · exact k
      · exact sm q _ fun c => ⟨rfl, rfl, rfl, rfl, rfl⟩
    · exact sm q _ fun c => ⟨rfl, rfl, rfl, rfl, rfl⟩
  | addName q n f => exact sm q _ fun c => ⟨rfl, rfl, rfl, rfl, rfl⟩
  | setSrc q n => exact sm q _ fun c => ⟨rfl, rfl, rfl, rfl, rfl⟩
  | setIsFile q => exact sm q _ fun c => ⟨rfl, rfl, rfl, rfl, rfl⟩
  | setArg0 q n => exact sm q _ fun c => ⟨rfl, rfl, rfl, rfl, rfl⟩
  | clearArgs1 q => exact k_line k q ho false [] (fun _ => rfl) (fun h => by cases h)
  | argsLine q =>
    simp only [Op.run]
    have ht : (if (s.scopes q).argsTo1 = true then (s.scopes q).args1
      else RList.line (s.lists (s.scopes q).args) .one (s.scopes q).args1) = (s.lists (s.scopes q).args).to1 := by
      have hl := hi.line q ho.1
      split
      · rename_i h; exact hl.2 h
      · rename_i h; rw [hl.1 (by simpa using h)]; rfl
    revert ht
    generalize (if (s.scopes q).argsTo1 = true then (s.scopes q).args1
      else RList.line (s.lists (s.scopes q).args) .one (s.scopes q).args1) = t
    intro ht
    have := k_line k q ho true t (fun h => by cases h) (fun _ => ht)
    revert this
    rcases s.modScope q (fun c => { c with argsTo1 := true, args1 := t }) with ⟨x, s1⟩
    cases x <;> exact fun h => h
  | addMod d q =>
    simp only [Op.run]
    refine ⟨k.ok0, k.later.trans ⟨?_, ?_, ?_⟩, ?_⟩
    · cases d
      · exact ⟨hi.top, fun p hp => by
          rcases List.mem_append.1 hp with h | h
          · exact hi.mods p h
          · rw [List.mem_singleton.1 h]; exact ho, hi.datas, hi.up, hi.root, hi.args, hi.inj, hi.xb, hi.pb, hi.line⟩
      · exact ⟨hi.top, hi.mods, fun p hp => by
          rcases List.mem_append.1 hp with h | h
          · exact hi.datas p h
          · rw [List.mem_singleton.1 h]; exact ho, hi.up, hi.root, hi.args, hi.inj, hi.xb, hi.pb, hi.line⟩
    · cases d <;> exact ⟨Nat.le_refl _, Nat.le_refl _, fun _ _ => rfl, fun _ _ => rfl, fun _ _ => rfl,
        fun q h h' => absurd (show q < s.nscope from h') (by omega), fun _ _ => rfl, fun _ h => h, fun _ _ _ => rfl⟩
    · cases d <;> rfl
    · cases d <;> exact k.labels
  | rmMod d i =>
    simp only [Op.run]
    apply st
    split
    · split
      · exact ⟨rfl, rfl, fun _ h => h, fun _ h => List.mem_of_mem_eraseIdx h, fun _ => rfl, fun _ => rfl, fun _ => rfl,
          rfl, fun _ => rfl, fun _ => rfl, rfl, rfl⟩
      · exact Same.rfl' s
    · split
      · exact ⟨rfl, rfl, fun _ h => List.mem_of_mem_eraseIdx h, fun _ h => h, fun _ => rfl, fun _ => rfl, fun _ => rfl,
          rfl, fun _ => rfl, fun _ => rfl, rfl, rfl⟩
      · exact Same.rfl' s
  | pushLabel x => exact ho.elim
  | popLabel => exact ho.elim
  | parse src =>
    simp only [Op.run]
    apply st
    split
    · exact ⟨rfl, rfl, fun _ h => h, fun _ h => h, fun _ => rfl, fun _ => rfl, fun _ => rfl, rfl,
      fun _ => rfl, fun _ => rfl, rfl, rfl⟩
    · exact Same.rfl' s
    · exact Same.rfl' s
  | _ => exact st _ ⟨rfl, rfl, fun _ h => h, fun _ h => h, fun _ => rfl, fun _ => rfl, fun _ => rfl, rfl,
      fun _ => rfl, fun _ => rfl, rfl, rfl⟩

theorem nl_op (k : K C s0 s) (o : Op) (ho : OpOk C s o) :
    Nl H C s0 (doOp o) s fun a s' => o.run H s = (.ok a, s') := by
  have h := op_k (H := H) k o ho
  refine ⟨⟨h.later.inv, h.later.step⟩, fun a s' e => ?_⟩
  rw [e] at h
  exact ⟨⟨h.later.inv, h.later.step⟩, h, e⟩

theorem nl_getSt (k : K C s0 s) : Nl H C s0 getSt s fun a s' => a = s ∧ s' = s := by
  refine ⟨⟨k.later.inv, k.later.step⟩, fun a s' e => ?_⟩
  simp only [Op.run, Prod.mk.injEq, Out.ok.injEq] at e
  obtain ⟨rfl, rfl⟩ := e
  exact ⟨⟨k.later.inv, k.later.step⟩, k, rfl, rfl⟩

theorem nl_ofOut (k : K C s0 s) (x : Out α) : Nl H C s0 (ofOut x) s fun a s' => x = .ok a ∧ s' = s := by
  cases x with
  | ok a => exact Nl.ret (a := a) k ⟨rfl, rfl⟩
  | panic => exact Nl.panic k
  | fuel => exact Nl.panic k

theorem nl_callH (k : K C s0 s) (h : List Held) (c : Call)
    (he : ∀ env, c.env = some env → EnvOk C (s.hold h) env) (hl : c.labelOk) (hr : ∀ r, c.labels r = [])
    (hs : HeldIn s h := by simp [HeldIn]) :
    Nl H C s0 (callP h c) s fun _ s' => ∀ q, Held.scope q ∈ h → q < s.nscope →
      (s'.scopes q).argsTo1 = (s.scopes q).argsTo1 := by
  refine ⟨C, ⟨k.ok.hold h hs, he, hl⟩, fun s' hi => ?_⟩
  have hst : Step C s0 s' := k.later.step.trans
    ⟨hi.2.nscope, hi.2.nlist, hi.2.up, hi.2.i, hi.2.args, hi.2.fresh, hi.2.lists,
      fun x hx => hi.2.held x (List.mem_append_right _ hx),
      fun q hq hx => hi.2.to1 q hq (hx.imp (List.mem_append_right _) id)⟩
  refine ⟨⟨hi.1, hst⟩, fun r hp => ?_⟩
  have hst' : Step C s0 { s' with held := s.held } :=
    ⟨hst.nscope, hst.nlist, hst.up, hst.i, hst.args, hst.fresh, hst.lists,
      fun x hx => by rw [k.later.held]; exact hx, hst.to1⟩
  refine ⟨⟨hi.1.hold _, hst'⟩, ⟨k.ok0, ⟨hi.1.hold _, hst', k.later.held⟩, ?_⟩,
    fun q hq hl => hi.2.to1 q hl (.inl (List.mem_append_left _ hq))⟩
  have := hp.2.2.1
  rw [hr, List.append_nil] at this
  exact this.trans k.labels

theorem nl_call (k : K C s0 s) (h : List Held) (c : Call)
    (he : ∀ env, c.env = some env → EnvOk C (s.hold h) env) (hl : c.labelOk) (hr : ∀ r, c.labels r = [])
    (hs : HeldIn s h := by simp [HeldIn]) :
    Nl H C s0 (callP h c) s fun _ _ => True := (nl_callH k h c he hl hr hs).true

/-- Nothing happened to what the scopes remember of their argument lines. -/
structure Calm (s s' : St) : Prop where
  nscope : s'.nscope = s.nscope
  nlist : s.nlist ≤ s'.nlist
  args : ∀ q, (s'.scopes q).args = (s.scopes q).args
  to1 : ∀ q, (s'.scopes q).argsTo1 = (s.scopes q).argsTo1

theorem Calm.refl (s : St) : Calm s s := ⟨rfl, Nat.le_refl _, fun _ => rfl, fun _ => rfl⟩

theorem Calm.trans {s s' s'' : St} (h : Calm s s') (h' : Calm s' s'') : Calm s s'' :=
  ⟨h'.nscope.trans h.nscope, Nat.le_trans h.nlist h'.nlist, fun q => (h'.args q).trans (h.args q),
    fun q => (h'.to1 q).trans (h.to1 q)⟩

theorem Same.calm {s s' : St} (h : Same s s') : Calm s s' :=
  ⟨h.nscope, Nat.le_of_eq h.nlist.symm, h.args, h.to1⟩

theorem LsOk.calm {C : Ctx} {s s' : St} {l : Nat} (h : LsOk C s l) (h' : Calm s s') : LsOk C s' l :=
  ⟨Nat.lt_of_lt_of_le h.1 h'.nlist, h.2.1, fun q hq ha => by
    rw [h'.args] at ha; rw [h'.to1]; exact h.2.2 q (h'.nscope ▸ hq) ha⟩

theorem LsOk.calmArgs {C : Ctx} {s s' : St} {q : Nat} (h : LsOk C s (s.scopes q).args) (h' : Calm s s') :
    LsOk C s' (s'.scopes q).args := by rw [h'.args]; exact h.calm h'

theorem calm_modScope (s : St) (q : Nat) (f : Scope → Scope)
    (h : ∀ c, (f c).args = c.args ∧ (f c).argsTo1 = c.argsTo1) : Calm s (s.modScope q f).2 := by
  unfold St.modScope
  split
  · exact Calm.refl s
  · refine ⟨rfl, Nat.le_refl _, ?_, ?_⟩ <;>
    · intro p
      simp only [upd]
      split
      · rename_i e; subst e; first | exact (h _).1 | exact (h _).2
      · rfl

/-- The operations that leave the argument lines alone. -/
def Op.calm : Op → Prop
  | .newScope .. | .clearArgs1 _ | .argsLine _ => False
  | _ => True

theorem op_calm (o : Op) (h : o.calm) (s : St) : Calm s (o.run H s).2 := by
  cases o with
  | newScope => exact h.elim
  | clearArgs1 => exact h.elim
  | argsLine => exact h.elim
  | newList => exact ⟨rfl, Nat.le_succ _, fun _ => rfl, fun _ => rfl⟩
  | touch q => exact calm_modScope s q _ fun c => ⟨rfl, rfl⟩
  | setVar q v => exact calm_modScope s q _ fun c => ⟨rfl, rfl⟩
  | setDef q d =>
    simp only [Op.run]
    split
    · split
      · exact Calm.refl s
      · exact calm_modScope s q _ fun c => ⟨rfl, rfl⟩
    · exact calm_modScope s q _ fun c => ⟨rfl, rfl⟩
  | addName q n f => exact calm_modScope s q _ fun c => ⟨rfl, rfl⟩
  | setSrc q n => exact calm_modScope s q _ fun c => ⟨rfl, rfl⟩
  | setIsFile q => exact calm_modScope s q _ fun c => ⟨rfl, rfl⟩
  | setArg0 q n => exact calm_modScope s q _ fun c => ⟨rfl, rfl⟩
  | addMod d q => simp only [Op.run]; split <;> exact ⟨rfl, Nat.le_refl _, fun _ => rfl, fun _ => rfl⟩
  | rmMod d i =>
    simp only [Op.run]
    split <;> split <;> exact ⟨rfl, Nat.le_refl _, fun _ => rfl, fun _ => rfl⟩
  | parse src =>
    simp only [Op.run]
    split <;> exact ⟨rfl, Nat.le_refl _, fun _ => rfl, fun _ => rfl⟩
  | _ => exact ⟨rfl, Nat.le_refl _, fun _ => rfl, fun _ => rfl⟩

/-- An operation that leaves the argument lines alone. -/
theorem nl_opC (k : K C s0 s) (o : Op) (ho : OpOk C s o) (hc : o.calm) :
    Nl H C s0 (doOp o) s fun _ s' => Calm s s' :=
  (nl_op k o ho).mono fun _ s' _ h => by have := op_calm (H := H) o hc s; rw [h] at this; exact this

end Zh
