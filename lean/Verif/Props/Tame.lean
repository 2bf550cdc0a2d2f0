import Verif.Props.Effects
import Verif.Props.ResultList
import Verif.Props.ParsTotal
/-!
# Where an evaluation can crash by itself

`Tm H s0 c0 B p Q`: a statement about the tree of the program `p` of a call `c0` started in the state `s0`.
Wherever the program crashes by itself (not inside a call it makes), the proposition `B` holds; the calls it
makes are well formed (`Call.Fit`) and borrow only what `c0` may borrow; results satisfy `Q`.
-/
namespace Zh
open Spec

variable {α β : Type}

/-- What a call must satisfy so that the indices of the statement list machine are in range. -/
def Call.Fit : Call → Prop
  | .z2 a _ end_ _ => end_ ≤ a.length
  | .z4 a cs end2 end_ _ st => end2 = cs.length ∧ end_ ≤ a.length ∧
      (st.idx2 < end2 → a[st.idx]?.map Code.s2 = some cs)
  | _ => True

/-- What is known about the result of a call. -/
def Call.Post : Call → Res → Prop
  | .z4 _ _ end2 _ _ _, r => r.r = .ok () → end2 ≤ r.idx2
  | _, _ => True

/-- What an evaluation function keeps borrowed while a call of it runs: a word of a definition keeps the
definition, `解释`, `加载`, `释放模块` and a redirected `显示` keep a scope. -/
def Call.Holds : Call → Held → Prop
  | .z4 .., .def_ .. => True
  | .item (.eval ..) _, .scope _ => True
  | .item (.modFree _) _, .scope _ => True
  | .item (.print _) _, .scope _ => True
  | _, _ => False

/-- What stays true while a program runs that was started in `s0`. -/
structure Since (s0 s : St) : Prop where
  weak : ∀ l, WeakWF (s.lists l)
  ovf : s.ovf = s0.ovf
  nlist : s0.nlist ≤ s.nlist
  nscope : s0.nscope ≤ s.nscope
  args : ∀ q, (s.scopes q).args = (s0.scopes q).args ∨ s0.nlist ≤ (s.scopes q).args

/-- Does the answer of the operating system have the shape that belongs to the way the command is run. -/
def ExecRes.fits : ExecRes → ExecKind → Prop
  | .fail _, _ => True
  | .child _, .pipes => True
  | .child _, .spawn => True
  | .output .., .output => True
  | .status _, .status => True
  | _, _ => False

/-- The host answers in the right shape. -/
def HostOk (H : Host) : Prop := ∀ t k c, (H.exec t k c).fits k

/-- The evaluations that parse a text: running a text, and a word that may call a definition. -/
def Call.Parses : Call → Prop
  | .src .. | .z4 .. => True
  | _ => False

/-- When an operation crashes that does not parse, `B` holds; a list it stores has a separator index that fits. -/
def Op.Fine (hd : List Held) (c0 : Call) (B : Prop) : Op → Prop
  | .setList _ l => WeakWF l
  | .touch q | .setVar q _ | .addName q _ _ | .setSrc q _ | .setIsFile q | .setArg0 q _ | .clearArgs1 q
  | .argsLine q => .scope q ∈ hd → B
  | .setDef q _ => (.scope q ∈ hd ∨ ∃ k, .def_ q k ∈ hd) → B
  | .rmMod .. => B
  | .parse _ => c0.Parses
  | .expl _ => B
  | _ => True

/-- The scope an operation borrows mutably. -/
def Op.scope? : Op → Option Nat
  | .touch q | .setVar q _ | .addName q _ _ | .setSrc q _ | .setIsFile q | .setArg0 q _ | .clearArgs1 q
  | .argsLine q | .setDef q _ => some q
  | _ => none

/-- The operation parses a text that crashes the parser and is not known, borrows a scope that is borrowed, or changes a definition that is borrowed. -/
def Op.Blocked (H : Host) (s : St) (o : Op) : Prop :=
  (∃ src, o = .parse src ∧ Zh.parse src = .panic ∧ s.cache.get H.hash src = none) ∨ (∃ q, o.scope? = some q ∧ .scope q ∈ s.held) ∨
    ∃ q d k, o = .setDef q d ∧ findDefName d.name (s.scopes q).defs = some k ∧ .def_ q k ∈ s.held

/-- When the program runs from `s`, it does the operation `o` itself (not in a call), in the state `t`. -/
def DoesOp (H : Host) (rec : Call → St → Out Res × St) {α : Type} : Prog α → St → Op → St → Prop
  | .ret _, _, _, _ => False
  | .panic, _, _, _ => False
  | .op o0 k, s, o, t => (o = o0 ∧ t = s) ∨ ∃ a s', o0.run H s = (.ok a, s') ∧ DoesOp H rec (k a) s' o t
  | .call h c0 k, s, o, t => ∃ r s', rec c0 (s.hold h) = (.ok r, s') ∧ DoesOp H rec (k r) { s' with held := s.held } o t

/-- What is known about the answer of an operation. -/
def Op.Ans (H : Host) (s0 : St) : (o : Op) → o.Res → Prop
  | .st, s => Since s0 s
  | .exec k _, r => r.fits k
  | .newScope .., q => s0.nscope ≤ q
  | .read f, r => ∃ t, H.read t f = r
  | _, _ => True

/-- See above. -/
def Tm (H : Host) (s0 : St) (c0 : Call) (B : Prop) : Prog α → (α → Prop) → Prop
  | .ret a, Q => Q a
  | .panic, _ => B
  | .op o k, Q => o.Fine s0.held c0 B ∧ ∀ a, o.Ans H s0 a → Tm H s0 c0 B (k a) Q
  | .call h c k, Q => (c.Fit ∧ ∀ x ∈ h, c0.Holds x) ∧ ∀ r, c.Post r → Tm H s0 c0 B (k r) Q

/-! ## The operations keep `Since` -/

theorem St.modScope_out (s : St) (q : Nat) (f : Scope → Scope) :
    (s.modScope q f = (.panic, s) ∧ .scope q ∈ s.held) ∨
      s.modScope q f = (.ok (), { s with scopes := upd s.scopes q (f (s.scopes q)) }) := by
  unfold St.modScope
  split
  · rename_i h
    exact .inl ⟨rfl, by simpa using h⟩
  · exact .inr rfl

theorem Since.scope {s0 s : St} (h : Since s0 s) (q : Nat) (f : Scope → Scope) (hf : ∀ c, (f c).args = c.args) :
    Since s0 (s.modScope q f).2 := by
  rcases St.modScope_out s q f with ⟨e, _⟩ | e <;> rw [e]
  · exact h
  · refine ⟨h.weak, h.ovf, h.nlist, h.nscope, fun p => ?_⟩
    simp only [upd]
    split
    · rename_i e; subst e; rw [hf]; exact h.args _
    · exact h.args p

theorem WeakWF_empty : WeakWF RList.empty := ⟨List.Pairwise.nil, fun _ h => nomatch h⟩

theorem Since.op {H : Host} {s0 s : St} {c0 : Call} {B : Prop} (h : Since s0 s) (o : Op) (hf : o.Fine s0.held c0 B) :
    Since s0 (o.run H s).2 := by
  cases o with
  | newItem v r => exact ⟨h.weak, h.ovf, h.nlist, h.nscope, h.args⟩
  | addRems v r => exact ⟨h.weak, h.ovf, h.nlist, h.nscope, h.args⟩
  | newList =>
    refine ⟨fun l => ?_, h.ovf, Nat.le_succ_of_le h.nlist, h.nscope, h.args⟩
    simp only [Op.run, upd]
    split
    · exact WeakWF_empty
    · exact h.weak l
  | setList r l' =>
    refine ⟨fun l => ?_, h.ovf, h.nlist, h.nscope, h.args⟩
    simp only [Op.run, upd]
    split
    · exact hf
    · exact h.weak l
  | newScope a b c =>
    refine ⟨fun l => ?_, h.ovf, Nat.le_succ_of_le h.nlist, Nat.le_succ_of_le h.nscope, fun q => ?_⟩
    · simp only [Op.run, upd]
      split
      · exact WeakWF_empty
      · exact h.weak l
    · simp only [Op.run, upd]
      split
      · exact .inr h.nlist
      · exact h.args q
  | touch q => exact h.scope _ _ fun _ => rfl
  | setVar q v => exact h.scope _ _ fun _ => rfl
  | setDef q d =>
    simp only [Op.run]
    split
    · split
      · exact h
      · exact h.scope _ _ fun _ => rfl
    · exact h.scope _ _ fun _ => rfl
  | addName q n f => exact h.scope _ _ fun _ => rfl
  | setSrc q n => exact h.scope _ _ fun _ => rfl
  | setIsFile q => exact h.scope _ _ fun _ => rfl
  | setArg0 q n => exact h.scope _ _ fun _ => rfl
  | clearArgs1 q => exact h.scope _ _ fun _ => rfl
  | argsLine q =>
    simp only [Op.run]
    have h' := h.scope q (fun c =>
      { c with argsTo1 := true, args1 := if (s.scopes q).argsTo1 then (s.scopes q).args1 else
          (s.lists (s.scopes q).args).line .one (s.scopes q).args1 }) fun _ => rfl
    revert h'
    generalize s.modScope q _ = x
    intro h'
    rcases x with ⟨x, s1⟩
    cases x <;> exact h'
  | addMod d q => simp only [Op.run]; split <;> exact ⟨h.weak, h.ovf, h.nlist, h.nscope, h.args⟩
  | rmMod d i => simp only [Op.run]; split <;> split <;> exact ⟨h.weak, h.ovf, h.nlist, h.nscope, h.args⟩
  | parse src => simp only [Op.run]; split <;> exact ⟨h.weak, h.ovf, h.nlist, h.nscope, h.args⟩
  | _ => exact ⟨h.weak, h.ovf, h.nlist, h.nscope, h.args⟩

theorem Op.held {H : Host} (o : Op) (s : St) : (o.run H s).2.held = s.held := by
  have sc : ∀ q f, (s.modScope q f).2.held = s.held := by
    intro q f
    rcases St.modScope_out s q f with ⟨e, _⟩ | e <;> rw [e]
  cases o with
  | touch q => exact sc _ _
  | setVar q v => exact sc _ _
  | setDef q d =>
    simp only [Op.run]
    split
    · split
      · rfl
      · exact sc _ _
    · exact sc _ _
  | addName q n f => exact sc _ _
  | setSrc q n => exact sc _ _
  | setIsFile q => exact sc _ _
  | setArg0 q n => exact sc _ _
  | clearArgs1 q => exact sc _ _
  | argsLine q =>
    simp only [Op.run]
    have h' := sc q (fun c =>
      { c with argsTo1 := true, args1 := if (s.scopes q).argsTo1 then (s.scopes q).args1 else
          (s.lists (s.scopes q).args).line .one (s.scopes q).args1 })
    revert h'
    generalize s.modScope q _ = x
    intro h'
    rcases x with ⟨x, s1⟩
    cases x <;> exact h'
  | addMod d q => simp only [Op.run]; split <;> rfl
  | rmMod d i => simp only [Op.run]; split <;> split <;> rfl
  | parse src => simp only [Op.run]; split <;> rfl
  | _ => rfl

theorem codesCache_panic {h : Str → Nat} {c : Cache (List Code)} {src : Str}
    (e : codesCache h parse c src = .panic) : parse src = .panic ∧ c.get h src = none := by
  unfold codesCache at e
  cases h1 : c.get h src with
  | some x => rw [h1] at e; cases e
  | none =>
    rw [h1] at e
    rcases h2 : parse src with (e' | x) | _ | _
    · rw [h2] at e; cases e
    · rw [h2] at e
      have h3 : (c.set h src x).get h src = some x := by simp [Cache.set, Cache.get]
      dsimp only at e
      rw [h3] at e
      cases e
    · exact ⟨rfl, rfl⟩
    · rw [h2] at e; cases e

theorem Op.ans_of {H : Host} (hH : HostOk H) {s0 s s' : St} {c0 : Call} {B : Prop} (h : Since s0 s) (o : Op)
    (hf : o.Fine s0.held c0 B) :
    (∀ a, o.run H s = (.ok a, s') → o.Ans H s0 a) ∧ (o.run H s = (.panic, s') → B ∨ o.Blocked H s ∧ (s.held = s0.held → B ∨ c0.Parses)) := by
  have sc : ∀ (o : Op) q f s', o.scope? = some q → (.scope q ∈ s0.held → B) → s.modScope q f = (.panic, s') →
      B ∨ o.Blocked H s ∧ (s.held = s0.held → B ∨ c0.Parses) := by
    intro o q f s' ho hb e
    rcases St.modScope_out s q f with ⟨_, hh⟩ | e'
    · exact .inr ⟨.inr (.inl ⟨q, ho, hh⟩), fun e => .inl (hb (e ▸ hh))⟩
    · rw [e'] at e; cases e
  cases o with
  | st => exact ⟨fun a e => by cases e; exact h, fun e => by cases e⟩
  | newScope a b c => exact ⟨fun a e => by cases e; exact h.nscope, fun e => by cases e⟩
  | read f => exact ⟨fun a e => by cases e; exact ⟨_, rfl⟩, fun e => by cases e⟩
  | exec k c => exact ⟨fun a e => by cases e; exact hH _ _ _, fun e => by cases e⟩
  | touch q => exact ⟨fun _ _ => trivial, by simp only [Op.run]; exact sc _ _ _ _ rfl hf⟩
  | setVar q v => exact ⟨fun _ _ => trivial, by simp only [Op.run]; exact sc _ _ _ _ rfl hf⟩
  | setDef q d =>
    refine ⟨fun _ _ => trivial, ?_⟩
    simp only [Op.run]
    split
    · split
      · rename_i k hk hc
        intro _
        have hc : Held.def_ q k ∈ s.held := by simpa using hc
        exact .inr ⟨.inr (.inr ⟨q, d, k, rfl, hk, hc⟩), fun e => .inl (hf (.inr ⟨k, e ▸ hc⟩))⟩
      · exact sc _ _ _ _ rfl fun e => hf (.inl e)
    · exact sc _ _ _ _ rfl fun e => hf (.inl e)
  | addName q n f => exact ⟨fun _ _ => trivial, by simp only [Op.run]; exact sc _ _ _ _ rfl hf⟩
  | setSrc q n => exact ⟨fun _ _ => trivial, by simp only [Op.run]; exact sc _ _ _ _ rfl hf⟩
  | setIsFile q => exact ⟨fun _ _ => trivial, by simp only [Op.run]; exact sc _ _ _ _ rfl hf⟩
  | setArg0 q n => exact ⟨fun _ _ => trivial, by simp only [Op.run]; exact sc _ _ _ _ rfl hf⟩
  | clearArgs1 q => exact ⟨fun _ _ => trivial, by simp only [Op.run]; exact sc _ _ _ _ rfl hf⟩
  | argsLine q =>
    refine ⟨fun _ _ => trivial, ?_⟩
    simp only [Op.run]
    have h' := fun s' => sc (.argsLine q) q (fun c =>
      { c with argsTo1 := true, args1 := if (s.scopes q).argsTo1 then (s.scopes q).args1 else
          (s.lists (s.scopes q).args).line .one (s.scopes q).args1 }) s' rfl hf
    revert h'
    generalize s.modScope q _ = x
    intro h'
    rcases x with ⟨x, s1⟩
    cases x
    · exact fun e => by cases e
    · exact fun _ => h' _ rfl
    · exact fun e => by cases e
  | rmMod d i => exact ⟨fun _ _ => trivial, fun _ => .inl hf⟩
  | expl v => exact ⟨fun _ _ => trivial, fun _ => .inl hf⟩
  | parse src =>
    refine ⟨fun _ _ => trivial, ?_⟩
    intro e
    simp only [Op.run] at e
    rcases hc : codesCache H.hash Zh.parse s.cache src with r | _ | _
    · rw [hc] at e; cases e
    · exact .inr ⟨.inl ⟨src, rfl, codesCache_panic hc⟩, fun _ => .inr hf⟩
    · rw [hc] at e; cases e
  | _ => exact ⟨fun _ _ => trivial, fun e => by cases e⟩

/-! ## What `Tm` says about running the program -/

/-- What is assumed about the calls: they keep the separator indices, the overflow flag, give no old argument
list to a scope, and their results are as `Call.Post` says. -/
def RecOk0 (rec : Call → St → Out Res × St) : Prop :=
  ∀ c s, c.Fit → (∀ l, WeakWF (s.lists l)) →
    Since s { (rec c s).2 with held := s.held } ∧ ∀ r, (rec c s).1 = .ok r → c.Post r

theorem Since.trans {s0 s1 s2 : St} (h : Since s0 s1) (h' : Since s1 s2) : Since s0 s2 := by
  refine ⟨h'.weak, h'.ovf.trans h.ovf, Nat.le_trans h.nlist h'.nlist,
    Nat.le_trans h.nscope h'.nscope, fun q => ?_⟩
  rcases h'.args q with e | e
  · rw [e]; exact h.args q
  · exact .inr (Nat.le_trans h.nlist e)

theorem tm_interp {H : Host} (hH : HostOk H) {rec : Call → St → Out Res × St} (hr : RecOk0 rec) {s0 : St}
    {c0 : Call} {B : Prop} {p : Prog α} {Q : α → Prop} (h : Tm H s0 c0 B p Q) {s : St} (hs : Since s0 s) :
    Since s0 { (p.interp H rec s).2 with held := s.held } ∧
    (∀ a, (p.interp H rec s).1 = .ok a → Q a) ∧
    ((p.interp H rec s).1 = .panic →
      (B ∨ ∃ o t, DoesOp H rec p s o t ∧ o.Blocked H t ∧ t.held = s.held ∧ (s.held = s0.held → B ∨ c0.Parses)) ∨
        ∃ c t, Calls H rec p s c t ∧ (rec c t).1 = .panic) ∧
    ∀ c t, Calls H rec p s c t →
      c.Fit ∧ (∀ l, WeakWF (t.lists l)) ∧ ∀ x ∈ t.held, x ∈ s.held ∨ c0.Holds x := by
  induction p generalizing s with
  | ret a => exact ⟨hs, fun b e => by cases e; exact h, (fun e => by cases e), fun _ _ h => h.elim⟩
  | panic => exact ⟨hs, (fun b e => by cases e), fun _ => .inl (.inl h), fun _ _ h => h.elim⟩
  | op o k ih =>
    have h1 := hs.op (H := H) o h.1
    rcases ho : o.run H s with ⟨x, s1⟩
    have h2 := Op.ans_of (s' := s1) hH hs o h.1
    rw [ho] at h1
    simp only [Prog.interp, ho]
    have hheld : s.held = s1.held := by
      have := o.held (H := H) s
      rw [ho] at this
      exact this.symm
    cases x with
    | ok a =>
      have := ih a (h.2 a (h2.1 a ho)) h1
      refine ⟨hheld ▸ this.1, this.2.1, fun e => ?_, fun c t hc => ?_⟩
      · rcases this.2.2.1 e with (b | ⟨o', t, hd, hb, ht, hB⟩) | ⟨c, t, hc, hp⟩
        · exact .inl (.inl b)
        · exact .inl (.inr ⟨o', t, .inr ⟨a, s1, ho, hd⟩, hb, ht.trans hheld.symm, fun e => hB (hheld.symm.trans e)⟩)
        · exact .inr ⟨c, t, ⟨a, s1, ho, hc⟩, hp⟩
      · obtain ⟨a', s', e, hc⟩ := hc
        rw [ho] at e
        cases e
        rw [hheld]
        exact this.2.2.2 c t hc
    | panic =>
      exact ⟨hheld ▸ h1, (fun b e => by cases e), fun _ => by
        rcases h2.2 ho with b | ⟨hb, hB⟩
        · exact .inl (.inl b)
        · exact .inl (.inr ⟨o, s, .inl ⟨rfl, rfl⟩, hb, rfl, hB⟩), fun c t hc => by
        obtain ⟨a', s', e, hc⟩ := hc
        rw [ho] at e; cases e⟩
    | fuel =>
      exact ⟨hheld ▸ h1, (fun b e => by cases e), (fun e => by cases e), fun c t hc => by
        obtain ⟨a', s', e, hc⟩ := hc
        rw [ho] at e; cases e⟩
  | call hd c k ih =>
    have hr' := hr c (s.hold hd) h.1.1 hs.weak
    have here : c.Fit ∧ (∀ l, WeakWF ((s.hold hd).lists l)) ∧
        ∀ x ∈ (s.hold hd).held, x ∈ s.held ∨ c0.Holds x := by
      refine ⟨h.1.1, hs.weak, fun x hx => ?_⟩
      rcases List.mem_append.1 hx with hx | hx
      · exact .inr (h.1.2 x hx)
      · exact .inl hx
    unfold St.hold at hr' here
    simp only [Prog.interp]
    rcases ho : rec c { s with held := hd ++ s.held } with ⟨x, s1⟩
    rw [ho] at hr'
    have h1 : Since s0 { s1 with held := s.held } :=
      ⟨hr'.1.weak, hr'.1.ovf.trans hs.ovf, Nat.le_trans hs.nlist hr'.1.nlist,
        Nat.le_trans hs.nscope hr'.1.nscope, fun q => by
        rcases hr'.1.args q with e | e
        · have := hs.args q
          exact e ▸ this
        · exact .inr (Nat.le_trans hs.nlist e)⟩
    cases x with
    | ok a =>
      have := ih a (h.2 a (hr'.2 a rfl)) h1
      refine ⟨this.1, this.2.1, fun e => ?_, fun c' t hc => ?_⟩
      · rcases this.2.2.1 e with (b | ⟨o', t, hd, hb, ht, hB⟩) | ⟨c', t, hc, hp⟩
        · exact .inl (.inl b)
        · exact .inl (.inr ⟨o', t, ⟨a, s1, ho, hd⟩, hb, ht, hB⟩)
        · exact .inr ⟨c', t, .inr ⟨a, s1, ho, hc⟩, hp⟩
      · rcases hc with ⟨rfl, rfl⟩ | ⟨a', s', e, hc⟩
        · exact here
        · have e := ho.symm.trans e
          cases e
          exact this.2.2.2 c' t hc
    | panic =>
      refine ⟨h1, (fun b e => by cases e), fun _ => .inr ⟨c, s.hold hd, .inl ⟨rfl, rfl⟩, ?_⟩, fun c' t hc => ?_⟩
      · change (rec c { s with held := hd ++ s.held }).1 = _
        rw [ho]
      · rcases hc with ⟨rfl, rfl⟩ | ⟨a', s', e, hc⟩
        · exact here
        · have e := ho.symm.trans e; cases e
    | fuel =>
      refine ⟨h1, (fun b e => by cases e), (fun e => by cases e), fun c' t hc => ?_⟩
      rcases hc with ⟨rfl, rfl⟩ | ⟨a', s', e, hc⟩
      · exact here
      · have e := ho.symm.trans e; cases e

end Zh
