import Verif.Spec.Expl
/-!
# C33, C34: arithmetic
-/
namespace Zh
open Spec

variable {F : Type} (o : F64 F)

@[simp] theorem R.ret_bind {α β} (a : α) (f : α → R β) : (R.ret a).bind f = f a := rfl
@[simp] theorem R.ok_bind {α β} (a : α) (f : α → R β) : R.bind (.ok (.ok a)) f = f a := rfl
@[simp] theorem R.err_bind {α β} (s : Str) (f : α → R β) : (R.err s : R α).bind f = R.err s := rfl
@[simp] theorem R.error_bind {α β} (s : Str) (f : α → R β) :
    R.bind (.ok (.error s) : R α) f = R.err s := rfl
@[simp] theorem R.panic_bind {α β} (f : α → R β) : R.bind (.panic : R α) f = .panic := rfl
@[simp] theorem R.fuel_bind {α β} (f : α → R β) : R.bind (.fuel : R α) f = .fuel := rfl
theorem R.bind_ret {α} (x : R α) : x.bind R.ret = x := by
  rcases x with (_ | _) | _ | _ <;> rfl
theorem R.bind_assoc {α β γ} (x : R α) (f : α → R β) (g : β → R γ) :
    (x.bind f).bind g = x.bind fun a => (f a).bind g := by
  rcases x with (_ | _) | _ | _ <;> rfl

/-! ## Enough recursion depth -/

/-- A result is not out of fuel, and what it leaves is at most `k` tokens. -/
def Good (k : Nat) (x : R (F × List (Tok F))) : Prop :=
  match x with
  | .fuel => False
  | .ok (.ok p) => p.2.length ≤ k
  | _ => True

theorem Good.bind {k k' : Nat} {x : R (F × List (Tok F))} {f : F × List (Tok F) → R (F × List (Tok F))}
    (h : Good k x) (hf : ∀ p : F × List (Tok F), p.2.length ≤ k → Good k' (f p)) :
    Good k' (x.bind f) := by
  rcases x with (_ | p) | _ | _
  · trivial
  · exact hf p h
  · trivial
  · exact h

theorem mulOp_ne_fuel (c : Char) (a b : F) : o.mulOp c a b ≠ .fuel := by
  have hr : o.rem a b ≠ .fuel := by
    unfold F64.rem
    split <;> exact fun h => by cases h
  unfold F64.mulOp
  split
  · exact fun h => by cases h
  split
  · exact fun h => by cases h
  split
  · exact fun h => by cases h
  split
  · exact fun h => by cases h
  · exact fun h => by cases h
  · exact absurd ‹_› hr

theorem Good.bindMul {k : Nat} {x : R F} {f : F → R (F × List (Tok F))}
    (h : x ≠ .fuel) (hf : ∀ v, Good k (f v)) : Good k (x.bind f) := by
  rcases x with (_ | p) | _ | _
  · trivial
  · exact hf p
  · trivial
  · exact absurd rfl h

theorem Good.mono {k k' : Nat} {x : R (F × List (Tok F))} (h : Good k x) (hk : k ≤ k') : Good k' x := by
  rcases x with (_ | p) | _ | _
  · trivial
  · exact Nat.le_trans h hk
  · trivial
  · exact h

theorem z_good (n : Nat) :
    (∀ ts, 4 * ts.length + 4 ≤ n → Good (ts.length - 1) (z2 o n ts)) ∧
    (∀ v ts, 4 * ts.length + 1 ≤ n → Good ts.length (z2L o n v ts)) ∧
    (∀ ts, 4 * ts.length + 3 ≤ n → Good (ts.length - 1) (z3 o n ts)) ∧
    (∀ v ts, 4 * ts.length + 1 ≤ n → Good ts.length (z3L o n v ts)) ∧
    (∀ ts, 4 * ts.length + 2 ≤ n → Good (ts.length - 1) (z4 o n ts)) ∧
    (∀ v ts, 4 * ts.length + 1 ≤ n → Good ts.length (z4L o n v ts)) ∧
    (∀ ts, 4 * ts.length + 1 ≤ n → Good (ts.length - 1) (z5 o n ts)) := by
  induction n with
  | zero => refine ⟨?_, ?_, ?_, ?_, ?_, ?_, ?_⟩ <;> intros <;> omega
  | succ n ih =>
    obtain ⟨h2, h2L, h3, h3L, h4, h4L, h5⟩ := ih
    -- a rest that is not shorter only comes from an empty list, where z5 fails
    refine ⟨?_, ?_, ?_, ?_, ?_, ?_, ?_⟩
    · intro ts hn
      rw [z2]
      exact (h3 ts (by omega)).bind fun p hp => (h2L _ _ (by omega)).mono hp
    · intro v ts hn
      rw [z2L.eq_def]
      rcases ts with _ | ⟨_ | c, ts'⟩ <;> simp only
      · exact Nat.le_refl _
      · exact Nat.le_refl _
      · simp only [List.length_cons] at hn ⊢
        split
        · exact (h3 ts' (by omega)).bind fun p hp => (h2L _ _ (by omega)).mono (by omega)
        · exact Nat.le_refl _
    · intro ts hn
      rw [z3]
      exact (h4 ts (by omega)).bind fun p hp => (h3L _ _ (by omega)).mono hp
    · intro v ts hn
      rw [z3L.eq_def]
      rcases ts with _ | ⟨_ | c, ts'⟩ <;> simp only
      · exact Nat.le_refl _
      · exact Nat.le_refl _
      · simp only [List.length_cons] at hn ⊢
        split
        · exact (h4 ts' (by omega)).bind fun p hp =>
            Good.bindMul (mulOp_ne_fuel o _ _ _) fun w => (h3L _ _ (by omega)).mono (by omega)
        · exact Nat.le_refl _
    · intro ts hn
      rw [z4]
      exact (h5 ts (by omega)).bind fun p hp => (h4L _ _ (by omega)).mono hp
    · intro v ts hn
      rw [z4L.eq_def]
      rcases ts with _ | ⟨_ | c, ts'⟩ <;> simp only
      · exact Nat.le_refl _
      · exact Nat.le_refl _
      · simp only [List.length_cons] at hn ⊢
        split
        · exact (h4 ts' (by omega)).bind fun p hp => (h4L _ _ (by omega)).mono (by omega)
        · exact Nat.le_refl _
    · intro ts hn
      rw [z5.eq_def]
      rcases ts with _ | ⟨_ | c, ts'⟩ <;> simp only
      · trivial
      · exact Nat.le_refl _
      · simp only [List.length_cons, Nat.add_sub_cancel] at hn ⊢
        split
        · refine (h2 ts' (by omega)).bind fun p hp => ?_
          rcases hp2 : p.2 with _ | ⟨_ | c2, ts2⟩ <;> simp only
          · trivial
          · trivial
          · rw [hp2] at hp
            simp only [List.length_cons] at hp
            split
            · exact (by omega : ts2.length ≤ ts'.length)
            · trivial
        · split
          · exact (h3 ts' (by omega)).bind fun p hp => (by omega : p.2.length ≤ ts'.length)
          · trivial

/-- The recursion depth given is always enough: arithmetic ends on every token list. -/
theorem explTokens_ends (ts : List (Tok F)) : explTokens o ts ≠ .fuel := by
  have h := (z_good o (explFuel ts)).1 ts (Nat.le_refl _)
  unfold explTokens
  generalize z2 o (explFuel ts) ts = x at h
  rcases x with (_ | p) | _ | _
  · intro h; cases h
  · intro h; cases h
  · intro h; cases h
  · exact absurd h id

/-! ## More depth changes nothing -/

theorem R.bind_mono {α β : Type} {x x' : R α} {f f' : α → R β} (hx : x ≠ .fuel → x' = x)
    (hf : ∀ a, f a ≠ .fuel → f' a = f a) : x.bind f ≠ .fuel → x'.bind f' = x.bind f := by
  intro h
  rcases x with (_ | a) | _ | _
  · rw [hx (by intro h; cases h)]; rfl
  · rw [hx (by intro h; cases h)]; exact hf a h
  · rw [hx (by intro h; cases h)]; rfl
  · exact absurd rfl h

theorem z_mono (n : Nat) :
    (∀ ts, z2 o n ts ≠ .fuel → z2 o (n + 1) ts = z2 o n ts) ∧
    (∀ v ts, z2L o n v ts ≠ .fuel → z2L o (n + 1) v ts = z2L o n v ts) ∧
    (∀ ts, z3 o n ts ≠ .fuel → z3 o (n + 1) ts = z3 o n ts) ∧
    (∀ v ts, z3L o n v ts ≠ .fuel → z3L o (n + 1) v ts = z3L o n v ts) ∧
    (∀ ts, z4 o n ts ≠ .fuel → z4 o (n + 1) ts = z4 o n ts) ∧
    (∀ v ts, z4L o n v ts ≠ .fuel → z4L o (n + 1) v ts = z4L o n v ts) ∧
    (∀ ts, z5 o n ts ≠ .fuel → z5 o (n + 1) ts = z5 o n ts) := by
  induction n with
  | zero => refine ⟨?_, ?_, ?_, ?_, ?_, ?_, ?_⟩ <;> (intros; rename_i h; exact absurd rfl h)
  | succ n ih =>
    obtain ⟨h2, h2L, h3, h3L, h4, h4L, h5⟩ := ih
    refine ⟨?_, ?_, ?_, ?_, ?_, ?_, ?_⟩
    · intro ts
      rw [z2, z2]
      exact R.bind_mono (h3 ts) fun p => h2L _ _
    · intro v ts
      rw [z2L.eq_def, z2L.eq_def]
      rcases ts with _ | ⟨_ | c, ts'⟩ <;> simp only [implies_true]
      · split
        · exact R.bind_mono (h3 ts') fun p => h2L _ _
        · exact fun _ => rfl
    · intro ts
      rw [z3, z3]
      exact R.bind_mono (h4 ts) fun p => h3L _ _
    · intro v ts
      rw [z3L.eq_def, z3L.eq_def]
      rcases ts with _ | ⟨_ | c, ts'⟩ <;> simp only [implies_true]
      · split
        · exact R.bind_mono (h4 ts') fun p => R.bind_mono (fun _ => rfl) fun w => h3L _ _
        · exact fun _ => rfl
    · intro ts
      rw [z4, z4]
      exact R.bind_mono (h5 ts) fun p => h4L _ _
    · intro v ts
      rw [z4L.eq_def, z4L.eq_def]
      rcases ts with _ | ⟨_ | c, ts'⟩ <;> simp only [implies_true]
      · split
        · exact R.bind_mono (h4 ts') fun p => h4L _ _
        · exact fun _ => rfl
    · intro ts
      rw [z5.eq_def, z5.eq_def]
      rcases ts with _ | ⟨_ | c, ts'⟩ <;> simp only [implies_true]
      · split
        · exact R.bind_mono (h2 ts') fun p _ => rfl
        · split
          · exact R.bind_mono (h3 ts') fun p _ => rfl
          · exact fun _ => rfl

theorem z2_mono_le {n m : Nat} (h : n ≤ m) (ts : List (Tok F)) (hf : z2 o n ts ≠ .fuel) :
    z2 o m ts = z2 o n ts := by
  induction h with
  | refl => rfl
  | step _ ih => rw [(z_mono o _).1 ts (by rw [ih]; exact hf), ih]

/-! ## Rendered trees -/

/-- Tokens of a tree, mirroring `Expr.text`. -/
def toks : Expr → Nat → List (Tok F)
  | .lit s, _ => match o.parse s with
    | some f => [.n f]
    | none => []
  | .par e, _ => .c '(' :: toks e 1 ++ [.c ')']
  | .neg e, p => if p ≤ 2 then .c '-' :: toks e 2 else .c '(' :: .c '-' :: toks e 2 ++ [.c ')']
  | .pos e, p => if p ≤ 2 then .c '+' :: toks e 2 else .c '(' :: .c '+' :: toks e 2 ++ [.c ')']
  | .bin op l r, p =>
    let s := toks l op.left ++ .c op.char :: toks r op.right
    if p ≤ op.prec then s else .c '(' :: s ++ [.c ')']

/-- Eventually (for all large depths) equal. -/
def ExEv {α : Type} (f : Nat → R α) (r : R α) : Prop := ∃ n0, ∀ n, n0 ≤ n → f n = r

theorem ExEv.const {α : Type} (r : R α) : ExEv (fun _ => r) r := ⟨0, fun _ _ => rfl⟩

theorem ExEv.succ {α : Type} {f : Nat → R α} {r : R α} (h : ExEv (fun n => f (n + 1)) r) : ExEv f r := by
  obtain ⟨n0, h⟩ := h
  refine ⟨n0 + 1, fun n hn => ?_⟩
  obtain ⟨k, rfl⟩ : ∃ k, n = k + 1 := ⟨n - 1, by omega⟩
  exact h k (by omega)

theorem ExEv.bind {α β : Type} {x : Nat → R α} {r : R α} {f : Nat → α → R β} {g : α → R β}
    (hx : ExEv x r) (hf : ∀ a, r = .ok (.ok a) → ExEv (fun n => f n a) (g a)) :
    ExEv (fun n => (x n).bind (f n)) (r.bind g) := by
  obtain ⟨n0, hx⟩ := hx
  rcases r with (e | a) | _ | _
  · exact ⟨n0, fun n hn => by simp only [hx n hn]; rfl⟩
  · obtain ⟨n1, hf⟩ := hf a rfl
    exact ⟨max n0 n1, fun n hn => by
      simp only [hx n (by omega), R.ok_bind]; exact hf n (by omega)⟩
  · exact ⟨n0, fun n hn => by simp only [hx n hn]; rfl⟩
  · exact ⟨n0, fun n hn => by simp only [hx n hn]; rfl⟩

/-- Characters that make the loop of a level go on. -/
def isAdd (ts : List (Tok F)) : Bool := match ts with
  | .c c :: _ => c == '+' || c == '-'
  | _ => false
def isMul (ts : List (Tok F)) : Bool := match ts with
  | .c c :: _ => c == '*' || c == '/' || c == '%'
  | _ => false
def isPow (ts : List (Tok F)) : Bool := match ts with
  | .c c :: _ => c == '^'
  | _ => false

theorem z2L_stop (v : F) (ts : List (Tok F)) (h : isAdd ts = false) :
    ExEv (fun n => z2L o n v ts) (R.ret (v, ts)) := by
  apply ExEv.succ
  refine ⟨0, fun n _ => ?_⟩
  show z2L o (n + 1) v ts = _
  rw [z2L.eq_def]
  rcases ts with _ | ⟨_ | c, ts'⟩ <;> simp only
  rw [if_neg]
  simpa [isAdd] using h

theorem z3L_stop (v : F) (ts : List (Tok F)) (h : isMul ts = false) :
    ExEv (fun n => z3L o n v ts) (R.ret (v, ts)) := by
  apply ExEv.succ
  refine ⟨0, fun n _ => ?_⟩
  show z3L o (n + 1) v ts = _
  rw [z3L.eq_def]
  rcases ts with _ | ⟨_ | c, ts'⟩ <;> simp only
  rw [if_neg]
  simpa [isMul, and_assoc] using h

theorem z4L_stop (v : F) (ts : List (Tok F)) (h : isPow ts = false) :
    ExEv (fun n => z4L o n v ts) (R.ret (v, ts)) := by
  apply ExEv.succ
  refine ⟨0, fun n _ => ?_⟩
  show z4L o (n + 1) v ts = _
  rw [z4L.eq_def]
  rcases ts with _ | ⟨_ | c, ts'⟩ <;> simp only
  rw [if_neg]
  simpa [isPow] using h

theorem R.bind_congr {α β : Type} {x : R α} {f g : α → R β} (h : ∀ a, f a = g a) :
    x.bind f = x.bind g := by
  have : f = g := funext h
  rw [this]

/-! Levels of a token list `ts` with value `x`, followed by anything that does not extend it. -/
def P5 (ts : List (Tok F)) (x : R F) : Prop :=
  ∀ rest, ExEv (fun n => z5 o n (ts ++ rest)) (x.bind fun v => R.ret (v, rest))
def P4 (ts : List (Tok F)) (x : R F) : Prop :=
  ∀ rest, isPow rest = false → ExEv (fun n => z4 o n (ts ++ rest)) (x.bind fun v => R.ret (v, rest))
def P3 (ts : List (Tok F)) (x : R F) : Prop :=
  ∀ rest K, isPow rest = false → (∀ v, ExEv (fun n => z3L o n v rest) (K v)) →
    ExEv (fun n => z3 o n (ts ++ rest)) (x.bind K)
def P2 (ts : List (Tok F)) (x : R F) : Prop :=
  ∀ rest, isPow rest = false → isMul rest = false →
    ExEv (fun n => z3 o n (ts ++ rest)) (x.bind fun v => R.ret (v, rest))
def P1 (ts : List (Tok F)) (x : R F) : Prop :=
  ∀ rest K, isPow rest = false → isMul rest = false → (∀ v, ExEv (fun n => z2L o n v rest) (K v)) →
    ExEv (fun n => z2 o n (ts ++ rest)) (x.bind K)

variable {o}

private theorem bind_loop {x : R F} {rest : List (Tok F)} {f : Nat → R (F × List (Tok F))}
    {g : Nat → F → List (Tok F) → R (F × List (Tok F))} {K : F → R (F × List (Tok F))}
    (h : ExEv f (x.bind fun v => R.ret (v, rest))) (hg : ∀ v, ExEv (fun n => g n v rest) (K v)) :
    ExEv (fun n => (f n).bind fun p => g n p.1 p.2) (x.bind K) := by
  have := ExEv.bind (f := fun n p => g n p.1 p.2) (g := fun p => K p.1) h (by
    intro p hp
    rcases x with (e | v) | _ | _ <;> simp [R.bind, R.ret] at hp
    subst hp
    exact hg _)
  rw [R.bind_assoc] at this
  exact this

theorem P5.p4 {ts : List (Tok F)} {x : R F} (h : P5 o ts x) : P4 o ts x := by
  intro rest hp
  apply ExEv.succ
  simp only [z4]
  exact bind_loop (h rest) fun v => z4L_stop o v rest hp

theorem P4.p3 {ts : List (Tok F)} {x : R F} (h : P4 o ts x) : P3 o ts x := by
  intro rest K hp hK
  apply ExEv.succ
  simp only [z3]
  exact bind_loop (h rest hp) hK

theorem P3.p2 {ts : List (Tok F)} {x : R F} (h : P3 o ts x) : P2 o ts x := by
  intro rest hp hm
  exact h rest _ hp fun v => z3L_stop o v rest hm

theorem P2.p1 {ts : List (Tok F)} {x : R F} (h : P2 o ts x) : P1 o ts x := by
  intro rest K hp hm hK
  apply ExEv.succ
  simp only [z2]
  exact bind_loop (h rest hp hm) hK

theorem P1.paren {ts : List (Tok F)} {x : R F} (h : P1 o ts x) :
    P5 o (.c '(' :: ts ++ [.c ')']) x := by
  intro rest
  apply ExEv.succ
  have h1 := h (.c ')' :: rest) _ rfl rfl fun v => z2L_stop o v _ rfl
  have := ExEv.bind (f := fun _ (p : F × List (Tok F)) => match p.2 with
          | [] => R.err c!"缺"
          | .c c2 :: ts'' => if c2 = ')' then R.ret (p.1, ts'') else R.err c!"应遇 )"
          | .n _ :: _ => R.err c!"应遇 )") (g := fun p => R.ret (p.1, rest)) h1 (by
    intro p hp
    rcases x with (e | v) | _ | _ <;> simp [R.bind, R.ret] at hp
    subst hp
    exact ExEv.const _)
  rw [R.bind_assoc] at this
  obtain ⟨n0, hn⟩ := this
  refine ⟨n0, fun n h => ?_⟩
  have hn := hn n h
  simp only [R.ret_bind] at hn
  rw [← hn]
  simp only [List.cons_append, List.append_assoc, List.nil_append]
  rw [z5.eq_def]
  simp only [if_true]
  apply R.bind_congr
  rintro ⟨v, _ | ⟨_ | c2, _⟩⟩ <;> rfl

/-- The five levels of a tree. -/
structure Lv (o : F64 F) (e : Expr) : Prop where
  p5 : P5 o (toks o e 5) (e.eval o)
  p4 : P4 o (toks o e 4) (e.eval o)
  p3 : P3 o (toks o e 3) (e.eval o)
  p2 : P2 o (toks o e 2) (e.eval o)
  p1 : P1 o (toks o e 1) (e.eval o)

theorem Lv.atom {e : Expr} (ht : ∀ p, toks o e p = toks o e 5) (h : P5 o (toks o e 5) (e.eval o)) :
    Lv o e := by
  refine ⟨h, ?_, ?_, ?_, ?_⟩ <;> rw [ht]
  · exact h.p4
  · exact h.p4.p3
  · exact h.p4.p3.p2
  · exact h.p4.p3.p2.p1

theorem addOp_step {c : Char} (hc : c = '+' ∨ c = '-') {r : Expr} (hr : P2 o (toks o r 2) (r.eval o))
    (rest : List (Tok F)) (K : F → R (F × List (Tok F))) (hp : isPow rest = false)
    (hm : isMul rest = false) (hK : ∀ v, ExEv (fun n => z2L o n v rest) (K v)) (a : F) :
    ExEv (fun n => z2L o n a (.c c :: (toks o r 2 ++ rest)))
      ((r.eval o).bind fun b => K (o.addOp c a b)) := by
  apply ExEv.succ
  have : (fun n => z2L o (n + 1) a (.c c :: (toks o r 2 ++ rest)))
      = fun n => (z3 o n (toks o r 2 ++ rest)).bind fun p => z2L o n (o.addOp c a p.1) p.2 := by
    funext n
    rw [z2L.eq_def]
    simp [hc]
  rw [this]
  exact bind_loop (g := fun n v ts => z2L o n (o.addOp c a v) ts) (hr rest hp hm) fun v => hK _

theorem mulOp_step {c : Char} (hc : c = '*' ∨ c = '/' ∨ c = '%') {r : Expr}
    (hr : P4 o (toks o r 4) (r.eval o))
    (rest : List (Tok F)) (K : F → R (F × List (Tok F))) (hp : isPow rest = false)
    (hK : ∀ v, ExEv (fun n => z3L o n v rest) (K v)) (a : F) :
    ExEv (fun n => z3L o n a (.c c :: (toks o r 4 ++ rest)))
      ((r.eval o).bind fun b => (o.mulOp c a b).bind K) := by
  apply ExEv.succ
  have : (fun n => z3L o (n + 1) a (.c c :: (toks o r 4 ++ rest)))
      = fun n => (z4 o n (toks o r 4 ++ rest)).bind fun p =>
          (o.mulOp c a p.1).bind fun w => z3L o n w p.2 := by
    funext n
    rw [z3L.eq_def]
    simp [hc]
  rw [this]
  exact bind_loop (g := fun n v ts => (o.mulOp c a v).bind fun w => z3L o n w ts) (hr rest hp)
    fun v => ExEv.bind (ExEv.const _) fun w _ => hK w

theorem neg_z5 {e : Expr} (h : P2 o (toks o e 2) (e.eval o)) (rest : List (Tok F))
    (hp : isPow rest = false) (hm : isMul rest = false) :
    ExEv (fun n => z5 o n (.c '-' :: toks o e 2 ++ rest))
      (((Expr.neg e).eval o).bind fun v => R.ret (v, rest)) := by
  apply ExEv.succ
  have : (fun n => z5 o (n + 1) (.c '-' :: toks o e 2 ++ rest))
      = fun n => (z3 o n (toks o e 2 ++ rest)).bind fun p => R.ret (o.neg p.1, p.2) := by
    funext n
    rw [List.cons_append, z5.eq_def]
    simp
  rw [this]
  simp only [Expr.eval, R.bind_assoc, R.ret_bind]
  exact bind_loop (g := fun _ v ts => R.ret (o.neg v, ts)) (h rest hp hm) fun v => ExEv.const _

theorem lv (e : Expr) (hok : e.Ok o) : Lv o e := by
  induction e with
  | lit s =>
    obtain ⟨f, hf⟩ := Option.isSome_iff_exists.1 hok.2.2
    refine Lv.atom (fun p => by simp only [toks]) ?_
    intro rest
    apply ExEv.succ
    refine ⟨0, fun n _ => ?_⟩
    simp only [toks, hf, Expr.eval, R.ret_bind, List.cons_append, List.nil_append]
    rw [z5.eq_def]
  | par e ih =>
    refine Lv.atom (fun p => by simp only [toks]) ?_
    simp only [toks, Expr.eval]
    exact (ih hok).p1.paren
  | neg e ih =>
    have h2 : P2 o (.c '-' :: toks o e 2) ((Expr.neg e).eval o) := by
      intro rest hp hm
      have h5 := neg_z5 (ih hok).p2 rest hp hm
      apply ExEv.succ
      simp only [z3]
      refine bind_loop (ExEv.succ ?_) fun v => z3L_stop o v rest hm
      simp only [z4]
      exact bind_loop h5 fun v => z4L_stop o v rest hp
    have h5 := h2.p1.paren
    refine ⟨?_, ?_, ?_, ?_, ?_⟩ <;> simp only [toks]
    · exact h5
    · exact h5.p4
    · exact h5.p4.p3
    · exact h2
    · exact h2.p1
  | pos e ih =>
    have h2 : P2 o (.c '+' :: toks o e 2) ((Expr.pos e).eval o) := by
      intro rest hp hm
      have h5 : ExEv (fun n => z5 o n (.c '+' :: toks o e 2 ++ rest))
          (((Expr.pos e).eval o).bind fun v => R.ret (v, rest)) := by
        apply ExEv.succ
        have : (fun n => z5 o (n + 1) (.c '+' :: toks o e 2 ++ rest))
            = fun n => (z3 o n (toks o e 2 ++ rest)).bind fun p => R.ret (p.1, p.2) := by
          funext n
          rw [List.cons_append, z5.eq_def]
          simp
        rw [this]
        simp only [Expr.eval]
        exact bind_loop (g := fun _ v ts => R.ret (v, ts)) ((ih hok).p2 rest hp hm)
          fun v => ExEv.const _
      apply ExEv.succ
      simp only [z3]
      refine bind_loop (ExEv.succ ?_) fun v => z3L_stop o v rest hm
      simp only [z4]
      exact bind_loop h5 fun v => z4L_stop o v rest hp
    have h5 := h2.p1.paren
    refine ⟨?_, ?_, ?_, ?_, ?_⟩ <;> simp only [toks]
    · exact h5
    · exact h5.p4
    · exact h5.p4.p3
    · exact h2
    · exact h2.p1
  | bin op l r ihl ihr =>
    have hl := ihl hok.1
    have hr := ihr hok.2
    -- sums
    have sum : ∀ (hc : op.char = '+' ∨ op.char = '-') (hap : ∀ a b, op.apply o a b = R.ret (o.addOp op.char a b))
        (h1 : op.prec = 1) (h2 : op.left = 1) (h3 : op.right = 2), Lv o (.bin op l r) := by
      intro hc hap h1 h2 h3
      have hp1 : P1 o (toks o l 1 ++ .c op.char :: toks o r 2) ((Expr.bin op l r).eval o) := by
        intro rest K hp hm hK
        rw [List.append_assoc, List.cons_append]
        have hx : isPow (Tok.c op.char :: (toks o r 2 ++ rest)) = false ∧
            isMul (Tok.c op.char :: (toks o r 2 ++ rest)) = false := by
          rcases hc with h | h <;> simp [isPow, isMul, h]
        have := hl.p1 (.c op.char :: (toks o r 2 ++ rest)) _ hx.1 hx.2
          (addOp_step hc hr.p2 rest K hp hm hK)
        simp only [Expr.eval, R.bind_assoc, hap, R.ret_bind]
        exact this
      have h5 := hp1.paren
      refine ⟨?_, ?_, ?_, ?_, ?_⟩ <;> simp only [toks, h1, h2, h3]
      · exact h5
      · exact h5.p4
      · exact h5.p4.p3
      · exact h5.p4.p3.p2
      · exact hp1
    have prod : ∀ (hc : op.char = '*' ∨ op.char = '/' ∨ op.char = '%')
        (hap : ∀ a b, op.apply o a b = o.mulOp op.char a b)
        (h1 : op.prec = 3) (h2 : op.left = 3) (h3 : op.right = 4), Lv o (.bin op l r) := by
      intro hc hap h1 h2 h3
      have hp3 : P3 o (toks o l 3 ++ .c op.char :: toks o r 4) ((Expr.bin op l r).eval o) := by
        intro rest K hp hK
        rw [List.append_assoc, List.cons_append]
        have hx : isPow (Tok.c op.char :: (toks o r 4 ++ rest)) = false := by
          rcases hc with h | h | h <;> simp [isPow, h]
        have := hl.p3 (.c op.char :: (toks o r 4 ++ rest)) _ hx
          (mulOp_step hc hr.p4 rest K hp hK)
        simp only [Expr.eval, R.bind_assoc, hap]
        exact this
      have h5 := hp3.p2.p1.paren
      refine ⟨?_, ?_, ?_, ?_, ?_⟩ <;> simp only [toks, h1, h2, h3]
      · exact h5
      · exact h5.p4
      · exact hp3
      · exact hp3.p2
      · exact hp3.p2.p1
    cases op with
    | add => exact sum (Or.inl rfl) (fun a b => by simp [BinOp.apply, F64.addOp, BinOp.char]) rfl rfl rfl
    | sub => exact sum (Or.inr rfl) (fun a b => by simp [BinOp.apply, F64.addOp, BinOp.char]) rfl rfl rfl
    | mul => exact prod (Or.inl rfl) (fun a b => by simp [BinOp.apply, F64.mulOp, BinOp.char]) rfl rfl rfl
    | div =>
      exact prod (Or.inr (Or.inl rfl)) (fun a b => by simp [BinOp.apply, F64.mulOp, BinOp.char]) rfl rfl rfl
    | rem =>
      refine prod (Or.inr (Or.inr rfl)) (fun a b => ?_) rfl rfl rfl
      simp only [BinOp.apply, F64.mulOp, F64.rem, BinOp.char]
      split
      · rename_i h; simp [h]
      · rename_i h
        simp only [h]
        split <;> simp
    | pow =>
      have hp4 : P4 o (toks o l 5 ++ .c '^' :: toks o r 4) ((Expr.bin .pow l r).eval o) := by
        intro rest hp
        rw [List.append_assoc, List.cons_append]
        apply ExEv.succ
        simp only [z4]
        have step : ∀ a, ExEv (fun n => z4L o n a (.c '^' :: (toks o r 4 ++ rest)))
            ((r.eval o).bind fun b => R.ret (o.pow a b, rest)) := by
          intro a
          apply ExEv.succ
          have : (fun n => z4L o (n + 1) a (.c '^' :: (toks o r 4 ++ rest)))
              = fun n => (z4 o n (toks o r 4 ++ rest)).bind fun p => z4L o n (o.pow a p.1) p.2 := by
            funext n
            rw [z4L.eq_def]
            simp
          rw [this]
          exact bind_loop (g := fun n v ts => z4L o n (o.pow a v) ts) (hr.p4 rest hp)
            fun v => z4L_stop o _ rest hp
        have := bind_loop (hl.p5 (.c '^' :: (toks o r 4 ++ rest))) step
        simp only [Expr.eval, R.bind_assoc, BinOp.apply, R.ret_bind]
        exact this
      have h5 := hp4.p3.p2.p1.paren
      refine ⟨?_, ?_, ?_, ?_, ?_⟩ <;> simp only [toks, BinOp.prec, BinOp.left, BinOp.right, BinOp.char]
      · exact h5
      · exact hp4
      · exact hp4.p3
      · exact hp4.p3.p2
      · exact hp4.p3.p2.p1

theorem explTokens_of_ev {ts rest : List (Tok F)} {x : R F}
    (h : ExEv (fun n => z2 o n ts) (x.bind fun v => R.ret (v, rest))) : explTokens o ts = x := by
  obtain ⟨n0, h⟩ := h
  have hg := (z_good o (explFuel ts)).1 ts (Nat.le_refl _)
  have hne : z2 o (explFuel ts) ts ≠ .fuel := by
    intro h; rw [h] at hg; exact hg
  have := z2_mono_le o (Nat.le_max_left (explFuel ts) n0) _ hne
  have h2 := h (max (explFuel ts) n0) (Nat.le_max_right _ _)
  simp only at h2
  unfold explTokens
  rw [← this, h2, R.bind_assoc]
  exact R.bind_ret _

/-- Token form of C33. -/
theorem explTokens_tree (e : Expr) (hok : e.Ok o) : explTokens o (toks o e 1) = e.eval o := by
  have := (lv e hok).p1 [] _ rfl rfl fun v => z2L_stop o v [] rfl
  rw [List.append_nil] at this
  exact explTokens_of_ev this

/-! ## Text -/

theorem explLex_num (q : Str → Str) (s cs buf : Str) (h : ∀ c ∈ s, isNumChar c = true) :
    explLex o q (s ++ cs) buf = explLex o q cs (buf ++ s) := by
  induction s generalizing buf with
  | nil => simp
  | cons c s ih =>
    have hc : isNumChar c = true := h c (by simp)
    have ho : isOpChar c = false := by
      simp only [isNumChar, Bool.or_eq_true, Bool.and_eq_true, decide_eq_true_eq, beq_iff_eq] at hc
      have : c ∉ ['+', '-', '*', '/', '%', '^', '(', ')'] := by
        intro hm
        simp only [List.mem_cons, List.not_mem_nil, or_false] at hm
        rcases hm with rfl | rfl | rfl | rfl | rfl | rfl | rfl | rfl <;> revert hc <;> decide
      simpa [isOpChar] using this
    rw [List.cons_append, explLex, ho, hc]
    simp only [Bool.false_eq_true, if_false, if_true]
    rw [ih _ fun c hc => h c (by simp [hc])]
    simp

/-- What can follow a number: an operator or the end. -/
def OpStart (cs : Str) : Prop := cs = [] ∨ ∃ c cs', cs = c :: cs' ∧ isOpChar c = true

theorem explLex_op (q : Str → Str) (c : Char) (cs : Str) (h : isOpChar c = true) :
    explLex o q (c :: cs) [] = match explLex o q cs [] with
      | .error e => .error e
      | .ok ts2 => .ok (.c c :: ts2) := by
  rw [explLex, h]
  simp only [if_true, addNum, List.isEmpty_nil]
  cases explLex o q cs [] <;> rfl

theorem explLex_text (q : Str → Str) (e : Expr) (hok : e.Ok o) (p : Nat) (cs : Str) (hs : OpStart cs)
    (ts : List (Tok F)) (hcs : explLex o q cs [] = .ok ts) :
    explLex o q (e.text p ++ cs) [] = .ok (toks o e p ++ ts) := by
  induction e generalizing p cs ts with
  | lit s =>
    obtain ⟨f, hf⟩ := Option.isSome_iff_exists.1 hok.2.2
    have hn : ∀ c ∈ s, isNumChar c = true := by
      intro c hc
      rcases hok.2.1 c hc with h | h <;> simp [isNumChar, h]
    simp only [Expr.text, toks, hf]
    rw [explLex_num q s cs [] hn, List.nil_append]
    have hadd : addNum o s = .ok [.n f] := by
      simp [addNum, hf, hok.1]
    rcases hs with rfl | ⟨c, cs', rfl, hc⟩
    · simp only [explLex, hadd]
      simp only [explLex, addNum, List.isEmpty_nil, if_true, Except.ok.injEq] at hcs
      simp [← hcs]
    · rw [explLex_op q c cs' hc] at hcs
      rw [explLex, hc]
      simp only [if_true, hadd]
      cases h : explLex o q cs' [] with
      | error e => rw [h] at hcs; cases hcs
      | ok ts2 =>
        rw [h] at hcs
        simp only [Except.ok.injEq] at hcs
        simp [← hcs]
  | par e ih =>
    simp only [Expr.text, toks, List.cons_append, List.append_assoc, List.nil_append]
    rw [explLex_op q _ _ (by decide), ih hok 1 (')' :: cs) (Or.inr ⟨_, _, rfl, by decide⟩) (.c ')' :: ts)]
    rw [explLex_op q _ _ (by decide), hcs]
  | neg e ih =>
    simp only [Expr.text, toks]
    split
    · rw [List.cons_append, explLex_op q _ _ (by decide), ih hok 2 cs hs ts hcs]; rfl
    · simp only [List.cons_append, List.append_assoc, List.nil_append]
      rw [explLex_op q _ _ (by decide), explLex_op q _ _ (by decide),
        ih hok 2 (')' :: cs) (Or.inr ⟨_, _, rfl, by decide⟩) (.c ')' :: ts)]
      rw [explLex_op q _ _ (by decide), hcs]
  | pos e ih =>
    simp only [Expr.text, toks]
    split
    · rw [List.cons_append, explLex_op q _ _ (by decide), ih hok 2 cs hs ts hcs]; rfl
    · simp only [List.cons_append, List.append_assoc, List.nil_append]
      rw [explLex_op q _ _ (by decide), explLex_op q _ _ (by decide),
        ih hok 2 (')' :: cs) (Or.inr ⟨_, _, rfl, by decide⟩) (.c ')' :: ts)]
      rw [explLex_op q _ _ (by decide), hcs]
  | bin op l r ihl ihr =>
    have hop : isOpChar op.char = true := by cases op <;> decide
    have main : ∀ cs ts, OpStart cs → explLex o q cs [] = .ok ts →
        explLex o q (l.text op.left ++ (op.char :: (r.text op.right ++ cs))) []
          = .ok (toks o l op.left ++ (.c op.char :: (toks o r op.right ++ ts))) := by
      intro cs ts hs hcs
      apply ihl hok.1
      · exact Or.inr ⟨_, _, rfl, hop⟩
      · rw [explLex_op q _ _ hop, ihr hok.2 _ cs hs ts hcs]
    simp only [Expr.text, toks]
    split
    · simp only [List.append_assoc, List.cons_append]
      exact main cs ts hs hcs
    · simp only [List.cons_append, List.append_assoc, List.nil_append]
      rw [explLex_op q _ _ (by decide), main (')' :: cs) (.c ')' :: ts) (Or.inr ⟨_, _, rfl, by decide⟩)]
      rw [explLex_op q _ _ (by decide), hcs]

/-- **C33.** Evaluating the text of any expression tree gives the tree's value (or its error, or its
crash), where the text has parentheses only where precedence and associativity require them, and
wherever the tree has extra ones (`par`). -/
theorem C33_arithmetic (q : Str → Str) (e : Expr) (hok : e.Ok o) :
    explVal o q (e.text 1) = (e.eval o).bind fun v => if o.isInf v then R.err c!"溢出" else R.ret v := by
  have := explLex_text q e hok 1 [] (Or.inl rfl) [] (by simp [explLex, addNum])
  rw [List.append_nil, List.append_nil] at this
  simp only [explVal, this, explTokens_tree e hok]

/-- **C33.** Consequences, spelt out: for any values, sums and products group to the left, powers to
the right, and products bind tighter than sums. -/
theorem C33_grouping (q : Str → Str) (a b c : Str) (fa fb fc : F) (hi : ∀ v, o.isInf v = false)
    (ha : (Expr.lit a).Ok o) (hb : (Expr.lit b).Ok o) (hc : (Expr.lit c).Ok o)
    (pa : o.parse a = some fa) (pb : o.parse b = some fb) (pc : o.parse c = some fc) :
    explVal o q (a ++ '-' :: b ++ '-' :: c) = R.ret (o.sub (o.sub fa fb) fc) ∧
    explVal o q (a ++ '^' :: b ++ '^' :: c) = R.ret (o.pow fa (o.pow fb fc)) ∧
    explVal o q (a ++ '+' :: b ++ '*' :: c) = R.ret (o.add fa (o.mul fb fc)) ∧
    explVal o q (a ++ '*' :: b ++ '^' :: c) = R.ret (o.mul fa (o.pow fb fc)) ∧
    explVal o q ('(' :: a ++ '+' :: b ++ ')' :: '*' :: c) = R.ret (o.mul (o.add fa fb) fc) := by
  have h1 := C33_arithmetic q (.bin .sub (.bin .sub (.lit a) (.lit b)) (.lit c)) ⟨⟨ha, hb⟩, hc⟩
  have h2 := C33_arithmetic q (.bin .pow (.lit a) (.bin .pow (.lit b) (.lit c))) ⟨ha, hb, hc⟩
  have h3 := C33_arithmetic q (.bin .add (.lit a) (.bin .mul (.lit b) (.lit c))) ⟨ha, hb, hc⟩
  have h4 := C33_arithmetic q (.bin .mul (.lit a) (.bin .pow (.lit b) (.lit c))) ⟨ha, hb, hc⟩
  have h5 := C33_arithmetic q (.bin .mul (.bin .add (.lit a) (.lit b)) (.lit c)) ⟨⟨ha, hb⟩, hc⟩
  simp [Expr.text, Expr.eval, BinOp.apply, BinOp.left, BinOp.right, BinOp.prec, BinOp.char,
    pa, pb, pc, hi] at h1 h2 h3 h4 h5
  exact ⟨by simpa using h1, by simpa using h2, by simpa using h3, by simpa using h4, by simpa using h5⟩

/-- **C33, deviation.** A sign in operand position takes the whole following product: `a ÷ -b × c` is
`a ÷ (-(b × c))`, not `(a ÷ (-b)) × c`. -/
theorem C33_sign_counterexample (q : Str → Str) (a b c : Str) (fa fb fc : F)
    (hi : ∀ v, o.isInf v = false)
    (ha : (Expr.lit a).Ok o) (hb : (Expr.lit b).Ok o) (hc : (Expr.lit c).Ok o)
    (pa : o.parse a = some fa) (pb : o.parse b = some fb) (pc : o.parse c = some fc)
    (hz : o.isZero (o.neg (o.mul fb fc)) = false) :
    explVal o q (a ++ '/' :: '-' :: b ++ '*' :: c) = R.ret (o.div fa (o.neg (o.mul fb fc))) := by
  have hb' := explLex_text (o := o) q (.bin .mul (.lit b) (.lit c)) ⟨hb, hc⟩ 2 [] (Or.inl rfl) []
    (by simp [explLex, addNum])
  have hsc : explLex o q ('/' :: '-' :: (b ++ '*' :: c)) [] = .ok [.c '/', .c '-', .n fb, .c '*', .n fc] := by
    rw [explLex_op q _ _ (by decide), explLex_op q _ _ (by decide)]
    simp [Expr.text, toks, BinOp.left, BinOp.right, BinOp.prec, BinOp.char, pb, pc] at hb'
    rw [hb']
  have hl := explLex_text (o := o) q (.lit a) ha 1 ('/' :: '-' :: (b ++ '*' :: c))
    (Or.inr ⟨_, _, rfl, by decide⟩) _ hsc
  simp only [Expr.text, toks, pa] at hl
  have : a ++ '/' :: '-' :: b ++ '*' :: c = a ++ '/' :: '-' :: (b ++ '*' :: c) := by simp
  rw [this]
  simp only [explVal, hl]
  have hbc := lv (o := o) (.bin .mul (.lit b) (.lit c)) ⟨hb, hc⟩
  have h5 := neg_z5 hbc.p2 [] rfl rfl
  have h4 := ExEv.succ (f := fun n => z4 o n (.c '-' :: toks o (.bin .mul (.lit b) (.lit c)) 2 ++ [])) (by
    simp only [z4]
    exact bind_loop h5 fun v => z4L_stop o v [] rfl)
  have ht : toks o (.bin .mul (.lit b) (.lit c)) 2 = [.n fb, .c '*', .n fc] := by
    simp [toks, BinOp.prec, BinOp.char, pb, pc]
  rw [ht] at h4
  have step : ∀ x, ExEv (fun n => z3L o n x (.c '/' :: [.c '-', .n fb, .c '*', .n fc]))
      (((Expr.neg (.bin .mul (.lit b) (.lit c))).eval o).bind fun y =>
        (o.mulOp '/' x y).bind fun w => R.ret (w, [])) := by
    intro x
    apply ExEv.succ
    have : (fun n => z3L o (n + 1) x (.c '/' :: [.c '-', .n fb, .c '*', .n fc]))
        = fun n => (z4 o n [.c '-', .n fb, .c '*', .n fc]).bind fun p =>
            (o.mulOp '/' x p.1).bind fun w => z3L o n w p.2 := by
      funext n
      rw [z3L.eq_def]
      simp
    rw [this]
    exact bind_loop (g := fun n v ts => (o.mulOp '/' x v).bind fun w => z3L o n w ts) h4
      fun v => ExEv.bind (ExEv.const _) fun w _ => z3L_stop o w [] rfl
  have h3 := (lv (o := o) (.lit a) ha).p3 (.c '/' :: [.c '-', .n fb, .c '*', .n fc]) _ rfl step
  have h2 : ExEv (fun n => z2 o n [.n fa, .c '/', .c '-', .n fb, .c '*', .n fc])
      (R.bind (R.ret (o.div fa (o.neg (o.mul fb fc)))) fun v => R.ret (v, [])) := by
    apply ExEv.succ
    simp only [z2]
    refine bind_loop ?_ fun v => z2L_stop o v [] rfl
    simpa [toks, Expr.eval, BinOp.apply, F64.mulOp, pa, pb, pc, hz] using h3
  have h1 := explTokens_of_ev h2
  simp only [List.cons_append, List.nil_append, h1, R.ret_bind, hi]
  simp

/-! ## C34 -/

/-- No remainder token. -/
private def NoRemTok (ts : List (Tok F)) : Prop := ∀ t ∈ ts, t ≠ .c '%'

/-- A result that is not a panic and leaves only tokens of `ts`. -/
private def Safe (ts : List (Tok F)) (x : R (F × List (Tok F))) : Prop :=
  match x with
  | .panic => False
  | .ok (.ok p) => ∀ t ∈ p.2, t ∈ ts
  | _ => True

private theorem Safe.bind {ts ts' : List (Tok F)} {x : R (F × List (Tok F))}
    {f : F × List (Tok F) → R (F × List (Tok F))} (h : Safe ts x)
    (hf : ∀ p : F × List (Tok F), (∀ t ∈ p.2, t ∈ ts) → Safe ts' (f p)) : Safe ts' (x.bind f) := by
  rcases x with (_ | p) | _ | _
  · trivial
  · exact hf p h
  · exact h
  · trivial

private theorem Safe.mono {ts ts' : List (Tok F)} {x : R (F × List (Tok F))} (h : Safe ts x)
    (hs : ∀ t ∈ ts, t ∈ ts') : Safe ts' x := by
  rcases x with (_ | p) | _ | _
  · trivial
  · exact fun t ht => hs t (h t ht)
  · exact h
  · trivial

private theorem z_safe (n : Nat) :
    (∀ ts, NoRemTok ts → Safe ts (z2 o n ts)) ∧
    (∀ v ts, NoRemTok ts → Safe ts (z2L o n v ts)) ∧
    (∀ ts, NoRemTok ts → Safe ts (z3 o n ts)) ∧
    (∀ v ts, NoRemTok ts → Safe ts (z3L o n v ts)) ∧
    (∀ ts, NoRemTok ts → Safe ts (z4 o n ts)) ∧
    (∀ v ts, NoRemTok ts → Safe ts (z4L o n v ts)) ∧
    (∀ ts, NoRemTok ts → Safe ts (z5 o n ts)) := by
  have sub : ∀ {ts ts' : List (Tok F)}, NoRemTok ts → (∀ t ∈ ts', t ∈ ts) → NoRemTok ts' :=
    fun h hs t ht => h t (hs t ht)
  induction n with
  | zero => refine ⟨?_, ?_, ?_, ?_, ?_, ?_, ?_⟩ <;> intros <;> trivial
  | succ n ih =>
    obtain ⟨h2, h2L, h3, h3L, h4, h4L, h5⟩ := ih
    refine ⟨?_, ?_, ?_, ?_, ?_, ?_, ?_⟩
    · intro ts hn
      rw [z2]
      exact (h3 ts hn).bind fun p hp => (h2L _ _ (sub hn hp)).mono hp
    · intro v ts hn
      rw [z2L.eq_def]
      rcases ts with _ | ⟨_ | c, ts'⟩ <;> simp only
      · exact fun t ht => ht
      · exact fun t ht => ht
      · have hn' : NoRemTok ts' := sub hn fun t ht => List.mem_cons_of_mem _ ht
        split
        · exact (h3 ts' hn').bind fun p hp =>
            (h2L _ _ (sub hn' hp)).mono fun t ht => List.mem_cons_of_mem _ (hp t ht)
        · exact fun t ht => ht
    · intro ts hn
      rw [z3]
      exact (h4 ts hn).bind fun p hp => (h3L _ _ (sub hn hp)).mono hp
    · intro v ts hn
      rw [z3L.eq_def]
      rcases ts with _ | ⟨_ | c, ts'⟩ <;> simp only
      · exact fun t ht => ht
      · exact fun t ht => ht
      · have hn' : NoRemTok ts' := sub hn fun t ht => List.mem_cons_of_mem _ ht
        split
        · rename_i hc
          refine (h4 ts' hn').bind fun p hp => ?_
          have hl : ∀ w, Safe (.c c :: ts') (z3L o n w p.2) := fun w =>
            (h3L _ _ (sub hn' hp)).mono fun t ht => List.mem_cons_of_mem _ (hp t ht)
          have hne : c ≠ '%' := fun h => hn (.c c) (by simp) (by rw [h])
          have hc : c = '*' ∨ c = '/' := by
            rcases hc with h | h | h
            · exact Or.inl h
            · exact Or.inr h
            · exact absurd h hne
          unfold F64.mulOp
          split
          · trivial
          split
          · exact hl _
          split
          · exact hl _
          · rcases hc with h | h <;> contradiction
        · exact fun t ht => ht
    · intro ts hn
      rw [z4]
      exact (h5 ts hn).bind fun p hp => (h4L _ _ (sub hn hp)).mono hp
    · intro v ts hn
      rw [z4L.eq_def]
      rcases ts with _ | ⟨_ | c, ts'⟩ <;> simp only
      · exact fun t ht => ht
      · exact fun t ht => ht
      · have hn' : NoRemTok ts' := sub hn fun t ht => List.mem_cons_of_mem _ ht
        split
        · exact (h4 ts' hn').bind fun p hp =>
            (h4L _ _ (sub hn' hp)).mono fun t ht => List.mem_cons_of_mem _ (hp t ht)
        · exact fun t ht => ht
    · intro ts hn
      rw [z5.eq_def]
      rcases ts with _ | ⟨_ | c, ts'⟩ <;> simp only
      · trivial
      · exact fun t ht => List.mem_cons_of_mem _ ht
      · have hn' : NoRemTok ts' := sub hn fun t ht => List.mem_cons_of_mem _ ht
        split
        · refine (h2 ts' hn').bind fun p hp => ?_
          rcases hp2 : p.2 with _ | ⟨_ | c2, ts2⟩ <;> simp only
          · trivial
          · trivial
          · split
            · exact fun t ht => List.mem_cons_of_mem _ (hp t (by rw [hp2]; exact List.mem_cons_of_mem _ ht))
            · trivial
        · split
          · exact (h3 ts' hn').bind fun p hp => fun t ht => List.mem_cons_of_mem _ (hp t ht)
          · trivial

private theorem lex_norem (q : Str → Str) (src buf : Str) (h : '%' ∉ src) (ts : List (Tok F))
    (hl : explLex o q src buf = .ok ts) : NoRemTok ts := by
  have hadd : ∀ (buf : Str) (ts : List (Tok F)), addNum o buf = .ok ts → NoRemTok ts := by
    intro buf ts ha
    unfold addNum at ha
    split at ha
    · cases ha; intro t ht; cases ht
    · split at ha
      · cases ha; intro t ht; simp at ht; subst ht; intro h; cases h
      · cases ha
  induction src generalizing buf ts with
  | nil => exact hadd _ _ hl
  | cons c cs ih =>
    rw [explLex] at hl
    have hcs : '%' ∉ cs := fun hm => h (List.mem_cons_of_mem _ hm)
    have hc : c ≠ '%' := fun e => h (by simp [e])
    split at hl
    · cases ha : addNum o buf with
      | error e => rw [ha] at hl; cases hl
      | ok t1 =>
        rw [ha] at hl
        simp only at hl
        cases hr : explLex o q cs [] with
        | error e => rw [hr] at hl; cases hl
        | ok t2 =>
          rw [hr] at hl
          simp only [Except.ok.injEq] at hl
          subst hl
          intro t ht
          rcases List.mem_append.1 ht with h1 | h1
          · exact hadd _ _ ha t h1
          · rcases List.mem_cons.1 h1 with rfl | h2
            · intro e; injection e with e; exact hc e
            · exact ih [] hcs t2 hr t h2
    · split at hl
      · exact ih _ hcs ts hl
      · cases hl

/-- **C34.** Arithmetic on any text ends (with a number, a reported error, or a crash). -/
theorem C34_ends (q : Str → Str) (src : Str) : explVal o q src ≠ .fuel := by
  unfold explVal
  split
  · exact fun h => by cases h
  · rename_i ts _
    have := explTokens_ends o ts
    generalize explTokens o ts = x at this
    rcases x with (_ | v) | _ | _
    · exact fun h => by cases h
    · simp only [R.ok_bind]; split <;> exact fun h => by cases h
    · exact fun h => by cases h
    · exact absurd rfl this

/-- **C34 (partial).** Arithmetic on any text without the remainder sign never crashes.  Missing: texts
with `%`, for which the claim is false, see `C34_remainder_counterexample`. -/
theorem C34_no_crash_partial (q : Str → Str) (src : Str) (h : '%' ∉ src) :
    explVal o q src ≠ .panic := by
  unfold explVal
  split
  · exact fun h => by cases h
  · rename_i ts hl
    have hs := (z_safe (o := o) (explFuel ts)).1 ts (lex_norem q src [] h ts hl)
    unfold explTokens
    generalize z2 o (explFuel ts) ts = x at hs
    rcases x with (_ | p) | _ | _
    · exact fun h => by cases h
    · simp only [R.ok_bind, R.ret_bind]; split <;> exact fun h => by cases h
    · exact absurd hs id
    · exact fun h => by cases h

/-- **C34.** Division and remainder by zero are reported, whatever the operands' texts. -/
theorem C34_zero_reported (q : Str → Str) (l r : Expr) (hl : l.Ok o) (hr : r.Ok o) (a b : F)
    (va : l.eval o = R.ret a) (vb : r.eval o = R.ret b) (hz : o.isZero b = true) :
    explVal o q ((Expr.bin .div l r).text 1) = R.err c!"除零" ∧
    explVal o q ((Expr.bin .rem l r).text 1) = R.err c!"除零" := by
  constructor <;> rw [C33_arithmetic q (.bin _ l r) ⟨hl, hr⟩] <;>
    simp [Expr.eval, va, vb, BinOp.apply, hz]

/-- **C34, counterexample.** A remainder whose divisor is not zero but truncates to zero (`5%0.5`)
crashes the interpreter, for every left operand. -/
theorem C34_remainder_counterexample (q : Str → Str) (l r : Expr) (hl : l.Ok o) (hr : r.Ok o) (a b : F)
    (va : l.eval o = R.ret a) (vb : r.eval o = R.ret b) (hz : o.isZero b = false)
    (ht : o.toI64 b = 0) :
    explVal o q ((Expr.bin .rem l r).text 1) = .panic := by
  rw [C33_arithmetic q (.bin _ l r) ⟨hl, hr⟩]
  simp [Expr.eval, va, vb, BinOp.apply, hz, ht]

/-- **C33, C34, deviation.** Tokens after a complete expression are ignored without an error. -/
theorem C33_trailing_counterexample (f g : F) :
    explTokens o [.n f, .n g] = R.ret f ∧
    explTokens o [.c '(', .n f, .c ')', .c '(', .n g, .c ')'] = R.ret f := by
  exact ⟨rfl, rfl⟩

/-- A small number system for the examples: rationals with one decimal, as tenths. -/
def tenths : F64 Int where
  parse s := match s with
    | [c] => if '0' ≤ c ∧ c ≤ '9' then some (10 * (c.toNat - 48)) else none
    | ['0', '.', c] => if '0' ≤ c ∧ c ≤ '9' then some (c.toNat - 48) else none
    | _ => none
  add := (· + ·)
  sub := (· - ·)
  mul a b := a * b / 10
  div a b := a * 10 / b
  pow a b := a ^ b.toNat
  neg a := -a
  isZero a := a == 0
  isInf _ := false
  lt a b := a < b
  toI64 a := Int.tdiv a 10
  ofI64 a := a * 10
  str a := intStr a
  strFloor a := intStr (a / 10)
  strFixed a _ := some (intStr a)

/-- Non-vacuity: the hypotheses of the theorems above are met by concrete texts. -/
example : explVal tenths id c!"2+3*(4-1)" = R.ret 110 ∧
    explVal tenths id c!"5%0.5" = .panic ∧ explVal tenths id c!"5%0" = R.err c!"除零" ∧
    explVal tenths id c!"8/-2*2" = R.ret (-20) ∧
    (Expr.bin .rem (.lit c!"5") (.lit c!"0.5")).Ok tenths := by
  refine ⟨by rfl, by rfl, by rfl, by rfl, ?_⟩
  refine ⟨⟨by decide, ?_, by decide⟩, ⟨by decide, ?_, by decide⟩⟩ <;> decide

end Zh
