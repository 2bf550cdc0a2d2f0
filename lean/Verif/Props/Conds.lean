import Verif.Props.Pipes
import Verif.Props.Cmp
/-!
# C31: conditions are evaluated from left to right and stop early
-/
namespace Zh

variable {H : Host}

/-! ## Specification: the form of a condition -/

/-- The words of a condition that are not part of its operands' values. -/
def Spec.condWords : List KwId := [.or_, .and_, .not_, .dengyu, .xiaoyudengyu, .xiaoyu, .dayudengyu, .dayu]

/-- The words of comparison. -/
def Spec.cmpWords : List KwId := [.dengyu, .xiaoyudengyu, .xiaoyu, .dayudengyu, .dayu]

/-- A parenthesis `先..了`. -/
def Spec.isBlock : Code → Prop
  | .block _ => True
  | _ => False

/-- The items from `i` to `j` (excluded) are parts of a value; there is one. -/
def Spec.Plain (codes : List Code) (i j : Nat) : Prop :=
  i < j ∧ ∀ k, i ≤ k → k < j → ∃ c, codes[k]? = some c ∧ c.id ∉ Spec.condWords ∧ ¬ Spec.isBlock c

/-- The items from `i` to `j` (excluded) are `不`. -/
def Spec.Nots (codes : List Code) (i j : Nat) : Prop :=
  i ≤ j ∧ ∀ k, i ≤ k → k < j → ∃ c, codes[k]? = some c ∧ c.id = .not_ ∧ ¬ Spec.isBlock c

/-- An operand from `i` to `j` (excluded): a value, a comparison of two values, or a parenthesis. -/
inductive Spec.IsOperand (codes : List Code) : Nat → Nat → Prop where
  | value {i a j} : Spec.Nots codes i a → Spec.Plain codes a j → Spec.IsOperand codes i j
  | cmp {i a b c j d} : Spec.Nots codes i a → Spec.Plain codes a b → Spec.Nots codes b c → codes[c]? = some d →
    d.id ∈ Spec.cmpWords → ¬ Spec.isBlock d → Spec.Plain codes (c + 1) j → Spec.IsOperand codes i j
  | block {i a} : codes[i]? = some (.block a) → Spec.IsOperand codes i (i + 1)

/-- The item at `j` is `或者`, `并且`. -/
def Spec.isOr (codes : List Code) (j : Nat) : Prop := ∃ c, codes[j]? = some c ∧ c.id = .or_
def Spec.isAnd (codes : List Code) (j : Nat) : Prop := ∃ c, codes[j]? = some c ∧ c.id = .and_

/-- From `i` on the condition consists of operands with `或者` or `并且` between them. -/
inductive Spec.Form (codes : List Code) : Nat → Prop where
  | last {i} : Spec.IsOperand codes i codes.length → Spec.Form codes i
  | more {i j} : Spec.IsOperand codes i j → Spec.isOr codes j ∨ Spec.isAnd codes j → Spec.Form codes (j + 1) → Spec.Form codes i

/-! ## Specification: what a condition does -/

/-- The values of the last two sides that were evaluated: `left_val_`, `val_`. -/
structure Spec.Carry where
  left : List Str := []
  val : List Str := []

/-- The side of a comparison from `i` to `j` is evaluated: its values, or an error. -/
inductive Spec.Side (H : Host) (codes : List Code) (env : Env) (i j : Nat) (s : St) : Except Err (List Str) → St → Prop where
  | ok {x s1} : Evals H (.codes codes i j { env with gd := {} }) s x s1 → x.r = .ok () →
    Spec.Side H codes env i j s (.ok ((s1.lists env.ret).toVec2 false)) { s1 with lists := upd s1.lists env.ret .empty }
  | fail {x s1 e} : Evals H (.codes codes i j { env with gd := {} }) s x s1 → x.r = .error e →
    Spec.Side H codes env i j s (.error e) s1

/-- The result of an operand: true or false, or the whole condition ends. -/
inductive Spec.Verdict where
  | value (b : Bool)
  | out (b : Bool) (e : Err)

/-- The left value of a comparison: without one, the last one stays. -/
def Spec.keep (old new : List Str) : List Str := if new = [] then old else new

/-- An operand is evaluated; `b0` is the truth value before. -/
inductive Spec.Operand (H : Host) (codes : List Code) (env : Env) (i j : Nat) (b0 : Bool) (c : Spec.Carry) (s : St) :
    Spec.Verdict → Spec.Carry → St → Prop where
  /-- a value is true if it is not empty, `0` or so (C29_truth) -/
  | value {a v s1} : Spec.Nots codes i a → Spec.Plain codes a j → Spec.Side H codes env a j s (.ok v) s1 →
    Spec.Operand H codes env i j b0 c s (.value (cmp H.f64 .undef ((a - i) % 2 = 1) (Spec.keep c.left c.val) v))
      ⟨Spec.keep c.left c.val, v⟩ s1
  | valueFail {a e s1} : Spec.Nots codes i a → Spec.Plain codes a j → Spec.Side H codes env a j s (.error e) s1 →
    Spec.Operand H codes env i j b0 c s (.out b0 e) c s1
  /-- the left side, then the right side, then the comparison (C29) -/
  | cmp {a b d op l r s1 s2} : Spec.Nots codes i a → Spec.Plain codes a b → Spec.Nots codes b d → codes[d]? = some op →
    op.id ∈ Spec.cmpWords → ¬ Spec.isBlock op → Spec.Plain codes (d + 1) j →
    Spec.Side H codes env a b s (.ok l) s1 → Spec.Side H codes env (d + 1) j s1 (.ok r) s2 →
    Spec.Operand H codes env i j b0 c s (.value (cmp H.f64 op.id ((a - i + (d - b)) % 2 = 1) (Spec.keep c.left l) r))
      ⟨Spec.keep c.left l, r⟩ s2
  | leftFail {a b d op e s1} : Spec.Nots codes i a → Spec.Plain codes a b → Spec.Nots codes b d → codes[d]? = some op →
    op.id ∈ Spec.cmpWords → ¬ Spec.isBlock op → Spec.Plain codes (d + 1) j → Spec.Side H codes env a b s (.error e) s1 →
    Spec.Operand H codes env i j b0 c s (.out b0 e) c s1
  | rightFail {a b d op l e s1 s2} : Spec.Nots codes i a → Spec.Plain codes a b → Spec.Nots codes b d → codes[d]? = some op →
    op.id ∈ Spec.cmpWords → ¬ Spec.isBlock op → Spec.Plain codes (d + 1) j →
    Spec.Side H codes env a b s (.ok l) s1 → Spec.Side H codes env (d + 1) j s1 (.error e) s2 →
    Spec.Operand H codes env i j b0 c s (.out b0 e) c s2
  /-- a parenthesis is a condition of its own, with its own results -/
  | block {a x e s1} : codes[i]? = some (.block a) → j = i + 1 →
    Evals H (.cond a { env with ret := s.nlist } { b := b0 }) (Spec.fresh s) x s1 → x.r = .error e → e.i = 3001 →
    Spec.Operand H codes env i j b0 c s (.value x.has) c s1
  /-- ... that may end the whole condition -/
  | blockOut {a x e s1} : codes[i]? = some (.block a) → j = i + 1 →
    Evals H (.cond a { env with ret := s.nlist } { b := b0 }) (Spec.fresh s) x s1 → x.r = .error e → e.i ≠ 3001 →
    Spec.Operand H codes env i j b0 c s (.out x.has e) c s1

/-- The condition from `i` on: which operands are evaluated, in which order, and the result.  The
result `3001` is the normal end, `3000` the end at `或者`. -/
inductive Spec.Cond (H : Host) (codes : List Code) (env : Env) : Nat → Bool → Spec.Carry → St → Res → St → Prop where
  /-- the operand ends the condition (an error, or the truth of a parenthesis) -/
  | out {i j b0 c s b e c1 s1} : Spec.Operand H codes env i j b0 c s (.out b e) c1 s1 →
    (j = codes.length ∨ Spec.isOr codes j ∨ Spec.isAnd codes j) → Spec.Cond H codes env i b0 c s { has := b, r := .error e } s1
  /-- the last operand -/
  | last {i b0 c s b c1 s1} : Spec.Operand H codes env i codes.length b0 c s (.value b) c1 s1 →
    Spec.Cond H codes env i b0 c s { has := b, r := .error ⟨3001, 0, [], []⟩ } s1
  /-- true before `或者`: nothing more is evaluated -/
  | orTrue {i j b0 c s c1 s1} : Spec.Operand H codes env i j b0 c s (.value true) c1 s1 → Spec.isOr codes j →
    Spec.Cond H codes env i b0 c s { has := true, r := .error ⟨3000, 0, [], []⟩ } s1
  /-- false before `或者`: go on after it -/
  | orFalse {i j b0 c s c1 s1 x s'} : Spec.Operand H codes env i j b0 c s (.value false) c1 s1 → Spec.isOr codes j →
    Spec.Cond H codes env (j + 1) false c1 s1 x s' → Spec.Cond H codes env i b0 c s x s'
  /-- true before `并且`: go on after it -/
  | andTrue {i j b0 c s c1 s1 x s'} : Spec.Operand H codes env i j b0 c s (.value true) c1 s1 → Spec.isAnd codes j →
    Spec.Cond H codes env (j + 1) true c1 s1 x s' → Spec.Cond H codes env i b0 c s x s'
  /-- false before `并且`: go on after the next `或者`; nothing before it is evaluated -/
  | andFalse {i j k b0 c s c1 s1 x s'} : Spec.Operand H codes env i j b0 c s (.value false) c1 s1 → Spec.isAnd codes j →
    j < k → Spec.isOr codes k → (∀ m, j < m → m < k → ¬ Spec.isOr codes m) →
    Spec.Cond H codes env (k + 1) false c1 s1 x s' → Spec.Cond H codes env i b0 c s x s'
  /-- false before `并且` and no `或者` after it: nothing more is evaluated -/
  | andEnd {i j b0 c s c1 s1} : Spec.Operand H codes env i j b0 c s (.value false) c1 s1 → Spec.isAnd codes j →
    (∀ m, j < m → ¬ Spec.isOr codes m) →
    Spec.Cond H codes env i b0 c s { has := false, r := .error ⟨3001, 0, [], []⟩ } s1

/-! ## The steps of the loop -/

theorem evals_cond {codes : List Code} {env : Env} {st : CondSt} {s s' : St} {x : Res} :
    Evals H (.cond codes env st) s x s' ↔ Ev H (Evals H) (condP codes env st) s x s' := evals_iff

theorem isCondKw_iff (id : KwId) : isCondKw id = true ↔ id ∈ Spec.condWords := by cases id <;> decide

theorem plain_step {codes : List Code} {env : Env} {st : CondSt} {c : Code} {s s' : St} {x : Res}
    (hc : codes[st.idx]? = some c) (hk : c.id ∉ Spec.condWords) (hb : ¬ Spec.isBlock c) :
    Evals H (.cond codes env st) s x s' ↔ Evals H (.cond codes env { st with end_ := usizeMax, idx := st.idx + 1 }) s x s' := by
  rw [evals_cond]
  unfold condP
  rw [hc]
  have h1 : c.id ≠ .or_ := fun h => hk (by rw [h]; decide)
  have h2 : c.id ≠ .and_ := fun h => hk (by rw [h]; decide)
  have h3 : c.id ≠ .not_ := fun h => hk (by rw [h]; decide)
  have h4 : isCondKw c.id = false := by
    cases h : isCondKw c.id
    · rfl
    · exact absurd ((isCondKw_iff _).1 h) hk
  have h5 : ¬ (c.id = .or_ ∨ c.id = .and_) := by simp [h1, h2]
  dsimp only
  split
  · exact absurd trivial hb
  · rw [if_neg h5, if_neg h3, if_neg (by simp [h4]), ev_callP]

theorem plain_steps {codes : List Code} {env : Env} {st : CondSt} {j : Nat} {s s' : St} {x : Res}
    (h : Spec.Plain codes st.idx j) :
    Evals H (.cond codes env st) s x s' ↔ Evals H (.cond codes env { st with end_ := usizeMax, idx := j }) s x s' := by
  obtain ⟨hij, h⟩ := h
  obtain ⟨n, hn⟩ := Nat.le.dest (Nat.succ_le_of_lt hij)
  induction n generalizing st with
  | zero =>
    obtain ⟨c, h1, h2, h3⟩ := h st.idx (Nat.le_refl _) hij
    rw [plain_step h1 h2 h3]
    have : st.idx + 1 = j := hn
    rw [this]
  | succ n ih =>
    obtain ⟨c, h1, h2, h3⟩ := h st.idx (Nat.le_refl _) hij
    rw [plain_step h1 h2 h3]
    have := ih (st := { st with end_ := usizeMax, idx := st.idx + 1 }) (by dsimp only; omega)
      (fun k hk hk' => h k (by dsimp only at hk; omega) hk') (by dsimp only; omega)
    exact this

theorem not_step {codes : List Code} {env : Env} {st : CondSt} {c : Code} {s s' : St} {x : Res}
    (hc : codes[st.idx]? = some c) (hk : c.id = .not_) (hb : ¬ Spec.isBlock c) :
    Evals H (.cond codes env st) s x s' ↔ Evals H (.cond codes env { st with
      not := !st.not
      from_ := if st.end_ = 0 then st.idx + 1 else st.from_
      end_ := if st.end_ = usizeMax then st.idx else st.end_
      idx := st.idx + 1 }) s x s' := by
  rw [evals_cond]
  unfold condP
  rw [hc]
  dsimp only
  split
  · exact absurd trivial hb
  · rw [if_neg (by rw [hk]; decide), if_pos hk, ev_callP]

/-- `不` before the operand. -/
theorem nots_before {codes : List Code} {env : Env} {st : CondSt} {j : Nat} {s s' : St} {x : Res}
    (h : Spec.Nots codes st.idx j) (he : st.end_ = 0) (hf : st.from_ = st.idx) :
    Evals H (.cond codes env st) s x s' ↔
      Evals H (.cond codes env { st with not := st.not ^^ decide ((j - st.idx) % 2 = 1), from_ := j, idx := j }) s x s' := by
  obtain ⟨hij, h⟩ := h
  obtain ⟨n, hn⟩ := Nat.le.dest hij
  induction n generalizing st with
  | zero =>
    have e : st.idx = j := hn
    have : ({ st with not := st.not ^^ decide ((j - st.idx) % 2 = 1), from_ := j, idx := j } : CondSt) = st := by
      rw [← e]; cases st; dsimp only at hf; simp [hf]
    rw [this]
  | succ n ih =>
    obtain ⟨c, h1, h2, h3⟩ := h st.idx (Nat.le_refl _) (by omega)
    rw [not_step h1 h2 h3, if_pos he, if_neg (by rw [he]; decide)]
    have := ih (st := { st with not := !st.not, from_ := st.idx + 1, idx := st.idx + 1 }) he rfl (by dsimp only; omega)
      (fun k hk hk' => h k (by dsimp only at hk; omega) hk') (by dsimp only; omega)
    rw [this]
    have e : ((!st.not) ^^ decide ((j - (st.idx + 1)) % 2 = 1)) = (st.not ^^ decide ((j - st.idx) % 2 = 1)) := by
      have : (decide ((j - st.idx) % 2 = 1)) = !decide ((j - (st.idx + 1)) % 2 = 1) := by
        rw [← decide_not, decide_eq_decide]; omega
      rw [this]; cases st.not <;> simp
    dsimp only
    rw [e]

/-- `不` after the left side: its end is kept. -/
theorem nots_after {codes : List Code} {env : Env} {st : CondSt} {j : Nat} {s s' : St} {x : Res}
    (h : Spec.Nots codes st.idx j) (h0 : st.end_ ≠ 0) (he : st.end_ ≠ usizeMax) :
    Evals H (.cond codes env st) s x s' ↔
      Evals H (.cond codes env { st with not := st.not ^^ decide ((j - st.idx) % 2 = 1), idx := j }) s x s' := by
  obtain ⟨hij, h⟩ := h
  obtain ⟨n, hn⟩ := Nat.le.dest hij
  induction n generalizing st with
  | zero =>
    have e : st.idx = j := hn
    have : ({ st with not := st.not ^^ decide ((j - st.idx) % 2 = 1), idx := j } : CondSt) = st := by
      rw [← e]; cases st; simp
    rw [this]
  | succ n ih =>
    obtain ⟨c, h1, h2, h3⟩ := h st.idx (Nat.le_refl _) (by omega)
    rw [not_step h1 h2 h3, if_neg h0, if_neg he]
    have := ih (st := { st with not := !st.not, idx := st.idx + 1 }) h0 he (by dsimp only; omega)
      (fun k hk hk' => h k (by dsimp only at hk; omega) hk') (by dsimp only; omega)
    rw [this]
    have e : ((!st.not) ^^ decide ((j - (st.idx + 1)) % 2 = 1)) = (st.not ^^ decide ((j - st.idx) % 2 = 1)) := by
      have : (decide ((j - st.idx) % 2 = 1)) = !decide ((j - (st.idx + 1)) % 2 = 1) := by
        rw [← decide_not, decide_eq_decide]; omega
      rw [this]; cases st.not <;> simp
    dsimp only
    rw [e]

/-- One side, `mv__`. -/
def mvOk (can : Bool) (st : CondSt) (v : List Str) (i : Nat) : CondSt :=
  { st with from_ := i, left := if can && !st.val.isEmpty then st.val else st.left, val := v }

theorem ev_condMv {can : Bool} {codes : List Code} {env : Env} {st : CondSt} {p : Except Err Unit × CondSt} {s s' : St}
    (h : Ev H (Evals H) (condMv can codes env st) s p s') :
    (∃ v i, Spec.Side H codes env st.from_ st.end_ s (.ok v) s' ∧ p = (.ok (), mvOk can st v i)) ∨
    ∃ e i, Spec.Side H codes env st.from_ st.end_ s (.error e) s' ∧ p = (.error e, { st with from_ := i }) := by
  unfold condMv at h
  obtain ⟨x, s1, h1, h2⟩ := ev_bind.1 h
  have h1 := ev_callP.1 h1
  rcases hx : x.r with e | ⟨⟩
  · rw [hx] at h2
    obtain ⟨rfl, rfl⟩ := ev_pure.1 h2
    exact .inr ⟨e, x.idx, .fail h1 hx, rfl⟩
  · rw [hx] at h2
    obtain ⟨l, s2, h3, h4⟩ := ev_bind.1 h2
    obtain ⟨t, s3, h5, h6⟩ := ev_bind.1 h3
    obtain ⟨rfl, rfl⟩ := ev_getSt.1 h5
    obtain ⟨rfl, rfl⟩ := ev_pure.1 h6
    obtain ⟨u, s4, h7, h8⟩ := ev_bind.1 h4
    have h7 := ev_doOp.1 h7
    simp only [Op.run, Prod.mk.injEq] at h7
    obtain ⟨rfl, rfl⟩ := ev_pure.1 h8
    refine .inl ⟨_, x.idx, ?_, rfl⟩
    have := Spec.Side.ok h1 hx
    rw [← h7.2]
    exact this

theorem condMv_ok {can : Bool} {codes : List Code} {env : Env} {st : CondSt} {v : List Str} {s s' : St}
    (h : Spec.Side H codes env st.from_ st.end_ s (.ok v) s') :
    ∃ i, Ev H (Evals H) (condMv can codes env st) s (.ok (), mvOk can st v i) s' := by
  cases h with
  | ok h1 hx =>
    rename_i x s1
    refine ⟨x.idx, ?_⟩
    unfold condMv
    refine ev_bind.2 ⟨x, s1, ev_callP.2 h1, ?_⟩
    rw [hx]
    refine ev_bind.2 ⟨_, s1, ev_bind.2 ⟨_, _, ev_getSt.2 ⟨rfl, rfl⟩, ev_pure.2 ⟨rfl, rfl⟩⟩, ?_⟩
    exact ev_bind.2 ⟨(), _, ev_doOp.2 rfl, ev_pure.2 ⟨rfl, rfl⟩⟩

theorem condMv_fail {can : Bool} {codes : List Code} {env : Env} {st : CondSt} {e : Err} {s s' : St}
    (h : Spec.Side H codes env st.from_ st.end_ s (.error e) s') :
    ∃ i, Ev H (Evals H) (condMv can codes env st) s (.error e, { st with from_ := i }) s' := by
  cases h with
  | fail h1 hx =>
    rename_i x
    refine ⟨x.idx, ?_⟩
    unfold condMv
    refine ev_bind.2 ⟨x, s', ev_callP.2 h1, ?_⟩
    rw [hx]
    exact ev_pure.2 ⟨rfl, rfl⟩

/-- The state of the loop at the beginning of an operand. -/
def startC (i : Nat) (b : Bool) (c : Spec.Carry) : CondSt := { idx := i, left := c.left, val := c.val, from_ := i, b := b }

/-- What happens at `j`, after an operand with the value `b`. -/
inductive After (H : Host) (codes : List Code) (env : Env) (j : Nat) (b : Bool) (c : Spec.Carry) (s : St) : Res → St → Prop where
  | stop : codes[j]? = none → After H codes env j b c s { has := b, r := .error (.n COND_CT) } s
  | orTrue : Spec.isOr codes j → b = true → After H codes env j b c s { has := b, r := .error (.n COND_OK) } s
  | orFalse {x s'} : Spec.isOr codes j → b = false → Evals H (.cond codes env (startC (j + 1) b c)) s x s' →
    After H codes env j b c s x s'
  | andTrue {x s'} : Spec.isAnd codes j → b = true → Evals H (.cond codes env (startC (j + 1) b c)) s x s' →
    After H codes env j b c s x s'
  | andFalse {x s'} : Spec.isAnd codes j → b = false →
    Evals H (.cond codes env { startC (nextOr (codes.drop (j + 1)) j) b c with kuo := true }) s x s' →
    After H codes env j b c s x s'

/-- `或者` and `并且` are no parentheses. -/
theorem not_block {c : Code} (h : c.id = .or_ ∨ c.id = .and_ ∨ c.id = .not_) : ¬ Spec.isBlock c := by
  cases c <;> first | exact id | (simp [Code.id] at h)

/-- The place of an operand's end. -/
def Spec.isEnd (codes : List Code) (j : Nat) : Prop := codes[j]? = none ∨ Spec.isOr codes j ∨ Spec.isAnd codes j

/-- The end of the right side. -/
def endOf (codes : List Code) (st : CondSt) : Nat := if (codes[st.idx]?).isNone then st.end_ else st.idx

theorem keep_eq (l v : List Str) : (if (true && !v.isEmpty) = true then v else l) = Spec.keep l v := by
  unfold Spec.keep
  cases v <;> rfl

/-- The state after the comparison. -/
def cmpDone (H : Host) (st : CondSt) (v : List Str) (i : Nat) : CondSt :=
  { idx := st.idx, left := Spec.keep st.left st.val, val := v, op := .undef, not := false, from_ := i, end_ := st.end_
    b := cmp H.f64 st.op st.not (Spec.keep st.left st.val) v, kuo := false }

theorem ev_condCmp {codes : List Code} {env : Env} {st : CondSt} {p : Except Err Unit × CondSt} {s s' : St}
    (hk : st.kuo = false) (h : Ev H (Evals H) (condCmp codes env st) s p s') :
    (∃ v i, Spec.Side H codes env st.from_ st.end_ s (.ok v) s' ∧ p = (.ok (), cmpDone H st v i)) ∨
    ∃ e i, Spec.Side H codes env st.from_ st.end_ s (.error e) s' ∧ p = (.error e, { st with from_ := i }) := by
  unfold condCmp at h
  rw [hk, if_neg (by decide)] at h
  obtain ⟨q, s1, h1, h2⟩ := ev_bind.1 h
  rcases ev_condMv h1 with ⟨v, i, h3, rfl⟩ | ⟨e, i, h3, rfl⟩
  · obtain ⟨b, s2, h4, h5⟩ := ev_bind.1 h2
    have h4 := ev_doOp.1 h4
    simp only [Op.run, Prod.mk.injEq, Out.ok.injEq] at h4
    obtain ⟨rfl, rfl⟩ := h4
    obtain ⟨rfl, rfl⟩ := ev_pure.1 h5
    refine .inl ⟨v, i, h3, ?_⟩
    simp only [mvOk, keep_eq, cmpDone, hk]
  · obtain ⟨rfl, rfl⟩ := ev_pure.1 h2
    exact .inr ⟨e, i, h3, rfl⟩

theorem condCmp_ok {codes : List Code} {env : Env} {st : CondSt} {v : List Str} {s s' : St} (hk : st.kuo = false)
    (h : Spec.Side H codes env st.from_ st.end_ s (.ok v) s') :
    ∃ i, Ev H (Evals H) (condCmp codes env st) s (.ok (), cmpDone H st v i) s' := by
  obtain ⟨i, h⟩ := condMv_ok (can := true) h
  refine ⟨i, ?_⟩
  unfold condCmp
  rw [hk, if_neg (by decide)]
  refine ev_bind.2 ⟨_, _, h, ?_⟩
  refine ev_bind.2 ⟨_, _, ev_doOp.2 rfl, ev_pure.2 ⟨?_, rfl⟩⟩
  simp only [mvOk, keep_eq, cmpDone, hk]

theorem condCmp_fail {codes : List Code} {env : Env} {st : CondSt} {e : Err} {s s' : St} (hk : st.kuo = false)
    (h : Spec.Side H codes env st.from_ st.end_ s (.error e) s') :
    ∃ i, Ev H (Evals H) (condCmp codes env st) s (.error e, { st with from_ := i }) s' := by
  obtain ⟨i, h⟩ := condMv_fail (can := true) h
  refine ⟨i, ?_⟩
  unfold condCmp
  rw [hk, if_neg (by decide)]
  exact ev_bind.2 ⟨_, _, h, ev_pure.2 ⟨by rw [hk], rfl⟩⟩

/-- A comparison ends, with the loop at `st`: what comes out of it. -/
inductive Compared (H : Host) (codes : List Code) (env : Env) (st : CondSt) (s : St) :
    Except Err (Bool × Spec.Carry) → St → Prop where
  | ok {v s1} : st.kuo = false → Spec.Side H codes env st.from_ (endOf codes st) s (.ok v) s1 →
    Compared H codes env st s (.ok (cmp H.f64 st.op st.not (Spec.keep st.left st.val) v, ⟨Spec.keep st.left st.val, v⟩)) s1
  | fail {e s1} : st.kuo = false → Spec.Side H codes env st.from_ (endOf codes st) s (.error e) s1 →
    Compared H codes env st s (.error e) s1
  | kuo : st.kuo = true → st.op = .undef → st.not = false → Compared H codes env st s (.ok (st.b, ⟨st.left, st.val⟩)) s

/-- `fcmp` at the end of an operand. -/
theorem condCmp_compared {codes : List Code} {env : Env} {st : CondSt} {s : St} (hk : st.kuo = true → st.op = .undef ∧ st.not = false) :
    (∀ p s', Ev H (Evals H) (condCmp codes env { st with end_ := endOf codes st }) s p s' →
      (∃ b c i, Compared H codes env st s (.ok (b, c)) s' ∧
        p = (.ok (), { startC st.idx b c with from_ := i, end_ := endOf codes st })) ∨
      ∃ e q, Compared H codes env st s (.error e) s' ∧ p = (.error e, q) ∧ q.b = st.b) ∧
    (∀ b c s', Compared H codes env st s (.ok (b, c)) s' → ∃ i,
      Ev H (Evals H) (condCmp codes env { st with end_ := endOf codes st }) s
        (.ok (), { startC st.idx b c with from_ := i, end_ := endOf codes st }) s') ∧
    ∀ e s', Compared H codes env st s (.error e) s' → ∃ q, q.b = st.b ∧
      Ev H (Evals H) (condCmp codes env { st with end_ := endOf codes st }) s (.error e, q) s' := by
  refine ⟨?_, ?_, ?_⟩
  · intro p s' h
    by_cases hk2 : st.kuo = true
    · unfold condCmp at h
      rw [if_pos hk2] at h
      obtain ⟨rfl, rfl⟩ := ev_pure.1 h
      obtain ⟨h1, h2⟩ := hk hk2
      refine .inl ⟨_, _, st.from_, .kuo hk2 h1 h2, ?_⟩
      simp only [startC, h1, h2]
    · have hk2 : st.kuo = false := by simpa using hk2
      rcases ev_condCmp (st := { st with end_ := endOf codes st }) hk2 h with ⟨v, i, h1, rfl⟩ | ⟨e, i, h1, rfl⟩
      · exact .inl ⟨_, _, i, .ok hk2 h1, rfl⟩
      · exact .inr ⟨e, _, .fail hk2 h1, rfl, rfl⟩
  · intro b c s' h
    cases h with
    | ok hk2 h1 => exact condCmp_ok (st := { st with end_ := endOf codes st }) hk2 h1
    | kuo hk2 h1 h2 =>
      refine ⟨st.from_, ?_⟩
      unfold condCmp
      rw [if_pos hk2]
      refine ev_pure.2 ⟨?_, rfl⟩
      simp only [startC, h1, h2]
  · intro e s' h
    cases h with
    | fail hk2 h1 =>
      obtain ⟨i, h⟩ := condCmp_fail (st := { st with end_ := endOf codes st }) hk2 h1
      exact ⟨{ st with from_ := i, end_ := endOf codes st }, rfl, h⟩

/-- The program after an operand with the value `b`, at the word `c`. -/
def tailP (codes : List Code) (env : Env) (j : Nat) (b : Bool) (c' : Spec.Carry) (c : Code) : Prog Res :=
  if c.id = .or_ ∧ b = true then return { has := b, r := .error (.n COND_OK) }
  else if c.id = .and_ ∧ b = false then
    callP [] (.cond codes env { startC (nextOr (codes.drop (j + 1)) j) b c' with kuo := true })
  else callP [] (.cond codes env (startC (j + 1) b c'))

/-- At the end of an operand. -/
theorem junction {codes : List Code} {env : Env} {st : CondSt} {s s' : St} {x : Res} (h : Spec.isEnd codes st.idx)
    (hk : st.kuo = true → st.op = .undef ∧ st.not = false) :
    Evals H (.cond codes env st) s x s' ↔
      (∃ e, Compared H codes env st s (.error e) s' ∧ x = { has := st.b, r := .error e }) ∨
      ∃ b c s1, Compared H codes env st s (.ok (b, c)) s1 ∧ After H codes env st.idx b c s1 x s' := by
  obtain ⟨k1, k2, k3⟩ := condCmp_compared (H := H) (codes := codes) (env := env) (s := s) hk
  rw [evals_cond]
  unfold condP
  rcases hc : codes[st.idx]? with _ | c
  · have he : endOf codes st = st.end_ := by unfold endOf; rw [hc]; rfl
    rw [he] at k1 k2 k3
    dsimp only
    constructor
    · intro h
      obtain ⟨p, s1, h1, h2⟩ := ev_bind.1 h
      rcases k1 p s1 h1 with ⟨b, c, i, h3, rfl⟩ | ⟨e, q, h3, rfl, h4⟩
      · obtain ⟨rfl, rfl⟩ := ev_pure.1 h2
        exact .inr ⟨b, c, _, h3, .stop hc⟩
      · obtain ⟨rfl, rfl⟩ := ev_pure.1 h2
        exact .inl ⟨e, h3, by rw [← h4]⟩
    · rintro (⟨e, h3, rfl⟩ | ⟨b, c, s1, h3, h4⟩)
      · obtain ⟨q, h4, h5⟩ := k3 e _ h3
        exact ev_bind.2 ⟨_, _, h5, ev_pure.2 ⟨by rw [← h4], rfl⟩⟩
      · obtain ⟨i, h5⟩ := k2 b c s1 h3
        refine ev_bind.2 ⟨_, _, h5, ?_⟩
        cases h4 with
        | stop => exact ev_pure.2 ⟨rfl, rfl⟩
        | orTrue h | orFalse h | andTrue h | andFalse h => obtain ⟨c, h, -⟩ := h; rw [hc] at h; cases h
  · have he : endOf codes st = st.idx := by unfold endOf; rw [hc]; rfl
    rw [he] at k1 k2 k3
    have hid : c.id = .or_ ∨ c.id = .and_ := by
      rcases h with h | ⟨c', h, h'⟩ | ⟨c', h, h'⟩
      · rw [hc] at h; cases h
      · rw [hc] at h; cases h; exact .inl h'
      · rw [hc] at h; cases h; exact .inr h'
    have hb : ¬ Spec.isBlock c := not_block (by rcases hid with h | h <;> simp [h])
    dsimp only
    split
    · exact absurd trivial hb
    · rw [if_pos hid]
      constructor
      · intro h
        obtain ⟨p, s1, h1, h2⟩ := ev_bind.1 h
        rcases k1 p s1 h1 with ⟨b, c', i, h3, rfl⟩ | ⟨e, q, h3, rfl, h4⟩
        · refine .inr ⟨b, c', s1, h3, ?_⟩
          change Ev H (Evals H) (tailP codes env st.idx b c' c) s1 x s' at h2
          unfold tailP at h2
          split at h2
          · rename_i h5
            obtain ⟨rfl, rfl⟩ := ev_pure.1 h2
            exact .orTrue ⟨c, hc, h5.1⟩ h5.2
          · rename_i h5
            split at h2
            · rename_i h6
              exact .andFalse ⟨c, hc, h6.1⟩ h6.2 (ev_callP.1 h2)
            · rename_i h6
              have h2 := ev_callP.1 h2
              rcases hid with h7 | h7
              · exact .orFalse ⟨c, hc, h7⟩ (by simpa [h7] using h5) h2
              · exact .andTrue ⟨c, hc, h7⟩ (by simpa [h7] using h6) h2
        · obtain ⟨rfl, rfl⟩ := ev_pure.1 h2
          exact .inl ⟨e, h3, by rw [← h4]⟩
      · rintro (⟨e, h3, rfl⟩ | ⟨b, c', s1, h3, h4⟩)
        · obtain ⟨q, h4, h5⟩ := k3 e _ h3
          exact ev_bind.2 ⟨_, _, h5, ev_pure.2 ⟨by rw [← h4], rfl⟩⟩
        · obtain ⟨i, h5⟩ := k2 b c' s1 h3
          refine ev_bind.2 ⟨_, _, h5, ?_⟩
          change Ev H (Evals H) (tailP codes env st.idx b c' c) s1 x s'
          unfold tailP
          cases h4 with
          | stop h => rw [hc] at h; cases h
          | orTrue h h' =>
            obtain ⟨c2, h, h6⟩ := h; rw [hc] at h; cases h
            rw [if_pos ⟨h6, h'⟩]; exact ev_pure.2 ⟨rfl, rfl⟩
          | orFalse h h' h7 =>
            obtain ⟨c2, h, h6⟩ := h; rw [hc] at h; cases h
            rw [if_neg (by simp [h']), if_neg (by simp [h6])]; exact ev_callP.2 h7
          | andTrue h h' h7 =>
            obtain ⟨c2, h, h6⟩ := h; rw [hc] at h; cases h
            rw [if_neg (by simp [h6]), if_neg (by simp [h'])]; exact ev_callP.2 h7
          | andFalse h h' h7 =>
            obtain ⟨c2, h, h6⟩ := h; rw [hc] at h; cases h
            rw [if_neg (by simp [h6]), if_pos ⟨h6, h'⟩]; exact ev_callP.2 h7

/-- `不` between the left side and the comparison. -/
theorem nots_mid {codes : List Code} {env : Env} {st : CondSt} {j : Nat} {s s' : St} {x : Res}
    (h : Spec.Nots codes st.idx j) (he : st.end_ = usizeMax) (h0 : 0 < st.idx) (h1 : st.idx < usizeMax) :
    ∃ e, (if e = usizeMax then j else e) = st.idx ∧ (Evals H (.cond codes env st) s x s' ↔
      Evals H (.cond codes env { st with not := st.not ^^ decide ((j - st.idx) % 2 = 1), idx := j, end_ := e }) s x s') := by
  by_cases hj : j = st.idx
  · subst hj
    refine ⟨usizeMax, if_pos rfl, ?_⟩
    have : ({ st with not := st.not ^^ decide ((st.idx - st.idx) % 2 = 1), idx := st.idx, end_ := usizeMax } : CondSt) = st := by
      cases st; dsimp only at he; simp [he]
    rw [this]
  · obtain ⟨hij, h⟩ := h
    refine ⟨st.idx, if_neg (by omega), ?_⟩
    obtain ⟨c, h1', h2, h3⟩ := h st.idx (Nat.le_refl _) (by omega)
    rw [not_step h1' h2 h3, if_neg (by rw [he]; decide), if_pos he]
    have := nots_after (H := H) (env := env) (s := s) (s' := s') (x := x) (codes := codes)
      (st := { st with not := !st.not, idx := st.idx + 1, end_ := st.idx }) (j := j)
      ⟨by dsimp only; omega, fun k hk hk' => h k (by dsimp only at hk; omega) hk'⟩ (by dsimp only; omega) (by dsimp only; omega)
    rw [this]
    have e : ((!st.not) ^^ decide ((j - (st.idx + 1)) % 2 = 1)) = (st.not ^^ decide ((j - st.idx) % 2 = 1)) := by
      have : (decide ((j - st.idx) % 2 = 1)) = !decide ((j - (st.idx + 1)) % 2 = 1) := by
        rw [← decide_not, decide_eq_decide]; omega
      rw [this]; cases st.not <;> simp
    dsimp only
    rw [e]

theorem cmpWords_sub {id : KwId} (h : id ∈ Spec.cmpWords) :
    id ≠ .or_ ∧ id ≠ .and_ ∧ id ≠ .not_ ∧ isCondKw id = true := by
  revert h; cases id <;> decide

/-- The comparison word: the left side is evaluated. -/
theorem op_step {codes : List Code} {env : Env} {st : CondSt} {c : Code} {k : Nat} {s s' : St} {x : Res}
    (hc : codes[st.idx]? = some c) (hk : c.id ∈ Spec.cmpWords) (hb : ¬ Spec.isBlock c)
    (he : (if st.end_ = usizeMax then st.idx else st.end_) = k) :
    Evals H (.cond codes env st) s x s' ↔
      (∃ e, Spec.Side H codes env st.from_ k s (.error e) s' ∧ x = { has := st.b, r := .error e }) ∨
      ∃ v s1, Spec.Side H codes env st.from_ k s (.ok v) s1 ∧
        Evals H (.cond codes env { st with op := c.id, end_ := k, val := v, from_ := st.idx + 1, idx := st.idx + 1 }) s1 x s' := by
  obtain ⟨h1, h2, h3, h4⟩ := cmpWords_sub hk
  rw [evals_cond]
  unfold condP
  rw [hc]
  dsimp only
  split
  · exact absurd trivial hb
  · rw [if_neg (by simp [h1, h2]), if_neg h3, if_pos h4, he]
    constructor
    · intro h
      obtain ⟨p, s1, h5, h6⟩ := ev_bind.1 h
      rcases ev_condMv h5 with ⟨v, i, h7, rfl⟩ | ⟨e, i, h7, rfl⟩
      · exact .inr ⟨v, s1, h7, ev_callP.1 h6⟩
      · obtain ⟨rfl, rfl⟩ := ev_pure.1 h6
        exact .inl ⟨e, h7, rfl⟩
    · rintro (⟨e, h7, rfl⟩ | ⟨v, s1, h7, h8⟩)
      · obtain ⟨i, h⟩ := condMv_fail (can := false) (st := { st with op := c.id, end_ := k }) h7
        exact ev_bind.2 ⟨_, _, h, ev_pure.2 ⟨rfl, rfl⟩⟩
      · obtain ⟨i, h⟩ := condMv_ok (can := false) (st := { st with op := c.id, end_ := k }) h7
        exact ev_bind.2 ⟨_, _, h, ev_callP.2 h8⟩

theorem codes_end {a : List Code} {i j : Nat} {env : Env} {s s' : St} {x : Res} (h : min j a.length = min usizeMax a.length) :
    Evals H (.codes a i usizeMax env) s x s' ↔ Evals H (.codes a i j env) s x s' := by
  rw [evals_iff, evals_iff]
  change Ev H (Evals H) (codesP a i usizeMax env) _ _ _ ↔ Ev H (Evals H) (codesP a i j env) _ _ _
  unfold codesP
  rw [h]

theorem side_end {codes : List Code} {env : Env} {i : Nat} {s s' : St} {r : Except Err (List Str)}
    (hl : codes.length ≤ usizeMax) :
    Spec.Side H codes env i usizeMax s r s' ↔ Spec.Side H codes env i codes.length s r s' := by
  have h : min codes.length codes.length = min usizeMax codes.length := by omega
  constructor
  · intro h'
    cases h' with
    | ok h1 h2 => exact .ok ((codes_end h).1 h1) h2
    | fail h1 h2 => exact .fail ((codes_end h).1 h1) h2
  · intro h'
    cases h' with
    | ok h1 h2 => exact .ok ((codes_end h).2 h1) h2
    | fail h1 h2 => exact .fail ((codes_end h).2 h1) h2

theorem Spec.Plain.le_length {codes : List Code} {i j : Nat} (h : Spec.Plain codes i j) : j ≤ codes.length := by
  obtain ⟨h1, h2⟩ := h
  obtain ⟨c, h3, -⟩ := h2 (j - 1) (by omega) (by omega)
  have := (List.getElem?_eq_some_iff.1 h3).1
  omega

/-- The last side, at the end of the operand. -/
theorem last_side {codes : List Code} {env : Env} {st : CondSt} {a j : Nat} {s s' : St} {x : Res}
    (hl : codes.length ≤ usizeMax) (hp : Spec.Plain codes a j) (hj : Spec.isEnd codes j) (hi : st.idx = j) (hf : st.from_ = a)
    (he : st.end_ = usizeMax) (hk : st.kuo = false) :
    Evals H (.cond codes env st) s x s' ↔
      (∃ e, Spec.Side H codes env a j s (.error e) s' ∧ x = { has := st.b, r := .error e }) ∨
      ∃ v s1, Spec.Side H codes env a j s (.ok v) s1 ∧
        After H codes env j (cmp H.f64 st.op st.not (Spec.keep st.left st.val) v) ⟨Spec.keep st.left st.val, v⟩ s1 x s' := by
  have key : ∀ r s', Spec.Side H codes env st.from_ (endOf codes st) s r s' ↔ Spec.Side H codes env a j s r s' := by
    intro r s'
    rw [hf]
    unfold endOf
    rw [hi]
    rcases hc : codes[j]? with _ | c
    · have : j = codes.length := by
        have h1 := hp.le_length
        have h2 := List.getElem?_eq_none_iff.1 hc
        omega
      subst this
      rw [if_pos Option.isNone_none, he, side_end hl]
    · rw [if_neg (by simp)]
  rw [junction (hi ▸ hj) (by rw [hk]; simp)]
  constructor
  · rintro (⟨e, h1, rfl⟩ | ⟨b, c, s1, h1, h2⟩)
    · cases h1 with
      | fail h3 h4 => exact .inl ⟨e, (key _ _).1 h4, rfl⟩
    · cases h1 with
      | ok h3 h4 => exact .inr ⟨_, _, (key _ _).1 h4, hi ▸ h2⟩
      | kuo h3 => rw [hk] at h3; cases h3
  · rintro (⟨e, h1, rfl⟩ | ⟨v, s1, h1, h2⟩)
    · exact .inl ⟨e, .fail hk ((key _ _).2 h1), rfl⟩
    · exact .inr ⟨_, _, _, .ok hk ((key _ _).2 h1), hi ▸ h2⟩

/-! ## The three kinds of operands -/

theorem value_shape {codes : List Code} {env : Env} {i a j : Nat} {b : Bool} {c : Spec.Carry} {s s' : St} {x : Res}
    (hl : codes.length ≤ usizeMax) (hn : Spec.Nots codes i a) (hp : Spec.Plain codes a j) (hj : Spec.isEnd codes j) :
    Evals H (.cond codes env (startC i b c)) s x s' ↔
      (∃ e, Spec.Side H codes env a j s (.error e) s' ∧ x = { has := b, r := .error e }) ∨
      ∃ v s1, Spec.Side H codes env a j s (.ok v) s1 ∧
        After H codes env j (cmp H.f64 .undef ((a - i) % 2 = 1) (Spec.keep c.left c.val) v) ⟨Spec.keep c.left c.val, v⟩ s1 x s' := by
  rw [nots_before (st := startC i b c) hn rfl rfl, plain_steps (by exact hp), last_side hl hp hj rfl rfl rfl rfl]
  have e : (false ^^ decide ((a - i) % 2 = 1)) = decide ((a - i) % 2 = 1) := Bool.false_xor _
  rw [← e]
  exact Iff.rfl

theorem cmp_shape {codes : List Code} {env : Env} {i a m d j : Nat} {op : Code} {b : Bool} {c : Spec.Carry} {s s' : St} {x : Res}
    (hl : codes.length ≤ usizeMax) (hn : Spec.Nots codes i a) (hp : Spec.Plain codes a m) (hn2 : Spec.Nots codes m d)
    (hd : codes[d]? = some op) (hop : op.id ∈ Spec.cmpWords) (hb : ¬ Spec.isBlock op) (hp2 : Spec.Plain codes (d + 1) j)
    (hj : Spec.isEnd codes j) :
    Evals H (.cond codes env (startC i b c)) s x s' ↔
      (∃ e, Spec.Side H codes env a m s (.error e) s' ∧ x = { has := b, r := .error e }) ∨
      ∃ l s1, Spec.Side H codes env a m s (.ok l) s1 ∧
        ((∃ e, Spec.Side H codes env (d + 1) j s1 (.error e) s' ∧ x = { has := b, r := .error e }) ∨
        ∃ r s2, Spec.Side H codes env (d + 1) j s1 (.ok r) s2 ∧
          After H codes env j (cmp H.f64 op.id ((a - i + (d - m)) % 2 = 1) (Spec.keep c.left l) r) ⟨Spec.keep c.left l, r⟩ s2 x s') := by
  have hd' := (List.getElem?_eq_some_iff.1 hd).1
  rw [nots_before (st := startC i b c) hn rfl rfl, plain_steps (by exact hp)]
  obtain ⟨e, he, h⟩ := nots_mid (H := H) (codes := codes) (env := env) (s := s) (s' := s') (x := x) (j := d)
    (st := { startC i b c with not := (startC i b c).not ^^ decide ((a - (startC i b c).idx) % 2 = 1), from_ := a, idx := m,
                               end_ := usizeMax }) hn2 rfl
    (by have := hp.1; dsimp only; omega) (by have := hn2.1; dsimp only; omega)
  rw [h, op_step hd hop hb he]
  refine or_congr Iff.rfl (exists_congr fun v => exists_congr fun s1 => and_congr Iff.rfl ?_)
  rw [plain_steps (by exact hp2), last_side hl hp2 hj rfl rfl rfl rfl]
  have e : (false ^^ decide ((a - i) % 2 = 1) ^^ decide ((d - m) % 2 = 1)) = decide ((a - i + (d - m)) % 2 = 1) := by
    by_cases h1 : (a - i) % 2 = 1 <;> by_cases h2 : (d - m) % 2 = 1 <;> simp only [h1, h2, decide_true, decide_false] <;>
      symm <;> first
      | (rw [show ((false ^^ true) ^^ true) = false from rfl, decide_eq_false_iff_not]; omega)
      | (rw [show ((false ^^ true) ^^ false) = true from rfl, decide_eq_true_iff]; omega)
      | (rw [show ((false ^^ false) ^^ true) = true from rfl, decide_eq_true_iff]; omega)
      | (rw [show ((false ^^ false) ^^ false) = false from rfl, decide_eq_false_iff_not]; omega)
  rw [← e]
  exact Iff.rfl

/-- A condition ends with an "error": `3001`, `3000`, or a real one. -/
theorem cond_error {codes : List Code} {env : Env} {st : CondSt} {s s' : St} {x : Res}
    (h : Evals H (.cond codes env st) s x s') : ∃ e, x.r = .error e := by
  refine Evals.ind (P := fun c _ x _ => match c with | .cond .. => ∃ e, x.r = .error e | _ => True) ?_ h
  clear h
  intro c s x s' h
  split
  · rename_i codes env st
    change Ev H _ (condP codes env st) s x s' at h
    unfold condP at h
    split at h
    · obtain ⟨p, s1, -, h⟩ := ev_bind.1 h
      rcases p with ⟨_ | _, q⟩ <;> (obtain ⟨rfl, rfl⟩ := ev_pure.1 h; exact ⟨_, rfl⟩)
    · split at h
      · obtain ⟨l, s1, -, h⟩ := ev_bind.1 h
        obtain ⟨y, s2, -, h⟩ := ev_bind.1 h
        dsimp only at h
        split at h
        · rename_i e _
          by_cases he : e.i = COND_CT
          · rw [if_pos he] at h
            exact (ev_callP.1 h).2
          · rw [if_neg he] at h
            obtain ⟨rfl, rfl⟩ := ev_pure.1 h
            exact ⟨_, rfl⟩
        · exact (ev_callP.1 h).2
      · split at h
        · obtain ⟨p, s1, -, h⟩ := ev_bind.1 h
          rcases p with ⟨_ | _, q⟩
          · obtain ⟨rfl, rfl⟩ := ev_pure.1 h; exact ⟨_, rfl⟩
          · dsimp only at h
            split at h
            · obtain ⟨rfl, rfl⟩ := ev_pure.1 h; exact ⟨_, rfl⟩
            · split at h
              · exact (ev_callP.1 h).2
              · exact (ev_callP.1 h).2
        · split at h
          · exact (ev_callP.1 h).2
          · split at h
            · obtain ⟨p, s1, -, h⟩ := ev_bind.1 h
              rcases p with ⟨_ | _, q⟩
              · obtain ⟨rfl, rfl⟩ := ev_pure.1 h; exact ⟨_, rfl⟩
              · exact (ev_callP.1 h).2
            · exact (ev_callP.1 h).2
  · trivial

/-- After a parenthesis, or after operands that were left out. -/
theorem kuo_shape {codes : List Code} {env : Env} {i : Nat} {b : Bool} {c : Spec.Carry} {s s' : St} {x : Res}
    (hj : Spec.isEnd codes i) :
    Evals H (.cond codes env { startC i b c with kuo := true }) s x s' ↔ After H codes env i b c s x s' := by
  rw [junction (by exact hj) (fun _ => ⟨rfl, rfl⟩)]
  constructor
  · rintro (⟨e, h1, -⟩ | ⟨b', c', s1, h1, h2⟩)
    · cases h1 with
      | fail h => cases h
    · cases h1 with
      | ok h => cases h
      | kuo => exact h2
  · intro h
    exact .inr ⟨_, _, _, .kuo rfl rfl rfl, h⟩

theorem block_shape {codes a : List Code} {env : Env} {i : Nat} {b : Bool} {c : Spec.Carry} {s s' : St} {x : Res}
    (hc : codes[i]? = some (.block a)) (hj : Spec.isEnd codes (i + 1)) :
    Evals H (.cond codes env (startC i b c)) s x s' ↔
      ∃ y s1 e, Evals H (.cond a { env with ret := s.nlist } { b := b }) (Spec.fresh s) y s1 ∧ y.r = .error e ∧
        ((e.i ≠ 3001 ∧ x = { has := y.has, r := .error e } ∧ s' = s1) ∨
          (e.i = 3001 ∧ After H codes env (i + 1) y.has c s1 x s')) := by
  rw [evals_cond]
  unfold condP
  have hc' : codes[(startC i b c).idx]? = some (.block a) := hc
  rw [hc']
  dsimp only
  constructor
  · intro h
    obtain ⟨l, s1, h1, h⟩ := ev_bind.1 h
    have h1 := ev_doOp.1 h1
    simp only [Op.run, Prod.mk.injEq, Out.ok.injEq] at h1
    obtain ⟨rfl, rfl⟩ := h1
    obtain ⟨y, s2, h2, h⟩ := ev_bind.1 h
    have h2 := ev_callP.1 h2
    obtain ⟨e, he⟩ := cond_error h2
    refine ⟨y, s2, e, h2, he, ?_⟩
    rw [he] at h
    dsimp only at h
    by_cases h3 : e.i = COND_CT
    · rw [if_pos h3] at h
      exact .inr ⟨h3, (kuo_shape hj).1 (ev_callP.1 h)⟩
    · rw [if_neg h3] at h
      obtain ⟨rfl, rfl⟩ := ev_pure.1 h
      exact .inl ⟨h3, rfl, rfl⟩
  · rintro ⟨y, s1, e, h1, he, h⟩
    refine ev_bind.2 ⟨_, _, ev_doOp.2 rfl, ev_bind.2 ⟨y, s1, ev_callP.2 h1, ?_⟩⟩
    rw [he]
    dsimp only
    rcases h with ⟨h3, rfl, rfl⟩ | ⟨h3, h⟩
    · rw [if_neg (show ¬ e.i = COND_CT from h3)]
      exact ev_pure.2 ⟨rfl, rfl⟩
    · rw [if_pos (show e.i = COND_CT from h3)]
      exact ev_callP.2 ((kuo_shape hj).2 h)

/-! ## The whole condition -/

theorem Spec.IsOperand.bounds {codes : List Code} {i j : Nat} (h : Spec.IsOperand codes i j) : i < j ∧ j ≤ codes.length := by
  cases h with
  | value h1 h2 => exact ⟨Nat.lt_of_le_of_lt h1.1 h2.1, h2.le_length⟩
  | cmp h1 h2 h3 h4 h5 h6 h7 =>
    exact ⟨by have := h1.1; have := h2.1; have := h3.1; have := h7.1; omega, h7.le_length⟩
  | block h => exact ⟨Nat.lt_succ_self _, (List.getElem?_eq_some_iff.1 h).1⟩

/-- One operand: it is evaluated, then the condition goes on after it. -/
theorem operand_step {codes : List Code} {env : Env} {i j : Nat} {b : Bool} {c : Spec.Carry} {s s' : St} {x : Res}
    (hl : codes.length ≤ usizeMax) (ho : Spec.IsOperand codes i j) (hj : Spec.isEnd codes j)
    (h : Evals H (.cond codes env (startC i b c)) s x s') :
    (∃ b' e c', Spec.Operand H codes env i j b c s (.out b' e) c' s' ∧ x = { has := b', r := .error e }) ∨
    ∃ b' c' s1, Spec.Operand H codes env i j b c s (.value b') c' s1 ∧ After H codes env j b' c' s1 x s' := by
  cases ho with
  | value h1 h2 =>
    rcases (value_shape hl h1 h2 hj).1 h with ⟨e, h3, rfl⟩ | ⟨v, s1, h3, h4⟩
    · exact .inl ⟨_, _, _, .valueFail h1 h2 h3, rfl⟩
    · exact .inr ⟨_, _, _, .value h1 h2 h3, h4⟩
  | cmp h1 h2 h3 h4 h5 h6 h7 =>
    rcases (cmp_shape hl h1 h2 h3 h4 h5 h6 h7 hj).1 h with ⟨e, h8, rfl⟩ | ⟨l, s1, h8, ⟨e, h9, rfl⟩ | ⟨r, s2, h9, h10⟩⟩
    · exact .inl ⟨_, _, _, .leftFail h1 h2 h3 h4 h5 h6 h7 h8, rfl⟩
    · exact .inl ⟨_, _, _, .rightFail h1 h2 h3 h4 h5 h6 h7 h8 h9, rfl⟩
    · exact .inr ⟨_, _, _, .cmp h1 h2 h3 h4 h5 h6 h7 h8 h9, h10⟩
  | block h1 =>
    obtain ⟨y, s1, e, h2, h3, ⟨h4, rfl, rfl⟩ | ⟨h4, h5⟩⟩ := (block_shape h1 hj).1 h
    · exact .inl ⟨_, _, _, .blockOut h1 rfl h2 h3 h4, rfl⟩
    · exact .inr ⟨_, _, _, .block h1 rfl h2 h3 h4, h5⟩

theorem operand_out {codes : List Code} {env : Env} {i j : Nat} {b b' : Bool} {e : Err} {c c' : Spec.Carry} {s s' : St}
    (hl : codes.length ≤ usizeMax) (hj : Spec.isEnd codes j) (h : Spec.Operand H codes env i j b c s (.out b' e) c' s') :
    Evals H (.cond codes env (startC i b c)) s { has := b', r := .error e } s' := by
  cases h with
  | valueFail h1 h2 h3 => exact (value_shape hl h1 h2 hj).2 (.inl ⟨_, h3, rfl⟩)
  | leftFail h1 h2 h3 h4 h5 h6 h7 h8 => exact (cmp_shape hl h1 h2 h3 h4 h5 h6 h7 hj).2 (.inl ⟨_, h8, rfl⟩)
  | rightFail h1 h2 h3 h4 h5 h6 h7 h8 h9 =>
    exact (cmp_shape hl h1 h2 h3 h4 h5 h6 h7 hj).2 (.inr ⟨_, _, h8, .inl ⟨_, h9, rfl⟩⟩)
  | blockOut h1 h2 h3 h4 h5 =>
    subst h2
    exact (block_shape h1 hj).2 ⟨_, _, _, h3, h4, .inl ⟨h5, rfl, rfl⟩⟩

theorem operand_value {codes : List Code} {env : Env} {i j : Nat} {b b' : Bool} {c c' : Spec.Carry} {s s1 s' : St} {x : Res}
    (hl : codes.length ≤ usizeMax) (hj : Spec.isEnd codes j) (h : Spec.Operand H codes env i j b c s (.value b') c' s1)
    (ha : After H codes env j b' c' s1 x s') : Evals H (.cond codes env (startC i b c)) s x s' := by
  cases h with
  | value h1 h2 h3 => exact (value_shape hl h1 h2 hj).2 (.inr ⟨_, _, h3, ha⟩)
  | cmp h1 h2 h3 h4 h5 h6 h7 h8 h9 => exact (cmp_shape hl h1 h2 h3 h4 h5 h6 h7 hj).2 (.inr ⟨_, _, h8, .inr ⟨_, _, h9, ha⟩⟩)
  | block h1 h2 h3 h4 h5 =>
    subst h2
    exact (block_shape h1 hj).2 ⟨_, _, _, h3, h4, .inr ⟨h5, ha⟩⟩

/-- The next `或者`. -/
theorem nextOr_spec (codes : List Code) (j : Nat) (hj : j < codes.length) :
    let k := nextOr (codes.drop (j + 1)) j
    j < k ∧ k ≤ codes.length ∧ (∀ m, j < m → m < k → ¬ Spec.isOr codes m) ∧ (k = codes.length ∨ Spec.isOr codes k) := by
  obtain ⟨n, hn⟩ : ∃ n, codes.length - (j + 1) = n := ⟨_, rfl⟩
  induction n generalizing j with
  | zero =>
    have h : codes.drop (j + 1) = [] := List.drop_eq_nil_of_le (by omega)
    rw [h]
    exact ⟨Nat.lt_succ_self _, hj, fun m h1 h2 => by simp only [nextOr] at h2; omega, .inl (by simp only [nextOr]; omega)⟩
  | succ n ih =>
    have h1 : j + 1 < codes.length := by omega
    rw [List.drop_eq_getElem_cons h1]
    unfold nextOr
    by_cases h2 : codes[j + 1].id = .or_
    · rw [if_pos h2]
      exact ⟨Nat.lt_succ_self _, hj, fun m h3 h4 => by omega, .inr ⟨_, List.getElem?_eq_getElem h1, h2⟩⟩
    · rw [if_neg h2]
      obtain ⟨h3, h4, h5, h6⟩ := ih (j + 1) h1 (by omega)
      refine ⟨by omega, h4, fun m h7 h8 => ?_, h6⟩
      by_cases h9 : m = j + 1
      · subst h9
        rintro ⟨c, h10, h11⟩
        rw [List.getElem?_eq_getElem h1] at h10
        cases h10
        exact h2 h11
      · exact h5 m (by omega) h8

theorem nextOr_eq {codes : List Code} {j k : Nat} (hj : j < codes.length) (h1 : j < k) (h2 : Spec.isOr codes k)
    (h3 : ∀ m, j < m → m < k → ¬ Spec.isOr codes m) : nextOr (codes.drop (j + 1)) j = k := by
  obtain ⟨h4, h5, h6, h7⟩ := nextOr_spec codes j hj
  rcases Nat.lt_trichotomy (nextOr (codes.drop (j + 1)) j) k with h | h | h
  · rcases h7 with h7 | h7
    · obtain ⟨c, h8, -⟩ := h2
      have := (List.getElem?_eq_some_iff.1 h8).1
      omega
    · exact absurd h7 (h3 _ h4 h)
  · exact h
  · exact absurd h2 (h6 _ h1 h)

theorem nextOr_end {codes : List Code} {j : Nat} (hj : j < codes.length) (h3 : ∀ m, j < m → ¬ Spec.isOr codes m) :
    nextOr (codes.drop (j + 1)) j = codes.length := by
  obtain ⟨h4, h5, h6, h7⟩ := nextOr_spec codes j hj
  rcases h7 with h7 | h7
  · exact h7
  · exact absurd h7 (h3 _ h4)

theorem isOr_lt {codes : List Code} {j : Nat} (h : Spec.isOr codes j) : j < codes.length := by
  obtain ⟨c, h, -⟩ := h; exact (List.getElem?_eq_some_iff.1 h).1

theorem isAnd_lt {codes : List Code} {j : Nat} (h : Spec.isAnd codes j) : j < codes.length := by
  obtain ⟨c, h, -⟩ := h; exact (List.getElem?_eq_some_iff.1 h).1

theorem isOr_isAnd {codes : List Code} {j : Nat} (h : Spec.isOr codes j) : ¬ Spec.isAnd codes j := by
  rintro ⟨c, h1, h2⟩
  obtain ⟨d, h3, h4⟩ := h
  rw [h1] at h3; cases h3; rw [h2] at h4; cases h4

/-- No operand contains `或者`. -/
theorem Spec.IsOperand.no_or {codes : List Code} {i j k : Nat} (h : Spec.IsOperand codes i j) (h1 : i ≤ k) (h2 : k < j) :
    ¬ Spec.isOr codes k := by
  have plain : ∀ {a b}, Spec.Plain codes a b → a ≤ k → k < b → ¬ Spec.isOr codes k := by
    rintro a b ⟨-, h⟩ h3 h4 ⟨c, h5, h6⟩
    obtain ⟨d, h7, h8, -⟩ := h k h3 h4
    rw [h5] at h7; cases h7
    exact h8 (by rw [h6]; decide)
  have nots : ∀ {a b}, Spec.Nots codes a b → a ≤ k → k < b → ¬ Spec.isOr codes k := by
    rintro a b ⟨-, h⟩ h3 h4 ⟨c, h5, h6⟩
    obtain ⟨d, h7, h8, -⟩ := h k h3 h4
    rw [h5] at h7; cases h7
    rw [h6] at h8; cases h8
  cases h with
  | value h3 h4 =>
    rename_i a
    by_cases h5 : k < a
    · exact nots h3 h1 h5
    · exact plain h4 (by omega) h2
  | cmp h3 h4 h5 h6 h7 h8 h9 =>
    rename_i a b c d
    by_cases e1 : k < a
    · exact nots h3 h1 e1
    by_cases e2 : k < b
    · exact plain h4 (by omega) e2
    by_cases e3 : k < c
    · exact nots h5 (by omega) e3
    by_cases e4 : k = c
    · subst e4
      rintro ⟨f, h10, h11⟩
      rw [h6] at h10; cases h10
      exact (cmpWords_sub h7).1 h11
    · exact plain h9 (by omega) h2
  | block h3 =>
    have : k = i := by omega
    subst this
    rintro ⟨f, h10, h11⟩
    rw [h3] at h10; cases h10
    simp [Code.id] at h11

/-- After every `或者` the rest has the form of a condition. -/
theorem Spec.Form.after_or {codes : List Code} {i k : Nat} (h : Spec.Form codes i) (hi : i ≤ k) (hk : Spec.isOr codes k) :
    Spec.Form codes (k + 1) := by
  induction h with
  | last h1 => exact absurd hk (h1.no_or hi (isOr_lt hk))
  | more h1 h2 h3 ih =>
    rename_i i j
    by_cases h4 : k < j
    · exact absurd hk (h1.no_or hi h4)
    · by_cases h5 : k = j
      · subst h5; exact h3
      · exact ih (by omega)

/-- **C31.** A condition that consists of operands with `或者` and `并且` between them is evaluated from left to
right: exactly the operands of `Spec.Cond` are evaluated, in that order, and the result is that of
`Spec.Cond`.  The errors of operands, and the values printed, are part of the statement: `Spec.Operand`
takes the state from before to after the operand. -/
theorem C31_condition {codes : List Code} {env : Env} {i : Nat} {b : Bool} {c : Spec.Carry} {s s' : St} {x : Res}
    (hl : codes.length ≤ usizeMax) (hf : Spec.Form codes i) :
    Evals H (.cond codes env (startC i b c)) s x s' ↔ Spec.Cond H codes env i b c s x s' := by
  constructor
  · intro h
    obtain ⟨n, hn⟩ : ∃ n, codes.length - i ≤ n := ⟨_, Nat.le_refl _⟩
    induction n generalizing i b c s with
    | zero =>
      exfalso
      cases hf with
      | last h1 => have := h1.bounds; omega
      | more h1 => have := h1.bounds; omega
    | succ n ih =>
      obtain ⟨j, ho, hj, hn1, hn2⟩ : ∃ j, Spec.IsOperand codes i j ∧ (j = codes.length ∨ Spec.isOr codes j ∨ Spec.isAnd codes j) ∧
          (Spec.isOr codes j → Spec.Form codes (j + 1)) ∧ (Spec.isAnd codes j → Spec.Form codes (j + 1)) := by
        cases hf with
        | last h1 =>
          exact ⟨_, h1, .inl rfl, fun h => absurd (isOr_lt h) (by omega), fun h => absurd (isAnd_lt h) (by omega)⟩
        | more h1 h2 h3 => exact ⟨_, h1, .inr h2, fun _ => h3, fun _ => h3⟩
      have hb := ho.bounds
      have hj' : Spec.isEnd codes j := by
        rcases hj with h | h
        · exact .inl (List.getElem?_eq_none_iff.2 (by omega))
        · exact .inr h
      rcases operand_step hl ho hj' h with ⟨b', e, c', h1, rfl⟩ | ⟨b', c', s1, h1, h2⟩
      · exact .out h1 hj
      · cases h2 with
        | stop h3 =>
          have : j = codes.length := by have := List.getElem?_eq_none_iff.1 h3; omega
          subst this
          exact .last h1
        | orTrue h3 h4 => subst h4; exact .orTrue h1 h3
        | orFalse h3 h4 h5 => subst h4; exact .orFalse h1 h3 (ih (hn1 h3) h5 (by omega))
        | andTrue h3 h4 h5 => subst h4; exact .andTrue h1 h3 (ih (hn2 h3) h5 (by omega))
        | andFalse h3 h4 h5 =>
          subst h4
          obtain ⟨k1, k2, k3, k4⟩ := nextOr_spec codes j (isAnd_lt h3)
          generalize nextOr (codes.drop (j + 1)) j = k at h5 k1 k2 k3 k4
          rcases k4 with k4 | k4
          · subst k4
            have h6 := (kuo_shape (.inl (List.getElem?_eq_none_iff.2 (Nat.le_refl _)))).1 h5
            have hno : ∀ m, j < m → ¬ Spec.isOr codes m := fun m h7 h8 => k3 m h7 (isOr_lt h8) h8
            cases h6 with
            | stop => exact .andEnd h1 h3 hno
            | orTrue g | orFalse g => exact absurd (isOr_lt g) (by omega)
            | andTrue g | andFalse g => exact absurd (isAnd_lt g) (by omega)
          · have h6 := (kuo_shape (.inr (.inl k4))).1 h5
            cases h6 with
            | stop g => have := List.getElem?_eq_none_iff.1 g; have := isOr_lt k4; omega
            | orTrue _ g => cases g
            | orFalse _ _ h7 =>
              exact .andFalse h1 h3 k1 k4 k3 (ih ((hn2 h3).after_or (by omega) k4) h7 (by omega))
            | andTrue g | andFalse g => exact absurd g (isOr_isAnd k4)
  · intro h
    clear hf
    have hend : Spec.isEnd codes codes.length := .inl (List.getElem?_eq_none_iff.2 (Nat.le_refl _))
    induction h with
    | out h1 h2 =>
      refine operand_out hl ?_ h1
      rcases h2 with rfl | h2
      · exact hend
      · exact .inr h2
    | last h1 => exact operand_value hl hend h1 (.stop (List.getElem?_eq_none_iff.2 (Nat.le_refl _)))
    | orTrue h1 h2 => exact operand_value hl (.inr (.inl h2)) h1 (.orTrue h2 rfl)
    | orFalse h1 h2 h3 ih => exact operand_value hl (.inr (.inl h2)) h1 (.orFalse h2 rfl ih)
    | andTrue h1 h2 h3 ih => exact operand_value hl (.inr (.inr h2)) h1 (.andTrue h2 rfl ih)
    | andFalse h1 h2 h3 h4 h5 h6 ih =>
      refine operand_value hl (.inr (.inr h2)) h1 (.andFalse h2 rfl ?_)
      rw [nextOr_eq (isAnd_lt h2) h3 h4 h5]
      exact (kuo_shape (.inr (.inl h4))).2 (.orFalse h4 rfl ih)
    | andEnd h1 h2 h3 =>
      refine operand_value hl (.inr (.inr h2)) h1 (.andFalse h2 rfl ?_)
      rw [nextOr_end (isAnd_lt h2) h3]
      exact (kuo_shape hend).2 (.stop (List.getElem?_eq_none_iff.2 (Nat.le_refl _)))

theorem Spec.Cond.result {codes : List Code} {env : Env} {i : Nat} {b : Bool} {c : Spec.Carry} {s s' : St} {x : Res}
    (h : Spec.Cond H codes env i b c s x s') : ∃ b e, x = { has := b, r := .error e } := by
  induction h with
  | out | last | orTrue | andEnd => exact ⟨_, _, rfl⟩
  | orFalse _ _ _ ih => exact ih
  | andTrue _ _ _ ih => exact ih
  | andFalse _ _ _ _ _ _ ih => exact ih

/-- C31 for the statement `如果`: the branch is chosen by the condition, and the condition is evaluated once, before it.
An operand's error or jump ends the statement. -/
theorem C31_if {a th el : List Code} {env : Env} {s s' : St} {r : Res} (hl : a.length ≤ usizeMax) (hf : Spec.Form a 0) :
    Evals H (.item (.if_ a th el) env) s r s' ↔
      ∃ b e s1, Spec.Cond H a { env with ret := s.nlist } 0 false {} (Spec.fresh s) { has := b, r := .error e } s1 ∧
        (((e.i = 3000 ∨ e.i = 3001) ∧
            ∃ y, Evals H (.codes (if b then th else el) 0 usizeMax env) s1 y s' ∧ r = { r := y.r }) ∨
          (e.i ≠ 3000 ∧ e.i ≠ 3001 ∧ r = { r := .error e } ∧ s' = s1)) := by
  rw [evals_item]
  change (∃ x, EvE H (Evals H) (ifP a th el env) s x s' ∧ r = { r := x }) ↔ _
  unfold ifP
  constructor
  · rintro ⟨x, h, rfl⟩
    rcases evE_bind.1 h with ⟨l, s1, h1, h⟩ | ⟨e, h1, -⟩
    · obtain ⟨_, hl', h1⟩ := evE_lift.1 h1
      cases hl'
      have h1 := ev_doOp.1 h1
      simp only [Op.run, Prod.mk.injEq, Out.ok.injEq] at h1
      obtain ⟨rfl, rfl⟩ := h1
      rcases evE_bind.1 h with ⟨y, s2, h2, h⟩ | ⟨e, h2, -⟩
      · obtain ⟨_, hl', h2⟩ := evE_lift.1 h2
        cases hl'
        have h2 := ev_callP.1 h2
        have h3 := (C31_condition (b := false) (c := {}) hl hf).1 h2
        obtain ⟨b, e, rfl⟩ := h3.result
        refine ⟨b, e, s2, h3, ?_⟩
        dsimp only at h
        by_cases h4 : e.i = COND_OK ∨ e.i = COND_CT
        · rw [if_pos h4] at h
          refine .inl ⟨h4, ?_⟩
          cases b
          · obtain ⟨w, h5, rfl⟩ := evE_hello.1 h; exact ⟨w, h5, rfl⟩
          · obtain ⟨w, h5, rfl⟩ := evE_hello.1 h; exact ⟨w, h5, rfl⟩
        · rw [if_neg h4] at h
          obtain ⟨rfl, rfl⟩ := evE_fail.1 h
          exact .inr ⟨fun h => h4 (.inl h), fun h => h4 (.inr h), rfl, rfl⟩
      · obtain ⟨_, h2, -⟩ := evE_lift.1 h2
        cases h2
    · obtain ⟨_, h2, -⟩ := evE_lift.1 h1
      cases h2
  · rintro ⟨b, e, s1, h1, h⟩
    have h2 := (C31_condition (b := false) (c := {}) hl hf).2 h1
    have key : ∀ x, EvE H (Evals H) (if e.i = COND_OK ∨ e.i = COND_CT then
        (if b = true then hello [] th env else hello [] el env) else fail e) s1 x s' →
        EvE H (Evals H) (do
          let r2 ← doOp .newList
          let r ← (callP [] (.cond a { env with ret := r2 } {}) : Prog Res)
          let branch : E Unit := if r.has then hello [] th env else hello [] el env
          match r.r with
          | .error e => if e.i = COND_OK ∨ e.i = COND_CT then branch else fail e
          | .ok () => branch) s x s' := by
      intro x hx
      refine evE_bind.2 (.inl ⟨_, _, evE_lift.2 ⟨_, rfl, ev_doOp.2 rfl⟩, ?_⟩)
      exact evE_bind.2 (.inl ⟨_, _, evE_lift.2 ⟨_, rfl, ev_callP.2 h2⟩, hx⟩)
    rcases h with ⟨h3, y, h4, rfl⟩ | ⟨h3, h4, rfl, rfl⟩
    · refine ⟨y.r, key _ ?_, rfl⟩
      rw [if_pos (show e.i = COND_OK ∨ e.i = COND_CT from h3)]
      cases b
      · exact evE_hello.2 ⟨y, h4, rfl⟩
      · exact evE_hello.2 ⟨y, h4, rfl⟩
    · refine ⟨_, key _ ?_, rfl⟩
      rw [if_neg (show ¬ (e.i = COND_OK ∨ e.i = COND_CT) from fun h => h.elim h3 h4)]
      exact evE_fail.2 ⟨rfl, rfl⟩

/-! ## Concrete cases -/

/-- A condition `a 并且 b 或者 不 c 等于 d`, by the kinds of its words. -/
theorem form_of_ids {codes : List Code} (h : codes.map Code.id = [.undef, .and_, .beginVar, .or_, .not_, .undef, .dengyu, .undef]) :
    Spec.Form codes 0 := by
  have hlen : codes.length = 8 := by have := congrArg List.length h; simpa using this
  have get : ∀ k (hk : k < 8), ∃ c, codes[k]? = some c ∧
      c.id = [KwId.undef, .and_, .beginVar, .or_, .not_, .undef, .dengyu, .undef][k]'(by simpa using hk) := by
    intro k hk
    refine ⟨codes[k]'(by omega), List.getElem?_eq_getElem (by omega), ?_⟩
    have : (codes.map Code.id)[k]'(by simpa [hlen] using hk) =
        [KwId.undef, .and_, .beginVar, .or_, .not_, .undef, .dengyu, .undef][k]'(by simpa using hk) := by simp only [h]
    rw [← this, List.getElem_map]
  have nb : ∀ {c : Code}, c.id = .undef ∨ c.id = .beginVar ∨ c.id = .not_ ∨ c.id = .dengyu → ¬ Spec.isBlock c := by
    intro c h; cases c <;> first | exact id | (simp [Code.id] at h)
  have one : ∀ k (_ : k < 8), (∃ c, codes[k]? = some c ∧ (c.id = .undef ∨ c.id = .beginVar)) → Spec.Plain codes k (k + 1) := by
    rintro k - ⟨c, h1, h2⟩
    refine ⟨Nat.lt_succ_self _, fun m h3 h4 => ?_⟩
    have : m = k := by omega
    subst this
    refine ⟨c, h1, ?_, nb (by tauto)⟩
    rcases h2 with h2 | h2 <;> rw [h2] <;> decide
  obtain ⟨c0, g0, e0⟩ := get 0 (by decide)
  obtain ⟨c1, g1, e1⟩ := get 1 (by decide)
  obtain ⟨c2, g2, e2⟩ := get 2 (by decide)
  obtain ⟨c3, g3, e3⟩ := get 3 (by decide)
  obtain ⟨c4, g4, e4⟩ := get 4 (by decide)
  obtain ⟨c5, g5, e5⟩ := get 5 (by decide)
  obtain ⟨c6, g6, e6⟩ := get 6 (by decide)
  obtain ⟨c7, g7, e7⟩ := get 7 (by decide)
  have zero : ∀ k, Spec.Nots codes k k := fun k => ⟨Nat.le_refl _, fun m h1 h2 => by omega⟩
  refine .more (.value (zero 0) (one 0 (by decide) ⟨c0, g0, .inl e0⟩)) (.inr ⟨c1, g1, e1⟩) ?_
  refine .more (.value (zero 2) (one 2 (by decide) ⟨c2, g2, .inr e2⟩)) (.inl ⟨c3, g3, e3⟩) ?_
  refine .last ?_
  rw [hlen]
  refine .cmp (a := 5) ?_ (one 5 (by decide) ⟨c5, g5, .inl e5⟩) (zero 6) g6 ?_ (nb (by right; right; right; exact e6))
    (one 7 (by decide) ⟨c7, g7, .inl e7⟩)
  · refine ⟨by decide, fun m h1 h2 => ?_⟩
    have : m = 4 := by omega
    subst this
    exact ⟨c4, g4, e4, nb (by right; right; left; exact e4)⟩
  · rw [show c6.id = .dengyu from e6]; decide

/-- A run of the interpreter reaches a condition with both kinds of connectives, `不` and a comparison. -/
theorem C31_witness : ∃ a th el env s, Reached H0 false (demoArgv c!"如果0并且‘无’或者不2等于3那么是。")
      (.item (.if_ a th el) env) s ∧ Spec.Form a 0 ∧ a.length ≤ usizeMax := by
  obtain ⟨c, s, hr, h⟩ := demoB_sound (n := 3) (src := c!"如果0并且‘无’或者不2等于3那么是。")
    (P := fun c _ => match c with
    | .item (.if_ a _ _) _ => a.map Code.id == [.undef, .and_, .beginVar, .or_, .not_, .undef, .dengyu, .undef]
    | _ => false) (by decide +kernel)
  split at h
  · rename_i a th el env
    have h := beq_iff_eq.1 h
    refine ⟨a, th, el, env, s, hr, form_of_ids h, ?_⟩
    have : a.length = 8 := by have := congrArg List.length h; simpa using this
    rw [this]; decide
  · cases h

/-- The variable `无` does not exist, so evaluating it would be an error: it is left out after `0并且` and after `1或者`,
and not after `1并且` and `0或者`. -/
theorem C31_example :
    demo 20 c!"显示如果0并且‘无’或者不2等于3那么是否则否。" = (.ok (.ok ()), [.out c!"是"]) ∧
    demo 20 c!"显示如果1或者‘无’那么是否则否。" = (.ok (.ok ()), [.out c!"是"]) ∧
    (demo 20 c!"显示如果1并且‘无’那么是否则否。").2 = [] ∧
    (demo 20 c!"显示如果0或者‘无’那么是否则否。").2 = [] := by
  decide +kernel

/-- Found: `或者` in a parenthesis ends the whole condition when it is reached with a true operand, so
`先1或者0了并且0` is true while `先0或者1了并且0` is false. -/
theorem C31_parenthesis_counterexample :
    demo 20 c!"显示如果先1或者0了并且0那么是否则否。" = (.ok (.ok ()), [.out c!"是"]) ∧
    demo 20 c!"显示如果先0或者1了并且0那么是否则否。" = (.ok (.ok ()), [.out c!"否"]) := by
  decide +kernel

/-- Found: `不` before a parenthesis negates the next operand after it instead. -/
theorem C31_not_parenthesis_counterexample :
    demo 20 c!"显示如果不先1了那么是否则否。" = (.ok (.ok ()), [.out c!"是"]) ∧
    demo 20 c!"显示如果不先1了并且1那么是否则否。" = (.ok (.ok ()), [.out c!"否"]) ∧
    demo 20 c!"显示如果不先1了并且0那么是否则否。" = (.ok (.ok ()), [.out c!"是"]) := by
  decide +kernel

end Zh
