import Verif.Props.ArgNames
/-!
# C74: the argument line is that of the present arguments

The line of all arguments is computed when `‘参数’` is read for the first time in a scope and remembered there
(`src/u_/qv_.rs:179-189`); `解释` and `加载` forget it before they change the arguments of a scope (`src/eval_.rs`).
-/
namespace Zh
open Spec

variable {H : Host}

/-! ## Specification -/

/-- The text of an item in the argument line: a backslash before every `"`; separators and other keywords have none. -/
def Spec.fieldText (i : Item) : Str :=
  match i.val with
  | .s t => t.flatMap fun c => if c = '"' then ['\\', '"'] else [c]
  | .k _ => []
  | .o _ => c!"obj"

/-- A word of the argument line stands in quotes unless it consists of letters, digits, `.`, `-` and `_`. -/
def Spec.lineWord (t : Str) : Str :=
  if t ≠ [] ∧ ∀ c ∈ t, c ∈ c!"0123456789abcdefghijklmnopqrstuvwxyzABCDEFGHIJKLMNOPQRSTUVWXYZ.-_" then t else '"' :: t ++ ['"']

/-- Words with a blank between them. -/
def Spec.joinWords : List Str → Str
  | [] => []
  | [w] => w
  | w :: ws => w ++ ' ' :: Spec.joinWords ws

/-- The line of a list of items: one word for each stretch between separators. -/
def Spec.lineOf (a : List Item) : Str :=
  if a = [] then [] else Spec.joinWords ((groups isDelim a).map fun g => Spec.lineWord (g.flatMap Spec.fieldText))

/-- The line is remembered in the scope. -/
def Spec.remember (q : Nat) (t : Str) (s : St) : St :=
  { s with scopes := upd s.scopes q { s.scopes q with argsTo1 := true, args1 := t } }

/-! ## The line as computed -/

theorem bareChar_iff (c : Char) : RList.bareChar c = true ↔
    c ∈ c!"0123456789abcdefghijklmnopqrstuvwxyzABCDEFGHIJKLMNOPQRSTUVWXYZ.-_" := by
  constructor
  · intro h
    have key : ∀ n < 128, ∀ d : Char, d.toNat = n → RList.bareChar d = true →
        d ∈ c!"0123456789abcdefghijklmnopqrstuvwxyzABCDEFGHIJKLMNOPQRSTUVWXYZ.-_" := by
      intro n hn d hd hb
      have : d = Char.ofNat n := by rw [← hd]; exact (Char.ofNat_toNat d).symm
      subst this
      revert hb hd
      revert n
      decide +kernel
    refine key c.toNat ?_ c rfl h
    have le : ∀ a b : Char, a ≤ b → a.toNat ≤ b.toNat := fun a b h => h
    simp only [RList.bareChar, Bool.or_eq_true, Bool.and_eq_true, decide_eq_true_eq, beq_iff_eq] at h
    rcases h with ((((h | h) | h) | h) | h) | h
    · exact Nat.lt_of_le_of_lt (le _ _ h.2) (by decide)
    · subst h; decide
    · exact Nat.lt_of_le_of_lt (le _ _ h.2) (by decide)
    · exact Nat.lt_of_le_of_lt (le _ _ h.2) (by decide)
    · subst h; decide
    · subst h; decide
  · revert c
    have : ∀ c ∈ c!"0123456789abcdefghijklmnopqrstuvwxyzABCDEFGHIJKLMNOPQRSTUVWXYZ.-_", RList.bareChar c = true := by decide +kernel
    exact this

theorem fieldPiece_word (t : Str) : (fieldPiece t).text = Spec.lineWord t := by
  have key : RList.needYin .one t = false ↔ (t ≠ [] ∧ ∀ c ∈ t, c ∈ c!"0123456789abcdefghijklmnopqrstuvwxyzABCDEFGHIJKLMNOPQRSTUVWXYZ.-_") := by
    simp only [RList.needYin, Bool.or_eq_false_iff, Bool.not_eq_false', List.all_eq_true, bareChar_iff]
    simp
  unfold fieldPiece Spec.lineWord
  cases h : RList.needYin .one t with
  | true =>
    rw [if_pos rfl, if_neg fun h' => by rw [key.2 h'] at h; cases h]
    rfl
  | false =>
    rw [if_neg (by simp), if_pos (key.1 h)]
    rfl

theorem lineWord_ne (t : Str) : Spec.lineWord t ≠ [] := by
  unfold Spec.lineWord
  split
  · rename_i h; exact h.1
  · simp

/-- What `s2__` has when the words `ws` are still to come. -/
def joined (s1 : Str) (ws : List Str) : Str := s1 ++ ((if s1 = [] then [] else [' ']) ++ Spec.joinWords ws)

theorem joined_cons (s1 w : Str) (ws : List Str) (hw : w ≠ []) (hws : ws ≠ []) :
    joined s1 (w :: ws) = joined (s1 ++ ((if s1 = [] then [] else [' ']) ++ w)) ws := by
  have hne : s1 ++ ((if s1 = [] then [] else [' ']) ++ w) ≠ [] := by simp [hw]
  unfold joined
  rw [if_neg hne]
  cases ws with
  | nil => exact absurd rfl hws
  | cons v vs => simp [Spec.joinWords]

theorem escQuote_eq (t : Str) : escQuote t = t.flatMap fun c => if c = '"' then ['\\', '"'] else [c] := rfl

private def gluedTo (s : Str) : List Str → List Str
  | [] => [s]
  | g :: gs => (s ++ g) :: gs

theorem lineGo_line (is : List Item) (s2 s1 : Str) :
    RList.lineGo .one is s2 s1 =
      joined s1 ((gluedTo s2 ((groups isDelim is).map fun g => g.flatMap Spec.fieldText)).map Spec.lineWord) := by
  induction is generalizing s2 s1 with
  | nil =>
    simp only [RList.lineGo, groups, List.map_cons, List.flatMap_nil, List.map_nil, gluedTo, List.append_nil]
    rw [s2s_one, fieldPiece_word]
    rfl
  | cons i is ih =>
    have hcons : isDelim i = false →
        gluedTo s2 ((groups isDelim (i :: is)).map fun g => g.flatMap Spec.fieldText)
          = gluedTo (s2 ++ Spec.fieldText i) ((groups isDelim is).map fun g => g.flatMap Spec.fieldText) := by
      intro hd
      simp only [groups, hd, Bool.false_eq_true, if_false]
      cases hg : groups isDelim is with
      | nil => exact absurd hg (groups_ne_nil is)
      | cons g gs => simp [gluedTo]
    rcases i with ⟨r, v⟩
    cases v with
    | s t =>
      have e : ((Val.s t).s3 false (decide (RList.Ctl.one ≠ RList.Ctl.zero)) false false false false).1 = escQuote t := by
        simp [Val.s3]
      simp only [RList.lineGo, e]
      rw [ih, hcons rfl]
      rfl
    | o hd =>
      have e : ((Val.o hd).s3 false (decide (RList.Ctl.one ≠ RList.Ctl.zero)) false false false false).1 = c!"obj" := rfl
      simp only [RList.lineGo, e]
      rw [ih, hcons rfl]
      rfl
    | k kw =>
      simp only [RList.lineGo]
      by_cases hd : isDelim ⟨r, .k kw⟩ = true
      · have hd' : (kw.id == .dunhao || kw.id == .jvhao) = true := by
          simpa [isDelim, isSep, isStop] using hd
        rw [if_pos hd', ih, s2s_one, fieldPiece_word]
        have hnil : gluedTo [] ((groups isDelim is).map fun g => g.flatMap Spec.fieldText)
            = (groups isDelim is).map fun g => g.flatMap Spec.fieldText := by
          cases hg : groups isDelim is with
          | nil => exact absurd hg (groups_ne_nil is)
          | cons g gs => simp [gluedTo]
        rw [hnil]
        simp only [groups, hd, if_true, List.map_cons, List.flatMap_nil, gluedTo, List.append_nil]
        refine (joined_cons _ _ _ (lineWord_ne _) ?_).symm
        simp [groups_ne_nil]
      · have hd2 : isDelim ⟨r, .k kw⟩ = false := by simpa using hd
        have hd' : (kw.id == .dunhao || kw.id == .jvhao) = false := by
          simpa [isDelim, isSep, isStop] using hd
        rw [if_neg (by simp [hd']), ih, hcons hd2]
        simp [Spec.fieldText]

/-- **C74.**  The line computed for a list of arguments. -/
theorem C74_line (l : RList) : l.to1 = Spec.lineOf l.a := by
  unfold RList.to1 RList.line Spec.lineOf
  by_cases h : l.a = []
  · simp [h]
  · have h' : l.a.isEmpty = false := by simpa using h
    rw [if_neg (by simp [h']), if_neg h]
    have hj : ((RList.Ctl.one == RList.Ctl.j) && decide (l.len > 1)) = false := rfl
    simp only [hj, Bool.false_eq_true, if_false]
    rw [lineGo_line]
    cases hg : groups isDelim l.a with
    | nil => exact absurd hg (groups_ne_nil l.a)
    | cons g gs => simp [gluedTo, joined, List.map_map, Function.comp_def]

/-! ## Nothing stale is ever remembered -/

/-- **C74.**  In every state in which something is evaluated in a run, for every scope: the argument line it remembers, if it does, is the
line of its present arguments, and it remembers nothing else. -/
theorem C74_remembered {ovf : Bool} {argv : List Str} {c : Call} {s : St} (hr : Reached H ovf argv c s) (q : Nat) (hq : q < s.nscope) :
    ((s.scopes q).argsTo1 = true → (s.scopes q).args1 = Spec.lineOf (s.lists (s.scopes q).args).a) ∧
    ((s.scopes q).argsTo1 = false → (s.scopes q).args1 = []) := by
  obtain ⟨C, ok, -⟩ := reached_frame hr
  obtain ⟨h1, h2⟩ := ok.inv.line q hq
  exact ⟨fun h => (h2 h).trans (C74_line _), h1⟩

/-- The same when the evaluation of anything in the run is over. -/
theorem C74_remembered_after {ovf : Bool} {argv : List Str} {c : Call} {s s' : St} {x : Res} (hr : Reached H ovf argv c s)
    (he : Evals H c s x s') (q : Nat) (hq : q < s'.nscope) :
    ((s'.scopes q).argsTo1 = true → (s'.scopes q).args1 = Spec.lineOf (s'.lists (s'.scopes q).args).a) ∧
    ((s'.scopes q).argsTo1 = false → (s'.scopes q).args1 = []) := by
  obtain ⟨C, hpre⟩ := reached_frame hr
  obtain ⟨n, hn⟩ := he
  have := (run_frame H n C c s hpre).1
  rw [hn] at this
  obtain ⟨h1, h2⟩ := this.1.line q hq
  exact ⟨fun h => (h2 h).trans (C74_line _), h1⟩

/-! ## Reading the line -/

theorem argsAct_whole {ovf : Bool} {l : RList} {e : Int} (he : (l.a.length : Int) ≤ e) : argsAct ovf false l 1 e true = .ok .addLine := by
  obtain ⟨n, rfl⟩ : ∃ n : Nat, e = n := ⟨e.toNat, by omega⟩
  by_cases h : l.a = []
  · simp [argsAct, h]
  · have hlen : 1 ≤ l.a.length := List.length_pos_iff.2 h
    have := (C08_range_line_partial ovf l 1 n (Nat.le_refl _) (by omega) h).1 ⟨rfl, by omega⟩
    exact this

theorem ev_argsLine {R : Call → St → Res → St → Prop} {q : Nat} {s s' : St} {t u : Str}
    (hl : Lined s q) (hu : u = Spec.lineOf (s.lists (s.scopes q).args).a) :
    Ev H R (doOp (.argsLine q)) s t s' ↔ Held.scope q ∉ s.held ∧ t = u ∧ s' = Spec.remember q u s := by
  have ht : (if (s.scopes q).argsTo1 = true then (s.scopes q).args1
      else RList.line (s.lists (s.scopes q).args) .one (s.scopes q).args1) = u := by
    rw [hu, ← C74_line]
    split
    · rename_i h; exact hl.2 h
    · rename_i h; rw [hl.1 (by simpa using h)]; rfl
  rw [ev_doOp]
  simp only [Op.run, ht]
  unfold St.modScope
  by_cases h : Held.scope q ∈ s.held
  · rw [if_pos (by simpa using h)]
    simp [h]
  · rw [if_neg (by simpa using h)]
    simp only [h, not_false_eq_true, true_and, Prod.mk.injEq, Out.ok.injEq]
    exact ⟨fun ⟨h1, h2⟩ => ⟨h1.symm, h2.symm⟩, fun ⟨h1, h2⟩ => ⟨h1.symm, h2.symm⟩⟩

theorem ev_args_line {q ret : Nat} {b e : Int} {s s' : St} {u : _root_.Unit} (hl : Lined s q)
    (he : argsAct s.ovf false (s.lists (s.scopes q).args) b e true = .ok .addLine) (hne : (s.scopes q).args ≠ ret) :
    Ev H (Evals H) (argsP false q b e true ret) s u s' ↔ Held.scope q ∉ s.held ∧
      s' = (Spec.remember q (Spec.lineOf (s.lists (s.scopes q).args).a) s).push ret (.s (Spec.lineOf (s.lists (s.scopes q).args).a)) := by
  unfold argsP
  rw [ev_bind]
  have e1 : ∀ P : St → St → Prop, (∃ a s1, Ev H (Evals H) getSt s a s1 ∧ P a s1) ↔ P s s := fun P =>
    ⟨fun ⟨a, s1, h, h'⟩ => by obtain ⟨rfl, rfl⟩ := ev_getSt.1 h; exact h', fun h => ⟨s, s, ev_getSt.2 ⟨rfl, rfl⟩, h⟩⟩
  rw [e1 fun a s1 => Ev H (Evals H) _ s1 u s', if_neg hne, he]
  change Ev H (Evals H) (do let t ← doOp (.argsLine q); addT ret t) s u s' ↔ _
  rw [ev_bind]
  constructor
  · rintro ⟨t, s1, h1, h2⟩
    obtain ⟨h, rfl, rfl⟩ := (ev_argsLine hl rfl).1 h1
    exact ⟨h, ev_addT.1 h2⟩
  · rintro ⟨h, rfl⟩
    exact ⟨_, _, (ev_argsLine hl rfl).2 ⟨h, rfl, rfl⟩, ev_addT.2 rfl⟩

/-- **C74.**  Whenever `‘参数’` is read in a run and all arguments are meant, what is appended to the result is the line of the arguments the
scope has at that moment, whether or not it was read before and whatever happened since; while the scope is borrowed it is a crash. -/
theorem C74_read {ovf : Bool} {argv : List Str} {e : Int} {env : Env} {s s' : St} {x : Res}
    (hr : Reached H ovf argv (.item (.args [] 1 e true) env) s) (he : ((s.lists (s.scopes env.q).args).a.length : Int) ≤ e)
    (hne : (s.scopes env.q).args ≠ env.ret) :
    Evals H (.item (.args [] 1 e true) env) s x s' ↔ x = { r := .ok () } ∧ Held.scope env.q ∉ s.held ∧
      s' = (Spec.remember env.q (Spec.lineOf (s.lists (s.scopes env.q).args).a) s).push env.ret
        (.s (Spec.lineOf (s.lists (s.scopes env.q).args).a)) := by
  obtain ⟨C, ok, hc, -⟩ := reached_frame hr
  have hq := (hc env rfl).q.1
  rw [evals_item]
  simp only [itemP, evE_two, ev_args_line (ok.inv.line _ hq) (argsAct_whole he) hne]
  constructor
  · rintro ⟨_, ⟨rfl, h⟩, rfl⟩
    exact ⟨rfl, h⟩
  · rintro ⟨rfl, h⟩
    exact ⟨_, ⟨rfl, h⟩, rfl⟩

/-- **C74.**  The computed name `参数` reads the same line, if the scope has no variable, definition or argument of that very name. -/
theorem C74_computed {ovf : Bool} {argv : List Str} {l : List Item} {env : Env} {s s' : St} {x : Res}
    (hr : Reached H ovf argv (.get l false {} env) s) (hl : ∀ i ∈ l, s.items i.ref = []) (hname : Spec.nameWritten l = c!"参数")
    (hnd : ((s.scopes env.q).vars.map (·.name)).Nodup) (hu : Spec.Unnamed s env.q c!"参数" false false)
    (he : (s.lists (s.scopes env.q).args).a.length < 2 ^ 31) (hne : (s.scopes env.q).args ≠ env.ret) :
    Evals H (.get l false {} env) s x s' ↔ x = { r := .ok () } ∧ Held.scope env.q ∉ s.held ∧
      s' = (Spec.remember env.q (Spec.lineOf (s.lists (s.scopes env.q).args).a) s).push env.ret
        (.s (Spec.lineOf (s.lists (s.scopes env.q).args).a)) := by
  obtain ⟨C, ok, hc, -⟩ := reached_frame hr
  have hq := (hc env rfl).q.1
  rw [get_args hl hnd (hname ▸ hu) (by rw [hname]; decide), hname]
  have hg : getArgs c!"参数" [] false {} env.q env = (argsP false env.q 1 2147483647 true env.ret : E _root_.Unit) := by
    unfold getArgs
    rw [show argsWith c!"参数" [] = some (1, i32Max, true, []) from by decide]
    rfl
  rw [hg, evE_unit, ev_args_line (ok.inv.line _ hq) (argsAct_whole (by omega)) hne]

theorem argsAct_reversed {ovf : Bool} {l : RList} {b e : Nat} (he : 1 ≤ e) (hb : e < b) :
    argsAct ovf false l b e true = .ok .addLine := by
  have h1 : ∀ n : Nat, 1 ≤ n → i2u ovf n l.len = .ok n := fun n hn => by
    unfold i2u
    rw [if_pos (by omega)]
    rfl
  unfold argsAct
  rw [h1 b (by omega), h1 e he]
  by_cases h : l.a = []
  · simp [h]
  · have h' : l.a.isEmpty = false := by simpa using h
    have h2 : ¬ e ≥ b := by omega
    simp [h', h2]

/-- **C74.**  A stretch of the line that ends before it begins is not empty: `‘参数【b】【e】’` with `e` before `b` is the whole line, whereas the
list form `‘参数栈【b】【e】’` gives nothing. -/
theorem C74_reversed {ovf : Bool} {argv : List Str} {b e : Nat} (he : 1 ≤ e) (hb : e < b) {env : Env} {s s' : St} {x : Res}
    (hr : Reached H ovf argv (.item (.args [] b e true) env) s) (hne : (s.scopes env.q).args ≠ env.ret) :
    Evals H (.item (.args [] b e true) env) s x s' ↔ x = { r := .ok () } ∧ Held.scope env.q ∉ s.held ∧
      s' = (Spec.remember env.q (Spec.lineOf (s.lists (s.scopes env.q).args).a) s).push env.ret
        (.s (Spec.lineOf (s.lists (s.scopes env.q).args).a)) := by
  obtain ⟨C, ok, hc, -⟩ := reached_frame hr
  have hq := (hc env rfl).q.1
  rw [evals_item]
  simp only [itemP, evE_two, ev_args_line (ok.inv.line _ hq) (argsAct_reversed he hb) hne]
  constructor
  · rintro ⟨_, ⟨rfl, h⟩, rfl⟩
    exact ⟨rfl, h⟩
  · rintro ⟨rfl, h⟩
    exact ⟨_, ⟨rfl, h⟩, rfl⟩

/-! ## Witnesses -/

/-- The situation of `C74_read` in a run: the line of three arguments is read, for the second time. -/
theorem C74_read_witness : ∃ e env s, Reached H0 false (demoArgv c!"定义甲以下代码显示‘参数’。显示‘参数’。上代码。甲a、b、d。") (.item (.args [] 1 e true) env) s ∧
    ((s.lists (s.scopes env.q).args).a.length : Int) ≤ e ∧ (s.scopes env.q).args ≠ env.ret ∧ Held.scope env.q ∉ s.held ∧
    (s.scopes env.q).argsTo1 = true ∧ Spec.lineOf (s.lists (s.scopes env.q).args).a = c!"a b d" := by
  obtain ⟨c, s, hr, hp⟩ := demoB_sound (n := 13) (src := c!"定义甲以下代码显示‘参数’。显示‘参数’。上代码。甲a、b、d。") (P := fun c s => match c with
    | .item (.args [] 1 e true) env => decide (((s.lists (s.scopes env.q).args).a.length : Int) ≤ e) && (s.scopes env.q).args != env.ret &&
        !decide (Held.scope env.q ∈ s.held) && (s.scopes env.q).argsTo1 && Spec.lineOf (s.lists (s.scopes env.q).args).a == c!"a b d"
    | _ => false) (by decide +kernel)
  split at hp
  · rename_i e env
    simp only [Bool.and_eq_true, bne_iff_ne, ne_eq, decide_eq_true_eq, Bool.not_eq_true', decide_eq_false_iff_not, beq_iff_eq] at hp
    obtain ⟨⟨⟨⟨h1, h2⟩, h3⟩, h4⟩, h5⟩ := hp
    exact ⟨e, env, s, hr, h1, h2, h3, h4, h5⟩
  · cases hp

/-- The situation of `C74_reversed` in a run. -/
theorem C74_reversed_witness : ∃ env s, Reached H0 false (demoArgv c!"定义甲以下代码显示‘参数【3】【2】’。上代码。甲a、b、d。")
      (.item (.args [] (3 : Nat) (2 : Nat) true) env) s ∧ (s.scopes env.q).args ≠ env.ret ∧ (Spec.arguments s env.q).length = 3 := by
  obtain ⟨c, s, hr, hp⟩ := demoB_sound (n := 11) (src := c!"定义甲以下代码显示‘参数【3】【2】’。上代码。甲a、b、d。") (P := fun c s => match c with
    | .item (.args [] 3 2 true) env => (s.scopes env.q).args != env.ret && (Spec.arguments s env.q).length == 3
    | _ => false) (by decide +kernel)
  split at hp
  · rename_i env
    simp only [Bool.and_eq_true, bne_iff_ne, ne_eq, beq_iff_eq] at hp
    exact ⟨env, s, hr, hp.1, hp.2⟩
  · cases hp

/-- The situation of `C74_computed` in a run. -/
theorem C74_computed_witness : ∃ l env s, Reached H0 false (demoArgv c!"定义甲以下代码赋予乙以参。显示‘‘乙’数’。上代码。甲a、b。") (.get l false {} env) s ∧
    (∀ i ∈ l, s.items i.ref = []) ∧ Spec.nameWritten l = c!"参数" ∧ ((s.scopes env.q).vars.map (·.name)).Nodup ∧
    Spec.Unnamed s env.q c!"参数" false false ∧ (s.lists (s.scopes env.q).args).a.length < 2 ^ 31 ∧ (s.scopes env.q).args ≠ env.ret ∧
    Held.scope env.q ∉ s.held := by
  obtain ⟨c, s, hr, hp⟩ := demoB_sound (n := 14) (src := c!"定义甲以下代码赋予乙以参。显示‘‘乙’数’。上代码。甲a、b。") (P := fun c s => match c with
    | .get l false ⟨false, []⟩ env => (s.scopes env.q).args != env.ret && (s.lists (s.scopes env.q).args).a.length == 3 &&
        Spec.nameWritten l == c!"参数" && l.all (fun i => (s.items i.ref).isEmpty) && ((s.scopes env.q).vars.map (·.name) == [c!"乙"]) &&
        (getName s.scopes s.mods env.q c!"参数" false false false false).isNone && !decide (Held.scope env.q ∈ s.held)
    | _ => false) (by decide +kernel)
  split at hp
  · rename_i l env
    simp only [Bool.and_eq_true, bne_iff_ne, ne_eq, List.all_eq_true, List.isEmpty_iff, Option.isNone_iff_eq_none, Bool.not_eq_true',
      decide_eq_false_iff_not] at hp
    obtain ⟨⟨⟨⟨⟨⟨h1, h2⟩, h3⟩, h4⟩, h5⟩, h6⟩, h7⟩ := hp
    have hnd : ((s.scopes env.q).vars.map (·.name)).Nodup := by rw [eq_of_beq h5]; simp
    refine ⟨l, env, s, hr, h4, eq_of_beq h3, hnd, fun a ha => ?_, by rw [eq_of_beq h2]; decide, h1, h7⟩
    have := (C13_only_self s.scopes s.mods env.q c!"参数" false false false rfl hnd env.q a).2 ⟨rfl, ha⟩
    rw [h6] at this
    cases this
  · cases hp

/-- What a user sees: the line, the line again after arguments were added in the same scope, and the line by a computed name. -/
theorem C74_script : demo 40 c!"定义甲以下代码显示‘参数’。解释【在当前区】下代码显示‘参数’。上代码、x、y。显示‘参数’。赋予乙以参。显示‘‘乙’数’。上代码。甲a、“b c”。" =
    (.ok (.ok ()), [.out c!"a \"b c\"", .out c!"a \"b c\" x y", .out c!"a \"b c\" x y", .out c!"a \"b c\" x y"]) := by
  decide +kernel

/-- What a user sees of a reversed stretch: the whole line for `参数`, nothing for `参数栈`. -/
theorem C74_reversed_counterexample : demo 40 c!"定义甲以下代码显示‘参数【2】【3】’。显示‘参数【3】【2】’。显示“:‘参数栈【3】【2】’”。上代码。甲a、b、d。" =
    (.ok (.ok ()), [.out c!"b d", .out c!"a b d", .out c!":"]) := by
  decide +kernel

end Zh
