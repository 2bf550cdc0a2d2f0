import Verif.Props.CoreStmts
/-!
# C68: the conditions of a running program
-/
namespace Zh

variable {H : Host}

def Spec.Compare.code (c : Spec.Compare) : List Code := c.left.code ++ .kw2 c.op :: c.right.code

def Spec.Test.code : Spec.Test → List Code
  | .one c => c.code
  | .more c both t => c.code ++ .kw2 (if both then .and_ else .or_) :: t.code

theorem drop_get {α : Type} {a l post : List α} {i k : Nat} (h : a.drop i = l ++ post) (hk : k < l.length) : a[i + k]? = some l[k] := by
  rw [← List.getElem?_drop, h, List.getElem?_append_left hk, List.getElem?_eq_getElem hk]

theorem drop_next {α : Type} {a l post : List α} {i : Nat} (h : a.drop i = l ++ post) : a.drop (i + l.length) = post := by
  rw [← List.drop_drop, h, List.drop_left]

theorem drop_head {α : Type} {a post : List α} {x : α} {i : Nat} (h : a.drop i = x :: post) : a[i]? = some x ∧ a.drop (i + 1) = post := by
  refine ⟨?_, ?_⟩
  · have := drop_get (l := [x]) (k := 0) (post := post) h (by simp)
    simpa using this
  · exact drop_next (l := [x]) h

theorem drop_length {α : Type} {a l : List α} {i : Nat} (h : a.drop i = l) (hne : l ≠ []) : a.length = i + l.length := by
  have h1 := congrArg List.length h
  rw [List.length_drop] at h1
  have : l.length ≠ 0 := by simpa using hne
  omega

theorem IsTxt.item {l : List Code} (h : IsTxt l) {c : Code} (hc : c ∈ l) : c.id ∉ Spec.condWords ∧ ¬ Spec.isBlock c ∧ c.id ≠ .or_ := by
  rcases h c hc with ⟨s, rfl⟩ | ⟨s, rfl⟩ | ⟨i, -, rfl⟩ | rfl <;> exact ⟨by simp [Code.id, Spec.condWords], id, by simp [Code.id]⟩

theorem plain_of {a l post : List Code} {i : Nat} (h : IsTxt l) (ha : a.drop i = l ++ post) (hne : l ≠ []) :
    Spec.Plain a i (i + l.length) := by
  have : l.length ≠ 0 := by simpa using hne
  refine ⟨by omega, fun k h1 h2 => ?_⟩
  have hk : k - i < l.length := by omega
  have e := drop_get ha hk
  rw [show i + (k - i) = k by omega] at e
  have := h.item (List.getElem_mem hk)
  exact ⟨_, e, this.1, this.2.1⟩

theorem nots_self (a : List Code) (i : Nat) : Spec.Nots a i i := ⟨Nat.le_refl _, fun k h1 h2 => by omega⟩

/-- The list `r` is empty, before and after. -/
structure Clean (r : Nat) (s s' : St) : Prop where
  calm : CalmIn r s s'
  empty : s'.lists r = .empty

theorem side_text {t : Spec.Txt} {a post : List Code} {env : Env} {ρ : List Spec.Store} {s : St} {i : Nat}
    (he : s.lists env.ret = .empty) (hs : Seen env.q s ρ) (hn : (s.scopes env.q).args ≠ env.ret) (hok : t.Ok) (hso : t.Solid)
    (ha : a.drop i = t.code ++ post) :
    match t.val ρ with
    | none => ∃ e s', Spec.Side H a env i (i + t.code.length) s (.error e) s' ∧ e.i = ERR ∧ CalmIn env.ret s s'
    | some u => ∃ s', Spec.Side H a env i (i + t.code.length) s (.ok u.toList) s' ∧ Clean env.ret s s' := by
  have hlen : i + t.code.length ≤ a.length := by
    have h1 := congrArg List.length ha
    rw [List.length_drop, List.length_append] at h1
    have := code_solid hso
    have : t.code.length ≠ 0 := by simpa using this
    omega
  obtain ⟨x, s', its, h1, h2, h3⟩ := codes_texts (H := H) (env := { env with gd := {} }) (Spec.Txt.isTxt hok) ha hs hn
    (j := i + t.code.length) (by omega)
  rw [fill_code ρ hok] at h3
  cases hv : t.val ρ with
  | none =>
    rw [hv] at h3
    obtain ⟨e, h4, h5⟩ := h3
    exact ⟨e, s', .fail h1 h4, h5, h2⟩
  | some u =>
    rw [hv] at h3
    obtain ⟨h4, h5, h6⟩ := h3
    have e1 : (s'.lists env.ret).a = its := by
      have h5 : (s'.lists env.ret).a = (s.lists env.ret).a ++ its := h5
      rw [h5, he]
      rfl
    have e2 : (s'.lists env.ret).toVec2 false = u.toList := by
      rw [RList.toVec2, toVec_texts (by rw [e1]; exact h6)]
    have h8 := Spec.Side.ok (env := env) h1 h4
    rw [e2] at h8
    refine ⟨_, h8, ⟨h2.bare, h2.more, fun l hl hne => ?_, h2.moreItems, h2.items⟩, ?_⟩
    · show upd s'.lists env.ret _ l = _
      rw [upd, if_neg hne]
      exact h2.lists l hl hne
    · show upd s'.lists env.ret _ env.ret = _
      rw [upd_same]

/-- The left side that is kept. -/
def KeepIs (cr : Spec.Carry) (k : Str) : Prop := cr.left.headD [] = k ∧ cr.left.tail = []

theorem KeepIs.next {cr : Spec.Carry} {k : Str} (h : KeepIs cr k) (l : Option Str) (v : List Str) : KeepIs ⟨Spec.keep cr.left l.toList, v⟩ (l.getD k) := by
  cases l with
  | none => simpa [KeepIs, Spec.keep] using h
  | some u => exact ⟨rfl, rfl⟩

/-- A comparison is an operand. -/
theorem operand {c : Spec.Compare} {a post : List Code} {env : Env} {ρ : List Spec.Store} {s : St} {i : Nat}
    (hr : env.ret < s.nlist) (he : s.lists env.ret = .empty) (hs : Seen env.q s ρ) (hn : (s.scopes env.q).args ≠ env.ret) (hok : c.Ok)
    (ha : a.drop i = c.code ++ post) (b0 : Bool) (cr : Spec.Carry) {k k' : Str} (hk : KeepIs cr k)
    {o : Option Bool} (hc : Spec.Compares H ρ k c o k') :
    match (generalizing := false) o with
    | none => ∃ e c1 s', Spec.Operand H a env i (i + c.code.length) b0 cr s (.out b0 e) c1 s' ∧ e.i = ERR ∧ CalmIn env.ret s s'
    | some b => ∃ c1 s', Spec.Operand H a env i (i + c.code.length) b0 cr s (.value b) c1 s' ∧ KeepIs c1 k' ∧ Clean env.ret s s' := by
  obtain ⟨hlo, hl, hop, hro, hr'⟩ := hok
  have ha1 : a.drop i = c.left.code ++ (.kw2 c.op :: (c.right.code ++ post)) := by
    rw [ha]; simp [Spec.Compare.code]
  obtain ⟨ha2, ha3⟩ := drop_head (drop_next ha1)
  have ej : i + c.code.length = i + c.left.code.length + 1 + c.right.code.length := by
    simp [Spec.Compare.code]; omega
  have p1 := plain_of (Spec.Txt.isTxt hlo) ha1 (code_solid hl)
  have p2 := plain_of (Spec.Txt.isTxt hro) ha3 (code_solid hr')
  rw [ej]
  have hl1 := side_text (H := H) (env := env) he hs hn hlo hl ha1
  have right : ∀ {s1}, Clean env.ret s s1 → match c.right.val ρ with
      | none => ∃ e s', Spec.Side H a env (i + c.left.code.length + 1) (i + c.left.code.length + 1 + c.right.code.length) s1 (.error e) s' ∧
          e.i = ERR ∧ CalmIn env.ret s1 s'
      | some u => ∃ s', Spec.Side H a env (i + c.left.code.length + 1) (i + c.left.code.length + 1 + c.right.code.length) s1 (.ok u.toList) s' ∧
          Clean env.ret s1 s' := fun {s1} h => side_text (H := H) (env := env) h.empty
    (hs.calm h.calm hn) (by rw [h.calm.scopes]; exact hn) hro hr' ha3
  have n1 := nots_self a i
  have n2 := nots_self a (i + c.left.code.length)
  have hb : ¬ Spec.isBlock (.kw2 c.op) := id
  cases hc with
  | error h =>
    cases hv : c.left.val ρ with
    | none =>
      rw [hv] at hl1
      obtain ⟨e, s', h1, h2, h3⟩ := hl1
      exact ⟨e, _, s', .leftFail n1 p1 n2 ha2 hop hb p2 h1, h2, h3⟩
    | some u =>
      rw [hv] at hl1 h
      obtain ⟨s1, h1, h2⟩ := hl1
      have h3 := right h2
      rw [h.resolve_left (by simp)] at h3
      obtain ⟨e, s', h4, h5, h6⟩ := h3
      exact ⟨e, _, s', .rightFail n1 p1 n2 ha2 hop hb p2 h1 h4, h5, h2.calm.trans h6⟩
  | value h1 h2 h3 =>
    rename_i l r b
    rw [h1] at hl1
    obtain ⟨s1, h4, h5⟩ := hl1
    have h6 := right h5
    rw [h2] at h6
    obtain ⟨s2, h7, h8⟩ := h6
    have h9 := Spec.Operand.cmp (H := H) (b0 := b0) (c := cr) n1 p1 n2 ha2 hop hb p2 h4 h7
    have e : cmp H.f64 (Code.kw2 c.op).id (decide ((i - i + (i + c.left.code.length - (i + c.left.code.length))) % 2 = 1))
        (Spec.keep cr.left l.toList) r.toList = b := by
      have hk1 := hk.next l r.toList
      have e1 : cmp H.f64 c.op false (Spec.keep cr.left l.toList) r.toList = cmp H.f64 c.op false [l.getD k] [r.getD []] := by
        unfold cmp
        rw [hk1.1, hk1.2]
        cases r <;> rfl
      have e2 : decide ((i - i + (i + c.left.code.length - (i + c.left.code.length))) % 2 = 1) = false := by simp
      have hop' : Spec.isCmpOp c.op := by simpa [Spec.cmpWords, Spec.isCmpOp] using hop
      have := C29_any_of H.f64 c.op hop' (l.getD k) (r.getD []) []
      rw [e2]
      show cmp H.f64 c.op false _ _ = b
      rw [e1, Bool.eq_iff_iff, this, h3]
      simp
    rw [e] at h9
    exact ⟨_, s2, h9, hk.next l _, h5.calm.trans h8.calm, h8.empty⟩

theorem Spec.Compare.noOr {c : Spec.Compare} (hok : c.Ok) : ∀ x ∈ c.code, x.id ≠ .or_ := by
  intro x hx
  rcases List.mem_append.1 hx with h | h
  · exact ((Spec.Txt.isTxt hok.1).item h).2.2
  · rcases List.mem_cons.1 h with rfl | h
    · have := hok.2.2.1
      intro e
      have e : c.op = .or_ := e
      rw [e] at this
      exact absurd this (by decide)
    · exact ((Spec.Txt.isTxt hok.2.2.2.1).item h).2.2

theorem Spec.Compare.code_ne (c : Spec.Compare) : c.code ≠ [] := by simp [Spec.Compare.code]

theorem Spec.Test.code_ne (t : Spec.Test) : t.code ≠ [] := by
  cases t with
  | one c => exact c.code_ne
  | more c b t => simp [Spec.Test.code]

theorem form_of {t : Spec.Test} {a : List Code} {i : Nat} (hok : t.Ok) (ha : a.drop i = t.code) : Spec.Form a i := by
  have op : ∀ {c : Spec.Compare} {post : List Code} {i : Nat}, c.Ok → a.drop i = c.code ++ post → Spec.IsOperand a i (i + c.code.length) := by
    intro c post i hc ha
    obtain ⟨hlo, hl, hop, hro, hr'⟩ := hc
    have ha1 : a.drop i = c.left.code ++ (.kw2 c.op :: (c.right.code ++ post)) := by
      rw [ha]; simp [Spec.Compare.code]
    obtain ⟨ha2, ha3⟩ := drop_head (drop_next ha1)
    have ej : i + c.code.length = i + c.left.code.length + 1 + c.right.code.length := by
      simp [Spec.Compare.code]; omega
    rw [ej]
    exact .cmp (nots_self _ _) (plain_of (Spec.Txt.isTxt hlo) ha1 (code_solid hl)) (nots_self _ _) ha2 hop id (plain_of (Spec.Txt.isTxt hro) ha3 (code_solid hr'))
  induction t generalizing i with
  | one c =>
    have h := op (post := []) hok (by rw [ha]; simp [Spec.Test.code])
    rw [show i + c.code.length = a.length from (drop_length ha c.code_ne).symm] at h
    exact .last h
  | more c b t ih =>
    have ha : a.drop i = c.code ++ _ := ha
    obtain ⟨h1, h2⟩ := drop_head (drop_next ha)
    refine .more (op hok.1 ha) ?_ (ih hok.2 h2)
    cases b
    · exact .inl ⟨_, h1, rfl⟩
    · exact .inr ⟨_, h1, rfl⟩

/-- The next `或者`. -/
theorem orElse_at {t : Spec.Test} {a : List Code} {i : Nat} (hok : t.Ok) (ha : a.drop i = t.code) :
    match t.orElse with
    | none => ∀ m, i ≤ m → ¬ Spec.isOr a m
    | some t' => t'.Ok ∧ ∃ k, i ≤ k ∧ Spec.isOr a k ∧ (∀ m, i ≤ m → m < k → ¬ Spec.isOr a m) ∧ a.drop (k + 1) = t'.code := by
  have no : ∀ {c : Spec.Compare} {post : List Code} {i : Nat}, c.Ok → a.drop i = c.code ++ post → ∀ m, i ≤ m → m < i + c.code.length →
      ¬ Spec.isOr a m := by
    rintro c post i hc ha m h1 h2 ⟨x, h3, h4⟩
    have hk : m - i < c.code.length := by omega
    have e := drop_get ha hk
    rw [show i + (m - i) = m by omega, h3] at e
    rw [Option.some.inj e] at h4
    exact Spec.Compare.noOr hc _ (List.getElem_mem hk) h4
  induction t generalizing i with
  | one c =>
    intro m hm
    by_cases h : m < i + c.code.length
    · exact no (post := []) hok (by rw [ha]; simp [Spec.Test.code]) m hm h
    · rintro ⟨x, h3, -⟩
      rw [List.getElem?_eq_none (by have := drop_length ha c.code_ne; simp only [Spec.Test.code] at this; omega)] at h3
      cases h3
  | more c b t ih =>
    have ha : a.drop i = c.code ++ _ := ha
    obtain ⟨h1, h2⟩ := drop_head (drop_next ha)
    have hn := no hok.1 ha
    cases b with
    | false => exact ⟨hok.2, i + c.code.length, by omega, ⟨_, h1, rfl⟩, fun m h3 h4 => hn m h3 h4, h2⟩
    | true =>
      have hand : ¬ Spec.isOr a (i + c.code.length) := by
        rintro ⟨x, h3, h4⟩
        rw [h1] at h3
        cases h3
        cases h4
      have before : ∀ m, i ≤ m → m < i + c.code.length + 1 → ¬ Spec.isOr a m := by
        intro m h3 h4
        by_cases h5 : m = i + c.code.length
        · rw [h5]; exact hand
        · exact hn m h3 (by omega)
      have := ih hok.2 h2
      show match t.orElse with
        | none => _
        | some t' => _
      cases ho : t.orElse with
      | none =>
        rw [ho] at this
        intro m h3
        by_cases h4 : m < i + c.code.length + 1
        · exact before m h3 h4
        · exact this m (by omega)
      | some t' =>
        rw [ho] at this
        obtain ⟨h3, k, h4, h5, h6, h7⟩ := this
        refine ⟨h3, k, by omega, h5, fun m h8 h9 => ?_, h7⟩
        by_cases h10 : m < i + c.code.length + 1
        · exact before m h8 h10
        · exact h6 m (by omega) h9

/-- The result of a test. -/
def TestIs (x : Res) : Option Bool → Prop
  | none => ∃ e, x.r = .error e ∧ e.i = ERR
  | some b => x.has = b ∧ ∃ e, x.r = .error e ∧ (e.i = 3000 ∨ e.i = 3001)

theorem cond_test {t : Spec.Test} {env : Env} {ρ : List Spec.Store} {a : List Code} {k : Str} {o : Option Bool} (ht : Spec.Tests H ρ k t o) :
    ∀ {s : St} {i : Nat} {b0 : Bool} {cr : Spec.Carry}, KeepIs cr k → env.ret < s.nlist → s.lists env.ret = .empty →
    Seen env.q s ρ → (s.scopes env.q).args ≠ env.ret → t.Ok → a.drop i = t.code →
    ∃ x s', Spec.Cond H a env i b0 cr s x s' ∧ CalmIn env.ret s s' ∧ TestIs x o := by
  have next : ∀ {s s1 : St} {c : Spec.Compare} {post : List Code} {i : Nat} {b : Bool} {b0 : Bool} {cr : Spec.Carry} {k k' : Str},
      KeepIs cr k → env.ret < s.nlist → s.lists env.ret = .empty → Seen env.q s ρ → (s.scopes env.q).args ≠ env.ret → c.Ok →
      a.drop i = c.code ++ post → Spec.Compares H ρ k c (some b) k' →
      ∃ c1 s1, Spec.Operand H a env i (i + c.code.length) b0 cr s (.value b) c1 s1 ∧ CalmIn env.ret s s1 ∧
        KeepIs c1 k' ∧ env.ret < s1.nlist ∧ s1.lists env.ret = .empty ∧ Seen env.q s1 ρ ∧ (s1.scopes env.q).args ≠ env.ret := by
    intro s s1 c post i b b0 cr k k' hk hr he hs hn hok ha hc
    obtain ⟨c1, s1, h1, h3, h2⟩ := operand (H := H) (env := env) hr he hs hn hok ha b0 cr hk hc
    exact ⟨c1, s1, h1, h2.calm, h3, Nat.lt_of_lt_of_le hr h2.calm.more, h2.empty, hs.calm h2.calm hn, by rw [h2.calm.scopes]; exact hn⟩
  induction ht with
  | @one _ c o _ h =>
    intro s i b0 cr hk hr he hs hn hok ha
    have ha' : a.drop i = c.code ++ [] := by rw [ha]; simp [Spec.Test.code]
    have el : i + c.code.length = a.length := (drop_length ha c.code_ne).symm
    have h1 := operand (H := H) (env := env) hr he hs hn hok ha' b0 cr hk h
    rw [el] at h1
    cases o with
    | none =>
      obtain ⟨e, c1, s', h2, h3, h4⟩ := h1
      exact ⟨_, s', .out h2 (.inl rfl), h4, e, rfl, h3⟩
    | some b =>
      obtain ⟨c1, s', h2, -, h3⟩ := h1
      exact ⟨_, s', .last h2, h3.calm, rfl, _, rfl, .inr rfl⟩
  | @error _ c k t _ h =>
    intro s i b0 cr hk hr he hs hn hok ha
    have ha : a.drop i = c.code ++ _ := ha
    obtain ⟨h1, h2⟩ := drop_head (drop_next ha)
    obtain ⟨e, c1, s', h2, h3, h4⟩ := operand (H := H) (env := env) hr he hs hn hok.1 ha b0 cr hk h
    refine ⟨_, s', .out h2 (.inr ?_), h4, e, rfl, h3⟩
    cases k
    · exact .inl ⟨_, h1, rfl⟩
    · exact .inr ⟨_, h1, rfl⟩
  | @orTrue _ c t _ h =>
    intro s i b0 cr hk hr he hs hn hok ha
    have ha : a.drop i = c.code ++ _ := ha
    obtain ⟨h1, h2⟩ := drop_head (drop_next ha)
    obtain ⟨c1, s', h3, h4, -⟩ := next (s1 := s) (b0 := b0) (cr := cr) hk hr he hs hn hok.1 ha h
    exact ⟨_, s', .orTrue h3 ⟨_, h1, rfl⟩, h4, rfl, _, rfl, .inl rfl⟩
  | @orFalse _ c t o _ h _ ih =>
    intro s i b0 cr hk hr he hs hn hok ha
    have ha : a.drop i = c.code ++ _ := ha
    obtain ⟨h1, h2⟩ := drop_head (drop_next ha)
    obtain ⟨c1, s1, h3, h4, h5, h6, h7, h8, hn1⟩ := next (s1 := s) (b0 := b0) (cr := cr) hk hr he hs hn hok.1 ha h
    obtain ⟨x, s', h9, h10, h11⟩ := ih (b0 := false) (cr := c1) h5 h6 h7 h8 hn1 hok.2 h2
    exact ⟨x, s', .orFalse h3 ⟨_, h1, rfl⟩ h9, h4.trans h10, h11⟩
  | @andTrue _ c t o _ h _ ih =>
    intro s i b0 cr hk hr he hs hn hok ha
    have ha : a.drop i = c.code ++ _ := ha
    obtain ⟨h1, h2⟩ := drop_head (drop_next ha)
    obtain ⟨c1, s1, h3, h4, h5, h6, h7, h8, hn1⟩ := next (s1 := s) (b0 := b0) (cr := cr) hk hr he hs hn hok.1 ha h
    obtain ⟨x, s', h9, h10, h11⟩ := ih (b0 := true) (cr := c1) h5 h6 h7 h8 hn1 hok.2 h2
    exact ⟨x, s', .andTrue h3 ⟨_, h1, rfl⟩ h9, h4.trans h10, h11⟩
  | @andFalse _ c t t' o _ h ho _ ih =>
    intro s i b0 cr hk hr he hs hn hok ha
    have ha : a.drop i = c.code ++ _ := ha
    obtain ⟨h1, h2⟩ := drop_head (drop_next ha)
    obtain ⟨c1, s1, h3, h4, h5, h6, h7, h8, hn1⟩ := next (s1 := s) (b0 := b0) (cr := cr) hk hr he hs hn hok.1 ha h
    have := orElse_at hok.2 h2
    rw [ho] at this
    obtain ⟨h12, k, h13, h14, h15, h16⟩ := this
    obtain ⟨x, s', h9, h10, h11⟩ := ih (b0 := false) (cr := c1) h5 h6 h7 h8 hn1 h12 h16
    exact ⟨x, s', .andFalse h3 ⟨_, h1, rfl⟩ (by omega) h14 (fun m h17 h18 => h15 m (by omega) h18) h9, h4.trans h10, h11⟩
  | @andEnd _ c t _ h ho =>
    intro s i b0 cr hk hr he hs hn hok ha
    have ha : a.drop i = c.code ++ _ := ha
    obtain ⟨h1, h2⟩ := drop_head (drop_next ha)
    obtain ⟨c1, s', h3, h4, -⟩ := next (s1 := s) (b0 := b0) (cr := cr) hk hr he hs hn hok.1 ha h
    have := orElse_at hok.2 h2
    rw [ho] at this
    exact ⟨_, s', .andEnd h3 ⟨_, h1, rfl⟩ (fun m hm => this m (by omega)), h4, rfl, _, rfl, .inr rfl⟩

/-- Every test has a result. -/
theorem compares_total (H : Host) (ρ : List Spec.Store) (k : Str) (c : Spec.Compare) : ∃ o k', Spec.Compares H ρ k c o k' := by
  cases hl : c.left.val ρ with
  | none => exact ⟨none, _, .error (.inl hl)⟩
  | some l =>
    cases hr : c.right.val ρ with
    | none => exact ⟨none, _, .error (.inr hr)⟩
    | some r =>
      by_cases h : Spec.holds c.op (cmp2 H.f64 (l.getD k) (r.getD []))
      · exact ⟨some true, _, .value hl hr ⟨fun _ => h, fun _ => rfl⟩⟩
      · exact ⟨some false, _, .value hl hr ⟨nofun, fun h' => absurd h' h⟩⟩

theorem tests_total (H : Host) (ρ : List Spec.Store) (t : Spec.Test) :
    (∀ k, ∃ o, Spec.Tests H ρ k t o) ∧ ∀ t', t.orElse = some t' → ∀ k, ∃ o, Spec.Tests H ρ k t' o := by
  induction t with
  | one c =>
    refine ⟨fun k => ?_, nofun⟩
    obtain ⟨o, k', h⟩ := compares_total H ρ k c
    exact ⟨o, .one h⟩
  | more c b t ih =>
    obtain ⟨ih', ih⟩ := ih
    constructor
    · intro k
      obtain ⟨o, k', h⟩ := compares_total H ρ k c
      obtain ⟨o', h'⟩ := ih' k'
      cases o with
      | none => exact ⟨_, .error h⟩
      | some v =>
        cases b <;> cases v
        · exact ⟨_, .orFalse h h'⟩
        · exact ⟨_, .orTrue h⟩
        · cases ho : t.orElse with
          | none => exact ⟨_, .andEnd h ho⟩
          | some t' =>
            obtain ⟨o2, h2⟩ := ih t' ho k'
            exact ⟨_, .andFalse h ho h2⟩
        · exact ⟨_, .andTrue h h'⟩
    · intro t' ht'
      cases b
      · cases ht'
        exact ih'
      · exact ih t' ht'

/-- The condition of `如果`. -/
theorem cond_call {t : Spec.Test} {env : Env} {ρ : List Spec.Store} {s : St}
    (hs : Seen env.q s ρ) (hok : t.Ok) (hl : t.code.length ≤ usizeMax) {o : Option Bool}
    (ht : Spec.Tests H ρ [] t o) :
    ∃ x s1, Evals H (.cond t.code { env with ret := s.nlist } {}) (Spec.fresh s) x s1 ∧ (∀ r, CalmIn r s s1) ∧ TestIs x o := by
  obtain ⟨x, s1, h1, h2, h3⟩ := cond_test (H := H) (env := { env with ret := s.nlist }) (a := t.code) ht (s := Spec.fresh s) (i := 0)
    (b0 := false) (cr := {}) ⟨rfl, rfl⟩ (by show s.nlist < s.nlist + 1; omega) (by simp [Spec.fresh, upd]) hs.fresh
    (Nat.ne_of_lt hs.args) hok rfl
  exact ⟨x, s1, (C31_condition hl (form_of hok (a := t.code) (i := 0) rfl)).2 h1, fun r => h2.inner, h3⟩

section
variable {R : Call → St → Res → St → Prop}

theorem ev_if [Sub H R] {a th el : List Code} {env : Env} {s s' : St} {y : Except Err Unit} :
    EvE H R (ifP a th el env) s y s' ↔ ∃ x s1, R (.cond a { env with ret := s.nlist } {}) (Spec.fresh s) x s1 ∧
      match x.r with
      | .ok () => ∃ z, R (.codes (if x.has then th else el) 0 usizeMax env) s1 z s' ∧ z.r = y
      | .error e => if e.i = COND_OK ∨ e.i = COND_CT then ∃ z, R (.codes (if x.has then th else el) 0 usizeMax env) s1 z s' ∧ z.r = y
          else y = .error e ∧ s' = s1 := by
  unfold ifP
  rw [evE_newList_bind, evE_lift_bind]
  have br : ∀ (b : Bool) (s1 : St), EvE H R (if b = true then hello [] th env else hello [] el env) s1 y s' ↔
      ∃ z, R (.codes (if b then th else el) 0 usizeMax env) s1 z s' ∧ z.r = y := by
    intro b s1
    cases b <;> exact evE_hello
  refine exists_congr fun x => exists_congr fun s1 => ?_
  rw [ev_callP]
  refine and_congr_right fun _ => ?_
  dsimp only
  cases x.r with
  | ok u => exact br _ _
  | error e =>
    dsimp only
    split
    · exact br _ _
    · exact evE_fail

end

end Zh
