import Verif.Props.GrammarLex
/-!
# C60: steps of the parser
-/
namespace Zh

/-! ## The parser as a relation -/

theorem PR.bind_mono {α β : Type} {x y : PR α} {f g : α → PR β} (hx : x ≠ .fuel → y = x)
    (hf : ∀ a, x = .ok a → f a ≠ .fuel → g a = f a) : (x >>= f) ≠ .fuel → (y >>= g) = (x >>= f) := by
  intro h
  cases x with
  | ok a => rw [hx nofun]; exact hf a rfl h
  | err => rw [hx nofun]; rfl
  | panic => rw [hx nofun]; rfl
  | fuel => exact absurd rfl h

theorem parsT_succ : ∀ (n : Nat) (me : Int) (kw : Option KwId) (ups : List Layer) (s : PS) (ts : List LTok),
    parsT n me kw ups s ts ≠ .fuel → parsT (n + 1) me kw ups s ts = parsT n me kw ups s ts := by
  intro n
  induction n with
  | zero => intro me kw ups s ts h; exact absurd (by rw [parsT]) h
  | succ n ih =>
    intro me kw ups s ts h
    cases ts with
    | nil => simp only [parsT]
    | cons t ts =>
      cases t with
      | byte c b =>
        rw [parsT] at h ⊢
        rw [show parsT (n + 1) me kw ups s (.byte c b :: ts) = _ from by rw [parsT]]
        exact PR.bind_mono (fun _ => rfl) (fun a _ h => ih _ _ _ _ _ h) h
      | kwText id c =>
        rw [parsT] at h ⊢
        rw [show parsT (n + 1) me kw ups s (.kwText id c :: ts) = _ from by rw [parsT]]
        exact PR.bind_mono (fun _ => rfl) (fun a _ h => ih _ _ _ _ _ h) h
      | kw id =>
        rw [parsT] at h ⊢
        rw [show parsT (n + 1) me kw ups s (.kw id :: ts) = _ from by rw [parsT]]
        refine PR.bind_mono (fun _ => rfl) (fun nx _ h => ?_) h
        cases nx with
        | loop s => exact ih _ _ _ _ _ h
        | brk s => rfl
        | child s =>
          refine PR.bind_mono (ih _ _ _ _ _) (fun ch _ h => ?_) h
          refine PR.bind_mono (fun _ => rfl) (fun p _ h => ?_) h
          by_cases hp : p.2 = true
          · simp only [hp, if_true] at h ⊢; exact ih _ _ _ _ _ h
          · simp only [hp] at h ⊢; rfl

theorem parsT_mono {n m : Nat} (hnm : n ≤ m) {me : Int} {kw : Option KwId} {ups : List Layer} {s : PS} {ts : List LTok}
    {r : PS × List LTok} (h : parsT n me kw ups s ts = .ok r) : parsT m me kw ups s ts = .ok r := by
  induction hnm with
  | refl => exact h
  | step _ ih => rw [parsT_succ _ _ _ _ _ _ (by rw [ih]; nofun)]; exact ih

/-- The parser, in the layer `me`, `kw` below the layers `ups`, goes from state `s` and tokens `ts` to the end of the layer:
result `r` and the tokens left. -/
def Reads (me : Int) (kw : Option KwId) (ups : List Layer) (s : PS) (ts : List LTok) (r : PS × List LTok) : Prop :=
  ∃ n, parsT n me kw ups s ts = .ok r

section
variable {me : Int} {kw : Option KwId} {ups : List Layer} {s s' s'' : PS} {ts ts' : List LTok} {r : PS × List LTok}

theorem Reads.nil (h : addText s = .ok s') : Reads me kw ups s [] (s', []) :=
  ⟨1, by simp [parsT, h]⟩

theorem Reads.loop {id : KwId} (h : kwMain me kw ups id s = .ok (.loop s')) (hr : Reads me kw ups s' ts r) :
    Reads me kw ups s (.kw id :: ts) r := by
  obtain ⟨n, hn⟩ := hr
  exact ⟨n + 1, by simp [parsT, h, hn]⟩

theorem Reads.brk {id : KwId} (h : kwMain me kw ups id s = .ok (.brk s')) (h2 : addText s' = .ok s'') :
    Reads me kw ups s (.kw id :: ts) (s'', ts) :=
  ⟨1, by simp [parsT, h, h2]⟩

theorem Reads.child {id : KwId} {ch p : PS} (h : kwMain me kw ups id s = .ok (.child s'))
    (hc : Reads (me + 1) (some id) (⟨me, kw, s'.ret0⟩ :: ups) (childState id s') ts (ch, ts'))
    (ha : afterChild me id s' ch = .ok (p, true)) (hm : ch.mu = 0) (hr : Reads me kw ups p ts' r) :
    Reads me kw ups s (.kw id :: ts) r := by
  obtain ⟨n, hn⟩ := hc
  obtain ⟨m, hm'⟩ := hr
  refine ⟨max n m + 1, ?_⟩
  simp [parsT, h, parsT_mono (Nat.le_max_left n m) hn, ha, hm, parsT_mono (Nat.le_max_right n m) hm']

theorem Reads.childEnd {id : KwId} {ch p p' : PS} (h : kwMain me kw ups id s = .ok (.child s'))
    (hc : Reads (me + 1) (some id) (⟨me, kw, s'.ret0⟩ :: ups) (childState id s') ts (ch, ts'))
    (ha : afterChild me id s' ch = .ok (p, false)) (hp : addText p = .ok p') :
    Reads me kw ups s (.kw id :: ts) (p', ts') := by
  obtain ⟨n, hn⟩ := hc
  exact ⟨n + 1, by simp [parsT, h, hn, ha, hp]⟩

/-- One way to read what is ahead: the rest is read from `s'`, `ts'`. -/
def Steps (me : Int) (kw : Option KwId) (ups : List Layer) (s : PS) (ts : List LTok) (s' : PS) (ts' : List LTok) : Prop :=
  ∀ r, Reads me kw ups s' ts' r → Reads me kw ups s ts r

theorem Steps.trans {s1 s2 s3 : PS} {t1 t2 t3 : List LTok} (h1 : Steps me kw ups s1 t1 s2 t2) (h2 : Steps me kw ups s2 t2 s3 t3) :
    Steps me kw ups s1 t1 s3 t3 := fun r h => h1 r (h2 r h)

end

/-- A parse from the beginning. -/
theorem parse_reads {src : Str} {s : PS} (h : Reads 0 none [] PS.init (lex Quo.zero (utf8 src)) (s, [])) :
    parse src = .ok (.ok s.c1) := by
  obtain ⟨n, hn⟩ := h
  have h1 := parse_tokens src (max n ((utf8 src).length + 1)) (by omega)
  rw [parsT_mono (Nat.le_max_left _ _) hn] at h1
  exact h1


/-! ## Steps of the parser -/

/-- The list being filled gets more items. -/
def put1 (r : Nat) (c l : List Code) : List Code := if r = 2 ∨ r = 3 then c else c ++ l
def put2 (r : Nat) (c : Option (List Code)) (l : List Code) : Option (List Code) := if r = 2 then c.map (· ++ l) else c
def put3 (r : Nat) (c : Option (List Code)) (l : List Code) : Option (List Code) := if r = 3 then c.map (· ++ l) else c

def PutOk (s : PS) : Prop := (s.ret0 = 2 → s.c2.isSome) ∧ (s.ret0 = 3 → s.c3.isSome)

/-- A text that is being collected: quoted or not. -/
abbrev Pend := Option (Bool × Str)

def pendText : Pend → List Nat
  | none => []
  | some (_, t) => utf8 t

def pendItems : Pend → List Code
  | none => []
  | some (true, t) => [.text t]
  | some (false, t) => [.undef t]

def PendOk : Pend → Prop
  | none => True
  | some (b, t) => t ≠ [] ∧ (b = true → ¬ ['续', '\n'] <+: t ∧ ¬ ['\n', '续'] <:+ t)

def PendIs (is : IsText) : Pend → Prop
  | none => is.first = false
  | some (b, _) => is.old = b ∧ (b = false → is.first = true)

/-- From `s`, the items `l` have been added, and `p` is being collected; `mi`, `mkw`: how the layer is left. -/
structure AtM (s : PS) (l : List Code) (p : Pend) (mi : Int) (mkw : Option KwId) (s' : PS) : Prop where
  ret0 : s'.ret0 = s.ret0
  c1 : s'.c1 = put1 s.ret0 s.c1 l
  c2 : s'.c2 = put2 s.ret0 s.c2 l
  c3 : s'.c3 = put3 s.ret0 s.c3 l
  text : s'.text = pendText p
  is : PendIs s'.is p
  mi : s'.mi = mi
  mkw : s'.mkw = mkw
  mu : s'.mu = 0

abbrev At (s : PS) (l : List Code) (p : Pend) (s' : PS) : Prop := AtM s l p (-1) none s'

theorem put1_add (r : Nat) (c l m : List Code) : put1 r (put1 r c l) m = put1 r c (l ++ m) := by
  unfold put1; split <;> simp
theorem put2_add (r : Nat) (c : Option (List Code)) (l m : List Code) : put2 r (put2 r c l) m = put2 r c (l ++ m) := by
  unfold put2; split <;> cases c <;> simp
theorem put3_add (r : Nat) (c : Option (List Code)) (l m : List Code) : put3 r (put3 r c l) m = put3 r c (l ++ m) := by
  unfold put3; split <;> cases c <;> simp
theorem put1_nil (r : Nat) (c : List Code) : put1 r c [] = c := by unfold put1; split <;> simp
theorem put2_nil (r : Nat) (c : Option (List Code)) : put2 r c [] = c := by unfold put2; split <;> cases c <;> simp
theorem put3_nil (r : Nat) (c : Option (List Code)) : put3 r c [] = c := by unfold put3; split <;> cases c <;> simp

theorem addCode_put {s : PS} (h : PutOk s) (c : Code) :
    addCode c s = .ok { s with c1 := put1 s.ret0 s.c1 [c], c2 := put2 s.ret0 s.c2 [c], c3 := put3 s.ret0 s.c3 [c] } := by
  unfold addCode put1 put2 put3
  by_cases h2 : s.ret0 = 2
  · obtain ⟨l, hl⟩ := Option.isSome_iff_exists.1 (h.1 h2)
    simp [h2, hl]
  · by_cases h3 : s.ret0 = 3
    · obtain ⟨l, hl⟩ := Option.isSome_iff_exists.1 (h.2 h3)
      simp [h3, hl]
    · simp [h2, h3]

theorem AtM.start {s : PS} (h1 : s.text = []) (h2 : s.is.first = false) (h3 : s.mu = 0) : AtM s [] none s.mi s.mkw s :=
  ⟨rfl, (put1_nil _ _).symm, (put2_nil _ _).symm, (put3_nil _ _).symm, h1, h2, rfl, rfl, h3⟩

theorem AtM.putOk {s s' : PS} {l p mi mkw} (h : AtM s l p mi mkw s') (hp : PutOk s) : PutOk s' := by
  constructor
  · intro h2
    rw [h.ret0] at h2
    rw [h.c2, put2, if_pos h2]; simpa using hp.1 h2
  · intro h2
    rw [h.ret0] at h2
    rw [h.c3, put3, if_pos h2]; simpa using hp.2 h2

/-- Adding one more item to a state of this kind. -/
theorem AtM.add {s s' : PS} {l p mi mkw} (h : AtM s l p mi mkw s') (hp : PutOk s) (c : Code) :
    ∃ s2, addCode c s' = .ok s2 ∧ AtM s (l ++ [c]) p mi mkw s2 :=
  ⟨_, addCode_put (h.putOk hp) c, by
    constructor
    · exact h.ret0
    · simp only [h.ret0, h.c1, put1_add]
    · simp only [h.ret0, h.c2, put2_add]
    · simp only [h.ret0, h.c3, put3_add]
    · exact h.text
    · exact h.is
    · exact h.mi
    · exact h.mkw
    · exact h.mu⟩

/-- The collected text becomes an item. -/
theorem AtM.flush {s s' : PS} {l p mi mkw} (h : AtM s l p mi mkw s') (hp : PutOk s) (hk : PendOk p) :
    ∃ s2, addText s' = .ok s2 ∧ AtM s (l ++ pendItems p) none mi mkw s2 := by
  cases p with
  | none =>
    refine ⟨{ s' with is := s'.is.clear }, by simp [addText, h.text, pendText], ?_⟩
    rw [show pendItems none = [] from rfl, List.append_nil]
    exact ⟨h.ret0, h.c1, h.c2, h.c3, h.text, rfl, h.mi, h.mkw, h.mu⟩
  | some q =>
    obtain ⟨b, t⟩ := q
    have hne : s'.text.isEmpty = false := by
      rw [h.text]
      show (utf8 t).isEmpty = false
      cases e : utf8 t with
      | nil => exact absurd (utf8_eq_nil.1 e) hk.1
      | cons => rfl
    have hd : decode s'.text = some t := by rw [h.text]; exact decode_utf8 t
    obtain ⟨c, hc, hi⟩ : ∃ c, textCode (!s'.is.old) t = .ok c ∧ pendItems (some (b, t)) = [c] := by
      rw [h.is.1]
      cases b with
      | false => exact ⟨_, rfl, rfl⟩
      | true => exact ⟨_, by simp [textCode, (C50_marks_partial t).2.2.2 (hk.2 rfl).1 (hk.2 rfl).2], rfl⟩
    have h2 : AtM s l none mi mkw { s' with text := [], is := s'.is.clear } :=
      ⟨h.ret0, h.c1, h.c2, h.c3, rfl, rfl, h.mi, h.mkw, h.mu⟩
    obtain ⟨s2, h3, h4⟩ := h2.add hp c
    refine ⟨s2, ?_, by rw [hi]; exact h4⟩
    simp only [addText, hne, hd, hc, Bool.false_eq_true, if_false]
    exact h3

section
variable {me : Int} {kw : Option KwId} {ups : List Layer} {s s1 : PS} {l : List Code} {p : Pend} {id : KwId}

theorem kwMain_rest (h : At s l p s1) (hp : PutOk s) (hk : PendOk p) (h1 : id ≠ .maohao) (h2 : layerKw id = false) :
    ∃ s2, At s (l ++ pendItems p) none s2 ∧ kwMain me kw ups id s1 = kwRest id s2 := by
  obtain ⟨s2, e, h3⟩ := h.flush hp hk
  exact ⟨s2, h3, by simp [kwMain, e, h1, h2]⟩

theorem kwMain_stay (h : At s l p s1) (hp : PutOk s) (hk : PendOk p) (h1 : id ≠ .maohao) (h2 : layerKw id = true) {r : Int}
    (h3 : layerScan me (⟨me, kw, s.ret0⟩ :: ups) id = (r, false, 0)) (h4 : ¬ r < me) :
    ∃ s2, At s (l ++ pendItems p) none s2 ∧ kwMain me kw ups id s1 = kwRest id s2 := by
  obtain ⟨s2, e, h5⟩ := h.flush hp hk
  refine ⟨s2, h5, ?_⟩
  simp [kwMain, e, h1, h2, layerI1, h5.ret0, h3, h4]

theorem kwMain_leave (h : At s l p s1) (hp : PutOk s) (hk : PendOk p) (h1 : id ≠ .maohao) (h2 : layerKw id = true) {r : Int} {m : Bool}
    (h3 : layerScan me (⟨me, kw, s.ret0⟩ :: ups) id = (r, m, 0)) (h4 : r < me) :
    ∃ s2, AtM s (l ++ pendItems p) none r (some id) s2 ∧ kwMain me kw ups id s1 = .ok (.brk s2) := by
  obtain ⟨s2, e, h5⟩ := h.flush hp hk
  refine ⟨{ s2 with mi := r, mkw := some id }, ⟨h5.ret0, h5.c1, h5.c2, h5.c3, h5.text, h5.is, rfl, rfl, h5.mu⟩, ?_⟩
  simp [kwMain, e, h1, h2, layerI1, h5.ret0, h3, h4]

theorem reads_leave (h : At s l p s1) (hp : PutOk s) (hk : PendOk p) (h1 : id ≠ .maohao) (h2 : layerKw id = true) {r : Int} {m : Bool}
    (h3 : layerScan me (⟨me, kw, s.ret0⟩ :: ups) id = (r, m, 0)) (h4 : r < me) (ts : List LTok) :
    ∃ s2, AtM s (l ++ pendItems p) none r (some id) s2 ∧ Reads me kw ups s1 (.kw id :: ts) (s2, ts) := by
  obtain ⟨s2, h5, e⟩ := kwMain_leave h hp hk h1 h2 h3 h4
  obtain ⟨s3, e2, h6⟩ := h5.flush hp (p := none) trivial
  rw [show pendItems none = [] from rfl, List.append_nil] at h6
  exact ⟨s3, h6, .brk e e2⟩

/-- After a statement of a deeper layer. -/
theorem after_code {ch : PS} {c : Code} (h : At s l none s1) (hp : PutOk s) (hf : ch.is.first = false) (hm : ch.mu = 0) :
    ∃ s2, AtM s (l ++ [c]) none ch.mi ch.mkw s2 ∧
      addCode c { ch with ret0 := s1.ret0, c1 := s1.c1, c2 := s1.c2, c3 := s1.c3, text := s1.text } = .ok s2 := by
  have h1 : AtM s l none ch.mi ch.mkw { ch with ret0 := s1.ret0, c1 := s1.c1, c2 := s1.c2, c3 := s1.c3, text := s1.text } :=
    ⟨h.ret0, h.c1, h.c2, h.c3, h.text, hf, rfl, rfl, hm⟩
  obtain ⟨s2, e, h2⟩ := h1.add hp c
  exact ⟨s2, h2, e⟩

theorem AtM.reset {mi mkw} (h : AtM s l p mi mkw s1) : At s l p s1.reset :=
  ⟨h.ret0, h.c1, h.c2, h.c3, h.text, h.is, rfl, rfl, rfl⟩

/-- The statement ends with a closing mark of its own. -/
theorem after_stay {ch : PS} {c : Code} (h : At s l none s1) (hp : PutOk s)
    (hc : mkCode id ch.c1 (ch.c2.getD []) (ch.c3.getD []) = some (.ok c)) (hf : ch.is.first = false) (hm : ch.mu = 0)
    (hmi : ¬ (ch.mi ≥ 0 ∧ me > ch.mi)) (hk : ch.mkw = none ∨ ch.mkw = some .endBlock) :
    ∃ s2, At s (l ++ [c]) none s2 ∧ afterChild me id s1 ch = .ok (s2, true) := by
  obtain ⟨s2, h2, e⟩ := after_code (c := c) h hp hf hm
  refine ⟨s2.reset, h2.reset, ?_⟩
  simp only [afterChild, hc, e, PR.ok_bind, h2.mu, h2.mi, hmi, if_false, h2.mkw]
  rcases hk with hk | hk <;> simp [hk, inIf]

/-- The statement ends with the stop of the sentence it is in. -/
theorem after_stop {ch : PS} {c : Code} (h : At s l none s1) (hp : PutOk s)
    (hc : mkCode id ch.c1 (ch.c2.getD []) (ch.c3.getD []) = some (.ok c)) (hf : ch.is.first = false) (hm : ch.mu = 0)
    (hmi : ¬ (ch.mi ≥ 0 ∧ me > ch.mi)) (hk : ch.mkw = some .jvhao) :
    ∃ s2, At s (l ++ [c, .kw1 .jvhao]) none s2 ∧ afterChild me id s1 ch = .ok (s2, true) := by
  obtain ⟨s2, h2, e⟩ := after_code (c := c) h hp hf hm
  obtain ⟨s3, e3, h3⟩ := h2.add hp (.kw1 .jvhao)
  refine ⟨s3.reset, by simpa using h3.reset, ?_⟩
  simp only [afterChild, hc, e, PR.ok_bind, h2.mu, h2.mi, hmi, if_false, h2.mkw]
  simp [hk, addKw, inIf, e3]

/-- The layer is left together with the statement. -/
theorem after_leave {ch : PS} {c : Code} (h : At s l none s1) (hp : PutOk s)
    (hc : mkCode id ch.c1 (ch.c2.getD []) (ch.c3.getD []) = some (.ok c)) (hf : ch.is.first = false) (hm : ch.mu = 0)
    (hmi : ch.mi ≥ 0 ∧ me > ch.mi) :
    ∃ s2 s3, AtM s (l ++ [c]) none ch.mi ch.mkw s3 ∧ afterChild me id s1 ch = .ok (s2, false) ∧ addText s2 = .ok s3 := by
  obtain ⟨s2, h2, e⟩ := after_code (c := c) h hp hf hm
  obtain ⟨s3, e3, h3⟩ := h2.flush hp (p := none) trivial
  rw [show pendItems none = [] from rfl, List.append_nil] at h3
  refine ⟨s2, s3, h3, ?_, e3⟩
  simp only [afterChild, hc, e, PR.ok_bind, h2.mu, h2.mi, hmi]
  simp

/-- Keywords that begin a statement wherever they stand. -/
def begins (id : KwId) : Bool :=
  decide (id ≠ .maohao) && !layerKw id && !ownKw id &&
    (match id with | .endBlock | .equ | .then_ | .else_ | .endRem2 | .endVar | .parBrkpoint => false | _ => true)

theorem kwMain_begins (h : At s l p s1) (hp : PutOk s) (hk : PendOk p) (hb : begins id = true) :
    ∃ s2, At s (l ++ pendItems p) none s2 ∧ kwMain me kw ups id s1 = .ok (.child s2) := by
  have hb1 : id ≠ .maohao := by rintro rfl; simp [begins] at hb
  have hb2 : layerKw id = false := by cases e : layerKw id <;> simp_all [begins]
  obtain ⟨s2, h2, e⟩ := kwMain_rest (me := me) (kw := kw) (ups := ups) h hp hk hb1 hb2
  refine ⟨s2, h2, ?_⟩
  rw [e]
  revert hb
  cases id <;> first | (intro hb; exact absurd hb (by decide)) | (intro _; rfl)

/-- The state at the beginning of a statement. -/
structure Start (id : KwId) (s : PS) : Prop where
  ret0 : s.ret0 = 1
  c1 : s.c1 = []
  c2 : s.c2 = if id = .if_ ∨ inSet id then some [] else none
  c3 : s.c3 = if id = .if_ then some [] else none
  text : s.text = []
  first : s.is.first = false
  mi : s.mi = -1
  mkw : s.mkw = none
  mu : s.mu = 0

theorem start_child (h : At s l none s1) : Start id (childState id s1) :=
  ⟨rfl, rfl, rfl, rfl, rfl, h.is, h.mi, h.mkw, h.mu⟩

theorem Start.at {s : PS} (h : Start id s) : At s [] none s := by
  have := AtM.start h.text h.first h.mu
  rw [h.mi, h.mkw] at this
  exact this

theorem Start.putOk {s : PS} (h : Start id s) : PutOk s := by
  constructor <;> intro h2 <;> rw [h.ret0] at h2 <;> omega

end

/-! ## Pieces -/

section
variable {me : Int} {kw : Option KwId} {ups : List Layer} {s s1 : PS} {l : List Code} {p : Pend} {id : KwId}

/-- Collecting the bytes of a text. -/
theorem steps_bytes (b : Bool) (t : Str) (ht : t ≠ []) (h : At s l none s1) (ts : List LTok) :
    ∃ s2, At s l (some (b, t)) s2 ∧ Steps me kw ups s1 ((utf8 t).map (LTok.byte · b) ++ ts) s2 ts := by
  have h0 : (s1.is.needClear b).1 = false := by
    have := h.is; simp only [PendIs] at this; simp [IsText.needClear, this]
  refine ⟨{ s1 with is := (s1.is.needClear b).2, text := s1.text ++ utf8 t },
    ⟨h.ret0, h.c1, h.c2, h.c3, ?_, ?_, h.mi, h.mkw, h.mu⟩, ?_⟩
  · show s1.text ++ utf8 t = utf8 t
    rw [h.text]; rfl
  · have := h.is; simp only [PendIs] at this; simp [PendIs, IsText.needClear, this]
  · intro r ⟨n, hn⟩
    refine ⟨n + (utf8 t).length, ?_⟩
    rw [parsT_bytes me kw ups b ts (utf8 t) _ s1 h0 (by rw [ne_eq, utf8_eq_nil]; exact ht), if_pos (by omega),
      show n + (utf8 t).length - (utf8 t).length = n by omega]
    exact hn

/-- Collecting the bytes of a quoted text after an unquoted word. -/
theorem steps_bytes_word (w t : Str) (ht : t ≠ []) (h : At s l (some (false, w)) s1) (hp : PutOk s) (hk : PendOk (some (false, w))) (ts : List LTok) :
    ∃ s2, At s (l ++ [.undef w]) (some (true, t)) s2 ∧ Steps me kw ups s1 ((utf8 t).map (LTok.byte · true) ++ ts) s2 ts := by
  have hf := h.is.2 rfl
  have h0 : s1.is.needClear true = (true, { s1.is with now := true }) := by
    simp [IsText.needClear, hf, h.is.1]
  have h1 : At s l (some (false, w)) { s1 with is := { s1.is with now := true } } :=
    ⟨h.ret0, h.c1, h.c2, h.c3, h.text, ⟨h.is.1, fun _ => hf⟩, h.mi, h.mkw, h.mu⟩
  obtain ⟨s2, e2, h2⟩ := h1.flush hp hk
  have ho : s2.is.old = true := by
    have hne : (utf8 w).isEmpty = false := by
      cases e : utf8 w with
      | nil => exact absurd (utf8_eq_nil.1 e) hk.1
      | cons => rfl
    have hd : decode (utf8 w) = some w := decode_utf8 w
    have ht : s1.text = utf8 w := h.text
    simp only [addText, ht, hne, hd, Bool.false_eq_true, if_false, textCode, h.is.1, Bool.not_false, if_true] at e2
    rw [addCode_put (by exact h1.putOk hp)] at e2
    cases e2
    rfl
  cases hb : utf8 t with
  | nil => exact absurd (utf8_eq_nil.1 hb) ht
  | cons b bs =>
    have hk1 : keepByte b true s1 = .ok { s2 with text := s2.text ++ [b] } := by
      unfold keepByte
      rw [h0]
      simp only [if_true, e2, PR.ok_bind]
    have hfs : s2.is.first = false := h2.is
    have n0 : (s2.is.needClear true).1 = false := by simp [IsText.needClear, hfs]
    by_cases hbs : bs = []
    · subst hbs
      refine ⟨{ s2 with text := s2.text ++ [b] }, ⟨h2.ret0, h2.c1, h2.c2, h2.c3, ?_, ⟨ho, nofun⟩, h2.mi, h2.mkw, h2.mu⟩, ?_⟩
      · show s2.text ++ [b] = utf8 t
        rw [h2.text, hb]; rfl
      · intro r ⟨n, hn⟩
        refine ⟨n + 1, ?_⟩
        simp only [List.map_cons, List.map_nil, List.cons_append, List.nil_append, parsT, hk1, PR.ok_bind]
        exact hn
    · refine ⟨{ s2 with is := (s2.is.needClear true).2, text := s2.text ++ [b] ++ bs },
        ⟨h2.ret0, h2.c1, h2.c2, h2.c3, ?_, ⟨?_, nofun⟩, h2.mi, h2.mkw, h2.mu⟩, ?_⟩
      · show s2.text ++ [b] ++ bs = utf8 t
        rw [h2.text, hb]; rfl
      · simp [IsText.needClear, hfs]
      · intro r ⟨n, hn⟩
        refine ⟨n + bs.length + 1, ?_⟩
        simp only [List.map_cons, List.cons_append, parsT, hk1, PR.ok_bind]
        rw [parsT_bytes me kw ups true ts bs _ { s2 with text := s2.text ++ [b] } n0 hbs, if_pos (by omega), show n + bs.length - bs.length = n by omega]
        exact hn

theorem steps_loop {s2 : PS} (ts : List LTok) (e : kwMain me kw ups id s1 = .ok (.loop s2)) :
    Steps me kw ups s1 (.kw id :: ts) s2 ts := fun _ hr => .loop e hr

/-! ## Names -/

theorem num32 {s : Str} {i : Int} (h : Spec.IsNum 32 s i) : parseI32 s = some i :=
  (C56_read_i32 s i).2 ⟨h.2.1, h.2.2, h.1⟩
theorem num64 {s : Str} {i : Int} (h : Spec.IsNum 64 s i) : parseI64 s = some i :=
  (C56_read_i64 s i).2 ⟨h.2.1, h.2.2, h.1⟩
theorem notNum32 {s : Str} (h : Spec.NotNum s) : parseI32 s = none := by
  cases e : parseI32 s with
  | none => rfl
  | some i => exact absurd ((C56_read_i32 s i).1 e).2.2 (h i)
theorem notNum64 {s : Str} (h : Spec.NotNum s) : parseI64 s = none := by
  cases e : parseI64 s with
  | none => rfl
  | some i => exact absurd ((C56_read_i64 s i).1 e).2.2 (h i)

theorem remText_note (s : Str) : remText (Spec.noteItem s) = some (some s) := by
  unfold Spec.noteItem
  split
  · rename_i h; subst h; rfl
  · rfl

theorem varScan_notes (name : Str) : ∀ (ns rems : List Str), varScan (ns.map Spec.noteItem) name rems = (some name, rems ++ ns)
  | [], rems => by simp [varScan]
  | n :: ns, rems => by
    have e : ∀ c cs, remText c = some (some n) → varScan (c :: cs) name rems = varScan cs name (rems ++ [n]) := by
      intro c cs h
      cases c <;> simp [remText] at h
      · rw [varScan]
        · simp [remText, h]
        · intro s hs; exact nomatch hs
      · rw [varScan]
        · simp [remText, h]
        · intro s hs; exact nomatch hs
    rw [List.map_cons, e _ _ (remText_note n), varScan_notes name ns]; simp

theorem argsScan_skip (b e : Option (Nat × Int)) : ∀ (ns : List Str) (idx : Nat), (∀ n ∈ ns, Spec.NotNum n) → argsScan ns idx b e = (b, e)
  | [], _, _ => rfl
  | n :: ns, idx, h => by
    rw [argsScan, notNum32 (h n (by simp))]
    exact argsScan_skip b e ns _ fun x hx => h x (by simp [hx])

theorem argsScan_full (b e : Nat × Int) : ∀ (ns : List Str) (idx : Nat), argsScan ns idx (some b) (some e) = (some b, some e)
  | [], _ => rfl
  | n :: ns, idx => by
    rw [argsScan]
    split
    · exact argsScan_full b e ns _
    · rfl

theorem printable_append (a b : Str) : Spec.printable (a ++ b) = Spec.printable a ++ Spec.printable b := by simp [Spec.printable]

theorem varNew_name (n : Spec.Name) (ns : List Str) (h : n.Ok ns) :
    varNew (.text (Spec.printable n.text) :: ((n.own ++ ns).map Spec.printable).map Spec.noteItem) = n.item (ns.map Spec.printable) := by
  have hscan : ∀ (t : Str) (rs : List Str), varScan (.text t :: rs.map Spec.noteItem) [] [] = (some t, rs) := by
    intro t rs
    rw [varScan]
    show varScan _ ([] ++ t) _ = _
    rw [varScan_notes]; simp
  unfold varNew
  rw [hscan]
  cases n with
  | plain s =>
    obtain ⟨_, _, h3, h4⟩ := h
    simp only [List.mem_cons, List.not_mem_nil, or_false, not_or] at h3
    have hi : argiWith (Spec.printable s) = none := by
      unfold argiWith
      split
      · rename_i hp
        obtain ⟨t, ht⟩ := List.isPrefixOf_iff_prefix.1 hp
        have : (Spec.printable s).drop ARG.length = t := by rw [← ht, List.drop_left]
        rw [this]
        exact notNum32 (h4 t ht.symm)
      · rfl
    have h1 : ¬ (Spec.printable s = ARGS ∨ Spec.printable s = ARG) := by
      rintro (e | e)
      · exact h3.2.1 e
      · exact h3.1 e
    simp only [Spec.Name.text, Spec.Name.own, List.nil_append, Spec.Name.item, argsWith, h1, if_false,
      show ¬ Spec.printable s = ARGC from h3.2.2, hi]
  | argc =>
    rfl
  | arg s i =>
    have e1 : Spec.printable (Spec.Name.arg s i).text = ARG ++ Spec.printable s := by
      show Spec.printable (c!"参数" ++ s) = _
      rw [printable_append]; rfl
    have hn := num32 h.2
    have h1 : ¬ (ARG ++ Spec.printable s = ARGS ∨ ARG ++ Spec.printable s = ARG) := by
      rintro (e | e)
      · have : Spec.printable s = c!"栈" := by simpa [ARG, ARGS] using e
        rw [this] at hn; exact nomatch hn
      · have : Spec.printable s = [] := by simpa [ARG] using e
        rw [this] at hn; exact nomatch hn
    have h2 : ¬ ARG ++ Spec.printable s = ARGC := by
      intro e
      have : Spec.printable s = c!"数目" := by simpa [ARG, ARGC] using e
      rw [this] at hn; exact nomatch hn
    have h3 : argiWith (ARG ++ Spec.printable s) = some i := by
      unfold argiWith
      rw [if_pos (List.isPrefixOf_iff_prefix.2 (List.prefix_append _ _)), List.drop_left]
      exact hn
    rw [e1]
    simp only [Spec.Name.own, List.nil_append, argsWith, h1, if_false, h2, h3, Spec.Name.item, List.drop_left]
  | args line bs =>
    obtain ⟨hl, hb, hns⟩ := h
    have e1 : Spec.printable (Spec.Name.args line bs).text = if line then ARG else ARGS := by cases line <;> rfl
    have h1 : (if line then ARG else ARGS) = ARGS ∨ (if line then ARG else ARGS) = ARG := by cases line <;> simp
    have h2 : decide ((if line then ARG else ARGS) = ARG) = line := by cases line <;> decide
    have hns' : bs.length < 2 → ∀ n ∈ ns.map Spec.printable, Spec.NotNum n := by
      intro hlt n hn
      obtain ⟨x, hx, rfl⟩ := List.mem_map.1 hn
      exact hns hlt x hx
    rw [e1]
    simp only [argsWith, if_pos h1, h2]
    match bs, hl, hb with
    | [], _, _ =>
      rw [show ((Spec.Name.args line []).own ++ ns).map Spec.printable = ns.map Spec.printable from rfl,
        argsScan_skip _ _ _ _ (hns' (by simp))]
      rfl
    | [b], _, hb =>
      rw [show ((Spec.Name.args line [b]).own ++ ns).map Spec.printable = Spec.printable b.1 :: ns.map Spec.printable from rfl]
      rw [argsScan, num32 (hb b (by simp))]
      simp only [argsScan_skip _ _ _ _ (hns' (by simp))]
      rfl
    | [b, e], _, hb =>
      rw [show ((Spec.Name.args line [b, e]).own ++ ns).map Spec.printable =
        Spec.printable b.1 :: Spec.printable e.1 :: ns.map Spec.printable from rfl]
      rw [argsScan, num32 (hb b (by simp))]
      simp only
      rw [argsScan, num32 (hb e (by simp))]
      simp only [argsScan_full]
      rfl

/-! ## Pieces -/

theorem no_marks {t : Str} (h : '\n' ∉ t) : ¬ ['续', '\n'] <+: t ∧ ¬ ['\n', '续'] <:+ t := by
  constructor <;> intro hp
  · exact h (hp.subset (by simp))
  · exact h (hp.subset (by simp))

theorem nl_printable (s : Str) : '\n' ∉ Spec.printable s := by
  simp [Spec.printable]

theorem nl_strip (s : Str) : '\n' ∉ Spec.strip s := by
  simp [Spec.strip]

/-- Bytes of a text that may be empty. -/
theorem steps_bytes0 (t : Str) (hm : '\n' ∉ t) (h : At s l none s1) (ts : List LTok) :
    ∃ p' s2, At s l p' s2 ∧ PendOk p' ∧ pendItems p' = Spec.textItem t ∧ Steps me kw ups s1 (bytesT t ++ ts) s2 ts := by
  by_cases ht : t = []
  · subst ht
    exact ⟨none, s1, h, trivial, rfl, fun _ h => h⟩
  · obtain ⟨s2, h2, e2⟩ := steps_bytes (me := me) (kw := kw) (ups := ups) true t ht h ts
    exact ⟨_, s2, h2, ⟨ht, fun _ => no_marks hm⟩, by simp [pendItems, Spec.textItem, ht], e2⟩

/-- Bytes of a text that may be empty, after a word. -/
theorem steps_bytes1 (t : Str) (hm : '\n' ∉ t) (h : At s l p s1) (hp : PutOk s) (hk : PendOk p) (hw : ∀ b w, p = some (b, w) → b = false) (ts : List LTok) :
    ∃ l' p' s2, At s l' p' s2 ∧ PendOk p' ∧ l' ++ pendItems p' = l ++ pendItems p ++ Spec.textItem t ∧ Steps me kw ups s1 (bytesT t ++ ts) s2 ts := by
  cases p with
  | none =>
    obtain ⟨p', s2, h2, hk2, e2, st⟩ := steps_bytes0 (me := me) (kw := kw) (ups := ups) t hm h ts
    exact ⟨l, p', s2, h2, hk2, by rw [e2]; simp [pendItems], st⟩
  | some q =>
    obtain ⟨b, w⟩ := q
    cases hw b w rfl
    by_cases ht : t = []
    · subst ht
      exact ⟨l, _, s1, h, hk, by simp [Spec.textItem], fun _ h => h⟩
    · obtain ⟨s2, h2, e2⟩ := steps_bytes_word (me := me) (kw := kw) (ups := ups) w t ht h hp hk ts
      exact ⟨_, _, s2, h2, ⟨ht, fun _ => no_marks hm⟩, by simp [pendItems, Spec.textItem, ht], e2⟩

/-- Something in brackets: a name or an annotation. -/
theorem steps_inside (o c : KwId) (hoc : (o = .beginVar ∧ c = .endVar) ∨ (o = .beginRem2 ∧ c = .endRem2)) (x : Code) (tk : List LTok)
    (items : List Code) (hx : mkCode o items [] [] = some (.ok x))
    (h : At s l p s1) (hp : PutOk s) (hk : PendOk p) (ts : List LTok)
    (hin : ∀ (ups : List Layer) (s0 : PS), At s0 [] none s0 → PutOk s0 → ∃ l' p' s2, At s0 l' p' s2 ∧ PendOk p' ∧ l' ++ pendItems p' = items ∧
      Steps (me + 1) (some o) ups s0 (tk ++ .kw c :: ts) s2 (.kw c :: ts)) :
    ∃ s2, At s (l ++ pendItems p ++ [x]) none s2 ∧
      Steps me kw ups s1 (.kw o :: (tk ++ [.kw c]) ++ ts) s2 ts := by
  have hb : begins o = true := by rcases hoc with ⟨rfl, _⟩ | ⟨rfl, _⟩ <;> rfl
  obtain ⟨s2, h2, e2⟩ := kwMain_begins (me := me) (kw := kw) (ups := ups) h hp hk hb
  have hs := start_child (id := o) h2
  obtain ⟨l3, p3, s3, h3, hk3, i3, e3⟩ := hin (⟨me, kw, s2.ret0⟩ :: ups) _ hs.at hs.putOk
  have hc1 : c ≠ .maohao := by rcases hoc with ⟨_, rfl⟩ | ⟨_, rfl⟩ <;> decide
  have hc2 : layerKw c = false := by rcases hoc with ⟨_, rfl⟩ | ⟨_, rfl⟩ <;> rfl
  obtain ⟨s4, h4, e4⟩ := kwMain_rest (me := me + 1) (kw := some o) (ups := ⟨me, kw, s2.ret0⟩ :: ups) h3 hs.putOk hk3 hc1 hc2
  have e4' : kwMain (me + 1) (some o) (⟨me, kw, s2.ret0⟩ :: ups) c s3 = .ok (.brk s4) := by
    rw [e4]; rcases hoc with ⟨_, rfl⟩ | ⟨_, rfl⟩ <;> rfl
  obtain ⟨s5, e5, h5⟩ := h4.flush hs.putOk (p := none) trivial
  have hch := e3 _ (Reads.brk (ts := ts) e4' e5)
  have hc : mkCode o s5.c1 (s5.c2.getD []) (s5.c3.getD []) = some (.ok x) := by
    have hne : ¬ (o = .if_ ∨ inSet o = true) := by rcases hoc with ⟨rfl, _⟩ | ⟨rfl, _⟩ <;> decide
    have hne2 : o ≠ .if_ := fun h => hne (.inl h)
    rw [h5.c1, h5.c2, h5.c3, hs.ret0, hs.c1, hs.c2, hs.c3, if_neg hne, if_neg hne2, i3]
    simpa [put1, put2, put3, pendItems] using hx
  obtain ⟨s6, h6, e6⟩ := after_stay (me := me) h2 hp hc h5.is h5.mu (by rw [h5.mi]; omega) (.inl h5.mkw)
  refine ⟨s6, h6, fun r hr => ?_⟩
  rw [show .kw o :: (tk ++ [.kw c]) ++ ts = .kw o :: (tk ++ .kw c :: ts) by simp]
  exact Reads.child e2 hch e6 h5.mu hr

theorem remNew_text (s : Str) : remNew (Spec.textItem s) = Spec.noteItem s := by
  unfold Spec.textItem Spec.noteItem
  by_cases h : s = [] <;> simp [h, remNew]

theorem steps_note (t : Str) (hm : '\n' ∉ t) (h : At s l p s1) (hp : PutOk s) (hk : PendOk p) (ts : List LTok) :
    ∃ s2, At s (l ++ pendItems p ++ [Spec.noteItem t]) none s2 ∧ Steps me kw ups s1 (noteTok t ++ ts) s2 ts := by
  refine steps_inside .beginRem2 .endRem2 (.inr ⟨rfl, rfl⟩) _ (bytesT t) (Spec.textItem t) (by simp [mkCode, remNew_text]) h hp hk ts ?_
  intro ups s0 h0 hp0
  obtain ⟨p', s2, h2, hk2, e2, st⟩ := steps_bytes0 (me := me + 1) (kw := some .beginRem2) (ups := ups) t hm h0 (.kw .endRem2 :: ts)
  exact ⟨[], p', s2, h2, hk2, e2, st⟩

theorem steps_notes (hp : PutOk s) (ts : List LTok) : ∀ (ns : List Str) (l : List Code) (p : Pend) (s1 : PS), (∀ t ∈ ns, '\n' ∉ t) → At s l p s1 → PendOk p →
    ∃ l' p' s2, At s l' p' s2 ∧ PendOk p' ∧ l' ++ pendItems p' = l ++ pendItems p ++ ns.map Spec.noteItem ∧
      (p' ≠ none → ns = [] ∧ p' = p) ∧ Steps me kw ups s1 (ns.flatMap noteTok ++ ts) s2 ts
  | [], l, p, s1, _, h, hk => ⟨l, p, s1, h, hk, by simp, fun _ => ⟨rfl, rfl⟩, fun _ h => h⟩
  | n :: ns, l, p, s1, hn, h, hk => by
    obtain ⟨s2, h2, e2⟩ := steps_note (me := me) (kw := kw) (ups := ups) n (hn n (by simp)) h hp hk (ns.flatMap noteTok ++ ts)
    obtain ⟨l3, p3, s3, h3, hk3, i3, n3, e3⟩ := steps_notes hp ts ns _ none s2 (fun t ht => hn t (by simp [ht])) h2 trivial
    refine ⟨l3, p3, s3, h3, hk3, by rw [i3]; simp [pendItems], fun hne => absurd (n3 hne).2 hne, ?_⟩
    rw [List.flatMap_cons, List.append_assoc]
    exact e2.trans e3

theorem name_ne (n : Spec.Name) (ns : List Str) (h : n.Ok ns) : Spec.printable n.text ≠ [] := by
  cases n with
  | plain s => exact h.2.1
  | args line bs => cases line <;> simp [Spec.Name.text, Spec.printable]
  | argc => simp [Spec.Name.text, Spec.printable]
  | arg s i => simp [Spec.Name.text, Spec.printable]

theorem steps_var (n : Spec.Name) (ns : List Str) (hn : n.Ok ns) (h : At s l p s1) (hp : PutOk s) (hk : PendOk p) (ts : List LTok) :
    ∃ s2, At s (l ++ pendItems p ++ [n.item (ns.map Spec.printable)]) none s2 ∧
      Steps me kw ups s1 (varTok (Spec.printable n.text) ((n.own ++ ns).map Spec.printable) ++ ts) s2 ts := by
  have := steps_inside (me := me) (kw := kw) (ups := ups) .beginVar .endVar (.inl ⟨rfl, rfl⟩) (n.item (ns.map Spec.printable))
    (bytesT (Spec.printable n.text) ++ ((n.own ++ ns).map Spec.printable).flatMap noteTok)
    (.text (Spec.printable n.text) :: ((n.own ++ ns).map Spec.printable).map Spec.noteItem)
    (by simp only [mkCode, varNew_name n ns hn]) h hp hk ts (by
      intro ups s0 h0 hp0
      obtain ⟨s2, h2, e2⟩ := steps_bytes (me := me + 1) (kw := some .beginVar) (ups := ups) true _ (name_ne n ns hn) h0
        (((n.own ++ ns).map Spec.printable).flatMap noteTok ++ .kw .endVar :: ts)
      obtain ⟨l3, p3, s3, h3, hk3, i3, _, e3⟩ := steps_notes (me := me + 1) (kw := some .beginVar) (ups := ups) hp0 (.kw .endVar :: ts)
        ((n.own ++ ns).map Spec.printable) [] _ s2 (by
          intro t ht
          obtain ⟨x, _, rfl⟩ := List.mem_map.1 ht
          exact nl_printable x) h2 ⟨name_ne n ns hn, fun _ => no_marks (nl_printable _)⟩
      refine ⟨l3, p3, s3, h3, hk3, by rw [i3]; rfl, ?_⟩
      rw [List.append_assoc]
      exact e2.trans e3)
  simpa [varTok] using this

theorem steps_sep (h : At s l p s1) (hp : PutOk s) (hk : PendOk p) (ts : List LTok) :
    ∃ s2, At s (l ++ pendItems p ++ [.kw1 .dunhao]) none s2 ∧ Steps me kw ups s1 (.kw .dunhao :: ts) s2 ts := by
  obtain ⟨s2, h2, e⟩ := kwMain_rest (id := .dunhao) (me := me) (kw := kw) (ups := ups) h hp hk (by decide) rfl
  obtain ⟨s3, e3, h3⟩ := h2.add hp (.kw1 .dunhao)
  refine ⟨s3, h3, steps_loop ts ?_⟩
  rw [e]
  simp [kwRest, ownKw, addKw, inIf, kwRet0, e3]

/-- The parts of a quoted text. -/
theorem steps_parts (last : Str) (hp : PutOk s) (ts : List LTok) : ∀ (ps : List (Str × Spec.Name)) (l : List Code) (p : Pend) (s1 : PS),
    (∀ p ∈ ps, p.2.Ok [] ∧ p.2.own = []) → At s l p s1 → PendOk p → (∀ b w, p = some (b, w) → b = false) →
    ∃ l' p' s2, At s l' p' s2 ∧ PendOk p' ∧ l' ++ pendItems p' = l ++ pendItems p ++ (Spec.Atom.quote ps last).items ∧
      Steps me kw ups s1 (partsTok 0 (Spec.quoteParts ps) last ++ ts) s2 ts
  | [], l, p, s1, _, h, hk, hw => by
    obtain ⟨l', p', s2, h2, hk2, e2, st⟩ := steps_bytes1 (me := me) (kw := kw) (ups := ups) _ (nl_printable last) h hp hk hw ts
    exact ⟨l', p', s2, h2, hk2, by rw [e2]; rfl, st⟩
  | x :: ps, l, p, s1, hps, h, hk, hw => by
    obtain ⟨l2, p', s2, h2, hk2, e2, st2⟩ := steps_bytes1 (me := me) (kw := kw) (ups := ups) _ (nl_printable x.1) h hp hk hw
      (varTok (Spec.printable x.2.text) [] ++ (partsTok 0 (Spec.quoteParts ps) last ++ ts))
    have hx := hps x (by simp)
    obtain ⟨s3, h3, st3⟩ := steps_var (me := me) (kw := kw) (ups := ups) x.2 [] hx.1 h2 hp hk2 (partsTok 0 (Spec.quoteParts ps) last ++ ts)
    rw [hx.2] at st3
    obtain ⟨l4, p4, s4, h4, hk4, e4, st4⟩ := steps_parts last hp ts ps _ none s3 (fun p hp => hps p (by simp [hp])) h3 trivial nofun
    refine ⟨l4, p4, s4, h4, hk4, ?_, ?_⟩
    · rw [e4, e2]; simp [Spec.Atom.items, List.flatMap_cons, pendItems]
    · have := st2.trans (st3.trans st4)
      rw [show partsTok 0 (Spec.quoteParts (x :: ps)) last ++ ts = bytesT (Spec.printable x.1) ++
        (varTok (Spec.printable x.2.text) [] ++ (partsTok 0 (Spec.quoteParts ps) last ++ ts)) by
          simp [Spec.quoteParts, partsTok, vTok, varTok]]
      exact this

/-- More bytes of a text. -/
theorem steps_more (w t : Str) (ht : t ≠ []) (h : At s l (some (true, w)) s1) (ts : List LTok) :
    ∃ s2, At s l (some (true, w ++ t)) s2 ∧ Steps me kw ups s1 (bytesT t ++ ts) s2 ts := by
  have h0 : (s1.is.needClear true).1 = false := by
    have := h.is.1
    unfold IsText.needClear
    cases s1.is.first <;> simp [this]
  refine ⟨{ s1 with is := (s1.is.needClear true).2, text := s1.text ++ utf8 t }, ⟨h.ret0, h.c1, h.c2, h.c3, ?_, ⟨?_, nofun⟩, h.mi, h.mkw, h.mu⟩, ?_⟩
  · show s1.text ++ utf8 t = utf8 (w ++ t)
    rw [utf8_append]
    exact congrArg (· ++ utf8 t) h.text
  · have := h.is.1
    show (s1.is.needClear true).2.old = true
    unfold IsText.needClear
    cases s1.is.first <;> simp [this]
  · intro r ⟨n, hn⟩
    refine ⟨n + (utf8 t).length, ?_⟩
    show parsT _ me kw ups s1 ((utf8 t).map (LTok.byte · true) ++ ts) = _
    rw [parsT_bytes me kw ups true ts (utf8 t) _ s1 h0 (by rw [ne_eq, utf8_eq_nil]; exact ht), if_pos (by omega),
      show n + (utf8 t).length - (utf8 t).length = n by omega]
    exact hn

/-- A mark in a text. -/
theorem steps_mark (w : Str) (id : KwId) (h : At s l (some (true, w)) s1) (ts : List LTok) :
    ∃ s2, At s l (some (true, w ++ kwStr id)) s2 ∧ Steps me kw ups s1 (.kwText id true :: ts) s2 ts := by
  refine ⟨{ s1 with text := s1.text ++ kwBytes id }, ⟨h.ret0, h.c1, h.c2, h.c3, ?_, ⟨h.is.1, nofun⟩, h.mi, h.mkw, h.mu⟩, ?_⟩
  · show s1.text ++ kwBytes id = utf8 (w ++ kwStr id)
    rw [utf8_append]
    exact congrArg (· ++ kwBytes id) h.text
  · intro r ⟨n, hn⟩
    refine ⟨n + 1, ?_⟩
    rw [parsT]
    have : s1.is.old = true := h.is.1
    simp only [this, Bool.not_true, Bool.and_false, Bool.false_eq_true, if_false, PR.ok_bind]
    exact hn

/-- A mark and characters after it, at the beginning of a text. -/
theorem steps_mark0 (id : KwId) (t : Str) (ht : t ≠ []) (h : At s l none s1) (ts : List LTok) :
    ∃ s2, At s l (some (true, kwStr id ++ t)) s2 ∧ Steps me kw ups s1 (.kwText id true :: (bytesT t ++ ts)) s2 ts := by
  have hx : textOf (.kwText id true :: bytesT t) = some (utf8 (kwStr id ++ t)) := by
    rw [textOf, textOf_bytes]
    simp [tokText, utf8_append, kwBytes]
  have hst : Starts (.kwText id true :: bytesT t) := by
    cases e : utf8 t with
    | nil => exact absurd (utf8_eq_nil.1 e) ht
    | cons c r => exact .inr ⟨id, true, c, _, by rw [bytesT, e, List.map_cons]⟩
  obtain ⟨is', hin, hr⟩ := parsT_start me kw ups ts _ _ s1 hx hst (by rw [h.text]; rfl) h.is
  refine ⟨{ s1 with is := is', text := utf8 (kwStr id ++ t) },
    ⟨h.ret0, h.c1, h.c2, h.c3, rfl, ⟨hin.2.1, nofun⟩, h.mi, h.mkw, h.mu⟩, ?_⟩
  intro r ⟨n, hn⟩
  refine ⟨n + (LTok.kwText id true :: bytesT t).length, ?_⟩
  rw [← List.cons_append, hr _ (by omega),
    show n + (LTok.kwText id true :: bytesT t).length - (LTok.kwText id true :: bytesT t).length = n by omega]
  exact hn

/-- What has been collected of a text. -/
def textPend (acc : Str) : Pend := if acc = [] then none else some (true, acc)

theorem textPend_ne {acc : Str} (h : acc ≠ []) : textPend acc = some (true, acc) := if_neg h
theorem textPend_items (acc : Str) : pendItems (textPend acc) = Spec.textItem acc := by
  unfold textPend Spec.textItem
  by_cases h : acc = [] <;> simp [h, pendItems]
theorem textPend_ok {acc : Str} (h : Spec.NoCont acc) : PendOk (textPend acc) := by
  unfold textPend
  by_cases ha : acc = []
  · simp [ha, PendOk]
  · rw [if_neg ha]; exact ⟨ha, fun _ => h⟩

theorem steps_chars (acc t : Str) (ht : t ≠ []) (h : At s l (textPend acc) s1) (ts : List LTok) :
    ∃ s2, At s l (textPend (acc ++ t)) s2 ∧ Steps me kw ups s1 (bytesT t ++ ts) s2 ts := by
  rw [textPend_ne (acc := acc ++ t) (by simp [ht])]
  by_cases ha : acc = []
  · subst ha
    exact steps_bytes true t ht h ts
  · rw [textPend_ne ha] at h
    exact steps_more acc t ht h ts

/-- A long text. -/
theorem steps_longs (hp : PutOk s) (ts : List LTok) : ∀ (bs : List Spec.LongBit) (a : Spec.LongAt) (acc : Str) (l : List Code) (s1 : PS),
    Spec.LongOk a acc bs → At s l (textPend acc) s1 →
    ∃ l' p' s2, At s l' p' s2 ∧ PendOk p' ∧ l' ++ pendItems p' = l ++ Spec.longItems a acc bs ∧
      Steps me kw ups s1 (longTok a bs ++ ts) s2 ts
  | [], a, acc, l, s1, hok, h => ⟨l, _, s1, h, textPend_ok hok.2, by rw [textPend_items]; rfl, fun _ h => h⟩
  | .chars t :: bs, a, acc, l, s1, hok, h => by
    obtain ⟨s2, h2, st2⟩ := steps_chars (me := me) (kw := kw) (ups := ups) acc (a.kept t) hok.1.2.1 h (longTok a bs ++ ts)
    obtain ⟨l', p', s3, h3, hk3, e3, st3⟩ := steps_longs hp ts bs a _ l s2 hok.2 h2
    refine ⟨l', p', s3, h3, hk3, e3, ?_⟩
    rw [longTok, List.append_assoc]
    exact st2.trans st3
  | .name n :: bs, a, acc, l, s1, hok, h => by
    obtain ⟨s2, h2, st2⟩ := steps_var (me := me) (kw := kw) (ups := ups) n [] hok.1.2.2.1 h hp (textPend_ok hok.1.2.1) (longTok a bs ++ ts)
    rw [hok.1.2.2.2] at st2
    obtain ⟨l', p', s3, h3, hk3, e3, st3⟩ := steps_longs hp ts bs a [] _ s2 hok.2 h2
    refine ⟨l', p', s3, h3, hk3, ?_, ?_⟩
    · rw [e3, textPend_items]; simp [Spec.longItems]
    · rw [longTok, List.append_assoc]
      exact st2.trans st3
  | .mark id :: [], a, acc, l, s1, hok, h => by
    have hacc : acc ≠ [] := fun e => nomatch hok.1.2 e
    rw [textPend_ne hacc] at h
    obtain ⟨s2, h2, st2⟩ := steps_mark (me := me) (kw := kw) (ups := ups) acc id h ts
    exact ⟨l, _, s2, h2, ⟨by simp [hacc], fun _ => hok.2.2⟩, by simp [pendItems, Spec.longItems, Spec.textItem, hacc], st2⟩
  | .mark id :: b :: bs, a, acc, l, s1, hok, h => by
    obtain ⟨a', ha'⟩ := Option.isSome_iff_exists.1 hok.1.1
    have hok2 := hok.2
    rw [ha', Option.getD_some] at hok2
    by_cases hacc : acc = []
    · subst hacc
      have hb := hok.1.2 rfl
      cases b with
      | mark => simp [Spec.LongBit.isChars] at hb
      | name => simp [Spec.LongBit.isChars] at hb
      | chars t =>
        obtain ⟨s2, h2, st2⟩ := steps_mark0 (me := me) (kw := kw) (ups := ups) id (a'.kept t) hok2.1.2.1 h (longTok a' bs ++ ts)
        rw [← textPend_ne fun e => hok2.1.2.1 (List.append_eq_nil_iff.1 e).2] at h2
        obtain ⟨l', p', s3, h3, hk3, e3, st3⟩ := steps_longs hp ts bs a' _ l s2 hok2.2 h2
        refine ⟨l', p', s3, h3, hk3, ?_, ?_⟩
        · rw [e3]; simp [Spec.longItems, ha']
        · have := st2.trans st3
          simpa [longTok, ha'] using this
    · rw [textPend_ne hacc] at h
      obtain ⟨s2, h2, st2⟩ := steps_mark (me := me) (kw := kw) (ups := ups) acc id h (longTok a' (b :: bs) ++ ts)
      rw [← textPend_ne (by simp [hacc])] at h2
      obtain ⟨l', p', s3, h3, hk3, e3, st3⟩ := steps_longs hp ts (b :: bs) a' _ l s2 hok2 h2
      refine ⟨l', p', s3, h3, hk3, ?_, ?_⟩
      · rw [e3, Spec.longItems, ha']; rfl
      · have := st2.trans st3
        rw [longTok, ha']
        exact this

theorem steps_kept (ps : List Spec.CodePiece) (ha : (Spec.Atom.kept ps).Ok) (h : At s l none s1) (ts : List LTok) :
    ∃ s2, At s l (some (true, Spec.piecesSrc (Spec.piecesKept ps))) s2 ∧ Spec.piecesSrc (Spec.piecesKept ps) ≠ [] ∧
      Steps me kw ups s1 (piecesTok 1 ps ++ ts) s2 ts := by
  have hx : textOf (piecesTok 1 ps) = _ := textOf_pieces ps 0 ha.1
  have hst : Starts (piecesTok 1 ps) := starts_pieces ps 0 ha.2.1
  obtain ⟨is', hin, hr⟩ := parsT_start me kw ups ts _ _ s1 hx hst (by rw [h.text]; rfl) h.is
  refine ⟨{ s1 with is := is', text := utf8 (Spec.piecesSrc (Spec.piecesKept ps)) },
    ⟨h.ret0, h.c1, h.c2, h.c3, rfl, ⟨hin.2.1, nofun⟩, h.mi, h.mkw, h.mu⟩, ?_, ?_⟩
  · intro e
    rw [e] at hx
    rcases hst with ⟨c, r, e2⟩ | ⟨id, b, c, r, e2⟩ <;> rw [e2] at hx
    · cases e3 : textOf r <;> simp [textOf, tokText, e3] at hx
    · cases e3 : textOf r <;> simp [textOf, tokText, e3] at hx
  · intro r ⟨n, hn⟩
    refine ⟨n + (piecesTok 1 ps).length, ?_⟩
    rw [hr _ (by omega), show n + (piecesTok 1 ps).length - (piecesTok 1 ps).length = n by omega]
    exact hn

theorem steps_atom (a : Spec.Atom) (ha : a.Ok) (h : At s l p s1) (hp : PutOk s)
    (hk : PendOk p) (ht : a.isText = true → p = none ∨ a.isQuote = true ∧ ∀ b w, p = some (b, w) → b = false) (ts : List LTok) :
    ∃ l' p' s2, At s l' p' s2 ∧ PendOk p' ∧ l' ++ pendItems p' = l ++ pendItems p ++ a.items ∧
      (a.isText = false → p' = none) ∧ (a.isWord = true → ∀ b w, p' = some (b, w) → b = false) ∧ Steps me kw ups s1 (atomTok a ++ ts) s2 ts := by
  cases a with
  | quote ps last =>
    have hw : ∀ b w, p = some (b, w) → b = false := by
      rcases ht rfl with rfl | h
      · nofun
      · exact h.2
    obtain ⟨l', p', s2, h2, hk2, e2, st⟩ := steps_parts (me := me) (kw := kw) (ups := ups) last hp ts ps l p s1 (fun x hx => (ha.1 x hx).2) h hk hw
    exact ⟨l', p', s2, h2, hk2, e2, nofun, nofun, st⟩
  | long bs =>
    obtain rfl : p = none := (ht rfl).resolve_right fun h => nomatch h.1
    obtain ⟨l', p', s2, h2, hk2, e2, st⟩ := steps_longs (me := me) (kw := kw) (ups := ups) hp ts bs _ _ l s1 ha h
    exact ⟨l', p', s2, h2, hk2, by rw [e2]; simp [pendItems, Spec.Atom.items], nofun, nofun, st⟩
  | verb t =>
    obtain rfl : p = none := (ht rfl).resolve_right fun h => nomatch h.1
    obtain ⟨s2, h2, e2⟩ := steps_bytes (me := me) (kw := kw) (ups := ups) true t ha.2.1 h ts
    exact ⟨l, _, s2, h2, ⟨ha.2.1, fun _ => ha.2.2⟩, by simp [pendItems, Spec.Atom.items], nofun, nofun, e2⟩
  | kept ps =>
    obtain rfl : p = none := (ht rfl).resolve_right fun h => nomatch h.1
    obtain ⟨s2, h2, hne, e2⟩ := steps_kept (me := me) (kw := kw) (ups := ups) ps ha h ts
    exact ⟨l, _, s2, h2, ⟨hne, fun _ => ha.2.2⟩, by simp [pendItems, Spec.Atom.items], nofun, nofun, e2⟩
  | word t =>
    obtain rfl : p = none := (ht rfl).resolve_right fun h => nomatch h.1
    obtain ⟨s2, h2, e2⟩ := steps_bytes (me := me) (kw := kw) (ups := ups) false (Spec.strip t) ha.2 h ts
    exact ⟨l, _, s2, h2, ⟨ha.2, nofun⟩, by simp [pendItems, Spec.Atom.items], nofun, fun _ _ _ h => by cases h; rfl, e2⟩
  | var n ns =>
    obtain ⟨s2, h2, e2⟩ := steps_var (me := me) (kw := kw) (ups := ups) n ns ha.1 h hp hk ts
    exact ⟨_, none, s2, h2, trivial, by simp [pendItems, Spec.Atom.items], fun _ => rfl, nofun, e2⟩
  | note t =>
    obtain ⟨s2, h2, e2⟩ := steps_note (me := me) (kw := kw) (ups := ups) _ (nl_strip t) h hp hk ts
    exact ⟨_, none, s2, h2, trivial, by simp [pendItems, Spec.Atom.items], fun _ => rfl, nofun, e2⟩
  | sep =>
    obtain ⟨s2, h2, e2⟩ := steps_sep (me := me) (kw := kw) (ups := ups) h hp hk ts
    exact ⟨_, none, s2, h2, trivial, by simp [pendItems, Spec.Atom.items], fun _ => rfl, nofun, e2⟩

end

end Zh
