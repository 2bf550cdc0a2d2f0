import Verif.Props.GrammarMake
/-!
# C60: the structure of a program
-/
namespace Zh

/-! ## What ends a sentence -/

/-- The layer a keyword goes to. -/
def scanTo (id : KwId) (ls : List Layer) (ret : Int) : Int :=
  match id with
  | .jvhao => (jvhaoScan 0 ls ret).1
  | .endBlock => endBlockScan ls false ret
  | .equ => equScan ls ret
  | _ => if inIf id then ifScan ls (-1) ret else if2Scan ls ret

def closer (id : KwId) : Bool := layerKw id && decide (id ≠ .beginBlock)

theorem jvhaoScan_self (a b : Int) : ∀ (ls : List Layer) (ret : Int), (jvhaoScan a ls ret).1 = (jvhaoScan b ls ret).1
  | [], _ => rfl
  | ⟨i, k, r⟩ :: ls, ret => by
    cases k with
    | none => exact jvhaoScan_self a b ls ret
    | some k =>
      by_cases hk : k = .beginBlock
      · subst hk; rfl
      · have : ∀ x, jvhaoScan x (⟨i, some k, r⟩ :: ls) ret = jvhaoScan x ls (i - 1) := by
          intro x; cases k <;> first | exact absurd rfl hk | rfl
        rw [this, this]; exact jvhaoScan_self a b ls _

theorem jvhaoScan_must (a : Int) : ∀ (ls : List Layer) (ret : Int), (jvhaoScan a ls ret).2 = true → (jvhaoScan a ls ret).1 < a
  | [], _, h => nomatch h
  | ⟨i, k, r⟩ :: ls, ret, h => by
    cases k with
    | none => exact jvhaoScan_must a ls ret h
    | some k =>
      by_cases hk : k = .beginBlock
      · subst hk; simpa [jvhaoScan] using h
      · have : ∀ x, jvhaoScan x (⟨i, some k, r⟩ :: ls) ret = jvhaoScan x ls (i - 1) := by
          intro x; cases k <;> first | exact absurd rfl hk | rfl
        rw [this] at h ⊢; exact jvhaoScan_must a ls _ h

theorem layerScan_closer {id : KwId} (h : closer id = true) (me : Int) (ls : List Layer) :
    ∃ b, layerScan me ls id = (scanTo id ls me, b, 0) ∧ (b = true → scanTo id ls me < me) := by
  by_cases hj : id = .jvhao
  · subst hj
    refine ⟨(jvhaoScan me ls me).2, ?_, ?_⟩
    · show ((jvhaoScan me ls me).1, _, _) = _
      rw [show scanTo .jvhao ls me = (jvhaoScan 0 ls me).1 from rfl, jvhaoScan_self me 0]
    · rw [show scanTo .jvhao ls me = (jvhaoScan 0 ls me).1 from rfl, jvhaoScan_self 0 me]
      exact jvhaoScan_must me ls me
  · refine ⟨false, ?_, nofun⟩
    revert h
    cases id <;> first | (intro h; exact absurd h (by decide)) | exact absurd rfl hj | (intro _; rfl)

/-- The keyword `id` in this layer goes to level `m`. -/
structure CloseOk (id : KwId) (m me : Int) (kw : Option KwId) (r : Nat) (ups : List Layer) : Prop where
  closer : closer id = true
  low : 0 ≤ m
  high : m ≤ me
  block : id = .endBlock → m < me
  to : ∀ ret, (id = .jvhao → ret = me) → scanTo id (⟨me, kw, r⟩ :: ups) ret = m

theorem CloseOk.deeper {id : KwId} {m me : Int} {kw : Option KwId} {r r' : Nat} {ups : List Layer} {k : KwId}
    (h : CloseOk id m me kw r ups) (h1 : k ≠ .beginBlock) (h2 : id = .equ → inSet k = false)
    (h3 : inIf id = true → k = .if_ → r' ≠ 1) (h4 : inIf2 id = true → k ≠ .if_) :
    CloseOk id m (me + 1) (some k) r' (⟨me, kw, r⟩ :: ups) := by
  refine ⟨h.closer, h.low, by have := h.high; omega, fun he => by have := h.block he; omega, fun ret hret => ?_⟩
  have hto := h.to
  by_cases hj : id = .jvhao
  · subst hj
    have e : scanTo .jvhao (⟨me + 1, some k, r'⟩ :: ⟨me, kw, r⟩ :: ups) ret = scanTo .jvhao (⟨me, kw, r⟩ :: ups) me := by
      have : me + 1 - 1 = me := by omega
      cases k <;> first | exact absurd rfl h1 | (simp only [scanTo, jvhaoScan, this])
    rw [e]; exact hto me fun _ => rfl
  · by_cases he : id = .endBlock
    · subst he
      have e : scanTo .endBlock (⟨me + 1, some k, r'⟩ :: ⟨me, kw, r⟩ :: ups) ret = scanTo .endBlock (⟨me, kw, r⟩ :: ups) ret := by
        simp only [scanTo]
        rw [endBlockScan]
        simp [h1]
      rw [e]; exact hto ret fun h => absurd h (by decide)
    · by_cases hq : id = .equ
      · subst hq
        have e : scanTo .equ (⟨me + 1, some k, r'⟩ :: ⟨me, kw, r⟩ :: ups) ret = scanTo .equ (⟨me, kw, r⟩ :: ups) ret := by
          simp only [scanTo]
          rw [equScan]
          simp [h2 rfl]
        rw [e]; exact hto ret fun h => absurd h (by decide)
      · have hc := h.closer
        cases hi : inIf id with
        | true =>
          have e : ∀ ls ret, scanTo id ls ret = ifScan ls (-1) ret := by
            intro ls ret
            revert hi
            cases id <;> first | (intro h; exact absurd h (by decide)) | (intro _; rfl)
          have e2 : ifScan (⟨me + 1, some k, r'⟩ :: ⟨me, kw, r⟩ :: ups) (-1) ret = ifScan (⟨me, kw, r⟩ :: ups) (-1) ret := by
            by_cases hk : k = .if_
            · subst hk
              rw [ifScan]
              simp [h3 hi rfl]
            · cases k <;> first | exact absurd rfl h1 | exact absurd rfl hk | rfl
          rw [e, e2, ← e]; exact hto ret fun h => absurd h hj
        | false =>
          have hi2 : inIf2 id = true := by
            revert hc hi
            cases id <;> first | (intro h; exact absurd h (by decide)) | exact absurd rfl hj | exact absurd rfl he | exact absurd rfl hq | (intro _ _; rfl) | (intro _ h; exact absurd h (by decide))
          have e : ∀ ls ret, scanTo id ls ret = if2Scan ls ret := by
            intro ls ret
            revert hi2
            cases id <;> first | (intro h; exact absurd h (by decide)) | (intro _; rfl)
          have e2 : if2Scan (⟨me + 1, some k, r'⟩ :: ⟨me, kw, r⟩ :: ups) ret = if2Scan (⟨me, kw, r⟩ :: ups) ret := by
            have hk := h4 hi2
            cases k <;> first | exact absurd rfl hk | rfl
          rw [e, e2, ← e]; exact hto ret fun h => absurd h hj

/-- Items made of the keyword itself. -/
def ownItems (id : KwId) : List Code := if id = .jvhao then [.kw1 .jvhao] else if inIf id then [.kw2 id] else []

/-- How a sentence ends: with the source, or with a keyword that goes to a level. -/
abbrev Closer := Option (KwId × Int)

def tailTok (cl : Closer) (ts : List LTok) : List LTok :=
  match cl with
  | none => []
  | some (id, _) => .kw id :: ts

def Closes (cl : Closer) (me : Int) (kw : Option KwId) (ups : List Layer) (s : PS) (L : List Code) (s1 : PS) (tok ts : List LTok) : Prop :=
  match cl with
  | none => ∃ s2, At s L none s2 ∧ Reads me kw ups s1 tok (s2, [])
  | some (id, m) => (m = me → ∃ s2, At s (L ++ ownItems id) none s2 ∧ Steps me kw ups s1 tok (kwRet0 id s2) ts) ∧
      (m < me → ∃ s2, AtM s L none m (some id) s2 ∧ Reads me kw ups s1 tok (s2, ts))

section
variable {me : Int} {kw : Option KwId} {ups : List Layer} {s s0 s1 s2 : PS} {l L : List Code} {p : Pend} {id : KwId} {cl : Closer}
  {tok tok0 ts : List LTok}

theorem Closes.pre (h : Closes cl me kw ups s L s1 tok ts) (hs : Steps me kw ups s0 tok0 s1 tok) : Closes cl me kw ups s L s0 tok0 ts := by
  cases cl with
  | none =>
    obtain ⟨s2, h1, h2⟩ := h
    exact ⟨s2, h1, hs _ h2⟩
  | some x =>
    obtain ⟨id, m⟩ := x
    refine ⟨fun hm => ?_, fun hm => ?_⟩
    · obtain ⟨s2, h1, h2⟩ := h.1 hm
      exact ⟨s2, h1, hs.trans h2⟩
    · obtain ⟨s2, h1, h2⟩ := h.2 hm
      exact ⟨s2, h1, hs _ h2⟩

theorem closer_ne (h : closer id = true) : id ≠ .maohao ∧ layerKw id = true := by
  revert h
  cases id <;> first | (intro h; exact absurd h (by decide)) | (intro _; exact ⟨by decide, rfl⟩)

/-- The end of a sentence right after the pieces. -/
theorem ends_here (ts : List LTok) (hcl : ∀ id m, cl = some (id, m) → CloseOk id m me kw s.ret0 ups) (hp : PutOk s) (h : At s l p s1) (hk : PendOk p) :
    Closes cl me kw ups s (l ++ pendItems p) s1 (tailTok cl ts) ts := by
  cases cl with
  | none =>
    obtain ⟨s2, e, h2⟩ := h.flush hp hk
    exact ⟨s2, h2, .nil e⟩
  | some x =>
    obtain ⟨id, m⟩ := x
    have hc := hcl id m rfl
    obtain ⟨h1, h2⟩ := closer_ne hc.closer
    obtain ⟨b, e, hb⟩ := layerScan_closer hc.closer me (⟨me, kw, s.ret0⟩ :: ups)
    rw [hc.to me fun _ => rfl] at e hb
    refine ⟨fun hm => ?_, fun hm => ?_⟩
    · subst hm
      have hb0 : b = false := by
        cases b with
        | false => rfl
        | true => have := hb rfl; omega
      rw [hb0] at e
      obtain ⟨s2, h3, e2⟩ := kwMain_stay h hp hk h1 h2 e (by omega)
      have hcc := hc.closer
      by_cases ho : ownKw id = true
      · have hk0 : kwRet0 id = fun s => s := by
          revert ho hcc
          cases id <;> first | (intro _ h; exact absurd h (by decide)) | (intro h _; exact absurd h (by decide)) | (intro _ _; rfl)
        obtain ⟨c, hc2, ha⟩ : ∃ c, ownItems id = [c] ∧ ∀ s, addKw id s = addCode c s := by
          revert ho hcc
          cases id <;> first | (intro _ h; exact absurd h (by decide)) | (intro h _; exact absurd h (by decide)) | (intro _ _; exact ⟨_, rfl, fun _ => rfl⟩)
        obtain ⟨s3, e3, h4⟩ := h3.add hp c
        refine ⟨s3, by rw [hc2]; exact h4, ?_⟩
        rw [hk0]
        refine steps_loop ts ?_
        rw [e2]
        simp [kwRest, ho, hk0, ha, e3]
      · have hi : ownItems id = [] := by
          revert ho hcc
          cases id <;> first | (intro _ h; exact absurd rfl h) | (intro h _; exact absurd h (by decide)) | (intro _ _; rfl)
        refine ⟨s2, by rw [hi, List.append_nil]; exact h3, ?_⟩
        refine steps_loop ts ?_
        rw [e2]
        simp only [kwRest, ho]
        have hne : id ≠ .endBlock := by
          rintro rfl
          have := hc.block rfl
          omega
        revert ho hcc
        cases id <;> first | (intro _ h; exact absurd rfl h) | (intro h _; exact absurd h (by decide)) | exact absurd rfl hne | (intro _ _; rfl)
    · exact reads_leave h hp hk h1 h2 e hm ts

/-- The end of a sentence after a statement. -/
theorem ends_child {kid : KwId} {c : Code} {sc : PS} {L' : List Code} (h0 : 0 ≤ me)
    (hcl : ∀ id m, cl = some (id, m) → CloseOk id m me kw s.ret0 ups ∧ id ≠ .equ)
    (hp : PutOk s) (h2 : At s L none s2) (e2 : kwMain me kw ups kid s1 = .ok (.child s2))
    (hE : Closes cl (me + 1) (some kid) (⟨me, kw, s2.ret0⟩ :: ups) sc L' (childState kid s2) tok ts)
    (hmk : ∀ mi mkw ch, AtM sc L' none mi mkw ch → mkCode kid ch.c1 (ch.c2.getD []) (ch.c3.getD []) = some (.ok c)) :
    Closes cl me kw ups s (L ++ [c]) s1 (.kw kid :: tok) ts := by
  cases cl with
  | none =>
    obtain ⟨ch, h3, hr⟩ := hE
    obtain ⟨s4, h4, e4⟩ := after_stay (me := me) h2 hp (hmk _ _ _ h3) h3.is h3.mu (by rw [h3.mi]; omega) (.inl h3.mkw)
    obtain ⟨s5, e5, h5⟩ := h4.flush hp (p := none) trivial
    rw [show pendItems none = [] from rfl, List.append_nil] at h5
    exact ⟨s5, h5, Reads.child e2 hr e4 h3.mu (.nil e5)⟩
  | some x =>
    obtain ⟨id, m⟩ := x
    obtain ⟨hc, hne⟩ := hcl id m rfl
    obtain ⟨ch, h3, hr⟩ := hE.2 (by have := hc.high; omega)
    refine ⟨fun hm => ?_, fun hm => ?_⟩
    · subst hm
      obtain ⟨s3, h4, e⟩ := after_code (c := c) h2 hp h3.is h3.mu
      have hmi : ¬ (ch.mi ≥ 0 ∧ m > ch.mi) := by rw [h3.mi]; omega
      have hcc := hc.closer
      have hnb : id ≠ .endBlock := by
        rintro rfl
        have := hc.block rfl
        omega
      by_cases ho : ownKw id = true
      · have hk0 : kwRet0 id = fun s => s := by
          revert ho hcc
          cases id <;> first | (intro _ h; exact absurd h (by decide)) | (intro h _; exact absurd h (by decide)) | (intro _ _; rfl)
        obtain ⟨d, hd, ha⟩ : ∃ d, ownItems id = [d] ∧ ∀ s, addKw id s = addCode d s := by
          revert ho hcc
          cases id <;> first | (intro _ h; exact absurd h (by decide)) | (intro h _; exact absurd h (by decide)) | (intro _ _; exact ⟨_, rfl, fun _ => rfl⟩)
        have hji : id = .jvhao ∨ inIf id = true := by
          revert ho hcc
          cases id <;> first | (intro _ h; exact absurd h (by decide)) | (intro h _; exact absurd h (by decide)) | (intro _ _; simp [inIf])
        obtain ⟨s4, e4, h5⟩ := h4.add hp d
        refine ⟨s4.reset, by rw [hd]; exact h5.reset, ?_⟩
        rw [hk0]
        refine fun r hr' => Reads.child e2 hr ?_ h3.mu hr'
        simp only [afterChild, hmk _ _ _ h3, e, PR.ok_bind, h4.mu, h4.mi, hmi, if_false, h4.mkw]
        simp only [h3.mkw]
        simp [hji, ha, e4]
      · have hi : ownItems id = [] := by
          revert ho hcc
          cases id <;> first | (intro _ h; exact absurd rfl h) | (intro h _; exact absurd h (by decide)) | (intro _ _; rfl)
        refine ⟨s3.reset, by rw [hi, List.append_nil]; exact h4.reset, ?_⟩
        refine fun r hr' => Reads.child e2 hr ?_ h3.mu hr'
        simp only [afterChild, hmk _ _ _ h3, e, PR.ok_bind, h4.mu, h4.mi, hmi, if_false, h4.mkw]
        simp only [h3.mkw]
        revert ho hcc
        cases id <;> first | (intro _ h; exact absurd rfl h) | (intro h _; exact absurd h (by decide)) | exact absurd rfl hnb | exact absurd rfl hne | (intro _ _; rfl)
    · obtain ⟨s5, s6, h6, e5, e6⟩ := after_leave (me := me) h2 hp (hmk _ _ _ h3) h3.is h3.mu (by rw [h3.mi]; have := hc.low; omega)
      rw [h3.mi, h3.mkw] at h6
      exact ⟨s6, h6, Reads.childEnd e2 hr e5 e6⟩

end

/-! ## Layers -/

/-- `先` here begins a block. -/
def NoSwitch (me : Int) (kw : Option KwId) (r : Nat) (ups : List Layer) : Prop := ∀ b, beginBlockScan (⟨me, kw, r⟩ :: ups) b = false

/-- A layer that does not end with a block in it. -/
def plainLayer (kw : Option KwId) (r : Nat) : Bool :=
  match kw with
  | some .switch | some .switch2 | some .for_ | some .range => false
  | some .if_ => decide (r ≠ 3)
  | _ => true

theorem NoSwitch.deeper {me me' : Int} {kw : Option KwId} {r r' : Nat} {ups : List Layer} {k : KwId} (h : NoSwitch me kw r ups)
    (hk : k ≠ .switch ∧ k ≠ .switch2) : NoSwitch me' (some k) r' (⟨me, kw, r⟩ :: ups) := by
  intro b
  by_cases hb : k = .beginBlock
  · subst hb; rfl
  · have : beginBlockScan (⟨me', some k, r'⟩ :: ⟨me, kw, r⟩ :: ups) b = beginBlockScan (⟨me, kw, r⟩ :: ups) true := by
      cases k <;> first | exact absurd rfl hb | exact absurd rfl hk.1 | exact absurd rfl hk.2 | rfl
    rw [this]; exact h true

theorem endBlock_plain {me : Int} {kw : Option KwId} {r0 : Nat} {ups : List Layer} (h : plainLayer kw r0 = true) (r : Nat) (ret : Int) :
    endBlockScan (⟨me + 1, some .beginBlock, r⟩ :: ⟨me, kw, r0⟩ :: ups) false ret = me := by
  have e : me + 1 - 1 = me := by omega
  cases kw with
  | none => simp [endBlockScan, e]
  | some k =>
    by_cases hk : k = .if_
    · subst hk
      have : r0 ≠ 3 := of_decide_eq_true h
      simp [endBlockScan, e, this]
    · cases k <;> first | exact absurd h Bool.false_ne_true | exact absurd rfl hk | simp [endBlockScan, e]

theorem endBlock_last {me : Int} {k : KwId} {r0 : Nat} {ups : List Layer} (h : plainLayer (some k) r0 = false) (r : Nat) (ret : Int) :
    endBlockScan (⟨me + 1 + 1, some .beginBlock, r⟩ :: ⟨me + 1, some k, r0⟩ :: ups) false ret = me := by
  have e : me + 1 - 1 = me := by omega
  by_cases hk : k = .if_
  · subst hk
    have : r0 = 3 := by simpa [plainLayer] using h
    simp [endBlockScan, e, this]
  · cases k <;> first | exact absurd rfl hk | (simp [endBlockScan, e]; done) | exact absurd (show true = false from h) (by decide)

/-- The layers in which sentences are written: the script itself or a block. -/
def Base (me : Int) (kw : Option KwId) (ups : List Layer) : Prop :=
  0 ≤ me ∧ ((me = 0 ∧ kw = none ∧ ups = []) ∨ kw = some .beginBlock)

theorem Base.stop {me : Int} {kw : Option KwId} {ups : List Layer} (h : Base me kw ups) (r : Nat) : CloseOk .jvhao me me kw r ups := by
  refine ⟨rfl, h.1, Int.le_refl _, nofun, fun ret hr => ?_⟩
  rcases h.2 with ⟨rfl, rfl, rfl⟩ | rfl
  · rw [hr rfl]; rfl
  · rfl

theorem Base.noSwitch {me : Int} {kw : Option KwId} {ups : List Layer} (h : Base me kw ups) (r : Nat) : NoSwitch me kw r ups := by
  intro b
  rcases h.2 with ⟨rfl, rfl, rfl⟩ | rfl <;> rfl

theorem Base.plain {me : Int} {kw : Option KwId} {ups : List Layer} (h : Base me kw ups) (r : Nat) : plainLayer kw r = true := by
  rcases h.2 with ⟨_, rfl, _⟩ | rfl <;> rfl

/-! ## What is to be shown -/

/-- The keyword that ends the phrase is not taken by something open in it. -/
def Fits (id : KwId) (p : Spec.Phrase) : Prop := (id = .equ → p.closed = true) ∧ (inIf2 id = true → p.noIf = true)

def Spec.Frag.isQuote : Spec.Frag → Bool
  | .kw _ => false
  | .atom a => a.isQuote

/-- After a text comes no text, except a quoted one after a word. -/
def Adj (p : Pend) (us : List Spec.Frag) : Prop :=
  p ≠ none → ∀ u ∈ us.head?, u.isText = false ∨ u.isQuote = true ∧ ∀ b w, p = some (b, w) → b = false

def ElS (e : Spec.El) : Prop :=
  ∀ (me : Int) (kw : Option KwId) (ups : List Layer) (us : List Spec.Frag) (ts : List LTok) (s : PS) (l : List Code) (p : Pend) (s1 : PS),
    0 ≤ me → e.Ok → NoSwitch me kw s.ret0 ups → (plainLayer kw s.ret0 = true ∨ e.isBlock = false) →
    Spec.Clear (e.units ++ us) → Adj p (e.units ++ us) → PutOk s → At s l p s1 → PendOk p →
    Spec.Clear us ∧ ∃ l' p' s2, At s l' p' s2 ∧ PendOk p' ∧ l' ++ pendItems p' = l ++ pendItems p ++ e.code ∧ Adj p' us ∧
      Steps me kw ups s1 (unitsTok e.units ++ ts) s2 ts

def PhraseS (q : Spec.Phrase) : Prop :=
  ∀ (me : Int) (kw : Option KwId) (ups : List Layer) (us : List Spec.Frag) (ts : List LTok) (s : PS) (l : List Code) (p : Pend) (s1 : PS),
    0 ≤ me → q.Ok → q.closed = true → NoSwitch me kw s.ret0 ups → (plainLayer kw s.ret0 = true ∨ q.noBlock = true) →
    Spec.Clear (q.units ++ us) → Adj p (q.units ++ us) → PutOk s → At s l p s1 → PendOk p →
    Spec.Clear us ∧ ∃ l' p' s2, At s l' p' s2 ∧ PendOk p' ∧ l' ++ pendItems p' = l ++ pendItems p ++ q.code ∧ Adj p' us ∧
      Steps me kw ups s1 (unitsTok q.units ++ ts) s2 ts

def PhraseR (q : Spec.Phrase) : Prop :=
  ∀ (cl : Closer) (me : Int) (kw : Option KwId) (ups : List Layer) (us : List Spec.Frag) (ts : List LTok) (s : PS) (l : List Code) (p : Pend)
    (s1 : PS), 0 ≤ me → q.Ok → (∀ id m, cl = some (id, m) → CloseOk id m me kw s.ret0 ups ∧ Fits id q) →
    NoSwitch me kw s.ret0 ups → (plainLayer kw s.ret0 = true ∨ q.noBlock = true) →
    Spec.Clear (q.units ++ us) → Adj p (q.units ++ us) → PutOk s → At s l p s1 → PendOk p →
    Spec.Clear us ∧ Closes cl me kw ups s (l ++ pendItems p ++ q.code) s1 (unitsTok q.units ++ tailTok cl ts) ts

def CondR (c : Spec.Condition) : Prop :=
  ∀ (me : Int) (ups : List Layer) (us : List Spec.Frag) (ts : List LTok) (s : PS) (l : List Code) (s1 : PS),
    0 ≤ me → c.Ok → s.ret0 = 1 → NoSwitch me (some .if_) s.ret0 ups → Spec.Clear (c.units ++ us) → PutOk s → At s l none s1 →
    Spec.Clear us ∧ ∃ s2, At s (l ++ c.code) none s2 ∧
      Steps me (some .if_) ups s1 (unitsTok c.units ++ .kw .then_ :: ts) (kwRet0 .then_ s2) ts

def ScriptR (q : Spec.Script) : Prop :=
  ∀ (cl : Closer) (me : Int) (kw : Option KwId) (ups : List Layer) (us : List Spec.Frag) (ts : List LTok) (s : PS) (l : List Code) (s1 : PS),
    Base me kw ups → q.Ok → (∀ id m, cl = some (id, m) → CloseOk id m me kw s.ret0 ups ∧ id = .endBlock) →
    Spec.Clear (q.units ++ us) → PutOk s → At s l none s1 →
    Spec.Clear us ∧ Closes cl me kw ups s (l ++ q.code) s1 (unitsTok q.units ++ tailTok cl ts) ts

/-! ## Cases -/

theorem unitsTok_append (a b : List Spec.Frag) : unitsTok (a ++ b) = unitsTok a ++ unitsTok b := by simp [unitsTok]
theorem unitsTok_kw (id : KwId) (b : List Spec.Frag) : unitsTok (.kw id :: b) = .kw id :: unitsTok b := rfl
theorem unitsTok_nil : unitsTok [] = [] := rfl

theorem Clear.tail {u : Spec.Frag} {us : List Spec.Frag} (h : Spec.Clear (u :: us)) : Spec.Clear us := h.2.2

theorem Adj.none {us : List Spec.Frag} : Adj none us := fun h => absurd rfl h

theorem atom_step (a : Spec.Atom) (me : Int) (kw : Option KwId) (ups : List Layer) (us : List Spec.Frag) (ts : List LTok) (s : PS) (l : List Code)
    (p : Pend) (s1 : PS) (hcl : Spec.Clear (.atom a :: us)) (hadj : Adj p (.atom a :: us)) (hp : PutOk s) (h : At s l p s1) (hk : PendOk p) :
    Spec.Clear us ∧ ∃ l' p' s2, At s l' p' s2 ∧ PendOk p' ∧ l' ++ pendItems p' = l ++ pendItems p ++ a.items ∧ Adj p' us ∧
      Steps me kw ups s1 (unitsTok [.atom a] ++ ts) s2 ts := by
  have hcl' : (∀ b, Spec.Frag.atom a = .atom b → b.Ok) ∧ (∀ v ∈ us.head?, (Spec.Frag.atom a).before v = true) ∧ Spec.Clear us := hcl
  obtain ⟨l', p', s2, h2, hk2, e2, hn, hw, st⟩ := steps_atom (me := me) (kw := kw) (ups := ups) a (hcl'.1 a rfl) h hp hk (fun ht => by
    cases p with
    | none => exact .inl rfl
    | some q =>
      rcases hadj nofun (.atom a) (by simp) with this | this
      · simp only [Spec.Frag.isText] at this
        rw [ht] at this
        exact nomatch this
      · exact .inr this) ts
  refine ⟨hcl'.2.2, l', p', s2, h2, hk2, e2, ?_, by simpa [unitsTok, unitTok] using st⟩
  intro hne u hu
  have ht : a.isText = true := by
    cases e : a.isText with
    | true => rfl
    | false => exact absurd (hn e) hne
  have := hcl'.2.1 u hu
  cases u with
  | kw => exact .inl rfl
  | atom b =>
    simp only [Spec.Frag.before, ht, Bool.true_and, Bool.or_eq_true, Bool.not_eq_true', Bool.and_eq_true] at this
    rcases this with this | this
    · exact .inl this
    · exact .inr ⟨this.2, hw this.1⟩

theorem el_atom (a : Spec.Atom) : ElS (.atom a) := by
  intro me kw ups us ts s l p s1 _ _ _ _ hcl hadj hp h hk
  simp only [Spec.El.units, Spec.El.code] at *
  exact atom_step a me kw ups us ts s l p s1 hcl hadj hp h hk

theorem phraseS_nil : PhraseS .nil := by
  intro me kw ups us ts s l p s1 h0 hok hc hns hpl hcl hadj hp h hk
  simp only [Spec.Phrase.units, Spec.Phrase.code, List.append_nil, List.nil_append, unitsTok_nil] at *
  exact ⟨hcl, l, p, s1, h, hk, rfl, hadj, fun _ h => h⟩

theorem phraseS_el (e : Spec.El) (q : Spec.Phrase) (he : ElS e) (hq : PhraseS q) : PhraseS (.el e q) := by
  intro me kw ups us ts s l p s1 h0 hok hc hns hpl hcl hadj hp h hk
  simp only [Spec.Phrase.units, Spec.Phrase.code, Spec.Phrase.Ok, Spec.Phrase.closed, Spec.Phrase.noBlock, List.append_assoc, Bool.and_eq_true, Bool.not_eq_true'] at *
  obtain ⟨hcl2, l2, p2, s2, h2, hk2, e2, ha2, st2⟩ := he me kw ups (q.units ++ us) (unitsTok q.units ++ ts) s l p s1 h0 hok.1 hns
    (hpl.imp id (·.1)) hcl hadj hp h hk
  obtain ⟨hcl3, l3, p3, s3, h3, hk3, e3, ha3, st3⟩ := hq me kw ups us ts s l2 p2 s2 h0 hok.2 hc hns (hpl.imp id (·.2)) hcl2 ha2 hp h2 hk2
  refine ⟨hcl3, l3, p3, s3, h3, hk3, ?_, ha3, ?_⟩
  · rw [e3, e2]; simp
  · rw [unitsTok_append, List.append_assoc]; exact st2.trans st3

theorem phraseR_el (e : Spec.El) (q : Spec.Phrase) (he : ElS e) (hq : PhraseR q) : PhraseR (.el e q) := by
  intro cl me kw ups us ts s l p s1 h0 hok hc hns hpl hcl hadj hp h hk
  simp only [Spec.Phrase.units, Spec.Phrase.code, Spec.Phrase.Ok, Spec.Phrase.noBlock, List.append_assoc, Bool.and_eq_true, Bool.not_eq_true'] at *
  obtain ⟨hcl2, l2, p2, s2, h2, hk2, e2, ha2, st2⟩ := he me kw ups (q.units ++ us) (unitsTok q.units ++ tailTok cl ts) s l p s1 h0 hok.1 hns
    (hpl.imp id (·.1)) hcl hadj hp h hk
  obtain ⟨hcl3, hE⟩ := hq cl me kw ups us ts s l2 p2 s2 h0 hok.2 (fun id m hid => ⟨(hc id m hid).1, by
    have := (hc id m hid).2
    simpa [Fits, Spec.Phrase.closed, Spec.Phrase.noIf] using this⟩) hns (hpl.imp id (·.2)) hcl2 ha2 hp h2 hk2
  refine ⟨hcl3, ?_⟩
  rw [e2] at hE
  rw [unitsTok_append, List.append_assoc]
  simpa using hE.pre st2

theorem phraseR_nil : PhraseR .nil := by
  intro cl me kw ups us ts s l p s1 h0 hok hc hns hpl hcl hadj hp h hk
  simp only [Spec.Phrase.units, Spec.Phrase.code, List.append_nil, List.nil_append, unitsTok_nil] at *
  exact ⟨hcl, ends_here ts (fun id m hid => (hc id m hid).1) hp h hk⟩

theorem cmd_begins (k : Spec.Cmd) : begins k.kw = true := by
  cases k with
  | jump k => cases k <;> rfl
  | loop r c => cases r <;> rfl
  | _ => rfl

theorem cmd_kw (k : Spec.Cmd) : k.kw ≠ .beginBlock ∧ k.kw ≠ .if_ ∧ inSet k.kw = false ∧ k.kw ≠ .switch ∧ k.kw ≠ .switch2 ∧
    (k.isLoop = false → ∀ r, plainLayer (some k.kw) r = true) := by
  cases k with
  | jump k => cases k <;> simp [Spec.Cmd.kw, inSet, plainLayer]
  | loop r c => cases r <;> simp [Spec.Cmd.kw, inSet, Spec.Cmd.isLoop]
  | _ => simp [Spec.Cmd.kw, inSet, plainLayer]

theorem tok_notes (ns : List Str) : unitsTok (Spec.noteUnits ns) = (ns.map Spec.strip).flatMap noteTok := by
  induction ns with
  | nil => rfl
  | cons n ns ih =>
    simp only [Spec.noteUnits, unitsTok, List.map_cons, List.flatMap_cons] at ih ⊢
    rw [ih]; rfl

theorem clear_notes : ∀ (ns : List Str) (us : List Spec.Frag), Spec.Clear (Spec.noteUnits ns ++ us) → Spec.Clear us
  | [], _, h => h
  | n :: ns, us, h => clear_notes ns us (Clear.tail (u := .atom (.note n)) h)

/-- The annotations after the keyword of a statement. -/
theorem steps_head {me : Int} {kw : Option KwId} {ups : List Layer} {s : PS} (ns : List Str) (hp : PutOk s) (h : At s [] none s) (ts : List LTok) :
    ∃ s2, At s (noteItems ns) none s2 ∧ Steps me kw ups s (unitsTok (Spec.noteUnits ns) ++ ts) s2 ts := by
  obtain ⟨l', p', s2, h2, _, e2, hn, st⟩ := steps_notes (me := me) (kw := kw) (ups := ups) hp ts (ns.map Spec.strip) [] none s (by
    intro t ht
    obtain ⟨x, _, rfl⟩ := List.mem_map.1 ht
    exact nl_strip x) h trivial
  have hp' : p' = none := by
    cases p' with
    | none => rfl
    | some x => exact absurd (hn nofun).2 nofun
  subst hp'
  have e3 : l' = noteItems ns := by simpa [pendItems, noteItems, Function.comp_def] using e2
  rw [e3] at h2
  exact ⟨s2, h2, by rw [tok_notes]; exact st⟩

theorem phraseR_cmd (k : Spec.Cmd) (q : Spec.Phrase) (hq : PhraseR q) : PhraseR (.cmd k q) := by
  intro cl me kw ups us ts s l p s1 h0 hok hc hns hpl hcl hadj hp h hk
  simp only [Spec.Phrase.units, Spec.Phrase.code, Spec.Phrase.Ok, List.append_assoc, List.cons_append] at *
  obtain ⟨k1, k2, k3, k4, k5, k6⟩ := cmd_kw k
  obtain ⟨s2, h2, e2⟩ := kwMain_begins (me := me) (kw := kw) (ups := ups) h hp hk (cmd_begins k)
  have hs2 := start_child (id := k.kw) h2
  obtain ⟨s3, h3, st3⟩ := steps_head (me := me + 1) (kw := some k.kw) (ups := ⟨me, kw, s2.ret0⟩ :: ups) k.notes hs2.putOk hs2.at
    (unitsTok q.units ++ tailTok cl ts)
  have hfit : ∀ id m, cl = some (id, m) → id ≠ .equ ∧ (inIf2 id = true → q.noIf = true) := by
    intro id m hid
    have := (hc id m hid).2
    refine ⟨fun he => ?_, this.2⟩
    have := this.1 he
    simp [Spec.Phrase.closed] at this
  obtain ⟨hcl3, hE⟩ := hq cl (me + 1) (some k.kw) (⟨me, kw, s2.ret0⟩ :: ups) us ts (childState k.kw s2) (noteItems k.notes) none s3 (by omega) hok.2.1
    (fun id m hid => ⟨by
      have h1 := (hc id m hid).1
      rw [← h2.ret0] at h1
      exact h1.deeper k1 (fun he => absurd he (hfit id m hid).1) (fun _ he => absurd he k2) (fun _ => k2),
      fun he => absurd he (hfit id m hid).1, (hfit id m hid).2⟩)
    (by rw [← h2.ret0] at hns; exact hns.deeper ⟨k4, k5⟩)
    (by
      cases hl : k.isLoop with
      | true => exact .inr (hok.2.2 hl)
      | false => exact .inl (k6 hl _))
    (clear_notes _ _ (Clear.tail hcl)) Adj.none hs2.putOk h3 trivial
  refine ⟨hcl3, ?_⟩
  rw [unitsTok_kw, unitsTok_append, List.cons_append, List.append_assoc]
  rw [← List.append_assoc l (pendItems p)]
  refine ends_child h0 (fun id m hid => ⟨(hc id m hid).1, (hfit id m hid).1⟩) hp h2 e2 (hE.pre st3) ?_
  intro mi mkw ch hch
  have hc1 : ch.c1 = noteItems k.notes ++ q.code := by
    rw [hch.c1, hs2.ret0, hs2.c1]; simp [put1, pendItems]
  rw [hc1]
  exact cmd_mk k _ _ _ hok.1 (norm_phrase q)

theorem asg_begins (k : Spec.Asg) : begins k.kw = true := by cases k <;> rfl
theorem asg_kw (k : Spec.Asg) : k.kw ≠ .beginBlock ∧ k.kw ≠ .if_ ∧ inSet k.kw = true ∧ k.kw ≠ .switch ∧ k.kw ≠ .switch2 ∧
    ∀ r, plainLayer (some k.kw) r = true := by
  cases k <;> simp [Spec.Asg.kw, inSet, plainLayer]

/-- The state after `以`, `那么` or `否则`. -/
theorem At.turn {s s1 : PS} {l : List Code} (h : At s l none s1) (n : Nat) : At { s1 with ret0 := n } [] none { s1 with ret0 := n } := by
  have := AtM.start (s := { s1 with ret0 := n }) h.text h.is h.mu
  have e1 : s1.mi = -1 := h.mi
  have e2 : s1.mkw = none := h.mkw
  simp only [e1, e2] at this ⊢
  exact this

theorem phraseR_asg (k : Spec.Asg) (a q : Spec.Phrase) (ha : PhraseR a) (hq : PhraseR q) : PhraseR (.asg k a q) := by
  intro cl me kw ups us ts s l p s1 h0 hok hc hns hpl hcl hadj hp h hk
  simp only [Spec.Phrase.units, Spec.Phrase.code, Spec.Phrase.Ok, List.append_assoc, List.cons_append] at *
  obtain ⟨k1, k2, k3, k4, k5, k6⟩ := asg_kw k
  obtain ⟨s2, h2, e2⟩ := kwMain_begins (me := me) (kw := kw) (ups := ups) h hp hk (asg_begins k)
  have hs2 := start_child (id := k.kw) h2
  have hns2 : ∀ r', NoSwitch (me + 1) (some k.kw) r' (⟨me, kw, s2.ret0⟩ :: ups) := by
    intro r'
    rw [← h2.ret0] at hns
    exact hns.deeper ⟨k4, k5⟩
  have hfit : ∀ id m, cl = some (id, m) → id ≠ .equ ∧ (inIf2 id = true → q.noIf = true) := by
    intro id m hid
    have := (hc id m hid).2
    refine ⟨fun he => ?_, this.2⟩
    have := this.1 he
    simp [Spec.Phrase.closed] at this
  obtain ⟨hcl3, hE⟩ := ha (some (.equ, me + 1)) (me + 1) (some k.kw) (⟨me, kw, s2.ret0⟩ :: ups) (.kw .equ :: (q.units ++ us))
    (unitsTok q.units ++ tailTok cl ts) (childState k.kw s2) [] none _ (by omega) hok.2.1
    (fun id m hid => by
      cases hid
      exact ⟨⟨rfl, by omega, Int.le_refl _, nofun, fun ret _ => by simp [scanTo, equScan, k3]⟩, fun _ => hok.2.2.1, nofun⟩)
    (hns2 _) (.inl (k6 _)) (Clear.tail hcl) Adj.none hs2.putOk hs2.at trivial
  obtain ⟨s4, h4, st4⟩ := hE.1 rfl
  have hc2 : s4.c2 = some [] := by
    rw [h4.c2, hs2.ret0, hs2.c2, if_pos (.inr k3)]; rfl
  have hc1 : s4.c1 = a.code := by
    rw [h4.c1, hs2.ret0, hs2.c1]; simp [put1, pendItems, ownItems, inIf]
  have hp4 : PutOk { s4 with ret0 := 2 } := ⟨fun _ => by simp [hc2], nofun⟩
  obtain ⟨hcl5, hE5⟩ := hq cl (me + 1) (some k.kw) (⟨me, kw, s2.ret0⟩ :: ups) us ts { s4 with ret0 := 2 } [] none { s4 with ret0 := 2 } (by omega) hok.2.2.2
    (fun id m hid => ⟨by
      have h1 := (hc id m hid).1
      rw [← h2.ret0] at h1
      exact h1.deeper k1 (fun he => absurd he (hfit id m hid).1) (fun _ he => absurd he k2) (fun _ => k2),
      fun he => absurd he (hfit id m hid).1, (hfit id m hid).2⟩)
    (hns2 _) (.inl (k6 _)) (Clear.tail hcl3) Adj.none hp4 (h4.turn 2) trivial
  refine ⟨hcl5, ?_⟩
  rw [unitsTok_kw, unitsTok_append, unitsTok_kw, List.cons_append, List.append_assoc, List.cons_append]
  rw [← List.append_assoc l (pendItems p)]
  refine ends_child h0 (fun id m hid => ⟨(hc id m hid).1, (hfit id m hid).1⟩) hp h2 e2 (hE5.pre st4) ?_
  intro mi mkw ch hch
  have hd1 : ch.c1 = a.code := by
    rw [hch.c1]; exact hc1
  have hd2 : ch.c2.getD [] = q.code := by
    rw [hch.c2]; simp [put2, hc2, pendItems]
  rw [hd1, hd2]
  exact asg_mk k _ _ _ hok.1 (norm_phrase a)

/-! ## Conditions -/

theorem cond_last (q : Spec.Phrase) (hq : PhraseR q) : CondR (.last q) := by
  intro me ups us ts s l s1 h0 hok hr hns hcl hp h
  simp only [Spec.Condition.units, Spec.Condition.code, Spec.Condition.Ok] at *
  obtain ⟨hcl2, hE⟩ := hq (some (.then_, me)) me (some .if_) ups us ts s l none s1 h0 hok.1
    (fun id m hid => by
      cases hid
      exact ⟨⟨rfl, h0, Int.le_refl _, nofun, fun ret _ => rfl⟩, nofun, fun _ => hok.2⟩)
    hns (.inl (by simp [plainLayer, hr])) hcl Adj.none hp h trivial
  obtain ⟨s2, h2, st⟩ := hE.1 rfl
  exact ⟨hcl2, s2, by simpa [pendItems, ownItems, inIf] using h2, st⟩

theorem cond_more (q : Spec.Phrase) (id : KwId) (c : Spec.Condition) (hq : PhraseR q) (hc : CondR c) : CondR (.more q id c) := by
  intro me ups us ts s l s1 h0 hok hr hns hcl hp h
  simp only [Spec.Condition.units, Spec.Condition.code, Spec.Condition.Ok, List.append_assoc, List.cons_append] at *
  have hi := hok.2.1
  have hid : closer id = true ∧ id ≠ .jvhao ∧ id ≠ .endBlock ∧ id ≠ .equ ∧ inIf2 id = false ∧ kwRet0 id = (fun s => s) ∧
      ownItems id = [.kw2 id] ∧ ∀ ls ret, scanTo id ls ret = ifScan ls (-1) ret := by
    revert hi
    cases id <;> first | (intro h; exact absurd h (by decide)) | (intro _; exact ⟨rfl, by decide, by decide, by decide, rfl, rfl, rfl, fun _ _ => rfl⟩)
  obtain ⟨i1, i2, i3, i4, i5, i6, i7, i8⟩ := hid
  obtain ⟨hcl2, hE⟩ := hq (some (id, me)) me (some .if_) ups (.kw id :: (c.units ++ us)) (unitsTok c.units ++ .kw .then_ :: ts) s l none s1 h0 hok.1
    (fun id' m hid => by
      cases hid
      exact ⟨⟨i1, h0, Int.le_refl _, fun h => absurd h i3, fun ret _ => by rw [i8, hr]; simp [ifScan]⟩, fun h => absurd h i4, fun h => by rw [i5] at h; exact nomatch h⟩)
    hns (.inl (by simp [plainLayer, hr])) hcl Adj.none hp h trivial
  obtain ⟨s2, h2, st⟩ := hE.1 rfl
  rw [i6] at st
  rw [i7] at h2
  obtain ⟨hcl3, s3, h3, st3⟩ := hc me ups us ts s _ s2 h0 hok.2.2 hr hns (Clear.tail hcl2) hp h2
  refine ⟨hcl3, s3, by simpa [pendItems] using h3, ?_⟩
  rw [unitsTok_append, unitsTok_kw, List.append_assoc, List.cons_append]
  exact st.trans st3

/-- What is known after `那么` or `否则`. -/
structure Turn (n : Nat) (a b : List Code) (s : PS) : Prop where
  ret0 : s.ret0 = n
  c1 : s.c1 = a
  c2 : s.c2 = some b
  c3 : s.c3 = some []
  at' : At s [] none s

theorem Turn.putOk {n : Nat} {a b : List Code} {s : PS} (h : Turn n a b s) : PutOk s :=
  ⟨fun _ => by simp [h.c2], fun _ => by simp [h.c3]⟩

/-- `如果` up to `那么`. -/
theorem if_start {me : Int} {kw : Option KwId} {ups : List Layer} {s s1 : PS} {l : List Code} {p : Pend} (c : Spec.Condition) (hc : CondR c)
    (us : List Spec.Frag) (ts : List LTok) (h0 : 0 ≤ me) (hok : c.Ok) (hns : NoSwitch me kw s.ret0 ups) (hcl : Spec.Clear (c.units ++ us)) (hp : PutOk s) (h : At s l p s1)
    (hk : PendOk p) : Spec.Clear us ∧ ∃ s2, At s (l ++ pendItems p) none s2 ∧ kwMain me kw ups .if_ s1 = .ok (.child s2) ∧
      ∃ s3, Turn 2 c.code [] s3 ∧
        Steps (me + 1) (some .if_) (⟨me, kw, s2.ret0⟩ :: ups) (childState .if_ s2) (unitsTok c.units ++ .kw .then_ :: ts) s3 ts := by
  obtain ⟨s2, h2, e2⟩ := kwMain_begins (id := .if_) (me := me) (kw := kw) (ups := ups) h hp hk rfl
  have hs2 := start_child (id := .if_) h2
  rw [← h2.ret0] at hns
  obtain ⟨hcl3, s3, h3, st⟩ := hc (me + 1) (⟨me, kw, s2.ret0⟩ :: ups) us ts (childState .if_ s2) [] _ (by omega) hok hs2.ret0
    (hns.deeper ⟨by decide, by decide⟩) hcl hs2.putOk hs2.at
  refine ⟨hcl3, s2, h2, e2, kwRet0 .then_ s3, ?_, st⟩
  refine ⟨rfl, ?_, ?_, ?_, h3.turn 2⟩
  · show s3.c1 = _
    rw [h3.c1, hs2.ret0, hs2.c1]; simp [put1]
  · show s3.c2 = _
    rw [h3.c2, hs2.ret0, hs2.c2]; rfl
  · show s3.c3 = _
    rw [h3.c3, hs2.ret0, hs2.c3]; rfl

/-- From `那么` up to `否则`. -/
theorem if_else {me : Int} {kw : Option KwId} {ups : List Layer} {s3 : PS} {r : Nat} {a : List Code} (t : Spec.Phrase) (ht : PhraseR t)
    (us : List Spec.Frag) (ts : List LTok) (h0 : 0 ≤ me) (hok : t.Ok) (hno : t.noIf = true) (hns : NoSwitch me kw r ups)
    (hcl : Spec.Clear (t.units ++ us)) (h3 : Turn 2 a [] s3) :
    Spec.Clear us ∧ ∃ s4, Turn 3 a t.code s4 ∧
      Steps (me + 1) (some .if_) (⟨me, kw, r⟩ :: ups) s3 (unitsTok t.units ++ .kw .else_ :: ts) s4 ts := by
  obtain ⟨hcl4, hE⟩ := ht (some (.else_, me + 1)) (me + 1) (some .if_) (⟨me, kw, r⟩ :: ups) us ts s3 [] none s3 (by omega) hok
    (fun id m hid => by
      cases hid
      exact ⟨⟨rfl, by omega, Int.le_refl _, nofun, fun ret _ => rfl⟩, nofun, fun _ => hno⟩)
    (hns.deeper ⟨by decide, by decide⟩) (.inl (by simp [plainLayer, h3.ret0])) hcl Adj.none h3.putOk h3.at' trivial
  obtain ⟨s4, h4, st⟩ := hE.1 rfl
  refine ⟨hcl4, kwRet0 .else_ s4, ⟨rfl, ?_, ?_, ?_, h4.turn 3⟩, st⟩
  · show s4.c1 = _
    rw [h4.c1, h3.ret0, h3.c1]; rfl
  · show s4.c2 = _
    rw [h4.c2, h3.ret0, h3.c2]; simp [put2, pendItems, ownItems, inIf]
  · show s4.c3 = _
    rw [h4.c3, h3.ret0, h3.c3]; rfl

theorem phraseR_cond (c : Spec.Condition) (t : Spec.Phrase) (hc' : CondR c) (ht : PhraseR t) : PhraseR (.cond c t) := by
  intro cl me kw ups us ts s l p s1 h0 hok hc hns hpl hcl hadj hp h hk
  simp only [Spec.Phrase.units, Spec.Phrase.code, Spec.Phrase.Ok, List.append_assoc, List.cons_append] at *
  have hfit : ∀ id m, cl = some (id, m) → id ≠ .equ ∧ inIf2 id = false := by
    intro id m hid
    have := (hc id m hid).2
    refine ⟨fun he => ?_, ?_⟩
    · have := this.1 he
      simp [Spec.Phrase.closed] at this
    · cases e : inIf2 id with
      | false => rfl
      | true => have := this.2 e; simp [Spec.Phrase.noIf] at this
  obtain ⟨hcl3, s2, h2, e2, s3, h3, st3⟩ := if_start (me := me) (kw := kw) (ups := ups) c hc' (.kw .then_ :: (t.units ++ us)) (unitsTok t.units ++ tailTok cl ts)
    h0 hok.1 hns (Clear.tail hcl) hp h hk
  obtain ⟨hcl5, hE⟩ := ht cl (me + 1) (some .if_) (⟨me, kw, s2.ret0⟩ :: ups) us ts s3 [] none s3 (by omega) hok.2
    (fun id m hid => ⟨by
      have h1 := (hc id m hid).1
      rw [← h2.ret0] at h1
      exact h1.deeper (by decide) (fun he => absurd he (hfit id m hid).1) (fun _ _ => by rw [h3.ret0]; decide)
        (fun he => by rw [(hfit id m hid).2] at he; exact nomatch he),
      fun he => absurd he (hfit id m hid).1, fun he => by rw [(hfit id m hid).2] at he; exact nomatch he⟩)
    (by rw [← h2.ret0] at hns; exact hns.deeper ⟨by decide, by decide⟩) (.inl (by simp [plainLayer, h3.ret0])) (Clear.tail hcl3) Adj.none h3.putOk h3.at' trivial
  refine ⟨hcl5, ?_⟩
  rw [unitsTok_kw, unitsTok_append, unitsTok_kw, List.cons_append, List.append_assoc, List.cons_append]
  rw [← List.append_assoc l (pendItems p)]
  refine ends_child h0 (fun id m hid => ⟨(hc id m hid).1, (hfit id m hid).1⟩) hp h2 e2 (hE.pre st3) ?_
  intro mi mkw ch hch
  have f1 : ch.c1 = c.code := by rw [hch.c1, h3.ret0, h3.c1]; rfl
  have f2 : ch.c2 = some t.code := by rw [hch.c2, h3.ret0, h3.c2]; simp [put2, pendItems]
  have f3 : ch.c3 = some [] := by rw [hch.c3, h3.ret0, h3.c3]; rfl
  rw [f1, f2, f3]; rfl

theorem phraseR_cond2 (c : Spec.Condition) (t e : Spec.Phrase) (hc' : CondR c) (ht : PhraseR t) (he : PhraseR e) : PhraseR (.cond2 c t e) := by
  intro cl me kw ups us ts s l p s1 h0 hok hc hns hpl hcl hadj hp h hk
  simp only [Spec.Phrase.units, Spec.Phrase.code, Spec.Phrase.Ok, List.append_assoc, List.cons_append] at *
  have hfit : ∀ id m, cl = some (id, m) → id ≠ .equ ∧ inIf2 id = false := by
    intro id m hid
    have := (hc id m hid).2
    refine ⟨fun he => ?_, ?_⟩
    · have := this.1 he
      simp [Spec.Phrase.closed] at this
    · cases e : inIf2 id with
      | false => rfl
      | true => have := this.2 e; simp [Spec.Phrase.noIf] at this
  obtain ⟨hcl3, s2, h2, e2, s3, h3, st3⟩ := if_start (me := me) (kw := kw) (ups := ups) c hc' (.kw .then_ :: (t.units ++ .kw .else_ :: (e.units ++ us)))
    (unitsTok t.units ++ .kw .else_ :: (unitsTok e.units ++ tailTok cl ts)) h0 hok.1 hns (Clear.tail hcl) hp h hk
  have hns2 : NoSwitch me kw s2.ret0 ups := by rw [h2.ret0]; exact hns
  obtain ⟨hcl4, s4, h4, st4⟩ := if_else (me := me) (kw := kw) (ups := ups) t ht (.kw .else_ :: (e.units ++ us)) (unitsTok e.units ++ tailTok cl ts)
    h0 hok.2.1 hok.2.2.1 hns2 (Clear.tail hcl3) h3
  obtain ⟨hcl5, hE⟩ := he cl (me + 1) (some .if_) (⟨me, kw, s2.ret0⟩ :: ups) us ts s4 [] none s4 (by omega) hok.2.2.2.1
    (fun id m hid => ⟨by
      have h1 := (hc id m hid).1
      rw [← h2.ret0] at h1
      exact h1.deeper (by decide) (fun he => absurd he (hfit id m hid).1) (fun _ _ => by rw [h4.ret0]; decide)
        (fun he => by rw [(hfit id m hid).2] at he; exact nomatch he),
      fun he => absurd he (hfit id m hid).1, fun he => by rw [(hfit id m hid).2] at he; exact nomatch he⟩)
    (hns2.deeper ⟨by decide, by decide⟩) (.inr hok.2.2.2.2) (Clear.tail hcl4) Adj.none h4.putOk h4.at' trivial
  refine ⟨hcl5, ?_⟩
  rw [unitsTok_kw, unitsTok_append, unitsTok_kw, unitsTok_append, unitsTok_kw, List.cons_append, List.append_assoc, List.cons_append, List.append_assoc, List.cons_append]
  rw [← List.append_assoc l (pendItems p)]
  refine ends_child h0 (fun id m hid => ⟨(hc id m hid).1, (hfit id m hid).1⟩) hp h2 e2 ((hE.pre st4).pre st3) ?_
  intro mi mkw ch hch
  have f1 : ch.c1 = c.code := by rw [hch.c1, h4.ret0, h4.c1]; rfl
  have f2 : ch.c2 = some t.code := by rw [hch.c2, h4.ret0, h4.c2]; rfl
  have f3 : ch.c3 = some e.code := by rw [hch.c3, h4.ret0, h4.c3]; simp [put3, pendItems]
  rw [f1, f2, f3]; rfl

/-! ## Scripts and blocks -/

theorem script_done (q : Spec.Phrase) (hq : PhraseR q) : ScriptR (.done q) := by
  intro cl me kw ups us ts s l s1 hB hok hc hcl hp h
  simp only [Spec.Script.units, Spec.Script.code, Spec.Script.Ok] at *
  obtain ⟨hcl2, hE⟩ := hq cl me kw ups us ts s l none s1 hB.1 hok (fun id m hid => ⟨(hc id m hid).1, by
    rw [(hc id m hid).2]; exact ⟨nofun, nofun⟩⟩) (hB.noSwitch _) (.inl (hB.plain _)) hcl Adj.none hp h trivial
  exact ⟨hcl2, by simpa [pendItems] using hE⟩

theorem script_sent (q : Spec.Phrase) (n : Spec.Script) (hq : PhraseR q) (hn : ScriptR n) : ScriptR (.sent q n) := by
  intro cl me kw ups us ts s l s1 hB hok hc hcl hp h
  simp only [Spec.Script.units, Spec.Script.code, Spec.Script.Ok, List.append_assoc, List.cons_append] at *
  obtain ⟨hcl2, hE⟩ := hq (some (.jvhao, me)) me kw ups (.kw .jvhao :: (n.units ++ us)) (unitsTok n.units ++ tailTok cl ts) s l none s1 hB.1 hok.1
    (fun id m hid => by cases hid; exact ⟨hB.stop _, nofun, nofun⟩) (hB.noSwitch _) (.inl (hB.plain _)) hcl Adj.none hp h trivial
  obtain ⟨s2, h2, st⟩ := hE.1 rfl
  obtain ⟨hcl3, hE3⟩ := hn cl me kw ups us ts s _ s2 hB hok.2 hc (Clear.tail hcl2) hp h2
  refine ⟨hcl3, ?_⟩
  rw [unitsTok_append, unitsTok_kw, List.append_assoc, List.cons_append]
  have := hE3.pre st
  simpa [pendItems, ownItems, tailTok] using this

/-- A block in any layer. -/
theorem block_child {me : Int} {kw : Option KwId} {ups : List Layer} {s s1 : PS} {l : List Code} {p : Pend} (q : Spec.Script) (ih : ScriptR q)
    (hok : q.Ok) (m : Int) (us : List Spec.Frag) (ts : List LTok) (h0 : 0 ≤ me) (hm0 : 0 ≤ m)
    (hm : m ≤ me) (hbs : beginBlockScan (⟨me, kw, s.ret0⟩ :: ups) false = false)
    (hend : ∀ r ret, endBlockScan (⟨me + 1, some .beginBlock, r⟩ :: ⟨me, kw, s.ret0⟩ :: ups) false ret = m)
    (hcl : Spec.Clear (q.units ++ .kw .endBlock :: us)) (hp : PutOk s) (h : At s l p s1) (hk : PendOk p) :
    Spec.Clear us ∧ ∃ s2 ch, At s (l ++ pendItems p) none s2 ∧ kwMain me kw ups .beginBlock s1 = .ok (.child s2) ∧
      mkCode .beginBlock ch.c1 (ch.c2.getD []) (ch.c3.getD []) = some (.ok (.block q.code)) ∧ ch.is.first = false ∧ ch.mu = 0 ∧
      ch.mi = m ∧ ch.mkw = some .endBlock ∧
      Reads (me + 1) (some .beginBlock) (⟨me, kw, s2.ret0⟩ :: ups) (childState .beginBlock s2)
        (unitsTok q.units ++ .kw .endBlock :: ts) (ch, ts) := by
  obtain ⟨s2, h2, e2⟩ := kwMain_stay (id := .beginBlock) (me := me) (kw := kw) (ups := ups) (r := me) h hp hk (by decide) rfl (by simp [layerScan, hbs]) (by omega)
  have hs2 := start_child (id := .beginBlock) h2
  obtain ⟨hcu, hE⟩ := ih (some (.endBlock, m)) (me + 1) (some .beginBlock) (⟨me, kw, s2.ret0⟩ :: ups) (.kw .endBlock :: us) ts _ []
    _ ⟨by omega, .inr rfl⟩ hok (fun id m' hid => by
      cases hid
      exact ⟨⟨rfl, hm0, by omega, fun _ => by omega, fun ret _ => by rw [h2.ret0]; exact hend _ ret⟩, rfl⟩) hcl hs2.putOk hs2.at
  obtain ⟨s4, h4, e4⟩ := hE.2 (by omega)
  refine ⟨Clear.tail hcu, s2, s4, h2, e2, ?_, h4.is, h4.mu, h4.mi, h4.mkw, e4⟩
  rw [h4.c1, hs2.ret0, hs2.c1]
  simp [mkCode, put1]

theorem el_block (b : Spec.Script) (hb : ScriptR b) : ElS (.block b) := by
  intro me kw ups us ts s l p s1 h0 hok hns hpl hcl hadj hp h hk
  simp only [Spec.El.units, Spec.El.code, Spec.El.Ok, List.append_assoc, List.cons_append, List.nil_append] at *
  have hpl : plainLayer kw s.ret0 = true := by simpa [Spec.El.isBlock] using hpl
  obtain ⟨hcl2, s2, ch, h2, e2, hmk, hf, hmu, hmi, hmkw, hr⟩ := block_child (me := me) (kw := kw) (ups := ups) b hb hok me us ts h0 h0 (Int.le_refl _)
    (hns false) (by
      intro r ret
      exact endBlock_plain hpl r ret)
    (Clear.tail hcl) hp h hk
  obtain ⟨s3, h3, e3⟩ := after_stay (me := me) h2 hp hmk hf hmu (by rw [hmi]; omega) (.inr hmkw)
  refine ⟨hcl2, _, none, s3, h3, trivial, by simp [pendItems], Adj.none, fun r hr' => ?_⟩
  rw [unitsTok_kw, unitsTok_append, unitsTok_kw, unitsTok_nil, List.cons_append, List.append_assoc, List.cons_append, List.nil_append]
  exact Reads.child e2 hr e3 hmu hr'

/-- A block that ends the statement it is in. -/
theorem last_block {me : Int} {kw : Option KwId} {ups : List Layer} {s s1 s2 : PS} {L : List Code} {kid : KwId} {c : Code} {sc sx : PS} {lc : List Code}
    {pc : Pend} {tok ts : List LTok} {us : List Spec.Frag} (b : Spec.Script) (hb : ScriptR b) (hok : b.Ok) (h0 : 0 ≤ me)
    (hp : PutOk s) (h2 : At s L none s2) (e2 : kwMain me kw ups kid s1 = .ok (.child s2))
    (hpc : PutOk sc) (hx : At sc lc pc sx) (hkc : PendOk pc)
    (hst : Steps (me + 1) (some kid) (⟨me, kw, s2.ret0⟩ :: ups) (childState kid s2) tok sx (.kw .beginBlock :: (unitsTok b.units ++ .kw .endBlock :: ts)))
    (hbs : beginBlockScan (⟨me + 1, some kid, sc.ret0⟩ :: ⟨me, kw, s2.ret0⟩ :: ups) false = false)
    (hkid : plainLayer (some kid) sc.ret0 = false)
    (hcl : Spec.Clear (b.units ++ .kw .endBlock :: us))
    (hmk : ∀ mi mkw ch, AtM sc (lc ++ pendItems pc ++ [.block b.code]) none mi mkw ch → mkCode kid ch.c1 (ch.c2.getD []) (ch.c3.getD []) = some (.ok c)) :
    Spec.Clear us ∧ ∃ s3, At s (L ++ [c]) none s3 ∧ Steps me kw ups s1 (.kw kid :: tok) s3 ts := by
  obtain ⟨hcl2, s5, ch, h5, e5, hmk5, hf, hmu, hmi, hmkw, hch⟩ := block_child (me := me + 1) (kw := some kid) (ups := ⟨me, kw, s2.ret0⟩ :: ups) (s := sc) (s1 := sx)
    b hb hok me us ts (by omega) h0 (by omega) hbs (by
      intro r ret
      exact endBlock_last hkid r ret)
    hcl hpc hx hkc
  obtain ⟨s6, s7, h7, e6, e7⟩ := after_leave (me := me + 1) h5 hpc hmk5 hf hmu (by rw [hmi]; omega)
  have hch2 := hst _ (Reads.childEnd e5 hch e6 e7)
  obtain ⟨s8, h8, e8⟩ := after_stay (me := me) h2 hp (hmk _ _ _ h7) h7.is h7.mu (by rw [h7.mi, hmi]; omega) (.inr (by rw [h7.mkw, hmkw]))
  exact ⟨hcl2, s8, h8, fun r hr => Reads.child e2 hch2 e8 h7.mu hr⟩

theorem el_cond (c : Spec.Condition) (t e : Spec.Phrase) (b : Spec.Script) (hc : CondR c) (ht : PhraseR t) (he : PhraseS e) (hb : ScriptR b) :
    ElS (.cond c t e b) := by
  intro me kw ups us ts s l p s1 h0 hok hns hpl hcl hadj hp h hk
  simp only [Spec.El.units, Spec.El.code, Spec.El.Ok, List.append_assoc, List.cons_append, List.nil_append] at *
  obtain ⟨hcl3, s2, h2, e2, s3, h3, st3⟩ := if_start (me := me) (kw := kw) (ups := ups) c hc
    (.kw .then_ :: (t.units ++ .kw .else_ :: (e.units ++ .kw .beginBlock :: (b.units ++ .kw .endBlock :: us))))
    (unitsTok t.units ++ .kw .else_ :: (unitsTok e.units ++ .kw .beginBlock :: (unitsTok b.units ++ .kw .endBlock :: ts))) h0 hok.1 hns (Clear.tail hcl) hp h hk
  have hns2 : NoSwitch me kw s2.ret0 ups := by rw [h2.ret0]; exact hns
  obtain ⟨hcl4, s4, h4, st4⟩ := if_else (me := me) (kw := kw) (ups := ups) t ht (.kw .else_ :: (e.units ++ .kw .beginBlock :: (b.units ++ .kw .endBlock :: us)))
    (unitsTok e.units ++ .kw .beginBlock :: (unitsTok b.units ++ .kw .endBlock :: ts)) h0 hok.2.1 hok.2.2.1 hns2 (Clear.tail hcl3) h3
  obtain ⟨hcl5, l5, p5, s5, h5, hk5, e5, _, st5⟩ := he (me + 1) (some .if_) (⟨me, kw, s2.ret0⟩ :: ups) (.kw .beginBlock :: (b.units ++ .kw .endBlock :: us))
    (.kw .beginBlock :: (unitsTok b.units ++ .kw .endBlock :: ts)) s4 [] none s4 (by omega) hok.2.2.2.1 hok.2.2.2.2.1
    (hns2.deeper ⟨by decide, by decide⟩) (.inr hok.2.2.2.2.2.1) (Clear.tail hcl4) Adj.none h4.putOk h4.at' trivial
  obtain ⟨hcl6, s6, h6, st6⟩ := last_block b hb hok.2.2.2.2.2.2 h0 hp h2 e2 h4.putOk h5 hk5 (st3.trans (st4.trans st5))
    (hns2.deeper ⟨by decide, by decide⟩ false) (by simp [plainLayer, h4.ret0]) (Clear.tail hcl5) (c := .if_ c.code t.code (e.code ++ [.block b.code])) (by
      intro mi mkw ch hch
      have f1 : ch.c1 = c.code := by rw [hch.c1, h4.ret0, h4.c1]; rfl
      have f2 : ch.c2 = some t.code := by rw [hch.c2, h4.ret0, h4.c2]; rfl
      have f3 : ch.c3 = some (e.code ++ [.block b.code]) := by rw [hch.c3, e5, h4.ret0, h4.c3]; simp [put3, pendItems]
      rw [f1, f2, f3]; rfl)
  refine ⟨hcl6, _, none, s6, h6, trivial, by simp [pendItems], Adj.none, ?_⟩
  simpa [unitsTok_kw, unitsTok_append, unitsTok_nil] using st6

theorem el_loop (r : Bool) (k : Spec.Counter) (a : Spec.Phrase) (b : Spec.Script) (ha : PhraseS a) (hb : ScriptR b) : ElS (.loop r k a b) := by
  intro me kw ups us ts s l p s1 h0 hok hns hpl hcl hadj hp h hk
  simp only [Spec.El.units, Spec.El.code, Spec.El.Ok, List.append_assoc, List.cons_append, List.nil_append] at *
  obtain ⟨k1, k2, k3, k4, k5, _⟩ := cmd_kw (.loop r k)
  obtain ⟨s2, h2, e2⟩ := kwMain_begins (me := me) (kw := kw) (ups := ups) h hp hk (cmd_begins (.loop r k))
  have hs2 := start_child (id := (Spec.Cmd.loop r k).kw) h2
  have hns2 : ∀ r', NoSwitch (me + 1) (some (Spec.Cmd.loop r k).kw) r' (⟨me, kw, s2.ret0⟩ :: ups) := by
    intro r'
    rw [← h2.ret0] at hns
    exact hns.deeper ⟨k4, k5⟩
  obtain ⟨s3, h3, st3⟩ := steps_head (me := me + 1) (kw := some (Spec.Cmd.loop r k).kw) (ups := ⟨me, kw, s2.ret0⟩ :: ups) (Spec.Cmd.loop r k).notes hs2.putOk hs2.at
    (unitsTok a.units ++ .kw .beginBlock :: (unitsTok b.units ++ .kw .endBlock :: ts))
  obtain ⟨hcl5, l5, p5, s5, h5, hk5, e5, _, st5⟩ := ha (me + 1) (some (Spec.Cmd.loop r k).kw) (⟨me, kw, s2.ret0⟩ :: ups)
    (.kw .beginBlock :: (b.units ++ .kw .endBlock :: us))
    (.kw .beginBlock :: (unitsTok b.units ++ .kw .endBlock :: ts)) _ _ none s3 (by omega) hok.1 hok.2.1
    (hns2 _) (.inr hok.2.2.1) (clear_notes _ _ (Clear.tail hcl)) Adj.none hs2.putOk h3 trivial
  obtain ⟨hcl6, s6, h6, st6⟩ := last_block b hb hok.2.2.2.1 h0 hp h2 e2 hs2.putOk h5 hk5 (st3.trans st5)
    (hns2 _ false) (by cases r <;> rfl) (Clear.tail hcl5) (c := (Spec.Cmd.loop r k).build (a.code ++ [.block b.code])) (by
      intro mi mkw ch hch
      have f1 : ch.c1 = noteItems (Spec.Cmd.loop r k).notes ++ (a.code ++ [.block b.code]) := by
        rw [hch.c1, e5, hs2.ret0, hs2.c1]; simp [put1, pendItems]
      rw [f1]
      have hok5 : k.Ok r ∧ ∀ c ∈ a.code, Spec.isNote c = false := hok.2.2.2.2
      refine loop_mk r k _ _ _ hok5.1 ?_ ?_
      · intro x hx
        rcases List.mem_append.1 hx with hx | hx
        · exact hok5.2 x hx
        · simp at hx; subst hx; rfl
      · intro x hx
        rcases List.mem_append.1 hx with hx | hx
        · exact norm_phrase a x hx
        · simp at hx; subst hx; exact norm_block _)
  refine ⟨hcl6, _, none, s6, h6, trivial, by simp [pendItems], Adj.none, ?_⟩
  simpa [unitsTok_kw, unitsTok_append, unitsTok_nil] using st6

theorem steps_atoms {me : Int} {kw : Option KwId} {ups : List Layer} {s : PS} (us : List Spec.Frag) (hp : PutOk s) (ts : List LTok) :
    ∀ (a : List Spec.Atom) (l : List Code) (p : Pend) (s1 : PS),
    Spec.Clear (Spec.atoms a ++ us) → Adj p (Spec.atoms a ++ us) → At s l p s1 → PendOk p →
    Spec.Clear us ∧ ∃ l' p' s2, At s l' p' s2 ∧ PendOk p' ∧ l' ++ pendItems p' = l ++ pendItems p ++ a.flatMap Spec.Atom.items ∧
      Steps me kw ups s1 (unitsTok (Spec.atoms a) ++ ts) s2 ts
  | [], l, p, s1, hcl, _, h, hk => ⟨hcl, l, p, s1, h, hk, by simp, fun _ h => h⟩
  | a :: as, l, p, s1, hcl, hadj, h, hk => by
    obtain ⟨hcl2, l2, p2, s2, h2, hk2, e2, ha2, st2⟩ := atom_step a me kw ups (Spec.atoms as ++ us) (unitsTok (Spec.atoms as) ++ ts) s l p s1
      hcl hadj hp h hk
    obtain ⟨hcl3, l3, p3, s3, h3, hk3, e3, st3⟩ := steps_atoms us hp ts as l2 p2 s2 hcl2 ha2 h2 hk2
    refine ⟨hcl3, l3, p3, s3, h3, hk3, ?_, ?_⟩
    · rw [e3, e2]; simp
    · have := st2.trans st3
      rw [← List.append_assoc, ← unitsTok_append] at this
      exact this

theorem el_switch (one : Bool) (a : List Spec.Atom) (b : Spec.Script) (hb : ScriptR b) : ElS (.switch one a b) := by
  intro me kw ups us ts s l p s1 h0 hok hns hpl hcl hadj hp h hk
  simp only [Spec.El.units, Spec.El.code, Spec.El.Ok, List.append_assoc, List.cons_append, List.nil_append] at *
  generalize hkid : (if one then KwId.switch2 else KwId.switch) = kid at *
  have hk2 : kid = .switch2 ∨ kid = .switch := by cases one <;> simp at hkid <;> simp [← hkid]
  obtain ⟨s2, h2, e2⟩ := kwMain_begins (id := kid) (me := me) (kw := kw) (ups := ups) h hp hk (by rcases hk2 with rfl | rfl <;> rfl)
  have hs2 := start_child (id := kid) h2
  have hns2 : NoSwitch me kw s2.ret0 ups := by rw [h2.ret0]; exact hns
  have hbs : ∀ r, beginBlockScan (⟨me + 1, some kid, r⟩ :: ⟨me, kw, s2.ret0⟩ :: ups) false = false := by
    intro r
    have : beginBlockScan (⟨me + 1, some kid, r⟩ :: ⟨me, kw, s2.ret0⟩ :: ups) false = beginBlockScan (⟨me, kw, s2.ret0⟩ :: ups) false := by
      rcases hk2 with rfl | rfl <;> rfl
    rw [this]; exact hns2 false
  obtain ⟨hcl5, l5, p5, s5, h5, hk5, e5, st5⟩ := steps_atoms (me := me + 1) (kw := some kid) (ups := ⟨me, kw, s2.ret0⟩ :: ups)
    (.kw .beginBlock :: (b.units ++ .kw .endBlock :: us)) hs2.putOk
    (.kw .beginBlock :: (unitsTok b.units ++ .kw .endBlock :: ts)) a [] none _ (Clear.tail hcl) Adj.none hs2.at trivial
  obtain ⟨hcl6, s6, h6, st6⟩ := last_block b hb hok.2.1 h0 hp h2 e2 hs2.putOk h5 hk5 st5
    (hbs _) (by rcases hk2 with rfl | rfl <;> rfl) (Clear.tail hcl5)
    (c := .switch one (a.flatMap Spec.Atom.items) b.code (Spec.branches 0 b.lines) (Spec.others 0 b.lines).head?) (by
      intro mi mkw ch hch
      have f1 : ch.c1 = a.flatMap Spec.Atom.items ++ [.block b.code] := by
        rw [hch.c1, e5, hs2.ret0, hs2.c1]; simp [put1, pendItems]
      rw [f1, ← hkid]
      exact switch_mk one _ b _ _ hok.1 hok.2.2)
  refine ⟨hcl6, _, none, s6, h6, trivial, by simp [pendItems], Adj.none, ?_⟩
  simpa [unitsTok_kw, unitsTok_append, unitsTok_nil] using st6

mutual
theorem elS : ∀ e : Spec.El, ElS e
  | .atom a => el_atom a
  | .block b => el_block b (scriptR b)
  | .cond c t e b => el_cond c t e b (condR c) (phraseR t) (phraseS e) (scriptR b)
  | .loop r k a b => el_loop r k a b (phraseS a) (scriptR b)
  | .switch one a b => el_switch one a b (scriptR b)

theorem phraseS : ∀ q : Spec.Phrase, PhraseS q
  | .nil => phraseS_nil
  | .el e q => phraseS_el e q (elS e) (phraseS q)
  | .cmd k q => fun _ _ _ _ _ _ _ _ _ _ _ h => absurd h (by simp [Spec.Phrase.closed])
  | .asg k a q => fun _ _ _ _ _ _ _ _ _ _ _ h => absurd h (by simp [Spec.Phrase.closed])
  | .cond c t => fun _ _ _ _ _ _ _ _ _ _ _ h => absurd h (by simp [Spec.Phrase.closed])
  | .cond2 c t e => fun _ _ _ _ _ _ _ _ _ _ _ h => absurd h (by simp [Spec.Phrase.closed])

theorem phraseR : ∀ q : Spec.Phrase, PhraseR q
  | .nil => phraseR_nil
  | .el e q => phraseR_el e q (elS e) (phraseR q)
  | .cmd k q => phraseR_cmd k q (phraseR q)
  | .asg k a q => phraseR_asg k a q (phraseR a) (phraseR q)
  | .cond c t => phraseR_cond c t (condR c) (phraseR t)
  | .cond2 c t e => phraseR_cond2 c t e (condR c) (phraseR t) (phraseR e)

theorem condR : ∀ c : Spec.Condition, CondR c
  | .last q => cond_last q (phraseR q)
  | .more q id c => cond_more q id c (phraseR q) (condR c)

theorem scriptR : ∀ q : Spec.Script, ScriptR q
  | .done q => script_done q (phraseR q)
  | .sent q n => script_sent q n (phraseR q) (scriptR n)
end


/-! ## C60 -/

/-- **C60.**  A script that is written as the grammar says is parsed into the program the grammar says: the pieces of each sentence
in order, each statement with the rest of its sentence as its list, blocks, conditions, loops and switches with their bodies,
whatever the nesting. -/
theorem C60_structure (q : Spec.Script) (hok : q.Ok) (hcl : Spec.Clear q.units) : parse q.src = .ok (.ok q.code) := by
  have hl := lex_units q.units hcl (kwsOk_script q hok)
  have h0 : At PS.init [] none PS.init := AtM.start rfl rfl rfl
  have hp0 : PutOk PS.init := ⟨nofun, nofun⟩
  obtain ⟨_, s2, h2, hr⟩ := scriptR q none 0 none [] [] [] PS.init [] PS.init ⟨by omega, .inl ⟨rfl, rfl, rfl⟩⟩ hok nofun (by simpa using hcl) hp0 h0
  rw [show tailTok none [] = [] from rfl, List.append_nil, ← hl] at hr
  have := parse_reads hr
  rw [show q.src = Spec.unitsSrc q.units from rfl, this, h2.c1]
  simp [put1, PS.init]

/-! ## The hypotheses are met -/

theorem mem_allKw (id : KwId) : id ∈ KwId.undef :: kwOrder := by cases id <;> decide

instance (p : KwId → Bool) (s : Str) : Decidable (Spec.Free p s) :=
  decidable_of_iff (∀ id ∈ KwId.undef :: kwOrder, p id = true → ¬ kwStr id <:+: Spec.strip s)
    ⟨fun h id => h id (mem_allKw id), fun h id _ => h id⟩

instance (s : Str) : Decidable (Spec.NoCont s) := by unfold Spec.NoCont; infer_instance

/-- A text that begins with no digit and no sign is not a number. -/
theorem notNum_head {s : Str} (h : ∀ c ∈ s.head?, c ≠ '+' ∧ c ≠ '-' ∧ ∀ d, c ≠ Spec.digit d) : Spec.NotNum s := by
  rintro i ⟨ds, hne, h1⟩
  cases ds with
  | nil => exact hne rfl
  | cons d ds =>
    rcases h1 with ⟨rfl | rfl, _⟩ | ⟨rfl, _⟩
    · exact (h (Spec.digit d) (by simp [Spec.digits])).2.2 d rfl
    · exact (h '+' (by simp)).1 rfl
    · exact (h '-' (by simp)).2.1 rfl

/-- A test for `Spec.NotNum`. -/
def notNumB (s : Str) : Bool := decide (∀ c ∈ s.head?, c ≠ '+' ∧ c ≠ '-' ∧ ∀ d, c ≠ Spec.digit d)

theorem notNumB_sound {s : Str} (h : notNumB s = true) : Spec.NotNum s := notNum_head (of_decide_eq_true h)

def nameB : Spec.Name → List Str → Bool
  | .plain s, _ => decide (Spec.Free inVar s ∧ Spec.printable s ≠ [] ∧ ¬ c!"参数" <+: Spec.printable s)
  | .args _ bs, ns => decide (bs.length ≤ 2) && bs.all (fun b => decide (parseI32 (Spec.printable b.1) = some b.2)) &&
      ns.all fun n => notNumB (Spec.printable n)
  | .argc, _ => true
  | .arg s i, _ => decide (Spec.Free inVar (c!"参数" ++ s) ∧ parseI32 (Spec.printable s) = some i)

theorem nameB_sound (n : Spec.Name) (ns : List Str) (h : nameB n ns = true) : n.Ok ns := by
  have num : ∀ {s i}, parseI32 s = some i → Spec.IsNum 32 s i := fun h => by
    have := (C56_read_i32 _ _).1 h
    exact ⟨this.2.2, this.1, this.2.1⟩
  cases n with
  | plain s =>
    obtain ⟨h1, h2, h3⟩ := of_decide_eq_true h
    refine ⟨h1, h2, fun hm => h3 ?_, fun t ht => absurd (ht ▸ List.prefix_append _ _) h3⟩
    rcases List.mem_cons.1 hm with e | hm
    · rw [e]; exact List.prefix_rfl
    · rcases List.mem_cons.1 hm with e | hm
      · rw [e]; decide
      · rw [List.mem_singleton.1 hm]; decide
  | args l bs =>
    simp only [nameB, Bool.and_eq_true, decide_eq_true_eq, List.all_eq_true] at h
    exact ⟨h.1.1, fun b hb => num (h.1.2 b hb), fun _ n hn => notNumB_sound (h.2 n hn)⟩
  | argc => trivial
  | arg s i =>
    obtain ⟨h1, h2⟩ := of_decide_eq_true h
    exact ⟨h1, num h2⟩

/-- A test for `Spec.LongOk`. -/
def longB (a : Spec.LongAt) (acc : Str) : List Spec.LongBit → Bool
  | [] => decide (a.long = 0 ∧ a.quote = 0 ∧ a.verb = 0 ∧ Spec.NoCont acc)
  | .chars s :: bs => decide (Spec.Free a.marks s ∧ a.kept s ≠ []) && bs.head?.all (fun b => !b.isChars) && longB a (acc ++ a.kept s) bs
  | .mark id :: bs => (a.after id).isSome && (decide (acc ≠ []) || bs.head?.any Spec.LongBit.isChars) &&
      longB ((a.after id).getD a) (acc ++ kwStr id) bs
  | .name n :: bs => decide (a.verb = 0 ∧ Spec.NoCont acc ∧ n.own = []) && nameB n [] && longB a [] bs

theorem longB_sound : ∀ (bs : List Spec.LongBit) (a : Spec.LongAt) (acc : Str), longB a acc bs = true → Spec.LongOk a acc bs
  | [], ⟨_, _, _⟩, acc, h => by
    obtain ⟨h1, h2, h3, h4⟩ := of_decide_eq_true h
    cases h1; cases h2; cases h3
    exact ⟨rfl, h4⟩
  | .chars s :: bs, a, acc, h => by
    simp only [longB, Bool.and_eq_true, decide_eq_true_eq] at h
    exact ⟨⟨h.1.1.1, h.1.1.2, h.1.2⟩, longB_sound bs _ _ h.2⟩
  | .mark id :: bs, a, acc, h => by
    simp only [longB, Bool.and_eq_true, Bool.or_eq_true, decide_eq_true_eq] at h
    exact ⟨⟨h.1.1, fun hn => h.1.2.resolve_left fun h => h hn⟩, longB_sound bs _ _ h.2⟩
  | .name n :: bs, a, acc, h => by
    simp only [longB, Bool.and_eq_true, decide_eq_true_eq] at h
    exact ⟨⟨h.1.1.1, h.1.1.2.1, nameB_sound _ _ h.1.2, h.1.1.2.2⟩, longB_sound bs _ _ h.2⟩

/-- A test for `Spec.Atom.Ok`. -/
def atomB : Spec.Atom → Bool
  | .quote ps l => ps.all (fun p => decide (Spec.Free inText p.1) && nameB p.2 [] && decide (p.2.own = [])) && decide (Spec.Free inText l)
  | .long bs => longB ⟨0, 0, 0⟩ [] bs
  | .verb s => decide (Spec.Free inYuan s ∧ s ≠ [] ∧ Spec.NoCont s)
  | .kept [.plain s] => decide (Spec.Free Spec.isMark s ∧ Spec.strip s ≠ [] ∧ Spec.NoCont (Spec.piecesSrc (Spec.piecesKept [.plain s])))
  | .kept _ => false
  | .word s => decide (Spec.Free Spec.anyKw s ∧ Spec.strip s ≠ [])
  | .var n ns => nameB n ns && ns.all fun s => decide (Spec.Free inVar s)
  | .note s => decide (Spec.Free inVar s)
  | .sep => true

theorem atomB_sound (a : Spec.Atom) (h : atomB a = true) : a.Ok := by
  cases a with
  | quote ps l =>
    simp only [atomB, Bool.and_eq_true, decide_eq_true_eq, List.all_eq_true] at h
    exact ⟨fun p hp => ⟨(h.1 p hp).1.1, nameB_sound _ _ (h.1 p hp).1.2, (h.1 p hp).2⟩, h.2⟩
  | long bs => exact longB_sound bs _ _ h
  | verb s => exact of_decide_eq_true (p := Spec.Free inYuan s ∧ s ≠ [] ∧ Spec.NoCont s) h
  | kept ps =>
    match ps, h with
    | [.plain s], h =>
      obtain ⟨h1, h2, h3⟩ := of_decide_eq_true h
      exact ⟨⟨h1, nofun, rfl⟩, h2, h3⟩
  | word s => exact of_decide_eq_true (p := Spec.Free Spec.anyKw s ∧ Spec.strip s ≠ []) h
  | var n ns =>
    simp only [atomB, Bool.and_eq_true, decide_eq_true_eq, List.all_eq_true] at h
    exact ⟨nameB_sound _ _ h.1, h.2⟩
  | note s => exact of_decide_eq_true (p := Spec.Free inVar s) h
  | sep => trivial

/-- A test for `Spec.Clear`. -/
def clearB : List Spec.Frag → Bool
  | [] => true
  | u :: us => (match u with | .atom a => atomB a | .kw _ => true) && (us.head?.all fun v => u.before v) && clearB us

theorem clearB_sound : ∀ us, clearB us = true → Spec.Clear us
  | [], _ => trivial
  | u :: us, h => by
    simp only [clearB, Bool.and_eq_true] at h
    refine ⟨?_, ?_, clearB_sound us h.2⟩
    · rintro a rfl
      exact atomB_sound a h.1.1
    · intro v hv
      have := h.1.2
      rw [Option.mem_def.1 hv] at this
      exact this

/-- Words side by side. -/
def demoEls : List Spec.Atom → Spec.Phrase → Spec.Phrase
  | [], p => p
  | a :: as, p => .el (.atom a) (demoEls as p)

/-- A script with most of what the grammar has. -/
def demoScript : Spec.Script :=
  .sent (.asg .set_ (demoEls [.word c!" 甲", .sep, .word c!"乙 "] .nil) (demoEls [.quote [(c!"a ", .plain c!"丙"), (c!"", .arg c!"-1" (-1))] c!"c"] .nil))
  (.sent (.asg .def_ (demoEls [.word c!"丁", .sep, .word c!"戊", .note c!"己"] .nil) (demoEls [.kept [.plain c!"显示参数、10。"]] .nil))
  (.sent (.el (.loop false ⟨some (some (c!"3", 3)), some (c!"0", 0), some c!"庚", []⟩ .nil
      (.sent (.cmd .print (demoEls [.var (.plain c!"甲") [c!"上"], .word c!" 等 "] (.cmd .expl (demoEls [.word c!"乙"] .nil))))
      (.sent (.cond (.more (demoEls [.var (.args true [(c!"1", 1), (c!"-1", -1)]) []] .nil) .xiaoyu (.more (demoEls [.word c!" 5 "] .nil) .or_
            (.last (.cmd .has (demoEls [.word c!"辛"] .nil)))))
          (.cmd (.jump .break_) .nil))
      (.done .nil))))
    (.cmd .jie2 (.cmd (.eval true none) (demoEls [.verb c!"‘壬’"] .nil))))
  (.sent (.el (.switch false [.var (.plain c!"甲") []]
      (.sent (demoEls [.word c!"1"] (.el (.block (.sent (.cmd .print (demoEls [.word c!"一"] .nil)) (.done .nil))) .nil))
      (.sent (.el (.block (.sent (.cmd .modFree .nil) (.done .nil))) .nil) (.done .nil)))) .nil)
  (.sent (.cond2 (.last (demoEls [.var .argc []] .nil)) (.el (.cond (.last (demoEls [.word c!"0"] .nil)) .nil .nil (.done .nil)) .nil)
      (.asg .«alias» .nil (demoEls [.word c!"癸"] .nil)))
  (.done (demoEls [.word c!" 再见"] .nil))))))

example : demoScript.src = c!"赋予 甲、乙 以“a ‘丙’‘参数-1’c”。定义丁、戊【己】以下代码显示参数、10。上代码。循环【3】【0】【庚】先\
    显示‘甲【上】’ 等 算术乙。如果‘参数【1】【-1】’小于 5 或者存在辛那么跳出。了管道节解释【在当前区】下原样‘壬’上原样。\
    分叉‘甲’先1先显示一。了。先释放模块。了。了。如果‘参数数目’那么如果0那么否则先了否则别名以癸。 再见" := by
  decide +kernel

/-- Non-vacuity of C60. -/
example : demoScript.Ok ∧ Spec.Clear demoScript.units := by
  constructor
  · have n3 : Spec.IsNum 64 (Spec.strip c!"3") 3 := by
      have := (C56_read_i64 (Spec.strip c!"3") 3).1 (by decide)
      exact ⟨this.2.2, this.1, this.2.1⟩
    have n0 : Spec.IsNum 64 (Spec.strip c!"0") 0 := by
      have := (C56_read_i64 (Spec.strip c!"0") 0).1 (by decide)
      exact ⟨this.2.2, this.1, this.2.1⟩
    have hc : Spec.Counter.Ok ⟨some (some (c!"3", 3)), some (c!"0", 0), some c!"庚", []⟩ false := by
      refine ⟨?_, ?_, ?_, nofun, nofun⟩
      · rintro s i ⟨⟩; exact n3
      · rintro s i ⟨⟩; exact ⟨n0, nofun⟩
      · rintro s ⟨⟩; exact ⟨by decide, nofun⟩
    simp [demoScript, demoEls, Spec.Script.Ok, Spec.Phrase.Ok, Spec.El.Ok, Spec.Condition.Ok, Spec.Cmd.Ok, Spec.Asg.Ok, Spec.Phrase.code, Spec.El.code,
      Spec.Atom.items, Spec.Phrase.closed, Spec.Phrase.noBlock, Spec.Phrase.noIf, Spec.Cmd.isLoop, Spec.Name.item, Spec.Script.lines, Spec.others,
      Spec.Cmd.build, inIf, Spec.isNote, hc, Spec.El.isBlock]
  · exact clearB_sound _ (by decide +kernel)

/-- A quoted text of one byte between two words is not kept apart: it is glued to the word after it. -/
theorem C20_one_byte_counterexample :
    (match parse c!"甲“a”乙。", parse c!"甲“ab”乙。" with
      | .ok (.ok [.undef a, .undef b, .kw1 .jvhao]), .ok (.ok [.undef a', .text b', .undef c', .kw1 .jvhao]) =>
        decide (a = c!"甲" ∧ b = c!"a乙" ∧ a' = c!"甲" ∧ b' = c!"ab" ∧ c' = c!"乙")
      | _, _ => false) = true := by
  decide +kernel

end Zh
