import Verif.Props.ParsTotal
/-!
# The parser works on a sequence of tokens

The quoting state decides which keywords are recognised, and it depends only on the keywords met so far,
not on the nesting of sentences.  So the source can be cut into tokens first (`lex`), and the parser is
the same as one that reads these tokens (`parsT`).  This refinement is used for C16–C20.
-/
namespace Zh

/-- A token: a byte of a text (with the flag "inside a quotation"), a keyword that is itself text (with
the flag whether a collected unquoted text is flushed first), or a keyword of the language. -/
inductive LTok where
  | byte (c : Nat) (now : Bool)
  | kwText (id : KwId) (chk : Bool)
  | kw (id : KwId)
deriving Repr, DecidableEq

/-- New quoting state and token (if any) for a keyword. -/
def lexKw (q : Quo) (id : KwId) : Quo × Option LTok :=
  if (q.add4 id).2 = 1 then ((q.add4 id).1, none)
  else if (q.add4 id).2 = 2 then ((q.add4 id).1, some (.kwText id true))
  else match q.bracket id with
    | some q' => (q', some (if q'.as2 then .kwText id false else .kw id))
    | none => (q, some (.kw id))

/-- Cutting a source into tokens. -/
def lex (q : Quo) : List Nat → List LTok
  | [] => []
  | c :: cs =>
    match kwAt q false (c :: cs) with
    | some (id, m) => (lexKw q id).2.toList ++ lex (lexKw q id).1 (cs.drop (m - 1))
    | none => if q.keep c then .byte c q.inText :: lex q cs else lex q cs
termination_by s => s.length
decreasing_by all_goals simp <;> omega

/-- `pars` reading tokens; position and quoting counters of the state are not used. -/
def parsT : Nat → Int → Option KwId → List Layer → PS → List LTok → PR (PS × List LTok)
  | 0, _, _, _, _, _ => .fuel
  | _ + 1, _, _, _, s, [] => addText s >>= fun s => .ok (s, [])
  | n + 1, me, kw, ups, s, .byte c now :: ts => keepByte c now s >>= fun s => parsT n me kw ups s ts
  | n + 1, me, kw, ups, s, .kwText id chk :: ts =>
    (if chk && !s.is.old then addText s else .ok s) >>= fun s =>
      parsT n me kw ups { s with text := s.text ++ kwBytes id } ts
  | n + 1, me, kw, ups, s, .kw id :: ts =>
    kwMain me kw ups id s >>= fun nx =>
      match nx with
      | .loop s => parsT n me kw ups s ts
      | .brk s => addText s >>= fun s => .ok (s, ts)
      | .child s =>
        parsT n (me + 1) (some id) (⟨me, kw, s.ret0⟩ :: ups) (childState id s) ts >>= fun ch =>
          afterChild me id s ch.1 >>= fun p =>
            if p.2 then
              parsT n me kw ups p.1 (if ch.1.mu > 0 then .kw .beginBlock :: ch.2 else ch.2)
            else addText p.1 >>= fun s => .ok (s, ch.2)

/-- The state without position and quoting counters. -/
def PS.er (s : PS) : PS := { s with i := 0, is := { s.is with q := Quo.zero } }

/-- Same result up to the parts erased; `P` is what is known of the full result. -/
def PR.Er (x y : PR PS) : Prop :=
  match x, y with
  | .ok r, .ok r' => r' = r.er
  | .err e _, .err e' _ => e = e'
  | .panic, .panic => True
  | .fuel, .fuel => True
  | _, _ => False

theorem addCode_er (c : Code) (s : PS) : (addCode c s).Er (addCode c s.er) := by
  unfold addCode
  rw [show s.er.ret0 = s.ret0 from rfl, show s.er.c2 = s.c2 from rfl, show s.er.c3 = s.c3 from rfl]
  by_cases h2 : s.ret0 = 2
  · simp only [h2, if_true]
    cases s.c2 <;> simp [PR.Er, PS.er]
  · by_cases h3 : s.ret0 = 3
    · simp only [h3]
      cases s.c3 <;> simp [PR.Er, PS.er]
    · simp only [h2, h3, if_false]
      simp [PR.Er, PS.er]

theorem addText_er (s : PS) : (addText s).Er (addText s.er) := by
  unfold addText
  rw [show s.er.text = s.text from rfl, show s.er.is.old = s.is.old from rfl]
  by_cases h : s.text.isEmpty = true
  · simp only [h, if_true]
    simp [PR.Er, PS.er, IsText.clear]
  · simp only [h]
    cases decode s.text with
    | none => simp [PR.Er]
    | some t =>
      simp only
      cases textCode (!s.is.old) t with
      | panic => simp [PR.Er]
      | fuel => simp [PR.Er]
      | ok c => exact addCode_er c { s with text := [], is := s.is.clear }

theorem addKw_er (id : KwId) (s : PS) : (addKw id s).Er (addKw id s.er) := by
  unfold addKw
  split
  · exact addCode_er _ s
  · split
    all_goals first | exact addCode_er _ s | trivial

theorem PR.Er.bind {x y : PR PS} {f g : PS → PR PS} (h : x.Er y) (hf : ∀ a, (f a).Er (g a.er)) :
    (x >>= f).Er (y >>= g) := by
  cases x <;> cases y <;> simp_all [PR.Er]

theorem keepByte_er (c : Nat) (now : Bool) (s : PS) : (keepByte c now s).Er (keepByte c now s.er) := by
  unfold keepByte
  refine PR.Er.bind ?_ (fun a => rfl)
  obtain ⟨i, mi, mkw, mu, ⟨q, first, old, now', data⟩, ret0, c1, c2, c3, text⟩ := s
  have key : ∀ is' : IsText, (if (old != now) = true then
      addText ⟨i, mi, mkw, mu, is', ret0, c1, c2, c3, text⟩
      else .ok ⟨i, mi, mkw, mu, is', ret0, c1, c2, c3, text⟩).Er
      (if (old != now) = true then addText (PS.er ⟨i, mi, mkw, mu, is', ret0, c1, c2, c3, text⟩)
      else .ok (PS.er ⟨i, mi, mkw, mu, is', ret0, c1, c2, c3, text⟩)) := by
    intro is'
    split
    · exact addText_er _
    · rfl
  cases first with
  | true => exact key _
  | false =>
    have h : (now != now) = false := by cases now <;> rfl
    simp only [IsText.needClear, PS.er, h, Bool.false_eq_true, if_false]
    rfl

/-- The same for `Next`. -/
def Next.er : Next → Next
  | .loop s => .loop s.er
  | .brk s => .brk s.er
  | .child s => .child s.er

def PR.ErN (x y : PR Next) : Prop :=
  match x, y with
  | .ok r, .ok r' => r' = r.er
  | .err e _, .err e' _ => e = e'
  | .panic, .panic => True
  | .fuel, .fuel => True
  | _, _ => False

theorem PR.Er.bindN {x y : PR PS} {f g : PS → PR Next} (h : x.Er y) (hf : ∀ a, (f a).ErN (g a.er)) :
    (x >>= f).ErN (y >>= g) := by
  cases x <;> cases y <;> simp_all [PR.Er, PR.ErN]

theorem kwRet0_er (id : KwId) (s : PS) : kwRet0 id s.er = (kwRet0 id s).er := by
  unfold kwRet0; split <;> rfl

theorem kwKind_er (id : KwId) (s : PS) : kwKind id s.er = (kwKind id s).er := by
  unfold kwKind; split <;> rfl

theorem kwRest_er (id : KwId) (s : PS) : (kwRest id s).ErN (kwRest id s.er) := by
  unfold kwRest
  rw [kwRet0_er]
  split
  · exact (addKw_er id _).bindN fun a => rfl
  · simp [PR.ErN, kwKind_er]

theorem layerI1_er (selfI : Int) (ls : List Layer) (id : KwId) (s : PS) :
    layerI1 selfI ls id s.er = ((layerI1 selfI ls id s).1.er, (layerI1 selfI ls id s).2) := by
  unfold layerI1
  generalize layerScan selfI ls id = t
  obtain ⟨ret, must, u⟩ := t
  simp only
  by_cases hu : u = 0
  · simp only [hu, if_true]
    split
    · rfl
    · split <;> rfl
  · simp only [hu, if_false]
    split
    · rfl
    · split <;> rfl

theorem kwMain_er (me : Int) (kw : Option KwId) (ups : List Layer) (id : KwId) (s : PS) :
    (kwMain me kw ups id s).ErN (kwMain me kw ups id s.er) := by
  unfold kwMain
  refine (addText_er s).bindN ?_
  intro a
  split
  · rfl
  · split
    · have h := layerI1_er me (⟨me, kw, a.ret0⟩ :: ups) id a
      have hr : a.er.ret0 = a.ret0 := rfl
      rw [hr, h]
      cases layerI1 me (⟨me, kw, a.ret0⟩ :: ups) id a with
      | mk r b =>
        cases b with
        | true => rfl
        | false => exact kwRest_er id r
    · exact kwRest_er id a

theorem childState_er (id : KwId) (s : PS) : childState id s.er = (childState id s).er := rfl

/-- Result of `afterChild`, erased. -/
def PR.ErB (x y : PR (PS × Bool)) : Prop :=
  match x, y with
  | .ok r, .ok r' => r' = (r.1.er, r.2)
  | .err e _, .err e' _ => e = e'
  | .panic, .panic => True
  | .fuel, .fuel => True
  | _, _ => False

theorem PR.Er.bindB {x y : PR PS} {f g : PS → PR (PS × Bool)} (h : x.Er y)
    (hf : ∀ a, (f a).ErB (g a.er)) : (x >>= f).ErB (y >>= g) := by
  cases x <;> cases y <;> simp_all [PR.Er, PR.ErB]

/-- The handling of a pending keyword in `afterChild`. -/
theorem pending_er (s : PS) :
    (match s.mkw with
      | some k =>
        if k = .jvhao ∨ inIf k then addKw k s
        else match k with
          | .then_ => .ok { s with ret0 := 2 }
          | .else_ => .ok { s with ret0 := 3 }
          | _ => .ok s
      | none => .ok s : PR PS).Er
    (match s.er.mkw with
      | some k =>
        if k = .jvhao ∨ inIf k then addKw k s.er
        else match k with
          | .then_ => .ok { s.er with ret0 := 2 }
          | .else_ => .ok { s.er with ret0 := 3 }
          | _ => .ok s.er
      | none => .ok s.er : PR PS) := by
  obtain ⟨i, mi, mkw, mu, is, ret0, c1, c2, c3, text⟩ := s
  cases mkw with
  | none => rfl
  | some k =>
    simp only [show (PS.er ⟨i, mi, some k, mu, is, ret0, c1, c2, c3, text⟩).mkw = some k from rfl]
    split
    · exact addKw_er k _
    · split <;> rfl

theorem afterChild_er (me : Int) (id : KwId) (s ch : PS) :
    (afterChild me id s ch).ErB (afterChild me id s.er ch.er) := by
  unfold afterChild
  have hc : mkCode id ch.er.c1 (ch.er.c2.getD []) (ch.er.c3.getD []) =
      mkCode id ch.c1 (ch.c2.getD []) (ch.c3.getD []) := rfl
  rw [hc]
  split
  · rfl
  · rfl
  · rename_i c _
    refine (addCode_er c ({ ch with ret0 := s.ret0, c1 := s.c1, c2 := s.c2, c3 := s.c3, text := s.text } :
      PS)).bindB ?_
    intro a
    have h1 : a.er.mu = a.mu := rfl
    have h2 : a.er.mi = a.mi := rfl
    rw [h1, h2]
    split
    · simp [PR.ErB, PS.er, PS.reset]
    · split
      · rfl
      · refine (pending_er a).bindB ?_
        intro b; rfl

/-- A source in which `先` is always three bytes long (true of valid UTF-8). -/
def BlockLen (a : List Nat) : Prop :=
  ∀ i q m, kwAt q false (a.drop i) = some (.beginBlock, m) → m = 3

/-- Result of the parser and of the token parser. -/
def PR.Lex (a : List Nat) (x : PR PS) (y : PR (PS × List LTok)) : Prop :=
  match x, y with
  | .ok r, .ok (r', ts) =>
    r' = r.er ∧ ts = lex r.is.q (a.drop r.i) ∧ r.is.data = false ∧ r.mu ≤ r.i ∧
      (r.mu > 0 → lex r.is.q (a.drop (r.i - r.mu)) = .kw .beginBlock :: lex r.is.q (a.drop r.i))
  | .err e _, .err e' _ => e = e'
  | .panic, .panic => True
  | _, _ => False

theorem lex_cons_hit {q : Quo} {src : List Nat} {id : KwId} {m : Nat}
    (h : kwAt q false src = some (id, m)) :
    lex q src = (lexKw q id).2.toList ++ lex (lexKw q id).1 (src.drop m) := by
  have hm := kwAt_len h
  cases src with
  | nil => simp at hm; omega
  | cons c cs =>
    rw [lex, h]
    simp only
    congr 2
    obtain ⟨k, rfl⟩ : ∃ k, m = k + 1 := ⟨m - 1, by omega⟩
    simp

theorem lex_cons_miss {q : Quo} {c : Nat} {cs : List Nat} (h : kwAt q false (c :: cs) = none) :
    lex q (c :: cs) = (if q.keep c then [LTok.byte c q.inText] else []) ++ lex q cs := by
  rw [lex, h]
  simp only
  split <;> simp

theorem lex_nil (q : Quo) : lex q [] = [] := by rw [lex]

/-- `kwStep` in terms of the lexer. -/
theorem kwStep_lex (me : Int) (kw : Option KwId) (ups : List Layer) (id : KwId) (s : PS) :
    kwStep me kw ups id s =
      match (lexKw s.is.q id).2 with
      | none => .ok (.loop { s with is := { s.is with q := (lexKw s.is.q id).1 } })
      | some (.kwText id' chk) =>
        (if chk && !s.is.old then addText { s with is := { s.is with q := (lexKw s.is.q id).1 } }
          else .ok { s with is := { s.is with q := (lexKw s.is.q id).1 } }) >>= fun s =>
            .ok (.loop { s with text := s.text ++ kwBytes id' })
      | some (.kw id') => kwMain me kw ups id' { s with is := { s.is with q := (lexKw s.is.q id).1 } }
      | some (.byte _ _) => .panic := by
  by_cases h1 : (s.is.q.add4 id).2 = 1
  · have hl : lexKw s.is.q id = ((s.is.q.add4 id).1, none) := by simp [lexKw, h1]
    rw [hl]
    simp [kwStep, h1]
  · by_cases h2 : (s.is.q.add4 id).2 = 2
    · have hl : lexKw s.is.q id = ((s.is.q.add4 id).1, some (.kwText id true)) := by simp [lexKw, h2]
      rw [hl]
      simp only [kwStep, h2, Nat.reduceEqDiff, if_false, if_true, Bool.true_and]
      generalize s.is.q.add4 id = p
      obtain ⟨i, mi, mkw, mu, ⟨q, first, old, now', data⟩, ret0, c1, c2, c3, text⟩ := s
      cases old <;> rfl
    · cases e : s.is.q.bracket id with
      | none =>
        have hl : lexKw s.is.q id = (s.is.q, some (.kw id)) := by simp [lexKw, h1, h2, e]
        rw [hl]
        simp [kwStep, h1, h2, e]
      | some q' =>
        have hl : lexKw s.is.q id = (q', some (if q'.as2 then .kwText id false else .kw id)) := by
          simp [lexKw, h1, h2, e]
        rw [hl]
        cases h3 : q'.as2 <;> simp [kwStep, h1, h2, e, h3]

/-- A token never stands for a different keyword. -/
theorem lexKw_id {q : Quo} {id id' : KwId} (h : (lexKw q id).2 = some (.kw id')) : id' = id := by
  unfold lexKw at h
  split at h
  · simp at h
  · split at h
    · simp at h
    · split at h
      · split at h <;> simp at h
        exact h.symm
      · simp at h; exact h.symm

theorem lexKw_idT {q : Quo} {id id' : KwId} {b : Bool} (h : (lexKw q id).2 = some (.kwText id' b)) :
    id' = id := by
  unfold lexKw at h
  split at h
  · simp at h
  · split at h
    · simp at h; exact h.1.symm
    · split at h
      · split at h <;> simp at h
        exact h.1.symm
      · simp at h

theorem lexKw_ne_byte {q : Quo} {id : KwId} {c : Nat} {b : Bool} : (lexKw q id).2 ≠ some (.byte c b) := by
  unfold lexKw
  split
  · simp
  · split
    · simp
    · split
      · split <;> simp
      · simp

theorem lexKw_beginBlock (q : Quo) : lexKw q .beginBlock = (q, some (.kw .beginBlock)) := rfl

theorem PR.Lex.ofText {a : List Nat} {s : PS} (hd : s.is.data = false) (hle : s.mu ≤ s.i)
    (h : s.mu > 0 → lex s.is.q (a.drop (s.i - s.mu)) = .kw .beginBlock :: lex s.is.q (a.drop s.i)) :
    PR.Lex a (addText s) (addText s.er >>= fun r => .ok (r, lex s.is.q (a.drop s.i))) := by
  have h1 := addText_er s
  have h2 := addText_post s
  cases e1 : addText s with
  | ok r =>
    rw [e1] at h1
    have h3 := h2.2 r e1
    cases e2 : addText s.er with
    | ok r' =>
      rw [e2] at h1
      simp only [PR.Er] at h1
      simp only [PR.ok_bind, PR.Lex]
      rw [h3.q, h3.i, h3.mu, h3.data]
      exact ⟨h1, rfl, hd, hle, h⟩
    | err e i => rw [e2] at h1; exact h1.elim
    | panic => rw [e2] at h1; exact h1.elim
    | fuel => rw [e2] at h1; exact h1.elim
  | err e i =>
    rw [e1] at h1
    cases e2 : addText s.er with
    | err e' i' => rw [e2] at h1; exact h1
    | ok r' => rw [e2] at h1; exact h1.elim
    | panic => rw [e2] at h1; exact h1.elim
    | fuel => rw [e2] at h1; exact h1.elim
  | panic =>
    rw [e1] at h1
    cases e2 : addText s.er with
    | panic => trivial
    | ok r' => rw [e2] at h1; exact h1.elim
    | err e i => rw [e2] at h1; exact h1.elim
    | fuel => rw [e2] at h1; exact h1.elim
  | fuel => exact absurd e1 h2.1

theorem PR.bind_assoc' {α β γ : Type} (x : PR α) (f : α → PR β) (g : β → PR γ) :
    ((x >>= f) >>= g) = x >>= fun a => f a >>= g := by
  cases x <;> rfl

/-- Reading one more token. -/
theorem PR.Er.bindLex {a : List Nat} {x y : PR PS} {f : PS → PR PS} {g : PS → PR (PS × List LTok)}
    (h : x.Er y) (hx : x ≠ .fuel) (hf : ∀ r, x = .ok r → PR.Lex a (f r) (g r.er)) :
    PR.Lex a (x >>= f) (y >>= g) := by
  cases x with
  | ok r =>
    cases y with
    | ok r' => simp only [PR.Er] at h; subst h; exact hf r rfl
    | err => exact h.elim
    | panic => exact h.elim
    | fuel => exact h.elim
  | err e i =>
    cases y with
    | err e' i' => exact h
    | ok => exact h.elim
    | panic => exact h.elim
    | fuel => exact h.elim
  | panic =>
    cases y with
    | panic => trivial
    | ok => exact h.elim
    | err => exact h.elim
    | fuel => exact h.elim
  | fuel => exact absurd rfl hx

theorem PR.ErB.bindLex {a : List Nat} {x y : PR (PS × Bool)} {f : PS × Bool → PR PS}
    {g : PS × Bool → PR (PS × List LTok)}
    (h : x.ErB y) (hx : x ≠ .fuel) (hf : ∀ r, x = .ok r → PR.Lex a (f r) (g (r.1.er, r.2))) :
    PR.Lex a (x >>= f) (y >>= g) := by
  cases x with
  | ok r =>
    cases y with
    | ok r' => simp only [PR.ErB] at h; subst h; exact hf r rfl
    | err => exact h.elim
    | panic => exact h.elim
    | fuel => exact h.elim
  | err e i =>
    cases y with
    | err e' i' => exact h
    | ok => exact h.elim
    | panic => exact h.elim
    | fuel => exact h.elim
  | panic =>
    cases y with
    | panic => trivial
    | ok => exact h.elim
    | err => exact h.elim
    | fuel => exact h.elim
  | fuel => exact absurd rfl hx

theorem PR.ErN.bindLex {a : List Nat} {x y : PR Next} {f : Next → PR PS}
    {g : Next → PR (PS × List LTok)}
    (h : x.ErN y) (hx : x ≠ .fuel) (hf : ∀ r, x = .ok r → PR.Lex a (f r) (g r.er)) :
    PR.Lex a (x >>= f) (y >>= g) := by
  cases x with
  | ok r =>
    cases y with
    | ok r' => simp only [PR.ErN] at h; subst h; exact hf r rfl
    | err => exact h.elim
    | panic => exact h.elim
    | fuel => exact h.elim
  | err e i =>
    cases y with
    | err e' i' => exact h
    | ok => exact h.elim
    | panic => exact h.elim
    | fuel => exact h.elim
  | panic =>
    cases y with
    | panic => trivial
    | ok => exact h.elim
    | err => exact h.elim
    | fuel => exact h.elim
  | fuel => exact absurd rfl hx

theorem PR.Lex.bindLex {a : List Nat} {x : PR PS} {y : PR (PS × List LTok)} {f : PS → PR PS}
    {g : PS × List LTok → PR (PS × List LTok)} (h : PR.Lex a x y)
    (hf : ∀ r, x = .ok r → r.is.data = false → r.mu ≤ r.i →
      (r.mu > 0 → lex r.is.q (a.drop (r.i - r.mu)) = .kw .beginBlock :: lex r.is.q (a.drop r.i)) →
      PR.Lex a (f r) (g (r.er, lex r.is.q (a.drop r.i)))) :
    PR.Lex a (x >>= f) (y >>= g) := by
  cases x with
  | ok r =>
    cases y with
    | ok p =>
      obtain ⟨r', ts⟩ := p
      obtain ⟨rfl, rfl, h3, h4, h5⟩ := h
      exact hf r rfl h3 h4 h5
    | err => exact h.elim
    | panic => exact h.elim
    | fuel => exact h.elim
  | err e i =>
    cases y with
    | err e' i' => exact h
    | ok => exact h.elim
    | panic => exact h.elim
    | fuel => exact h.elim
  | panic =>
    cases y with
    | panic => trivial
    | ok => exact h.elim
    | err => exact h.elim
    | fuel => exact h.elim
  | fuel => cases y <;> exact h.elim

/-- State kept by `afterChild`. -/
theorem afterChild_post2 (me : Int) (id : KwId) (s ch : PS) :
    (afterChild me id s ch).Post (fun p => p.1.i = ch.i - ch.mu ∧ p.1.mu = 0 ∧ p.1.is.q = ch.is.q ∧
      p.1.is.data = ch.is.data ∧ (p.2 = false → ch.mu = 0)) := by
  unfold afterChild
  split
  · exact .err
  · exact .err
  · refine (addCode_post _ _).bind ?_
    intro r hr
    have hi : r.i = ch.i := hr.i
    have hm : r.mu = ch.mu := hr.mu
    have hq : r.is.q = ch.is.q := hr.q
    have hd : r.is.data = ch.is.data := hr.data
    split
    · exact .ok ⟨by simp [PS.reset, hi, hm], rfl, hq, hd, by simp⟩
    · have h0 : r.mu = 0 := by omega
      split
      · exact .ok ⟨by simp; omega, h0, hq, hd, fun _ => by omega⟩
      · refine PR.Post.bind (P := fun x => x.i = ch.i ∧ x.is.q = ch.is.q ∧ x.is.data = ch.is.data) ?_ ?_
        · split
          · split
            · exact (addKw_post _ _).mono fun x hx => ⟨hx.i.trans hi, hx.q.trans hq, hx.data.trans hd⟩
            · split
              · exact .ok ⟨hi, hq, hd⟩
              · exact .ok ⟨hi, hq, hd⟩
              · exact .ok ⟨hi, hq, hd⟩
          · exact .ok ⟨hi, hq, hd⟩
        · rintro x ⟨hx, hx2, hx3⟩
          exact .ok ⟨by simp [PS.reset, hx]; omega, rfl, hx2, hx3, by simp⟩

theorem keepByte_post (c : Nat) (now : Bool) (s : PS) : (keepByte c now s).Post (fun r => r.i = s.i ∧
    r.mu = s.mu ∧ r.is.q = s.is.q ∧ r.is.data = s.is.data) := by
  unfold keepByte
  have hq : ((s.is.needClear now).2).q = s.is.q := by
    simp only [IsText.needClear]; split <;> rfl
  have hd : ((s.is.needClear now).2).data = s.is.data := by
    simp only [IsText.needClear]; split <;> rfl
  refine PR.Post.bind (P := fun r => r.i = s.i ∧ r.mu = s.mu ∧ r.is.q = s.is.q ∧ r.is.data = s.is.data) ?_ ?_
  · split
    · exact (addText_post _).mono fun r h => ⟨h.i, h.mu, h.q.trans hq, h.data.trans hd⟩
    · exact .ok ⟨rfl, rfl, hq, hd⟩
  · intro r hr; exact .ok hr

/-- The refinement: reading bytes is the same as reading the tokens cut from them. -/
theorem pars_lex {a : List Nat} (hb : BlockLen a) : ∀ (n : Nat) (me : Int) (kw : Option KwId)
    (ups : List Layer) (s : PS), s.mu = 0 → s.is.data = false → a.length - s.i < n →
    ∀ m, a.length - s.i < m →
      PR.Lex a (pars a n me kw ups s) (parsT m me kw ups s.er (lex s.is.q (a.drop s.i))) := by
  intro n
  induction n with
  | zero => intro me kw ups s _ _ h; omega
  | succ n ih =>
    intro me kw ups s hmu hd hn m hm
    obtain ⟨m, rfl⟩ : ∃ k, m = k + 1 := ⟨m - 1, by omega⟩
    unfold pars
    by_cases hlt : a.length ≤ s.i
    · simp only [hlt, if_true]
      have hnil : a.drop s.i = [] := List.drop_eq_nil_iff.2 hlt
      have := PR.Lex.ofText (a := a) hd (by omega) (fun h => by omega)
      rw [hnil, lex_nil] at this ⊢
      exact this
    · simp only [hlt, if_false]
      rw [hd]
      cases hk : kwAt s.is.q false (a.drop s.i) with
      | none =>
        simp only
        have hlt' : s.i < a.length := by omega
        have hcons : a.drop s.i = a[s.i] :: a.drop (s.i + 1) := List.drop_eq_getElem_cons hlt'
        have hget : (a[s.i]?).getD 0 = a[s.i] := by simp [hlt']
        rw [hget]
        rw [hcons] at hk ⊢
        rw [lex_cons_miss hk]
        unfold byteStep
        by_cases hkeep : s.is.q.keep a[s.i] = true
        · simp only [hkeep, if_true, List.singleton_append, parsT]
          rw [PR.bind_assoc']
          refine (keepByte_er a[s.i] s.is.q.inText s).bindLex (keepByte_post a[s.i] s.is.q.inText s).1 ?_
          intro r hr
          obtain ⟨g1, g2, g3, g4⟩ := (keepByte_post a[s.i] s.is.q.inText s).2 r hr
          simp only [PR.ok_bind]
          have := ih me kw ups { r with i := r.i + 1 } (by simp [g2, hmu]) (by simp [g4, hd])
            (by simp [g1]; omega) m (by simp [g1]; omega)
          simp only [g3, g1] at this ⊢
          exact this
        · simp only [hkeep]
          simp only [Bool.false_eq_true, if_false, List.nil_append]
          exact ih me kw ups { s with i := s.i + 1 } hmu hd (by simp; omega) (m + 1) (by simp; omega)
      | some r =>
        obtain ⟨id, w⟩ := r
        simp only
        have hw := kwAt_len hk
        have hw3 := hw.2.2
        simp only [List.length_drop] at hw3
        rw [lex_cons_hit hk, List.drop_drop]
        rw [kwStep_lex]
        simp only
        generalize hs1 : ({ s with i := s.i + w, is := { s.is with q := (lexKw s.is.q id).1 } } : PS) = s1
        have e1 : s1.er = s.er := by subst hs1; rfl
        have e2 : s1.is.old = s.is.old := by subst hs1; rfl
        have e3 : s1.i = s.i + w := by subst hs1; rfl
        have e4 : s1.is.q = (lexKw s.is.q id).1 := by subst hs1; rfl
        have e5 : s1.mu = 0 := by subst hs1; exact hmu
        have e6 : s1.is.data = false := by subst hs1; exact hd
        rw [← e1]
        cases hl : (lexKw s.is.q id).2 with
        | none =>
          simp only [PR.ok_bind, Option.toList, List.nil_append]
          have := ih me kw ups s1 e5 e6 (by omega) (m + 1) (by omega)
          rw [e4, e3] at this
          exact this
        | some tok =>
          simp only [Option.toList, List.singleton_append]
          cases tok with
          | byte c b => exact absurd hl lexKw_ne_byte
          | kwText id' chk =>
            have := lexKw_idT hl
            subst this
            simp only [parsT]
            rw [show s1.er.is.old = s1.is.old from rfl, PR.bind_assoc', ← e2]
            have hx : (if chk && !s1.is.old then addText s1 else PR.ok s1).Er
                (if chk && !s1.is.old then addText s1.er else PR.ok s1.er) := by
              split
              · exact addText_er s1
              · rfl
            have hp : (if chk && !s1.is.old then addText s1 else PR.ok s1).Post (fun r => s1.Same r) := by
              split
              · exact addText_post s1
              · exact .ok ⟨rfl, rfl, rfl, rfl, rfl, rfl⟩
            refine hx.bindLex hp.1 ?_
            intro r hr
            have hs := hp.2 r hr
            simp only [PR.ok_bind]
            have := ih me kw ups { r with text := r.text ++ kwBytes id' } (by simp [hs.mu, e5])
              (by simp [hs.data, e6]) (by simp [hs.i, e3]; omega) m (by simp [hs.i, e3]; omega)
            rw [← e4, ← e3, ← hs.q, ← hs.i]
            exact this
          | kw id' =>
            have := lexKw_id hl
            subst this
            simp only [parsT]
            refine (kwMain_er me kw ups id' s1).bindLex (kwMain_post me kw ups id' s1).1 ?_
            intro nx hnx
            have g := (kwMain_post me kw ups id' s1).2 nx hnx
            cases nx with
            | loop r =>
              have g : s1.Same r := g
              simp only [Next.er]
              have := ih me kw ups r (by rw [g.mu, e5]) (by rw [g.data, e6])
                (by rw [g.i, e3]; omega) m (by rw [g.i, e3]; omega)
              rw [g.q, g.i, e3, e4] at this
              exact this
            | brk r =>
              obtain ⟨g1, g2, g3, g4⟩ := g
              simp only [Next.er]
              have := PR.Lex.ofText (a := a) (s := r) (by rw [g3, e6])
                (by
                  rcases g4 with g4 | ⟨rfl, g4⟩
                  · omega
                  · have := hw.1
                    have h3 : (kwBytes .beginBlock).length = 3 := by decide
                    omega)
                (by
                  intro hpos
                  rcases g4 with g4 | ⟨rfl, g4⟩
                  · omega
                  · have hw3 : w = 3 := hb _ _ _ hk
                    subst hw3
                    rw [g1, g2, g4, e3, e4, lexKw_beginBlock]
                    simp only [Nat.add_sub_cancel]
                    rw [lex_cons_hit hk, lexKw_beginBlock, List.drop_drop]
                    rfl)
              rw [g1, g2, e3, e4] at this
              exact this
            | child r =>
              have g : s1.Same r := g
              simp only [Next.er]
              have hc := ih (me + 1) (some id') (⟨me, kw, r.ret0⟩ :: ups) (childState id' r)
                (by simp [childState, g.mu, e5]) (by simp [childState, g.data, e6])
                (by simp [childState, g.i, e3]; omega) m (by simp [childState, g.i, e3]; omega)
              simp only [show (childState id' r).is = r.is by rfl, show (childState id' r).i = r.i by rfl,
                g.q, g.i, e3, e4] at hc
              rw [← childState_er] at hc
              refine hc.bindLex ?_
              intro ch hch c1 c2 c3
              have hfwd := (pars_post a n (me + 1) (some id') (⟨me, kw, r.ret0⟩ :: ups) (childState id' r)
                (by simp [childState, g.mu, e5]) (by simp [childState, g.i, e3]; omega)).2 ch hch
              simp only [show (childState id' r).i = r.i by rfl, g.i, e3] at hfwd
              refine (afterChild_er me id' r ch).bindLex (afterChild_post2 me id' r ch).1 ?_
              rintro ⟨p, b⟩ hp
              obtain ⟨p1, p2, p3, p4, p5⟩ := (afterChild_post2 me id' r ch).2 _ hp
              simp only at p1 p2 p3 p4 p5 ⊢
              cases b with
              | true =>
                simp only [if_true]
                have := ih me kw ups p p2 (by rw [p4, c1]) (by omega) m (by omega)
                rw [p3, p1] at this
                by_cases hmu' : ch.mu > 0
                · rw [c3 hmu'] at this
                  simpa [PS.er, hmu'] using this
                · have hz : ch.mu = 0 := by omega
                  simpa [PS.er, hz] using this
              | false =>
                have hz := p5 rfl
                simp only [Bool.false_eq_true, if_false]
                have := PR.Lex.ofText (a := a) (s := p) (by rw [p4, c1]) (by omega) (fun h => by omega)
                rw [p3, p1, hz] at this
                simpa using this

end Zh
