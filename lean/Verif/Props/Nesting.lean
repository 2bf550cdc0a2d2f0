import Verif.Props.Quoting
/-!
# C19, C20, C59: nested quoting; code kept as text
-/
namespace Zh

/-! ## Specification -/

/-- The text contains none of the keywords `p`, even with blanks inside. -/
def Spec.Free (p : KwId → Bool) (s : Str) : Prop := ∀ id, p id = true → ¬ kwStr id <:+: Spec.strip s

/-- Quoted text without control characters. -/
def Spec.printable (s : Str) : Str := s.filter fun c => decide (32 ≤ c.toNat)

/-- The marks that matter in code that is kept as text, and those around annotations. -/
def Spec.isMark (id : KwId) : Bool := inCode id || inVar id

/-- A piece of code: what stands between the marks, and the marks. -/
inductive Spec.CodePiece where
  /-- anything without marks -/
  | plain (s : Str)
  /-- a quoted text `“s‘v’s‘v’s”` with names inside -/
  | quote (parts : List (Str × Str)) (last : Str)
  /-- a verbatim text `下原样s上原样` -/
  | verb (s : Str)
  /-- a name `‘s’` -/
  | var (s : Str)
  /-- an annotation `【s】` -/
  | note (s : Str)
  /-- `下代码` -/
  | opn
  /-- `上代码` -/
  | cls

/-- The text and the names inside a quoted text. -/
def Spec.partsSrc (parts : List (Str × Str)) (last : Str) : Str :=
  (parts.flatMap fun p => p.1 ++ c!"‘" ++ p.2 ++ c!"’") ++ last

/-- How it is written. -/
def Spec.CodePiece.src : Spec.CodePiece → Str
  | .plain s => s
  | .quote ps l => c!"“" ++ Spec.partsSrc ps l ++ c!"”"
  | .verb s => c!"下原样" ++ s ++ c!"上原样"
  | .var s => c!"‘" ++ s ++ c!"’"
  | .note s => c!"【" ++ s ++ c!"】"
  | .opn => c!"下代码"
  | .cls => c!"上代码"

/-- What is kept of it: blanks between words are left out, in quoted texts and names control characters. -/
def Spec.CodePiece.kept : Spec.CodePiece → Spec.CodePiece
  | .plain s => .plain (Spec.strip s)
  | .quote ps l => .quote (ps.map fun p => (Spec.printable p.1, Spec.printable p.2)) (Spec.printable l)
  | .verb s => .verb s
  | .var s => .var (Spec.printable s)
  | .note s => .note (Spec.strip s)
  | .opn => .opn
  | .cls => .cls

def Spec.CodePiece.Ok : Spec.CodePiece → Prop
  | .plain s => Spec.Free Spec.isMark s
  | .quote ps l => (∀ p ∈ ps, Spec.Free inText p.1 ∧ Spec.Free inVar p.2) ∧ Spec.Free inText l
  | .verb s => Spec.Free inYuan s
  | .var s => Spec.Free inVar s
  | .note s => Spec.Free Spec.isMark s
  | _ => True

def Spec.CodePiece.isPlain : Spec.CodePiece → Bool
  | .plain _ => true
  | _ => false

/-- A piece of code: its parts, no two plain ones side by side, `下代码` and `上代码` in pairs (`d` is the depth at the
beginning). -/
def Spec.CodePieces : Nat → List Spec.CodePiece → Prop
  | d, [] => d = 0
  | d, .opn :: ps => Spec.CodePieces (d + 1) ps
  | 0, .cls :: _ => False
  | d + 1, .cls :: ps => Spec.CodePieces d ps
  | d, .plain s :: ps => (Spec.CodePiece.plain s).Ok ∧ (∀ p ∈ ps.head?, p.isPlain = false) ∧ Spec.CodePieces d ps
  | d, p :: ps => p.Ok ∧ Spec.CodePieces d ps

def Spec.piecesSrc (ps : List Spec.CodePiece) : Str := ps.flatMap Spec.CodePiece.src
def Spec.piecesKept (ps : List Spec.CodePiece) : List Spec.CodePiece := ps.map Spec.CodePiece.kept

/-! ## Cutting into tokens -/

theorem isolated_beginVar : Isolated .beginVar := by decide +kernel
theorem isolated_endVar : Isolated .endVar := by decide +kernel
theorem isolated_beginRem2 : Isolated .beginRem2 := by decide +kernel
theorem isolated_endRem2 : Isolated .endRem2 := by decide +kernel
theorem isolated_beginCode : Isolated .beginCode := by decide +kernel
theorem isolated_endCode : Isolated .endCode := by decide +kernel

/-- A stretch without keywords. -/
theorem lex_seg (q : Quo) (s rest : Str) (h : Spec.Free (active q false) s) (hj : Spec.NoJoin s rest) :
    lex q (utf8 (s ++ rest)) =
      (utf8 (s.filter fun c => q.keep c.toNat)).map (LTok.byte · q.inText) ++ lex q (utf8 rest) := by
  have hnk := lex_nokw q s (by
    intro s1 s2 hs
    cases e : kwAt q false (utf8 s2) with
    | none => rfl
    | some r =>
      obtain ⟨id, m⟩ := r
      have hi := kwAt_infix (s1 := s1) e
      rw [← hs] at hi
      exact absurd hi (h id (kwAt_spells e).2.1))
  rw [utf8_append, (lex_append _ _ _ (noStraddle_of_noJoin hj)).1, hnk.1, hnk.2]

theorem lex_mark {q : Quo} {id : KwId} (rest : Str) (hid : id ∈ kwOrder) (hi : Isolated id)
    (ha : active q false id = true) :
    lex q (utf8 (kwStr id ++ rest)) = (lexKw q id).2.toList ++ lex (lexKw q id).1 (utf8 rest) := by
  rw [utf8_append]
  exact (lex_kw hid hi ha _).1

theorem noJoin_one {u v : Str} {c : Char} (hc : c ∈ ['（', '“', '下', '上', '）', '”', '‘', '’', '【', '】']) :
    Spec.NoJoin u ([c] ++ v) := noJoin_opener hc

theorem noJoin_nil (u : Str) : Spec.NoJoin u [] := by
  intro id hid k1 k2 hk h1 h2 ⟨_, hp⟩
  exact h2 (List.prefix_nil.1 hp)

theorem closer_border : ∀ c ∈ ['【', '】'], ∀ id ∈ kwOrder, c ∉ (kwStr id).dropLast := by
  decide +kernel

theorem noJoin_closer (c : Char) (hc : c ∈ ['【', '】']) (v : Str) : Spec.NoJoin [c] v := by
  intro id hid k1 k2 hk h1 h2 ⟨hp, _⟩
  have hs : Spec.strip [c] = [c] := by
    simp only [List.mem_cons, List.not_mem_nil, or_false] at hc
    rcases hc with rfl | rfl <;> decide
  rw [hs] at hp
  have : k1 = [c] := by
    obtain ⟨r, hr⟩ := hp
    cases r with
    | nil => simpa using hr
    | cons x xs =>
      have := congrArg List.length hr
      cases k1 with
      | nil => exact absurd rfl h1
      | cons => simp at this
  subst this
  apply closer_border c hc id hid
  rw [hk]
  cases k2 with
  | nil => exact absurd rfl h2
  | cons x xs => simp

/-- The state of the lexer inside `d` code quotes. -/
def Qc (d : Nat) : Quo := ⟨0, 0, 0, d, 0, 0, 0⟩
/-- … and a quoted text. -/
def Qt (d : Nat) : Quo := ⟨1, 0, 0, d, 0, 0, 0⟩

/-- `Free` for single-character marks. -/
theorem Spec.Free.mono {p r : KwId → Bool} {s : Str} (h : Spec.Free p s) (hp : ∀ id, r id = true → p id = true) :
    Spec.Free r s := fun id hid => h id (hp id hid)

/-! The tokens of a piece at depth `d`. -/

def bytesT (s : Str) : List LTok := (utf8 s).map (LTok.byte · true)

def qTok (d : Nat) (id : KwId) : List LTok := if d = 0 then [] else [.kwText id true]
def vTok (d : Nat) (id : KwId) : List LTok := if d = 0 then [.kw id] else [.kwText id false]
def nTok (d : Nat) (id : KwId) : List LTok := if d = 0 then [.kw id] else bytesT (kwStr id)

def partsTok (d : Nat) : List (Str × Str) → Str → List LTok
  | [], l => bytesT (Spec.printable l)
  | p :: ps, l => bytesT (Spec.printable p.1) ++ vTok d .beginVar ++ bytesT (Spec.printable p.2) ++ vTok d .endVar ++ partsTok d ps l

def pieceTok (d : Nat) : Spec.CodePiece → List LTok
  | .plain s => if d = 0 then lex Quo.zero (utf8 s) else bytesT (Spec.strip s)
  | .quote ps l => qTok d .beginText ++ partsTok d ps l ++ qTok d .endText
  | .verb s => qTok d .beginYuanyang ++ bytesT s ++ qTok d .endYuanyang
  | .var s => vTok d .beginVar ++ bytesT (Spec.printable s) ++ vTok d .endVar
  | .note s => nTok d .beginRem2 ++ bytesT (Spec.strip s) ++ nTok d .endRem2
  | .opn => qTok d .beginCode
  | .cls => qTok (d - 1) .endCode

def piecesTok : Nat → List Spec.CodePiece → List LTok
  | _, [] => []
  | d, .opn :: ps => pieceTok d .opn ++ piecesTok (d + 1) ps
  | d, .cls :: ps => pieceTok d .cls ++ piecesTok (d - 1) ps
  | d, p :: ps => pieceTok d p ++ piecesTok d ps

theorem lex_varIn (q : Quo) (d : Nat) (hq : q.as2 = decide (d ≠ 0)) (hv : q.var = 0) (hr : q.rem = 0) (hy : q.yuan = 0)
    (s rest : Str) (h : Spec.Free inVar s) (ha : active q false .beginVar = true) :
    lex q (utf8 (c!"‘" ++ (s ++ (c!"’" ++ rest)))) =
      vTok d .beginVar ++ (bytesT (Spec.printable s) ++ (vTok d .endVar ++ lex q (utf8 rest))) := by
  have h1 : lexKw q .beginVar = ({ q with var := 1 }, some (if d ≠ 0 then .kwText .beginVar false else .kw .beginVar)) := by
    have : ({ q with var := 1 } : Quo).as2 = decide (d ≠ 0) := hq
    simp only [lexKw, Quo.add4, Quo.bracket, hv]
    simp [this]
  have h2 : lexKw { q with var := 1 } .endVar =
      (q, some (if d ≠ 0 then .kwText .endVar false else .kw .endVar)) := by
    have e : ({ q with var := 0 } : Quo) = q := by cases q; simp_all
    simp only [lexKw, Quo.add4, Quo.bracket]
    simp [e, hq]
  have hact : ∀ id, active { q with var := 1 } false id = inVar id := by intro id; simp [active]
  have hkeep : ∀ c, ({ q with var := 1 } : Quo).keep c = decide (32 ≤ c) := by intro c; simp [Quo.keep, hr, hy]
  have hin : ({ q with var := 1 } : Quo).inText = true := by simp [Quo.inText]
  rw [show c!"‘" = kwStr .beginVar from rfl, lex_mark _ (by decide) isolated_beginVar ha, h1,
    lex_seg _ s _ (h.mono fun id hid => by rwa [hact] at hid) (noJoin_one (by decide)),
    show c!"’" = kwStr .endVar from rfl, lex_mark _ (by decide) isolated_endVar (by rw [hact]; rfl), h2, hin]
  simp only [hkeep]
  unfold vTok bytesT Spec.printable
  by_cases hd : d = 0 <;> simp [hd]

theorem lex_parts (d : Nat) (rest : Str) (l : Str) (hl : Spec.Free inText l) : ∀ (ps : List (Str × Str)),
    (∀ p ∈ ps, Spec.Free inText p.1 ∧ Spec.Free inVar p.2) →
    lex (Qt d) (utf8 (Spec.partsSrc ps l ++ (c!"”" ++ rest))) =
      partsTok d ps l ++ lex (Qt d) (utf8 (c!"”" ++ rest)) := by
  have hact : ∀ id, active (Qt d) false id = inText id := by intro id; simp [active, Qt]
  have hkeep : ∀ c, (Qt d).keep c = decide (32 ≤ c) := by intro c; simp [Quo.keep, Qt]
  have hin : (Qt d).inText = true := by simp [Quo.inText, Qt]
  intro ps
  induction ps with
  | nil =>
    intro _
    rw [Spec.partsSrc, List.flatMap_nil, List.nil_append,
      lex_seg _ l _ (hl.mono fun id hid => by rwa [hact] at hid) (noJoin_one (by decide)), hin]
    simp only [hkeep]
    rfl
  | cons p ps ih =>
    intro h
    have hp := h p (by simp)
    have e : Spec.partsSrc (p :: ps) l ++ (c!"”" ++ rest) =
        p.1 ++ (c!"‘" ++ (p.2 ++ (c!"’" ++ (Spec.partsSrc ps l ++ (c!"”" ++ rest))))) := by
      simp [Spec.partsSrc]
    rw [e, lex_seg _ p.1 _ (hp.1.mono fun id hid => by rwa [hact] at hid) (noJoin_one (by decide)), hin,
      lex_varIn _ d (by cases d <;> simp [Quo.as2, Qt]) rfl rfl rfl _ _ hp.2 (by rw [hact]; rfl),
      ih fun x hx => h x (by simp [hx])]
    simp only [hkeep]
    simp [partsTok, bytesT, Spec.printable]

theorem lexEnd_plain (s : Str) (h : Spec.Free Spec.isMark s) : lexEnd Quo.zero (utf8 s) = Quo.zero := by
  have key : ∀ (n : Nat) (a : List Nat), a.length = n →
      (∀ id, Spec.isMark id = true → ¬ kwBytes id <:+: stripB a) → lexEnd Quo.zero a = Quo.zero := by
    intro n
    induction n using Nat.strongRecOn with
    | ind n ih =>
      intro a hl hn
      cases a with
      | nil => rw [lexEnd_nil]
      | cons c cs =>
        have hsuf : ∀ k, 1 ≤ k → lexEnd Quo.zero ((c :: cs).drop k) = Quo.zero := by
          intro k hk
          refine ih _ ?_ _ rfl ?_
          · simp at hl ⊢; omega
          · intro id hid hi
            apply hn id hid
            refine hi.trans ?_
            rw [show stripB (c :: cs) = stripB ((c :: cs).take k) ++ stripB ((c :: cs).drop k) by
              unfold stripB; rw [← List.filter_append, List.take_append_drop]]
            exact (List.suffix_append _ _).isInfix
        cases e : kwAt Quo.zero false (c :: cs) with
        | none => rw [lexEnd_miss e]; exact hsuf 1 (by omega)
        | some r =>
          obtain ⟨id, m⟩ := r
          have hm := kwAt_len e
          obtain ⟨_, _, t, r, h1, h2, h3, _⟩ := kwAt_spells e
          have hin : kwBytes id <:+: stripB (c :: cs) := by
            rw [h1]; unfold stripB; rw [List.filter_append, h3]
            exact (List.prefix_append _ _).isInfix
          have hid : ¬ Spec.isMark id = true := fun h => hn id h hin
          have hz : (lexKw Quo.zero id).1 = Quo.zero := by
            cases id <;> first | rfl | (exfalso; revert hid; decide)
          rw [lexEnd_hit e, hz]
          exact hsuf m (by omega)
  refine key _ _ rfl ?_
  intro id hid hi
  rw [stripB_utf8] at hi
  exact h id hid (utf8_infix hi)

theorem active_Qc (d : Nat) (id : KwId) : active (Qc (d + 1)) false id = inCode id := by
  have : (0 : Int) < (d : Int) + 1 := by omega
  simp [active, Qc, this]

theorem keep_Qc (d : Nat) (c : Nat) : (Qc d).keep c = decide (32 < c) := by simp [Quo.keep, Qc]
theorem inText_Qc (d : Nat) : (Qc (d + 1)).inText = true := by
  have : (0 : Int) < (d : Int) + 1 := by omega
  simp [Quo.inText, Quo.as2, Qc, this]

/-- The state after a piece. -/
def pieceDepth (d : Nat) : Spec.CodePiece → Nat
  | .opn => d + 1
  | .cls => d - 1
  | _ => d

theorem lex_piece (d : Nat) (p : Spec.CodePiece) (h : p.Ok) (rest : Str) (hc : 0 < d ∨ p ≠ .cls)
    (hr : p.isPlain = true → ∀ u, Spec.NoJoin u rest) :
    lex (Qc d) (utf8 (p.src ++ rest)) = pieceTok d p ++ lex (Qc (pieceDepth d p)) (utf8 rest) := by
  cases p with
  | plain s =>
    cases d with
    | zero =>
      show lex (Qc 0) (utf8 (s ++ rest)) = lex Quo.zero (utf8 s) ++ _
      rw [utf8_append, (lex_append _ _ _ (noStraddle_of_noJoin (hr rfl s))).1]
      show lex Quo.zero _ ++ lex (lexEnd Quo.zero _) _ = _
      rw [lexEnd_plain s h]
      rfl
    | succ d =>
      show lex (Qc (d + 1)) (utf8 (s ++ rest)) = bytesT (Spec.strip s) ++ lex (Qc (d + 1)) (utf8 rest)
      rw [lex_seg _ s rest (Spec.Free.mono h fun id hid => by rw [active_Qc] at hid; simp [Spec.isMark, hid]) (hr rfl s), inText_Qc]
      simp only [keep_Qc]
      rfl
  | quote ps l =>
    have ha : active (Qc d) false .beginText = true := by
      cases d with
      | zero => rfl
      | succ d => rw [active_Qc]; rfl
    have hb : active (Qt d) false .endText = true := by simp [active, Qt, inText]
    have h1 : lexKw (Qc d) .beginText = (Qt d, (qTok d .beginText).head?) := by
      cases d with
      | zero => rfl
      | succ d =>
        have : (0 : Int) < (d : Int) + 1 := by omega
        simp [lexKw, Quo.add4, Quo.add4End, Qc, Qt, qTok, this]
    have h2 : lexKw (Qt d) .endText = (Qc d, (qTok d .endText).head?) := by
      cases d with
      | zero => rfl
      | succ d =>
        have : (0 : Int) < (d : Int) + 1 := by omega
        simp [lexKw, Quo.add4, Quo.add4End, Qc, Qt, qTok, this]
    have hq : ∀ id, (qTok d id).head?.toList = qTok d id := by intro id; unfold qTok; split <;> rfl
    have e : (Spec.CodePiece.quote ps l).src ++ rest = kwStr .beginText ++ (Spec.partsSrc ps l ++ (c!"”" ++ rest)) := by
      simp [Spec.CodePiece.src]; rfl
    rw [e, lex_mark _ (by decide) isolated_beginText ha, h1]
    simp only
    rw [lex_parts d rest l h.2 ps h.1, show c!"”" = kwStr .endText from rfl, lex_mark _ (by decide) isolated_endText hb, h2, hq, hq]
    simp [pieceTok, pieceDepth]
  | verb s =>
    have ha : active (Qc d) false .beginYuanyang = true := by
      cases d with
      | zero => rfl
      | succ d => rw [active_Qc]; rfl
    have hact : ∀ id, active ⟨0, 0, 1, d, 0, 0, 0⟩ false id = inYuan id := by intro id; simp [active]
    have hkeep : ∀ c, (⟨0, 0, 1, d, 0, 0, 0⟩ : Quo).keep c = true := by intro c; simp [Quo.keep]
    have hin : (⟨0, 0, 1, d, 0, 0, 0⟩ : Quo).inText = true := by simp [Quo.inText, Quo.as2]
    have h1 : lexKw (Qc d) .beginYuanyang = (⟨0, 0, 1, d, 0, 0, 0⟩, (qTok d .beginYuanyang).head?) := by
      cases d with
      | zero => rfl
      | succ d =>
        have : (0 : Int) < (d : Int) + 1 := by omega
        simp [lexKw, Quo.add4, Quo.add4End, Qc, qTok, this]
    have h2 : lexKw ⟨0, 0, 1, d, 0, 0, 0⟩ .endYuanyang = (Qc d, (qTok d .endYuanyang).head?) := by
      cases d with
      | zero => rfl
      | succ d =>
        have : (0 : Int) < (d : Int) + 1 := by omega
        simp [lexKw, Quo.add4, Quo.add4End, Qc, qTok, this]
    have hq : ∀ id, (qTok d id).head?.toList = qTok d id := by intro id; unfold qTok; split <;> rfl
    have e : (Spec.CodePiece.verb s).src ++ rest = kwStr .beginYuanyang ++ (s ++ (kwStr .endYuanyang ++ rest)) := by
      simp [Spec.CodePiece.src]; rfl
    have hj : Spec.NoJoin s (kwStr .endYuanyang ++ rest) := noJoin_opener (c := '上') (by decide)
    rw [e, lex_mark _ (by decide) isolated_beginYuanyang ha, h1]
    simp only
    rw [lex_seg _ s _ (Spec.Free.mono h fun id hid => by rwa [hact] at hid) hj,
      lex_mark _ (by decide) isolated_endYuanyang (by rw [hact]; rfl), h2, hin, hq, hq]
    simp only [hkeep]
    rw [List.filter_eq_self.2 (by simp)]
    simp [pieceTok, pieceDepth, bytesT]
  | var s =>
    have ha : active (Qc d) false .beginVar = true := by
      cases d with
      | zero => rfl
      | succ d => rw [active_Qc]; rfl
    have e : (Spec.CodePiece.var s).src ++ rest = c!"‘" ++ (s ++ (c!"’" ++ rest)) := by
      simp [Spec.CodePiece.src]
    rw [e, lex_varIn _ d (by cases d <;> simp [Quo.as2, Qc]) rfl rfl rfl _ _ h ha]
    simp [pieceTok, pieceDepth]
  | note s =>
    cases d with
    | zero =>
      have hact : ∀ id, active ⟨0, 0, 0, 0, 0, 1, 0⟩ false id = inVar id := by intro id; simp [active]
      have hkeep : ∀ c, (⟨0, 0, 0, 0, 0, 1, 0⟩ : Quo).keep c = decide (32 < c) := by intro c; simp [Quo.keep]
      have h1 : lexKw (Qc 0) .beginRem2 = (⟨0, 0, 0, 0, 0, 1, 0⟩, some (.kw .beginRem2)) := rfl
      have h2 : lexKw ⟨0, 0, 0, 0, 0, 1, 0⟩ .endRem2 = (Qc 0, some (.kw .endRem2)) := rfl
      have e : (Spec.CodePiece.note s).src ++ rest = kwStr .beginRem2 ++ (s ++ (c!"】" ++ rest)) := by
        simp [Spec.CodePiece.src]; rfl
      rw [e, lex_mark _ (by decide) isolated_beginRem2 rfl, h1]
      simp only
      rw [lex_seg _ s _ (Spec.Free.mono h fun id hid => by rw [hact] at hid; simp [Spec.isMark, hid]) (noJoin_one (by decide)),
        show c!"】" = kwStr .endRem2 from rfl, lex_mark _ (by decide) isolated_endRem2 rfl, h2]
      simp only [hkeep]
      simp [pieceTok, pieceDepth, nTok, bytesT, Spec.strip, Quo.inText]
    | succ d =>
      have e : (Spec.CodePiece.note s).src ++ rest = c!"【" ++ (s ++ (c!"】" ++ rest)) := by
        simp [Spec.CodePiece.src]
      have hf : ∀ c ∈ [c!"【", c!"】"], ∀ id, inCode id = true → ¬ kwStr id <:+: Spec.strip c := by
        intro c hc id hid
        simp only [List.mem_cons, List.not_mem_nil, or_false] at hc
        rcases hc with rfl | rfl <;> (cases id <;> first | (exfalso; revert hid; decide) | decide)
      rw [e, lex_seg _ c!"【" _ (fun id hid => hf _ (by simp) id (by rwa [active_Qc] at hid)) (noJoin_closer _ (by simp) _),
        lex_seg _ s _ (Spec.Free.mono h fun id hid => by rw [active_Qc] at hid; simp [Spec.isMark, hid]) (noJoin_one (by decide)),
        lex_seg _ c!"】" _ (fun id hid => hf _ (by simp) id (by rwa [active_Qc] at hid)) (noJoin_closer _ (by simp) _), inText_Qc]
      simp only [keep_Qc]
      simp only [pieceTok, pieceDepth, List.append_assoc]
      rfl
  | opn =>
    have ha : active (Qc d) false .beginCode = true := by
      cases d with
      | zero => rfl
      | succ d => rw [active_Qc]; rfl
    have h1 : lexKw (Qc d) .beginCode = (Qc (d + 1), (qTok d .beginCode).head?) := by
      cases d with
      | zero => rfl
      | succ d =>
        have h3 : (0 : Int) < (d : Int) + 1 + 1 := by omega
        simp [lexKw, Quo.add4, Quo.add4End, Qc, qTok, h3]
        rw [if_neg (by omega), if_pos (by omega)]
    have hq : ∀ id, (qTok d id).head?.toList = qTok d id := by intro id; unfold qTok; split <;> rfl
    rw [show Spec.CodePiece.opn.src = kwStr .beginCode from rfl, lex_mark _ (by decide) isolated_beginCode ha, h1, hq]
    rfl
  | cls =>
    obtain ⟨d, rfl⟩ : ∃ e, d = e + 1 := ⟨d - 1, by simp at hc; omega⟩
    have h1 : lexKw (Qc (d + 1)) .endCode = (Qc d, (qTok d .endCode).head?) := by
      cases d with
      | zero => rfl
      | succ d =>
        have : (0 : Int) < (d : Int) + 1 := by omega
        have h3 : (d : Int) + 1 + 1 - 1 = d + 1 := by omega
        simp [lexKw, Quo.add4, Quo.add4End, Qc, qTok, this, h3]
    have hq : ∀ id, (qTok d id).head?.toList = qTok d id := by intro id; unfold qTok; split <;> rfl
    rw [show Spec.CodePiece.cls.src = kwStr .endCode from rfl,
      lex_mark _ (by decide) isolated_endCode (by rw [active_Qc]; rfl), h1, hq]
    rfl

theorem src_opener (p : Spec.CodePiece) (h : p.isPlain = false) (u rest : Str) : Spec.NoJoin u (p.src ++ rest) := by
  cases p with
  | plain => simp [Spec.CodePiece.isPlain] at h
  | quote => exact noJoin_opener (c := '“') (by decide)
  | verb => exact noJoin_opener (c := '下') (by decide)
  | var => exact noJoin_opener (c := '‘') (by decide)
  | note => exact noJoin_opener (c := '【') (by decide)
  | opn => exact noJoin_opener (c := '下') (by decide)
  | cls => exact noJoin_opener (c := '上') (by decide)

/-- The pieces at depth `d`, the code that they are in being kept as text `b` times. -/
theorem lex_pieces (b : Nat) (rest : Str) (hrest : ∀ u, Spec.NoJoin u rest) : ∀ (ps : List Spec.CodePiece) (d : Nat),
    Spec.CodePieces d ps →
    lex (Qc (d + b)) (utf8 (Spec.piecesSrc ps ++ rest)) = piecesTok (d + b) ps ++ lex (Qc b) (utf8 rest) := by
  intro ps
  induction ps with
  | nil => intro d h; cases d <;> simp_all [Spec.CodePieces, Spec.piecesSrc, piecesTok]
  | cons p ps ih =>
    intro d h
    have e : Spec.piecesSrc (p :: ps) ++ rest = p.src ++ (Spec.piecesSrc ps ++ rest) := by simp [Spec.piecesSrc]
    have hnext : (∀ x ∈ ps.head?, x.isPlain = false) → ∀ u, Spec.NoJoin u (Spec.piecesSrc ps ++ rest) := by
      intro hh u
      cases ps with
      | nil => exact hrest u
      | cons x xs =>
        have : Spec.piecesSrc (x :: xs) ++ rest = x.src ++ (Spec.piecesSrc xs ++ rest) := by simp [Spec.piecesSrc]
        rw [this]
        exact src_opener x (hh x (by simp)) _ _
    rw [e]
    cases p with
    | plain s =>
      have h : (Spec.CodePiece.plain s).Ok ∧ (∀ p ∈ ps.head?, p.isPlain = false) ∧ Spec.CodePieces d ps := by
        cases d <;> exact h
      rw [lex_piece _ _ h.1 _ (.inr nofun) (fun _ => hnext h.2.1)]
      show _ ++ lex (Qc (d + b)) _ = _
      rw [ih d h.2.2, ← List.append_assoc]
      cases d <;> rfl
    | opn =>
      rw [lex_piece _ .opn trivial _ (.inr nofun) (fun h => nomatch h)]
      have h : Spec.CodePieces (d + 1) ps := by cases d <;> exact h
      show _ ++ lex (Qc (d + b + 1)) _ = _
      rw [show d + b + 1 = d + 1 + b by omega, ih (d + 1) h, ← List.append_assoc, show d + 1 + b = d + b + 1 by omega]
      rfl
    | cls =>
      cases d with
      | zero => exact h.elim
      | succ d =>
        rw [lex_piece _ .cls trivial _ (.inl (by omega)) (fun h => nomatch h)]
        show _ ++ lex (Qc (d + 1 + b - 1)) _ = _
        rw [show d + 1 + b - 1 = d + b by omega, ih d h, ← List.append_assoc]
        show _ = _ ++ piecesTok (d + 1 + b - 1) ps ++ _
        rw [show d + 1 + b - 1 = d + b by omega]
    | quote qs l =>
      have h : (Spec.CodePiece.quote qs l).Ok ∧ Spec.CodePieces d ps := by cases d <;> exact h
      rw [lex_piece _ _ h.1 _ (.inr nofun) (fun h => nomatch h)]
      show _ ++ lex (Qc (d + b)) _ = _
      rw [ih d h.2, ← List.append_assoc]; rfl
    | verb s =>
      have h : (Spec.CodePiece.verb s).Ok ∧ Spec.CodePieces d ps := by cases d <;> exact h
      rw [lex_piece _ _ h.1 _ (.inr nofun) (fun h => nomatch h)]
      show _ ++ lex (Qc (d + b)) _ = _
      rw [ih d h.2, ← List.append_assoc]; rfl
    | var s =>
      have h : (Spec.CodePiece.var s).Ok ∧ Spec.CodePieces d ps := by cases d <;> exact h
      rw [lex_piece _ _ h.1 _ (.inr nofun) (fun h => nomatch h)]
      show _ ++ lex (Qc (d + b)) _ = _
      rw [ih d h.2, ← List.append_assoc]; rfl
    | note s =>
      have h : (Spec.CodePiece.note s).Ok ∧ Spec.CodePieces d ps := by cases d <;> exact h
      rw [lex_piece _ _ h.1 _ (.inr nofun) (fun h => nomatch h)]
      show _ ++ lex (Qc (d + b)) _ = _
      rw [ih d h.2, ← List.append_assoc]; rfl

/-! ## What is kept lexes to the same tokens -/

theorem strip_strip (s : Str) : Spec.strip (Spec.strip s) = Spec.strip s := by
  simp [Spec.strip, List.filter_filter]

theorem printable_printable (s : Str) : Spec.printable (Spec.printable s) = Spec.printable s := by
  simp [Spec.printable, List.filter_filter]

theorem strip_printable (s : Str) : Spec.strip (Spec.printable s) = Spec.strip s := by
  unfold Spec.strip Spec.printable
  rw [List.filter_filter]
  congr 1
  funext c
  by_cases h : 32 < c.toNat
  · simp [h]; omega
  · simp [h]

theorem free_strip {p : KwId → Bool} {s : Str} (h : Spec.Free p s) : Spec.Free p (Spec.strip s) :=
  fun id hid => by rw [strip_strip]; exact h id hid
theorem free_printable {p : KwId → Bool} {s : Str} (h : Spec.Free p s) : Spec.Free p (Spec.printable s) :=
  fun id hid => by rw [strip_printable]; exact h id hid

theorem kept_ok (p : Spec.CodePiece) (h : p.Ok) : p.kept.Ok := by
  cases p with
  | plain s => exact free_strip h
  | quote ps l =>
    refine ⟨fun x hx => ?_, free_printable h.2⟩
    obtain ⟨y, hy, rfl⟩ := List.mem_map.1 hx
    exact ⟨free_printable (h.1 y hy).1, free_printable (h.1 y hy).2⟩
  | verb s => exact h
  | var s => exact free_printable h
  | note s => exact free_strip h
  | opn => trivial
  | cls => trivial

theorem kept_isPlain (p : Spec.CodePiece) : p.kept.isPlain = p.isPlain := by cases p <;> rfl

theorem kept_pieces : ∀ (ps : List Spec.CodePiece) (d : Nat), Spec.CodePieces d ps → Spec.CodePieces d (Spec.piecesKept ps) := by
  intro ps
  induction ps with
  | nil => intro d h; cases d <;> exact h
  | cons p ps ih =>
    intro d h
    cases p with
    | opn => cases d <;> exact ih _ h
    | cls =>
      cases d with
      | zero => exact h.elim
      | succ d => exact ih _ h
    | plain s =>
      have h : (Spec.CodePiece.plain s).Ok ∧ (∀ p ∈ ps.head?, p.isPlain = false) ∧ Spec.CodePieces d ps := by
        cases d <;> exact h
      have : (Spec.CodePiece.plain (Spec.strip s)).Ok ∧ (∀ p ∈ (Spec.piecesKept ps).head?, p.isPlain = false) ∧
          Spec.CodePieces d (Spec.piecesKept ps) := by
        refine ⟨kept_ok _ h.1, fun x hx => ?_, ih d h.2.2⟩
        cases ps with
        | nil => simp [Spec.piecesKept] at hx
        | cons y ys =>
          simp [Spec.piecesKept] at hx
          rw [← hx, kept_isPlain]
          exact h.2.1 y (by simp)
      cases d <;> exact this
    | quote qs l =>
      have h : (Spec.CodePiece.quote qs l).Ok ∧ Spec.CodePieces d ps := by cases d <;> exact h
      have := And.intro (kept_ok _ h.1) (ih d h.2)
      cases d <;> exact this
    | verb s =>
      have h : (Spec.CodePiece.verb s).Ok ∧ Spec.CodePieces d ps := by cases d <;> exact h
      have := And.intro (kept_ok _ h.1) (ih d h.2)
      cases d <;> exact this
    | var s =>
      have h : (Spec.CodePiece.var s).Ok ∧ Spec.CodePieces d ps := by cases d <;> exact h
      have := And.intro (kept_ok _ h.1) (ih d h.2)
      cases d <;> exact this
    | note s =>
      have h : (Spec.CodePiece.note s).Ok ∧ Spec.CodePieces d ps := by cases d <;> exact h
      have := And.intro (kept_ok _ h.1) (ih d h.2)
      cases d <;> exact this

theorem partsTok_kept (d : Nat) (l : Str) : ∀ ps,
    partsTok d (ps.map fun p => (Spec.printable p.1, Spec.printable p.2)) (Spec.printable l) = partsTok d ps l := by
  intro ps
  induction ps with
  | nil => simp [partsTok, printable_printable]
  | cons p ps ih => simp [partsTok, printable_printable, ih]

theorem lex_plain_strip (s : Str) (h : Spec.Free Spec.isMark s) :
    lex Quo.zero (utf8 (Spec.strip s)) = lex Quo.zero (utf8 s) := by
  have hz : Quo.zero.Plain := by simp [Quo.Plain, Quo.zero]
  rw [(lex_strip _ (utf8 s) hz (noQuoting_bytes fun id hid => h id ?_)).1, stripB_utf8]
  revert id hid
  decide

theorem pieceTok_kept (d : Nat) (p : Spec.CodePiece) (h : p.Ok) : pieceTok d p.kept = pieceTok d p := by
  cases p with
  | plain s =>
    simp only [pieceTok, Spec.CodePiece.kept, strip_strip]
    rw [lex_plain_strip s h]
  | quote ps l => simp only [pieceTok, Spec.CodePiece.kept, partsTok_kept]
  | verb s => rfl
  | var s => simp only [pieceTok, Spec.CodePiece.kept, printable_printable]
  | note s => simp only [pieceTok, Spec.CodePiece.kept, strip_strip]
  | opn => rfl
  | cls => rfl

theorem piecesTok_kept : ∀ (ps : List Spec.CodePiece) (d b : Nat), Spec.CodePieces d ps →
    piecesTok (d + b) (Spec.piecesKept ps) = piecesTok (d + b) ps := by
  intro ps
  induction ps with
  | nil => intros; rfl
  | cons p ps ih =>
    intro d b h
    cases p with
    | opn =>
      have h : Spec.CodePieces (d + 1) ps := by cases d <;> exact h
      have := ih (d + 1) b h
      rw [show d + 1 + b = d + b + 1 by omega] at this
      show _ ++ piecesTok (d + b + 1) (Spec.piecesKept ps) = _ ++ piecesTok (d + b + 1) _
      rw [this]
    | cls =>
      cases d with
      | zero => exact h.elim
      | succ d =>
        have := ih d b h
        show _ ++ piecesTok (d + 1 + b - 1) (Spec.piecesKept ps) = _ ++ piecesTok (d + 1 + b - 1) _
        rw [show d + 1 + b - 1 = d + b by omega, this]
    | plain s =>
      have h : (Spec.CodePiece.plain s).Ok ∧ (∀ p ∈ ps.head?, p.isPlain = false) ∧ Spec.CodePieces d ps := by
        cases d <;> exact h
      show pieceTok _ (Spec.CodePiece.plain s).kept ++ piecesTok _ (Spec.piecesKept ps) = _
      rw [pieceTok_kept _ _ h.1, ih d b h.2.2]; rfl
    | quote qs l =>
      have h : (Spec.CodePiece.quote qs l).Ok ∧ Spec.CodePieces d ps := by cases d <;> exact h
      show pieceTok _ (Spec.CodePiece.quote qs l).kept ++ piecesTok _ (Spec.piecesKept ps) = _
      rw [pieceTok_kept _ _ h.1, ih d b h.2]; rfl
    | verb s =>
      have h : (Spec.CodePiece.verb s).Ok ∧ Spec.CodePieces d ps := by cases d <;> exact h
      show pieceTok _ (Spec.CodePiece.verb s).kept ++ piecesTok _ (Spec.piecesKept ps) = _
      rw [pieceTok_kept _ _ h.1, ih d b h.2]; rfl
    | var s =>
      have h : (Spec.CodePiece.var s).Ok ∧ Spec.CodePieces d ps := by cases d <;> exact h
      show pieceTok _ (Spec.CodePiece.var s).kept ++ piecesTok _ (Spec.piecesKept ps) = _
      rw [pieceTok_kept _ _ h.1, ih d b h.2]; rfl
    | note s =>
      have h : (Spec.CodePiece.note s).Ok ∧ Spec.CodePieces d ps := by cases d <;> exact h
      show pieceTok _ (Spec.CodePiece.note s).kept ++ piecesTok _ (Spec.piecesKept ps) = _
      rw [pieceTok_kept _ _ h.1, ih d b h.2]; rfl

/-! ## Tokens of a text -/

/-- The bytes that a token adds to a text; `none` for a token that is not part of a text. -/
def tokText : LTok → Option (List Nat)
  | .byte c b => if b then some [c] else none
  | .kwText id _ => some (kwBytes id)
  | .kw _ => none

/-- The bytes of a run of text tokens. -/
def textOf : List LTok → Option (List Nat)
  | [] => some []
  | t :: ts => match tokText t, textOf ts with
    | some a, some b => some (a ++ b)
    | _, _ => none

theorem textOf_append {a b : List LTok} {x y : List Nat} (ha : textOf a = some x) (hb : textOf b = some y) :
    textOf (a ++ b) = some (x ++ y) := by
  induction a generalizing x with
  | nil => cases ha; simpa using hb
  | cons t ts ih =>
    rw [textOf] at ha
    cases h1 : tokText t <;> cases h2 : textOf ts <;> simp [h1, h2] at ha
    rw [List.cons_append, textOf, h1, ih h2]
    simp [← ha]

theorem textOf_bytes (s : Str) : textOf (bytesT s) = some (utf8 s) := by
  unfold bytesT
  generalize utf8 s = a
  induction a with
  | nil => rfl
  | cons c cs ih => simp [textOf, tokText, ih]

theorem textOf_q (d : Nat) (id : KwId) : textOf (qTok (d + 1) id) = some (utf8 (kwStr id)) := by
  simp [qTok, textOf, tokText, kwBytes]
theorem textOf_v (d : Nat) (id : KwId) : textOf (vTok (d + 1) id) = some (utf8 (kwStr id)) := by
  simp [vTok, textOf, tokText, kwBytes]
theorem textOf_n (d : Nat) (id : KwId) : textOf (nTok (d + 1) id) = some (utf8 (kwStr id)) := by
  simp [nTok, textOf_bytes]

theorem textOf_parts (d : Nat) (l : Str) : ∀ ps, textOf (partsTok (d + 1) ps l) =
    some (utf8 (Spec.partsSrc (ps.map fun p => (Spec.printable p.1, Spec.printable p.2)) (Spec.printable l))) := by
  intro ps
  induction ps with
  | nil => simp [partsTok, textOf_bytes, Spec.partsSrc]
  | cons p ps ih =>
    rw [partsTok, textOf_append (textOf_append (textOf_append (textOf_append (textOf_bytes _) (textOf_v d _))
      (textOf_bytes _)) (textOf_v d _)) ih, ← utf8_append, ← utf8_append, ← utf8_append, ← utf8_append]
    simp [Spec.partsSrc]
    rfl

theorem textOf_piece (d : Nat) (p : Spec.CodePiece) (hc : 0 < d ∨ p ≠ .cls) :
    textOf (pieceTok (d + 1) p) = some (utf8 p.kept.src) := by
  cases p with
  | plain s => simp [pieceTok, textOf_bytes, Spec.CodePiece.kept, Spec.CodePiece.src]
  | quote ps l =>
    rw [pieceTok, textOf_append (textOf_append (textOf_q d _) (textOf_parts d _ _)) (textOf_q d _), ← utf8_append, ← utf8_append]
    rfl
  | verb s =>
    rw [pieceTok, textOf_append (textOf_append (textOf_q d _) (textOf_bytes _)) (textOf_q d _), ← utf8_append, ← utf8_append]
    rfl
  | var s =>
    rw [pieceTok, textOf_append (textOf_append (textOf_v d _) (textOf_bytes _)) (textOf_v d _), ← utf8_append, ← utf8_append]
    rfl
  | note s =>
    rw [pieceTok, textOf_append (textOf_append (textOf_n d _) (textOf_bytes _)) (textOf_n d _), ← utf8_append, ← utf8_append]
    rfl
  | opn => exact textOf_q d _
  | cls =>
    obtain ⟨e, rfl⟩ : ∃ e, d = e + 1 := ⟨d - 1, by simp at hc; omega⟩
    exact textOf_q e _

theorem textOf_pieces : ∀ (ps : List Spec.CodePiece) (d : Nat), Spec.CodePieces d ps →
    textOf (piecesTok (d + 1) ps) = some (utf8 (Spec.piecesSrc (Spec.piecesKept ps))) := by
  intro ps
  induction ps with
  | nil => intros; rfl
  | cons p ps ih =>
    intro d h
    have e : utf8 (Spec.piecesSrc (Spec.piecesKept (p :: ps))) =
        utf8 p.kept.src ++ utf8 (Spec.piecesSrc (Spec.piecesKept ps)) := by
      simp [Spec.piecesSrc, Spec.piecesKept, utf8_append]
    rw [e]
    cases p with
    | opn => exact textOf_append (textOf_piece d .opn (.inr nofun)) (ih (d + 1) (by cases d <;> exact h))
    | cls =>
      cases d with
      | zero => exact h.elim
      | succ d => exact textOf_append (textOf_piece (d + 1) .cls (.inl (by omega))) (ih d h)
    | plain s => exact textOf_append (textOf_piece d _ (.inr nofun)) (ih d (by cases d <;> exact h.2.2))
    | quote qs l => exact textOf_append (textOf_piece d _ (.inr nofun)) (ih d (by cases d <;> exact h.2))
    | verb s => exact textOf_append (textOf_piece d _ (.inr nofun)) (ih d (by cases d <;> exact h.2))
    | var s => exact textOf_append (textOf_piece d _ (.inr nofun)) (ih d (by cases d <;> exact h.2))
    | note s => exact textOf_append (textOf_piece d _ (.inr nofun)) (ih d (by cases d <;> exact h.2))

/-! ## Collecting the tokens of a text -/

/-- A byte of the text has been read and nothing else since. -/
def IsText.Inside (is : IsText) : Prop := is.first = true ∧ is.old = true ∧ is.now = true

theorem parsT_text (me : Int) (kw : Option KwId) (ups : List Layer) (rest : List LTok) :
    ∀ (ts : List LTok) (x : List Nat) (n : Nat) (s : PS), textOf ts = some x → s.is.Inside → ts.length ≤ n →
    parsT n me kw ups s (ts ++ rest) = parsT (n - ts.length) me kw ups { s with text := s.text ++ x } rest := by
  intro ts
  induction ts with
  | nil => intro x n s h _ _; cases h; simp
  | cons t ts ih =>
    intro x n s h hs hn
    rw [textOf] at h
    cases h1 : tokText t <;> cases h2 : textOf ts <;> simp [h1, h2] at h
    rename_i a b
    obtain ⟨m, rfl⟩ : ∃ m, n = m + 1 := ⟨n - 1, by simp at hn; omega⟩
    obtain ⟨hs1, hs2, hs3⟩ := hs
    have hm : ts.length ≤ m := by simpa using hn
    rw [List.cons_append, List.length_cons, show m + 1 - (ts.length + 1) = m - ts.length by omega, ← h]
    cases t with
    | kw => simp [tokText] at h1
    | byte c now =>
      simp only [tokText] at h1
      cases now <;> simp at h1
      have hc : s.is.needClear true = (false, s.is) := by
        cases e : s.is with | mk q f o w d => rw [e] at hs1 hs2 hs3; simp at hs1 hs2 hs3; subst hs1 hs2 hs3; rfl
      rw [parsT]
      simp only [keepByte, hc, Bool.false_eq_true, if_false, PR.ok_bind]
      rw [ih b m { s with text := s.text ++ [c] } h2 ⟨hs1, hs2, hs3⟩ hm]
      simp [← h1]
    | kwText id b' =>
      simp only [tokText, Option.some.injEq] at h1
      rw [parsT]
      simp only [hs2, Bool.not_true, Bool.and_false, Bool.false_eq_true, if_false, PR.ok_bind]
      rw [ih b m { s with text := s.text ++ kwBytes id } h2 ⟨hs1, hs2, hs3⟩ hm]
      simp [← h1]

/-- A run of text tokens that begins with a byte or with a mark and a byte. -/
def Starts (ts : List LTok) : Prop :=
  (∃ c r, ts = .byte c true :: r) ∨ (∃ id b c r, ts = .kwText id b :: .byte c true :: r)

theorem parsT_start (me : Int) (kw : Option KwId) (ups : List Layer) (rest ts : List LTok) (x : List Nat) (s : PS)
    (h : textOf ts = some x) (hst : Starts ts) (h1 : s.text = []) (h2 : s.is.first = false) :
    ∃ is', is'.Inside ∧ ∀ n, ts.length ≤ n → parsT n me kw ups s (ts ++ rest) =
      parsT (n - ts.length) me kw ups { s with is := is', text := x } rest := by
  rcases hst with ⟨c, r, rfl⟩ | ⟨id, b, c, r, rfl⟩
  · cases h3 : textOf r with
    | none => simp [textOf, h3] at h
    | some y =>
      simp [textOf, tokText, h3] at h
      refine ⟨(s.is.needClear true).2, by simp [IsText.Inside, IsText.needClear, h2], fun n hn => ?_⟩
      obtain ⟨m, rfl⟩ : ∃ m, n = m + 1 := ⟨n - 1, by simp at hn; omega⟩
      rw [List.cons_append, parsT]
      have hc : (s.is.needClear true).1 = false := by simp [IsText.needClear, h2]
      simp only [keepByte, hc, Bool.false_eq_true, if_false, PR.ok_bind]
      rw [parsT_text me kw ups rest r y m _ h3 (by simp [IsText.Inside, IsText.needClear, h2]) (by simpa using hn)]
      simp [← h, h1]
  · cases h3 : textOf r with
    | none => simp [textOf, h3] at h
    | some y =>
      simp [textOf, tokText, h3] at h
      have key : ∀ (m : Nat) (is : IsText), (r.length ≤ m) → is.first = false → parsT (m + 1) me kw ups { s with is := is, text := kwBytes id }
          (.byte c true :: (r ++ rest)) =
          parsT (m - r.length) me kw ups { s with is := (is.needClear true).2, text := x } rest := by
        intro m is hn hf
        rw [parsT]
        have hc : (is.needClear true).1 = false := by simp [IsText.needClear, hf]
        simp only [keepByte, hc, Bool.false_eq_true, if_false, PR.ok_bind]
        rw [parsT_text me kw ups rest r y m _ h3 (by simp [IsText.Inside, IsText.needClear, hf]) hn]
        simp [← h]
      by_cases hb : (b && !s.is.old) = true
      · refine ⟨(s.is.clear.needClear true).2, by simp [IsText.Inside, IsText.needClear, IsText.clear], fun n hn => ?_⟩
        obtain ⟨m, rfl⟩ : ∃ m, n = m + 2 := ⟨n - 2, by simp at hn; omega⟩
        rw [List.cons_append, List.cons_append, parsT]
        simp only [hb, if_true, addText, h1, List.isEmpty_nil, PR.ok_bind, List.nil_append]
        rw [key m _ (by simp at hn; omega) rfl]
        simp
      · refine ⟨(s.is.needClear true).2, by simp [IsText.Inside, IsText.needClear, h2], fun n hn => ?_⟩
        obtain ⟨m, rfl⟩ : ∃ m, n = m + 2 := ⟨n - 2, by simp at hn; omega⟩
        rw [List.cons_append, List.cons_append, parsT]
        simp only [hb, Bool.false_eq_true, if_false, PR.ok_bind, h1, List.nil_append]
        rw [key m _ (by simp at hn; omega) h2]
        simp

/-- A source that is one text. -/
theorem parse_text (src t : Str) (ts : List LTok) (h : lex Quo.zero (utf8 src) = ts) (hx : textOf ts = some (utf8 t))
    (hs : Starts ts) (hm : ¬ ['续', '\n'] <+: t ∧ ¬ ['\n', '续'] <:+ t) : parse src = .ok (.ok [.text t]) := by
  have h1 := parse_tokens src ((utf8 src).length + ts.length + 1) (by omega)
  obtain ⟨is', hin, hp⟩ := parsT_start 0 none [] [] ts _ PS.init hx hs rfl rfl
  replace hp := hp ((utf8 src).length + ts.length + 1) (by omega)
  rw [List.append_nil] at hp
  have hne : t ≠ [] := by
    rintro rfl
    rcases hs with ⟨c, r, rfl⟩ | ⟨id, b, c, r, rfl⟩
    · cases e : textOf r <;> simp [textOf, tokText, e] at hx
    · cases e : textOf r <;> simp [textOf, tokText, e] at hx
  have ha := addText_top (s := { PS.init with is := is', text := utf8 t }) t rfl rfl hne hin.2.1 hm
  obtain ⟨k, hk⟩ : ∃ k, (utf8 src).length + ts.length + 1 - ts.length = k + 1 := ⟨(utf8 src).length, by omega⟩
  rw [h, hp, hk] at h1
  simp only [parsT, ha, PR.ok_bind] at h1
  exact h1

/-! ## C59 -/

/-- The code begins with something, and if that is a mark, there is something right after it. -/
def Spec.Opens : List Spec.CodePiece → Prop
  | .plain s :: _ => Spec.strip s ≠ []
  | .quote [] l :: _ => Spec.printable l ≠ []
  | .quote (p :: _) _ :: _ => Spec.printable p.1 ≠ []
  | .verb s :: _ => s ≠ []
  | .var s :: _ => Spec.printable s ≠ []
  | .note _ :: _ => True
  | .opn :: .plain s :: _ => Spec.strip s ≠ []
  | _ => False

/-- **C59.**  What is kept of code parses to the same program as the code itself. -/
theorem C59_same_program (ps : List Spec.CodePiece) (h : Spec.CodePieces 0 ps) :
    Spec.SameParse (parse (Spec.piecesSrc (Spec.piecesKept ps))) (parse (Spec.piecesSrc ps)) := by
  apply sameParse_of_lex
  have h1 := lex_pieces 0 [] noJoin_nil ps 0 h
  have h2 := lex_pieces 0 [] noJoin_nil _ 0 (kept_pieces ps 0 h)
  rw [piecesTok_kept ps 0 0 h] at h2
  rw [List.append_nil] at h1 h2
  exact h2.trans h1.symm

theorem bytesT_cons {s : Str} (h : s ≠ []) : ∃ c r, bytesT s = .byte c true :: r := by
  unfold bytesT
  cases e : utf8 s with
  | nil => exact absurd (utf8_eq_nil.1 e) h
  | cons c r => exact ⟨c, _, rfl⟩

theorem starts_pieces (ps : List Spec.CodePiece) (d : Nat) (h : Spec.Opens ps) : Starts (piecesTok (d + 1) ps) := by
  have one : ∀ {s : Str} (r : List LTok), s ≠ [] → Starts (bytesT s ++ r) := by
    intro s r hs
    obtain ⟨c, r', e⟩ := bytesT_cons hs
    exact .inl ⟨c, r' ++ r, by rw [e]; rfl⟩
  have two : ∀ {s : Str} (id : KwId) (b : Bool) (r : List LTok), s ≠ [] → Starts (.kwText id b :: (bytesT s ++ r)) := by
    intro s id b r hs
    obtain ⟨c, r', e⟩ := bytesT_cons hs
    exact .inr ⟨id, b, c, r' ++ r, by rw [e]; rfl⟩
  match ps, h with
  | .plain s :: ps, h => exact one _ h
  | .quote [] l :: ps, h =>
    have := two .beginText true (qTok (d + 1) .endText ++ piecesTok (d + 1) ps) h
    simpa [piecesTok, pieceTok, partsTok, qTok] using this
  | .quote (p :: qs) l :: ps, h =>
    have := two .beginText true (vTok (d + 1) .beginVar ++ (bytesT (Spec.printable p.2) ++ (vTok (d + 1) .endVar ++
      (partsTok (d + 1) qs l ++ (qTok (d + 1) .endText ++ piecesTok (d + 1) ps))))) h
    simpa [piecesTok, pieceTok, partsTok, qTok] using this
  | .verb s :: ps, h =>
    have := two .beginYuanyang true (qTok (d + 1) .endYuanyang ++ piecesTok (d + 1) ps) h
    simpa [piecesTok, pieceTok, qTok] using this
  | .var s :: ps, h =>
    have := two .beginVar false (vTok (d + 1) .endVar ++ piecesTok (d + 1) ps) h
    simpa [piecesTok, pieceTok, vTok] using this
  | .note s :: ps, h =>
    have := one (s := c!"【") (bytesT (Spec.strip s) ++ (nTok (d + 1) .endRem2 ++ piecesTok (d + 1) ps)) (by simp)
    simpa [piecesTok, pieceTok, nTok, kwStr] using this
  | .opn :: .plain s :: ps, h =>
    have := two .beginCode true (piecesTok (d + 2) ps) h
    simpa [piecesTok, pieceTok, qTok] using this

/-- **C59.**  Code between `下代码` and `上代码` is kept as a text: without the blanks between the words, everything else
as it is written, nested code quotes included.  By `C59_same_program` this text, run later, is the same program. -/
theorem C59_kept (ps : List Spec.CodePiece) (h : Spec.CodePieces 0 ps) (ho : Spec.Opens ps)
    (hx : ¬ ['续', '\n'] <+: Spec.piecesSrc (Spec.piecesKept ps) ∧ ¬ ['\n', '续'] <:+ Spec.piecesSrc (Spec.piecesKept ps)) :
    parse (c!"下代码" ++ Spec.piecesSrc ps ++ c!"上代码") = .ok (.ok [.text (Spec.piecesSrc (Spec.piecesKept ps))]) := by
  refine parse_text _ _ (piecesTok 1 ps) ?_ (textOf_pieces ps 0 h) (starts_pieces ps 0 ho) hx
  have hj : ∀ u, Spec.NoJoin u c!"上代码" := fun u => noJoin_opener (c := '上') (v := c!"代码") (by decide)
  have h1 := lex_pieces 1 c!"上代码" hj ps 0 h
  rw [List.append_assoc, show c!"下代码" = kwStr .beginCode from rfl, lex_mark _ (by decide) isolated_beginCode rfl]
  show [] ++ lex (Qc 1) _ = _
  rw [List.nil_append, h1, show c!"上代码" = kwStr .endCode ++ [] from rfl,
    lex_mark _ (by decide) isolated_endCode rfl]
  show piecesTok 1 ps ++ ([] ++ lex Quo.zero []) = _
  rw [lex_nil]
  simp

/-! ## Nested quotes -/

/-- A part of a text with nested quotes: something without the quotation marks, an opening, a closing mark. -/
inductive Spec.NPart where
  | text (s : Str)
  | opn
  | cls

/-- The source of such a text; `o` and `c` are the marks. -/
def Spec.nestSrc (o c : Str) (ps : List Spec.NPart) : Str :=
  ps.flatMap fun p => match p with | .text s => s | .opn => o | .cls => c

/-- The marks come in pairs, the texts between them contain no marks `p`; no two texts side by side. -/
def Spec.Nested (p : KwId → Bool) : Nat → List Spec.NPart → Prop
  | d, [] => d = 0
  | d, .opn :: ps => Spec.Nested p (d + 1) ps
  | 0, .cls :: _ => False
  | d + 1, .cls :: ps => Spec.Nested p d ps
  | d, .text s :: ps => Spec.Free p s ∧ (∀ t, ps.head? ≠ some (.text t)) ∧ Spec.Nested p d ps

/-- The tokens. -/
def nestTok (f : Str → Str) (o c : KwId) (ps : List Spec.NPart) : List LTok :=
  ps.flatMap fun p => match p with
    | .text s => bytesT (f s)
    | .opn => [.kwText o true]
    | .cls => [.kwText c true]

/-- A family of states, one for each depth of nesting. -/
structure NestState (Q : Nat → Quo) (p : KwId → Bool) (keep : Nat → Bool) (o c : KwId) : Prop where
  act : ∀ d id, active (Q d) false id = p id
  keep : ∀ d x, (Q d).keep x = keep x
  inT : ∀ d, (Q d).inText = true
  opn : ∀ d, lexKw (Q d) o = (Q (d + 1), some (.kwText o true))
  cls : ∀ d, lexKw (Q (d + 1)) c = (Q d, some (.kwText c true))
  po : p o = true
  pc : p c = true
  oo : o ∈ kwOrder
  oc : c ∈ kwOrder
  io : Isolated o
  ic : Isolated c
  jo : ∀ u v, Spec.NoJoin u (kwStr o ++ v)
  jc : ∀ u v, Spec.NoJoin u (kwStr c ++ v)

theorem lex_nest {Q p keep o c} (N : NestState Q p keep o c) (rest : Str) (hrest : ∀ u, Spec.NoJoin u rest) :
    ∀ (ps : List Spec.NPart) (d : Nat), Spec.Nested p d ps →
    lex (Q d) (utf8 (Spec.nestSrc (kwStr o) (kwStr c) ps ++ rest)) =
      nestTok (fun s => s.filter fun x => keep x.toNat) o c ps ++ lex (Q 0) (utf8 rest) := by
  intro ps
  induction ps with
  | nil =>
    intro d h
    have : d = 0 := by cases d <;> exact h
    subst this; rfl
  | cons x ps ih =>
    intro d h
    cases x with
    | opn =>
      have h : Spec.Nested p (d + 1) ps := by cases d <;> exact h
      have e : Spec.nestSrc (kwStr o) (kwStr c) (.opn :: ps) ++ rest =
          kwStr o ++ (Spec.nestSrc (kwStr o) (kwStr c) ps ++ rest) := by simp [Spec.nestSrc]
      rw [e, lex_mark _ N.oo N.io (by rw [N.act]; exact N.po), N.opn, ih _ h]
      rfl
    | cls =>
      cases d with
      | zero => exact h.elim
      | succ d =>
        have e : Spec.nestSrc (kwStr o) (kwStr c) (.cls :: ps) ++ rest =
            kwStr c ++ (Spec.nestSrc (kwStr o) (kwStr c) ps ++ rest) := by simp [Spec.nestSrc]
        rw [e, lex_mark _ N.oc N.ic (by rw [N.act]; exact N.pc), N.cls, ih _ h]
        rfl
    | text s =>
      have h : Spec.Free p s ∧ (∀ t, ps.head? ≠ some (.text t)) ∧ Spec.Nested p d ps := by cases d <;> exact h
      have e : Spec.nestSrc (kwStr o) (kwStr c) (.text s :: ps) ++ rest =
          s ++ (Spec.nestSrc (kwStr o) (kwStr c) ps ++ rest) := by simp [Spec.nestSrc]
      have hj : Spec.NoJoin s (Spec.nestSrc (kwStr o) (kwStr c) ps ++ rest) := by
        cases ps with
        | nil => exact hrest s
        | cons y ys =>
          cases y with
          | text t => exact absurd rfl (h.2.1 t)
          | opn => simpa [Spec.nestSrc] using N.jo s (Spec.nestSrc (kwStr o) (kwStr c) ys ++ rest)
          | cls => simpa [Spec.nestSrc] using N.jc s (Spec.nestSrc (kwStr o) (kwStr c) ys ++ rest)
      rw [e, lex_seg _ s _ (h.1.mono fun id hid => by rwa [N.act] at hid) hj, N.inT, ih _ h.2.2]
      simp only [N.keep]
      simp [nestTok, bytesT]

theorem textOf_nest (f : Str → Str) (o c : KwId) (ho : f (kwStr o) = kwStr o) (hc : f (kwStr c) = kwStr c)
    (hf : ∀ a b, f (a ++ b) = f a ++ f b) (ps : List Spec.NPart) :
    textOf (nestTok f o c ps) = some (utf8 (f (Spec.nestSrc (kwStr o) (kwStr c) ps))) := by
  have hnil : f [] = [] := by simpa using hf [] []
  induction ps with
  | nil => simp [nestTok, Spec.nestSrc, textOf, hnil]
  | cons x ps ih =>
    have e : Spec.nestSrc (kwStr o) (kwStr c) (x :: ps) = Spec.nestSrc (kwStr o) (kwStr c) [x] ++ Spec.nestSrc (kwStr o) (kwStr c) ps := by
      simp [Spec.nestSrc]
    have e2 : nestTok f o c (x :: ps) = nestTok f o c [x] ++ nestTok f o c ps := by simp [nestTok]
    rw [e2, e, hf, utf8_append]
    refine textOf_append ?_ ih
    cases x with
    | text s => simp [nestTok, Spec.nestSrc, textOf_bytes]
    | opn => simp [nestTok, Spec.nestSrc, textOf, tokText, ho, kwBytes]
    | cls => simp [nestTok, Spec.nestSrc, textOf, tokText, hc, kwBytes]

/-- The text begins with something, and if that is a mark, there is something right after it. -/
def Spec.NOpens (f : Str → Str) : List Spec.NPart → Prop
  | .text s :: _ => f s ≠ []
  | .opn :: .text s :: _ => f s ≠ []
  | _ => False

theorem starts_nest (f : Str → Str) (o c : KwId) (ps : List Spec.NPart) (h : Spec.NOpens f ps) : Starts (nestTok f o c ps) := by
  match ps, h with
  | .text s :: ps, h =>
    obtain ⟨b, r, e⟩ := bytesT_cons h
    exact .inl ⟨b, r ++ nestTok f o c ps, by simp [nestTok, e]⟩
  | .opn :: .text s :: ps, h =>
    obtain ⟨b, r, e⟩ := bytesT_cons h
    exact .inr ⟨o, true, b, r ++ nestTok f o c ps, by simp [nestTok, e]⟩

def Qy (d : Nat) : Quo := ⟨0, 0, (d : Int) + 1, 0, 0, 0, 0⟩
def Qq (d : Nat) : Quo := ⟨(d : Int) + 1, 0, 0, 0, 0, 0, 0⟩

theorem nest_verb : NestState Qy inYuan (fun _ => true) .beginYuanyang .endYuanyang where
  act d id := by have : (0 : Int) < (d : Int) + 1 := by omega
                 simp [active, Qy, this]
  keep d x := by have : (0 : Int) < (d : Int) + 1 := by omega
                 simp [Quo.keep, Qy, this]
  inT d := by have : (0 : Int) < (d : Int) + 1 := by omega
              simp [Quo.inText, Quo.as2, Qy, this]
  opn d := by
    simp [lexKw, Quo.add4, Quo.add4End, Qy]
    rw [if_neg (by omega), if_pos (by omega)]
  cls d := by
    have : (d : Int) + 1 + 1 - 1 = d + 1 := by omega
    have h2 : (0 : Int) < (d : Int) + 1 := by omega
    simp [lexKw, Quo.add4, Quo.add4End, Qy, this, h2]
  po := rfl
  pc := rfl
  oo := by decide
  oc := by decide
  io := isolated_beginYuanyang
  ic := isolated_endYuanyang
  jo u v := noJoin_opener (c := '下') (by decide)
  jc u v := noJoin_opener (c := '上') (by decide)

theorem nest_quote : NestState Qq inText (fun x => decide (32 ≤ x)) .beginText .endText where
  act d id := by have : (0 : Int) < (d : Int) + 1 := by omega
                 simp [active, Qq, this]
  keep d x := by have : (0 : Int) < (d : Int) + 1 := by omega
                 simp [Quo.keep, Qq, this]
  inT d := by have : (0 : Int) < (d : Int) + 1 := by omega
              simp [Quo.inText, Qq, this]
  opn d := by
    simp [lexKw, Quo.add4, Quo.add4End, Qq]
    rw [if_neg (by omega), if_pos (by omega)]
  cls d := by
    have : (d : Int) + 1 + 1 - 1 = d + 1 := by omega
    have h2 : (0 : Int) < (d : Int) + 1 := by omega
    simp [lexKw, Quo.add4, Quo.add4End, Qq, this, h2]
  po := rfl
  pc := rfl
  oo := by decide
  oc := by decide
  io := isolated_beginText
  ic := isolated_endText
  jo u v := noJoin_opener (c := '“') (by decide)
  jc u v := noJoin_opener (c := '”') (by decide)

/-- **C19, nested.**  Verbatim texts inside a verbatim text are part of it, marks included, to any depth: the outermost
closing mark ends the text, and nothing in between is changed. -/
theorem C19_nested (ps : List Spec.NPart) (h : Spec.Nested inYuan 0 ps) (ho : Spec.NOpens id ps)
    (hx : ¬ ['续', '\n'] <+: Spec.nestSrc c!"下原样" c!"上原样" ps ∧ ¬ ['\n', '续'] <:+ Spec.nestSrc c!"下原样" c!"上原样" ps) :
    parse (c!"下原样" ++ Spec.nestSrc c!"下原样" c!"上原样" ps ++ c!"上原样") =
      .ok (.ok [.text (Spec.nestSrc c!"下原样" c!"上原样" ps)]) := by
  have hf : (fun s : Str => s.filter fun _ => true) = id := by
    funext s; exact List.filter_eq_self.2 (by simp)
  refine parse_text _ _ (nestTok id .beginYuanyang .endYuanyang ps) ?_
    (textOf_nest id _ _ rfl rfl (fun _ _ => rfl) ps) (starts_nest _ _ _ ps ho) hx
  have hj : ∀ u, Spec.NoJoin u c!"上原样" := fun u => noJoin_opener (c := '上') (v := c!"原样") (by decide)
  have h1 := lex_nest nest_verb c!"上原样" hj ps 0 h
  rw [hf] at h1
  rw [List.append_assoc]
  show lex _ (utf8 (kwStr .beginYuanyang ++ (Spec.nestSrc (kwStr .beginYuanyang) (kwStr .endYuanyang) ps ++ c!"上原样"))) = _
  rw [lex_mark _ (by decide) isolated_beginYuanyang rfl]
  show [] ++ lex (Qy 0) _ = _
  rw [List.nil_append, h1, show c!"上原样" = kwStr .endYuanyang ++ [] from rfl,
    lex_mark _ (by decide) isolated_endYuanyang rfl]
  show _ ++ ([] ++ lex Quo.zero []) = _
  rw [lex_nil]
  simp

/-- **C20, nested.**  The same for quoted texts (without names inside): the outermost closing mark ends the text, control
characters are left out. -/
theorem C20_nested (ps : List Spec.NPart) (h : Spec.Nested inText 0 ps) (ho : Spec.NOpens Spec.printable ps)
    (hx : ¬ ['续', '\n'] <+: Spec.printable (Spec.nestSrc c!"“" c!"”" ps) ∧
      ¬ ['\n', '续'] <:+ Spec.printable (Spec.nestSrc c!"“" c!"”" ps)) :
    parse (c!"“" ++ Spec.nestSrc c!"“" c!"”" ps ++ c!"”") =
      .ok (.ok [.text (Spec.printable (Spec.nestSrc c!"“" c!"”" ps))]) := by
  refine parse_text _ _ (nestTok Spec.printable .beginText .endText ps) ?_
    (textOf_nest Spec.printable _ _ rfl rfl (fun _ _ => by simp [Spec.printable]) ps) (starts_nest _ _ _ ps ho) hx
  have hj : ∀ u, Spec.NoJoin u c!"”" := fun u => noJoin_opener (c := '”') (v := []) (by decide)
  have h1 := lex_nest nest_quote c!"”" hj ps 0 h
  rw [List.append_assoc]
  show lex _ (utf8 (kwStr .beginText ++ (Spec.nestSrc (kwStr .beginText) (kwStr .endText) ps ++ c!"”"))) = _
  rw [lex_mark _ (by decide) isolated_beginText rfl]
  show [] ++ lex (Qq 0) _ = _
  rw [List.nil_append, h1, show c!"”" = kwStr .endText ++ [] from rfl,
    lex_mark _ (by decide) isolated_endText rfl]
  show _ ++ ([] ++ lex Quo.zero []) = _
  rw [lex_nil]
  simp
  rfl

/-! ## Where it fails -/

/-- Found: a text between `下文本` and `上文本` loses its parentheses and all between them when it stands in code that is
kept as text. -/
theorem C59_text2_counterexample :
    (match parse c!"下代码显示下文本（甲）上文本上代码", parse c!"显示下文本（甲）上文本" with
      | .ok (.ok [.text t]), .ok (.ok [.print [.text u]]) => decide (t = c!"显示下文本上文本" ∧ u = c!"（甲）") | _, _ => false) = true := by
  decide +kernel

/-- Found: a comment inside a word separates its parts in code, but not in code that is kept as text: there the comment is
dropped before, and the parts become a keyword. -/
theorem C59_comment_counterexample :
    (match parse c!"下代码显（丙）示甲上代码", parse c!"显（丙）示甲", parse c!"显示甲" with
      | .ok (.ok [.text t]), .ok (.ok [.undef u]), .ok (.ok [.print _]) => decide (t = c!"显示甲" ∧ u = c!"显示甲") | _, _, _ => false) = true := by
  decide +kernel

/-- Found: code that begins with an empty quoted text is not kept as one text. -/
theorem C59_empty_quote_counterexample :
    (match parse c!"下代码“”、甲上代码" with
      | .ok (.ok [.undef a, .text b]) => decide (a = c!"“" ∧ b = c!"”、甲") | _ => false) = true := by
  decide +kernel

/-- Non-vacuity of C59: a piece of code with a quoted text, a name in it, an annotation and nested code. -/
example : ∃ ps, Spec.piecesSrc ps = c!"显 示 “a ‘甲’ b”、‘乙’。定义丙、丁【隔】以 下代码 显示 下原样 ‘ 上原样。上代码。" ∧
    Spec.piecesSrc (Spec.piecesKept ps) = c!"显示“a ‘甲’ b”、‘乙’。定义丙、丁【隔】以下代码显示下原样 ‘ 上原样。上代码。" ∧
    Spec.CodePieces 0 ps ∧ Spec.Opens ps := by
  refine ⟨[.plain c!"显 示 ", .quote [(c!"a ", c!"甲")] c!" b", .plain c!"、", .var c!"乙", .plain c!"。定义丙、丁", .note c!"隔",
    .plain c!"以 ", .opn, .plain c!" 显示 ", .verb c!" ‘ ", .plain c!"。", .cls, .plain c!"。"], by decide +kernel, by decide +kernel, ?_, ?_⟩
  · refine ⟨?_, by simp [Spec.CodePiece.isPlain], ⟨fun p hp => ?_, ?_⟩, ?_, by simp [Spec.CodePiece.isPlain], ?_, ?_, by simp [Spec.CodePiece.isPlain], ?_, ?_, by simp [Spec.CodePiece.isPlain], ?_, by simp [Spec.CodePiece.isPlain], ?_, ?_, by simp [Spec.CodePiece.isPlain], ?_, by simp [Spec.CodePiece.isPlain], rfl⟩
    all_goals first
      | (intro id hid; cases id <;> first | (exfalso; revert hid; decide) | decide)
      | skip
    simp at hp
    subst hp
    constructor <;> (intro id hid; cases id <;> first | (exfalso; revert hid; decide) | decide)
  · show Spec.strip _ ≠ []
    decide

/-- Non-vacuity of the nested texts. -/
example : Spec.nestSrc c!"“" c!"”" [.text c!"甲\n", .opn, .text c!"乙", .opn, .cls, .cls, .text c!" 丙"] = c!"甲\n“乙“”” 丙" ∧
    Spec.Nested inText 0 [.text c!"甲\n", .opn, .text c!"乙", .opn, .cls, .cls, .text c!" 丙"] ∧
    Spec.NOpens Spec.printable [.text c!"甲\n", .opn, .text c!"乙", .opn, .cls, .cls, .text c!" 丙"] := by
  refine ⟨by decide, ⟨?_, by simp, ?_, by simp, ?_, by simp, rfl⟩, ?_⟩
  all_goals first
    | (intro id hid; cases id <;> first | (exfalso; revert hid; decide) | decide)
    | skip
  show Spec.printable _ ≠ []
  decide

end Zh
