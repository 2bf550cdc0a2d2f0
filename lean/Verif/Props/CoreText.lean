import Verif.Props.CoreRun
import Verif.Props.Grammar
/-!
# C68: how programs of the small language are read
-/
namespace Zh

variable {H : Host}

/-! ## The marks are in their places -/

theorem clear_app {us vs : List Spec.Frag} (h : Spec.Clear us) (h' : Spec.Clear vs)
    (hb : ∀ u ∈ us.getLast?, ∀ v ∈ vs.head?, u.before v = true) : Spec.Clear (us ++ vs) := by
  induction us with
  | nil => exact h'
  | cons u us ih =>
    obtain ⟨h1, h2, h3⟩ := h
    refine ⟨h1, fun v hv => ?_, ih h3 fun u' hu' => hb u' ?_⟩
    · cases us with
      | nil => exact hb u rfl v hv
      | cons u' us => exact h2 v hv
    · cases us with
      | nil => cases hu'
      | cons u2 us => exact hu'

/-- Keywords that may follow anything. -/
def lateKw (id : KwId) : Bool := !(decide (id = .mod_) || decide (id = .modFree) || decide (id = .dengyu))
/-- Keywords that anything may follow. -/
def earlyKw (id : KwId) : Bool := !(decide (id = .xiaoyu) || decide (id = .dayu))

theorem before_late {id : KwId} (h : lateKw id = true) (u : Spec.Frag) : u.before (.kw id) = true := by
  have h1 : id ≠ .mod_ ∧ id ≠ .modFree ∧ id ≠ .dengyu := by
    simp only [lateKw, Bool.not_eq_true', Bool.or_eq_false_iff, decide_eq_false_iff_not] at h
    exact ⟨h.1.1, h.1.2, h.2⟩
  cases u <;> simp [Spec.Frag.before, Spec.Frag.deng, h1.1, h1.2.1, h1.2.2]

theorem clear_kw {id : KwId} {vs : List Spec.Frag} (h : earlyKw id = true) (hv : Spec.Clear vs) : Spec.Clear (.kw id :: vs) := by
  refine ⟨nofun, fun v _ => ?_, hv⟩
  have h1 : id ≠ .xiaoyu ∧ id ≠ .dayu := by
    simp only [earlyKw, Bool.not_eq_true', Bool.or_eq_false_iff, decide_eq_false_iff_not] at h
    exact h
  simp [Spec.Frag.before, h1.1, h1.2]

/-- Something, a keyword, and something. -/
theorem clear_mid {id : KwId} {us vs : List Spec.Frag} (h : lateKw id = true) (h' : earlyKw id = true) (hu : Spec.Clear us) (hv : Spec.Clear vs) :
    Spec.Clear (us ++ .kw id :: vs) :=
  clear_app hu (clear_kw h' hv) fun u _ v hv => by
    cases hv
    exact before_late h u

theorem clear_one {a : Spec.Atom} (h : a.Ok) : Spec.Clear [.atom a] := ⟨fun _ e => by cases e; exact h, nofun, trivial⟩

theorem clear_noted {ns : List Str} (h : ∀ s ∈ ns, Spec.Free inVar s) : Spec.Clear (Spec.noteUnits ns) := by
  induction ns with
  | nil => trivial
  | cons n ns ih =>
    refine ⟨fun a e => by cases e; exact h n (by simp), fun v hv => ?_, ih fun s hs => h s (by simp [hs])⟩
    cases ns with
    | nil => cases hv
    | cons m ns => cases hv; rfl

/-! ## Texts, values and conditions -/

theorem Spec.Txt.Ok.atom {t : Spec.Txt} (h : t.Ok) : t.atom.Ok := by
  refine ⟨fun p hp => ?_, h.2⟩
  obtain ⟨p', hp', rfl⟩ := List.mem_map.1 hp
  exact ⟨(h.1 p' hp').1, (h.1 p' hp').2.1, by cases p'.2 <;> rfl⟩

theorem Spec.Txt.phrase_units (t : Spec.Txt) : t.phrase.units = [.atom t.atom] := by
  simp [Spec.Txt.phrase, Spec.Phrase.units, Spec.El.units]

theorem Spec.Txt.phrase_code (t : Spec.Txt) : t.phrase.code = t.code := by
  simp only [Spec.Txt.phrase, Spec.Phrase.code, Spec.El.code, List.append_nil, Spec.Txt.atom, Spec.Atom.items, List.flatMap_map, Spec.Txt.code]

theorem Spec.Txt.phrase_ok (t : Spec.Txt) : t.phrase.Ok := by simp [Spec.Txt.phrase, Spec.Phrase.Ok, Spec.El.Ok]

theorem Spec.Value.phrase_code (v : Spec.Value) : v.phrase.code = v.code := by
  cases v with
  | text t => exact t.phrase_code
  | sum t => simp [Spec.Value.phrase, Spec.Phrase.code, Spec.Cmd.build, Spec.Value.code, t.phrase_code]

theorem Spec.Value.Ok.phrase {v : Spec.Value} (h : v.Ok) : v.phrase.Ok ∧ Spec.Clear v.phrase.units := by
  cases v with
  | text t =>
    refine ⟨t.phrase_ok, ?_⟩
    simp only [Spec.Value.phrase, t.phrase_units]
    exact clear_one (Spec.Txt.Ok.atom h)
  | sum t =>
    refine ⟨?_, ?_⟩
    · simp only [Spec.Value.phrase, Spec.Phrase.Ok, t.phrase_code]
      exact ⟨code_solid h.2, t.phrase_ok, nofun⟩
    · simp only [Spec.Value.phrase, Spec.Phrase.units, t.phrase_units]
      exact clear_kw (by decide) (clear_one h.1.atom)

theorem Spec.Value.Solid.code {v : Spec.Value} (h : v.Solid) : v.code ≠ [] := by
  cases v with
  | text t => exact code_solid h
  | sum t => simp [Spec.Value.code]

theorem Spec.Compare.Ok.op {c : Spec.Compare} (h : c.Ok) {vs : List Spec.Frag} (hv : Spec.Clear vs)
    (hr : ∀ v ∈ vs.head?, ∃ a, v = .atom (Spec.Txt.atom a)) : Spec.Clear ([.atom c.left.atom] ++ .kw c.op :: vs) := by
  obtain ⟨h1, -, h2, -, -⟩ := h
  refine ⟨fun _ e => by cases e; exact h1.atom, fun v hv => ?_, nofun, fun v hv => ?_, hv⟩
  · cases hv
    have : c.op ≠ .mod_ ∧ c.op ≠ .modFree := by
      constructor <;> intro e <;> rw [e] at h2 <;> exact absurd h2 (by decide)
    simp [Spec.Frag.before, this.1, this.2]
  · obtain ⟨a, rfl⟩ := hr v hv
    simp [Spec.Frag.before, Spec.Frag.deng, Spec.Txt.atom]

theorem Spec.Test.Ok.units {t : Spec.Test} (h : t.Ok) :
    t.condition.Ok ∧ Spec.Clear t.condition.units ∧ ∃ a, ∃ vs, t.condition.units = .atom (Spec.Txt.atom a) :: vs := by
  induction t with
  | one c =>
    have h : c.Ok := h
    refine ⟨?_, ?_, ?_⟩
    · simp only [Spec.Test.condition, Spec.Condition.Ok]
      refine ⟨Spec.Txt.phrase_ok _, ?_, Spec.Txt.phrase_ok _, ?_⟩
      · have : ∀ id ∈ Spec.cmpWords, inIf id = true := by decide
        exact this _ h.2.2.1
      · simp [Spec.Txt.phrase, Spec.Phrase.noIf]
    · simp only [Spec.Test.condition, Spec.Condition.units, Spec.Txt.phrase_units]
      exact h.op (clear_one h.2.2.2.1.atom) fun v hv => by cases hv; exact ⟨_, rfl⟩
    · simp only [Spec.Test.condition, Spec.Condition.units, Spec.Txt.phrase_units]
      exact ⟨_, _, rfl⟩
  | more c b t ih =>
    simp only [Spec.Test.Ok] at h
    obtain ⟨h1, h2, a, vs, h3⟩ := ih h.2
    have h := h.1
    refine ⟨?_, ?_, ?_⟩
    · simp only [Spec.Test.condition, Spec.Condition.Ok]
      refine ⟨Spec.Txt.phrase_ok _, ?_, Spec.Txt.phrase_ok _, ?_, h1⟩
      · have : ∀ id ∈ Spec.cmpWords, inIf id = true := by decide
        exact this _ h.2.2.1
      · cases b <;> rfl
    · simp only [Spec.Test.condition, Spec.Condition.units, Spec.Txt.phrase_units]
      refine h.op ?_ fun v hv => by cases hv; exact ⟨_, rfl⟩
      exact clear_mid (by cases b <;> rfl) (by cases b <;> rfl) (clear_one h.2.2.2.1.atom) h2
    · simp only [Spec.Test.condition, Spec.Condition.units, Spec.Txt.phrase_units]
      exact ⟨_, _, rfl⟩

theorem Spec.Test.condition_code (t : Spec.Test) : t.condition.code = t.code := by
  induction t with
  | one c => simp [Spec.Test.condition, Spec.Condition.code, Spec.Txt.phrase_code, Spec.Test.code, Spec.Compare.code]
  | more c b t ih => simp [Spec.Test.condition, Spec.Condition.code, Spec.Txt.phrase_code, Spec.Test.code, Spec.Compare.code, ih]

/-! ## Sizes -/

theorem unitsLen_app (us vs : List Spec.Frag) : (Spec.unitsSrc (us ++ vs)).length = (Spec.unitsSrc us).length + (Spec.unitsSrc vs).length := by
  simp [Spec.unitsSrc]

theorem unitsLen_kw (id : KwId) (vs : List Spec.Frag) (h : kwStr id ≠ []) : (Spec.unitsSrc vs).length + 1 ≤ (Spec.unitsSrc (.kw id :: vs)).length := by
  have := List.length_pos_iff.2 h
  simp only [Spec.unitsSrc, List.flatMap_cons, List.length_append, Spec.Frag.src]
  omega

theorem textItem_len (s : Str) : (Spec.textItem (Spec.printable s)).length ≤ s.length := by
  unfold Spec.textItem
  split
  · simp
  · rename_i h
    have h1 := List.length_pos_iff.2 h
    have h2 : (Spec.printable s).length ≤ s.length := List.length_filter_le _ _
    simp only [List.length_cons, List.length_nil]
    omega

theorem Spec.Txt.length (t : Spec.Txt) : t.code.length + 2 ≤ (Spec.unitsSrc t.phrase.units).length := by
  obtain ⟨ps, last⟩ := t
  simp only [Spec.Txt.phrase_units, Spec.unitsSrc, List.flatMap_cons, List.flatMap_nil, List.append_nil, Spec.Frag.src, Spec.Txt.atom,
    Spec.Atom.src, Spec.quoteParts, List.map_map, Spec.partsSrc, Spec.Txt.code, List.length_append]
  have h1 := textItem_len last
  have h2 : (ps.flatMap fun p => Spec.textItem (Spec.printable p.1) ++ [p.2.name.item []]).length ≤
      (List.flatMap (fun p => p.1 ++ c!"‘" ++ p.2 ++ c!"’")
        (List.map ((fun p => (p.1, p.2.text)) ∘ fun p => (p.1, p.2.name)) ps)).length := by
    clear h1
    induction ps with
    | nil => simp
    | cons p ps ih =>
      have := textItem_len p.1
      simp only [List.map_cons, List.flatMap_cons, List.length_append, List.length_cons, List.length_nil, Function.comp] at ih ⊢
      omega
  have e1 : (c!"“" : Str).length = 1 := rfl
  have e2 : (c!"”" : Str).length = 1 := rfl
  rw [e1, e2]
  omega

/-! ## Statements -/

theorem Spec.Plainly.word {x : Str} (h : Spec.Plainly x) : (Spec.Atom.word x).Ok := ⟨h.2.2, by rw [h.2.1]; exact h.1⟩

/-- A statement of the small language is written as C60 requires, and is read as it should be. -/
structure StmtRead (x : Spec.Stmt) : Prop where
  ok : x.phrase.Ok
  clear : Spec.Clear x.phrase.units
  code : x.phrase.code = x.item :: x.rest

structure CoreRead (k : Spec.Core) : Prop where
  ok : k.script.Ok
  clear : Spec.Clear k.script.units
  code : k.script.code = k.code

theorem word_phrase {x : Str} (h : Spec.Plainly x) : (Spec.Phrase.el (.atom (.word x)) .nil).Ok ∧
    Spec.Clear (Spec.Phrase.el (.atom (.word x)) .nil).units ∧ (Spec.Phrase.el (.atom (.word x)) .nil).code = [.undef x] := by
  refine ⟨by simp [Spec.Phrase.Ok, Spec.El.Ok], ?_, ?_⟩
  · simp only [Spec.Phrase.units, Spec.El.units, List.append_nil]
    exact clear_one h.word
  · simp [Spec.Phrase.code, Spec.El.code, Spec.Atom.items, h.2.1]

/-- Arguments of a call. -/
theorem args_read {ts : List Spec.Txt} (h : ∀ t ∈ ts, t.Ok) : (Spec.argsPhrase ts).Ok ∧ Spec.Clear (Spec.argsPhrase ts).units ∧
    (Spec.argsPhrase ts).code = Spec.argsCode ts ∧ (∀ u ∈ (Spec.argsPhrase ts).units.head?, ∃ t, u = .atom (Spec.Txt.atom t)) ∧
    (Spec.argsCode ts).length ≤ (Spec.unitsSrc (Spec.argsPhrase ts).units).length := by
  induction ts with
  | nil => exact ⟨by simp [Spec.argsPhrase, Spec.Phrase.Ok], by simp [Spec.argsPhrase, Spec.Phrase.units, Spec.Clear],
      by simp [Spec.argsPhrase, Spec.Phrase.code, Spec.argsCode], by simp [Spec.argsPhrase, Spec.Phrase.units], by simp [Spec.argsCode]⟩
  | cons t ts ih =>
    cases ts with
    | nil =>
      have ht := h t (by simp)
      have := t.length
      refine ⟨t.phrase_ok, ?_, t.phrase_code, ?_, by simp only [Spec.argsPhrase, Spec.argsCode]; omega⟩ <;> rw [Spec.argsPhrase, t.phrase_units]
      · exact clear_one ht.atom
      · exact fun u hu => ⟨t, by cases hu; rfl⟩
    | cons t' ts =>
      obtain ⟨h1, h2, h3, h4, h5⟩ := ih fun t ht => h t (by simp [List.mem_cons.1 ht])
      have ht := h t (by simp)
      have hl := t.length
      rw [t.phrase_units] at hl
      have hc : t.atom.items = t.code := by
        simp only [Spec.Txt.atom, Spec.Atom.items, List.flatMap_map, Spec.Txt.code]
      have hu : (Spec.argsPhrase (t :: t' :: ts)).units = [.atom t.atom] ++ ([.atom .sep] ++ (Spec.argsPhrase (t' :: ts)).units) := by
        simp [Spec.argsPhrase, Spec.Phrase.units, Spec.El.units]
      refine ⟨?_, ?_, ?_, ?_, ?_⟩
      · simp only [Spec.argsPhrase, Spec.Phrase.Ok, Spec.El.Ok, true_and] at h1 ⊢
        exact h1
      · rw [hu]
        refine clear_app (clear_one ht.atom) (clear_app (clear_one trivial) h2 fun u hu v hv => ?_) fun u hu v hv => ?_
        · cases hu
          obtain ⟨t2, rfl⟩ := h4 v hv
          rfl
        · cases hu
          cases hv
          rfl
      · rw [Spec.argsPhrase, Spec.Phrase.code, Spec.Phrase.code, h3]
        · simp only [Spec.El.code, hc, Spec.argsCode]
          rfl
        · exact nofun
      · rw [hu]
        exact fun u hu => ⟨t, by cases hu; rfl⟩
      · rw [hu, unitsLen_app, unitsLen_app]
        have : (Spec.unitsSrc [.atom .sep]).length = 1 := by decide
        simp only [Spec.argsCode, List.length_append, List.length_cons] at h5 ⊢
        omega

theorem core_read {procs : List (Str × Bool)} (hp : ∀ f ∈ procs.map (·.1), Spec.Plainly f) (k : Spec.Core) : k.Ok procs → CoreRead k := by
  refine Spec.Core.rec (motive_1 := fun x => x.Ok procs → StmtRead x) (motive_2 := fun k => k.Ok procs → CoreRead k)
    ?_ ?_ ?_ ?_ ?_ ?_ ?_ ?_ ?_ ?_ k
  · intro x v h
    simp only [Spec.Stmt.Ok] at h
    obtain ⟨h1, -, h2⟩ := h
    obtain ⟨w1, w2, w3⟩ := word_phrase h1
    refine ⟨?_, ?_, ?_⟩
    · simp only [Spec.Stmt.phrase, Spec.Phrase.Ok]
      exact ⟨trivial, w1, by simp [Spec.Phrase.closed], h2.phrase.1⟩
    · simp only [Spec.Stmt.phrase, Spec.Phrase.units]
      exact clear_kw (by decide) (clear_mid (by decide) (by decide) w2 h2.phrase.2)
    · simp only [Spec.Stmt.phrase]
      rw [Spec.Phrase.code, w3, v.phrase_code]
      simp [Spec.Asg.build, Spec.Stmt.item, Spec.Stmt.rest]
  · intro v h
    simp only [Spec.Stmt.Ok] at h
    refine ⟨?_, ?_, ?_⟩
    · simp only [Spec.Stmt.phrase, Spec.Phrase.Ok, v.phrase_code]
      exact ⟨h.2.code, h.1.phrase.1, nofun⟩
    · simp only [Spec.Stmt.phrase, Spec.Phrase.units]
      exact clear_kw (by decide) h.1.phrase.2
    · simp [Spec.Stmt.phrase, Spec.Phrase.code, v.phrase_code, Spec.Cmd.build, Spec.Stmt.item, Spec.Stmt.rest]
  · intro t a b iha ihb h
    simp only [Spec.Stmt.Ok] at h
    obtain ⟨h1, h2, -⟩ := h.1.units
    have ha := iha h.2.1
    have hb := ihb h.2.2
    refine ⟨?_, ?_, ?_⟩
    · simp only [Spec.Stmt.phrase, Spec.Phrase.Ok, Spec.El.Ok, Spec.Phrase.noIf, Spec.Phrase.closed, Spec.Phrase.noBlock, and_true, true_and]
      exact ⟨h1, ha.ok, hb.ok⟩
    · simp only [Spec.Stmt.phrase, Spec.Phrase.units, Spec.El.units, List.append_nil, List.nil_append]
      refine clear_kw (by decide) (clear_mid (by decide) (by decide) h2 ?_)
      rw [List.cons_append, List.append_assoc]
      refine clear_kw (by decide) (clear_mid (by decide) (by decide) ha.clear ?_)
      refine clear_kw (by decide) ?_
      refine clear_kw (by decide) (clear_mid (by decide) (by decide) hb.clear trivial)
    · simp [Spec.Stmt.phrase, Spec.Phrase.code, Spec.El.code, Spec.Stmt.item, t.condition_code, ha.code, hb.code, Spec.Stmt.rest]
  · intro c a iha h
    simp only [Spec.Stmt.Ok] at h
    obtain ⟨⟨h1, h2, h3⟩, h⟩ := h
    have ha := iha h
    refine ⟨?_, ?_, ?_⟩
    · simp only [Spec.Stmt.phrase, Spec.Phrase.Ok, Spec.El.Ok, Spec.Phrase.closed, Spec.Phrase.noBlock, and_true, true_and]
      refine ⟨ha.ok, h1, ?_⟩
      simp [Spec.Phrase.code]
    · simp only [Spec.Stmt.phrase, Spec.Phrase.units, Spec.El.units, List.append_nil, List.nil_append]
      refine clear_kw (by show earlyKw KwId.for_ = true; decide) ?_
      exact clear_mid (by decide) (by decide) (clear_noted h3) (clear_mid (by decide) (by decide) ha.clear trivial)
    · simp [Spec.Stmt.phrase, Spec.Phrase.code, Spec.El.code, Spec.Stmt.item, Spec.Cmd.build, ha.code, Spec.Stmt.rest, h2, Spec.Counter.kept]
  · intro _
    exact ⟨by simp [Spec.Stmt.phrase, Spec.Phrase.Ok, Spec.Cmd.Ok, Spec.Cmd.isLoop], clear_kw (by decide) trivial, rfl⟩
  · intro _
    exact ⟨by simp [Spec.Stmt.phrase, Spec.Phrase.Ok, Spec.Cmd.Ok, Spec.Cmd.isLoop], clear_kw (by decide) trivial, rfl⟩
  · intro _
    exact ⟨by simp [Spec.Stmt.phrase, Spec.Phrase.Ok, Spec.Cmd.Ok, Spec.Cmd.isLoop], clear_kw (by decide) trivial, rfl⟩
  · intro f ts h
    simp only [Spec.Stmt.Ok] at h
    obtain ⟨⟨b, hb, -⟩, hts⟩ := h
    obtain ⟨w1, w2, w3⟩ := word_phrase (hp f (List.mem_map_of_mem hb))
    obtain ⟨h1, h2, h3, h4, -⟩ := args_read hts
    refine ⟨?_, ?_, ?_⟩
    · simp only [Spec.Stmt.phrase, Spec.Phrase.Ok, Spec.El.Ok, true_and]
      exact h1
    · simp only [Spec.Stmt.phrase, Spec.Phrase.units, Spec.El.units]
      refine clear_app (clear_one (hp f (List.mem_map_of_mem hb)).word) h2 fun u hu v hv => ?_
      cases hu
      obtain ⟨t, rfl⟩ := h4 v hv
      rfl
    · simp only [Spec.Stmt.phrase, Spec.Phrase.code, Spec.El.code, Spec.Atom.items, h3, (hp f (List.mem_map_of_mem hb)).2.1]
      rfl
  · intro _
    exact ⟨by simp [Spec.Core.script, Spec.Script.Ok, Spec.Phrase.Ok], by simp [Spec.Core.script, Spec.Script.units, Spec.Phrase.units, Spec.Clear],
      by simp [Spec.Core.script, Spec.Script.code, Spec.Phrase.code, Spec.Core.code]⟩
  · intro x k ihx ihk h
    simp only [Spec.Core.Ok] at h
    have hx := ihx h.1
    have hk := ihk h.2
    refine ⟨?_, ?_, ?_⟩
    · simp only [Spec.Core.script, Spec.Script.Ok]
      exact ⟨hx.ok, hk.ok⟩
    · simp only [Spec.Core.script, Spec.Script.units]
      exact clear_mid (by decide) (by decide) hx.clear hk.clear
    · simp [Spec.Core.script, Spec.Script.code, code_cons, hx.code, hk.code]

theorem Spec.Value.length (v : Spec.Value) {t : Spec.Txt} (h : v = .text t ∨ v = .sum t) :
    t.code.length ≤ (Spec.unitsSrc v.phrase.units).length := by
  have h1 := t.length
  rcases h with rfl | rfl
  · simp only [Spec.Value.phrase]
    omega
  · simp only [Spec.Value.phrase, Spec.Phrase.units]
    have := unitsLen_kw Spec.Cmd.expl.kw (Spec.noteUnits Spec.Cmd.expl.notes ++ t.phrase.units) (by decide)
    rw [unitsLen_app] at this
    omega

theorem Spec.Test.length {t : Spec.Test} (h : t.Ok) : t.code.length ≤ (Spec.unitsSrc t.condition.units).length := by
  have hop : ∀ id ∈ Spec.cmpWords, kwStr id ≠ [] := by decide
  induction t with
  | one c =>
    have h : c.Ok := h
    simp only [Spec.Test.condition, Spec.Condition.units, unitsLen_app]
    have h1 := unitsLen_kw c.op c.right.phrase.units (hop _ h.2.2.1)
    have h2 := c.left.length
    have h3 := c.right.length
    simp only [Spec.Test.code, Spec.Compare.code, List.length_append, List.length_cons]
    omega
  | more c b t ih =>
    simp only [Spec.Test.Ok] at h
    have ih := ih h.2
    simp only [Spec.Test.condition, Spec.Condition.units, unitsLen_app]
    have h1 := unitsLen_kw c.op (c.right.phrase.units ++ .kw (if b then .and_ else .or_) :: t.condition.units) (hop _ h.1.2.2.1)
    have h0 := unitsLen_kw (if b then .and_ else .or_) t.condition.units (by cases b <;> decide)
    rw [unitsLen_app] at h1
    have h2 := c.left.length
    have h3 := c.right.length
    simp only [Spec.Test.code, Spec.Compare.code, List.length_append, List.length_cons]
    omega

theorem core_fits {procs : List (Str × Bool)} (hp : ∀ f ∈ procs.map (·.1), Spec.Plainly f) (k : Spec.Core) : k.Ok procs →
    k.code.length ≤ k.src.length ∧ (k.src.length < 2 ^ 64 → k.Fits) := by
  have hu : usizeMax = 2 ^ 64 - 1 := rfl
  unfold Spec.Core.src Spec.Script.src
  refine Spec.Core.rec (motive_1 := fun x => x.Ok procs → x.rest.length + 1 ≤ (Spec.unitsSrc x.phrase.units).length ∧
    ((Spec.unitsSrc x.phrase.units).length < 2 ^ 64 → x.Fits))
    (motive_2 := fun k => k.Ok procs → k.code.length ≤ (Spec.unitsSrc k.script.units).length ∧
      ((Spec.unitsSrc k.script.units).length < 2 ^ 64 → k.Fits)) ?_ ?_ ?_ ?_ ?_ ?_ ?_ ?_ ?_ ?_ k
  · intro x v _
    have h1 := unitsLen_kw Spec.Asg.set_.kw ((Spec.Phrase.el (.atom (.word x)) .nil).units ++ .kw .equ :: v.phrase.units) (by decide)
    rw [unitsLen_app] at h1
    have h2 := unitsLen_kw .equ v.phrase.units (by decide)
    simp only [Spec.Stmt.phrase, Spec.Phrase.units] at h1 ⊢
    refine ⟨by simp only [Spec.Stmt.rest, List.length_nil]; omega, fun hl => ?_⟩
    simp only [Spec.Stmt.Fits]
    intro t ht
    have := v.length ht
    omega
  · intro v _
    have h1 := unitsLen_kw Spec.Cmd.print.kw (Spec.noteUnits Spec.Cmd.print.notes ++ v.phrase.units) (by decide)
    rw [unitsLen_app] at h1
    simp only [Spec.Stmt.phrase, Spec.Phrase.units] at h1 ⊢
    refine ⟨by simp only [Spec.Stmt.rest, List.length_nil]; omega, fun hl => ?_⟩
    simp only [Spec.Stmt.Fits]
    intro t ht
    have := v.length ht
    omega
  · intro t a b iha ihb h
    simp only [Spec.Stmt.Ok] at h
    have ha := (iha h.2.1).2
    have hb := (ihb h.2.2).2
    have ht := Spec.Test.length h.1
    simp only [Spec.Stmt.phrase, Spec.Phrase.units, Spec.El.units, List.append_nil, List.nil_append]
    have h1 := unitsLen_kw .if_ (t.condition.units ++ .kw .then_ :: ((.kw .beginBlock :: (a.script.units ++ [.kw .endBlock])) ++
      .kw .else_ :: .kw .beginBlock :: (b.script.units ++ [.kw .endBlock]))) (by decide)
    rw [unitsLen_app] at h1
    have h2 := unitsLen_kw .then_ ((.kw .beginBlock :: (a.script.units ++ [.kw .endBlock])) ++
      .kw .else_ :: .kw .beginBlock :: (b.script.units ++ [.kw .endBlock])) (by decide)
    rw [unitsLen_app] at h2
    have h3 := unitsLen_kw .beginBlock (a.script.units ++ [.kw .endBlock]) (by decide)
    rw [unitsLen_app] at h3
    have h4 := unitsLen_kw .else_ (.kw .beginBlock :: (b.script.units ++ [.kw .endBlock])) (by decide)
    have h5 := unitsLen_kw .beginBlock (b.script.units ++ [.kw .endBlock]) (by decide)
    rw [unitsLen_app] at h5
    refine ⟨by simp only [Spec.Stmt.rest, List.length_nil]; omega, fun hl => ?_⟩
    simp only [Spec.Stmt.Fits]
    exact ⟨by omega, ha (by omega), hb (by omega)⟩
  · intro c a iha h
    simp only [Spec.Stmt.Ok] at h
    have ha := (iha h.2).2
    simp only [Spec.Stmt.phrase, Spec.Phrase.units, Spec.El.units, List.append_nil, List.nil_append]
    have h1 := unitsLen_kw (Spec.Cmd.loop false c).kw (Spec.noteUnits (Spec.Cmd.loop false c).notes ++
      .kw .beginBlock :: (a.script.units ++ [.kw .endBlock])) (by show kwStr .for_ ≠ []; decide)
    rw [unitsLen_app] at h1
    have h3 := unitsLen_kw .beginBlock (a.script.units ++ [.kw .endBlock]) (by decide)
    rw [unitsLen_app] at h3
    refine ⟨by simp only [Spec.Stmt.rest, List.length_nil]; omega, fun hl => ?_⟩
    simp only [Spec.Stmt.Fits]
    exact ha (by omega)
  · intro _
    exact ⟨by decide, fun _ => by simp [Spec.Stmt.Fits]⟩
  · intro _
    exact ⟨by decide, fun _ => by simp [Spec.Stmt.Fits]⟩
  · intro _
    exact ⟨by decide, fun _ => by simp [Spec.Stmt.Fits]⟩
  · intro f ts h
    simp only [Spec.Stmt.Ok] at h
    obtain ⟨⟨b, hb, -⟩, hts⟩ := h
    have h1 := List.length_pos_iff.2 (hp f (List.mem_map_of_mem hb)).1
    obtain ⟨-, -, -, -, h2⟩ := args_read hts
    refine ⟨?_, fun _ => by simp [Spec.Stmt.Fits]⟩
    simp only [Spec.Stmt.phrase, Spec.Phrase.units, Spec.El.units, unitsLen_app, Spec.Stmt.rest]
    have : (Spec.unitsSrc [.atom (.word f)]).length = f.length := by simp [Spec.unitsSrc, Spec.Frag.src, Spec.Atom.src]
    omega
  · intro _
    exact ⟨by simp [Spec.Core.code], fun _ => by simp [Spec.Core.Fits]⟩
  · intro x k ihx ihk h
    simp only [Spec.Core.Ok] at h
    obtain ⟨h1, h2⟩ := ihx h.1
    obtain ⟨h3, h4⟩ := ihk h.2
    simp only [Spec.Core.script, Spec.Script.units, unitsLen_app]
    have h5 := unitsLen_kw .jvhao k.script.units (by decide)
    simp only [code_cons, List.length_cons, List.length_append]
    refine ⟨by omega, fun hl => ?_⟩
    simp only [Spec.Core.Fits, code_cons, List.length_cons, List.length_append]
    exact ⟨by omega, h2 (by omega), h4 (by omega)⟩

/-! ## Procedures and whole scripts -/

/-- The item of a procedure's definition. -/
def Spec.Proc.item (p : Spec.Proc) : Code := .def_ (.undef p.name :: (if p.args then [] else [.remS c!"无参"])) [.text p.text] (2 ^ 64 - 2)

def Spec.Prg.code (g : Spec.Prg) : List Code := (g.procs.flatMap fun p => [p.item, .kw1 .jvhao]) ++ g.main.code

theorem Spec.Proc.Ok.read {p : Spec.Proc} {procs : List (Str × Bool)} (h : p.Ok procs) :
    p.phrase.Ok ∧ Spec.Clear p.phrase.units ∧ p.phrase.code = [p.item] := by
  have hn : (Spec.Atom.note c!"无参").Ok := by
    show Spec.Free inVar c!"无参"
    exact fun id => by cases id <;> decide
  refine ⟨?_, ?_, ?_⟩
  · cases hb : p.args <;>
      simp [Spec.Proc.phrase, Spec.Phrase.Ok, Spec.El.Ok, Spec.Asg.Ok, Spec.Phrase.closed, Spec.Phrase.code, Spec.El.code, Spec.Atom.items, hb]
  · cases hb : p.args <;> simp only [Spec.Proc.phrase, Spec.Phrase.units, Spec.El.units, List.append_nil, hb, if_true, if_false, Bool.false_eq_true]
    · refine clear_kw (by decide) (clear_mid (by decide) (by decide) ?_ (clear_one ⟨h.pieces, h.opens, h.cont⟩))
      exact clear_app (clear_one h.name.word) (clear_one hn) fun u hu v hv => by cases hu; cases hv; rfl
    · exact clear_kw (by decide) (clear_mid (by decide) (by decide) (clear_one h.name.word) (clear_one ⟨h.pieces, h.opens, h.cont⟩))
  · have e : Spec.noteItem (Spec.strip c!"无参") = .remS c!"无参" := by rfl
    cases hb : p.args <;>
    simp [Spec.Proc.phrase, Spec.Phrase.code, Spec.El.code, Spec.Asg.build, Spec.Atom.items, h.name.2.1, e, Spec.Proc.item, Spec.Proc.text,
      Spec.sepAt, Spec.firstSep, hb]

theorem prg_plain {g : Spec.Prg} (h : g.Ok) : ∀ f ∈ g.names, Spec.Plainly f := by
  intro f hf
  obtain ⟨p, hp, rfl⟩ := List.mem_map.1 hf
  exact (h.procs p hp).name

theorem prg_sigs {g : Spec.Prg} (h : g.Ok) : ∀ f ∈ g.sigs.map (·.1), Spec.Plainly f := by
  intro f hf
  obtain ⟨q, hq, rfl⟩ := List.mem_map.1 hf
  obtain ⟨p, hp, rfl⟩ := List.mem_map.1 hq
  exact (h.procs p hp).name

theorem prg_read {g : Spec.Prg} (h : g.Ok) : parse g.src = .ok (.ok g.code) := by
  have hm := core_read (prg_sigs h) g.main h.main
  have key : ∀ ps : List Spec.Proc, (∀ p ∈ ps, p.Ok g.sigs) →
      (ps.foldr (fun p q => Spec.Script.sent p.phrase q) g.main.script).Ok ∧
      Spec.Clear (ps.foldr (fun p q => Spec.Script.sent p.phrase q) g.main.script).units ∧
      (ps.foldr (fun p q => Spec.Script.sent p.phrase q) g.main.script).code = (ps.flatMap fun p => [p.item, .kw1 .jvhao]) ++ g.main.code := by
    intro ps
    induction ps with
    | nil => exact fun _ => ⟨hm.ok, hm.clear, hm.code⟩
    | cons p ps ih =>
      intro hp
      obtain ⟨h1, h2, h3⟩ := ih fun p' hp' => hp p' (.tail _ hp')
      obtain ⟨h4, h5, h6⟩ := (hp p (.head _)).read
      refine ⟨?_, ?_, ?_⟩
      · rw [List.foldr_cons, Spec.Script.Ok]
        exact ⟨h4, h1⟩
      · rw [List.foldr_cons, Spec.Script.units]
        exact clear_mid (by decide) (by decide) h5 h2
      · rw [List.foldr_cons, Spec.Script.code, h3, h6]
        rfl
  obtain ⟨h1, h2, h3⟩ := key g.procs h.procs
  have := C60_structure g.script h1 h2
  rw [show g.script.code = g.code from h3] at this
  exact this

/-- The script is not shorter than its parts. -/
theorem prg_small {g : Spec.Prg} (h : g.Ok) : g.main.src.length < 2 ^ 64 ∧ (∀ p ∈ g.procs, p.body.src.length < 2 ^ 64) ∧
    g.code.length ≤ usizeMax := by
  have hm := (core_fits (prg_sigs h) g.main h.main).1
  have key : ∀ ps : List Spec.Proc, (∀ p ∈ ps, p.Ok g.sigs) →
      g.main.src.length + 2 * ps.length ≤ (ps.foldr (fun p q => Spec.Script.sent p.phrase q) g.main.script).src.length ∧
      ∀ p ∈ ps, p.body.src.length ≤ (ps.foldr (fun p q => Spec.Script.sent p.phrase q) g.main.script).src.length := by
    intro ps
    induction ps with
    | nil => exact fun _ => ⟨Nat.le_refl _, nofun⟩
    | cons p ps ih =>
      intro hp
      obtain ⟨h1, h2⟩ := ih fun p' hp' => hp p' (.tail _ hp')
      simp only [List.foldr_cons, Spec.Script.src, Spec.Script.units, unitsLen_app] at h1 h2 ⊢
      have h3 := unitsLen_kw .jvhao (ps.foldr (fun p q => Spec.Script.sent p.phrase q) g.main.script).units (by decide)
      have h4 : p.body.src.length + 1 ≤ (Spec.unitsSrc p.phrase.units).length := by
        rw [← (hp p (.head _)).src]
        simp only [Spec.Proc.phrase, Spec.Phrase.units, Spec.El.units, List.append_nil]
        have a1 := fun us => unitsLen_kw Spec.Asg.def_.kw (us ++ .kw .equ :: [.atom (.kept p.pieces)]) (by decide)
        simp only [unitsLen_app] at a1
        have a1 := a1 ([.atom (.word p.name)] ++ (if p.args then Spec.Phrase.nil else .el (.atom (.note c!"无参")) .nil).units)
        have a2 := unitsLen_kw .equ [.atom (.kept p.pieces)] (by decide)
        have a3 : (Spec.piecesSrc p.pieces).length ≤ (Spec.unitsSrc [.atom (.kept p.pieces)]).length := by
          simp only [Spec.unitsSrc, List.flatMap_cons, List.flatMap_nil, List.append_nil, Spec.Frag.src, Spec.Atom.src, List.length_append]
          omega
        omega
      refine ⟨by rw [List.length_cons]; omega, fun p' hp' => ?_⟩
      rcases List.mem_cons.1 hp' with rfl | hp'
      · omega
      · have := h2 p' hp'
        omega
  obtain ⟨h1, h2⟩ := key g.procs h.procs
  have hs : g.script.src.length < 2 ^ 64 := h.small
  have hs : (g.procs.foldr (fun p q => Spec.Script.sent p.phrase q) g.main.script).src.length < 2 ^ 64 := hs
  refine ⟨by omega, fun p hp => Nat.lt_of_le_of_lt (h2 p hp) hs, ?_⟩
  have e : (g.procs.flatMap fun p => [p.item, Code.kw1 .jvhao]).length = 2 * g.procs.length := by
    induction g.procs with
    | nil => rfl
    | cons p ps ih =>
      rw [List.flatMap_cons, List.length_append, ih]
      simp
      omega
  have hu : usizeMax = 2 ^ 64 - 1 := rfl
  rw [Spec.Prg.code, List.length_append, e]
  omega

/-- The kept text of a procedure is its body. -/
theorem proc_text {p : Spec.Proc} {procs : List (Str × Bool)} (hp : ∀ f ∈ procs.map (·.1), Spec.Plainly f) (h : p.Ok procs) :
    parse p.text = .ok (.ok p.body.code) := by
  have hr := core_read hp p.body h.body
  have h1 := C60_structure p.body.script hr.ok hr.clear
  rw [hr.code] at h1
  have h2 := C59_same_program p.pieces h.pieces
  rw [h.src, show parse p.body.src = _ from h1] at h2
  have h2 : Spec.SameParse (parse p.text) _ := h2
  revert h2
  cases parse p.text with
  | panic => exact False.elim
  | fuel => exact False.elim
  | ok x =>
    cases x with
    | error e => exact False.elim
    | ok c => exact fun h2 => by rw [show c = p.body.code from h2]

theorem prg_ready {g : Spec.Prg} (h : g.Ok) (hh : ∀ p ∈ g.procs, ∀ t, H.hash t = H.hash p.text → t = p.text) : Ready H g where
  word := by
    intro d hd
    rcases List.mem_append.1 hd with hd | hd
    · intro e
      have := (prg_plain h d hd).2.2 .print_ (by decide)
      rw [(prg_plain h d hd).2.1, e] at this
      exact this (by decide)
    · have : ∀ d ∈ Spec.chars.map (·.1), d ≠ Spec.printWord := by decide
      exact this d hd
  apart := h.apart
  ne := fun p hp => (h.procs p hp).name.1
  text := fun p hp => proc_text (prg_sigs h) (h.procs p hp)
  body := fun p hp => (h.procs p hp).body
  fits := fun p hp => (core_fits (prg_sigs h) p.body (h.procs p hp).body).2 ((prg_small h).2.1 p hp)
  hash := hh

end Zh
