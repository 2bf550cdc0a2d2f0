import Verif.Props.Written
import Verif.Props.ParsePanic
import Verif.Props.NoTextDemo
/-!
# C78, C79, C80 together: which scripts cannot crash, read from their text
-/
namespace Zh
open Spec (runsText sumOrHas)

/-- The keywords of the statements that run a text. -/
def Spec.textWords : List KwId := [.def_, .eval_, .load, .exec, .modFree]

/-- The characters `续`, line break, `续` come in this order, with anything between. -/
def Spec.Continued (src : Str) : Prop := List.Sublist ['续', '\n', '续'] src

theorem runsText_id {y : Code} (h : runsText y = true) : Spec.isPlain y = false ∧ y.id ∈ Spec.textWords := by
  cases y <;> try contradiction
  case eval load _ _ _ _ _ _ => cases load <;> exact ⟨rfl, by simp [Code.id, Spec.textWords]⟩
  all_goals exact ⟨rfl, by simp [Code.id, Spec.textWords]⟩

theorem sumOrHas_id {y : Code} (h : sumOrHas y = true) : Spec.isPlain y = false ∧ y.id ∈ ([.expl, .has] : List KwId) := by
  cases y <;> try contradiction
  all_goals exact ⟨rfl, by simp [Code.id]⟩

theorem textWithout_words {src : Str} (h : ∀ id ∈ Spec.textWords, ¬ Spec.Stands src id) : Spec.TextWithout runsText src :=
  C79_without fun _ hy => ⟨(runsText_id hy).1, h _ (runsText_id hy).2⟩

theorem textWithout_words2 {src : Str} (h : ∀ id ∈ Spec.textWords ++ [.expl, .has], ¬ Spec.Stands src id) :
    Spec.TextWithout (fun c => runsText c || sumOrHas c) src :=
  C79_without fun y hy => by
    rcases Bool.or_eq_true_iff.1 hy with hy | hy
    · exact ⟨(runsText_id hy).1, h _ (List.mem_append_left _ (runsText_id hy).2)⟩
    · exact ⟨(sumOrHas_id hy).1, h _ (List.mem_append_right _ (sumOrHas_id hy).2)⟩

variable {H : Host}

/-- **C79.** A script given as code in whose text none of `定义`, `解释`, `加载`, `执行`, `释放模块` stands, and which does not contain `续`, line
break, `续` in this order, crashes only in an `算术` or a `存在`. -/
theorem C79_code (hH : HostOk H) {shl : Str} {a : List Str} {opts : List Spec.CliOpt} {src : Str} {ws : List Str}
    (hl : Spec.CliLine (shl :: a) opts src ws) (hc : Spec.CliOpt.isCode ∈ opts) (hn : ¬ Spec.Continued src)
    (hw : ∀ id ∈ Spec.textWords, ¬ Spec.Stands src id) :
    ∀ n, (runMain H n false (shl :: a)).1 = .panic → Spec.SumCrash H n (shl :: a) ∨ Spec.HasCrash H n (shl :: a) :=
  C78_code hH hl hc (fun h => hn (C80_crash h)) (textWithout_words hw)

/-- **C79.** If neither `算术` nor `存在` stands in the text either, it never crashes: as code. -/
theorem C79_never_code (hH : HostOk H) {shl : Str} {a : List Str} {opts : List Spec.CliOpt} {src : Str} {ws : List Str}
    (hl : Spec.CliLine (shl :: a) opts src ws) (hc : Spec.CliOpt.isCode ∈ opts) (hn : ¬ Spec.Continued src)
    (hw : ∀ id ∈ Spec.textWords ++ [.expl, .has], ¬ Spec.Stands src id) : ∀ n, (runMain H n false (shl :: a)).1 ≠ .panic :=
  C78_never_code hH hl hc (fun h => hn (C80_crash h)) (textWithout_words2 hw)

/-- **C79.** And in a file. -/
theorem C79_never_file (hH : HostOk H) {shl : Str} {a : List Str} {opts : List Spec.CliOpt} {src : Str} {ws : List Str}
    (hl : Spec.CliLine (shl :: a) opts src ws) (hc : Spec.CliOpt.isCode ∉ opts)
    (hf : ∀ tr f, (f = src ∨ ∃ p, H.fileName p src = some f) → ∀ t, H.read tr f = .ok t →
      ¬ Spec.BadFirstLine t ∧ ∀ b, Spec.Unhashed t b → ¬ Spec.Continued b ∧ ∀ id ∈ Spec.textWords ++ [.expl, .has], ¬ Spec.Stands b id) :
    ∀ n, (runMain H n false (shl :: a)).1 ≠ .panic :=
  C78_never_file hH hl hc fun tr f h t ht =>
    ⟨(hf tr f h t ht).1, fun b hb => ⟨fun hp => ((hf tr f h t ht).2 b hb).1 (C80_crash hp), textWithout_words2 ((hf tr f h t ht).2 b hb).2⟩⟩

/-- Whether a text contains another. -/
def containsB (k s : Str) : Bool := (List.range (s.length + 1)).any fun i => k.isPrefixOf (s.drop i)

theorem containsB_sound {k s : Str} (h : containsB k s = false) : ¬ k <:+: s := by
  rintro ⟨a, b, e⟩
  have : containsB k s = true := by
    refine List.any_eq_true.2 ⟨a.length, List.mem_range.2 ?_, List.isPrefixOf_iff_prefix.2 ⟨b, ?_⟩⟩
    · rw [← e, List.length_append, List.length_append]; omega
    · rw [← e, List.append_assoc, List.drop_left]
  rw [h] at this
  cases this

/-- **C79.** The script of C78 is of this kind; `显示` stands in `显 示一。` although a blank is between; and the other direction does not hold:
`定义` stands in `显示“定义”。`, which has no definition. -/
theorem C79_witness :
    (¬ Spec.Continued plainDemo ∧ ∀ id ∈ Spec.textWords ++ [.expl, .has], ¬ Spec.Stands plainDemo id) ∧
    (Spec.Stands c!"显 示一。" .print_ ∧ ¬ kwStr .print_ <:+: c!"显 示一。" ∧
      (match parse c!"显 示一。" with | .ok (.ok [.print [.undef t], .kw1 .jvhao]) => t == c!"一" | _ => false) = true) ∧
    Spec.Stands c!"显示“定义”。" .def_ ∧ Spec.TextWithout runsText c!"显示“定义”。" := by
  refine ⟨⟨fun h => ?_, fun id hid => ?_⟩, ⟨⟨[], c!"一。", by decide⟩, ?_, by decide +kernel⟩, ⟨c!"显示“", c!"”。", by decide⟩, fun l hl => ?_⟩
  · have h1 := h.mem (a := '续') (by simp)
    revert h1
    decide +kernel
  · have h : (Spec.textWords ++ [KwId.expl, KwId.has]).all (fun id => !containsB (kwStr id) (Spec.strip plainDemo)) = true := by decide +kernel
    have := List.all_eq_true.1 h id hid
    exact containsB_sound (by simpa using this)
  · exact containsB_sound (by decide +kernel)
  · have h : (match parse c!"显示“定义”。" with | .ok (.ok l) => noneIn runsText 4 l | _ => false) = true := by decide +kernel
    rw [hl] at h
    exact noneIn_sound h

/-- **C80.** Texts the parser crashes on; in the second the three characters are not together. -/
theorem C80_witness : parse c!"下原样续\n续上原样" = .panic ∧ parse c!"“续”下原样\n续上原样" = .panic ∧
    parse c!"下原样续\n甲续上原样" ≠ .panic := by
  have key : ∀ x : Str, (match parse x with | .panic => true | _ => false) = true → parse x = .panic := by
    intro x h
    cases e : parse x with
    | panic => rfl
    | ok _ => rw [e] at h; cases h
    | fuel => rw [e] at h; cases h
  refine ⟨key _ (by decide +kernel), key _ (by decide +kernel), fun h => ?_⟩
  have h2 : (match parse c!"下原样续\n甲续上原样" with | .panic => true | _ => false) = false := by decide +kernel
  rw [h] at h2
  cases h2

end Zh
