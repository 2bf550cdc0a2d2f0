import Verif.Props.Mixed
/-!
# C76: long texts

Between `下文本` and `上文本` stands a text over several lines: everything in it is kept as it is written, also keywords, blanks, line
ends, comments and the marks of other quotes; names in `‘…’` are replaced.  Only inside inner quotes `“…”` line ends and tabs are lost.

That this holds anywhere in a script is part of C60 (`Spec.Atom.long`).
-/
namespace Zh

/-- The script that consists of one piece. -/
def Spec.alone (a : Spec.Atom) : Spec.Script := .done (.el (.atom a) .nil)

/-- **C76, partial.**  A long text with inner quotes and names, to any depth and of any length: the characters between the names, with
the marks of the inner quotes, become texts, and the names become names. -/
theorem C76_long_partial (bs : List Spec.LongBit) (h : Spec.LongOk ⟨0, 0, 0⟩ [] bs) :
    parse (c!"下文本" ++ bs.flatMap Spec.LongBit.src ++ c!"上文本") = .ok (.ok (Spec.longItems ⟨0, 0, 0⟩ [] bs)) := by
  have := C60_structure (Spec.alone (.long bs)) ⟨trivial, trivial⟩ ⟨fun a ha => by cases ha; exact h, nofun, trivial⟩
  have e : (Spec.alone (.long bs)).src = c!"下文本" ++ bs.flatMap Spec.LongBit.src ++ c!"上文本" := by
    simp [Spec.alone, Spec.Script.src, Spec.Script.units, Spec.Phrase.units, Spec.El.units, Spec.unitsSrc, Spec.Frag.src, Spec.Atom.src]
  have e2 : (Spec.alone (.long bs)).code = Spec.longItems ⟨0, 0, 0⟩ [] bs := by
    simp [Spec.alone, Spec.Script.code, Spec.Phrase.code, Spec.El.code, Spec.Atom.items]
  rw [e, e2] at this
  exact this

/-- **C76, exactness.**  Any characters without marks of quotes, not empty: exactly this text.  Keywords, blanks, line ends and comments
mean nothing in it. -/
theorem C76_exact (s : Str) (hs : s ≠ []) (hf : Spec.Free inText2 s) (hc : Spec.NoCont s) :
    parse (c!"下文本" ++ s ++ c!"上文本") = .ok (.ok [.text s]) := by
  have := C76_long_partial [.chars s] ⟨⟨hf, hs, rfl⟩, rfl, hc⟩
  simpa [Spec.LongBit.src, Spec.longItems, Spec.LongAt.kept, Spec.textItem, hs] using this

/-- **C76, inner texts.**  A text in inner quotes keeps the quotes, and loses its line ends and tabs. -/
theorem C76_inner (s t u : Str) (hs : s ≠ []) (hu : u ≠ []) (ht : Spec.printable t ≠ []) (hfs : Spec.Free inText2 s) (hft : Spec.Free inText t)
    (hfu : Spec.Free inText2 u) (hc : Spec.NoCont (s ++ c!"“" ++ Spec.printable t ++ c!"”" ++ u)) :
    parse (c!"下文本" ++ (s ++ c!"“" ++ t ++ c!"”" ++ u) ++ c!"上文本") = .ok (.ok [.text (s ++ c!"“" ++ Spec.printable t ++ c!"”" ++ u)]) := by
  have k0 : (⟨0, 0, 0⟩ : Spec.LongAt).kept s = s := rfl
  have := C76_long_partial [.chars s, .mark .beginText, .chars t, .mark .endText, .chars u]
    ⟨⟨hfs, hs, rfl⟩, ⟨rfl, fun h => absurd h (by rw [k0]; simpa using hs)⟩, ⟨hft, ht, rfl⟩, ⟨rfl, fun h => absurd h (by rw [k0]; simp [hs])⟩,
      ⟨hfu, hu, rfl⟩, rfl, hc⟩
  have e : ([.chars s, .mark .beginText, .chars t, .mark .endText, .chars u] : List Spec.LongBit).flatMap Spec.LongBit.src =
      s ++ c!"“" ++ t ++ c!"”" ++ u := by simp [Spec.LongBit.src, kwStr]
  rw [e] at this
  rw [this]
  show Out.ok (Except.ok (Spec.textItem (s ++ c!"“" ++ Spec.printable t ++ c!"”" ++ u))) = _
  rw [Spec.textItem, if_neg (by simp [hs])]

/-- A long text in which names, inner quotes with a name, an inner verbatim text and an inner long text meet the hypotheses. -/
theorem C76_witness :
    parse c!"下文本显示（一）\n‘甲’：“乙‘丙’。”下原样‘丁上原样下文本戊上文本\n上文本" =
      .ok (.ok [.text c!"显示（一）\n", .simp c!"甲" [], .text c!"：“乙", .simp c!"丙" [], .text c!"。”下原样‘丁上原样下文本戊上文本\n"]) :=
  C76_long_partial [.chars c!"显示（一）\n", .name (.plain c!"甲"), .chars c!"：", .mark .beginText, .chars c!"乙", .name (.plain c!"丙"),
    .chars c!"。", .mark .endText, .mark .beginYuanyang, .chars c!"‘丁", .mark .endYuanyang, .mark .beginText2, .chars c!"戊", .mark .endText2,
    .chars c!"\n"] (longB_sound _ _ _ (by decide +kernel))

/-- A script prints such a text as it is written. -/
theorem C76_script :
    demo 11 c!"赋予甲以“5”。显示下文本 a，（b）\n“‘甲’ 个”\n上文本。" = (.ok (.ok ()), [.out c!" a，（b）\n“5 个”\n"]) := by
  decide +kernel

/-- Not kept: the line end in an inner quote; a comment in inner code. -/
theorem C76_inner_counterexample :
    (match parse c!"下文本甲“乙\n丙”上文本", parse c!"下文本下代码甲（乙） 丙上代码上文本" with
      | .ok (.ok [.text t]), .ok (.ok [.text u]) => decide (t = c!"甲“乙丙”" ∧ u = c!"下代码甲 丙上代码") | _, _ => false) = true := by
  decide +kernel

/-- A mark alone, next to a name, becomes a word that is looked up, not a text. -/
theorem C76_mark_counterexample :
    (match parse c!"下文本甲“‘乙’”上文本" with
      | .ok (.ok [.text t, .simp x [], .undef u]) => decide (t = c!"甲“" ∧ x = c!"乙" ∧ u = c!"”") | _ => false) = true := by
  decide +kernel

end Zh
