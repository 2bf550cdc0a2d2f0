import Verif.Props.CoreMain
import Mathlib.Data.Nat.Digits.Defs
/-!
# C68: an example

A script with a procedure that calls itself meets the hypotheses of `C68_code`; what it prints is derived from the rules of the small
language.
-/
namespace Zh

/-- `如果“‘甲’”等于“0”那么先返回。了否则先显示“‘甲’”。赋予甲以算术“‘甲’-1”。叫。了。` -/
def coreBody : Spec.Core :=
  .cons (.cond (.one ⟨⟨[([], .var c!"甲")], []⟩, .dengyu, ⟨[], c!"0"⟩⟩) (.cons .ret .nil)
    (.cons (.print (.text ⟨[([], .var c!"甲")], []⟩)) (.cons (.assign c!"甲" (.sum ⟨[([], .var c!"甲")], c!"-1"⟩)) (.cons (.call c!"叫" []) .nil)))) .nil

/-- `定义叫【无参】以下代码…上代码。赋予甲以“2”。叫。显示“完”。` -/
def coreDemo : Spec.Prg where
  procs := [⟨c!"叫", false, coreBody, [.plain c!"如果", .quote [([], c!"甲")] [], .plain c!"等于", .quote [] c!"0", .plain c!"那么先返回。了否则先显示",
     .quote [([], c!"甲")] [], .plain c!"。赋予甲以算术", .quote [([], c!"甲")] c!"-1", .plain c!"。叫。了。"]⟩]
  main := .cons (.assign c!"甲" (.text ⟨[], c!"2"⟩)) (.cons (.call c!"叫" []) (.cons (.print (.text ⟨[], c!"完"⟩)) .nil))

theorem coreDemo_src : coreDemo.src =
    c!"定义叫【无参】以下代码如果“‘甲’”等于“0”那么先返回。了否则先显示“‘甲’”。赋予甲以算术“‘甲’-1”。叫。了。上代码。赋予甲以“2”。叫。显示“完”。" := by
  decide +kernel

theorem name_jia : (Spec.Name.plain c!"甲").Ok [] := by
  refine ⟨by decide +kernel, by decide +kernel, by decide +kernel, fun t h => ?_⟩
  rw [show Spec.printable c!"甲" = c!"甲" by decide +kernel] at h
  cases h

theorem txt_jia {l : Str} (hl : Spec.Free inText l) : (⟨[([], .var c!"甲")], l⟩ : Spec.Txt).Ok := by
  refine ⟨fun p hp => ?_, hl⟩
  cases List.mem_singleton.1 hp
  exact ⟨by decide +kernel, name_jia, nofun⟩

theorem txt_lit {l : Str} (hl : Spec.Free inText l) : (⟨[], l⟩ : Spec.Txt).Ok := ⟨nofun, hl⟩

theorem plain_ok {t : Str} (h : Spec.Free Spec.isMark t) : (Spec.CodePiece.plain t).Ok := h

/-- The value of a text without names. -/
theorem gives_lit (ρ : List Spec.Store) {t : Str} (h : Spec.printable t = t) (h0 : t ≠ []) : (⟨[], t⟩ : Spec.Txt).val ρ = some (some t) := by
  show some (Spec.lit t) = _
  unfold Spec.lit
  rw [h, if_neg h0]

theorem coreDemo_ok : coreDemo.Ok where
  procs := by
    intro p hp
    cases List.mem_singleton.1 hp
    refine ⟨⟨by decide +kernel, by decide +kernel, by decide +kernel⟩, by decide +kernel, ?_, ?_, by decide +kernel, ?_⟩
    · refine ⟨plain_ok (by decide +kernel), by simp [Spec.CodePiece.isPlain], ⟨fun p hp => ?_, by decide +kernel⟩, plain_ok (by decide +kernel), by simp [Spec.CodePiece.isPlain],
        ⟨nofun, by decide +kernel⟩, plain_ok (by decide +kernel), by simp [Spec.CodePiece.isPlain], ⟨fun p hp => ?_, by decide +kernel⟩, plain_ok (by decide +kernel),
        by simp [Spec.CodePiece.isPlain], ⟨fun p hp => ?_, by decide +kernel⟩, plain_ok (by decide +kernel), by simp [Spec.CodePiece.isPlain], rfl⟩
      all_goals
        cases List.mem_singleton.1 hp
        decide +kernel
    · show Spec.strip _ ≠ []
      decide +kernel
    · refine ⟨⟨⟨txt_jia (by decide +kernel), .inl (by simp), by decide, txt_lit (by decide +kernel), .inr (by decide +kernel)⟩, ⟨trivial, trivial⟩,
        ⟨txt_jia (by decide +kernel), .inl (by simp)⟩, ⟨⟨by decide +kernel, by decide +kernel, by decide +kernel⟩, by decide +kernel,
          txt_jia (by decide +kernel), .inl (by simp)⟩, ⟨⟨false, List.mem_singleton.2 rfl, fun _ => rfl⟩, nofun⟩, trivial⟩, trivial⟩
  main := ⟨⟨⟨by decide +kernel, by decide +kernel, by decide +kernel⟩, by decide +kernel, txt_lit (by decide +kernel)⟩,
    ⟨⟨false, List.mem_singleton.2 rfl, fun _ => rfl⟩, nofun⟩, ⟨txt_lit (by decide +kernel), .inr (by decide +kernel)⟩, trivial⟩
  apart := by decide +kernel
  small := by rw [coreDemo_src]; decide +kernel

/-- What the procedure does when the variable is `n + 1`, if it is known what it does for `n`. -/
theorem coreDemo_step {ρ : List Spec.Store} {t u v : Str} {w : List Str} {σ' : Spec.Store} {f : Spec.Flow} (ht : Spec.look ((.enter []) :: ρ) c!"甲" = some t)
    (hc : cmp2 F0 t c!"0" ≠ 0) (hu : t ++ c!"-1" = u) (he : expl F0 Zh.quote [u] = .ok (.ok v)) (hf : f = .next ∨ f = .ret)
    (h : Spec.Does H0 coreDemo.proc ((Spec.Store.enter []).set c!"甲" v :: ρ) coreBody (.enter []) w f σ') :
    Spec.Does H0 coreDemo.proc ρ coreBody (.enter []) (t :: w) .next ((Spec.Store.enter []).set c!"甲" v) := by
  have e1 : Spec.printable c!"甲" = c!"甲" := by decide +kernel
  have g1 : (⟨[([], .var c!"甲")], []⟩ : Spec.Txt).val ((.enter []) :: ρ) = some (some t) := by
    simp [Spec.Txt.val, Spec.fill, Spec.read, ht, Spec.lit, Spec.printable, Spec.beside]
  have g2 : (⟨[([], .var c!"甲")], c!"-1"⟩ : Spec.Txt).val ((.enter []) :: ρ) = some (some u) := by
    have e2 : Spec.lit c!"-1" = some c!"-1" := by decide +kernel
    have e3 : Spec.lit [] = none := by decide +kernel
    simp [Spec.Txt.val, Spec.fill, Spec.read, e1, ht, e2, e3, Spec.beside, ← hu]
  have h1 : Spec.Tests H0 ((.enter []) :: ρ) [] (.one ⟨⟨[([], .var c!"甲")], []⟩, .dengyu, ⟨[], c!"0"⟩⟩) (some false) :=
    .one (.value g1 (gives_lit _ (t := c!"0") (by decide +kernel) (by decide)) ⟨nofun, fun h => absurd h hc⟩)
  have h2 : Spec.Gives H0 ((.enter []) :: ρ) (.text ⟨[([], .var c!"甲")], []⟩) (some (some t)) := g1 ▸ .text
  have h3 : Spec.Does H0 coreDemo.proc ρ (.cons (.call c!"叫" []) .nil) ((Spec.Store.enter []).set c!"甲" v) (w ++ []) .next ((Spec.Store.enter []).set c!"甲" v) :=
    .next (.call rfl rfl h hf) .nil
  have h4 := Spec.DoesOne.cond (b := .cons (.print (.text ⟨[([], .var c!"甲")], []⟩)) (.cons (.assign c!"甲" (.sum ⟨[([], .var c!"甲")], c!"-1"⟩))
    (.cons (.call c!"叫" []) .nil))) (a := .cons .ret .nil) h1 (.next (.print h2) (.next (w := []) (.assign (.sum g2 he)) h3))
  have h5 := Spec.Does.next h4 .nil
  simpa [coreBody] using h5

theorem coreDemo_does (shl : Str) : ∃ σ', Spec.Does H0 coreDemo.proc [Spec.outer shl] coreDemo.main (coreDemo.start []) [c!"2", c!"1", c!"完"] .next σ' := by
  refine ⟨_, .next (w := []) (.assign (t := some c!"2") ?_) (.next (w := [c!"2", c!"1"]) (.call rfl rfl (coreDemo_step (t := c!"2") (v := c!"1") rfl
    (by decide +kernel) rfl (by decide +kernel) (.inl rfl) (coreDemo_step (t := c!"1") (v := c!"0") (w := []) rfl (by decide +kernel) rfl (by decide +kernel)
      (.inr rfl) (.stop (.cond (c := true) (.one (.value (l := some c!"0") (r := some c!"0") ?_ ?_ ?_)) (.stop (.ret ?_) nofun)) nofun))) (.inl rfl))
    (.next (w := [c!"完"]) (w' := []) (.print (t := some c!"完") ?_) .nil))⟩
  · exact gives_lit _ (t := c!"2") (by decide +kernel) (by decide) ▸ .text
  · rfl
  · rfl
  · exact ⟨fun _ => show cmp2 F0 c!"0" c!"0" = 0 by decide +kernel, fun _ => rfl⟩
  · exact show 4 ≠ 999 by decide
  · exact gives_lit _ (t := c!"完") (by decide +kernel) (by decide) ▸ .text

/-- The script meets the hypotheses of `C68_code`, and so prints 2, 1 and 完. -/
theorem C68_witness : coreDemo.Ok ∧ coreDemo.Hashes H0 ∧ Spec.CliLine (demoArgv coreDemo.src) [.isCode] coreDemo.src [] ∧
    ∃ s', Spec.Ran H0 false (demoArgv coreDemo.src) (.ok ()) s' ∧ Spec.printed s' = [c!"2", c!"1", c!"完"] := by
  have hh : coreDemo.Hashes H0 := ⟨fun _ h => hash0_inj h, fun _ _ _ h => hash0_inj h⟩
  have hl : Spec.CliLine (demoArgv coreDemo.src) [.isCode] coreDemo.src [] := by
    rw [coreDemo_src]
    refine .plain c!"zs" [.isCode] _ [] ?_ ?_ (by decide +kernel) (by decide)
    · intro w hw hm
      have h : ([c!"-zhscript-src-is-code", coreDemo.src] : List Str).all (fun w => !Spec.MARK.isSuffixOf w) = true := by decide +kernel
      have := List.all_eq_true.1 h w (by rw [coreDemo_src]; exact hw)
      rw [List.isSuffixOf_iff_suffix.2 hm] at this
      cases this
    · rw [← List.isPrefixOf_iff_prefix]; decide +kernel
  refine ⟨coreDemo_ok, hh, hl, ?_⟩
  obtain ⟨σ', h⟩ := coreDemo_does c!"zs"
  obtain ⟨r, s', h1, h2, h3⟩ := (C68_code coreDemo_ok hh (ovf := false) hl (List.mem_singleton.2 rfl)).2 _ _ _ h
  cases h2
  exact ⟨s', h1, h3⟩

/-! ## Arguments -/

/-- `定义说以下代码显示“‘参数1’与‘参数2’，‘参数数目’”。上代码。说“‘参数1’”、“b”。` -/
def argsDemo : Spec.Prg where
  procs := [⟨c!"说", true, .cons (.print (.text ⟨[([], .arg c!"1" 1), (c!"与", .arg c!"2" 2), (c!"，", .count)], []⟩)) .nil,
    [.plain c!"显示", .quote [([], c!"参数1"), (c!"与", c!"参数2"), (c!"，", c!"参数数目")] [], .plain c!"。"]⟩]
  main := .cons (.call c!"说" [⟨[([], .arg c!"1" 1)], []⟩, ⟨[], c!"b"⟩]) .nil

theorem argsDemo_src : argsDemo.src = c!"定义说以下代码显示“‘参数1’与‘参数2’，‘参数数目’”。上代码。说“‘参数1’”、“b”。" := by decide +kernel

theorem ref_ok {r : Spec.Ref} (h : nameB r.name [] = true) (hi : ∀ s i, r = .arg s i → 1 ≤ i) : r.Ok := ⟨nameB_sound _ _ h, hi⟩

theorem argsDemo_ok : argsDemo.Ok where
  procs := by
    intro p hp
    cases List.mem_singleton.1 hp
    refine ⟨⟨by decide +kernel, by decide +kernel, by decide +kernel⟩, by decide +kernel, ?_, ?_, by decide +kernel, ⟨⟨⟨?_, by decide +kernel⟩, .inl (by simp)⟩, trivial⟩⟩
    · refine ⟨plain_ok (by decide +kernel), by simp [Spec.CodePiece.isPlain], ⟨fun p hp => ?_, by decide +kernel⟩, plain_ok (by decide +kernel),
        by simp [Spec.CodePiece.isPlain], rfl⟩
      simp only [List.mem_cons, List.not_mem_nil, or_false] at hp
      rcases hp with rfl | rfl | rfl <;> decide +kernel
    · show Spec.strip _ ≠ []
      decide +kernel
    · intro p hp
      simp only [List.mem_cons, List.not_mem_nil, or_false] at hp
      rcases hp with rfl | rfl | rfl
      · exact ⟨by decide +kernel, ref_ok (by decide +kernel) fun s i h => by cases h; decide⟩
      · exact ⟨by decide +kernel, ref_ok (by decide +kernel) fun s i h => by cases h; decide⟩
      · exact ⟨by decide +kernel, ref_ok (by decide +kernel) nofun⟩
  main := by
    refine ⟨⟨⟨true, List.mem_singleton.2 rfl, nofun⟩, fun t ht => ?_⟩, trivial⟩
    simp only [List.mem_cons, List.not_mem_nil, or_false] at ht
    rcases ht with rfl | rfl
    · refine ⟨fun p hp => ?_, by decide +kernel⟩
      cases List.mem_singleton.1 hp
      exact ⟨by decide +kernel, ref_ok (by decide +kernel) fun s i h => by cases h; decide⟩
    · exact txt_lit (by decide +kernel)
  apart := by decide +kernel
  small := by rw [argsDemo_src]; decide +kernel

theorem argsDemo_does (shl w : Str) (ws : List Str) : ∃ σ', Spec.Does H0 argsDemo.proc [Spec.outer shl] argsDemo.main (argsDemo.start (w :: ws))
    [w ++ c!"与b，2"] .next σ' := by
  have e1 : Spec.lit [] = none := by decide +kernel
  have e2 : Spec.lit c!"与" = some c!"与" := by decide +kernel
  have e3 : Spec.lit c!"，" = some c!"，" := by decide +kernel
  have e4 : Spec.lit c!"b" = some c!"b" := by decide +kernel
  have h1 : Spec.pass (argsDemo.start (w :: ws) :: [Spec.outer shl]) [⟨[([], .arg c!"1" 1)], []⟩, ⟨[], c!"b"⟩] = some [some w, some c!"b"] := by
    simp [Spec.pass, Spec.vals, Spec.Txt.val, Spec.fill, Spec.read, Spec.args, Spec.Prg.start, Spec.beside, e1, e4]
  have h2 : (⟨[([], .arg c!"1" 1), (c!"与", .arg c!"2" 2), (c!"，", .count)], []⟩ : Spec.Txt).val
      (.enter [some w, some c!"b"] :: [argsDemo.start (w :: ws), Spec.outer shl]) = some (some (w ++ c!"与b，2")) := by
    have e5 : natStr 2 = c!"2" := by decide +kernel
    simp [Spec.Txt.val, Spec.fill, Spec.read, Spec.args, Spec.Store.enter, Spec.beside, e1, e2, e3, e5]
  exact ⟨_, .next (w' := []) (.call rfl h1 (.next (w' := []) (.print (t := some (w ++ c!"与b，2")) (h2 ▸ .text)) .nil) (.inl rfl)) .nil⟩

/-- The script meets the hypotheses of `C68_code` together with any words after it, and prints the first of them. -/
theorem C68_witness_args (w : Str) (ws : List Str) (hw : Spec.Unmarked (w :: ws)) (hn : ws.length < 1000000000) :
    argsDemo.Ok ∧ argsDemo.Hashes H0 ∧ Spec.CliLine (demoArgv argsDemo.src ++ w :: ws) [.isCode] argsDemo.src (w :: ws) ∧
    ∃ s', Spec.Ran H0 false (demoArgv argsDemo.src ++ w :: ws) (.ok ()) s' ∧ Spec.printed s' = [w ++ c!"与b，2"] := by
  have hh : argsDemo.Hashes H0 := ⟨fun _ h => hash0_inj h, fun _ _ _ h => hash0_inj h⟩
  have hl : Spec.CliLine (demoArgv argsDemo.src ++ w :: ws) [.isCode] argsDemo.src (w :: ws) := by
    rw [argsDemo_src]
    refine .plain c!"zs" [.isCode] _ (w :: ws) ?_ ?_ (by decide +kernel) (Nat.succ_le_of_lt hn)
    · intro x hx hm
      rcases List.mem_append.1 (show x ∈ [c!"-zhscript-src-is-code", argsDemo.src] ++ w :: ws by rw [argsDemo_src]; exact hx) with hx | hx
      · have h : ([c!"-zhscript-src-is-code", argsDemo.src] : List Str).all (fun w => !Spec.MARK.isSuffixOf w) = true := by decide +kernel
        have := List.all_eq_true.1 h x hx
        rw [List.isSuffixOf_iff_suffix.2 hm] at this
        cases this
      · exact hw x hx hm
    · rw [← List.isPrefixOf_iff_prefix]; decide +kernel
  refine ⟨argsDemo_ok, hh, hl, ?_⟩
  obtain ⟨σ', h⟩ := argsDemo_does c!"zs" w ws
  obtain ⟨r, s', h1, h2, h3⟩ := (C68_code argsDemo_ok hh (ovf := false) hl (List.mem_singleton.2 rfl)).2 _ _ _ h
  cases h2
  exact ⟨s', h1, h3⟩

/-! ## Counting -/

/-- `循环【n】【m】【甲】先显示“‘甲’”。了。` -/
def countDemo (n m : Nat) : Spec.Prg where
  procs := []
  main := .cons (.loop ⟨some (some (natStr n, n)), some (natStr m, m), some c!"甲", []⟩ (.cons (.print (.text ⟨[([], .var c!"甲")], []⟩)) .nil)) .nil

theorem countDemo_src (n m : Nat) : (countDemo n m).src = c!"循环【" ++ natStr n ++ c!"】【" ++ natStr m ++ c!"】【甲】先显示“‘甲’”。了。" := by
  have h : (countDemo n m).src = c!"循环" ++ ((c!"【" ++ natStr n ++ c!"】") ++ ((c!"【" ++ natStr m ++ c!"】") ++ c!"【甲】先显示“‘甲’”。了。")) := rfl
  rw [h]
  simp

theorem strip_natStr (n : Nat) : Spec.strip (natStr n) = natStr n := by
  refine List.filter_eq_self.2 fun c hc => ?_
  have := Nat.isDigit_of_mem_toDigits (by decide) (by decide) hc
  have h1 : 48 ≤ c.val ∧ c.val ≤ 57 := by simpa [Char.isDigit] using this
  exact decide_eq_true (Nat.lt_of_lt_of_le (by decide : 32 < 48) h1.1)

theorem free_natStr {p : KwId → Bool} (hp : ∀ id, p id = true → ∃ c ∈ kwStr id, c.isDigit = false) (n : Nat) : Spec.Free p (natStr n) := by
  intro id hi hk
  obtain ⟨c, hc, hd⟩ := hp id hi
  rw [strip_natStr] at hk
  have := Nat.isDigit_of_mem_toDigits (by decide) (by decide) (hk.subset hc)
  rw [hd] at this
  cases this

theorem isNum_natStr {n : Nat} (h : n < 2 ^ 63) : Spec.IsNum 64 (Spec.strip (natStr n)) n := by
  obtain ⟨ds, h1, h2, h3⟩ := natStr_digits n
  refine ⟨⟨ds, h1, .inl ⟨.inl (by rw [strip_natStr, h2]), by rw [← h3]⟩⟩, ?_, ?_⟩
  · simp
  · simpa using (by omega : (n : Int) < 2 ^ 63)

theorem countDemo_ok {n m : Nat} (hn : n < 2 ^ 63) (hm : m < 2 ^ 63) : (countDemo n m).Ok where
  procs := nofun
  main := by
    refine ⟨⟨⟨⟨?_, ?_, ?_, nofun, nofun⟩, rfl, ?_⟩, ⟨txt_jia (by decide +kernel), .inl (by simp)⟩, trivial⟩, trivial⟩
    · rintro s i ⟨⟩; exact isNum_natStr hn
    · rintro s i ⟨⟩; exact ⟨isNum_natStr hm, nofun⟩
    · rintro s ⟨⟩; exact ⟨by decide, nofun⟩
    · have h : ∀ id, inVar id = true → ∃ c ∈ kwStr id, c.isDigit = false := by intro id; cases id <;> decide +kernel
      intro s hs
      simp only [Spec.Cmd.notes, Option.toList_some, List.map_cons, List.map_nil, List.cons_append, List.nil_append, List.append_nil, List.mem_cons, List.not_mem_nil, or_false] at hs
      rcases hs with rfl | rfl | rfl
      · exact free_natStr h n
      · exact free_natStr h m
      · decide +kernel
  apart := by
    show (([] : List Str) ++ Spec.chars.map (·.1)).Pairwise _
    decide +kernel
  small := by
    have h1 := Nat.toDigits_length 10 n 19 (by decide) (by omega)
    have h2 := Nat.toDigits_length 10 m 19 (by decide) (by omega)
    rw [countDemo_src]
    simp [natStr]
    omega

/-- A loop that prints its counter. -/
theorem countDemo_turns {D : Str → Option Spec.Core} {ρ : List Spec.Store} : ∀ (n m : Nat) (σ : Spec.Store), ∃ σ',
    Spec.Repeats H D ρ (some c!"甲") (some n) m (.cons (.print (.text ⟨[([], .var c!"甲")], []⟩)) .nil) σ
      ((List.range' (m + 1) n).map natStr) .next σ'
  | 0, m, σ => ⟨σ, .over⟩
  | n + 1, m, σ => by
    obtain ⟨σ', h⟩ := countDemo_turns n (m + 1) (σ.count (some c!"甲") ((m : Int) + 1))
    have g : (⟨[([], .var c!"甲")], []⟩ : Spec.Txt).val (σ.count (some c!"甲") ((m : Int) + 1) :: ρ) = some (some (natStr (m + 1))) := by
      have e : intStr ((m : Int) + 1) = natStr (m + 1) := intStr_ofNat (m + 1)
      have e1 : Spec.lit [] = none := by decide +kernel
      have e2 : Spec.printable c!"甲" = c!"甲" := by decide +kernel
      simp [Spec.Txt.val, Spec.fill, Spec.read, Spec.look, Spec.Store.count, Spec.Store.set, e, e1, e2, Spec.beside]
    have h1 : Spec.Does H D ρ (.cons (.print (.text ⟨[([], .var c!"甲")], []⟩)) .nil) (σ.count (some c!"甲") ((m : Int) + 1)) [natStr (m + 1)] .next
        (σ.count (some c!"甲") ((m : Int) + 1)) := .next (w' := []) (.print (t := some (natStr (m + 1))) (g ▸ .text)) .nil
    exact ⟨σ', .again (n := some (n + 1)) (by simp) h1 (.inl rfl) (by simpa using h)⟩

/-- For all `n` and `m` the script meets the hypotheses of `C68_code`, and prints the numbers from `m + 1` to `m + n`. -/
theorem C68_counting {n m : Nat} (hn : n < 2 ^ 63) (hm : m < 2 ^ 63) (ovf : Bool) :
    (countDemo n m).Ok ∧ (countDemo n m).Hashes H0 ∧ Spec.CliLine (demoArgv (countDemo n m).src) [.isCode] (countDemo n m).src [] ∧
    ∃ s', Spec.Ran H0 ovf (demoArgv (countDemo n m).src) (.ok ()) s' ∧ Spec.printed s' = (List.range' (m + 1) n).map natStr := by
  have hh : (countDemo n m).Hashes H0 := ⟨fun _ h => hash0_inj h, fun _ _ _ h => hash0_inj h⟩
  have hl : Spec.CliLine (demoArgv (countDemo n m).src) [.isCode] (countDemo n m).src [] := by
    refine .plain c!"zs" [.isCode] _ [] ?_ ?_ ?_ (by decide)
    · intro w hw hk
      rcases List.mem_cons.1 hw with rfl | hw
      · revert hk; decide +kernel
      · cases List.mem_singleton.1 hw
        have h1 : c!"了。" <:+ (countDemo n m).src := by
          rw [countDemo_src]
          exact (show c!"了。" <:+ c!"】【甲】先显示“‘甲’”。了。" by decide +kernel).trans (List.suffix_append _ _)
        have h2 := List.suffix_of_suffix_length_le h1 hk (by decide)
        revert h2; decide +kernel
    · rw [countDemo_src]
      rintro ⟨t, h⟩
      cases h
    · rw [countDemo_src]; simp [List.append_assoc]
  refine ⟨countDemo_ok hn hm, hh, hl, ?_⟩
  obtain ⟨σ', h⟩ := countDemo_turns (H := H0) (D := (countDemo n m).proc) (ρ := [Spec.outer c!"zs"]) n m ((countDemo n m).start [])
  have h1 := Spec.Does.next (w' := []) (Spec.DoesOne.loop (c := ⟨some (some (natStr n, n)), some (natStr m, m), some c!"甲", []⟩) (by
    simpa [Spec.Counter.turns, show Spec.strip c!"甲" = c!"甲" by decide +kernel] using h)) .nil
  obtain ⟨r, s', h1, h2, h3⟩ := (C68_code (countDemo_ok hn hm) hh (ovf := ovf) hl (List.mem_singleton.2 rfl)).2 _ _ _ h1
  cases h2
  exact ⟨s', h1, by simpa using h3⟩

end Zh
