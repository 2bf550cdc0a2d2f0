import Verif.Spec.Clpars
import Verif.Props.Split
/-!
# C41: option dispatch
-/
namespace Zh
open Spec Clpars

private def restEvents (w : Str) (argv : List Str) (no0 : Nat) (k : Nat) (ts : List Clpars.Item) :
    List Ev := ts.mapIdx fun j it => .call ⟨w, argv, argv.length, it, k + j + 1, no0⟩

private theorem restEvents_cons (w : Str) (argv : List Str) (no0 k : Nat) (t : Clpars.Item)
    (ts : List Clpars.Item) :
    restEvents w argv no0 k (t :: ts)
      = .call ⟨w, argv, argv.length, t, k + 1, no0⟩ :: restEvents w argv no0 (k + 1) ts := by
  simp only [restEvents, List.mapIdx_cons]
  congr 1
  apply List.mapIdx_eq_mapIdx_iff.2
  intro i h
  have : k + (i + 1) + 1 = k + 1 + i + 1 := by omega
  simp [this]

/-- Calls after the first. -/
private theorem callItems_rest (ans : List Ev → Ev → Int) (w : Str) (rest : List Str) (no0 : Nat)
    (its : List Clpars.Item) (k : Nat) (argv : List Str) (log : List Ev) :
    let r := callItems (logCb ans) w rest no0 its (k + 1) argv log
    let evs := restEvents w argv no0 (k + 1) its
    (r.1 = 0 → r.2.1 = k + 1 + its.length ∧ r.2.2.1 = argv ∧ r.2.2.2 = log ++ evs) ∧
    (r.1 ≠ 0 → ∃ m, ∃ h : m < evs.length, r.2.2.2 = log ++ evs.take (m + 1) ∧
        ans (log ++ evs.take m) evs[m] = r.1) := by
  induction its generalizing k log with
  | nil => simp [callItems, restEvents]
  | cons t ts ih =>
    intro r evs
    have hev : evs = .call ⟨w, argv, argv.length, t, k + 1 + 1, no0⟩ :: restEvents w argv no0 (k + 1 + 1) ts :=
      restEvents_cons ..
    have hr : r = if ans log (.call ⟨w, argv, argv.length, t, k + 1 + 1, no0⟩) ≠ 0 then
        (ans log (.call ⟨w, argv, argv.length, t, k + 1 + 1, no0⟩), k + 1 + 1, argv,
          log ++ [.call ⟨w, argv, argv.length, t, k + 1 + 1, no0⟩])
        else callItems (logCb ans) w rest no0 ts (k + 1 + 1) argv
          (log ++ [.call ⟨w, argv, argv.length, t, k + 1 + 1, no0⟩]) := by
      have h1 : ¬ (k + 1 + 1 = 1) := by omega
      show callItems (logCb ans) w rest no0 (t :: ts) (k + 1) argv log = _
      rw [callItems]
      simp only [h1, false_and, if_false, logCb]
    by_cases hc : ans log (.call ⟨w, argv, argv.length, t, k + 1 + 1, no0⟩) ≠ 0
    · rw [if_pos hc] at hr
      constructor
      · intro h0; rw [hr] at h0; exact absurd h0 hc
      · intro _
        refine ⟨0, by rw [hev]; simp, ?_, ?_⟩
        · rw [hr, hev]; simp
        · simp only [hev, hr]; simp
    · rw [if_neg hc] at hr
      obtain ⟨i1, i2⟩ := ih (k + 1) (log ++ [.call ⟨w, argv, argv.length, t, k + 1 + 1, no0⟩])
      rw [← hr] at i1 i2
      constructor
      · intro h0
        obtain ⟨a, b, c⟩ := i1 h0
        refine ⟨by rw [a]; simp; omega, b, ?_⟩
        rw [c, hev]; simp
      · intro h0
        obtain ⟨m, hm, c, d⟩ := i2 h0
        refine ⟨m + 1, by rw [hev]; simpa using hm, ?_, ?_⟩
        · rw [c, hev]; simp
        · simp only [hev]
          simpa using d

private def allEvents (w : Str) (argv : List Str) (no0 : Nat) : List Clpars.Item → List Ev
  | [] => []
  | f :: ts => .call ⟨w, argv, 0, f, 1, no0⟩ :: restEvents w argv no0 1 ts

/-- All calls for one word. -/
private theorem callItems_all (ans : List Ev → Ev → Int) (w : Str) (rest : List Str) (no0 : Nat)
    (f : Clpars.Item) (ts : List Clpars.Item) (log : List Ev) :
    let r := callItems (logCb ans) w rest no0 (f :: ts) 0 [] log
    let argv := rest.take f.cnt
    let evs := allEvents w argv no0 (f :: ts)
    (r.1 = 0 → r.2.1 ≠ 0 ∧ r.2.2.1 = argv ∧ r.2.2.2 = log ++ evs ∧ f.need 0 ≤ argv.length) ∧
    (r.1 ≠ 0 → (r.1 = ARG_NE ∧ argv.length < f.need 0 ∧ r.2.2.2 = log) ∨
      (f.need 0 ≤ argv.length ∧ ∃ m, ∃ h : m < evs.length, r.2.2.2 = log ++ evs.take (m + 1) ∧
        ans (log ++ evs.take m) evs[m] = r.1)) := by
  intro r argv evs
  have hr : r = if argv.length < f.need 0 then (ARG_NE, 1, argv, log) else
      if ans log (.call ⟨w, argv, 0, f, 1, no0⟩) ≠ 0 then
        (ans log (.call ⟨w, argv, 0, f, 1, no0⟩), 1, argv, log ++ [.call ⟨w, argv, 0, f, 1, no0⟩])
      else callItems (logCb ans) w rest no0 ts 1 argv (log ++ [.call ⟨w, argv, 0, f, 1, no0⟩]) := by
    show callItems (logCb ans) w rest no0 (f :: ts) 0 [] log = _
    rw [callItems]
    simp only [Nat.zero_add, if_true, true_and, List.nil_append, List.length_nil, logCb]
    rfl
  by_cases hn : argv.length < f.need 0
  · rw [if_pos hn] at hr
    refine ⟨fun h => ?_, fun _ => Or.inl ⟨by rw [hr], hn, by rw [hr]⟩⟩
    rw [hr] at h; exact absurd (show ARG_NE = 0 from h) (by decide)
  · rw [if_neg hn] at hr
    have hn' : f.need 0 ≤ argv.length := by omega
    by_cases hc : ans log (.call ⟨w, argv, 0, f, 1, no0⟩) ≠ 0
    · rw [if_pos hc] at hr
      refine ⟨fun h => ?_, fun _ => Or.inr ⟨hn', 0, by simp [evs, allEvents], ?_, ?_⟩⟩
      · rw [hr] at h; exact absurd h hc
      · rw [hr]; simp [evs, allEvents]
      · rw [hr]; simp [evs, allEvents]
    · rw [if_neg hc] at hr
      obtain ⟨i1, i2⟩ := callItems_rest ans w rest no0 ts 0 argv
        (log ++ [.call ⟨w, argv, 0, f, 1, no0⟩])
      rw [Nat.zero_add, ← hr] at i1 i2
      constructor
      · intro h0
        obtain ⟨a, b, c⟩ := i1 h0
        refine ⟨by rw [a]; omega, b, ?_, hn'⟩
        rw [c]; simp [evs, allEvents]
      · intro h0
        obtain ⟨m, hm, c, d⟩ := i2 h0
        refine Or.inr ⟨hn', m + 1, by simpa [evs, allEvents] using hm, ?_, ?_⟩
        · rw [c]; simp [evs, allEvents]
        · simp only [evs, allEvents]
          simpa using d

private theorem events_eq (items : List Clpars.Item) (s : Step) (f : Clpars.Item)
    (ts : List Clpars.Item) (h : takers items s.word = f :: ts) :
    s.events items = allEvents s.word s.argv s.no0 (f :: ts) := by
  simp only [Step.events, h, allEvents, restEvents]
  congr 1
  apply List.mapIdx_eq_mapIdx_iff.2
  intro i _
  have : 1 + i + 1 = i + 2 := by omega
  rw [this]

/-- Skipping drops words. -/
private theorem for3Go_skip {σ : Type} (cb : σ → Call → Int × σ) (cb2 : σ → Str → Int × σ)
    (items : List Clpars.Item) (ws : List Str) (skip no0 : Nat) (st : σ) :
    for3Go cb cb2 items ws skip no0 st = for3Go cb cb2 items (ws.drop skip) 0 no0 st := by
  induction ws generalizing skip with
  | nil => cases skip <;> simp [for3Go]
  | cons w ws ih =>
    cases skip with
    | zero => simp
    | succ k => simp [for3Go, ih k]

/-- **C41.** Every word is dispatched exactly once.  Running the parser over any words with any item
table and any callbacks: the words consumed are cut into steps, each a word followed by the words its
first taker asks for; for each step the takers are called once each, in table order, with those words
(the fallback if there is none), and nothing else is called.  Without an error all words are consumed.
An error stops the parser at a word `w`: either the code is "missing words" and the first taker of `w`
needs more words than are left, nothing being called for `w`; or it is the non-zero answer of the last
call made, all calls of earlier steps having been made completely. -/
theorem C41_dispatch (ans : List Ev → Ev → Int) (items : List Clpars.Item) (words : List Str)
    (log0 : List Ev) :
    let r := for3Go (logCb ans) (logCb2 ans) items words 0 0 log0
    ∃ (steps : List Step) (tail : List Str),
      words = steps.flatMap (fun s => s.word :: s.argv) ++ tail ∧ StepsOk items steps tail ∧
      match r.1 with
      | none => tail = [] ∧ r.2 = log0 ++ steps.flatMap (Step.events items)
      | some (c, w) => ∃ rest, tail = w :: rest ∧
          ((c = ARG_NE ∧ r.2 = log0 ++ steps.flatMap (Step.events items) ∧
              ∃ f ts, takers items w = f :: ts ∧ rest.length < f.need 0) ∨
            ∃ (s : Step) (k : Nat) (h : k < (s.events items).length), s.word = w ∧ c ≠ 0 ∧
              r.2 = log0 ++ steps.flatMap (Step.events items) ++ (s.events items).take (k + 1) ∧
              ans (log0 ++ steps.flatMap (Step.events items) ++ (s.events items).take k)
                ((s.events items)[k]) = c) := by
  suffices H : ∀ (n : Nat) (words : List Str) (no0 : Nat) (log0 : List Ev), words.length ≤ n →
      let r := for3Go (logCb ans) (logCb2 ans) items words 0 no0 log0
      ∃ (steps : List Step) (tail : List Str),
        words = steps.flatMap (fun s => s.word :: s.argv) ++ tail ∧ StepsOk items steps tail ∧
        match r.1 with
        | none => tail = [] ∧ r.2 = log0 ++ steps.flatMap (Step.events items)
        | some (c, w) => ∃ rest, tail = w :: rest ∧
            ((c = ARG_NE ∧ r.2 = log0 ++ steps.flatMap (Step.events items) ∧
                ∃ f ts, takers items w = f :: ts ∧ rest.length < f.need 0) ∨
              ∃ (s : Step) (k : Nat) (h : k < (s.events items).length), s.word = w ∧ c ≠ 0 ∧
                r.2 = log0 ++ steps.flatMap (Step.events items) ++ (s.events items).take (k + 1) ∧
                ans (log0 ++ steps.flatMap (Step.events items) ++ (s.events items).take k)
                  ((s.events items)[k]) = c)
      from H words.length words 0 log0 (Nat.le_refl _)
  intro n
  induction n with
  | zero =>
    intro words no0 log0 hn r
    have : words = [] := List.length_eq_zero_iff.1 (by omega)
    subst this
    exact ⟨[], [], by simp, trivial, by simp [r, for3Go]⟩
  | succ n ih =>
    intro words no0 log0 hn
    cases words with
    | nil => exact ⟨[], [], by simp, trivial, by simp [for3Go]⟩
    | cons w ws =>
      have hws : ws.length ≤ n := by simpa using hn
      -- one word taken by a non-empty list of takers
      have main : ∀ (f : Clpars.Item) (ts : List Clpars.Item) (no1 no2 : Nat),
          takers items w = f :: ts →
          (∀ c i3 argv st, callItems (logCb ans) w ws no1 (f :: ts) 0 [] log0 = (c, i3, argv, st) →
            for3Go (logCb ans) (logCb2 ans) items (w :: ws) 0 no0 log0 =
              if c ≠ 0 then (some (c, w), st)
              else for3Go (logCb ans) (logCb2 ans) items ws argv.length no2 st) →
          let r := for3Go (logCb ans) (logCb2 ans) items (w :: ws) 0 no0 log0
          ∃ (steps : List Step) (tail : List Str),
            w :: ws = steps.flatMap (fun s => s.word :: s.argv) ++ tail ∧ StepsOk items steps tail ∧
            match r.1 with
            | none => tail = [] ∧ r.2 = log0 ++ steps.flatMap (Step.events items)
            | some (c, w) => ∃ rest, tail = w :: rest ∧
                ((c = ARG_NE ∧ r.2 = log0 ++ steps.flatMap (Step.events items) ∧
                    ∃ f ts, takers items w = f :: ts ∧ rest.length < f.need 0) ∨
                  ∃ (s : Step) (k : Nat) (h : k < (s.events items).length), s.word = w ∧ c ≠ 0 ∧
                    r.2 = log0 ++ steps.flatMap (Step.events items)
                      ++ (s.events items).take (k + 1) ∧
                    ans (log0 ++ steps.flatMap (Step.events items) ++ (s.events items).take k)
                      ((s.events items)[k]) = c) := by
        intro f ts no1 no2 htk heq r
        obtain ⟨c, i3, argv, st, hcall⟩ : ∃ c i3 argv st,
            callItems (logCb ans) w ws no1 (f :: ts) 0 [] log0 = (c, i3, argv, st) :=
          ⟨_, _, _, _, rfl⟩
        have hr : r = _ := heq c i3 argv st hcall
        have hall := callItems_all ans w ws no1 f ts log0
        rw [hcall] at hall
        simp only at hall
        obtain ⟨h1, h2⟩ := hall
        have hevs := events_eq items ⟨w, ws.take f.cnt, no1⟩ f ts htk
        by_cases hc : c = 0
        · obtain ⟨_, rfl, rfl, hneed⟩ := h1 hc
          rw [if_neg (by simpa using hc), for3Go_skip] at hr
          have hdrop : ws.drop (ws.take f.cnt).length = ws.drop f.cnt := by
            rw [List.length_take]
            by_cases hle : f.cnt ≤ ws.length
            · rw [Nat.min_eq_left hle]
            · rw [Nat.min_eq_right (by omega), List.drop_of_length_le (Nat.le_refl _),
                List.drop_of_length_le (by omega)]
          rw [hdrop] at hr
          obtain ⟨steps, tail, e1, e2, e3⟩ := ih (ws.drop f.cnt) no2
            (log0 ++ allEvents w (ws.take f.cnt) no1 (f :: ts)) (by simp; omega)
          rw [← hr] at e3
          refine ⟨⟨w, ws.take f.cnt, no1⟩ :: steps, tail, ?_, ⟨?_, e2⟩, ?_⟩
          · simp only [List.flatMap_cons, List.cons_append, List.append_assoc]
            rw [← e1, List.take_append_drop]
          · simp only [htk]
            refine ⟨hneed, by simp; omega, fun hlt => ?_⟩
            have hnil : ws.drop f.cnt = [] := by
              apply List.drop_of_length_le
              rw [List.length_take] at hlt
              omega
            rw [hnil] at e1
            have := congrArg List.length e1
            simp only [List.length_nil, List.length_append] at this
            constructor
            · cases steps with
              | nil => rfl
              | cons s ss => simp at this; omega
            · exact List.length_eq_zero_iff.1 (by omega)
          · simp only [List.flatMap_cons, hevs]
            simp only [List.append_assoc] at e3 ⊢
            exact e3
        · rw [if_pos hc] at hr
          refine ⟨[], w :: ws, by simp, trivial, ?_⟩
          rw [hr]
          refine ⟨ws, rfl, ?_⟩
          rcases h2 hc with ⟨ha, hb, hst⟩ | ⟨hneed, m, hm, hst, ha⟩
          · left
            refine ⟨ha, by simp [hst], f, ts, htk, ?_⟩
            rw [List.length_take] at hb
            have hcn : f.need 0 ≤ f.cnt := by
              simp only [Clpars.Item.need, Clpars.Item.cnt, Nat.add_zero]
              cases f.can1 <;> simp only [Bool.false_eq_true, if_false, if_true] <;> (repeat' split) <;> omega
            omega
          · right
            refine ⟨⟨w, ws.take f.cnt, no1⟩, m, by rw [hevs]; exact hm, rfl, hc, ?_, ?_⟩
            · rw [hevs]; simpa using hst
            · simp only [hevs]; simpa using ha
      cases hhit : items.filter (·.hit w) with
      | cons f ts =>
        apply main f ts 0 no0
        · have : (items.filter fun it => it.tagv.any fun t => !t.isEmpty && it.typ.hit w t) = f :: ts :=
            hhit
          simp [takers, this]
        · intro c i3 argv st hcall
          have hi3 : c = 0 → i3 ≠ 0 := fun h => by
            have := (callItems_all ans w ws 0 f ts log0).1
            rw [hcall] at this
            exact (this h).1
          rw [for3Go]
          simp only [hhit, hcall]
          by_cases hc : c = 0
          · simp [hc, hi3 hc]
          · simp [hc]
      | nil =>
        have hm : (items.filter fun it => it.tagv.any fun t => !t.isEmpty && it.typ.hit w t) = [] :=
          hhit
        have htk0 : takers items w = items.filter fun it => it.tag.isEmpty := by
          simp [takers, hm]
        cases hcat : items.filter (fun it : Clpars.Item => it.tag.isEmpty) with
        | cons f ts =>
          apply main f ts (no0 + 1) (no0 + 1)
          · rw [htk0, hcat]
          · intro c i3 argv st hcall
            have hi3 : c = 0 → i3 ≠ 0 := fun h => by
              have := (callItems_all ans w ws (no0 + 1) f ts log0).1
              rw [hcall] at this
              exact (this h).1
            rw [for3Go]
            simp only [hhit, callItems, hcat, hcall, ne_eq, not_true, if_false]
            by_cases hc : c = 0
            · simp [hc, hi3 hc]
            · simp [hc]
        | nil =>
          have htk : takers items w = [] := by rw [htk0, hcat]
          have hev : ∀ no, Step.events items ⟨w, [], no⟩ = [.miss w] := by
            intro no; simp only [Step.events, htk]
          have hr : for3Go (logCb ans) (logCb2 ans) items (w :: ws) 0 no0 log0 =
              if ans log0 (.miss w) ≠ 0 then (some (ans log0 (.miss w), w), log0 ++ [.miss w])
              else for3Go (logCb ans) (logCb2 ans) items ws 0 (no0 + 1) (log0 ++ [.miss w]) := by
            rw [for3Go]
            simp only [hhit, hcat, callItems, ne_eq, not_true, if_false, logCb2]
          by_cases hc : ans log0 (.miss w) = 0
          · rw [if_neg (by simpa using hc)] at hr
            obtain ⟨steps, tail, e1, e2, e3⟩ := ih ws (no0 + 1) (log0 ++ [.miss w]) hws
            rw [← hr] at e3
            refine ⟨⟨w, [], 0⟩ :: steps, tail, ?_, ⟨by simp [htk], e2⟩, ?_⟩
            · simp [e1]
            · simp only [List.flatMap_cons, hev]
              simp only [List.append_assoc] at e3 ⊢
              exact e3
          · rw [if_pos hc] at hr
            refine ⟨[], w :: ws, by simp, trivial, ?_⟩
            rw [hr]
            refine ⟨ws, rfl, Or.inr ⟨⟨w, [], 0⟩, 0, by rw [hev]; simp, rfl, hc, ?_, ?_⟩⟩
            · rw [hev]; simp
            · simp only [hev]; simp

/-- **C41.** An option declared with `n` words (tag not empty) that gets its turn first receives exactly
`n` words. -/
theorem C41_option_arity (it : Clpars.Item) (h : it.tag ≠ []) (hz : it.argc < ARGC_Z) :
    it.need 0 = it.argc ∧ it.cnt = it.argc := by
  have hc : it.can1 = false := by
    have : it.tag.isEmpty = false := by simpa using h
    simp [Clpars.Item.can1, this]
  constructor
  · simp only [Clpars.Item.need, Nat.add_zero, hc, Bool.false_eq_true, if_false]
    (repeat' split) <;> omega
  · simp [Clpars.Item.cnt, hc]

/-- **C41.** For a catch-all declared with `n ≥ 1` words the word itself is the first of them: it receives exactly
`n - 1` more.  An item declared with "`m` or more" words needs `m` more words and receives all that are left. -/
theorem C41_catchall_arity (it : Clpars.Item) :
    (it.tag = [] → 0 < it.argc → it.argc < ARGC_Z → it.need 0 = it.argc - 1 ∧ it.cnt = it.argc - 1) ∧
    (∀ m, it.argc = ARGC_Z + m → it.need 0 = m ∧ it.cnt = ARGC_Z + m) := by
  refine ⟨fun h h0 hz => ?_, fun m hm => ?_⟩
  · have hc : it.can1 = true := by simp [Clpars.Item.can1, h, h0, hz]
    constructor
    · simp only [Clpars.Item.need, Nat.add_zero, hc, if_true]
      (repeat' split) <;> omega
    · simp [Clpars.Item.cnt, hc]
  · have hc : it.can1 = false := by simp [Clpars.Item.can1, hm]
    constructor
    · simp only [Clpars.Item.need, Nat.add_zero, hc, Bool.false_eq_true, if_false, hm]
      (repeat' split) <;> omega
    · simp [Clpars.Item.cnt, hc, hm]

/-- **C41.** What "matches" means for each way of matching. -/
theorem C41_match (t : Typ) (w sp : Str) :
    t.hit w sp = true ↔ match t with
      | .full => w = sp
      | .starts => sp <+: w
      | .ends => sp <:+ w
      | .has => sp <:+: w := by
  have inf : ∀ w : Str, isInfix sp w = true ↔ sp <:+: w := by
    intro w
    induction w with
    | nil => simp [isInfix]
    | cons c cs ih => rw [isInfix, Bool.or_eq_true, ih, List.isPrefixOf_iff_prefix, List.infix_cons_iff]
  cases t <;> simp [Typ.hit, inf]

/-- **C41.** An item declared with spellings joined by `|` answers to exactly those spellings. -/
theorem C41_spellings (sps : List Str) (argc : Nat) (typ : Typ) (rem w : Str) (hne : sps ≠ [])
    (h : ∀ f ∈ sps, ∀ c ∈ f, c ≠ '|' ∧ quote c = false ∧ blank c = false) :
    (Clpars.Item.new (Spec.join '|' sps) argc typ rem).hit w = true ↔
      ∃ sp ∈ sps, sp ≠ [] ∧ typ.hit w sp = true := by
  have : (Clpars.Item.new (Spec.join '|' sps) argc typ rem).tagv = sps :=
    C03_split_join sps '|' false hne (by decide) fun f hf c hc =>
      ⟨(h f hf c hc).1, (h f hf c hc).2.1, fun _ => (h f hf c hc).2.2⟩
  simp only [Clpars.Item.hit, this, List.any_eq_true, Bool.and_eq_true, Bool.not_eq_true',
    List.isEmpty_eq_false_iff]
  rfl

/-- Non-vacuity: an option with one word, a catch-all, and a word list using both. -/
example : (for3Go (logCb fun _ _ => 0) (logCb2 fun _ _ => 0)
      [Clpars.Item.new c!"-p|--path" 1 .full [], Clpars.Item.new [] ARGC_Z .full []]
      [c!"--path", c!"d", c!"x", c!"-p"] 0 0 []).1 = none ∧
    (for3Go (logCb fun _ _ => 0) (logCb2 fun _ _ => 0)
      [Clpars.Item.new c!"-p|--path" 1 .full []] [c!"x", c!"-p"] 0 0 []).1
      = some (ARG_NE, c!"-p") := by decide

end Zh
