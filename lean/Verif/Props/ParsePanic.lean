import Verif.Props.Utf8Safe
import Verif.Props.Text
/-!
# C80: the parser crashes only on a text with two continuation marks around a line break
-/
namespace Zh

/-- Tokens in which the bytes come as whole characters, and the characters they can put into texts. -/
inductive ChunkedC : List LTok → Str → Prop
  | nil : ChunkedC [] []
  | char (c : Char) (now : Bool) {ts u} : ChunkedC ts u → ChunkedC ((encChar c).map (LTok.byte · now) ++ ts) (c :: u)
  | kwText (id : KwId) (b : Bool) {ts u} : ChunkedC ts u → ChunkedC (.kwText id b :: ts) (kwStr id ++ u)
  | kw (id : KwId) {ts u} : ChunkedC ts u → ChunkedC (.kw id :: ts) u

theorem lexKw_textId {q q' : Quo} {id id' : KwId} {b : Bool} (h : lexKw q id = (q', some (.kwText id' b))) : id' = id := by
  unfold lexKw at h
  split at h
  · cases h
  · split at h
    · cases h; rfl
    · split at h
      · split at h <;> cases h
        rfl
      · cases h

theorem lex_chunkedC (q : Quo) (s : Str) : ∃ u, ChunkedC (lex q (utf8 s)) u ∧ List.Sublist u s := by
  generalize hn : s.length = n
  induction n using Nat.strongRecOn generalizing q s with
  | ind n ih =>
    cases s with
    | nil => rw [utf8_nil, lex_nil]; exact ⟨[], .nil, .slnil⟩
    | cons c s =>
      cases e : kwAt q false (utf8 (c :: s)) with
      | none =>
        rw [lex_char e]
        obtain ⟨u, h1, h2⟩ := ih s.length (by simp at hn; omega) q s rfl
        split
        · exact ⟨c :: u, .char c _ h1, h2.cons_cons c⟩
        · exact ⟨u, h1, h2.cons c⟩
      | some r =>
        obtain ⟨id, m⟩ := r
        obtain ⟨s1, s2, h1, h2, h3, h4, _⟩ := kwAt_cut e
        have hm := kwAt_len e
        have hs1 : s1 ≠ [] := by rintro rfl; simp at h2; omega
        rw [lex_cons_hit e, ← h3]
        obtain ⟨u, g1, g2⟩ := ih s2.length (by
          have h5 := congrArg List.length h1
          have := List.length_pos_iff.2 hs1
          simp at h5 hn; omega) (lexKw q id).1 s2 rfl
        have hsub : List.Sublist (kwStr id) s1 := by rw [← h4]; exact List.filter_sublist
        cases h : (lexKw q id).2 with
        | none => exact ⟨u, g1, h1 ▸ g2.trans (List.sublist_append_right s1 s2)⟩
        | some t =>
          simp only [Option.toList, List.singleton_append]
          cases t with
          | byte c b => exact absurd h lexKw_ne_byte
          | kwText id' b =>
            have : id' = id := lexKw_textId (q' := (lexKw q id).1) (by rw [← h])
            subst this
            exact ⟨_, .kwText _ _ g1, h1 ▸ hsub.append g2⟩
          | kw id => exact ⟨u, .kw _ g1, h1 ▸ g2.trans (List.sublist_append_right s1 s2)⟩

/-- The only text that cannot be made. -/
abbrev BAD : Str := ['续', '\n', '续']

theorem addCode_noPanic (c : Code) (s : PS) : addCode c s ≠ .panic := by
  unfold addCode
  repeat' split
  all_goals nofun

theorem addText_panic {s : PS} {t : Str} (ht : s.text = utf8 t) (h : addText s = .panic) : t = BAD := by
  unfold addText at h
  split at h
  · cases h
  · rw [ht, decode_utf8] at h
    dsimp only at h
    split at h
    · rename_i hp
      unfold textCode at hp
      split at hp
      · cases hp
      · split at hp
        · cases hp
        · rename_i e; exact (C50_crash_iff_partial t).1 e
        · cases hp
    · cases h
    · exact absurd h (addCode_noPanic _ _)

theorem addText_text {s r : PS} {t : Str} (ht : s.text = utf8 t) (h : addText s = .ok r) : r.text = [] := by
  have := addText_safe ht
  rw [h] at this
  exact this

theorem addKw_noPanic {id : KwId} (s : PS) (h : ownKw id = true) : addKw id s ≠ .panic := by
  unfold addKw
  split
  · exact addCode_noPanic _ _
  · rename_i hi
    cases id <;> first | exact addCode_noPanic _ _ | (cases h; done) | exact (hi rfl).elim

theorem PR.bind_panic {α β : Type} {x : PR α} {f : α → PR β} (h : (x >>= f) = .panic) : x = .panic ∨ ∃ a, x = .ok a ∧ f a = .panic := by
  cases x with
  | ok a => exact .inr ⟨a, rfl, h⟩
  | err e i => cases h
  | panic => exact .inl rfl
  | fuel => cases h

theorem kwMain_panic {me : Int} {kw : Option KwId} {ups : List Layer} {id : KwId} {s : PS} {t : Str} (ht : s.text = utf8 t)
    (h : kwMain me kw ups id s = .panic) : t = BAD := by
  have rest : ∀ r, kwRest id r ≠ .panic := by
    intro r h
    unfold kwRest at h
    split at h
    · rename_i ho
      rcases PR.bind_panic h with h | ⟨_, _, h⟩
      · exact addKw_noPanic _ ho h
      · cases h
    · cases h
  unfold kwMain at h
  rcases PR.bind_panic h with h | ⟨r, -, h⟩
  · exact addText_panic ht h
  · split at h
    · cases h
    · split at h
      · split at h
        · cases h
        · exact absurd h (rest _)
      · exact absurd h (rest _)

theorem afterChild_noPanic (me : Int) (id : KwId) (s ch : PS) : afterChild me id s ch ≠ .panic := by
  intro h
  unfold afterChild at h
  split at h
  · cases h
  · cases h
  · rcases PR.bind_panic h with h | ⟨r, -, h⟩
    · exact addCode_noPanic _ _ h
    · split at h
      · cases h
      · split at h
        · cases h
        · rcases PR.bind_panic h with h | ⟨r, -, h⟩
          · split at h
            · split at h
              · rename_i hk
                refine addKw_noPanic _ ?_ h
                rcases hk with rfl | hk
                · rfl
                · unfold ownKw; rw [hk, Bool.or_true]
              · split at h <;> cases h
            · cases h
          · cases h

/-- What is known of a result when the text `t` was collected before and `u` are the characters of the tokens. -/
def Crashes (t u : Str) (x : PR (PS × List LTok)) : Prop :=
  match x with
  | .ok (r, ts) => r.text = [] ∧ ∃ v, ChunkedC ts v ∧ List.Sublist v u
  | .panic => List.Sublist BAD (t ++ u)
  | _ => True

theorem Crashes.mono {t t' u u' : Str} {x : PR (PS × List LTok)} (h : Crashes t' u' x) (h1 : List.Sublist (t' ++ u') (t ++ u))
    (h2 : List.Sublist u' u) : Crashes t u x := by
  cases x with
  | ok p => obtain ⟨g1, v, g2, g3⟩ := h; exact ⟨g1, v, g2, g3.trans h2⟩
  | panic => exact List.Sublist.trans h h1
  | err e i => trivial
  | fuel => trivial

theorem crashes_addText {s : PS} {t u : Str} {f : PS → PR (PS × List LTok)} (ht : s.text = utf8 t)
    (hf : ∀ r, r.text = [] → Crashes t u (f r)) : Crashes t u (addText s >>= f) := by
  cases h : addText s with
  | ok r => exact hf r (addText_text ht h)
  | panic => rw [addText_panic ht h]; exact List.sublist_append_left _ _
  | err e i => trivial
  | fuel => trivial

theorem parsT_crash : ∀ (n : Nat) (me : Int) (kw : Option KwId) (ups : List Layer) (s : PS) (ts : List LTok)
    (t u : Str), s.text = utf8 t → ChunkedC ts u → Crashes t u (parsT n me kw ups s ts) := by
  intro n
  induction n using Nat.strongRecOn with
  | ind n ih =>
    intro me kw ups s ts t u ht hts
    cases n with
    | zero => trivial
    | succ n =>
      cases hts with
      | nil =>
        simp only [parsT]
        exact crashes_addText ht fun r hr => ⟨hr, [], .nil, .slnil⟩
      | char c now hts' =>
        rename_i ts u
        obtain ⟨b, bs, hb, _⟩ := encChar_shape c
        rw [hb]
        simp only [List.map_cons, List.cons_append, parsT]
        have key : ∀ (r : PS) (t' : Str), r.text = utf8 t' ++ [b] → (r.is.needClear now).1 = false → List.Sublist t' t →
            Crashes t (c :: u) (parsT n me kw ups r (bs.map (LTok.byte · now) ++ ts)) := by
          intro r t' ht' h2 hsub
          have hm : List.Sublist ((t' ++ [c]) ++ u) (t ++ c :: u) := by
            rw [List.append_assoc]; exact hsub.append_right _
          by_cases hbs : bs = []
          · subst hbs
            simp only [List.map_nil, List.nil_append]
            refine (ih n (by omega) me kw ups r ts (t' ++ [c]) u ?_ hts').mono hm (List.sublist_cons_self ..)
            rw [ht', utf8_append]; simp [utf8, hb]
          · rw [parsT_bytes me kw ups now ts bs n r h2 hbs]
            split
            · refine (ih _ (by omega) me kw ups _ ts (t' ++ [c]) u ?_ hts').mono hm (List.sublist_cons_self ..)
              rw [ht', utf8_append]; simp [utf8, hb]
            · trivial
        have hsafe := keepByte_safe b now ht
        unfold keepByte at hsafe ⊢
        cases hc : (s.is.needClear now).1 with
        | false =>
          rw [hc] at hsafe
          simp only [Bool.false_eq_true, if_false, PR.ok_bind] at hsafe ⊢
          exact key _ t (by simp [ht]) hsafe.2 (List.Sublist.refl _)
        | true =>
          rw [hc] at hsafe
          simp only [if_true] at hsafe ⊢
          cases ha : addText { s with is := (s.is.needClear now).2 } with
          | ok r =>
            rw [ha] at hsafe
            have hr : r.text = [] := addText_text (s := { s with is := (s.is.needClear now).2 }) ht ha
            simp only [PR.ok_bind] at hsafe ⊢
            exact key _ [] (by simp [hr]) hsafe.2 (List.nil_sublist _)
          | panic =>
            rw [addText_panic (s := { s with is := (s.is.needClear now).2 }) ht ha]
            exact List.sublist_append_left _ _
          | err e i => trivial
          | fuel => trivial
      | kwText id b hts' =>
        rename_i ts u
        simp only [parsT]
        have hgo : ∀ (r : PS) (t' : Str), r.text = utf8 t' → List.Sublist t' t →
            Crashes t (kwStr id ++ u) (parsT n me kw ups { r with text := r.text ++ kwBytes id } ts) := by
          intro r t' h hsub
          refine (ih n (by omega) me kw ups _ ts (t' ++ kwStr id) u ?_ hts').mono ?_ (List.sublist_append_right ..)
          · simp only [h, utf8_append, kwBytes]
          · rw [List.append_assoc]; exact hsub.append_right _
        split
        · exact crashes_addText ht fun r hr => hgo r [] hr (List.nil_sublist _)
        · exact hgo s t ht (List.Sublist.refl _)
      | kw id hts' =>
        rename_i ts
        simp only [parsT]
        have h1 := kwMain_safe me kw ups id ht
        cases hk : kwMain me kw ups id s with
        | err e i => trivial
        | panic => rw [kwMain_panic ht hk]; exact List.sublist_append_left _ _
        | fuel => trivial
        | ok nx =>
          rw [hk] at h1
          simp only [PR.ok_bind]
          have hu : ∀ {v : Str}, List.Sublist v u → List.Sublist ([] ++ v) (t ++ u) :=
            fun h => h.trans (List.sublist_append_right ..)
          cases nx with
          | loop r => exact (ih n (by omega) me kw ups r ts [] u h1 hts').mono (hu (List.Sublist.refl _)) (List.Sublist.refl _)
          | brk r =>
            refine Crashes.mono (t' := []) (u' := u) ?_ (hu (List.Sublist.refl _)) (List.Sublist.refl _)
            exact crashes_addText (t := []) h1 fun r hr => ⟨hr, u, hts', List.Sublist.refl _⟩
          | child r =>
            have h1 : r.text = [] := h1
            simp only
            have h2 := ih n (by omega) (me + 1) (some id) (⟨me, kw, r.ret0⟩ :: ups) (childState id r) ts [] u rfl hts'
            generalize parsT n (me + 1) (some id) (⟨me, kw, r.ret0⟩ :: ups) (childState id r) ts = y at h2
            cases y with
            | err e i => trivial
            | panic => exact List.Sublist.trans h2 (hu (List.Sublist.refl _))
            | fuel => trivial
            | ok ch =>
              obtain ⟨ch, ts2⟩ := ch
              obtain ⟨h3, v, h4, h4'⟩ := h2
              simp only [PR.ok_bind]
              have h5 := afterChild_safe me id r ch h1
              cases hz : afterChild me id r ch with
              | err e i => trivial
              | panic => exact absurd hz (afterChild_noPanic _ _ _ _)
              | fuel => trivial
              | ok p =>
                rw [hz] at h5
                have h5 : p.1.text = [] := h5
                simp only [PR.ok_bind]
                split
                · refine (ih n (by omega) me kw ups p.1 _ [] v h5 ?_).mono (hu h4') h4'
                  split
                  · exact .kw _ h4
                  · exact h4
                · refine Crashes.mono (t' := []) (u' := v) ?_ (hu h4') h4'
                  exact crashes_addText (t := []) h5 fun r hr => ⟨hr, v, h4, List.Sublist.refl _⟩

/-- **C80.** The parser crashes only on texts that contain `续`, a line break and `续`, in this order. -/
theorem C80_crash {s : Str} (h : parse s = .panic) : List.Sublist ['续', '\n', '续'] s := by
  have h1 := parse_tokens s ((utf8 s).length + 1) (by omega)
  obtain ⟨u, hu, hs⟩ := lex_chunkedC Quo.zero s
  have h2 := parsT_crash ((utf8 s).length + 1) 0 none [] PS.init (lex Quo.zero (utf8 s)) [] u rfl hu
  generalize parsT ((utf8 s).length + 1) 0 none [] PS.init (lex Quo.zero (utf8 s)) = x at h1 h2
  cases x with
  | ok r => rw [show parse s = .ok (.ok r.1.c1) from h1] at h; cases h
  | err e i => obtain ⟨i, hi⟩ := h1; rw [hi] at h; cases h
  | panic => exact List.Sublist.trans h2 hs
  | fuel => exact h1.elim

end Zh
