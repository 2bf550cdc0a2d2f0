import Verif.Props.CoreCond
/-!
# C68: the arguments of a call
-/
namespace Zh

variable {H : Host} {R : Call → St → Res → St → Prop}

/-- The code of arguments. -/
def Spec.argsCode : List Spec.Txt → List Code
  | [] => []
  | [t] => t.code
  | t :: ts => t.code ++ .kw1 .dunhao :: Spec.argsCode ts

/-- Items are the values `vs` with separators between them. -/
def Parts (its : List Item) (vs : List (Option Str)) : Prop :=
  (∀ g ∈ Spec.groups Spec.isSep its, AllText g) ∧ (Spec.groups Spec.isSep its).map textOfItems = vs

theorem text_notSep {l : List Item} (h : AllText l) : ∀ i ∈ l, Spec.isSep i = false := by
  intro i hi
  obtain ⟨t, ht⟩ := h i hi
  simp [Spec.isSep, ht]

theorem parts_one {l : List Item} {u : Option Str} (h : Texts l u) : Parts l [u] := by
  unfold Parts
  rw [Spec.groups_eq_self l (text_notSep h.1)]
  refine ⟨fun g hg => ?_, by simp [h.2]⟩
  rw [List.mem_singleton.1 hg]
  exact h.1

theorem parts_cons {l l' : List Item} {u : Option Str} {vs : List (Option Str)} {i : Item} (h : Texts l u) (hi : Spec.isSep i = true)
    (h' : Parts l' vs) : Parts (l ++ i :: l') (u :: vs) := by
  unfold Parts
  rw [Spec.groups_append_sep _ _ _ hi, Spec.groups_eq_self l (text_notSep h.1)]
  refine ⟨fun g hg => ?_, by simp [h.2, h'.2]⟩
  rcases List.mem_cons.1 hg with rfl | hg
  · exact h.1
  · exact h'.1 g hg

/-- A list with such items has these arguments. -/
theorem given_of {l : RList} {vs : List (Option Str)} (hw : Spec.WF l) (h : Parts l.a vs) : Given l (if vs = [none] then [] else vs) := by
  refine ⟨hw, ?_⟩
  unfold Spec.argsOf
  by_cases he : l.a = []
  · rw [he] at h ⊢
    have : vs = [none] := by rw [← h.2]; rfl
    rw [if_pos this]
    exact ⟨nofun, rfl⟩
  · rw [if_neg he]
    have hv : vs ≠ [none] := by
      intro hv
      have h2 := h.2
      rw [hv] at h2
      have hf := Spec.groups_length (p := Spec.isSep) l.a
      have h3 := congrArg List.length h2
      rw [List.length_map, hf] at h3
      have h4 : ∀ x ∈ l.a, Spec.isSep x = false := by
        intro x hx
        cases hs : Spec.isSep x with
        | false => rfl
        | true =>
          have : x ∈ l.a.filter Spec.isSep := List.mem_filter.2 ⟨hx, hs⟩
          rw [List.length_eq_zero_iff.1 (show (l.a.filter Spec.isSep).length = 0 by simpa using h3)] at this
          cases this
      rw [Spec.groups_eq_self _ h4] at h2
      simp [textOfItems, he] at h2
    rw [if_neg hv]
    exact h

theorem given_none {l : RList} (h : l = .empty) : Given l [] := by
  rw [h]
  exact ⟨WF_empty, nofun, rfl⟩

/-- Evaluating arguments, up to the `。` after them. -/
theorem z2_args {a : List Code} {env : Env} {ρ : List Spec.Store} {post : List Code} (hg : env.gd.dunhao = false) (hg' : env.gd.jvhao = true)
    (ts : List Spec.Txt) :
    ∀ {i : Nat} {s : St}, ts ≠ [] → (∀ t ∈ ts, t.Ok) → a.drop i = Spec.argsCode ts ++ .kw1 .jvhao :: post → Seen env.q s ρ →
    (s.scopes env.q).args ≠ env.ret →
    ∃ r s' its, Evals H (.z2 a i a.length env) s r s' ∧ CalmIn env.ret s s' ∧ match Spec.vals ρ ts with
      | none => ∃ e, r.r = .error e ∧ e.i = ERR
      | some vs => r = { idx := i + (Spec.argsCode ts).length } ∧ (s'.lists env.ret).a = (s.lists env.ret).a ++ its ∧ Parts its vs ∧
          (Spec.WF (s.lists env.ret) → Spec.WF (s'.lists env.ret)) := by
  induction ts with
  | nil => intro i s h; exact absurd rfl h
  | cons t ts ih =>
    intro i s _ hok ha hs hn
    have hto := hok t (by simp)
    have hlen : i + t.code.length < a.length := by
      have h1 := congrArg List.length ha
      rw [List.length_drop, List.length_append] at h1
      have : t.code.length ≤ (Spec.argsCode (t :: ts)).length := by
        cases ts with
        | nil => exact Nat.le_refl _
        | cons t' ts => simp [Spec.argsCode]
      simp only [List.length_cons] at h1
      omega
    cases ts with
    | nil =>
      have ha : a.drop i = t.code ++ .kw1 .jvhao :: post := ha
      obtain ⟨s', its, h1, h2⟩ := z2_texts (H := H) (a := a) (env := env) (j := a.length) t.code (Spec.Txt.isTxt hto) ha (by omega) hs hn
      rw [fill_code ρ hto] at h2
      unfold Spec.vals Spec.vals
      cases hv : t.val ρ with
      | none =>
        rw [hv] at h2
        obtain ⟨r, e, h3, h4, h5⟩ := h2
        exact ⟨r, s', its, h3, h1, e, h4, h5⟩
      | some v =>
        rw [hv] at h2
        obtain ⟨h3, h4, h5, h6⟩ := h2
        refine ⟨_, s', its, h6 (evals_iff.2 ?_), h1, rfl, h3, parts_one h4, h5⟩
        show Ev H _ (z2P a (i + t.code.length) a.length env) s' _ s'
        obtain ⟨h7, -⟩ := drop_head (drop_next ha)
        unfold z2P
        rw [if_pos hlen, h7]
        show Ev H _ (if env.gd.jvhao = true then _ else _) s' _ s'
        rw [if_pos hg']
        exact ev_pure.2 ⟨rfl, rfl⟩
    | cons t' ts =>
      have ha : a.drop i = t.code ++ .kw1 .dunhao :: (Spec.argsCode (t' :: ts) ++ .kw1 .jvhao :: post) := by
        rw [ha]; simp [Spec.argsCode]
      obtain ⟨s1, its, h1, h2⟩ := z2_texts (H := H) (a := a) (env := env) (j := a.length) t.code (Spec.Txt.isTxt hto) ha (by omega) hs hn
      rw [fill_code ρ hto] at h2
      rw [Spec.vals]
      cases hv : t.val ρ with
      | none =>
        rw [hv] at h2
        obtain ⟨r, e, h3, h4, h5⟩ := h2
        exact ⟨r, s1, its, h3, h1, e, h4, h5⟩
      | some v =>
        rw [hv] at h2
        obtain ⟨h3, h4, h5, h6⟩ := h2
        obtain ⟨h7, h8⟩ := drop_head (drop_next ha)
        have c2 := h1.trans (calm_push env.ret Spec.sep s1)
        obtain ⟨r, s2, its2, k1, k2, k3⟩ := ih (i := i + t.code.length + 1) (s := s1.push env.ret Spec.sep) (by simp)
          (fun u hu => hok u (by simp [hu])) h8 (hs.calm c2 hn) (by rw [c2.scopes]; exact hn)
        have k4 : Evals H (.z2 a i a.length env) s r s2 := by
          refine h6 (evals_iff.2 ?_)
          show Ev H _ (z2P a (i + t.code.length) a.length env) s1 r s2
          unfold z2P
          rw [if_pos hlen, h7]
          show Ev H _ (if env.gd.dunhao = true then _ else _) s1 r s2
          rw [if_neg (by rw [hg]; decide)]
          refine ev_z2Item.2 (.inl ⟨_, ?_, k1⟩)
          exact evals_item.2 ⟨.ok (), evE_lift.2 ⟨(), rfl, ev_addDun.2 rfl⟩, rfl⟩
        refine ⟨r, s2, its ++ ⟨s1.nitem, Spec.sep⟩ :: its2, k4, c2.trans k2, ?_⟩
        dsimp only [Option.bind]
        cases hvs : Spec.vals ρ (t' :: ts) with
        | none =>
          rw [hvs] at k3
          exact k3
        | some vs =>
          rw [hvs] at k3
          obtain ⟨k5, k6, k7, k8⟩ := k3
          refine ⟨?_, ?_, parts_cons h4 rfl k7, fun hw => k8 ?_⟩
          · rw [k5]
            simp [Spec.argsCode]
            omega
          · rw [k6, St.push_list, h3]
            simp
          · simp only [St.push, upd, if_true]
            exact WF_add (h5 hw) _

theorem z4_last {a : List Code} {f : Str} {end_ i : Nat} {env : Env} {s s' : St} {r : Res} :
    Evals H (.z4 a f f.length end_ env ⟨f.length, true, i, [], []⟩) s r s' ↔ r = { idx := i + 1, idx2 := f.length, has := true } ∧ s' = s := by
  rw [z4_noCall (st := ⟨f.length, true, i, [], []⟩) ?_ (Nat.le_refl _)]
  · simp
  · intro u v h hv
    have h : f.drop f.length = u ++ v := h
    rw [List.drop_length] at h
    exact absurd (List.append_eq_nil_iff.1 h.symm).2 hv

theorem CalmIn.unhold {r : Nat} {s s' : St} {h : List Held} (hc : CalmIn r (s.hold h) s') : CalmIn r s { s' with held := s.held } :=
  ⟨congrArg (fun x : St => { x with held := s.held }) hc.bare, hc.more, hc.lists, hc.moreItems, hc.items⟩

/-- The arguments of a call of a definition that takes some. -/
theorem ev_z4Args {a : List Code} {f : Str} {i l : Nat} {env : Env} {ρ : List Spec.Store} {post : List Code} {ts : List Spec.Txt} {t : St}
    {h : Held} {d : Def} (hd : d.argc ≠ 0) (hgd : env.gd = {}) (hok : ∀ t ∈ ts, t.Ok)
    (ha : a.drop (i + 1) = Spec.argsCode ts ++ .kw1 .jvhao :: post) (hs : Seen env.q t ρ) (hn : (t.scopes env.q).args ≠ l)
    (he : t.lists l = .empty) :
    ∃ r t1, Ev H (Evals H) (z4Args h d a f f.length a.length env f.length i [] 0 l) t r t1 ∧ CalmIn l t t1 ∧ r.idx2 = f.length ∧
      match Spec.pass ρ ts with
      | none => ∃ e, r.r = .error e ∧ e.i = ERR
      | some as => r.r = .ok () ∧ r.idx = i + 1 + (Spec.argsCode ts).length ∧ Given (t1.lists l) as := by
  have main : ∃ r s' , Evals H (.z2 a (i + 1) a.length { env with gd := { env.gd with jvhao := true }, ret := l }) (t.hold [h]) r s' ∧
      CalmIn l (t.hold [h]) s' ∧ match Spec.pass ρ ts with
      | none => ∃ e, r.r = .error e ∧ e.i = ERR
      | some as => r = { idx := i + 1 + (Spec.argsCode ts).length } ∧ Given (s'.lists l) as := by
    cases ts with
    | nil =>
      obtain ⟨h7, -⟩ := drop_head (show a.drop (i + 1) = .kw1 .jvhao :: post from ha)
      refine ⟨{ idx := i + 1 }, t.hold [h], evals_iff.2 ?_, .refl _ _, rfl, given_none he⟩
      show Ev H _ (z2P a (i + 1) a.length _) _ _ _
      unfold z2P
      rw [if_pos (List.getElem?_eq_some_iff.1 h7).1, h7]
      exact ev_pure.2 ⟨rfl, rfl⟩
    | cons u us =>
      obtain ⟨r, s', its, h1, h2, h3⟩ := z2_args (H := H) (env := { env with gd := { env.gd with jvhao := true }, ret := l })
        (by rw [hgd]) rfl (u :: us) (by simp) hok ha (s := t.hold [h]) (ρ := ρ) ⟨hs.mods, hs.stacks, hs.args, hs.given⟩ hn
      refine ⟨r, s', h1, h2, ?_⟩
      unfold Spec.pass
      cases hv : Spec.vals ρ (u :: us) with
      | none => rw [hv] at h3; exact h3
      | some vs =>
        rw [hv] at h3
        obtain ⟨h4, h5, h6, h7⟩ := h3
        have h5 : (s'.lists l).a = (t.lists l).a ++ its := h5
        have h7 : Spec.WF (t.lists l) → Spec.WF (s'.lists l) := h7
        rw [he] at h5 h7
        have h5 : (s'.lists l).a = its := h5
        exact ⟨h4, given_of (h7 WF_empty) (by rw [h5]; exact h6)⟩
  obtain ⟨r, s', h1, h2, h3⟩ := main
  have ret : ∀ {c : Call} {r s'}, Evals H c (t.hold [h]) r s' → Ev H (Evals H) (callP [h] c) t r { s' with held := t.held } := by
    intro c r s' h
    exact ev_call.2 ⟨r, s', h, ev_ret.2 ⟨rfl, rfl⟩⟩
  have first := ret (z4_last (H := H) (a := a) (f := f) (end_ := a.length) (i := i) (env := { env with ret := l }) (s := t.hold [h]).2 ⟨rfl, rfl⟩)
  unfold z4Args
  rw [if_neg hd, if_pos rfl]
  cases hp : Spec.pass ρ ts with
  | none =>
    rw [hp] at h3
    obtain ⟨e, h4, h5⟩ := h3
    refine ⟨{ idx := r.idx, idx2 := f.length, r := .error e }, { s' with held := t.held }, ev_bind.2 ⟨_, _, first, ev_bind.2 ⟨r, _, ret h1, ?_⟩⟩, h2.unhold, rfl,
      e, rfl, h5⟩
    rw [h4]
    exact ev_pure.2 ⟨rfl, rfl⟩
  | some as =>
    rw [hp] at h3
    obtain ⟨h4, h5⟩ := h3
    refine ⟨{ idx := i + 1 + (Spec.argsCode ts).length, idx2 := f.length }, { s' with held := t.held }, ev_bind.2 ⟨_, _, first, ev_bind.2 ⟨r, _, ret h1, ?_⟩⟩,
      h2.unhold, rfl, rfl, rfl, h5⟩
    have hlt : i + 1 + (Spec.argsCode ts).length < a.length := by
      have h1 := congrArg List.length ha
      rw [List.length_drop, List.length_append, List.length_cons] at h1
      omega
    rw [h4]
    dsimp only
    rw [if_neg (by omega)]
    exact ev_pure.2 ⟨rfl, rfl⟩

end Zh
