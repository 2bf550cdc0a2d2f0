import Verif.Props.Traverse
/-!
# Every evaluation function keeps the invariants: the statements
-/
namespace Zh

variable {H : Host} {C : Ctx} {s0 s : St} {α β : Type}

/-! ## Assignments and definitions -/

theorem nlE_setJie (k : K C s0 s) {ret : Nat} (hr : LsIso C s0 ret) (name : Str) (val : Item) (js : Str) (cnt : Nat) :
    NlE H C s0 (setJie ret name val js cnt) s fun _ _ => True := by
  induction js generalizing s cnt with
  | nil => exact NlE.ret k trivial
  | cons c cs ih =>
    have fin : ∀ {s1}, K C s0 s1 → NlE H C s0 (do
        if c = '1' ∨ c = '名' then addT ret name
        else if c = '值' then addItem ret val
        else fail (errNoJie c)
        setJie ret name val cs (cnt + 1) : E Nat) s1 fun _ _ => True := by
      intro s1 k1
      have hr1 := hr.k k1
      split
      · exact NlE.bind (NlE.lift (nl_addT k1 hr1 _)) fun _ _ k _ => ih k _
      · split
        · exact NlE.bind (NlE.lift (nl_addItem k1 hr1 _)) fun _ _ k _ => ih k _
        · exact NlE.bind (Q := fun _ _ => True) (NlE.fail k1) fun _ _ k _ => ih k _
    unfold setJie
    extract_lets jp
    split
    · refine NlE.bind (NlE.lift (nl_addDun k (hr.k k))) ?_
      rintro _ s1 k1 -
      exact fin k1
    · exact fin k

theorem nlE_setGo (k : K C s0 s) {env : Env} (he : EnvOk C s0 env) (al : Bool) (gs : List (List Item)) (st : SetSt) :
    NlE H C s0 (setGo al env gs st) s fun _ _ => True := by
  induction gs generalizing s st with
  | nil => exact NlE.ret k trivial
  | cons g gs ih =>
    refine NlE.bind (NlE.lift (nl_getSt k)) ?_
    rintro s' s'' k ⟨rfl, rfl⟩
    refine NlE.bind (nlE_ofOut k _) ?_
    rintro ⟨name, q, priv, equ⟩ s1 k ⟨-, rfl⟩
    dsimp only
    refine NlE.bind (Q := fun _ _ => True) (NlE.lift ?_) ?_
    · split
      · exact Nl.ret k trivial
      · exact nl_opT k _ trivial
    rintro val s2 k2 -
    split
    · exact NlE.lift (Nl.panic k2)
    · refine NlE.bind (NlE.lift (nl_opT k2 (.setVar _ _) trivial)) ?_
      rintro _ s3 k3 -
      refine NlE.bind (nlE_setJie k3 he.ri _ _ _ _) ?_
      rintro _ s4 k4 -
      exact ih k4 _

theorem nlE_setP (k : K C s0 s) {env : Env} (he : EnvOk C s0 env) (al : Bool) (names vals : List Code) :
    NlE H C s0 (setP al names vals env) s fun _ _ => True := by
  refine NlE.bind (NlE.lift (nl_newList k)) ?_
  rintro rn s1 k1 ⟨hn, -⟩
  refine NlE.bind (NlE.lift (nl_newList k1)) ?_
  rintro rv s2 k2 ⟨hv, k12⟩
  refine NlE.bind (NlE.rebase k2 (nlE_hello k2.rebase [] names ((he.k k2).fresh (hn.k k12) _))) ?_
  rintro _ s3 k3 ⟨k23, -⟩
  refine NlE.bind (nlE_hello k3 [] vals ((he.k k3).fresh (hv.k k23) _)) ?_
  rintro _ s4 k4 -
  refine NlE.bind (NlE.lift (nl_getList k4 _)) ?_
  rintro ln s5 k5 ⟨-, rfl⟩
  refine NlE.bind (NlE.lift (nl_getList k5 _)) ?_
  rintro lv s6 k6 ⟨-, rfl⟩
  exact nlE_setGo k6 he _ _ _

theorem nlE_defP (k : K C s0 s) {env : Env} (he : EnvOk C s0 env) (names vals : List Code) (sp : Nat) :
    NlE H C s0 (defP names vals sp env) s fun _ _ => True := by
  refine NlE.bind (NlE.lift (nl_newList k)) ?_
  rintro r2 s1 k1 ⟨h2, -⟩
  dsimp only
  refine NlE.bind (NlE.rebase k1 (nlE_split2a k1.rebase [] names sp ((he.k k1).fresh h2 _))) ?_
  rintro ⟨name, rems⟩ s2 k2 ⟨k12, -⟩
  refine NlE.bind (NlE.lift (nl_getSt k2)) ?_
  rintro s' s'' k2 ⟨rfl, rfl⟩
  refine NlE.bind (nlE_ofOut k2 _) ?_
  rintro ⟨argc, backarg, q2⟩ s3 k3 ⟨-, rfl⟩
  dsimp only
  refine NlE.bind (nlE_callE k3 [] _ rfl (((he.k k3).fresh (h2.k k12) _).hold []) trivial) ?_
  rintro _ s4 k4 -
  split
  · exact NlE.fail k4
  · refine NlE.bind (NlE.lift (nl_getSt k4)) ?_
    rintro s' s'' k4 ⟨rfl, rfl⟩
    split
    · exact NlE.fail k4
    · refine NlE.bind (nlE_helloNew k4 [] vals (he.k k4)) ?_
      rintro r3 s5 k5 -
      refine NlE.bind (NlE.lift (nl_getSt k5)) ?_
      rintro s' s'' k5 ⟨rfl, rfl⟩
      split
      · exact NlE.lift (Nl.panic k5)
      · refine NlE.bind (NlE.lift (nl_opT k5 (.touch _) trivial)) ?_
        rintro _ s6 k6 -
        split
        · exact NlE.fail k6
        · exact NlE.lift (nl_opT k6 (.setDef _ _) trivial)

/-! ## Modules -/

theorem nlE_nameP (k : K C s0 s) {env : Env} (he : EnvOk C s0 env) (m : Bool) (a : List Code) :
    NlE H C s0 (nameP m a env) s fun _ _ => True := by
  refine NlE.bind (nlE_helloVec k a (he.k k)) ?_
  rintro v s1 k1 -
  refine NlE.bind (NlE.lift (nl_getSt k1)) ?_
  rintro s' s'' k1 ⟨rfl, rfl⟩
  dsimp only
  split
  · exact NlE.fail k1
  · split
    · split
      · exact NlE.fail k1
      · refine NlE.bind (NlE.lift (nl_opT k1 (.addMod _ _) (he.k k1).q)) ?_
        rintro _ s2 k2 -
        exact NlE.lift (nl_opT k2 (.addName _ _ _) trivial)
    · split
      · exact NlE.fail k1
      · exact NlE.lift (nl_opT k1 (.addName _ _ _) trivial)

theorem nlE_modFreeGo (k : K C s0 s) {env : Env} (he : EnvOk C s0 env) (names : List Str) :
    NlE H C s0 (modFreeGo env names) s fun _ _ => True := by
  induction names generalizing s with
  | nil => exact NlE.ret k trivial
  | cons n ns ih =>
    refine NlE.bind (NlE.lift (nl_getSt k)) ?_
    rintro s' s'' k1 ⟨rfl, rfl⟩
    split
    · exact ih k1
    · rename_i d i q2 hf
      have hq := findMod_ok k1.later.inv hf
      have fin : ∀ {s2}, K C s0 s2 → NlE H C s0 (do doOp (.rmMod d i); modFreeGo env ns : E Unit) s2
          fun _ _ => True := by
        intro s2 k2
        refine NlE.bind (NlE.lift (nl_opT k2 (.rmMod _ _) trivial)) ?_
        rintro _ s3 k3 -
        exact ih k3
      dsimp only
      split
      · refine NlE.bind (nlE_callE k1 [.scope q2] _ rfl
          (((he.k k1).at _ hq (fun p e => by cases e; exact hq)).hold _) trivial (by simpa [HeldIn] using hq.1)) ?_
        rintro _ s2 k2 -
        exact fin k2
      · exact fin k1

/-! ## Switch and conditions -/

theorem nlE_switchHits (k : K C s0 s) {env : Env} (he : EnvOk C s0 env) (case : List Code) (t : Str)
    (l : List (Nat × Nat)) : NlE H C s0 (switchHits case t env l) s fun _ _ => True := by
  induction l generalizing s with
  | nil => exact NlE.ret k trivial
  | cons x l ih =>
    obtain ⟨f, to⟩ := x
    refine NlE.bind (NlE.lift (nl_newList k)) ?_
    rintro r s1 k1 ⟨h1, -⟩
    refine NlE.bind (nlE_callE k1 [] _ rfl (((he.k k1).fresh h1 _).hold []) trivial) ?_
    rintro _ s2 k2 -
    refine NlE.bind (NlE.lift (nl_getList k2 _)) ?_
    rintro l' s3 k3 -
    refine NlE.bind (ih k3) ?_
    rintro hs s4 k4 -
    exact NlE.ret k4 trivial

theorem nlE_switchRun (k : K C s0 s) {env : Env} (he : EnvOk C s0 env) (case : List Code)
    (l : List (Nat × Nat)) : NlE H C s0 (switchRun case env l) s fun _ _ => True := by
  induction l generalizing s with
  | nil => exact NlE.ret k trivial
  | cons x l ih =>
    obtain ⟨f, to⟩ := x
    refine NlE.bind (nlE_callE k [] _ rfl ((he.k k).hold []) trivial) ?_
    rintro _ s2 k2 -
    exact ih k2

theorem nlE_switchP (k : K C s0 s) {env : Env} (he : EnvOk C s0 env) (one : Bool) (a case : List Code)
    (l : List (Nat × Nat)) (d : Option Nat) : NlE H C s0 (switchP one a case l d env) s fun _ _ => True := by
  refine NlE.bind (nlE_helloVec k a (he.k k)) ?_
  rintro v s1 k1 -
  dsimp only
  refine NlE.bind (nlE_switchHits k1 (he.gd _) _ _ _) ?_
  rintro hits s2 k2 -
  split
  · split
    · exact nlE_callE k2 [] _ rfl (((he.k k2).gd _).hold []) trivial
    · exact NlE.ret k2 trivial
  · split
    · exact NlE.fail k2
    · exact nlE_switchRun k2 (he.gd _) _ _

theorem nl_condMv (k : K C s0 s) {env : Env} (he : EnvOk C s0 env) (can : Bool) (codes : List Code) (st : CondSt) :
    Nl H C s0 (condMv can codes env st) s fun _ _ => True := by
  refine Nl.bind (nl_callP k [] _ rfl (((he.k k).gd _).hold []) trivial) ?_
  rintro r s1 k1 -
  split
  · exact Nl.ret k1 trivial
  · refine Nl.bind (nl_getList k1 _) ?_
    rintro l s2 k2 ⟨-, rfl⟩
    refine Nl.bind (nl_opT k2 (.setList _ _) (he.k k2).ret.2) ?_
    rintro _ s3 k3 -
    exact Nl.ret k3 trivial

theorem nl_condCmp (k : K C s0 s) {env : Env} (he : EnvOk C s0 env) (codes : List Code) (st : CondSt) :
    Nl H C s0 (condCmp codes env st) s fun _ _ => True := by
  unfold condCmp
  split
  · exact Nl.ret k trivial
  · refine Nl.bind (nl_condMv k he true codes st) ?_
    rintro x s1 k1 -
    split
    · exact Nl.ret k1 trivial
    · refine Nl.bind (nl_opT k1 (.cmp _ _ _ _) trivial) ?_
      rintro _ s2 k2 -
      exact Nl.ret k2 trivial

theorem nl_condP (k : K C s0 s) {env : Env} (he : EnvOk C s0 env) (codes : List Code) (st : CondSt) :
    Nl H C s0 (condP codes env st) s fun _ _ => True := by
  have next : ∀ {s1}, K C s0 s1 → ∀ st', Nl H C s0 (callP [] (.cond codes env st')) s1 fun _ _ => True :=
    fun k1 st' => nl_callP k1 [] _ rfl ((he.k k1).hold []) trivial
  unfold condP
  split
  · refine Nl.bind (nl_condCmp k he codes st) ?_
    rintro x s1 k1 -
    split
    split <;> exact Nl.ret k1 trivial
  · rename_i c _
    split
    · refine Nl.bind (nl_newList k) ?_
      rintro r s1 k1 ⟨h1, -⟩
      refine Nl.bind (nl_callP k1 [] _ rfl (((he.k k1).fresh h1 _).hold []) trivial) ?_
      rintro x s2 k2 -
      dsimp only
      split
      · split
        · exact next k2 _
        · exact Nl.ret k2 trivial
      · exact next k2 _
    · split
      · refine Nl.bind (nl_condCmp k he codes _) ?_
        rintro x s1 k1 -
        split
        split
        · exact Nl.ret k1 trivial
        · split
          · exact Nl.ret k1 trivial
          · split
            · exact next k1 _
            · exact next k1 _
      · split
        · exact next k _
        · split
          · refine Nl.bind (nl_condMv k he false codes _) ?_
            rintro x s1 k1 -
            split
            split
            · exact Nl.ret k1 trivial
            · exact next k1 _
          · exact next k _

theorem nlE_ifP (k : K C s0 s) {env : Env} (he : EnvOk C s0 env) (a th el : List Code) :
    NlE H C s0 (ifP a th el env) s fun _ _ => True := by
  refine NlE.bind (NlE.lift (nl_newList k)) ?_
  rintro r s1 k1 ⟨h1, -⟩
  refine NlE.bind (NlE.lift (nl_callP k1 [] _ rfl (((he.k k1).fresh h1 _).hold []) trivial)) ?_
  rintro x s2 k2 -
  dsimp only
  have br : NlE H C s0 (if x.has = true then hello [] th env else hello [] el env) s2 fun _ _ => True := by
    split
    · exact nlE_hello k2 [] _ (he.k k2)
    · exact nlE_hello k2 [] _ (he.k k2)
  split
  · split
    · exact br
    · exact NlE.fail k2
  · exact br

/-! ## Jumps and pipes -/

theorem nlE_jumpP (k : K C s0 s) {env : Env} (he : EnvOk C s0 env) (j : JumpKind) (a : List Code) :
    NlE H C s0 (jumpP j a env) s fun _ _ => True := by
  refine NlE.bind (nlE_helloVec k a (he.k k)) ?_
  rintro v s1 k1 -
  refine NlE.bind (NlE.lift (nl_getSt k1)) ?_
  rintro s' s'' k1 ⟨rfl, rfl⟩
  exact NlE.fail k1

theorem nlE_jieP (k : K C s0 s) {env : Env} (he : EnvOk C s0 env) (rems a : List Code) :
    NlE H C s0 (jieP rems a env) s fun _ _ => True := by
  refine NlE.bind (Q := fun _ _ => True) ?_ ?_
  · split
    · exact NlE.ret k trivial
    · exact nlE_remsP k (he.k k) _
  rintro rs s1 k1 -
  exact nlE_hello k1 [] _ ((he.k k1).gd _)

theorem nlE_catchLift {p : E Unit} (h : NlE H C s0 p s fun _ _ => True) :
    NlE H C s0 (ExceptT.lift p.run : E (Except Err Unit)) s fun _ _ => True :=
  NlE.lift (NlE.catch h)

theorem nlE_jie2P (k : K C s0 s) {env : Env} (he : EnvOk C s0 env) (a : List Code) :
    NlE H C s0 (jie2P a env) s fun _ _ => True := by
  have hr : ∀ {s1}, K C s0 s1 → LsOk C s1 env.ret := fun k => (he.k k).ret
  refine NlE.bind (nlE_catchLift (nlE_hello k [] a (he.k k))) ?_
  rintro r s1 k1 -
  refine NlE.bind (NlE.lift (nl_addDun k1 (hr k1))) ?_
  rintro _ s2 k2 -
  split
  · exact NlE.ret k2 trivial
  · refine NlE.bind (NlE.lift (nl_addT k2 (hr k2) _)) ?_
    rintro _ s3 k3 -
    refine NlE.bind (NlE.lift (nl_addDun k3 (hr k3))) ?_
    rintro _ s4 k4 -
    refine NlE.bind (NlE.lift (nl_addT k4 (hr k4) _)) ?_
    rintro _ s5 k5 -
    refine NlE.bind (NlE.lift (nl_addDun k5 (hr k5))) ?_
    rintro _ s6 k6 -
    refine NlE.bind (NlE.lift (nl_addT k6 (hr k6) _)) ?_
    rintro _ s7 k7 -
    refine NlE.bind (NlE.lift (nl_addDun k7 (hr k7))) ?_
    rintro _ s8 k8 -
    exact NlE.lift (nl_addT k8 (hr k8) _)

/-! ## Output, arithmetic, processes -/

theorem nlE_printJie (k : K C s0 s) {ret : Nat} (hr : LsIso C s0 ret) (t js : Str) :
    NlE H C s0 (printJie ret t js) s fun _ _ => True := by
  induction js generalizing s with
  | nil => exact NlE.ret k trivial
  | cons c cs ih =>
    unfold printJie
    split
    · exact NlE.bind (NlE.lift (nl_addT k (hr.k k) _)) fun _ _ k _ => ih k
    · exact NlE.bind (Q := fun _ _ => True) (NlE.fail k) fun _ _ k _ => ih k

theorem nlE_printP (k : K C s0 s) {env : Env} (he : EnvOk C s0 env) (a : List Code) :
    NlE H C s0 (printP a env) s fun _ _ => True := by
  refine NlE.bind (nlE_helloVec k a (he.k k)) ?_
  rintro v s1 k1 -
  split
  · exact NlE.ret k1 trivial
  · rename_i t opts
    refine NlE.bind (nlE_pure k1 _) ?_
    rintro ⟨pf, ep, redir⟩ s2 k2 ⟨-, rfl⟩
    dsimp only
    refine NlE.bind (NlE.lift (nl_getSt k2)) ?_
    rintro s' s'' k2 ⟨rfl, rfl⟩
    split
    · rename_i p src hf
      have hp : p < s''.nscope := by
        split at hf
        · obtain ⟨p', hp', e⟩ := List.exists_of_findSome?_eq_some hf
          rw [Option.map_eq_some_iff] at e
          obtain ⟨_, -, e⟩ := e
          cases e
          exact (chain_ok k2.later.inv _ (he.k k2).q p hp').1
        · cases hf
      refine NlE.bind (NlE.lift (nl_newScope k2 _ _ (he.k k2).q)) ?_
      rintro q s3 k3 n
      refine NlE.bind (NlE.lift (nl_getSt k3)) ?_
      rintro s' s'' k3 ⟨rfl, rfl⟩
      refine NlE.bind (NlE.lift (Nl.rebase k3 (nl_addT k3.rebase n.ls _))) ?_
      rintro _ s4 k4 ⟨k34, -⟩
      refine nlE_callE k4 _ _ rfl (((he.k k4).at _ (n.sc.step k34.later.step) (he.k k4).inq).hold _) trivial ?_
      have h1 := n.k.later.step.nscope
      have h2 := k34.later.step.nscope
      simp only [HeldIn, List.mem_singleton, Held.scope.injEq]
      rintro _ rfl
      omega
    · refine NlE.bind (NlE.lift (nl_opT k2 (.emit _) trivial)) ?_
      rintro _ s3 k3 -
      split
      · refine NlE.bind (NlE.lift (nl_opT k3 (.emit _) trivial)) ?_
        rintro _ s4 k4 -
        exact nlE_printJie k4 he.ri _ _
      · exact nlE_printJie k3 he.ri _ _

theorem nlE_explP (k : K C s0 s) {env : Env} (he : EnvOk C s0 env) (a : List Code) :
    NlE H C s0 (explP a env) s fun _ _ => True := by
  refine NlE.bind (nlE_helloVec k a (he.k k)) ?_
  rintro v s1 k1 -
  refine NlE.bind (NlE.lift (nl_opT k1 (.expl _) trivial)) ?_
  rintro x s2 k2 -
  split
  · exact NlE.lift (nl_addT k2 (he.k k2).ret _)
  · exact NlE.fail k2

theorem nl_exitcodeP (k : K C s0 s) {ret : Nat} (hr : LsIso C s0 ret) (c : Option Int) :
    Nl H C s0 (exitcodeP c ret) s fun _ _ => True := by
  unfold exitcodeP
  split
  · refine Nl.bind (nl_addT k (hr.k k) _) ?_
    rintro _ s1 k1 -
    exact nl_addDun k1 (hr.k k1)
  · refine Nl.bind (nl_addDun k (hr.k k)) ?_
    rintro _ s1 k1 -
    exact nl_addT k1 (hr.k k1) _

theorem nl_execErr (k : K C s0 s) {ret : Nat} (hr : LsIso C s0 ret) (e : Str) :
    Nl H C s0 (execErr e ret) s fun _ _ => True := by
  refine Nl.bind (nl_addT k (hr.k k) _) ?_
  rintro _ s1 k1 -
  refine Nl.bind (nl_addDun k1 (hr.k k1)) ?_
  rintro _ s2 k2 -
  exact nl_addT k2 (hr.k k2) _

theorem nlE_execCode (k : K C s0 s) {env : Env} (he : EnvOk C s env) (src arg : Str) :
    NlE H C s0 (execCode src arg env) s fun _ _ => True := by
  refine NlE.bind (NlE.lift (nl_newScope k _ _ he.q)) ?_
  rintro q s3 k3 n
  refine NlE.bind (NlE.lift (nl_getSt k3)) ?_
  rintro s' s'' k3 ⟨rfl, rfl⟩
  refine NlE.bind (NlE.lift (Nl.rebase k3 (nl_addT k3.rebase n.ls _))) ?_
  rintro _ s4 k4 ⟨k34, -⟩
  have he4 := (he.k n.k).k k34
  exact nlE_callE k4 _ _ rfl ((he4.at _ (n.sc.step k34.later.step) he4.inq).hold _) trivial

theorem nl_writeAll (k : K C s0 s) (h : Nat) (ts : List Str) : Nl H C s0 (writeAll h ts) s fun _ _ => True := by
  induction ts generalizing s with
  | nil => exact Nl.ret k trivial
  | cons t ts ih =>
    refine Nl.bind (nl_opT k (.write _ _) trivial) ?_
    rintro x s1 k1 -
    split
    · exact nl_opT k1 (.emit _) trivial
    · exact ih k1

theorem nlE_execPipe (k : K C s0 s) {env : Env} (he : EnvOk C s0 env) (h : Nat) (src arg : Str) :
    NlE H C s0 (execPipe h src arg env) s fun _ _ => True := by
  refine NlE.bind (NlE.lift (nl_newList k)) ?_
  rintro r s1 k1 ⟨h1, -⟩
  refine NlE.bind (nlE_execCode k1 ((he.k k1).fresh h1 _) _ _) ?_
  rintro _ s2 k2 -
  refine NlE.bind (NlE.lift (nl_getList k2 _)) ?_
  rintro l s3 k3 -
  exact NlE.lift (nl_writeAll k3 _ _)

theorem nl_slaveStream (k : K C s0 s) {env : Env} (he : EnvOk C s0 env) (h : Nat) (err : Bool) (src buf : Str) :
    Nl H C s0 (slaveStream h err src buf env) s fun _ _ => True := by
  unfold slaveStream
  split
  · exact Nl.ret k trivial
  · refine Nl.bind (nl_opT k (.readLine _ _) trivial) ?_
    rintro x s1 k1 -
    split
    · split
      · exact Nl.ret k1 trivial
      · refine Nl.bind (NlE.catch (nlE_execPipe k1 he _ _ _)) ?_
        rintro _ s2 k2 -
        exact Nl.ret k2 trivial
    · refine Nl.bind (nl_opT k1 (.emit _) trivial) ?_
      rintro _ s2 k2 -
      exact Nl.ret k2 trivial

theorem nl_slaveP (k : K C s0 s) {env : Env} (he : EnvOk C s0 env) (h : Nat) (o e buf : Str) :
    Nl H C s0 (slaveP h o e buf env) s fun _ _ => True := by
  refine Nl.bind (nl_slaveStream k he _ _ _ _) ?_
  rintro x s1 k1 -
  split
  · exact Nl.ret k1 trivial
  · refine Nl.bind (nl_slaveStream k1 he _ _ _ _) ?_
    rintro x s2 k2 -
    split
    · exact Nl.ret k2 trivial
    · exact nl_callP k2 [] _ rfl ((he.k k2).hold []) trivial

theorem nlE_execLines (k : K C s0 s) {env : Env} (he : EnvOk C s0 env) (src : Str) (ls : List (Except Str Str)) :
    NlE H C s0 (execLines src env ls) s fun _ _ => True := by
  induction ls generalizing s with
  | nil => exact NlE.ret k trivial
  | cons x ls ih =>
    cases x with
    | ok t =>
      refine NlE.bind (NlE.lift (nl_newList k)) ?_
      rintro r s1 k1 ⟨h1, -⟩
      refine NlE.bind (nlE_execCode k1 ((he.k k1).fresh h1 _) _ _) ?_
      rintro _ s2 k2 -
      exact ih k2
    | error e =>
      refine NlE.bind (NlE.lift (nl_opT k (.emit _) trivial)) ?_
      rintro _ s1 k1 -
      exact ih k1

theorem nlE_execOut (k : K C s0 s) {env : Env} (he : EnvOk C s0 env) (src : Str) (c : Captured) (err : Bool) :
    NlE H C s0 (execOut src c err env) s fun _ _ => True := by
  unfold execOut
  have dun : ∀ {s1}, K C s0 s1 → NlE H C s0 (addDun env.ret : E Unit) s1 fun _ _ => True :=
    fun k => NlE.lift (nl_addDun k (he.k k).ret)
  split
  · exact NlE.lift (nl_opT k (.emit _) trivial)
  · split
    · split
      · refine NlE.bind (NlE.lift (nl_addT k (he.k k).ret _)) ?_
        rintro _ s1 k1 -
        exact dun k1
      · refine NlE.bind (NlE.lift (nl_opT k (.emit _) trivial)) ?_
        rintro _ s1 k1 -
        exact dun k1
    · refine NlE.bind (nlE_execLines k he _ _) ?_
      rintro _ s1 k1 -
      exact dun k1

theorem nlE_execRun (k : K C s0 s) {env : Env} (he : EnvOk C s0 env) (o : ExecOpts) :
    NlE H C s0 (execRun o env) s fun _ _ => True := by
  unfold execRun
  dsimp only
  split
  · refine NlE.bind (NlE.lift (nl_opT k (.exec _ _) trivial)) ?_
    rintro x s1 k1 -
    split
    · refine NlE.bind (nlE_execPipe k1 he _ _ _) ?_
      rintro _ s2 k2 -
      split
      · refine NlE.bind (NlE.lift (nl_addVal k2 (he.k k2).ret _ _)) ?_
        rintro _ s3 k3 -
        exact NlE.lift (nl_addDun k3 (he.k k3).ret)
      · refine NlE.bind (NlE.lift (nl_callP k2 [] _ rfl ((he.k k2).hold []) trivial)) ?_
        rintro _ s3 k3 -
        exact NlE.lift (nl_addDun k3 (he.k k3).ret)
    · exact NlE.lift (nl_execErr k1 he.ri _)
    · exact NlE.lift (Nl.panic k1)
  · refine NlE.bind (NlE.lift (nl_opT k (.exec _ _) trivial)) ?_
    rintro x s1 k1 -
    split
    · refine NlE.bind (NlE.lift (nl_exitcodeP k1 he.ri _)) ?_
      rintro _ s2 k2 -
      refine NlE.bind (nlE_execOut k2 he _ _ _) ?_
      rintro _ s3 k3 -
      exact nlE_execOut k3 he _ _ _
    · exact NlE.lift (nl_execErr k1 he.ri _)
    · exact NlE.lift (Nl.panic k1)
  · refine NlE.bind (NlE.lift (nl_opT k (.exec _ _) trivial)) ?_
    rintro x s1 k1 -
    split
    · refine NlE.bind (NlE.lift (nl_addDun k1 (he.k k1).ret)) ?_
      rintro _ s2 k2 -
      exact NlE.lift (nl_addT k2 (he.k k2).ret _)
    · exact NlE.lift (nl_execErr k1 he.ri _)
    · exact NlE.lift (Nl.panic k1)
  · refine NlE.bind (NlE.lift (nl_opT k (.exec _ _) trivial)) ?_
    rintro x s1 k1 -
    split
    · exact NlE.lift (nl_exitcodeP k1 he.ri _)
    · exact NlE.lift (nl_execErr k1 he.ri _)
    · exact NlE.lift (Nl.panic k1)

theorem nlE_exec2P (k : K C s0 s) {env : Env} (he : EnvOk C s0 env) (v : List Str) :
    NlE H C s0 (exec2P v env) s fun _ _ => True := by
  unfold exec2P
  split
  · exact NlE.fail k
  · split
    · exact NlE.fail k
    · dsimp only
      refine NlE.bind (nlE_pure k _) ?_
      rintro _ s1 k1 ⟨-, rfl⟩
      exact nlE_execRun k1 he _

theorem nl_objWrite (k : K C s0 s) {ret : Nat} (hr : LsIso C s0 ret) (h : Nat) (ts : List Str) :
    Nl H C s0 (objWrite h ret ts) s fun _ _ => True := by
  induction ts generalizing s with
  | nil => exact Nl.ret k trivial
  | cons t ts ih =>
    refine Nl.bind (nl_opT k (.write _ _) trivial) ?_
    rintro x s1 k1 -
    split
    · refine Nl.bind (nl_addT k1 (hr.k k1) _) ?_
      rintro _ s2 k2 -
      exact ih k2
    · exact ih k1

theorem nlE_execP (k : K C s0 s) {env : Env} (he : EnvOk C s0 env) (a : List Code) :
    NlE H C s0 (execP a env) s fun _ _ => True := by
  refine NlE.bind (nlE_helloNew k [] a (he.k k)) ?_
  rintro r s1 k1 -
  refine NlE.bind (NlE.lift (nl_getList k1 _)) ?_
  rintro l s2 k2 -
  split
  · exact NlE.lift (nl_objWrite k2 he.ri _ _)
  · exact nlE_exec2P k2 he _

end Zh
