import Verif.Props.Wp
/-!
# Concrete runs, for showing that the hypotheses of the theorems are met

A host that knows integers only and refuses everything else, and a computable check that a call happens
in a run of the interpreter on a given script.
-/
namespace Zh

/-- Integers instead of floating point numbers. -/
def F0 : F64 Int where
  parse s := parseI64 s
  add := (· + ·)
  sub := (· - ·)
  mul := (· * ·)
  div := (· / ·)
  pow a _ := a
  neg a := -a
  isZero a := a == 0
  isInf _ := false
  lt a b := a < b
  toI64 := id
  ofI64 := id
  str := intStr
  strFloor := intStr
  strFixed a _ := some (intStr a)

/-- A host for demonstrations. -/
def H0 : Host where
  F := Int
  f64 := F0
  hash s := s.foldl (fun n c => n * 1114112 + c.toNat + 1) 0
  fileName _ _ := none
  open_ _ _ := false
  read _ _ := .error []
  exec _ _ _ := .status (some 0)
  write _ _ _ := none
  readLine _ _ _ := .ok []

/-- The words of a command line that runs the given script. -/
def demoArgv (src : Str) : List Str := [c!"zs", c!"-zhscript-src-is-code", src]

/-- Whether the program makes a call with the property, itself or (`deep` levels down) by its calls. -/
def callsB (H : Host) (rec : Call → St → Out Res × St) (P : Call → St → Bool) {α : Type} : Prog α → St → Bool
  | .ret _, _ => false
  | .panic, _ => false
  | .op o k, s =>
    match o.run H s with
    | (.ok a, s') => callsB H rec P (k a) s'
    | _ => false
  | .call h c0 k, s =>
    P c0 (s.hold h) ||
      match rec c0 (s.hold h) with
      | (.ok r, s') => callsB H rec P (k r) { s' with held := s.held }
      | _ => false

theorem callsB_sound {H : Host} {rec : Call → St → Out Res × St} {P : Call → St → Bool} {α : Type}
    (p : Prog α) (s : St) (h : callsB H rec P p s = true) : ∃ c t, Calls H rec p s c t ∧ P c t = true := by
  induction p generalizing s with
  | ret a => cases h
  | panic => cases h
  | op o k ih =>
    simp only [callsB] at h
    rcases ho : o.run H s with ⟨x, s1⟩
    rw [ho] at h
    cases x with
    | ok a =>
      obtain ⟨c, t, h1, h2⟩ := ih a s1 h
      exact ⟨c, t, ⟨a, s1, ho, h1⟩, h2⟩
    | panic => cases h
    | fuel => cases h
  | call hd c0 k ih =>
    simp only [callsB, Bool.or_eq_true] at h
    rcases h with h | h
    · exact ⟨c0, _, .inl ⟨rfl, rfl⟩, h⟩
    · rcases hr : rec c0 (s.hold hd) with ⟨x, s1⟩
      rw [hr] at h
      cases x with
      | ok r =>
        obtain ⟨c, t, h1, h2⟩ := ih r _ h
        exact ⟨c, t, .inr ⟨r, s1, hr, h1⟩, h2⟩
      | panic => cases h
      | fuel => cases h

/-- Whether the call, or one it leads to within `deep` levels, has the property. -/
def deepB (H : Host) (n : Nat) (P : Call → St → Bool) : Nat → Call → St → Bool
  | 0, c, s => P c s
  | d + 1, c, s => P c s || callsB H (run H n) (deepB H n P d) (evalF c) s

theorem deepB_sound {H : Host} {n : Nat} {P : Call → St → Bool} {ovf : Bool} {argv : List Str} (d : Nat) {c : Call}
    {s : St} (hr : Reached H ovf argv c s) (h : deepB H n P d c s = true) :
    ∃ c s, Reached H ovf argv c s ∧ P c s = true := by
  induction d generalizing c s with
  | zero => exact ⟨c, s, hr, h⟩
  | succ d ih =>
    simp only [deepB, Bool.or_eq_true] at h
    rcases h with h | h
    · exact ⟨c, s, hr, h⟩
    · obtain ⟨c', t, h1, h2⟩ := callsB_sound _ _ h
      exact ih (.step n hr h1) h2

/-- Whether a run of the demonstration host on the script makes a call with the property. -/
def demoB (n : Nat) (P : Call → St → Bool) (src : Str) : Bool :=
  callsB H0 (run H0 n) (deepB H0 n P n) (mainP (demoArgv src)).run (St.init false)

theorem demoB_sound {n : Nat} {P : Call → St → Bool} {src : Str} (h : demoB n P src = true) :
    ∃ c s, Reached H0 false (demoArgv src) c s ∧ P c s = true := by
  obtain ⟨c, t, h1, h2⟩ := callsB_sound _ _ h
  exact deepB_sound _ (.main n h1) h2

/-- What the demonstration host printed for a script, and how the run ended. -/
def demo (n : Nat) (src : Str) : Out (Except Err Unit) × List Event :=
  let r := runMain H0 n false (demoArgv src)
  (r.1, r.2.trace)

end Zh
