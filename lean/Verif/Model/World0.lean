import Verif.Model.Str
/-!
# Small parts of `u_/world_.rs`, `u_/codes_cache_.rs` and `u_/jump_.rs`
-/
namespace Zh

/-- `d__` in `path2__` (`src/u_/world_.rs:66-70`): the part of a path up to and including the last
slash (`rfind('/')`), empty if there is none. -/
def dirPart (s : Str) : Str := ((s.reverse.dropWhile (· ≠ '/')).reverse)

/-- `path2__` (`src/u_/world_.rs:65-81`). -/
def path2 (path : List Str) (s : Str) : List Str :=
  let d := dirPart s
  if d.isEmpty then path
  else if path.any fun i => dirPart i == d then path
  else path ++ [s]

/-- The jump codes (`src/u_/jump_.rs:5-12`). -/
def BREAK : Int := 11032
def CONTINUE : Int := 11033
def BREAK2 : Int := 11035
def CONTINUE2 : Int := 11036
def RETURN : Int := 11062
def QUIT : Int := 11061
def NO : Int := 1000

/-- `ret__` (`src/u_/world_.rs:113-125`): the exit status; the text printed to stderr. -/
def worldRet (ret : Except Err Unit) : Int × Str :=
  match ret with
  | .ok () => (0, [])
  | .error e =>
    if e.i = QUIT ∧ e.i2 ≠ NO then (e.i2, e.s)
    else (exitcode e.i, e.s ++ e.s2 ++ ['\n'])

/-- `codes_cache_::List_` (`src/u_/codes_cache_.rs:11-14`): the hash map from 64-bit hashes to parsed
programs, as a list of entries with the newest first; `α` is the type of programs. -/
abbrev Cache (α : Type) := List (Nat × α)

/-- `get__` (`src/u_/codes_cache_.rs:23-25`); `hash` is `id__`. -/
def Cache.get {α : Type} (hash : Str → Nat) (c : Cache α) (src : Str) : Option α :=
  (c.find? fun e => e.1 = hash src).map (·.2)
/-- `set__` (`src/u_/codes_cache_.rs:26-28`). -/
def Cache.set {α : Type} (hash : Str → Nat) (c : Cache α) (src : Str) (codes : α) : Cache α :=
  (hash src, codes) :: c

/-- `codes_cache__` (`src/u_/world_.rs:53-62`): the program for a source and the new cache; `pars` is
`pars__`.  The `fit` argument is always the identity in this crate. -/
def codesCache {α : Type} (hash : Str → Nat) (pars : Str → Out (Except Err α)) (c : Cache α)
    (src : Str) : Out (Except Err α × Cache α) :=
  match c.get hash src with
  | some codes => .ok (.ok codes, c)
  | none => match pars src with
    | .ok (.error e) => .ok (.error e, c)
    | .ok (.ok codes) =>
      let c := c.set hash src codes
      match c.get hash src with
      | some codes => .ok (.ok codes, c)
      | none => .panic
    | .panic => .panic
    | .fuel => .fuel

end Zh
