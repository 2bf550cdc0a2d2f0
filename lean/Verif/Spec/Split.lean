import Verif.Spec.Groups
/-!
# Specification of command-line splitting

A command line is written as words; a word is a run of pieces, each either plain characters or a
text between two equal quote characters.  Words are separated by blanks.
-/
namespace Zh.Spec

/-- A blank of a command line. -/
def blank (c : Char) : Bool := c == ' ' || c == '\t' || c == '\r' || c == '\n'

/-- A quote character. -/
def quote (c : Char) : Bool := c == '"' || c == '\''

/-- One piece of a word. -/
inductive Piece where
  /-- characters standing for themselves -/
  | plain (s : List Char)
  /-- text between two quote characters `q` -/
  | quoted (q : Char) (s : List Char)

/-- How a piece is written. -/
def Piece.text : Piece → List Char
  | .plain s => s
  | .quoted q s => q :: s ++ [q]

/-- What a piece means. -/
def Piece.value : Piece → List Char
  | .plain s => s
  | .quoted _ s => s

/-- A piece is writable if plain characters are neither blanks nor quotes (and there is at least
one), and quoted text does not contain its own quote character. -/
def Piece.Ok : Piece → Prop
  | .plain s => s ≠ [] ∧ ∀ c ∈ s, blank c = false ∧ quote c = false
  | .quoted q s => quote q = true ∧ q ∉ s

/-- How a word is written, and what it means. -/
def wordText (w : List Piece) : List Char := w.flatMap Piece.text
def wordValue (w : List Piece) : List Char := w.flatMap Piece.value

/-- A line: words, each followed by some blanks. -/
def lineText : List (List Piece × List Char) → List Char
  | [] => []
  | (w, sp) :: rest => wordText w ++ (sp ++ lineText rest)

/-- A line is well formed: every word has at least one piece, all pieces are writable, what stands
between words is blank, and it is non-empty except possibly at the end. -/
def LineOk : List (List Piece × List Char) → Prop
  | [] => True
  | (w, sp) :: rest =>
    w ≠ [] ∧ (∀ p ∈ w, p.Ok) ∧ (∀ c ∈ sp, blank c = true) ∧ (rest ≠ [] → sp ≠ []) ∧ LineOk rest

end Zh.Spec
