import Verif.Model.Basic
/-!
# UTF-8

Rust strings are UTF-8 byte sequences.  Bytes are modelled as natural numbers (below 256 in every
string, see `utf8_lt`).  This is the standard encoding, not code of the repository.
-/
namespace Zh

/-- UTF-8 encoding of a character (`char::encode_utf8`). -/
def encChar (c : Char) : List Nat :=
  let v := c.toNat
  if v < 0x80 then [v]
  else if v < 0x800 then [0xC0 + v / 64, 0x80 + v % 64]
  else if v < 0x10000 then [0xE0 + v / 4096, 0x80 + v / 64 % 64, 0x80 + v % 64]
  else [0xF0 + v / 262144, 0x80 + v / 4096 % 64, 0x80 + v / 64 % 64, 0x80 + v % 64]

/-- The bytes of a string (`as_bytes`). -/
def utf8 (s : Str) : List Nat := s.flatMap encChar

end Zh
