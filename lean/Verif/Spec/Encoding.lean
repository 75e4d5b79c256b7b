/-!
Independent specification of the encodings: positional values, big-endian bit strings, hexadecimal digits.
-/

namespace Verif.Spec.Encoding

/-- Positional value in base `2^w`, first digit most significant. -/
def positional (w : Nat) : List Nat → Nat
  | [] => 0
  | d :: ds => d * (2 ^ w) ^ ds.length + positional w ds

/-- The eight bits of a byte, most significant first. -/
def byteBits (b : BitVec 8) : List Bool :=
  [b.getLsbD 7, b.getLsbD 6, b.getLsbD 5, b.getLsbD 4, b.getLsbD 3, b.getLsbD 2, b.getLsbD 1, b.getLsbD 0]

/-- A byte string as a bit string, first byte first, every byte most significant bit first. -/
def bytesBits (s : List (BitVec 8)) : List Bool := s.flatMap byteBits

/-- Value of a hexadecimal digit. -/
def hexValue (c : Char) : Option Nat :=
  if '0' ≤ c ∧ c ≤ '9' then some (c.toNat - '0'.toNat)
  else if 'a' ≤ c ∧ c ≤ 'f' then some (c.toNat - 'a'.toNat + 10)
  else none

end Verif.Spec.Encoding
