import Verif.Spec.GCMField

/-!
Independent specification of GCM for byte strings, transcribed from NIST SP 800-38D (sections 6.2, 6.5, 7.1, 7.2)
for 96-bit initialisation vectors and 128-bit tags.  The block cipher under the fixed key is the parameter `E`.
A block is the 128-bit string whose leftmost bit is bit 127, as in `GCMField`.
-/

namespace Verif.Spec.GCM

abbrev Byte := BitVec 8

/-- The block written by 16 bytes, first byte leftmost. -/
def blockOf (l : List Byte) : BitVec 128 := l.foldl (fun acc x => (acc <<< 8) ||| x.setWidth 128) 0#128

/-- The 16 bytes of a block, leftmost byte first. -/
def bytesOf (b : BitVec 128) : List Byte := (List.range 16).map fun i => b.extractLsb' (8 * (15 - i)) 8

/-- Zero padding to a whole number of blocks (`0^v`, `0^u` of section 7.1, step 4). -/
def pad (l : List Byte) : List Byte := l ++ List.replicate ((16 - l.length % 16) % 16) 0#8

/-- `[n]_64`: 64-bit big-endian encoding of `n`. -/
def be64 (n : Nat) : List Byte := (List.range 8).map fun i => BitVec.ofNat 8 (n / 256 ^ (7 - i))

/-- A byte string of whole blocks, split into blocks. -/
def blocks (l : List Byte) : List (BitVec 128) :=
  (List.range (l.length / 16)).map fun i => blockOf ((l.drop (16 * i)).take 16)

/-- `inc_32` (section 6.2): the rightmost 32 bits are incremented modulo `2^32`, the others unchanged. -/
def inc32 (b : BitVec 128) : BitVec 128 := b.extractLsb' 32 96 ++ (b.extractLsb' 0 32 + 1#32)

/-- `J_0 = IV || 0^31 || 1` (section 7.1, step 2). -/
def j0 (iv : List Byte) : BitVec 128 := blockOf (iv ++ [0#8, 0#8, 0#8, 1#8])

/-- The counter block `CB_i` of `GCTR` started at `J`: `J` incremented `i` times. -/
def counter (j : BitVec 128) : Nat → BitVec 128
  | 0 => j
  | i + 1 => inc32 (counter j i)

/-- `n` bytes of the key stream of `GCTR_K(inc_32(J_0), ·)` (section 6.5). -/
def keyStream (E : BitVec 128 → BitVec 128) (j : BitVec 128) (n : Nat) : List Byte :=
  ((List.range ((n + 15) / 16)).flatMap fun i => bytesOf (E (counter (inc32 j) i))).take n

/-- `GCTR_K(inc_32(J_0), X)`. -/
def crypt (E : BitVec 128 → BitVec 128) (j : BitVec 128) (x : List Byte) : List Byte :=
  List.zipWith (· ^^^ ·) x (keyStream E j x.length)

/-- The string hashed for the tag (section 7.1, step 5). -/
def hashInput (a c : List Byte) : List Byte :=
  pad a ++ pad c ++ be64 (8 * a.length) ++ be64 (8 * c.length)

/-- The tag for a hash key `h` and the masking block `z` (section 7.1, steps 5 and 6). -/
def tagWith (h z : BitVec 128) (a c : List Byte) : List Byte := bytesOf (gcmGhash h (blocks (hashInput a c)) ^^^ z)

/-- The tag `T = GCTR_K(J_0, GHASH_H(...))` with `H = E(0^128)`. -/
def tag (E : BitVec 128 → BitVec 128) (j : BitVec 128) (a c : List Byte) : List Byte :=
  tagWith (E 0#128) (E j) a c

/-- `GCM-AE` (section 7.1): ciphertext and tag. -/
def encrypt (E : BitVec 128 → BitVec 128) (iv a p : List Byte) : List Byte × List Byte :=
  let c := crypt E (j0 iv) p
  (c, tag E (j0 iv) a c)

/-- `GCM-AD` (section 7.2): the plaintext, or failure if the tag is wrong. -/
def decrypt (E : BitVec 128 → BitVec 128) (iv a c t : List Byte) : Option (List Byte) :=
  if t = tag E (j0 iv) a c then some (crypt E (j0 iv) c) else none

end Verif.Spec.GCM
