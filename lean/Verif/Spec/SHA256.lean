/-!
Independent specification of SHA-256, transcribed from FIPS 180-4 (sections 4.1.2, 4.2.2, 5.1.1, 5.3.3, 6.2).
Messages are bit strings, first bit first.
-/

namespace Verif.Spec.SHA256

abbrev Word := BitVec 32

/-- FIPS 180-4, 3.2: circular right shift. -/
def rotr (n : Nat) (x : Word) : Word := (x >>> n) ||| (x <<< (32 - n))
/-- FIPS 180-4, 3.2: right shift. -/
def shr (n : Nat) (x : Word) : Word := x >>> n

/-- FIPS 180-4, (4.2). -/
def Ch (x y z : Word) : Word := (x &&& y) ^^^ (~~~x &&& z)
/-- FIPS 180-4, (4.3). -/
def Maj (x y z : Word) : Word := (x &&& y) ^^^ (x &&& z) ^^^ (y &&& z)
/-- FIPS 180-4, (4.4). -/
def Sigma0 (x : Word) : Word := rotr 2 x ^^^ rotr 13 x ^^^ rotr 22 x
/-- FIPS 180-4, (4.5). -/
def Sigma1 (x : Word) : Word := rotr 6 x ^^^ rotr 11 x ^^^ rotr 25 x
/-- FIPS 180-4, (4.6). -/
def sigma0 (x : Word) : Word := rotr 7 x ^^^ rotr 18 x ^^^ shr 3 x
/-- FIPS 180-4, (4.7). -/
def sigma1 (x : Word) : Word := rotr 17 x ^^^ rotr 19 x ^^^ shr 10 x

/-- The first 64 primes. -/
def primes64 : List Nat :=
  [2, 3, 5, 7, 11, 13, 17, 19, 23, 29, 31, 37, 41, 43, 47, 53, 59, 61, 67, 71, 73, 79, 83, 89, 97, 101, 103,
   107, 109, 113, 127, 131, 137, 139, 149, 151, 157, 163, 167, 173, 179, 181, 191, 193, 197, 199, 211, 223,
   227, 229, 233, 239, 241, 251, 257, 263, 269, 271, 277, 281, 283, 293, 307, 311]

/-- Largest `r` with `r^k ≤ n`, searching downwards from bit `b` of the result. -/
def rootFloor (k n : Nat) : Nat → Nat → Nat
  | 0, acc => acc
  | b + 1, acc => if (acc + 2 ^ b) ^ k ≤ n then rootFloor k n b (acc + 2 ^ b) else rootFloor k n b acc

/-- FIPS 180-4, 4.2.2: the first 32 bits of the fractional parts of the cube roots of the first 64 primes. -/
def K : List Word := primes64.map fun p => BitVec.ofNat 32 (rootFloor 3 (p * 2 ^ 96) 36 0)

/-- FIPS 180-4, 5.3.3: the first 32 bits of the fractional parts of the square roots of the first 8 primes. -/
def H0 : List Word := (primes64.take 8).map fun p => BitVec.ofNat 32 (rootFloor 2 (p * 2 ^ 64) 36 0)

/-- FIPS 180-4, 5.1.1: number of zero bits, the smallest `k` with `l + 1 + k = 448 mod 512`. -/
def padZeros (l : Nat) : Nat := (448 + 512 - (l + 1) % 512) % 512

/-- `n`-bit big-endian representation of a number, first bit most significant. -/
def beBits : Nat → Nat → List Bool
  | 0, _ => []
  | n + 1, v => v.testBit n :: beBits n v

/-- FIPS 180-4, 5.1.1: padding. -/
def pad (m : List Bool) : List Bool :=
  m ++ [true] ++ List.replicate (padZeros m.length) false ++ beBits 64 m.length

/-- Number with the given bits, first bit most significant. -/
def bitsToNat (bs : List Bool) : Nat := bs.foldl (fun n b => 2 * n + b.toNat) 0

/-- Split in pieces of `n` bits, `k` pieces. -/
def pieces (n : Nat) : Nat → List Bool → List (List Bool)
  | 0, _ => []
  | k + 1, bs => bs.take n :: pieces n k (bs.drop n)

/-- FIPS 180-4, 5.2.1: the sixteen 32-bit words of a block. -/
def blockWords (b : List Bool) : List Word := (pieces 32 16 b).map fun w => BitVec.ofNat 32 (bitsToNat w)

/-- FIPS 180-4, 6.2.2 step 1: message schedule. -/
def schedule (m : List Word) : List Word :=
  (List.range 48).foldl (fun w j =>
    let t := j + 16
    w ++ [sigma1 (w.getD (t-2) 0) + w.getD (t-7) 0 + sigma0 (w.getD (t-15) 0) + w.getD (t-16) 0]) m

/-- Working variables. -/
structure Vars where
  a : Word
  b : Word
  c : Word
  d : Word
  e : Word
  f : Word
  g : Word
  h : Word
  deriving DecidableEq

/-- FIPS 180-4, 6.2.2 step 3. -/
def round (s : Vars) (k w : Word) : Vars :=
  let t1 := s.h + Sigma1 s.e + Ch s.e s.f s.g + k + w
  let t2 := Sigma0 s.a + Maj s.a s.b s.c
  { a := t1 + t2, b := s.a, c := s.b, d := s.c, e := s.d + t1, f := s.e, g := s.f, h := s.g }

/-- FIPS 180-4, 6.2.2: one block. -/
def compress (H : List Word) (m : List Word) : List Word :=
  let w := schedule m
  let s0 : Vars := ⟨H.getD 0 0, H.getD 1 0, H.getD 2 0, H.getD 3 0, H.getD 4 0, H.getD 5 0, H.getD 6 0, H.getD 7 0⟩
  let s := (List.range 64).foldl (fun s t => round s (K.getD t 0) (w.getD t 0)) s0
  [s.a + s0.a, s.b + s0.b, s.c + s0.c, s.d + s0.d, s.e + s0.e, s.f + s0.f, s.g + s0.g, s.h + s0.h]

/-- Process a sequence of 512-bit blocks. -/
def processBlocks (H : List Word) (blocks : List (List Bool)) : List Word :=
  blocks.foldl (fun H b => compress H (blockWords b)) H

/-- FIPS 180-4, 6.2: the eight words of the SHA-256 digest of a bit string. -/
def sha256Words (m : List Bool) : List Word :=
  let p := pad m
  processBlocks H0 (pieces 512 (p.length / 512) p)

/-- Bits of a word, most significant first. -/
def wordBits (w : Word) : List Bool := beBits 32 w.toNat

/-- SHA-256 as a function on bit strings. -/
def sha256 (m : List Bool) : List Bool := (sha256Words m).flatMap wordBits

end Verif.Spec.SHA256
