import Verif.Spec.Encoding

/-!
AES-128 as in FIPS 197: the field `GF(2^8)` of section 4, the transformations of section 5.1 and the key expansion of section 5.2.

A state (and a round key) is the list of its sixteen bytes, row `r` of column `c` at index `4 * c + r`, the order in which the
input bytes are copied into the state (section 3.4).
-/

namespace Verif.Spec.AES

abbrev Byte := BitVec 8

/-- Multiplication by `{02}`, section 4.2.1. -/
def xtime (a : Byte) : Byte := (a <<< 1) ^^^ (if a.msb then 0x1b else 0)

/-- `a * x^i`. -/
def xpow (a : Byte) : Nat → Byte
  | 0 => a
  | i + 1 => xtime (xpow a i)

/-- Multiplication in `GF(2^8)` modulo `x^8 + x^4 + x^3 + x + 1`, section 4.2. -/
def mul (a b : Byte) : Byte :=
  (List.range 8).foldl (fun s i => if b.getLsbD i then s ^^^ xpow a i else s) 0

/-- The multiplicative inverse, `{00}` being mapped to itself: `x^254`. -/
def inv (x : Byte) : Byte :=
  let x2 := mul x x
  let x3 := mul x2 x
  let x6 := mul x3 x3
  let x12 := mul x6 x6
  let x15 := mul x12 x3
  let x30 := mul x15 x15
  let x60 := mul x30 x30
  let x120 := mul x60 x60
  let x126 := mul x120 x6
  let x127 := mul x126 x
  mul x127 x127

/-- The affine transformation of section 5.1.1. -/
def affine (b : Byte) : Byte :=
  b ^^^ b.rotateLeft 1 ^^^ b.rotateLeft 2 ^^^ b.rotateLeft 3 ^^^ b.rotateLeft 4 ^^^ 0x63

/-- The S-box, section 5.1.1. -/
def sbox (x : Byte) : Byte := affine (inv x)

abbrev State := List Byte

def subBytes (s : State) : State := s.map sbox

/-- `s'[r, c] = s[r, (c + r) mod 4]`, section 5.1.2. -/
def shiftRows (s : State) : State := (List.range 16).map fun i => s.getD (4 * ((i / 4 + i % 4) % 4) + i % 4) 0

/-- `s'[r, c] = {02} s[r, c] + {03} s[r + 1, c] + s[r + 2, c] + s[r + 3, c]`, rows modulo 4, section 5.1.3. -/
def mixColumns (s : State) : State := (List.range 16).map fun i =>
  let at' (k : Nat) := s.getD (4 * (i / 4) + (i + k) % 4) 0
  mul 0x02 (at' 0) ^^^ mul 0x03 (at' 1) ^^^ at' 2 ^^^ at' 3

def addRoundKey (s k : State) : State := List.zipWith (· ^^^ ·) s k

/-- A four-byte word. -/
abbrev Word := List Byte

def xorWord (a b : Word) : Word := List.zipWith (· ^^^ ·) a b

def subWord (w : Word) : Word := w.map sbox

/-- `[a0, a1, a2, a3]` to `[a1, a2, a3, a0]`. -/
def rotWord (w : Word) : Word := w.drop 1 ++ w.take 1

/-- `[x^(i-1), {00}, {00}, {00}]`. -/
def rcon (i : Nat) : Word := [xpow 1 (i - 1), 0, 0, 0]

/-- The next word of the key schedule, section 5.2 with `Nk = 4`. -/
def nextWord (w : List Word) : Word :=
  let i := w.length
  let temp := w.getD (i - 1) []
  let temp := if i % 4 = 0 then xorWord (subWord (rotWord temp)) (rcon (i / 4)) else temp
  xorWord (w.getD (i - 4) []) temp

/-- The first `4 + n` words of the key schedule of a 16-byte key. -/
def expand (key : List Byte) : Nat → List Word
  | 0 => [key.take 4, (key.drop 4).take 4, (key.drop 8).take 4, (key.drop 12).take 4]
  | n + 1 => let w := expand key n; w ++ [nextWord w]

/-- The key schedule `w[0], ..., w[43]`. -/
def keyExpansion (key : List Byte) : List Word := expand key 40

/-- The round key of round `r` as a state: word `4 r + c` is column `c`. -/
def roundKey (w : List Word) (r : Nat) : State := ((w.drop (4 * r)).take 4).flatten

/-- The state after `r` full rounds (section 5.1). -/
def rounds (w : List Word) (s : State) : Nat → State
  | 0 => addRoundKey s (roundKey w 0)
  | r + 1 => addRoundKey (mixColumns (shiftRows (subBytes (rounds w s r)))) (roundKey w (r + 1))

/-- `Cipher(in, 10, w)`, section 5.1. -/
def cipher (w : List Word) (msg : List Byte) : List Byte :=
  addRoundKey (shiftRows (subBytes (rounds w msg 9))) (roundKey w 10)

/-- AES-128. -/
def aes128 (key msg : List Byte) : List Byte := cipher (keyExpansion key) msg

end Verif.Spec.AES
