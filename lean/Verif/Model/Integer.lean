/-!
Model of `emp::Integer` (an external type of emp-tool, used throughout the repository) and of the integer
helpers in `cipher/utils.h`.

An `Integer` is the vector of its plain bits, least significant first (`Integer::bits`).  The circuits behind
the operators are external (emp-tool); the operators are modelled by their values, as documented in emp-tool:
`+`/`-` modulo `2^n`, logical shifts filling with zeros, `geq` by the sign bit of the difference.
-/

namespace Verif.Model

/-- Outcome of code that may report an error (`emp::error`, an assertion) or run into undefined behaviour.
As in `cipher/utils.h:259,282,320`, `backend/check_zero.h:39`. -/
inductive Fault where
  | ub (what : String)
  | error (what : String)
  deriving DecidableEq, Repr

/-- Not in the code: the result of a function that may stop, such as `backend/check_zero.h:37-56`.
-/
abbrev Res := Except Fault

/-- A byte (`unsigned char`). As in `cipher/utils.h:292,306`. -/
abbrev Byte := BitVec 8

/-- `emp::Integer`: bits, least significant first. emp-tool; used from `cipher/utils.h:29` on. -/
abbrev Integer := List Bool

namespace Integer

/-- Unsigned value of the bits.
Not in the code: the number an `emp::Integer`, as used in `cipher/utils.h:29-335`, stands for. -/
def val : Integer → Nat
  | [] => 0
  | b :: bs => b.toNat + 2 * val bs

/-- `Integer(n, v, party)` for a machine integer `v`: the low `n` bits (emp-tool; used e.g. at
`cipher/sha256.h:199-201`). -/
def ofNat : Nat → Nat → Integer
  | 0, _ => []
  | n + 1, v => (v % 2 == 1) :: ofNat n (v / 2)

/-- `Integer(8*len, const void* p, party)`: byte `i` gives bits `8i..8i+7`, least significant first
(emp-tool; used e.g. at `cipher/utils.h:56`). -/
def ofBytes (bytes : List Byte) : Integer := bytes.flatMap fun b => ofNat 8 b.toNat

/-- Inverse direction: `reveal<unsigned char>(p, party)` writes byte `i` from bits `8i..8i+7` (emp-tool; used
e.g. at `protocol/prove_aes.h:221`).  A trailing incomplete byte is written with the remaining bits. -/
def toBytes (x : Integer) : List Byte :=
  match x with
  | [] => []
  | b :: bs => BitVec.ofNat 8 (val ((b :: bs).take 8)) :: toBytes ((b :: bs).drop 8)
termination_by x.length

/-- `operator+` (emp-tool), addition modulo `2^n`.
Used in `cipher/sha256.h:422-467`, `protocol/addmod.h:10-25`, `protocol/aead.h:94-105`. -/
def add (a b : Integer) : Integer := ofNat a.length (val a + val b)
/-- `operator-` (emp-tool), subtraction modulo `2^n`. Used in `protocol/addmod.h:10-25`. -/
def sub (a b : Integer) : Integer := ofNat a.length (val a + 2 ^ a.length - val b)
/-- `operator^` (emp-tool). Used in `cipher/sha256.h:422-467`. -/
def xor (a b : Integer) : Integer := List.zipWith Bool.xor a b
/-- `operator&` (emp-tool). Used in `cipher/sha256.h:422-467`. -/
def and (a b : Integer) : Integer := List.zipWith Bool.and a b
/-- `operator<<(int)` (emp-tool): zeros shifted in at the low end.
Used in `cipher/utils.h:29-31,124-146`. -/
def shl (x : Integer) (k : Nat) : Integer :=
  if x.length < k then List.replicate x.length false
  else List.replicate k false ++ x.take (x.length - k)
/-- `operator>>(int)` (emp-tool): zeros shifted in at the high end.
Used in `cipher/utils.h:29-31`. -/
def shr (x : Integer) (k : Nat) : Integer :=
  if x.length < k then List.replicate x.length false
  else x.drop k ++ List.replicate k false
/-- `resize(n, false)` (emp-tool): truncate or zero extend.
Used in `cipher/utils.h:124-146`, `protocol/addmod.h:10-25`. -/
def resize (x : Integer) (n : Nat) : Integer := x.take n ++ List.replicate (n - x.length) false
/-- `geq` (emp-tool): negation of the top bit of the difference.
Used in `protocol/addmod.h:10-25`. -/
def geq (a b : Integer) : Bool := !((sub a b).getLastD false)
/-- `a.select(sel, b)` (emp-tool): `sel ? b : a`. Used in `protocol/addmod.h:10-25`. -/
def select (a : Integer) (sel : Bool) (b : Integer) : Integer := if sel then b else a

end Integer

open Integer

/-- `rrot(const Integer&, int)`, `cipher/utils.h:29-31`. -/
def rrot (x : Integer) (sht : Nat) : Integer := xor (shr x sht) (shl x (x.length - sht))

/-- `rrot(const uint32_t&, int)`, `cipher/utils.h:37-39`. -/
def rrot32 (x : BitVec 32) (sht : Nat) : BitVec 32 := (x >>> sht) ||| (x <<< (32 - sht))

/-- `lrot(const Integer&, int)`, `cipher/utils.h:42-45`. -/
def lrot (x : Integer) (sht : Nat) : Integer := xor (shl x sht) (shr x (x.length - sht))

/-- `str_to_int`, `cipher/utils.h:47-58`: the string reversed, then read as little-endian bytes. -/
def strToInt (s : List Byte) : Integer := ofBytes s.reverse

/-- One hex digit of `"%02x"`. `snprintf` in `cipher/utils.h:69,86`. -/
def hexDigit (n : Nat) : Char := "0123456789abcdef".toList.getD n '0'

/-- `"%02x"` of a byte, `cipher/utils.h:69`. -/
def hex2 (n : Nat) : List Char := [hexDigit (n / 16), hexDigit (n % 16)]

/-- `int_to_hex(vector<uint32_t>)`, `cipher/utils.h:60-75`. -/
def intToHex32 (v : List (BitVec 32)) : List Char :=
  v.flatMap fun x => [3, 2, 1, 0].flatMap fun j =>
    hex2 ((x &&& (0xFF#32 <<< (8 * j))) >>> (8 * j)).toNat

/-- `int_to_hex(vector<uint64_t>)`, `cipher/utils.h:77-92`. -/
def intToHex64 (v : List (BitVec 64)) : List Char :=
  v.flatMap fun x => [7, 6, 5, 4, 3, 2, 1, 0].flatMap fun j =>
    hex2 ((x &&& (0xFF#64 <<< (8 * j))) >>> (8 * j)).toNat

/-- `intvec_to_int`, `cipher/utils.h:114-122`.  `s` is the size of `in[0]`; an empty vector is undefined
behaviour (`in[0]` is read), which the model reports. -/
def intvecToInt (ins : List Integer) : Res Integer :=
  match ins with
  | [] => .error (.ub "intvec_to_int: in[0] of an empty vector")
  | x0 :: _ =>
    let s := x0.length
    let len := ins.length
    let tmp := ofNat (s * len) 0
    .ok ((ins.zipIdx).foldl
      (fun out p => xor out (shl (xor tmp (resize p.1 (s * len))) ((len - 1 - p.2) * s))) (ofNat (s * len) 0))

/-- `concat`, `cipher/utils.h:124-127`: each element inserted at the front of the bit vector. -/
def concat (res : Integer) (ins : List Integer) : Integer := ins.foldl (fun res x => x ++ res) res

/-- `concat_opt`, `cipher/utils.h:129-141`. -/
def concatOpt (res : Integer) (ins : List Integer) : Integer :=
  (ins.reverse.foldl (fun tmp x => tmp ++ x) []) ++ res

/-- `reverse_concat`, `cipher/utils.h:143-146`. -/
def reverseConcat (res : Integer) (ins : List Integer) : Integer := ins.foldl (fun res x => res ++ x) res

/-- `move_concat`, `cipher/utils.h:148-152`: the moved-from elements are `const`, so this copies. -/
def moveConcat (res : Integer) (ins : List Integer) : Integer := ins.foldl (fun res x => x ++ res) res

/-- `extract_integer`, `cipher/utils.h:332-335`: bits `[n-offset-size, n-offset)`.  The iterators must stay
inside the vector; otherwise the behaviour is undefined. -/
def extractInteger (src : Integer) (offset size : Nat) : Res Integer :=
  if offset + size ≤ src.length then
    .ok ((src.drop (src.length - offset - size)).take size)
  else .error (.ub "extract_integer: iterator out of range")

/-- `integer_to_chars`, `cipher/utils.h:292-304`, on the share bits `getLSB(in[i].bit)`: byte `i/8` collects
bits `i..i+7` of the reversed vector, first one as bit 7.  If the size is not a multiple of 8 the code reads
past the end, which the model reports. -/
def integerToChars (x : Integer) : Res (List Byte) :=
  if x.length % 8 = 0 then
    let ins := x.reverse
    .ok ((List.range (x.length / 8)).map fun i =>
      (List.range 8).foldl
        (fun tmp j => if ins.getD (8 * i + j) false then tmp ^^^ (1#8 <<< (7 - j)) else tmp) 0#8)
  else .error (.ub "integer_to_chars: size not a multiple of 8")

end Verif.Model
