/-!
Independent specification of the GCM field multiplication and GHASH, transcribed from NIST SP 800-38D,
sections 6.3 and 6.4.  A 128-bit string `x_0 x_1 ... x_127` (leftmost bit first) is held in a `BitVec 128`
with `x_i` at bit `127 - i`.
-/

namespace Verif.Spec

/-- Bit `x_i` of a string, leftmost first. -/
def strBit (x : BitVec 128) (i : Nat) : Bool := x.getLsbD (127 - i)

/-- The constant `R = 11100001 || 0^120` of SP 800-38D, section 6.3. -/
def gcmR : BitVec 128 := 0xE1#128 <<< 120

/-- `V_{i+1}` from `V_i` (SP 800-38D, algorithm 1, step 3): right shift of the string by one, xored with `R`
if the rightmost bit was one. -/
def gcmNextV (v : BitVec 128) : BitVec 128 :=
  if strBit v 127 then (v >>> 1) ^^^ gcmR else v >>> 1

/-- SP 800-38D, algorithm 1: `X • Y`.  State `(Z, V)`. -/
def gcmMul (x y : BitVec 128) : BitVec 128 :=
  ((List.range 128).foldl
    (fun (s : BitVec 128 × BitVec 128) i =>
      (if strBit x i then s.1 ^^^ s.2 else s.1, gcmNextV s.2)) (0#128, y)).1

/-- SP 800-38D, algorithm 2 (GHASH): `Y_i = (Y_{i-1} xor X_i) • H`. -/
def gcmGhash (h : BitVec 128) : List (BitVec 128) → BitVec 128 :=
  List.foldl (fun y x => gcmMul (y ^^^ x) h) 0#128

end Verif.Spec
