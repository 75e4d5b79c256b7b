/-!
Model of 128-bit blocks and of the GF(2^128) routines of `cipher/utils.h`.

`emp::block` is `__m128i`; it is modelled by `BitVec 128`, bit `i` of the vector being bit `i` of the
128-bit register (bit 0 = least significant bit of the low quadword).  The Intel intrinsics are modelled
from the Intel intrinsics guide; they are part of the trusted base.
-/

namespace Verif.Model

/-- `emp::block` (`__m128i`), see `cipher/utils.h:154`. -/
abbrev Block := BitVec 128

/-- Carry-less product of two 64-bit words (PCLMULQDQ), used by `_mm_clmulepi64_si128`,
`cipher/utils.h:156-159`.  The loop is the definition in the Intel manual: xor of the shifted copies of `a`
for each set bit of `b`. -/
def clmul64 (a b : BitVec 64) : Block :=
  (List.range 64).foldl
    (fun acc i => if b.getLsbD i then acc ^^^ ((a.setWidth 128) <<< i) else acc) 0#128

/-- Low quadword of a register. Operands of `_mm_clmulepi64_si128`, `cipher/utils.h:156-159`. -/
def lo64 (x : Block) : BitVec 64 := x.setWidth 64
/-- High quadword of a register. Operands of `_mm_clmulepi64_si128`, `cipher/utils.h:156-159`. -/
def hi64 (x : Block) : BitVec 64 := (x >>> 64).setWidth 64

/-- `_mm_clmulepi64_si128(a,b,imm)`, used at `cipher/utils.h:156-159`: bit 0 of `imm` selects the quadword of
`a`, bit 4 the quadword of `b`. -/
def clmulepi64 (a b : Block) (imm : Nat) : Block :=
  clmul64 (if imm.testBit 0 then hi64 a else lo64 a) (if imm.testBit 4 then hi64 b else lo64 b)

/-- `_mm_slli_si128(x, bytes)`, `cipher/utils.h:162` etc.: whole register shift left by bytes. -/
def slliSi128 (x : Block) (bytes : Nat) : Block := x <<< (8 * bytes)
/-- `_mm_srli_si128(x, bytes)`, `cipher/utils.h:163` etc.: whole register shift right by bytes. -/
def srliSi128 (x : Block) (bytes : Nat) : Block := x >>> (8 * bytes)

/-- 32-bit lane `k` of a register. Operands of `cipher/utils.h:167-170,179-190`. -/
def lane32 (x : Block) (k : Nat) : BitVec 32 := (x >>> (32 * k)).setWidth 32
/-- Rebuild a register from its four 32-bit lanes. Results of `cipher/utils.h:167-170,179-190`. -/
def ofLanes (l0 l1 l2 l3 : BitVec 32) : Block := (l3 ++ l2 ++ l1 ++ l0).cast (by decide)
/-- `_mm_slli_epi32(x, n)`, `cipher/utils.h:169` etc.: each 32-bit lane shifted left. -/
def slliEpi32 (x : Block) (n : Nat) : Block :=
  ofLanes (lane32 x 0 <<< n) (lane32 x 1 <<< n) (lane32 x 2 <<< n) (lane32 x 3 <<< n)
/-- `_mm_srli_epi32(x, n)`, `cipher/utils.h:167` etc.: each 32-bit lane shifted right (logical). -/
def srliEpi32 (x : Block) (n : Nat) : Block :=
  ofLanes (lane32 x 0 >>> n) (lane32 x 1 >>> n) (lane32 x 2 >>> n) (lane32 x 3 >>> n)

/-- First half of `mulBlock`, `cipher/utils.h:156-165`: the 256-bit carry-less product, as the pair
(`tmp3` = low half, `tmp6` = high half). -/
def mulBlockProd (a b : Block) : Block × Block :=
  let tmp3 := clmulepi64 a b 0x00
  let tmp4 := clmulepi64 a b 0x10
  let tmp5 := clmulepi64 a b 0x01
  let tmp6 := clmulepi64 a b 0x11
  let tmp4 := tmp4 ^^^ tmp5
  let tmp5 := slliSi128 tmp4 8
  let tmp4 := srliSi128 tmp4 8
  let tmp3 := tmp3 ^^^ tmp5
  let tmp6 := tmp6 ^^^ tmp4
  (tmp3, tmp6)

/-- Second half of `mulBlock`, `cipher/utils.h:167-195`: shift the product left by one bit (bit reflection)
and reduce. -/
def mulBlockRed (tmp3 tmp6 : Block) : Block :=
  let tmp7 := srliEpi32 tmp3 31
  let tmp8 := srliEpi32 tmp6 31
  let tmp3 := slliEpi32 tmp3 1
  let tmp6 := slliEpi32 tmp6 1
  let tmp9 := srliSi128 tmp7 12
  let tmp8 := slliSi128 tmp8 4
  let tmp7 := slliSi128 tmp7 4
  let tmp3 := tmp3 ||| tmp7
  let tmp6 := tmp6 ||| tmp8
  let tmp6 := tmp6 ||| tmp9
  let tmp7 := slliEpi32 tmp3 31
  let tmp8 := slliEpi32 tmp3 30
  let tmp9 := slliEpi32 tmp3 25
  let tmp7 := tmp7 ^^^ tmp8
  let tmp7 := tmp7 ^^^ tmp9
  let tmp8 := srliSi128 tmp7 4
  let tmp7 := slliSi128 tmp7 12
  let tmp3 := tmp3 ^^^ tmp7
  let tmp2 := srliEpi32 tmp3 1
  let tmp4 := srliEpi32 tmp3 2
  let tmp5 := srliEpi32 tmp3 7
  let tmp2 := tmp2 ^^^ tmp4
  let tmp2 := tmp2 ^^^ tmp5
  let tmp2 := tmp2 ^^^ tmp8
  let tmp3 := tmp3 ^^^ tmp2
  tmp6 ^^^ tmp3

/-- `mulBlock`, `cipher/utils.h:154-196`. -/
def mulBlock (a b : Block) : Block :=
  let p := mulBlockProd a b
  mulBlockRed p.1 p.2

/-- `set_bit(zero_block, 127)`, the unit used in `powBlock`, `cipher/utils.h:209`. -/
def oneBlock : Block := 0#128 ||| (1#128 <<< 127)

/-- The loop counting `leading_zeros` in `powBlock`, `cipher/utils.h:199-207`: `fuel` is the number of
remaining iterations (`i = fuel-1` downto 0). -/
def leadingZeros64 (len : BitVec 64) : Nat → Nat
  | 0 => 0
  | i + 1 => if ((len >>> i) &&& 1#64) != 0#64 then 0 else leadingZeros64 len i + 1

/-- One iteration of the main loop of `powBlock`, `cipher/utils.h:212-216`. -/
def powStep (len : BitVec 64) (s : Block × Block) (i : Nat) : Block × Block :=
  let h := mulBlock s.1 s.1
  let res := if ((len >>> i) &&& 1#64) != 0#64 then mulBlock h s.2 else s.2
  (h, res)

/-- `powBlock`, `cipher/utils.h:198-219`. -/
def powBlock (a : Block) (len : BitVec 64) : Block :=
  let leadingZeros := leadingZeros64 len 64
  let h := a
  let res := if (len &&& 1#64) != 0#64 then a else oneBlock
  -- for (size_t i = 1; i < 64 - leading_zeros; i++)
  ((List.range' 1 (64 - leadingZeros - 1)).foldl (powStep len) (h, res)).2

/-- One iteration of the loop of `invBlock`, `cipher/utils.h:224-227`. -/
def invStep (s : Block × Block) : Block × Block :=
  let h := mulBlock s.1 s.1
  (h, mulBlock h s.2)

/-- `invBlock`, `cipher/utils.h:221-231`. -/
def invBlock (a : Block) : Block :=
  let s := (List.range' 1 126).foldl (fun s _ => invStep s) (a, a)
  mulBlock s.2 s.2

/-- `ghash`, `cipher/utils.h:233-239`. -/
def ghash (h : Block) (x : List Block) : Block :=
  x.foldl (fun y xi => mulBlock (y ^^^ xi) h) 0#128

end Verif.Model
