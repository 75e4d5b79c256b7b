import Verif.Model.Block
import Verif.Model.Integer

/-! Conversions between shares, blocks and byte strings of `cipher/utils.h`. -/

namespace Verif.Model

/-- `makeBlock(high, low)` (emp-tool), used at `cipher/utils.h:265-268`. -/
def makeBlock (hi lo : BitVec 64) : Block := (hi ++ lo).cast (by decide)

/-- `integer_to_block(Integer&)`, `cipher/utils.h:257-271`, on the share bits `getLSB(in[i].bit)`. -/
def integerToBlock (x : Integer) : Res Block :=
  if x.length ≠ 128 then .error (.error "the length of input should be 128!")
  else .ok ((List.range 64).foldl (fun b i =>
    let b := if x.getD i false then b ^^^ makeBlock 0 (1#64 <<< i) else b
    if x.getD (i + 64) false then b ^^^ makeBlock (1#64 <<< i) 0 else b) 0#128)

/-- `integer_to_block(block*, Integer*, size_t)`, `cipher/utils.h:274-277`. -/
def integersToBlocks (xs : List Integer) : Res (List Block) := xs.mapM integerToBlock

/-- `integer_to_block(block*, Integer&)`, `cipher/utils.h:280-290`: 128-bit pieces, from the most significant
end. -/
def integerToBlocks (x : Integer) : Res (List Block) :=
  if x.length % 128 ≠ 0 then .error (.error "the length of input should be multiples of 128!")
  else integersToBlocks ((List.range (x.length / 128)).map fun i =>
    (x.drop (x.length - 128 * (i + 1))).take 128)

/-- Memory image of a block: 16 bytes, least significant first (x86-64 is little-endian).
`(unsigned char*)` casts such as `protocol/aead.h:435,486`. -/
def blockBytes (b : Block) : List Byte := (List.range 16).map fun i => (b >>> (8 * i)).setWidth 8

/-- The block whose memory image is the given 16 bytes.
`(block*)` casts such as `protocol/aead.h:281,420`. -/
def blockOfBytes (l : List Byte) : Block :=
  l.foldr (fun x acc => (acc <<< 8) ||| x.setWidth 128) 0#128

/-- The blocks in a byte array (`(block*)ins`), whole blocks only. `cipher/utils.h:326`. -/
def blocksOfBytes : Nat → List Byte → List Block
  | 0, _ => []
  | n + 1, l => blockOfBytes (l.take 16) :: blocksOfBytes n (l.drop 16)

/-- `block_to_hex`, `cipher/utils.h:306-316`. -/
def blockToHex (ins : List Block) : List Byte := (ins.reverse.flatMap blockBytes).reverse

/-- `hex_to_block`, `cipher/utils.h:318-330`. -/
def hexToBlock (ins : List Byte) : Res (List Block) :=
  if ins.length % 16 ≠ 0 then .error (.error "the length of the bytes is incorrect!")
  else .ok (blocksOfBytes (ins.length / 16) ins.reverse).reverse

end Verif.Model
