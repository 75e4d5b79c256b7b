import Verif.Model.PRF
import Verif.Model.Handshake
import Verif.Model.AEAD

/-! The byte buffers behind the functions modelled elsewhere as functions on lists: what `new T[n]`, `memcpy`, `memset`,
`std::reverse` and indexed writes do to memory.  A cell of an array holds a value or has never been written.  An access
outside the array, and a read of a cell that was never written, are undefined behaviour.

Lengths are natural numbers here: the `size_t` computations of the code do not wrap for arrays that fit in memory. -/

namespace Verif.Model.Buffers
open Verif.Model Verif.Model.Integer

/-- An array: each cell is a value, or `none` while nothing was written to it.
Arrays such as `protocol/aead.h:204,263`. -/
abbrev Buf (α : Type) := List (Option α)

/-- `new T[n]` for a type without constructor: the cells are indeterminate.
As in `protocol/aead.h:204,263`. -/
def alloc {α : Type} (n : Nat) : Buf α := List.replicate n none

/-- An array of the caller, fully written.
Parameters such as `const unsigned char* iv`, `protocol/aead.h:121`. -/
def given {α : Type} (l : List α) : Buf α := l.map some

/-- `memcpy(b + k, x, n)` with the `n` values `x`, and `b[k] = v` with one value.
As in `protocol/handshake.h:197,216-217`. -/
def store {α : Type} (b : Buf α) (k : Nat) (x : List α) : Res (Buf α) :=
  if k + x.length ≤ b.length then .ok (b.take k ++ x.map some ++ b.drop (k + x.length))
  else .error (.ub "write outside the array")

/-- The same with a signed offset: a pointer before the array.
As in `protocol/handshake.h:197,216-217`. -/
def storeZ {α : Type} (b : Buf α) (k : Int) (x : List α) : Res (Buf α) :=
  if k < 0 then .error (.ub "write before the array") else store b k.toNat x

/-- Reading `n` cells from `b + k`. As in `protocol/aead.h:132-134`. -/
def load {α : Type} (b : Buf α) (k n : Nat) : Res (List α) :=
  if k + n ≤ b.length then
    match ((b.drop k).take n).mapM id with
    | some l => .ok l
    | none => .error (.ub "read of an uninitialised cell")
  else .error (.ub "read outside the array")

/-- `memset(b + k, v, n)`. As in `protocol/handshake.h:196`. -/
def fill {α : Type} (b : Buf α) (k n : Nat) (v : α) : Res (Buf α) := store b k (List.replicate n v)

/-- `reverse(b + k, b + k + n)`. As in `protocol/aead.h:129`, `protocol/handshake.h:198`. -/
def rev {α : Type} (b : Buf α) (k n : Nat) : Res (Buf α) := do
  let x ← load b k n
  store b k x.reverse

/-! ### `cipher/utils.h`, `cipher/prf.h`, `protocol/handshake.h` -/

/-- Two arrays one after the other: `seed`, `protocol/handshake.h:213-217,272-276`, `label_seed`, `cipher/prf.h:195-198,215-218`,
and the same lines of `protocol/prove_prf.h:64-68,113-117`, `protocol/handshake.h:396-400,458-462`. -/
def concat2 (a : Buf Byte) (alen : Nat) (b : Buf Byte) (blen : Nat) : Res (List Byte) := do
  let s := alloc (alen + blen)
  let x ← load a 0 alen
  let s ← store s 0 x
  let y ← load b 0 blen
  let s ← store s alen y
  load s 0 (alen + blen)

/-- A reversed copy: `riv`, `protocol/aead.h:126-129`, `protocol/aead_izk.h:107-110`, `protocol/prove_aes.h:130-133`;
`rctxt`, `protocol/aead_izk.h:178-181,210-213`; `rseed`, `cipher/prf.h:146-149`. -/
def revCopy (a : Buf Byte) (n : Nat) : Res (List Byte) := do
  let r := alloc n
  let x ← load a 0 n
  let r ← store r 0 x
  let r ← rev r 0 n
  load r 0 n

/-- The buffer of the pre-master secret, `protocol/handshake.h:192-198,236-241,380-390,419-429`, `protocol/prove_prf.h:52-60,83-91`. -/
def pmsBuffer (q n : Nat) : Res (List Byte) := do
  let len := bnNumBytes q
  let buf ← fill (alloc len) 0 len (0 : Byte)
  let buf ← storeZ buf ((len : Int) - (bnNumBytes n : Int)) (bn2bin n)
  let buf ← rev buf 0 len
  load buf 0 len

/-- `block_to_hex`, `cipher/utils.h:306-316`: `ins` as an array of `len` blocks, then as `16 * len` bytes. -/
def blockToHexC (out : Buf Byte) (ins : Buf Block) (len : Nat) : Res (Buf Byte) := do
  let t := alloc len
  let x ← load ins 0 len
  let t ← store t 0 x
  let t ← rev t 0 len
  let x ← load t 0 len
  let bytes : Buf Byte := given (x.flatMap blockBytes)
  let bytes ← rev bytes 0 (len * 16)
  let y ← load bytes 0 (len * 16)
  store out 0 y

/-- `hex_to_block`, `cipher/utils.h:318-330`: bytes first, then blocks. -/
def hexToBlockC (out : Buf Block) (ins : Buf Byte) (len : Nat) : Res (Buf Block) :=
  if len % 16 ≠ 0 then .error (.error "the length of the bytes is incorrect!")
  else do
    let t := alloc len
    let x ← load ins 0 len
    let t ← store t 0 x
    let t ← rev t 0 len
    let x ← load t 0 len
    let blks : Buf Block := given (blocksOfBytes (len / 16) x)
    let blks ← rev blks 0 (len / 16)
    let y ← load blks 0 (len / 16)
    store out 0 y

/-! ### `protocol/aead.h` -/

/-- The tag input `x`, `protocol/aead.h:260-280` (and 399-419, 503-522). -/
def tagX (aad : Buf Byte) (aadLen : Nat) (ctxt : Buf Byte) (msgLen : Nat) : Res (List Byte) := do
  let u := AEAD.padBits msgLen
  let v := AEAD.padBits aadLen
  let len := u / 8 + msgLen + v / 8 + aadLen + 16
  let x := alloc len
  let a ← load aad 0 aadLen
  let x ← store x 0 a
  let x ← fill x aadLen (v / 8) 0
  let c ← load ctxt 0 msgLen
  let x ← store x (aadLen + v / 8) c
  let x ← fill x (aadLen + v / 8 + msgLen) (u / 8) 0
  let x ← store x (aadLen + v / 8 + msgLen + u / 8) (AEAD.lenBytes aadLen)
  let x ← store x (aadLen + v / 8 + msgLen + u / 8 + 8) (AEAD.lenBytes msgLen)
  let x ← rev x 0 len
  load x 0 len

/-- `integer_to_chars(z, Z)` into the array `z`, `cipher/utils.h:292-304`, called at `protocol/aead.h:225,372`. -/
def toCharsInto (z : Buf Byte) (Z : Integer) : Res (Buf Byte) := do
  let c ← integerToChars Z
  store z 0 c

/-- The masked message, `protocol/aead.h:204-221` and 225-242: `z` is filled from `Z`, then `ctxt[i] = msg[i] ^ z[i]` for
`i < msg_len`. -/
def maskInto (ctxt : Buf Byte) (msg : Buf Byte) (Z : Integer) (msgLen : Nat) : Res (Buf Byte) := do
  let z ← toCharsInto (alloc msgLen) Z
  (List.range msgLen).foldlM (fun c i => do
    let m ← load msg i 1
    let k ← load z i 1
    store c i (List.zipWith (· ^^^ ·) m k)) ctxt

/-! ### The plain part of SHA-256 and the PRF -/

/-- State of the loop at `cipher/sha256.h:340-348`. -/
structure PlainC where
  dig : List (BitVec 32)
  data : Buf Byte
  datalen : Nat
  bitlen : BitVec 64

/-- Body of the byte loop, `cipher/sha256.h:341-347`. -/
def plainByteC (a : PlainC) (b : Byte) : Res PlainC := do
  let data ← store a.data a.datalen [b]
  let datalen := a.datalen + 1
  if datalen = 64 then do
    let d ← load data 0 64
    .ok { dig := SHA.plainChunkCompress a.dig d, data := data, datalen := 0, bitlen := a.bitlen + 512 }
  else .ok { a with data := data, datalen := datalen }

/-- `while (i < stop) data[i++] = 0x00`, `cipher/sha256.h:354-359`. -/
def zeroTo (data : Buf Byte) (start stop : Nat) : Res (Buf Byte) :=
  (List.range (stop - start)).foldlM (fun d j => store d (start + j) [(0 : Byte)]) data

/-- The plain part of `opt_update`, `cipher/sha256.h:335-373`, with the array `data` of `KLEN = 64` cells. -/
def plainTailC (dig : List (BitVec 32)) (pub : List Byte) : Res (List (BitVec 32)) := do
  let a ← pub.foldlM plainByteC { dig := dig, data := alloc 64, datalen := 0, bitlen := 512 }
  let i := a.datalen
  let data ← store a.data i [(0x80 : Byte)]
  let (dig, data) ←
    (if a.datalen < 56 then do
      let data ← zeroTo data (i + 1) 56
      .ok (a.dig, data)
    else do
      let data ← zeroTo data (i + 1) 64
      let d ← load data 0 64
      let data ← fill data 0 56 (0 : Byte)
      .ok (SHA.plainChunkCompress a.dig d, data) : Res (List (BitVec 32) × Buf Byte))
  let bitlen := a.bitlen + BitVec.ofNat 64 (a.datalen * 8)
  let data ← store data 63 [bitlen.setWidth 8]
  let data ← store data 62 [(bitlen >>> 8).setWidth 8]
  let data ← store data 61 [(bitlen >>> 16).setWidth 8]
  let data ← store data 60 [(bitlen >>> 24).setWidth 8]
  let data ← store data 59 [(bitlen >>> 32).setWidth 8]
  let data ← store data 58 [(bitlen >>> 40).setWidth 8]
  let data ← store data 57 [(bitlen >>> 48).setWidth 8]
  let data ← store data 56 [(bitlen >>> 56).setWidth 8]
  let d ← load data 0 64
  .ok (SHA.plainChunkCompress dig d)

/-- `opt_digest`, `cipher/sha256.h:522-529` (`opt_update`, 255-375): the caller's array `pub` is read up to `publen`. -/
def optDigestC (s : SHA.Sha) (sec : Integer) (pub : Buf Byte) (publen : Nat) (reuseIn zk : Bool) :
    Res (List (BitVec 32) × SHA.Sha) := do
  let (dig, s) ← s.optFirst sec reuseIn zk
  let p ← load pub 0 publen
  let dig ← plainTailC dig p
  .ok (dig, s)

/-- `opt_hmac_sha256`, `cipher/hmac_sha256.h:76-102`: the opened inner digest is written to the array `dig` of `DIGLEN` words
(line 82) and read back (line 94). -/
def optHmacC (m : SHA.Hmac) (msg : Buf Byte) (msglen : Nat) (reuseIn reuseOut zk : Bool) :
    Res (List Integer × SHA.Hmac) := do
  let (d, sha) ← optDigestC m.sha m.iKeyPad msg msglen reuseIn zk
  let dig ← store (alloc 8) 0 d
  let d ← load dig 0 8
  let oMsg := concat m.oKeyPad (d.map fun d => ofNat 32 d.toNat)
  let (res, sha) ← sha.digest oMsg reuseOut
  .ok (res, { m with sha := sha, shaCalls := m.shaCalls + 2 })

/-- `A[i][k] = tmpd[j] >> 24` and the next three, `cipher/prf.h:111-116`. -/
def wordsToBytes (tmpd : Buf (BitVec 32)) : Res (Buf Byte) :=
  (List.range 8).foldlM (fun (a : Buf Byte) j => do
    let w ← load tmpd j 1
    store a (4 * j) (w.flatMap SHA.wordBytes)) (alloc 32)

/-- The loop of `opt_phash`, `cipher/prf.h:86-125`.  `a` is the array `A[i-1]` with its length `hashlen[i-1]`, `tmpd` and `as` are the
two arrays made before the loop (lines 81 and 84) and reused in every round, `seed` is the array of the caller. -/
def optPhashLoopC (seed : Buf Byte) (seedlen : Nat) (ri ro zk : Bool) :
    Nat → SHA.Prf → SHA.Hmac → Buf Byte → Nat → Buf (BitVec 32) → Buf Byte → Integer → Res (Integer × SHA.Prf × SHA.Hmac)
  | 0, p, m, _, _, _, _, res => .ok (res, p, m)
  | n + 1, p, m, a, alen, tmpd, as, res => do
    let (tmp, m) ← optHmacC m a alen ri ro zk
    let (tmpd, p) ← (if !zk then do
        let tmpd ← store tmpd 0 (SHA.revealWords tmp)
        let w ← load tmpd 0 8
        let pub ← store (alloc 8) 0 w
        let w ← load pub 0 8
        .ok (tmpd, { p with calls := p.calls + 1, pubM := p.pubM ++ [w] })
      else
        match p.pubM[p.zkPos]? with
        | some w => do
          let w ← load (given w) 0 8
          let tmpd ← store tmpd 0 w
          .ok (tmpd, { p with calls := p.calls + 1, zkSecM := p.zkSecM ++ [reverseConcat [] tmp], zkPos := p.zkPos + 1 })
        | none => .error (.ub "opt_phash: pub_M[zk_pos] out of range") : Res (Buf (BitVec 32) × SHA.Prf))
    let a ← wordsToBytes tmpd
    let x ← load a 0 32
    let as ← store as 0 x
    let y ← load seed 0 seedlen
    let as ← store as 32 y
    let (tmp, m) ← optHmacC m as (32 + seedlen) ri ro zk
    optPhashLoopC seed seedlen ri ro zk n { p with calls := p.calls + 1 } m a 32 tmpd as (concat res tmp)

/-- `opt_phash`, `cipher/prf.h:59-130`: `A[0]` is a copy of the seed (lines 74-76). -/
def optPhashC (p : SHA.Prf) (m : SHA.Hmac) (res : Integer) (bitlen : Nat) (seed : Buf Byte) (seedlen : Nat)
    (ri ro zk : Bool) : Res (Integer × SHA.Prf × SHA.Hmac) := do
  let x ← load seed 0 seedlen
  let a0 ← store (alloc seedlen) 0 x
  let (res, p, m) ← optPhashLoopC seed seedlen ri ro zk (SHA.prfBlocks bitlen) p m a0 seedlen (alloc 8) (alloc (32 + seedlen)) res
  .ok (SHA.prfTrunc res bitlen, p, m)

/-- `opt_compute`, `cipher/prf.h:184-202`. -/
def optComputeC (p : SHA.Prf) (m : SHA.Hmac) (res : Integer) (bitlen : Nat) (label : Buf Byte) (labellen : Nat)
    (seed : Buf Byte) (seedlen : Nat) (ri ro zk : Bool) : Res (Integer × SHA.Prf × SHA.Hmac) := do
  let ls ← concat2 label labellen seed seedlen
  optPhashC p m res bitlen (given ls) (labellen + seedlen) ri ro zk

/-- `dig` of `HMAC_SHA256_Offline::opt_hmac_sha256`, `cipher/hmac_sha256.h:173-183`: 32 bytes, of which `memset(dig, 0x00, DIGLEN)`
writes `DIGLEN = 8`; then the eight words of four bytes are read. -/
def offDigC : Res (List (List Byte)) := do
  let dig ← fill (alloc 32) 0 8 (0 : Byte)
  (List.range 8).mapM fun i => load dig (4 * i) 4

/-! ### The arrays of the OLE -/

/-- `bits[i * w + j] = f(i, j)` for `i < n`, `j < w`, `backend/ole.h:71-75` (`w = bit_length`, bit `j` of `in[i]`) and
`backend/ole_f2k.h:42-45` (`w = 128`, bit `j` of `in[i]`). -/
def grid {α : Type} (n w : Nat) (f : Nat → Nat → α) : Res (Buf α) :=
  (List.range n).foldlM (fun b i => (List.range w).foldlM (fun b j => store b (i * w + j) [f i j]) b) (alloc (n * w))

end Verif.Model.Buffers
