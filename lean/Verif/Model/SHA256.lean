import Verif.Model.Integer

/-!
Model of `cipher/sha256.h`, class `SHA256`.  Secret words are `Integer`s (lists of plain bits); the circuits
computed under the active backend are modelled by their values.  `assert` is modelled as active (an assertion
failure is a reported error); reads outside a vector are undefined behaviour.
-/

namespace Verif.Model.SHA
open Verif.Model Verif.Model.Integer

/-- `sha256_h` at construction, `cipher/sha256.h:53-57`. -/
def initH : List Nat :=
  [0x6a09e667, 0xbb67ae85, 0x3c6ef372, 0xa54ff53a, 0x510e527f, 0x9b05688c, 0x1f83d9ab, 0x5be0cd19]

/-- `sha256_k` at construction, `cipher/sha256.h:59-91`. -/
def initK : List Nat :=
  [0x428a2f98, 0x71374491, 0xb5c0fbcf, 0xe9b5dba5, 0x3956c25b, 0x59f111f1, 0x923f82a4, 0xab1c5ed5,
   0xd807aa98, 0x12835b01, 0x243185be, 0x550c7dc3, 0x72be5d74, 0x80deb1fe, 0x9bdc06a7, 0xc19bf174,
   0xe49b69c1, 0xefbe4786, 0x0fc19dc6, 0x240ca1cc, 0x2de92c6f, 0x4a7484aa, 0x5cb0a9dc, 0x76f988da,
   0x983e5152, 0xa831c66d, 0xb00327c8, 0xbf597fc7, 0xc6e00bf3, 0xd5a79147, 0x06ca6351, 0x14292967,
   0x27b70a85, 0x2e1b2138, 0x4d2c6dfc, 0x53380d13, 0x650a7354, 0x766a0abb, 0x81c2c92e, 0x92722c85,
   0xa2bfe8a1, 0xa81a664b, 0xc24b8b70, 0xc76c51a3, 0xd192e819, 0xd6990624, 0xf40e3585, 0x106aa070,
   0x19a4c116, 0x1e376c08, 0x2748774c, 0x34b0bcb5, 0x391c0cb3, 0x4ed8aa4a, 0x5b9cca4f, 0x682e6ff3,
   0x748f82ee, 0x78a5636f, 0x84c87814, 0x8cc70208, 0x90befffa, 0xa4506ceb, 0xbef9a3f7, 0xc67178f2]

/-- `plain_sha256_k`, `cipher/sha256.h:93-104`. -/
def plainK : List Nat :=
  [0x428a2f98, 0x71374491, 0xb5c0fbcf, 0xe9b5dba5, 0x3956c25b, 0x59f111f1, 0x923f82a4, 0xab1c5ed5,
   0xd807aa98, 0x12835b01, 0x243185be, 0x550c7dc3, 0x72be5d74, 0x80deb1fe, 0x9bdc06a7, 0xc19bf174,
   0xe49b69c1, 0xefbe4786, 0x0fc19dc6, 0x240ca1cc, 0x2de92c6f, 0x4a7484aa, 0x5cb0a9dc, 0x76f988da,
   0x983e5152, 0xa831c66d, 0xb00327c8, 0xbf597fc7, 0xc6e00bf3, 0xd5a79147, 0x06ca6351, 0x14292967,
   0x27b70a85, 0x2e1b2138, 0x4d2c6dfc, 0x53380d13, 0x650a7354, 0x766a0abb, 0x81c2c92e, 0x92722c85,
   0xa2bfe8a1, 0xa81a664b, 0xc24b8b70, 0xc76c51a3, 0xd192e819, 0xd6990624, 0xf40e3585, 0x106aa070,
   0x19a4c116, 0x1e376c08, 0x2748774c, 0x34b0bcb5, 0x391c0cb3, 0x4ed8aa4a, 0x5b9cca4f, 0x682e6ff3,
   0x748f82ee, 0x78a5636f, 0x84c87814, 0x8cc70208, 0x90befffa, 0xa4506ceb, 0xbef9a3f7, 0xc67178f2]

/-- `sha256_h` after `refresh`, `cipher/sha256.h:116-123`. -/
def refreshH : List Nat :=
  [0x6a09e667, 0xbb67ae85, 0x3c6ef372, 0xa54ff53a, 0x510e527f, 0x9b05688c, 0x1f83d9ab, 0x5be0cd19]

/-- `sha256_k` after `refresh`, `cipher/sha256.h:125-188`. -/
def refreshK : List Nat :=
  [0x428a2f98, 0x71374491, 0xb5c0fbcf, 0xe9b5dba5, 0x3956c25b, 0x59f111f1, 0x923f82a4, 0xab1c5ed5,
   0xd807aa98, 0x12835b01, 0x243185be, 0x550c7dc3, 0x72be5d74, 0x80deb1fe, 0x9bdc06a7, 0xc19bf174,
   0xe49b69c1, 0xefbe4786, 0x0fc19dc6, 0x240ca1cc, 0x2de92c6f, 0x4a7484aa, 0x5cb0a9dc, 0x76f988da,
   0x983e5152, 0xa831c66d, 0xb00327c8, 0xbf597fc7, 0xc6e00bf3, 0xd5a79147, 0x06ca6351, 0x14292967,
   0x27b70a85, 0x2e1b2138, 0x4d2c6dfc, 0x53380d13, 0x650a7354, 0x766a0abb, 0x81c2c92e, 0x92722c85,
   0xa2bfe8a1, 0xa81a664b, 0xc24b8b70, 0xc76c51a3, 0xd192e819, 0xd6990624, 0xf40e3585, 0x106aa070,
   0x19a4c116, 0x1e376c08, 0x2748774c, 0x34b0bcb5, 0x391c0cb3, 0x4ed8aa4a, 0x5b9cca4f, 0x682e6ff3,
   0x748f82ee, 0x78a5636f, 0x84c87814, 0x8cc70208, 0x90befffa, 0xa4506ceb, 0xbef9a3f7, 0xc67178f2]

/-- `SHA256Offline::sha256_h`, `cipher/sha256.h:575-579`. -/
def offlineH : List Nat :=
  [0x6a09e667, 0xbb67ae85, 0x3c6ef372, 0xa54ff53a, 0x510e527f, 0x9b05688c, 0x1f83d9ab, 0x5be0cd19]

/-- `SHA256Offline::sha256_k`, `cipher/sha256.h:581-613`. -/
def offlineK : List Nat :=
  [0x428a2f98, 0x71374491, 0xb5c0fbcf, 0xe9b5dba5, 0x3956c25b, 0x59f111f1, 0x923f82a4, 0xab1c5ed5,
   0xd807aa98, 0x12835b01, 0x243185be, 0x550c7dc3, 0x72be5d74, 0x80deb1fe, 0x9bdc06a7, 0xc19bf174,
   0xe49b69c1, 0xefbe4786, 0x0fc19dc6, 0x240ca1cc, 0x2de92c6f, 0x4a7484aa, 0x5cb0a9dc, 0x76f988da,
   0x983e5152, 0xa831c66d, 0xb00327c8, 0xbf597fc7, 0xc6e00bf3, 0xd5a79147, 0x06ca6351, 0x14292967,
   0x27b70a85, 0x2e1b2138, 0x4d2c6dfc, 0x53380d13, 0x650a7354, 0x766a0abb, 0x81c2c92e, 0x92722c85,
   0xa2bfe8a1, 0xa81a664b, 0xc24b8b70, 0xc76c51a3, 0xd192e819, 0xd6990624, 0xf40e3585, 0x106aa070,
   0x19a4c116, 0x1e376c08, 0x2748774c, 0x34b0bcb5, 0x391c0cb3, 0x4ed8aa4a, 0x5b9cca4f, 0x682e6ff3,
   0x748f82ee, 0x78a5636f, 0x84c87814, 0x8cc70208, 0x90befffa, 0xa4506ceb, 0xbef9a3f7, 0xc67178f2]

/-- A secret word from a machine constant, `Integer(WORDLEN, x, PUBLIC)` (emp-tool).
As in `cipher/sha256.h:422-467`. -/
def word (x : Nat) : Integer := ofNat 32 x

/-- Message schedule of `chunk_compress`, `cipher/sha256.h:424-432`. -/
def schedule (chunk : List Integer) : List Integer :=
  (List.range 48).foldl (fun w j =>
    let i := j + 16
    let s0 := xor (xor (rrot (w.getD (i - 15) []) 7) (rrot (w.getD (i - 15) []) 18)) (shr (w.getD (i - 15) []) 3)
    let s1 := xor (xor (rrot (w.getD (i - 2) []) 17) (rrot (w.getD (i - 2) []) 19)) (shr (w.getD (i - 2) []) 10)
    w ++ [add (add (add (w.getD (i - 16) []) s0) (w.getD (i - 7) [])) s1]) (chunk.take 16)

/-- The working variables `a..h`, `cipher/sha256.h:434-436`. -/
structure Work where
  a : Integer
  b : Integer
  c : Integer
  d : Integer
  e : Integer
  f : Integer
  g : Integer
  h : Integer

/-- One iteration of the main loop, `cipher/sha256.h:440-456`. -/
def roundStep (s : Work) (k w : Integer) : Work :=
  let S1 := xor (xor (rrot s.e 6) (rrot s.e 11)) (rrot s.e 25)
  let ch := xor (and s.e (xor s.f s.g)) s.g
  let temp1 := add (add (add (add s.h k) S1) ch) w
  let S0 := xor (xor (rrot s.a 2) (rrot s.a 13)) (rrot s.a 22)
  let maj := xor (and (xor s.a s.b) (xor s.a s.c)) s.a
  let temp2 := add S0 maj
  { h := s.g, g := s.f, f := s.e, e := add s.d temp1, d := s.c, c := s.b, b := s.a, a := add temp1 temp2 }

/-- `chunk_compress`, `cipher/sha256.h:422-467` (the call counter is updated by the callers below). -/
def chunkCompress (k : List Integer) (h chunk : List Integer) : List Integer :=
  let w := schedule chunk
  let s0 : Work := ⟨h.getD 0 [], h.getD 1 [], h.getD 2 [], h.getD 3 [], h.getD 4 [], h.getD 5 [], h.getD 6 [],
    h.getD 7 []⟩
  let s := (List.range 64).foldl (fun s i => roundStep s (k.getD i []) (w.getD i [])) s0
  [add s.a s0.a, add s.b s0.b, add s.c s0.c, add s.d s0.d, add s.e s0.e, add s.f s0.f, add s.g s0.g, add s.h s0.h]

/-- Word loading of `plain_chunk_compress`, `cipher/sha256.h:472-474`.  The shifts are done in `int`; the
conversion to `uint32_t` keeps the bits. -/
def loadWords (chunk : List Byte) : List (BitVec 32) :=
  (List.range 16).map fun i =>
    ((chunk.getD (4 * i) 0).setWidth 32 <<< 24) ||| ((chunk.getD (4 * i + 1) 0).setWidth 32 <<< 16)
      ||| ((chunk.getD (4 * i + 2) 0).setWidth 32 <<< 8) ||| (chunk.getD (4 * i + 3) 0).setWidth 32

/-- Schedule of `plain_chunk_compress`, `cipher/sha256.h:476-480`. -/
def plainSchedule (w16 : List (BitVec 32)) : List (BitVec 32) :=
  (List.range 48).foldl (fun w j =>
    let i := j + 16
    let s0 := rrot32 (w.getD (i - 15) 0) 7 ^^^ rrot32 (w.getD (i - 15) 0) 18 ^^^ (w.getD (i - 15) 0 >>> 3)
    let s1 := rrot32 (w.getD (i - 2) 0) 17 ^^^ rrot32 (w.getD (i - 2) 0) 19 ^^^ (w.getD (i - 2) 0 >>> 10)
    w ++ [w.getD (i - 16) 0 + s0 + w.getD (i - 7) 0 + s1]) w16

/-- Working variables of `plain_chunk_compress`, `cipher/sha256.h:482-484`. -/
structure PlainWork where
  a : BitVec 32
  b : BitVec 32
  c : BitVec 32
  d : BitVec 32
  e : BitVec 32
  f : BitVec 32
  g : BitVec 32
  h : BitVec 32

/-- One iteration of the main loop of `plain_chunk_compress`, `cipher/sha256.h:488-504`. -/
def plainRoundStep (s : PlainWork) (k w : BitVec 32) : PlainWork :=
  let S1 := rrot32 s.e 6 ^^^ rrot32 s.e 11 ^^^ rrot32 s.e 25
  let ch := (s.e &&& (s.f ^^^ s.g)) ^^^ s.g
  let temp1 := s.h + k + S1 + ch + w
  let S0 := rrot32 s.a 2 ^^^ rrot32 s.a 13 ^^^ rrot32 s.a 22
  let maj := ((s.a ^^^ s.b) &&& (s.a ^^^ s.c)) ^^^ s.a
  let temp2 := S0 + maj
  { h := s.g, g := s.f, f := s.e, e := s.d + temp1, d := s.c, c := s.b, b := s.a, a := temp1 + temp2 }

/-- `plain_chunk_compress`, `cipher/sha256.h:469-514`. -/
def plainChunkCompress (h : List (BitVec 32)) (chunk : List Byte) : List (BitVec 32) :=
  let w := plainSchedule (loadWords chunk)
  let s0 : PlainWork := ⟨h.getD 0 0, h.getD 1 0, h.getD 2 0, h.getD 3 0, h.getD 4 0, h.getD 5 0, h.getD 6 0, h.getD 7 0⟩
  let s := (List.range 64).foldl (fun s i => plainRoundStep s (BitVec.ofNat 32 (plainK.getD i 0)) (w.getD i 0)) s0
  [s.a + s0.a, s.b + s0.b, s.c + s0.c, s.d + s0.d, s.e + s0.e, s.f + s0.f, s.g + s0.g, s.h + s0.h]

/-- The loop `while (K < 0) K += CHUNKLEN`, `cipher/sha256.h:195-197`. -/
def padLoop (K : Int) : Int := if K < 0 then padLoop (K + 512) else K
termination_by (-K).toNat
decreasing_by omega

/-- `padding`, `cipher/sha256.h:191-207`.  `(uint64_t)CHUNKLEN - 65 - L` is computed modulo `2^64` and then read
as a signed number. -/
def padding (input : Integer) : Integer :=
  let L := input.length
  let K := padLoop (512#64 - 65#64 - BitVec.ofNat 64 L).toInt
  let one := ofNat 1 1
  let intK := ofNat K.toNat 0
  let intL := ofNat 64 L
  concat (concat (concat input [one]) [intK]) [intL]

/-- State of a `SHA256` object, `cipher/sha256.h:22-57`.  `ivInSec` is `iv_in_hash` (secret words), `ivIn` is
`iv_in_hashes` (public words), `pos`/`zpos` are `size_t` starting at `-1`. -/
structure Sha where
  calls : Nat := 0
  gcIn : Bool := false
  gcOut : Bool := false
  zkIn : Bool := false
  ivIn : List (List (BitVec 32)) := []
  ivOut : List Integer := List.replicate 8 []
  zkIvIn : List Integer := []
  ivInSec : List Integer := List.replicate 8 []
  pos : BitVec 64 := -1
  zpos : BitVec 64 := -1
  h : List Integer := initH.map word
  k : List Integer := initK.map word

/-- A freshly constructed object, `cipher/sha256.h:106` with the member initialisers. -/
def Sha.new : Sha := {}

/-- `refresh`, `cipher/sha256.h:110-189`. -/
def Sha.refresh (s : Sha) : Sha :=
  { s with calls := 0, gcIn := false, gcOut := false, zkIn := false,
           h := refreshH.map word, k := refreshK.map word }

/-- The word extraction loop, `cipher/sha256.h:214-219` (also 263-268, 382-387). -/
def inputWords (x : Integer) : Res (List Integer) :=
  (List.range (x.length / 32)).mapM fun i => extractInteger x (i * 32) 32

/-- The chunk loop `for (i = 1; i < num_chunk; i++)`, `cipher/sha256.h:247-252` (also 414-419). -/
def chunkLoop (k : List Integer) (data : List Integer) (numChunk : Nat) (dig : List Integer) : List Integer :=
  (List.range (numChunk - 1)).foldl (fun dig j =>
    let i := j + 1
    chunkCompress k dig ((List.range 16).map fun t => data.getD (t + i * 512 / 32) [])) dig

/-- `update`, `cipher/sha256.h:210-253`. -/
def Sha.update (s : Sha) (padded : Integer) (reuseOut : Bool) : Res (List Integer × Sha) := do
  if padded.length % 512 ≠ 0 then .error (.error "assert(padded_len % CHUNKLEN == 0)")
  let data ← inputWords padded
  let numChunk := padded.length / 512
  if numChunk = 0 then .error (.ub "update: input_data[j] of an empty vector")
  let tmp := (List.range 16).map fun j => data.getD j []
  let (dig, s) :=
    if reuseOut then
      if s.gcOut then (s.ivOut, s)
      else
        let dig := chunkCompress s.k s.h tmp
        (dig, { s with ivOut := dig, gcOut := true, calls := s.calls + 1 })
    else (chunkCompress s.k s.h tmp, { s with calls := s.calls + 1 })
  .ok (chunkLoop s.k data numChunk dig, { s with calls := s.calls + (numChunk - 1) })

/-- `reverse_concat(tmpInt, dig, VALLEN); tmpInt.reveal<uint32_t>(plain_dig, PUBLIC)`,
`cipher/sha256.h:281-283`: word `i` of the output is the value of bits `32i..32i+31`. -/
def revealWords (dig : List Integer) : List (BitVec 32) :=
  let t := reverseConcat [] dig
  (List.range 8).map fun i => BitVec.ofNat 32 (val ((t.drop (32 * i)).take 32))

/-- Accumulator of the plain part of `opt_update`: digest, block buffer, fill count, bit length.
The parameters and locals of `cipher/sha256.h:255-375`. -/
structure PlainAcc where
  dig : List (BitVec 32)
  data : List Byte
  datalen : Nat
  bitlen : BitVec 64

/-- Body of the byte loop, `cipher/sha256.h:340-348`. -/
def plainByte (a : PlainAcc) (b : Byte) : PlainAcc :=
  let data := a.data.set a.datalen b
  let datalen := a.datalen + 1
  if datalen = 64 then
    { dig := plainChunkCompress a.dig data, data := data, datalen := 0, bitlen := a.bitlen + 512 }
  else { a with data := data, datalen := datalen }

/-- `data[i++] = v` for `i` from `start` below `stop`, `cipher/sha256.h:354-359`. -/
def fillZero (data : List Byte) (start stop : Nat) : List Byte :=
  (List.range (stop - start)).foldl (fun d j => d.set (start + j) 0) data

/-- The plain part of `opt_update`, `cipher/sha256.h:335-373`.  `data` is uninitialised memory: the model takes
its initial contents as a parameter. -/
def plainTail (garbage : List Byte) (dig : List (BitVec 32)) (pub : List Byte) : List (BitVec 32) :=
  let a := pub.foldl plainByte { dig := dig, data := garbage, datalen := 0, bitlen := 512 }
  let i := a.datalen
  let data := a.data.set i 0x80
  let (dig, data) :=
    if a.datalen < 56 then (a.dig, fillZero data (i + 1) 56)
    else
      let data := fillZero data (i + 1) 64
      (plainChunkCompress a.dig data, fillZero data 0 56)
  let bitlen := a.bitlen + BitVec.ofNat 64 (a.datalen * 8)
  let data := data.set 63 (bitlen.setWidth 8)
  let data := data.set 62 ((bitlen >>> 8).setWidth 8)
  let data := data.set 61 ((bitlen >>> 16).setWidth 8)
  let data := data.set 60 ((bitlen >>> 24).setWidth 8)
  let data := data.set 59 ((bitlen >>> 32).setWidth 8)
  let data := data.set 58 ((bitlen >>> 40).setWidth 8)
  let data := data.set 57 ((bitlen >>> 48).setWidth 8)
  let data := data.set 56 ((bitlen >>> 56).setWidth 8)
  plainChunkCompress dig data

/-- The first part of `opt_update`, `cipher/sha256.h:261-333`: the (opened) state after the secret block. -/
def Sha.optFirst (s : Sha) (sec : Integer) (reuseIn zk : Bool) : Res (List (BitVec 32) × Sha) := do
  if sec.length ≠ 512 then .error (.error "assert(len == CHUNKLEN)")
  let data ← inputWords sec
  if reuseIn then
    if !zk then
      if !s.gcIn then
        let dig := revealWords (chunkCompress s.k s.h data)
        .ok (dig, { s with calls := s.calls + 1, ivIn := s.ivIn ++ [dig], gcIn := true, pos := s.pos + 1 })
      else
        match s.ivIn[s.pos.toNat]? with
        | some dig => .ok (dig, s)
        | none => .error (.ub "opt_update: iv_in_hashes[pos] out of range")
    else
      let s := if !s.zkIn then
          { s with calls := s.calls + 1,
                   zkIvIn := s.zkIvIn ++ [concat [] (chunkCompress s.k s.h data)],
                   zkIn := true, zpos := s.zpos + 1 }
        else s
      match s.ivIn[s.zpos.toNat]? with
      | some dig => .ok (dig, s)
      | none => .error (.ub "opt_update: iv_in_hashes[zpos] out of range")
  else .ok (revealWords (chunkCompress s.k s.h data), { s with calls := s.calls + 1 })

/-- `opt_update`, `cipher/sha256.h:255-375`. -/
def Sha.optUpdate (s : Sha) (garbage : List Byte) (sec : Integer) (pub : List Byte) (reuseIn zk : Bool) :
    Res (List (BitVec 32) × Sha) := do
  let (dig, s) ← s.optFirst sec reuseIn zk
  .ok (plainTail garbage dig pub, s)

/-- `opt_rounds_update`, `cipher/sha256.h:377-420`. -/
def Sha.optRoundsUpdate (s : Sha) (padded : Integer) (reuseIn : Bool) : Res (List Integer × Sha) := do
  if padded.length % 512 ≠ 0 then .error (.error "assert(padded_len % CHUNKLEN == 0)")
  let data ← inputWords padded
  let numChunk := padded.length / 512
  if numChunk = 0 then .error (.ub "opt_rounds_update: input_data[j] of an empty vector")
  let tmp := (List.range 16).map fun j => data.getD j []
  let (dig, s) :=
    if reuseIn then
      if s.gcIn then (s.ivInSec, s)
      else
        let dig := chunkCompress s.k s.h tmp
        (dig, { s with ivInSec := dig, gcIn := true, calls := s.calls + 1 })
    else (chunkCompress s.k s.h tmp, { s with calls := s.calls + 1 })
  .ok (chunkLoop s.k data numChunk dig, { s with calls := s.calls + (numChunk - 1) })

/-- `digest`, `cipher/sha256.h:516-520`. -/
def Sha.digest (s : Sha) (input : Integer) (reuseOut : Bool := false) : Res (List Integer × Sha) :=
  s.update (padding input) reuseOut

/-- `opt_digest`, `cipher/sha256.h:522-529`. -/
def Sha.optDigest (s : Sha) (garbage : List Byte) (sec : Integer) (pub : List Byte) (reuseIn : Bool := false)
    (zk : Bool := false) : Res (List (BitVec 32) × Sha) :=
  s.optUpdate garbage sec pub reuseIn zk

/-- `opt_rounds_digest`, `cipher/sha256.h:531-537`. -/
def Sha.optRoundsDigest (s : Sha) (input : Integer) (reuseIn : Bool := false) : Res (List Integer × Sha) :=
  s.optRoundsUpdate (padding input) reuseIn

end Verif.Model.SHA
