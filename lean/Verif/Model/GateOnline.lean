import Verif.Model.Gate
import Verif.Model.Handshake
import Verif.Model.AEAD

/-!
The online classes as sequences of backend operations: `SHA256` (`cipher/sha256.h:14-551`), `HMAC_SHA256`
(`cipher/hmac_sha256.h:15-124`), `PRF` (`cipher/prf.h:10-232`), `AEAD` (`protocol/aead.h:17-492`), `HandShake`
(`protocol/handshake.h:40-371`), under the garbled-circuit backend (`zk_flag == false`).  The call counters are left out.  Operands are
evaluated from left to right.  The inputs made in the zero-knowledge backend (between `switch_to_zk` and `switch_to_gc`) are not
operations of the garbled-circuit backend and are left out.
-/

namespace Verif.Model.Gate
open Verif.Model

/-- `Integer(WORDLEN, x, PUBLIC)`. As in `cipher/sha256.h:422-467`. -/
def wordG (x : Nat) : SInt := pubInt 32 x

/-- `rrot(x, a) ^ rrot(x, b) ^ (x >> c)`, `cipher/sha256.h:429-430`. -/
def smallSigma (a b c : Nat) (x : SInt) : M SInt := do
  let p ← rrot x a
  let q ← rrot x b
  let t ← xorI p q
  xorI t (shr x c)

/-- `rrot(x, a) ^ rrot(x, b) ^ rrot(x, c)`, `cipher/sha256.h:441,444`. -/
def bigSigma (a b c : Nat) (x : SInt) : M SInt := do
  let p ← rrot x a
  let q ← rrot x b
  let t ← xorI p q
  let r ← rrot x c
  xorI t r

variable (L : Lib)

/-- Body of the schedule loop, `cipher/sha256.h:428-432`, with `i = j + 16`. -/
def scheduleStep (w : List SInt) (j : Nat) : M (List SInt) := do
  let i := j + 16
  let s0 ← smallSigma 7 18 3 (w.getD (i - 15) [])
  let s1 ← smallSigma 17 19 10 (w.getD (i - 2) [])
  let t ← L.add (w.getD (i - 16) []) s0
  let t ← L.add t (w.getD (i - 7) [])
  let t ← L.add t s1
  pure (w ++ [t])

/-- The working variables, `cipher/sha256.h:434-436`. -/
structure WorkG where
  a : SInt
  b : SInt
  c : SInt
  d : SInt
  e : SInt
  f : SInt
  g : SInt
  h : SInt

/-- Body of the main loop, `cipher/sha256.h:440-456`. -/
def roundStepG (s : WorkG) (k w : SInt) : M WorkG := do
  let S1 ← bigSigma 6 11 25 s.e
  let t ← xorI s.f s.g
  let t ← andI s.e t
  let ch ← xorI t s.g
  let t ← L.add s.h k
  let t ← L.add t S1
  let t ← L.add t ch
  let temp1 ← L.add t w
  let S0 ← bigSigma 2 13 22 s.a
  let x ← xorI s.a s.b
  let y ← xorI s.a s.c
  let t ← andI x y
  let maj ← xorI t s.a
  let temp2 ← L.add S0 maj
  let e ← L.add s.d temp1
  let a ← L.add temp1 temp2
  pure { h := s.g, g := s.f, f := s.e, e := e, d := s.c, c := s.b, b := s.a, a := a }

/-- `chunk_compress`, `cipher/sha256.h:422-467`. -/
def chunkCompressG (k h chunk : List SInt) : M (List SInt) := do
  let w ← (List.range 48).foldlM (scheduleStep L) (chunk.take 16)
  let s0 : WorkG := ⟨h.getD 0 [], h.getD 1 [], h.getD 2 [], h.getD 3 [], h.getD 4 [], h.getD 5 [], h.getD 6 [], h.getD 7 []⟩
  let s ← (List.range 64).foldlM (fun s i => roundStepG L s (k.getD i []) (w.getD i [])) s0
  let a ← L.add s.a s0.a
  let b ← L.add s.b s0.b
  let c ← L.add s.c s0.c
  let d ← L.add s.d s0.d
  let e ← L.add s.e s0.e
  let f ← L.add s.f s0.f
  let g ← L.add s.g s0.g
  let h ← L.add s.h s0.h
  pure [a, b, c, d, e, f, g, h]

/-- `padding`, `cipher/sha256.h:191-207`. -/
def paddingG (input : SInt) : SInt :=
  let len := input.length
  let K := SHA.padLoop (512#64 - 65#64 - BitVec.ofNat 64 len).toInt
  concat (concat (concat input [pubInt 1 1]) [pubInt K.toNat 0]) [pubInt 64 len]

/-- Members of `SHA256` used under the garbled-circuit backend, `cipher/sha256.h:22-91`. -/
structure ShaG where
  gcIn : Bool := false
  gcOut : Bool := false
  ivIn : List (List (BitVec 32)) := []
  ivOut : List SInt := List.replicate 8 []
  ivInSec : List SInt := List.replicate 8 []
  pos : BitVec 64 := -1
  h : List SInt := SHA.initH.map wordG
  k : List SInt := SHA.initK.map wordG

/-- `refresh`, `cipher/sha256.h:110-189`. -/
def ShaG.refresh (s : ShaG) : ShaG :=
  { s with gcIn := false, gcOut := false, h := SHA.refreshH.map wordG, k := SHA.refreshK.map wordG }

/-- The word extraction loop, `cipher/sha256.h:214-219,263-268,382-387`. -/
def inputWordsG (x : SInt) : Res (List SInt) :=
  (List.range (x.length / 32)).mapM fun i => extractInteger x (i * 32) 32

/-- The loop over the further chunks, `cipher/sha256.h:247-252,414-419`. -/
def chunkLoopG (k data : List SInt) (numChunk : Nat) (dig : List SInt) : M (List SInt) :=
  (List.range (numChunk - 1)).foldlM (fun dig j =>
    chunkCompressG L k dig ((List.range 16).map fun t => data.getD (t + (j + 1) * 512 / 32) [])) dig

/-- The first chunk of `update`, `cipher/sha256.h:229-245`. -/
def ShaG.firstOut (s : ShaG) (tmp : List SInt) (reuseOut : Bool) : M (List SInt × ShaG) :=
  if reuseOut then
    if s.gcOut then pure (s.ivOut, s)
    else do
      let dig ← chunkCompressG L s.k s.h tmp
      pure (dig, { s with ivOut := dig, gcOut := true })
  else do
    let dig ← chunkCompressG L s.k s.h tmp
    pure (dig, s)

/-- `update`, `cipher/sha256.h:210-253`. -/
def ShaG.update (s : ShaG) (padded : SInt) (reuseOut : Bool) : M (List SInt × ShaG) :=
  if padded.length % 512 ≠ 0 then fail (.error "assert(padded_len % CHUNKLEN == 0)")
  else do
    let data ← lift (inputWordsG padded)
    if padded.length / 512 = 0 then fail (.ub "update: input_data[j] of an empty vector")
    else do
      let (dig, s) ← s.firstOut L ((List.range 16).map fun j => data.getD j []) reuseOut
      let dig ← chunkLoopG L s.k data (padded.length / 512) dig
      pure (dig, s)

/-- The words of an opened 256-bit string.
`reveal` in `cipher/sha256.h:283,331`, `cipher/prf.h:98`. -/
def wordsOf (t : List Bool) : List (BitVec 32) :=
  (List.range 8).map fun i => BitVec.ofNat 32 (Integer.val ((t.drop (32 * i)).take 32))

/-- `reverse_concat(tmpInt, dig, VALLEN); tmpInt.reveal<uint32_t>(plain_dig, PUBLIC)`, `cipher/sha256.h:281-283`. -/
def revealWordsG (dig : List SInt) : M (List (BitVec 32)) := do
  let t ← reveal .pub (reverseConcat [] dig)
  pure (wordsOf t)

/-- Compress and open, `cipher/sha256.h:275-283,322-332`. -/
def ShaG.compressOpen (s : ShaG) (data : List SInt) : M (List (BitVec 32)) := do
  let dig ← chunkCompressG L s.k s.h data
  revealWordsG dig

/-- The secret part of `opt_update`, `cipher/sha256.h:261-333`. -/
def ShaG.optFirst (s : ShaG) (sec : SInt) (reuseIn : Bool) : M (List (BitVec 32) × ShaG) :=
  if sec.length ≠ 512 then fail (.error "assert(len == CHUNKLEN)")
  else do
    let data ← lift (inputWordsG sec)
    if reuseIn then
      if !s.gcIn then do
        let dig ← s.compressOpen L data
        pure (dig, { s with ivIn := s.ivIn ++ [dig], gcIn := true, pos := s.pos + 1 })
      else
        match s.ivIn[s.pos.toNat]? with
        | some dig => pure (dig, s)
        | none => fail (.ub "opt_update: iv_in_hashes[pos] out of range")
    else do
      let dig ← s.compressOpen L data
      pure (dig, s)

/-- `opt_digest`, `cipher/sha256.h:522-529` (`opt_update`, 255-375). -/
def ShaG.optDigest (s : ShaG) (garbage : List Byte) (sec : SInt) (pub : List Byte) (reuseIn : Bool) :
    M (List (BitVec 32) × ShaG) := do
  let (dig, s) ← s.optFirst L sec reuseIn
  pure (SHA.plainTail garbage dig pub, s)

/-- The first chunk of `opt_rounds_update`, `cipher/sha256.h:398-412`. -/
def ShaG.firstIn (s : ShaG) (tmp : List SInt) (reuseIn : Bool) : M (List SInt × ShaG) :=
  if reuseIn then
    if s.gcIn then pure (s.ivInSec, s)
    else do
      let dig ← chunkCompressG L s.k s.h tmp
      pure (dig, { s with ivInSec := dig, gcIn := true })
  else do
    let dig ← chunkCompressG L s.k s.h tmp
    pure (dig, s)

/-- `opt_rounds_update`, `cipher/sha256.h:377-420`. -/
def ShaG.optRoundsUpdate (s : ShaG) (padded : SInt) (reuseIn : Bool) : M (List SInt × ShaG) :=
  if padded.length % 512 ≠ 0 then fail (.error "assert(padded_len % CHUNKLEN == 0)")
  else do
    let data ← lift (inputWordsG padded)
    if padded.length / 512 = 0 then fail (.ub "opt_rounds_update: input_data[j] of an empty vector")
    else do
      let (dig, s) ← s.firstIn L ((List.range 16).map fun j => data.getD j []) reuseIn
      let dig ← chunkLoopG L s.k data (padded.length / 512) dig
      pure (dig, s)

/-- `digest`, `cipher/sha256.h:516-520`. -/
def ShaG.digest (s : ShaG) (input : SInt) (reuseOut : Bool := false) : M (List SInt × ShaG) :=
  s.update L (paddingG input) reuseOut

/-- `opt_rounds_digest`, `cipher/sha256.h:531-537`. -/
def ShaG.optRoundsDigest (s : ShaG) (input : SInt) (reuseIn : Bool := false) : M (List SInt × ShaG) :=
  s.optRoundsUpdate L (paddingG input) reuseIn

/-! ### HMAC -/

/-- Members of `HMAC_SHA256`, `cipher/hmac_sha256.h:15-22`. -/
structure HmacG where
  sha : ShaG := {}
  oKeyPad : SInt := []
  iKeyPad : SInt := []

/-- The loop building the pad constants, `cipher/hmac_sha256.h:46-54`: the results for `0x5c` and `0x36`. -/
def padConstG : M (SInt × SInt) :=
  (List.range (512 / 8 - 1)).foldlM (fun (p : SInt × SInt) _ => do
    let o ← xorI (shl p.1 8) (pubInt 512 0x5c)
    let i ← xorI (shl p.2 8) (pubInt 512 0x36)
    pure (o, i)) (pubInt 512 0x5c, pubInt 512 0x36)

/-- The padded key, `cipher/hmac_sha256.h:30-44`. -/
def padKeyG (s : ShaG) (key : SInt) : M (SInt × ShaG) :=
  if key.length > 512 then do
    let (tmp, s) ← s.digest L key
    pure (concat (concat [] tmp) [pubInt (512 - 8 * 32) 0], s)
  else pure (concat key [pubInt (512 - key.length) 0], s)

/-- `init`, `cipher/hmac_sha256.h:24-57`. -/
def HmacG.init (m : HmacG) (key : SInt) : M HmacG := do
  let (padKey, sha) ← padKeyG L m.sha.refresh key
  let (o, i) ← padConstG
  let o ← xorI padKey o
  let i ← xorI padKey i
  pure { sha := sha, oKeyPad := o, iKeyPad := i }

/-- `hmac_sha256`, `cipher/hmac_sha256.h:59-74`. -/
def HmacG.hmac (m : HmacG) (msg : SInt) : M (List SInt × HmacG) := do
  let (tmp, sha) ← m.sha.digest L (concat m.iKeyPad [msg])
  let (res, sha) ← sha.digest L (concat m.oKeyPad tmp)
  pure (res, { m with sha := sha })

/-- The loop `o_msg[i] = Integer(32, dig[i], ALICE)`, `cipher/hmac_sha256.h:89-95`. -/
def feedWords : List (BitVec 32) → M (List SInt)
  | [] => pure []
  | d :: ds => do
    let x ← feed .alice (Integer.ofNat 32 d.toNat)
    let r ← feedWords ds
    pure (x :: r)

/-- `opt_hmac_sha256`, `cipher/hmac_sha256.h:76-102`. -/
def HmacG.optHmac (m : HmacG) (garbage msg : List Byte) (reuseIn reuseOut : Bool) : M (List SInt × HmacG) := do
  let (dig, sha) ← m.sha.optDigest L garbage m.iKeyPad msg reuseIn
  let oMsg ← feedWords dig
  let (res, sha) ← sha.digest L (concat m.oKeyPad oMsg) reuseOut
  pure (res, { m with sha := sha })

/-- `opt_rounds_hmac_sha256`, `cipher/hmac_sha256.h:105-123`. -/
def HmacG.optRoundsHmac (m : HmacG) (msg : SInt) (reuseIn reuseOut : Bool) : M (List SInt × HmacG) := do
  let (tmp, sha) ← m.sha.optRoundsDigest L (concat m.iKeyPad [msg]) reuseIn
  let (res, sha) ← sha.digest L (concat m.oKeyPad tmp) reuseOut
  pure (res, { m with sha := sha })

/-! ### PRF -/

/-- Final truncation, `cipher/prf.h:54-55,126-127,167-168`. -/
def truncG (res : SInt) (bitlen : Nat) : SInt := res.drop (SHA.prfBlocks bitlen * (8 * 32) - bitlen)

/-- Loop of `phash`, `cipher/prf.h:39-52`. -/
def phashG (seed : SInt) : Nat → HmacG → SInt → SInt → M (SInt × HmacG)
  | 0, m, _, res => pure (res, m)
  | n + 1, m, a, res => do
    let (tmp, m) ← m.hmac L a
    let a := concat [] tmp
    let (tmp, m) ← m.hmac L (concat (concat [] [a]) [seed])
    phashG seed n m a (concat res tmp)

/-- `compute`, `cipher/prf.h:172-182` (`phash`, 27-57). -/
def computeG (m : HmacG) (res : SInt) (bitlen : Nat) (label seed : SInt) : M (SInt × HmacG) := do
  let s := concat (concat [] [label]) [seed]
  let (res, m) ← phashG L s (SHA.prfBlocks bitlen) m s res
  pure (truncG res bitlen, m)

/-- Loop of `opt_phash`, `cipher/prf.h:86-125`. -/
def optPhashG (g : Nat → List Byte) (seed : List Byte) (ri ro : Bool) :
    Nat → HmacG → List Byte → SInt → M (SInt × HmacG)
  | 0, m, _, res => pure (res, m)
  | n + 1, m, a, res => do
    let (tmp, m) ← m.optHmac L (g (2 * n + 1)) a ri ro
    let tmpd ← revealWordsG tmp
    let a := tmpd.flatMap SHA.wordBytes
    let (tmp, m) ← m.optHmac L (g (2 * n)) (a ++ seed) ri ro
    optPhashG g seed ri ro n m a (concat res tmp)

/-- `opt_compute`, `cipher/prf.h:184-202` (`opt_phash`, 59-130). -/
def optComputeG (m : HmacG) (g : Nat → List Byte) (res : SInt) (bitlen : Nat) (label seed : List Byte) (ri ro : Bool) :
    M (SInt × HmacG) := do
  let (res, m) ← optPhashG L g (label ++ seed) ri ro (SHA.prfBlocks bitlen) m (label ++ seed) res
  pure (truncG res bitlen, m)

/-- Loop of `opt_rounds_phash`, `cipher/prf.h:152-166`. -/
def roundsPhashG (seed : SInt) (ri ro : Bool) : Nat → HmacG → SInt → SInt → M (SInt × HmacG)
  | 0, m, _, res => pure (res, m)
  | n + 1, m, a, res => do
    let (tmp, m) ← m.optRoundsHmac L a ri ro
    let a := concat [] tmp
    let (tmp, m) ← m.optRoundsHmac L (concat (concat [] [a]) [seed]) ri ro
    roundsPhashG seed ri ro n m a (concat res tmp)

/-- `opt_rounds_compute`, `cipher/prf.h:204-222` (`opt_rounds_phash`, 132-170). -/
def roundsComputeG (m : HmacG) (res : SInt) (bitlen : Nat) (label seed : List Byte) (ri ro : Bool) : M (SInt × HmacG) := do
  let a0 ← feed .alice (Integer.ofBytes (label ++ seed).reverse)
  let (res, m) ← roundsPhashG L a0 ri ro (SHA.prfBlocks bitlen) m a0 res
  pure (truncG res bitlen, m)

/-! ### AEAD -/

/-- Members of `AEAD` that hold wires, `protocol/aead.h:20-23`. -/
structure AeadG where
  expandedKey : SInt
  nonce : SInt
  fixedIv : SInt

/-- The constructor, `protocol/aead.h:47-56`: the object and `H`; `j` is the content of the circuits' wires before the calls. -/
def AeadG.new (j : Nat → Nat → Wire) (key iv : SInt) : M (SInt × AeadG) := do
  let ks ← computeKS (j 0) key
  let h ← computeAESKS (j 1) ks (pubInt 128 0)
  pure (h, ⟨ks, [], iv⟩)

/-- `inc`, `protocol/aead.h:94-105`. -/
def incG (counter : SInt) (s : Nat) : M SInt :=
  if counter.length < s then fail (.error "invalid length s!")
  else do
    let lsb ← L.add (counter.take s) (pubInt s 1)
    pure (concat (counter.drop s) [lsb])

/-- `gctr`, `protocol/aead.h:107-116`. -/
def gctrG (j : Nat → Nat → Wire) (ks : SInt) : Nat → SInt → SInt → M (SInt × SInt)
  | 0, res, nonce => pure (res, nonce)
  | m + 1, res, nonce => do
    let tmp ← computeAESKS (j m) ks nonce
    let nonce ← incG L nonce 32
    gctrG j ks m (concat res [tmp]) nonce

/-- `set_nonce`, `protocol/aead.h:121-141`. -/
def setNonceG (fixedIv : SInt) (iv : List Byte) : M SInt :=
  if iv.length ≠ 8 then fail (.error "assert(iv_len == 8)")
  else do
    let v ← feed .alice (Integer.ofBytes iv.reverse)
    pure (concat (concat fixedIv [v]) [pubInt 32 1])

/-- The wires of `Z0` and `Z` and, if opened, the bytes of `Z`.
`protocol/aead.h:185-214,331-361`. -/
structure StreamG where
  z0 : SInt
  z : SInt
  opened : Option (List Byte)

/-- `encrypt`, `protocol/aead.h:169-258`, for a message of `n` bytes. -/
def AeadG.encrypt (st : AeadG) (j : Nat → Nat → Wire) (iv : List Byte) (n : Nat) (secret : Bool) : M (StreamG × AeadG) := do
  let nonce ← setNonceG st.fixedIv iv
  let (Z, nonce) ← gctrG L j st.expandedKey (1 + AEAD.ctrLen n) [] nonce
  let z0 := Z.drop (Z.length - 128)
  let z := (Z.take (Z.length - 128)).drop (AEAD.padBits n)
  if !secret then do
    let o ← reveal .pub z
    pure (⟨z0, z, some (Integer.toBytes o)⟩, { st with nonce := nonce })
  else pure (⟨z0, z, none⟩, { st with nonce := nonce })

/-- `decrypt`, `protocol/aead.h:309-397`, for a ciphertext of `n` bytes. -/
def AeadG.decrypt (st : AeadG) (j : Nat → Nat → Wire) (iv : List Byte) (n : Nat) (secret : Bool) : M (StreamG × AeadG) := do
  let nonce ← setNonceG st.fixedIv iv
  let (Z, nonce) ← gctrG L j st.expandedKey (1 + AEAD.ctrLen n) [] nonce
  let z0 := Z.drop (Z.length - 128)
  let z := (Z.take (Z.length - 128)).drop (AEAD.padBits n)
  if !secret then do
    let o ← reveal .pub z
    pure (⟨z0, z, some (Integer.toBytes o)⟩, { st with nonce := nonce })
  else pure (⟨z0, z, none⟩, { st with nonce := nonce })

/-! ### Handshake -/

/-- `addmod`, `protocol/addmod.h:10-39`. -/
def addmodG (a b : SInt) (q : Nat) : M SInt := do
  let Q := pubBytes (bn2bin q).reverse
  let c ← L.add (a ++ [.pub false]) (b ++ [.pub false])
  let c := c ++ [.pub false]
  let Q := Q ++ [.pub false] ++ [.pub false]
  let sel ← L.geq c Q
  let d ← L.sub c Q
  let res ← L.select c sel d
  pure res.dropLast.dropLast

/-- Members of `HandShake` used by the key schedule, `protocol/handshake.h:44-77`. -/
structure HsG where
  hmac : HmacG := {}
  q : Nat
  roundsOpt : Bool
  masterKey : SInt := []
  clientWriteKey : SInt := []
  serverWriteKey : SInt := []
  clientWriteIv : SInt := []
  serverWriteIv : SInt := []

/-- The calls `prf.opt_compute(…, true, true)` / `prf.opt_rounds_compute(…, true, true)`, e.g. `protocol/handshake.h:219-226`. -/
def HsG.prfSel (h : HsG) (g : Nat → List Byte) (res : SInt) (bitlen : Nat) (label seed : List Byte) : M (SInt × HmacG) :=
  if !h.roundsOpt then optComputeG L h.hmac g res bitlen label seed true true
  else roundsComputeG L h.hmac res bitlen label seed true true

/-- `prfSel` on the object. `protocol/handshake.h:219-227`. -/
def HsG.prfCall (h : HsG) (g : Nat → List Byte) (res : SInt) (bitlen : Nat) (label seed : List Byte) : M (SInt × HsG) := do
  let (r, m) ← h.prfSel L g res bitlen label seed
  pure (r, { h with hmac := m })

/-- `protocol/handshake.h:192-218,235-256`: input the shares, add them, key the PRF. -/
def HsG.keyFromShares (h : HsG) (pmsA pmsB : Nat) : M HsG := do
  let bufA ← lift (bnBuffer (bnNumBytes h.q) pmsA)
  let bufB ← lift (bnBuffer (bnNumBytes h.q) pmsB)
  let a ← feed .alice (Integer.ofBytes bufA)
  let b ← feed .bob (Integer.ofBytes bufB)
  let pms ← addmodG L a b h.q
  let m ← h.hmac.init L pms
  pure { h with hmac := m }

/-- `compute_master_key`, `protocol/handshake.h:187-228`. -/
def HsG.computeMasterKey (h : HsG) (g : Nat → List Byte) (pmsA pmsB : Nat) (rc rs : List Byte) : M HsG := do
  let h ← h.keyFromShares L pmsA pmsB
  let (r, h) ← h.prfCall L g h.masterKey (masterKeyLength * 8) masterKeyLabel (rc ++ rs)
  pure { h with masterKey := r }

/-- `compute_extended_master_key`, `protocol/handshake.h:231-266`. -/
def HsG.computeExtendedMasterKey (h : HsG) (g : Nat → List Byte) (pmsA pmsB : Nat) (sessionHash : List Byte) : M HsG := do
  let h ← h.keyFromShares L pmsA pmsB
  let (r, h) ← h.prfCall L g h.masterKey (extendedMasterKeyLength * 8) extendedMasterKeyLabel sessionHash
  pure { h with masterKey := r }

/-- `compute_expansion_keys`, `protocol/handshake.h:268-296`. -/
def HsG.computeExpansionKeys (h : HsG) (g : Nat → List Byte) (rc rs : List Byte) : M HsG := do
  let m ← h.hmac.init L h.masterKey
  let (key, h) ← { h with hmac := m }.prfCall L g [] (expansionKeyLength * 8) keyExpansionLabel (rs ++ rc)
  let cwk ← lift (extractInteger key 0 (keyLength * 8))
  let swk ← lift (extractInteger key (keyLength * 8) (keyLength * 8))
  let civ ← lift (extractInteger key (keyLength * 8 * 2) (ivLength * 8))
  let siv ← lift (extractInteger key (keyLength * 8 * 2 + ivLength * 8) (ivLength * 8))
  pure { h with clientWriteKey := cwk, serverWriteKey := swk, clientWriteIv := civ, serverWriteIv := siv }

/-- `compute_client_finished_msg`, `protocol/handshake.h:298-311`: the opened bytes. -/
def HsG.computeClientFinished (h : HsG) (g : Nat → List Byte) (label tau : List Byte) : M (List Byte × HsG) := do
  let (r, h) ← h.prfCall L g [] (finishedMsgLength * 8) label tau
  let o ← reveal .pub r
  pure (Integer.toBytes o, h)

/-- `compute_server_finished_msg`, `protocol/handshake.h:313-327`: the opened bytes. -/
def HsG.computeServerFinished (h : HsG) (g : Nat → List Byte) (label tau : List Byte) : M (List Byte × HsG) := do
  let (r, h) ← h.prfCall L g [] (finishedMsgLength * 8) label tau
  let o ← reveal .pub r
  pure (Integer.toBytes o, h)

/-- A `HandShake` object and the two `AEAD` objects made from its keys.
`protocol/handshake.h:39`, `protocol/aead.h:14`. -/
structure ConnG where
  hs : HsG
  aeadC : Option AeadG := none
  aeadS : Option AeadG := none

/-- The calls of a connection.  `g` is the indeterminate content of the work buffers, `j` of the wires of the circuit objects;
`client` selects the object keyed with the client write key.
`protocol/handshake.h:187,232,268,298,313`, `protocol/aead.h:89,169,309`. -/
inductive Call where
  | masterKey (g : Nat → List Byte) (pmsA pmsB : Nat) (rc rs : List Byte)
  | extendedMasterKey (g : Nat → List Byte) (pmsA pmsB : Nat) (sessionHash : List Byte)
  | expansionKeys (g : Nat → List Byte) (rc rs : List Byte)
  | clientFinished (g : Nat → List Byte) (label tau : List Byte)
  | serverFinished (g : Nat → List Byte) (label tau : List Byte)
  | newAead (j : Nat → Nat → Wire) (client : Bool)
  | encrypt (j : Nat → Nat → Wire) (client : Bool) (iv : List Byte) (n : Nat) (secret : Bool)
  | decrypt (j : Nat → Nat → Wire) (client : Bool) (iv : List Byte) (n : Nat) (secret : Bool)

/-- What a call opens, and the wires whose labels the parties turn into shares: those of `H` for a constructor
(`protocol/aead.h:57-60`), those of `Z0` and `Z` for a record (`protocol/aead.h:194-202`, `222-231`, `336-346`, `369-378`). -/
structure Out where
  opened : Option (List Byte) := none
  h : SInt := []
  z0 : SInt := []
  z : SInt := []

/-- Not in the code: the caller's objects of `protocol/aead.h:14`. -/
def ConnG.setAead (c : ConnG) (client : Bool) (a : AeadG) : ConnG :=
  if client then { c with aeadC := some a } else { c with aeadS := some a }

/-- The object used by a record call; there must be one.
Not in the code: the pointers passed in `protocol/handshake.h:328,342,355`,
`protocol/record.h:13,29`. -/
def ConnG.getAead (c : ConnG) (client : Bool) : Res AeadG :=
  match if client then c.aeadC else c.aeadS with
  | some a => .ok a
  | none => .error (.ub "null AEAD object")

/-- One call. `protocol/handshake.h:187-370`, `protocol/aead.h:47-492`. -/
def ConnG.step (c : ConnG) : Call → M (Out × ConnG)
  | .masterKey g a b rc rs => do let h ← c.hs.computeMasterKey L g a b rc rs; pure ({}, { c with hs := h })
  | .extendedMasterKey g a b sh => do let h ← c.hs.computeExtendedMasterKey L g a b sh; pure ({}, { c with hs := h })
  | .expansionKeys g rc rs => do let h ← c.hs.computeExpansionKeys L g rc rs; pure ({}, { c with hs := h })
  | .clientFinished g l t => do let (o, h) ← c.hs.computeClientFinished L g l t; pure ({ opened := some o }, { c with hs := h })
  | .serverFinished g l t => do let (o, h) ← c.hs.computeServerFinished L g l t; pure ({ opened := some o }, { c with hs := h })
  | .newAead j cl => do
    let (H, a) ← AeadG.new j (if cl then c.hs.clientWriteKey else c.hs.serverWriteKey)
      (if cl then c.hs.clientWriteIv else c.hs.serverWriteIv)
    pure ({ h := H }, c.setAead cl a)
  | .encrypt j cl iv n sec => do
    let a ← lift (c.getAead cl)
    let (z, a) ← a.encrypt L j iv n sec
    pure (⟨z.opened, [], z.z0, z.z⟩, c.setAead cl a)
  | .decrypt j cl iv n sec => do
    let a ← lift (c.getAead cl)
    let (z, a) ← a.decrypt L j iv n sec
    pure (⟨z.opened, [], z.z0, z.z⟩, c.setAead cl a)

/-- A sequence of calls.
Not in the code: a program that calls the members of `protocol/handshake.h:39`,
`protocol/aead.h:14`. -/
def ConnG.run (c : ConnG) : List Call → M (List Out × ConnG)
  | [] => pure ([], c)
  | op :: ops => do
    let (o, c) ← c.step L op
    let (os, c) ← c.run ops
    pure (o :: os, c)

end Verif.Model.Gate
