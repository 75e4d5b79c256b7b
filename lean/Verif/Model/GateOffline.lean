import Verif.Model.GateOnline

/-!
The offline classes as sequences of backend operations: `SHA256Offline` (`cipher/sha256.h:553-836`), `HMAC_SHA256_Offline`
(`cipher/hmac_sha256.h:126-210`), `PRFOffline` (`cipher/prf.h:234-329`), `AEADOffline` (`protocol/aead.h:548-643`), `HandShakeOffline`
(`protocol/handshake.h:534-658`).  They are written out from their own source text, also where it repeats the online classes.  The call
counters are left out.
-/

namespace Verif.Model.Gate
open Verif.Model

variable (L : Lib)

/-- Body of the schedule loop of `SHA256Offline::chunk_compress`, `cipher/sha256.h:779-783`. -/
def offScheduleStep (w : List SInt) (j : Nat) : M (List SInt) := do
  let i := j + 16
  let s0 ← smallSigma 7 18 3 (w.getD (i - 15) [])
  let s1 ← smallSigma 17 19 10 (w.getD (i - 2) [])
  let t ← L.add (w.getD (i - 16) []) s0
  let t ← L.add t (w.getD (i - 7) [])
  let t ← L.add t s1
  pure (w ++ [t])

/-- Body of the main loop, `cipher/sha256.h:791-807`. -/
def offRoundStep (s : WorkG) (k w : SInt) : M WorkG := do
  let S1 ← bigSigma 6 11 25 s.e
  let t ← xorI s.f s.g
  let t ← andI s.e t
  let ch ← xorI t s.g
  let t ← L.add s.h k
  let t ← L.add t S1
  let t ← L.add t ch
  let temp1 ← L.add t w
  let S0 ← bigSigma 2 13 22 s.a
  let x ← xorI s.a s.b
  let y ← xorI s.a s.c
  let t ← andI x y
  let maj ← xorI t s.a
  let temp2 ← L.add S0 maj
  let e ← L.add s.d temp1
  let a ← L.add temp1 temp2
  pure { h := s.g, g := s.f, f := s.e, e := e, d := s.c, c := s.b, b := s.a, a := a }

/-- `SHA256Offline::chunk_compress`, `cipher/sha256.h:773-818`. -/
def offCompress (k h chunk : List SInt) : M (List SInt) := do
  let w ← (List.range 48).foldlM (offScheduleStep L) (chunk.take 16)
  let s0 : WorkG := ⟨h.getD 0 [], h.getD 1 [], h.getD 2 [], h.getD 3 [], h.getD 4 [], h.getD 5 [], h.getD 6 [], h.getD 7 []⟩
  let s ← (List.range 64).foldlM (fun s i => offRoundStep L s (k.getD i []) (w.getD i [])) s0
  let a ← L.add s.a s0.a
  let b ← L.add s.b s0.b
  let c ← L.add s.c s0.c
  let d ← L.add s.d s0.d
  let e ← L.add s.e s0.e
  let f ← L.add s.f s0.f
  let g ← L.add s.g s0.g
  let h ← L.add s.h s0.h
  pure [a, b, c, d, e, f, g, h]

/-- `SHA256Offline::padding`, `cipher/sha256.h:623-639`. -/
def offPadding (input : SInt) : SInt :=
  let len := input.length
  let K := SHA.padLoop (512#64 - 65#64 - BitVec.ofNat 64 len).toInt
  concat (concat (concat input [pubInt 1 1]) [pubInt K.toNat 0]) [pubInt 64 len]

/-- Members of `SHA256Offline`, `cipher/sha256.h:561-613`. -/
structure ShaOff where
  gcIn : Bool := false
  gcOut : Bool := false
  ivOut : List SInt := List.replicate 8 []
  ivInSec : List SInt := List.replicate 8 []
  h : List SInt := SHA.offlineH.map wordG
  k : List SInt := SHA.offlineK.map wordG

/-- `SHA256Offline::refresh`, `cipher/sha256.h:618-622`: the constants are not loaded again. -/
def ShaOff.refresh (s : ShaOff) : ShaOff := { s with gcIn := false, gcOut := false }

/-- The word extraction loop, `cipher/sha256.h:647-649,692-694,735-737`. -/
def offWords (x : SInt) : Res (List SInt) :=
  (List.range (x.length / 32)).mapM fun i => extractInteger x (i * 32) 32

/-- The loop over the further chunks, `cipher/sha256.h:678-683,765-770`. -/
def offChunkLoop (k data : List SInt) (numChunk : Nat) (dig : List SInt) : M (List SInt) :=
  (List.range (numChunk - 1)).foldlM (fun dig j =>
    offCompress L k dig ((List.range 16).map fun t => data.getD (t + (j + 1) * 512 / 32) [])) dig

/-- The first chunk of `SHA256Offline::update`, `cipher/sha256.h:662-676`. -/
def ShaOff.firstOut (s : ShaOff) (tmp : List SInt) (reuseOut : Bool) : M (List SInt × ShaOff) :=
  if reuseOut then
    if s.gcOut then pure (s.ivOut, s)
    else do
      let dig ← offCompress L s.k s.h tmp
      pure (dig, { s with ivOut := dig, gcOut := true })
  else do
    let dig ← offCompress L s.k s.h tmp
    pure (dig, s)

/-- `SHA256Offline::update`, `cipher/sha256.h:642-684`. -/
def ShaOff.update (s : ShaOff) (padded : SInt) (reuseOut : Bool) : M (List SInt × ShaOff) :=
  if padded.length % 512 ≠ 0 then fail (.error "assert(padded_len % CHUNKLEN == 0)")
  else do
    let data ← lift (offWords padded)
    if padded.length / 512 = 0 then fail (.ub "update: input_data[j] of an empty vector")
    else do
      let (dig, s) ← s.firstOut L ((List.range 16).map fun j => data.getD j []) reuseOut
      let dig ← offChunkLoop L s.k data (padded.length / 512) dig
      pure (dig, s)

/-- Compress and open, `cipher/sha256.h:700-708,714-723`; the opened value is not used. -/
def ShaOff.compressOpen (s : ShaOff) (data : List SInt) : M Unit := do
  let dig ← offCompress L s.k s.h data
  let _ ← reveal .pub (reverseConcat [] dig)
  pure ()

/-- `SHA256Offline::opt_digest`, `cipher/sha256.h:826-828` (`opt_update`, 686-725). -/
def ShaOff.optDigest (s : ShaOff) (sec : SInt) (reuseIn : Bool) : M ShaOff :=
  if sec.length ≠ 512 then fail (.error "assert(len == CHUNKLEN)")
  else do
    let data ← lift (offWords sec)
    if reuseIn then
      if !s.gcIn then do
        s.compressOpen L data
        pure { s with gcIn := true }
      else pure s
    else do
      s.compressOpen L data
      pure s

/-- The first chunk of `SHA256Offline::opt_rounds_update`, `cipher/sha256.h:750-763`. -/
def ShaOff.firstIn (s : ShaOff) (tmp : List SInt) (reuseIn : Bool) : M (List SInt × ShaOff) :=
  if reuseIn then
    if s.gcIn then pure (s.ivInSec, s)
    else do
      let dig ← offCompress L s.k s.h tmp
      pure (dig, { s with ivInSec := dig, gcIn := true })
  else do
    let dig ← offCompress L s.k s.h tmp
    pure (dig, s)

/-- `SHA256Offline::opt_rounds_update`, `cipher/sha256.h:728-771`. -/
def ShaOff.optRoundsUpdate (s : ShaOff) (padded : SInt) (reuseIn : Bool) : M (List SInt × ShaOff) :=
  if padded.length % 512 ≠ 0 then fail (.error "assert(padded_len % CHUNKLEN == 0)")
  else do
    let data ← lift (offWords padded)
    if padded.length / 512 = 0 then fail (.ub "opt_rounds_update: input_data[j] of an empty vector")
    else do
      let (dig, s) ← s.firstIn L ((List.range 16).map fun j => data.getD j []) reuseIn
      let dig ← offChunkLoop L s.k data (padded.length / 512) dig
      pure (dig, s)

/-- `SHA256Offline::digest`, `cipher/sha256.h:820-824`. -/
def ShaOff.digest (s : ShaOff) (input : SInt) (reuseOut : Bool := false) : M (List SInt × ShaOff) :=
  s.update L (offPadding input) reuseOut

/-- `SHA256Offline::opt_rounds_digest`, `cipher/sha256.h:829-835`. -/
def ShaOff.optRoundsDigest (s : ShaOff) (input : SInt) (reuseIn : Bool := false) : M (List SInt × ShaOff) :=
  s.optRoundsUpdate L (offPadding input) reuseIn

/-! ### HMAC -/

/-- Members of `HMAC_SHA256_Offline`, `cipher/hmac_sha256.h:126-133`. -/
structure HmacOff where
  sha : ShaOff := {}
  oKeyPad : SInt := []
  iKeyPad : SInt := []

/-- The loop building the pad constants, `cipher/hmac_sha256.h:157-165`. -/
def offPadConst : M (SInt × SInt) :=
  (List.range (512 / 8 - 1)).foldlM (fun (p : SInt × SInt) _ => do
    let o ← xorI (shl p.1 8) (pubInt 512 0x5c)
    let i ← xorI (shl p.2 8) (pubInt 512 0x36)
    pure (o, i)) (pubInt 512 0x5c, pubInt 512 0x36)

/-- The padded key, `cipher/hmac_sha256.h:141-155`. -/
def offPadKey (s : ShaOff) (key : SInt) : M (SInt × ShaOff) :=
  if key.length > 512 then do
    let (tmp, s) ← s.digest L key
    pure (concat (concat [] tmp) [pubInt (512 - 8 * 32) 0], s)
  else pure (concat key [pubInt (512 - key.length) 0], s)

/-- `HMAC_SHA256_Offline::init`, `cipher/hmac_sha256.h:135-168`. -/
def HmacOff.init (m : HmacOff) (key : SInt) : M HmacOff := do
  let (padKey, sha) ← offPadKey L m.sha.refresh key
  let (o, i) ← offPadConst
  let o ← xorI padKey o
  let i ← xorI padKey i
  pure { sha := sha, oKeyPad := o, iKeyPad := i }

/-- `memset(dig, 0x00, DIGLEN)`, `cipher/hmac_sha256.h:175`: `DIGLEN` is the number of words, so only the first 8 of the 32 bytes are
cleared; `u` is the indeterminate content of the other words. -/
def offDig (u : Nat → BitVec 32) : List (BitVec 32) := [0, 0] ++ (List.range 6).map u

/-- `HMAC_SHA256_Offline::opt_hmac_sha256`, `cipher/hmac_sha256.h:170-190`. -/
def HmacOff.optHmac (m : HmacOff) (u : Nat → BitVec 32) (reuseIn reuseOut : Bool) : M (List SInt × HmacOff) := do
  let sha ← m.sha.optDigest L m.iKeyPad reuseIn
  let oMsg ← feedWords (offDig u)
  let (res, sha) ← sha.digest L (concat m.oKeyPad oMsg) reuseOut
  pure (res, { m with sha := sha })

/-- `HMAC_SHA256_Offline::opt_rounds_hmac_sha256`, `cipher/hmac_sha256.h:191-208`. -/
def HmacOff.optRoundsHmac (m : HmacOff) (msg : SInt) (reuseIn reuseOut : Bool) : M (List SInt × HmacOff) := do
  let (tmp, sha) ← m.sha.optRoundsDigest L (concat m.iKeyPad [msg]) reuseIn
  let (res, sha) ← sha.digest L (concat m.oKeyPad tmp) reuseOut
  pure (res, { m with sha := sha })

/-! ### PRF -/

/-- Loop of `PRFOffline::opt_phash`, `cipher/prf.h:258-271`. -/
def offOptPhash (u : Nat → Nat → BitVec 32) (ri ro : Bool) : Nat → HmacOff → SInt → M (SInt × HmacOff)
  | 0, m, res => pure (res, m)
  | n + 1, m, res => do
    let (tmp, m) ← m.optHmac L (u (2 * n + 1)) ri ro
    let _ ← reveal .pub (reverseConcat [] tmp)
    let (tmp, m) ← m.optHmac L (u (2 * n)) ri ro
    offOptPhash u ri ro n m (concat res tmp)

/-- `PRFOffline::opt_compute`, `cipher/prf.h:311-318` (`opt_phash`, 245-275). -/
def offOptCompute (m : HmacOff) (u : Nat → Nat → BitVec 32) (res : SInt) (bitlen : Nat) (ri ro : Bool) : M (SInt × HmacOff) := do
  let (res, m) ← offOptPhash L u ri ro (SHA.prfBlocks bitlen) m res
  pure (truncG res bitlen, m)

/-- Loop of `PRFOffline::opt_rounds_phash`, `cipher/prf.h:291-305`. -/
def offRoundsPhash (seed : SInt) (ri ro : Bool) : Nat → HmacOff → SInt → SInt → M (SInt × HmacOff)
  | 0, m, _, res => pure (res, m)
  | n + 1, m, a, res => do
    let (tmp, m) ← m.optRoundsHmac L a ri ro
    let a := concat [] tmp
    let (tmp, m) ← m.optRoundsHmac L (concat (concat [] [a]) [seed]) ri ro
    offRoundsPhash seed ri ro n m a (concat res tmp)

/-- `PRFOffline::opt_rounds_compute`, `cipher/prf.h:319-328` (`opt_rounds_phash`, 276-309). -/
def offRoundsCompute (m : HmacOff) (res : SInt) (bitlen seedlen : Nat) (ri ro : Bool) : M (SInt × HmacOff) := do
  let a0 ← feed .alice (Integer.ofNat (8 * seedlen) 0)
  let (res, m) ← offRoundsPhash L a0 ri ro (SHA.prfBlocks bitlen) m a0 res
  pure (truncG res bitlen, m)

/-! ### AEAD -/

/-- Members of `AEADOffline`, `protocol/aead.h:550-552`. -/
structure AeadOff where
  expandedKey : SInt
  nonce : SInt
  fixedIv : SInt

/-- The constructor, `protocol/aead.h:556-560`. -/
def AeadOff.new (j : Nat → Nat → Wire) (key iv : SInt) : M AeadOff := do
  let ks ← computeKS (j 0) key
  let _ ← computeAESKS (j 1) ks (pubInt 128 0)
  pure ⟨ks, [], iv⟩

/-- `AEADOffline::inc`, `protocol/aead.h:568-579`. -/
def offInc (counter : SInt) (s : Nat) : M SInt :=
  if counter.length < s then fail (.error "invalid length s!")
  else do
    let lsb ← L.add (counter.take s) (pubInt s 1)
    pure (concat (counter.drop s) [lsb])

/-- `AEADOffline::gctr`, `protocol/aead.h:581-590`. -/
def offGctr (j : Nat → Nat → Wire) (ks : SInt) : Nat → SInt → SInt → M (SInt × SInt)
  | 0, res, nonce => pure (res, nonce)
  | m + 1, res, nonce => do
    let tmp ← computeAESKS (j m) ks nonce
    let nonce ← offInc L nonce 32
    offGctr j ks m (concat res [tmp]) nonce

/-- `AEADOffline::set_nonce`, `protocol/aead.h:592-602`. -/
def offSetNonce (fixedIv : SInt) : M SInt := do
  let v ← feed .alice (Integer.ofBytes (List.replicate 8 0))
  pure (concat (concat fixedIv [v]) [pubInt 32 1])

/-- `AEADOffline::encrypt`, `protocol/aead.h:604-623`. -/
def AeadOff.encrypt (st : AeadOff) (j : Nat → Nat → Wire) (n : Nat) (secret : Bool) : M AeadOff := do
  let nonce ← offSetNonce st.fixedIv
  let (Z, nonce) ← offGctr L j st.expandedKey (1 + AEAD.ctrLen n) [] nonce
  let z := (Z.take (Z.length - 128)).drop (AEAD.padBits n)
  if !secret then do
    let _ ← reveal .pub z
    pure { st with nonce := nonce }
  else pure { st with nonce := nonce }

/-- `AEADOffline::decrypt`, `protocol/aead.h:625-642`. -/
def AeadOff.decrypt (st : AeadOff) (j : Nat → Nat → Wire) (n : Nat) (secret : Bool) : M AeadOff := do
  let nonce ← offSetNonce st.fixedIv
  let (Z, nonce) ← offGctr L j st.expandedKey (1 + AEAD.ctrLen n) [] nonce
  let z := (Z.take (Z.length - 128)).drop (AEAD.padBits n)
  if !secret then do
    let _ ← reveal .pub z
    pure { st with nonce := nonce }
  else pure { st with nonce := nonce }

/-! ### Handshake -/

/-- Lengths, `protocol/handshake.h:35-36`. -/
def randomLength : Nat := 256 / 8
/-- `protocol/handshake.h:36`. -/
def sessionHashLength : Nat := 256 / 8

/-- Members of `HandShakeOffline`, `protocol/handshake.h:536-552`. -/
structure HsOff where
  hmac : HmacOff := {}
  q : Nat
  roundsOpt : Bool
  masterKey : SInt := []
  clientWriteKey : SInt := []
  serverWriteKey : SInt := []
  clientWriteIv : SInt := []
  serverWriteIv : SInt := []

/-- The calls `prf.opt_compute(…, true, true)` / `prf.opt_rounds_compute(…, true, true)`, e.g. `protocol/handshake.h:577-582`. -/
def HsOff.prfSel (h : HsOff) (u : Nat → Nat → BitVec 32) (res : SInt) (bitlen seedlen : Nat) : M (SInt × HmacOff) :=
  if !h.roundsOpt then offOptCompute L h.hmac u res bitlen true true
  else offRoundsCompute L h.hmac res bitlen seedlen true true

/-- `prfSel` on the object. `protocol/handshake.h:577-582`. -/
def HsOff.prfCall (h : HsOff) (u : Nat → Nat → BitVec 32) (res : SInt) (bitlen seedlen : Nat) : M (SInt × HsOff) := do
  let (r, m) ← h.prfSel L u res bitlen seedlen
  pure (r, { h with hmac := m })

/-- `protocol/handshake.h:565-576,587-598`. -/
def HsOff.keyFromShares (h : HsOff) : M HsOff := do
  let a ← feed .alice (Integer.ofBytes (List.replicate (bnNumBytes h.q) 0))
  let b ← feed .bob (Integer.ofBytes (List.replicate (bnNumBytes h.q) 0))
  let pms ← addmodG L a b h.q
  let m ← h.hmac.init L pms
  pure { h with hmac := m }

/-- `HandShakeOffline::compute_master_key`, `protocol/handshake.h:564-584`. -/
def HsOff.computeMasterKey (h : HsOff) (u : Nat → Nat → BitVec 32) : M HsOff := do
  let h ← h.keyFromShares L
  let (r, h) ← h.prfCall L u h.masterKey (masterKeyLength * 8) (masterKeyLabel.length + 2 * randomLength)
  pure { h with masterKey := r }

/-- `HandShakeOffline::compute_extended_master_key`, `protocol/handshake.h:586-607`. -/
def HsOff.computeExtendedMasterKey (h : HsOff) (u : Nat → Nat → BitVec 32) : M HsOff := do
  let h ← h.keyFromShares L
  let (r, h) ← h.prfCall L u h.masterKey (extendedMasterKeyLength * 8) (extendedMasterKeyLabel.length + sessionHashLength)
  pure { h with masterKey := r }

/-- `HandShakeOffline::compute_expansion_keys`, `protocol/handshake.h:609-624`. -/
def HsOff.computeExpansionKeys (h : HsOff) (u : Nat → Nat → BitVec 32) : M HsOff := do
  let m ← h.hmac.init L h.masterKey
  let (key, h) ← { h with hmac := m }.prfCall L u [] (expansionKeyLength * 8) (keyExpansionLabel.length + 2 * randomLength)
  let cwk ← lift (extractInteger key 0 (keyLength * 8))
  let swk ← lift (extractInteger key (keyLength * 8) (keyLength * 8))
  let civ ← lift (extractInteger key (keyLength * 8 * 2) (ivLength * 8))
  let siv ← lift (extractInteger key (keyLength * 8 * 2 + ivLength * 8) (ivLength * 8))
  pure { h with clientWriteKey := cwk, serverWriteKey := swk, clientWriteIv := civ, serverWriteIv := siv }

/-- `HandShakeOffline::compute_client_finished_msg`, `protocol/handshake.h:626-637`. -/
def HsOff.computeClientFinished (h : HsOff) (u : Nat → Nat → BitVec 32) : M HsOff := do
  let (r, h) ← h.prfCall L u [] (finishedMsgLength * 8) (clientFinishedLabel.length + sessionHashLength)
  let _ ← reveal .pub r
  pure h

/-- `HandShakeOffline::compute_server_finished_msg`, `protocol/handshake.h:639-649`. -/
def HsOff.computeServerFinished (h : HsOff) (u : Nat → Nat → BitVec 32) : M HsOff := do
  let (r, h) ← h.prfCall L u [] (finishedMsgLength * 8) (serverFinishedLabel.length + sessionHashLength)
  let _ ← reveal .pub r
  pure h

/-- A `HandShakeOffline` object and the two `AEADOffline` objects made from its keys.
`protocol/handshake.h:534`, `protocol/aead.h:548`. -/
structure ConnOff where
  hs : HsOff
  aeadC : Option AeadOff := none
  aeadS : Option AeadOff := none

/-- The calls of the offline phase; they take lengths only.  `u`, `j`: indeterminate memory.
`protocol/handshake.h:564,586,609,626,639`, `protocol/aead.h:563,604,625`. -/
inductive OffCall where
  | masterKey (u : Nat → Nat → BitVec 32)
  | extendedMasterKey (u : Nat → Nat → BitVec 32)
  | expansionKeys (u : Nat → Nat → BitVec 32)
  | clientFinished (u : Nat → Nat → BitVec 32)
  | serverFinished (u : Nat → Nat → BitVec 32)
  | newAead (j : Nat → Nat → Wire) (client : Bool)
  | encrypt (j : Nat → Nat → Wire) (client : Bool) (n : Nat) (secret : Bool)
  | decrypt (j : Nat → Nat → Wire) (client : Bool) (n : Nat) (secret : Bool)

/-- Not in the code: the caller's objects of `protocol/aead.h:548`. -/
def ConnOff.setAead (c : ConnOff) (client : Bool) (a : AeadOff) : ConnOff :=
  if client then { c with aeadC := some a } else { c with aeadS := some a }

/-- Not in the code: the pointers passed in `protocol/handshake.h:651,655`,
`protocol/record.h:50,53`. -/
def ConnOff.getAead (c : ConnOff) (client : Bool) : Res AeadOff :=
  match if client then c.aeadC else c.aeadS with
  | some a => .ok a
  | none => .error (.ub "null AEAD object")

/-- One call. `protocol/handshake.h:564-660`, `protocol/aead.h:548-643`. -/
def ConnOff.step (c : ConnOff) : OffCall → M ConnOff
  | .masterKey u => do let h ← c.hs.computeMasterKey L u; pure { c with hs := h }
  | .extendedMasterKey u => do let h ← c.hs.computeExtendedMasterKey L u; pure { c with hs := h }
  | .expansionKeys u => do let h ← c.hs.computeExpansionKeys L u; pure { c with hs := h }
  | .clientFinished u => do let h ← c.hs.computeClientFinished L u; pure { c with hs := h }
  | .serverFinished u => do let h ← c.hs.computeServerFinished L u; pure { c with hs := h }
  | .newAead j cl => do
    let a ← AeadOff.new j (if cl then c.hs.clientWriteKey else c.hs.serverWriteKey)
      (if cl then c.hs.clientWriteIv else c.hs.serverWriteIv)
    pure (c.setAead cl a)
  | .encrypt j cl n sec => do
    let a ← lift (c.getAead cl)
    let a ← a.encrypt L j n sec
    pure (c.setAead cl a)
  | .decrypt j cl n sec => do
    let a ← lift (c.getAead cl)
    let a ← a.decrypt L j n sec
    pure (c.setAead cl a)

/-- A sequence of calls.
Not in the code: a program that calls the members of `protocol/handshake.h:534`,
`protocol/aead.h:548`. -/
def ConnOff.run (c : ConnOff) : List OffCall → M ConnOff
  | [] => pure c
  | op :: ops => do
    let c ← c.step L op
    c.run ops

end Verif.Model.Gate
