import Verif.Model.HandshakeProof
import Verif.Model.AESCircuit

/-!
The proof phase of a session: the object `PostRecord` (`protocol/post_record.h:11-148`) with the functions that its caller runs after the
connection, ending with `finalize_check` (`Verif.Model.PostRecord`).

The code runs in the zero-knowledge backend; an `Integer` is the authenticated value.  Every call of `itmac_hom_add_check` or `check_zero`
is returned as a `Check` (what it establishes: C32, C33).  `reveal_pms` is `Verif.Model.DH.revealPms`; its result is the argument `pms`.
`junk` is the content of the wires of the circuit evaluator before it runs.
-/

namespace Verif.Model.Session
open Integer AEADProof SHA

/-- The block of a result, zero for a failure.
Not in the code: the block of the result of `protocol/post_record.h:155-200`. -/
def blockOr : Res Integer → Block
  | .ok x => AEAD.blk x
  | .error _ => 0

/-- `expanded_key = computeKS(key)` of `protocol/aead_izk.h:65` with the later calls `computeAES_KS(expanded_key, ·)`, on blocks (with an
expanded key these calls do not fail). -/
def encrypter (junk : AESCircuit.Wires) (key : Integer) : Res (Block → Block) := do
  let ek ← AESCircuit.computeKS junk key
  .ok fun b => blockOr (AESCircuit.computeAESKS junk ek (ofNat 128 b.toNat))

/-- `PostRecord`, `protocol/post_record.h:14-31` with the objects it points to; `c`, `s` are `aead_c`, `aead_s`; `pc`, `ps` the proof objects;
`zc`, `zs` are `client_finished_z0`, `server_finished_z0`. -/
structure Post where
  hs : HsP
  c : AEAD.State
  s : AEAD.State
  master : Integer := []
  keys : Keys := ⟨[], [], [], []⟩
  pc : Option Proof := none
  ps : Option Proof := none
  zc : Integer := []
  zs : Integer := []

/-- `prove_and_check_handshake_step1`, `protocol/post_record.h:74-103`. -/
def Post.step1 (junk : AESCircuit.Wires) (p : Post) (g : Nat → List Byte) (pms : Nat) (k : MasterSeed) (rc rs tauC tauS : List Byte) :
    Res (Post × List Check) := do
  let (ms, ks, cc, cs, h) ← p.hs.proveSchedule g p.master pms k rc rs tauC tauS
  let ec ← encrypter junk ks.keyC
  let (pc, hc) ← construct ec ks.ivC p.c
  let es ← encrypter junk ks.keyS
  let (ps, hs) ← construct es ks.ivS p.s
  .ok ({ p with hs := h, master := ms, keys := ks, pc := some pc, ps := some ps }, [cc, cs, hc, hs])

/-- `prove_and_check_handshake_step2`, `protocol/post_record.h:105-111`, with `prove_enc_dec_finished_msg`, `protocol/handshake.h:517-526`
(`sec_type` is false by default, `protocol/aead_izk.h:126`). -/
def Post.step2 (p : Post) (ctxt iv : List Byte) : Res (Post × List Check) :=
  match p.pc with
  | none => .error (.ub "null AEAD_Proof object")
  | some P => do
    let (st, cs, _, z0) ← prove P p.c ctxt iv false
    .ok ({ p with c := st, zc := z0 }, cs)

/-- `prove_and_check_handshake_step3`, `protocol/post_record.h:113-120`; the Boolean is the outcome of `handshake_check`. -/
def Post.step3 (p : Post) (ctxt iv : List Byte) : Res (Post × List Check × Bool) :=
  match p.ps with
  | none => .error (.ub "null AEAD_Proof object")
  | some P => do
    let (st, cs, _, z0) ← prove P p.s ctxt iv false
    let b ← handshakeCheck p.hs.hs.prf p.hs.hs.hmac
    .ok ({ p with s := st, zs := z0 }, cs, b)

/-- `prove_record_client`, `prove_record_server`, `prove_record_server_last`.
`protocol/post_record.h:122,132,142`. -/
inductive Kind where
  | client | server | last
  deriving DecidableEq

/-- One of the three calls, `protocol/post_record.h:122-148`: the checks, `msg` and `z0`. -/
def Post.record (p : Post) (k : Kind) (ctxt iv : List Byte) : Res (Post × List Check × Integer × Integer) :=
  match k with
  | .client =>
    match p.pc with
    | none => .error (.ub "null AEAD_Proof object")
    | some P => do
      let (st, cs, msg, z0) ← prove P p.c ctxt iv true
      .ok ({ p with c := st }, cs, msg.getD [], z0)
  | .server =>
    match p.ps with
    | none => .error (.ub "null AEAD_Proof object")
    | some P => do
      let (st, cs, msg, z0) ← prove P p.s ctxt iv true
      .ok ({ p with s := st }, cs, msg.getD [], z0)
  | .last =>
    match p.ps with
    | none => .error (.ub "null AEAD_Proof object")
    | some P => do
      let (msg, z0) ← proveLast P ctxt iv
      .ok (p, [], msg, z0)

/-- A record as its prover presents it: the call, the explicit nonce, and the buffers.
The parameters of `protocol/post_record.h:122-150` and `protocol/post_record.h:155-170`. -/
structure Claim where
  kind : Kind
  iv : List Byte
  buf : PostRecord.Rec

/-- The record calls in order; the checks, and per record the value of `msg` and `z0`.
Calls of `protocol/post_record.h:122-150`. -/
def Post.records (p : Post) : List Claim → Res (Post × List Check × List (Claim × Integer × Integer))
  | [] => .ok (p, [], [])
  | c :: cs => do
    let (p, k1, m, z0) ← p.record c.kind c.buf.ctxt c.iv
    let (p, k2, out) ← p.records cs
    .ok (p, k1 ++ k2, (c, m, z0) :: out)

/-- `finalize_check` as a caller uses it: the client's records, then the server's (`test/protocol.cpp:139-142`). -/
def Post.finalize (p : Post) (finc fins : PostRecord.Rec) (out : List (Claim × Integer × Integer)) (aadLen : Nat) : Res Bool :=
  match p.pc, p.ps with
  | some Pc, some Ps =>
    let enc := out.filter (·.1.kind = .client)
    let dec := out.filter (·.1.kind ≠ .client)
    PostRecord.finalizeCheck Pc.H Ps.H p.zc p.zs finc fins (enc.map (·.2.2)) (enc.map (·.1.buf)) enc.length
      (dec.map (·.2.2)) (dec.map (·.1.buf)) dec.length aadLen
  | _, _ => .error (.ub "null AEAD_Proof object")

/-- What comes out of a proof phase: all checks issued, the result of `handshake_check`, the messages, the result of `finalize_check`.
`protocol/post_record.h:74-200`. -/
structure Verdict where
  checks : List Check
  handshake : Bool
  messages : List Integer
  tags : Bool

/-- The proof phase in the order of `test/protocol.cpp:127-142`. -/
def Post.session (junk : AESCircuit.Wires) (p : Post) (g : Nat → List Byte) (pms : Nat) (k : MasterSeed) (rc rs tauC tauS : List Byte)
    (finc : PostRecord.Rec) (ivc : List Byte) (fins : PostRecord.Rec) (ivs : List Byte) (claims : List Claim) (aadLen : Nat) :
    Res (Post × Verdict) := do
  let (p, k1) ← p.step1 junk g pms k rc rs tauC tauS
  let (p, k2) ← p.step2 finc.ctxt ivc
  let (p, k3, b) ← p.step3 fins.ctxt ivs
  let (p, k4, out) ← p.records claims
  let t ← p.finalize finc fins out aadLen
  .ok (p, ⟨k1 ++ k2 ++ k3 ++ k4, b, out.map (·.2.1), t⟩)

end Verif.Model.Session
