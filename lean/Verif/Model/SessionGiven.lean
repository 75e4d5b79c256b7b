import Verif.Model.ZkVerifier

/-!
The proof phase against a prover who controls the key derivation.

In `prove_and_check_handshake_step1` (`protocol/post_record.h:74-103`) the keys are computed from private inputs of ALICE; the inner digests that ALICE feeds
again (`cipher/hmac_sha256.h:94`) are not compared with anything (`C45_inner_digest_unbound`).  Here the result of the derivation (master secret, keys, the two checks
of the finished values, the handshake object) is an argument: whatever ALICE makes of it.  The remainder of the proof phase is that of `Post.session` and
`ZkVerifier.verify`.
-/

namespace Verif.Model.Session
open Integer AEADProof SHA

/-- What the derivation of the proof phase ends with: master secret, keys, the two checks of the finished values, the handshake object.
`protocol/post_record.h:74-104`. -/
abbrev Derived := Integer × Keys × Check × Check × HsP

/-- `prove_and_check_handshake_step1` after the derivation, `protocol/post_record.h:99-102`. -/
def Post.step1Given (junk : AESCircuit.Wires) (p : Post) (d : Derived) : Res (Post × List Check) := do
  let (ms, ks, cc, cs, h) := d
  let ec ← encrypter junk ks.keyC
  let (pc, hc) ← construct ec ks.ivC p.c
  let es ← encrypter junk ks.keyS
  let (ps, hs) ← construct es ks.ivS p.s
  .ok ({ p with hs := h, master := ms, keys := ks, pc := some pc, ps := some ps }, [cc, cs, hc, hs])

/-- The proof phase of both parties in the order of `test/protocol.cpp:127-142`, given the outcome of the derivation. -/
def Post.sessionGiven (junk : AESCircuit.Wires) (p : Post) (d : Derived)
    (finc : PostRecord.Rec) (ivc : List Byte) (fins : PostRecord.Rec) (ivs : List Byte) (claims : List Claim) (aadLen : Nat) :
    Res (Post × Verdict) := do
  let (p, k1) ← p.step1Given junk d
  let (p, k2) ← p.step2 finc.ctxt ivc
  let (p, k3, b) ← p.step3 fins.ctxt ivs
  let (p, k4, out) ← p.records claims
  let t ← p.finalize finc fins out aadLen
  .ok (p, ⟨k1 ++ k2 ++ k3 ++ k4, b, out.map (·.2.1), t⟩)

end Verif.Model.Session

namespace Verif.Model.ZkVerifier
open Integer AEADProof SHA ZkCheck Session

/-- The proof phase as BOB sees it, given the outcome of the derivation.
`protocol/post_record.h:74-200`. -/
def verifyGiven (junk : AESCircuit.Wires) (p : Post) (d : Derived)
    (finc : PostRecord.Rec) (ivc : List Byte) (fins : PostRecord.Rec) (ivs : List Byte) (claims : List Claim) (aadLen : Nat) :
    Res (Post × Bob) := do
  let (p, k1) ← p.step1Given junk d
  let (p, k2) ← p.step2 finc.ctxt ivc
  match p.ps with
  | none => .error (.ub "null AEAD_Proof object")
  | some P =>
    let (st, k3, _, z0) ← prove P p.s fins.ctxt ivs false
    let hs ← handshakeItems p.hs.hs.prf p.hs.hs.hmac
    let p := { p with s := st, zs := z0 }
    let (p, k4, out) ← p.records claims
    match p.pc, p.ps with
    | some Pc, some Ps =>
      let enc := out.filter (·.1.kind = .client)
      let dec := out.filter (·.1.kind ≠ .client)
      if ¬ ((finc :: fins :: (enc.map (·.1.buf) ++ dec.map (·.1.buf))).all (PostRecord.Rec.readable aadLen)) then .error (.ub "buffer too short")
      else
        let h := openedValue Pc.H Ps.H p.zc p.zs (enc.map (·.2.2)) (dec.map (·.2.2))
        if h.length ≠ 128 * (4 + enc.length + dec.length) then .error (.ub "blks_h: partly uninitialised or overflown")
        else .ok (p, ⟨(k1 ++ k2 ++ k3).map .check ++ hs ++ k4.map .check, h,
          judge finc fins (enc.map (·.1.buf)) (dec.map (·.1.buf)) aadLen, out.map (·.2.1)⟩)
    | _, _ => .error (.ub "null AEAD_Proof object")

end Verif.Model.ZkVerifier
