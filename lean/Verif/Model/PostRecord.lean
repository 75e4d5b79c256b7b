import Verif.Model.AEADProof

/-!
Model of `PostRecord::finalize_check`, `protocol/post_record.h:155-201`.  The values are revealed to both parties
(`reveal<block>` writes the bits least significant first, emp-tool, external).
-/

namespace Verif.Model.PostRecord
open Integer AEAD

/-- A ciphertext buffer (its size is the length argument), the tag buffer and the buffer of the additional data.
The parameters of `protocol/post_record.h:155-170`. -/
structure Rec where
  ctxt : List Byte
  tag : List Byte
  aad : List Byte

/-- The buffers are large enough for what `compare_tag` reads. `protocol/aead.h:533-545`. -/
def Rec.readable (aadLen : Nat) (r : Rec) : Bool := 16 ≤ r.tag.length && aadLen ≤ r.aad.length

/-- `compare_tag` on one record.
`protocol/aead.h:533-545`, called in `protocol/post_record.h:188-200`. -/
def Rec.compare (aadLen : Nat) (r : Rec) (h z0 : Block) : Bool := compareTag r.tag h z0 r.ctxt (r.aad.take aadLen)

/-- Block `i` of the revealed value. `protocol/post_record.h:186-200`. -/
def blockAt (h : Integer) (i : Nat) : Block := blk ((h.drop (128 * i)).take 128)

/-- `finalize_check`, `protocol/post_record.h:155-201`.  `Hc`, `Hs` are the hash keys of the two proof objects, `zc`, `zs` the
stored `client_finished_z0`, `server_finished_z0`. -/
def finalizeCheck (Hc Hs zc zs : Integer) (finc fins : Rec) (encZ0s : List Integer) (enc : List Rec) (encNum : Nat)
    (decZ0s : List Integer) (dec : List Rec) (decNum aadLen : Nat) : Res Bool :=
  if encZ0s.length < encNum ∨ enc.length < encNum ∨ decZ0s.length < decNum ∨ dec.length < decNum then
    .error (.ub "vector index out of range")
  else if ¬ ((finc :: fins :: (enc.take encNum ++ dec.take decNum)).all (Rec.readable aadLen)) then
    .error (.ub "buffer too short")
  else
    -- lines 176-182
    let h := reverseConcat [] [Hc]
    let h := reverseConcat h [Hs]
    let h := reverseConcat h [zc]
    let h := reverseConcat h [zs]
    let h := reverseConcat h (encZ0s.take encNum)
    let h := reverseConcat h (decZ0s.take decNum)
    if h.length ≠ 128 * (4 + encNum + decNum) then .error (.ub "blks_h: partly uninitialised or overflown")
    else
      let blks := blockAt h
      -- lines 188-198
      let res := true
      let res := res && finc.compare aadLen (blks 0) (blks 2)
      let res := res && fins.compare aadLen (blks 1) (blks 3)
      let res := (enc.take encNum).zipIdx.foldl (fun res p => res && p.1.compare aadLen (blks 0) (blks (4 + p.2))) res
      let res := (dec.take decNum).zipIdx.foldl (fun res p => res && p.1.compare aadLen (blks 1) (blks (4 + encNum + p.2))) res
      .ok res

end Verif.Model.PostRecord
