import Verif.Lemmas.GCM
import Verif.Props.OLE

/-!
C25 to C29: the joint AES-GCM of `protocol/aead.h` against SP 800-38D (`Verif.Spec.GCM`).

`E` is the block cipher under the session key (its circuit is the subject of C43).
-/

namespace Verif.Props
open Verif.Model Verif.Model.Integer Verif.Model.AEAD Verif.Lemmas
open Verif.Spec (gcmMul gcmGhash)

/-- The states an `AEAD` object can be in: built by the constructor with a mask `r ≠ 0`, then any sequence of
encryptions and decryptions, with any inputs and any randomness; in public mode both parties pass buffers of the
same length. -/
inductive Reach (hash : List Byte → List Byte) (E : Block → Block) (fiv : List Byte) (s : Bool) : State → Prop
  | construct {m r raw0 raw1 st} : r ≠ 0 → AEAD.construct E (strToInt fiv) s m r raw0 raw1 = .ok st →
      Reach hash E fiv s st
  | encrypt {st st' a b msgA msgB aad iv secret m raw0 raw1} : Reach hash E fiv s st →
      (secret = false → msgB.length = msgA.length) →
      AEAD.encrypt s st msgA msgB aad iv secret m raw0 raw1 = .ok (st', a, b) → Reach hash E fiv s st'
  | decrypt {st st' a b cA cB tA tB aad iv secret m raw0 raw1 rA rB} : Reach hash E fiv s st →
      (secret = false → cB.length = cA.length) →
      AEAD.decrypt hash s st cA cB tA tB aad iv secret m raw0 raw1 rA rB = .ok (st', a, b) → Reach hash E fiv s st'

/-- The invariant of the object. -/
structure Good (E : Block → Block) (fiv : List Byte) (st : State) : Prop where
  cipher : st.E = E
  iv : st.fixedIv = strToInt fiv
  pow : ∃ (a b : F128) (k : Nat), a * b = ⟨E 0⟩ ∧ st.mulA = powers a (k + 1) ∧ st.mulB = powers b (k + 1)

/-- What one record adds to the queues kept for the later proof: the two shares of `E(J)`, the value ALICE commits to,
and either the opened key stream (public mode) or the two shares of it (secret mode). -/
def Pushed (st st' : State) (j : Block) (n : Nat) (secret : Bool) : Prop :=
  ∃ z0A z0B, z0A ^^^ z0B = st.E j
    ∧ st'.E = st.E ∧ st'.fixedIv = st.fixedIv ∧ st'.gcHA = st.gcHA ∧ st'.gcHB = st.gcHB ∧ st'.zkH = st.zkH
    ∧ st'.gcZ0A = st.gcZ0A ++ [z0A] ∧ st'.gcZ0B = st.gcZ0B ++ [z0B] ∧ st'.zkZ0 = st.zkZ0 ++ [ofBytes (blockBytes z0A)]
    ∧ if secret then
        ∃ zA, zA.length = n
          ∧ st'.gcZA = st.gcZA ++ [zA.reverse]
          ∧ st'.gcZB = st.gcZB ++ [(xorBytes zA (Spec.GCM.keyStream st.E j n)).reverse]
          ∧ st'.zkZ = st.zkZ ++ [ofBytes zA.reverse] ∧ st'.zLen = st.zLen ++ [n]
          ∧ st'.openZ = st.openZ ∧ st'.openLen = st.openLen
      else
        st'.openZ = st.openZ ++ [(Spec.GCM.keyStream st.E j n).reverse] ∧ st'.openLen = st.openLen ++ [n]
          ∧ st'.gcZA = st.gcZA ∧ st'.gcZB = st.gcZB ∧ st'.zkZ = st.zkZ ∧ st'.zLen = st.zLen

/-! ### C25 -/

theorem construct_eq (E : Block → Block) (fiv : Integer) (s : Bool) (m : Nat → Bool) (r : Block)
    (raw0 raw1 : Nat → Block) :
    ∃ st, AEAD.construct E fiv s m r raw0 raw1 = .ok st ∧ st.E = E ∧ st.fixedIv = fiv
      ∧ st.gcHA ^^^ st.gcHB = E 0
      ∧ ∃ a b : F128, st.mulA = [a.val] ∧ st.mulB = [b.val] ∧ a * b = ⟨invBlock r⟩ * ⟨r⟩ * ⟨E 0⟩ := by
  have hb : blk (ofNat 128 0) = (0 : Block) := by rw [blk, val_ofNat]; rfl
  have ha : aes E (ofNat 128 0) = .ok (ofNat 128 (E 0).toNat) := by rw [aes, if_pos (by simp), hb]
  generalize hH : ofNat 128 (E 0).toNat = H at ha
  have hl : H.length = 128 := by rw [← hH]; simp
  have hs := share_length m H
  have i1 := integerToBlock_eq _ (hs.1.trans hl)
  have i2 := integerToBlock_eq _ (hs.2.trans hl)
  have hx : blk (share m H).1 ^^^ blk (share m H).2 = E 0 := by
    have : (share m H).2 = Integer.xor (share m H).1 H := rfl
    rw [this, blk_xor _ _ (hs.1.trans hl) hl, ← BitVec.xor_assoc, BitVec.xor_self, BitVec.zero_xor, ← hH, blk_ofNat]
  generalize blk (share m H).1 = hA at i1 hx
  generalize blk (share m H).2 = hB at i2 hx
  have hxF : F128.mk hA + F128.mk hB = ⟨E 0⟩ := by ext1; exact hx
  have ole1 : ∀ x : Block, ∃ os or', OLE.f2kCompute raw0 raw1 [r] [x] = .ok ([os], [or'], []) ∧ os ^^^ or' = mulBlock r x := by
    intro x
    obtain ⟨os, or', h1, h2, h3, h4⟩ := C22_ole_f2k raw0 raw1 [r] [x] rfl
    match os, or', h2, h3, h4 with
    | [o], [o'], _, _, h4 =>
      refine ⟨o, o', h1, ?_⟩
      rw [mulBlock_eq_gcmMul]
      simpa using h4
  cases s with
  | true =>
    obtain ⟨os, or', h1, h2⟩ := ole1 hB
    refine ⟨_, by simp only [AEAD.construct, ha, bind, Except.bind, i1, i2, if_true, h1]; rfl, rfl, rfl, hx,
      ⟨invBlock r⟩, ⟨or' ^^^ (os ^^^ mulBlock r hA)⟩, rfl, rfl, ?_⟩
    have e : (⟨or' ^^^ (os ^^^ mulBlock r hA)⟩ : F128) = ⟨r⟩ * (⟨hA⟩ + ⟨hB⟩) := by
      rw [mul_add]
      ext1
      show or' ^^^ (os ^^^ mulBlock r hA) = mulBlock r hA ^^^ mulBlock r hB
      rw [← h2]; ac_rfl
    rw [e, hxF, mul_assoc]
  | false =>
    obtain ⟨os, or', h1, h2⟩ := ole1 hA
    refine ⟨_, by simp only [AEAD.construct, ha, bind, Except.bind, i1, i2, h1, Bool.false_eq_true, if_false]; rfl, rfl, rfl, hx,
      ⟨or' ^^^ (os ^^^ mulBlock r hB)⟩, ⟨invBlock r⟩, rfl, rfl, ?_⟩
    have e : (⟨or' ^^^ (os ^^^ mulBlock r hB)⟩ : F128) = ⟨r⟩ * (⟨hA⟩ + ⟨hB⟩) := by
      rw [mul_add]
      ext1
      show or' ^^^ (os ^^^ mulBlock r hB) = mulBlock r hA ^^^ mulBlock r hB
      rw [← h2]; ac_rfl
    rw [e, hxF]; ring

/-- C25 (partial: the mask `r = 0` is excluded, see `C25_zero_mask`): after the constructor the parties hold additive
shares of `H = E(0^128)` and, if the sender's mask is not
zero, two values whose product is `H`. -/
theorem C25_construct_partial (E : Block → Block) (fiv : Integer) (s : Bool) (m : Nat → Bool) (r : Block)
    (raw0 raw1 : Nat → Block) (hr : r ≠ 0) :
    ∃ st a b, AEAD.construct E fiv s m r raw0 raw1 = .ok st ∧ st.gcHA ^^^ st.gcHB = E 0
      ∧ st.mulA = [a] ∧ st.mulB = [b] ∧ gcmMul a b = E 0 := by
  obtain ⟨st, h1, -, -, h2, a, b, h3, h4, h5⟩ := construct_eq E fiv s m r raw0 raw1
  refine ⟨st, a.val, b.val, h1, h2, h3, h4, ?_⟩
  have hr' : (⟨r⟩ : F128) ≠ 0 := fun h => hr (congrArg F128.val h)
  have := F128.mul_invBlock ⟨r⟩ hr'
  rw [mul_comm (⟨invBlock r⟩ : F128), this, one_mul] at h5
  rw [← mulBlock_eq_gcmMul]
  exact congrArg F128.val h5

/-- A mask that is not zero. -/
example : ∃ st a b, AEAD.construct (fun b => b * b + 3#128) (strToInt [1, 2, 3, 4]) true (fun i => i % 3 = 0) 5 (fun _ => 7) (fun _ => 9) = .ok st
    ∧ st.gcHA ^^^ st.gcHB = 3#128 ∧ st.mulA = [a] ∧ st.mulB = [b] ∧ gcmMul a b = 3#128 :=
  C25_construct_partial (fun b => b * b + 3#128) _ _ _ _ _ _ (by decide)

/-- C25, the mask that is drawn with probability `2^-128` and not excluded by the code (line 63): the product of the
two values is then zero, whatever `H` is. -/
theorem C25_zero_mask (E : Block → Block) (fiv : Integer) (s : Bool) (m : Nat → Bool) (raw0 raw1 : Nat → Block) :
    ∃ st a b, AEAD.construct E fiv s m 0 raw0 raw1 = .ok st ∧ st.mulA = [a] ∧ st.mulB = [b] ∧ gcmMul a b = 0 := by
  obtain ⟨st, h1, -, -, h2, a, b, h3, h4, h5⟩ := construct_eq E fiv s m 0 raw0 raw1
  refine ⟨st, a.val, b.val, h1, h3, h4, ?_⟩
  have z : (⟨0⟩ : F128) = 0 := rfl
  rw [z, mul_zero, zero_mul] at h5
  rw [← mulBlock_eq_gcmMul]
  exact congrArg F128.val h5

theorem obvGhash_eq (s : Bool) (raw0 raw1 : Nat → Block) (a b : F128) (k : Nat) (ins : List Block) :
    ∃ oA oB k', obvGhash s raw0 raw1 (powers a (k + 1)) (powers b (k + 1)) ins
        = .ok (oA, oB, powers a (k' + 1), powers b (k' + 1))
      ∧ oA ^^^ oB = gcmGhash (a * b).val ins.reverse := by
  have ext : ∀ c : F128, extend c.val (ins.length - (powers c (k + 1)).length) (powers c (k + 1))
      = powers c (k + (ins.length - (k + 1)) + 1) := by
    intro c
    rw [length_powers, extend_powers]
    congr 1; omega
  obtain ⟨d, hd⟩ : ∃ d, k + (ins.length - (k + 1)) + 1 = ins.length + d :=
    ⟨k + (ins.length - (k + 1)) + 1 - ins.length, by omega⟩
  generalize hk : k + (ins.length - (k + 1)) = k' at ext hd
  obtain ⟨oA, oB, h1, h2, h3, h4⟩ := ole_eq s raw0 raw1 (List.zipWith mulBlock ins (powers a (k' + 1)))
    ((powers b (k' + 1)).take ins.length) (by simp) C22_ole_f2k
  refine ⟨xorAll oA, xorAll oB, k', ?_, ?_⟩
  · have hc : ∀ c : F128, ∃ t, powers c (k + 1) = c.val :: t := by
      intro c
      refine ⟨((List.range' 1 k).map fun i => (c ^ (i + 1)).val), ?_⟩
      rw [powers, List.range_eq_range', List.range'_succ, List.map_cons]
      simp
    obtain ⟨ta, hta⟩ := hc a
    obtain ⟨tb, htb⟩ := hc b
    have ea := ext a
    have eb := ext b
    rw [hta] at ea ⊢
    rw [htb] at eb ⊢
    simp only [obvGhash, ea, eb, h1, bind, Except.bind]
  · have e := sumF_products a b 0 d ins
    rw [polySum_reverse] at e
    rw [xorAll_eq, xorAll_eq, ← F128.add_val, ← sumF_zipWith_xor _ _ (by omega), h4]
    rw [powers, powers, hd, List.range_eq_range', e, ← ghash_eq_horner]
    have : (fun (y xi : Block) => mulBlock (y ^^^ xi) (a * b).val) = fun y x => gcmMul (y ^^^ x) (a * b).val := by
      funext y x; exact mulBlock_eq_gcmMul _ _
    rw [Model.ghash, this]
    rfl

/-- One step of the common end of `encrypt` and `decrypt`. -/
theorem tag_core (E : Block → Block) (s : Bool) (raw0 raw1 : Nat → Block) (a b : F128) (k : Nat) (hab : a * b = ⟨E 0⟩)
    (aad c : List Byte) (j z0A z0B : Block) (hz : z0A ^^^ z0B = E j) :
    ∃ oA oB k', obvGhash s raw0 raw1 (powers a (k + 1)) (powers b (k + 1)) (tagBlocks aad c)
        = .ok (oA, oB, powers a (k' + 1), powers b (k' + 1))
      ∧ blockToTag (oA ^^^ z0A ^^^ (oB ^^^ z0B)) = Spec.GCM.tag E j aad c := by
  obtain ⟨oA, oB, k', h1, h2⟩ := obvGhash_eq s raw0 raw1 a b k (tagBlocks aad c)
  refine ⟨oA, oB, k', h1, ?_⟩
  rw [blockToTag_eq, Spec.GCM.tag, Spec.GCM.tagWith]
  congr 1
  rw [tagBlocks_eq, List.reverse_reverse, hab] at h2
  have : oA ^^^ z0A ^^^ (oB ^^^ z0B) = (oA ^^^ oB) ^^^ (z0A ^^^ z0B) := by ac_rfl
  rw [this, h2, hz]
  rfl

/-! ### C26 -/

theorem encrypt_eq (E : Block → Block) (fiv : List Byte) (hf : fiv.length = 4) (s : Bool) (st : State)
    (g : Good E fiv st) (msgA msgB aad iv : List Byte) (hiv : iv.length = 8) (secret : Bool) (m : Nat → Bool)
    (raw0 raw1 : Nat → Block) (hB : secret = false → msgB.length = msgA.length) :
    ∃ st', AEAD.encrypt s st msgA msgB aad iv secret m raw0 raw1 =
        .ok (st', ⟨Spec.GCM.crypt E (Spec.GCM.j0 (fiv ++ iv)) msgA,
                    Spec.GCM.tag E (Spec.GCM.j0 (fiv ++ iv)) aad (Spec.GCM.crypt E (Spec.GCM.j0 (fiv ++ iv)) msgA)⟩,
                  ⟨Spec.GCM.crypt E (Spec.GCM.j0 (fiv ++ iv)) (if secret then msgA else msgB),
                    Spec.GCM.tag E (Spec.GCM.j0 (fiv ++ iv)) aad (Spec.GCM.crypt E (Spec.GCM.j0 (fiv ++ iv)) msgA)⟩)
      ∧ Good E fiv st' ∧ Pushed st st' (Spec.GCM.j0 (fiv ++ iv)) msgA.length secret := by
  obtain ⟨a, b, k, hab, hmA, hmB⟩ := g.pow
  obtain ⟨nonce, sA, z0A, z0B, h1, h2, h3⟩ := stream_eq st fiv iv msgA.length m g.iv hf hiv
  rw [g.cipher] at h1 h3
  generalize hj : Spec.GCM.j0 (fiv ++ iv) = j at *
  obtain ⟨zA, hzl, rfl⟩ := exists_strToInt sA msgA.length h2
  have hks : (Spec.GCM.keyStream E j msgA.length).length = msgA.length := length_keyStream _ _ _
  generalize hk : Spec.GCM.keyStream E j msgA.length = ks at h1 hks
  have hcA : Spec.GCM.crypt E j msgA = xorBytes msgA ks := by rw [← hk]; rfl
  obtain ⟨oA, oB, k', h4, h5⟩ := tag_core E s raw0 raw1 a b k hab aad (xorBytes msgA ks) j z0A z0B h3
  rw [hcA]
  have h5' : blockToTag (oB ^^^ z0B ^^^ (oA ^^^ z0A)) = Spec.GCM.tag E j aad (xorBytes msgA ks) := by
    rw [BitVec.xor_comm, h5]
  cases secret with
  | false =>
    have hcB : Spec.GCM.crypt E j msgB = xorBytes msgB ks := by
      rw [← hk, Spec.GCM.crypt, hB rfl]; rfl
    have tb : (toBytes (strToInt ks)).reverse = ks := by rw [strToInt, toBytes_ofBytes, List.reverse_reverse]
    refine ⟨?_, ?_, ?_⟩
    rotate_left
    · simp only [AEAD.encrypt, h1, bind, Except.bind, if_true, tb, hmA, hmB, h4, h5, h5', hcB, Bool.false_eq_true, if_false]; rfl
    · refine ⟨⟨rfl, g.iv, a, b, k', hab, rfl, rfl⟩, z0A, z0B, by rw [g.cipher]; exact h3, g.cipher.symm, rfl, rfl, rfl, rfl, rfl, rfl, rfl, ?_⟩
      rw [if_neg Bool.false_ne_true, g.cipher, hk]
      refine ⟨?_, rfl, rfl, rfl, rfl, rfl⟩
      rw [strToInt, toBytes_ofBytes]
  | true =>
    have c1 := integerToChars_strToInt zA
    have c2 := integerToChars_strToInt (xorBytes zA ks)
    rw [strToInt_xor _ _ (by omega)] at c2
    have e := xorBytes_cancel msgA zA ks hzl hks
    refine ⟨?_, ?_, ?_⟩
    rotate_left
    · simp only [AEAD.encrypt, h1, bind, Except.bind, c1, c2, e, hmA, hmB, h4, h5, h5', if_true, hcA, Bool.true_eq_false, if_false]; rfl
    · refine ⟨⟨rfl, g.iv, a, b, k', hab, rfl, rfl⟩, z0A, z0B, by rw [g.cipher]; exact h3, g.cipher.symm, rfl, rfl, rfl, rfl, rfl, rfl, rfl, ?_⟩
      rw [if_pos rfl, g.cipher, hk]
      exact ⟨zA, hzl, rfl, rfl, rfl, rfl, rfl, rfl⟩

theorem decrypt_eq (hash : List Byte → List Byte) (E : Block → Block) (fiv : List Byte) (hf : fiv.length = 4) (s : Bool)
    (st : State) (g : Good E fiv st) (ctxtA ctxtB tagA tagB aad iv : List Byte) (hiv : iv.length = 8) (secret : Bool)
    (m : Nat → Bool) (raw0 raw1 : Nat → Block) (rA rB : List Byte)
    (hB : secret = false → ctxtB.length = ctxtA.length) :
    ∃ st', AEAD.decrypt hash s st ctxtA ctxtB tagA tagB aad iv secret m raw0 raw1 rA rB =
        .ok (st', ⟨some (Spec.GCM.crypt E (Spec.GCM.j0 (fiv ++ iv)) ctxtA),
                    tagA.take 16 == Spec.GCM.tag E (Spec.GCM.j0 (fiv ++ iv)) aad ctxtA⟩,
                  ⟨if secret then none else some (Spec.GCM.crypt E (Spec.GCM.j0 (fiv ++ iv)) ctxtB),
                    tagB.take 16 == Spec.GCM.tag E (Spec.GCM.j0 (fiv ++ iv)) aad ctxtA⟩)
      ∧ Good E fiv st' ∧ Pushed st st' (Spec.GCM.j0 (fiv ++ iv)) ctxtA.length secret := by
  obtain ⟨a, b, k, hab, hmA, hmB⟩ := g.pow
  obtain ⟨nonce, sA, z0A, z0B, h1, h2, h3⟩ := stream_eq st fiv iv ctxtA.length m g.iv hf hiv
  rw [g.cipher] at h1 h3
  generalize hj : Spec.GCM.j0 (fiv ++ iv) = j at *
  obtain ⟨zA, hzl, rfl⟩ := exists_strToInt sA ctxtA.length h2
  have hks : (Spec.GCM.keyStream E j ctxtA.length).length = ctxtA.length := length_keyStream _ _ _
  generalize hk : Spec.GCM.keyStream E j ctxtA.length = ks at h1 hks
  have hcA : Spec.GCM.crypt E j ctxtA = xorBytes ctxtA ks := by rw [← hk]; rfl
  obtain ⟨oA, oB, k', h4, h5⟩ := tag_core E s raw0 raw1 a b k hab aad ctxtA j z0A z0B h3
  rw [hcA]
  have h5' : blockToTag (oB ^^^ z0B ^^^ (oA ^^^ z0A)) = Spec.GCM.tag E j aad ctxtA := by
    rw [BitVec.xor_comm, h5]
  have f1 : finish hash (oA ^^^ z0A) (Commitment.commit hash rB (blockBytes (oB ^^^ z0B))) rB (oB ^^^ z0B) tagA
      = (tagA.take 16 == Spec.GCM.tag E j aad ctxtA) := by
    rw [finish, Commitment.opens, Commitment.commit, beq_self_eq_true, if_pos rfl, h5]
  have f2 : finish hash (oB ^^^ z0B) (Commitment.commit hash rA (blockBytes (oA ^^^ z0A))) rA (oA ^^^ z0A) tagB
      = (tagB.take 16 == Spec.GCM.tag E j aad ctxtA) := by
    rw [finish, Commitment.opens, Commitment.commit, beq_self_eq_true, if_pos rfl, h5']
  cases secret with
  | false =>
    have hcB : Spec.GCM.crypt E j ctxtB = xorBytes ctxtB ks := by
      rw [← hk, Spec.GCM.crypt, hB rfl]; rfl
    have tb : (toBytes (strToInt ks)).reverse = ks := by rw [strToInt, toBytes_ofBytes, List.reverse_reverse]
    refine ⟨?_, ?_, ?_⟩
    rotate_left
    · simp only [AEAD.decrypt, h1, bind, Except.bind, if_true, tb, hmA, hmB, h4, f1, f2, hcB, Bool.false_eq_true, if_false]; rfl
    · refine ⟨⟨rfl, g.iv, a, b, k', hab, rfl, rfl⟩, z0A, z0B, by rw [g.cipher]; exact h3, g.cipher.symm, rfl, rfl, rfl, rfl, rfl, rfl, rfl, ?_⟩
      rw [if_neg Bool.false_ne_true, g.cipher, hk]
      refine ⟨?_, rfl, rfl, rfl, rfl, rfl⟩
      rw [strToInt, toBytes_ofBytes]
  | true =>
    have c1 := integerToChars_strToInt zA
    have c2 := integerToChars_strToInt (xorBytes zA ks)
    rw [strToInt_xor _ _ (by omega)] at c2
    have e := xorBytes_cancel' ctxtA zA ks hzl hks
    refine ⟨?_, ?_, ?_⟩
    rotate_left
    · simp only [AEAD.decrypt, h1, bind, Except.bind, c1, c2, e, hmA, hmB, h4, f1, f2, if_true, Bool.true_eq_false, if_false]; rfl
    · refine ⟨⟨rfl, g.iv, a, b, k', hab, rfl, rfl⟩, z0A, z0B, by rw [g.cipher]; exact h3, g.cipher.symm, rfl, rfl, rfl, rfl, rfl, rfl, rfl, ?_⟩
      rw [if_pos rfl, g.cipher, hk]
      exact ⟨zA, hzl, rfl, rfl, rfl, rfl, rfl, rfl⟩

theorem setNonce_iv {fiv : Integer} {iv : List Byte} {x : Integer} (h : setNonce fiv iv = .ok x) : iv.length = 8 := by
  unfold setNonce at h
  split at h
  · cases h
  · omega

theorem reach_good {hash : List Byte → List Byte} {E : Block → Block} {fiv : List Byte} (hf : fiv.length = 4) {s : Bool}
    {st : State} (h : Reach hash E fiv s st) : Good E fiv st := by
  induction h with
  | construct hr hc =>
    rename_i m r raw0 raw1 st
    obtain ⟨st', h1, hE, hi, -, a, b, h3, h4, h5⟩ := construct_eq E (strToInt fiv) s m r raw0 raw1
    rw [hc] at h1
    cases h1
    have hr' : (⟨r⟩ : F128) ≠ 0 := fun h => hr (congrArg F128.val h)
    have := F128.mul_invBlock ⟨r⟩ hr'
    rw [mul_comm (⟨invBlock r⟩ : F128), this, one_mul] at h5
    exact ⟨hE, hi, a, b, 0, h5, by rw [h3]; simp [powers], by rw [h4]; simp [powers]⟩
  | encrypt _ hl he ih =>
    rename_i st st' a b msgA msgB aad iv secret m raw0 raw1 _
    by_cases hiv : iv.length = 8
    · obtain ⟨st2, h1, h2, -⟩ := encrypt_eq E fiv hf s st ih msgA msgB aad iv hiv secret m raw0 raw1 hl
      rw [he] at h1
      cases h1
      exact h2
    · simp [AEAD.encrypt, stream, setNonce, hiv, bind, Except.bind] at he
  | decrypt _ hl he ih =>
    rename_i st st' a b cA cB tA tB aad iv secret m raw0 raw1 rA rB _
    by_cases hiv : iv.length = 8
    · obtain ⟨st2, h1, h2, -⟩ := decrypt_eq hash E fiv hf s st ih cA cB tA tB aad iv hiv secret m raw0 raw1 rA rB hl
      rw [he] at h1
      cases h1
      exact h2
    · simp [AEAD.decrypt, stream, setNonce, hiv, bind, Except.bind] at he

/-- C25: in every reachable state and for every sequence of blocks (given in the order of the code, last block first)
the values the two parties obtain from the joint GHASH xor to GHASH under `H = E(0^128)`. -/
theorem C25_ghash {hash : List Byte → List Byte} {E : Block → Block} {fiv : List Byte} (hf : fiv.length = 4) {s : Bool}
    {st : State} (h : Reach hash E fiv s st) (raw0 raw1 : Nat → Block) (ins : List Block) :
    ∃ oA oB mulA mulB, obvGhash s raw0 raw1 st.mulA st.mulB ins = .ok (oA, oB, mulA, mulB)
      ∧ oA ^^^ oB = gcmGhash (E 0) ins.reverse := by
  obtain ⟨-, -, a, b, k, hab, hA, hB⟩ := reach_good hf h
  obtain ⟨oA, oB, k', h1, h2⟩ := obvGhash_eq s raw0 raw1 a b k ins
  rw [hab] at h2
  exact ⟨oA, oB, _, _, by rw [hA, hB, h1], h2⟩

/-- C26: in every reachable state `encrypt` succeeds and gives both parties the ciphertext and the tag of GCM for the
nonce `fixed_iv || iv`, in public mode (both parties know the message) and in secret mode (only ALICE does). -/
theorem C26_encrypt {hash : List Byte → List Byte} {E : Block → Block} {fiv : List Byte} (hf : fiv.length = 4) {s : Bool}
    {st : State} (h : Reach hash E fiv s st) (msg msgB aad iv : List Byte) (hiv : iv.length = 8) (secret : Bool)
    (hB : secret = false → msgB = msg) (m : Nat → Bool) (raw0 raw1 : Nat → Block) :
    ∃ st' c t, AEAD.encrypt s st msg msgB aad iv secret m raw0 raw1 = .ok (st', ⟨c, t⟩, ⟨c, t⟩)
      ∧ (c, t) = Spec.GCM.encrypt E (fiv ++ iv) aad msg := by
  obtain ⟨st', h1, -⟩ := encrypt_eq E fiv hf s st (reach_good hf h) msg msgB aad iv hiv secret m raw0 raw1
    (fun e => by rw [hB e])
  refine ⟨st', _, _, ?_, rfl⟩
  rw [h1]
  cases secret with
  | true => rfl
  | false => rw [hB rfl]; rfl

/-- The constructor gives a reachable state, in which a record of any message is encrypted. -/
example (hash : List Byte → List Byte) (E : Block → Block) (msg aad : List Byte) : ∃ st st' c t, Reach hash E [1, 2, 3, 4] true st
    ∧ AEAD.encrypt true st msg [] aad [0, 0, 0, 0, 0, 0, 0, 1] true (fun _ => true) (fun _ => 1) (fun _ => 2) = .ok (st', ⟨c, t⟩, ⟨c, t⟩)
    ∧ (c, t) = Spec.GCM.encrypt E [1, 2, 3, 4, 0, 0, 0, 0, 0, 0, 0, 1] aad msg := by
  obtain ⟨st, h1, -⟩ := construct_eq E (strToInt [1, 2, 3, 4]) true (fun i => i % 3 = 0) 5 (fun _ => 7) (fun _ => 9)
  have r1 : Reach hash E [1, 2, 3, 4] true st := Reach.construct (by decide) h1
  obtain ⟨st', c, t, h2, h3⟩ := C26_encrypt rfl r1 msg [] aad [0, 0, 0, 0, 0, 0, 0, 1] rfl true (fun h => by simp at h) (fun _ => true) (fun _ => 1) (fun _ => 2)
  exact ⟨st, st', c, t, r1, h2, h3⟩

/-- C26: an `iv` that is not eight bytes long is refused. -/
theorem C26_iv_refused (s : Bool) (st : State) (msgA msgB aad iv : List Byte) (hiv : iv.length ≠ 8) (secret : Bool)
    (m : Nat → Bool) (raw0 raw1 : Nat → Block) :
    ∃ e, AEAD.encrypt s st msgA msgB aad iv secret m raw0 raw1 = .error (.error e) := by
  refine ⟨_, by simp only [AEAD.encrypt, stream, setNonce, ne_eq, hiv, bind, Except.bind]; rfl⟩

/-- An `iv` of twelve bytes. -/
example (st : State) : ∃ e, AEAD.encrypt true st [1] [1] [] (List.replicate 12 0) false (fun _ => true) (fun _ => 1) (fun _ => 2) = .error (.error e) :=
  C26_iv_refused _ _ _ _ _ _ (by decide) _ _ _ _

/-- C27: in every reachable state an honest `decrypt` succeeds; both parties return true exactly if their tag is the GCM
tag of the ciphertext; ALICE's buffer becomes the ciphertext xored with the key stream, BOB's too in public mode, and
BOB's buffer is not written in secret mode. -/
theorem C27_decrypt {hash : List Byte → List Byte} {E : Block → Block} {fiv : List Byte} (hf : fiv.length = 4) {s : Bool}
    {st : State} (h : Reach hash E fiv s st) (c tag aad iv : List Byte) (hiv : iv.length = 8) (ht : tag.length = 16)
    (secret : Bool) (m : Nat → Bool) (raw0 raw1 : Nat → Block) (rA rB : List Byte) :
    ∃ st' ok, AEAD.decrypt hash s st c c tag tag aad iv secret m raw0 raw1 rA rB
        = .ok (st', ⟨some (Spec.GCM.crypt E (Spec.GCM.j0 (fiv ++ iv)) c), ok⟩,
                    ⟨if secret then none else some (Spec.GCM.crypt E (Spec.GCM.j0 (fiv ++ iv)) c), ok⟩)
      ∧ (ok = true ↔ Spec.GCM.decrypt E (fiv ++ iv) aad c tag = some (Spec.GCM.crypt E (Spec.GCM.j0 (fiv ++ iv)) c))
      ∧ (ok = false ↔ Spec.GCM.decrypt E (fiv ++ iv) aad c tag = none) := by
  obtain ⟨st', h1, -⟩ := decrypt_eq hash E fiv hf s st (reach_good hf h) c c tag tag aad iv hiv secret m raw0 raw1 rA rB
    (fun _ => rfl)
  refine ⟨st', _, h1, ?_, ?_⟩
  · rw [List.take_of_length_le (by omega), beq_iff_eq, Spec.GCM.decrypt]
    constructor
    · intro e; rw [if_pos e]
    · intro e
      by_contra hne
      rw [if_neg hne] at e
      cases e
  · rw [List.take_of_length_le (by omega), beq_eq_false_iff_ne, Spec.GCM.decrypt]
    constructor
    · intro e; rw [if_neg e]
    · intro e hne
      rw [if_pos hne] at e
      cases e

theorem crypt_twice (E : Block → Block) (j : Block) (x : List Byte) :
    Spec.GCM.crypt E j (Spec.GCM.crypt E j x) = x := by
  have hl : (Spec.GCM.crypt E j x).length = x.length := by simp [Spec.GCM.crypt]
  rw [Spec.GCM.crypt, hl]
  exact xorBytes_twice x _ (by simp)

/-- C27: what one object encrypts, another object with the same key and fixed IV decrypts: the message comes back and
both parties accept. -/
theorem C27_roundtrip {hash : List Byte → List Byte} {E : Block → Block} {fiv : List Byte} (hf : fiv.length = 4)
    {s s' : Bool} {st dt : State} (h : Reach hash E fiv s st) (h' : Reach hash E fiv s' dt) (msg msgB aad iv : List Byte)
    (hiv : iv.length = 8) (secret secret' : Bool) (hB : secret = false → msgB = msg) (m m' : Nat → Bool)
    (raw0 raw1 raw0' raw1' : Nat → Block) (rA rB : List Byte) :
    ∃ st' a b dt' oB, AEAD.encrypt s st msg msgB aad iv secret m raw0 raw1 = .ok (st', a, b)
      ∧ AEAD.decrypt hash s' dt a.ctxt b.ctxt a.tag b.tag aad iv secret' m' raw0' raw1' rA rB
          = .ok (dt', ⟨some msg, true⟩, ⟨oB, true⟩)
      ∧ oB = if secret' then none else some msg := by
  obtain ⟨st', c, t, h1, h2⟩ := C26_encrypt hf h msg msgB aad iv hiv secret hB m raw0 raw1
  simp only [Spec.GCM.encrypt, Prod.mk.injEq] at h2
  obtain ⟨hc, ht⟩ := h2
  obtain ⟨dt', h3, -⟩ := decrypt_eq hash E fiv hf s' dt (reach_good hf h') c c t t aad iv hiv secret' m' raw0' raw1' rA rB
    (fun _ => rfl)
  refine ⟨st', _, _, dt', _, h1, ?_, rfl⟩
  rw [h3]
  have hcm : Spec.GCM.crypt E (Spec.GCM.j0 (fiv ++ iv)) c = msg := by rw [hc, crypt_twice]
  have htl : t.length = 16 := by rw [ht]; simp [Spec.GCM.tag, Spec.GCM.tagWith]
  rw [hcm, List.take_of_length_le (by omega), ht, ← hc, beq_self_eq_true]

/-- The hypotheses are met: for every cipher, fixed IV and role assignment there are reachable states, and more after any
record. -/
example (hash : List Byte → List Byte) (E : Block → Block) (s : Bool) (msg : List Byte) :
    ∃ st st', Reach hash E [1, 2, 3, 4] s st ∧ Reach hash E [1, 2, 3, 4] s st' ∧ st'.gcZ0A.length = st.gcZ0A.length + 1 := by
  obtain ⟨st, h1, -⟩ := construct_eq E (strToInt [1, 2, 3, 4]) s (fun i => i % 3 = 0) 5 (fun _ => 7) (fun _ => 9)
  have r1 : Reach hash E [1, 2, 3, 4] s st := Reach.construct (by decide) h1
  obtain ⟨st', h2, -, z, _, -, -, -, -, -, -, h3, -⟩ := encrypt_eq E [1, 2, 3, 4] rfl s st (reach_good rfl r1) msg msg [9]
    [0, 0, 0, 0, 0, 0, 0, 1] rfl false (fun _ => true) (fun _ => 1) (fun _ => 2) (fun _ => rfl)
  exact ⟨st, st', r1, Reach.encrypt r1 (fun _ => rfl) h2, by rw [h3]; simp⟩

/-! ### C28 -/

theorem ghash_eq_spec (h : Block) (xs : List Block) : Model.ghash h xs = gcmGhash h xs := by
  have : (fun (y xi : Block) => mulBlock (y ^^^ xi) h) = fun y x => gcmMul (y ^^^ x) h := by
    funext y x; exact mulBlock_eq_gcmMul _ _
  rw [Model.ghash, this]
  rfl

/-- C28: `compute_tag` computes the GCM tag for the hash key `h` and the mask `z0`. -/
theorem C28_compute_tag (h z0 : Block) (ctxt aad : List Byte) :
    computeTag h z0 ctxt aad = Spec.GCM.tagWith h z0 aad ctxt := by
  rw [computeTag, tagBlocks_eq, List.reverse_reverse, blockToTag_eq, ghash_eq_spec, Spec.GCM.tagWith]

/-- C28: with `h = E(0)` and `z0 = E(J_0)` this is the tag of GCM, so it agrees with the joint computation. -/
theorem C28_compute_tag_gcm (E : Block → Block) (j : Block) (ctxt aad : List Byte) :
    computeTag (E 0) (E j) ctxt aad = Spec.GCM.tag E j aad ctxt := C28_compute_tag _ _ _ _

/-- C28: `compare_tag` accepts exactly the GCM tag. -/
theorem C28_compare_tag (tag : List Byte) (ht : tag.length = 16) (h z0 : Block) (ctxt aad : List Byte) :
    compareTag tag h z0 ctxt aad = true ↔ tag = Spec.GCM.tagWith h z0 aad ctxt := by
  rw [compareTag, List.take_of_length_le (by omega), beq_iff_eq, C28_compute_tag]

example : compareTag (List.replicate 16 0) 5 7 [1] [2] = true ↔ List.replicate 16 0 = Spec.GCM.tagWith 5 7 [2] [1] :=
  C28_compare_tag _ rfl _ _ _ _

/-- C28: the tag determines the mask: for one hash key, additional data and ciphertext, two masks with the same tag are
equal. -/
theorem C28_mask_unique (h z z' : Block) (ctxt aad : List Byte) (e : computeTag h z ctxt aad = computeTag h z' ctxt aad) :
    z = z' := by
  rw [C28_compute_tag, C28_compute_tag] at e
  have := bytesOf_inj e
  have h2 := congrArg (gcmGhash h (Spec.GCM.blocks (Spec.GCM.hashInput aad ctxt)) ^^^ ·) this
  simpa [← BitVec.xor_assoc] using h2

/-- Test case 2 of the GCM specification (all-zero AES-128 key, IV and plaintext block). -/
example : computeTag 0x66e94bd4ef8a2c3b884cfa59ca342b2e#128 0x58e2fccefa7e3061367f1d57a4e7455a#128
    [0x03, 0x88, 0xda, 0xce, 0x60, 0xb6, 0xa3, 0x92, 0xf3, 0x28, 0xc2, 0xb9, 0x71, 0xb2, 0xfe, 0x78] []
    = [0xab, 0x6e, 0x47, 0xd4, 0x2c, 0xec, 0x13, 0xbd, 0xf5, 0x3a, 0x67, 0xb2, 0x12, 0x57, 0xbd, 0xdf] := by
  decide +kernel

/-! ### C29 -/

/-- C29: the first counter block is `fixed_iv || iv || 00000001`. -/
theorem C29_first (fiv iv : List Byte) (hf : fiv.length = 4) (hiv : iv.length = 8) :
    ∃ nonce, setNonce (strToInt fiv) iv = .ok nonce ∧ nonce.length = 128 ∧ blk nonce = Spec.GCM.j0 (fiv ++ iv)
      ∧ Spec.GCM.bytesOf (blk nonce) = fiv ++ iv ++ [0, 0, 0, 1] := by
  refine ⟨_, setNonce_eq fiv iv hiv, by simp [hf, hiv], blk_strToInt _, ?_⟩
  rw [blk_strToInt, bytesOf_blockOf _ (by simp [hf, hiv])]
  rfl

example : ∃ nonce, setNonce (strToInt [1, 2, 3, 4]) [5, 6, 7, 8, 9, 10, 11, 12] = .ok nonce ∧ nonce.length = 128
    ∧ blk nonce = Spec.GCM.j0 [1, 2, 3, 4, 5, 6, 7, 8, 9, 10, 11, 12]
    ∧ Spec.GCM.bytesOf (blk nonce) = [1, 2, 3, 4, 5, 6, 7, 8, 9, 10, 11, 12, 0, 0, 0, 1] := C29_first [1, 2, 3, 4] _ rfl rfl

/-- C29: `gctr` appends the encryptions of the blocks `J, inc32 J, inc32 (inc32 J), ...` in order, most significant
first, and leaves the counter at the next unused block. -/
theorem C29_gctr (E : Block → Block) (m : Nat) (nonce : Integer) (h : nonce.length = 128) :
    ∃ z nonce', gctr E m [] nonce = .ok (z, nonce')
      ∧ z.reverse = Spec.Encoding.bytesBits ((List.range m).flatMap fun i => Spec.GCM.bytesOf (E (Spec.GCM.counter (blk nonce) i)))
      ∧ nonce'.length = 128 ∧ blk nonce' = Spec.GCM.counter (blk nonce) m := by
  obtain ⟨n', h1, h2, h3⟩ := gctr_eq E m [] nonce h
  refine ⟨_, n', h1, ?_, h2, h3⟩
  rw [strToInt_reverse, List.nil_append]
  rfl

theorem toNat_counter (j : Block) (i : Nat) :
    (Spec.GCM.counter j i).toNat = j.toNat / 2 ^ 32 * 2 ^ 32 + (j.toNat % 2 ^ 32 + i) % 2 ^ 32 := by
  induction i with
  | zero => simp [Spec.GCM.counter]; omega
  | succ i ih =>
    rw [Spec.GCM.counter, toNat_inc32, ih]
    omega

/-- C29: only the last 32 bits of the counter block change, and they count modulo `2^32`. -/
theorem C29_counter (j : Block) (i : Nat) :
    (Spec.GCM.counter j i).toNat / 2 ^ 32 = j.toNat / 2 ^ 32
      ∧ (Spec.GCM.counter j i).toNat % 2 ^ 32 = (j.toNat % 2 ^ 32 + i) % 2 ^ 32 := by
  rw [toNat_counter]; omega

/-- C29: the blocks used for one record are pairwise different up to `2^32` blocks. -/
theorem C29_distinct (j : Block) (i k : Nat) (hi : i < 2 ^ 32) (hk : k < 2 ^ 32)
    (h : Spec.GCM.counter j i = Spec.GCM.counter j k) : i = k := by
  have := congrArg BitVec.toNat h
  rw [toNat_counter, toNat_counter] at this
  omega

example : Spec.GCM.counter (Spec.GCM.j0 (List.replicate 12 9)) 1 ≠ Spec.GCM.counter (Spec.GCM.j0 (List.replicate 12 9)) (2 ^ 32 - 1) :=
  fun h => absurd (C29_distinct _ _ _ (by decide) (by decide) h) (by decide)

/-- C29: the bound is sharp: after `2^32` blocks the counter is back at `J_0`. -/
theorem C29_wraps (j : Block) : Spec.GCM.counter j (2 ^ 32) = j := by
  apply BitVec.eq_of_toNat_eq
  rw [toNat_counter]; omega

theorem div_j0 (l : List Byte) (h : l.length = 12) :
    Spec.GCM.bytesOf (Spec.GCM.j0 l) = l ++ [0, 0, 0, 1] := bytesOf_blockOf _ (by simp [h])

/-- C29: records with different nonces never share a counter block. -/
theorem C29_records (l l' : List Byte) (h : l.length = 12) (h' : l'.length = 12) (i k : Nat)
    (e : Spec.GCM.counter (Spec.GCM.j0 l) i = Spec.GCM.counter (Spec.GCM.j0 l') k) : l = l' := by
  have h1 := (C29_counter (Spec.GCM.j0 l) i).1
  rw [e, (C29_counter (Spec.GCM.j0 l') k).1] at h1
  -- the first 96 bits agree
  have key : (Spec.GCM.bytesOf (Spec.GCM.j0 l)).take 12 = (Spec.GCM.bytesOf (Spec.GCM.j0 l')).take 12 := by
    apply List.ext_getElem
    · simp
    · intro n g1 g2
      simp only [List.length_take, length_bytesOf] at g1
      simp only [List.getElem_take, Spec.GCM.bytesOf, List.getElem_map, List.getElem_range]
      apply BitVec.eq_of_toNat_eq
      simp only [BitVec.extractLsb'_toNat, Nat.shiftRight_eq_div_pow]
      have ex : 8 * (15 - n) = 32 + (8 * (15 - n) - 32) := by omega
      rw [ex, Nat.pow_add, ← Nat.div_div_eq_div_mul, ← Nat.div_div_eq_div_mul, h1]
  rw [div_j0 l h, div_j0 l' h', List.take_left' h, List.take_left' h'] at key
  exact key

example (i k : Nat) : Spec.GCM.counter (Spec.GCM.j0 (List.replicate 12 9)) i ≠ Spec.GCM.counter (Spec.GCM.j0 (List.replicate 12 8)) k :=
  fun h => absurd (C29_records _ _ rfl rfl _ _ h) (by decide)

/-- C29: in `encrypt`, `decrypt` and the proofs the mask of the tag is the encryption of block 0 and the key stream uses
the blocks from 1 on; so the mask block is never used for the key stream of a record of fewer than `2^32 - 1` blocks. -/
theorem C29_mask_separate (j : Block) (i : Nat) (hi : i + 1 < 2 ^ 32) :
    Spec.GCM.counter (Spec.GCM.inc32 j) i ≠ j := by
  rw [counter_inc]
  intro h
  have := C29_distinct j (i + 1) 0 hi (by norm_num) (by rw [h]; rfl)
  omega

example : Spec.GCM.counter (Spec.GCM.inc32 (Spec.GCM.j0 (List.replicate 12 9))) 16383 ≠ Spec.GCM.j0 (List.replicate 12 9) :=
  C29_mask_separate _ _ (by decide)

end Verif.Props
