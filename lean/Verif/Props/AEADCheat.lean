import Verif.Model.AEADCheat
import Verif.Props.OLECheat
import Verif.Props.AEAD

/-! C79: a sender of the oblivious linear evaluation of the tag that does not follow the protocol. -/

namespace Verif.Props.AEADCheat
open Verif.Model Verif.Model.OLE Verif.Model.AEAD Verif.Model.Integer Verif.Props Verif.Props.OLECheat Verif.Lemmas

/-- The error of an element: `ms` sent in place of `hs`, for the bits set in `y`. -/
def elemErr (ms hs : List Block) (y : Block) (i : Nat) : Block :=
  accum (fun j => if y.getLsbD j then Spec.gcmMul (ms.getD (i * 128 + j) 0 ^^^ hs.getD (i * 128 + j) 0) (base j) else 0) 128

theorem f2k_sent (cheat : List Block → List Block) (raw0 raw1 : Nat → Block) (ins inr : List Block) (hl : inr.length = ins.length)
    (hc : ∀ l, (cheat l).length = l.length) :
    ∃ os o, f2kCompute raw0 raw1 ins inr = .ok (os, o, []) ∧ o.length = inr.length
      ∧ f2kComputeSent cheat raw0 raw1 ins inr = .ok (os, List.zipWith (· ^^^ ·) o
        ((List.range inr.length).map fun i => elemErr (cheat (f2kSendAll raw0 raw1 0 ins).2) (f2kSendAll raw0 raw1 0 ins).2 (inr.getD i 0) i), []) := by
  generalize hhs : (f2kSendAll raw0 raw1 0 ins).2 = hs
  have hlen : hs.length = 128 * inr.length := by rw [← hhs, hl]; exact f2kSendAll_length _ _ _ _
  obtain ⟨o1, o2, e1, e2, m1, m2, s⟩ := f2kRecvAll_any (fun k c => if c then raw1 k else raw0 k) inr 0 (cheat hs) hs (by rw [hc, hlen]) hlen
  refine ⟨(f2kSendAll raw0 raw1 0 ins).1, o1, by simp only [f2kCompute, hhs, e1]; rfl, m1, ?_⟩
  simp only [f2kComputeSent, hhs, e2]
  have : o2 = List.zipWith (· ^^^ ·) o1 ((List.range inr.length).map fun i => elemErr (cheat hs) hs (inr.getD i 0) i) := by
    apply List.ext_getElem
    · simp [m1, m2]
    · intro i h1 h2
      have hi : i < inr.length := by omega
      have := s i inr[i] o1[i] o2[i] (List.getElem?_eq_getElem hi) (List.getElem?_eq_getElem (by omega)) (List.getElem?_eq_getElem h1)
      rw [this, List.getElem_zipWith, List.getElem_map, List.getElem_range, List.getD_eq_getElem?_getD, List.getElem?_eq_getElem hi, Option.getD_some]
      have h : elemErr (cheat hs) hs inr[i] i
          = accum (fun j => if inr[i].getLsbD j then mulBlock ((cheat hs).getD (i * 128 + j) 0 ^^^ hs.getD (i * 128 + j) 0) (base j) else 0) 128 := by
        unfold elemErr
        apply accum_congr
        intro j _
        rw [mulBlock_eq_gcmMul]
      rw [h]
  rw [← this]
  rfl

/-- The list of the receiver of the OLE in `obv_ghash`. -/
def recvIn (s : Bool) (a b : F128) (ins : List Block) (i : Nat) : Block :=
  if s then (b ^ (i + 1)).val else (⟨ins.getD i 0⟩ * a ^ (i + 1) : F128).val

theorem xorAll_zip (a b : List Block) (h : a.length = b.length) : xorAll (List.zipWith (· ^^^ ·) a b) = xorAll a ^^^ xorAll b := by
  rw [xorAll_eq, xorAll_eq, xorAll_eq, sumF_zipWith_xor a b h, F128.add_val]

theorem powers_getD (c : F128) (n i : Nat) (hi : i < n) : (powers c n).getD i 0 = (c ^ (i + 1)).val := by
  simp [powers, List.getD_eq_getElem?_getD, hi]

/-- `obv_ghash` with the cheating sender, against the run of the code. -/
theorem obvGhash_sent (cheat : List Block → List Block) (hc : ∀ l, (cheat l).length = l.length) (s : Bool) (raw0 raw1 : Nat → Block) (a b : F128) (k : Nat)
    (ins : List Block) :
    ∃ oA oB mA mB hs, obvGhash s raw0 raw1 (powers a (k + 1)) (powers b (k + 1)) ins = .ok (oA, oB, mA, mB)
      ∧ hs.length = 128 * ins.length
      ∧ obvGhashSent cheat s raw0 raw1 (powers a (k + 1)) (powers b (k + 1)) ins
        = .ok (if s then oA else oA ^^^ xorAll ((List.range ins.length).map fun i => elemErr (cheat hs) hs (recvIn s a b ins i) i),
               if s then oB ^^^ xorAll ((List.range ins.length).map fun i => elemErr (cheat hs) hs (recvIn s a b ins i) i) else oB, mA, mB) := by
  have ext : ∀ c : F128, extend c.val (ins.length - (powers c (k + 1)).length) (powers c (k + 1))
      = powers c (k + (ins.length - (k + 1)) + 1) := by
    intro c
    rw [length_powers, extend_powers]
    congr 1; omega
  have hle : ins.length ≤ k + (ins.length - (k + 1)) + 1 := by omega
  generalize hk : k + (ins.length - (k + 1)) = k' at ext hle
  have hcons : ∀ c : F128, ∃ t, powers c (k + 1) = c.val :: t := by
    intro c
    refine ⟨((List.range' 1 k).map fun i => (c ^ (i + 1)).val), ?_⟩
    rw [powers, List.range_eq_range', List.range'_succ, List.map_cons]
    simp
  obtain ⟨ta, hta⟩ := hcons a
  obtain ⟨tb, htb⟩ := hcons b
  have ea := ext a
  have eb := ext b
  rw [hta] at ea
  rw [htb] at eb
  rw [hta, htb]
  have l1 : (List.zipWith mulBlock ins (powers a (k' + 1))).length = ins.length := by simp; omega
  have l2 : ((powers b (k' + 1)).take ins.length).length = ins.length := by simp; omega
  cases s with
  | true =>
    obtain ⟨os, o, h1, h2, h3⟩ := f2k_sent cheat raw0 raw1 (List.zipWith mulBlock ins (powers a (k' + 1))) ((powers b (k' + 1)).take ins.length) (by omega) hc
    generalize hhs : (f2kSendAll raw0 raw1 0 (List.zipWith mulBlock ins (powers a (k' + 1)))).2 = hs at h3
    refine ⟨xorAll os, xorAll o, powers a (k' + 1), powers b (k' + 1), hs, ?_, ?_, ?_⟩
    · simp only [obvGhash, AEAD.ole, ea, eb, h1, bind, Except.bind, if_true]
    · rw [← hhs, f2kSendAll_length, l1]
    · simp only [obvGhashSent, oleSent, ea, eb, h3, bind, Except.bind, if_true]
      rw [xorAll_zip _ _ (by simp only [List.length_map, List.length_range]; exact h2), l2]
      have : ((List.range ins.length).map fun i => elemErr (cheat hs) hs (((powers b (k' + 1)).take ins.length).getD i 0) i)
          = (List.range ins.length).map fun i => elemErr (cheat hs) hs (recvIn true a b ins i) i := by
        apply List.map_congr_left
        intro i hi
        have hi : i < ins.length := by simpa using hi
        have : ((powers b (k' + 1)).take ins.length).getD i 0 = recvIn true a b ins i := by
          rw [recvIn, if_pos rfl, ← powers_getD b (k' + 1) i (by omega)]
          simp only [List.getD_eq_getElem?_getD, List.getElem?_take, if_pos hi]
        rw [this]
      rw [this]
  | false =>
    obtain ⟨os, o, h1, h2, h3⟩ := f2k_sent cheat raw0 raw1 ((powers b (k' + 1)).take ins.length) (List.zipWith mulBlock ins (powers a (k' + 1))) (by omega) hc
    generalize hhs : (f2kSendAll raw0 raw1 0 ((powers b (k' + 1)).take ins.length)).2 = hs at h3
    refine ⟨xorAll o, xorAll os, powers a (k' + 1), powers b (k' + 1), hs, ?_, ?_, ?_⟩
    · simp only [obvGhash, AEAD.ole, ea, eb, h1, bind, Except.bind, Bool.false_eq_true, if_false]
    · rw [← hhs, f2kSendAll_length, l2]
    · simp only [obvGhashSent, oleSent, ea, eb, h3, bind, Except.bind, Bool.false_eq_true, if_false]
      rw [xorAll_zip _ _ (by simp only [List.length_map, List.length_range]; exact h2), l1]
      have : ((List.range ins.length).map fun i => elemErr (cheat hs) hs ((List.zipWith mulBlock ins (powers a (k' + 1))).getD i 0) i)
          = (List.range ins.length).map fun i => elemErr (cheat hs) hs (recvIn false a b ins i) i := by
        apply List.map_congr_left
        intro i hi
        have hi : i < ins.length := by simpa using hi
        have : (List.zipWith mulBlock ins (powers a (k' + 1))).getD i 0 = recvIn false a b ins i := by
          rw [recvIn, if_neg Bool.false_ne_true, F128.mul_val, ← powers_getD a (k' + 1) i (by omega)]
          have hp : i < (powers a (k' + 1)).length := by simp; omega
          simp only [List.getD_eq_getElem?_getD, List.getElem?_zipWith, List.getElem?_eq_getElem hi, List.getElem?_eq_getElem hp, Option.getD_some]
        rw [this]
      rw [this]

/-- One changed block: the error of an element. -/
theorem elemErr_single (i j : Nat) (hj : j < 128) (e : Block) (hs : List Block) (hi : i * 128 + j < hs.length) (y : Block) (i' : Nat) :
    elemErr (xorAt (i * 128 + j) e hs) hs y i' = if i' = i ∧ y.getLsbD j then Spec.gcmMul e (base j) else 0 := by
  have hz : ∀ x : Block, Spec.gcmMul 0 x = 0 := by
    intro x
    rw [← mulBlock_eq_gcmMul]
    exact (mulBlock_lin_left x).zero
  have hd : ∀ j', j' < 128 → (xorAt (i * 128 + j) e hs).getD (i' * 128 + j') 0 ^^^ hs.getD (i' * 128 + j') 0 = if i' = i ∧ j' = j then e else 0 := by
    intro j' hj'
    unfold xorAt
    rw [List.getD_eq_getElem?_getD, List.getD_eq_getElem?_getD, List.getElem?_modify]
    by_cases h : i' = i ∧ j' = j
    · obtain ⟨rfl, rfl⟩ := h
      rw [List.getElem?_eq_getElem hi]
      simp only [and_self, if_true, Option.map_eq_map, Option.map_some, Option.getD_some]
      generalize hs[i' * 128 + j'] = w
      rw [BitVec.xor_comm w, BitVec.xor_assoc, BitVec.xor_self]
      simp
    · have h' : ¬ (i * 128 + j = i' * 128 + j') := by
        intro hh; apply h; omega
      rw [if_neg h]
      cases hs[i' * 128 + j']? with
      | none => simp
      | some w => simp [h']
  have key : ∀ n, n ≤ 128 → accum (fun j' => if y.getLsbD j' then Spec.gcmMul ((xorAt (i * 128 + j) e hs).getD (i' * 128 + j') 0 ^^^ hs.getD (i' * 128 + j') 0) (base j') else 0) n
      = if j < n ∧ i' = i ∧ y.getLsbD j then Spec.gcmMul e (base j) else 0 := by
    intro n
    induction n with
    | zero => intro _; simp [accum]
    | succ n ih =>
      intro hn
      rw [accum, ih (by omega), hd n (by omega)]
      by_cases h1 : n = j
      · subst h1
        by_cases h2 : i' = i <;> cases hy : y.getLsbD n <;> simp [h2]
        exact hz _
      · have h3 : (j < n + 1) ↔ j < n := by omega
        simp only [h3, h1, and_false, if_false, hz, ite_self]
        exact BitVec.xor_zero
  rw [elemErr, key 128 (le_refl _)]
  simp [hj]

theorem xorAll_single (n i : Nat) (hi : i < n) (d : Block) : xorAll ((List.range n).map fun i' => if i' = i then d else 0) = d := by
  rw [xorAll_eq]
  have key : ∀ n, sumF ((List.range n).map fun i' => if i' = i then d else 0) = if i < n then ⟨d⟩ else 0 := by
    intro n
    induction n with
    | zero => simp [sumF]
    | succ n ih =>
      have : sumF ((List.range (n + 1)).map fun i' => if i' = i then d else 0) = sumF ((List.range n).map fun i' => if i' = i then d else 0) + ⟨if n = i then d else 0⟩ := by
        unfold sumF
        rw [List.range_succ, List.map_append, List.map_append, List.sum_append]
        simp
      rw [this, ih]
      by_cases h : n = i
      · subst h; simp
      · have h3 : (i < n + 1) ↔ i < n := by omega
        simp only [h3, h, if_false]
        exact add_zero _
  rw [key n, if_pos hi]

theorem blockToTag_xor (x y : Block) : blockToTag (x ^^^ y) = xorBytes (blockToTag x) (blockToTag y) := by
  unfold blockToTag xorBytes
  rw [← List.reverse_zipWith (by simp)]
  congr 1
  apply List.ext_getElem
  · simp
  · intro i h1 h2
    simp only [blockBytes, List.getElem_map, List.getElem_range, List.getElem_zipWith, BitVec.ushiftRight_xor_distrib, BitVec.setWidth_xor]

theorem blockToTag_inj {x y : Block} (h : blockToTag x = blockToTag y) : x = y := by
  have := List.reverse_injective h
  rw [← blockOfBytes_blockBytes x, ← blockOfBytes_blockBytes y, this]

/-- The sum of the errors of the elements, for the inputs of the party that receives. -/
def tagErr (cheat : List Block → List Block) (hs : List Block) (s : Bool) (a b : F128) (ins : List Block) : Block :=
  xorAll ((List.range ins.length).map fun i => elemErr (cheat hs) hs (recvIn s a b ins i) i)

theorem flip_tag (s : Bool) (oA oB zA zB d : Block) :
    blockToTag ((if s then oA else oA ^^^ d) ^^^ zA ^^^ ((if s then oB ^^^ d else oB) ^^^ zB))
      = xorBytes (blockToTag (oA ^^^ zA ^^^ (oB ^^^ zB))) (blockToTag d) := by
  rw [← blockToTag_xor]
  congr 1
  cases s
  · simp only [Bool.false_eq_true, if_false]; ac_rfl
  · simp only [if_true]; ac_rfl

theorem encrypt_sent (cheat : List Block → List Block) (hc : ∀ l, (cheat l).length = l.length) (E : Block → Block) (fiv : List Byte)
    (hf : fiv.length = 4) (s : Bool) (st : State) (hE : st.E = E) (hi : st.fixedIv = strToInt fiv) (a b : F128) (k : Nat)
    (hmA : st.mulA = powers a (k + 1)) (hmB : st.mulB = powers b (k + 1))
    (msgA msgB aad iv : List Byte) (hiv : iv.length = 8) (secret : Bool) (m : Nat → Bool) (raw0 raw1 : Nat → Block) :
    ∃ st' cA cB t hs, AEAD.encrypt s st msgA msgB aad iv secret m raw0 raw1 = .ok (st', ⟨cA, t⟩, ⟨cB, t⟩)
      ∧ hs.length = 128 * (tagBlocks aad cA).length
      ∧ encryptSent cheat s st msgA msgB aad iv secret m raw0 raw1
        = .ok (st', ⟨cA, xorBytes t (blockToTag (tagErr cheat hs s a b (tagBlocks aad cA)))⟩,
                    ⟨cB, xorBytes t (blockToTag (tagErr cheat hs s a b (tagBlocks aad cA)))⟩) := by
  obtain ⟨nonce, sA, z0A, z0B, h1, h2, -⟩ := stream_eq st fiv iv msgA.length m hi hf hiv
  rw [hE] at h1
  generalize hj : Spec.GCM.j0 (fiv ++ iv) = j at *
  obtain ⟨zA, hzl, rfl⟩ := exists_strToInt sA msgA.length h2
  have hks : (Spec.GCM.keyStream E j msgA.length).length = msgA.length := length_keyStream _ _ _
  generalize hk : Spec.GCM.keyStream E j msgA.length = ks at h1 hks
  cases secret with
  | false =>
    have tb : (toBytes (strToInt ks)).reverse = ks := by rw [strToInt, toBytes_ofBytes, List.reverse_reverse]
    obtain ⟨oA, oB, mA, mB, hs, g1, g2, g3⟩ := obvGhash_sent cheat hc s raw0 raw1 a b k (tagBlocks aad (xorBytes msgA ks))
    refine ⟨?_, xorBytes msgA ks, xorBytes msgB ks, blockToTag (oA ^^^ z0A ^^^ (oB ^^^ z0B)), hs, ?_, g2, ?_⟩
    rotate_left
    · simp only [AEAD.encrypt, h1, bind, Except.bind, if_true, tb, hmA, hmB, g1, BitVec.xor_comm (oB ^^^ z0B)]; rfl
    · simp only [encryptSent, h1, bind, Except.bind, if_true, tb, hmA, hmB, g3]
      rw [BitVec.xor_comm ((if s then oB ^^^ _ else oB) ^^^ z0B), flip_tag]
      rfl
  | true =>
    have c1 := integerToChars_strToInt zA
    have c2 := integerToChars_strToInt (xorBytes zA ks)
    rw [strToInt_xor _ _ (by omega)] at c2
    have e := xorBytes_cancel msgA zA ks hzl hks
    obtain ⟨oA, oB, mA, mB, hs, g1, g2, g3⟩ := obvGhash_sent cheat hc s raw0 raw1 a b k (tagBlocks aad (xorBytes msgA ks))
    refine ⟨?_, xorBytes msgA ks, xorBytes msgA ks, blockToTag (oA ^^^ z0A ^^^ (oB ^^^ z0B)), hs, ?_, g2, ?_⟩
    rotate_left
    · simp only [AEAD.encrypt, h1, bind, Except.bind, c1, c2, e, hmA, hmB, g1, Bool.true_eq_false, if_false, BitVec.xor_comm (oB ^^^ z0B)]; rfl
    · simp only [encryptSent, h1, bind, Except.bind, c1, c2, e, hmA, hmB, g3, Bool.true_eq_false, if_false]
      rw [BitVec.xor_comm ((if s then oB ^^^ _ else oB) ^^^ z0B), flip_tag]
      rfl

theorem finish_eq (hash : List Byte → List Byte) (x y : Block) (r tag : List Byte) :
    finish hash x (Commitment.commit hash r (blockBytes y)) r y tag = (tag.take 16 == blockToTag (x ^^^ y)) := by
  rw [finish, Commitment.opens, Commitment.commit, beq_self_eq_true, if_pos rfl]

theorem decrypt_sent (cheat : List Block → List Block) (hc : ∀ l, (cheat l).length = l.length) (hash : List Byte → List Byte) (E : Block → Block)
    (fiv : List Byte) (hf : fiv.length = 4) (s : Bool) (st : State) (hE : st.E = E) (hi : st.fixedIv = strToInt fiv) (a b : F128) (k : Nat)
    (hmA : st.mulA = powers a (k + 1)) (hmB : st.mulB = powers b (k + 1))
    (ctxtA ctxtB tagA tagB aad iv : List Byte) (hiv : iv.length = 8) (secret : Bool) (m : Nat → Bool) (raw0 raw1 : Nat → Block) (rA rB : List Byte) :
    ∃ st' mA mB t hs, AEAD.decrypt hash s st ctxtA ctxtB tagA tagB aad iv secret m raw0 raw1 rA rB
        = .ok (st', ⟨mA, tagA.take 16 == t⟩, ⟨mB, tagB.take 16 == t⟩)
      ∧ hs.length = 128 * (tagBlocks aad ctxtA).length
      ∧ decryptSent cheat hash s st ctxtA ctxtB tagA tagB aad iv secret m raw0 raw1 rA rB
        = .ok (st', ⟨mA, tagA.take 16 == xorBytes t (blockToTag (tagErr cheat hs s a b (tagBlocks aad ctxtA)))⟩,
                    ⟨mB, tagB.take 16 == xorBytes t (blockToTag (tagErr cheat hs s a b (tagBlocks aad ctxtA)))⟩) := by
  obtain ⟨nonce, sA, z0A, z0B, h1, h2, -⟩ := stream_eq st fiv iv ctxtA.length m hi hf hiv
  rw [hE] at h1
  generalize hj : Spec.GCM.j0 (fiv ++ iv) = j at *
  obtain ⟨zA, hzl, rfl⟩ := exists_strToInt sA ctxtA.length h2
  have hks : (Spec.GCM.keyStream E j ctxtA.length).length = ctxtA.length := length_keyStream _ _ _
  generalize hk : Spec.GCM.keyStream E j ctxtA.length = ks at h1 hks
  obtain ⟨oA, oB, mA, mB, hs, g1, g2, g3⟩ := obvGhash_sent cheat hc s raw0 raw1 a b k (tagBlocks aad ctxtA)
  cases secret with
  | false =>
    have tb : (toBytes (strToInt ks)).reverse = ks := by rw [strToInt, toBytes_ofBytes, List.reverse_reverse]
    refine ⟨?_, ?_, ?_, blockToTag (oA ^^^ z0A ^^^ (oB ^^^ z0B)), hs, ?_, g2, ?_⟩
    rotate_left 3
    · simp only [AEAD.decrypt, h1, bind, Except.bind, if_true, tb, hmA, hmB, g1, finish_eq, BitVec.xor_comm (oB ^^^ z0B)]; rfl
    · simp only [decryptSent, h1, bind, Except.bind, if_true, tb, hmA, hmB, g3, finish_eq]
      rw [BitVec.xor_comm ((if s then oB ^^^ _ else oB) ^^^ z0B), flip_tag]
      rfl
  | true =>
    have c1 := integerToChars_strToInt zA
    have c2 := integerToChars_strToInt (xorBytes zA ks)
    rw [strToInt_xor _ _ (by omega)] at c2
    refine ⟨?_, ?_, ?_, blockToTag (oA ^^^ z0A ^^^ (oB ^^^ z0B)), hs, ?_, g2, ?_⟩
    rotate_left 3
    · simp only [AEAD.decrypt, h1, bind, Except.bind, c1, c2, hmA, hmB, g1, Bool.true_eq_false, if_false, finish_eq, BitVec.xor_comm (oB ^^^ z0B)]; rfl
    · simp only [decryptSent, h1, bind, Except.bind, c1, c2, hmA, hmB, g3, Bool.true_eq_false, if_false, finish_eq]
      rw [BitVec.xor_comm ((if s then oB ^^^ _ else oB) ^^^ z0B), flip_tag]
      rfl

/-! ### C79 -/

/-- ALICE's and BOB's shares of the hash key, whose product it is. -/
def keyA (st : State) : F128 := ⟨st.mulA.headD 0⟩
def keyB (st : State) : F128 := ⟨st.mulB.headD 0⟩

theorem good_keys {E : Block → Block} {fiv : List Byte} {st : State} (g : Good E fiv st) :
    ∃ k, keyA st * keyB st = ⟨E 0⟩ ∧ st.mulA = powers (keyA st) (k + 1) ∧ st.mulB = powers (keyB st) (k + 1) := by
  obtain ⟨a, b, k, hab, hA, hB⟩ := g.pow
  have hh : ∀ c : F128, (powers c (k + 1)).headD 0 = c.val := by
    intro c
    rw [powers, List.range_eq_range', List.range'_succ, List.map_cons]
    simp
  have e1 : keyA st = a := by unfold keyA; rw [hA, hh]
  have e2 : keyB st = b := by unfold keyB; rw [hB, hh]
  exact ⟨k, by rw [e1, e2]; exact hab, by rw [e1]; exact hA, by rw [e2]; exact hB⟩

theorem base_err_ne (e : Block) (he : e ≠ 0) (j : Nat) (hj : j < 128) : Spec.gcmMul e (base j) ≠ 0 := by
  intro h
  rw [← mulBlock_eq_gcmMul] at h
  have hb : (⟨base j⟩ : F128) ≠ 0 := by
    intro hb
    have h0 : base j = (0 : Block) := congrArg F128.val hb
    have h1 : (base j).getLsbD j = true := by simp [base, hj]
    rw [h0] at h1
    simp at h1
  have h2 : (⟨e⟩ : F128) * ⟨base j⟩ = 0 := by ext1; exact h
  have h3 := F128.mul_invBlock ⟨base j⟩ hb
  have h4 : (⟨e⟩ : F128) = 0 := by
    calc (⟨e⟩ : F128) = ⟨e⟩ * ⟨base j⟩ * ⟨invBlock (F128.val ⟨base j⟩)⟩ := by rw [mul_assoc, h3, mul_one]
      _ = 0 := by rw [h2, zero_mul]
  exact he (congrArg F128.val h4)

theorem tagErr_single (i j : Nat) (hj : j < 128) (e : Block) (hs : List Block) (s : Bool) (a b : F128) (ins : List Block) (hi : i < ins.length)
    (hl : hs.length = 128 * ins.length) :
    tagErr (xorAt (i * 128 + j) e) hs s a b ins = if (recvIn s a b ins i).getLsbD j then Spec.gcmMul e (base j) else 0 := by
  unfold tagErr
  rw [show ((List.range ins.length).map fun i' => elemErr (xorAt (i * 128 + j) e hs) hs (recvIn s a b ins i') i')
    = (List.range ins.length).map fun i' => if i' = i then (if (recvIn s a b ins i).getLsbD j then Spec.gcmMul e (base j) else 0) else 0 from ?_]
  · exact xorAll_single _ i hi _
  · apply List.map_congr_left
    intro i' _
    rw [elemErr_single i j hj e hs (by omega) _ i']
    by_cases h : i' = i
    · subst h; simp
    · simp [h]

theorem xor_tag_zero (t : List Byte) (d x : Block) (h : t = blockToTag x) : xorBytes t (blockToTag d) = t ↔ d = 0 := by
  subst h
  rw [← blockToTag_xor]
  constructor
  · intro e
    have := blockToTag_inj e
    have h2 : x ^^^ d ^^^ x = x ^^^ x := by rw [this]
    rw [BitVec.xor_self, BitVec.xor_comm x d, BitVec.xor_assoc, BitVec.xor_self] at h2
    simpa using h2
  · rintro rfl
    exact congrArg blockToTag BitVec.xor_zero

/-- C79: with any sender, in every reachable state, `encrypt` gives both parties the ciphertext of GCM and one common tag, the tag of GCM with an
error added; the error is the sum of the differences of the blocks sent, each times its unit vector, over the bits set in the inputs of the party
that receives. -/
theorem C79_encrypt_any (cheat : List Block → List Block) (hc : ∀ l, (cheat l).length = l.length) {hash : List Byte → List Byte} {E : Block → Block}
    {fiv : List Byte} (hf : fiv.length = 4) {s : Bool} {st : State} (h : Reach hash E fiv s st) (msg msgB aad iv : List Byte) (hiv : iv.length = 8)
    (secret : Bool) (hB : secret = false → msgB = msg) (m : Nat → Bool) (raw0 raw1 : Nat → Block) :
    ∃ st' c t hs, (c, t) = Spec.GCM.encrypt E (fiv ++ iv) aad msg
      ∧ AEAD.encrypt s st msg msgB aad iv secret m raw0 raw1 = .ok (st', ⟨c, t⟩, ⟨c, t⟩)
      ∧ hs.length = 128 * (tagBlocks aad c).length
      ∧ encryptSent cheat s st msg msgB aad iv secret m raw0 raw1
        = .ok (st', ⟨c, xorBytes t (blockToTag (tagErr cheat hs s (keyA st) (keyB st) (tagBlocks aad c)))⟩,
                    ⟨c, xorBytes t (blockToTag (tagErr cheat hs s (keyA st) (keyB st) (tagBlocks aad c)))⟩) := by
  have g := reach_good hf h
  obtain ⟨k, -, hA, hBk⟩ := good_keys g
  obtain ⟨st', cA, cB, t, hs, h1, h2, h3⟩ := encrypt_sent cheat hc E fiv hf s st g.cipher g.iv _ _ k hA hBk msg msgB aad iv hiv secret m raw0 raw1
  obtain ⟨st2, c, t2, h4, h5⟩ := C26_encrypt hf h msg msgB aad iv hiv secret hB m raw0 raw1
  rw [h1] at h4
  have h6 := Except.ok.inj h4
  simp only [Prod.mk.injEq, Sealed.mk.injEq] at h6
  obtain ⟨-, ⟨rfl, rfl⟩, rfl, -⟩ := h6
  exact ⟨st', _, _, hs, h5, h1, h2, h3⟩

theorem gcm_tag_block (E : Block → Block) (j : Block) (aad c : List Byte) : ∃ x, Spec.GCM.tag E j aad c = blockToTag x := by
  exact ⟨_, (blockToTag_eq _).symm⟩

/-- C79: a sender that changes block number `128 i + j` of those it sends makes the tag of a record wrong exactly if bit `j` of input `i` of the
other party is set; ciphertexts and state are as without the change, and both parties have the same tag. -/
theorem C79_encrypt (e : Block) (he : e ≠ 0) (i j : Nat) (hj : j < 128) {hash : List Byte → List Byte} {E : Block → Block}
    {fiv : List Byte} (hf : fiv.length = 4) {s : Bool} {st : State} (h : Reach hash E fiv s st) (msg msgB aad iv : List Byte) (hiv : iv.length = 8)
    (secret : Bool) (hB : secret = false → msgB = msg) (m : Nat → Bool) (raw0 raw1 : Nat → Block)
    (hi : i < (tagBlocks aad (Spec.GCM.encrypt E (fiv ++ iv) aad msg).1).length) :
    ∃ st' c t, encryptSent (xorAt (i * 128 + j) e) s st msg msgB aad iv secret m raw0 raw1 = .ok (st', ⟨c, t⟩, ⟨c, t⟩)
      ∧ c = (Spec.GCM.encrypt E (fiv ++ iv) aad msg).1
      ∧ (∃ t0, AEAD.encrypt s st msg msgB aad iv secret m raw0 raw1 = .ok (st', ⟨c, t0⟩, ⟨c, t0⟩))
      ∧ (t = (Spec.GCM.encrypt E (fiv ++ iv) aad msg).2 ↔ (recvIn s (keyA st) (keyB st) (tagBlocks aad c) i).getLsbD j = false) := by
  obtain ⟨st', c, t, hs, h1, h2, h3, h4⟩ := C79_encrypt_any (xorAt (i * 128 + j) e) (fun l => by simp [xorAt]) hf h msg msgB aad iv hiv secret hB m raw0 raw1
  rw [← h1] at hi ⊢
  refine ⟨st', c, _, h4, rfl, ⟨t, h2⟩, ?_⟩
  obtain ⟨x, hx⟩ := gcm_tag_block E (Spec.GCM.j0 (fiv ++ iv)) aad c
  have ht : t = blockToTag x := by
    rw [← hx]
    simp only [Spec.GCM.encrypt, Prod.mk.injEq] at h1
    rw [h1.2, ← h1.1]
  rw [xor_tag_zero t _ x ht, tagErr_single i j hj e hs s _ _ _ hi h3]
  have := base_err_ne e he j hj
  cases (recvIn s (keyA st) (keyB st) (tagBlocks aad c) i).getLsbD j
  · simp
  · simp only [if_true, this, Bool.true_eq_false]

/-- C79: in the last block of a record (the first of the list, the one with the lengths) the input of BOB is its share of the hash key: with ALICE as
sender the tag is wrong exactly if bit `j` of BOB's share is set. -/
theorem C79_key_bit (e : Block) (he : e ≠ 0) (j : Nat) (hj : j < 128) {hash : List Byte → List Byte} {E : Block → Block}
    {fiv : List Byte} (hf : fiv.length = 4) {st : State} (h : Reach hash E fiv true st) (msg msgB aad iv : List Byte) (hiv : iv.length = 8)
    (secret : Bool) (hB : secret = false → msgB = msg) (m : Nat → Bool) (raw0 raw1 : Nat → Block) :
    ∃ st' c t, encryptSent (xorAt j e) true st msg msgB aad iv secret m raw0 raw1 = .ok (st', ⟨c, t⟩, ⟨c, t⟩)
      ∧ (t = (Spec.GCM.encrypt E (fiv ++ iv) aad msg).2 ↔ (st.mulB.headD 0).getLsbD j = false) := by
  have hi : 0 < (tagBlocks aad (Spec.GCM.encrypt E (fiv ++ iv) aad msg).1).length := by
    simp [tagBlocks, tagBuffer, lenBytes]
    omega
  obtain ⟨st', c, t, h1, h2, h3, h4⟩ := C79_encrypt e he 0 j hj hf h msg msgB aad iv hiv secret hB m raw0 raw1 hi
  refine ⟨st', c, t, by simpa using h1, ?_⟩
  rw [h4, recvIn, if_pos rfl, zero_add, pow_one]
  rfl

/-- C79: in `decrypt`, with the right tag, both parties accept exactly if that bit is not set. -/
theorem C79_decrypt (e : Block) (he : e ≠ 0) (i j : Nat) (hj : j < 128) {hash : List Byte → List Byte} {E : Block → Block}
    {fiv : List Byte} (hf : fiv.length = 4) {s : Bool} {st : State} (h : Reach hash E fiv s st) (c aad iv : List Byte) (hiv : iv.length = 8)
    (secret : Bool) (m : Nat → Bool) (raw0 raw1 : Nat → Block) (rA rB : List Byte) (hi : i < (tagBlocks aad c).length) :
    ∃ st' mA mB ok, decryptSent (xorAt (i * 128 + j) e) hash s st c c (Spec.GCM.tag E (Spec.GCM.j0 (fiv ++ iv)) aad c)
          (Spec.GCM.tag E (Spec.GCM.j0 (fiv ++ iv)) aad c) aad iv secret m raw0 raw1 rA rB = .ok (st', ⟨mA, ok⟩, ⟨mB, ok⟩)
      ∧ mA = some (Spec.GCM.crypt E (Spec.GCM.j0 (fiv ++ iv)) c)
      ∧ (ok = true ↔ (recvIn s (keyA st) (keyB st) (tagBlocks aad c) i).getLsbD j = false) := by
  have g := reach_good hf h
  obtain ⟨k, -, hA, hBk⟩ := good_keys g
  generalize hT : Spec.GCM.tag E (Spec.GCM.j0 (fiv ++ iv)) aad c = T
  have hTl : T.length = 16 := by rw [← hT]; simp [Spec.GCM.tag, Spec.GCM.tagWith]
  obtain ⟨x, hx⟩ := gcm_tag_block E (Spec.GCM.j0 (fiv ++ iv)) aad c
  rw [hT] at hx
  obtain ⟨st', mA, mB, t, hs, h1, h2, h3⟩ := decrypt_sent (xorAt (i * 128 + j) e) (fun l => by simp [xorAt]) hash E fiv hf s st g.cipher g.iv _ _ k hA hBk
    c c T T aad iv hiv secret m raw0 raw1 rA rB
  obtain ⟨st2, h4, -⟩ := decrypt_eq hash E fiv hf s st g c c T T aad iv hiv secret m raw0 raw1 rA rB (fun _ => rfl)
  rw [h1] at h4
  have h5 := Except.ok.inj h4
  simp only [Prod.mk.injEq, Opened.mk.injEq] at h5
  obtain ⟨-, ⟨hm, hok⟩, -, -⟩ := h5
  rw [hT, List.take_of_length_le (by omega), beq_self_eq_true, beq_iff_eq] at hok
  subst hok
  refine ⟨st', mA, mB, _, h3, hm, ?_⟩
  rw [List.take_of_length_le (by omega), beq_iff_eq, eq_comm, xor_tag_zero T _ x hx, tagErr_single i j hj e hs s _ _ _ hi h2]
  have := base_err_ne e he j hj
  cases (recvIn s (keyA st) (keyB st) (tagBlocks aad c) i).getLsbD j
  · simp
  · simp only [if_true, this, Bool.true_eq_false]

/-- C79: in the constructor a sender that changes block number `j` leaves the parties with a product that is not the hash key exactly if bit `j` of
the other party's additive share of it is set; nothing is noticed. -/
theorem C79_construct (e : Block) (he : e ≠ 0) (j : Nat) (hj : j < 128) (E : Block → Block) (fiv : Integer) (s : Bool) (m : Nat → Bool) (r : Block)
    (hr : r ≠ 0) (raw0 raw1 : Nat → Block) :
    ∃ st a b, constructSent (xorAt j e) E fiv s m r raw0 raw1 = .ok st ∧ st.gcHA ^^^ st.gcHB = E 0 ∧ st.mulA = [a] ∧ st.mulB = [b]
      ∧ (Spec.gcmMul a b = E 0 ↔ (if s then st.gcHB else st.gcHA).getLsbD j = false) := by
  have hr' : (⟨r⟩ : F128) ≠ 0 := fun h => hr (congrArg F128.val h)
  have hinv := F128.mul_invBlock ⟨r⟩ hr'
  obtain ⟨st, h1, h2, a, b, h3, h4, h5⟩ := (by
    obtain ⟨st, h1, -, -, h2, a, b, h3, h4, h5⟩ := construct_eq E fiv s m r raw0 raw1
    exact ⟨st, h1, h2, a, b, h3, h4, h5⟩ : ∃ st, AEAD.construct E fiv s m r raw0 raw1 = .ok st ∧ st.gcHA ^^^ st.gcHB = E 0
      ∧ ∃ a b : F128, st.mulA = [a.val] ∧ st.mulB = [b.val] ∧ a * b = ⟨invBlock r⟩ * ⟨r⟩ * ⟨E 0⟩)
  rw [mul_comm (⟨invBlock r⟩ : F128), hinv, one_mul] at h5
  have hb : blk (ofNat 128 0) = (0 : Block) := by rw [blk, val_ofNat]; rfl
  have ha : aes E (ofNat 128 0) = .ok (ofNat 128 (E 0).toNat) := by rw [aes, if_pos (by simp), hb]
  generalize hH : ofNat 128 (E 0).toNat = H at ha
  have hl : H.length = 128 := by rw [← hH]; simp
  have hsl := share_length m H
  have i1 := integerToBlock_eq _ (hsl.1.trans hl)
  have i2 := integerToBlock_eq _ (hsl.2.trans hl)
  generalize blk (share m H).1 = hA at i1
  generalize blk (share m H).2 = hB at i2
  have one : ∀ x : Block, ∃ os or', OLE.f2kCompute raw0 raw1 [r] [x] = .ok ([os], [or'], [])
      ∧ OLE.f2kComputeSent (xorAt j e) raw0 raw1 [r] [x] = .ok ([os], [or' ^^^ if x.getLsbD j then Spec.gcmMul e (base j) else 0], []) := by
    intro x
    obtain ⟨os, o, g1, g2, g3⟩ := f2k_sent (xorAt j e) raw0 raw1 [r] [x] rfl (fun l => by simp [xorAt])
    obtain ⟨os', o', k1, k2, k3, -⟩ := C22_ole_f2k raw0 raw1 [r] [x] rfl
    rw [g1] at k1
    obtain ⟨rfl, rfl, -⟩ : os = os' ∧ o = o' ∧ ([] : List Block) = [] := by
      have := Except.ok.inj k1
      simp only [Prod.mk.injEq] at this
      exact ⟨this.1, this.2.1, rfl⟩
    match os, o, k2, k3, g1, g3 with
    | [u], [v], _, _, g1, g3 =>
      refine ⟨u, v, g1, ?_⟩
      rw [g3]
      have hlen := f2kSendAll_length raw0 raw1 [r] 0
      have es := elemErr_single 0 j hj e (f2kSendAll raw0 raw1 0 [r]).2 (by rw [hlen]; simpa using hj) x 0
      simp only [Nat.zero_mul, Nat.zero_add] at es
      simp only [List.length_singleton, List.range_one, List.map_cons, List.map_nil, List.zipWith_cons_cons, List.zipWith_nil_left, List.getD_cons_zero, es, true_and]
  have hne := base_err_ne e he j hj
  have fin : ∀ (a b : F128) (x : Block), a * b = ⟨E 0⟩ → a ≠ 0 →
      (Spec.gcmMul a.val (b.val ^^^ if x.getLsbD j then Spec.gcmMul e (base j) else 0) = E 0 ↔ x.getLsbD j = false) := by
    intro a b x hab hane
    rw [← mulBlock_eq_gcmMul]
    have hd : (⟨mulBlock a.val (b.val ^^^ if x.getLsbD j then Spec.gcmMul e (base j) else 0)⟩ : F128)
        = ⟨E 0⟩ + a * ⟨if x.getLsbD j then Spec.gcmMul e (base j) else 0⟩ := by
      rw [← hab, ← mul_add]; rfl
    cases hx : x.getLsbD j
    · simp only [hx, Bool.false_eq_true, if_false] at hd ⊢
      constructor
      · intro _; trivial
      · intro _
        have := congrArg F128.val hd
        rw [show (⟨(0 : Block)⟩ : F128) = 0 from rfl, mul_zero, add_zero] at this
        exact this
    · simp only [hx, if_true] at hd ⊢
      constructor
      · intro h0
        exfalso
        rw [h0] at hd
        have h1 : a * (⟨Spec.gcmMul e (base j)⟩ : F128) = 0 := by
          have := hd
          rw [left_eq_add] at this
          exact this
        have h2 := F128.mul_invBlock a hane
        have h3 : (⟨Spec.gcmMul e (base j)⟩ : F128) = 0 := by
          calc (⟨Spec.gcmMul e (base j)⟩ : F128) = a * ⟨invBlock a.val⟩ * ⟨Spec.gcmMul e (base j)⟩ := by rw [h2, one_mul]
            _ = ⟨invBlock a.val⟩ * (a * ⟨Spec.gcmMul e (base j)⟩) := by ring
            _ = 0 := by rw [h1, mul_zero]
        exact hne (congrArg F128.val h3)
      · intro h; cases h
  have hine : (⟨invBlock r⟩ : F128) ≠ 0 := by
    intro h
    rw [h, mul_zero] at hinv
    exact zero_ne_one hinv
  cases s with
  | true =>
    obtain ⟨os, o, g1, g2⟩ := one hB
    simp only [AEAD.construct, ha, bind, Except.bind, i1, i2, if_true, g1, List.getD_cons_zero] at h1
    have hst := Except.ok.inj h1
    have h3' := h3
    have h4' := h4
    have hgB : st.gcHB = hB := by rw [← hst]
    rw [← hst] at h3' h4'
    simp only [List.cons.injEq, and_true] at h3' h4'
    refine ⟨{ st with mulB := [(o ^^^ (os ^^^ mulBlock r hA)) ^^^ (if hB.getLsbD j then Spec.gcmMul e (base j) else 0)] }, invBlock r, (o ^^^ (os ^^^ mulBlock r hA)) ^^^ (if hB.getLsbD j then Spec.gcmMul e (base j) else 0), by
      simp only [constructSent, ha, bind, Except.bind, i1, i2, if_true, g2, List.getD_cons_zero, ← hst]
      rw [show ∀ d, o ^^^ d ^^^ (os ^^^ mulBlock r hA) = o ^^^ (os ^^^ mulBlock r hA) ^^^ d from fun d => by ac_rfl], h2, by rw [← hst], rfl, ?_⟩
    · simp only [if_true, hgB]
      have := fin a b hB h5 (by rw [show a = ⟨invBlock r⟩ from F128.ext h3'.symm]; exact hine)
      rw [← h3', ← h4'] at this
      exact this
  | false =>
    obtain ⟨os, o, g1, g2⟩ := one hA
    simp only [AEAD.construct, ha, bind, Except.bind, i1, i2, Bool.false_eq_true, if_false, g1, List.getD_cons_zero] at h1
    have hst := Except.ok.inj h1
    have h3' := h3
    have h4' := h4
    have hgA : st.gcHA = hA := by rw [← hst]
    rw [← hst] at h3' h4'
    simp only [List.cons.injEq, and_true] at h3' h4'
    refine ⟨{ st with mulA := [(o ^^^ (os ^^^ mulBlock r hB)) ^^^ (if hA.getLsbD j then Spec.gcmMul e (base j) else 0)] }, (o ^^^ (os ^^^ mulBlock r hB)) ^^^ (if hA.getLsbD j then Spec.gcmMul e (base j) else 0), invBlock r, by
      simp only [constructSent, ha, bind, Except.bind, i1, i2, Bool.false_eq_true, if_false, g2, List.getD_cons_zero, ← hst]
      rw [show ∀ d, o ^^^ d ^^^ (os ^^^ mulBlock r hB) = o ^^^ (os ^^^ mulBlock r hB) ^^^ d from fun d => by ac_rfl], h2, rfl, by rw [← hst], ?_⟩
    · simp only [Bool.false_eq_true, if_false, hgA]
      rw [mul_comm] at h5
      have := fin b a hA h5 (by rw [show b = ⟨invBlock r⟩ from F128.ext h4'.symm]; exact hine)
      rw [← h3', ← h4', ← mulBlock_eq_gcmMul] at this
      rw [← mulBlock_eq_gcmMul]
      rw [show mulBlock (o ^^^ (os ^^^ mulBlock r hB) ^^^ if hA.getLsbD j then Spec.gcmMul e (base j) else 0) (invBlock r)
        = mulBlock (invBlock r) (o ^^^ (os ^^^ mulBlock r hB) ^^^ if hA.getLsbD j then Spec.gcmMul e (base j) else 0) from
          congrArg F128.val (mul_comm (F128.mk (o ^^^ (os ^^^ mulBlock r hB) ^^^ if hA.getLsbD j then Spec.gcmMul e (base j) else 0)) ⟨invBlock r⟩)]
      exact this

/-- The hypotheses are met and a wrong tag occurs: unless the hash key is zero there is a bit at which the change makes the tag wrong, for every
record. -/
example (hash : List Byte → List Byte) (E : Block → Block) (hE : E 0 ≠ 0) (msg : List Byte) :
    ∃ st, Reach hash E [1, 2, 3, 4] true st ∧ ∃ j, j < 128 ∧ ∃ st' c t,
      encryptSent (xorAt j 1) true st msg msg [9] [0, 0, 0, 0, 0, 0, 0, 1] true (fun _ => false) (fun _ => 1) (fun _ => 2) = .ok (st', ⟨c, t⟩, ⟨c, t⟩)
        ∧ t ≠ (Spec.GCM.encrypt E [1, 2, 3, 4, 0, 0, 0, 0, 0, 0, 0, 1] [9] msg).2 := by
  obtain ⟨st, h1, -⟩ := construct_eq E (strToInt [1, 2, 3, 4]) true (fun i => i % 3 = 0) 5 (fun _ => 7) (fun _ => 9)
  have r1 : Reach hash E [1, 2, 3, 4] true st := Reach.construct (by decide) h1
  refine ⟨st, r1, ?_⟩
  obtain ⟨k, hab, -⟩ := good_keys (reach_good rfl r1)
  have hb : st.mulB.headD 0 ≠ 0 := by
    intro h0
    have : keyB st = 0 := by unfold keyB; rw [h0]; rfl
    rw [this, mul_zero] at hab
    exact hE (congrArg F128.val hab).symm
  obtain ⟨j, hj, hjb⟩ : ∃ j, j < 128 ∧ (st.mulB.headD 0).getLsbD j = true := by
    by_contra hn
    push Not at hn
    apply hb
    apply BitVec.eq_of_getLsbD_eq
    intro i hi
    have := hn i hi
    simpa using this
  refine ⟨j, hj, ?_⟩
  obtain ⟨st', c, t, h2, h3⟩ := C79_key_bit (hash := hash) (E := E) (fiv := [1, 2, 3, 4]) 1 (by decide) j hj rfl r1 msg msg [9] [0, 0, 0, 0, 0, 0, 0, 1] rfl true
    (fun _ => rfl) (fun _ => false) (fun _ => 1) (fun _ => 2)
  refine ⟨st', c, t, h2, fun ht => ?_⟩
  rw [h3.1 ht] at hjb
  cases hjb

/-- And a right one: the sender that adds nothing is the code. -/
example (s : Bool) (st : State) (msgA msgB aad iv : List Byte) (secret : Bool) (m : Nat → Bool) (raw0 raw1 : Nat → Block) :
    encryptSent id s st msgA msgB aad iv secret m raw0 raw1 = AEAD.encrypt s st msgA msgB aad iv secret m raw0 raw1 := rfl

example (hash : List Byte → List Byte) (s : Bool) (st : State) (cA cB tA tB aad iv : List Byte) (secret : Bool) (m : Nat → Bool) (raw0 raw1 : Nat → Block)
    (rA rB : List Byte) : decryptSent id hash s st cA cB tA tB aad iv secret m raw0 raw1 rA rB = AEAD.decrypt hash s st cA cB tA tB aad iv secret m raw0 raw1 rA rB := rfl

example (E : Block → Block) (fiv : Integer) (s : Bool) (m : Nat → Bool) (r : Block) (raw0 raw1 : Nat → Block) :
    constructSent id E fiv s m r raw0 raw1 = AEAD.construct E fiv s m r raw0 raw1 := rfl

end Verif.Props.AEADCheat
