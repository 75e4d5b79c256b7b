import Verif.Model.AEADParty
import Verif.Props.AEAD

/-! C57, C58: what the parties tell each other in `encrypt` and `decrypt`, and what an accepting `decrypt` says. -/

namespace Verif.Props.RecordView
open Verif.Model Verif.Model.Integer Verif.Model.AEAD Verif.Lemmas Verif.Props
open Verif.Spec (gcmMul gcmGhash)

/-- What BOB receives in `encrypt`, from the ciphertext and the tag (his outputs) and what he holds. -/
def bobSees (secret : Bool) (h : Held) (c t : List Byte) : List (List Byte) :=
  (if secret then [xorBytes c h.z] else []) ++ [blockBytes (Spec.GCM.blockOf t ^^^ h.out)]

/-- What ALICE receives in `encrypt`. -/
def aliceSees (secret : Bool) (h : Held) (c t : List Byte) : List (List Byte) :=
  (if secret then [c] else []) ++ [blockBytes (Spec.GCM.blockOf t ^^^ h.out)]

theorem other_out (a b : Block) (t : List Byte) (h : blockToTag (a ^^^ b) = t) : Spec.GCM.blockOf t ^^^ a = b ∧ Spec.GCM.blockOf t ^^^ b = a := by
  rw [blockToTag_eq] at h
  rw [← h, blockOf_bytesOf]
  constructor
  · rw [BitVec.xor_comm a b, BitVec.xor_assoc, BitVec.xor_self, BitVec.xor_zero]
  · rw [BitVec.xor_assoc, BitVec.xor_self, BitVec.xor_zero]

theorem xorBytes_back (a z k : List Byte) (h1 : z.length = a.length) (h2 : k.length = a.length) :
    xorBytes (xorBytes a k) (xorBytes z k) = xorBytes a z := by
  apply List.ext_getElem
  · simp [xorBytes, h1, h2]
  · intro i g1 g2
    simp only [xorBytes, List.getElem_zipWith]
    have hx : ∀ x y w : Byte, (x ^^^ w) ^^^ (y ^^^ w) = x ^^^ y := by
      intro x y w
      rw [BitVec.xor_comm y w, BitVec.xor_assoc, ← BitVec.xor_assoc w, BitVec.xor_self, BitVec.zero_xor]
    exact hx _ _ _

/-- **C57, encryption.**  In every reachable state, for all messages and randomness: every message a party receives is computed from what it holds (its shares) and from
its outputs, the ciphertext and the tag.  That the shares say nothing about the key stream is `C57_alice_share` and `C57_bob_share`. -/
theorem C57_encrypt {hash : List Byte → List Byte} {E : Block → Block} {fiv : List Byte} (hf : fiv.length = 4) {s : Bool}
    {st : State} (h : Reach hash E fiv s st) (msg msgB aad iv : List Byte) (hiv : iv.length = 8) (secret : Bool)
    (hB : secret = false → msgB = msg) (m : Nat → Bool) (raw0 raw1 : Nat → Block) :
    ∃ st' c t a b, AEAD.encrypt s st msg msgB aad iv secret m raw0 raw1 = .ok (st', ⟨c, t⟩, ⟨c, t⟩)
      ∧ encryptTalk s st msg msgB aad iv secret m raw0 raw1 = .ok (a, b, ⟨aliceSees secret a c t, bobSees secret b c t⟩)
      ∧ t = blockToTag (a.out ^^^ b.out)
      ∧ (secret = true → a.z.length = msg.length ∧ xorBytes a.z b.z = Spec.GCM.keyStream E (Spec.GCM.j0 (fiv ++ iv)) msg.length) := by
  obtain ⟨st', c, t, e1, e2⟩ := C26_encrypt hf h msg msgB aad iv hiv secret hB m raw0 raw1
  have g := reach_good hf h
  obtain ⟨a, b, k, hab, hmA, hmB⟩ := g.pow
  obtain ⟨nonce, sA, z0A, z0B, h1, h2, h3⟩ := stream_eq st fiv iv msg.length m g.iv hf hiv
  rw [g.cipher] at h1 h3
  simp only [Spec.GCM.encrypt, Prod.mk.injEq] at e2
  generalize hj : Spec.GCM.j0 (fiv ++ iv) = j at *
  obtain ⟨zA, hzl, rfl⟩ := exists_strToInt sA msg.length h2
  have hks : (Spec.GCM.keyStream E j msg.length).length = msg.length := length_keyStream _ _ _
  have hcA : Spec.GCM.crypt E j msg = xorBytes msg (Spec.GCM.keyStream E j msg.length) := rfl
  generalize hk : Spec.GCM.keyStream E j msg.length = ks at h1 hks hcA
  obtain ⟨oA, oB, k', h4, h5⟩ := tag_core E s raw0 raw1 a b k hab aad (xorBytes msg ks) j z0A z0B h3
  rw [hcA] at e2
  obtain ⟨rfl, rfl⟩ := e2
  obtain ⟨o1, o2⟩ := other_out _ _ _ h5
  cases secret with
  | false =>
    have tb : (toBytes (strToInt ks)).reverse = ks := by rw [strToInt, toBytes_ofBytes, List.reverse_reverse]
    refine ⟨st', _, _, ⟨[], oA ^^^ z0A⟩, ⟨[], oB ^^^ z0B⟩, e1, ?_, h5.symm, fun h => by cases h⟩
    simp only [encryptTalk, h1, bind, Except.bind, if_true, tb, hmA, hmB, h4, aliceSees, bobSees, Bool.false_eq_true, if_false, o1, o2]
  | true =>
    have c1 := integerToChars_strToInt zA
    have c2 := integerToChars_strToInt (xorBytes zA ks)
    rw [strToInt_xor _ _ (by omega)] at c2
    have e := xorBytes_cancel msg zA ks hzl hks
    refine ⟨st', _, _, ⟨zA, oA ^^^ z0A⟩, ⟨xorBytes zA ks, oB ^^^ z0B⟩, e1, ?_, h5.symm, fun _ => ⟨hzl, ?_⟩⟩
    · simp only [encryptTalk, h1, bind, Except.bind, c1, c2, e, hmA, hmB, h4, if_true, Bool.true_eq_false, if_false, aliceSees, bobSees, o1, o2,
        xorBytes_back msg zA ks hzl hks]
    · apply List.ext_getElem
      · simp [xorBytes, hzl, hks]
      · intro i g1 g2
        simp only [xorBytes, List.getElem_zipWith]
        rw [← BitVec.xor_assoc, BitVec.xor_self, BitVec.zero_xor]

/-- The shares of `stream` from the whole key stream `Z`, whose length depends on the length of the record only. -/
theorem stream_shape (st : State) (fiv iv : List Byte) (n : Nat) (h1 : st.fixedIv = strToInt fiv) (hf : fiv.length = 4) (hiv : iv.length = 8) :
    ∃ Z : Integer, Z.length = 8 * (16 * (1 + ctrLen n)) ∧ ∀ m, ∃ st', stream st iv n m
      = .ok (st', cutZ n Z, (cutZ n (share m Z).1, cutZ n (share m Z).2), blk (topZ (share m Z).1), blk (topZ (share m Z).2)) := by
  obtain ⟨n1, g1, -, -⟩ := gctr_eq st.E (1 + ctrLen n) [] (strToInt (fiv ++ iv ++ [0#8, 0#8, 0#8, 1#8])) (by simp [hf, hiv])
  rw [blk_strToInt, List.nil_append] at g1
  change gctr st.E (1 + ctrLen n) [] _ = .ok (strToInt (ctrBytes st.E (Spec.GCM.j0 (fiv ++ iv)) (1 + ctrLen n)), n1) at g1
  generalize hZ : strToInt (ctrBytes st.E (Spec.GCM.j0 (fiv ++ iv)) (1 + ctrLen n)) = Z at g1
  have hZl : Z.length = 8 * (16 * (1 + ctrLen n)) := by rw [← hZ]; simp
  refine ⟨Z, hZl, fun m => ?_⟩
  have hl := share_length m Z
  have i1 := integerToBlock_eq (topZ (share m Z).1) (by simp [topZ, hl.1]; omega)
  have i2 := integerToBlock_eq (topZ (share m Z).2) (by simp [topZ, hl.2]; omega)
  unfold topZ at i1 i2
  simp only [stream, h1, setNonce_eq fiv iv hiv, bind, Except.bind, g1, i1, i2]
  exact ⟨_, rfl⟩

/-- **C57, ALICE's shares** are her label bits: the same for any two ciphers. -/
theorem C57_alice_share (st st2 : State) (fiv iv : List Byte) (n : Nat) (h1 : st.fixedIv = strToInt fiv) (h2 : st2.fixedIv = strToInt fiv)
    (hf : fiv.length = 4) (hiv : iv.length = 8) (m : Nat → Bool) :
    ∃ r r2, stream st iv n m = .ok r ∧ stream st2 iv n m = .ok r2 ∧ r2.2.2.1.1 = r.2.2.1.1 ∧ r2.2.2.2.1 = r.2.2.2.1 := by
  obtain ⟨Z, hZ, g1⟩ := stream_shape st fiv iv n h1 hf hiv
  obtain ⟨W, hW, g2⟩ := stream_shape st2 fiv iv n h2 hf hiv
  obtain ⟨_, e1⟩ := g1 m
  obtain ⟨_, e2⟩ := g2 m
  have hs : (share m W).1 = (share m Z).1 := by simp only [share, hW, hZ]
  rw [hs] at e2
  exact ⟨_, _, e1, e2, rfl, rfl⟩

theorem share_move (m : Nat → Bool) (v w : Integer) (h : v.length = w.length) :
    (share (fun i => m i ^^ (v.getD i false ^^ w.getD i false)) w).2 = (share m v).2 := by
  apply List.ext_getElem
  · simp [share, Integer.xor, h]
  · intro i g1 g2
    have i1 : i < v.length := by simp [share, Integer.xor] at g2; omega
    have i2 : i < w.length := by omega
    simp only [share, Integer.xor, List.getElem_zipWith, List.getElem_map, List.getElem_range, List.getD_eq_getElem?_getD,
      List.getElem?_eq_getElem i1, List.getElem?_eq_getElem i2, Option.getD_some]
    cases m i <;> cases v[i] <;> cases w[i] <;> rfl

/-- **C57, BOB's shares.**  For any two ciphers there is a fixed pattern `d` such that BOB holds the same shares of the key stream and of the mask of the tag if the label bits of ALICE are
changed by it: with random label bits his shares say nothing about the key stream. -/
theorem C57_bob_share (st st2 : State) (fiv iv : List Byte) (n : Nat) (h1 : st.fixedIv = strToInt fiv) (h2 : st2.fixedIv = strToInt fiv)
    (hf : fiv.length = 4) (hiv : iv.length = 8) :
    ∃ d : Nat → Bool, ∀ m, ∃ r r2, stream st iv n m = .ok r ∧ stream st2 iv n (fun i => m i ^^ d i) = .ok r2
      ∧ r2.2.2.1.2 = r.2.2.1.2 ∧ r2.2.2.2.2 = r.2.2.2.2 := by
  obtain ⟨Z, hZ, g1⟩ := stream_shape st fiv iv n h1 hf hiv
  obtain ⟨W, hW, g2⟩ := stream_shape st2 fiv iv n h2 hf hiv
  refine ⟨fun i => Z.getD i false ^^ W.getD i false, fun m => ?_⟩
  obtain ⟨_, e1⟩ := g1 m
  obtain ⟨_, e2⟩ := g2 (fun i => m i ^^ (Z.getD i false ^^ W.getD i false))
  rw [share_move m Z W (by omega)] at e2
  exact ⟨_, _, e1, e2, rfl, rfl⟩

/-- What ALICE receives in `decrypt`, from the plaintext `p` (her output), the right tag `t` of her ciphertext `c`, BOB's commitment randomness and what she holds. -/
def aliceOpens (hash : List Byte → List Byte) (secret : Bool) (h : Held) (c p t rB : List Byte) : List (List Byte) :=
  (if secret then [xorBytes (xorBytes c p) h.z] else [])
    ++ [Commitment.commit hash rB (blockBytes (Spec.GCM.blockOf t ^^^ h.out)), blockBytes (Spec.GCM.blockOf t ^^^ h.out), rB]

/-- What BOB receives in `decrypt`: nothing depends on the plaintext. -/
def bobOpens (hash : List Byte → List Byte) (h : Held) (t rA : List Byte) : List (List Byte) :=
  [Commitment.commit hash rA (blockBytes (Spec.GCM.blockOf t ^^^ h.out)), blockBytes (Spec.GCM.blockOf t ^^^ h.out), rA]

theorem decryptTalk_eq {hash : List Byte → List Byte} {E : Block → Block} {fiv : List Byte} (hf : fiv.length = 4) {s : Bool}
    {st : State} (h : Reach hash E fiv s st) (c aad iv : List Byte) (hiv : iv.length = 8)
    (secret : Bool) (m : Nat → Bool) (raw0 raw1 : Nat → Block) (rA rB : List Byte) :
    ∃ a b, decryptTalk hash s st c aad iv secret m raw0 raw1 rA rB
        = .ok (a, b, ⟨aliceOpens hash secret a c (Spec.GCM.crypt E (Spec.GCM.j0 (fiv ++ iv)) c) (Spec.GCM.tag E (Spec.GCM.j0 (fiv ++ iv)) aad c) rB,
            bobOpens hash b (Spec.GCM.tag E (Spec.GCM.j0 (fiv ++ iv)) aad c) rA⟩)
      ∧ blockToTag (a.out ^^^ b.out) = Spec.GCM.tag E (Spec.GCM.j0 (fiv ++ iv)) aad c := by
  have g := reach_good hf h
  obtain ⟨a, b, k, hab, hmA, hmB⟩ := g.pow
  obtain ⟨nonce, sA, z0A, z0B, h1, h2, h3⟩ := stream_eq st fiv iv c.length m g.iv hf hiv
  rw [g.cipher] at h1 h3
  generalize hj : Spec.GCM.j0 (fiv ++ iv) = j at *
  obtain ⟨zA, hzl, rfl⟩ := exists_strToInt sA c.length h2
  have hks : (Spec.GCM.keyStream E j c.length).length = c.length := length_keyStream _ _ _
  have hcA : Spec.GCM.crypt E j c = xorBytes c (Spec.GCM.keyStream E j c.length) := rfl
  generalize hk : Spec.GCM.keyStream E j c.length = ks at h1 hks hcA
  obtain ⟨oA, oB, k', h4, h5⟩ := tag_core E s raw0 raw1 a b k hab aad c j z0A z0B h3
  rw [hcA]
  obtain ⟨o1, o2⟩ := other_out _ _ _ h5
  cases secret with
  | false =>
    refine ⟨⟨[], oA ^^^ z0A⟩, ⟨[], oB ^^^ z0B⟩, ?_, h5⟩
    simp only [decryptTalk, h1, bind, Except.bind, if_true, hmA, hmB, h4, aliceOpens, bobOpens, Bool.false_eq_true, if_false, o1, o2]
  | true =>
    have c1 := integerToChars_strToInt zA
    have c2 := integerToChars_strToInt (xorBytes zA ks)
    rw [strToInt_xor _ _ (by omega)] at c2
    refine ⟨⟨zA, oA ^^^ z0A⟩, ⟨xorBytes zA ks, oB ^^^ z0B⟩, ?_, h5⟩
    have hz : xorBytes (xorBytes c (xorBytes c ks)) zA = xorBytes zA ks := by
      apply List.ext_getElem
      · simp [xorBytes, hzl, hks]
      · intro i g1 g2
        simp only [xorBytes, List.getElem_zipWith]
        rw [← BitVec.xor_assoc, BitVec.xor_self, BitVec.zero_xor, BitVec.xor_comm]
    simp only [decryptTalk, h1, bind, Except.bind, c1, c2, hmA, hmB, h4, if_true, Bool.true_eq_false, if_false, aliceOpens, bobOpens, o1, o2, hz]

/-- **C57, decryption.**  In every reachable state, for all ciphertexts and tags, right or wrong: what BOB receives is computed from what he holds and the right tag of ALICE's
ciphertext; what ALICE receives from what she holds, her output and the right tag.  In secret mode BOB receives nothing about the plaintext. -/
theorem C57_decrypt {hash : List Byte → List Byte} {E : Block → Block} {fiv : List Byte} (hf : fiv.length = 4) {s : Bool}
    {st : State} (h : Reach hash E fiv s st) (c cB tA tB aad iv : List Byte) (hiv : iv.length = 8)
    (secret : Bool) (hB : secret = false → cB.length = c.length) (m : Nat → Bool) (raw0 raw1 : Nat → Block) (rA rB : List Byte) :
    ∃ st' p pB okA okB a b, AEAD.decrypt hash s st c cB tA tB aad iv secret m raw0 raw1 rA rB = .ok (st', ⟨some p, okA⟩, ⟨pB, okB⟩)
      ∧ decryptTalk hash s st c aad iv secret m raw0 raw1 rA rB
        = .ok (a, b, ⟨aliceOpens hash secret a c p (Spec.GCM.tag E (Spec.GCM.j0 (fiv ++ iv)) aad c) rB,
            bobOpens hash b (Spec.GCM.tag E (Spec.GCM.j0 (fiv ++ iv)) aad c) rA⟩)
      ∧ okA = finish hash a.out (Commitment.commit hash rB (blockBytes b.out)) rB b.out tA
      ∧ okB = finish hash b.out (Commitment.commit hash rA (blockBytes a.out)) rA a.out tB := by
  obtain ⟨st', h1, -⟩ := decrypt_eq hash E fiv hf s st (reach_good hf h) c cB tA tB aad iv hiv secret m raw0 raw1 rA rB hB
  obtain ⟨a, b, h2, h3⟩ := decryptTalk_eq hf h c aad iv hiv secret m raw0 raw1 rA rB
  refine ⟨st', _, _, _, _, a, b, h1, h2, ?_, ?_⟩
  · rw [finish, Commitment.opens, Commitment.commit, beq_self_eq_true, if_pos rfl, h3]
  · rw [finish, Commitment.opens, Commitment.commit, beq_self_eq_true, if_pos rfl, BitVec.xor_comm, h3]

/-! ### C58 -/

/-- The full statement of C58: if a party accepts, its tag is the GCM tag of its own ciphertext. -/
def Authentic (hash : List Byte → List Byte) (E : Block → Block) (fiv : List Byte) (s : Bool) (st : State) : Prop :=
  ∀ c cB tA tB aad iv secret m raw0 raw1 rA rB st' a b, iv.length = 8 → cB.length = c.length → tA.length = 16 → tB.length = 16 →
    AEAD.decrypt hash s st c cB tA tB aad iv secret m raw0 raw1 rA rB = .ok (st', a, b) →
    (a.ok = true → Spec.GCM.decrypt E (fiv ++ iv) aad c tA ≠ none) ∧ (b.ok = true → Spec.GCM.decrypt E (fiv ++ iv) aad cB tB ≠ none)

/-- **C58, the part that holds.**  ALICE accepts exactly if her tag is the tag of her ciphertext; BOB accepts exactly if his tag is the tag of *ALICE's* ciphertext. -/
theorem C58_accept_partial {hash : List Byte → List Byte} {E : Block → Block} {fiv : List Byte} (hf : fiv.length = 4) {s : Bool}
    {st : State} (h : Reach hash E fiv s st) (c cB tA tB aad iv : List Byte) (hiv : iv.length = 8) (htA : tA.length = 16) (htB : tB.length = 16)
    (secret : Bool) (hB : secret = false → cB.length = c.length) (m : Nat → Bool) (raw0 raw1 : Nat → Block) (rA rB : List Byte) :
    ∃ st' a b, AEAD.decrypt hash s st c cB tA tB aad iv secret m raw0 raw1 rA rB = .ok (st', a, b)
      ∧ (a.ok = true ↔ Spec.GCM.decrypt E (fiv ++ iv) aad c tA = a.msg) ∧ (a.ok = true ↔ Spec.GCM.decrypt E (fiv ++ iv) aad c tA ≠ none)
      ∧ (b.ok = true ↔ Spec.GCM.decrypt E (fiv ++ iv) aad c tB ≠ none) := by
  obtain ⟨st', h1, -⟩ := decrypt_eq hash E fiv hf s st (reach_good hf h) c cB tA tB aad iv hiv secret m raw0 raw1 rA rB hB
  refine ⟨st', _, _, h1, ?_, ?_, ?_⟩
  · simp only [Spec.GCM.decrypt, List.take_of_length_le (show tA.length ≤ 16 by omega), beq_iff_eq]
    split <;> simp_all
  · simp only [Spec.GCM.decrypt, List.take_of_length_le (show tA.length ≤ 16 by omega), beq_iff_eq]
    split <;> simp_all
  · simp only [Spec.GCM.decrypt, List.take_of_length_le (show tB.length ≤ 16 by omega), beq_iff_eq]
    split <;> simp_all

/-- **C58, BOB's ciphertext is not authenticated.**  Whatever ciphertext `cB` of the same length BOB has: if his tag is the tag of ALICE's ciphertext he accepts, and in public mode he outputs
`cB` xored with the key stream. -/
theorem C58_bob_not_bound {hash : List Byte → List Byte} {E : Block → Block} {fiv : List Byte} (hf : fiv.length = 4) {s : Bool}
    {st : State} (h : Reach hash E fiv s st) (c cB aad iv : List Byte) (hiv : iv.length = 8) (secret : Bool) (hB : cB.length = c.length)
    (m : Nat → Bool) (raw0 raw1 : Nat → Block) (rA rB : List Byte) :
    let t := Spec.GCM.tag E (Spec.GCM.j0 (fiv ++ iv)) aad c
    ∃ st' a, AEAD.decrypt hash s st c cB t t aad iv secret m raw0 raw1 rA rB
      = .ok (st', a, ⟨if secret then none else some (Spec.GCM.crypt E (Spec.GCM.j0 (fiv ++ iv)) cB), true⟩) := by
  intro t
  obtain ⟨st', h1, -⟩ := decrypt_eq hash E fiv hf s st (reach_good hf h) c cB t t aad iv hiv secret m raw0 raw1 rA rB (fun _ => hB)
  have ht : t.take 16 = t := List.take_of_length_le (by simp [t, Spec.GCM.tag, Spec.GCM.tagWith])
  rw [ht, beq_self_eq_true] at h1
  refine ⟨st', ⟨some (Spec.GCM.crypt E (Spec.GCM.j0 (fiv ++ iv)) c), true⟩, ?_⟩
  rw [h1]

/-- **C58 does not hold.**  For every cipher and every reachable state there are two ciphertexts with which BOB accepts wrongly, unless the tag does not depend on the ciphertext. -/
theorem C58_not_authentic {hash : List Byte → List Byte} {E : Block → Block} {fiv : List Byte} (hf : fiv.length = 4) {s : Bool}
    {st : State} (h : Reach hash E fiv s st) (c cB aad iv : List Byte) (hiv : iv.length = 8) (hl : cB.length = c.length)
    (hne : Spec.GCM.tag E (Spec.GCM.j0 (fiv ++ iv)) aad c ≠ Spec.GCM.tag E (Spec.GCM.j0 (fiv ++ iv)) aad cB) : ¬ Authentic hash E fiv s st := by
  intro hA
  obtain ⟨st', a, e⟩ := C58_bob_not_bound hf h c cB aad iv hiv false hl (fun _ => false) (fun _ => 0) (fun _ => 0) [] []
  have ht : (Spec.GCM.tag E (Spec.GCM.j0 (fiv ++ iv)) aad c).length = 16 := by simp [Spec.GCM.tag, Spec.GCM.tagWith]
  have := (hA c cB _ _ aad iv false _ _ _ _ _ _ _ _ hiv hl ht ht e).2 rfl
  rw [Spec.GCM.decrypt, if_neg hne] at this
  exact this rfl

/-- **C58, a failed decryption tells the right tag.**  Whatever tags are given, the share ALICE holds and the one she receives give the GCM tag of the ciphertext she chose; the next call with this tag
is accepted by both. -/
theorem C58_oracle {hash : List Byte → List Byte} {E : Block → Block} {fiv : List Byte} (hf : fiv.length = 4) {s : Bool}
    {st : State} (h : Reach hash E fiv s st) (c aad iv : List Byte) (hiv : iv.length = 8) (tA tB : List Byte)
    (m m' : Nat → Bool) (raw0 raw1 raw0' raw1' : Nat → Block) (rA rB rA' rB' : List Byte) :
    ∃ st' a b l com share, AEAD.decrypt hash s st c c tA tB aad iv true m raw0 raw1 rA rB = .ok (st', a, b)
      ∧ (∃ ha hb k, decryptTalk hash s st c aad iv true m raw0 raw1 rA rB = .ok (ha, hb, k) ∧ k.toA = [l, com, blockBytes share, rB]
        ∧ ∃ st2 p, AEAD.decrypt hash s st' c c (blockToTag (ha.out ^^^ share)) (blockToTag (ha.out ^^^ share)) aad iv true m' raw0' raw1' rA' rB'
          = .ok (st2, ⟨some p, true⟩, ⟨none, true⟩)) := by
  obtain ⟨st', h1, -⟩ := decrypt_eq hash E fiv hf s st (reach_good hf h) c c tA tB aad iv hiv true m raw0 raw1 rA rB (fun _ => rfl)
  obtain ⟨a, b, h2, h3⟩ := decryptTalk_eq hf h c aad iv hiv true m raw0 raw1 rA rB
  have hr : Reach hash E fiv s st' := .decrypt h (fun _ => rfl) h1
  obtain ⟨st2, h4, -⟩ := decrypt_eq hash E fiv hf s st' (reach_good hf hr) c c (blockToTag (a.out ^^^ b.out)) (blockToTag (a.out ^^^ b.out)) aad iv hiv true m' raw0' raw1' rA' rB' (fun _ => rfl)
  obtain ⟨o1, o2⟩ := other_out _ _ _ h3
  refine ⟨st', _, _, xorBytes (xorBytes c (Spec.GCM.crypt E (Spec.GCM.j0 (fiv ++ iv)) c)) a.z, Commitment.commit hash rB (blockBytes b.out), b.out, h1, a, b, _, h2, ?_, st2,
    Spec.GCM.crypt E (Spec.GCM.j0 (fiv ++ iv)) c, ?_⟩
  · simp only [aliceOpens, if_true, o1]
    rfl
  · rw [h4, h3]
    have ht : (Spec.GCM.tag E (Spec.GCM.j0 (fiv ++ iv)) aad c).take 16 = Spec.GCM.tag E (Spec.GCM.j0 (fiv ++ iv)) aad c :=
      List.take_of_length_le (by simp [Spec.GCM.tag, Spec.GCM.tagWith])
    rw [ht, beq_self_eq_true]
    rfl

/-- There is a reachable state with ciphertexts of equal length and different tags: BOB accepts the wrong one. -/
example (hash : List Byte → List Byte) (s : Bool) : ∃ st, Reach hash (fun x => x + 5) [1, 2, 3, 4] s st ∧ ¬ Authentic hash (fun x => x + 5) [1, 2, 3, 4] s st := by
  obtain ⟨st, h1, -⟩ := construct_eq (fun x => x + 5) (strToInt [1, 2, 3, 4]) s (fun i => i % 3 = 0) 5 (fun _ => 7) (fun _ => 9)
  have r : Reach hash (fun x => x + 5) [1, 2, 3, 4] s st := Reach.construct (by decide) h1
  exact ⟨st, r, C58_not_authentic rfl r [1] [2] [] [0, 0, 0, 0, 0, 0, 0, 1] rfl rfl (by decide +kernel)⟩

/-- The theorems on views and on the oracle apply to it. -/
example (hash : List Byte → List Byte) (s : Bool) : ∃ st a b k, Reach hash (fun x => x + 5) [1, 2, 3, 4] s st
    ∧ encryptTalk s st [7, 8, 9] [] [1] [0, 0, 0, 0, 0, 0, 0, 1] true (fun i => i % 2 = 0) (fun _ => 3) (fun _ => 4) = .ok (a, b, k)
    ∧ k.toA.length = 2 ∧ k.toB.length = 2 := by
  obtain ⟨st, h1, -⟩ := construct_eq (fun x => x + 5) (strToInt [1, 2, 3, 4]) s (fun i => i % 3 = 0) 5 (fun _ => 7) (fun _ => 9)
  have r : Reach hash (fun x => x + 5) [1, 2, 3, 4] s st := Reach.construct (by decide) h1
  obtain ⟨_, c, t, a, b, -, h2, -⟩ := C57_encrypt rfl r [7, 8, 9] [] [1] [0, 0, 0, 0, 0, 0, 0, 1] rfl true (fun h => by cases h) (fun i => i % 2 = 0) (fun _ => 3) (fun _ => 4)
  exact ⟨st, a, b, _, r, h2, rfl, rfl⟩

end Verif.Props.RecordView
