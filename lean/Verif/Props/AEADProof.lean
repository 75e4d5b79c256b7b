import Verif.Model.AEADProof
import Verif.Props.AEAD
import Verif.Props.ZkCheck

/-!
C40: the proofs of the records consume the queues filled by the online phase in order.
-/

namespace Verif.Props.AEADProof
open Verif.Model Verif.Model.Integer Verif.Model.AEAD Verif.Model.AEADProof Verif.Lemmas Verif.Props

/-- What a check establishes: the right hand sides of C33 (`C33_block`, `C33_bytes`) and C32 (`C32_bytes`). -/
def Holds : Check → Prop
  | .block r p g => r = Integer.xor p (blockBits g)
  | .bytes r p g => r = Integer.xor p (ofBytes g)
  | .data r d => r = ofBytes d

/-- A record of the online phase: nonce, length in bytes, mode. -/
structure Rec where
  iv : List Byte
  n : Nat
  secret : Bool

/-- The record's first counter block. -/
def Rec.j (fiv : List Byte) (r : Rec) : Block := Spec.GCM.j0 (fiv ++ r.iv)

/-- A record with ALICE's shares of `E(J)` and of the key stream. -/
structure Entry where
  r : Rec
  z0 : Block
  z : List Byte

/-- The queues hold, front first, exactly the data of the records `recs`: shares of `E(J)` of all of them, shares of the key
stream of the secret ones, the key stream of the public ones. -/
def Pending (E : Block → Block) (fiv : List Byte) (recs : List Rec) (st : State) : Prop :=
  st.E = E ∧ ∃ es : List Entry, es.map Entry.r = recs ∧ (∀ e ∈ es, e.z.length = e.r.n)
    ∧ st.gcZ0A = es.map Entry.z0
    ∧ st.gcZ0B = es.map (fun e => e.z0 ^^^ E (e.r.j fiv))
    ∧ st.zkZ0 = es.map (fun e => ofBytes (blockBytes e.z0))
    ∧ st.gcZA = (es.filter (·.r.secret)).map (fun e => e.z.reverse)
    ∧ st.gcZB = (es.filter (·.r.secret)).map (fun e => (xorBytes e.z (Spec.GCM.keyStream E (e.r.j fiv) e.r.n)).reverse)
    ∧ st.zkZ = (es.filter (·.r.secret)).map (fun e => ofBytes e.z.reverse)
    ∧ st.zLen = (es.filter (·.r.secret)).map (·.r.n)
    ∧ st.openZ = (es.filter (!·.r.secret)).map (fun e => (Spec.GCM.keyStream E (e.r.j fiv) e.r.n).reverse)
    ∧ st.openLen = (es.filter (!·.r.secret)).map (·.r.n)

theorem pending_push {E : Block → Block} {fiv : List Byte} {recs : List Rec} {st st' : State} {iv : List Byte} {n : Nat}
    {secret : Bool} (hp : Pending E fiv recs st) (h : Pushed st st' (Spec.GCM.j0 (fiv ++ iv)) n secret) :
    Pending E fiv (recs ++ [⟨iv, n, secret⟩]) st' := by
  obtain ⟨hE, es, h0, hl, q1, q2, q3, q4, q5, q6, q7, q8, q9⟩ := hp
  obtain ⟨z0A, z0B, hz, p0, -, -, -, -, p1, p2, p3, p4⟩ := h
  have hz' : z0B = z0A ^^^ E (Spec.GCM.j0 (fiv ++ iv)) := by
    rw [← hE, ← hz, ← BitVec.xor_assoc, BitVec.xor_self, BitVec.zero_xor]
  refine ⟨p0.trans hE, ?_⟩
  cases secret with
  | true =>
    rw [if_pos rfl] at p4
    obtain ⟨zA, h1, h2, h3, h4, h5, h6, h7⟩ := p4
    refine ⟨es ++ [⟨⟨iv, n, true⟩, z0A, zA⟩], by simp [h0], ?_, ?_⟩
    · intro e he
      rw [List.mem_append, List.mem_singleton] at he
      rcases he with he | rfl
      · exact hl e he
      · exact h1
    · simp only [List.map_append, List.filter_append, p1, p2, p3, h2, h3, h4, h5, h6, h7, q1, q2, q3, q4, q5, q6, q7, q8, q9, hz', hE]
      simp [Rec.j]
  | false =>
    rw [if_neg Bool.false_ne_true] at p4
    obtain ⟨h2, h3, h4, h5, h6, h7⟩ := p4
    refine ⟨es ++ [⟨⟨iv, n, false⟩, z0A, List.replicate n 0⟩], by simp [h0], ?_, ?_⟩
    · intro e he
      rw [List.mem_append, List.mem_singleton] at he
      rcases he with he | rfl
      · exact hl e he
      · simp
    · simp only [List.map_append, List.filter_append, p1, p2, p3, h2, h3, h4, h5, h6, h7, q1, q2, q3, q4, q5, q6, q7, q8, q9, hz', hE]
      simp [Rec.j]

theorem stream_proof (E : Block → Block) (fiv iv : List Byte) (hf : fiv.length = 4) (hiv : iv.length = 8) (H : Integer) (n : Nat) :
    AEADProof.stream ⟨E, strToInt fiv, H⟩ iv n = .ok (strToInt (Spec.GCM.keyStream E (Spec.GCM.j0 (fiv ++ iv)) n),
      strToInt (Spec.GCM.bytesOf (E (Spec.GCM.j0 (fiv ++ iv))))) := by
  obtain ⟨nonce, g1, -, -⟩ := gctr_eq E (1 + ctrLen n) [] (strToInt (fiv ++ iv ++ [0#8, 0#8, 0#8, 1#8]))
    (by simp [hf, hiv])
  rw [blk_strToInt, List.nil_append] at g1
  change AEAD.gctr E (1 + ctrLen n) [] _
    = .ok (strToInt (ctrBytes E (Spec.GCM.j0 (fiv ++ iv)) (1 + ctrLen n)), nonce) at g1
  have hc := cutZ_stream E (Spec.GCM.j0 (fiv ++ iv)) n
  have ht := topZ_stream E (Spec.GCM.j0 (fiv ++ iv)) n
  simp only [AEADProof.stream, setNonce_eq fiv iv hiv, bind, Except.bind, g1]
  rw [← hc, ← ht]
  rfl

theorem blockBits_eq (b : Block) : blockBits b = ofBytes (blockBytes b) := by
  apply blk_inj (by simp [blockBits]) (by simp)
  rw [blk_ofBytes, blockOfBytes_blockBytes]
  apply BitVec.eq_of_getLsbD_eq
  intro i hi
  rw [blk, BitVec.getLsbD_ofNat, testBit_val]
  simp [blockBits, hi]

theorem ofBytes_blockBytes_xor (a b : Block) : Integer.xor (ofBytes (blockBytes a)) (ofBytes (blockBytes b)) = ofBytes (blockBytes (a ^^^ b)) := by
  apply blk_inj (by simp [Integer.xor]) (by simp)
  rw [blk_xor _ _ (by simp) (by simp), blk_ofBytes, blk_ofBytes, blk_ofBytes, blockOfBytes_blockBytes, blockOfBytes_blockBytes,
    blockOfBytes_blockBytes]

theorem strToInt_bytesOf (b : Block) : strToInt (Spec.GCM.bytesOf b) = ofBytes (blockBytes b) := by
  rw [strToInt, bytesOf_eq, List.reverse_reverse]

theorem ofBytes_blockBytes_inj {a b : Block} : ofBytes (blockBytes a) = ofBytes (blockBytes b) ↔ a = b := by
  constructor
  · intro h
    have := congrArg blk h
    rwa [blk_ofBytes, blk_ofBytes, blockOfBytes_blockBytes, blockOfBytes_blockBytes] at this
  · intro h; rw [h]

theorem strToInt_inj {a b : List Byte} : strToInt a = strToInt b ↔ a = b := by
  constructor
  · intro h
    have := congrArg toBytes h
    rw [strToInt, strToInt, toBytes_ofBytes, toBytes_ofBytes] at this
    exact List.reverse_injective this
  · intro h; rw [h]

/-- The check of `Z0` compares with the shares of the first pending record. -/
theorem block_holds (a b c d : Block) (h : b = a ^^^ d) :
    Holds (.block (strToInt (Spec.GCM.bytesOf c)) (ofBytes (blockBytes a)) b) ↔ c = d := by
  rw [Holds, blockBits_eq, ofBytes_blockBytes_xor, strToInt_bytesOf, ofBytes_blockBytes_inj, h, ← BitVec.xor_assoc,
    BitVec.xor_self, BitVec.zero_xor]

theorem bytes_holds (z ks ks' : List Byte) (h1 : ks.length = z.length) :
    Holds (.bytes (strToInt ks') (ofBytes z.reverse) (xorBytes z ks).reverse) ↔ ks' = ks := by
  have e : Integer.xor (ofBytes z.reverse) (ofBytes (xorBytes z ks).reverse) = strToInt ks := by
    change Integer.xor (strToInt z) (strToInt (xorBytes z ks)) = strToInt ks
    rw [← strToInt_xor _ _ (by simp [h1])]
    congr 1
    apply List.ext_getElem
    · simp [h1]
    · intro i g1 g2
      simp only [xorBytes, List.getElem_zipWith]
      rw [← BitVec.xor_assoc, BitVec.xor_self, BitVec.zero_xor]
  rw [Holds, e, strToInt_inj]

theorem data_holds (ks ks' : List Byte) : Holds (.data (strToInt ks') ks.reverse) ↔ ks' = ks := by
  show strToInt ks' = strToInt ks ↔ _
  rw [strToInt_inj]

/-- C40, one proof: if the record at the front of the queues has the mode and length of the proof, the call succeeds
(no queue is empty), its checks hold exactly if `E(J)` and the key stream under the proven key are those of that
record, and the other records stay pending.  `fiv'`, `iv'`, `E'` are the values of the proof. -/
theorem C40_prove (E E' : Block → Block) (fiv fiv' : List Byte) (hf' : fiv'.length = 4) (H : Integer) (r : Rec) (recs : List Rec)
    (st : State) (hp : Pending E fiv (r :: recs) st) (ctxt iv' : List Byte) (hiv : iv'.length = 8) (hn : ctxt.length = r.n) :
    ∃ st' cs msg, AEADProof.prove ⟨E', strToInt fiv', H⟩ st ctxt iv' r.secret
        = .ok (st', cs, msg, strToInt (Spec.GCM.bytesOf (E' (Spec.GCM.j0 (fiv' ++ iv')))))
      ∧ Pending E fiv recs st'
      ∧ ((∀ c ∈ cs, Holds c) ↔ E' (Spec.GCM.j0 (fiv' ++ iv')) = E (Spec.GCM.j0 (fiv ++ r.iv))
          ∧ Spec.GCM.keyStream E' (Spec.GCM.j0 (fiv' ++ iv')) r.n = Spec.GCM.keyStream E (Spec.GCM.j0 (fiv ++ r.iv)) r.n)
      ∧ msg = (if r.secret then some (strToInt (Spec.GCM.crypt E' (Spec.GCM.j0 (fiv' ++ iv')) ctxt)) else none)
      ∧ st'.gcHA = st.gcHA ∧ st'.gcHB = st.gcHB ∧ st'.zkH = st.zkH ∧ st'.fixedIv = st.fixedIv
      ∧ st'.mulA = st.mulA ∧ st'.mulB = st.mulB := by
  obtain ⟨hE, es, h0, hl, q1, q2, q3, q4, q5, q6, q7, q8, q9⟩ := hp
  match es, h0 with
  | e :: es, h0 =>
    simp only [List.map_cons, List.cons.injEq] at h0
    obtain ⟨rfl, rfl⟩ := h0
    simp only [List.map_cons] at q1 q2 q3
    have hz := hl e (by simp)
    have s1 := stream_proof E' fiv' iv' hf' hiv H ctxt.length
    rw [hn] at s1
    generalize hj' : Spec.GCM.j0 (fiv' ++ iv') = j' at *
    have hks : (Spec.GCM.keyStream E (e.r.j fiv) e.r.n).length = e.r.n := length_keyStream _ _ _
    have hks' : (Spec.GCM.keyStream E' j' e.r.n).length = e.r.n := length_keyStream _ _ _
    have hpl : plain (strToInt (Spec.GCM.keyStream E' j' e.r.n)) ctxt = strToInt (Spec.GCM.crypt E' j' ctxt) := by
      unfold plain Spec.GCM.crypt
      change Integer.xor _ (strToInt ctxt) = strToInt (xorBytes ctxt _)
      rw [hn, strToInt_xor _ _ (by rw [hks', hn])]
      unfold Integer.xor
      rw [List.zipWith_comm]
      simp only [Bool.xor_comm]
    generalize hk' : Spec.GCM.keyStream E' j' e.r.n = ks' at *
    have c1 : checkBlock (strToInt (Spec.GCM.bytesOf (E' j'))) (ofBytes (blockBytes e.z0)) (e.z0 ^^^ E (e.r.j fiv))
        = .ok (.block (strToInt (Spec.GCM.bytesOf (E' j'))) (ofBytes (blockBytes e.z0)) (e.z0 ^^^ E (e.r.j fiv))) := by
      rw [checkBlock, if_neg (by simp), if_neg (by simp)]
    have b1 := block_holds e.z0 (e.z0 ^^^ E (e.r.j fiv)) (E' j') (E (e.r.j fiv)) rfl
    cases hs : e.r.secret with
    | true =>
      simp only [List.filter_cons, hs, if_true, Bool.not_true, Bool.false_eq_true, if_false, List.map_cons] at q4 q5 q6 q7 q8 q9
      have c2 : checkBytes (strToInt ks') (ofBytes e.z.reverse) (xorBytes e.z (Spec.GCM.keyStream E (e.r.j fiv) e.r.n)).reverse e.r.n
          = .ok (.bytes (strToInt ks') (ofBytes e.z.reverse) (xorBytes e.z (Spec.GCM.keyStream E (e.r.j fiv) e.r.n)).reverse) := by
        rw [checkBytes, if_neg (by simp [hz]; omega), if_neg (by simp [hks']; omega), List.take_of_length_le (by simp [hz])]
      have b2 := bytes_holds e.z (Spec.GCM.keyStream E (e.r.j fiv) e.r.n) ks' (by rw [hks, hz])
      refine ⟨?_, ?_, ?_, ?_, ?_, ?_, ?_⟩
      rotate_left 3
      · simp only [AEADProof.prove, hn, s1, bind, Except.bind, popZ0, q1, q2, q3, c1, popZ, q4, q5, q6, q7, c2, hpl,
          Bool.true_eq_false, if_false]
        rfl
      · exact ⟨hE, es, rfl, fun x hx => hl x (by simp [hx]), rfl, rfl, rfl, rfl, rfl, rfl, rfl, q8, q9⟩
      · simp only [List.mem_cons, List.not_mem_nil, or_false, forall_eq_or_imp, forall_eq, b1, b2]
        rfl
      · simp
    | false =>
      simp only [List.filter_cons, hs, if_true, Bool.not_false, Bool.false_eq_true, if_false, List.map_cons] at q4 q5 q6 q7 q8 q9
      have c2 : checkData (strToInt ks') (Spec.GCM.keyStream E (e.r.j fiv) e.r.n).reverse e.r.n
          = .ok (.data (strToInt ks') (Spec.GCM.keyStream E (e.r.j fiv) e.r.n).reverse) := by
        rw [checkData, if_neg (by simp [hks']; omega), List.take_of_length_le (by simp)]
      have b2 := data_holds (Spec.GCM.keyStream E (e.r.j fiv) e.r.n) ks'
      refine ⟨?_, ?_, ?_, ?_, ?_, ?_, ?_⟩
      rotate_left 3
      · simp only [AEADProof.prove, hn, s1, bind, Except.bind, popZ0, q1, q2, q3, c1, popOpen, q8, q9, c2, if_true]
        rfl
      · exact ⟨hE, es, rfl, fun x hx => hl x (by simp [hx]), rfl, rfl, rfl, q4, q5, q6, q7, rfl, rfl⟩
      · simp only [List.mem_cons, List.not_mem_nil, or_false, forall_eq_or_imp, forall_eq, b1, b2]
        rfl
      · simp

/-- C40, the queues are filled in order: encryption. -/
theorem C40_encrypt (E : Block → Block) (fiv : List Byte) (hf : fiv.length = 4) (s : Bool) (st : State) (recs : List Rec)
    (g : Good E fiv st) (hp : Pending E fiv recs st) (msgA msgB aad iv : List Byte) (hiv : iv.length = 8) (secret : Bool)
    (m : Nat → Bool) (raw0 raw1 : Nat → Block) (hB : secret = false → msgB.length = msgA.length) :
    ∃ st' a b, AEAD.encrypt s st msgA msgB aad iv secret m raw0 raw1 = .ok (st', a, b) ∧ Good E fiv st'
      ∧ Pending E fiv (recs ++ [⟨iv, msgA.length, secret⟩]) st' := by
  obtain ⟨st', h1, h2, h3⟩ := encrypt_eq E fiv hf s st g msgA msgB aad iv hiv secret m raw0 raw1 hB
  exact ⟨st', _, _, h1, h2, pending_push hp h3⟩

/-- C40, the queues are filled in order: decryption, whether or not the tag is accepted. -/
theorem C40_decrypt (hash : List Byte → List Byte) (E : Block → Block) (fiv : List Byte) (hf : fiv.length = 4) (s : Bool) (st : State)
    (recs : List Rec) (g : Good E fiv st) (hp : Pending E fiv recs st) (cA cB tA tB aad iv : List Byte) (hiv : iv.length = 8)
    (secret : Bool) (m : Nat → Bool) (raw0 raw1 : Nat → Block) (rA rB : List Byte) (hB : secret = false → cB.length = cA.length) :
    ∃ st' a b, AEAD.decrypt hash s st cA cB tA tB aad iv secret m raw0 raw1 rA rB = .ok (st', a, b) ∧ Good E fiv st'
      ∧ Pending E fiv (recs ++ [⟨iv, cA.length, secret⟩]) st' := by
  obtain ⟨st', h1, h2, h3⟩ := decrypt_eq hash E fiv hf s st g cA cB tA tB aad iv hiv secret m raw0 raw1 rA rB hB
  exact ⟨st', _, _, h1, h2, pending_push hp h3⟩

/-- The histories of an `AEAD` object and its proofs, with the records not yet proved: any interleaving of encryptions,
decryptions and proofs (with any proof objects), where a proof has the mode and length of the oldest unproved record. -/
inductive Hist (hash : List Byte → List Byte) (E : Block → Block) (fiv : List Byte) (s : Bool) : State → List Rec → Prop
  | construct {m r raw0 raw1 st} : r ≠ 0 → AEAD.construct E (strToInt fiv) s m r raw0 raw1 = .ok st → Hist hash E fiv s st []
  | encrypt {st st' recs a b msgA msgB aad iv secret m raw0 raw1} : Hist hash E fiv s st recs →
      (secret = false → msgB.length = msgA.length) →
      AEAD.encrypt s st msgA msgB aad iv secret m raw0 raw1 = .ok (st', a, b) →
      Hist hash E fiv s st' (recs ++ [⟨iv, msgA.length, secret⟩])
  | decrypt {st st' recs a b cA cB tA tB aad iv secret m raw0 raw1 rA rB} : Hist hash E fiv s st recs →
      (secret = false → cB.length = cA.length) →
      AEAD.decrypt hash s st cA cB tA tB aad iv secret m raw0 raw1 rA rB = .ok (st', a, b) →
      Hist hash E fiv s st' (recs ++ [⟨iv, cA.length, secret⟩])
  | prove {st st' r recs E' fiv' H ctxt iv' out} : Hist hash E fiv s st (r :: recs) → fiv'.length = 4 → ctxt.length = r.n →
      AEADProof.prove ⟨E', strToInt fiv', H⟩ st ctxt iv' r.secret = .ok (st', out) → Hist hash E fiv s st' recs

theorem construct_queues {E : Block → Block} {fiv : Integer} {s : Bool} {m : Nat → Bool} {r : Block} {raw0 raw1 : Nat → Block}
    {st : State} (h : AEAD.construct E fiv s m r raw0 raw1 = .ok st) :
    st.E = E ∧ st.gcZ0A = [] ∧ st.gcZ0B = [] ∧ st.zkZ0 = [] ∧ st.gcZA = [] ∧ st.gcZB = [] ∧ st.zkZ = [] ∧ st.zLen = []
      ∧ st.openZ = [] ∧ st.openLen = [] ∧ st.zkH = ofBytes (blockBytes st.gcHA) := by
  simp only [AEAD.construct, bind, Except.bind] at h
  split at h
  · cases h
  · split at h
    · cases h
    · split at h
      · cases h
      · split at h
        · cases h
        · cases h
          exact ⟨rfl, rfl, rfl, rfl, rfl, rfl, rfl, rfl, rfl, rfl, rfl⟩

/-- C40, the invariant: after every history the queues hold exactly the data of the records not yet proved, in order. -/
theorem C40_invariant {hash : List Byte → List Byte} {E : Block → Block} {fiv : List Byte} (hf : fiv.length = 4) {s : Bool}
    {st : State} {recs : List Rec} (h : Hist hash E fiv s st recs) : Good E fiv st ∧ Pending E fiv recs st := by
  induction h with
  | construct hr hc =>
    obtain ⟨q0, q1, q2, q3, q4, q5, q6, q7, q8, q9, -⟩ := construct_queues hc
    exact ⟨reach_good hf (.construct (hash := hash) hr hc), q0, [], rfl, by simp, q1, q2, q3, q4, q5, q6, q7, q8, q9⟩
  | encrypt _ hl he ih =>
    rename_i st st' recs a b msgA msgB aad iv secret m raw0 raw1 _
    by_cases hiv : iv.length = 8
    · obtain ⟨st2, a', b', h1, h2, h3⟩ := C40_encrypt E fiv hf s st recs ih.1 ih.2 msgA msgB aad iv hiv secret m raw0 raw1 hl
      rw [he] at h1
      cases h1
      exact ⟨h2, h3⟩
    · simp [AEAD.encrypt, AEAD.stream, setNonce, hiv, bind, Except.bind] at he
  | decrypt _ hl he ih =>
    rename_i st st' recs a b cA cB tA tB aad iv secret m raw0 raw1 rA rB _
    by_cases hiv : iv.length = 8
    · obtain ⟨st2, a', b', h1, h2, h3⟩ := C40_decrypt hash E fiv hf s st recs ih.1 ih.2 cA cB tA tB aad iv hiv secret m raw0 raw1 rA rB hl
      rw [he] at h1
      cases h1
      exact ⟨h2, h3⟩
    · simp [AEAD.decrypt, AEAD.stream, setNonce, hiv, bind, Except.bind] at he
  | prove _ hf' hn he ih =>
    rename_i st st' r recs E' fiv' H ctxt iv' out _
    by_cases hiv : iv'.length = 8
    · obtain ⟨st2, cs, msg, h1, h2, -, -, -, -, -, h3, h4, h5⟩ := C40_prove E E' fiv fiv' hf' H r recs st ih.2 ctxt iv' hiv hn
      rw [he] at h1
      cases h1
      obtain ⟨a, b, k, p1, p2, p3⟩ := ih.1.pow
      exact ⟨⟨h2.1, h3.trans ih.1.iv, a, b, k, p1, h4.trans p2, h5.trans p3⟩, h2⟩
    · simp [AEADProof.prove, AEADProof.stream, setNonce, hiv, bind, Except.bind] at he

/-- The records of a proof: ciphertext, nonce and mode, with the lengths and modes of the records recorded. -/
def Matches (rs : List (List Byte × List Byte × Bool)) (recs : List Rec) : Prop :=
  List.Forall₂ (fun p r => p.1.length = r.n ∧ p.2.1.length = 8 ∧ p.2.2 = r.secret) rs recs

/-- C40: proving all records in order.  Every call succeeds, all queues end empty, and the checks of the `i`-th proof hold
exactly if `E(J)` and the key stream are those of the `i`-th record; with the right key and nonces they all hold and the
secret messages are the decryptions. -/
theorem C40_prove_all {hash : List Byte → List Byte} {E : Block → Block} {fiv : List Byte} (hf : fiv.length = 4) {s : Bool}
    {st : State} {recs : List Rec} (h : Hist hash E fiv s st recs) (E' : Block → Block) (fiv' : List Byte) (hf' : fiv'.length = 4)
    (H : Integer) (rs : List (List Byte × List Byte × Bool)) (hm : Matches rs recs) :
    ∃ st' out, proveAll ⟨E', strToInt fiv', H⟩ st rs = .ok (st', out) ∧ Pending E fiv [] st' ∧ Hist hash E fiv s st' []
      ∧ List.Forall₂ (fun (o : List Check × Option Integer × Integer) (p : (List Byte × List Byte × Bool) × Rec) =>
          ((∀ c ∈ o.1, Holds c) ↔ E' (Spec.GCM.j0 (fiv' ++ p.1.2.1)) = E (Spec.GCM.j0 (fiv ++ p.2.iv))
            ∧ Spec.GCM.keyStream E' (Spec.GCM.j0 (fiv' ++ p.1.2.1)) p.2.n = Spec.GCM.keyStream E (Spec.GCM.j0 (fiv ++ p.2.iv)) p.2.n)
          ∧ o.2.1 = (if p.2.secret then some (strToInt (Spec.GCM.crypt E' (Spec.GCM.j0 (fiv' ++ p.1.2.1)) p.1.1)) else none)
          ∧ o.2.2 = strToInt (Spec.GCM.bytesOf (E' (Spec.GCM.j0 (fiv' ++ p.1.2.1))))) out (rs.zip recs) := by
  induction rs generalizing st recs with
  | nil =>
    cases hm
    exact ⟨st, [], rfl, (C40_invariant hf h).2, h, by simp⟩
  | cons p rs ih =>
    obtain ⟨ctxt, iv', secret⟩ := p
    cases hm with
    | cons hp hm =>
      rename_i r recs
      obtain ⟨hn, hiv, hsec⟩ := hp
      simp only at hn hiv hsec
      subst hsec
      obtain ⟨st1, cs, msg, h1, h2, h3, h4, -⟩ := C40_prove E E' fiv fiv' hf' H r recs st (C40_invariant hf h).2 ctxt iv' hiv hn
      obtain ⟨st2, out, e1, e2, e3, e4⟩ := ih (Hist.prove h hf' hn h1) hm
      refine ⟨st2, (cs, msg, strToInt (Spec.GCM.bytesOf (E' (Spec.GCM.j0 (fiv' ++ iv'))))) :: out, ?_, e2, e3, ?_⟩
      · simp only [proveAll, h1, e1, bind, Except.bind]
      · rw [List.zip_cons_cons]
        exact List.Forall₂.cons ⟨h3, h4, rfl⟩ e4

/-- The constructor of the proof object: its check holds exactly if the hash key is the one of the online phase. -/
theorem C40_construct (E E' : Block → Block) (fiv : Integer) (s : Bool) (m : Nat → Bool) (r : Block) (raw0 raw1 : Nat → Block)
    (st : State) (h : AEAD.construct E fiv s m r raw0 raw1 = .ok st) (fiv' : Integer) :
    ∃ P c, AEADProof.construct E' fiv' st = .ok (P, c) ∧ P.E = E' ∧ P.fixedIv = fiv'
      ∧ P.H = strToInt (Spec.GCM.bytesOf (E' 0)) ∧ (Holds c ↔ E' 0 = E 0) := by
  obtain ⟨st', h1, -, -, h2, -⟩ := construct_eq E fiv s m r raw0 raw1
  rw [h] at h1
  cases h1
  have hz := (construct_queues h).2.2.2.2.2.2.2.2.2.2
  have hb : blk (ofNat 128 0) = (0 : Block) := by rw [blk, val_ofNat]; rfl
  have ha : aes E' (ofNat 128 0) = .ok (strToInt (Spec.GCM.bytesOf (E' 0))) := by rw [aes, if_pos (by simp), hb, ofNat_block]
  have hc : checkBlock (strToInt (Spec.GCM.bytesOf (E' 0))) st.zkH st.gcHB = .ok (.block (strToInt (Spec.GCM.bytesOf (E' 0))) st.zkH st.gcHB) := by
    rw [checkBlock, hz, if_neg (by simp), if_neg (by simp)]
  refine ⟨_, _, by simp only [AEADProof.construct, ha, hc, bind, Except.bind]; rfl, rfl, rfl, rfl, ?_⟩
  rw [hz]
  apply block_holds
  rw [← h2, ← BitVec.xor_assoc, BitVec.xor_self, BitVec.zero_xor]

/-- `prove_aead_last` decrypts, without any check and without touching the queues. -/
theorem C40_last (E' : Block → Block) (fiv' iv' ctxt : List Byte) (hf' : fiv'.length = 4) (hiv : iv'.length = 8) (H : Integer) :
    proveLast ⟨E', strToInt fiv', H⟩ ctxt iv' = .ok (strToInt (Spec.GCM.crypt E' (Spec.GCM.j0 (fiv' ++ iv')) ctxt),
      strToInt (Spec.GCM.bytesOf (E' (Spec.GCM.j0 (fiv' ++ iv'))))) := by
  have s1 := stream_proof E' fiv' iv' hf' hiv H ctxt.length
  simp only [proveLast, s1, bind, Except.bind]
  congr 2
  unfold plain Spec.GCM.crypt
  change Integer.xor _ (strToInt ctxt) = strToInt (xorBytes ctxt _)
  rw [strToInt_xor _ _ (by rw [length_keyStream])]
  unfold Integer.xor
  rw [List.zipWith_comm]
  simp only [Bool.xor_comm]

/-- A proof beyond the recorded ones stops at an assertion, and so does one in a mode of which no record is pending: no queue
is popped when empty. -/
theorem C40_no_record {E : Block → Block} {fiv : List Byte} {st : State} {recs : List Rec} (hp : Pending E fiv recs st)
    (E' : Block → Block) (fiv' : List Byte) (hf' : fiv'.length = 4) (H : Integer) (ctxt iv' : List Byte) (hiv : iv'.length = 8)
    (secret : Bool) (hno : ∀ r ∈ recs, r.secret ≠ secret) :
    ∃ w, AEADProof.prove ⟨E', strToInt fiv', H⟩ st ctxt iv' secret = .error (.error w) := by
  obtain ⟨hE, es, h0, hl, q1, q2, q3, q4, q5, q6, q7, q8, q9⟩ := hp
  have s1 := stream_proof E' fiv' iv' hf' hiv H ctxt.length
  have hno' : ∀ e ∈ es, e.r.secret ≠ secret := fun e he => hno e.r (by rw [← h0]; exact List.mem_map_of_mem he)
  cases es with
  | nil =>
    simp only [List.map_nil] at q1
    exact ⟨_, by simp only [AEADProof.prove, s1, bind, Except.bind, popZ0, q1]; rfl⟩
  | cons e es =>
    simp only [List.map_cons] at q1 q2 q3
    have c1 : ∀ x g, checkBlock (strToInt (Spec.GCM.bytesOf x)) (ofBytes (blockBytes e.z0)) g
        = .ok (.block (strToInt (Spec.GCM.bytesOf x)) (ofBytes (blockBytes e.z0)) g) := by
      intro x g; rw [checkBlock, if_neg (by simp), if_neg (by simp)]
    cases secret with
    | true =>
      have : (e :: es).filter (·.r.secret) = [] := List.filter_eq_nil_iff.mpr fun x hx => by simpa using hno' x hx
      rw [this, List.map_nil] at q4
      exact ⟨_, by simp only [AEADProof.prove, s1, bind, Except.bind, popZ0, q1, q2, q3, c1, popZ, q4, Bool.true_eq_false, if_false]; rfl⟩
    | false =>
      have : (e :: es).filter (!·.r.secret) = [] := List.filter_eq_nil_iff.mpr fun x hx => by simpa using hno' x hx
      rw [this, List.map_nil] at q8
      exact ⟨_, by simp only [AEADProof.prove, s1, bind, Except.bind, popZ0, q1, q2, q3, c1, popOpen, q8, if_true]; rfl⟩

/-- In states that no sequence of records leads to: the one access to an empty queue that no assertion stops is that of `z_len` (`protocol/aead_izk.h:172`), and it happens exactly if the
queues named in the assertions are not empty, `z_len` is, and the record is proved as secret. -/
theorem C40_unasserted (E' : Block → Block) (fiv' : List Byte) (hf' : fiv'.length = 4) (H : Integer) (st : State) (ctxt iv' : List Byte) (hiv : iv'.length = 8) (secret : Bool) :
    (∃ w, AEADProof.prove ⟨E', strToInt fiv', H⟩ st ctxt iv' secret = .error (.ub w))
      ↔ secret = true ∧ st.gcZ0A ≠ [] ∧ st.gcZ0B ≠ [] ∧ (∃ z zs, st.zkZ0 = z :: zs ∧ z.length = 128) ∧ st.gcZA ≠ [] ∧ st.gcZB ≠ [] ∧ st.zkZ ≠ [] ∧ st.zLen = [] := by
  have s1 := stream_proof E' fiv' iv' hf' hiv H ctxt.length
  simp only [AEADProof.prove, s1, bind, Except.bind]
  cases h1 : st.gcZ0A with
  | nil => simp [popZ0, h1]
  | cons a as =>
    cases h2 : st.gcZ0B with
    | nil => simp [popZ0, h1, h2]
    | cons b bs =>
      cases h3 : st.zkZ0 with
      | nil => simp [popZ0, h1, h2, h3]
      | cons z zs =>
        by_cases hz : z.length = 128
        · cases secret with
          | false =>
            cases h4 : st.openZ with
            | nil => simp [popZ0, h1, h2, h3, checkBlock, hz, bind, Except.bind, popOpen, h4]
            | cons o os =>
              cases h5 : st.openLen with
              | nil => simp [popZ0, h1, h2, h3, checkBlock, hz, bind, Except.bind, popOpen, h4, h5]
              | cons k ks =>
                by_cases hl : 8 * ctxt.length = k * 8 <;>
                  simp [popZ0, h1, h2, h3, checkBlock, hz, bind, Except.bind, popOpen, h4, h5, checkData, hl]
          | true =>
            cases h4 : st.gcZA with
            | nil => simp [popZ0, h1, h2, h3, checkBlock, hz, bind, Except.bind, popZ, h4]
            | cons c cs =>
              cases h5 : st.gcZB with
              | nil => simp [popZ0, h1, h2, h3, checkBlock, hz, bind, Except.bind, popZ, h4, h5]
              | cons e es =>
                cases h6 : st.zkZ with
                | nil => simp [popZ0, h1, h2, h3, checkBlock, hz, bind, Except.bind, popZ, h4, h5, h6]
                | cons y ys =>
                  cases h7 : st.zLen with
                  | nil => simp [popZ0, h1, h2, h3, checkBlock, hz, bind, Except.bind, popZ, h4, h5, h6, h7]
                  | cons k ks =>
                    by_cases hy : y.length = k * 8 <;> by_cases hl : 8 * ctxt.length = k * 8 <;>
                      simp [popZ0, h1, h2, h3, checkBlock, hz, bind, Except.bind, popZ, h4, h5, h6, h7, checkBytes, hy, hl]
        · have : checkBlock (strToInt (Spec.GCM.bytesOf (E' (Spec.GCM.j0 (fiv' ++ iv'))))) z b = .error (.error "assert(pre_res.size() == 128)") := by
            simp [checkBlock, hz]
          simp [popZ0, h1, h2, h3, bind, Except.bind, this, hz]

/-- Such a state. -/
example : ∃ st : State, st.gcZ0A ≠ [] ∧ st.gcZ0B ≠ [] ∧ (∃ z zs, st.zkZ0 = z :: zs ∧ z.length = 128) ∧ st.gcZA ≠ [] ∧ st.gcZB ≠ [] ∧ st.zkZ ≠ [] ∧ st.zLen = [] :=
  ⟨⟨id, [], [], 0, 0, [], [0], [0], [List.replicate 128 false], [[]], [[]], [[]], [], [], [], [], []⟩, by simp⟩

/-- The order of the modes matters: with a public record `r1` before a secret one `r2`, proving `r2` first is checked
against `E(J)` of `r1` and the key stream of `r2`. -/
theorem C40_wrong_order (E E' : Block → Block) (fiv fiv' : List Byte) (hf' : fiv'.length = 4) (H : Integer) (r1 r2 : Rec)
    (recs : List Rec) (h1 : r1.secret = false) (h2 : r2.secret = true)
    (st : State) (hp : Pending E fiv (r1 :: r2 :: recs) st) (ctxt iv' : List Byte) (hiv : iv'.length = 8) (hn : ctxt.length = r2.n) :
    ∃ st' cs out, AEADProof.prove ⟨E', strToInt fiv', H⟩ st ctxt iv' true = .ok (st', cs, out)
      ∧ ((∀ c ∈ cs, Holds c) ↔ E' (Spec.GCM.j0 (fiv' ++ iv')) = E (Spec.GCM.j0 (fiv ++ r1.iv))
          ∧ Spec.GCM.keyStream E' (Spec.GCM.j0 (fiv' ++ iv')) r2.n = Spec.GCM.keyStream E (Spec.GCM.j0 (fiv ++ r2.iv)) r2.n) := by
  obtain ⟨hE, es, h0, hl, q1, q2, q3, q4, q5, q6, q7, q8, q9⟩ := hp
  match es, h0 with
  | e1 :: e2 :: es, h0 =>
    simp only [List.map_cons, List.cons.injEq] at h0
    obtain ⟨rfl, rfl, rfl⟩ := h0
    simp only [List.map_cons] at q1 q2 q3
    have hz := hl e2 (by simp)
    have s1 := stream_proof E' fiv' iv' hf' hiv H ctxt.length
    rw [hn] at s1
    generalize hj' : Spec.GCM.j0 (fiv' ++ iv') = j' at *
    have hks : (Spec.GCM.keyStream E (e2.r.j fiv) e2.r.n).length = e2.r.n := length_keyStream _ _ _
    have hks' : (Spec.GCM.keyStream E' j' e2.r.n).length = e2.r.n := length_keyStream _ _ _
    generalize hk' : Spec.GCM.keyStream E' j' e2.r.n = ks' at *
    have c1 : checkBlock (strToInt (Spec.GCM.bytesOf (E' j'))) (ofBytes (blockBytes e1.z0)) (e1.z0 ^^^ E (e1.r.j fiv))
        = .ok (.block (strToInt (Spec.GCM.bytesOf (E' j'))) (ofBytes (blockBytes e1.z0)) (e1.z0 ^^^ E (e1.r.j fiv))) := by
      rw [checkBlock, if_neg (by simp), if_neg (by simp)]
    have b1 := block_holds e1.z0 (e1.z0 ^^^ E (e1.r.j fiv)) (E' j') (E (e1.r.j fiv)) rfl
    simp only [List.filter_cons, h1, h2, if_true, Bool.not_true, Bool.false_eq_true, if_false, List.map_cons] at q4 q5 q6 q7
    have c2 : checkBytes (strToInt ks') (ofBytes e2.z.reverse) (xorBytes e2.z (Spec.GCM.keyStream E (e2.r.j fiv) e2.r.n)).reverse e2.r.n
        = .ok (.bytes (strToInt ks') (ofBytes e2.z.reverse) (xorBytes e2.z (Spec.GCM.keyStream E (e2.r.j fiv) e2.r.n)).reverse) := by
      rw [checkBytes, if_neg (by simp [hz]; omega), if_neg (by simp [hks']; omega), List.take_of_length_le (by simp [hz])]
    have b2 := bytes_holds e2.z (Spec.GCM.keyStream E (e2.r.j fiv) e2.r.n) ks' (by rw [hks, hz])
    refine ⟨?_, ?_, ?_, ?_, ?_⟩
    rotate_left 3
    · simp only [AEADProof.prove, hn, s1, bind, Except.bind, popZ0, q1, q2, q3, c1, popZ, q4, q5, q6, q7, c2,
        Bool.true_eq_false, if_false]
      rfl
    · simp only [List.mem_cons, List.not_mem_nil, or_false, forall_eq_or_imp, forall_eq, b1, b2]
      rfl

/-- Two records, a secret and a public one, then their proofs. -/
example : ∃ st st', Hist id (fun b => b * b + 3#128) [1, 2, 3, 4] true st
      [⟨[0, 0, 0, 0, 0, 0, 0, 1], 3, true⟩, ⟨[0, 0, 0, 0, 0, 0, 0, 2], 17, false⟩]
    ∧ Hist id (fun b => b * b + 3#128) [1, 2, 3, 4] true st' [] := by
  obtain ⟨st0, h0, -⟩ := construct_eq (fun b => b * b + 3#128) (strToInt [1, 2, 3, 4]) true (fun i => i % 3 == 0) 5#128
    (fun i => BitVec.ofNat 128 (i * 7)) (fun i => BitVec.ofNat 128 (i * i))
  have r0 : Hist id (fun b => b * b + 3#128) [1, 2, 3, 4] true st0 [] := .construct (by decide +kernel) h0
  obtain ⟨g0, p0⟩ := C40_invariant rfl r0
  obtain ⟨st1, a, b, h1, g1, p1⟩ := C40_encrypt _ [1, 2, 3, 4] rfl true st0 [] g0 p0 [7, 8, 9] [] [] [0, 0, 0, 0, 0, 0, 0, 1] rfl true
    (fun i => i % 5 == 0) (fun i => BitVec.ofNat 128 (i * 7)) (fun i => BitVec.ofNat 128 (i * i)) (by simp)
  have r1 := Hist.encrypt r0 (by simp) h1
  obtain ⟨st2, a', b', h2, g2, p2⟩ := C40_encrypt _ [1, 2, 3, 4] rfl true st1 _ g1 p1 (List.replicate 17 6) (List.replicate 17 6) []
    [0, 0, 0, 0, 0, 0, 0, 2] rfl false
    (fun i => i % 5 == 0) (fun i => BitVec.ofNat 128 (i * 7)) (fun i => BitVec.ofNat 128 (i * i)) (by simp)
  have r2 := Hist.encrypt r1 (by simp) h2
  obtain ⟨st3, out, -, -, h3, -⟩ := C40_prove_all rfl r2 (fun b => b * b + 3#128) [1, 2, 3, 4] rfl []
    [([1, 2, 3], [0, 0, 0, 0, 0, 0, 0, 1], true), (List.replicate 17 1, [0, 0, 0, 0, 0, 0, 0, 2], false)] (by simp [Matches])
  exact ⟨st2, st3, r2, h3⟩

end Verif.Props.AEADProof
