import Verif.Model.RecordTwo
import Verif.Props.NonceUse
import Verif.Props.Session

/-!
C85: what of BOB's arguments matters for the records.

`set_nonce` makes the nonce an input of ALICE in every call (`protocol/aead.h:132`), and `obv_ghash` uses only ALICE's blocks.  So the nonces and the additional data that BOB passes in
the connection have no effect, also not when they differ from ALICE's: BOB's code cannot keep ALICE from using a nonce twice.  With a nonce used twice on short records the hash key is
one inversion and 127 squarings away, and then ALICE makes other records under that nonce which the server accepts.  The nonces of the proof phase are public and BOB's (`protocol/aead_izk.h:107`,
C52, C73); the ciphertexts and tags of the connection are not kept: only BOB's caller can compare them.
-/

namespace Verif.Props.RecordTwo
open Verif.Model Verif.Model.Integer Verif.Model.AEAD Verif.Lemmas Verif.Lemmas.GHash
open Verif.Model.SHA (Owner ofOwner)
open Verif.Spec (gcmGhash)
open Verif.Spec.GCM (hashInput blocks blockOf bytesOf pad be64 j0 counter inc32 keyStream crypt)

theorem streamTwo_eq (st : State) (ivA ivB : List Byte) (n n' : Nat) (hn : n' = n) (h : ivB.length = ivA.length) (m : Nat → Bool) :
    streamTwo st ivA ivB n n' m = AEAD.stream st ivA n m := by
  subst hn
  unfold streamTwo AEAD.stream
  have e : setNonceTwo st.fixedIv ivA ivB = setNonce st.fixedIv ivA := by
    unfold setNonceTwo setNonce
    simp only [h, or_self]
    rfl
  rw [e, if_neg (fun h => h rfl)]

theorem ghashTwo_eq (s : Bool) (raw0 raw1 : Nat → Block) (mulA mulB insA insB : List Block) (h : insB.length = insA.length) :
    obvGhashTwo s raw0 raw1 mulA mulB insA insB = obvGhash s raw0 raw1 mulA mulB insA := by
  cases mulA with
  | nil => rfl
  | cons hA tA =>
    cases mulB with
    | nil => rfl
    | cons hB tB =>
      unfold obvGhashTwo obvGhash
      simp only [h, ne_eq, not_true_eq_false, if_false, ghashInput]

theorem tagBlocks_length {a a' c c' : List Byte} (h : a'.length = a.length) (hc : c'.length = c.length) : (tagBlocks a' c').length = (tagBlocks a c).length := by
  simp [tagBlocks, tagBuffer, lenBytes, h, hc]

/-- **C85, encryption.**  Whatever nonce and additional data BOB passes (of the right lengths): both parties obtain what they obtain if BOB passes ALICE's. -/
theorem C85_encrypt (s : Bool) (st : State) (msgA msgB aadA aadB ivA ivB : List Byte) (hm : msgB.length = msgA.length) (ha : aadB.length = aadA.length)
    (hi : ivB.length = ivA.length) (secret : Bool) (m : Nat → Bool) (raw0 raw1 : Nat → Block) :
    encryptTwo s st msgA msgB aadA aadB ivA ivB secret m raw0 raw1 = AEAD.encrypt s st msgA msgB aadA ivA secret m raw0 raw1 := by
  simp only [encryptTwo, AEAD.encrypt, bind, Except.bind]
  rw [streamTwo_eq st ivA ivB _ _ hm hi]
  cases AEAD.stream st ivA msgA.length m with
  | error e => rfl
  | ok x =>
    obtain ⟨st1, Z, z, z0A, z0B⟩ := x
    simp only
    cases secret with
    | false =>
      simp only [if_true]
      rw [ghashTwo_eq _ _ _ _ _ _ _ (tagBlocks_length ha (by simp [xorBytes, hm]))]
    | true =>
      simp only [Bool.true_eq_false, if_false]
      cases integerToChars z.1 with
      | error e => rfl
      | ok zA =>
        simp only
        cases integerToChars z.2 with
        | error e => rfl
        | ok zB =>
          simp only
          rw [ghashTwo_eq _ _ _ _ _ _ _ (tagBlocks_length ha rfl)]

/-- **C85, decryption.**  The same for `decrypt`, including the decisions of both parties. -/
theorem C85_decrypt (hash : List Byte → List Byte) (s : Bool) (st : State) (cA cB tA tB aadA aadB ivA ivB : List Byte) (hc : cB.length = cA.length) (ha : aadB.length = aadA.length)
    (hi : ivB.length = ivA.length) (secret : Bool) (m : Nat → Bool) (raw0 raw1 : Nat → Block) (rA rB : List Byte) :
    decryptTwo hash s st cA cB tA tB aadA aadB ivA ivB secret m raw0 raw1 rA rB = AEAD.decrypt hash s st cA cB tA tB aadA ivA secret m raw0 raw1 rA rB := by
  simp only [decryptTwo, AEAD.decrypt, bind, Except.bind]
  rw [streamTwo_eq st ivA ivB _ _ hc hi]
  cases AEAD.stream st ivA cA.length m with
  | error e => rfl
  | ok x =>
    obtain ⟨st1, Z, z, z0A, z0B⟩ := x
    simp only
    cases secret with
    | false =>
      simp only [if_true]
      rw [ghashTwo_eq _ _ _ _ _ _ _ (tagBlocks_length ha hc)]
    | true =>
      simp only [Bool.true_eq_false, if_false]
      cases integerToChars z.1 with
      | error e => rfl
      | ok zA =>
        simp only
        cases integerToChars z.2 with
        | error e => rfl
        | ok zB =>
          simp only
          rw [ghashTwo_eq _ _ _ _ _ _ _ (tagBlocks_length ha hc)]

/-- Each party's buffers have the lengths the other expects. -/
def Fits : CallTwo → Prop
  | .enc mA mB aA aB iA iB _ _ _ _ => mB.length = mA.length ∧ aB.length = aA.length ∧ iB.length = iA.length
  | .dec cA cB _ _ aA aB iA iB _ _ _ _ _ _ => cB.length = cA.length ∧ aB.length = aA.length ∧ iB.length = iA.length

/-- The same call of a BOB who passes the nonce and the additional data that ALICE passes. -/
def following : CallTwo → CallTwo
  | .enc mA mB aA _ iA _ sec m r0 r1 => .enc mA mB aA aA iA iA sec m r0 r1
  | .dec cA cB tA tB aA _ iA _ sec m r0 r1 rA rB => .dec cA cB tA tB aA aA iA iA sec m r0 r1 rA rB

/-- **C85, all calls of a connection.**  Any sequence of encryptions and decryptions of a record object, in both modes, ends in the same state and gives both parties the same results
whatever nonces and additional data BOB passes. -/
theorem C85_run (hash : List Byte → List Byte) (s : Bool) (st : State) (l : List CallTwo) (h : ∀ c ∈ l, Fits c) :
    runTwo hash s st l = runTwo hash s st (l.map following) := by
  induction l generalizing st with
  | nil => rfl
  | cons c l ih =>
    have e : c.step hash s st = (following c).step hash s st := by
      have hc := h c (by simp)
      cases c with
      | enc mA mB aA aB iA iB sec m r0 r1 =>
        obtain ⟨h1, h2, h3⟩ := hc
        simp only [CallTwo.step, following]
        rw [C85_encrypt s st mA mB aA aB iA iB h1 h2 h3, C85_encrypt s st mA mB aA aA iA iA h1 rfl rfl]
      | dec cA cB tA tB aA aB iA iB sec m r0 r1 rA rB =>
        obtain ⟨h1, h2, h3⟩ := hc
        simp only [CallTwo.step, following]
        rw [C85_decrypt hash s st cA cB tA tB aA aB iA iB h1 h2 h3, C85_decrypt hash s st cA cB tA tB aA aA iA iA h1 rfl rfl]
    rw [List.map_cons, runTwo, runTwo, e]
    cases (following c).step hash s st with
    | error e => rfl
    | ok x =>
      obtain ⟨st', g⟩ := x
      simp only [bind, Except.bind]
      rw [ih st' (fun c hc => h c (by simp [hc]))]

/-- The calls one after the other, with the code of `protocol/aead.h` for parties that pass the same nonce and additional data; one result for each. -/
inductive Made (hash : List Byte → List Byte) (s : Bool) : State → List CallTwo → State → List GotTwo → Prop
  | done (st : State) : Made hash s st [] st []
  | enc {st st1 st2 : State} {mA mB aA aB iA iB : List Byte} {sec : Bool} {m : Nat → Bool} {r0 r1 : Nat → Block} {a b : Sealed} {l : List CallTwo} {gs : List GotTwo} :
      AEAD.encrypt s st mA mB aA iA sec m r0 r1 = .ok (st1, a, b) → Made hash s st1 l st2 gs → Made hash s st (.enc mA mB aA aB iA iB sec m r0 r1 :: l) st2 (.sealed a b :: gs)
  | dec {st st1 st2 : State} {cA cB tA tB aA aB iA iB : List Byte} {sec : Bool} {m : Nat → Bool} {r0 r1 : Nat → Block} {rA rB : List Byte} {a b : Opened} {l : List CallTwo}
      {gs : List GotTwo} : AEAD.decrypt hash s st cA cB tA tB aA iA sec m r0 r1 rA rB = .ok (st1, a, b) → Made hash s st1 l st2 gs →
      Made hash s st (.dec cA cB tA tB aA aB iA iB sec m r0 r1 rA rB :: l) st2 (.opened a b :: gs)

/-- **C85, the results of a connection.**  The calls give exactly the results, one after the other, of calls in which BOB passes ALICE's nonces and additional data. -/
theorem C85_run_results (hash : List Byte → List Byte) (s : Bool) (l : List CallTwo) : ∀ (st : State), (∀ c ∈ l, Fits c) → ∀ (st' : State) (gs : List GotTwo),
    runTwo hash s st l = .ok (st', gs) ↔ Made hash s st l st' gs := by
  induction l with
  | nil =>
    intro st _ st' gs
    constructor
    · intro h; cases h; exact .done st
    · intro h; cases h; rfl
  | cons c l ih =>
    intro st h st' gs
    have hc := h c (by simp)
    have ih' := fun st => ih st (fun c hc => h c (by simp [hc]))
    cases c with
    | enc mA mB aA aB iA iB sec m r0 r1 =>
      obtain ⟨h1, h2, h3⟩ := hc
      simp only [runTwo, CallTwo.step, C85_encrypt s st mA mB aA aB iA iB h1 h2 h3, bind, Except.bind]
      constructor
      · intro hr
        cases he : AEAD.encrypt s st mA mB aA iA sec m r0 r1 with
        | error x => rw [he] at hr; cases hr
        | ok x =>
          obtain ⟨st1, a, b⟩ := x
          rw [he] at hr
          simp only at hr
          cases hl : runTwo hash s st1 l with
          | error x => rw [hl] at hr; cases hr
          | ok x => rw [hl] at hr; cases hr; exact .enc he ((ih' st1 _ _).1 hl)
      · intro hr
        cases hr with
        | enc he hl => rw [he]; simp only; rw [(ih' _ _ _).2 hl]
    | dec cA cB tA tB aA aB iA iB sec m r0 r1 rA rB =>
      obtain ⟨h1, h2, h3⟩ := hc
      simp only [runTwo, CallTwo.step, C85_decrypt hash s st cA cB tA tB aA aB iA iB h1 h2 h3, bind, Except.bind]
      constructor
      · intro hr
        cases he : AEAD.decrypt hash s st cA cB tA tB aA iA sec m r0 r1 rA rB with
        | error x => rw [he] at hr; cases hr
        | ok x =>
          obtain ⟨st1, a, b⟩ := x
          rw [he] at hr
          simp only at hr
          cases hl : runTwo hash s st1 l with
          | error x => rw [hl] at hr; cases hr
          | ok x => rw [hl] at hr; cases hr; exact .dec he ((ih' st1 _ _).1 hl)
      · intro hr
        cases hr with
        | dec he hl => rw [he]; simp only; rw [(ih' _ _ _).2 hl]

/-! ### A nonce used twice -/

theorem blocks_append (p t : List Byte) (hl : p.length % 16 = 0) (ht : t.length = 16) : blocks (p ++ t) = blocks p ++ [blockOf t] := by
  have h2 : 16 * (p.length / 16) = p.length := by omega
  have h1 : (p ++ t).length / 16 = p.length / 16 + 1 := by rw [List.length_append]; omega
  unfold blocks
  rw [h1, List.range_succ, List.map_append, List.map_singleton]
  congr 1
  · refine List.map_congr_left fun i hi => ?_
    have := List.mem_range.mp hi
    rw [List.drop_append_of_le_length (by omega), List.take_append_of_le_length (by rw [List.length_drop]; omega)]
  · rw [h2, List.drop_left, List.take_of_length_le (by omega)]

/-- Two records with the same additional data and one block of ciphertext each. -/
theorem ghash_diff (h : Block) (a c c' : List Byte) (h0 : 0 < c.length) (h16 : c.length ≤ 16) (hl : c'.length = c.length) :
    (⟨gcmGhash h (blocks (hashInput a c)) ^^^ gcmGhash h (blocks (hashInput a c'))⟩ : F128) = ⟨blockOf (pad c) ^^^ blockOf (pad c')⟩ * ⟨h⟩ ^ 2 := by
  have key : ∀ x : List Byte, x.length = c.length → (⟨gcmGhash h (blocks (hashInput a x))⟩ : F128)
      = ⟨blockOf (be64 (8 * a.length) ++ be64 (8 * c.length))⟩ * ⟨h⟩ + ⟨blockOf (pad x)⟩ * ⟨h⟩ ^ 2 + ⟨h⟩ ^ 2 * polySum ⟨h⟩ 0 (blocks (pad a)).reverse := by
    intro x hx
    have lp : (pad x).length = 16 := by rw [GHash.length_pad]; omega
    have e : hashInput a x = (pad a ++ pad x) ++ (be64 (8 * a.length) ++ be64 (8 * c.length)) := by
      unfold hashInput; rw [List.append_assoc, hx]
    rw [e, blocks_append _ _ (by rw [List.length_append, GHash.length_pad, lp]; omega) (by simp [length_be64]),
      blocks_append _ _ (by rw [GHash.length_pad]; omega) lp]
    rw [ghash_poly, List.reverse_append, List.reverse_append, rp_eval]
    simp only [List.reverse_singleton, List.singleton_append, polySum]
    rw [polySum_shift _ (0 + 1 + 1)]
    ring_nf
  have e1 := key c rfl
  have e2 := key c' hl
  show (⟨gcmGhash h (blocks (hashInput a c))⟩ : F128) + ⟨gcmGhash h (blocks (hashInput a c'))⟩ = (⟨blockOf (pad c)⟩ + ⟨blockOf (pad c')⟩) * ⟨h⟩ ^ 2
  rw [e1, e2]
  linear_combination F128.add_self ((⟨blockOf (be64 (8 * a.length) ++ be64 (8 * c.length))⟩ : F128) * ⟨h⟩ + ⟨h⟩ ^ 2 * polySum ⟨h⟩ 0 (blocks (pad a)).reverse)

/-- Squaring 127 times, as an attacker would. -/
def squareRoot (x : Block) : Block := (fun y => mulBlock y y)^[127] x

theorem squareRoot_sq (h : F128) : squareRoot (h ^ 2).val = h.val := by
  have key : ∀ n (x : F128), ((fun y => mulBlock y y)^[n] x.val) = (x ^ (2 ^ n)).val := by
    intro n
    induction n with
    | zero => intro x; simp
    | succ n ih =>
      intro x
      rw [Function.iterate_succ_apply]
      show ((fun y => mulBlock y y)^[n] (x * x).val) = _
      rw [ih, ← pow_two, ← pow_mul, pow_succ', Nat.mul_comm]
  rw [squareRoot, key, ← pow_mul]
  have : 2 * 2 ^ 127 = 2 ^ 128 := by norm_num
  rw [this, F128.pow_card]

/-- The hash key computed from two records under one nonce, with the same additional data and one block of ciphertext. -/
def hashKey (c c' t t' : List Byte) : Block :=
  squareRoot (mulBlock (blockOf t ^^^ blockOf t') (invBlock (blockOf (pad c) ^^^ blockOf (pad c'))))

/-- The ciphertext of another message, from a message and its ciphertext. -/
def resend (msg c msg' : List Byte) : List Byte := xorBytes msg' (xorBytes msg c)

theorem resend_eq (E : Block → Block) (j : Block) (msg msg' : List Byte) (h : msg'.length ≤ msg.length) : resend msg (crypt E j msg) msg' = crypt E j msg' := by
  apply List.ext_getElem?
  intro k
  by_cases hk : k < msg'.length
  · have hk' : k < msg.length := by omega
    have hb : k % 16 < (bytesOf (E (counter (inc32 j) (k / 16)))).length := by rw [length_bytesOf]; omega
    simp only [resend, xorBytes, crypt, List.getElem?_zipWith, NonceUse.keyStream_get _ _ _ _ hk, NonceUse.keyStream_get _ _ _ _ hk', List.getElem?_eq_getElem hk,
      List.getElem?_eq_getElem hk', List.getElem?_eq_getElem hb]
    congr 1
    rw [← BitVec.xor_assoc msg[k], BitVec.xor_self, BitVec.zero_xor]
  · rw [List.getElem?_eq_none, List.getElem?_eq_none]
    · simp [crypt]; omega
    · simp [resend, xorBytes]; omega

/-- **C85, a nonce used twice.**  In every reachable state, whatever nonces and additional data BOB passes in two encryptions (different ones, say): if ALICE passes the same nonce and
additional data twice with two different messages of the same length, at most 16 bytes, both calls go through.  From what the calls give her she computes the hash key exactly, and for
every message that is not longer and all additional data a record under that nonce that AES-GCM accepts and decrypts to this message. -/
theorem C85_reuse {hash : List Byte → List Byte} {E : Block → Block} {fiv : List Byte} (hf : fiv.length = 4) {s : Bool} {st : State} (h : Reach hash E fiv s st)
    (msg msg' msgB msgB' aad aadB aadB' iv ivB ivB' : List Byte) (h0 : 0 < msg.length) (h16 : msg.length ≤ 16) (hl : msg'.length = msg.length) (hne : msg' ≠ msg)
    (hiv : iv.length = 8) (hb1 : ivB.length = 8) (hb2 : ivB'.length = 8) (ha1 : aadB.length = aad.length) (ha2 : aadB'.length = aad.length) (secret secret' : Bool)
    (hm1 : msgB.length = msg.length) (hm2 : msgB'.length = msg'.length) (hB : secret = false → msgB = msg) (hB' : secret' = false → msgB' = msg')
    (m m' : Nat → Bool) (raw0 raw1 raw0' raw1' : Nat → Block) :
    ∃ st1 c t st2 c' t', encryptTwo s st msg msgB aad aadB iv ivB secret m raw0 raw1 = .ok (st1, ⟨c, t⟩, ⟨c, t⟩)
      ∧ encryptTwo s st1 msg' msgB' aad aadB' iv ivB' secret' m' raw0' raw1' = .ok (st2, ⟨c', t'⟩, ⟨c', t'⟩)
      ∧ hashKey c c' t t' = E 0
      ∧ ∀ aad₂ msg₂ : List Byte, msg₂.length ≤ msg.length →
          Spec.GCM.decrypt E (fiv ++ iv) aad₂ (resend msg c msg₂) (NonceUse.retag (hashKey c c' t t') ⟨iv, aad, msg, c, t⟩ aad₂ (resend msg c msg₂)) = some msg₂ := by
  obtain ⟨st1, c, t, e1, e2⟩ := C26_encrypt hf h msg msgB aad iv hiv secret hB m raw0 raw1
  have hr : Reach hash E fiv s st1 := Reach.encrypt h (fun e => by rw [hB e]) e1
  obtain ⟨st2, c', t', e3, e4⟩ := C26_encrypt hf hr msg' msgB' aad iv hiv secret' hB' m' raw0' raw1'
  have c1 : c = crypt E (j0 (fiv ++ iv)) msg := congrArg Prod.fst e2
  have c2 : c' = crypt E (j0 (fiv ++ iv)) msg' := congrArg Prod.fst e4
  have t1 : t = Spec.GCM.tag E (j0 (fiv ++ iv)) aad c := by rw [c1]; exact congrArg Prod.snd e2
  have t2 : t' = Spec.GCM.tag E (j0 (fiv ++ iv)) aad c' := by rw [c2]; exact congrArg Prod.snd e4
  have l1 : c.length = msg.length := by simp [c1, crypt]
  have l2 : c'.length = msg.length := by simp [c2, crypt, hl]
  have b1 : blockOf t = gcmGhash (E 0) (blocks (hashInput aad c)) ^^^ E (j0 (fiv ++ iv)) := by
    rw [t1, Spec.GCM.tag, Spec.GCM.tagWith, blockOf_bytesOf]; rfl
  have b2 : blockOf t' = gcmGhash (E 0) (blocks (hashInput aad c')) ^^^ E (j0 (fiv ++ iv)) := by
    rw [t2, Spec.GCM.tag, Spec.GCM.tagWith, blockOf_bytesOf]; rfl
  have hpad : blockOf (pad c) ^^^ blockOf (pad c') ≠ 0 := by
    intro e
    have e' : blockOf (pad c) = blockOf (pad c') := by
      have := congrArg (· ^^^ blockOf (pad c')) e
      simpa [BitVec.xor_assoc] using this
    have lp : ∀ x : List Byte, x.length = msg.length → (pad x).length = 16 := fun x hx => by rw [GHash.length_pad]; omega
    have e'' := congrArg bytesOf e'
    rw [bytesOf_blockOf _ (lp _ l1), bytesOf_blockOf _ (lp _ l2)] at e''
    have := List.append_inj e'' (by rw [l1, l2])
    apply hne
    have e3 := congrArg (crypt E (j0 (fiv ++ iv))) this.1
    rw [c1, c2, crypt_twice, crypt_twice] at e3
    exact e3.symm
  have hk : hashKey c c' t t' = E 0 := by
    have hd : blockOf t ^^^ blockOf t' = gcmGhash (E 0) (blocks (hashInput aad c)) ^^^ gcmGhash (E 0) (blocks (hashInput aad c')) := by
      rw [b1, b2]
      generalize gcmGhash (E 0) (blocks (hashInput aad c)) = x
      generalize gcmGhash (E 0) (blocks (hashInput aad c')) = y
      generalize E (j0 (fiv ++ iv)) = z
      have : x ^^^ z ^^^ (y ^^^ z) = (z ^^^ z) ^^^ (x ^^^ y) := by ac_rfl
      rw [this, BitVec.xor_self, BitVec.zero_xor]
    have hg := ghash_diff (E 0) aad c c' (by omega) (by omega) (by omega)
    rw [← hd] at hg
    have hp0 : (⟨blockOf (pad c) ^^^ blockOf (pad c')⟩ : F128) ≠ 0 := fun e => hpad (congrArg F128.val e)
    unfold hashKey
    have : mulBlock (blockOf t ^^^ blockOf t') (invBlock (blockOf (pad c) ^^^ blockOf (pad c'))) = ((⟨E 0⟩ : F128) ^ 2).val := by
      have e : (⟨blockOf t ^^^ blockOf t'⟩ : F128) * (⟨blockOf (pad c) ^^^ blockOf (pad c')⟩ : F128)⁻¹ = ⟨E 0⟩ ^ 2 := by
        rw [hg, mul_comm (F128.mk (blockOf (pad c) ^^^ blockOf (pad c'))), mul_assoc, mul_inv_cancel₀ hp0, mul_one]
      exact congrArg F128.val e
    rw [this, squareRoot_sq]
  refine ⟨st1, c, t, st2, c', t', ?_, ?_, hk, ?_⟩
  · rw [C85_encrypt s st msg msgB aad aadB iv ivB hm1 ha1 (by omega)]; exact e1
  · rw [C85_encrypt s st1 msg' msgB' aad aadB' iv ivB' hm2 ha2 (by omega)]; exact e3
  · intro aad₂ msg₂ h2
    have er : resend msg c msg₂ = crypt E (j0 (fiv ++ iv)) msg₂ := by rw [c1]; exact resend_eq _ _ _ _ h2
    rw [hk, er]
    unfold Spec.GCM.decrypt
    rw [if_pos, crypt_twice]
    unfold NonceUse.retag Spec.GCM.tag Spec.GCM.tagWith
    congr 1
    simp only
    rw [b1, ← BitVec.xor_assoc (gcmGhash (E 0) (blocks (hashInput aad c))), BitVec.xor_self, BitVec.zero_xor]
    rfl

/-! ### The proof phase after the connection -/

/-- `m'` is another message that fits the record of `m`: the same direction and nonce and as many bytes. -/
def Alike (m m' : Session.Msg) : Prop := m'.kind = m.kind ∧ m'.iv = m.iv ∧ m'.txt.length = m.txt.length

theorem sent_alike {ms ms' : List Session.Msg} (h : List.Forall₂ Alike ms ms') (kd : Verif.Model.Session.Kind) : Session.sent kd ms' = Session.sent kd ms := by
  induction h with
  | nil => rfl
  | @cons m m' ms ms' h _ ih =>
    obtain ⟨h1, h2, h3⟩ := h
    unfold Session.sent at ih ⊢
    rw [List.filter_cons, List.filter_cons, h1]
    by_cases hk : m.kind = kd
    · simp only [hk, decide_true, if_true, List.map_cons, ih, h2, h3]
    · simp only [hk, decide_false, Bool.false_eq_true, if_false, ih]

/-- **C85, the proof phase.**  After an honest handshake and a connection with the finished messages `txtc`, `txts` and the messages `ms`: whatever other texts of the same lengths are claimed
under the same nonces (also as finished messages), sealed under the keys, which the client knows when the proof phase begins, the verifier's code accepts, and hands out the other texts.
The ciphertexts and tags of the connection play no part; the caller has to compare them. -/
theorem C85_other_texts (q : Nat) (rounds : Bool) (u v : List Byte) (hq : bnNumBytes q < 2 ^ 59) (g : Nat → List Byte) (hg : ∀ i, (g i).length = 64)
    (a b : Nat) (ha : a < q) (hb : b < q) (k : MasterSeed) (rc rs tauC tauS : List Byte) (hs : HandshakeProof.Short k rc rs tauC tauS) :
    ∃ h keys, (Hs.new q rounds u v).schedule g a b k rc rs tauC tauS = .ok h
      ∧ Garbled.Keys.Of keys (HandshakeProof.master k (Spec.SHA256.beBits (8 * bnNumBytes q) ((a + b) % q)) (Spec.Encoding.bytesBits rc) (Spec.Encoding.bytesBits rs))
          (Spec.Encoding.bytesBits rc) (Spec.Encoding.bytesBits rs)
      ∧ h.clientWriteKey = strToInt keys.ck ∧ h.serverWriteKey = strToInt keys.sk ∧ h.clientWriteIv = strToInt keys.civ ∧ h.serverWriteIv = strToInt keys.siv
      ∧ ∀ (junk : AESCircuit.Wires) (hash : List Byte → List Byte) (sc ss : Bool) (c s : State) (restC restS : List AEADProof.Rec)
          (ivc aadc txtc ivs aads txts txtc' txts' : List Byte) (ms ms' : List Session.Msg) (aadLen : Nat),
          AEADProof.Hist hash (Garbled.aes keys.ck) keys.civ sc c (⟨ivc, txtc.length, false⟩ :: (Session.sent .client ms ++ restC)) →
          AEADProof.Hist hash (Garbled.aes keys.sk) keys.siv ss s (⟨ivs, txts.length, false⟩ :: (Session.sent .server ms ++ restS)) →
          ivc.length = 8 → ivs.length = 8 → aadc.length = aadLen → aads.length = aadLen → txtc'.length = txtc.length → txts'.length = txts.length →
          List.Forall₂ Alike ms ms' → (∀ m ∈ ms', m.iv.length = 8 ∧ m.aad.length = aadLen) →
          ∃ p' vd, Verif.Model.Session.Post.session junk { hs := ⟨h, a, b⟩, c := c, s := s } g ((a + b) % q) k rc rs tauC tauS
              (Session.sealRec keys true ivc aadc txtc') ivc (Session.sealRec keys false ivs aads txts') ivs (ms'.map (Session.sealed keys)) aadLen = .ok (p', vd)
            ∧ Session.Accepted vd ∧ vd.messages = ms'.map fun m => strToInt m.txt := by
  obtain ⟨h, keys, e1, e2, e3, e4, e5, e6, H⟩ := Session.C52_honest q rounds u v hq g hg a b ha hb k rc rs tauC tauS hs
  refine ⟨h, keys, e1, e2, e3, e4, e5, e6, ?_⟩
  intro junk hash sc ss c s restC restS ivc aadc txtc ivs aads txts txtc' txts' ms ms' aadLen h1 h2 h3 h4 h5 h6 h7 h8 h9 h10
  rw [← h7, ← sent_alike h9 .client] at h1
  rw [← h8, ← sent_alike h9 .server] at h2
  exact H junk hash sc ss c s restC restS ivc aadc txtc' ivs aads txts' ms' aadLen h1 h2 h3 h4 h5 h6 h10

/-! ### The hypotheses are met -/

/-- A client that uses the nonce 1 for "yes" and "no!" while BOB counts 1, 2: the hash key comes out. -/
example : ∃ (E : Block → Block) (st st1 st2 : State) (c c' t t' : List Byte), Reach id E [1, 2, 3, 4] true st
    ∧ encryptTwo true st [0x79, 0x65, 0x73] [0, 0, 0] (List.replicate 13 7) (List.replicate 13 8) (List.replicate 8 1) (List.replicate 8 1) true (fun _ => true) (fun _ => 0) (fun _ => 0)
        = .ok (st1, ⟨c, t⟩, ⟨c, t⟩)
    ∧ encryptTwo true st1 [0x6e, 0x6f, 0x21] [0, 0, 0] (List.replicate 13 7) (List.replicate 13 9) (List.replicate 8 1) (List.replicate 8 2) true (fun _ => true) (fun _ => 0) (fun _ => 0)
        = .ok (st2, ⟨c', t'⟩, ⟨c', t'⟩)
    ∧ hashKey c c' t t' = E 0 := by
  obtain ⟨st, h1, -⟩ := construct_eq (fun x => x + 5) (strToInt [1, 2, 3, 4]) true (fun _ => true) 1 (fun _ => 0) (fun _ => 0)
  have hr : Reach id (fun x => x + 5) [1, 2, 3, 4] true st := Reach.construct (by decide) h1
  obtain ⟨st1, c, t, st2, c', t', e1, e2, e3, -⟩ := C85_reuse rfl hr [0x79, 0x65, 0x73] [0x6e, 0x6f, 0x21] [0, 0, 0] [0, 0, 0] (List.replicate 13 7) (List.replicate 13 8) (List.replicate 13 9)
    (List.replicate 8 1) (List.replicate 8 1) (List.replicate 8 2) (by decide) (by decide) rfl (by decide) rfl rfl rfl rfl rfl true true rfl rfl (by decide) (by decide)
    (fun _ => true) (fun _ => true) (fun _ => 0) (fun _ => 0) (fun _ => 0) (fun _ => 0)
  exact ⟨_, st, st1, st2, c, c', t, t', hr, e1, e2, e3⟩

/-- Calls with different nonces and additional data of the parties. -/
example : ∀ c ∈ [CallTwo.enc [1, 2] [3, 4] [5] [6] (List.replicate 8 1) (List.replicate 8 2) true (fun _ => true) (fun _ => 0) (fun _ => 0),
    CallTwo.dec [1, 2] [3, 4] [0] [1] [5] [6] (List.replicate 8 1) (List.replicate 8 2) false (fun _ => true) (fun _ => 0) (fun _ => 0) [] []], Fits c := by
  simp [Fits]

/-- The connection carried "GET" and "OK", the verifier accepts "PUT" and "NO". -/
example (rounds : Bool) : ∃ (keys : Garbled.Keys) (c s : State) (p' : Verif.Model.Session.Post) (h : HsP) (vd : Verif.Model.Session.Verdict) (g : Nat → List Byte) (finc fins : PostRecord.Rec)
    (claims : List Verif.Model.Session.Claim),
    AEADProof.Hist id (Garbled.aes keys.ck) keys.civ true c
        (⟨List.replicate 8 1, 3, false⟩ :: Session.sent .client [⟨.client, List.replicate 8 2, List.replicate 5 0, [0x47, 0x45, 0x54]⟩])
      ∧ AEADProof.Hist id (Garbled.aes keys.sk) keys.siv false s
        (⟨List.replicate 8 1, 2, false⟩ :: Session.sent .server [⟨.server, List.replicate 8 2, List.replicate 5 0, [0x4f, 0x4b]⟩])
      ∧ Verif.Model.Session.Post.session (fun _ => false) { hs := h, c := c, s := s } g 49 (.extended [7, 8]) [1] [2] [3] [4] finc (List.replicate 8 1) fins (List.replicate 8 1) claims 5
        = .ok (p', vd)
      ∧ Session.Accepted vd ∧ vd.messages = [strToInt [0x50, 0x55, 0x54], strToInt [0x4e, 0x4f]] := by
  obtain ⟨h, keys, -, e2, -, -, -, -, H⟩ := C85_other_texts 251 rounds [] [] (by decide +kernel) (fun _ => List.replicate 64 0) (fun _ => List.length_replicate) 200 100
    (by decide) (by decide) (.extended [7, 8]) [1] [2] [3] [4] ⟨by decide, by rintro x ⟨⟩; decide, by decide, by decide⟩
  have hl := Session.of_lengths e2
  let ms : List Session.Msg := [⟨.client, List.replicate 8 2, List.replicate 5 0, [0x47, 0x45, 0x54]⟩, ⟨.server, List.replicate 8 2, List.replicate 5 0, [0x4f, 0x4b]⟩]
  let ms' : List Session.Msg := [⟨.client, List.replicate 8 2, List.replicate 5 0, [0x50, 0x55, 0x54]⟩, ⟨.server, List.replicate 8 2, List.replicate 5 0, [0x4e, 0x4f]⟩]
  obtain ⟨c, hc⟩ := Session.hist_exists id (Garbled.aes keys.ck) keys.civ hl.1 true (⟨List.replicate 8 1, ([1, 2, 3] : List Byte).length, false⟩ :: (Session.sent .client ms ++ []))
    (by simp [Session.sent, ms])
  obtain ⟨s, hs⟩ := Session.hist_exists id (Garbled.aes keys.sk) keys.siv hl.2 false (⟨List.replicate 8 1, ([4, 5] : List Byte).length, false⟩ :: (Session.sent .server ms ++ []))
    (by simp [Session.sent, ms])
  have H' := H (fun _ => false) id true false c s [] [] (List.replicate 8 1) (List.replicate 5 0) [1, 2, 3] (List.replicate 8 1) (List.replicate 5 0) [4, 5] [7, 7, 7] [8, 8] ms ms' 5 hc hs
    (by simp) (by simp) (by simp) (by simp) rfl rfl (.cons ⟨rfl, rfl, rfl⟩ (.cons ⟨rfl, rfl, rfl⟩ .nil)) (by simp [ms'])
  clear H
  obtain ⟨p', vd, g1, g2, g3⟩ := H'
  exact ⟨keys, c, s, p', _, vd, _, _, _, _, hc, hs, g1, g2, g3⟩

end Verif.Props.RecordTwo
