import Verif.Lemmas.Addmod
import Verif.Props.PRF
import Verif.Spec.TLS

/-! C24: `addmod`.  C15: the TLS 1.2 key schedule of the handshake. -/

namespace Verif.Props
open Verif.Model Verif.Model.Integer Verif.Model.SHA Verif.Lemmas
open Verif.Spec Verif.Spec.Encoding

/-! ### C24 -/

/-- **C24.**  For all `a`, `b` below `q`, of the byte width of `q`: the result has that width and value
`(a + b) mod q`. -/
theorem C24_addmod (q : Nat) (a b : Integer) (ha : a.length = 8 * bnNumBytes q) (hb : b.length = 8 * bnNumBytes q)
    (haq : val a < q) (hbq : val b < q) :
    (addmod a b q).length = 8 * bnNumBytes q ∧ val (addmod a b q) = (val a + val b) % q := by
  have hl : (ofBytes (bn2bin q).reverse).length = 8 * bnNumBytes q := by
    rw [length_ofBytes, List.length_reverse]; rfl
  obtain ⟨h1, h2⟩ := addmodQ_spec _ a b _ ha hb hl
  refine ⟨h1, ?_⟩
  unfold addmod
  rw [h2, val_bn2bin]
  have := lt_pow_bnNumBytes q
  by_cases h : q ≤ val a + val b
  · rw [if_pos h, Nat.mod_eq_of_lt (by omega), Nat.mod_eq_sub_mod h, Nat.mod_eq_of_lt (by omega)]
  · rw [if_neg h, Nat.mod_eq_of_lt (by omega), Nat.mod_eq_of_lt (by omega)]

/-- **C24.**  The overload with a shared modulus: same result for every width. -/
theorem C24_addmod_shared (n : Nat) (a b Q : Integer) (ha : a.length = n) (hb : b.length = n) (hQ : Q.length = n)
    (haq : val a < val Q) (hbq : val b < val Q) :
    (addmodQ a b Q).1.length = n ∧ val (addmodQ a b Q).1 = (val a + val b) % val Q := by
  obtain ⟨h1, h2⟩ := addmodQ_spec n a b Q ha hb hQ
  refine ⟨h1, ?_⟩
  have := val_lt Q
  rw [hQ] at this
  rw [h2]
  by_cases h : val Q ≤ val a + val b
  · rw [if_pos h, Nat.mod_eq_of_lt (by omega), Nat.mod_eq_sub_mod h, Nat.mod_eq_of_lt (by omega)]
  · rw [if_neg h, Nat.mod_eq_of_lt (by omega), Nat.mod_eq_of_lt (by omega)]

/-- **C24.**  That overload changes the caller's modulus object: same value, two bits wider.  (A second call with the
same object therefore has operands of different widths.) -/
theorem C24_modulus_widened (a b Q : Integer) :
    (addmodQ a b Q).2.length = Q.length + 2 ∧ val (addmodQ a b Q).2 = val Q := by
  unfold addmodQ
  exact ⟨by simp, by rw [val_snoc_false, val_snoc_false]⟩

example : val (addmod (ofNat 8 200) (ofNat 8 100) 251) = 49 := by decide +kernel
example : (ofNat 8 200).length = 8 * bnNumBytes 251 ∧ val (ofNat 8 200) < 251 := by decide +kernel

/-! ### C15 -/

/-- The handshake object's HMAC is keyed with `key`, and its inner cache is of the kind this object uses. -/
def Keyed (h : Hs) (key : List Bool) : Prop :=
  ∃ inn, HmacInv h.hmac key inn ∧ (inn = none ∨ inn = some h.roundsOpt)

theorem prfCall_step {h : Hs} {key} (hk : Keyed h key) (g : Nat → List Byte) (hg : ∀ i, (g i).length = 64)
    (res : Integer) (b : Nat) (l s : List Byte) (hs : l.length + s.length < 2 ^ 58)
    (hsz : h.hmac.sha.ivIn.length + 2 * (b / 256 + 1) ≤ 2 ^ 64) :
    ∃ r h', h.prfCall g res b l s = .ok (r, h') ∧ Keyed h' key
      ∧ r.reverse = res.reverse ++ HMAC.prf key (bytesBits l) (bytesBits s) b
      ∧ h' = { h with prf := h'.prf, hmac := h'.hmac }
      ∧ h'.hmac.sha.ivIn.length ≤ h.hmac.sha.ivIn.length + 2 * (b / 256 + 1) := by
  obtain ⟨inn, inv, hi⟩ := hk
  cases hr : h.roundsOpt with
  | false =>
    rw [hr] at hi
    obtain ⟨r, p', m', e, h1, l1, r1, _⟩ := optCompute_step inv h.prf g hg res l s b true true hs
      (by intro _; rcases hi with rfl | rfl <;> simp) hsz
    refine ⟨r, { h with prf := p', hmac := m' }, ?_, ⟨some false, h1, Or.inr (by simp [hr])⟩, r1, by simp [hr], l1⟩
    simp only [Hs.prfCall, hr, Bool.not_false, if_true, bind, Except.bind, e]
  | true =>
    rw [hr] at hi
    obtain ⟨r, p', m', e, h1, l1, r1⟩ := roundsCompute_step inv h.prf res l s b true true hs
      (by intro _; rcases hi with rfl | rfl <;> simp)
    refine ⟨r, { h with prf := p', hmac := m' }, ?_, ⟨some true, h1, Or.inr (by simp [hr])⟩, r1, by rw [← hr],
      by show m'.sha.ivIn.length ≤ _; rw [l1]; omega⟩
    simp only [Hs.prfCall, hr, Bool.not_true, bind, Except.bind]
    simp [e]

/-- Any handshake object whose SHA object is in a sane state can be keyed from shares. -/
theorem keyFromShares_step (h : Hs) (hpos : h.hmac.sha.pos = BitVec.ofNat 64 h.hmac.sha.ivIn.length - 1)
    (hq : bnNumBytes h.q < 2 ^ 59) (a b : Nat) (ha : a < h.q) (hb : b < h.q) :
    ∃ h', h.keyFromShares a b = .ok h' ∧ Keyed h' (SHA256.beBits (8 * bnNumBytes h.q) ((a + b) % h.q))
      ∧ h' = { h with prf := h'.prf, hmac := h'.hmac, zkPms := h'.zkPms }
      ∧ h'.zkPms = ofNat (8 * bnNumBytes h.q) a
      ∧ h'.hmac.sha.ivIn = h.hmac.sha.ivIn := by
  obtain ⟨bufA, eA, lA, vA⟩ := bnBuffer_spec (bnNumBytes h.q) a (bnNumBytes_mono (by omega))
  obtain ⟨bufB, eB, lB, vB⟩ := bnBuffer_spec (bnNumBytes h.q) b (bnNumBytes_mono (by omega))
  obtain ⟨l, v⟩ := C24_addmod h.q (ofBytes bufA) (ofBytes bufB) lA lB (by omega) (by omega)
  obtain ⟨m1, e1, h1, l1⟩ := init_step h.hmac hpos (addmod (ofBytes bufA) (ofBytes bufB) h.q) (by rw [l]; omega)
  refine ⟨{ h with zkPms := ofBytes bufA, prf := { h.prf with calls := 0 }, hmac := m1 }, ?_, ⟨none, ?_, Or.inl rfl⟩, rfl, ?_, l1⟩
  · simp only [Hs.keyFromShares, Prf.init, bind, Except.bind, eA, eB, e1]
  · have : (addmod (ofBytes bufA) (ofBytes bufB) h.q).reverse
        = SHA256.beBits (8 * bnNumBytes h.q) ((a + b) % h.q) := by
      rw [← ofNat_reverse, List.reverse_inj]
      apply val_inj
      · rw [l, length_ofNat]
      · rw [v, vA, vB, val_ofNat, Nat.mod_eq_of_lt (b := 2 ^ _)]
        exact Nat.lt_trans (Nat.mod_lt _ (by omega)) (lt_pow_bnNumBytes h.q)
    rw [← this]; exact h1
  · show ofBytes bufA = _
    apply val_inj
    · rw [lA, length_ofNat]
    · rw [vA, val_ofNat, Nat.mod_eq_of_lt]
      exact Nat.lt_trans ha (lt_pow_bnNumBytes h.q)

theorem chars_ascii (s : String) : bytesBits (chars s) = TLS.ascii s := rfl

/-- A fresh handshake object: nothing computed yet. -/
def FreshHs (h : Hs) : Prop := ∃ q r u v, h = Hs.new q r u v

/-- **C15 (master secret).**  On a fresh object, for all shares `a, b < q`, all randoms and both settings of the round
optimisation: the master key is the RFC 5246 master secret of the pre-master secret `(a + b) mod q`, written with the
byte length of `q`. -/
theorem C15_master_key (h : Hs) (hf : FreshHs h) (hq : bnNumBytes h.q < 2 ^ 59) (g : Nat → List Byte)
    (hg : ∀ i, (g i).length = 64) (a b : Nat) (ha : a < h.q) (hb : b < h.q) (rc rs : List Byte)
    (hl : rc.length + rs.length < 2 ^ 57) :
    ∃ h', h.computeMasterKey g a b rc rs = .ok h'
      ∧ h'.masterKey.reverse = TLS.masterSecret (SHA256.beBits (8 * bnNumBytes h.q) ((a + b) % h.q))
          (bytesBits rc) (bytesBits rs)
      ∧ h'.hmac.sha.ivIn.length ≤ 4 ∧ h'.hmac.sha.pos = BitVec.ofNat 64 h'.hmac.sha.ivIn.length - 1 := by
  obtain ⟨q, r, u, v, rfl⟩ := hf
  obtain ⟨h1, e1, k1, f1, _, l1⟩ := keyFromShares_step _ ShaInv.new.pos hq a b ha hb
  obtain ⟨r2, h2, e2, k2, r2e, f2, l2⟩ := prfCall_step k1 g hg h1.masterKey (masterKeyLength * 8) masterKeyLabel
    (rc ++ rs) (by rw [List.length_append]; have : masterKeyLabel.length = 13 := rfl; omega)
    (by rw [l1]; show 0 + _ ≤ _; decide)
  have hm : h1.masterKey = [] := by rw [f1]; rfl
  refine ⟨{ h2 with masterKey := r2 }, ?_, ?_, ?_, ?_⟩
  · simp only [Hs.computeMasterKey, bind, Except.bind, e1, e2]
  · show r2.reverse = _
    rw [r2e, hm, bytesBits_append]; rfl
  · show h2.hmac.sha.ivIn.length ≤ 4
    rw [l1] at l2; exact l2
  · obtain ⟨_, i, _⟩ := k2
    obtain ⟨_, i', _⟩ := i.sha
    exact i'.pos

/-- **C15 (extended master secret).** -/
theorem C15_extended_master_key (h : Hs) (hf : FreshHs h) (hq : bnNumBytes h.q < 2 ^ 59) (g : Nat → List Byte)
    (hg : ∀ i, (g i).length = 64) (a b : Nat) (ha : a < h.q) (hb : b < h.q) (hash : List Byte)
    (hl : hash.length < 2 ^ 57) :
    ∃ h', h.computeExtendedMasterKey g a b hash = .ok h'
      ∧ h'.masterKey.reverse = TLS.extendedMasterSecret (SHA256.beBits (8 * bnNumBytes h.q) ((a + b) % h.q))
          (bytesBits hash)
      ∧ h'.hmac.sha.ivIn.length ≤ 4 ∧ h'.hmac.sha.pos = BitVec.ofNat 64 h'.hmac.sha.ivIn.length - 1 := by
  obtain ⟨q, r, u, v, rfl⟩ := hf
  obtain ⟨h1, e1, k1, f1, _, l1⟩ := keyFromShares_step _ ShaInv.new.pos hq a b ha hb
  obtain ⟨r2, h2, e2, k2, r2e, f2, l2⟩ := prfCall_step k1 g hg h1.masterKey (extendedMasterKeyLength * 8)
    extendedMasterKeyLabel hash (by have : extendedMasterKeyLabel.length = 22 := rfl; omega)
    (by rw [l1]; show 0 + _ ≤ _; decide)
  have hm : h1.masterKey = [] := by rw [f1]; rfl
  refine ⟨{ h2 with masterKey := r2 }, ?_, ?_, ?_, ?_⟩
  · simp only [Hs.computeExtendedMasterKey, bind, Except.bind, e1, e2]
  · show r2.reverse = _
    rw [r2e, hm]; rfl
  · show h2.hmac.sha.ivIn.length ≤ 4
    rw [l1] at l2; exact l2
  · obtain ⟨_, i, _⟩ := k2
    obtain ⟨_, i', _⟩ := i.sha
    exact i'.pos

theorem extract_ok (src : Integer) (off size : Nat) (h : off + size ≤ src.length) :
    ∃ x, extractInteger src off size = .ok x ∧ x.reverse = (src.reverse.drop off).take size := by
  obtain ⟨x, hx⟩ : ∃ x, extractInteger src off size = .ok x := by
    unfold extractInteger; rw [if_pos h]; exact ⟨_, rfl⟩
  refine ⟨x, hx, ?_⟩
  have := extract_reverse src off size h
  rw [hx] at this
  obtain ⟨y, hy, hy2⟩ := this
  cases hy
  exact hy2

/-- **C15 (key block).**  From any state with a master key, the four keys are the RFC 5246 partition of the key block
for that master key; the order of the randoms is server, client. -/
theorem C15_expansion_keys (h : Hs) (hpos : h.hmac.sha.pos = BitVec.ofNat 64 h.hmac.sha.ivIn.length - 1)
    (hsz : h.hmac.sha.ivIn.length ≤ 2 ^ 63) (hm : h.masterKey.length < 2 ^ 63) (g : Nat → List Byte)
    (hg : ∀ i, (g i).length = 64) (rc rs : List Byte) (hl : rc.length + rs.length < 2 ^ 57) :
    ∃ h', h.computeExpansionKeys g rc rs = .ok h'
      ∧ TLS.IsPartition ⟨h'.clientWriteKey.reverse, h'.serverWriteKey.reverse, h'.clientWriteIv.reverse,
          h'.serverWriteIv.reverse⟩ (TLS.keyBlock h.masterKey.reverse (bytesBits rc) (bytesBits rs))
      ∧ h'.masterKey = h.masterKey ∧ Keyed h' h.masterKey.reverse
      ∧ h'.hmac.sha.ivIn.length ≤ h.hmac.sha.ivIn.length + 4 := by
  obtain ⟨m1, e1, i1, l1⟩ := init_step h.hmac hpos h.masterKey hm
  obtain ⟨r2, h2, e2, k2, r2e, f2, l2⟩ := prfCall_step
    (h := { h with prf := { h.prf with calls := 0 }, hmac := m1 }) ⟨none, i1, Or.inl rfl⟩ g hg []
    (expansionKeyLength * 8) keyExpansionLabel (rs ++ rc)
    (by rw [List.length_append]; have : keyExpansionLabel.length = 13 := rfl; omega)
    (by show m1.sha.ivIn.length + _ ≤ _; rw [l1]; have : expansionKeyLength * 8 = 320 := rfl; omega)
  have hkb : r2.reverse = TLS.keyBlock h.masterKey.reverse (bytesBits rc) (bytesBits rs) := by
    rw [r2e, bytesBits_append]; rfl
  have hlen : r2.reverse.length = 320 := by
    rw [hkb, TLS.keyBlock, HMAC.prf, List.length_take, length_pHash]; rfl
  have hlen' : r2.length = 320 := by rw [← List.length_reverse]; exact hlen
  have c1 : keyLength * 8 = 128 := rfl
  have c2 : ivLength * 8 = 32 := rfl
  obtain ⟨x1, ex1, y1⟩ := extract_ok r2 0 128 (by omega)
  obtain ⟨x2, ex2, y2⟩ := extract_ok r2 128 128 (by omega)
  obtain ⟨x3, ex3, y3⟩ := extract_ok r2 (128 * 2) 32 (by omega)
  obtain ⟨x4, ex4, y4⟩ := extract_ok r2 (128 * 2 + 32) 32 (by omega)
  refine ⟨{ h2 with clientWriteKey := x1, serverWriteKey := x2, clientWriteIv := x3, serverWriteIv := x4 }, ?_, ?_, ?_, ?_, ?_⟩
  · simp only [Hs.computeExpansionKeys, Prf.init, bind, Except.bind, e1, e2, c1, c2, ex1, ex2, ex3, ex4]
  · rw [← hkb]
    simp only [TLS.IsPartition, y1, y2, y3, y4]
    refine ⟨?_, ?_, ?_, ?_, ?_⟩
    · generalize r2.reverse = kb at hlen
      rw [List.drop_zero]
      conv_lhs => rw [← List.take_append_drop 128 kb, ← List.take_append_drop 128 (kb.drop 128),
        ← List.take_append_drop 32 ((kb.drop 128).drop 128)]
      simp only [List.drop_drop, List.append_assoc]
      congr 3
      exact (List.take_of_length_le (by simp; omega)).symm
    all_goals (simp; omega)
  · show h2.masterKey = _
    rw [f2]
  · exact k2
  · show h2.hmac.sha.ivIn.length ≤ _
    have : (({ h with prf := { h.prf with calls := 0 }, hmac := m1 } : Hs).hmac.sha.ivIn.length) = h.hmac.sha.ivIn.length := by
      show m1.sha.ivIn.length = _; rw [l1]
    rw [this] at l2; exact l2

theorem ofBytes_toBytes (n : Nat) : ∀ x : Integer, x.length = 8 * n → ofBytes (toBytes x) = x := by
  induction n with
  | zero => intro x h; have : x = [] := List.length_eq_zero_iff.1 (by omega); subst this; simp [toBytes, ofBytes]
  | succ n ih =>
    intro x h
    have e : x = x.take 8 ++ x.drop 8 := (List.take_append_drop 8 x).symm
    have l8 : (x.take 8).length = 8 := by rw [List.length_take]; omega
    rw [e, toBytes_cons _ _ l8]
    have : ∀ (b : Byte) bs, ofBytes (b :: bs) = ofNat 8 b.toNat ++ ofBytes bs := fun _ _ => rfl
    rw [this, ih (x.drop 8) (by rw [List.length_drop]; omega)]
    congr 1
    have hv := val_lt (x.take 8)
    rw [l8] at hv
    rw [BitVec.toNat_ofNat, Nat.mod_eq_of_lt hv]
    conv_rhs => rw [← ofNat_val (x.take 8), l8]

theorem toBytes_reverse_bits (x : Integer) (h : x.length % 8 = 0) : bytesBits (toBytes x).reverse = x.reverse := by
  rw [← strToInt_reverse]
  unfold strToInt
  rw [List.reverse_reverse, ofBytes_toBytes (x.length / 8) x (by omega)]

/-- **C15 (finished messages, as the code has them).**  After the key expansion the finished values are the
12 bytes of RFC 5246 `verify_data` **in reverse byte order**: `reveal<unsigned char>` writes the least significant byte
first and, unlike in `AEAD::encrypt`, the buffer is not reversed. -/
theorem C15_finished_reversed (h : Hs) (master : List Bool) (hk : Keyed h master)
    (hsz : h.hmac.sha.ivIn.length ≤ 2 ^ 63) (g : Nat → List Byte) (hg : ∀ i, (g i).length = 64)
    (label tau : List Byte) (hl : label.length + tau.length < 2 ^ 58) :
    ∃ h', h.computeServerFinished g label tau = .ok h' ∧ Keyed h' master ∧ h'.serverUfin.length = 12
      ∧ bytesBits h'.serverUfin.reverse = TLS.verifyData master (bytesBits label) (bytesBits tau)
      ∧ h' = { h with prf := h'.prf, hmac := h'.hmac, serverUfin := h'.serverUfin }
      ∧ h'.hmac.sha.ivIn.length ≤ h.hmac.sha.ivIn.length + 2 := by
  obtain ⟨r, h', e, k, re, f, l⟩ := prfCall_step hk g hg [] (finishedMsgLength * 8) label tau hl
    (by have : finishedMsgLength * 8 = 96 := rfl; omega)
  have hv : r.reverse = TLS.verifyData master (bytesBits label) (bytesBits tau) := by rw [re]; rfl
  have hlen : r.length = 96 := by
    rw [← List.length_reverse, hv, TLS.verifyData, HMAC.prf, List.length_take, length_pHash]; rfl
  have hb := toBytes_reverse_bits r (by rw [hlen])
  refine ⟨{ h' with serverUfin := toBytes r }, ?_, k, ?_, by rw [← hv]; exact hb, by rw [f], l⟩
  · simp only [Hs.computeServerFinished, bind, Except.bind, e]
  · have := congrArg List.length hb
    rw [length_bytesBits, List.length_reverse, List.length_reverse, hlen] at this
    show (toBytes r).length = 12; omega

theorem C15_client_finished_reversed (h : Hs) (master : List Bool) (hk : Keyed h master)
    (hsz : h.hmac.sha.ivIn.length ≤ 2 ^ 63) (g : Nat → List Byte) (hg : ∀ i, (g i).length = 64)
    (label tau : List Byte) (hl : label.length + tau.length < 2 ^ 58) :
    ∃ h', h.computeClientFinished g label tau = .ok h' ∧ Keyed h' master ∧ h'.clientUfin.length = 12
      ∧ bytesBits h'.clientUfin.reverse = TLS.verifyData master (bytesBits label) (bytesBits tau)
      ∧ h' = { h with prf := h'.prf, hmac := h'.hmac, clientUfin := h'.clientUfin }
      ∧ h'.hmac.sha.ivIn.length ≤ h.hmac.sha.ivIn.length + 2 := by
  obtain ⟨r, h', e, k, re, f, l⟩ := prfCall_step hk g hg [] (finishedMsgLength * 8) label tau hl
    (by have : finishedMsgLength * 8 = 96 := rfl; omega)
  have hv : r.reverse = TLS.verifyData master (bytesBits label) (bytesBits tau) := by rw [re]; rfl
  have hlen : r.length = 96 := by
    rw [← List.length_reverse, hv, TLS.verifyData, HMAC.prf, List.length_take, length_pHash]; rfl
  have hb := toBytes_reverse_bits r (by rw [hlen])
  refine ⟨{ h' with clientUfin := toBytes r }, ?_, k, ?_, by rw [← hv]; exact hb, by rw [f], l⟩
  · simp only [Hs.computeClientFinished, bind, Except.bind, e]
  · have := congrArg List.length hb
    rw [length_bytesBits, List.length_reverse, List.length_reverse, hlen] at this
    show (toBytes r).length = 12; omega

/-- **C15, negative.**  An honest server's finished message (12 bytes of `verify_data`, authenticated by the AEAD) is
accepted by `decrypt_and_check_server_finished_msg` only if it reads the same backwards. -/
theorem C15_honest_finished_rejected (h : Hs) (master : List Bool) (hk : Keyed h master)
    (hsz : h.hmac.sha.ivIn.length ≤ 2 ^ 63) (g : Nat → List Byte) (hg : ∀ i, (g i).length = 64)
    (label tau : List Byte) (hl : label.length + tau.length < 2 ^ 58) (vd : List Byte)
    (hvd : bytesBits vd = TLS.verifyData master (bytesBits label) (bytesBits tau)) :
    ∃ h', h.computeServerFinished g label tau = .ok h' ∧
      (h'.checkServerFinished (true, vd) = true ↔ vd.reverse = vd) := by
  obtain ⟨h', e, _, hlen, hb, _, _⟩ := C15_finished_reversed h master hk hsz g hg label tau hl
  refine ⟨h', e, ?_⟩
  rw [← hvd] at hb
  have hr := bytesBits_inj hb
  have hl2 : vd.length = 12 := by rw [← hr, List.length_reverse, hlen]
  have hu : h'.serverUfin = vd.reverse := by rw [← hr, List.reverse_reverse]
  unfold Hs.checkServerFinished
  rw [hu, List.take_of_length_le (by simp [finishedMsgLength, hl2]),
    List.take_of_length_le (by simp [finishedMsgLength, hl2])]
  rw [Bool.true_and, beq_iff_eq]
  exact eq_comm

/-- **C15, negative.**  `compute_master_key` does not clear its result: on an object that already holds a master key
the new one is appended to the old one. -/
theorem C15_master_key_appended (h : Hs) (hpos : h.hmac.sha.pos = BitVec.ofNat 64 h.hmac.sha.ivIn.length - 1)
    (hsz : h.hmac.sha.ivIn.length ≤ 2 ^ 63) (hq : bnNumBytes h.q < 2 ^ 59) (g : Nat → List Byte)
    (hg : ∀ i, (g i).length = 64) (a b : Nat) (ha : a < h.q) (hb : b < h.q) (rc rs : List Byte)
    (hl : rc.length + rs.length < 2 ^ 57) :
    ∃ h', h.computeMasterKey g a b rc rs = .ok h'
      ∧ h'.masterKey.reverse = h.masterKey.reverse
          ++ TLS.masterSecret (SHA256.beBits (8 * bnNumBytes h.q) ((a + b) % h.q)) (bytesBits rc) (bytesBits rs)
      ∧ h'.masterKey.length = h.masterKey.length + 384 := by
  obtain ⟨h1, e1, k1, f1, _, l1⟩ := keyFromShares_step h hpos hq a b ha hb
  obtain ⟨r2, h2, e2, k2, r2e, f2, l2⟩ := prfCall_step k1 g hg h1.masterKey (masterKeyLength * 8) masterKeyLabel
    (rc ++ rs) (by rw [List.length_append]; have : masterKeyLabel.length = 13 := rfl; omega)
    (by rw [l1]; have : masterKeyLength * 8 = 384 := rfl; omega)
  have hm : h1.masterKey = h.masterKey := by rw [f1]
  have hr : r2.reverse = h.masterKey.reverse
      ++ TLS.masterSecret (SHA256.beBits (8 * bnNumBytes h.q) ((a + b) % h.q)) (bytesBits rc) (bytesBits rs) := by
    rw [r2e, hm, bytesBits_append]; rfl
  refine ⟨{ h2 with masterKey := r2 }, ?_, hr, ?_⟩
  · simp only [Hs.computeMasterKey, bind, Except.bind, e1, e2]
  · have := congrArg List.length hr
    rw [List.length_append, List.length_reverse, List.length_reverse] at this
    rw [show h.masterKey.length + 384 = h.masterKey.length + 384 from rfl]
    show r2.length = _
    rw [this, TLS.masterSecret, HMAC.prf, List.length_take, length_pHash]; rfl

/-- **C15 (whole schedule).**  The sequence of calls the handshake makes: master key, expansion keys, client and
server finished messages, from a fresh object, for all shares, randoms and transcript hashes. -/
theorem C15_schedule_partial (q : Nat) (rounds : Bool) (u v : List Byte) (hq : bnNumBytes q < 2 ^ 59)
    (g : Nat → List Byte) (hg : ∀ i, (g i).length = 64) (a b : Nat) (ha : a < q) (hb : b < q)
    (rc rs tauC tauS : List Byte) (hl : rc.length + rs.length < 2 ^ 57) (hC : tauC.length < 2 ^ 57)
    (hS : tauS.length < 2 ^ 57) :
    let master := TLS.masterSecret (SHA256.beBits (8 * bnNumBytes q) ((a + b) % q)) (bytesBits rc) (bytesBits rs)
    ∃ h1 h2 h3 h4, (Hs.new q rounds u v).computeMasterKey g a b rc rs = .ok h1
      ∧ h1.computeExpansionKeys g rc rs = .ok h2
      ∧ h2.computeClientFinished g clientFinishedLabel tauC = .ok h3
      ∧ h3.computeServerFinished g serverFinishedLabel tauS = .ok h4
      ∧ h4.masterKey.reverse = master
      ∧ TLS.IsPartition ⟨h4.clientWriteKey.reverse, h4.serverWriteKey.reverse, h4.clientWriteIv.reverse,
          h4.serverWriteIv.reverse⟩ (TLS.keyBlock master (bytesBits rc) (bytesBits rs))
      ∧ bytesBits h4.clientUfin.reverse = TLS.verifyData master (TLS.ascii "client finished") (bytesBits tauC)
      ∧ bytesBits h4.serverUfin.reverse = TLS.verifyData master (TLS.ascii "server finished") (bytesBits tauS) := by
  intro master
  obtain ⟨h1, e1, m1, l1, p1⟩ := C15_master_key (Hs.new q rounds u v) ⟨_, _, _, _, rfl⟩ hq g hg a b ha hb rc rs hl
  have hm : h1.masterKey.length = 384 := by
    rw [← List.length_reverse, m1, TLS.masterSecret, HMAC.prf, List.length_take, length_pHash]; rfl
  obtain ⟨h2, e2, k2, m2, K2, l2⟩ := C15_expansion_keys h1 p1 (by omega) (by omega) g hg rc rs hl
  rw [show h1.masterKey.reverse = master from m1] at k2 K2
  obtain ⟨h3, e3, K3, _, u3, f3, l3⟩ := C15_client_finished_reversed h2 master K2 (by omega) g hg clientFinishedLabel tauC
    (by have : clientFinishedLabel.length = 15 := rfl; omega)
  obtain ⟨h4, e4, K4, _, u4, f4, l4⟩ := C15_finished_reversed h3 master K3 (by omega) g hg serverFinishedLabel tauS
    (by have : serverFinishedLabel.length = 15 := rfl; omega)
  refine ⟨h1, h2, h3, h4, e1, e2, e3, e4, ?_, ?_, ?_, u4⟩
  · rw [f4, f3]; show h2.masterKey.reverse = _; rw [m2]; exact m1
  · rw [f4, f3]; exact k2
  · rw [f4]; exact u3

example : ∃ q a b, bnNumBytes q < 2 ^ 59 ∧ a < q ∧ b < q ∧ (a + b) % q = 49 ∧ q < a + b :=
  ⟨251, 200, 100, by decide +kernel, by decide, by decide, by decide, by decide⟩

end Verif.Props
