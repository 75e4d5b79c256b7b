import Verif.Lemmas.HmacInv
import Verif.Model.PRF

/-! The loops of the PRF. -/

namespace Verif.Lemmas
open Verif.Model Verif.Model.Integer Verif.Model.SHA
open Verif.Spec Verif.Spec.Encoding

theorem length_hmac (k m : List Bool) : (HMAC.hmac k m).length = 256 := length_sha256 _

theorem length_pHash (k s : List Bool) (n : Nat) : (HMAC.pHash k s n).length = 256 * n := by
  induction n with
  | zero => rfl
  | succ n ih => rw [HMAC.pHash, List.length_append, ih, length_hmac]; omega

theorem pHash_prefix (k s : List Bool) (n m : Nat) : HMAC.pHash k s n <+: HMAC.pHash k s (n + m) := by
  induction m with
  | zero => exact List.prefix_refl _
  | succ m ih => exact ih.trans (List.prefix_append _ _)

theorem pHash_take (k s : List Bool) (n m b : Nat) (h : b ≤ 256 * n) :
    (HMAC.pHash k s (n + m)).take b = (HMAC.pHash k s n).take b := by
  obtain ⟨t, ht⟩ := pHash_prefix k s n m
  rw [← ht, List.take_append_of_le_length (by rw [length_pHash]; exact h)]

/-- Truncation of the loop result. -/
theorem prfTrunc_spec (k label seed : List Bool) (res0 res : Integer) (bitlen : Nat)
    (h : res.reverse = res0.reverse ++ HMAC.pHash k (label ++ seed) (prfBlocks bitlen)) :
    (prfTrunc res bitlen).reverse = res0.reverse ++ HMAC.prf k label seed bitlen := by
  have hb : prfBlocks bitlen = (bitlen + 255) / 256 + (prfBlocks bitlen - (bitlen + 255) / 256) := by
    unfold prfBlocks; omega
  have hl := length_pHash k (label ++ seed) (prfBlocks bitlen)
  have hle : bitlen ≤ 256 * prfBlocks bitlen := by unfold prfBlocks; omega
  have hrl : res.length = res0.length + 256 * prfBlocks bitlen := by
    rw [← List.length_reverse, h, List.length_append, hl, List.length_reverse]
  unfold prfTrunc HMAC.prf
  rw [List.reverse_drop, h, hrl]
  have e : res0.length + 256 * prfBlocks bitlen - (prfBlocks bitlen * (8 * 32) - bitlen)
      = res0.reverse.length + bitlen := by rw [List.length_reverse]; omega
  rw [e, List.take_length_add_append]
  congr 1
  conv_lhs => rw [hb]
  exact pHash_take _ _ _ _ _ (by omega)

theorem wordBytes_bits (w : BitVec 32) : bytesBits (wordBytes w) = SHA256.wordBits w := by
  have e : ∀ i, w.toNat.testBit i = w.getLsbD i := fun i => BitVec.testBit_toNat w
  simp only [bytesBits, wordBytes, SHA256.wordBits, byteBits, SHA256.beBits, e, List.flatMap_cons, List.flatMap_nil,
    List.cons_append, List.nil_append, BitVec.getLsbD_setWidth, BitVec.getLsbD_ushiftRight]
  simp

theorem wordsBytes_bits (ws : List (BitVec 32)) : bytesBits (ws.flatMap wordBytes) = ws.flatMap SHA256.wordBits := by
  induction ws with
  | nil => rfl
  | cons w ws ih => rw [List.flatMap_cons, bytesBits_append, ih, wordBytes_bits, List.flatMap_cons]

theorem phashLoop_spec (key seed : List Bool) (seedI : Integer) (hseed : seedI.reverse = seed)
    (hs : seedI.length < 2 ^ 61) (inn : Option Bool) :
    ∀ (n i : Nat) (p : Prf) (m : Hmac) (a res : Integer) (res0 : List Bool), HmacInv m key inn →
    a.reverse = HMAC.A key seed i → res.reverse = res0 ++ HMAC.pHash key seed i →
    ∃ r m', phashLoop seedI n p m a res = .ok (r, { p with calls := p.calls + 2 * n }, m') ∧ HmacInv m' key inn
      ∧ m'.sha.ivIn = m.sha.ivIn ∧ r.reverse = res0 ++ HMAC.pHash key seed (i + n) := by
  intro n
  induction n with
  | zero => intro i p m a res res0 h ha hr; exact ⟨res, m, rfl, h, rfl, hr⟩
  | succ n ih =>
    intro i p m a res res0 h ha hr
    have hal : a.length < 2 ^ 62 := by
      rw [← List.length_reverse, ha]
      cases i with
      | zero => rw [HMAC.A, ← hseed, List.length_reverse]; omega
      | succ i => rw [HMAC.A, length_hmac]; omega
    obtain ⟨d1, m1, e1, a1, b1, h1, l1⟩ := hmac_step h a hal
    have hA : (concat [] d1).reverse = HMAC.A key seed (i + 1) := by
      rw [HMAC.A, ← ha]; exact b1
    have hAs : (concat (concat [] [concat [] d1]) [seedI]).reverse = HMAC.A key seed (i + 1) ++ seed := by
      rw [concat_reverse, concat_reverse]
      simp [hA, hseed]
    obtain ⟨d2, m2, e2, a2, b2, h2, l2⟩ := hmac_step h1 (concat (concat [] [concat [] d1]) [seedI]) (by
      rw [← List.length_reverse, hAs, List.length_append, HMAC.A, length_hmac, ← hseed, List.length_reverse]; omega)
    have hres : (concat res d2).reverse = res0 ++ HMAC.pHash key seed (i + 1) := by
      have : (concat res d2).reverse = res.reverse ++ secBits d2 := by
        rw [secBits, concat_reverse, concat_reverse]; simp
      rw [this, hr, b2, hAs, HMAC.pHash, List.append_assoc]
    obtain ⟨r, m', e, hm, hl, hr'⟩ := ih (i + 1) { p with calls := p.calls + 2 } m2 _ _ res0 h2 hA hres
    refine ⟨r, m', ?_, hm, by rw [hl, l2, l1], by rw [hr']; congr 2; omega⟩
    simp only [phashLoop, bind, Except.bind, e1, e2, e]
    have : p.calls + 2 + 2 * n = p.calls + 2 * (n + 1) := by omega
    rw [this]

theorem roundsPhashLoop_spec (key seed : List Bool) (seedI : Integer) (hseed : seedI.reverse = seed)
    (hs : seedI.length < 2 ^ 61) (ri ro : Bool) :
    ∀ (n i : Nat) (inn : Option Bool) (p : Prf) (m : Hmac) (a res : Integer) (res0 : List Bool), HmacInv m key inn →
    (ri = true → inn ≠ some false) →
    a.reverse = HMAC.A key seed i → res.reverse = res0 ++ HMAC.pHash key seed i →
    ∃ r m', roundsPhashLoop seedI ri ro n p m a res = .ok (r, { p with calls := p.calls + 2 * n }, m')
      ∧ HmacInv m' key (if n = 0 then inn else if ri then some true else inn)
      ∧ m'.sha.ivIn = m.sha.ivIn ∧ r.reverse = res0 ++ HMAC.pHash key seed (i + n) := by
  intro n
  induction n with
  | zero => intro i inn p m a res res0 h _ ha hr; exact ⟨res, m, rfl, h, rfl, hr⟩
  | succ n ih =>
    intro i inn p m a res res0 h hc ha hr
    have hal : a.length < 2 ^ 62 := by
      rw [← List.length_reverse, ha]
      cases i with
      | zero => rw [HMAC.A, ← hseed, List.length_reverse]; omega
      | succ i => rw [HMAC.A, length_hmac]; omega
    obtain ⟨d1, m1, e1, a1, b1, h1, l1⟩ := roundsHmac_step h a hal ri ro hc
    have hA : (concat [] d1).reverse = HMAC.A key seed (i + 1) := by
      rw [HMAC.A, ← ha]; exact b1
    have hAs : (concat (concat [] [concat [] d1]) [seedI]).reverse = HMAC.A key seed (i + 1) ++ seed := by
      rw [concat_reverse, concat_reverse]
      simp [hA, hseed]
    obtain ⟨d2, m2, e2, a2, b2, h2, l2⟩ := roundsHmac_step h1 (concat (concat [] [concat [] d1]) [seedI]) (by
      rw [← List.length_reverse, hAs, List.length_append, HMAC.A, length_hmac, ← hseed, List.length_reverse]; omega)
      ri ro (by cases ri <;> simp_all)
    have hres : (concat res d2).reverse = res0 ++ HMAC.pHash key seed (i + 1) := by
      have : (concat res d2).reverse = res.reverse ++ secBits d2 := by
        rw [secBits, concat_reverse, concat_reverse]; simp
      rw [this, hr, b2, hAs, HMAC.pHash, List.append_assoc]
    obtain ⟨r, m', e, hm, hl, hr'⟩ := ih (i + 1) _ { p with calls := p.calls + 2 } m2 _ _ res0 h2
      (by cases ri <;> simp_all) hA hres
    refine ⟨r, m', ?_, ?_, by rw [hl, l2, l1], by rw [hr']; congr 2; omega⟩
    · simp only [roundsPhashLoop, bind, Except.bind, e1, e2, e]
      have : p.calls + 2 + 2 * n = p.calls + 2 * (n + 1) := by omega
      rw [this]
    · cases ri <;> simpa using hm

theorem optPhashLoop_spec (key : List Bool) (g : Nat → List Byte) (hg : ∀ i, (g i).length = 64) (seed : List Byte)
    (hs : seed.length < 2 ^ 60) (ri ro : Bool) :
    ∀ (n i : Nat) (inn : Option Bool) (p : Prf) (m : Hmac) (a : List Byte) (res : Integer) (res0 : List Bool),
    HmacInv m key inn → (ri = true → inn ≠ some true) → m.sha.ivIn.length + 2 * n ≤ 2 ^ 64 →
    bytesBits a = HMAC.A key (bytesBits seed) i → res.reverse = res0 ++ HMAC.pHash key (bytesBits seed) i →
    ∃ r m' p', optPhashLoop g seed ri ro false n p m a res = .ok (r, p', m')
      ∧ HmacInv m' key (if n = 0 then inn else if ri then some false else inn)
      ∧ m'.sha.ivIn.length ≤ m.sha.ivIn.length + 2 * n
      ∧ r.reverse = res0 ++ HMAC.pHash key (bytesBits seed) (i + n)
      ∧ p'.calls = p.calls + 2 * n ∧ p'.zkSecM = p.zkSecM ∧ p'.zkPos = p.zkPos
      ∧ ∃ opened, p'.pubM = p.pubM ++ opened
        ∧ opened.map (fun w => w.flatMap SHA256.wordBits)
          = (List.range n).map fun j => HMAC.A key (bytesBits seed) (i + 1 + j) := by
  intro n
  induction n with
  | zero => intro i inn p m a res res0 h _ _ ha hr; exact ⟨res, m, p, rfl, h, by simp, hr, rfl, rfl, rfl, [], by simp⟩
  | succ n ih =>
    intro i inn p m a res res0 h hc hsz ha hr
    have hal : 512 + 8 * a.length < 2 ^ 64 := by
      have : (bytesBits a).length = 8 * a.length := length_bytesBits a
      rw [← this, ha]
      cases i with
      | zero => rw [HMAC.A, length_bytesBits]; omega
      | succ i => rw [HMAC.A, length_hmac]; omega
    obtain ⟨d1, m1, e1, a1, b1, h1, l1⟩ := optHmac_step h (g (2 * n + 1)) (hg _) a hal (by omega) ri ro hc
    have hW : (revealWords d1).flatMap SHA256.wordBits = HMAC.A key (bytesBits seed) (i + 1) := by
      rw [revealWords_eq d1 a1, ← secBits_eq d1 a1, b1, ha]; rfl
    have hA : bytesBits ((revealWords d1).flatMap wordBytes) = HMAC.A key (bytesBits seed) (i + 1) := by
      rw [wordsBytes_bits, hW]
    have hAl : ((revealWords d1).flatMap wordBytes).length = 32 := by
      have := length_bytesBits ((revealWords d1).flatMap wordBytes)
      rw [hA, HMAC.A, length_hmac] at this; omega
    obtain ⟨d2, m2, e2, a2, b2, h2, l2⟩ := optHmac_step h1 (g (2 * n)) (hg _)
      ((revealWords d1).flatMap wordBytes ++ seed) (by rw [List.length_append, hAl]; omega) (by omega) ri ro
      (by cases ri <;> simp_all)
    have hres : (concat res d2).reverse = res0 ++ HMAC.pHash key (bytesBits seed) (i + 1) := by
      have : (concat res d2).reverse = res.reverse ++ secBits d2 := by
        rw [secBits, concat_reverse, concat_reverse]; simp
      rw [this, hr, b2, bytesBits_append, hA, HMAC.pHash, List.append_assoc]
    obtain ⟨r, m', p', e, hm, hl, hr', hc', hz1, hz2, op, ho1, ho2⟩ := ih (i + 1) _
      { p with calls := p.calls + 1 + 1, pubM := p.pubM ++ [revealWords d1] } m2 _ _ res0 h2
      (by cases ri <;> simp_all) (by omega) hA hres
    refine ⟨r, m', p', ?_, ?_, by omega, by rw [hr']; congr 2; omega, by rw [hc']; show p.calls + 1 + 1 + _ = _; omega,
      hz1, hz2, revealWords d1 :: op, ?_, ?_⟩
    · simp only [optPhashLoop, bind, Except.bind, e1, Bool.not_false, if_true, e2, e]
    · cases ri <;> simpa using hm
    · rw [ho1]; simp
    · rw [List.map_cons, ho2, hW, List.range_succ_eq_map, List.map_cons, List.map_map]
      congr 1
      apply List.map_congr_left
      intro j _
      simp only [Function.comp]
      congr 1; omega

end Verif.Lemmas
