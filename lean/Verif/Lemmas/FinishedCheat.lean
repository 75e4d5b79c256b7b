import Verif.Model.FinishedCheat
import Verif.Lemmas.ZkReplay

/-! The calls of the PRF with an ALICE who inputs other inner digests. -/

namespace Verif.Lemmas
open Verif.Model Verif.Model.Integer Verif.Model.SHA
open Verif.Spec Verif.Spec.Encoding

/-- Feeding the inner digest of another message gives the MAC of that message. -/
theorem feed_eq {m : Hmac} {ri ro zk : Bool} {st : List (BitVec 32)} {s1 : Sha} (h : m.sha.optFirst m.iKeyPad ri zk = .ok (st, s1)) (g msg g' msg' : List Byte) :
    m.optHmacFeed g msg ri ro zk (fun _ => plainTail g' st msg') = m.optHmac g' msg' ri ro zk := by
  unfold Hmac.optHmacFeed Hmac.optHmac Sha.optDigest Sha.optUpdate
  simp only [bind, Except.bind, h]

theorem optFirst_open {m : Hmac} {key} (h : HmacInv m key (some false)) (hl : m.sha.ivIn.length ≤ 2 ^ 64) :
    m.sha.optFirst m.iKeyPad true false = .ok (inState key, m.sha) := by
  obtain ⟨o, inv, -⟩ := h.sha
  obtain ⟨i1, i2⟩ := inv.innOpen (iBlock key) rfl
  obtain ⟨-, -, o3, -⟩ := optFirst_spec m.sha inv.ok m.iKeyPad h.ilen true false
  have hne : m.sha.ivIn ≠ [] := by intro e; rw [e] at i2; simp at i2
  have hp : 0 < m.sha.ivIn.length := List.length_pos_iff.2 hne
  have hpos : m.sha.pos.toNat = m.sha.ivIn.length - 1 := by
    rw [inv.pos, BitVec.toNat_sub, BitVec.toNat_ofNat]
    have : (1 : BitVec 64).toNat = 1 := rfl
    rw [this]
    by_cases hh : m.sha.ivIn.length = 2 ^ 64
    · rw [hh]; decide
    · omega
  rw [o3 rfl rfl i1, hpos, ← List.getLast?_eq_getElem?, i2]
  rfl

/-- ALICE who follows the protocol inputs the digests. -/
theorem optPhashFeed_honest (g : Nat → List Byte) (seed : List Byte) (ri ro zk : Bool) : ∀ (n : Nat) (p : Prf) (m : Hmac) (a : List Byte) (res : Integer),
    optPhashFeed (fun _ d => d) g seed ri ro zk n p m a res = optPhashLoop g seed ri ro zk n p m a res
  | 0, _, _, _, _ => rfl
  | n + 1, p, m, a, res => by
    unfold optPhashFeed optPhashLoop
    congr 1
    funext ⟨tmp, m1⟩
    dsimp only
    congr 1
    funext ⟨tmpd, p1⟩
    dsimp only
    congr 1
    funext ⟨tmp2, m2⟩
    exact optPhashFeed_honest g seed ri ro zk n _ _ _ _

theorem trunc96 (d : List Integer) (h : (secBits d).length = 256) : (prfTrunc (concat [] d) 96).reverse = (secBits d).take 96 := by
  unfold prfTrunc
  have e : prfBlocks 96 * (8 * 32) - 96 = 160 := rfl
  have hl : (concat [] d).length = 256 := by rw [← List.length_reverse]; exact h
  rw [e, List.reverse_drop, hl]
  rfl

/-- The first phase: whatever messages `x` and `y` she inputs the inner digests of, the opened value is the MAC of `x`, the result begins the MAC of `y`. -/
theorem computeFeed_gc {m : Hmac} {key} (h : HmacInv m key (some false)) (hl : m.sha.ivIn.length + 2 ≤ 2 ^ 64) (p : Prf) (g : Nat → List Byte)
    (x y l s : List Byte) (hx : 512 + 8 * x.length < 2 ^ 64) (hy : 512 + 8 * y.length < 2 ^ 64) :
    ∃ r p' m' w, p.optComputeFeed m (fun i _ => plainTail (List.replicate 64 0) (inState key) (if i = 1 then x else y)) g [] 96 l s true true false
        = .ok (r, p', m')
      ∧ p'.pubM = p.pubM ++ [w] ∧ wbits w = HMAC.hmac key (bytesBits x) ∧ r.reverse = (HMAC.hmac key (bytesBits y)).take 96
      ∧ p'.zkSecM = p.zkSecM ∧ p'.zkPos = p.zkPos ∧ m'.sha.ivIn = m.sha.ivIn ∧ m'.sha.zkIvIn = m.sha.zkIvIn ∧ m'.sha.zpos = m.sha.zpos
      ∧ m'.sha.pos = BitVec.ofNat 64 m'.sha.ivIn.length - 1 := by
  obtain ⟨d1, m1, e1, a1, b1, h1, l1⟩ := optHmac_step h (List.replicate 64 0) List.length_replicate x hx (by omega) true true (by simp)
  obtain ⟨q1, q2, q3⟩ := optHmac_log h e1
  rw [if_pos rfl] at h1
  simp only [Option.isNone_some, Bool.and_false, Bool.false_eq_true, if_false, List.append_nil] at q3
  obtain ⟨d2, m2, e2, a2, b2, h2, l2⟩ := optHmac_step h1 (List.replicate 64 0) List.length_replicate y hy (by omega) true true (by simp)
  obtain ⟨r1, r2, r3⟩ := optHmac_log h1 e2
  simp only [Option.isNone_some, Bool.and_false, Bool.false_eq_true, if_false, List.append_nil] at r3
  have f1 := fun g msg => feed_eq (ro := true) (optFirst_open h (by omega)) g msg (List.replicate 64 0) x
  have f2 := fun g msg => feed_eq (ro := true) (optFirst_open h1 (by omega)) g msg (List.replicate 64 0) y
  refine ⟨prfTrunc (concat [] d2) 96, { p with calls := p.calls + 1 + 1, pubM := p.pubM ++ [revealWords d1] }, m2, revealWords d1, ?_, rfl, ?_, ?_, rfl, rfl,
    by rw [r3, q3], by rw [r1, q1], by rw [r2, q2], ?_⟩
  · unfold Prf.optComputeFeed
    have hb : prfBlocks 96 = 0 + 1 := rfl
    rw [hb]
    simp only [optPhashFeed, bind, Except.bind, Bool.not_false, if_true, f1, e1, f2, e2, show ¬ (2 * 0 = 1) by decide, if_false, show 2 * 0 + 1 = 1 from rfl]
  · rw [revealWords_eq d1 a1]
    exact (secBits_eq d1 a1).symm.trans b1
  · rw [trunc96 d2 (by rw [b2, length_hmac]), b2]
  · obtain ⟨o, inv, -⟩ := h2.sha
    exact inv.pos

/-- The proof phase. -/
theorem computeFeed_zk {m : Hmac} {key} (h : ZkInv m key true) (hl : m.sha.zkIvIn.length < 2 ^ 64) (hw : m.sha.ivIn[m.sha.zkIvIn.length - 1]? = some (inState key))
    (p : Prf) (hp : p.zkPos = p.zkSecM.length) (hag : PrfAgree p) (g : Nat → List Byte)
    (x y l s : List Byte) (hx : 512 + 8 * x.length < 2 ^ 64) (hy : 512 + 8 * y.length < 2 ^ 64)
    {w : List (BitVec 32)} (hpw : p.pubM[p.zkPos]? = some w) (hwx : wbits w = HMAC.hmac key (bytesBits x)) :
    ∃ r p' m', p.optComputeFeed m (fun i _ => plainTail (List.replicate 64 0) (inState key) (if i = 1 then x else y)) g [] 96 l s true true true
        = .ok (r, p', m')
      ∧ p'.pubM = p.pubM ∧ r.reverse = (HMAC.hmac key (bytesBits y)).take 96
      ∧ p'.zkSecM.length = p.zkSecM.length + 1 ∧ PrfAgree p' ∧ m'.sha.ivIn = m.sha.ivIn ∧ m'.sha.zkIvIn = m.sha.zkIvIn := by
  have n0 : zkNext m key true = m.sha.zkIvIn := rfl
  have hopen : ∀ {m : Hmac}, ZkInv m key true → m.sha.zkIvIn.length < 2 ^ 64 → m.sha.ivIn[m.sha.zkIvIn.length - 1]? = some (inState key) →
      ∃ s1, m.sha.optFirst m.iKeyPad true true = .ok (inState key, s1) := by
    intro m h hl hw
    obtain ⟨s1, -, -, e⟩ := optFirst_zk h hl
    rw [show zkNext m key true = m.sha.zkIvIn from rfl, hw] at e
    exact ⟨s1, e⟩
  obtain ⟨d1, m1, e1, a1, b1, h1, z1, i1⟩ := optHmac_zk h hl (List.replicate 64 0) List.length_replicate x hx true hw
  rw [n0] at z1
  obtain ⟨d2, m2, e2, a2, b2, h2, z2, i2⟩ := optHmac_zk h1 (by rw [z1]; exact hl) (List.replicate 64 0) List.length_replicate y hy true
    (by show m1.sha.ivIn[m1.sha.zkIvIn.length - 1]? = _; rw [z1, i1]; exact hw)
  have n1 : zkNext m1 key true = m1.sha.zkIvIn := rfl
  obtain ⟨s1, o1⟩ := hopen h hl hw
  obtain ⟨s2, o2⟩ := hopen h1 (by rw [z1]; exact hl) (by rw [z1, i1]; exact hw)
  have f1 := fun g msg => feed_eq (ro := true) o1 g msg (List.replicate 64 0) x
  have f2 := fun g msg => feed_eq (ro := true) o2 g msg (List.replicate 64 0) y
  have hmap : d1.map bv = w := by
    apply wbits_inj
    rw [hwx, ← b1, secBits_eq d1 a1]
  refine ⟨prfTrunc (concat [] d2) 96, { p with calls := p.calls + 1 + 1, zkSecM := p.zkSecM ++ [reverseConcat [] d1], zkPos := p.zkPos + 1 }, m2, ?_, rfl, ?_,
    by simp, ?_, by rw [i2, i1], by rw [z2, n1, z1]⟩
  · unfold Prf.optComputeFeed
    have hb : prfBlocks 96 = 0 + 1 := rfl
    rw [hb]
    simp only [optPhashFeed, bind, Except.bind, Bool.not_true, Bool.false_eq_true, hpw, f1, e1, f2, e2, show ¬ (2 * 0 = 1) by decide, if_true, if_false,
      show 2 * 0 + 1 = 1 from rfl]
  · rw [trunc96 d2 (by rw [b2, length_hmac]), b2]
  · intro i z w' hz hw'
    simp only at hz hw'
    by_cases hi : i < p.zkSecM.length
    · rw [List.getElem?_append_left hi] at hz
      exact hag i z w' hz hw'
    · have hi2 : i = p.zkSecM.length := by
        have := (List.getElem?_eq_some_iff.1 hz).1
        simp at this; omega
      subst hi2
      simp only [List.getElem?_concat_length, Option.some.injEq] at hz
      rw [← hp, hpw, Option.some.injEq] at hw'
      rw [← hz, ← hw', reverseConcat_wordsInt d1 a1, hmap]

end Verif.Lemmas
