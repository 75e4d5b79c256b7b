import Verif.Lemmas.PRF
import Verif.Model.ZkReplay

/-! The proof phase of the key derivation. -/

namespace Verif.Lemmas
open Verif.Model Verif.Model.Integer Verif.Model.SHA
open Verif.Spec Verif.Spec.Encoding

/-- Bits of a list of words, most significant first. -/
abbrev wbits (w : List (BitVec 32)) : List Bool := w.flatMap SHA256.wordBits

theorem wordsInt_reverse (w : List (BitVec 32)) : (wordsInt w.reverse).reverse = wbits w := by
  induction w with
  | nil => rfl
  | cons x xs ih =>
    unfold wordsInt at ih ⊢
    rw [List.reverse_cons, List.flatMap_append, List.reverse_append, ih]
    simp [ofNat_reverse, SHA256.wordBits]

theorem length_wordsInt (w : List (BitVec 32)) : (wordsInt w).length = 32 * w.length := by
  induction w with
  | nil => rfl
  | cons x xs ih =>
    unfold wordsInt at ih ⊢
    rw [List.flatMap_cons, List.length_append, ih]; simp; omega

theorem wordBits_inj {a b : BitVec 32} (h : SHA256.wordBits a = SHA256.wordBits b) : a = b := by
  have : ofNat 32 a.toNat = ofNat 32 b.toNat := by
    rw [← List.reverse_inj, ofNat_reverse, ofNat_reverse]; exact h
  have h2 := congrArg val this
  rw [val_ofNat, val_ofNat] at h2
  apply BitVec.eq_of_toNat_eq
  have := a.isLt; have := b.isLt; omega

theorem wbits_inj : ∀ {a b : List (BitVec 32)}, wbits a = wbits b → a = b := by
  intro a
  induction a with
  | nil =>
    intro b h
    cases b with
    | nil => rfl
    | cons y ys =>
      have := congrArg List.length h
      rw [length_flatMap_wordBits, length_flatMap_wordBits] at this; simp at this
  | cons x xs ih =>
    intro b h
    cases b with
    | nil =>
      have := congrArg List.length h
      rw [length_flatMap_wordBits, length_flatMap_wordBits] at this; simp at this
    | cons y ys =>
      simp only [wbits, List.flatMap_cons] at h
      obtain ⟨h1, h2⟩ := List.append_inj h (by simp [SHA256.wordBits])
      rw [wordBits_inj h1, ih h2]

theorem reverseConcat_wordsInt (d : List Integer) (h : Dig8 d) : reverseConcat [] d = wordsInt (d.map bv) := by
  have : ∀ d : List Integer, (∀ x ∈ d, x.length = 32) → d.flatten = wordsInt (d.map bv) := by
    intro d
    induction d with
    | nil => intro _; rfl
    | cons x xs ih =>
      intro hh
      unfold wordsInt at ih ⊢
      rw [List.map_cons, List.flatMap_cons, List.flatten_cons, ih (fun y hy => hh y (by simp [hy])),
        ofNat_bv x (hh x (by simp))]
  rw [← this d h.1, reverseConcat_eq]; simp

theorem concat_wordsInt (d : List Integer) (h : Dig8 d) : concat [] d = wordsInt (d.map bv).reverse := by
  rw [← List.reverse_inj, wordsInt_reverse]
  exact secBits_eq d h

/-! ### Frames -/

theorem digest_frame {s s' : Sha} {x : Integer} {r : Bool} {d : List Integer} (h : s.digest x r = .ok (d, s')) :
    s'.ivIn = s.ivIn ∧ s'.zkIvIn = s.zkIvIn ∧ s'.zkIn = s.zkIn ∧ s'.zpos = s.zpos := by
  unfold Sha.digest Sha.update at h
  simp only [bind, Except.bind] at h
  repeat' split at h
  all_goals first
    | (simp at h; done)
    | (simp only [Except.ok.injEq, Prod.mk.injEq] at h; obtain ⟨_, rfl⟩ := h; simp; done)

/-- What a call of the proof phase may do to the logs. -/
structure HExt (m m' : Hmac) : Prop where
  iv : m'.sha.ivIn = m.sha.ivIn
  zk : m.sha.zkIvIn <+: m'.sha.zkIvIn

structure PExt (p p' : Prf) : Prop where
  pub : p'.pubM = p.pubM
  zk : p.zkSecM <+: p'.zkSecM

theorem HExt.trans {a b c} (h : HExt a b) (k : HExt b c) : HExt a c := ⟨by rw [k.iv, h.iv], h.zk.trans k.zk⟩
theorem PExt.trans {a b c} (h : PExt a b) (k : PExt b c) : PExt a c := ⟨by rw [k.pub, h.pub], h.zk.trans k.zk⟩
theorem HExt.refl (a) : HExt a a := ⟨rfl, List.prefix_refl _⟩
theorem PExt.refl (a) : PExt a a := ⟨rfl, List.prefix_refl _⟩

theorem optFirst_frame {s s' : Sha} {x : Integer} {r : Bool} {d} (h : s.optFirst x r true = .ok (d, s')) :
    s'.ivIn = s.ivIn ∧ s.zkIvIn <+: s'.zkIvIn := by
  unfold Sha.optFirst at h
  simp only [bind, Except.bind] at h
  repeat' split at h
  all_goals first
    | (simp at h; done)
    | (rename_i hh _; simp at hh; done)
    | (rename_i hh; simp at hh; done)
    | (rename_i hh _ _; simp at hh; done)
    | (simp only [Except.ok.injEq, Prod.mk.injEq] at h; obtain ⟨_, rfl⟩ := h; simp; done)

theorem optHmac_frame {m m' : Hmac} {g msg ri ro d} (h : m.optHmac g msg ri ro true = .ok (d, m')) : HExt m m' := by
  unfold Hmac.optHmac Sha.optDigest Sha.optUpdate at h
  simp only [bind, Except.bind] at h
  cases h1 : m.sha.optFirst m.iKeyPad ri true with
  | error e => simp [h1] at h
  | ok q =>
    obtain ⟨dig, s1⟩ := q
    simp only [h1] at h
    split at h
    · simp at h
    rename_i v hv
    obtain ⟨d2, s2⟩ := v
    simp only [Except.ok.injEq, Prod.mk.injEq] at h
    obtain ⟨_, rfl⟩ := h
    obtain ⟨a1, a2⟩ := optFirst_frame h1
    obtain ⟨b1, b2, _⟩ := digest_frame hv
    exact ⟨by show s2.ivIn = _; rw [b1, a1], by show _ <+: s2.zkIvIn; rw [b2]; exact a2⟩

theorem optPhashLoop_frame {g seed ri ro} : ∀ (n : Nat) (p : Prf) (m : Hmac) (a : List Byte) (res : Integer) (r p' m'),
    optPhashLoop g seed ri ro true n p m a res = .ok (r, p', m') → PExt p p' ∧ HExt m m' := by
  intro n
  induction n with
  | zero =>
    intro p m a res r p' m' h
    simp only [optPhashLoop, Except.ok.injEq, Prod.mk.injEq] at h
    obtain ⟨_, rfl, rfl⟩ := h
    exact ⟨.refl _, .refl _⟩
  | succ n ih =>
    intro p m a res r p' m' h
    simp only [optPhashLoop, bind, Except.bind] at h
    split at h
    · simp at h
    rename_i v hv
    obtain ⟨t1, m1⟩ := v
    simp only [Bool.not_true, Bool.false_eq_true, if_false] at h
    cases hp : p.pubM[p.zkPos]? with
    | none => simp [hp] at h
    | some tmpd =>
      simp only [hp] at h
      split at h
      · simp at h
      rename_i v2 hv2
      obtain ⟨t2, m2⟩ := v2
      obtain ⟨q1, q2⟩ := ih _ _ _ _ _ _ _ h
      exact ⟨⟨q1.pub, (List.prefix_append _ _).trans q1.zk⟩, (optHmac_frame hv).trans ((optHmac_frame hv2).trans q2)⟩

/-! ### Agreement of the logs -/

/-- Every recorded secret state equals the opened value of the same index. -/
def ShaAgree (m : Hmac) : Prop :=
  ∀ (i : Nat) (z : Integer) (w : List (BitVec 32)), m.sha.zkIvIn[i]? = some z → m.sha.ivIn[i]? = some w → z = wordsInt w.reverse

/-- Every recorded secret `A(i)` equals the opened value of the same index. -/
def PrfAgree (p : Prf) : Prop := ∀ (i : Nat) (z : Integer) (w : List (BitVec 32)), p.zkSecM[i]? = some z → p.pubM[i]? = some w → z = wordsInt w

theorem prefix_get {α : Type} {a b : List α} (h : a <+: b) {i : Nat} {x : α} (hx : a[i]? = some x) : b[i]? = some x := by
  obtain ⟨t, rfl⟩ := h
  rw [List.getElem?_append_left (List.getElem?_eq_some_iff.1 hx).1, hx]

theorem ShaAgree.mono {m m'} (e : HExt m m') (h : ShaAgree m') : ShaAgree m :=
  fun i z w hz hw => h i z w (prefix_get e.zk hz) (by rw [e.iv]; exact hw)

theorem PrfAgree.mono {p p'} (e : PExt p p') (h : PrfAgree p') : PrfAgree p :=
  fun i z w hz hw => h i z w (prefix_get e.zk hz) (by rw [e.pub]; exact hw)

/-- State after the inner key block. -/
def inState (key : List Bool) : List (BitVec 32) := stateAfter (iBlock key)

/-- Invariant of the `HMAC` object during the proof phase; `z`: the inner state has been recomputed for this key. -/
structure ZkInv (m : Hmac) (key : List Bool) (z : Bool) : Prop where
  base : HmacInv m key none
  zpos : m.sha.zpos = BitVec.ofNat 64 m.sha.zkIvIn.length - 1
  off : z = false → m.sha.zkIn = false
  on : z = true → m.sha.zkIn = true ∧ m.sha.zkIvIn ≠ [] ∧ m.sha.zkIvIn.getLast? = some (wordsInt (inState key).reverse)

/-- Recorded states after a call that reuses the inner state. -/
def zkNext (m : Hmac) (key : List Bool) (z : Bool) : List Integer :=
  if z then m.sha.zkIvIn else m.sha.zkIvIn ++ [wordsInt (inState key).reverse]

theorem zkNext_last {m : Hmac} {key z} (h : ZkInv m key z) :
    0 < (zkNext m key z).length ∧ (zkNext m key z)[(zkNext m key z).length - 1]? = some (wordsInt (inState key).reverse) := by
  unfold zkNext
  cases z with
  | false => simp
  | true =>
    obtain ⟨_, h2, h3⟩ := h.on rfl
    refine ⟨List.length_pos_iff.2 h2, ?_⟩
    rw [if_pos rfl, ← List.getLast?_eq_getElem?, h3]

/-- `opt_update` of the proof phase up to the plain part. -/
theorem optFirst_zk {m : Hmac} {key z} (h : ZkInv m key z) (hl : m.sha.zkIvIn.length < 2 ^ 64) :
    ∃ s1 : Sha, s1 = { m.sha with calls := s1.calls, zkIvIn := zkNext m key z, zkIn := true, zpos := s1.zpos }
      ∧ s1.zpos = BitVec.ofNat 64 (zkNext m key z).length - 1
      ∧ m.sha.optFirst m.iKeyPad true true =
          match m.sha.ivIn[(zkNext m key z).length - 1]? with
          | some dig => .ok (dig, s1)
          | none => .error (.ub "opt_update: iv_in_hashes[zpos] out of range") := by
  obtain ⟨o, inv, ho⟩ := h.base.sha
  obtain ⟨_, _, _, o4⟩ := optFirst_spec m.sha inv.ok m.iKeyPad h.base.ilen true true
  obtain ⟨s1, e1, e2, e3⟩ := o4 rfl rfl
  have hb : blockAt m.iKeyPad.reverse 0 = m.iKeyPad.reverse := by
    simp [blockAt]; rw [List.take_of_length_le (by simp [h.base.ilen])]
  have hgood : firstState m.iKeyPad.reverse = inState key := by
    rw [firstState_eq, hb, h.base.ipad]; rfl
  have idx : ∀ n : Nat, 0 < n → n ≤ 2 ^ 64 → (BitVec.ofNat 64 n - 1).toNat = n - 1 := by
    intro n h0 h1
    rw [BitVec.toNat_sub, BitVec.toNat_ofNat]
    have : (1 : BitVec 64).toNat = 1 := rfl
    rw [this]
    by_cases hh : n = 2 ^ 64
    · rw [hh]; decide
    · omega
  cases z with
  | false =>
    have hz := h.off rfl
    rw [hz] at e1
    simp only [Bool.false_eq_true, if_false] at e1
    obtain ⟨d, d8, d1, d2⟩ := e2 hz
    have hn : s1.zkIvIn = zkNext m key false := by
      rw [d2, concat_wordsInt d d8, d1, hgood]; rfl
    have hp : s1.zpos = BitVec.ofNat 64 (zkNext m key false).length - 1 := by
      rw [e1]
      show m.sha.zpos + 1 = _
      rw [h.zpos]
      simp only [zkNext, Bool.false_eq_true, if_false, List.length_append, List.length_cons, List.length_nil, Nat.zero_add]
      rw [BitVec.ofNat_add]
      simp only [BitVec.sub_eq_add_neg, BitVec.add_assoc]
      congr 1
    have ca := congrArg Sha.calls e1
    have cb := congrArg Sha.zpos e1
    simp only at ca cb
    refine ⟨s1, by rw [← hn, ca, cb]; exact e1, hp, ?_⟩
    rw [e3, hp, idx _ (by simp [zkNext]) (by simp [zkNext]; omega)]
    have : s1.ivIn = m.sha.ivIn := by
      have := congrArg Sha.ivIn e1
      simpa only using this
    rw [this]
    rfl
  | true =>
    obtain ⟨z1, z2, z3⟩ := h.on rfl
    rw [z1, if_pos rfl] at e1
    subst e1
    refine ⟨m.sha, ?_, h.zpos, ?_⟩
    · have : zkNext m key true = m.sha.zkIvIn := rfl
      rw [this, ← z1]
    · rw [e3, h.zpos, idx _ (List.length_pos_iff.2 z2) (by omega)]; rfl

theorem ShaInv.zk {s s' : Sha} {o i} (h : ShaInv s o i) {zl zp c}
    (e : s' = { s with calls := c, zkIvIn := zl, zkIn := true, zpos := zp }) : ShaInv s' o i := by
  subst e
  exact ⟨⟨h.ok.k, h.ok.h, h.ok.h8⟩, h.outNone, h.outSome, h.innNone, h.innOpen, h.innSec, h.pos⟩

/-- Forward step: if the opened state is right, the call returns the MAC. -/
theorem optHmac_zk {m : Hmac} {key z} (h : ZkInv m key z) (hl : m.sha.zkIvIn.length < 2 ^ 64) (g : List Byte)
    (hg : g.length = 64) (msg : List Byte) (hm : 512 + 8 * msg.length < 2 ^ 64) (ro : Bool)
    (hw : m.sha.ivIn[(zkNext m key z).length - 1]? = some (inState key)) :
    ∃ d m', m.optHmac g msg true ro true = .ok (d, m') ∧ Dig8 d ∧ secBits d = HMAC.hmac key (bytesBits msg)
      ∧ ZkInv m' key true ∧ m'.sha.zkIvIn = zkNext m key z ∧ m'.sha.ivIn = m.sha.ivIn := by
  obtain ⟨o, inv, ho⟩ := h.base.sha
  obtain ⟨s1, e1, e2, e3⟩ := optFirst_zk h hl
  rw [hw] at e3
  have inv1 := inv.zk e1
  have hfin := sha256Words_half (iBlock key) (length_iBlock key) msg hm g hg
  have hgood : firstState (iBlock key) = inState key := by
    rw [firstState_eq]
    have hb : blockAt (iBlock key) 0 = iBlock key := by
      simp [blockAt]; rw [List.take_of_length_le (by simp [length_iBlock])]
    rw [hb]; rfl
  rw [hgood] at hfin
  have hin : (concat [] ((plainTail g (inState key) msg).map fun d => ofNat 32 d.toNat)).reverse
      = SHA256.sha256 (iBlock key ++ bytesBits msg) := by
    have := openBits_eq (plainTail g (inState key) msg)
    rw [openBits] at this
    rw [this, hfin]; rfl
  obtain ⟨d2, s2, o2, f2, a2, b2, c2, ho2, hiv⟩ := outer_step (m := m) s1 inv1 ho h.base.opad _ _ hin ro
  obtain ⟨_, g2, g3, g4⟩ := digest_frame f2
  have hz : s2.zkIvIn = zkNext m key z := by rw [g2, e1]
  obtain ⟨n1, n2⟩ := zkNext_last h
  refine ⟨d2, { m with sha := s2, shaCalls := m.shaCalls + 2 }, ?_, a2, b2,
    ⟨⟨⟨o2, c2, ho2⟩, h.base.opad, h.base.ipad⟩, ?_, by simp, fun _ => ⟨?_, ?_, ?_⟩⟩, hz, ?_⟩
  · unfold Hmac.optHmac Sha.optDigest Sha.optUpdate
    simp only [bind, Except.bind, e3, f2]
  · show s2.zpos = BitVec.ofNat 64 s2.zkIvIn.length - 1
    rw [g4, e2, hz]
  · show s2.zkIn = true
    rw [g3, e1]
  · show s2.zkIvIn ≠ []
    rw [hz]; exact List.length_pos_iff.1 n1
  · show s2.zkIvIn.getLast? = _
    rw [hz, List.getLast?_eq_getElem?, n2]
  · show s2.ivIn = _
    rw [hiv, e1]

/-- Backward step: a call that returns with agreeing logs has read the right state. -/
theorem optHmac_zk_sound {m : Hmac} {key z} (h : ZkInv m key z) (hl : m.sha.zkIvIn.length < 2 ^ 64) {g msg ro d m'}
    (he : m.optHmac g msg true ro true = .ok (d, m')) (ha : ShaAgree m') :
    m.sha.ivIn[(zkNext m key z).length - 1]? = some (inState key) := by
  obtain ⟨s1, e1, e2, e3⟩ := optFirst_zk h hl
  unfold Hmac.optHmac Sha.optDigest Sha.optUpdate at he
  simp only [bind, Except.bind, e3] at he
  cases hw : m.sha.ivIn[(zkNext m key z).length - 1]? with
  | none => simp [hw] at he
  | some w =>
    simp only [hw] at he
    split at he
    · simp at he
    rename_i v hv
    obtain ⟨d2, s2⟩ := v
    simp only [Except.ok.injEq, Prod.mk.injEq] at he
    obtain ⟨_, rfl⟩ := he
    obtain ⟨g1, g2, _⟩ := digest_frame hv
    obtain ⟨n1, n2⟩ := zkNext_last h
    have := ha ((zkNext m key z).length - 1) _ w (by show s2.zkIvIn[_]? = _; rw [g2, e1]; exact n2)
      (by show s2.ivIn[_]? = _; rw [g1, e1]; exact hw)
    have := congrArg List.reverse this
    rw [wordsInt_reverse, wordsInt_reverse] at this
    rw [wbits_inj this]

/-- Without reuse the state is opened again. -/
theorem optHmac_zk_open {m : Hmac} {key z} (h : ZkInv m key z) (g : List Byte)
    (hg : g.length = 64) (msg : List Byte) (hm : 512 + 8 * msg.length < 2 ^ 64) (ro : Bool) :
    ∃ d m', m.optHmac g msg false ro true = .ok (d, m') ∧ Dig8 d ∧ secBits d = HMAC.hmac key (bytesBits msg)
      ∧ ZkInv m' key z ∧ m'.sha.zkIvIn = m.sha.zkIvIn ∧ m'.sha.ivIn = m.sha.ivIn := by
  obtain ⟨o, inv, ho⟩ := h.base.sha
  obtain ⟨o1, _, _, _⟩ := optFirst_spec m.sha inv.ok m.iKeyPad h.base.ilen false true
  obtain ⟨s1, e3, e1⟩ := o1 rfl
  have inv1 : ShaInv s1 o (Option.map (fun k => (k, iBlock key)) none) := by
    rw [e1]
    exact ⟨⟨inv.ok.k, inv.ok.h, inv.ok.h8⟩, inv.outNone, inv.outSome, inv.innNone, inv.innOpen, inv.innSec, inv.pos⟩
  have hfin := sha256Words_half (iBlock key) (length_iBlock key) msg hm g hg
  rw [h.base.ipad] at e3
  have hin : (concat [] ((plainTail g (firstState (iBlock key)) msg).map fun d => ofNat 32 d.toNat)).reverse
      = SHA256.sha256 (iBlock key ++ bytesBits msg) := by
    have := openBits_eq (plainTail g (firstState (iBlock key)) msg)
    rw [openBits] at this
    rw [this, hfin]; rfl
  obtain ⟨d2, s2, o2, f2, a2, b2, c2, ho2, hiv⟩ := outer_step (m := m) s1 inv1 ho h.base.opad _ _ hin ro
  obtain ⟨_, g2, g3, g4⟩ := digest_frame f2
  have hz : s2.zkIvIn = m.sha.zkIvIn := by rw [g2, e1]
  have hk : s2.zkIn = m.sha.zkIn := by rw [g3, e1]
  refine ⟨d2, { m with sha := s2, shaCalls := m.shaCalls + 2 }, ?_, a2, b2,
    ⟨⟨⟨o2, c2, ho2⟩, h.base.opad, h.base.ipad⟩, ?_, fun e => ?_, fun e => ?_⟩, hz, ?_⟩
  · unfold Hmac.optHmac Sha.optDigest Sha.optUpdate
    simp only [bind, Except.bind, e3, f2]
  · show s2.zpos = BitVec.ofNat 64 s2.zkIvIn.length - 1
    rw [g4, hz, e1, ← h.zpos]
  · show s2.zkIn = false
    rw [hk]; exact h.off e
  · show s2.zkIn = true ∧ s2.zkIvIn ≠ [] ∧ _
    rw [hk]
    have := h.on e
    rw [← hz] at this; exact this
  · show s2.ivIn = _
    rw [hiv, e1]

/-! ### `P_hash` in the proof phase -/

/-- Does the HMAC object hold a recomputed state after a call with flag `ri`? -/
def zAfter (ri z : Bool) : Bool := ri || z

/-- The opened inner state needed by a call with flag `ri` is there and right. -/
def IvReady (m : Hmac) (key : List Bool) (ri z : Bool) : Prop :=
  ri = true → m.sha.zkIvIn.length < 2 ^ 64 ∧ m.sha.ivIn[(zkNext m key z).length - 1]? = some (inState key)

theorem optHmac_zk_any {m : Hmac} {key z ri} (h : ZkInv m key z) (g : List Byte)
    (hg : g.length = 64) (msg : List Byte) (hm : 512 + 8 * msg.length < 2 ^ 64) (ro : Bool) (hw : IvReady m key ri z) :
    ∃ d m', m.optHmac g msg ri ro true = .ok (d, m') ∧ Dig8 d ∧ secBits d = HMAC.hmac key (bytesBits msg)
      ∧ ZkInv m' key (zAfter ri z) ∧ m'.sha.zkIvIn = (if ri then zkNext m key z else m.sha.zkIvIn)
      ∧ m'.sha.ivIn = m.sha.ivIn := by
  cases ri with
  | false => exact optHmac_zk_open h g hg msg hm ro
  | true => exact optHmac_zk h (hw rfl).1 g hg msg hm ro (hw rfl).2

theorem IvReady.next {m m' : Hmac} {key ri z} (hw : IvReady m key ri z) (hz : m'.sha.zkIvIn = (if ri then zkNext m key z else m.sha.zkIvIn))
    (hi : m'.sha.ivIn = m.sha.ivIn) (hb : (zkNext m key z).length < 2 ^ 64) : IvReady m' key ri (zAfter ri z) := by
  intro hr
  subst hr
  simp only [if_true] at hz
  have : zkNext m' key (zAfter true z) = zkNext m key z := by
    rw [← hz]; rfl
  rw [this, hz, hi]
  exact ⟨hb, (hw rfl).2⟩

theorem optPhashLoop_zk (key : List Bool) (g : Nat → List Byte) (hg : ∀ i, (g i).length = 64) (seed : List Byte)
    (hs : seed.length < 2 ^ 60) (ri ro : Bool) :
    ∀ (n i : Nat) (z : Bool) (p : Prf) (m : Hmac) (a : List Byte) (res : Integer) (res0 : List Bool),
    ZkInv m key z → (zkNext m key z).length < 2 ^ 64 → (0 < n → IvReady m key ri z) →
    bytesBits a = HMAC.A key (bytesBits seed) i → res.reverse = res0 ++ HMAC.pHash key (bytesBits seed) i →
    p.zkPos = p.zkSecM.length →
    (∀ j < n, ∃ w, p.pubM[p.zkPos + j]? = some w ∧ wbits w = HMAC.A key (bytesBits seed) (i + 1 + j)) →
    ∃ r m' p', optPhashLoop g seed ri ro true n p m a res = .ok (r, p', m')
      ∧ ZkInv m' key (if n = 0 then z else zAfter ri z)
      ∧ m'.sha.zkIvIn = (if ri && decide (0 < n) then zkNext m key z else m.sha.zkIvIn)
      ∧ m'.sha.ivIn = m.sha.ivIn
      ∧ r.reverse = res0 ++ HMAC.pHash key (bytesBits seed) (i + n)
      ∧ p'.pubM = p.pubM ∧ p'.zkPos = p.zkPos + n ∧ p'.zkPos = p'.zkSecM.length
      ∧ ∀ (q : Nat) (z : Integer) (w : List (BitVec 32)), p'.zkSecM[q]? = some z → p'.pubM[q]? = some w → p.zkSecM[q]? = some z ∨ z = wordsInt w := by
  intro n
  induction n with
  | zero =>
    intro i z p m a res res0 h _ _ ha hr hp _
    exact ⟨res, m, p, rfl, h, by simp, rfl, hr, rfl, rfl, hp, fun q z w h1 _ => Or.inl h1⟩
  | succ n ih =>
    intro i z p m a res res0 h hb hw ha hr hp hlog
    have hw := hw (by omega)
    have hal : 512 + 8 * a.length < 2 ^ 64 := by
      have : (bytesBits a).length = 8 * a.length := length_bytesBits a
      rw [← this, ha]
      cases i with
      | zero => rw [HMAC.A, length_bytesBits]; omega
      | succ i => rw [HMAC.A, length_hmac]; omega
    obtain ⟨d1, m1, e1, a1, b1, h1, z1, i1⟩ := optHmac_zk_any h (g (2 * n + 1)) (hg _) a hal ro hw
    have w1 := hw.next z1 i1 hb
    obtain ⟨w, hw1, hw2⟩ := hlog 0 (by omega)
    rw [Nat.add_zero] at hw1 hw2
    have hA : bytesBits (w.flatMap wordBytes) = HMAC.A key (bytesBits seed) (i + 1) := by
      rw [wordsBytes_bits]; exact hw2
    have hAl : (w.flatMap wordBytes).length = 32 := by
      have := length_bytesBits (w.flatMap wordBytes)
      rw [hA, HMAC.A, length_hmac] at this; omega
    obtain ⟨d2, m2, e2, a2, b2, h2, z2, i2⟩ := optHmac_zk_any h1 (g (2 * n)) (hg _)
      (w.flatMap wordBytes ++ seed) (by rw [List.length_append, hAl]; omega) ro w1
    have hres : (concat res d2).reverse = res0 ++ HMAC.pHash key (bytesBits seed) (i + 1) := by
      have : (concat res d2).reverse = res.reverse ++ secBits d2 := by
        rw [secBits, concat_reverse, concat_reverse]; simp
      rw [this, hr, b2, bytesBits_append, hA, HMAC.pHash, List.append_assoc]
    have hmap : d1.map bv = w := by
      apply wbits_inj
      rw [hw2, HMAC.A, ← ha, ← b1, secBits_eq d1 a1]
    have hnext : zkNext m1 key (zAfter ri z) = if ri then zkNext m key z else zkNext m key z := by
      cases ri with
      | true => simp only [zAfter, Bool.true_or, zkNext, if_true] at z1 ⊢; exact z1
      | false =>
        simp only [zAfter, Bool.false_or, Bool.false_eq_true, if_false] at z1 ⊢
        simp only [zkNext, z1]
    rw [ite_self] at hnext
    have hbz : (zkNext m1 key (zAfter ri z)).length < 2 ^ 64 := by rw [hnext]; exact hb
    have zz : zAfter ri (zAfter ri z) = zAfter ri z := by cases ri <;> simp [zAfter]
    have w2 := w1.next z2 i2 hbz
    have hnext2 : zkNext m2 key (zAfter ri (zAfter ri z)) = zkNext m1 key (zAfter ri z) := by
      cases ri with
      | true => simp only [zAfter, Bool.true_or, zkNext, if_true] at z2 ⊢; exact z2
      | false =>
        simp only [zAfter, Bool.false_or, Bool.false_eq_true, if_false] at z2 ⊢
        simp only [zkNext, z2]
    obtain ⟨r, m', p', e, hm, hz', hi', hr', q1, q2, q3, q4⟩ := ih (i + 1) _
      { p with calls := p.calls + 1 + 1, zkSecM := p.zkSecM ++ [reverseConcat [] d1], zkPos := p.zkPos + 1 }
      m2 (w.flatMap wordBytes) _ res0 h2
      (by rw [hnext2]; exact hbz) (fun _ => w2) hA hres (by simp [hp]) (by
        intro j hj
        obtain ⟨w', hw1', hw2'⟩ := hlog (j + 1) (by omega)
        refine ⟨w', ?_, ?_⟩
        · show p.pubM[p.zkPos + 1 + j]? = _
          rw [← hw1']; congr 1; omega
        · rw [hw2']; congr 1; omega)
    refine ⟨r, m', p', ?_, ?_, ?_, by rw [hi', i2, i1], by rw [hr']; congr 2; omega, q1,
      by rw [q2]; show p.zkPos + 1 + n = _; omega, q3, ?_⟩
    · simp only [optPhashLoop, bind, Except.bind, e1, hw1, Bool.not_true, Bool.false_eq_true, if_false, e2, e]
    · simpa [zz] using hm
    · rw [hz', hnext2, hnext]
      cases ri with
      | false => simp only [Bool.false_and, Bool.false_eq_true, if_false] at z1 z2 ⊢; rw [z2, z1]
      | true =>
        simp only [if_true] at z2
        rw [z2, hnext]; simp
    · intro q zz w' hz hw'
      rcases q4 q zz w' hz hw' with hold | hnew
      · simp only at hold
        by_cases hq : q < p.zkSecM.length
        · left; rw [List.getElem?_append_left hq] at hold; exact hold
        · right
          have hq2 : q = p.zkSecM.length := by
            have := (List.getElem?_eq_some_iff.1 hold).1
            simp at this; omega
          subst hq2
          simp only [List.getElem?_concat_length, Option.some.injEq] at hold
          rw [q1] at hw'
          simp only [← hp, hw1, Option.some.injEq] at hw'
          rw [← hold, ← hw', reverseConcat_wordsInt d1 a1, hmap]
      · right; exact hnew

/-- Backward: a `P_hash` call of the proof phase that returns with agreeing logs had right logs. -/
theorem optPhashLoop_zk_sound (key : List Bool) (g : Nat → List Byte) (hg : ∀ i, (g i).length = 64) (seed : List Byte)
    (hs : seed.length < 2 ^ 60) (ri ro : Bool) :
    ∀ (n i : Nat) (z : Bool) (p : Prf) (m : Hmac) (a : List Byte) (res : Integer) (r p' m'),
    ZkInv m key z → (zkNext m key z).length < 2 ^ 64 →
    bytesBits a = HMAC.A key (bytesBits seed) i → p.zkPos = p.zkSecM.length →
    optPhashLoop g seed ri ro true n p m a res = .ok (r, p', m') → ShaAgree m' → PrfAgree p' →
    (0 < n → IvReady m key ri z)
    ∧ (∀ j < n, ∃ w, p.pubM[p.zkPos + j]? = some w ∧ wbits w = HMAC.A key (bytesBits seed) (i + 1 + j)) := by
  intro n
  induction n with
  | zero => intros; exact ⟨by omega, by omega⟩
  | succ n ih =>
    intro i z p m a res r p' m' h hb ha hp he hA1 hA2
    have hframe := he
    simp only [optPhashLoop, bind, Except.bind] at he
    split at he
    · simp at he
    rename_i v hv
    obtain ⟨t1, m1⟩ := v
    simp only [Bool.not_true, Bool.false_eq_true, if_false] at he
    cases hpub : p.pubM[p.zkPos]? with
    | none => simp [hpub] at he
    | some w =>
    simp only [hpub] at he
    split at he
    · simp at he
    rename_i v2 hv2
    obtain ⟨t2, m2⟩ := v2
    have fr := optPhashLoop_frame _ _ _ _ _ _ _ _ he
    have ag1 : ShaAgree m1 := hA1.mono ((optHmac_frame hv2).trans fr.2)
    have hal : 512 + 8 * a.length < 2 ^ 64 := by
      have : (bytesBits a).length = 8 * a.length := length_bytesBits a
      rw [← this, ha]
      cases i with
      | zero => rw [HMAC.A, length_bytesBits]; omega
      | succ i => rw [HMAC.A, length_hmac]; omega
    have hzl : m.sha.zkIvIn.length < 2 ^ 64 := by
      have : m.sha.zkIvIn.length ≤ (zkNext m key z).length := by unfold zkNext; split <;> simp
      omega
    have hw : IvReady m key ri z := by
      intro hr
      subst hr
      exact ⟨hzl, optHmac_zk_sound h hzl hv ag1⟩
    obtain ⟨d1, m1', e1, a1, b1, h1, z1, i1⟩ := optHmac_zk_any h (g (2 * n + 1)) (hg _) a hal ro hw
    rw [e1] at hv
    simp only [Except.ok.injEq, Prod.mk.injEq] at hv
    obtain ⟨rfl, rfl⟩ := hv
    have w1 := hw.next z1 i1 hb
    have hmap : d1.map bv = w := by
      have hz : p'.zkSecM[p.zkPos]? = some (reverseConcat [] d1) := by
        apply prefix_get fr.1.zk
        simp [hp]
      have := hA2 p.zkPos _ w hz (by rw [fr.1.pub]; exact hpub)
      rw [reverseConcat_wordsInt d1 a1] at this
      have := congrArg List.reverse this
      have e1 := wordsInt_reverse (d1.map bv).reverse
      have e2 := wordsInt_reverse w.reverse
      rw [List.reverse_reverse] at e1 e2
      rw [e1, e2] at this
      exact List.reverse_inj.1 (wbits_inj this)
    have hw2 : wbits w = HMAC.A key (bytesBits seed) (i + 1) := by
      rw [← hmap, HMAC.A, ← ha, ← b1, secBits_eq d1 a1]
    have hA : bytesBits (w.flatMap wordBytes) = HMAC.A key (bytesBits seed) (i + 1) := by
      rw [wordsBytes_bits]; exact hw2
    have hAl : (w.flatMap wordBytes).length = 32 := by
      have := length_bytesBits (w.flatMap wordBytes)
      rw [hA, HMAC.A, length_hmac] at this; omega
    have hnext : zkNext m1' key (zAfter ri z) = zkNext m key z := by
      cases ri with
      | true => simp only [zAfter, Bool.true_or, zkNext, if_true] at z1 ⊢; exact z1
      | false =>
        simp only [zAfter, Bool.false_or, Bool.false_eq_true, if_false] at z1 ⊢
        simp only [zkNext, z1]
    obtain ⟨d2, m2', e2, a2, b2, h2, z2, i2⟩ := optHmac_zk_any h1 (g (2 * n)) (hg _)
      (w.flatMap wordBytes ++ seed) (by rw [List.length_append, hAl]; omega) ro w1
    rw [e2] at hv2
    simp only [Except.ok.injEq, Prod.mk.injEq] at hv2
    obtain ⟨rfl, rfl⟩ := hv2
    have hnext2 : zkNext m2' key (zAfter ri (zAfter ri z)) = zkNext m1' key (zAfter ri z) := by
      cases ri with
      | true => simp only [zAfter, Bool.true_or, zkNext, if_true] at z2 ⊢; exact z2
      | false =>
        simp only [zAfter, Bool.false_or, Bool.false_eq_true, if_false] at z2 ⊢
        simp only [zkNext, z2]
    obtain ⟨_, q2⟩ := ih (i + 1) _ _ _ _ _ _ _ _ h2 (by rw [hnext2, hnext]; exact hb) hA (by simp [hp]) he hA1 hA2
    refine ⟨fun _ => hw, ?_⟩
    intro j hj
    cases j with
    | zero => exact ⟨w, hpub, hw2⟩
    | succ j =>
      obtain ⟨w', u1, u2⟩ := q2 j (by omega)
      refine ⟨w', ?_, ?_⟩
      · rw [← u1]; show p.pubM[_]? = p.pubM[p.zkPos + 1 + j]?; congr 1; omega
      · rw [u2]; congr 1; omega

/-! ### Logs of the first phase -/

theorem optHmac_log {m : Hmac} {key inn} (h : HmacInv m key inn) {g msg ri ro d m'}
    (he : m.optHmac g msg ri ro false = .ok (d, m')) :
    m'.sha.zkIvIn = m.sha.zkIvIn ∧ m'.sha.zpos = m.sha.zpos
      ∧ m'.sha.ivIn = m.sha.ivIn ++ (if ri && inn.isNone then [inState key] else []) := by
  obtain ⟨o, inv, ho⟩ := h.sha
  have hb : blockAt m.iKeyPad.reverse 0 = m.iKeyPad.reverse := by
    simp [blockAt]; rw [List.take_of_length_le (by simp [h.ilen])]
  have hgood : firstState m.iKeyPad.reverse = inState key := by
    rw [firstState_eq, hb, h.ipad]; rfl
  unfold Hmac.optHmac Sha.optDigest Sha.optUpdate at he
  simp only [bind, Except.bind] at he
  cases h1 : m.sha.optFirst m.iKeyPad ri false with
  | error e => simp [h1] at he
  | ok q =>
    obtain ⟨dig, s1⟩ := q
    simp only [h1] at he
    split at he
    · simp at he
    rename_i v hv
    obtain ⟨d2, s2⟩ := v
    simp only [Except.ok.injEq, Prod.mk.injEq] at he
    obtain ⟨_, rfl⟩ := he
    obtain ⟨b1, b2, _, b4⟩ := digest_frame hv
    show s2.zkIvIn = _ ∧ s2.zpos = _ ∧ s2.ivIn = _
    rw [b1, b2, b4]
    obtain ⟨o1, o2, o3, _⟩ := optFirst_spec m.sha inv.ok m.iKeyPad h.ilen ri false
    cases ri with
    | false =>
      obtain ⟨s', f1, f2⟩ := o1 rfl
      rw [h1] at f1
      simp only [Except.ok.injEq, Prod.mk.injEq] at f1
      obtain ⟨_, rfl⟩ := f1
      rw [f2]; simp
    | true =>
      cases inn with
      | none =>
        obtain ⟨s', f1, f2⟩ := o2 rfl rfl (inv.innNone rfl)
        rw [h1] at f1
        simp only [Except.ok.injEq, Prod.mk.injEq] at f1
        obtain ⟨_, rfl⟩ := f1
        rw [f2, hgood]; simp
      | some k =>
        have hgc : m.sha.gcIn = true := by
          cases k with
          | false => exact (inv.innOpen _ rfl).1
          | true => exact (inv.innSec _ rfl).1
        have f1 := o3 rfl rfl hgc
        rw [h1] at f1
        split at f1
        · simp only [Except.ok.injEq, Prod.mk.injEq] at f1
          obtain ⟨_, rfl⟩ := f1
          simp
        · simp at f1

theorem init_frame {m m' : Hmac} {k} (h : m.init k = .ok m') :
    m'.sha.ivIn = m.sha.ivIn ∧ m'.sha.zkIvIn = m.sha.zkIvIn ∧ m'.sha.zpos = m.sha.zpos ∧ m'.sha.zkIn = false := by
  unfold Hmac.init at h
  simp only [bind, Except.bind] at h
  by_cases hl : k.length > 512
  · simp only [hl, if_true] at h
    cases hd : m.sha.refresh.digest k with
    | error e => simp [hd] at h
    | ok q =>
      obtain ⟨d, s'⟩ := q
      simp only [hd, Except.ok.injEq] at h
      subst h
      obtain ⟨b1, b2, b3, b4⟩ := digest_frame hd
      exact ⟨b1, b2, b4, b3⟩
  · simp only [hl, if_false, Except.ok.injEq] at h
    subst h
    exact ⟨rfl, rfl, rfl, rfl⟩

theorem optPhashLoop_log (key : List Bool) (g : Nat → List Byte) (hg : ∀ i, (g i).length = 64) (seed : List Byte)
    (ri ro : Bool) :
    ∀ (n : Nat) (inn : Option Bool) (p : Prf) (m : Hmac) (a : List Byte) (res : Integer) (r p' m'),
    HmacInv m key inn → (ri = true → inn ≠ some true) → m.sha.ivIn.length + 2 * n ≤ 2 ^ 64 →
    512 + 8 * a.length < 2 ^ 64 → seed.length < 2 ^ 60 →
    optPhashLoop g seed ri ro false n p m a res = .ok (r, p', m') →
    m'.sha.zkIvIn = m.sha.zkIvIn ∧ m'.sha.zpos = m.sha.zpos
      ∧ m'.sha.ivIn = m.sha.ivIn ++ (if ri && inn.isNone && decide (0 < n) then [inState key] else []) := by
  intro n
  induction n with
  | zero =>
    intro inn p m a res r p' m' _ _ _ _ _ h
    simp only [optPhashLoop, Except.ok.injEq, Prod.mk.injEq] at h
    obtain ⟨_, _, rfl⟩ := h
    simp
  | succ n ih =>
    intro inn p m a res r p' m' h hc hsz hal hs he
    obtain ⟨d1, m1, e1, a1, b1, h1, l1⟩ := optHmac_step h (g (2 * n + 1)) (hg _) a hal (by omega) ri ro hc
    have hAl : ((revealWords d1).flatMap wordBytes).length = 32 := by
      have hA : bytesBits ((revealWords d1).flatMap wordBytes) = HMAC.hmac key (bytesBits a) := by
        rw [wordsBytes_bits, revealWords_eq d1 a1, ← secBits_eq d1 a1, b1]
      have := length_bytesBits ((revealWords d1).flatMap wordBytes)
      rw [hA, length_hmac] at this; omega
    obtain ⟨d2, m2, e2, a2, b2, h2, l2⟩ := optHmac_step h1 (g (2 * n)) (hg _)
      ((revealWords d1).flatMap wordBytes ++ seed) (by rw [List.length_append, hAl]; omega) (by omega) ri ro
      (by cases ri <;> simp_all)
    obtain ⟨q1, q2, q3⟩ := optHmac_log h e1
    obtain ⟨r1, r2, r3⟩ := optHmac_log h1 e2
    simp only [optPhashLoop, bind, Except.bind, e1, Bool.not_false, if_true, e2] at he
    obtain ⟨t1, t2, t3⟩ := ih _ _ _ _ _ _ _ _ h2 (by cases ri <;> simp_all) (by omega) (by rw [hAl]; decide) hs he
    refine ⟨by rw [t1, r1, q1], by rw [t2, r2, q2], ?_⟩
    rw [t3, r3, q3]
    cases ri <;> cases inn <;> simp

theorem ShaAgree.next {m m' : Hmac} {key z} (h : ShaAgree m) (hz : m'.sha.zkIvIn = zkNext m key z)
    (hi : m'.sha.ivIn = m.sha.ivIn) (hw : m.sha.ivIn[(zkNext m key z).length - 1]? = some (inState key)) :
    ShaAgree m' := by
  intro i x w hx hw'
  rw [hz] at hx
  rw [hi] at hw'
  unfold zkNext at hx hw
  cases z with
  | true => exact h i x w (by simpa using hx) hw'
  | false =>
    simp only [Bool.false_eq_true, if_false] at hx hw
    by_cases hq : i < m.sha.zkIvIn.length
    · rw [List.getElem?_append_left hq] at hx; exact h i x w hx hw'
    · have hq2 : i = m.sha.zkIvIn.length := by
        have := (List.getElem?_eq_some_iff.1 hx).1
        simp at this; omega
      subst hq2
      simp only [List.getElem?_concat_length, Option.some.injEq] at hx
      simp only [List.length_append, List.length_cons, List.length_nil, Nat.zero_add, Nat.add_sub_cancel, hw',
        Option.some.injEq] at hw
      rw [← hx, ← hw]

theorem IvReady.of_agree {m : Hmac} {key ri z} (h : ZkInv m key z) (ha : ShaAgree m) (hl : m.sha.zkIvIn.length < 2 ^ 64)
    (hle : m.sha.zkIvIn.length ≤ m.sha.ivIn.length)
    (hn : ri = true → z = false → m.sha.ivIn[m.sha.zkIvIn.length]? = some (inState key)) : IvReady m key ri z := by
  intro hr
  refine ⟨hl, ?_⟩
  cases z with
  | false => simpa [zkNext] using hn hr rfl
  | true =>
    obtain ⟨n1, n2⟩ := zkNext_last h
    have e : zkNext m key true = m.sha.zkIvIn := rfl
    rw [e] at n1 n2 ⊢
    cases hw : m.sha.ivIn[m.sha.zkIvIn.length - 1]? with
    | none => rw [List.getElem?_eq_none_iff] at hw; omega
    | some w =>
      have := congrArg List.reverse (ha _ _ _ n2 hw)
      rw [wordsInt_reverse, wordsInt_reverse] at this
      rw [wbits_inj this]

theorem drop_range {α β : Type} (f : α → β) (l : List α) (k n : Nat) (h : Nat → β) (rest : List β)
    (e : (l.drop k).map f = (List.range n).map h ++ rest) :
    (∀ j < n, ∃ w, l[k + j]? = some w ∧ f w = h j) ∧ (l.drop (k + n)).map f = rest := by
  constructor
  · intro j hj
    have := congrArg (fun t => t[j]?) e
    simp only [List.getElem?_map, List.getElem?_drop] at this
    rw [List.getElem?_append_left (by simpa using hj)] at this
    rw [List.getElem?_map, List.getElem?_range hj] at this
    cases hw : l[k + j]? with
    | none => simp [hw] at this
    | some w => exact ⟨w, rfl, by simpa [hw] using this⟩
  · have := congrArg (List.drop n) e
    rw [← List.map_drop, List.drop_drop] at this
    rw [this, List.drop_append_of_le_length (by simp)]
    rw [List.drop_of_length_le (by simp)]; rfl

theorem range_drop {α β : Type} (f : α → β) (l : List α) (k n : Nat) (h : Nat → β) (rest : List β)
    (e : ∀ j < n, ∃ w, l[k + j]? = some w ∧ f w = h j) (e2 : (l.drop (k + n)).map f = rest) :
    (l.drop k).map f = (List.range n).map h ++ rest := by
  apply List.ext_getElem?
  intro j
  by_cases hj : j < n
  · obtain ⟨w, h1, h2⟩ := e j hj
    rw [List.getElem?_append_left (by simpa using hj), List.getElem?_map, List.getElem?_drop, h1, List.getElem?_map,
      List.getElem?_range hj]
    simp [h2]
  · rw [List.getElem?_append_right (by simpa using hj), ← e2, List.getElem?_map, List.getElem?_map, List.getElem?_drop,
      List.getElem?_drop]
    simp only [List.length_map, List.length_range]
    congr 2; omega

/-! ### The final checks -/

theorem foldlM_checks (l : List (Res Bool)) : ∀ (a : Bool),
    l.foldlM (fun ok (x : Res Bool) => do let b ← x; Except.ok (ok && b)) a = (Except.ok true : Res Bool)
      ↔ a = true ∧ ∀ x ∈ l, x = .ok true := by
  induction l with
  | nil => intro a; simp [pure, Except.pure]
  | cons x xs ih =>
    intro a
    rw [List.foldlM_cons]
    cases x with
    | error e => simp [bind, Except.bind]
    | ok b =>
      have := ih (a && b)
      simp only [bind, Except.bind] at this ⊢
      rw [this]
      simp; tauto

theorem checkZeroWords_iff (x : Integer) (w : List (BitVec 32)) : checkZeroWords x w = .ok true ↔ x = wordsInt w := by
  unfold checkZeroWords
  split
  · rename_i hl
    constructor
    · intro h; simp at h
    · rintro rfl; exact absurd (length_wordsInt w) hl
  · simp

theorem Sha.check_iff (s : Sha) : s.check = .ok true ↔ s.ivIn.length ≤ s.zkIvIn.length
    ∧ ∀ (i : Nat) (z : Integer) (w : List (BitVec 32)), s.zkIvIn[i]? = some z → s.ivIn[i]? = some w → z = wordsInt w.reverse := by
  have key : s.check = ((List.range s.ivIn.length).map fun i =>
      (match s.zkIvIn[i]?, s.ivIn[i]? with
      | some z, some w => checkZeroWords z w.reverse
      | _, _ => (.error (.ub "sha256_check: zk_iv_in_hashes[i] out of range") : Res Bool))).foldlM
        (fun ok (x : Res Bool) => do let b ← x; Except.ok (ok && b)) true := by
    unfold Sha.check
    rw [List.foldlM_map]
    congr 1
    funext ok i
    cases s.zkIvIn[i]? <;> cases s.ivIn[i]? <;> rfl
  rw [key, foldlM_checks]
  simp only [true_and, List.mem_map, List.mem_range, forall_exists_index, and_imp, forall_apply_eq_imp_iff₂]
  constructor
  · intro h
    constructor
    · by_contra hh
      have := h s.zkIvIn.length (by omega)
      rw [List.getElem?_eq_none (Nat.le_refl _)] at this
      simp at this
    · intro i z w hz hw
      have := h i (List.getElem?_eq_some_iff.1 hw).1
      simp only [hz, hw] at this
      exact (checkZeroWords_iff _ _).1 this
  · rintro ⟨h1, h2⟩ i hi
    obtain ⟨z, hz⟩ : ∃ z, s.zkIvIn[i]? = some z := ⟨_, List.getElem?_eq_getElem (by omega)⟩
    obtain ⟨w, hw⟩ : ∃ w, s.ivIn[i]? = some w := ⟨_, List.getElem?_eq_getElem hi⟩
    simp only [hz, hw]
    exact (checkZeroWords_iff _ _).2 (h2 i z w hz hw)

theorem Prf.check_iff (p : Prf) : p.check = .ok true ↔ p.pubM.length = p.zkSecM.length ∧ PrfAgree p := by
  unfold Prf.check Prf.checkPairs
  by_cases hl : p.pubM.length = p.zkSecM.length
  · simp only [hl, ne_eq, not_true_eq_false, if_false, true_and]
    have key : (p.zkSecM.zip p.pubM).foldlM (fun ok q => do
        let b ← checkZeroWords q.1 q.2
        Except.ok (ok && b)) true
        = ((p.zkSecM.zip p.pubM).map fun q => checkZeroWords q.1 q.2).foldlM
          (fun ok (x : Res Bool) => do let b ← x; Except.ok (ok && b)) true := by
      rw [List.foldlM_map]
    have k2 := foldlM_checks ((p.zkSecM.zip p.pubM).map fun q => checkZeroWords q.1 q.2) true
    rw [← key] at k2
    simp only [bind, Except.bind] at k2 ⊢
    rw [k2]
    simp only [true_and, List.forall_mem_map, Prod.forall]
    constructor
    · intro h i z w hz hw
      have : (z, w) ∈ p.zkSecM.zip p.pubM := by
        apply List.mem_of_getElem? (i := i)
        rw [List.getElem?_zip_eq_some]; exact ⟨hz, hw⟩
      exact (checkZeroWords_iff _ _).1 (h z w this)
    · intro h z w hm
      obtain ⟨i, hi⟩ := List.mem_iff_getElem?.1 hm
      rw [List.getElem?_zip_eq_some] at hi
      exact (checkZeroWords_iff _ _).2 (h i z w hi.1 hi.2)
  · simp [hl, bind, Except.bind]

theorem handshakeCheck_iff (p : Prf) (m : Hmac) : handshakeCheck p m = .ok true ↔
    p.pubM.length = p.zkSecM.length ∧ PrfAgree p ∧ m.sha.ivIn.length ≤ m.sha.zkIvIn.length ∧ ShaAgree m := by
  have e : handshakeCheck p m = .ok true ↔ p.check = .ok true ∧ m.sha.check = .ok true := by
    unfold handshakeCheck
    simp only [bind, Except.bind]
    cases p.check <;> cases m.sha.check <;> simp
  rw [e, Prf.check_iff, Sha.check_iff, and_assoc]; rfl

end Verif.Lemmas
