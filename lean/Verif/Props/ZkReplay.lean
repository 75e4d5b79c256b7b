import Verif.Lemmas.ZkReplay
import Verif.Props.PRF

/-! C45: every hash opened during the handshake is recomputed and checked in the proof phase. -/

namespace Verif.Props
open Verif.Model Verif.Model.Integer Verif.Model.SHA Verif.Lemmas
open Verif.Spec Verif.Spec.Encoding

/-- The calls made by `HandShake` without rounds optimisation: `init` and `opt_compute`. -/
def Replayable : PrfOp → Prop
  | .init _ => True
  | .optCompute _ _ _ _ _ _ => True
  | _ => False

/-- The `A(i)` values a history should open, as bit strings. -/
def openedA : List Bool → List PrfOp → List (List Bool)
  | _, [] => []
  | _, .init k :: ops => openedA k.reverse ops
  | key, .optCompute _ b l s _ _ :: ops =>
    ((List.range (b / 256 + 1)).map fun j => HMAC.A key (bytesBits l ++ bytesBits s) (1 + j)) ++ openedA key ops
  | key, _ :: ops => openedA key ops

/-- SHA-256 state after the inner key block of HMAC. -/
def innerState (key : List Bool) : List SHA256.Word :=
  SHA256.compress SHA256.H0 (SHA256.blockWords (HMAC.xorBits (HMAC.blockKey key) (HMAC.padString 0x36)))

/-- The inner states a history should open; `z`: already opened for this key. -/
def openedIv : List Bool → Bool → List PrfOp → List (List SHA256.Word)
  | _, _, [] => []
  | _, _, .init k :: ops => openedIv k.reverse false ops
  | key, z, .optCompute _ _ _ _ ri _ :: ops => (if ri && !z then [innerState key] else []) ++ openedIv key (ri || z) ops
  | key, z, _ :: ops => openedIv key z ops

/-- The proof phase keeps the opened values and only appends to the recomputed ones. -/
theorem runZk_mono : ∀ (ops : List PrfOp) (p : Prf) (m : Hmac) (os p' m'), (∀ op ∈ ops, Replayable op) →
    p.runZk m ops = .ok (os, p', m') → PExt p p' ∧ HExt m m' := by
  intro ops
  induction ops with
  | nil =>
    intro p m os p' m' _ he
    simp only [Prf.runZk, Except.ok.injEq, Prod.mk.injEq] at he
    obtain ⟨_, rfl, rfl⟩ := he
    exact ⟨.refl _, .refl _⟩
  | cons op ops ih2 =>
    intro p m os p' m' hr he
    simp only [Prf.runZk, bind, Except.bind] at he
    split at he
    · simp at he
    rename_i v1 hv1
    obtain ⟨o, p1, m1⟩ := v1
    simp only at he
    split at he
    · simp at he
    rename_i v2 hv2
    obtain ⟨os', p2, m2⟩ := v2
    simp only [Except.ok.injEq, Prod.mk.injEq] at he
    obtain ⟨_, rfl, rfl⟩ := he
    obtain ⟨a1, a2⟩ := ih2 _ _ _ _ _ (fun o ho => hr o (by simp [ho])) hv2
    have hr0 := hr op (by simp)
    cases op with
    | compute => exact hr0.elim
    | optRounds => exact hr0.elim
    | init k =>
      simp only [Prf.stepZk, Prf.step, Prf.init, bind, Except.bind] at hv1
      cases hi : m.init k with
      | error e => simp [hi] at hv1
      | ok mm =>
        simp only [hi, Except.ok.injEq, Prod.mk.injEq] at hv1
        obtain ⟨_, rfl, rfl⟩ := hv1
        obtain ⟨f1, f2, f3, f4⟩ := init_frame hi
        exact ⟨⟨a1.pub, a1.zk⟩, ⟨by rw [a2.iv, f1], by rw [← f2]; exact a2.zk⟩⟩
    | optCompute g b l s ri ro =>
      simp only [Prf.stepZk, Prf.optCompute, Prf.optPhash, bind, Except.bind] at hv1
      split at hv1
      · simp at hv1
      rename_i w1 hw1
      split at hw1
      · simp at hw1
      rename_i w2 hw2
      obtain ⟨r, pa, ma⟩ := w2
      simp only [Except.ok.injEq] at hw1
      subst hw1
      simp only [Except.ok.injEq, Prod.mk.injEq] at hv1
      obtain ⟨_, rfl, rfl⟩ := hv1
      obtain ⟨b1, b2⟩ := optPhashLoop_frame _ _ _ _ _ _ _ _ hw2
      exact ⟨b1.trans a1, b2.trans a2⟩

theorem zk_run_sound (ops : List PrfOp) : ∀ (p : Prf) (m : Hmac) (key z) (os p' m'),
    ZkInv m key z → (∀ op ∈ ops, PrfOp.Valid op ∧ Replayable op) → m.sha.zkIvIn.length + ops.length < 2 ^ 64 →
    p.zkPos = p.zkSecM.length →
    p.runZk m ops = .ok (os, p', m') → ShaAgree m' → PrfAgree p' →
    os = prfExpected key ops ∧ PExt p p' ∧ HExt m m'
      ∧ (p'.zkSecM.length = p.pubM.length → (p.pubM.drop p.zkPos).map wbits = openedA key ops)
      ∧ (m.sha.ivIn.length ≤ m'.sha.zkIvIn.length → m.sha.ivIn.drop m.sha.zkIvIn.length = openedIv key z ops) := by
  induction ops with
  | nil =>
    intro p m key z os p' m' h _ _ hp he _ _
    simp only [Prf.runZk, Except.ok.injEq, Prod.mk.injEq] at he
    obtain ⟨rfl, rfl, rfl⟩ := he
    refine ⟨rfl, .refl _, .refl _, fun hl => ?_, fun hl => ?_⟩
    · rw [List.drop_of_length_le (by omega)]; rfl
    · rw [List.drop_of_length_le (by omega)]; rfl
  | cons op ops ih =>
    intro p m key z os p' m' h hv hl hp he hA hB
    obtain ⟨hv0, hr0⟩ := hv op (by simp)
    have hvr : ∀ op ∈ ops, PrfOp.Valid op ∧ Replayable op := fun o ho => hv o (by simp [ho])
    simp only [Prf.runZk, bind, Except.bind] at he
    split at he
    · simp at he
    rename_i v1 hv1
    obtain ⟨o, p1, m1⟩ := v1
    simp only at he
    split at he
    · simp at he
    rename_i v2 hv2
    obtain ⟨os', p2, m2⟩ := v2
    simp only [Except.ok.injEq, Prod.mk.injEq] at he
    obtain ⟨rfl, rfl, rfl⟩ := he
    rw [List.length_cons] at hl
    cases op with
    | compute => exact hr0.elim
    | optRounds => exact hr0.elim
    | init k =>
      obtain ⟨o', inv, _⟩ := h.base.sha
      obtain ⟨m1', e1, h1, l1⟩ := init_step m inv.pos k hv0
      obtain ⟨f1, f2, f3, f4⟩ := init_frame e1
      simp only [Prf.stepZk, Prf.step, Prf.init, bind, Except.bind, e1, Except.ok.injEq, Prod.mk.injEq] at hv1
      obtain ⟨rfl, rfl, rfl⟩ := hv1
      have z1 : ZkInv m1' k.reverse false := ⟨h1, by rw [f2, f3]; exact h.zpos, fun _ => f4, by simp⟩
      obtain ⟨q1, q2, q3, q4, q5⟩ := ih { p with calls := 0 } _ _ _ _ _ _ z1 hvr (by rw [f2]; omega) hp hv2 hA hB
      rw [f1, f2] at q5
      exact ⟨by rw [q1]; rfl, ⟨q2.pub, q2.zk⟩, ⟨by rw [q3.iv, f1], by rw [← f2]; exact q3.zk⟩, q4, q5⟩
    | optCompute g b l s ri ro =>
      obtain ⟨hg, hs⟩ := hv0
      simp only [Prf.stepZk, Prf.optCompute, Prf.optPhash, bind, Except.bind] at hv1
      split at hv1
      · simp at hv1
      rename_i w1 hw1
      split at hw1
      · simp at hw1
      rename_i w2 hw2
      obtain ⟨r, pa, ma⟩ := w2
      simp only [Except.ok.injEq] at hw1
      subst hw1
      simp only [Except.ok.injEq, Prod.mk.injEq] at hv1
      obtain ⟨rfl, rfl, rfl⟩ := hv1
      have hblk : prfBlocks b = b / 256 + 1 := rfl
      have hb : (zkNext m key z).length < 2 ^ 64 := by
        unfold zkNext; split <;> simp <;> omega
      obtain ⟨x1, x2⟩ := runZk_mono ops _ _ _ _ _ (fun o ho => (hvr o ho).2) hv2
      obtain ⟨s1, s2⟩ := optPhashLoop_zk_sound key g hg (l ++ s) (by rw [List.length_append]; omega) ri ro
        (prfBlocks b) 0 z p m (l ++ s) [] _ _ _ h hb rfl hp hw2 (hA.mono x2) (hB.mono x1)
      obtain ⟨r', m1', p1', e1, h1, y1, y2, y3, y4, y5, y6, _⟩ := optPhashLoop_zk key g hg (l ++ s)
        (by rw [List.length_append]; omega) ri ro
        (prfBlocks b) 0 z p m (l ++ s) [] [] h hb s1 rfl (by simp [HMAC.pHash]) hp s2
      rw [e1] at hw2
      simp only [Except.ok.injEq, Prod.mk.injEq] at hw2
      obtain ⟨rfl, rfl, rfl⟩ := hw2
      have hri : (decide (0 < prfBlocks b)) = true := by simp [hblk]
      rw [hri, Bool.and_true] at y1
      have h1' : ZkInv m1' key (ri || z) := by simpa [hblk, zAfter] using h1
      have hlen : m1'.sha.zkIvIn.length ≤ m.sha.zkIvIn.length + 1 := by
        rw [y1]; unfold zkNext; split
        · split <;> simp
        · simp
      obtain ⟨q1, q2, q3, q4, q5⟩ := ih _ _ _ _ _ _ _ h1' hvr (by omega) y6 hv2 hA hB
      refine ⟨?_, (PExt.mk y4 ?_).trans q2, (HExt.mk y2 ?_).trans q3, fun hl2 => ?_, fun hl2 => ?_⟩
      · rw [q1]
        have e2 := prfTrunc_spec key (bytesBits l) (bytesBits s) [] r' b (by
          rw [y3, Nat.zero_add, bytesBits_append]; rfl)
        rw [e2]; rfl
      · exact (optPhashLoop_frame _ _ _ _ _ _ _ _ e1).1.zk
      · exact (optPhashLoop_frame _ _ _ _ _ _ _ _ e1).2.zk
      · have q4 := q4 (by rw [y4]; exact hl2)
        rw [y4, y5] at q4
        rw [openedA]
        apply range_drop wbits p.pubM p.zkPos (b / 256 + 1) _ _ _ q4
        intro j hj
        obtain ⟨w, u1, u2⟩ := s2 j (by rw [hblk]; exact hj)
        exact ⟨w, u1, by rw [u2, bytesBits_append]⟩
      · have q5 := q5 (by rw [y2]; exact hl2)
        rw [y2, y1] at q5
        rw [openedIv, ← q5]
        cases ri with
        | false => simp
        | true =>
          cases z with
          | true => simp [zkNext]
          | false =>
            have := (s1 (by simp [hblk]) rfl).2
            simp only [zkNext, Bool.false_eq_true, if_false, List.length_append, List.length_cons, List.length_nil,
              Nat.zero_add, Nat.add_sub_cancel] at this
            simp only [if_true, zkNext, Bool.false_eq_true, if_false, List.length_append, List.length_cons, List.length_nil,
              Nat.zero_add, Bool.not_false, Bool.and_self, List.singleton_append]
            obtain ⟨hi, hi2⟩ := List.getElem?_eq_some_iff.1 this
            rw [List.drop_eq_getElem_cons hi, hi2]; rfl

/-- An object at the start of the proof phase: whatever was opened before, nothing recomputed yet. -/
structure ProofStart (p : Prf) (m : Hmac) : Prop where
  zkSecM : p.zkSecM = []
  zkPos : p.zkPos = 0
  zkIvIn : m.sha.zkIvIn = []
  zpos : m.sha.zpos = -1
  pos : m.sha.pos = BitVec.ofNat 64 m.sha.ivIn.length - 1

/-- **C45, soundness.**  Whatever values were recorded as opened in the first phase (the lists `pub_M` and
`iv_in_hashes` are arbitrary), if the proof phase runs through and `handshake_check` accepts, then every value the proof
phase derived is the TLS 1.2 PRF value of the committed secrets, the opened `A(i)` are exactly the `A(i)` of the calls
in order, and the opened inner states are exactly the inner HMAC states, one per key, in order: nothing opened is left
unchecked and nothing wrong passes. -/
theorem C45_sound (p p' : Prf) (m m' : Hmac) (hst : ProofStart p m) (key : Integer) (hk : key.length < 2 ^ 63)
    (ops : List PrfOp) (hv : ∀ op ∈ ops, PrfOp.Valid op ∧ Replayable op) (hl : ops.length < 2 ^ 64) (os)
    (he : p.runZk m (.init key :: ops) = .ok (os, p', m')) (hc : handshakeCheck p' m' = .ok true) :
    os = none :: prfExpected key.reverse ops
      ∧ p.pubM.map (fun w => w.flatMap SHA256.wordBits) = openedA key.reverse ops
      ∧ m.sha.ivIn = openedIv key.reverse false ops := by
  obtain ⟨c1, c2, c3, c4⟩ := (handshakeCheck_iff p' m').1 hc
  obtain ⟨m1, e1, h1, l1⟩ := init_step m hst.pos key hk
  obtain ⟨f1, f2, f3, f4⟩ := init_frame e1
  simp only [Prf.runZk, Prf.stepZk, Prf.step, Prf.init, bind, Except.bind, e1] at he
  split at he
  · simp at he
  rename_i v2 hv2
  obtain ⟨os', p2, m2⟩ := v2
  simp only [Except.ok.injEq, Prod.mk.injEq] at he
  obtain ⟨rfl, rfl, rfl⟩ := he
  have z1 : ZkInv m1 key.reverse false :=
    ⟨h1, by rw [f2, f3, hst.zkIvIn, hst.zpos]; decide, fun _ => f4, by simp⟩
  obtain ⟨q1, q2, q3, q4, q5⟩ := zk_run_sound ops { p with calls := 0 } _ _ _ _ _ _ z1 hv (by rw [f2, hst.zkIvIn]; simpa using hl)
    (by show p.zkPos = p.zkSecM.length; rw [hst.zkSecM, hst.zkPos]; rfl) hv2 c4 c2
  refine ⟨by rw [q1], ?_, ?_⟩
  · have := q4 (by rw [← c1, q2.pub])
    rw [← this]
    show _ = (p.pubM.drop p.zkPos).map wbits
    rw [hst.zkPos]; rfl
  · have := q5 (by rw [← q3.iv]; exact c3)
    rw [← this, f1, f2, hst.zkIvIn]; rfl

/-- The key installed after a history. -/
def keyAfter : List Bool → List PrfOp → List Bool
  | key, [] => key
  | _, .init k :: ops => keyAfter k.reverse ops
  | key, _ :: ops => keyAfter key ops

/-- Whether the inner state of that key has been used. -/
def seenAfter : Bool → List PrfOp → Bool
  | z, [] => z
  | _, .init _ :: ops => seenAfter false ops
  | z, .optCompute _ _ _ _ ri _ :: ops => seenAfter (ri || z) ops
  | z, _ :: ops => seenAfter z ops

/-- A proof phase where the opened values are those of the history and `RA`, `RI` more. -/
theorem zk_run_prefix (ops : List PrfOp) (RA : List (List Bool)) (RI : List (List SHA256.Word)) : ∀ (p : Prf) (m : Hmac) (key z),
    ZkInv m key z → (∀ op ∈ ops, PrfOp.Valid op ∧ Replayable op) → m.sha.ivIn.length + 1 < 2 ^ 64 →
    p.zkPos = p.zkSecM.length → p.zkPos ≤ p.pubM.length → m.sha.zkIvIn.length ≤ m.sha.ivIn.length →
    (p.pubM.drop p.zkPos).map wbits = openedA key ops ++ RA → m.sha.ivIn.drop m.sha.zkIvIn.length = openedIv key z ops ++ RI →
    ShaAgree m → PrfAgree p →
    ∃ p' m', p.runZk m ops = .ok (prfExpected key ops, p', m') ∧ p'.zkPos = p'.zkSecM.length ∧ p'.zkPos ≤ p'.pubM.length
      ∧ m'.sha.zkIvIn.length ≤ m'.sha.ivIn.length ∧ p'.pubM = p.pubM ∧ (p'.pubM.drop p'.zkPos).map wbits = RA
      ∧ m'.sha.ivIn.drop m'.sha.zkIvIn.length = RI ∧ ShaAgree m' ∧ PrfAgree p'
      ∧ m'.sha.ivIn = m.sha.ivIn ∧ ZkInv m' (keyAfter key ops) (seenAfter z ops) := by
  induction ops with
  | nil =>
    intro p m key z h _ _ hp hp2 hm2 h1 h2 ha hb
    exact ⟨p, m, rfl, hp, hp2, hm2, rfl, h1, h2, ha, hb, rfl, h⟩
  | cons op ops ih =>
    intro p m key z h hv hl hp hp2 hm2 hM hI hA hB
    obtain ⟨hv0, hr0⟩ := hv op (by simp)
    have hvr : ∀ op ∈ ops, PrfOp.Valid op ∧ Replayable op := fun o ho => hv o (by simp [ho])
    cases op with
    | compute => exact hr0.elim
    | optRounds => exact hr0.elim
    | init k =>
      obtain ⟨o', inv, _⟩ := h.base.sha
      obtain ⟨m1, e1, h1, l1⟩ := init_step m inv.pos k hv0
      obtain ⟨f1, f2, f3, f4⟩ := init_frame e1
      have z1 : ZkInv m1 k.reverse false := ⟨h1, by rw [f2, f3]; exact h.zpos, fun _ => f4, by simp⟩
      obtain ⟨p', m', q1, q2, q3, q4, q5, q6, q7, q8, q9, q10, q11⟩ := ih { p with calls := 0 } m1 _ _ z1 hvr (by rw [f1]; exact hl) hp hp2
        (by rw [f1, f2]; exact hm2) hM (by rw [f1, f2]; exact hI)
        (fun i x w hx hw => hA i x w (by rw [← f2]; exact hx) (by rw [← f1]; exact hw)) hB
      refine ⟨p', m', ?_, q2, q3, q4, q5, q6, q7, q8, q9, by rw [q10, f1], q11⟩
      simp only [Prf.runZk, Prf.stepZk, Prf.step, Prf.init, bind, Except.bind, e1, q1]; rfl
    | optCompute g b l s ri ro =>
      obtain ⟨hg, hs⟩ := hv0
      rw [openedA, List.append_assoc] at hM
      rw [openedIv, List.append_assoc] at hI
      have hblk : prfBlocks b = b / 256 + 1 := rfl
      obtain ⟨M1, M2⟩ := drop_range wbits p.pubM p.zkPos (b / 256 + 1) _ _ hM
      have hready : IvReady m key ri z := by
        apply IvReady.of_agree h hA (by omega) hm2
        intro hr hz
        subst hr hz
        simp only [Bool.not_false, Bool.and_self, if_true, List.singleton_append] at hI
        have := congrArg (fun t => t[0]?) hI
        simp only [List.getElem?_drop, Nat.add_zero, List.getElem?_cons_zero] at this
        exact this
      have hnl : ri = true → (zkNext m key z).length ≤ m.sha.ivIn.length := by
        intro hr
        have := (List.getElem?_eq_some_iff.1 (hready hr).2).1
        omega
      have hb : (zkNext m key z).length < 2 ^ 64 := by
        unfold zkNext; split <;> simp <;> omega
      obtain ⟨r, m1, p1, e1, h1, y1, y2, y3, y4, y5, y6, y7⟩ := optPhashLoop_zk key g hg (l ++ s)
        (by rw [List.length_append]; omega) ri ro
        (prfBlocks b) 0 z p m (l ++ s) [] [] h hb (fun _ => hready) rfl (by simp [HMAC.pHash]) hp (by
          intro j hj
          obtain ⟨w, u1, u2⟩ := M1 j (by rw [← hblk]; exact hj)
          exact ⟨w, u1, by rw [bytesBits_append, u2]⟩)
      have hri : (decide (0 < prfBlocks b)) = true := by simp [hblk]
      rw [hri, Bool.and_true] at y1
      have h1' : ZkInv m1 key (ri || z) := by simpa [hblk, zAfter] using h1
      have hA1 : ShaAgree m1 := by
        cases ri with
        | true => exact hA.next (by simpa using y1) y2 (hready rfl).2
        | false =>
          simp only [Bool.false_eq_true, if_false] at y1
          exact fun i x w hx hw => hA i x w (by rw [← y1]; exact hx) (by rw [← y2]; exact hw)
      have hB1 : PrfAgree p1 := by
        intro q x w hx hw
        rcases y7 q x w hx hw with ho | hn
        · exact hB q x w ho (by rw [← y4]; exact hw)
        · exact hn
      have hple : p1.zkPos ≤ p1.pubM.length := by
        rw [y4, y5, hblk]
        obtain ⟨w, u1, _⟩ := M1 (b / 256) (by omega)
        have := (List.getElem?_eq_some_iff.1 u1).1
        omega
      have hmle : m1.sha.zkIvIn.length ≤ m1.sha.ivIn.length := by
        rw [y1, y2]
        cases ri with
        | true => exact hnl rfl
        | false => exact hm2
      have hM1 : (p1.pubM.drop p1.zkPos).map wbits = openedA key ops ++ RA := by
        rw [y4, y5, hblk]; exact M2
      have hI1 : m1.sha.ivIn.drop m1.sha.zkIvIn.length = openedIv key (ri || z) ops ++ RI := by
        rw [y1, y2]
        cases ri with
        | false => simpa using hI
        | true =>
          cases z with
          | true => simpa [zkNext] using hI
          | false =>
            simp only [Bool.not_false, Bool.and_self, if_true, List.singleton_append] at hI
            have := congrArg (List.drop 1) hI
            simpa [zkNext, List.drop_drop] using this
      obtain ⟨p', m', q1, q2, q3, q4, q5, q6, q7, q8, q9, q10, q11⟩ := ih p1 m1 _ _ h1' hvr (by rw [y2]; exact hl) y6 hple hmle hM1 hI1 hA1 hB1
      refine ⟨p', m', ?_, q2, q3, q4, by rw [q5, y4], q6, q7, q8, q9, by rw [q10, y2], q11⟩
      have e2 := prfTrunc_spec key (bytesBits l) (bytesBits s) [] r b (by
          rw [y3, Nat.zero_add, bytesBits_append]; rfl)
      rw [List.reverse_nil, List.nil_append] at e2
      simp only [Prf.runZk, Prf.stepZk, Prf.optCompute, Prf.optPhash, bind, Except.bind, e1, q1, e2]; rfl

theorem zk_run_complete (ops : List PrfOp) (p : Prf) (m : Hmac) (key : List Bool) (z : Bool) (h : ZkInv m key z)
    (hv : ∀ op ∈ ops, PrfOp.Valid op ∧ Replayable op) (hl : m.sha.ivIn.length + 1 < 2 ^ 64) (hp : p.zkPos = p.zkSecM.length)
    (hp2 : p.zkPos ≤ p.pubM.length) (hm2 : m.sha.zkIvIn.length ≤ m.sha.ivIn.length)
    (hA : (p.pubM.drop p.zkPos).map wbits = openedA key ops) (hI : m.sha.ivIn.drop m.sha.zkIvIn.length = openedIv key z ops)
    (a : ShaAgree m) (b : PrfAgree p) :
    ∃ p' m', p.runZk m ops = .ok (prfExpected key ops, p', m') ∧ handshakeCheck p' m' = .ok true
      ∧ p'.zkSecM.length = p.pubM.length ∧ m'.sha.zkIvIn.length = m.sha.ivIn.length
      ∧ m'.sha.ivIn = m.sha.ivIn ∧ ∃ key' z', ZkInv m' key' z' := by
  obtain ⟨p', m', q1, q2, q3, q4, q5, q6, q7, q8, q9, q10, q11⟩ := zk_run_prefix ops [] [] p m key z h hv hl hp hp2 hm2
    (by rw [hA, List.append_nil]) (by rw [hI, List.append_nil]) a b
  rw [List.map_eq_nil_iff, List.drop_eq_nil_iff] at q6
  rw [List.drop_eq_nil_iff] at q7
  exact ⟨p', m', q1, (handshakeCheck_iff p' m').2 ⟨by omega, q9, q7, q8⟩, by rw [← q5]; omega, by rw [← q10]; omega, q10, _, _, q11⟩

/-- How the inner state of that key is kept in the first phase. -/
def innAfter : Option Bool → List PrfOp → Option Bool
  | inn, [] => inn
  | _, .init _ :: ops => innAfter none ops
  | inn, .optCompute _ _ _ _ ri _ :: ops => innAfter (if ri then some false else inn) ops
  | inn, _ :: ops => innAfter inn ops

theorem online_run (ops : List PrfOp) : ∀ (p : Prf) (m : Hmac) (key inn), HmacInv m key inn → inn ≠ some true →
    (∀ op ∈ ops, PrfOp.Valid op ∧ Replayable op) → m.sha.ivIn.length + (ops.map PrfOp.cost).sum ≤ 2 ^ 64 →
    ∃ p' m', p.run m ops = .ok (prfExpected key ops, p', m')
      ∧ m'.sha.pos = BitVec.ofNat 64 m'.sha.ivIn.length - 1
      ∧ p'.zkSecM = p.zkSecM ∧ p'.zkPos = p.zkPos ∧ m'.sha.zkIvIn = m.sha.zkIvIn ∧ m'.sha.zpos = m.sha.zpos
      ∧ (∃ new, p'.pubM = p.pubM ++ new ∧ new.map wbits = openedA key ops)
      ∧ m'.sha.ivIn = m.sha.ivIn ++ openedIv key inn.isSome ops
      ∧ HmacInv m' (keyAfter key ops) (innAfter inn ops) := by
  induction ops with
  | nil =>
    intro p m key inn h _ _ _
    obtain ⟨o, inv, _⟩ := h.sha
    exact ⟨p, m, rfl, inv.pos, rfl, rfl, rfl, rfl, ⟨[], by simp [openedA]⟩, by simp [openedIv], h⟩
  | cons op ops ih =>
    intro p m key inn h hc hv hl
    obtain ⟨hv0, hr0⟩ := hv op (by simp)
    have hvr : ∀ op ∈ ops, PrfOp.Valid op ∧ Replayable op := fun o ho => hv o (by simp [ho])
    rw [List.map_cons, List.sum_cons] at hl
    cases op with
    | compute => exact hr0.elim
    | optRounds => exact hr0.elim
    | init k =>
      obtain ⟨o, inv, _⟩ := h.sha
      obtain ⟨m1, e1, h1, l1⟩ := init_step m inv.pos k hv0
      obtain ⟨f1, f2, f3, f4⟩ := init_frame e1
      obtain ⟨p', m', e, q1, q2, q3, q4, q5, q6, q7, q8⟩ := ih { p with calls := 0 } m1 _ _ h1 (by simp) hvr (by rw [l1]; omega)
      refine ⟨p', m', by simp only [Prf.run, Prf.step, Prf.init, bind, Except.bind, e1, e]; rfl, q1, q2, q3,
        by rw [q4, f2], by rw [q5, f3], q6, by rw [q7, f1]; rfl, q8⟩
    | optCompute g b l s ri ro =>
      have hcost : PrfOp.cost (.optCompute g b l s ri ro) = 2 * (b / 256 + 1) := rfl
      rw [hcost] at hl
      have hbk : prfBlocks b = b / 256 + 1 := rfl
      obtain ⟨hg, hs⟩ := hv0
      obtain ⟨r, m1, p1, e1, h1, l1, hr, _, t1, t2, op, o1, o2⟩ := optPhashLoop_spec key g hg (l ++ s)
        (by rw [List.length_append]; omega) ri ro (prfBlocks b) 0 inn p m (l ++ s) [] [] h (fun _ => hc)
        (by rw [hbk]; omega) rfl (by simp [HMAC.pHash])
      obtain ⟨u1, u2, u3⟩ := optPhashLoop_log key g hg (l ++ s) ri ro (prfBlocks b) inn p m (l ++ s) [] _ _ _ h
        (fun _ => hc) (by rw [hbk]; omega) (by rw [List.length_append]; omega) (by rw [List.length_append]; omega) e1
      have hri : (decide (0 < prfBlocks b)) = true := by simp [hbk]
      rw [hri, Bool.and_true] at u3
      have h1' : HmacInv m1 key (if ri then some false else inn) := by simpa [hbk] using h1
      obtain ⟨p', m', e, q1, q2, q3, q4, q5, ⟨new, q6, q6'⟩, q7, q8⟩ := ih p1 m1 _ _ h1' (by split <;> simp_all) hvr
        (by rw [hbk] at l1; omega)
      have e2 := prfTrunc_spec key (bytesBits l) (bytesBits s) [] r b (by
          rw [hr, Nat.zero_add, bytesBits_append]; rfl)
      rw [List.reverse_nil, List.nil_append] at e2
      refine ⟨p', m', ?_, q1, by rw [q2, t1], by rw [q3, t2], by rw [q4, u1], by rw [q5, u2],
        ⟨op ++ new, by rw [q6, o1, List.append_assoc], ?_⟩, ?_, q8⟩
      · simp only [Prf.run, Prf.step, Prf.optCompute, Prf.optPhash, bind, Except.bind, e1, e, e2]; rfl
      · rw [List.map_append, q6', openedA]
        congr 1
        rw [o2, hbk, bytesBits_append, Nat.zero_add]
      · rw [q7, u3, openedIv, List.append_assoc]
        congr 1
        cases ri <;> cases inn <;> simp [inState, innerState, stateAfter, iBlock]

/-- **C45, completeness.**  After any honest first phase, replaying the same calls with `zk_flag = true` returns the same
values, recomputes exactly as many states and `A(i)` as were opened, and `handshake_check` accepts. -/
theorem C45_complete (key : Integer) (hk : key.length < 2 ^ 63) (ops : List PrfOp)
    (hv : ∀ op ∈ ops, PrfOp.Valid op ∧ Replayable op) (hl : (ops.map PrfOp.cost).sum + ops.length + 1 < 2 ^ 64) :
    ∃ os p1 m1 p2 m2, Prf.new.run Hmac.new (.init key :: ops) = .ok (os, p1, m1)
      ∧ ProofStart p1 m1
      ∧ p1.runZk m1 (.init key :: ops) = .ok (os, p2, m2)
      ∧ handshakeCheck p2 m2 = .ok true
      ∧ p2.zkSecM.length = p1.pubM.length ∧ m2.sha.zkIvIn.length = m1.sha.ivIn.length
      ∧ p1.pubM.map (fun w => w.flatMap SHA256.wordBits) = openedA key.reverse ops
      ∧ m1.sha.ivIn = openedIv key.reverse false ops
      ∧ m2.sha.ivIn = m1.sha.ivIn ∧ m2.sha.pos = BitVec.ofNat 64 m2.sha.ivIn.length - 1
      ∧ m2.sha.zpos = BitVec.ofNat 64 m2.sha.zkIvIn.length - 1 := by
  obtain ⟨m0, e0, h0, l0⟩ := init_step Hmac.new ShaInv.new.pos key hk
  obtain ⟨f1, f2, f3, f4⟩ := init_frame e0
  obtain ⟨p1, m1, e, q1, q2, q3, q4, q5, ⟨new, q6, q6'⟩, q7, -⟩ := online_run ops { Prf.new with calls := 0 } m0 _ _ h0
    (by simp) hv (by rw [l0]; simp [Hmac.new]; omega)
  have hlen : ∀ (ops : List PrfOp) key z, (openedIv key z ops).length ≤ ops.length := by
    intro ops
    induction ops with
    | nil => intro _ _; simp [openedIv]
    | cons op ops ih =>
      intro key z
      cases op with
      | init k => rw [openedIv]; have := ih k.reverse false; simp; omega
      | compute b l s => show (openedIv key z ops).length ≤ _; have := ih key z; simp; omega
      | optRounds b l s ri ro => show (openedIv key z ops).length ≤ _; have := ih key z; simp; omega
      | optCompute g b l s ri ro =>
        rw [openedIv]; have := ih key (ri || z)
        simp only [List.length_append, List.length_cons]
        split <;> simp <;> omega
  have hpub : p1.pubM = new := by rw [q6]; rfl
  have hiv : m1.sha.ivIn = openedIv key.reverse false ops := by rw [q7, f1]; rfl
  have z0 : m1.sha.zkIvIn = [] := by rw [q4, f2]; rfl
  have zp : m1.sha.zpos = -1 := by rw [q5, f3]; rfl
  have hst : ProofStart p1 m1 := ⟨q2, q3, z0, zp, q1⟩
  obtain ⟨m2, e2, h2, l2⟩ := init_step m1 q1 key hk
  obtain ⟨g1, g2, g3, g4⟩ := init_frame e2
  have z1 : ZkInv m2 key.reverse false := ⟨h2, by rw [g2, g3, z0, zp]; decide, fun _ => g4, by simp⟩
  have hzp : p1.zkPos = 0 := q3
  have hzs : p1.zkSecM = [] := q2
  obtain ⟨p3, m3, r1, r2, r3, r4, r5, key', z', r6⟩ := zk_run_complete ops { p1 with calls := 0 } m2 _ _ z1 hv
    (by rw [g1, hiv]; have := hlen ops key.reverse false; omega) (by show p1.zkPos = p1.zkSecM.length; rw [hzp, hzs]; rfl)
    (by show p1.zkPos ≤ _; rw [hzp]; omega) (by rw [g2, z0]; simp)
    (by show (p1.pubM.drop p1.zkPos).map wbits = _; rw [hzp, hpub, List.drop_zero, q6'])
    (by rw [g1, g2, z0, hiv]; rfl)
    (by intro i x w hx; rw [g2, z0] at hx; simp at hx)
    (by intro i x w hx; change p1.zkSecM[i]? = some x at hx; rw [hzs] at hx; simp at hx)
  obtain ⟨o', inv', _⟩ := r6.base.sha
  refine ⟨none :: prfExpected key.reverse ops, p1, m1, p3, m3, ?_, hst, ?_, r2, r3, by rw [r4, g1], by rw [hpub]; exact q6', hiv,
    by rw [r5, g1], inv'.pos, r6.zpos⟩
  · simp only [Prf.run, Prf.step, Prf.init, bind, Except.bind, e0, e]
  · simp only [Prf.runZk, Prf.stepZk, Prf.step, Prf.init, bind, Except.bind, e2, r1]

/-- **C45.**  What `handshake_check` accepts: equally many opened and recomputed `A(i)`, a recomputed state for every
opened one, and equality position by position over all 256 bits. -/
theorem C45_check (p : Prf) (m : Hmac) : handshakeCheck p m = .ok true ↔
    p.pubM.length = p.zkSecM.length
    ∧ (∀ (i : Nat) (z : Integer) (w : List (BitVec 32)), p.zkSecM[i]? = some z → p.pubM[i]? = some w → z = wordsInt w)
    ∧ m.sha.ivIn.length ≤ m.sha.zkIvIn.length
    ∧ ∀ (i : Nat) (z : Integer) (w : List (BitVec 32)), m.sha.zkIvIn[i]? = some z → m.sha.ivIn[i]? = some w →
        z = wordsInt w.reverse := handshakeCheck_iff p m

/-- A check before the proof phase, with something opened, reads outside `zk_iv_in_hashes` or stops. -/
theorem C45_unreplayed (p : Prf) (m : Hmac) (hst : ProofStart p m) (hop : m.sha.ivIn ≠ []) :
    ∃ f, handshakeCheck p m = .error f := by
  cases h : handshakeCheck p m with
  | error f => exact ⟨f, rfl⟩
  | ok b =>
    exfalso
    have hs : m.sha.check = .error (.ub "sha256_check: zk_iv_in_hashes[i] out of range") := by
      unfold Sha.check
      obtain ⟨n, hn⟩ : ∃ n, m.sha.ivIn.length = n + 1 := ⟨m.sha.ivIn.length - 1, by
        have := List.length_pos_iff.2 hop; omega⟩
      rw [hn, List.range_succ_eq_map, List.foldlM_cons, hst.zkIvIn]
      simp [bind, Except.bind]
    unfold handshakeCheck at h
    simp only [bind, Except.bind, hs] at h
    split at h <;> simp at h

/-- **C45 fails against a cheating ALICE.**  The opened inner digest is fed back as a private input of ALICE
(`cipher/hmac_sha256.h:94`) and nothing compares it with the opened value: whatever eight words `d'` ALICE feeds, the
call goes through, leaves the same logs (so `sha256_check` cannot tell), and returns
`SHA256(opad-block || d')` instead of the MAC. -/
theorem C45_inner_digest_unbound {m : Hmac} {key : List Bool} {z : Bool} (h : ZkInv m key z)
    (hl : m.sha.zkIvIn.length < 2 ^ 64) (g : List Byte) (hg : g.length = 64) (msg : List Byte)
    (hm : 512 + 8 * msg.length < 2 ^ 64)
    (hw : m.sha.ivIn[(zkNext m key z).length - 1]? = some (inState key)) (d' : List (BitVec 32)) (hd : d'.length = 8) :
    ∃ d mh dc mc, m.optHmacFeed g msg true false true id = .ok (d, mh)
      ∧ secBits d = HMAC.hmac key (bytesBits msg)
      ∧ m.optHmacFeed g msg true false true (fun _ => d') = .ok (dc, mc)
      ∧ secBits dc = SHA256.sha256 (HMAC.xorBits (HMAC.blockKey key) (HMAC.padString 0x5c) ++ d'.flatMap SHA256.wordBits)
      ∧ mc.sha.ivIn = mh.sha.ivIn ∧ mc.sha.zkIvIn = mh.sha.zkIvIn ∧ mc.sha.check = mh.sha.check := by
  obtain ⟨d, mh, e1, a1, b1, _, c1, c2⟩ := optHmac_zk h hl g hg msg hm false hw
  obtain ⟨o, inv, ho⟩ := h.base.sha
  obtain ⟨s1, f1, f2, f3⟩ := optFirst_zk h hl
  rw [hw] at f3
  have inv1 := inv.zk f1
  have hin : (concat [] (d'.map fun d => ofNat 32 d.toNat)).reverse = d'.flatMap SHA256.wordBits := by
    have := openBits_eq d'
    rw [openBits] at this
    exact this
  have hoo : (concat m.oKeyPad (d'.map fun d => ofNat 32 d.toNat)).reverse
      = oBlock key ++ d'.flatMap SHA256.wordBits := by
    rw [concat_reverse, h.base.opad, ← hin, concat_reverse]; simp
  obtain ⟨d2, s2, e2, a2, b2, c3, f4⟩ := digest_step inv1 (concat m.oKeyPad (d'.map fun d => ofNat 32 d.toNat))
    (by rw [← List.length_reverse, hoo, List.length_append, length_oBlock, length_flatMap_wordBits, hd]; decide)
    false (by simp)
  rw [hoo] at b2
  have hiv : s2.ivIn = m.sha.ivIn := by rw [f4, f1]
  have hzk : s2.zkIvIn = zkNext m key z := by rw [f4, f1]
  refine ⟨d, mh, d2, { m with sha := s2, shaCalls := m.shaCalls + 2 }, ?_, b1, ?_, sha256_eq _ d2 a2 b2,
    by rw [c2]; exact hiv, by rw [c1]; exact hzk, ?_⟩
  · rw [← e1]; rfl
  · unfold Hmac.optHmacFeed Sha.optDigest Sha.optUpdate
    simp only [bind, Except.bind, f3, e2]
  · show s2.check = _
    unfold Sha.check
    rw [hiv, hzk, c1, c2]

example : ∀ op ∈ ([.optCompute (fun _ => List.replicate 64 0) 384 [1] [2, 3] true true,
      .init [true], .optCompute (fun _ => List.replicate 64 5) 320 [4] [7] true true,
      .optCompute (fun _ => List.replicate 64 5) 96 [4] [7] true true] : List PrfOp), PrfOp.Valid op ∧ Replayable op := by
  simp [-List.reduceReplicate, PrfOp.Valid, Replayable]

example : ∃ p m, ProofStart p m ∧ m.sha.ivIn ≠ [] :=
  ⟨Prf.new, { sha := { ivIn := [[1, 2, 3, 4, 5, 6, 7, 8]], pos := 0 } }, ⟨rfl, rfl, rfl, by decide, by decide⟩, by simp⟩

/-- The hypotheses of `C45_inner_digest_unbound` hold after any `init` with an honestly opened state. -/
example (key : Integer) (hk : key.length < 2 ^ 63) : ∃ m, ZkInv m key.reverse false ∧ m.sha.zkIvIn.length < 2 ^ 64
    ∧ m.sha.ivIn[(zkNext m key.reverse false).length - 1]? = some (inState key.reverse) := by
  obtain ⟨m, e, h, l⟩ := init_step { sha := { ivIn := [inState key.reverse], pos := 0 } } (show (0 : BitVec 64) = BitVec.ofNat 64 1 - 1 by decide) key hk
  obtain ⟨f1, f2, f3, f4⟩ := init_frame e
  refine ⟨m, ⟨h, by rw [f2, f3]; rfl, fun _ => f4, by simp⟩, by rw [f2]; simp, ?_⟩
  rw [f1]; simp [zkNext, f2]

end Verif.Props
