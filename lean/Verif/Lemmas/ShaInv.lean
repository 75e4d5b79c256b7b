import Verif.Lemmas.SHAPlain
import Verif.Model.HMAC
import Verif.Spec.HMAC

/-! Invariant of `SHA256`/`HMAC_SHA256` objects over call histories. -/

namespace Verif.Lemmas
open Verif.Model Verif.Model.Integer Verif.Model.SHA
open Verif.Spec Verif.Spec.Encoding

/-- FIPS state after one block `b`. -/
def stateAfter (b : List Bool) : List SHA256.Word := SHA256.compress SHA256.H0 (SHA256.blockWords b)

theorem firstState_eq (p : List Bool) : firstState p = stateAfter (blockAt p 0) := rfl

/-- What the object currently caches: first block of the reused outer hash, and kind and first block of the reused
inner hash (`false`: opened words, `true`: secret words). -/
structure ShaInv (s : Sha) (out : Option (List Bool)) (inn : Option (Bool × List Bool)) : Prop where
  ok : ShaOk s
  outNone : out = none → s.gcOut = false
  outSome : ∀ b, out = some b → s.gcOut = true ∧ Dig8 s.ivOut ∧ s.ivOut.map bv = stateAfter b
  innNone : inn = none → s.gcIn = false
  innOpen : ∀ b, inn = some (false, b) → s.gcIn = true ∧ s.ivIn.getLast? = some (stateAfter b)
  innSec : ∀ b, inn = some (true, b) → s.gcIn = true ∧ Dig8 s.ivInSec ∧ s.ivInSec.map bv = stateAfter b
  pos : s.pos = BitVec.ofNat 64 s.ivIn.length - 1

theorem ShaInv.new : ShaInv Sha.new none none :=
  ⟨ShaOk.new, fun _ => rfl, by simp, fun _ => rfl, by simp, by simp, by decide⟩

theorem ShaInv.refresh {s : Sha} {out inn} (h : ShaInv s out inn) : ShaInv s.refresh none none :=
  ⟨ShaOk.refresh s, fun _ => rfl, by simp, fun _ => rfl, by simp, by simp, h.pos⟩

/-- First block of the padded message. -/
def block0 (m : List Bool) : List Bool := blockAt (SHA256.pad m) 0

theorem block0_eq (a b : List Bool) (h : a.length = 512) : block0 (a ++ b) = a := by
  unfold block0 blockAt SHA256.pad
  simp [h]

theorem digest_step {s : Sha} {out inn} (h : ShaInv s out inn) (x : Integer) (hx : x.length < 2 ^ 63) (r : Bool)
    (hc : r = true → ∀ b, out = some b → b = block0 x.reverse) :
    ∃ dig s', s.digest x r = .ok (dig, s') ∧ Dig8 dig ∧ dig.map bv = SHA256.sha256Words x.reverse
      ∧ ShaInv s' (if r then some (block0 x.reverse) else out) inn
      ∧ s' = { s with calls := s'.calls, ivOut := s'.ivOut, gcOut := s'.gcOut } := by
  obtain ⟨dig0, dig, s', h1, h2, h3, h4⟩ := update_spec s h.ok (padding x) _ (length_padding x hx) (by omega) r
  have good : Dig8 dig0 ∧ dig0.map bv = stateAfter (block0 x.reverse) := by
    rw [padding_reverse x hx, firstState_eq] at h2
    change if _ then _ else _ ∧ _ = stateAfter (block0 x.reverse) at h2
    cases r with
    | false => simpa using h2
    | true =>
      cases hout : out with
      | none =>
        have := h.outNone hout
        simpa [this] using h2
      | some b =>
        obtain ⟨g1, g2, g3⟩ := h.outSome b hout
        simp only [g1, Bool.and_self, if_true] at h2
        subst h2
        exact ⟨g2, by rw [g3, hc rfl b hout]⟩
  obtain ⟨d1, d2⟩ := h3 good.1
  refine ⟨dig, s', h1, d1, ?_, ?_, ?_⟩
  · rw [d2, padding_reverse x hx, good.2, sha256Words_split, List.length_reverse]; rfl
  · rw [h4]
    refine ⟨⟨h.ok.k, h.ok.h, h.ok.h8⟩, ?_, ?_, h.innNone, h.innOpen, h.innSec, h.pos⟩
    · cases r with
      | false => simpa using h.outNone
      | true => simp
    · intro b hb
      cases r with
      | false => simpa using h.outSome b (by simpa using hb)
      | true =>
        simp only [if_true, Option.some.injEq] at hb
        subst hb
        exact ⟨rfl, good⟩
  · rw [h4]

theorem rounds_step {s : Sha} {out inn} (h : ShaInv s out inn) (x : Integer) (hx : x.length < 2 ^ 63) (r : Bool)
    (hc : r = true → ∀ k b, inn = some (k, b) → k = true ∧ b = block0 x.reverse) :
    ∃ dig s', s.optRoundsDigest x r = .ok (dig, s') ∧ Dig8 dig ∧ dig.map bv = SHA256.sha256Words x.reverse
      ∧ ShaInv s' out (if r then some (true, block0 x.reverse) else inn)
      ∧ s' = { s with calls := s'.calls, ivInSec := s'.ivInSec, gcIn := s'.gcIn } := by
  obtain ⟨dig0, dig, s', h1, h2, h3, h4⟩ :=
    optRoundsUpdate_spec s h.ok (padding x) _ (length_padding x hx) (by omega) r
  have good : Dig8 dig0 ∧ dig0.map bv = stateAfter (block0 x.reverse) := by
    rw [padding_reverse x hx, firstState_eq] at h2
    change if _ then _ else _ ∧ _ = stateAfter (block0 x.reverse) at h2
    cases r with
    | false => simpa using h2
    | true =>
      cases hinn : inn with
      | none =>
        have := h.innNone hinn
        simpa [this] using h2
      | some p =>
        obtain ⟨k, b⟩ := p
        obtain ⟨rfl, hb⟩ := hc rfl k b hinn
        obtain ⟨g1, g2, g3⟩ := h.innSec b hinn
        simp only [g1, Bool.and_self, if_true] at h2
        subst h2
        exact ⟨g2, by rw [g3, hb]⟩
  obtain ⟨d1, d2⟩ := h3 good.1
  refine ⟨dig, s', h1, d1, ?_, ?_, ?_⟩
  · rw [d2, padding_reverse x hx, good.2, sha256Words_split, List.length_reverse]; rfl
  · rw [h4]
    refine ⟨⟨h.ok.k, h.ok.h, h.ok.h8⟩, h.outNone, h.outSome, ?_, ?_, ?_, h.pos⟩
    · cases r with
      | false => simpa using h.innNone
      | true => simp
    · intro b hb
      cases r with
      | false => simpa using h.innOpen b (by simpa using hb)
      | true => simp at hb
    · intro b hb
      cases r with
      | false => simpa using h.innSec b (by simpa using hb)
      | true =>
        simp only [if_true, Option.some.injEq, Prod.mk.injEq, true_and] at hb
        subst hb
        exact ⟨rfl, good⟩
  · rw [h4]

theorem getLast_pos {α : Type} (l : List α) (a : α) (h : l.getLast? = some a) (hl : l.length ≤ 2 ^ 64) :
    l[(BitVec.ofNat 64 l.length - 1).toNat]? = some a := by
  have hne : l ≠ [] := by rintro rfl; simp at h
  have hpos : 0 < l.length := List.length_pos_iff.2 hne
  have e : (BitVec.ofNat 64 l.length - 1).toNat = l.length - 1 := by
    rw [BitVec.toNat_sub, BitVec.toNat_ofNat]
    have : (1 : BitVec 64).toNat = 1 := rfl
    rw [this]
    by_cases hh : l.length = 2 ^ 64
    · rw [hh]; decide
    · omega
  rw [e, ← List.getLast?_eq_getElem?, h]

theorem opt_step {s : Sha} {out inn} (h : ShaInv s out inn) (g : List Byte) (hg : g.length = 64) (sec : Integer)
    (hx : sec.length = 512) (pub : List Byte) (hp : 512 + 8 * pub.length < 2 ^ 64) (r : Bool)
    (hsz : s.ivIn.length ≤ 2 ^ 64)
    (hc : r = true → ∀ k b, inn = some (k, b) → k = false ∧ b = sec.reverse) :
    ∃ dig s', s.optDigest g sec pub r false = .ok (dig, s')
      ∧ dig = SHA256.sha256Words (sec.reverse ++ bytesBits pub)
      ∧ ShaInv s' out (if r then some (false, sec.reverse) else inn)
      ∧ s'.ivIn.length ≤ s.ivIn.length + 1
      ∧ s' = { s with calls := s'.calls, ivIn := s'.ivIn, gcIn := s'.gcIn, pos := s'.pos } := by
  obtain ⟨o1, o2, o3, _⟩ := optFirst_spec s h.ok sec hx r false
  have hb : blockAt sec.reverse 0 = sec.reverse := by
    simp [blockAt]; rw [List.take_of_length_le (by simp; omega)]
  have hgood : firstState sec.reverse = stateAfter sec.reverse := by rw [firstState_eq, hb]
  have hfin := sha256Words_half sec.reverse (by simpa using hx) pub hp g hg
  unfold Sha.optDigest Sha.optUpdate
  cases r with
  | false =>
    obtain ⟨s', e1, e2⟩ := o1 rfl
    rw [e1]
    refine ⟨_, s', rfl, hfin, ?_, ?_, by rw [e2]⟩
    · rw [e2]
      exact ⟨⟨h.ok.k, h.ok.h, h.ok.h8⟩, h.outNone, h.outSome, h.innNone, h.innOpen, h.innSec, h.pos⟩
    · rw [e2]; simp
  | true =>
    cases hinn : inn with
    | none =>
      obtain ⟨s', e1, e2⟩ := o2 rfl rfl (h.innNone hinn)
      rw [e1]
      refine ⟨_, s', rfl, hfin, ?_, ?_, by rw [e2]⟩
      · rw [e2]
        refine ⟨⟨h.ok.k, h.ok.h, h.ok.h8⟩, h.outNone, h.outSome, by simp, ?_, by simp, ?_⟩
        · intro b hb
          simp only [if_true, Option.some.injEq, Prod.mk.injEq, true_and] at hb
          subst hb
          simp [hgood]
        · simp only [List.length_append, List.length_cons, List.length_nil, Nat.zero_add]
          rw [h.pos, BitVec.ofNat_add]
          simp only [BitVec.sub_eq_add_neg, BitVec.add_assoc]
          congr 1
      · rw [e2]; simp
    | some p =>
      obtain ⟨k, b⟩ := p
      obtain ⟨rfl, hb⟩ := hc rfl k b hinn
      obtain ⟨g1, g2⟩ := h.innOpen b hinn
      have e1 := o3 rfl rfl g1
      rw [h.pos, getLast_pos _ _ g2 hsz] at e1
      rw [e1]
      refine ⟨_, s, rfl, ?_, ?_, by simp, rfl⟩
      · rw [hb, ← hgood]; exact hfin
      · rw [hinn] at h
        subst hb
        exact h

end Verif.Lemmas
