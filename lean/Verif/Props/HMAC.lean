import Verif.Lemmas.HmacInv

/-! C12, C13: HMAC-SHA256, plain and optimised, along call histories. -/

namespace Verif.Props
open Verif.Model Verif.Model.Integer Verif.Model.SHA Verif.Lemmas
open Verif.Spec Verif.Spec.Encoding

/-- What each call of a history should return, given the key in force (`none` for `init`). -/
def hmacExpected : List Bool → List HmacOp → List (Option (List Bool))
  | _, [] => []
  | _, .init key :: ops => none :: hmacExpected key.reverse ops
  | key, .hmac msg :: ops => some (HMAC.hmac key msg.reverse) :: hmacExpected key ops
  | key, .optHmac _ msg _ _ :: ops => some (HMAC.hmac key (bytesBits msg)) :: hmacExpected key ops
  | key, .optRounds msg _ _ :: ops => some (HMAC.hmac key msg.reverse) :: hmacExpected key ops

/-- Arguments within bounds. -/
def HmacOp.Valid : HmacOp → Prop
  | .init key => key.length < 2 ^ 63
  | .hmac msg => msg.length < 2 ^ 62
  | .optHmac g msg _ _ => g.length = 64 ∧ 512 + 8 * msg.length < 2 ^ 64
  | .optRounds msg _ _ => msg.length < 2 ^ 62

/-- Between two `init` calls at most one of the two optimised variants asks to reuse the inner state.  The first
argument is the variant that did so already (`false`: `opt_hmac_sha256`, `true`: `opt_rounds_hmac_sha256`). -/
def NoMix : Option Bool → List HmacOp → Prop
  | _, [] => True
  | _, .init _ :: ops => NoMix none ops
  | k, .hmac _ :: ops => NoMix k ops
  | k, .optHmac _ _ ri _ :: ops => (ri = true → k ≠ some true) ∧ NoMix (if ri then some false else k) ops
  | k, .optRounds _ ri _ :: ops => (ri = true → k ≠ some false) ∧ NoMix (if ri then some true else k) ops

theorem hmac_run_spec (ops : List HmacOp) : ∀ (m : Hmac) (key inn), HmacInv m key inn → NoMix inn ops →
    (∀ op ∈ ops, HmacOp.Valid op) → m.sha.ivIn.length + ops.length ≤ 2 ^ 64 →
    ∃ m', m.run ops = .ok (hmacExpected key ops, m') := by
  induction ops with
  | nil => intro m _ _ _ _ _ _; exact ⟨m, rfl⟩
  | cons op ops ih =>
    intro m key inn h hc hv hl
    have hv0 := hv op (by simp)
    have hvr : ∀ op ∈ ops, HmacOp.Valid op := fun o ho => hv o (by simp [ho])
    rw [List.length_cons] at hl
    cases op with
    | init k =>
      obtain ⟨o, inv, _⟩ := h.sha
      obtain ⟨m1, e1, h1, l1⟩ := init_step m inv.pos k hv0
      obtain ⟨m', e⟩ := ih m1 _ _ h1 hc hvr (by rw [l1]; omega)
      exact ⟨m', by simp only [Hmac.run, Hmac.step, bind, Except.bind, e1, e]; rfl⟩
    | hmac msg =>
      obtain ⟨d, m1, e1, _, b1, h1, l1⟩ := hmac_step h msg hv0
      obtain ⟨m', e⟩ := ih m1 _ _ h1 hc hvr (by rw [l1]; omega)
      exact ⟨m', by simp only [Hmac.run, Hmac.step, bind, Except.bind, e1, e, b1]; rfl⟩
    | optHmac g msg ri ro =>
      obtain ⟨hc1, hc2⟩ := hc
      obtain ⟨d, m1, e1, _, b1, h1, l1⟩ := optHmac_step h g hv0.1 msg hv0.2 (by omega) ri ro hc1
      obtain ⟨m', e⟩ := ih m1 _ _ h1 hc2 hvr (by omega)
      exact ⟨m', by simp only [Hmac.run, Hmac.step, bind, Except.bind, e1, e, b1]; rfl⟩
    | optRounds msg ri ro =>
      obtain ⟨hc1, hc2⟩ := hc
      obtain ⟨d, m1, e1, _, b1, h1, l1⟩ := roundsHmac_step h msg hv0 ri ro hc1
      obtain ⟨m', e⟩ := ih m1 _ _ h1 hc2 hvr (by rw [l1]; omega)
      exact ⟨m', by simp only [Hmac.run, Hmac.step, bind, Except.bind, e1, e, b1]; rfl⟩

/-- **C12.**  `init` with a key of any length followed by `hmac_sha256` returns HMAC-SHA256 of the message, on a fresh
object. -/
theorem C12_hmac (key msg : Integer) (hk : key.length < 2 ^ 63) (hm : msg.length < 2 ^ 62) :
    ∃ m', Hmac.new.run [.init key, .hmac msg] = .ok ([none, some (HMAC.hmac key.reverse msg.reverse)], m') := by
  obtain ⟨m1, e1, h1, l1⟩ := init_step Hmac.new ShaInv.new.pos key hk
  obtain ⟨d, m', e2, _, b2, _, _⟩ := hmac_step h1 msg hm
  exact ⟨m', by simp only [Hmac.run, Hmac.step, bind, Except.bind, e1, e2, b2]⟩

/-- **C12.**  RFC 2104 key treatment: a key longer than the block is replaced by its digest, a shorter one is
zero-filled; so a short key and its zero-filled form give the same MAC, and so do a long key and its digest. -/
theorem C12_key_forms (key msg : List Bool) :
    (key.length ≤ 512 → HMAC.hmac key msg = HMAC.hmac (key ++ List.replicate (512 - key.length) false) msg)
      ∧ (512 < key.length → HMAC.hmac key msg = HMAC.hmac (SHA256.sha256 key) msg) := by
  constructor
  · intro h
    have : HMAC.blockKey key = HMAC.blockKey (key ++ List.replicate (512 - key.length) false) := by
      have h2 : (key ++ List.replicate (512 - key.length) false).length = 512 := by simp; omega
      unfold HMAC.blockKey
      simp [show ¬ key.length > 512 by omega, h2]
    simp only [HMAC.hmac, this]
  · intro h
    have : HMAC.blockKey key = HMAC.blockKey (SHA256.sha256 key) := by
      unfold HMAC.blockKey
      have h2 := length_sha256 key
      simp only [show key.length > 512 from h, if_true, h2, show ¬ (256 > 512) by omega, if_false]
    simp only [HMAC.hmac, this]

/-- **C13 (partial: histories in which the two optimised variants do not both reuse the inner state of one key).**
Along every such history of one object — any number of re-keyings, any mixture of plain and optimised calls, any
choice of the inner and outer reuse flags — every call returns HMAC-SHA256 under the key of the last `init`.
`C13_mixing_undefined` shows that the missing histories do fail. -/
theorem C13_history_partial (key : Integer) (ops : List HmacOp) (hk : key.length < 2 ^ 63) (hc : NoMix none ops)
    (hv : ∀ op ∈ ops, HmacOp.Valid op) (hl : ops.length ≤ 2 ^ 64) :
    ∃ m', Hmac.new.run (.init key :: ops) = .ok (none :: hmacExpected key.reverse ops, m') := by
  obtain ⟨m1, e1, h1, l1⟩ := init_step Hmac.new ShaInv.new.pos key hk
  obtain ⟨m', e⟩ := hmac_run_spec ops m1 _ _ h1 hc hv (by rw [l1]; simpa [Hmac.new, Sha.new] using hl)
  exact ⟨m', by simp only [Hmac.run, Hmac.step, bind, Except.bind, e1, e]⟩

/-- **C13, negative.**  On a fresh object keyed with any key, an `opt_rounds_hmac_sha256` call with inner reuse
followed by an `opt_hmac_sha256` call with inner reuse reads outside a vector, for all messages. -/
theorem C13_mixing_undefined (key msg : Integer) (hk : key.length < 2 ^ 63) (hm : msg.length < 2 ^ 62)
    (g pub : List Byte) (ro ro' : Bool) :
    ∃ why, Hmac.new.run [.init key, .optRounds msg true ro, .optHmac g pub true ro'] = .error (.ub why) := by
  obtain ⟨m1, e1, h1, l1⟩ := init_step Hmac.new ShaInv.new.pos key hk
  obtain ⟨d, m2, e2, _, b2, h2, l2⟩ := roundsHmac_step h1 msg hm true ro (by simp)
  obtain ⟨o, inv, _⟩ := h2.sha
  have hin : m2.sha.gcIn = true := (inv.innSec _ rfl).1
  have hiv : m2.sha.ivIn = [] := by rw [l2, l1]; rfl
  refine ⟨"opt_update: iv_in_hashes[pos] out of range", ?_⟩
  have hw := inputWords_eq m2.iKeyPad
  have e3 : m2.optHmac g pub true ro' false = .error (.ub "opt_update: iv_in_hashes[pos] out of range") := by
    unfold Hmac.optHmac Sha.optDigest Sha.optUpdate Sha.optFirst
    simp only [h2.ilen, ne_eq, not_true_eq_false, if_false, bind, Except.bind, hw, hin, hiv]
    rfl
  simp only [Hmac.run, Hmac.step, bind, Except.bind, e1, e2, e3]

/-! A history with two keys, both optimised variants and both flags satisfies the hypotheses. -/
def demoHmac : List HmacOp :=
  [.optHmac (List.replicate 64 0) [1, 2, 3] true true, .hmac [true], .optHmac (List.replicate 64 1) [] true true,
   .optRounds [false, true] false true, .init (List.replicate 1000 true), .optRounds [] true false,
   .optRounds [true] true true]

example : NoMix none demoHmac ∧ (∀ op ∈ demoHmac, HmacOp.Valid op) ∧ demoHmac.length ≤ 2 ^ 64 := by
  refine ⟨by simp [-List.reduceReplicate, demoHmac, NoMix], by simp [-List.reduceReplicate, demoHmac, HmacOp.Valid], by simp [-List.reduceReplicate, demoHmac]⟩

end Verif.Props
