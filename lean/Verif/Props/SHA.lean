import Verif.Lemmas.HmacInv

/-! C08–C11: the SHA-256 padding and the three ways the library computes a digest. -/

namespace Verif.Props
open Verif.Model Verif.Model.Integer Verif.Model.SHA Verif.Lemmas
open Verif.Spec Verif.Spec.Encoding

/-! ### C08 -/

/-- **C08.**  For every message below `2^63` bits, `padding` produces FIPS 180-4 padding of the bit string. -/
theorem C08_padding (x : Integer) (h : x.length < 2 ^ 63) : (padding x).reverse = SHA256.pad x.reverse :=
  padding_reverse x h

/-- **C08.**  The padded length is a multiple of 512. -/
theorem C08_padding_length (x : Integer) (h : x.length < 2 ^ 63) : (padding x).length % 512 = 0 := by
  rw [length_padding x h]; omega

/-- **C08.**  The padding is the shortest one: the number of zeros is the least solution of the congruence. -/
theorem C08_padding_least (x : Integer) (h : x.length < 2 ^ 63) :
    ∃ k, (padding x).length = x.length + 1 + k + 64 ∧ (x.length + 1 + k) % 512 = 448
      ∧ ∀ j, (x.length + 1 + j) % 512 = 448 → k ≤ j := by
  refine ⟨(padding x).length - (x.length + 65), ?_, ?_, ?_⟩ <;> rw [length_padding x h]
  · omega
  · omega
  · intro j hj; omega

/-- **C08.**  Different messages have different paddings. -/
theorem C08_padding_injective (x y : Integer) (hx : x.length < 2 ^ 63) (hy : y.length < 2 ^ 63)
    (h : padding x = padding y) : x = y := by
  have e : SHA256.pad x.reverse = SHA256.pad y.reverse := by
    rw [← padding_reverse x hx, ← padding_reverse y hy, h]
  have hpadlen := congrArg List.length e
  -- the last 64 bits hold the length
  have tail : ∀ m : List Bool, (SHA256.pad m).drop ((SHA256.pad m).length - 64) = SHA256.beBits 64 m.length := by
    intro m
    unfold SHA256.pad
    rw [List.drop_append_of_le_length (by simp [SHA256.beBits]; omega)]
    have : (m ++ [true] ++ List.replicate (SHA256.padZeros m.length) false ++ SHA256.beBits 64 m.length).length - 64
      = (m ++ [true] ++ List.replicate (SHA256.padZeros m.length) false).length := by
      simp [SHA256.beBits]; omega
    rw [this, List.drop_length, List.nil_append]
  have t := tail x.reverse
  rw [e, tail y.reverse] at t
  have hlen : x.length = y.length := by
    have v : ∀ n, n < 2 ^ 64 → ofNat 64 n = (SHA256.beBits 64 n).reverse := by
      intro n _
      rw [← List.reverse_inj, ofNat_reverse, List.reverse_reverse]
    have w : ofNat 64 x.length = ofNat 64 y.length := by
      rw [v _ (by omega), v _ (by omega)]
      simpa using congrArg List.reverse t.symm
    have := congrArg val w
    rw [val_ofNat, val_ofNat, Nat.mod_eq_of_lt (by omega), Nat.mod_eq_of_lt (by omega)] at this
    exact this
  have tk : ∀ m : List Bool, (SHA256.pad m).take m.length = m := by
    intro m; unfold SHA256.pad; simp
  have := tk x.reverse
  rw [e, List.length_reverse, hlen, ← List.length_reverse (as := y), tk y.reverse] at this
  exact (List.reverse_inj.1 this).symm

example : C08_padding_least [true, false, true] (by decide) = C08_padding_least [true, false, true] (by decide) := rfl
example : (padding [true, false, true]).length = 512 := by decide +kernel
example : (padding (List.replicate 448 false)).length = 1024 := by 
  rw [length_padding _ (by rw [List.length_replicate]; omega), List.length_replicate]

/-! ### C09–C11: call histories

`out` and `inn` describe what a history has cached so far; a history is coherent when each call that asks for the
cached state has the same first block as the call that cached it, in the same representation. -/

/-- First 512 bits of the padded message. -/
def firstBlock (m : List Bool) : List Bool := ((SHA256.pad m)).take 512

/-- The bit string a call is supposed to hash; `none` for `refresh`. -/
def ShaOp.message : ShaOp → Option (List Bool)
  | .refresh => none
  | .digest x _ => some x.reverse
  | .optDigest _ sec pub _ => some (sec.reverse ++ bytesBits pub)
  | .optRounds x _ => some x.reverse

/-- The call's arguments are within the documented bounds. -/
def ShaOp.Valid : ShaOp → Prop
  | .refresh => True
  | .digest x _ => x.length < 2 ^ 63
  | .optDigest g sec pub _ => g.length = 64 ∧ sec.length = 512 ∧ 512 + 8 * pub.length < 2 ^ 64
  | .optRounds x _ => x.length < 2 ^ 63

/-- Reuse requests agree with what was cached since the last `refresh`. -/
def Coherent : Option (List Bool) → Option (Bool × List Bool) → List ShaOp → Prop
  | _, _, [] => True
  | _, _, .refresh :: ops => Coherent none none ops
  | out, inn, .digest x r :: ops =>
    (r = true → ∀ b, out = some b → b = firstBlock x.reverse)
      ∧ Coherent (if r then some (firstBlock x.reverse) else out) inn ops
  | out, inn, .optDigest _ sec _ r :: ops =>
    (r = true → ∀ k b, inn = some (k, b) → k = false ∧ b = sec.reverse)
      ∧ Coherent out (if r then some (false, sec.reverse) else inn) ops
  | out, inn, .optRounds x r :: ops =>
    (r = true → ∀ k b, inn = some (k, b) → k = true ∧ b = firstBlock x.reverse)
      ∧ Coherent out (if r then some (true, firstBlock x.reverse) else inn) ops

theorem firstBlock_eq (m : List Bool) : firstBlock m = block0 m := by
  simp [firstBlock, block0, blockAt]

/-- The history theorem from any state satisfying the invariant. -/
theorem run_spec (ops : List ShaOp) : ∀ (s : Sha) (out inn), ShaInv s out inn → Coherent out inn ops →
    (∀ op ∈ ops, ShaOp.Valid op) → s.ivIn.length + ops.length ≤ 2 ^ 64 →
    ∃ s', s.run ops = .ok (ops.map fun op => (ShaOp.message op).map SHA256.sha256, s') := by
  induction ops with
  | nil => intro s _ _ _ _ _ _; exact ⟨s, rfl⟩
  | cons op ops ih =>
    intro s out inn h hc hv hl
    have hv0 := hv op (by simp)
    have hvr : ∀ op ∈ ops, ShaOp.Valid op := fun o ho => hv o (by simp [ho])
    rw [List.length_cons] at hl
    cases op with
    | refresh =>
      obtain ⟨s', e⟩ := ih s.refresh none none h.refresh hc hvr (by show s.ivIn.length + _ ≤ _; omega)
      exact ⟨s', by simp only [Sha.run, Sha.step, bind, Except.bind, e]; rfl⟩
    | digest x r =>
      obtain ⟨hc1, hc2⟩ := hc
      simp only [firstBlock_eq] at hc1 hc2
      obtain ⟨d, s1, e1, a1, b1, c1, f1⟩ := digest_step h x hv0 r hc1
      have hiv : s1.ivIn = s.ivIn := by rw [f1]
      obtain ⟨s', e⟩ := ih s1 _ _ c1 hc2 hvr (by rw [hiv]; omega)
      refine ⟨s', ?_⟩
      simp only [Sha.run, Sha.step, bind, Except.bind, e1, e, sha256_eq _ d a1 b1]; rfl
    | optDigest g sec pub r =>
      obtain ⟨hc1, hc2⟩ := hc
      obtain ⟨hg, hs, hp⟩ := hv0
      obtain ⟨d, s1, e1, b1, c1, l1, _⟩ := opt_step h g hg sec hs pub hp r (by omega) hc1
      obtain ⟨s', e⟩ := ih s1 _ _ c1 hc2 hvr (by omega)
      refine ⟨s', ?_⟩
      have hb : openBits d = SHA256.sha256 (sec.reverse ++ bytesBits pub) := by
        rw [openBits_eq, b1]; rfl
      simp only [Sha.run, Sha.step, bind, Except.bind, e1, e, hb]; rfl
    | optRounds x r =>
      obtain ⟨hc1, hc2⟩ := hc
      simp only [firstBlock_eq] at hc1 hc2
      obtain ⟨d, s1, e1, a1, b1, c1, f1⟩ := rounds_step h x hv0 r hc1
      have hiv : s1.ivIn = s.ivIn := by rw [f1]
      obtain ⟨s', e⟩ := ih s1 _ _ c1 hc2 hvr (by rw [hiv]; omega)
      refine ⟨s', ?_⟩
      simp only [Sha.run, Sha.step, bind, Except.bind, e1, e, sha256_eq _ d a1 b1]; rfl

/-- Value of a 32-bit secret word. -/
abbrev wordVal (x : Integer) : BitVec 32 := BitVec.ofNat 32 (val x)

/-- **C09.**  The compression computed on secret words is the FIPS 180-4 compression function, for all chaining
values and blocks. -/
theorem C09_compression (h chunk : List Integer) (hh : h.length = 8) (hw : ∀ x ∈ h, x.length = 32)
    (hc : chunk.length = 16) (hcw : ∀ x ∈ chunk, x.length = 32) :
    (chunkCompress Sha.new.k h chunk).length = 8 ∧ (∀ x ∈ chunkCompress Sha.new.k h chunk, x.length = 32)
      ∧ (chunkCompress Sha.new.k h chunk).map wordVal = SHA256.compress (h.map wordVal) (chunk.map wordVal) := by
  have e : ∀ l : List Integer, l.map wordVal = l.map bv := by
    intro l; apply List.map_congr_left; intro x _; rfl
  obtain ⟨a, b, c⟩ := chunkCompress_spec Sha.new.k h chunk ShaOk.new.k hw hh hcw hc
  exact ⟨b, a, by rw [e, e, e, c]⟩

/-- **C09.**  The compression computed natively on opened words is the same function. -/
theorem C09_compression_native (h : List (BitVec 32)) (chunk : List Byte) :
    plainChunkCompress h chunk = SHA256.compress h ((List.range 16).map fun i =>
      chunk.getD (4 * i) 0 ++ chunk.getD (4 * i + 1) 0 ++ chunk.getD (4 * i + 2) 0 ++ chunk.getD (4 * i + 3) 0) := by
  rw [plainChunkCompress_spec]
  refine congrArg _ (List.map_congr_left fun i _ => ?_)
  generalize chunk.getD (4 * i) 0 = a, chunk.getD (4 * i + 1) 0 = b, chunk.getD (4 * i + 2) 0 = c,
    chunk.getD (4 * i + 3) 0 = d
  apply BitVec.eq_of_getLsbD_eq
  intro j hj
  simp only [BitVec.getLsbD_or, BitVec.getLsbD_shiftLeft, BitVec.getLsbD_setWidth, BitVec.getLsbD_append]
  by_cases h1 : j < 8
  · simp [h1, show j < 16 by omega, show j < 24 by omega]; omega
  · by_cases h2 : j < 16
    · simp [h1, h2, show j < 24 by omega, show j - 8 < 8 by omega, BitVec.getLsbD_of_ge, hj, show 8 ≤ j by omega]
      omega
    · by_cases h3 : j < 24
      · simp [h1, h2, h3, show ¬ j - 8 < 8 by omega, show j - 8 - 8 < 8 by omega, BitVec.getLsbD_of_ge, hj,
          show 8 ≤ j by omega, show 8 ≤ j - 8 by omega, show j - 16 = j - 8 - 8 by omega]
        omega
      · simp [h1, h2, h3, show ¬ j - 8 < 8 by omega, show ¬ j - 8 - 8 < 8 by omega, BitVec.getLsbD_of_ge, hj,
          show 8 ≤ j by omega, show 8 ≤ j - 8 by omega, show 8 ≤ j - 16 by omega,
          show j - 24 = j - 8 - 8 - 8 by omega]
        omega

/-- **C09.**  `digest` returns SHA-256 of its message, from a fresh object. -/
theorem C09_digest (x : Integer) (h : x.length < 2 ^ 63) :
    ∃ d s', Sha.new.digest x false = .ok (d, s') ∧ d.length = 8 ∧ secBits d = SHA256.sha256 x.reverse := by
  obtain ⟨d, s', e, a, b, _⟩ := digest_step ShaInv.new x h false (by simp)
  exact ⟨d, s', e, a.2, sha256_eq _ d a b⟩

/-- **C09, C10, C11.**  Along every coherent history of calls on one object, every call returns SHA-256 of its
message: `opt_digest` of the 512 secret bits followed by the public bytes, `digest` and `opt_rounds_digest` of the
secret bits.  Indeterminate bytes of the work buffer (`garbage`) never matter. -/
theorem C09_history (ops : List ShaOp) (hc : Coherent none none ops) (hv : ∀ op ∈ ops, ShaOp.Valid op)
    (hl : ops.length ≤ 2 ^ 64) :
    ∃ s', Sha.new.run ops = .ok (ops.map fun op => (ShaOp.message op).map SHA256.sha256, s') :=
  run_spec ops _ _ _ ShaInv.new hc hv (by simpa [Sha.new] using hl)

/-- **C10.**  After any coherent history, `opt_digest` without reuse returns SHA-256 of the 512 secret bits followed
by the public bytes. -/
theorem C10_opt_digest (ops : List ShaOp) (hc : Coherent none none ops) (hv : ∀ op ∈ ops, ShaOp.Valid op)
    (hl : ops.length < 2 ^ 64) (g : List Byte) (sec : Integer) (pub : List Byte) (hg : g.length = 64)
    (hs : sec.length = 512) (hp : 512 + 8 * pub.length < 2 ^ 64) :
    ∃ os s', Sha.new.run (ops ++ [.optDigest g sec pub false]) = .ok (os, s')
      ∧ os.getLast? = some (some (SHA256.sha256 (sec.reverse ++ bytesBits pub))) := by
  have coh : ∀ (ops : List ShaOp) out inn, Coherent out inn ops →
      Coherent out inn (ops ++ [.optDigest g sec pub false]) := by
    intro ops
    induction ops with
    | nil => intro out inn _; simp [Coherent]
    | cons op ops ih =>
      intro out inn h
      cases op with
      | refresh => exact ih _ _ h
      | digest x r => exact ⟨h.1, ih _ _ h.2⟩
      | optDigest g' sec' pub' r => exact ⟨h.1, ih _ _ h.2⟩
      | optRounds x r => exact ⟨h.1, ih _ _ h.2⟩
  obtain ⟨s', e⟩ := C09_history (ops ++ [.optDigest g sec pub false]) (coh ops _ _ hc) (by
    intro op hop
    rcases List.mem_append.1 hop with h | h
    · exact hv op h
    · rw [List.mem_singleton.1 h]; exact ⟨hg, hs, hp⟩) (by simp; omega)
  exact ⟨_, s', e, by simp [ShaOp.message]⟩

/-- **C10/C11, negative.**  Mixing the two optimised digests with reuse on one object is not safe: after
`opt_rounds_digest` with reuse on a fresh object, every `opt_digest` with reuse reads outside the vector of opened
states, whatever the messages. -/
theorem C11_mixing_undefined (x sec : Integer) (hx : x.length < 2 ^ 63) (g pub : List Byte) (hs : sec.length = 512) :
    ∃ msg, Sha.new.run [.optRounds x true, .optDigest g sec pub true] = .error (.ub msg) := by
  obtain ⟨d, s', e, a, b, c, f⟩ := rounds_step ShaInv.new x hx true (by simp)
  have hin : s'.gcIn = true := (c.innSec _ rfl).1
  have hiv : s'.ivIn = [] := by rw [f]; rfl
  refine ⟨"opt_update: iv_in_hashes[pos] out of range", ?_⟩
  have hw := inputWords_eq sec
  have e2 : s'.optDigest g sec pub true false = .error (.ub "opt_update: iv_in_hashes[pos] out of range") := by
    unfold Sha.optDigest Sha.optUpdate Sha.optFirst
    simp only [hs, ne_eq, not_true_eq_false, if_false, bind, Except.bind, hw, hin, hiv]
    rfl
  simp only [Sha.run, Sha.step, bind, Except.bind, e, e2]

/-! A concrete history exercising every kind of call and both caches. -/
def demoHistory : List ShaOp :=
  [.digest (List.replicate 600 true) true, .optDigest (List.replicate 64 7) (List.replicate 512 true) [1, 2, 3] true,
   .optDigest (List.replicate 64 9) (List.replicate 512 true) [] true, .digest (List.replicate 700 true) true,
   .refresh, .optRounds (List.replicate 40 false) true, .optRounds (List.replicate 40 false) true,
   .digest [true] false]

example : Coherent none none demoHistory ∧ (∀ op ∈ demoHistory, ShaOp.Valid op) ∧ demoHistory.length ≤ 2 ^ 64 := by
  refine ⟨?_, ?_, by decide⟩
  · simp [-List.reduceReplicate, demoHistory, Coherent, firstBlock, SHA256.pad]
    rw [List.take_append_of_le_length (by rw [List.length_replicate]; omega),
      List.take_append_of_le_length (by rw [List.length_replicate]; omega), List.take_replicate, List.take_replicate]
    rfl
  · simp [-List.reduceReplicate, demoHistory, ShaOp.Valid]

end Verif.Props
