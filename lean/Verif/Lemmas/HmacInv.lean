import Verif.Lemmas.ShaInv
import Verif.Model.ShaHistory

/-! HMAC objects: invariant and one-step lemmas. -/

namespace Verif.Lemmas
open Verif.Model Verif.Model.Integer Verif.Model.SHA
open Verif.Spec Verif.Spec.Encoding

theorem wordBits_bv (x : Integer) (h : x.length = 32) : SHA256.wordBits (bv x) = x.reverse := by
  rw [SHA256.wordBits, ← ofNat_reverse, ofNat_bv x h]

theorem secBits_eq (d : List Integer) (h : Dig8 d) : secBits d = (d.map bv).flatMap SHA256.wordBits := by
  unfold secBits
  rw [concat_reverse, List.flatMap_map, List.flatMap_def]
  simp only [List.reverse_nil, List.nil_append]
  congr 1
  apply List.map_congr_left
  intro x hx
  exact (wordBits_bv x (h.1 x hx)).symm

theorem openBits_eq (d : List (BitVec 32)) : openBits d = d.flatMap SHA256.wordBits := by
  unfold openBits
  rw [concat_reverse, List.flatMap_def, List.map_map]
  simp only [List.reverse_nil, List.nil_append]
  congr 1
  apply List.map_congr_left
  intro x _
  simp [Function.comp, ofNat_reverse, SHA256.wordBits]

theorem length_compress (H m : List SHA256.Word) : (SHA256.compress H m).length = 8 := rfl

theorem length_sha256Words (m : List Bool) : (SHA256.sha256Words m).length = 8 := by
  rw [sha256Words_split, restState]
  generalize (m.length + 64) / 512 + 1 - 1 = n
  cases n with
  | zero => exact length_compress _ _
  | succ n =>
    rw [List.range_succ, List.foldl_append]
    exact length_compress _ _

theorem length_flatMap_wordBits (l : List SHA256.Word) : (l.flatMap SHA256.wordBits).length = 32 * l.length := by
  induction l with
  | nil => rfl
  | cons x xs ih =>
    rw [List.flatMap_cons, List.length_append, ih]
    simp [SHA256.wordBits]; omega

@[simp] theorem length_sha256 (m : List Bool) : (SHA256.sha256 m).length = 256 := by
  rw [SHA256.sha256, length_flatMap_wordBits, length_sha256Words]

theorem length_blockKey (k : List Bool) : (HMAC.blockKey k).length = 512 := by
  unfold HMAC.blockKey
  simp only
  split
  · rw [List.length_append, length_sha256, List.length_replicate]
  · rw [List.length_append, List.length_replicate]; omega

theorem length_padString (b : BitVec 8) : (HMAC.padString b).length = 512 := by
  simp [HMAC.padString]

theorem padConst_5c : (padConst 0x5c).reverse = HMAC.padString 0x5c := by decide +kernel
theorem padConst_36 : (padConst 0x36).reverse = HMAC.padString 0x36 := by decide +kernel

theorem xor_reverse (a b : Integer) (h : a.length = b.length) :
    (Integer.xor a b).reverse = HMAC.xorBits a.reverse b.reverse := by
  unfold Integer.xor HMAC.xorBits
  exact (List.reverse_zipWith h)

/-- Outer and inner block of the current key. -/
def oBlock (key : List Bool) : List Bool := HMAC.xorBits (HMAC.blockKey key) (HMAC.padString 0x5c)
def iBlock (key : List Bool) : List Bool := HMAC.xorBits (HMAC.blockKey key) (HMAC.padString 0x36)

theorem length_oBlock (key : List Bool) : (oBlock key).length = 512 := by
  simp [oBlock, HMAC.xorBits, length_blockKey, length_padString]
theorem length_iBlock (key : List Bool) : (iBlock key).length = 512 := by
  simp [iBlock, HMAC.xorBits, length_blockKey, length_padString]

/-- The object is keyed with `key`; `inn` tells which kind of inner state is cached. -/
structure HmacInv (m : Hmac) (key : List Bool) (inn : Option Bool) : Prop where
  sha : ∃ o, ShaInv m.sha o (inn.map fun k => (k, iBlock key)) ∧ (o = none ∨ o = some (oBlock key))
  opad : m.oKeyPad.reverse = oBlock key
  ipad : m.iKeyPad.reverse = iBlock key

theorem HmacInv.olen {m key inn} (h : HmacInv m key inn) : m.oKeyPad.length = 512 := by
  rw [← List.length_reverse, h.opad, length_oBlock]
theorem HmacInv.ilen {m key inn} (h : HmacInv m key inn) : m.iKeyPad.length = 512 := by
  rw [← List.length_reverse, h.ipad, length_iBlock]

/-- `init` establishes the invariant, from any object with sane tables. -/
theorem init_step (m : Hmac) (hpos : m.sha.pos = BitVec.ofNat 64 m.sha.ivIn.length - 1) (key : Integer)
    (hk : key.length < 2 ^ 63) :
    ∃ m', m.init key = .ok m' ∧ HmacInv m' key.reverse none ∧ m'.sha.ivIn = m.sha.ivIn := by
  have inv : ShaInv m.sha.refresh none none :=
    ⟨ShaOk.refresh m.sha, fun _ => rfl, by simp, fun _ => rfl, by simp, by simp, hpos⟩
  unfold Hmac.init
  have fin : ∀ padKey : Integer, padKey.reverse = HMAC.blockKey key.reverse →
      (Integer.xor padKey (padConst 0x5c)).reverse = oBlock key.reverse
      ∧ (Integer.xor padKey (padConst 0x36)).reverse = iBlock key.reverse := by
    intro p hp
    have hl : p.length = 512 := by rw [← List.length_reverse, hp, length_blockKey]
    have h5 : (padConst 0x5c).length = 512 := by
      rw [← List.length_reverse, padConst_5c, length_padString]
    have h3 : (padConst 0x36).length = 512 := by
      rw [← List.length_reverse, padConst_36, length_padString]
    rw [xor_reverse _ _ (by rw [hl, h5]), xor_reverse _ _ (by rw [hl, h3]), hp, padConst_5c, padConst_36]
    exact ⟨rfl, rfl⟩
  by_cases hl : key.length > 512
  · obtain ⟨dig, s', d1, d2, d3, d4, d5⟩ := digest_step inv key hk false (by simp)
    simp only [hl, if_true, d1, bind, Except.bind]
    have e256 : 512 - 8 * 32 = 256 := rfl
    rw [e256]
    have hp : (concat (concat [] dig) [ofNat 256 0]).reverse = HMAC.blockKey key.reverse := by
      rw [concat_reverse]
      have := secBits_eq dig d2
      rw [secBits] at this
      rw [this, d3]
      unfold HMAC.blockKey
      have hl' : key.reverse.length > 512 := by simpa using hl
      simp only [hl', if_true]
      have : (List.flatMap SHA256.wordBits (SHA256.sha256Words key.reverse)) = SHA256.sha256 key.reverse := rfl
      rw [this, length_sha256, ofNat_zero]
      rw [List.map_singleton, List.reverse_replicate, List.flatten_singleton]
    generalize concat (concat [] dig) [ofNat 256 0] = p at hp ⊢
    obtain ⟨f1, f2⟩ := fin p hp
    exact ⟨_, rfl, ⟨⟨none, d4, Or.inl rfl⟩, f1, f2⟩, by rw [d5]; rfl⟩
  · simp only [hl, if_false, bind, Except.bind]
    have hp : (concat key [ofNat (512 - key.length) 0]).reverse = HMAC.blockKey key.reverse := by
      rw [concat_reverse]
      unfold HMAC.blockKey
      have hl' : ¬ key.reverse.length > 512 := by simpa using hl
      simp only [hl', if_false]
      simp [ofNat_zero]
    obtain ⟨f1, f2⟩ := fin _ hp
    exact ⟨_, rfl, ⟨⟨none, inv, Or.inl rfl⟩, f1, f2⟩, rfl⟩

theorem sha256_eq (m : List Bool) (d : List Integer) (h : Dig8 d) (hd : d.map bv = SHA256.sha256Words m) :
    secBits d = SHA256.sha256 m := by
  rw [secBits_eq d h, hd]; rfl

theorem hmac_step {m : Hmac} {key inn} (h : HmacInv m key inn) (msg : Integer) (hm : msg.length < 2 ^ 62) :
    ∃ d m', m.hmac msg = .ok (d, m') ∧ Dig8 d ∧ secBits d = HMAC.hmac key msg.reverse ∧ HmacInv m' key inn
      ∧ m'.sha.ivIn = m.sha.ivIn := by
  obtain ⟨o, inv, ho⟩ := h.sha
  have hi : (concat m.iKeyPad [msg]).reverse = iBlock key ++ msg.reverse := by
    rw [concat_reverse, h.ipad]; simp
  obtain ⟨d1, s1, e1, a1, b1, c1, f1⟩ := digest_step inv (concat m.iKeyPad [msg])
    (by rw [← List.length_reverse, hi]; simp [length_iBlock]; omega) false (by simp)
  rw [hi] at b1
  have hb1 := sha256_eq _ d1 a1 b1
  have hoo : (concat m.oKeyPad d1).reverse = oBlock key ++ SHA256.sha256 (iBlock key ++ msg.reverse) := by
    rw [concat_reverse, h.opad, ← hb1, secBits, concat_reverse]; simp
  obtain ⟨d2, s2, e2, a2, b2, c2, f2⟩ := digest_step c1 (concat m.oKeyPad d1)
    (by rw [← List.length_reverse, hoo]; simp [length_oBlock]) false (by simp)
  rw [hoo] at b2
  refine ⟨d2, { m with sha := s2, shaCalls := m.shaCalls + 2 }, ?_, a2, sha256_eq _ d2 a2 b2,
    ⟨⟨o, c2, ho⟩, h.opad, h.ipad⟩, by show s2.ivIn = _; rw [f2, f1]⟩
  unfold Hmac.hmac
  simp only [bind, Except.bind, e1, e2]

theorem outer_step {m : Hmac} {key} {o inn} (s : Sha) (inv : ShaInv s o inn)
    (ho : o = none ∨ o = some (oBlock key)) (hop : m.oKeyPad.reverse = oBlock key) (d1 : List Integer)
    (inner : List Bool) (hin : (concat [] d1).reverse = SHA256.sha256 inner) (ro : Bool) :
    ∃ d2 s2 o2, s.digest (concat m.oKeyPad d1) ro = .ok (d2, s2) ∧ Dig8 d2
      ∧ secBits d2 = SHA256.sha256 (oBlock key ++ SHA256.sha256 inner)
      ∧ ShaInv s2 o2 inn ∧ (o2 = none ∨ o2 = some (oBlock key)) ∧ s2.ivIn = s.ivIn := by
  have hoo : (concat m.oKeyPad d1).reverse = oBlock key ++ SHA256.sha256 inner := by
    rw [concat_reverse, hop, ← hin, concat_reverse]; simp
  obtain ⟨d2, s2, e2, a2, b2, c2, f2⟩ := digest_step inv (concat m.oKeyPad d1)
    (by rw [← List.length_reverse, hoo]; simp [length_oBlock]) ro (by
      intro _ b hb
      rw [hoo, block0_eq _ _ (length_oBlock key)]
      rcases ho with rfl | rfl
      · simp at hb
      · simpa using hb.symm)
  rw [hoo] at b2
  refine ⟨d2, s2, _, e2, a2, sha256_eq _ d2 a2 b2, c2, ?_, by rw [f2]⟩
  cases ro with
  | false => simpa using ho
  | true => right; simp [hoo, block0_eq _ _ (length_oBlock key)]

theorem optHmac_step {m : Hmac} {key inn} (h : HmacInv m key inn) (g : List Byte) (hg : g.length = 64)
    (msg : List Byte) (hm : 512 + 8 * msg.length < 2 ^ 64) (hsz : m.sha.ivIn.length ≤ 2 ^ 64) (ri ro : Bool)
    (hc : ri = true → inn ≠ some true) :
    ∃ d m', m.optHmac g msg ri ro false = .ok (d, m') ∧ Dig8 d ∧ secBits d = HMAC.hmac key (bytesBits msg)
      ∧ HmacInv m' key (if ri then some false else inn) ∧ m'.sha.ivIn.length ≤ m.sha.ivIn.length + 1 := by
  obtain ⟨o, inv, ho⟩ := h.sha
  obtain ⟨dig, s1, e1, b1, c1, l1, f1⟩ := opt_step inv g hg m.iKeyPad h.ilen msg hm ri hsz (by
    intro hr k b hb
    cases inn with
    | none => simp at hb
    | some k' =>
      simp only [Option.map_some, Option.some.injEq, Prod.mk.injEq] at hb
      obtain ⟨rfl, rfl⟩ := hb
      refine ⟨?_, h.ipad.symm⟩
      have := hc hr
      cases k' <;> simp_all)
  have hin : (concat [] (dig.map fun d => ofNat 32 d.toNat)).reverse
      = SHA256.sha256 (iBlock key ++ bytesBits msg) := by
    have := openBits_eq dig
    rw [openBits] at this
    rw [this, b1, h.ipad]; rfl
  obtain ⟨d2, s2, o2, e2, a2, b2, c2, ho2, hiv⟩ := outer_step (m := m) s1 c1 ho h.opad _ _ hin ro
  refine ⟨d2, { m with sha := s2, shaCalls := m.shaCalls + 2 }, ?_, a2, b2, ⟨⟨o2, ?_, ho2⟩, h.opad, h.ipad⟩, ?_⟩
  · unfold Hmac.optHmac
    simp only [bind, Except.bind, e1, e2]
  · have : (if ri = true then some (false, m.iKeyPad.reverse) else Option.map (fun k => (k, iBlock key)) inn)
        = Option.map (fun k => (k, iBlock key)) (if ri = true then some false else inn) := by
      cases ri <;> simp [h.ipad]
    rw [← this]; exact c2
  · show s2.ivIn.length ≤ _
    rw [hiv]; exact l1

theorem roundsHmac_step {m : Hmac} {key inn} (h : HmacInv m key inn) (msg : Integer) (hm : msg.length < 2 ^ 62)
    (ri ro : Bool) (hc : ri = true → inn ≠ some false) :
    ∃ d m', m.optRoundsHmac msg ri ro = .ok (d, m') ∧ Dig8 d ∧ secBits d = HMAC.hmac key msg.reverse
      ∧ HmacInv m' key (if ri then some true else inn) ∧ m'.sha.ivIn = m.sha.ivIn := by
  obtain ⟨o, inv, ho⟩ := h.sha
  have hi : (concat m.iKeyPad [msg]).reverse = iBlock key ++ msg.reverse := by
    rw [concat_reverse, h.ipad]; simp
  obtain ⟨dig, s1, e1, a1, b1, c1, f1⟩ := rounds_step inv (concat m.iKeyPad [msg])
    (by rw [← List.length_reverse, hi]; simp [length_iBlock]; omega) ri (by
    intro hr k b hb
    rw [hi, block0_eq _ _ (length_iBlock key)]
    cases inn with
    | none => simp at hb
    | some k' =>
      simp only [Option.map_some, Option.some.injEq, Prod.mk.injEq] at hb
      obtain ⟨rfl, rfl⟩ := hb
      refine ⟨?_, rfl⟩
      have := hc hr
      cases k' <;> simp_all)
  rw [hi] at b1 c1
  have hb1 := sha256_eq _ dig a1 b1
  obtain ⟨d2, s2, o2, e2, a2, b2, c2, ho2, hiv⟩ := outer_step (m := m) s1 c1 ho h.opad dig _ hb1 ro
  refine ⟨d2, { m with sha := s2, shaCalls := m.shaCalls + 2 }, ?_, a2, b2, ⟨⟨o2, ?_, ho2⟩, h.opad, h.ipad⟩, ?_⟩
  · unfold Hmac.optRoundsHmac
    simp only [bind, Except.bind, e1, e2]
  · rw [block0_eq _ _ (length_iBlock key)] at c2
    have : (if ri = true then some (true, iBlock key) else Option.map (fun k => (k, iBlock key)) inn)
        = Option.map (fun k => (k, iBlock key)) (if ri = true then some true else inn) := by
      cases ri <;> simp
    rw [← this]; exact c2
  · show s2.ivIn = _
    rw [hiv, f1]

end Verif.Lemmas
