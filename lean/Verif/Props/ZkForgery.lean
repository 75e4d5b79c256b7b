import Verif.Model.ZkVerifier
import Verif.Props.Session
import Verif.Lemmas.Sampling

/-!
C73: how often the verifier of the proof phase accepts a wrong session.
-/

namespace Verif.Props.ZkForgery
open Verif.Model Verif.Model.Integer Verif.Model.AEADProof Verif.Model.SHA Verif.Model.ZkCheck Verif.Model.Session Verif.Model.ZkVerifier
open Verif.Spec Verif.Spec.Encoding
open Verif.Props.HandshakeProof (Short master Ready bind_ok)
open Verif.Lemmas Verif.Props Verif.Props.AEADProof Verif.Props.Session

/-! ### Statement -/

/-- What an item claims. -/
def Claims : Item → Prop
  | .check c => Holds c
  | .words x w => x = wordsInt w
  | .opening x y => x = y

/-- One block of ALICE per wire; as many bits are received as are opened. -/
def Fits (i : Item) (M : Macs) : Prop :=
  match i with
  | .check (.block r p _) => M.res.length = r.length ∧ M.pre.length = p.length
  | .check (.bytes r p _) => M.res.length = r.length ∧ M.pre.length = p.length
  | .check (.data r _) => M.res.length = r.length
  | .words x _ => M.res.length = x.length
  | .opening x y => M.res.length = x.length ∧ y.length = x.length

/-! ### One item -/

theorem wireKey_eq (d m : Block) (b : Bool) : wireKey d m b = m ^^^ bitMul d b := by cases b <;> simp [wireKey, bitMul]

theorem mac_keysOf (d : Block) (macs : List Block) (x : Integer) (h : macs.length = x.length) : Mac d macs (keysOf d macs x) x := by
  refine ⟨by simp [keysOf, h], ?_⟩
  apply List.ext_getElem
  · simp [keysOf, h]
  · intro i h1 h2
    simp only [keysOf, List.getElem_zipWith, wireKey_eq, BitVec.xor_assoc, BitVec.xor_self, BitVec.xor_zero]

theorem keys_of_mac {d : Block} {macs keys : List Block} {x : Integer} (h : Mac d macs keys x) : keys = keysOf d macs x := by
  apply List.ext_getElem
  · simp [keysOf, h.mac_len, h.len]
  · intro i h1 h2
    have hi : i < x.length := by rw [← h.len]; exact h1
    simp only [keysOf, List.getElem_zipWith, wireKey_eq, h.get i hi, BitVec.xor_assoc, BitVec.xor_self, BitVec.xor_zero]

/-- The bits that are zero if the item is right. -/
def value : Item → Integer
  | .check (.block r p g) => Integer.xor r (Integer.xor p (blockBits g))
  | .check (.bytes r p g) => Integer.xor r (Integer.xor p (ofBytes g))
  | .check (.data r d) => Integer.xor (ofBytes d) r
  | .words x w => Integer.xor (wordsInt w) x
  | .opening x y => Integer.xor x y

/-- The lengths the code asks for. -/
def Lengths : Item → Prop
  | .check (.block r p _) => p.length = 128 ∧ r.length = 128
  | .check (.bytes r p g) => p.length = g.length * 8 ∧ r.length = g.length * 8
  | .check (.data r d) => r.length = d.length * 8
  | .words x w => x.length = 32 * w.length
  | .opening _ _ => True

theorem keysOf_length (d : Block) (macs : List Block) (x : Integer) (h : macs.length = x.length) : (keysOf d macs x).length = x.length := by
  simp [keysOf, h]

/-- What BOB puts for an item of the right lengths. -/
theorem put_ok (d : Block) (pub : Bool → Block) (t : List Block) (i : Item) (M : Macs) (hf : Fits i M) (hl : Lengths i) :
    put d pub t i M = .ok (t ++ keysOf d (putMacs pub i M) (value i)) ∧ (putMacs pub i M).length = (value i).length
      ∧ ((∀ b ∈ value i, b = false) ↔ Claims i) := by
  have hpub : ∀ x : Integer, Mac d (x.map pub) (x.map fun b => wireKey d (pub b) b) x := by
    intro x
    refine ⟨by simp, ?_⟩
    apply List.ext_getElem
    · simp
    · intro i h1 h2
      simp only [List.getElem_map, List.getElem_zipWith, wireKey_eq, BitVec.xor_assoc, BitVec.xor_self, BitVec.xor_zero]
  match i with
  | .check (.block r p g) =>
    obtain ⟨f1, f2⟩ := hf
    obtain ⟨l1, l2⟩ := hl
    have mr := mac_keysOf d M.res r f1
    have mp := mac_keysOf d M.pre p f2
    have hb : (blockBits g).length = p.length := by simp [blockBits, l1]
    have hx : r.length = (Integer.xor p (blockBits g)).length := by simp [Integer.xor, hb, l1, l2]
    have m := mr.xor (mp.addBits (blockBits g) hb) hx
    refine ⟨?_, m.mac_len, xor_zero_iff _ _ hx⟩
    show homBlock _ _ _ _ _ = _
    rw [homBlock, if_neg (by rw [mp.len, l1]; simp), if_neg (by rw [mr.len, l2]; simp), addBlock_eq _ _ (by rw [mp.len, l1])]
    exact congrArg (fun x => Except.ok (t ++ x)) (keys_of_mac m)
  | .check (.bytes r p g) =>
    obtain ⟨f1, f2⟩ := hf
    obtain ⟨l1, l2⟩ := hl
    have mr := mac_keysOf d M.res r f1
    have mp := mac_keysOf d M.pre p f2
    have hb : (ofBytes g).length = p.length := by rw [length_ofBytes]; omega
    have hx : r.length = (Integer.xor p (ofBytes g)).length := by simp only [Integer.xor, List.length_zipWith, hb]; omega
    have m := mr.xor (mp.addBits (ofBytes g) hb) hx
    refine ⟨?_, m.mac_len, xor_zero_iff _ _ hx⟩
    show homBytes _ _ _ _ _ _ = _
    rw [homBytes, if_neg (by rw [mp.len, l1]; simp), if_neg (by rw [mr.len, l2]; simp), List.take_length]
    exact congrArg (fun x => Except.ok (t ++ x)) (keys_of_mac m)
  | .check (.data r w) =>
    have mr := mac_keysOf d M.res r hf
    have hl : r.length = w.length * 8 := hl
    have hx : (ofBytes w).length = r.length := by rw [length_ofBytes]; omega
    have m := (hpub (ofBytes w)).xor mr hx
    refine ⟨?_, m.mac_len, by rw [value, xor_zero_iff _ _ hx]; exact eq_comm⟩
    show zeroData _ _ _ _ _ = _
    rw [zeroData, if_neg (by rw [mr.len, hl]; simp)]
    exact congrArg (fun x => Except.ok (t ++ x)) (keys_of_mac m)
  | .words x w =>
    have mr := mac_keysOf d M.res x hf
    have hl : x.length = 32 * w.length := hl
    have hx : (wordsInt w).length = x.length := by rw [length_wordsInt]; omega
    have m := (hpub (wordsInt w)).xor mr hx
    refine ⟨?_, m.mac_len, by rw [value, xor_zero_iff _ _ hx]; exact eq_comm⟩
    show zeroData _ _ _ _ _ = _
    rw [zeroData, if_neg (by rw [mr.len, hl]; simp)]
    exact congrArg (fun x => Except.ok (t ++ x)) (keys_of_mac m)
  | .opening x y =>
    obtain ⟨f1, f2⟩ := hf
    have mr := mac_keysOf d M.res x f1
    have m := mr.addBits y f2
    refine ⟨?_, m.mac_len, xor_zero_iff _ _ f2.symm⟩
    exact congrArg (fun x => Except.ok (t ++ x)) (keys_of_mac m)

/-- An item that BOB does not refuse has the right lengths. -/
theorem put_lengths {d : Block} {pub : Bool → Block} {t u : List Block} {i : Item} {M : Macs} (hf : Fits i M) (h : put d pub t i M = .ok u) : Lengths i := by
  match i with
  | .check (.block r p g) =>
    obtain ⟨f1, f2⟩ := hf
    have h : homBlock _ _ _ _ _ = _ := h
    rw [homBlock, keysOf_length _ _ _ f1, keysOf_length _ _ _ f2] at h
    by_contra hn
    simp only [Lengths] at hn
    split at h
    · cases h
    · rw [if_pos (by omega)] at h; cases h
  | .check (.bytes r p g) =>
    obtain ⟨f1, f2⟩ := hf
    have h : homBytes _ _ _ _ _ _ = _ := h
    rw [homBytes, keysOf_length _ _ _ f1, keysOf_length _ _ _ f2] at h
    by_contra hn
    simp only [Lengths] at hn
    split at h
    · cases h
    · rw [if_pos (by omega)] at h; cases h
  | .check (.data r w) =>
    have h : zeroData _ _ _ _ _ = _ := h
    rw [zeroData, keysOf_length _ _ _ hf] at h
    by_contra hn
    simp only [Lengths] at hn
    rw [if_pos hn] at h; cases h
  | .words x w =>
    have h : zeroData _ _ _ _ _ = _ := h
    rw [zeroData, keysOf_length _ _ _ hf] at h
    by_contra hn
    simp only [Lengths] at hn
    rw [if_pos hn] at h; cases h
  | .opening x y => trivial

/-! ### All items -/

/-- ALICE's blocks and the bits of all items. -/
def allMacs (pub : Bool → Block) (l : List (Item × Macs)) : List Block := l.flatMap fun p => putMacs pub p.1 p.2
def allBits (l : List (Item × Macs)) : Integer := l.flatMap fun p => value p.1

theorem keysOf_append (d : Block) (a a' : List Block) (x x' : Integer) (h : a.length = x.length) :
    keysOf d (a ++ a') (x ++ x') = keysOf d a x ++ keysOf d a' x' := by
  rw [keysOf, List.zipWith_append h]; rfl

theorem putAll_ok (d : Block) (pub : Bool → Block) (l : List (Item × Macs)) (hf : ∀ p ∈ l, Fits p.1 p.2) (hl : ∀ p ∈ l, Lengths p.1) :
    ∀ t, putAll d pub t l = .ok (t ++ keysOf d (allMacs pub l) (allBits l)) := by
  induction l with
  | nil => intro t; simp [putAll, allMacs, allBits, keysOf]
  | cons p l ih =>
    intro t
    obtain ⟨i, M⟩ := p
    obtain ⟨e, el, -⟩ := put_ok d pub t i M (hf (i, M) (by simp)) (hl (i, M) (by simp))
    simp only [putAll, bind, Except.bind, e]
    rw [ih (fun p hp => hf p (by simp [hp])) (fun p hp => hl p (by simp [hp]))]
    simp only [allMacs, allBits, List.flatMap_cons]
    rw [keysOf_append _ _ _ _ _ el, List.append_assoc]

theorem putAll_lengths {d : Block} {pub : Bool → Block} (l : List (Item × Macs)) (hf : ∀ p ∈ l, Fits p.1 p.2) :
    ∀ {t u}, putAll d pub t l = .ok u → ∀ p ∈ l, Lengths p.1 := by
  induction l with
  | nil => simp
  | cons p l ih =>
    obtain ⟨i, M⟩ := p
    intro t u h p hp
    simp only [putAll, bind, Except.bind] at h
    split at h
    · cases h
    · rename_i t' ht
      rcases List.mem_cons.1 hp with rfl | hp
      · exact put_lengths (hf (i, M) (by simp)) ht
      · exact ih (fun p hp => hf p (by simp [hp])) h p hp

theorem allMacs_length (pub : Bool → Block) (l : List (Item × Macs)) (hf : ∀ p ∈ l, Fits p.1 p.2) (hl : ∀ p ∈ l, Lengths p.1) :
    (allMacs pub l).length = (allBits l).length := by
  induction l with
  | nil => rfl
  | cons p l ih =>
    simp only [allMacs, allBits, List.flatMap_cons, List.length_append] at ih ⊢
    rw [ih (fun p hp => hf p (by simp [hp])) (fun p hp => hl p (by simp [hp])),
      (put_ok 0 pub [] p.1 p.2 (hf _ (by simp)) (hl _ (by simp))).2.1]

theorem allBits_false (l : List (Item × Macs)) (hf : ∀ p ∈ l, Fits p.1 p.2) (hl : ∀ p ∈ l, Lengths p.1) :
    (∀ b ∈ allBits l, b = false) ↔ ∀ p ∈ l, Claims p.1 := by
  constructor
  · intro h p hp
    refine (put_ok 0 (fun _ => 0) [] p.1 p.2 (hf p hp) (hl p hp)).2.2.1 fun b hb => h b ?_
    exact List.mem_flatMap.2 ⟨p, hp, hb⟩
  · intro h b hb
    obtain ⟨p, hp, hb⟩ := List.mem_flatMap.1 hb
    exact (put_ok 0 (fun _ => 0) [] p.1 p.2 (hf p hp) (hl p hp)).2.2.2 (h p hp) b hb

/-- **C73, offsets.**  If one of the items is wrong, BOB hashes different blocks for any two different offsets, whatever equally many blocks came before. -/
theorem C73_offset (pub : Bool → Block) (l : List (Item × Macs)) (hf : ∀ p ∈ l, Fits p.1 p.2) (hw : ∃ p ∈ l, ¬Claims p.1)
    (d d' : Block) (t t' u u' : List Block) (ht : t.length = t'.length) (h : putAll d pub t l = .ok u) (h' : putAll d' pub t' l = .ok u') (hd : d ≠ d') :
    u ≠ u' := by
  have hl := putAll_lengths l hf h
  rw [putAll_ok d pub l hf hl] at h
  rw [putAll_ok d' pub l hf hl] at h'
  simp only [Except.ok.injEq] at h h'
  rintro rfl
  rw [← h] at h'
  have e := (List.append_inj h' ht.symm).2
  have hne : ∃ b ∈ allBits l, b = true := by
    by_contra hn
    push Not at hn
    obtain ⟨p, hp, hc⟩ := hw
    exact hc ((allBits_false l hf hl).1 (fun b hb => by simpa using hn b hb) p hp)
  obtain ⟨b, hb, rfl⟩ := hne
  obtain ⟨k, hk, hb⟩ := List.getElem_of_mem hb
  have hml := allMacs_length pub l hf hl
  have := congrArg (fun x : List Block => x[k]?) e
  simp only [keysOf, List.getElem?_zipWith, List.getElem?_eq_getElem hk, List.getElem?_eq_getElem (hml ▸ hk : k < (allMacs pub l).length), hb,
    Option.some.injEq, wireKey, if_true] at this
  apply hd
  have := congrArg ((allMacs pub l)[k]'(hml ▸ hk) ^^^ ·) this
  simpa [← BitVec.xor_assoc] using this.symm

/-! ### Counting -/

/-- The offsets BOB may hold: those whose lowest bit is set. -/
def Odd (d : Block) : Prop := d.getLsbD 0 = true

/-- BOB runs through the items and its digest is the one received. -/
def Passes {δ : Type} (D : List Block → δ) (pub : Bool → Block) (T : Block → List Block) (l : List (Item × Macs)) (dig : δ) (d : Block) : Prop :=
  ∃ u, putAll d pub (T d) l = .ok u ∧ D u = dig

/-- Two offsets for which BOB hashes different blocks to the same digest. -/
def Collides {δ : Type} (D : List Block → δ) (pub : Bool → Block) (T : Block → List Block) (l : List (Item × Macs)) : Prop :=
  ∃ d d' u u', putAll d pub (T d) l = .ok u ∧ putAll d' pub (T d') l = .ok u' ∧ u ≠ u' ∧ D u = D u'

theorem card_odd : Nat.card {d : Block // Odd d} = 2 ^ 127 := by
  rw [Nat.card_eq_of_bijective (α := {d : Block // Odd d}) (β := Fin (2 ^ 127)) (fun d => ⟨d.1.toNat / 2, by have := d.1.isLt; omega⟩) ⟨?_, ?_⟩, Nat.card_fin]
  · rintro ⟨d, hd⟩ ⟨e, he⟩ h
    have h1 : d.toNat % 2 = 1 := by simpa [Odd, BitVec.getLsbD, Nat.testBit_zero] using hd
    have h2 : e.toNat % 2 = 1 := by simpa [Odd, BitVec.getLsbD, Nat.testBit_zero] using he
    simp only [Fin.mk.injEq] at h
    rw [Subtype.mk.injEq]
    apply BitVec.eq_of_toNat_eq
    omega
  · intro x
    have hx := x.isLt
    refine ⟨⟨BitVec.ofNat 128 (2 * x.1 + 1), ?_⟩, ?_⟩
    · simp [Odd, BitVec.getLsbD, Nat.testBit_zero]
    · apply Fin.ext
      simp only [BitVec.toNat_ofNat]
      omega

/-- **C73, counting.**  If one of the items is wrong, at most one offset in `2^127` lets ALICE's digest pass, whatever ALICE's blocks and digest, unless
two of BOB's transcripts collide. -/
theorem C73_count {δ : Type} (D : List Block → δ) (pub : Bool → Block) (T : Block → List Block) (hT : ∀ d d', (T d).length = (T d').length)
    (l : List (Item × Macs)) (hf : ∀ p ∈ l, Fits p.1 p.2) (hw : ∃ p ∈ l, ¬Claims p.1) (dig : δ) (hn : ¬Collides D pub T l) :
    Nat.card {d : Block // Odd d ∧ Passes D pub T l dig d} * 2 ^ 127 ≤ Nat.card {d : Block // Odd d} := by
  rw [card_odd]
  suffices h : Nat.card {d : Block // Odd d ∧ Passes D pub T l dig d} ≤ 1 by
    calc _ ≤ 1 * 2 ^ 127 := Nat.mul_le_mul_right _ h
      _ = _ := Nat.one_mul _
  rw [Finite.card_le_one_iff_subsingleton]
  refine ⟨fun ⟨d, _, u, hu, e⟩ ⟨d', _, u', hu', e'⟩ => ?_⟩
  rw [Subtype.mk.injEq]
  by_contra hd
  exact hn ⟨d, d', u, u', hu, hu', C73_offset pub l hf hw d d' _ _ u u' (hT d d') hu hu' hd, e.trans e'.symm⟩

/-- **C73, an honest ALICE is accepted.**  If all items are right (and of the lengths the code asks for) BOB puts, for every offset, what ALICE puts. -/
theorem C73_honest (pub : Bool → Block) (l : List (Item × Macs)) (hf : ∀ p ∈ l, Fits p.1 p.2) (hl : ∀ p ∈ l, Lengths p.1) (hc : ∀ p ∈ l, Claims p.1)
    (d : Block) (t : List Block) : putAll d pub t l = .ok (t ++ l.flatMap fun p => putMacs pub p.1 p.2) := by
  rw [putAll_ok d pub l hf hl]
  have hz := (allBits_false l hf hl).2 hc
  have hml := allMacs_length pub l hf hl
  have : keysOf d (allMacs pub l) (allBits l) = allMacs pub l := by
    apply List.ext_getElem
    · rw [keysOf_length _ _ _ hml, hml]
    · intro i h1 h2
      simp only [keysOf, List.getElem_zipWith, wireKey, hz _ (List.getElem_mem _)]
      simp
  rw [this]; rfl

/-! ### The parties -/

/-- The bytes of a word of `uint32_t` data, least significant first. -/
def leBytes (w : BitVec 32) : List Byte := [w.extractLsb' 0 8, w.extractLsb' 8 8, w.extractLsb' 16 8, w.extractLsb' 24 8]

theorem ofBytes_leBytes (w : List (BitVec 32)) : ofBytes (w.flatMap leBytes) = wordsInt w := by
  unfold ofBytes wordsInt
  rw [List.flatMap_assoc]
  congr 1
  funext x
  simp only [leBytes, List.flatMap_cons, List.flatMap_nil, ofNat, List.append_nil, List.cons_append, List.nil_append, BitVec.extractLsb'_toNat, Nat.shiftRight_zero,
    Nat.shiftRight_eq_div_pow, List.cons.injEq, and_true]
  refine ⟨?_, ?_, ?_, ?_, ?_, ?_, ?_, ?_, ?_, ?_, ?_, ?_, ?_, ?_, ?_, ?_, ?_, ?_, ?_, ?_, ?_, ?_, ?_, ?_, ?_, ?_, ?_, ?_, ?_, ?_, ?_, ?_⟩ <;>
    exact congrArg (· == 1) (by omega)

/-- **C73, the parties.**  The functions of both parties (`Verif.Model.ZkCheck`) put on BOB's side what BOB puts alone, and on ALICE's side what ALICE puts
alone, whatever ALICE's values. -/
theorem C73_parties (d : Block) (pub : Bool → Block) (t : Tr) (M : Macs) :
    (∀ r p g t' k, homAddBlock d t M.res (keysOf d M.res r) M.pre (keysOf d M.pre p) g = .ok (t', k) → Fits (.check (.block r p g)) M →
      put d pub t.b (.check (.block r p g)) M = .ok t'.b ∧ t'.a = t.a ++ putMacs pub (.check (.block r p g)) M)
    ∧ (∀ r p g t' k, homAddBytes d t M.res (keysOf d M.res r) M.pre (keysOf d M.pre p) g g.length = .ok (t', k) → Fits (.check (.bytes r p g)) M →
      put d pub t.b (.check (.bytes r p g)) M = .ok t'.b ∧ t'.a = t.a ++ putMacs pub (.check (.bytes r p g)) M)
    ∧ (∀ r w t', checkZeroData ⟨pub, fun b => wireKey d (pub b) b⟩ 1 w.length t M.res (keysOf d M.res r) w w = .ok t' → Fits (.check (.data r w)) M →
      put d pub t.b (.check (.data r w)) M = .ok t'.b ∧ t'.a = t.a ++ putMacs pub (.check (.data r w)) M)
    ∧ (∀ x w t', checkZeroData ⟨pub, fun b => wireKey d (pub b) b⟩ 4 w.length t M.res (keysOf d M.res x) (w.flatMap leBytes) (w.flatMap leBytes) = .ok t' →
      Fits (.words x w) M → put d pub t.b (.words x w) M = .ok t'.b ∧ t'.a = t.a ++ putMacs pub (.words x w) M) := by
  refine ⟨?_, ?_, ?_, ?_⟩
  · intro r p g t' k h ⟨f1, f2⟩
    unfold homAddBlock at h
    split at h
    · cases h
    · split at h
      · cases h
      · rename_i h1 h2
        simp only [Except.ok.injEq, Prod.mk.injEq] at h
        obtain ⟨rfl, -⟩ := h
        refine ⟨?_, rfl⟩
        show homBlock _ _ _ _ _ = _
        rw [homBlock, keysOf_length _ _ _ f1, keysOf_length _ _ _ f2, ← f1, ← f2, if_neg h1, if_neg h2]
        rfl
  · intro r p g t' k h ⟨f1, f2⟩
    unfold homAddBytes at h
    split at h
    · cases h
    · split at h
      · cases h
      · rename_i h1 h2
        simp only [Except.ok.injEq, Prod.mk.injEq] at h
        obtain ⟨rfl, -⟩ := h
        refine ⟨?_, rfl⟩
        show homBytes _ _ _ _ _ _ = _
        rw [homBytes, keysOf_length _ _ _ f1, keysOf_length _ _ _ f2, ← f1, ← f2, if_neg h1, if_neg h2]
        rfl
  · intro r w t' h f
    have f : M.res.length = r.length := f
    unfold checkZeroData at h
    split at h
    · cases h
    · rename_i h1
      simp only at h
      split at h
      · cases h
      · simp only [Except.ok.injEq] at h
        subst h
        refine ⟨?_, rfl⟩
        show zeroData _ _ _ _ _ = _
        rw [zeroData, keysOf_length _ _ _ f, ← f, if_neg (by rw [Nat.mul_one] at h1; exact h1)]
        rfl
  · intro x w t' h f
    have f : M.res.length = x.length := f
    unfold checkZeroData at h
    split at h
    · cases h
    · rename_i h1
      simp only at h
      split at h
      · cases h
      · simp only [Except.ok.injEq] at h
        subst h
        rw [ofBytes_leBytes]
        refine ⟨?_, rfl⟩
        show zeroData _ _ _ _ _ = _
        rw [zeroData, keysOf_length _ _ _ f, ← f, if_neg (by omega)]
        rfl

/-! ### The session -/

theorem finalize_eq {p : Post} {Pc Ps : Proof} (hc : p.pc = some Pc) (hs : p.ps = some Ps) (finc fins : PostRecord.Rec)
    (out : List (Claim × Integer × Integer)) (aadLen : Nat) :
    p.finalize finc fins out aadLen =
      (let enc := out.filter (·.1.kind = .client)
      let dec := out.filter (·.1.kind ≠ .client)
      if ¬ ((finc :: fins :: (enc.map (·.1.buf) ++ dec.map (·.1.buf))).all (PostRecord.Rec.readable aadLen)) then .error (.ub "buffer too short")
      else
        let h := openedValue Pc.H Ps.H p.zc p.zs (enc.map (·.2.2)) (dec.map (·.2.2))
        if h.length ≠ 128 * (4 + enc.length + dec.length) then .error (.ub "blks_h: partly uninitialised or overflown")
        else .ok (judge finc fins (enc.map (·.1.buf)) (dec.map (·.1.buf)) aadLen h)) := by
  have tk : ∀ {α β : Type} (l : List α) (f : α → β), (l.map f).take l.length = l.map f := fun l f => by
    rw [← List.length_map (f := f), List.take_length]
  simp only [Post.finalize, hc, hs, PostRecord.finalizeCheck, tk, List.length_map, Nat.lt_irrefl, or_self, if_false, judge, openedValue, Bool.true_and]

theorem mapM_ok {α β : Type} (f : α → Res β) (g : α → β) : ∀ l : List α, (∀ x ∈ l, f x = .ok (g x)) → l.mapM f = .ok (l.map g)
  | [], _ => rfl
  | x :: l, h => by
    rw [List.mapM_cons, h x (by simp), mapM_ok f g l fun y hy => h y (by simp [hy])]
    rfl

theorem mapM_mem {α β : Type} (f : α → Res β) : ∀ (l : List α) (r : List β), l.mapM f = .ok r → ∀ x ∈ l, ∃ y ∈ r, f x = .ok y
  | [], _, _ => by simp
  | x :: l, r, h => by
    rw [List.mapM_cons] at h
    obtain ⟨y, e1, h⟩ := bind_ok.mp h
    obtain ⟨ys, e2, h⟩ := bind_ok.mp h
    simp only [pure, Except.pure, Except.ok.injEq] at h
    subst h
    intro z hz
    rcases List.mem_cons.1 hz with rfl | hz
    · exact ⟨y, by simp, e1⟩
    · obtain ⟨w, hw, e⟩ := mapM_mem f l ys e2 z hz
      exact ⟨w, by simp [hw], e⟩

/-- The items of `handshake_check` are all right if and only if `handshake_check` succeeds. -/
theorem handshakeItems_iff (p : Prf) (m : Hmac) : (∃ l, handshakeItems p m = .ok l ∧ ∀ i ∈ l, Claims i) ↔ handshakeCheck p m = .ok true := by
  rw [handshakeCheck_iff]
  constructor
  · rintro ⟨l, h, hc⟩
    obtain ⟨pairs, e1, h⟩ := bind_ok.mp h
    obtain ⟨ivs, e2, h⟩ := bind_ok.mp h
    simp only [Except.ok.injEq] at h
    subst h
    unfold Prf.checkPairs at e1
    split at e1
    · cases e1
    · rename_i hn
      simp only [Except.ok.injEq] at e1
      subst e1
      have hm := mapM_mem _ _ _ e2
      refine ⟨not_not.1 hn, ?_, ?_, ?_⟩
      · intro i z w hz hw
        have : (z, w) ∈ p.zkSecM.zip p.pubM := by
          apply List.mem_of_getElem? (i := i)
          rw [List.getElem?_zip_eq_some]; exact ⟨hz, hw⟩
        exact hc (.words z w) (List.mem_append_left _ (List.mem_map.2 ⟨(z, w), this, rfl⟩))
      · by_contra hlt
        obtain ⟨y, -, e⟩ := hm m.sha.zkIvIn.length (List.mem_range.2 (by omega))
        rw [ivItem, List.getElem?_eq_none (Nat.le_refl _)] at e
        simp at e
      · intro i z w hz hw
        obtain ⟨y, hy, e⟩ := hm i (List.mem_range.2 (List.getElem?_eq_some_iff.1 hw).1)
        simp only [ivItem, hz, hw, Except.ok.injEq] at e
        subst e
        exact hc _ (List.mem_append_right _ hy)
  · rintro ⟨h1, h2, h3, h4⟩
    have e2 := mapM_ok (ivItem m)
      (fun i => .words (m.sha.zkIvIn.getD i []) (m.sha.ivIn.getD i []).reverse) (List.range m.sha.ivIn.length) (by
        intro i hi
        have hi := List.mem_range.1 hi
        have l1 : i < m.sha.zkIvIn.length := by omega
        simp [ivItem, List.getElem?_eq_getElem hi, List.getElem?_eq_getElem l1])
    refine ⟨_, by simp only [handshakeItems, Prf.checkPairs, h1, ne_eq, not_true_eq_false, if_false, bind, Except.bind, e2]; rfl, ?_⟩
    intro i hi
    rcases List.mem_append.1 hi with hi | hi
    · obtain ⟨⟨z, w⟩, hq, rfl⟩ := List.mem_map.1 hi
      obtain ⟨i, hi⟩ := List.mem_iff_getElem?.1 hq
      rw [List.getElem?_zip_eq_some] at hi
      exact h2 i z w hi.1 hi.2
    · obtain ⟨i, hj, rfl⟩ := List.mem_map.1 hi
      have hi := List.mem_range.1 hj
      have l1 : i < m.sha.zkIvIn.length := by omega
      refine h4 i _ _ ?_ ?_
      · simp [List.getElem?_eq_getElem l1]
      · simp [List.getElem?_eq_getElem hi]

/-- If BOB's run goes through, all its items are right and the values opened are accepted, the session of both parties goes through, is accepted, and hands over the same
messages. -/
theorem verify_sound {junk : AESCircuit.Wires} {p p' : Post} {g : Nat → List Byte} {pms : Nat} {k : MasterSeed} {rc rs tauC tauS : List Byte}
    {finc : PostRecord.Rec} {ivc : List Byte} {fins : PostRecord.Rec} {ivs : List Byte} {claims : List Claim} {aadLen : Nat} {b : Bob}
    (h : verify junk p g pms k rc rs tauC tauS finc ivc fins ivs claims aadLen = .ok (p', b)) (hc : ∀ i ∈ b.items, Claims i)
    (ha : b.accepts b.value = true) :
    ∃ v, p.session junk g pms k rc rs tauC tauS finc ivc fins ivs claims aadLen = .ok (p', v) ∧ Accepted v ∧ v.messages = b.messages := by
  obtain ⟨⟨p1, k1⟩, e1, h⟩ := bind_ok.mp h
  obtain ⟨⟨p2, k2⟩, e2, h⟩ := bind_ok.mp h
  simp only at h
  cases hps : p2.ps with
  | none => rw [hps] at h; cases h
  | some P =>
    rw [hps] at h
    simp only at h
    obtain ⟨⟨st, k3, o, z0⟩, e3, h⟩ := bind_ok.mp h
    obtain ⟨hs, e4, h⟩ := bind_ok.mp h
    obtain ⟨⟨p4, k4, out⟩, e5, h⟩ := bind_ok.mp h
    rw [← hps] at e5
    simp only at h e5
    split at h
    · rename_i Pc Ps hpc hps4
      split at h
      · cases h
      · rename_i hr
        split at h
        · cases h
        · rename_i hlen
          simp only [Except.ok.injEq, Prod.mk.injEq] at h
          obtain ⟨rfl, rfl⟩ := h
          simp only at hc ha
          have hhs : handshakeCheck p2.hs.hs.prf p2.hs.hs.hmac = .ok true :=
            (handshakeItems_iff _ _).1 ⟨hs, e4, fun i hi => hc i (by simp [hi])⟩
          have s3 : p2.step3 fins.ctxt ivs = .ok ({ p2 with s := st, zs := z0 }, k3, true) := by
            simp only [Post.step3, hps, bind, Except.bind, e3, hhs]
          have s5 : p4.finalize finc fins out aadLen = .ok true := by
            rw [finalize_eq hpc hps4]
            simp only
            rw [if_neg hr, if_neg hlen, ha]
          refine ⟨⟨k1 ++ k2 ++ k3 ++ k4, true, out.map (·.2.1), true⟩, ?_, ⟨?_, rfl, rfl⟩, rfl⟩
          · simp only [Post.session, bind, Except.bind, e1, e2, s3, e5, s5]
          · intro c hm
            refine hc (.check c) ?_
            simp only [List.mem_append, List.mem_map, Item.check.injEq, exists_eq_right] at hm ⊢
            tauto
    · cases h

theorem foldlM_runs {α : Type} (f : Bool → α → Res Bool) : ∀ (l : List α) (a c : Bool), l.foldlM f a = .ok c → ∀ x ∈ l, ∃ a' c', f a' x = .ok c'
  | [], _, _, _ => by simp
  | x :: l, a, c, h => by
    rw [List.foldlM_cons] at h
    obtain ⟨c', e, h⟩ := bind_ok.mp h
    intro y hy
    rcases List.mem_cons.1 hy with rfl | hy
    · exact ⟨a, c', e⟩
    · exact foldlM_runs f l c' c h y hy

theorem handshakeItems_runs {p : Prf} {m : Hmac} {c : Bool} (h : handshakeCheck p m = .ok c) :
    ∃ l, handshakeItems p m = .ok l ∧ (c = true → ∀ i ∈ l, Claims i) := by
  have ex : ∃ l, handshakeItems p m = .ok l := by
    obtain ⟨x, e1, h⟩ := bind_ok.mp h
    obtain ⟨y, e2, -⟩ := bind_ok.mp h
    obtain ⟨pairs, e3, -⟩ := bind_ok.mp e1
    have hz : m.sha.ivIn.length ≤ m.sha.zkIvIn.length := by
      by_contra hlt
      obtain ⟨a', c', e⟩ := foldlM_runs _ _ _ _ e2 m.sha.zkIvIn.length (List.mem_range.2 (by omega))
      rw [List.getElem?_eq_none (Nat.le_refl _)] at e
      simp at e
    have e4 := mapM_ok (ivItem m)
      (fun i => .words (m.sha.zkIvIn.getD i []) (m.sha.ivIn.getD i []).reverse) (List.range m.sha.ivIn.length) (by
        intro i hi
        have hi := List.mem_range.1 hi
        have l1 : i < m.sha.zkIvIn.length := by omega
        simp [ivItem, List.getElem?_eq_getElem hi, List.getElem?_eq_getElem l1])
    exact ⟨_, by simp only [handshakeItems, e3, bind, Except.bind, e4]; rfl⟩
  obtain ⟨l, hl⟩ := ex
  refine ⟨l, hl, ?_⟩
  rintro rfl
  obtain ⟨l', hl', hc⟩ := (handshakeItems_iff p m).2 h
  rw [hl, Except.ok.injEq] at hl'
  rw [hl']; exact hc

/-- The converse: if the session of both parties goes through, so does BOB's run, with the same messages; if it is accepted, all items are right and the values opened
are accepted. -/
theorem verify_runs {junk : AESCircuit.Wires} {p p' : Post} {g : Nat → List Byte} {pms : Nat} {k : MasterSeed} {rc rs tauC tauS : List Byte}
    {finc : PostRecord.Rec} {ivc : List Byte} {fins : PostRecord.Rec} {ivs : List Byte} {claims : List Claim} {aadLen : Nat} {v : Verdict}
    (h : p.session junk g pms k rc rs tauC tauS finc ivc fins ivs claims aadLen = .ok (p', v)) :
    ∃ b, verify junk p g pms k rc rs tauC tauS finc ivc fins ivs claims aadLen = .ok (p', b) ∧ b.messages = v.messages
      ∧ (Accepted v → (∀ i ∈ b.items, Claims i) ∧ b.accepts b.value = true) := by
  obtain ⟨⟨p1, k1⟩, e1, h⟩ := bind_ok.mp h
  obtain ⟨⟨p2, k2⟩, e2, h⟩ := bind_ok.mp h
  obtain ⟨⟨p3, k3, b⟩, e3, h⟩ := bind_ok.mp h
  obtain ⟨⟨p4, k4, out⟩, e5, h⟩ := bind_ok.mp h
  obtain ⟨t, e6, h⟩ := bind_ok.mp h
  simp only [Except.ok.injEq, Prod.mk.injEq] at h
  obtain ⟨rfl, rfl⟩ := h
  simp only [Post.step3] at e3
  cases hps : p2.ps with
  | none => rw [hps] at e3; cases e3
  | some P =>
    rw [hps] at e3
    simp only at e3
    obtain ⟨⟨st, k3', o, z0⟩, f3, f4⟩ := bind_ok.mp e3
    obtain ⟨b', e4, e4'⟩ := bind_ok.mp f4
    simp only [Except.ok.injEq, Prod.mk.injEq] at e4'
    obtain ⟨rfl, rfl, rfl⟩ := e4'
    rw [← hps] at e5
    obtain ⟨hs, e4, hsc⟩ := handshakeItems_runs e4
    cases hpc : p4.pc with
    | none => simp [Post.finalize, hpc] at e6
    | some Pc =>
      cases hps4 : p4.ps with
      | none => simp [Post.finalize, hpc, hps4] at e6
      | some Ps =>
        rw [finalize_eq hpc hps4] at e6
        simp only at e6
        split at e6
        · cases e6
        · rename_i hr
          split at e6
          · cases e6
          · rename_i hlen
            simp only [Except.ok.injEq] at e6
            refine ⟨⟨(k1 ++ k2 ++ k3').map .check ++ hs ++ k4.map .check,
              openedValue Pc.H Ps.H p4.zc p4.zs ((out.filter (·.1.kind = .client)).map (·.2.2)) ((out.filter (·.1.kind ≠ .client)).map (·.2.2)),
              judge finc fins ((out.filter (·.1.kind = .client)).map (·.1.buf)) ((out.filter (·.1.kind ≠ .client)).map (·.1.buf)) aadLen, out.map (·.2.1)⟩,
              ?_, ?_, ?_⟩
            · rw [hps] at e5
              simp only [verify, bind, Except.bind, e1, e2, hps]
              simp only [f3, e4, e5, hpc, hps4]
              rw [if_neg hr, if_neg hlen]
            · simp only
            · rintro ⟨c1, c2, c3⟩
              simp only at c1 c2 c3 ⊢
              refine ⟨?_, by rw [e6, c3]⟩
              intro i hi
              simp only [List.mem_append, List.mem_map] at hi
              rcases hi with (⟨c, hc, rfl⟩ | hi) | ⟨c, hc, rfl⟩
              · exact c1 c (by simp only [List.mem_append]; tauto)
              · exact hsc c2 i hi
              · exact c1 c (by simp only [List.mem_append]; tauto)

/-- What an accepting BOB is entitled to believe: the conclusion of `C52_sound`. -/
def Proven (p : Post) (a : Nat) (k : MasterSeed) (rc rs tauC tauS : List Byte) (finc : PostRecord.Rec) (ivc : List Byte) (fins : PostRecord.Rec)
    (ivs : List Byte) (claims : List Claim) (messages : List Integer) : Prop :=
  let M := master k (SHA256.beBits (8 * bnNumBytes p.hs.hs.q) ((a + p.hs.bnB) % p.hs.hs.q)) (bytesBits rc) (bytesBits rs)
  bytesBits (p.hs.hs.clientUfin.take 12).reverse = TLS.verifyData M (TLS.ascii "client finished") (bytesBits tauC)
    ∧ bytesBits (p.hs.hs.serverUfin.take 12).reverse = TLS.verifyData M (TLS.ascii "server finished") (bytesBits tauS)
    ∧ ∃ keys : Garbled.Keys, keys.Of M (bytesBits rc) (bytesBits rs) ∧ Attested keys finc fins ivc ivs claims messages

/-- BOB accepts: its digest is the one received and the tags agree with the bits received. -/
def Deceives {δ : Type} (D : List Block → δ) (pub : Bool → Block) (T : Block → List Block) (b : Bob) (l : List (Item × Macs)) (y : Integer) (dig : δ)
    (d : Block) : Prop := Passes D pub T l dig d ∧ b.accepts y = true

/-- A run of BOB that shows something that is not so has a wrong item, whatever bits `y` are received for the value opened. -/
theorem wrong_item {junk : AESCircuit.Wires} {p p' : Post} {g : Nat → List Byte} {pms : Nat} {k : MasterSeed} {rc rs tauC tauS : List Byte}
    {finc : PostRecord.Rec} {ivc : List Byte} {fins : PostRecord.Rec} {ivs : List Byte} {claims : List Claim} {aadLen : Nat} {b : Bob}
    (h : verify junk p g pms k rc rs tauC tauS finc ivc fins ivs claims aadLen = .ok (p', b)) {Q : List Integer → Prop}
    (hs : ∀ v, p.session junk g pms k rc rs tauC tauS finc ivc fins ivs claims aadLen = .ok (p', v) → Accepted v → Q v.messages)
    (hw : ¬Q b.messages) {y : Integer} (ha : b.accepts y = true) {l : List (Item × Macs)} (he : l.map Prod.fst = b.items ++ [.opening b.value y]) :
    ∃ p ∈ l, ¬Claims p.1 := by
  by_contra hc
  push Not at hc
  have hc' : ∀ i ∈ b.items ++ [.opening b.value y], Claims i := by
    rw [← he]
    intro i hi
    obtain ⟨p, hp, rfl⟩ := List.mem_map.1 hi
    exact hc p hp
  have hy : b.value = y := hc' (.opening b.value y) (by simp)
  obtain ⟨v, e1, e2, e3⟩ := verify_sound h (fun i hi => hc' i (List.mem_append_left _ hi)) (by rw [hy]; exact ha)
  exact hw (e3 ▸ hs v e1 e2)

/-- **C73, a session.**  Whatever ALICE did in the connection, whatever it presents, whatever blocks `l` it holds, whatever bits `y` it announces for the value opened at
the end and whatever digest it sends: of the `2^127` offsets BOB may hold at most one makes BOB accept messages that are not what `C52_sound` says (the plaintexts of records
accepted by AES-128-GCM under the keys of the pre-master secret, with the right finished values), unless two of BOB's transcripts collide. -/
theorem C73_session (junk : AESCircuit.Wires) (p : Post) (hm : p.master = []) (hr : p.hs.hs.roundsOpt = false)
    (hst : ProofStart p.hs.hs.prf p.hs.hs.hmac) (hq : bnNumBytes p.hs.hs.q < 2 ^ 59)
    (a : Nat) (ha : a < p.hs.hs.q) (hz : p.hs.hs.zkPms = ofNat (8 * bnNumBytes p.hs.hs.q) a) (hb : p.hs.bnB < p.hs.hs.q)
    (g : Nat → List Byte) (hg : ∀ i, (g i).length = 64) (pms : Nat) (k : MasterSeed) (rc rs tauC tauS : List Byte) (hs : Short k rc rs tauC tauS)
    (finc : PostRecord.Rec) (ivc : List Byte) (fins : PostRecord.Rec) (ivs : List Byte) (claims : List Claim) (aadLen : Nat)
    (hsz : ∀ r ∈ finc :: fins :: claims.map Claim.buf, Sized aadLen r) (p' : Post) (b : Bob)
    (h : verify junk p g pms k rc rs tauC tauS finc ivc fins ivs claims aadLen = .ok (p', b))
    {δ : Type} (D : List Block → δ) (pub : Bool → Block) (T : Block → List Block) (hT : ∀ d d', (T d).length = (T d').length)
    (y : Integer) (l : List (Item × Macs)) (he : l.map Prod.fst = b.items ++ [.opening b.value y]) (hf : ∀ x ∈ l, Fits x.1 x.2)
    (dig : δ) (hn : ¬Collides D pub T l) (hw : ¬Proven p a k rc rs tauC tauS finc ivc fins ivs claims b.messages) :
    Nat.card {d : Block // Odd d ∧ Deceives D pub T b l y dig d} * 2 ^ 127 ≤ Nat.card {d : Block // Odd d} := by
  by_cases hacc : b.accepts y = true
  · have hwi := wrong_item h (Q := Proven p a k rc rs tauC tauS finc ivc fins ivs claims)
      (fun v e1 e2 => C52_sound junk p hm hr hst hq a ha hz hb g hg pms k rc rs tauC tauS hs finc ivc fins ivs claims aadLen hsz p' v e1 e2) hw hacc he
    have := C73_count D pub T hT l hf hwi dig hn
    simpa only [Deceives, hacc, and_true] using this
  · simp [Deceives, hacc]

/-- **C73, a session with the round optimisation.** -/
theorem C73_session_rounds (junk : AESCircuit.Wires) (p : Post) (hm : p.master = []) (hr : p.hs.hs.roundsOpt = true)
    (hrd : Ready p.hs.hs) (hq : bnNumBytes p.hs.hs.q < 2 ^ 59)
    (a : Nat) (ha : a < p.hs.hs.q) (hz : p.hs.hs.zkPms = ofNat (8 * bnNumBytes p.hs.hs.q) a) (hb : p.hs.bnB < p.hs.hs.q)
    (g : Nat → List Byte) (pms : Nat) (k : MasterSeed) (rc rs tauC tauS : List Byte) (hs : Short k rc rs tauC tauS)
    (finc : PostRecord.Rec) (ivc : List Byte) (fins : PostRecord.Rec) (ivs : List Byte) (claims : List Claim) (aadLen : Nat)
    (hsz : ∀ r ∈ finc :: fins :: claims.map Claim.buf, Sized aadLen r) (p' : Post) (b : Bob)
    (h : verify junk p g pms k rc rs tauC tauS finc ivc fins ivs claims aadLen = .ok (p', b))
    {δ : Type} (D : List Block → δ) (pub : Bool → Block) (T : Block → List Block) (hT : ∀ d d', (T d).length = (T d').length)
    (y : Integer) (l : List (Item × Macs)) (he : l.map Prod.fst = b.items ++ [.opening b.value y]) (hf : ∀ x ∈ l, Fits x.1 x.2)
    (dig : δ) (hn : ¬Collides D pub T l) (hw : ¬Proven p a k rc rs tauC tauS finc ivc fins ivs claims b.messages) :
    Nat.card {d : Block // Odd d ∧ Deceives D pub T b l y dig d} * 2 ^ 127 ≤ Nat.card {d : Block // Odd d} := by
  by_cases hacc : b.accepts y = true
  · have hwi := wrong_item h (Q := Proven p a k rc rs tauC tauS finc ivc fins ivs claims)
      (fun v e1 e2 => C52_sound_rounds junk p hm hr hrd hq a ha hz hb g pms k rc rs tauC tauS hs finc ivc fins ivs claims aadLen hsz p' v e1 e2) hw hacc he
    have := C73_count D pub T hT l hf hwi dig hn
    simpa only [Deceives, hacc, and_true] using this
  · simp [Deceives, hacc]

/-- The sizes asserted when a check is issued. -/
def Issued : Check → Prop
  | .block r p _ => p.length = 128 ∧ r.length = 128
  | .bytes r p g => ∃ n, p.length = n * 8 ∧ r.length = n * 8 ∧ g.length ≤ n
  | .data _ _ => True

theorem checkBlock_issued {r p : Integer} {g : Block} {c : Check} (h : checkBlock r p g = .ok c) : Issued c := by
  unfold checkBlock at h
  split at h
  · cases h
  · split at h
    · cases h
    · cases h; exact ⟨by omega, by omega⟩

theorem checkBytes_issued {r p : Integer} {g : List Byte} {n : Nat} {c : Check} (h : checkBytes r p g n = .ok c) : Issued c := by
  unfold checkBytes at h
  split at h
  · cases h
  · split at h
    · cases h
    · cases h; exact ⟨n, by omega, by omega, by simp⟩

theorem checkData_issued {r : Integer} {d : List Byte} {n : Nat} {c : Check} (h : checkData r d n = .ok c) : Issued c := by
  unfold checkData at h
  split at h
  · cases h
  · cases h; trivial

/-- An issued check that holds has the sizes asserted on both sides. -/
theorem issued_lengths {c : Check} (h : Issued c) (hc : Holds c) : Lengths (.check c) := by
  match c with
  | .block r p g => exact h
  | .bytes r p g =>
    obtain ⟨n, h1, h2, h3⟩ := h
    have := congrArg List.length (show r = _ from hc)
    simp only [Integer.xor, List.length_zipWith, length_ofBytes] at this
    show p.length = g.length * 8 ∧ r.length = g.length * 8
    omega
  | .data r d =>
    have := congrArg List.length (show r = _ from hc)
    rw [length_ofBytes] at this
    show r.length = d.length * 8
    omega

theorem prove_issued {P : Proof} {st st' : AEAD.State} {ctxt iv : List Byte} {sec : Bool} {cs : List Check} {m : Option Integer} {z : Integer}
    (h : prove P st ctxt iv sec = .ok (st', cs, m, z)) : ∀ c ∈ cs, Issued c := by
  obtain ⟨⟨Z, z0⟩, -, h⟩ := bind_ok.mp h
  obtain ⟨⟨s1, c1⟩, e1, h⟩ := bind_ok.mp h
  have i1 : Issued c1 := by
    unfold popZ0 at e1
    split at e1
    · obtain ⟨c, e, e1⟩ := bind_ok.mp e1
      simp only [Except.ok.injEq, Prod.mk.injEq] at e1
      rw [← e1.2]; exact checkBlock_issued e
    · cases e1
  simp only at h
  split at h
  · obtain ⟨⟨s2, c2⟩, e2, h⟩ := bind_ok.mp h
    simp only [Except.ok.injEq, Prod.mk.injEq] at h
    obtain ⟨-, rfl, -⟩ := h
    have i2 : Issued c2 := by
      unfold popOpen at e2
      split at e2
      · obtain ⟨c, e, e2⟩ := bind_ok.mp e2
        simp only [Except.ok.injEq, Prod.mk.injEq] at e2
        rw [← e2.2]; exact checkData_issued e
      · cases e2
    simp [i1, i2]
  · obtain ⟨⟨s2, c2⟩, e2, h⟩ := bind_ok.mp h
    simp only [Except.ok.injEq, Prod.mk.injEq] at h
    obtain ⟨-, rfl, -⟩ := h
    have i2 : Issued c2 := by
      unfold popZ at e2
      split at e2
      · split at e2
        · obtain ⟨c, e, e2⟩ := bind_ok.mp e2
          simp only [Except.ok.injEq, Prod.mk.injEq] at e2
          rw [← e2.2]; exact checkBytes_issued e
        · cases e2
      · cases e2
    simp [i1, i2]

theorem record_issued {p p' : Post} {k : Kind} {ctxt iv : List Byte} {cs : List Check} {m z : Integer}
    (h : p.record k ctxt iv = .ok (p', cs, m, z)) : ∀ c ∈ cs, Issued c := by
  unfold Post.record at h
  split at h
  · split at h
    · cases h
    · obtain ⟨⟨st, c, m', z'⟩, e, h⟩ := bind_ok.mp h
      simp only [Except.ok.injEq, Prod.mk.injEq] at h
      obtain ⟨-, rfl, -⟩ := h
      exact prove_issued e
  · split at h
    · cases h
    · obtain ⟨⟨st, c, m', z'⟩, e, h⟩ := bind_ok.mp h
      simp only [Except.ok.injEq, Prod.mk.injEq] at h
      obtain ⟨-, rfl, -⟩ := h
      exact prove_issued e
  · split at h
    · cases h
    · obtain ⟨⟨m', z'⟩, e, h⟩ := bind_ok.mp h
      simp only [Except.ok.injEq, Prod.mk.injEq] at h
      obtain ⟨-, rfl, -⟩ := h
      simp

theorem records_issued : ∀ {claims : List Claim} {p p' : Post} {cs : List Check} {out : List (Claim × Integer × Integer)},
    p.records claims = .ok (p', cs, out) → ∀ c ∈ cs, Issued c
  | [], _, _, _, _, h => by
    simp only [Post.records, Except.ok.injEq, Prod.mk.injEq] at h
    obtain ⟨-, rfl, -⟩ := h
    simp
  | cl :: l, p, p', cs, out, h => by
    obtain ⟨⟨p1, k1, m, z⟩, e1, h⟩ := bind_ok.mp h
    obtain ⟨⟨p2, k2, o⟩, e2, h⟩ := bind_ok.mp h
    simp only [Except.ok.injEq, Prod.mk.injEq] at h
    obtain ⟨-, rfl, -⟩ := h
    intro c hc
    rcases List.mem_append.1 hc with hc | hc
    · exact record_issued e1 c hc
    · exact records_issued e2 c hc

theorem step1_issued {junk : AESCircuit.Wires} {p p' : Post} {g : Nat → List Byte} {pms : Nat} {k : MasterSeed} {rc rs tauC tauS : List Byte} {cs : List Check}
    (h : p.step1 junk g pms k rc rs tauC tauS = .ok (p', cs)) : ∀ c ∈ cs, Issued c := by
  obtain ⟨⟨ms, ks, c1, c2, h'⟩, e1, h⟩ := bind_ok.mp h
  obtain ⟨ec, -, h⟩ := bind_ok.mp h
  obtain ⟨⟨pc, c3⟩, e3, h⟩ := bind_ok.mp h
  obtain ⟨es, -, h⟩ := bind_ok.mp h
  obtain ⟨⟨ps, c4⟩, e4, h⟩ := bind_ok.mp h
  simp only [Except.ok.injEq, Prod.mk.injEq] at h
  obtain ⟨-, rfl⟩ := h
  obtain ⟨_, -, e1⟩ := bind_ok.mp e1
  obtain ⟨_, -, e1⟩ := bind_ok.mp e1
  obtain ⟨⟨x1, y1⟩, f1, e1⟩ := bind_ok.mp e1
  obtain ⟨⟨x2, y2⟩, f2, e1⟩ := bind_ok.mp e1
  simp only [Except.ok.injEq, Prod.mk.injEq] at e1
  obtain ⟨-, -, rfl, rfl, -⟩ := e1
  have i1 : Issued x1 := by
    obtain ⟨_, -, f1⟩ := bind_ok.mp f1
    obtain ⟨_, e, f1⟩ := bind_ok.mp f1
    simp only [Except.ok.injEq, Prod.mk.injEq] at f1
    rw [← f1.1]; exact checkData_issued e
  have i2 : Issued x2 := by
    obtain ⟨_, -, f2⟩ := bind_ok.mp f2
    obtain ⟨_, e, f2⟩ := bind_ok.mp f2
    simp only [Except.ok.injEq, Prod.mk.injEq] at f2
    rw [← f2.1]; exact checkData_issued e
  have ic : ∀ {E iv st P c}, construct E iv st = .ok (P, c) → Issued c := by
    intro E iv st P c h
    obtain ⟨_, -, h⟩ := bind_ok.mp h
    obtain ⟨_, e, h⟩ := bind_ok.mp h
    simp only [Except.ok.injEq, Prod.mk.injEq] at h
    rw [← h.2]; exact checkBlock_issued e
  simp [i1, i2, ic e3, ic e4]

theorem mapM_words {m : Hmac} : ∀ {l : List Nat} {r : List Item}, l.mapM (ivItem m) = .ok r → ∀ i ∈ r, ∃ x w, i = .words x w
  | [], r, h => by simp only [List.mapM_nil, pure, Except.pure, Except.ok.injEq] at h; subst h; simp
  | x :: l, r, h => by
    rw [List.mapM_cons] at h
    obtain ⟨y, e1, h⟩ := bind_ok.mp h
    obtain ⟨ys, e2, h⟩ := bind_ok.mp h
    simp only [pure, Except.pure, Except.ok.injEq] at h
    subst h
    intro i hi
    rcases List.mem_cons.1 hi with rfl | hi
    · unfold ivItem at e1
      split at e1
      · simp only [Except.ok.injEq] at e1; exact ⟨_, _, e1.symm⟩
      · cases e1
    · exact mapM_words e2 i hi

theorem items_lengths {junk : AESCircuit.Wires} {p p' : Post} {g : Nat → List Byte} {pms : Nat} {k : MasterSeed} {rc rs tauC tauS : List Byte}
    {finc : PostRecord.Rec} {ivc : List Byte} {fins : PostRecord.Rec} {ivs : List Byte} {claims : List Claim} {aadLen : Nat} {b : Bob}
    (h : verify junk p g pms k rc rs tauC tauS finc ivc fins ivs claims aadLen = .ok (p', b)) : ∀ i ∈ b.items, Claims i → Lengths i := by
  obtain ⟨⟨p1, k1⟩, e1, h⟩ := bind_ok.mp h
  obtain ⟨⟨p2, k2⟩, e2, h⟩ := bind_ok.mp h
  simp only at h
  split at h
  · cases h
  · rename_i P hps
    obtain ⟨⟨st, k3, o, z0⟩, e3, h⟩ := bind_ok.mp h
    obtain ⟨hs, e4, h⟩ := bind_ok.mp h
    obtain ⟨⟨p4, k4, out⟩, e5, h⟩ := bind_ok.mp h
    have i2 : ∀ c ∈ k2, Issued c := by
      unfold Post.step2 at e2
      split at e2
      · cases e2
      · obtain ⟨⟨st, c, m', z'⟩, e, h⟩ := bind_ok.mp e2
        simp only [Except.ok.injEq, Prod.mk.injEq] at h
        obtain ⟨-, rfl⟩ := h
        exact prove_issued e
    have ih : ∀ i ∈ hs, Claims i → Lengths i := by
      obtain ⟨pairs, f1, f⟩ := bind_ok.mp e4
      obtain ⟨ivs, f2, f⟩ := bind_ok.mp f
      simp only [Except.ok.injEq] at f
      subst f
      intro i hi hc
      have : ∃ x w, i = .words x w := by
        rcases List.mem_append.1 hi with hi | hi
        · obtain ⟨q, -, rfl⟩ := List.mem_map.1 hi
          exact ⟨_, _, rfl⟩
        · exact mapM_words f2 i hi
      obtain ⟨x, w, rfl⟩ := this
      have hc : x = wordsInt w := hc
      show x.length = _
      rw [hc, length_wordsInt]
    simp only at h
    split at h
    · split at h
      · cases h
      · split at h
        · cases h
        · simp only [Except.ok.injEq, Prod.mk.injEq] at h
          obtain ⟨-, rfl⟩ := h
          intro i hi hc
          simp only [List.mem_append, List.mem_map] at hi
          rcases hi with (⟨c, hm, rfl⟩ | hi) | ⟨c, hm, rfl⟩
          · refine issued_lengths ?_ hc
            rcases hm with (hm | hm) | hm
            · exact step1_issued e1 c hm
            · exact i2 c hm
            · exact prove_issued e3 c hm
          · exact ih i hi hc
          · exact issued_lengths (records_issued e5 c hm) hc
    · cases h

/-- **C73, an honest session.**  If the session of both parties is accepted, then for every offset an ALICE who puts its own blocks and announces the value it holds is
accepted by BOB and BOB hands over the same messages. -/
theorem C73_accepts {junk : AESCircuit.Wires} {p p' : Post} {g : Nat → List Byte} {pms : Nat} {k : MasterSeed} {rc rs tauC tauS : List Byte}
    {finc : PostRecord.Rec} {ivc : List Byte} {fins : PostRecord.Rec} {ivs : List Byte} {claims : List Claim} {aadLen : Nat} {v : Verdict}
    (h : p.session junk g pms k rc rs tauC tauS finc ivc fins ivs claims aadLen = .ok (p', v)) (hacc : Accepted v) :
    ∃ b, verify junk p g pms k rc rs tauC tauS finc ivc fins ivs claims aadLen = .ok (p', b) ∧ b.messages = v.messages
      ∧ ∀ {δ : Type} (D : List Block → δ) (pub : Bool → Block) (T : Block → List Block) (l : List (Item × Macs)),
        l.map Prod.fst = b.items ++ [.opening b.value b.value] → (∀ x ∈ l, Fits x.1 x.2) →
        ∀ d, Deceives D pub T b l b.value (D (T d ++ l.flatMap fun x => putMacs pub x.1 x.2)) d := by
  obtain ⟨b, e1, e4, H⟩ := verify_runs h
  obtain ⟨e2, e3⟩ := H hacc
  refine ⟨b, e1, e4, fun D pub T l he hf d => ⟨⟨_, C73_honest pub l hf ?_ ?_ d (T d), rfl⟩, e3⟩⟩
  · intro x hx
    have : x.1 ∈ b.items ++ [.opening b.value b.value] := he ▸ List.mem_map_of_mem hx
    rcases List.mem_append.1 this with h | h
    · exact items_lengths e1 _ h (e2 _ h)
    · rw [List.mem_singleton.1 h]; trivial
  · intro x hx
    have : x.1 ∈ b.items ++ [.opening b.value b.value] := he ▸ List.mem_map_of_mem hx
    rcases List.mem_append.1 this with h | h
    · exact e2 _ h
    · rw [List.mem_singleton.1 h]; rfl

/-- **C73, after an honest handshake.**  The parties ran the handshake and ALICE then presents any finished messages and records, of which at least one is not accepted by
AES-128-GCM under the keys of the connection: BOB's run goes through, and whatever ALICE's blocks, announced bits and digest, BOB accepts for at most one offset in `2^127`,
unless two of BOB's transcripts collide. -/
theorem C73_records (q : Nat) (rounds : Bool) (u v : List Byte) (hq : bnNumBytes q < 2 ^ 59) (g : Nat → List Byte) (hg : ∀ i, (g i).length = 64)
    (a b : Nat) (ha : a < q) (hb : b < q) (k : MasterSeed) (rc rs tauC tauS : List Byte) (hs : Short k rc rs tauC tauS) :
    ∃ h keys, (Hs.new q rounds u v).schedule g a b k rc rs tauC tauS = .ok h
      ∧ Garbled.Keys.Of keys (master k (SHA256.beBits (8 * bnNumBytes q) ((a + b) % q)) (bytesBits rc) (bytesBits rs)) (bytesBits rc) (bytesBits rs)
      ∧ ∀ (junk : AESCircuit.Wires) (hash : List Byte → List Byte) (sc ss : Bool) (c s : AEAD.State) (restC restS : List AEADProof.Rec)
          (finc : PostRecord.Rec) (ivc : List Byte) (fins : PostRecord.Rec) (ivs : List Byte) (claims : List Claim) (aadLen : Nat),
          Hist hash (Garbled.aes keys.ck) keys.civ sc c (⟨ivc, finc.ctxt.length, false⟩ :: (taken .client claims ++ restC)) →
          Hist hash (Garbled.aes keys.sk) keys.siv ss s (⟨ivs, fins.ctxt.length, false⟩ :: (taken .server claims ++ restS)) →
          ivc.length = 8 → ivs.length = 8 → (∀ c ∈ claims, c.iv.length = 8) → (∀ r ∈ finc :: fins :: claims.map Claim.buf, Sized aadLen r) →
          ¬((∃ m, OpensTo keys true ivc finc m) ∧ (∃ m, OpensTo keys false ivs fins m) ∧ ∀ c ∈ claims, ∃ m, OpensTo keys (ofClient c.kind) c.iv c.buf m) →
          ∃ p' bob, verify junk { hs := ⟨h, a, b⟩, c := c, s := s } g ((a + b) % q) k rc rs tauC tauS finc ivc fins ivs claims aadLen = .ok (p', bob)
            ∧ ∀ {δ : Type} (D : List Block → δ) (pub : Bool → Block) (T : Block → List Block), (∀ d d', (T d).length = (T d').length) →
              ∀ (y : Integer) (l : List (Item × Macs)), l.map Prod.fst = bob.items ++ [.opening bob.value y] → (∀ x ∈ l, Fits x.1 x.2) →
              ∀ dig : δ, ¬Collides D pub T l →
              Nat.card {d : Block // Odd d ∧ Deceives D pub T bob l y dig d} * 2 ^ 127 ≤ Nat.card {d : Block // Odd d} := by
  obtain ⟨h, keys, e1, e2, -, -, -, -, H⟩ := C52_complete q rounds u v hq g hg a b ha hb k rc rs tauC tauS hs
  refine ⟨h, keys, e1, e2, ?_⟩
  intro junk hash sc ss c s restC restS finc ivc fins ivs claims aadLen hc hs' h1 h2 h3 h4 hw
  have H' := H junk hash sc ss c s restC restS finc ivc fins ivs claims aadLen hc hs' h1 h2 h3 h4
  clear H
  obtain ⟨p', vd, g1, g2, -⟩ := H'
  obtain ⟨bob, b1, -, -⟩ := verify_runs g1
  refine ⟨p', bob, b1, ?_⟩
  intro δ D pub T hT y l he hf dig hn
  by_cases hacc : bob.accepts y = true
  · have hwi := wrong_item b1 (Q := fun _ => (∃ m, OpensTo keys true ivc finc m) ∧ (∃ m, OpensTo keys false ivs fins m)
        ∧ ∀ c ∈ claims, ∃ m, OpensTo keys (ofClient c.kind) c.iv c.buf m)
      (fun v e1 e2 => by
        rw [g1] at e1
        simp only [Except.ok.injEq, Prod.mk.injEq, true_and] at e1
        exact g2.1 (e1 ▸ e2)) hw hacc he
    have := C73_count D pub T hT l hf hwi dig hn
    simpa only [Deceives, hacc, and_true] using this
  · simp [Deceives, hacc]

/-! ### A case -/

/-- A word opened as 1 that is 0. -/
def caseItems : List (Item × Macs) := [(.words (List.replicate 32 false) [1], ⟨List.replicate 32 0, []⟩)]

theorem case_fits : ∀ x ∈ caseItems, Fits x.1 x.2 := by simp [caseItems, Fits]

theorem case_wrong : ∃ x ∈ caseItems, ¬Claims x.1 := by
  refine ⟨_, List.mem_singleton.2 rfl, ?_⟩
  show ¬(List.replicate 32 false = wordsInt [1])
  decide

/-- ALICE guesses the offset `3`. -/
theorem case_put (d : Block) : putAll d (fun _ => 0) [] caseItems = .ok (d :: List.replicate 31 0) := by
  rw [putAll_ok d _ _ case_fits (by simp [caseItems, Lengths])]
  have : allMacs (fun _ => 0) caseItems = List.replicate 32 0 := by decide
  have h2 : allBits caseItems = true :: List.replicate 31 false := by decide
  rw [this, h2]
  simp [keysOf, wireKey, List.replicate, List.zipWith]

/-- With the whole transcript as digest there is no collision; the bound holds, and the guess is right for one offset. -/
example : Nat.card {d : Block // Odd d ∧ Passes id (fun _ => 0) (fun _ => []) caseItems (3 :: List.replicate 31 0) d} * 2 ^ 127 ≤ Nat.card {d : Block // Odd d}
    ∧ Odd 3 ∧ Passes id (fun _ => 0) (fun _ => []) caseItems (3 :: List.replicate 31 0) 3 :=
  ⟨C73_count id _ _ (fun _ _ => rfl) _ case_fits case_wrong _ (by rintro ⟨_, _, _, _, _, _, h, e⟩; exact h e), by unfold Odd; decide, _, case_put 3, rfl⟩

/-- A finished message of the client with another tag, after a concrete handshake: BOB's run goes through, and with the whole transcript as digest ALICE gets it accepted for
at most one offset in `2^127`. -/
example (rounds : Bool) : ∃ (p p' : Post) (bob : Bob) (g : Nat → List Byte) (finc fins : PostRecord.Rec),
    verify (fun _ => false) p g 49 (.extended [7, 8]) [1] [2] [3] [4] finc (List.replicate 8 1) fins (List.replicate 8 1) [] 5 = .ok (p', bob)
      ∧ ∀ (pub : Bool → Block) (y : Integer) (l : List (Item × Macs)) (m : List Block), l.map Prod.fst = bob.items ++ [.opening bob.value y] → (∀ x ∈ l, Fits x.1 x.2) →
        Nat.card {d : Block // Odd d ∧ Deceives id pub (fun _ => []) bob l y m d} * 2 ^ 127 ≤ Nat.card {d : Block // Odd d} := by
  obtain ⟨h, keys, -, e2, H⟩ := C73_records 251 rounds [] [] (by decide +kernel) (fun _ => List.replicate 64 0) (fun _ => List.length_replicate) 200 100
    (by decide) (by decide) (.extended [7, 8]) [1] [2] [3] [4] ⟨by decide, by rintro x ⟨⟩; decide, by decide, by decide⟩
  have hl := of_lengths e2
  let r := sealRec keys true (List.replicate 8 1) (List.replicate 5 0) [1, 2, 3]
  let finc : PostRecord.Rec := { r with tag := r.tag.map (· + 1) }
  let fins := sealRec keys false (List.replicate 8 1) (List.replicate 5 0) [4, 5]
  have hr : r.tag.length = 16 ∧ r.aad.length = 5 := seal_sized keys true (List.replicate 8 1) (List.replicate 5 0) [1, 2, 3]
  obtain ⟨c, hc⟩ := hist_exists id (Garbled.aes keys.ck) keys.civ hl.1 true [⟨List.replicate 8 1, finc.ctxt.length, false⟩] (by simp)
  obtain ⟨s, hs⟩ := hist_exists id (Garbled.aes keys.sk) keys.siv hl.2 false [⟨List.replicate 8 1, fins.ctxt.length, false⟩] (by simp)
  have H' := H (fun _ => false) id true false c s [] [] finc (List.replicate 8 1) fins (List.replicate 8 1) [] 5 hc hs (by simp) (by simp) (by simp)
    (by
      intro x hx
      simp only [List.map_nil, List.mem_cons, List.not_mem_nil, or_false] at hx
      rcases hx with rfl | rfl
      · exact ⟨by simp [finc, hr.1], hr.2⟩
      · exact seal_sized keys false (List.replicate 8 1) (List.replicate 5 0) [4, 5])
    (by
      rintro ⟨⟨m, hm⟩, -, -⟩
      have ho := seal_opens keys true (List.replicate 8 1) (List.replicate 5 0) [1, 2, 3]
      have t1 : finc.tag = r.tag := by
        simp only [OpensTo, GCM.decrypt] at hm ho
        split at hm
        · split at ho
          · rename_i a b; exact a.trans b.symm
          · cases ho
        · cases hm
      have := congrArg (fun x : List Byte => x[0]?) t1
      have hx : ∃ x, r.tag[0]? = some x := ⟨_, List.getElem?_eq_getElem (by omega)⟩
      obtain ⟨x, hx⟩ := hx
      simp only [finc, List.getElem?_map, hx, Option.map_some, Option.some.injEq] at this
      clear hx; revert this; revert x; decide)
  clear H
  obtain ⟨p', bob, b1, b2⟩ := H'
  exact ⟨_, p', bob, _, _, _, b1, fun pub y l m he hf => b2 id pub (fun _ => []) (fun _ _ => rfl) y l he hf m (by rintro ⟨_, _, _, _, _, _, h, e⟩; exact h e)⟩

end Verif.Props.ZkForgery
