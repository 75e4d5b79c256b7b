import Verif.Lemmas.GHash
import Verif.Props.AEAD

/-!
C63: how many block ciphers accept a record that was not sent.  The block cipher under the session key is an arbitrary function from blocks to blocks; of those under which the
server has sent the records that were seen, at most `N` of `2^128` let `AEAD::decrypt` accept another record, where `N` is the number of blocks hashed.
-/

namespace Verif.Props.Forgery
open Verif.Model Verif.Model.Integer Verif.Model.AEAD Verif.Lemmas Verif.Lemmas.GHash
open Verif.Spec (gcmGhash)
open Verif.Spec.GCM (hashInput blocks blockOf bytesOf j0 counter inc32 keyStream crypt tagWith tag)

/-- A record that was seen on the connection. -/
structure Sent where
  iv : List Byte
  aad : List Byte
  msg : List Byte
  ctxt : List Byte
  tag : List Byte

/-- The block cipher `E` is one under which these records are sent (GCM with the fixed part `fiv` of the nonce). -/
def Sends (E : Block → Block) (fiv : List Byte) (recs : List Sent) : Prop :=
  ∀ r ∈ recs, Spec.GCM.encrypt E (fiv ++ r.iv) r.aad r.msg = (r.ctxt, r.tag)

/-- Records of a connection: nonces of 8 bytes, used once, lengths within the limits of GCM. -/
structure Proper (recs : List Sent) : Prop where
  iv : ∀ r ∈ recs, r.iv.length = 8
  once : (recs.map (·.iv)).Nodup
  msg : ∀ r ∈ recs, r.msg.length ≤ 2 ^ 36 - 32
  aad : ∀ r ∈ recs, r.aad.length < 2 ^ 61

/-! ### Counter blocks -/

theorem low_j0 (l : List Byte) (h : l.length = 12) : (j0 l).toNat % 2 ^ 32 = 1 := by
  have hb := div_j0 l h
  have key : ∀ i (_ : i < 4), (j0 l).toNat / 2 ^ (8 * (3 - i)) % 2 ^ 8 = (([0, 0, 0, 1] : List Byte).getD i 0).toNat := by
    intro i hi
    have := congrArg (fun x => (x.getD (12 + i) 0).toNat) hb
    simp only [bytesOf, List.getD_eq_getElem?_getD] at this
    rw [List.getElem?_append_right (by omega), List.getElem?_map, List.getElem?_range (by omega)] at this
    simp only [Option.map_some, Option.getD_some, BitVec.extractLsb'_toNat, Nat.shiftRight_eq_div_pow] at this
    rw [h, show 12 + i - 12 = i by omega, show 15 - (12 + i) = 3 - i by omega] at this
    rw [List.getD_eq_getElem?_getD]
    exact this
  have k0 := key 0 (by omega)
  have k1 := key 1 (by omega)
  have k2 := key 2 (by omega)
  have k3 := key 3 (by omega)
  simp only [List.getD_cons_zero, List.getD_cons_succ] at k0 k1 k2 k3
  have z : (0 : Byte).toNat = 0 := rfl
  have o : (1 : Byte).toNat = 1 := rfl
  rw [z] at k0 k1 k2
  rw [o] at k3
  norm_num at k0 k1 k2 k3
  omega

theorem j0_ne_zero {l : List Byte} (h : l.length = 12) : j0 l ≠ 0 := by
  intro e
  have := low_j0 l h
  rw [e] at this
  simp at this

/-- The blocks of the key stream of a record are neither zero nor the first block of a record. -/
theorem stream_point {l : List Byte} (h : l.length = 12) {i : Nat} (hi : i + 2 < 2 ^ 32) :
    counter (inc32 (j0 l)) i ≠ 0 ∧ ∀ l' : List Byte, l'.length = 12 → counter (inc32 (j0 l)) i ≠ j0 l' := by
  constructor
  · intro e
    rw [counter_inc] at e
    have := (C29_counter (j0 l) (i + 1)).2
    rw [e, low_j0 l h] at this
    simp at this
    omega
  · intro l' h' e
    rw [counter_inc] at e
    have := C29_records l l' h h' (i + 1) 0 e
    subst this
    exact absurd (C29_distinct (j0 l) (i + 1) 0 (by omega) (by norm_num) e) (by omega)

theorem stream_congr {E E' : Block → Block} {j : Block} {n : Nat} (h : ∀ i < (n + 15) / 16, E (counter (inc32 j) i) = E' (counter (inc32 j) i)) :
    keyStream E j n = keyStream E' j n := by
  have : (List.range ((n + 15) / 16)).flatMap (fun i => bytesOf (E (counter (inc32 j) i)))
      = (List.range ((n + 15) / 16)).flatMap fun i => bytesOf (E' (counter (inc32 j) i)) :=
    List.flatMap_congr fun i hi => by rw [h i (List.mem_range.1 hi)]
  unfold keyStream
  rw [this]

/-! ### Counting -/

/-- The conditions on the key streams. -/
def Streams (E : Block → Block) (fiv : List Byte) (recs : List Sent) : Prop := ∀ r ∈ recs, crypt E (j0 (fiv ++ r.iv)) r.msg = r.ctxt

/-- The value at the first counter block of a record that gives its tag, for the hash key `h`. -/
def maskOf (r : Sent) (h : Block) : Block := gcmGhash h (blocks (hashInput r.aad r.ctxt)) ^^^ blockOf r.tag

theorem tag_iff {E : Block → Block} {j : Block} {a c t : List Byte} (ht : t.length = 16) :
    tag E j a c = t ↔ E j = gcmGhash (E 0) (blocks (hashInput a c)) ^^^ blockOf t := by
  unfold Spec.GCM.tag tagWith
  constructor
  · intro e
    rw [← e, blockOf_bytesOf, ← BitVec.xor_assoc]
    show E j = gcmGhash (E 0) _ ^^^ gcmGhash (E 0) _ ^^^ E j
    rw [BitVec.xor_self, BitVec.zero_xor]
  · intro e
    rw [e, ← BitVec.xor_assoc]
    show bytesOf (gcmGhash (E 0) _ ^^^ gcmGhash (E 0) _ ^^^ _) = t
    rw [BitVec.xor_self, BitVec.zero_xor, bytesOf_blockOf _ ht]

theorem sends_iff {E : Block → Block} {fiv : List Byte} {recs : List Sent} (ht : ∀ r ∈ recs, r.tag.length = 16) :
    Sends E fiv recs ↔ Streams E fiv recs ∧ ∀ r ∈ recs, E (j0 (fiv ++ r.iv)) = maskOf r (E 0) := by
  unfold Sends Streams maskOf Spec.GCM.encrypt
  constructor
  · intro h
    constructor
    · intro r hr
      exact congrArg Prod.fst (h r hr)
    · intro r hr
      have h1 := congrArg Prod.fst (h r hr)
      have h2 := congrArg Prod.snd (h r hr)
      simp only at h1 h2
      rw [h1] at h2
      exact (tag_iff (ht r hr)).1 h2
  · rintro ⟨h1, h2⟩ r hr
    simp only [h1 r hr, Prod.mk.injEq, true_and]
    exact (tag_iff (ht r hr)).2 (h2 r hr)

theorem streams_congr {E E' : Block → Block} {fiv : List Byte} (hf : fiv.length = 4) {recs : List Sent} (hp : Proper recs)
    (h : ∀ x, x ≠ 0 → (∀ l : List Byte, l.length = 12 → x ≠ j0 l) → E x = E' x) : Streams E fiv recs ↔ Streams E' fiv recs := by
  have : ∀ r ∈ recs, crypt E (j0 (fiv ++ r.iv)) r.msg = crypt E' (j0 (fiv ++ r.iv)) r.msg := by
    intro r hr
    unfold crypt
    rw [stream_congr]
    intro i hi
    have hl : (fiv ++ r.iv).length = 12 := by rw [List.length_append, hf, hp.iv r hr]
    have hm := hp.msg r hr
    obtain ⟨h1, h2⟩ := stream_point hl (i := i) (by omega)
    exact h _ h1 h2
  unfold Streams
  constructor
  · intro h1 r hr; rw [← this r hr]; exact h1 r hr
  · intro h1 r hr; rw [this r hr]; exact h1 r hr

open Classical in
/-- The cipher with the hash key `h` and the tags of the records, elsewhere `f`. -/
noncomputable def build (fiv : List Byte) (recs : List Sent) (h : Block) (f : Block → Block) (x : Block) : Block :=
  if x = 0 then h else if e : ∃ r ∈ recs, j0 (fiv ++ r.iv) = x then maskOf e.choose h else f x

theorem proper_unique {fiv : List Byte} (hf : fiv.length = 4) {recs : List Sent} (hp : Proper recs) {r r' : Sent} (hr : r ∈ recs) (hr' : r' ∈ recs)
    (e : j0 (fiv ++ r.iv) = j0 (fiv ++ r'.iv)) : r = r' := by
  have := C29_records (fiv ++ r.iv) (fiv ++ r'.iv) (by rw [List.length_append, hf, hp.iv r hr]) (by rw [List.length_append, hf, hp.iv r' hr']) 0 0 e
  exact List.inj_on_of_nodup_map hp.once hr hr' (List.append_cancel_left this)

theorem build_zero (fiv : List Byte) (recs : List Sent) (h : Block) (f : Block → Block) : build fiv recs h f 0 = h := by simp [build]

theorem build_rec {fiv : List Byte} (hf : fiv.length = 4) {recs : List Sent} (hp : Proper recs) (h : Block) (f : Block → Block) {r : Sent} (hr : r ∈ recs) :
    build fiv recs h f (j0 (fiv ++ r.iv)) = maskOf r h := by
  have h0 : j0 (fiv ++ r.iv) ≠ 0 := j0_ne_zero (by rw [List.length_append, hf, hp.iv r hr])
  have e : ∃ r' ∈ recs, j0 (fiv ++ r'.iv) = j0 (fiv ++ r.iv) := ⟨r, hr, rfl⟩
  have := e.choose_spec
  rw [build, if_neg h0, dif_pos e, proper_unique hf hp this.1 hr this.2]

theorem build_other {fiv : List Byte} {recs : List Sent} (h : Block) (f : Block → Block) {x : Block} (h0 : x ≠ 0)
    (hx : ¬∃ r ∈ recs, j0 (fiv ++ r.iv) = x) : build fiv recs h f x = f x := by
  rw [build, if_neg h0, dif_neg hx]

/-- The ciphers under which the records are sent and whose hash key has a property: hash key and the rest are independent. -/
theorem card_sends (fiv : List Byte) (hf : fiv.length = 4) (recs : List Sent) (hp : Proper recs) (ht : ∀ r ∈ recs, r.tag.length = 16) (P : Block → Prop) :
    Nat.card { E : Block → Block // Sends E fiv recs ∧ P (E 0) }
      = Nat.card { h : Block // P h }
        * Nat.card { f : Block → Block // Streams f fiv recs ∧ f 0 = 0 ∧ ∀ r ∈ recs, f (j0 (fiv ++ r.iv)) = 0 } := by
  classical
  rw [← Nat.card_prod]
  have hl : ∀ r ∈ recs, (fiv ++ r.iv).length = 12 := fun r hr => by rw [List.length_append, hf, hp.iv r hr]
  have off : ∀ (E E' : Block → Block), (∀ x, x ≠ 0 → (¬∃ r ∈ recs, j0 (fiv ++ r.iv) = x) → E x = E' x) → (Streams E fiv recs ↔ Streams E' fiv recs) := by
    intro E E' h
    apply streams_congr hf hp
    intro x h0 hx
    exact h x h0 (fun ⟨r, hr, e⟩ => hx _ (hl r hr) e.symm)
  refine Nat.card_congr ⟨fun E => (⟨E.1 0, E.2.2⟩, ⟨fun x => if x = 0 ∨ ∃ r ∈ recs, j0 (fiv ++ r.iv) = x then 0 else E.1 x, ?_, ?_, ?_⟩),
    fun p => ⟨build fiv recs p.1.1 p.2.1, ?_, ?_⟩, ?_, ?_⟩
  · rw [off _ E.1]
    · exact ((sends_iff ht).1 E.2.1).1
    · intro x h0 hx
      simp only [h0, hx, or_self, if_false]
  · simp
  · intro r hr
    have : ∃ r' ∈ recs, j0 (fiv ++ r'.iv) = j0 (fiv ++ r.iv) := ⟨r, hr, rfl⟩
    simp only [this, or_true, if_true]
  · rw [sends_iff ht]
    refine ⟨?_, ?_⟩
    · rw [off _ p.2.1]
      · exact p.2.2.1
      · intro x h0 hx
        exact build_other _ _ h0 hx
    · intro r hr
      rw [build_rec hf hp _ _ hr, build_zero]
  · show P (build fiv recs p.1.1 p.2.1 0)
    rw [build_zero]; exact p.1.2
  · intro E
    apply Subtype.ext
    funext x
    simp only
    by_cases h0 : x = 0
    · subst h0; rw [build_zero]
    · by_cases hx : ∃ r ∈ recs, j0 (fiv ++ r.iv) = x
      · obtain ⟨r, hr, rfl⟩ := hx
        rw [build_rec hf hp _ _ hr, ((sends_iff ht).1 E.2.1).2 r hr]
      · rw [build_other _ _ h0 hx]
        simp only [h0, hx, or_self, if_false]
  · intro p
    apply Prod.ext
    · apply Subtype.ext
      exact build_zero fiv recs p.1.1 p.2.1
    · apply Subtype.ext
      funext x
      simp only
      by_cases h0 : x = 0
      · subst h0
        simp only [true_or, if_true]
        exact p.2.2.2.1.symm
      · by_cases hx : ∃ r ∈ recs, j0 (fiv ++ r.iv) = x
        · have := hx
          obtain ⟨r, hr, rfl⟩ := hx
          simp only [this, or_true, if_true]
          exact (p.2.2.2.2 r hr).symm
        · simp only [h0, hx, or_self, if_false]
          exact build_other _ _ h0 hx

theorem card_block : Nat.card Block = 2 ^ 128 := by
  rw [Nat.card_congr (⟨fun b => b.toFin, fun f => ⟨f⟩, fun _ => rfl, fun _ => rfl⟩ : Block ≃ Fin (2 ^ 128)), Nat.card_eq_fintype_card, Fintype.card_fin]

theorem card_any : Nat.card { _h : Block // True } = 2 ^ 128 := by
  rw [Nat.card_congr (Equiv.subtypeUnivEquiv fun _ => trivial), card_block]

/-- A nonce that was used. -/
theorem forge_used (fiv : List Byte) (hf : fiv.length = 4) (recs : List Sent) (hp : Proper recs) (ht : ∀ r ∈ recs, r.tag.length = 16) {r : Sent} (hr : r ∈ recs)
    {a c t : List Byte} (ha : a.length < 2 ^ 61) (hc : c.length < 2 ^ 61) (hrc : r.ctxt.length < 2 ^ 61) (htl : t.length = 16) (hne : ¬(r.aad = a ∧ r.ctxt = c)) :
    Nat.card { E : Block → Block // Sends E fiv recs ∧ tag E (j0 (fiv ++ r.iv)) a c = t } * 2 ^ 128
      ≤ max (count r.aad r.ctxt) (count a c) * Nat.card { E : Block → Block // Sends E fiv recs } := by
  have h1 := card_sends fiv hf recs hp ht
    (fun h => gcmGhash h (blocks (hashInput r.aad r.ctxt)) ^^^ gcmGhash h (blocks (hashInput a c)) = blockOf r.tag ^^^ blockOf t)
  have h2 := card_sends fiv hf recs hp ht (fun _ => True)
  have e1 : Nat.card { E : Block → Block // Sends E fiv recs ∧ tag E (j0 (fiv ++ r.iv)) a c = t }
      = Nat.card { E : Block → Block // Sends E fiv recs ∧ gcmGhash (E 0) (blocks (hashInput r.aad r.ctxt)) ^^^ gcmGhash (E 0) (blocks (hashInput a c))
        = blockOf r.tag ^^^ blockOf t } := by
    refine Nat.card_congr (Equiv.subtypeEquivRight fun E => and_congr_right fun hs => ?_)
    have hm := ((sends_iff ht).1 hs).2 r hr
    rw [tag_iff htl, hm, maskOf]
    generalize gcmGhash (E 0) (blocks (hashInput r.aad r.ctxt)) = x
    generalize gcmGhash (E 0) (blocks (hashInput a c)) = y
    constructor
    · intro e
      have e2 := congrArg (fun z => z ^^^ blockOf r.tag ^^^ y) e
      have c1 : ∀ u v w : Block, u ^^^ v ^^^ v ^^^ w = u ^^^ w := by
        intro u v w; rw [BitVec.xor_assoc u v v, BitVec.xor_self, BitVec.xor_zero]
      simp only [c1] at e2
      rw [e2]
      have : y ^^^ blockOf t ^^^ blockOf r.tag ^^^ y = (y ^^^ y) ^^^ (blockOf r.tag ^^^ blockOf t) := by ac_rfl
      rw [this, BitVec.xor_self, BitVec.zero_xor]
    · intro e
      have e2 : x ^^^ y ^^^ y ^^^ blockOf r.tag = blockOf r.tag ^^^ blockOf t ^^^ y ^^^ blockOf r.tag := by rw [e]
      have c1 : x ^^^ y ^^^ y ^^^ blockOf r.tag = (y ^^^ y) ^^^ (x ^^^ blockOf r.tag) := by ac_rfl
      have c2 : blockOf r.tag ^^^ blockOf t ^^^ y ^^^ blockOf r.tag = (blockOf r.tag ^^^ blockOf r.tag) ^^^ (y ^^^ blockOf t) := by ac_rfl
      rw [c1, c2, BitVec.xor_self, BitVec.xor_self, BitVec.zero_xor, BitVec.zero_xor] at e2
      exact e2
  have e2 : Nat.card { E : Block → Block // Sends E fiv recs } = Nat.card { E : Block → Block // Sends E fiv recs ∧ True } :=
    Nat.card_congr (Equiv.subtypeEquivRight fun E => by simp)
  rw [e1, e2, h1, h2, card_any]
  have hb := hash_bound (a := r.aad) (c := r.ctxt) (a' := a) (c' := c) (by have := hp.aad r hr; omega) (by omega) (by omega) (by omega) hne
    (blockOf r.tag ^^^ blockOf t)
  calc _ ≤ max (count r.aad r.ctxt) (count a c) * Nat.card { f : Block → Block // Streams f fiv recs ∧ f 0 = 0 ∧ ∀ r ∈ recs, f (j0 (fiv ++ r.iv)) = 0 } * 2 ^ 128 :=
        Nat.mul_le_mul_right _ (Nat.mul_le_mul_right _ hb)
    _ = _ := by ring

/-- A nonce that was not used: exactly one of `2^128`. -/
theorem forge_new (fiv : List Byte) (hf : fiv.length = 4) (recs : List Sent) (hp : Proper recs) (ht : ∀ r ∈ recs, r.tag.length = 16)
    {iv a c t : List Byte} (hiv : iv.length = 8) (htl : t.length = 16) (hn : ∀ r ∈ recs, r.iv ≠ iv) :
    Nat.card { E : Block → Block // Sends E fiv recs ∧ tag E (j0 (fiv ++ iv)) a c = t } * 2 ^ 128 = Nat.card { E : Block → Block // Sends E fiv recs } := by
  classical
  rw [← card_block, ← Nat.card_prod]
  have hl : (fiv ++ iv).length = 12 := by rw [List.length_append, hf, hiv]
  have h0 : (0 : Block) ≠ j0 (fiv ++ iv) := (j0_ne_zero hl).symm
  have hj : ∀ r ∈ recs, j0 (fiv ++ r.iv) ≠ j0 (fiv ++ iv) := by
    intro r hr e
    have := C29_records (fiv ++ r.iv) (fiv ++ iv) (by rw [List.length_append, hf, hp.iv r hr]) hl 0 0 e
    exact hn r hr (List.append_cancel_left this)
  have hu : ∀ (E : Block → Block) (z : Block), Sends E fiv recs → Sends (Function.update E (j0 (fiv ++ iv)) z) fiv recs := by
    intro E z h
    rw [sends_iff ht] at h ⊢
    refine ⟨?_, ?_⟩
    · rw [streams_congr hf hp (E' := E)]
      · exact h.1
      · intro x _ hx
        exact Function.update_of_ne (hx _ hl) _ _
    · intro r hr
      rw [Function.update_of_ne (hj r hr), Function.update_of_ne h0]
      exact h.2 r hr
  refine Nat.card_congr ⟨fun p => ⟨Function.update p.1.1 (j0 (fiv ++ iv)) p.2, hu _ _ p.1.2.1⟩,
    fun E => (⟨Function.update E.1 (j0 (fiv ++ iv)) (gcmGhash (E.1 0) (blocks (hashInput a c)) ^^^ blockOf t), hu _ _ E.2, ?_⟩, E.1 (j0 (fiv ++ iv))), ?_, ?_⟩
  · rw [tag_iff htl, Function.update_self, Function.update_of_ne h0]
  · intro p
    apply Prod.ext
    · apply Subtype.ext
      simp only [Function.update_idem, Function.update_of_ne h0]
      rw [← (tag_iff htl).1 p.1.2.2, Function.update_eq_self]
    · simp
  · intro E
    apply Subtype.ext
    simp

/-- A record given to `decrypt`. -/
structure Try where
  iv : List Byte
  aad : List Byte
  ctxt : List Byte
  tag : List Byte

/-- In some state that calls of the API reach, with the block cipher `E` under the session key, a party's `decrypt` (aead.h:309-492) of this record returns true. -/
def Accepts (hash : List Byte → List Byte) (E : Block → Block) (fiv : List Byte) (s : Bool) (x : Try) : Prop :=
  ∃ st secret m raw0 raw1 rA rB st' pA pB okA okB, Reach hash E fiv s st
    ∧ AEAD.decrypt hash s st x.ctxt x.ctxt x.tag x.tag x.aad x.iv secret m raw0 raw1 rA rB = .ok (st', ⟨pA, okA⟩, ⟨pB, okB⟩) ∧ (okA = true ∨ okB = true)

/-- The record was not sent, its nonce has 8 bytes, its tag 16, and its lengths are those GCM can encode. -/
structure Forged (recs : List Sent) (x : Try) : Prop where
  iv : x.iv.length = 8
  tag : x.tag.length = 16
  aad : x.aad.length < 2 ^ 61
  ctxt : x.ctxt.length < 2 ^ 61
  fresh : ∀ r ∈ recs, ¬(r.iv = x.iv ∧ r.aad = x.aad ∧ r.ctxt = x.ctxt)

theorem accepts_iff (hash : List Byte → List Byte) (E : Block → Block) (fiv : List Byte) (hf : fiv.length = 4) (s : Bool) (x : Try) (hiv : x.iv.length = 8)
    (ht : x.tag.length = 16) : Accepts hash E fiv s x ↔ tag E (j0 (fiv ++ x.iv)) x.aad x.ctxt = x.tag := by
  constructor
  · rintro ⟨st, secret, m, raw0, raw1, rA, rB, st', pA, pB, okA, okB, h1, h2, h3⟩
    obtain ⟨st2, h4, -⟩ := decrypt_eq hash E fiv hf s st (reach_good hf h1) x.ctxt x.ctxt x.tag x.tag x.aad x.iv hiv secret m raw0 raw1 rA rB (fun _ => rfl)
    rw [h2] at h4
    simp only [Except.ok.injEq, Prod.mk.injEq, Opened.mk.injEq] at h4
    obtain ⟨-, ⟨-, k1⟩, -, k2⟩ := h4
    have hk : (x.tag.take 16 == Spec.GCM.tag E (j0 (fiv ++ x.iv)) x.aad x.ctxt) = true := by
      rcases h3 with h3 | h3
      · rw [← k1]; exact h3
      · rw [← k2]; exact h3
    rw [List.take_of_length_le (by omega), beq_iff_eq] at hk
    exact hk.symm
  · intro h
    obtain ⟨st, h1, -⟩ := construct_eq E (strToInt fiv) s (fun _ => true) 1 (fun _ => 0) (fun _ => 0)
    have hr : Reach hash E fiv s st := Reach.construct (by decide) h1
    obtain ⟨st2, h4, -⟩ := decrypt_eq hash E fiv hf s st (reach_good hf hr) x.ctxt x.ctxt x.tag x.tag x.aad x.iv hiv true (fun _ => true) (fun _ => 0) (fun _ => 0)
      [] [] (fun _ => rfl)
    refine ⟨st, true, fun _ => true, fun _ => 0, fun _ => 0, [], [], st2, _, _, _, _, hr, h4, Or.inl ?_⟩
    rw [List.take_of_length_le (by omega), h]
    simp

theorem tags_of_sends {fiv : List Byte} {recs : List Sent} {E : Block → Block} (h : Sends E fiv recs) : ∀ r ∈ recs, r.tag.length = 16 := by
  intro r hr
  have h1 := congrArg (fun p => p.2.length) (h r hr)
  simp only [Spec.GCM.encrypt, Spec.GCM.tag, tagWith, length_bytesOf] at h1
  omega

/-- **C63.**  Let `recs` be the records that were sent under nonces used once, and let another record (its nonce, additional data and ciphertext are not those of one record sent) be
given to `decrypt` with any tag.  Of the block ciphers under which `recs` are sent, at most `N` of `2^128` let a party accept, in any state of the object, where `N` is the largest
number of blocks hashed for one record: one per 16 bytes of additional data or ciphertext, and one. -/
theorem C63_forgery (hash : List Byte → List Byte) (fiv : List Byte) (hf : fiv.length = 4) (s : Bool) (recs : List Sent) (hp : Proper recs) (x : Try) (hx : Forged recs x)
    (N : Nat) (hN : (x.aad.length + 15) / 16 + (x.ctxt.length + 15) / 16 + 1 ≤ N)
    (hN' : ∀ r ∈ recs, (r.aad.length + 15) / 16 + (r.ctxt.length + 15) / 16 + 1 ≤ N) :
    Nat.card { E : Block → Block // Sends E fiv recs ∧ Accepts hash E fiv s x } * 2 ^ 128 ≤ N * Nat.card { E : Block → Block // Sends E fiv recs } := by
  have e1 : Nat.card { E : Block → Block // Sends E fiv recs ∧ Accepts hash E fiv s x }
      = Nat.card { E : Block → Block // Sends E fiv recs ∧ Spec.GCM.tag E (j0 (fiv ++ x.iv)) x.aad x.ctxt = x.tag } :=
    Nat.card_congr (Equiv.subtypeEquivRight fun E => and_congr_right fun _ => accepts_iff hash E fiv hf s x hx.iv hx.tag)
  rw [e1]
  by_cases htr : ∀ r ∈ recs, r.tag.length = 16
  · by_cases hu : ∃ r ∈ recs, r.iv = x.iv
    · obtain ⟨r, hr, hi⟩ := hu
      rw [← hi]
      by_cases hrc : r.ctxt.length < 2 ^ 61
      · refine (forge_used fiv hf recs hp htr hr hx.aad hx.ctxt hrc hx.tag (fun h => hx.fresh r hr ⟨hi, h⟩)).trans (Nat.mul_le_mul_right _ ?_)
        exact Nat.max_le.2 ⟨hN' r hr, hN⟩
      · have : IsEmpty { E : Block → Block // Sends E fiv recs ∧ Spec.GCM.tag E (j0 (fiv ++ r.iv)) x.aad x.ctxt = x.tag } := by
          refine ⟨fun E => hrc ?_⟩
          have h1 := congrArg (fun p => p.1.length) (E.2.1 r hr)
          have hm := hp.msg r hr
          simp only [Spec.GCM.encrypt, crypt, List.length_zipWith, length_keyStream] at h1
          omega
        simp
    · rw [forge_new fiv hf recs hp htr hx.iv hx.tag (fun r hr e => hu ⟨r, hr, e⟩)]
      exact Nat.le_mul_of_pos_left _ (by omega)
  · have : IsEmpty { E : Block → Block // Sends E fiv recs ∧ Spec.GCM.tag E (j0 (fiv ++ x.iv)) x.aad x.ctxt = x.tag } :=
      ⟨fun E => htr (tags_of_sends E.2.1)⟩
    simp

/-- **C63.**  Under a nonce that no record has, exactly one of `2^128` of the ciphers lets a party accept. -/
theorem C63_new_nonce (hash : List Byte → List Byte) (fiv : List Byte) (hf : fiv.length = 4) (s : Bool) (recs : List Sent) (hp : Proper recs) (x : Try)
    (hiv : x.iv.length = 8) (ht : x.tag.length = 16) (hn : ∀ r ∈ recs, r.iv ≠ x.iv) :
    Nat.card { E : Block → Block // Sends E fiv recs ∧ Accepts hash E fiv s x } * 2 ^ 128 = Nat.card { E : Block → Block // Sends E fiv recs } := by
  by_cases htr : ∀ r ∈ recs, r.tag.length = 16
  · rw [← forge_new fiv hf recs hp htr (a := x.aad) (c := x.ctxt) hiv ht hn,
      Nat.card_congr (Equiv.subtypeEquivRight fun E => and_congr_right fun _ => accepts_iff hash E fiv hf s x hiv ht)]
  · have h1 : IsEmpty { E : Block → Block // Sends E fiv recs } := ⟨fun E => htr (tags_of_sends E.2)⟩
    have h2 : IsEmpty { E : Block → Block // Sends E fiv recs ∧ Accepts hash E fiv s x } := ⟨fun E => htr (tags_of_sends E.2.1)⟩
    simp

/-- **C63.**  With `q` forged records, chosen with all records that were sent in view, at most `q N` of `2^128` of the ciphers let a party accept one of them. -/
theorem C63_attempts (hash : List Byte → List Byte) (fiv : List Byte) (hf : fiv.length = 4) (s : Bool) (recs : List Sent) (hp : Proper recs) (xs : List Try)
    (hx : ∀ x ∈ xs, Forged recs x) (N : Nat) (hN : ∀ x ∈ xs, (x.aad.length + 15) / 16 + (x.ctxt.length + 15) / 16 + 1 ≤ N)
    (hN' : ∀ r ∈ recs, (r.aad.length + 15) / 16 + (r.ctxt.length + 15) / 16 + 1 ≤ N) :
    Nat.card { E : Block → Block // Sends E fiv recs ∧ ∃ x ∈ xs, Accepts hash E fiv s x } * 2 ^ 128
      ≤ xs.length * N * Nat.card { E : Block → Block // Sends E fiv recs } := by
  induction xs with
  | nil => simp
  | cons x xs ih =>
    have h1 := C63_forgery hash fiv hf s recs hp x (hx x (by simp)) N (hN x (by simp)) hN'
    have h2 := ih (fun y hy => hx y (by simp [hy])) (fun y hy => hN y (by simp [hy]))
    have h3 : Nat.card { E : Block → Block // Sends E fiv recs ∧ ∃ y ∈ x :: xs, Accepts hash E fiv s y }
        ≤ Nat.card { E : Block → Block // Sends E fiv recs ∧ Accepts hash E fiv s x }
          + Nat.card { E : Block → Block // Sends E fiv recs ∧ ∃ y ∈ xs, Accepts hash E fiv s y } := by
      have hu := Set.ncard_union_le { E : Block → Block | Sends E fiv recs ∧ Accepts hash E fiv s x }
        { E : Block → Block | Sends E fiv recs ∧ ∃ y ∈ xs, Accepts hash E fiv s y }
      refine le_trans (le_of_eq ?_) hu
      rw [← Nat.card_coe_set_eq]
      refine Nat.card_congr (Equiv.subtypeEquivRight fun E => ?_)
      simp only [List.mem_cons, exists_eq_or_imp, Set.mem_union, Set.mem_ofPred_eq]
      tauto
    calc _ ≤ (Nat.card { E : Block → Block // Sends E fiv recs ∧ Accepts hash E fiv s x }
          + Nat.card { E : Block → Block // Sends E fiv recs ∧ ∃ y ∈ xs, Accepts hash E fiv s y }) * 2 ^ 128 := Nat.mul_le_mul_right _ h3
      _ ≤ N * Nat.card { E : Block → Block // Sends E fiv recs } + xs.length * N * Nat.card { E : Block → Block // Sends E fiv recs } := by
        rw [Nat.add_mul]; exact Nat.add_le_add h1 h2
      _ = _ := by rw [List.length_cons]; ring

/-! ### The hypotheses are met -/

/-- Two records sent under the cipher that is the identity, with nonces 1 and 2. -/
def sampleRecs : List Sent :=
  [1, 2].map fun n : Byte =>
    let iv : List Byte := [0, 0, 0, 0, 0, 0, 0, n]
    let e := Spec.GCM.encrypt (fun x => x) ([1, 2, 3, 4] ++ iv) [n, 23, 3, 3] [72, 105, n]
    ⟨iv, [n, 23, 3, 3], [72, 105, n], e.1, e.2⟩

example : Sends (fun x => x) [1, 2, 3, 4] sampleRecs := by
  intro r hr
  obtain ⟨n, -, rfl⟩ := List.mem_map.1 hr
  rfl

example : Proper sampleRecs := ⟨by simp [sampleRecs], by simp [sampleRecs], by simp [sampleRecs], by simp [sampleRecs]⟩

/-- Two forged records: the first record with another ciphertext, and a record with the nonce 3. -/
example : ∀ x ∈ ([⟨[0, 0, 0, 0, 0, 0, 0, 1], [1, 23, 3, 3], [1], List.replicate 16 0⟩, ⟨[0, 0, 0, 0, 0, 0, 0, 3], [], [1], List.replicate 16 7⟩] : List Try),
    Forged sampleRecs x := by
  have hl : ∀ r ∈ sampleRecs, r.ctxt.length = 3 := by
    intro r hr
    obtain ⟨n, -, rfl⟩ := List.mem_map.1 hr
    simp [Spec.GCM.encrypt, crypt, length_keyStream]
  intro x hx
  have hc : x.ctxt = [1] := by
    simp only [List.mem_cons, List.not_mem_nil, or_false] at hx
    rcases hx with rfl | rfl <;> rfl
  have h0 : ∀ r ∈ sampleRecs, ¬(r.iv = x.iv ∧ r.aad = x.aad ∧ r.ctxt = x.ctxt) := by
    rintro r hr ⟨-, -, e⟩
    have := hl r hr
    rw [e, hc] at this
    simp at this
  simp only [List.mem_cons, List.not_mem_nil, or_false] at hx
  rcases hx with rfl | rfl
  · exact ⟨rfl, rfl, by simp, by simp, h0⟩
  · exact ⟨rfl, rfl, by simp, by simp, h0⟩

end Verif.Props.Forgery
