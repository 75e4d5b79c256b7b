import Verif.Model.PostRecord
import Verif.Props.AEADProof

/-!
C39: `finalize_check` accepts exactly if all tags are the GCM tags.
-/

namespace Verif.Props.PostRecord
open Verif.Model Verif.Model.Integer Verif.Model.AEAD Verif.Model.PostRecord Verif.Lemmas Verif.Props

theorem drop_flatten (xs : List Integer) (h : ∀ x ∈ xs, x.length = 128) : ∀ (i : Nat) (x : Integer), xs[i]? = some x →
    (xs.flatten.drop (128 * i)).take 128 = x := by
  induction xs with
  | nil => intro i x hx; simp at hx
  | cons y ys ih =>
    intro i x hx
    have hy := h y (by simp)
    cases i with
    | zero =>
      simp only [List.getElem?_cons_zero, Option.some.injEq] at hx
      subst hx
      rw [List.flatten_cons, Nat.mul_zero, List.drop_zero, List.take_left' hy]
    | succ i =>
      simp only [List.getElem?_cons_succ] at hx
      rw [List.flatten_cons, Nat.mul_succ, Nat.add_comm, ← List.drop_drop, List.drop_left' hy]
      exact ih (fun z hz => h z (by simp [hz])) i x hx

theorem flatten_length (xs : List Integer) (h : ∀ x ∈ xs, x.length = 128) : xs.flatten.length = 128 * xs.length := by
  induction xs with
  | nil => rfl
  | cons y ys ih =>
    rw [List.flatten_cons, List.length_append, h y (by simp), ih fun z hz => h z (by simp [hz]), List.length_cons]
    omega

theorem fold_and {α : Type} (f : α → Nat → Bool) (l : List α) : ∀ (k : Nat) (b : Bool),
    ((l.zipIdx k).foldl (fun res p => res && f p.1 p.2) b = true) ↔ b = true ∧ ∀ i x, l[i]? = some x → f x (k + i) = true := by
  induction l with
  | nil => intro k b; simp
  | cons y l ih =>
    intro k b
    rw [List.zipIdx_cons, List.foldl_cons, ih]
    simp only [Bool.and_eq_true]
    constructor
    · rintro ⟨⟨h1, h2⟩, h3⟩
      refine ⟨h1, ?_⟩
      intro i x hx
      cases i with
      | zero => simp only [List.getElem?_cons_zero, Option.some.injEq] at hx; subst hx; exact h2
      | succ i => have := h3 i x (by simpa using hx); rwa [show k + (i + 1) = k + 1 + i by omega]
    · rintro ⟨h1, h2⟩
      refine ⟨⟨h1, h2 0 y rfl⟩, ?_⟩
      intro i x hx
      have := h2 (i + 1) x (by simpa using hx)
      rwa [show k + (i + 1) = k + 1 + i by omega] at this

/-- The tag of a record is the GCM tag with hash key `h` and mask `z`. -/
def Valid (h : Block) (r : Rec) (z : Integer) : Prop := r.tag = Spec.GCM.tagWith h (blk z) r.aad r.ctxt

theorem compare_iff (aadLen : Nat) (r : Rec) (ht : r.tag.length = 16) (ha : r.aad.length = aadLen) (h z : Block) :
    r.compare aadLen h z = true ↔ r.tag = Spec.GCM.tagWith h z r.aad r.ctxt := by
  rw [Rec.compare, List.take_of_length_le (by omega), C28_compare_tag _ ht]

/-- C39: for any number of records in both directions, the check returns, and returns true exactly if the tags of the client
finished message and of all records sent are the GCM tags for the client's hash key, and those of the server finished
message and of all records received are the GCM tags for the server's hash key. -/
theorem C39_finalize (Hc Hs zc zs : Integer) (hl : ∀ x ∈ [Hc, Hs, zc, zs], x.length = 128) (finc fins : Rec)
    (encZ0s decZ0s : List Integer) (he : ∀ x ∈ encZ0s ++ decZ0s, x.length = 128) (enc dec : List Rec)
    (le : encZ0s.length = enc.length) (ld : decZ0s.length = dec.length) (aadLen : Nat)
    (hr : ∀ r ∈ finc :: fins :: (enc ++ dec), r.tag.length = 16 ∧ r.aad.length = aadLen) :
    ∃ res, finalizeCheck Hc Hs zc zs finc fins encZ0s enc enc.length decZ0s dec dec.length aadLen = .ok res
      ∧ (res = true ↔ Valid (blk Hc) finc zc ∧ Valid (blk Hs) fins zs
          ∧ List.Forall₂ (fun r z => Valid (blk Hc) r z) enc encZ0s ∧ List.Forall₂ (fun r z => Valid (blk Hs) r z) dec decZ0s) := by
  set xs : List Integer := [Hc, Hs, zc, zs] ++ (encZ0s ++ decZ0s) with hxs
  have hx : ∀ x ∈ xs, x.length = 128 := by
    intro x h
    rw [hxs, List.mem_append] at h
    exact h.elim (hl x) (he x)
  have hcat : reverseConcat (reverseConcat (reverseConcat (reverseConcat (reverseConcat (reverseConcat [] [Hc]) [Hs]) [zc]) [zs]) encZ0s) decZ0s
      = xs.flatten := by
    simp [reverseConcat_eq, hxs]
  have hlen : xs.flatten.length = 128 * (4 + enc.length + dec.length) := by
    rw [flatten_length xs hx, hxs]
    simp; omega
  have hat : ∀ i x, xs[i]? = some x → blockAt xs.flatten i = blk x := fun i x h => by
    rw [blockAt, drop_flatten xs hx i x h]
  have hread : (finc :: fins :: (enc ++ dec)).all (Rec.readable aadLen) = true := by
    rw [List.all_eq_true]
    intro r h
    obtain ⟨h1, h2⟩ := hr r h
    simp [Rec.readable, h1, h2]
  refine ⟨?_, ?_, ?_⟩
  rotate_left
  · unfold finalizeCheck
    rw [if_neg (by omega), List.take_of_length_le (le_refl enc.length), List.take_of_length_le (le_refl dec.length),
      if_neg (by rw [hread]; simp)]
    simp only [List.take_of_length_le (le_of_eq le), List.take_of_length_le (le_of_eq ld), hcat]
    rw [if_neg (by rw [hlen]; simp)]
  · rw [fold_and (fun p i => p.compare aadLen (blockAt xs.flatten 1) (blockAt xs.flatten (4 + enc.length + i))) dec 0,
      fold_and (fun p i => p.compare aadLen (blockAt xs.flatten 0) (blockAt xs.flatten (4 + i))) enc 0]
    rw [hat 0 Hc rfl, hat 1 Hs rfl, hat 2 zc rfl, hat 3 zs rfl]
    simp only [Bool.true_and, Bool.and_eq_true, Nat.zero_add]
    have m1 := hr finc (by simp)
    have m2 := hr fins (by simp)
    rw [compare_iff aadLen finc m1.1 m1.2, compare_iff aadLen fins m2.1 m2.2, and_assoc, and_assoc]
    refine and_congr Iff.rfl (and_congr Iff.rfl (and_congr ?_ ?_))
    · rw [List.forall₂_iff_get]
      constructor
      · intro h
        refine ⟨le.symm, ?_⟩
        intro i h1 h2
        have e := h i enc[i] (List.getElem?_eq_getElem h1)
        rw [hat (4 + i) encZ0s[i] (by rw [hxs, List.getElem?_append_right (by simp)]; simp [List.getElem?_append_left h2])] at e
        have m := hr enc[i] (by simp)
        exact (compare_iff aadLen _ m.1 m.2 _ _).mp e
      · rintro ⟨-, h⟩ i r hi
        obtain ⟨h1, rfl⟩ := List.getElem?_eq_some_iff.mp hi
        have h2 : i < encZ0s.length := by omega
        rw [hat (4 + i) encZ0s[i] (by rw [hxs, List.getElem?_append_right (by simp)]; simp [List.getElem?_append_left h2])]
        have m := hr enc[i] (by simp)
        exact (compare_iff aadLen _ m.1 m.2 _ _).mpr (h i h1 h2)
    · rw [List.forall₂_iff_get]
      constructor
      · intro h
        refine ⟨ld.symm, ?_⟩
        intro i h1 h2
        have e := h i dec[i] (List.getElem?_eq_getElem h1)
        rw [hat (4 + enc.length + i) decZ0s[i] (by
          rw [hxs, List.getElem?_append_right (by simp; omega), List.getElem?_append_right (by simp; omega)]
          simp only [List.length_cons, List.length_nil]
          rw [show 4 + enc.length + i - (0 + 1 + 1 + 1 + 1) - encZ0s.length = i by omega]
          exact List.getElem?_eq_getElem h2)] at e
        have m := hr dec[i] (by simp)
        exact (compare_iff aadLen _ m.1 m.2 _ _).mp e
      · rintro ⟨-, h⟩ i r hi
        obtain ⟨h1, rfl⟩ := List.getElem?_eq_some_iff.mp hi
        have h2 : i < decZ0s.length := by omega
        rw [hat (4 + enc.length + i) decZ0s[i] (by
          rw [hxs, List.getElem?_append_right (by simp; omega), List.getElem?_append_right (by simp; omega)]
          simp only [List.length_cons, List.length_nil]
          rw [show 4 + enc.length + i - (0 + 1 + 1 + 1 + 1) - encZ0s.length = i by omega]
          exact List.getElem?_eq_getElem h2)]
        have m := hr dec[i] (by simp)
        exact (compare_iff aadLen _ m.1 m.2 _ _).mpr (h i h1 h2)

theorem blk_strToInt (b : Block) : blk (strToInt (Spec.GCM.bytesOf b)) = b := by
  rw [← ofNat_block, blk, val_ofNat]
  simp [Nat.mod_eq_of_lt b.isLt]

theorem valid_gcm (E : Block → Block) (r : Rec) (fiv iv : List Byte) :
    Valid (E 0) r (strToInt (Spec.GCM.bytesOf (E (Spec.GCM.j0 (fiv ++ iv))))) ↔ r.tag = Spec.GCM.tag E (Spec.GCM.j0 (fiv ++ iv)) r.aad r.ctxt := by
  rw [Valid, blk_strToInt]
  rfl

/-- C39: with the hash keys of the proof objects (C40_construct) and the masks returned by the record proofs (C40_prove,
C40_last), the check returns true exactly if every tag is the GCM tag under the key of its direction, with the nonce the
record was proved for. -/
theorem C39_gcm (Ec Es : Block → Block) (fc fs ivc ivs : List Byte) (finc fins : Rec) (enc dec : List (List Byte × Rec)) (aadLen : Nat)
    (hr : ∀ r ∈ finc :: fins :: (enc.map Prod.snd ++ dec.map Prod.snd), r.tag.length = 16 ∧ r.aad.length = aadLen) :
    ∃ res, finalizeCheck (strToInt (Spec.GCM.bytesOf (Ec 0))) (strToInt (Spec.GCM.bytesOf (Es 0)))
        (strToInt (Spec.GCM.bytesOf (Ec (Spec.GCM.j0 (fc ++ ivc))))) (strToInt (Spec.GCM.bytesOf (Es (Spec.GCM.j0 (fs ++ ivs)))))
        finc fins
        (enc.map fun p => strToInt (Spec.GCM.bytesOf (Ec (Spec.GCM.j0 (fc ++ p.1))))) (enc.map Prod.snd) enc.length
        (dec.map fun p => strToInt (Spec.GCM.bytesOf (Es (Spec.GCM.j0 (fs ++ p.1))))) (dec.map Prod.snd) dec.length aadLen = .ok res
      ∧ (res = true ↔ finc.tag = Spec.GCM.tag Ec (Spec.GCM.j0 (fc ++ ivc)) finc.aad finc.ctxt
          ∧ fins.tag = Spec.GCM.tag Es (Spec.GCM.j0 (fs ++ ivs)) fins.aad fins.ctxt
          ∧ (∀ p ∈ enc, p.2.tag = Spec.GCM.tag Ec (Spec.GCM.j0 (fc ++ p.1)) p.2.aad p.2.ctxt)
          ∧ (∀ p ∈ dec, p.2.tag = Spec.GCM.tag Es (Spec.GCM.j0 (fs ++ p.1)) p.2.aad p.2.ctxt)) := by
  have h := C39_finalize (strToInt (Spec.GCM.bytesOf (Ec 0))) (strToInt (Spec.GCM.bytesOf (Es 0)))
        (strToInt (Spec.GCM.bytesOf (Ec (Spec.GCM.j0 (fc ++ ivc))))) (strToInt (Spec.GCM.bytesOf (Es (Spec.GCM.j0 (fs ++ ivs)))))
        (by simp) finc fins
        (enc.map fun p => strToInt (Spec.GCM.bytesOf (Ec (Spec.GCM.j0 (fc ++ p.1)))))
        (dec.map fun p => strToInt (Spec.GCM.bytesOf (Es (Spec.GCM.j0 (fs ++ p.1)))))
        (by
          intro x hx
          rw [List.mem_append, List.mem_map, List.mem_map] at hx
          rcases hx with ⟨p, -, rfl⟩ | ⟨p, -, rfl⟩ <;> simp)
        (enc.map Prod.snd) (dec.map Prod.snd) (by simp) (by simp) aadLen hr
  rw [List.length_map, List.length_map] at h
  obtain ⟨res, h1, h2⟩ := h
  refine ⟨res, h1, h2.trans ?_⟩
  rw [blk_strToInt, blk_strToInt, valid_gcm, valid_gcm, List.forall₂_map_left_iff, List.forall₂_map_right_iff, List.forall₂_same,
    List.forall₂_map_left_iff, List.forall₂_map_right_iff, List.forall₂_same]
  simp only [valid_gcm]

/-- One wrong tag, anywhere, makes the check fail. -/
theorem C39_wrong_tag (Ec Es : Block → Block) (fc fs ivc ivs : List Byte) (finc fins : Rec) (enc dec : List (List Byte × Rec)) (aadLen : Nat)
    (hr : ∀ r ∈ finc :: fins :: (enc.map Prod.snd ++ dec.map Prod.snd), r.tag.length = 16 ∧ r.aad.length = aadLen)
    (p : List Byte × Rec) (hp : p ∈ dec) (hw : p.2.tag ≠ Spec.GCM.tag Es (Spec.GCM.j0 (fs ++ p.1)) p.2.aad p.2.ctxt) :
    finalizeCheck (strToInt (Spec.GCM.bytesOf (Ec 0))) (strToInt (Spec.GCM.bytesOf (Es 0)))
        (strToInt (Spec.GCM.bytesOf (Ec (Spec.GCM.j0 (fc ++ ivc))))) (strToInt (Spec.GCM.bytesOf (Es (Spec.GCM.j0 (fs ++ ivs)))))
        finc fins
        (enc.map fun p => strToInt (Spec.GCM.bytesOf (Ec (Spec.GCM.j0 (fc ++ p.1))))) (enc.map Prod.snd) enc.length
        (dec.map fun p => strToInt (Spec.GCM.bytesOf (Es (Spec.GCM.j0 (fs ++ p.1))))) (dec.map Prod.snd) dec.length aadLen = .ok false := by
  obtain ⟨res, h1, h2⟩ := C39_gcm Ec Es fc fs ivc ivs finc fins enc dec aadLen hr
  rw [h1]
  cases res with
  | false => rfl
  | true => exact absurd ((h2.mp rfl).2.2.2 p hp) hw

/-- If the caller's number of records is larger than a vector, the check is undefined behaviour. -/
theorem C39_too_few (Hc Hs zc zs : Integer) (finc fins : Rec) (encZ0s decZ0s : List Integer) (enc dec : List Rec) (encNum decNum aadLen : Nat)
    (h : encZ0s.length < encNum ∨ decZ0s.length < decNum) :
    ∃ w, finalizeCheck Hc Hs zc zs finc fins encZ0s enc encNum decZ0s dec decNum aadLen = .error (.ub w) := by
  unfold finalizeCheck
  rw [if_pos (by omega)]
  exact ⟨_, rfl⟩

/-- A tag of fewer than 16 bytes, or additional data shorter than the caller says, is read beyond its end: undefined behaviour, whichever
of the records it is. -/
theorem C39_short_buffer (Hc Hs zc zs : Integer) (finc fins : Rec) (encZ0s decZ0s : List Integer) (enc dec : List Rec) (encNum decNum aadLen : Nat)
    (r : Rec) (hr : r ∈ finc :: fins :: (enc.take encNum ++ dec.take decNum)) (hs : r.tag.length < 16 ∨ r.aad.length < aadLen) :
    ∃ w, finalizeCheck Hc Hs zc zs finc fins encZ0s enc encNum decZ0s dec decNum aadLen = .error (.ub w) := by
  unfold finalizeCheck
  split
  · exact ⟨_, rfl⟩
  · rw [if_pos]
    · exact ⟨_, rfl⟩
    · rw [List.all_eq_true]
      intro h
      have := h r hr
      simp only [Rec.readable, Bool.and_eq_true, decide_eq_true_eq] at this
      omega

/-- If the finished messages were not proved before (their masks are still empty integers), the revealed array is read
uninitialised, whatever the records. -/
theorem C39_unproved_finished (Hc Hs : Integer) (hc : Hc.length = 128) (hs : Hs.length = 128) (finc fins : Rec)
    (encZ0s decZ0s : List Integer) (he : ∀ x ∈ encZ0s ++ decZ0s, x.length = 128) (enc dec : List Rec) (aadLen : Nat) :
    ∃ w, finalizeCheck Hc Hs [] [] finc fins encZ0s enc encZ0s.length decZ0s dec decZ0s.length aadLen = .error (.ub w) := by
  unfold finalizeCheck
  split
  · exact ⟨_, rfl⟩
  · split
    · exact ⟨_, rfl⟩
    · have hl : (encZ0s ++ decZ0s).flatten.length = 128 * (encZ0s.length + decZ0s.length) := by
        rw [flatten_length _ he, List.length_append]
      rw [List.flatten_append, List.length_append] at hl
      simp only [reverseConcat_eq, List.take_length]
      rw [if_pos (by simp only [List.length_append, List.flatten_cons, List.flatten_nil, List.length_nil, hc, hs]; omega)]
      exact ⟨_, rfl⟩

/-- A session with a record in each direction whose tags are right, and the same with one wrong tag. -/
example :
    let E : Block → Block := fun b => b * b + 3#128
    let j := Spec.GCM.j0 ([1, 2, 3, 4] ++ [0, 0, 0, 0, 0, 0, 0, 1])
    let r : Rec := ⟨[7, 8, 9], Spec.GCM.tag E j [5] [7, 8, 9], [5]⟩
    (∀ x ∈ r :: r :: ([([0, 0, 0, 0, 0, 0, 0, 1], r)].map Prod.snd ++ [([0, 0, 0, 0, 0, 0, 0, (1 : Byte)], r)].map Prod.snd),
      x.tag.length = 16 ∧ x.aad.length = 1)
    ∧ (∃ t : List Byte, t.length = 16 ∧ t ≠ r.tag) := by
  intro E j r
  have h16 : r.tag.length = 16 := by simp [r, Spec.GCM.tag, Spec.GCM.tagWith, Spec.GCM.bytesOf]
  have ha : r.aad.length = 1 := rfl
  refine ⟨by simp [h16, ha], r.tag.map (· + 1), by simp [h16], ?_⟩
  intro e
  have := congrArg List.head? e
  match r.tag, h16, this with
  | x :: _, _, h =>
    simp at h

end Verif.Props.PostRecord
