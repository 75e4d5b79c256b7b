import Verif.Lemmas.HsRef
import Verif.Lemmas.AESWires
import Verif.Props.AESCircuit

/-! The gate programs of the AES circuits and of `AEAD` compute AES-128 and the GCM key stream. -/

namespace Verif.Lemmas.Gate
open Verif.Model Verif.Model.Gate Verif.Lemmas.Bristol
open Verif.Props.AESCircuit (aesBlock)

attribute [local irreducible] aesBlock

theorem IR.getD' {s : Sess} {x : SInt} {v : Integer} (h : IR s x v) (i : Nat) : BR s (x.getD i (.pub false)) (v.getD i false) := by
  induction h generalizing i with
  | nil => exact BR.pub false
  | cons h _ ih => cases i with
    | zero => exact h
    | succ i => exact ih i

theorem IR.rangeMap {s : Sess} {f : Nat → Wire} {g : Nat → Bool} (n : Nat) (h : ∀ i < n, BR s (f i) (g i)) :
    IR s ((List.range n).map f) ((List.range n).map g) := by
  unfold IR
  rw [List.forall₂_map_left_iff, List.forall₂_map_right_iff]
  exact List.forall₂_same.2 fun i hi => h i (List.mem_range.1 hi)

theorem ref_gateOut {t : Sess} (g : AESCircuit.Gate) {a b : Wire} {w : AESCircuit.Wires} (ha : BR t a (w g.a)) (hb : BR t b (w g.b)) :
    Ref t (gateOut g a b) (fun u o => BR u o (g.out w)) := by
  unfold gateOut AESCircuit.Gate.out
  split
  · exact Ref.andG ha hb
  · split
    · exact Ref.xorG ha hb
    · exact Ref.notG ha

theorem ref_bristol {c : AESCircuit.Circuit} (hc : WellWired c) (j : Nat → Wire) (junk : AESCircuit.Wires) {t : Sess} {x y : SInt}
    {v1 v2 d : Integer} (hx : IR t x v1) (hy : IR t y v2) (e : c.compute junk v1 v2 = .ok d) :
    Ref t (bristol c j x y) (fun u a => IR u a d) := by
  unfold AESCircuit.Circuit.compute at e
  unfold bristol
  rw [hx.length, hy.length]
  split at e
  · cases e
  · rename_i hlen
    cases e
    rw [if_neg hlen]
    refine Ref.bind (R := fun u (w : Nat → Wire) => ∀ z, Written c c.numGate z → BR u (w z) (c.run (c.start junk v1 v2) c.numGate z)) ?_ ?_
    · refine (Ref.foldRange (g := fun w i => (c.gate i).eval w)
        (R := fun i u (w : Nat → Wire) (b : AESCircuit.Wires) => ∀ z, Written c i z → BR u (w z) (b z)) c.numGate ?_ ?_)
      · intro u w b i hi hw
        obtain ⟨ha, hb⟩ := hc.1 i hi
        refine Ref.bind (ref_gateOut (c.gate i) (hw _ ha) (hw _ hb)) fun o u' ex ho => ?_
        refine Ref.pure ?_
        intro z hz
        unfold AESCircuit.Gate.eval
        by_cases e : z = (c.gate i).o
        · simp only [if_pos e]; exact ho
        · simp only [if_neg e]
          refine (hw z ?_).mono ex
          rcases hz with h | ⟨k, hk, e'⟩
          · exact Or.inl h
          · by_cases ek : k = i
            · subst ek; exact absurd e'.symm e
            · exact Or.inr ⟨k, by omega, e'⟩
      · intro z hz
        unfold AESCircuit.Circuit.start
        rcases hz with h | ⟨k, hk, _⟩
        · by_cases h1 : z < c.n1
          · simp only [if_pos h1]; exact hx.getD' z
          · simp only [if_neg h1, if_pos h]; exact hy.getD' _
        · omega
    · intro w u ex hw
      exact Ref.pure (IR.rangeMap _ fun i hi => hw _ (hc.2 i hi))

/-- The expanded key of an AES-128 key. -/
def IsKey (ks : Integer) (key : List Byte) : Prop :=
  ∀ x : Integer, x.length = 128 → ∃ junk, AESCircuit.computeAESKS junk ks x = AEAD.aes (aesBlock key) x

theorem ref_computeKS (j : Nat → Wire) {t : Sess} {k : SInt} {key : List Byte} (hk : key.length = 16) (h : IR t k (strToInt key)) :
    Ref t (computeKS j k) (fun u a => ∃ ks, IR u a ks ∧ IsKey ks key) := by
  obtain ⟨ks, e⟩ : ∃ ks, AESCircuit.computeKS (fun _ => false) (strToInt key) = .ok ks :=
    ⟨_, Verif.Props.AESCircuit.C43_key_schedule (fun _ => false) key hk⟩
  refine (ref_bristol ks_wired j (fun _ => false) h IR.nil e).mono fun u a _ ha => ⟨_, ha, ?_⟩
  intro x hx
  have := Verif.Props.AESCircuit.C43_block (fun _ => false) (fun _ => false) key hk x hx
  rw [e] at this
  exact ⟨_, this⟩

theorem ref_computeAESKS (j : Nat → Wire) {t : Sess} {k m : SInt} {ks x d : Integer} {key : List Byte} (h : IR t k ks) (hk : IsKey ks key)
    (hm : IR t m x) (e : AEAD.aes (aesBlock key) x = .ok d) : Ref t (computeAESKS j k m) (fun u a => IR u a d) := by
  have hx : x.length = 128 := by
    unfold AEAD.aes at e
    split at e
    · assumption
    · cases e
  obtain ⟨junk, h1⟩ := hk x hx
  rw [e] at h1
  unfold AESCircuit.computeAESKS at h1
  simp only [bind, Except.bind] at h1
  cases h2 : AESCircuit.aesEncKs.compute junk ks x with
  | error y => rw [h2] at h1; cases h1
  | ok o =>
    rw [h2] at h1
    cases h1
    refine Ref.bind (ref_bristol enc_wired j junk h hm h2) fun a u e ha => ?_
    exact Ref.pure ha.reverse

/-- An `AEAD` object with the given key and implicit nonce. -/
structure AeR (t : Sess) (a : AeadG) (key fiv : List Byte) : Prop where
  ks : ∃ ks, IR t a.expandedKey ks ∧ IsKey ks key
  iv : IR t a.fixedIv (strToInt fiv)

theorem AeR.mono {t u : Sess} {a : AeadG} {key fiv : List Byte} (h : AeR t a key fiv) (e : Ext t u) : AeR u a key fiv := by
  obtain ⟨⟨ks, h1, h2⟩, h3⟩ := h
  exact ⟨⟨ks, h1.mono e, h2⟩, h3.mono e⟩

theorem ref_aeadNew (j : Nat → Nat → Wire) {t : Sess} {k iv : SInt} {key fiv : List Byte} (hk : key.length = 16)
    (h : IR t k (strToInt key)) (hi : IR t iv (strToInt fiv)) :
    Ref t (AeadG.new j k iv) (fun u a => IR u a.1 (strToInt (Spec.GCM.bytesOf (aesBlock key 0))) ∧ AeR u a.2 key fiv) := by
  unfold AeadG.new
  refine Ref.bind (ref_computeKS (j 0) hk h) fun ks u e hks => ?_
  lift_ext e
  obtain ⟨v, h1, h2⟩ := hks
  have e0 : AEAD.aes (aesBlock key) (Integer.ofNat 128 0) = .ok (strToInt (Spec.GCM.bytesOf (aesBlock key 0))) := by
    unfold AEAD.aes
    rw [if_pos (by simp), ← ofNat_block, show AEAD.blk (Integer.ofNat 128 0) = 0 from blk_ofNat 0]
  refine Ref.bind (ref_computeAESKS (j 1) h1 h2 (IR.pubInt 128 0) e0) fun H u e hH => ?_
  lift_ext e
  exact Ref.pure ⟨hH, ⟨v, h1, h2⟩, hi⟩

variable {L : Lib} (hL : LibSound L)
include hL

theorem ref_inc {t : Sess} {c : SInt} {v : Integer} (h : IR t c v) {d : Integer} (s : Nat) (e : AEAD.inc v s = .ok d) :
    Ref t (incG L c s) (fun u a => IR u a d) := by
  unfold AEAD.inc at e
  unfold incG
  rw [h.length]
  split at e
  · cases e
  · rename_i hs
    cases e
    rw [if_neg hs]
    refine Ref.bind (hL.add (h.take s) (IR.pubInt s 1) ?_) fun a u e ha => ?_
    · rw [List.length_take, length_ofNat]; omega
    lift_ext e
    exact Ref.pure (IR.concat (IRL.single ha) (h.drop s))

theorem ref_gctr (j : Nat → Nat → Wire) {key : List Byte} {ksv : Integer} (hk : IsKey ksv key) :
    ∀ (m : Nat) {t : Sess} {ks res nonce : SInt} {rv nv : Integer} {d : Integer × Integer}, IR t ks ksv → IR t res rv → IR t nonce nv →
      AEAD.gctr (aesBlock key) m rv nv = .ok d → Ref t (gctrG L j ks m res nonce) (fun u a => IR u a.1 d.1 ∧ IR u a.2 d.2) := by
  intro m
  induction m with
  | zero => intro t ks res nonce rv nv d h1 h2 h3 e; cases e; exact Ref.pure ⟨h2, h3⟩
  | succ m ih =>
    intro t ks res nonce rv nv d h1 h2 h3 e
    unfold AEAD.gctr at e
    simp only [bind, Except.bind] at e
    cases e1 : AEAD.aes (aesBlock key) nv with
    | error y => rw [e1] at e; cases e
    | ok x =>
      rw [e1] at e
      simp only at e
      cases e2 : AEAD.inc nv 32 with
      | error y => rw [e2] at e; cases e
      | ok y =>
        rw [e2] at e
        simp only at e
        unfold gctrG
        refine Ref.bind (ref_computeAESKS (j m) h1 hk h3 e1) fun p u ex hp => ?_
        lift_ext ex
        refine Ref.bind (ref_inc hL h3 32 e2) fun q u ex hq => ?_
        lift_ext ex
        exact ih h1 (IR.concat (IRL.single hp) h2) hq e

omit hL in
theorem ref_setNonce {t : Sess} {f : SInt} {fv : Integer} (h : IR t f fv) (iv : List Byte) {d : Integer} (e : AEAD.setNonce fv iv = .ok d) :
    Ref t (setNonceG f iv) (fun u a => IR u a d) := by
  unfold AEAD.setNonce at e
  unfold setNonceG
  split at e
  · cases e
  · rename_i hs
    cases e
    rw [if_neg hs]
    refine Ref.bind (Ref.feed .alice _) fun v u ex hv => ?_
    lift_ext ex
    exact Ref.pure (IR.concat (IRL.single (IR.pubInt 32 1)) (IR.concat (IRL.single hv) h))

/-- The key stream of a record. -/
def recordStream (key fiv iv : List Byte) (n : Nat) : List Byte :=
  Spec.GCM.keyStream (aesBlock key) (Spec.GCM.j0 (fiv ++ iv)) n

/-- What `encrypt` and `decrypt` compute. -/
structure StR (t : Sess) (z : StreamG) (key fiv iv : List Byte) (n : Nat) (secret : Bool) : Prop where
  hz0 : IR t z.z0 (strToInt (Spec.GCM.bytesOf (aesBlock key (Spec.GCM.j0 (fiv ++ iv)))))
  hz : IR t z.z (strToInt (recordStream key fiv iv n))
  ho : z.opened = if secret then none else some (recordStream key fiv iv n).reverse

omit hL in
theorem StR.of {t : Sess} {z0 z : SInt} {o : Option (List Byte)} {key fiv iv : List Byte} {n : Nat} {secret : Bool}
    (h0 : IR t z0 (strToInt (Spec.GCM.bytesOf (aesBlock key (Spec.GCM.j0 (fiv ++ iv))))))
    (h : IR t z (strToInt (recordStream key fiv iv n))) (ho : o = if secret then none else some (recordStream key fiv iv n).reverse) :
    StR t ⟨z0, z, o⟩ key fiv iv n secret := by
  constructor <;> assumption

theorem ref_stream {t : Sess} {a : AeadG} {key fiv : List Byte} (r : AeR t a key fiv) (hf : fiv.length = 4) (j : Nat → Nat → Wire)
    (iv : List Byte) (hi : iv.length = 8) (n : Nat) :
    ∃ nv, Ref t (setNonceG a.fixedIv iv) (fun u x => IR u x nv ∧ ∀ v, Ext u v → ∀ y, IR v y nv →
      Ref v (gctrG L j a.expandedKey (1 + AEAD.ctrLen n) [] y) (fun w p =>
        IR w (p.1.drop (p.1.length - 128)) (strToInt (Spec.GCM.bytesOf (aesBlock key (Spec.GCM.j0 (fiv ++ iv)))))
        ∧ IR w ((p.1.take (p.1.length - 128)).drop (AEAD.padBits n)) (strToInt (recordStream key fiv iv n)))) := by
  obtain ⟨⟨ks, h1, h2⟩, h3⟩ := r
  have e1 := setNonce_eq fiv iv hi
  refine ⟨_, (ref_setNonce h3 iv e1).mono fun u x ex hx => ⟨hx, ?_⟩⟩
  intro v ev y hy
  have hlen : (strToInt (fiv ++ iv ++ [0#8, 0#8, 0#8, 1#8])).length = 128 := by
    simp [hf, hi]
  obtain ⟨n', e2, _, _⟩ := gctr_eq (aesBlock key) (1 + AEAD.ctrLen n) [] _ hlen
  rw [blk_strToInt, List.nil_append] at e2
  have h1 := (h1.mono ex).mono ev
  refine (ref_gctr hL j h2 _ h1 .nil hy e2).mono fun w p _ hp => ?_
  have hp := hp.1
  simp only at hp
  rw [hp.length]
  have c := cutZ_stream (aesBlock key) (Spec.GCM.j0 (fiv ++ iv)) n
  have t := topZ_stream (aesBlock key) (Spec.GCM.j0 (fiv ++ iv)) n
  unfold cutZ at c
  unfold topZ at t
  constructor
  · rw [← t]; exact hp.drop _
  · unfold recordStream; rw [← c]; exact (hp.take _).drop _

theorem ref_encrypt {t : Sess} {a : AeadG} {key fiv : List Byte} (r : AeR t a key fiv) (hf : fiv.length = 4) (j : Nat → Nat → Wire)
    (iv : List Byte) (hi : iv.length = 8) (n : Nat) (secret : Bool) :
    Ref t (a.encrypt L j iv n secret) (fun u p => StR u p.1 key fiv iv n secret ∧ AeR u p.2 key fiv) := by
  obtain ⟨nv, hs⟩ := ref_stream hL r hf j iv hi n
  unfold AeadG.encrypt
  refine Ref.bind hs fun x u e ⟨hx, hg⟩ => ?_
  lift_ext e
  refine Ref.bind (hg u (Ext.refl u) x hx) fun p u e ⟨hz0, hz⟩ => ?_
  lift_ext e
  obtain ⟨p1, p2⟩ := p
  simp only at hz0 hz ⊢
  cases secret with
  | true =>
    exact Ref.pure ⟨StR.of hz0 hz (if_pos rfl).symm, AeR.mk r.ks r.iv⟩
  | false =>
    simp only [Bool.not_false, if_true]
    refine Ref.bind (Ref.reveal .pub hz) fun o u e ho => ?_
    subst ho
    lift_ext e
    refine Ref.pure ⟨StR.of hz0 hz ?_, AeR.mk r.ks r.iv⟩
    rw [if_neg Bool.false_ne_true, strToInt, toBytes_ofBytes]

theorem ref_decrypt {t : Sess} {a : AeadG} {key fiv : List Byte} (r : AeR t a key fiv) (hf : fiv.length = 4) (j : Nat → Nat → Wire)
    (iv : List Byte) (hi : iv.length = 8) (n : Nat) (secret : Bool) :
    Ref t (a.decrypt L j iv n secret) (fun u p => StR u p.1 key fiv iv n secret ∧ AeR u p.2 key fiv) :=
  ref_encrypt hL r hf j iv hi n secret

end Verif.Lemmas.Gate
