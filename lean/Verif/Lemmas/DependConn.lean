import Verif.Lemmas.DependPrf
import Verif.Lemmas.AESWires

/-! The circuits, the records and the connection: which wires depend on an input. -/

namespace Verif.Lemmas.Bristol
open Verif.Model.AESCircuit Verif.Lemmas.AESCert

/-- Not a wire of the second input. -/
def notMsg (n1 nin x : Nat) : Bool := or (Nat.ble (Nat.succ x) n1) (Nat.ble nin x)

def keyedCheck (t : Tree) (n n1 nin : Nat) (i : Nat) : Bool :=
  or (Nat.ble n i) (force (rawT t i) fun r =>
    match fld r 0 with
    | 0 => and (notMsg n1 nin (fld r 16)) (notMsg n1 nin (fld r 32))
    | 1 => or (notMsg n1 nin (fld r 16)) (notMsg n1 nin (fld r 32))
    | _ => notMsg n1 nin (fld r 16))

theorem ksKeyed_ok : allPow (keyedCheck ksTree aesKs.numGate aesKs.n1 (aesKs.n1 + aesKs.n2)) 13 0 = true := by decide +kernel
theorem encKeyed_ok : allPow (keyedCheck encTree aesEncKs.numGate aesEncKs.n1 (aesEncKs.n1 + aesEncKs.n2)) 15 0 = true := by
  decide +kernel

/-- No wire of the second input. -/
def NotMsg (c : Circuit) (x : Nat) : Prop := x < c.n1 ∨ c.n1 + c.n2 ≤ x

/-- An AND has no operand, an XOR at most one operand and a NOT no operand among the second input. -/
def Keyed (c : Circuit) : Prop := ∀ i < c.numGate,
  ((c.gate i).op = 0 → NotMsg c (c.gate i).a ∧ NotMsg c (c.gate i).b)
  ∧ ((c.gate i).op = 1 → NotMsg c (c.gate i).a ∨ NotMsg c (c.gate i).b)
  ∧ ((c.gate i).op ≠ 0 → (c.gate i).op ≠ 1 → NotMsg c (c.gate i).a)

theorem notMsg_sound {c : Circuit} {x : Nat} (h : notMsg c.n1 (c.n1 + c.n2) x = true) : NotMsg c x := by
  simp only [notMsg, Bool.or_eq_true] at h
  rcases h with h | h
  · exact Or.inl (Nat.le_of_ble_eq_true h)
  · exact Or.inr (Nat.le_of_ble_eq_true h)

theorem keyed_sound {c : Circuit} {t : Tree} (ht : treeCheck c.chunks t = true) (hn : c.numGate ≤ 256 * c.chunks.length)
    {d : Nat} (hd : c.numGate ≤ 2 ^ d) (h : allPow (keyedCheck t c.numGate c.n1 (c.n1 + c.n2)) d 0 = true) : Keyed c := by
  intro i hi
  have hk := allPow_sound h i (by omega) (by omega)
  simp only [keyedCheck, force_eq, Bool.or_eq_true] at hk
  rcases hk with hk | hk
  · have := Nat.le_of_ble_eq_true hk; omega
  · rw [tree_sound ht i (by omega)] at hk
    rw [gate_raw]
    dsimp only
    generalize fld (raw c.chunks i) 0 = op at hk ⊢
    match op, hk with
    | 0, hk =>
      simp only [Bool.and_eq_true] at hk
      exact ⟨fun _ => ⟨notMsg_sound hk.1, notMsg_sound hk.2⟩, fun h => (by cases h), fun h => absurd rfl h⟩
    | 1, hk =>
      simp only [Bool.or_eq_true] at hk
      exact ⟨fun h => (by cases h), fun _ => hk.imp notMsg_sound notMsg_sound, fun _ h => absurd rfl h⟩
    | k + 2, hk => exact ⟨fun h => (by cases h), fun h => (by injection h with h; cases h), fun _ _ => notMsg_sound hk⟩

theorem ks_keyed : Keyed aesKs := keyed_sound ksTree_ok (by decide +kernel) (by decide) ksKeyed_ok
theorem enc_keyed : Keyed aesEncKs := keyed_sound encTree_ok (by decide +kernel) (by decide) encKeyed_ok

end Verif.Lemmas.Bristol

namespace Verif.Lemmas.Gate
open Verif.Model Verif.Model.Gate Verif.Spec.Circuit

open Bristol in
/-- Every output of a keyed circuit depends on an input if the first argument does. -/
theorem sec_bristol {c : AESCircuit.Circuit} (hw : WellWired c) (hk : Keyed c) (ho : ∀ i < c.n3, c.n1 + c.n2 ≤ c.numWire - c.n3 + i)
    {s : Sess} (j : Nat → Wire) {x : SInt} (hx : Dp s x) (y : SInt) : Sec s (bristol c j x y) (fun t r => Dp t r ∧ r.length = c.n3) := by
  unfold bristol
  split
  · exact Sec.fail
  rename_i hl
  refine Sec.bind (Sec.foldRange (β := Unit) (g := fun _ _ => ()) (b := ())
    (R := fun i t w _ => ∀ x, (x < c.n1 ∨ ∃ k < i, (c.gate k).o = x) → dw t (w x) = true) _ ?_ ?_) fun w t e hf => ?_
  · intro s w b i hi r
    have hwr : ∀ {x}, Written c i x → NotMsg c x → dw s (w x) = true := by
      intro x hx hn
      rcases hx with hx | hx
      · rcases hn with hn | hn
        · exact r x (Or.inl hn)
        · omega
      · exact r x (Or.inr hx)
    unfold bristolGate
    refine Sec.bind (R := fun t o => dw t o = true) ?_ fun o t e ho => Sec.pure fun x hx => ?_
    · unfold gateOut
      obtain ⟨h0, h1, h2⟩ := hk i hi
      obtain ⟨wa, wb⟩ := hw.1 i hi
      split
      · rename_i h
        refine (Sec.andG _ _).mono fun t o _ e => ?_
        rw [e, hwr wa (h0 h).1, hwr wb (h0 h).2]; rfl
      · split
        · rename_i _ h
          refine (Sec.xorG _ _).mono fun t o _ e => ?_
          rw [e]
          rcases h1 h with h | h
          · rw [hwr wa h]; rfl
          · rw [hwr wb h, Bool.or_true]
        · rename_i n0 n1
          refine (Sec.notG _).mono fun t o _ e => ?_
          rw [e, hwr wa (h2 n0 n1)]
    · split
      · exact ho
      · rename_i hne
        refine e _ (r x ?_)
        rcases hx with hx | ⟨k, hk, hx⟩
        · exact Or.inl hx
        · refine Or.inr ⟨k, ?_, hx⟩
          rcases Nat.lt_or_ge k i with h | h
          · exact h
          · exact absurd (by rw [← hx, show k = i by omega]) hne
  · intro x hx'
    dsimp only
    rcases hx' with hx' | ⟨k, hk, _⟩
    · rw [if_pos hx']
      exact hx.at (by omega)
    · omega
  · refine Sec.pure ⟨fun v hv => ?_, by rw [List.length_map, List.length_range]⟩
    obtain ⟨i, hi, rfl⟩ := List.mem_map.mp hv
    rw [List.mem_range] at hi
    have := ho i hi
    refine hf _ ?_
    rcases hw.2 i hi with h | h
    · omega
    · exact Or.inr h

theorem sec_computeKS {s : Sess} (j : Nat → Wire) {x : SInt} (hx : Dp s x) : Sec s (computeKS j x) (fun t r => Dp t r) :=
  (sec_bristol Bristol.ks_wired Bristol.ks_keyed (fun _ _ => Nat.le_trans (by decide +kernel) (Nat.le_add_right _ _)) j hx []).mono fun _ _ _ h => h.1

theorem sec_computeAESKS {s : Sess} (j : Nat → Wire) {x : SInt} (hx : Dp s x) (y : SInt) :
    Sec s (computeAESKS j x y) (fun t r => Dp t r) := by
  unfold computeAESKS
  exact Sec.bind (sec_bristol Bristol.enc_wired Bristol.enc_keyed (fun _ _ => Nat.le_trans (by decide +kernel) (Nat.le_add_right _ _)) j hx y)
    fun o t e h => Sec.pure h.1.reverse

theorem sec_newAead {s : Sess} (j : Nat → Nat → Wire) {key : SInt} (hk : Dp s key) (iv : SInt) :
    Sec s (AeadG.new j key iv) (fun t p => Dp t p.1 ∧ Dp t p.2.expandedKey) := by
  unfold AeadG.new
  refine Sec.bind (sec_computeKS _ hk) fun ks u e h => ?_
  exact Sec.bind (sec_computeAESKS _ h _) fun H u e' h' => Sec.pure ⟨h', h.mono e'⟩

section
variable {L : Lib} (hL : LibDep L)
include hL

theorem sec_inc {s : Sess} (x : SInt) (k : Nat) : Sec s (incG L x k) (fun _ _ => True) := by
  unfold incG
  split
  · exact Sec.fail
  · exact Sec.bind (hL.add s _ _ (by rw [List.length_take]; simp [pubInt]; omega)) fun _ _ _ _ => Sec.pure trivial

theorem sec_gctr (j : Nat → Nat → Wire) {ks : SInt} : ∀ (m : Nat) {s : Sess} {res : SInt} (nonce : SInt), Dp s ks → Dp s res →
    Sec s (gctrG L j ks m res nonce) (fun t p => Dp t p.1) := by
  intro m
  induction m with
  | zero => intro s res nonce _ hr; exact Sec.pure hr
  | succ m ih =>
    intro s res nonce hk hr
    unfold gctrG
    refine Sec.bind (sec_computeAESKS _ hk _) fun tmp u e ht => ?_
    refine Sec.bind (sec_inc hL _ _) fun n u' e' _ => ?_
    refine ih n (hk.mono (e.trans e')) ?_
    exact (concat_dp (hr.mono e) (l := [tmp]) (fun y hy => by rw [List.mem_singleton.mp hy]; exact ht)).mono e'

omit hL in
theorem sec_setNonce {s : Sess} (f : SInt) (iv : List Byte) : Sec s (setNonceG f iv) (fun _ _ => True) := by
  unfold setNonceG
  split
  · exact Sec.fail
  · exact Sec.bind (Sec.feed (by decide) _) fun _ _ _ _ => Sec.pure trivial

omit hL in
theorem aux_z {s : Sess} {z0 z k nonce f : SInt} {o : Option (List Byte)} (h0 : Dp s z0) (h : Dp s z) (hk : Dp s k) :
    (Dp s ((⟨z0, z, o⟩ : StreamG), (⟨k, nonce, f⟩ : AeadG)).1.z0 ∧ Dp s ((⟨z0, z, o⟩ : StreamG), (⟨k, nonce, f⟩ : AeadG)).1.z)
      ∧ Dp s ((⟨z0, z, o⟩ : StreamG), (⟨k, nonce, f⟩ : AeadG)).2.expandedKey := ⟨⟨h0, h⟩, hk⟩

theorem sec_encrypt {s : Sess} {st : AeadG} (hk : Dp s st.expandedKey) (j : Nat → Nat → Wire) (iv : List Byte) (n : Nat) (sec : Bool) :
    Sec s (st.encrypt L j iv n sec) (fun t p => (Dp t p.1.z0 ∧ Dp t p.1.z) ∧ Dp t p.2.expandedKey) := by
  unfold AeadG.encrypt
  refine Sec.bind (sec_setNonce _ _) fun nonce u e _ => ?_
  refine Sec.bind (sec_gctr hL j _ nonce (hk.mono e) Dp.nil) fun p v e' hp => ?_
  obtain ⟨Z, n'⟩ := p
  dsimp only
  replace hk := hk.mono (e.trans e')
  have hz : Dp v Z := hp
  split
  · exact Sec.bind (Sec.reveal _ _) fun o w e _ => Sec.pure (aux_z ((hz.mono e).drop (Z.length - 128)) (((hz.mono e).take (Z.length - 128)).drop (AEAD.padBits n)) (hk.mono e))
  · exact Sec.pure (aux_z (hz.drop (Z.length - 128)) ((hz.take (Z.length - 128)).drop (AEAD.padBits n)) hk)

theorem sec_decrypt {s : Sess} {st : AeadG} (hk : Dp s st.expandedKey) (j : Nat → Nat → Wire) (iv : List Byte) (n : Nat) (sec : Bool) :
    Sec s (st.decrypt L j iv n sec) (fun t p => (Dp t p.1.z0 ∧ Dp t p.1.z) ∧ Dp t p.2.expandedKey) := by
  unfold AeadG.decrypt
  refine Sec.bind (sec_setNonce _ _) fun nonce u e _ => ?_
  refine Sec.bind (sec_gctr hL j _ nonce (hk.mono e) Dp.nil) fun p v e' hp => ?_
  obtain ⟨Z, n'⟩ := p
  dsimp only
  replace hk := hk.mono (e.trans e')
  have hz : Dp v Z := hp
  split
  · exact Sec.bind (Sec.reveal _ _) fun o w e _ => Sec.pure (aux_z ((hz.mono e).drop (Z.length - 128)) (((hz.mono e).take (Z.length - 128)).drop (AEAD.padBits n)) (hk.mono e))
  · exact Sec.pure (aux_z (hz.drop (Z.length - 128)) ((hz.take (Z.length - 128)).drop (AEAD.padBits n)) hk)

/-! ### The connection -/

/-- A handshake with a master secret of at least 32 secret bits. -/
structure DM (s : Sess) (h : HsG) : Prop where
  hmac : DH h.roundsOpt s h.hmac
  key : Dp s h.masterKey
  len : 32 ≤ h.masterKey.length

theorem sec_masterKey {s : Sess} (h : HsG) (hm : h.masterKey = []) (hq : 4 ≤ bnNumBytes h.q) (g : Nat → List Byte) (a b : Nat)
    (rc rs : List Byte) : Sec s (h.computeMasterKey L g a b rc rs) (fun t h' => DM t h') := by
  unfold HsG.computeMasterKey
  refine Sec.bind (sec_keyFromShares hL h hq a b) fun h1 u e hp => ?_
  obtain ⟨hp, he⟩ := hp
  have h1m : h1.masterKey = [] := by rw [he]; exact hm
  have h1r : h1.roundsOpt = h.roundsOpt := by rw [he]
  refine Sec.bind (sec_prfCall hL (h1r ▸ hp) g (res := h1.masterKey) (by rw [h1m]; exact Dp.nil) _ _ _) fun p v e' hr => ?_
  obtain ⟨r, h2⟩ := p
  obtain ⟨r1, r2, r3, r4⟩ := hr
  dsimp only at r1 r2 r3 r4
  have h2r : h2.roundsOpt = h1.roundsOpt := by rw [r4]
  refine Sec.pure ⟨?_, r1, ?_⟩
  · show DH h2.roundsOpt v h2.hmac
    rw [h2r]; exact r3
  · show 32 ≤ r.length
    rw [r2, h1m]
    decide

theorem sec_extendedMasterKey {s : Sess} (h : HsG) (hm : h.masterKey = []) (hq : 4 ≤ bnNumBytes h.q) (g : Nat → List Byte) (a b : Nat)
    (hash : List Byte) : Sec s (h.computeExtendedMasterKey L g a b hash) (fun t h' => DM t h') := by
  unfold HsG.computeExtendedMasterKey
  refine Sec.bind (sec_keyFromShares hL h hq a b) fun h1 u e hp => ?_
  obtain ⟨hp, he⟩ := hp
  have h1m : h1.masterKey = [] := by rw [he]; exact hm
  have h1r : h1.roundsOpt = h.roundsOpt := by rw [he]
  refine Sec.bind (sec_prfCall hL (h1r ▸ hp) g (res := h1.masterKey) (by rw [h1m]; exact Dp.nil) _ _ _) fun p v e' hr => ?_
  obtain ⟨r, h2⟩ := p
  obtain ⟨r1, r2, r3, r4⟩ := hr
  dsimp only at r1 r2 r3 r4
  have h2r : h2.roundsOpt = h1.roundsOpt := by rw [r4]
  refine Sec.pure ⟨?_, r1, ?_⟩
  · show DH h2.roundsOpt v h2.hmac
    rw [h2r]; exact r3
  · show 32 ≤ r.length
    rw [r2, h1m]
    decide

/-- A handshake with secret keys. -/
structure DK (s : Sess) (h : HsG) : Prop where
  hmac : DH h.roundsOpt s h.hmac
  ck : Dp s h.clientWriteKey
  sk : Dp s h.serverWriteKey

omit hL in
theorem DK.mono {s t : Sess} (e : DExt s t) {h : HsG} (x : DK s h) : DK t h := ⟨x.hmac.mono e, x.ck.mono e, x.sk.mono e⟩

omit hL in
theorem sec_extract {s : Sess} {x : SInt} (hx : Dp s x) (a b : Nat) : Sec s (lift (Gate.extractInteger x a b)) (fun t r => Dp t r) := by
  refine Sec.lift fun r h => ?_
  unfold Gate.extractInteger at h
  split at h
  · cases h; exact (hx.drop _).take _
  · cases h

theorem sec_expansionKeys {s : Sess} {h : HsG} (hm : DM s h) (g : Nat → List Byte) (rc rs : List Byte) :
    Sec s (h.computeExpansionKeys L g rc rs) (fun t h' => DK t h') := by
  unfold HsG.computeExpansionKeys
  refine Sec.bind (sec_init hL h.roundsOpt h.hmac hm.key hm.len) fun m u e hp => ?_
  refine Sec.bind (sec_prfCall hL (h := { h with hmac := m }) hp g Dp.nil _ _ _) fun p v e' hr => ?_
  obtain ⟨key, h2⟩ := p
  obtain ⟨r1, r2, r3, r4⟩ := hr
  dsimp only at r1 r2 r3 r4
  have h2r : h2.roundsOpt = h.roundsOpt := by rw [r4]
  refine Sec.bind (sec_extract r1 _ _) fun cwk v1 e1 k1 => ?_
  refine Sec.bind (sec_extract (r1.mono e1) _ _) fun swk v2 e2 k2 => ?_
  refine Sec.bind (sec_extract (r1.mono (e1.trans e2)) _ _) fun civ v3 e3 k3 => ?_
  refine Sec.bind (sec_extract (r1.mono (e1.trans (e2.trans e3))) _ _) fun siv v4 e4 k4 => ?_
  refine Sec.pure ⟨?_, k1.mono (e2.trans (e3.trans e4)), k2.mono (e3.trans e4)⟩
  show DH h2.roundsOpt v4 h2.hmac
  rw [h2r]
  exact DH.mono (e1.trans (e2.trans (e3.trans e4))) r3

/-- A connection with secret keys. -/
structure DC (s : Sess) (c : ConnG) : Prop where
  hs : DK s c.hs
  aeadC : ∀ a, c.aeadC = some a → Dp s a.expandedKey
  aeadS : ∀ a, c.aeadS = some a → Dp s a.expandedKey

omit hL in
theorem DC.mono {s t : Sess} (e : DExt s t) {c : ConnG} (x : DC s c) : DC t c :=
  ⟨x.hs.mono e, fun a h => (x.aeadC a h).mono e, fun a h => (x.aeadS a h).mono e⟩

omit hL in
theorem DC.set {s : Sess} {c : ConnG} (x : DC s c) (cl : Bool) {a : AeadG} (h : Dp s a.expandedKey) : DC s (c.setAead cl a) := by
  unfold ConnG.setAead
  cases cl with
  | true => exact ⟨x.hs, fun b e => by cases e; exact h, x.aeadS⟩
  | false => exact ⟨x.hs, x.aeadC, fun b e => by cases e; exact h⟩

/-- The wires that are shared all depend on an input. -/
def DO (s : Sess) (o : Out) : Prop := Dp s o.h ∧ Dp s o.z0 ∧ Dp s o.z

omit hL in
theorem DO.mono {s t : Sess} (e : DExt s t) {o : Out} (x : DO s o) : DO t o := ⟨x.1.mono e, x.2.1.mono e, x.2.2.mono e⟩

/-- A call after the key derivation. -/
def isLater : Call → Prop
  | .masterKey .. | .extendedMasterKey .. | .expansionKeys .. => False
  | _ => True

theorem sec_prf_hs {s : Sess} {h : HsG} (hk : DK s h) (g : Nat → List Byte) (n : Nat) (l t : List Byte) :
    Sec s (h.prfCall L g [] n l t) (fun t p => DK t p.2) := by
  intro O a u hs e
  obtain ⟨h1, h2, _, _, h3, h4⟩ := sec_prfCall hL hk.hmac g Dp.nil n l t O a u hs e
  refine ⟨h1, h2, ?_⟩
  show DK u a.2
  rw [h4]
  exact ⟨h3, hk.ck.mono h2, hk.sk.mono h2⟩

omit hL in
theorem sec_getAead {s : Sess} {c : ConnG} (hc : DC s c) (cl : Bool) : Sec s (lift (c.getAead cl)) (fun t a => Dp t a.expandedKey) := by
  refine Sec.lift fun a h => ?_
  unfold ConnG.getAead at h
  cases cl with
  | true =>
    simp only [if_true] at h
    split at h
    · rename_i b hb; cases h; exact hc.aeadC _ hb
    · cases h
  | false =>
    simp only [Bool.false_eq_true, if_false] at h
    split at h
    · rename_i b hb; cases h; exact hc.aeadS _ hb
    · cases h

theorem sec_step {s : Sess} {c : ConnG} (hc : DC s c) (op : Call) (ho : isLater op) :
    Sec s (c.step L op) (fun t p => DO t p.1 ∧ DC t p.2) := by
  have hnil : ∀ t o, DO t { opened := o } := fun _ _ => ⟨Dp.nil, Dp.nil, Dp.nil⟩
  cases op with
  | masterKey => cases ho
  | extendedMasterKey => cases ho
  | expansionKeys => cases ho
  | clientFinished g l t =>
    unfold ConnG.step
    refine Sec.bind (R := fun t (p : List Byte × HsG) => DK t p.2) ?_ fun p u e hp => ?_
    · unfold HsG.computeClientFinished
      refine Sec.bind (sec_prf_hs hL hc.hs g _ l t) fun p u e hp => ?_
      obtain ⟨r, h⟩ := p
      exact Sec.bind (Sec.reveal _ _) fun o v e' _ => Sec.pure (DK.mono e' hp)
    · obtain ⟨o, h⟩ := p
      exact Sec.pure ⟨hnil _ _, hp, (hc.mono e).aeadC, (hc.mono e).aeadS⟩
  | serverFinished g l t =>
    unfold ConnG.step
    refine Sec.bind (R := fun t (p : List Byte × HsG) => DK t p.2) ?_ fun p u e hp => ?_
    · unfold HsG.computeServerFinished
      refine Sec.bind (sec_prf_hs hL hc.hs g _ l t) fun p u e hp => ?_
      obtain ⟨r, h⟩ := p
      exact Sec.bind (Sec.reveal _ _) fun o v e' _ => Sec.pure (DK.mono e' hp)
    · obtain ⟨o, h⟩ := p
      exact Sec.pure ⟨hnil _ _, hp, (hc.mono e).aeadC, (hc.mono e).aeadS⟩
  | newAead j cl =>
    unfold ConnG.step
    refine Sec.bind (sec_newAead j (by cases cl; exact hc.hs.sk; exact hc.hs.ck) _) fun p u e hp => ?_
    obtain ⟨H, a⟩ := p
    exact Sec.pure ⟨⟨hp.1, Dp.nil, Dp.nil⟩, (hc.mono e).set cl hp.2⟩
  | encrypt j cl iv n sec =>
    unfold ConnG.step
    refine Sec.bind (sec_getAead hc cl) fun a u e ha => ?_
    refine Sec.bind (sec_encrypt hL ha j iv n sec) fun p v e' hp => ?_
    obtain ⟨z, a'⟩ := p
    exact Sec.pure ⟨⟨Dp.nil, hp.1.1, hp.1.2⟩, (hc.mono (e.trans e')).set cl hp.2⟩
  | decrypt j cl iv n sec =>
    unfold ConnG.step
    refine Sec.bind (sec_getAead hc cl) fun a u e ha => ?_
    refine Sec.bind (sec_decrypt hL ha j iv n sec) fun p v e' hp => ?_
    obtain ⟨z, a'⟩ := p
    exact Sec.pure ⟨⟨Dp.nil, hp.1.1, hp.1.2⟩, (hc.mono (e.trans e')).set cl hp.2⟩

theorem sec_run (ops : List Call) : ∀ {s : Sess} {c : ConnG}, DC s c → (∀ op ∈ ops, isLater op) →
    Sec s (c.run L ops) (fun t p => ∀ o ∈ p.1, DO t o) := by
  induction ops with
  | nil => intro s c _ _; exact Sec.pure fun o h => by cases h
  | cons op ops ih =>
    intro s c hc ho
    unfold ConnG.run
    refine Sec.bind (sec_step hL hc op (ho op List.mem_cons_self)) fun p u e hp => ?_
    obtain ⟨o, c'⟩ := p
    refine Sec.bind (ih hp.2 fun x hx => ho x (List.mem_cons_of_mem _ hx)) fun p v e' hr => ?_
    obtain ⟨os, c''⟩ := p
    refine Sec.pure fun x hx => ?_
    rcases List.mem_cons.mp hx with rfl | hx
    · exact hp.1.mono e'
    · exact hr x hx

/-- A call that makes the master secret. -/
def isStart : Call → Prop
  | .masterKey .. | .extendedMasterKey .. => True
  | _ => False

/-- All shared wires of a connection depend on an input. -/
theorem sec_connection (q : Nat) (rounds : Bool) (hq : 4 ≤ bnNumBytes q) (start : Call) (hs : isStart start) (g : Nat → List Byte)
    (rc rs : List Byte) (rest : List Call) (hr : ∀ op ∈ rest, isLater op) :
    Sec {} (ConnG.run L { hs := { q := q, roundsOpt := rounds } } (start :: .expansionKeys g rc rs :: rest)) (fun t p => ∀ o ∈ p.1, DO t o) := by
  have hnil : ∀ t, DO t {} := fun _ => ⟨Dp.nil, Dp.nil, Dp.nil⟩
  unfold ConnG.run
  refine Sec.bind (R := fun t p => DO t p.1 ∧ DM t p.2.hs ∧ p.2.aeadC = none ∧ p.2.aeadS = none) ?_ fun p u e hp => ?_
  · cases start with
    | masterKey g a b rc rs =>
      unfold ConnG.step
      exact Sec.bind (sec_masterKey hL _ rfl hq g a b rc rs) fun h u e hh => Sec.pure ⟨hnil _, hh, rfl, rfl⟩
    | extendedMasterKey g a b hash =>
      unfold ConnG.step
      exact Sec.bind (sec_extendedMasterKey hL _ rfl hq g a b hash) fun h u e hh => Sec.pure ⟨hnil _, hh, rfl, rfl⟩
    | _ => cases hs
  · obtain ⟨o, c⟩ := p
    obtain ⟨h1, h2, h3, h4⟩ := hp
    suffices h : Sec u (c.run L (.expansionKeys g rc rs :: rest)) (fun t p => ∀ o ∈ p.1, DO t o) by
      refine Sec.bind h fun p v e' hr => ?_
      obtain ⟨os, c''⟩ := p
      refine Sec.pure fun x hx => ?_
      rcases List.mem_cons.mp hx with rfl | hx
      · exact h1.mono e'
      · exact hr x hx
    unfold ConnG.run
    refine Sec.bind (R := fun t p => DO t p.1 ∧ DC t p.2) ?_ fun p v e' hp => ?_
    · unfold ConnG.step
      refine Sec.bind (sec_expansionKeys hL h2 g rc rs) fun h v e hh => Sec.pure ⟨hnil _, hh, ?_, ?_⟩
      · intro a ha; simp only at h3 ha; rw [h3] at ha; cases ha
      · intro a ha; simp only at h4 ha; rw [h4] at ha; cases ha
    · obtain ⟨o', c'⟩ := p
      refine Sec.bind (sec_run hL rest hp.2 hr) fun p w e'' hr => ?_
      obtain ⟨os, c''⟩ := p
      refine Sec.pure fun x hx => ?_
      rcases List.mem_cons.mp hx with rfl | hx
      · exact hp.1.mono e''
      · exact hr x hx

end

end Verif.Lemmas.Gate
