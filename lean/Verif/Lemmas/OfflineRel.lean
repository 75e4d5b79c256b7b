import Mathlib.Data.List.Forall2
import Verif.Lemmas.GateRel
import Verif.Lemmas.AESWires

/-! The offline classes issue the operations of the online classes. -/

namespace Verif.Lemmas.Gate
open Verif.Model Verif.Model.Gate
open Verif.Lemmas.Bristol (Written WellWired)

theorem Rel.foldRange {α β : Type} {R : Nat → α → β → Prop} {f : α → Nat → M α} {g : β → Nat → M β} (n : Nat)
    (h : ∀ i < n, ∀ a b, R i a b → Rel (R (i + 1)) (f a i) (g b i)) {a : α} {b : β} (h0 : R 0 a b) :
    Rel (R n) ((List.range n).foldlM f a) ((List.range n).foldlM g b) := by
  have key : ∀ (m k : Nat), k + m = n → ∀ a b, R k a b →
      Rel (R n) ((List.range' k m).foldlM f a) ((List.range' k m).foldlM g b) := by
    intro m
    induction m with
    | zero =>
      intro k hk a b hr
      rw [show k = n by omega] at hr
      exact Rel.pure hr
    | succ m ih =>
      intro k hk a b hr
      rw [List.range'_succ]
      simp only [List.foldlM_cons]
      exact Rel.bind (h k (by omega) a b hr) fun a b hr => ih (k + 1) (by omega) a b hr
  rw [List.range_eq_range']
  exact key n 0 (by omega) a b h0

/-! ### Circuit files -/

theorem Rel.bristol {c : AESCircuit.Circuit} (hc : WellWired c) (j j' : Nat → Wire) (x y : SInt) :
    Rel Eq (bristol c j x y) (bristol c j' x y) := by
  unfold Gate.bristol
  refine Rel.ite Iff.rfl (fun _ => Rel.fail) fun _ => ?_
  refine Rel.bind (R := fun (w w' : Nat → Wire) => ∀ z, Written c c.numGate z → w z = w' z)
    (Rel.foldRange (R := fun i (w w' : Nat → Wire) => ∀ z, Written c i z → w z = w' z) c.numGate ?_ ?_) ?_
  · intro i hi w w' hw
    obtain ⟨ha, hb⟩ := hc.1 i hi
    unfold bristolGate
    rw [hw _ ha, hw _ hb]
    refine Rel.bindEq (?_ : Rel Eq _ _) fun o => Rel.pure ?_
    · unfold gateOut
      refine Rel.ite Iff.rfl (fun _ => Rel.andG _ _) fun _ => Rel.ite Iff.rfl (fun _ => Rel.xorG _ _) fun _ => Rel.notG _
    · intro z hz
      by_cases e : z = (c.gate i).o
      · simp only [if_pos e]
      · simp only [if_neg e]
        apply hw
        rcases hz with h | ⟨k, hk, e'⟩
        · exact Or.inl h
        · by_cases ek : k = i
          · subst ek; exact absurd e'.symm e
          · exact Or.inr ⟨k, by omega, e'⟩
  · intro z hz
    rcases hz with h | ⟨k, hk, _⟩
    · by_cases h1 : z < c.n1
      · simp only [if_pos h1]
      · simp only [if_neg h1, if_pos h]
    · omega
  · intro w w' hw
    refine Rel.pure ?_
    apply List.map_congr_left
    intro i hi
    exact hw _ (hc.2 i (List.mem_range.1 hi))

theorem Rel.computeKS (j j' : Nat → Wire) (k : SInt) : Rel Eq (computeKS j k) (computeKS j' k) :=
  Rel.bristol Bristol.ks_wired j j' k []

theorem Rel.computeAESKS (j j' : Nat → Wire) (k m : SInt) : Rel Eq (computeAESKS j k m) (computeAESKS j' k m) :=
  Rel.bindEq (Rel.bristol Bristol.enc_wired j j' k m) fun _ => Rel.pure rfl

/-! ### SHA-256 -/

variable {L : Lib} (hL : LibObl L)
include hL

omit hL in
theorem Rel.smallSigma (a b c : Nat) (x : SInt) : Rel Eq (smallSigma a b c x) (smallSigma a b c x) :=
  Rel.bindEq (Rel.rrot _ _) fun _ => Rel.bindEq (Rel.rrot _ _) fun _ => Rel.bindEq (Rel.xorI _ _) fun _ => Rel.xorI _ _

omit hL in
theorem Rel.bigSigma (a b c : Nat) (x : SInt) : Rel Eq (bigSigma a b c x) (bigSigma a b c x) :=
  Rel.bindEq (Rel.rrot _ _) fun _ => Rel.bindEq (Rel.rrot _ _) fun _ => Rel.bindEq (Rel.xorI _ _) fun _ =>
    Rel.bindEq (Rel.rrot _ _) fun _ => Rel.xorI _ _

theorem rel_schedule (w : List SInt) (j : Nat) : Rel Eq (scheduleStep L w j) (offScheduleStep L w j) :=
  Rel.bindEq (Rel.smallSigma _ _ _ _) fun _ => Rel.bindEq (Rel.smallSigma _ _ _ _) fun _ => Rel.bindEq (hL.add _ _) fun _ =>
    Rel.bindEq (hL.add _ _) fun _ => Rel.bindEq (hL.add _ _) fun _ => Rel.pure rfl

theorem rel_round (s : WorkG) (k w : SInt) : Rel Eq (roundStepG L s k w) (offRoundStep L s k w) :=
  Rel.bindEq (Rel.bigSigma _ _ _ _) fun _ => Rel.bindEq (Rel.xorI _ _) fun _ => Rel.bindEq (Rel.andI _ _) fun _ =>
  Rel.bindEq (Rel.xorI _ _) fun _ => Rel.bindEq (hL.add _ _) fun _ => Rel.bindEq (hL.add _ _) fun _ =>
  Rel.bindEq (hL.add _ _) fun _ => Rel.bindEq (hL.add _ _) fun _ => Rel.bindEq (Rel.bigSigma _ _ _ _) fun _ =>
  Rel.bindEq (Rel.xorI _ _) fun _ => Rel.bindEq (Rel.xorI _ _) fun _ => Rel.bindEq (Rel.andI _ _) fun _ =>
  Rel.bindEq (Rel.xorI _ _) fun _ => Rel.bindEq (hL.add _ _) fun _ => Rel.bindEq (hL.add _ _) fun _ =>
  Rel.bindEq (hL.add _ _) fun _ => Rel.pure rfl

theorem rel_compress (k h c : List SInt) : Rel Eq (chunkCompressG L k h c) (offCompress L k h c) := by
  unfold chunkCompressG offCompress
  refine Rel.bindEq (Rel.foldlM (fun a b i e => by subst e; exact rel_schedule hL a i) _ rfl) fun w => ?_
  refine Rel.bindEq (Rel.foldlM (fun a b i e => by subst e; exact rel_round hL a _ _) _ rfl) fun s => ?_
  exact Rel.bindEq (hL.add _ _) fun _ => Rel.bindEq (hL.add _ _) fun _ => Rel.bindEq (hL.add _ _) fun _ =>
    Rel.bindEq (hL.add _ _) fun _ => Rel.bindEq (hL.add _ _) fun _ => Rel.bindEq (hL.add _ _) fun _ =>
    Rel.bindEq (hL.add _ _) fun _ => Rel.bindEq (hL.add _ _) fun _ => Rel.pure rfl

theorem rel_chunkLoop (k d : List SInt) (n : Nat) (dig : List SInt) : Rel Eq (chunkLoopG L k d n dig) (offChunkLoop L k d n dig) :=
  Rel.foldlM (fun a b i e => by subst e; exact rel_compress hL k a _) _ rfl

omit hL in
/-- Corresponding states of the hash objects. -/
structure ShaRel (s : ShaG) (t : ShaOff) : Prop where
  gcIn : s.gcIn = t.gcIn
  gcOut : s.gcOut = t.gcOut
  ivOut : s.ivOut = t.ivOut
  ivInSec : s.ivInSec = t.ivInSec
  h : s.h = SHA.initH.map wordG ∧ t.h = SHA.initH.map wordG
  k : s.k = SHA.initK.map wordG ∧ t.k = SHA.initK.map wordG

omit hL in
theorem ShaRel.new : ShaRel {} {} := ⟨rfl, rfl, rfl, rfl, ⟨rfl, rfl⟩, ⟨rfl, rfl⟩⟩

omit hL in
theorem ShaRel.refresh {s : ShaG} {t : ShaOff} (r : ShaRel s t) : ShaRel s.refresh t.refresh :=
  ⟨rfl, rfl, r.ivOut, r.ivInSec, ⟨rfl, r.h.2⟩, ⟨rfl, r.k.2⟩⟩

omit hL in
theorem ShaRel.hk {s : ShaG} {t : ShaOff} (r : ShaRel s t) : t.k = s.k ∧ t.h = s.h := by
  rw [r.k.1, r.k.2, r.h.1, r.h.2]; exact ⟨rfl, rfl⟩

/-- Result and object. -/
def ResRel {α : Type} : α × ShaG → α × ShaOff → Prop := fun p q => p.1 = q.1 ∧ ShaRel p.2 q.2

theorem rel_compressS {s : ShaG} {t : ShaOff} (r : ShaRel s t) (x : List SInt) :
    Rel Eq (chunkCompressG L s.k s.h x) (offCompress L t.k t.h x) := by
  rw [r.hk.1, r.hk.2]; exact rel_compress hL _ _ _

theorem rel_firstOut {s : ShaG} {t : ShaOff} (r : ShaRel s t) (x : List SInt) (ro : Bool) :
    Rel ResRel (s.firstOut L x ro) (t.firstOut L x ro) := by
  unfold ShaG.firstOut ShaOff.firstOut
  refine Rel.ite Iff.rfl (fun _ => Rel.ite (by rw [r.gcOut]) (fun _ => Rel.pure ⟨r.ivOut, r⟩) fun _ => ?_) fun _ => ?_
  · exact Rel.bindEq (rel_compressS hL r _) fun d => Rel.pure ⟨rfl, ⟨r.gcIn, rfl, rfl, r.ivInSec, r.h, r.k⟩⟩
  · exact Rel.bindEq (rel_compressS hL r _) fun d => Rel.pure ⟨rfl, r⟩

theorem rel_firstIn {s : ShaG} {t : ShaOff} (r : ShaRel s t) (x : List SInt) (ri : Bool) :
    Rel ResRel (s.firstIn L x ri) (t.firstIn L x ri) := by
  unfold ShaG.firstIn ShaOff.firstIn
  refine Rel.ite Iff.rfl (fun _ => Rel.ite (by rw [r.gcIn]) (fun _ => Rel.pure ⟨r.ivInSec, r⟩) fun _ => ?_) fun _ => ?_
  · exact Rel.bindEq (rel_compressS hL r _) fun d => Rel.pure ⟨rfl, ⟨rfl, r.gcOut, r.ivOut, rfl, r.h, r.k⟩⟩
  · exact Rel.bindEq (rel_compressS hL r _) fun d => Rel.pure ⟨rfl, r⟩

omit hL in
/-- A last local step that only the online side makes. -/
theorem Rel.bindPureL {α β γ : Type} {R : α → β → Prop} {S : γ → β → Prop} {m : M α} {m' : M β} {f : α → M γ} (h : Rel R m m')
    (hf : ∀ a b, R a b → ∃ c, f a = Pure.pure c ∧ S c b) : Rel S (m >>= f) m' := by
  intro O O' s s' hs c u e
  have e' : (match m O s with
    | .ok (a, t) => f a O t | .error x => .error x) = Except.ok (c, u) := e
  cases hm : m O s with
  | error z => rw [hm] at e'; cases e'
  | ok p =>
    obtain ⟨p, s1⟩ := p
    rw [hm] at e'
    obtain ⟨b', t1, e1, hr, hs1⟩ := h O O' s s' hs p s1 hm
    obtain ⟨c', ec, hc⟩ := hf p b' hr
    dsimp only at e'
    rw [ec] at e'
    cases e'
    exact ⟨b', t1, e1, hc, hs1⟩

omit hL in
theorem Rel.liftEq {α : Type} (r : Res α) : Rel Eq (Gate.lift r) (Gate.lift r) := Rel.lift fun a e => ⟨a, e, rfl⟩

theorem rel_update {s : ShaG} {t : ShaOff} (r : ShaRel s t) (x : SInt) (ro : Bool) :
    Rel ResRel (s.update L x ro) (t.update L x ro) := by
  unfold ShaG.update ShaOff.update
  refine Rel.ite Iff.rfl (fun _ => Rel.fail) fun _ => ?_
  refine Rel.bindEq (Rel.liftEq _) fun data => Rel.ite Iff.rfl (fun _ => Rel.fail) fun _ => ?_
  refine Rel.bind (rel_firstOut hL r _ ro) ?_
  rintro ⟨d, s1⟩ ⟨d', t1⟩ ⟨e, r1⟩
  dsimp only at e r1 ⊢
  subst e
  rw [r1.hk.1]
  exact Rel.bindEq (rel_chunkLoop hL _ _ _ _) fun d => Rel.pure ⟨rfl, r1⟩

theorem rel_roundsUpdate {s : ShaG} {t : ShaOff} (r : ShaRel s t) (x : SInt) (ri : Bool) :
    Rel ResRel (s.optRoundsUpdate L x ri) (t.optRoundsUpdate L x ri) := by
  unfold ShaG.optRoundsUpdate ShaOff.optRoundsUpdate
  refine Rel.ite Iff.rfl (fun _ => Rel.fail) fun _ => ?_
  refine Rel.bindEq (Rel.liftEq _) fun data => Rel.ite Iff.rfl (fun _ => Rel.fail) fun _ => ?_
  refine Rel.bind (rel_firstIn hL r _ ri) ?_
  rintro ⟨d, s1⟩ ⟨d', t1⟩ ⟨e, r1⟩
  dsimp only at e r1 ⊢
  subst e
  rw [r1.hk.1]
  exact Rel.bindEq (rel_chunkLoop hL _ _ _ _) fun d => Rel.pure ⟨rfl, r1⟩

theorem rel_digest {s : ShaG} {t : ShaOff} (r : ShaRel s t) (x : SInt) (ro : Bool) :
    Rel ResRel (s.digest L x ro) (t.digest L x ro) := rel_update hL r _ ro

theorem rel_roundsDigest {s : ShaG} {t : ShaOff} (r : ShaRel s t) (x : SInt) (ri : Bool) :
    Rel ResRel (s.optRoundsDigest L x ri) (t.optRoundsDigest L x ri) := rel_roundsUpdate hL r _ ri

/-- The opened words do not matter, but there are eight of them. -/
def OptRel : List (BitVec 32) × ShaG → ShaOff → Prop := fun p t => p.1.length = 8 ∧ ShaRel p.2 t

omit hL in
theorem plain_length (h : List (BitVec 32)) (c : List Byte) : (SHA.plainChunkCompress h c).length = 8 := rfl

omit hL in
theorem plainTail_length (g : List Byte) (d : List (BitVec 32)) (p : List Byte) : (SHA.plainTail g d p).length = 8 := by
  unfold SHA.plainTail
  exact plain_length _ _

omit hL in
/-- The opened words are not compared. -/
theorem rel_revealWords (d : List SInt) : Rel (fun _ _ => True) (revealWordsG d) (reveal .pub (Gate.reverseConcat [] d)) := by
  intro O O' s s' hs a t e
  cases e
  exact ⟨_, _, rfl, trivial, by simp only [List.map_cons, hs.1], hs.2⟩

theorem rel_compressOpen {s : ShaG} {t : ShaOff} (r : ShaRel s t) (x : List SInt) :
    Rel (fun _ _ => True) (s.compressOpen L x) (t.compressOpen L x) := by
  unfold ShaG.compressOpen ShaOff.compressOpen
  refine Rel.bindEq (rel_compressS hL r _) fun d => ?_
  intro O O' s s' hs a t e
  cases e
  exact ⟨_, _, rfl, trivial, by simp only [List.map_cons, hs.1], hs.2⟩

theorem rel_optDigest {s : ShaG} {t : ShaOff} (r : ShaRel s t) (g : List Byte) (sec : SInt) (pub : List Byte) (ri : Bool) :
    Rel OptRel (s.optDigest L g sec pub ri) (t.optDigest L sec ri) := by
  have first : Rel (fun (p : List (BitVec 32) × ShaG) t' => ShaRel p.2 t') (s.optFirst L sec ri) (t.optDigest L sec ri) := by
    unfold ShaG.optFirst ShaOff.optDigest
    refine Rel.ite Iff.rfl (fun _ => Rel.fail) fun _ => ?_
    refine Rel.bindEq (Rel.liftEq _) fun data => Rel.ite Iff.rfl (fun _ => Rel.ite (by rw [r.gcIn]) (fun _ => ?_) fun _ => ?_) fun _ => ?_
    · exact Rel.bind (rel_compressOpen hL r _) fun x y _ => Rel.pure ⟨rfl, r.gcOut, r.ivOut, r.ivInSec, r.h, r.k⟩
    · cases s.ivIn[s.pos.toNat]? with
      | none => exact Rel.fail
      | some d => exact Rel.pure r
    · exact Rel.bind (rel_compressOpen hL r _) fun x y _ => Rel.pure r
  exact Rel.bindPureL first fun p t' hp => ⟨_, rfl, plainTail_length _ _ _, hp⟩

/-! ### HMAC -/

omit hL in
structure HmacRel (m : HmacG) (n : HmacOff) : Prop where
  sha : ShaRel m.sha n.sha
  o : m.oKeyPad = n.oKeyPad
  i : m.iKeyPad = n.iKeyPad

omit hL in
theorem HmacRel.new : HmacRel {} {} := ⟨ShaRel.new, rfl, rfl⟩

/-- Result and object. -/
def HRel {α : Type} : α × HmacG → α × HmacOff → Prop := fun p q => p.1 = q.1 ∧ HmacRel p.2 q.2

omit hL in
theorem rel_padConst : Rel Eq padConstG offPadConst :=
  Rel.foldlM (fun a b i e => by
    subst e
    exact Rel.bindEq (Rel.xorI _ _) fun _ => Rel.bindEq (Rel.xorI _ _) fun _ => Rel.pure rfl) _ rfl

theorem rel_padKey {s : ShaG} {t : ShaOff} (r : ShaRel s t) (key : SInt) : Rel ResRel (padKeyG L s key) (offPadKey L t key) := by
  unfold padKeyG offPadKey
  refine Rel.ite Iff.rfl (fun _ => ?_) fun _ => Rel.pure ⟨rfl, r⟩
  refine Rel.bind (rel_digest hL r key _) ?_
  rintro ⟨d, s1⟩ ⟨d', t1⟩ ⟨e, r1⟩
  dsimp only at e r1 ⊢
  subst e
  exact Rel.pure ⟨rfl, r1⟩

theorem rel_init {m : HmacG} {n : HmacOff} (r : HmacRel m n) (key : SInt) : Rel HmacRel (m.init L key) (n.init L key) := by
  unfold HmacG.init HmacOff.init
  refine Rel.bind (rel_padKey hL r.sha.refresh key) ?_
  rintro ⟨d, s1⟩ ⟨d', t1⟩ ⟨e, r1⟩
  dsimp only at e r1 ⊢
  subst e
  refine Rel.bindEq rel_padConst ?_
  rintro ⟨o, i⟩
  exact Rel.bindEq (Rel.xorI _ _) fun _ => Rel.bindEq (Rel.xorI _ _) fun _ => Rel.pure ⟨r1, rfl, rfl⟩

omit hL in
theorem length_ofNat' (n v : Nat) : (Integer.ofNat n v).length = n := by
  induction n generalizing v with
  | zero => rfl
  | succ n ih => simp [Integer.ofNat, ih]

omit hL in
theorem rel_feedWords : ∀ (x y : List (BitVec 32)), x.length = y.length → Rel Eq (feedWords x) (feedWords y)
  | [], [], _ => Rel.pure rfl
  | a :: x, b :: y, h => by
    unfold feedWords
    refine Rel.bindEq (Rel.feed ?_) fun _ => Rel.bindEq (rel_feedWords x y (by simpa using h)) fun _ => Rel.pure rfl
    rw [length_ofNat', length_ofNat']

theorem rel_optHmac {m : HmacG} {n : HmacOff} (r : HmacRel m n) (g msg : List Byte) (u : Nat → BitVec 32) (ri ro : Bool) :
    Rel HRel (m.optHmac L g msg ri ro) (n.optHmac L u ri ro) := by
  unfold HmacG.optHmac HmacOff.optHmac
  rw [r.i, r.o]
  refine Rel.bind (rel_optDigest hL r.sha _ _ _ _) ?_
  rintro ⟨d, s1⟩ t1 ⟨e, r1⟩
  dsimp only at e r1 ⊢
  refine Rel.bindEq (rel_feedWords _ _ (by rw [e]; rfl)) fun o => ?_
  refine Rel.bind (rel_digest hL r1 _ ro) ?_
  rintro ⟨d, s1⟩ ⟨d', t1⟩ ⟨e, r1⟩
  exact Rel.pure ⟨e, r1, rfl, rfl⟩

theorem rel_roundsHmac {m : HmacG} {n : HmacOff} (r : HmacRel m n) (msg : SInt) (ri ro : Bool) :
    Rel HRel (m.optRoundsHmac L msg ri ro) (n.optRoundsHmac L msg ri ro) := by
  unfold HmacG.optRoundsHmac HmacOff.optRoundsHmac
  rw [r.i, r.o]
  refine Rel.bind (rel_roundsDigest hL r.sha _ _) ?_
  rintro ⟨d, s1⟩ ⟨d', t1⟩ ⟨e, r1⟩
  dsimp only at e r1 ⊢
  subst e
  refine Rel.bind (rel_digest hL r1 _ ro) ?_
  rintro ⟨d, s1⟩ ⟨d', t1⟩ ⟨e, r1⟩
  exact Rel.pure ⟨e, r1, rfl, rfl⟩

/-! ### PRF -/

theorem rel_optPhash (g : Nat → List Byte) (u : Nat → Nat → BitVec 32) (seed : List Byte) (ri ro : Bool) (k : Nat) :
    ∀ {m : HmacG} {n : HmacOff}, HmacRel m n → ∀ (a : List Byte) (res : SInt),
      Rel HRel (optPhashG L g seed ri ro k m a res) (offOptPhash L u ri ro k n res) := by
  induction k with
  | zero => intro m n r a res; exact Rel.pure ⟨rfl, r⟩
  | succ k ih =>
    intro m n r a res
    unfold optPhashG offOptPhash
    refine Rel.bind (rel_optHmac hL r _ _ _ ri ro) ?_
    rintro ⟨d, m1⟩ ⟨d', n1⟩ ⟨e, r1⟩
    dsimp only at e r1 ⊢
    subst e
    refine Rel.bind (rel_revealWords d) fun x y _ => ?_
    refine Rel.bind (rel_optHmac hL r1 _ _ _ ri ro) ?_
    rintro ⟨d, m2⟩ ⟨d', n2⟩ ⟨e, r2⟩
    dsimp only at e r2 ⊢
    subst e
    exact ih r2 _ _

theorem rel_optCompute {m : HmacG} {n : HmacOff} (r : HmacRel m n) (g : Nat → List Byte) (u : Nat → Nat → BitVec 32) (res : SInt)
    (bitlen : Nat) (label seed : List Byte) (ri ro : Bool) :
    Rel HRel (optComputeG L m g res bitlen label seed ri ro) (offOptCompute L n u res bitlen ri ro) := by
  unfold optComputeG offOptCompute
  refine Rel.bind (rel_optPhash hL g u _ ri ro _ r _ _) ?_
  rintro ⟨d, m2⟩ ⟨d', n2⟩ ⟨e, r2⟩
  dsimp only at e r2 ⊢
  subst e
  exact Rel.pure ⟨rfl, r2⟩

theorem rel_roundsPhash (seed : SInt) (ri ro : Bool) (k : Nat) :
    ∀ {m : HmacG} {n : HmacOff}, HmacRel m n → ∀ (a res : SInt),
      Rel HRel (roundsPhashG L seed ri ro k m a res) (offRoundsPhash L seed ri ro k n a res) := by
  induction k with
  | zero => intro m n r a res; exact Rel.pure ⟨rfl, r⟩
  | succ k ih =>
    intro m n r a res
    unfold roundsPhashG offRoundsPhash
    refine Rel.bind (rel_roundsHmac hL r _ ri ro) ?_
    rintro ⟨d, m1⟩ ⟨d', n1⟩ ⟨e, r1⟩
    dsimp only at e r1 ⊢
    subst e
    refine Rel.bind (rel_roundsHmac hL r1 _ ri ro) ?_
    rintro ⟨d, m2⟩ ⟨d', n2⟩ ⟨e, r2⟩
    dsimp only at e r2 ⊢
    subst e
    exact ih r2 _ _

omit hL in
theorem length_ofBytes' (b : List Byte) : (Integer.ofBytes b).length = 8 * b.length := by
  unfold Integer.ofBytes
  induction b with
  | nil => rfl
  | cons a b ih => simp only [List.flatMap_cons, List.length_append, length_ofNat', ih, List.length_cons]; omega

theorem rel_roundsCompute {m : HmacG} {n : HmacOff} (r : HmacRel m n) (res : SInt)
    (bitlen : Nat) (label seed : List Byte) (seedlen : Nat) (hs : label.length + seed.length = seedlen) (ri ro : Bool) :
    Rel HRel (roundsComputeG L m res bitlen label seed ri ro) (offRoundsCompute L n res bitlen seedlen ri ro) := by
  unfold roundsComputeG offRoundsCompute
  refine Rel.bindEq (Rel.feed ?_) fun a0 => ?_
  · rw [length_ofBytes', length_ofNat', List.length_reverse, List.length_append, hs]
  refine Rel.bind (rel_roundsPhash hL a0 ri ro _ r _ _) ?_
  rintro ⟨d, m2⟩ ⟨d', n2⟩ ⟨e, r2⟩
  dsimp only at e r2 ⊢
  subst e
  exact Rel.pure ⟨rfl, r2⟩

/-! ### AEAD -/

omit hL in
structure AeadRel (a : AeadG) (b : AeadOff) : Prop where
  key : a.expandedKey = b.expandedKey
  nonce : a.nonce = b.nonce
  iv : a.fixedIv = b.fixedIv

omit hL in
theorem rel_aeadNew (j j' : Nat → Nat → Wire) (key iv : SInt) :
    Rel (fun (p : SInt × AeadG) q => AeadRel p.2 q) (AeadG.new j key iv) (AeadOff.new j' key iv) :=
  Rel.bindEq (Rel.computeKS _ _ _) fun _ => Rel.bindEq (Rel.computeAESKS _ _ _ _) fun _ => Rel.pure ⟨rfl, rfl, rfl⟩

theorem rel_inc (c : SInt) (s : Nat) : Rel Eq (incG L c s) (offInc L c s) :=
  Rel.ite Iff.rfl (fun _ => Rel.fail) fun _ => Rel.bindEq (hL.add _ _) fun _ => Rel.pure rfl

theorem rel_gctr (j j' : Nat → Nat → Wire) (ks : SInt) (m : Nat) : ∀ res nonce : SInt,
    Rel Eq (gctrG L j ks m res nonce) (offGctr L j' ks m res nonce) := by
  induction m with
  | zero => intro res nonce; exact Rel.pure rfl
  | succ m ih =>
    intro res nonce
    unfold gctrG offGctr
    exact Rel.bindEq (Rel.computeAESKS _ _ _ _) fun _ => Rel.bindEq (rel_inc hL _ _) fun _ => ih _ _

omit hL in
theorem rel_setNonce (iv0 : SInt) (iv : List Byte) : Rel Eq (setNonceG iv0 iv) (offSetNonce iv0) := by
  unfold setNonceG offSetNonce
  by_cases h : iv.length ≠ 8
  · rw [if_pos h]; exact Rel.fail
  · rw [if_neg h]
    refine Rel.bindEq (Rel.feed ?_) fun _ => Rel.pure rfl
    rw [length_ofBytes', length_ofBytes', List.length_reverse, List.length_replicate, Decidable.not_not.1 h]

theorem rel_encrypt {a : AeadG} {b : AeadOff} (r : AeadRel a b) (j j' : Nat → Nat → Wire) (iv : List Byte) (n : Nat) (sec : Bool) :
    Rel (fun (p : StreamG × AeadG) q => AeadRel p.2 q) (a.encrypt L j iv n sec) (b.encrypt L j' n sec) := by
  unfold AeadG.encrypt AeadOff.encrypt
  rw [r.iv, r.key]
  refine Rel.bindEq (rel_setNonce _ _) fun nonce => Rel.bindEq (rel_gctr hL _ _ _ _ _ _) ?_
  rintro ⟨Z, nonce⟩
  dsimp only
  refine Rel.ite Iff.rfl (fun _ => ?_) fun _ => Rel.pure ⟨rfl, rfl, rfl⟩
  exact Rel.bind (Rel.reveal _ _) fun _ _ _ => Rel.pure ⟨rfl, rfl, rfl⟩

theorem rel_decrypt {a : AeadG} {b : AeadOff} (r : AeadRel a b) (j j' : Nat → Nat → Wire) (iv : List Byte) (n : Nat) (sec : Bool) :
    Rel (fun (p : StreamG × AeadG) q => AeadRel p.2 q) (a.decrypt L j iv n sec) (b.decrypt L j' n sec) := by
  unfold AeadG.decrypt AeadOff.decrypt
  rw [r.iv, r.key]
  refine Rel.bindEq (rel_setNonce _ _) fun nonce => Rel.bindEq (rel_gctr hL _ _ _ _ _ _) ?_
  rintro ⟨Z, nonce⟩
  dsimp only
  refine Rel.ite Iff.rfl (fun _ => ?_) fun _ => Rel.pure ⟨rfl, rfl, rfl⟩
  exact Rel.bind (Rel.reveal _ _) fun _ _ _ => Rel.pure ⟨rfl, rfl, rfl⟩

/-! ### Handshake -/

omit hL in
structure HsRel (h : HsG) (k : HsOff) : Prop where
  hmac : HmacRel h.hmac k.hmac
  q : h.q = k.q
  ro : h.roundsOpt = k.roundsOpt
  master : h.masterKey = k.masterKey
  cwk : h.clientWriteKey = k.clientWriteKey
  swk : h.serverWriteKey = k.serverWriteKey
  civ : h.clientWriteIv = k.clientWriteIv
  siv : h.serverWriteIv = k.serverWriteIv

theorem rel_addmod (a b : SInt) (q : Nat) : Rel Eq (addmodG L a b q) (addmodG L a b q) :=
  Rel.bindEq (hL.add _ _) fun _ => Rel.bindEq (hL.geq _ _) fun _ => Rel.bindEq (hL.sub _ _) fun _ =>
    Rel.bindEq (hL.select _ _ _) fun _ => Rel.pure rfl

theorem rel_prfCall {h : HsG} {k : HsOff} (r : HsRel h k) (g : Nat → List Byte) (u : Nat → Nat → BitVec 32) (res : SInt)
    (bitlen : Nat) (label seed : List Byte) (seedlen : Nat) (hs : h.roundsOpt = true → label.length + seed.length = seedlen) :
    Rel (fun (p : SInt × HsG) (q : SInt × HsOff) => p.1 = q.1 ∧ HsRel p.2 q.2 ∧ p.2.roundsOpt = h.roundsOpt) (h.prfCall L g res bitlen label seed)
      (k.prfCall L u res bitlen seedlen) := by
  unfold HsG.prfCall HsOff.prfCall
  have sel : Rel HRel (h.prfSel L g res bitlen label seed) (k.prfSel L u res bitlen seedlen) := by
    unfold HsG.prfSel HsOff.prfSel
    exact Rel.ite (by rw [r.ro]) (fun _ => rel_optCompute hL r.hmac _ _ _ _ _ _ _ _)
      fun hr => rel_roundsCompute hL r.hmac _ _ _ _ _ (hs (by simpa using hr)) _ _
  refine Rel.bind sel ?_
  rintro ⟨d, m2⟩ ⟨d', n2⟩ ⟨e, r2⟩
  exact Rel.pure ⟨e, ⟨r2, r.q, r.ro, r.master, r.cwk, r.swk, r.civ, r.siv⟩, rfl⟩

omit hL in
theorem bnBuffer_length {len n : Nat} {b : List Byte} (h : bnBuffer len n = .ok b) : b.length = len := by
  unfold bnBuffer at h
  split at h
  · rename_i hl
    cases h
    simp only [List.length_reverse, List.length_append, List.length_replicate]
    unfold bnNumBytes at hl ⊢
    omega
  · cases h

omit hL in
/-- A local computation that only the online side makes. -/
theorem Rel.liftL {α β γ : Type} {S : β → γ → Prop} {r : Res α} {f : α → M β} {m : M γ} (h : ∀ a, r = .ok a → Rel S (f a) m) :
    Rel S (Gate.lift r >>= f) m := by
  cases r with
  | error e => exact Rel.fail
  | ok a => exact h a rfl

theorem rel_keyFromShares {h : HsG} {k : HsOff} (r : HsRel h k) (a b : Nat) :
    Rel (fun x y => HsRel x y ∧ x.roundsOpt = h.roundsOpt) (h.keyFromShares L a b) (k.keyFromShares L) := by
  unfold HsG.keyFromShares HsOff.keyFromShares
  refine Rel.liftL fun bufA eA => Rel.liftL fun bufB eB => ?_
  obtain ⟨km, kq, kr, k1, k2, k3, k4, k5⟩ := k
  obtain ⟨hm, hq, hro, e1, e2, e3, e4, e5⟩ := r
  dsimp only at hm hq hro e1 e2 e3 e4 e5 ⊢
  subst hq
  refine Rel.bindEq (Rel.feed ?_) fun x => Rel.bindEq (Rel.feed ?_) fun y => ?_
  · rw [length_ofBytes', length_ofBytes', List.length_replicate, bnBuffer_length eA]
  · rw [length_ofBytes', length_ofBytes', List.length_replicate, bnBuffer_length eB]
  refine Rel.bindEq (rel_addmod hL _ _ _) fun p => Rel.bind (rel_init hL hm _) fun m n hr => ?_
  exact Rel.pure ⟨⟨hr, rfl, hro, e1, e2, e3, e4, e5⟩, rfl⟩

theorem rel_masterKey {h : HsG} {k : HsOff} (r : HsRel h k) (g : Nat → List Byte) (u : Nat → Nat → BitVec 32) (a b : Nat)
    (rc rs : List Byte) (hs : h.roundsOpt = true → rc.length + rs.length = 2 * randomLength) :
    Rel (fun x y => HsRel x y ∧ x.roundsOpt = h.roundsOpt) (h.computeMasterKey L g a b rc rs) (k.computeMasterKey L u) := by
  unfold HsG.computeMasterKey HsOff.computeMasterKey
  refine Rel.bind (rel_keyFromShares hL r a b) ?_
  rintro h1 k1 ⟨r1, e1⟩
  rw [r1.master]
  refine Rel.bind (rel_prfCall hL r1 g u _ _ _ _ _ ?_) ?_
  · intro hr
    rw [List.length_append, hs (e1 ▸ hr)]
  rintro ⟨d, h2⟩ ⟨d', k2⟩ ⟨e, r2, e2⟩
  dsimp only at e r2 e2
  subst e
  exact Rel.pure ⟨⟨r2.hmac, r2.q, r2.ro, rfl, r2.cwk, r2.swk, r2.civ, r2.siv⟩, e2.trans e1⟩

theorem rel_extendedMasterKey {h : HsG} {k : HsOff} (r : HsRel h k) (g : Nat → List Byte) (u : Nat → Nat → BitVec 32) (a b : Nat)
    (sh : List Byte) (hs : h.roundsOpt = true → sh.length = sessionHashLength) :
    Rel (fun x y => HsRel x y ∧ x.roundsOpt = h.roundsOpt) (h.computeExtendedMasterKey L g a b sh) (k.computeExtendedMasterKey L u) := by
  unfold HsG.computeExtendedMasterKey HsOff.computeExtendedMasterKey
  refine Rel.bind (rel_keyFromShares hL r a b) ?_
  rintro h1 k1 ⟨r1, e1⟩
  rw [r1.master]
  refine Rel.bind (rel_prfCall hL r1 g u _ _ _ _ _ ?_) ?_
  · intro hr
    rw [hs (e1 ▸ hr)]
  rintro ⟨d, h2⟩ ⟨d', k2⟩ ⟨e, r2, e2⟩
  dsimp only at e r2 e2
  subst e
  exact Rel.pure ⟨⟨r2.hmac, r2.q, r2.ro, rfl, r2.cwk, r2.swk, r2.civ, r2.siv⟩, e2.trans e1⟩

theorem rel_expansionKeys {h : HsG} {k : HsOff} (r : HsRel h k) (g : Nat → List Byte) (u : Nat → Nat → BitVec 32)
    (rc rs : List Byte) (hs : h.roundsOpt = true → rc.length + rs.length = 2 * randomLength) :
    Rel (fun x y => HsRel x y ∧ x.roundsOpt = h.roundsOpt) (h.computeExpansionKeys L g rc rs) (k.computeExpansionKeys L u) := by
  unfold HsG.computeExpansionKeys HsOff.computeExpansionKeys
  refine Rel.bind (?_ : Rel HmacRel _ _) fun m n hm => ?_
  · rw [r.master]; exact rel_init hL r.hmac _
  have r1 : HsRel { h with hmac := m } { k with hmac := n } := ⟨hm, r.q, r.ro, r.master, r.cwk, r.swk, r.civ, r.siv⟩
  refine Rel.bind (rel_prfCall hL r1 g u _ _ _ _ _ ?_) ?_
  · intro hr
    rw [List.length_append, Nat.add_comm rs.length, hs hr]
  rintro ⟨d, h2⟩ ⟨d', k2⟩ ⟨e, r2, e2⟩
  dsimp only at e r2 e2 ⊢
  subst e
  exact Rel.bindEq (Rel.liftEq _) fun _ => Rel.bindEq (Rel.liftEq _) fun _ => Rel.bindEq (Rel.liftEq _) fun _ =>
    Rel.bindEq (Rel.liftEq _) fun _ => Rel.pure ⟨⟨r2.hmac, r2.q, r2.ro, r2.master, rfl, rfl, rfl, rfl⟩, e2⟩

theorem rel_clientFinished {h : HsG} {k : HsOff} (r : HsRel h k) (g : Nat → List Byte) (u : Nat → Nat → BitVec 32)
    (label tau : List Byte) (hs : h.roundsOpt = true → label.length + tau.length = clientFinishedLabel.length + sessionHashLength) :
    Rel (fun (p : List Byte × HsG) q => HsRel p.2 q ∧ p.2.roundsOpt = h.roundsOpt) (h.computeClientFinished L g label tau) (k.computeClientFinished L u) := by
  unfold HsG.computeClientFinished HsOff.computeClientFinished
  refine Rel.bind (rel_prfCall hL r g u _ _ _ _ _ hs) ?_
  rintro ⟨d, h2⟩ ⟨d', k2⟩ ⟨e, r2, e2⟩
  dsimp only at e r2 e2 ⊢
  subst e
  exact Rel.bind (Rel.reveal _ _) fun _ _ _ => Rel.pure ⟨r2, e2⟩

theorem rel_serverFinished {h : HsG} {k : HsOff} (r : HsRel h k) (g : Nat → List Byte) (u : Nat → Nat → BitVec 32)
    (label tau : List Byte) (hs : h.roundsOpt = true → label.length + tau.length = serverFinishedLabel.length + sessionHashLength) :
    Rel (fun (p : List Byte × HsG) q => HsRel p.2 q ∧ p.2.roundsOpt = h.roundsOpt) (h.computeServerFinished L g label tau) (k.computeServerFinished L u) := by
  unfold HsG.computeServerFinished HsOff.computeServerFinished
  refine Rel.bind (rel_prfCall hL r g u _ _ _ _ _ hs) ?_
  rintro ⟨d, h2⟩ ⟨d', k2⟩ ⟨e, r2, e2⟩
  dsimp only at e r2 e2 ⊢
  subst e
  exact Rel.bind (Rel.reveal _ _) fun _ _ _ => Rel.pure ⟨r2, e2⟩

/-! ### Connection -/

omit hL in
/-- Optional objects of the two sides. -/
def AeadOpt : Option AeadG → Option AeadOff → Prop
  | none, none => True
  | some a, some b => AeadRel a b
  | _, _ => False

omit hL in
structure ConnRel (c : ConnG) (d : ConnOff) : Prop where
  hs : HsRel c.hs d.hs
  client : AeadOpt c.aeadC d.aeadC
  server : AeadOpt c.aeadS d.aeadS

omit hL in
theorem ConnRel.set {c : ConnG} {d : ConnOff} (r : ConnRel c d) (cl : Bool) {a : AeadG} {b : AeadOff} (h : AeadRel a b) :
    ConnRel (c.setAead cl a) (d.setAead cl b) := by
  cases cl
  · exact ⟨r.hs, r.client, h⟩
  · exact ⟨r.hs, h, r.server⟩

omit hL in
theorem rel_getAead {c : ConnG} {d : ConnOff} (r : ConnRel c d) (cl : Bool) :
    Rel AeadRel (Gate.lift (c.getAead cl)) (Gate.lift (d.getAead cl)) := by
  refine Rel.lift fun a e => ?_
  unfold ConnG.getAead at e
  unfold ConnOff.getAead
  have h : AeadOpt (if cl then c.aeadC else c.aeadS) (if cl then d.aeadC else d.aeadS) := by
    cases cl
    · exact r.server
    · exact r.client
  revert e h
  generalize (if cl then c.aeadC else c.aeadS) = x
  generalize (if cl then d.aeadC else d.aeadS) = y
  intro e h
  cases x with
  | none => cases e
  | some x =>
    cases y with
    | none => exact h.elim
    | some y => cases e; exact ⟨y, rfl, h⟩

/-- The lengths of a call of the online phase are those the offline phase is written for: with `rounds`, the seeds are part of
the garbled computation. -/
def Matches (rounds : Bool) : Call → OffCall → Prop
  | .masterKey _ _ _ rc rs, .masterKey _ => rounds = true → rc.length + rs.length = 64
  | .extendedMasterKey _ _ _ sh, .extendedMasterKey _ => rounds = true → sh.length = 32
  | .expansionKeys _ rc rs, .expansionKeys _ => rounds = true → rc.length + rs.length = 64
  | .clientFinished _ l t, .clientFinished _ => rounds = true → l.length + t.length = 47
  | .serverFinished _ l t, .serverFinished _ => rounds = true → l.length + t.length = 47
  | .newAead _ c, .newAead _ c' => c = c'
  | .encrypt _ c _ n s, .encrypt _ c' n' s' => c = c' ∧ n = n' ∧ s = s'
  | .decrypt _ c _ n s, .decrypt _ c' n' s' => c = c' ∧ n = n' ∧ s = s'
  | _, _ => False

theorem rel_step {c : ConnG} {d : ConnOff} (r : ConnRel c d) (op : Call) (op' : OffCall) (h : Matches c.hs.roundsOpt op op') :
    Rel (fun (p : Out × ConnG) q => ConnRel p.2 q ∧ p.2.hs.roundsOpt = c.hs.roundsOpt) (c.step L op) (d.step L op') := by
  have set : ∀ {a : AeadG} {b : AeadOff} (cl : Bool), AeadRel a b →
      ConnRel (c.setAead cl a) (d.setAead cl b) ∧ (c.setAead cl a).hs.roundsOpt = c.hs.roundsOpt := by
    intro a b cl hr
    refine ⟨r.set cl hr, ?_⟩
    cases cl <;> rfl
  cases op <;> cases op' <;> simp only [Matches] at h
  case masterKey.masterKey =>
    refine Rel.bind (rel_masterKey hL r.hs _ _ _ _ _ _ h) ?_
    rintro x y ⟨hr, e⟩
    exact Rel.pure ⟨⟨hr, r.client, r.server⟩, e⟩
  case extendedMasterKey.extendedMasterKey =>
    refine Rel.bind (rel_extendedMasterKey hL r.hs _ _ _ _ _ h) ?_
    rintro x y ⟨hr, e⟩
    exact Rel.pure ⟨⟨hr, r.client, r.server⟩, e⟩
  case expansionKeys.expansionKeys =>
    refine Rel.bind (rel_expansionKeys hL r.hs _ _ _ _ h) ?_
    rintro x y ⟨hr, e⟩
    exact Rel.pure ⟨⟨hr, r.client, r.server⟩, e⟩
  case clientFinished.clientFinished =>
    refine Rel.bind (rel_clientFinished hL r.hs _ _ _ _ h) ?_
    rintro ⟨o, x⟩ y ⟨hr, e⟩
    exact Rel.pure ⟨⟨hr, r.client, r.server⟩, e⟩
  case serverFinished.serverFinished =>
    refine Rel.bind (rel_serverFinished hL r.hs _ _ _ _ h) ?_
    rintro ⟨o, x⟩ y ⟨hr, e⟩
    exact Rel.pure ⟨⟨hr, r.client, r.server⟩, e⟩
  case newAead.newAead j cl j' cl' =>
    subst h
    simp only [ConnG.step, ConnOff.step, r.hs.cwk, r.hs.swk, r.hs.civ, r.hs.siv]
    refine Rel.bind (rel_aeadNew _ _ _ _) ?_
    rintro ⟨z, a⟩ b hr
    exact Rel.pure (set _ hr)
  case encrypt.encrypt =>
    obtain ⟨rfl, rfl, rfl⟩ := h
    refine Rel.bind (rel_getAead r _) fun a b hr => Rel.bind (rel_encrypt hL hr _ _ _ _ _) ?_
    rintro ⟨z, a⟩ b hr
    exact Rel.pure (set _ hr)
  case decrypt.decrypt =>
    obtain ⟨rfl, rfl, rfl⟩ := h
    refine Rel.bind (rel_getAead r _) fun a b hr => Rel.bind (rel_decrypt hL hr _ _ _ _ _) ?_
    rintro ⟨z, a⟩ b hr
    exact Rel.pure (set _ hr)

theorem rel_run : ∀ (ops : List Call) (ops' : List OffCall) {c : ConnG} {d : ConnOff}, ConnRel c d →
    List.Forall₂ (Matches c.hs.roundsOpt) ops ops' →
    Rel (fun (p : List Out × ConnG) q => ConnRel p.2 q) (c.run L ops) (d.run L ops')
  | [], [], _, _, r, _ => Rel.pure r
  | [], _ :: _, _, _, _, h => nomatch h
  | _ :: _, [], _, _, _, h => nomatch h
  | op :: ops, op' :: ops', c, d, r, h => by
    rw [List.forall₂_cons] at h
    unfold ConnG.run ConnOff.run
    refine Rel.bind (rel_step hL r op op' h.1) ?_
    rintro ⟨o, c1⟩ d1 ⟨r1, e1⟩
    dsimp only at r1 e1 ⊢
    refine Rel.bindPureL (rel_run ops ops' r1 (by rw [e1]; exact h.2)) ?_
    rintro ⟨os, c2⟩ d2 r2
    exact ⟨_, rfl, r2⟩

end Verif.Lemmas.Gate
