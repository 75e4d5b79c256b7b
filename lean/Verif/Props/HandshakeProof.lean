import Verif.Model.HandshakeProof
import Verif.Props.Handshake
import Verif.Props.ZkReplay
import Verif.Props.AEADProof

/-!
C42: the derivation in the proof phase.
-/

namespace Verif.Props.HandshakeProof
open Verif.Model Verif.Model.Integer Verif.Model.SHA Verif.Lemmas Verif.Model.AEADProof
open Verif.Spec Verif.Spec.Encoding Verif.Props.AEADProof

theorem bind_ok {α β : Type} {x : Res α} {f : α → Res β} {y : β} : (x >>= f) = .ok y ↔ ∃ a, x = .ok a ∧ f a = .ok y := by
  cases x with
  | error e => simp [bind, Except.bind]
  | ok a => simp [bind, Except.bind]

/-- The master secret of RFC 5246 or RFC 7627. -/
def master (k : MasterSeed) (pms rc rs : List Bool) : List Bool :=
  match k with
  | .plain => TLS.masterSecret pms rc rs
  | .extended hash => TLS.extendedMasterSecret pms (bytesBits hash)

/-- Label and seed of the master secret. -/
def mLabel : MasterSeed → List Byte
  | .plain => masterKeyLabel
  | .extended _ => extendedMasterKeyLabel

def mSeed (k : MasterSeed) (rc rs : List Byte) : List Byte :=
  match k with
  | .plain => rc ++ rs
  | .extended hash => hash

theorem master_eq (k : MasterSeed) (pms : List Bool) (rc rs : List Byte) :
    HMAC.prf pms (bytesBits (mLabel k)) (bytesBits (mSeed k rc rs)) 384 = master k pms (bytesBits rc) (bytesBits rs) := by
  cases k
  · show HMAC.prf pms _ (bytesBits (rc ++ rs)) 384 = _
    rw [bytesBits_append]; rfl
  · rfl

/-- The calls on the `PRF` object. -/
def opsOf (g : Nat → List Byte) (ms : Integer) (k : MasterSeed) (rc rs tauC tauS : List Byte) : List PrfOp :=
  [.optCompute g 384 (mLabel k) (mSeed k rc rs) true true, .init ms,
   .optCompute g 320 keyExpansionLabel (rs ++ rc) true true,
   .optCompute g 96 clientFinishedLabel tauC true true,
   .optCompute g 96 serverFinishedLabel tauS true true]

/-- The slices of the key block. -/
def Slices (key : Integer) (ks : Keys) : Prop :=
  extractInteger key 0 128 = .ok ks.keyC ∧ extractInteger key 128 128 = .ok ks.keyS
    ∧ extractInteger key 256 32 = .ok ks.ivC ∧ extractInteger key 288 32 = .ok ks.ivS

theorem runZk_cons {p m op ops os p' m'} : Prf.runZk p m (op :: ops) = .ok (os, p', m')
    ↔ ∃ o p1 m1 os', p.stepZk m op = .ok (o, p1, m1) ∧ Prf.runZk p1 m1 ops = .ok (os', p', m') ∧ os = o :: os' := by
  simp only [Prf.runZk, bind_ok, Prod.exists, Except.ok.injEq, Prod.mk.injEq]
  constructor
  · rintro ⟨o, p1, m1, h1, os', p2, m2, h2, rfl, rfl, rfl⟩
    exact ⟨o, p1, m1, os', h1, h2, rfl⟩
  · rintro ⟨o, p1, m1, os', h1, h2, rfl⟩
    exact ⟨o, p1, m1, h1, os', _, _, h2, rfl, rfl, rfl⟩

theorem run_cons {p m op ops os p' m'} : Prf.run p m (op :: ops) = .ok (os, p', m')
    ↔ ∃ o p1 m1 os', p.step m op = .ok (o, p1, m1) ∧ Prf.run p1 m1 ops = .ok (os', p', m') ∧ os = o :: os' := by
  simp only [Prf.run, bind_ok, Prod.exists, Except.ok.injEq, Prod.mk.injEq]
  constructor
  · rintro ⟨o, p1, m1, h1, os', p2, m2, h2, rfl, rfl, rfl⟩
    exact ⟨o, p1, m1, os', h1, h2, rfl⟩
  · rintro ⟨o, p1, m1, os', h1, h2, rfl⟩
    exact ⟨o, p1, m1, h1, os', _, _, h2, rfl, rfl, rfl⟩

theorem stepZk_opt {p m g b l s ri ro o p' m'} : Prf.stepZk p m (.optCompute g b l s ri ro) = .ok (o, p', m')
    ↔ ∃ r, p.optCompute m g [] b l s ri ro true = .ok (r, p', m') ∧ o = some r.reverse := by
  simp only [Prf.stepZk, bind_ok, Prod.exists, Except.ok.injEq, Prod.mk.injEq]
  constructor
  · rintro ⟨r, p1, m1, h, rfl, rfl, rfl⟩; exact ⟨r, h, rfl⟩
  · rintro ⟨r, h, rfl⟩; exact ⟨r, _, _, h, rfl, rfl, rfl⟩

theorem step_opt {p m g b l s ri ro o p' m'} : Prf.step p m (.optCompute g b l s ri ro) = .ok (o, p', m')
    ↔ ∃ r, p.optCompute m g [] b l s ri ro false = .ok (r, p', m') ∧ o = some r.reverse := by
  simp only [Prf.step, bind_ok, Prod.exists, Except.ok.injEq, Prod.mk.injEq]
  constructor
  · rintro ⟨r, p1, m1, h, rfl, rfl, rfl⟩; exact ⟨r, h, rfl⟩
  · rintro ⟨r, h, rfl⟩; exact ⟨r, _, _, h, rfl, rfl, rfl⟩

theorem step_init {p m k o p' m'} : Prf.step p m (.init k) = .ok (o, p', m') ↔ p.init m k = .ok (p', m') ∧ o = none := by
  simp only [Prf.step, bind_ok, Prod.exists, Except.ok.injEq, Prod.mk.injEq]
  constructor
  · rintro ⟨p1, m1, h, rfl, rfl, rfl⟩; exact ⟨h, rfl⟩
  · rintro ⟨h, rfl⟩; exact ⟨_, _, h, rfl, rfl, rfl⟩

theorem stepZk_init {p m k o p' m'} : Prf.stepZk p m (.init k) = .ok (o, p', m') ↔ p.init m k = .ok (p', m') ∧ o = none := step_init

theorem callZk {h : Hs} (hr : h.roundsOpt = false) {g res b l s r h'} : h.prfCallZk g res b l s = .ok (r, h')
    ↔ ∃ p m, h.prf.optCompute h.hmac g res b l s true true true = .ok (r, p, m) ∧ h' = { h with prf := p, hmac := m } := by
  simp only [Hs.prfCallZk, hr, Bool.not_false, if_true, bind_ok, Prod.exists, Except.ok.injEq, Prod.mk.injEq]
  constructor
  · rintro ⟨r, p, m, h1, rfl, rfl⟩; exact ⟨p, m, h1, rfl⟩
  · rintro ⟨p, m, h1, rfl⟩; exact ⟨r, p, m, h1, rfl, rfl⟩

theorem call {h : Hs} (hr : h.roundsOpt = false) {g res b l s r h'} : h.prfCall g res b l s = .ok (r, h')
    ↔ ∃ p m, h.prf.optCompute h.hmac g res b l s true true false = .ok (r, p, m) ∧ h' = { h with prf := p, hmac := m } := by
  simp only [Hs.prfCall, hr, Bool.not_false, if_true, bind_ok, Prod.exists, Except.ok.injEq, Prod.mk.injEq]
  constructor
  · rintro ⟨r, p, m, h1, rfl, rfl⟩; exact ⟨p, m, h1, rfl⟩
  · rintro ⟨p, m, h1, rfl⟩; exact ⟨r, p, m, h1, rfl, rfl⟩

theorem checkData_ok {x : Integer} {d : List Byte} {n : Nat} {c : Check} :
    checkData x d n = .ok c ↔ x.length = n * 8 ∧ c = .data x (d.take n) := by
  unfold checkData
  split
  · simp_all
  · simp_all [eq_comm]

/-- The proof phase is the corresponding run of the PRF in proof mode. -/
theorem proveSchedule_iff {h : HsP} (hr : h.hs.roundsOpt = false) {g pms k rc rs tauC tauS ms ks cc cs h'} :
    h.proveSchedule g [] pms k rc rs tauC tauS = .ok (ms, ks, cc, cs, h') ↔
    ∃ buf key uc us p m,
      bnBuffer (bnNumBytes h.hs.q) (((pms : Int) - h.bnA) % h.hs.q).toNat = .ok buf ∧ bnBuffer (bnNumBytes h.hs.q) h.bnB = .ok buf
      ∧ Prf.runZk h.hs.prf h.hs.hmac (.init (addmod (ofBytes buf) h.hs.zkPms h.hs.q) :: opsOf g ms k rc rs tauC tauS)
          = .ok ([none, some ms.reverse, none, some key.reverse, some uc.reverse, some us.reverse], p, m)
      ∧ Slices key ks ∧ uc.length = 96 ∧ us.length = 96 ∧ cc = .data uc (h.hs.clientUfin.take 12) ∧ cs = .data us (h.hs.serverUfin.take 12)
      ∧ h' = ⟨{ h.hs with prf := p, hmac := m }, (((pms : Int) - h.bnA) % h.hs.q).toNat, h.bnB⟩ := by
  have e1 : masterKeyLength * 8 = 384 := rfl
  have e1' : extendedMasterKeyLength * 8 = 384 := rfl
  have e2 : expansionKeyLength * 8 = 320 := rfl
  have e3 : finishedMsgLength * 8 = 96 := rfl
  have e4 : keyLength * 8 = 128 := rfl
  have e5 : ivLength * 8 = 32 := rfl
  have hm : ∀ ms2 h2, h.proveMaster g [] pms k rc rs = .ok (ms2, h2) ↔
      ∃ buf p0 m0 p m, bnBuffer (bnNumBytes h.hs.q) (((pms : Int) - h.bnA) % h.hs.q).toNat = .ok buf ∧ bnBuffer (bnNumBytes h.hs.q) h.bnB = .ok buf
        ∧ h.hs.prf.init h.hs.hmac (addmod (ofBytes buf) h.hs.zkPms h.hs.q) = .ok (p0, m0)
        ∧ p0.optCompute m0 g [] 384 (mLabel k) (mSeed k rc rs) true true true = .ok (ms2, p, m)
        ∧ h2 = ⟨{ h.hs with prf := p, hmac := m }, (((pms : Int) - h.bnA) % h.hs.q).toNat, h.bnB⟩ := by
    intro ms2 h2
    have hk : ∀ h1, h.proveKey pms = .ok h1 ↔ ∃ buf p0 m0, bnBuffer (bnNumBytes h.hs.q) (((pms : Int) - h.bnA) % h.hs.q).toNat = .ok buf
        ∧ bnBuffer (bnNumBytes h.hs.q) h.bnB = .ok buf
        ∧ h.hs.prf.init h.hs.hmac (addmod (ofBytes buf) h.hs.zkPms h.hs.q) = .ok (p0, m0)
        ∧ h1 = ⟨{ h.hs with prf := p0, hmac := m0 }, (((pms : Int) - h.bnA) % h.hs.q).toNat, h.bnB⟩ := by
      intro h1
      simp only [HsP.proveKey, bind_ok]
      constructor
      · rintro ⟨bA, hA, bB, hB, h3⟩
        split at h3
        · simp at h3
        · rename_i hne
          simp only [ne_eq, not_not] at hne
          subst hne
          simp only [bind_ok, Prod.exists, Except.ok.injEq] at h3
          obtain ⟨p0, m0, h3, rfl⟩ := h3
          exact ⟨bA, p0, m0, hA, hB, h3, rfl⟩
      · rintro ⟨buf, p0, m0, hA, hB, h3, rfl⟩
        refine ⟨buf, hA, buf, hB, ?_⟩
        rw [if_neg (by simp)]
        simp only [bind_ok, Prod.exists, Except.ok.injEq]
        exact ⟨p0, m0, h3, rfl⟩
    cases k with
    | plain =>
      simp only [HsP.proveMaster, HsP.proveMasterKey, bind_ok, hk, Prod.exists, Except.ok.injEq, Prod.mk.injEq, e1]
      constructor
      · rintro ⟨h1, ⟨buf, p0, m0, hA, hB, hi, rfl⟩, r, hs2, hc, rfl, rfl⟩
        obtain ⟨p, m, hc', rfl⟩ := (callZk (by exact hr)).mp hc
        exact ⟨buf, p0, m0, p, m, hA, hB, hi, hc', rfl⟩
      · rintro ⟨buf, p0, m0, p, m, hA, hB, hi, hc, rfl⟩
        exact ⟨_, ⟨buf, p0, m0, hA, hB, hi, rfl⟩, ms2, _, (callZk (by exact hr)).mpr ⟨p, m, hc, rfl⟩, rfl, rfl⟩
    | extended hash =>
      simp only [HsP.proveMaster, HsP.proveExtendedMasterKey, bind_ok, hk, Prod.exists, Except.ok.injEq, Prod.mk.injEq, e1']
      constructor
      · rintro ⟨h1, ⟨buf, p0, m0, hA, hB, hi, rfl⟩, r, hs2, hc, rfl, rfl⟩
        obtain ⟨p, m, hc', rfl⟩ := (callZk (by exact hr)).mp hc
        exact ⟨buf, p0, m0, p, m, hA, hB, hi, hc', rfl⟩
      · rintro ⟨buf, p0, m0, p, m, hA, hB, hi, hc, rfl⟩
        exact ⟨_, ⟨buf, p0, m0, hA, hB, hi, rfl⟩, ms2, _, (callZk (by exact hr)).mpr ⟨p, m, hc, rfl⟩, rfl, rfl⟩
  simp only [HsP.proveSchedule, bind_ok, Prod.exists, hm, HsP.proveExpansionKeys, HsP.proveClientFinished, HsP.proveServerFinished,
    Except.ok.injEq, Prod.mk.injEq, e2, e3, e4, e5]
  constructor
  · rintro ⟨ms2, h2, ⟨buf, p0, m0, p1, m1, hA, hB, hi, hc, rfl⟩, ks2, h3, ⟨p2, m2, hi2, key, hs3, hc3, x1, hx1, x2, hx2, x3, hx3, x4, hx4, rfl, rfl⟩,
      cc2, h4, ⟨uc, hs4, hc4, cc3, hck, rfl, rfl⟩, cs2, h5, ⟨us, hs5, hc5, cs3, hck5, rfl, rfl⟩, rfl, rfl, rfl, rfl, rfl⟩
    obtain ⟨p3, m3, hd3, rfl⟩ := (callZk (by exact hr)).mp hc3
    obtain ⟨p4, m4, hd4, rfl⟩ := (callZk (by exact hr)).mp hc4
    obtain ⟨p5, m5, hd5, rfl⟩ := (callZk (by exact hr)).mp hc5
    obtain ⟨l1, rfl⟩ := checkData_ok.mp hck
    obtain ⟨l2, rfl⟩ := checkData_ok.mp hck5
    refine ⟨buf, key, uc, us, p5, m5, hA, hB, ?_, ⟨hx1, hx2, hx3, hx4⟩, l1, l2, rfl, rfl, rfl⟩
    refine runZk_cons.mpr ⟨_, p0, m0, _, stepZk_init.mpr ⟨hi, rfl⟩, ?_, rfl⟩
    refine runZk_cons.mpr ⟨_, p1, m1, _, stepZk_opt.mpr ⟨_, hc, rfl⟩, ?_, rfl⟩
    refine runZk_cons.mpr ⟨_, p2, m2, _, stepZk_init.mpr ⟨hi2, rfl⟩, ?_, rfl⟩
    refine runZk_cons.mpr ⟨_, p3, m3, _, stepZk_opt.mpr ⟨_, hd3, rfl⟩, ?_, rfl⟩
    refine runZk_cons.mpr ⟨_, p4, m4, _, stepZk_opt.mpr ⟨_, hd4, rfl⟩, ?_, rfl⟩
    refine runZk_cons.mpr ⟨_, p5, m5, _, stepZk_opt.mpr ⟨_, hd5, rfl⟩, rfl, rfl⟩
  · rintro ⟨buf, key, uc, us, p, m, hA, hB, hrun, ⟨hx1, hx2, hx3, hx4⟩, l1, l2, rfl, rfl, rfl⟩
    obtain ⟨o0, p0, m0, os0, s0, hrun0, eq0⟩ := runZk_cons.mp hrun
    obtain ⟨hi, rfl⟩ := stepZk_init.mp s0
    obtain ⟨o1, p1, m1, os1, s1, hrun1, eq1⟩ := runZk_cons.mp hrun0
    obtain ⟨r1, hc, rfl⟩ := stepZk_opt.mp s1
    obtain ⟨o2, p2, m2, os2, s2, hrun2, eq2⟩ := runZk_cons.mp hrun1
    obtain ⟨hi2, rfl⟩ := stepZk_init.mp s2
    obtain ⟨o3, p3, m3, os3, s3, hrun3, eq3⟩ := runZk_cons.mp hrun2
    obtain ⟨r3, hc3, rfl⟩ := stepZk_opt.mp s3
    obtain ⟨o4, p4, m4, os4, s4, hrun4, eq4⟩ := runZk_cons.mp hrun3
    obtain ⟨r4, hc4, rfl⟩ := stepZk_opt.mp s4
    obtain ⟨o5, p5, m5, os5, s5, hrun5, eq5⟩ := runZk_cons.mp hrun4
    obtain ⟨r5, hc5, rfl⟩ := stepZk_opt.mp s5
    simp only [Prf.runZk, Except.ok.injEq, Prod.mk.injEq] at hrun5
    obtain ⟨rfl, rfl, rfl⟩ := hrun5
    subst eq5 eq4 eq3 eq2 eq1
    simp only [List.cons.injEq, Option.some.injEq, List.reverse_inj, true_and, and_true] at eq0
    obtain ⟨rfl, rfl, rfl, rfl⟩ := eq0
    refine ⟨_, _, ⟨buf, p0, m0, p1, m1, hA, hB, hi, hc, rfl⟩, _, _, ⟨p2, m2, hi2, key, _, (callZk (by exact hr)).mpr ⟨p3, m3, hc3, rfl⟩,
      _, hx1, _, hx2, _, hx3, _, hx4, rfl, rfl⟩, _, _, ⟨uc, _, (callZk (by exact hr)).mpr ⟨p4, m4, hc4, rfl⟩, _, checkData_ok.mpr ⟨l1, rfl⟩, rfl, rfl⟩,
      _, _, ⟨us, _, (callZk (by exact hr)).mpr ⟨p5, m5, hc5, rfl⟩, _, checkData_ok.mpr ⟨l2, rfl⟩, rfl, rfl⟩, rfl, rfl, rfl, rfl, rfl⟩

/-- Lengths of the public inputs. -/
structure Short (k : MasterSeed) (rc rs tauC tauS : List Byte) : Prop where
  rand : rc.length + rs.length < 2 ^ 57
  hash : ∀ x, k = .extended x → x.length < 2 ^ 57
  tauC : tauC.length < 2 ^ 57
  tauS : tauS.length < 2 ^ 57

theorem len_mLabel (k : MasterSeed) : (mLabel k).length ≤ 22 := by
  cases k with
  | plain => decide
  | extended x => exact Nat.le_refl 22

theorem len_mSeed {k rc rs tauC tauS} (hs : Short k rc rs tauC tauS) : (mSeed k rc rs).length < 2 ^ 57 := by
  cases k with
  | plain => show (rc ++ rs).length < _; rw [List.length_append]; exact hs.rand
  | extended x => exact hs.hash x rfl

theorem ops_valid {k rc rs tauC tauS} (hs : Short k rc rs tauC tauS) (g : Nat → List Byte) (hg : ∀ i, (g i).length = 64) (ms : Integer)
    (hm : ms.length < 2 ^ 63) : ∀ op ∈ opsOf g ms k rc rs tauC tauS, PrfOp.Valid op ∧ Replayable op := by
  have h1 := len_mLabel k
  have h2 := len_mSeed hs
  have h3 := hs.rand
  have h4 := hs.tauC
  have h5 := hs.tauS
  have l1 : keyExpansionLabel.length = 13 := rfl
  have l2 : clientFinishedLabel.length = 15 := rfl
  have l3 : serverFinishedLabel.length = 15 := rfl
  intro op hop
  simp only [opsOf, List.mem_cons, List.not_mem_nil, or_false] at hop
  rcases hop with rfl | rfl | rfl | rfl | rfl
  · exact ⟨⟨hg, by omega⟩, trivial⟩
  · exact ⟨hm, trivial⟩
  · exact ⟨⟨hg, by rw [List.length_append]; omega⟩, trivial⟩
  · exact ⟨⟨hg, by omega⟩, trivial⟩
  · exact ⟨⟨hg, by omega⟩, trivial⟩

theorem length_prf (k l s : List Bool) (b : Nat) : (HMAC.prf k l s b).length = b := by
  unfold HMAC.prf; rw [List.length_take, length_pHash]; omega

/-- What the calls should return. -/
theorem expected (g : Nat → List Byte) (pms : List Bool) (ms : Integer) (k rc rs tauC tauS) :
    prfExpected pms (opsOf g ms k rc rs tauC tauS)
      = [some (master k pms (bytesBits rc) (bytesBits rs)), none, some (TLS.keyBlock ms.reverse (bytesBits rc) (bytesBits rs)),
         some (TLS.verifyData ms.reverse (TLS.ascii "client finished") (bytesBits tauC)),
         some (TLS.verifyData ms.reverse (TLS.ascii "server finished") (bytesBits tauS))] := by
  rw [← master_eq]
  simp only [opsOf, prfExpected, bytesBits_append]
  rfl

theorem slices_partition {key : Integer} {ks : Keys} (h : Slices key ks) (hl : key.length = 320) :
    TLS.IsPartition ⟨ks.keyC.reverse, ks.keyS.reverse, ks.ivC.reverse, ks.ivS.reverse⟩ key.reverse := by
  obtain ⟨h1, h2, h3, h4⟩ := h
  obtain ⟨x1, ex1, y1⟩ := extract_ok key 0 128 (by omega)
  obtain ⟨x2, ex2, y2⟩ := extract_ok key 128 128 (by omega)
  obtain ⟨x3, ex3, y3⟩ := extract_ok key 256 32 (by omega)
  obtain ⟨x4, ex4, y4⟩ := extract_ok key 288 32 (by omega)
  rw [ex1, Except.ok.injEq] at h1
  rw [ex2, Except.ok.injEq] at h2
  rw [ex3, Except.ok.injEq] at h3
  rw [ex4, Except.ok.injEq] at h4
  subst h1 h2 h3 h4
  simp only [TLS.IsPartition, y1, y2, y3, y4]
  have hlen : key.reverse.length = 320 := by simpa using hl
  refine ⟨?_, ?_, ?_, ?_, ?_⟩
  · generalize key.reverse = kb at hlen
    rw [List.drop_zero]
    conv_lhs => rw [← List.take_append_drop 128 kb, ← List.take_append_drop 128 (kb.drop 128),
      ← List.take_append_drop 32 ((kb.drop 128).drop 128)]
    simp only [List.drop_drop, List.append_assoc]
    congr 3
    exact (List.take_of_length_le (by simp; omega)).symm
  all_goals (simp; omega)

theorem slices_exist (key : Integer) (hl : key.length = 320) : ∃ ks, Slices key ks := by
  obtain ⟨x1, ex1, _⟩ := extract_ok key 0 128 (by omega)
  obtain ⟨x2, ex2, _⟩ := extract_ok key 128 128 (by omega)
  obtain ⟨x3, ex3, _⟩ := extract_ok key 256 32 (by omega)
  obtain ⟨x4, ex4, _⟩ := extract_ok key 288 32 (by omega)
  exact ⟨⟨x1, x2, x3, x4⟩, ex1, ex2, ex3, ex4⟩

theorem addmod_bits {q a b : Nat} (ha : a < q) (hb : b < q) {x y : Integer} (hx : x = ofNat (8 * bnNumBytes q) a)
    (hy : y = ofNat (8 * bnNumBytes q) b) :
    addmod x y q = ofNat (8 * bnNumBytes q) ((a + b) % q) := by
  have lq := lt_pow_bnNumBytes q
  have va : val x = a := by rw [hx, val_ofNat, Nat.mod_eq_of_lt (by omega)]
  have vb : val y = b := by rw [hy, val_ofNat, Nat.mod_eq_of_lt (by omega)]
  obtain ⟨l, v⟩ := C24_addmod q x y (by rw [hx, length_ofNat]) (by rw [hy, length_ofNat]) (by omega) (by omega)
  apply val_inj
  · rw [l, length_ofNat]
  · rw [v, va, vb, val_ofNat, Nat.mod_eq_of_lt (b := 2 ^ _)]
    exact Nat.lt_trans (Nat.mod_lt _ (by omega)) lq

theorem bnBuffer_bits {q n : Nat} (h : n < q) : ∃ buf, bnBuffer (bnNumBytes q) n = .ok buf ∧ ofBytes buf = ofNat (8 * bnNumBytes q) n := by
  obtain ⟨buf, e, l, v⟩ := bnBuffer_spec (bnNumBytes q) n (bnNumBytes_mono (by omega))
  refine ⟨buf, e, val_inj (by rw [l, length_ofNat]) ?_⟩
  rw [v, val_ofNat, Nat.mod_eq_of_lt (Nat.lt_trans h (lt_pow_bnNumBytes q))]

theorem data_iff (u : Integer) (d : List Byte) : Holds (.data u d) ↔ u.reverse = bytesBits d.reverse := by
  have : (ofBytes d).reverse = bytesBits d.reverse := by
    rw [← strToInt_reverse, strToInt, List.reverse_reverse]
  rw [← this, List.reverse_inj]; rfl

/-- Two numbers below the modulus with the same buffer are equal. -/
theorem buffer_inj {q m n : Nat} (hm : m < q) (hn : n < q) {buf} (h1 : bnBuffer (bnNumBytes q) m = .ok buf)
    (h2 : bnBuffer (bnNumBytes q) n = .ok buf) : m = n := by
  obtain ⟨b1, e1, _, v1⟩ := bnBuffer_spec (bnNumBytes q) m (bnNumBytes_mono (by omega))
  obtain ⟨b2, e2, _, v2⟩ := bnBuffer_spec (bnNumBytes q) n (bnNumBytes_mono (by omega))
  rw [h1, Except.ok.injEq] at e1
  rw [h2, Except.ok.injEq] at e2
  rw [← v1, ← v2, ← e1, ← e2]

theorem emod_lt {q : Nat} (hq : 0 < q) (z : Int) : (z % q).toNat < q := by
  have := Int.emod_lt_of_pos z (show (0 : Int) < q by omega)
  have := Int.emod_nonneg z (show (q : Int) ≠ 0 by omega)
  omega

/-- **C42, soundness.**  Whatever was recorded as opened in the handshake and whatever secret ALICE claims: if the derivation of
the proof phase runs through, its checks hold and `handshake_check` accepts, then the master key, the traffic keys and the two
finished values are those of TLS 1.2 for the pre-master secret `(a + b) mod q`, where `a` is the share ALICE committed to in the
handshake and `b` is BOB's share; and the secret ALICE used agrees with it if ALICE used its share `a`. -/
theorem C42_sound (h : HsP) (hr : h.hs.roundsOpt = false) (hst : ProofStart h.hs.prf h.hs.hmac) (hq : bnNumBytes h.hs.q < 2 ^ 59)
    (a : Nat) (ha : a < h.hs.q) (hz : h.hs.zkPms = ofNat (8 * bnNumBytes h.hs.q) a) (hb : h.bnB < h.hs.q)
    (g : Nat → List Byte) (hg : ∀ i, (g i).length = 64) (pms : Nat) (k : MasterSeed) (rc rs tauC tauS : List Byte)
    (hs : Short k rc rs tauC tauS) (ms ks cc cs h') (he : h.proveSchedule g [] pms k rc rs tauC tauS = .ok (ms, ks, cc, cs, h'))
    (hc : handshakeCheck h'.hs.prf h'.hs.hmac = .ok true) (hcc : Holds cc) (hcs : Holds cs) :
    let M := master k (SHA256.beBits (8 * bnNumBytes h.hs.q) ((a + h.bnB) % h.hs.q)) (bytesBits rc) (bytesBits rs)
    ms.reverse = M
      ∧ TLS.IsPartition ⟨ks.keyC.reverse, ks.keyS.reverse, ks.ivC.reverse, ks.ivS.reverse⟩ (TLS.keyBlock M (bytesBits rc) (bytesBits rs))
      ∧ bytesBits (h.hs.clientUfin.take 12).reverse = TLS.verifyData M (TLS.ascii "client finished") (bytesBits tauC)
      ∧ bytesBits (h.hs.serverUfin.take 12).reverse = TLS.verifyData M (TLS.ascii "server finished") (bytesBits tauS)
      ∧ (h.bnA = a → pms % h.hs.q = (a + h.bnB) % h.hs.q) := by
  intro M
  obtain ⟨buf, key, uc, us, p, m, hA, hB, hrun, hsl, l1, l2, rfl, rfl, rfl⟩ := (proveSchedule_iff hr).mp he
  obtain ⟨buf', eb, vb⟩ := bnBuffer_bits hb
  rw [hB, Except.ok.injEq] at eb
  subst eb
  have hkey := addmod_bits hb ha vb hz
  rw [hkey] at hrun
  have hmlen : ms.length < 2 ^ 63 := by
    obtain ⟨-, c2, -, c4⟩ := (handshakeCheck_iff _ _).1 hc
    obtain ⟨o0, p0, m0, os0, s0, hrun0, eq0⟩ := runZk_cons.mp hrun
    obtain ⟨hi, rfl⟩ := stepZk_init.mp s0
    obtain ⟨o1, p1, m1, os1, s1, hrun1, eq1⟩ := runZk_cons.mp hrun0
    have hrepl : ∀ op ∈ [PrfOp.init ms, .optCompute g 320 keyExpansionLabel (rs ++ rc) true true,
        .optCompute g 96 clientFinishedLabel tauC true true, .optCompute g 96 serverFinishedLabel tauS true true], Replayable op := by
      simp [Replayable]
    obtain ⟨x1, x2⟩ := runZk_mono _ _ _ _ _ _ hrepl hrun1
    obtain ⟨mk, ek, hk, lk⟩ := init_step h.hs.hmac hst.pos (ofNat (8 * bnNumBytes h.hs.q) ((h.bnB + a) % h.hs.q))
      (by rw [length_ofNat]; omega)
    obtain ⟨f1, f2, f3, f4⟩ := init_frame ek
    simp only [Prf.init, bind, Except.bind, ek, Except.ok.injEq, Prod.mk.injEq] at hi
    obtain ⟨rfl, rfl⟩ := hi
    have z1 : ZkInv mk (ofNat (8 * bnNumBytes h.hs.q) ((h.bnB + a) % h.hs.q)).reverse false :=
      ⟨hk, by rw [f2, f3, hst.zkIvIn, hst.zpos]; decide, fun _ => f4, by simp⟩
    have hv1 := ops_valid hs g hg [] (by simp)
    obtain ⟨q1, -⟩ := zk_run_sound [.optCompute g 384 (mLabel k) (mSeed k rc rs) true true] { h.hs.prf with calls := 0 } mk _ _ [o1] p1 m1 z1
      (by intro op hop; rw [List.mem_singleton] at hop; subst hop; exact hv1 _ (by simp [opsOf]))
      (by rw [f2, hst.zkIvIn]; simp) (by show h.hs.prf.zkPos = h.hs.prf.zkSecM.length; rw [hst.zkSecM, hst.zkPos]; rfl)
      (runZk_cons.mpr ⟨_, _, _, _, s1, rfl, rfl⟩) (c4.mono x2) (c2.mono x1)
    rw [eq1] at eq0
    simp only [prfExpected, List.cons.injEq, and_true, true_and] at q1 eq0
    have e := eq0.1.trans q1
    rw [Option.some.injEq] at e
    rw [← List.length_reverse, e, length_prf]
    norm_num
  obtain ⟨e1, -, -⟩ := C45_sound _ _ _ _ hst _ (by rw [length_ofNat]; omega) _ (ops_valid hs g hg ms hmlen) (by simp [opsOf]) _ hrun hc
  rw [ofNat_reverse, expected] at e1
  simp only [List.cons.injEq, Option.some.injEq, true_and, and_true] at e1
  obtain ⟨e1, e2, e3, e4⟩ := e1
  have eM : ms.reverse = M := by rw [e1, Nat.add_comm h.bnB a]
  rw [eM] at e2 e3 e4
  refine ⟨eM, ?_, ?_, ?_, ?_⟩
  · rw [← e2]
    refine slices_partition hsl ?_
    rw [← List.length_reverse, e2, TLS.keyBlock, length_prf]
  · rw [← e3]; exact ((data_iff _ _).mp hcc).symm
  · rw [← e4]; exact ((data_iff _ _).mp hcs).symm
  · rintro rfl
    have := buffer_inj (emod_lt (by omega) _) hb hA hB
    have hz : ((pms : Int) - h.bnA) % h.hs.q = h.bnB := by
      have := Int.emod_nonneg ((pms : Int) - h.bnA) (show (h.hs.q : Int) ≠ 0 by omega)
      omega
    have h2 : (pms : Int) % h.hs.q = ((h.bnA : Int) + h.bnB) % h.hs.q := by
      rw [← hz, Int.add_emod_emod]; congr 1; omega
    exact_mod_cast h2

/-- The online phase is the corresponding run of the PRF. -/
theorem schedule_of_run {q u v g a b k rc rs tauC tauS} {bufA bufB : List Byte} {ms key uc us : Integer} {ks : Keys} {p m}
    (hA : bnBuffer (bnNumBytes q) a = .ok bufA) (hB : bnBuffer (bnNumBytes q) b = .ok bufB)
    (hrun : Prf.run Prf.new Hmac.new (.init (addmod (ofBytes bufA) (ofBytes bufB) q) :: opsOf g ms k rc rs tauC tauS)
      = .ok ([none, some ms.reverse, none, some key.reverse, some uc.reverse, some us.reverse], p, m)) (hsl : Slices key ks) :
    (Hs.new q false u v).schedule g a b k rc rs tauC tauS = .ok { Hs.new q false u v with
      prf := p, hmac := m, zkPms := ofBytes bufA, masterKey := ms, clientWriteKey := ks.keyC, serverWriteKey := ks.keyS,
      clientWriteIv := ks.ivC, serverWriteIv := ks.ivS, clientUfin := toBytes uc, serverUfin := toBytes us } := by
  have e1 : masterKeyLength * 8 = 384 := rfl
  have e1' : extendedMasterKeyLength * 8 = 384 := rfl
  have e2 : expansionKeyLength * 8 = 320 := rfl
  have e3 : finishedMsgLength * 8 = 96 := rfl
  have e4 : keyLength * 8 = 128 := rfl
  have e5 : ivLength * 8 = 32 := rfl
  obtain ⟨o0, p0, m0, os0, s0, hrun0, eq0⟩ := run_cons.mp hrun
  obtain ⟨hi, rfl⟩ := step_init.mp s0
  obtain ⟨o1, p1, m1, os1, s1, hrun1, eq1⟩ := run_cons.mp hrun0
  obtain ⟨r1, hc, rfl⟩ := step_opt.mp s1
  obtain ⟨o2, p2, m2, os2, s2, hrun2, eq2⟩ := run_cons.mp hrun1
  obtain ⟨hi2, rfl⟩ := step_init.mp s2
  obtain ⟨o3, p3, m3, os3, s3, hrun3, eq3⟩ := run_cons.mp hrun2
  obtain ⟨r3, hc3, rfl⟩ := step_opt.mp s3
  obtain ⟨o4, p4, m4, os4, s4, hrun4, eq4⟩ := run_cons.mp hrun3
  obtain ⟨r4, hc4, rfl⟩ := step_opt.mp s4
  obtain ⟨o5, p5, m5, os5, s5, hrun5, eq5⟩ := run_cons.mp hrun4
  obtain ⟨r5, hc5, rfl⟩ := step_opt.mp s5
  simp only [Prf.run, Except.ok.injEq, Prod.mk.injEq] at hrun5
  obtain ⟨rfl, rfl, rfl⟩ := hrun5
  subst eq5 eq4 eq3 eq2 eq1
  simp only [List.cons.injEq, Option.some.injEq, List.reverse_inj, true_and, and_true] at eq0
  obtain ⟨rfl, rfl, rfl, rfl⟩ := eq0
  obtain ⟨hx1, hx2, hx3, hx4⟩ := hsl
  refine bind_ok.mpr ⟨{ Hs.new q false u v with prf := p1, hmac := m1, zkPms := ofBytes bufA, masterKey := ms }, ?_, ?_⟩
  · have hk : (Hs.new q false u v).keyFromShares a b = .ok { Hs.new q false u v with zkPms := ofBytes bufA, prf := p0, hmac := m0 } := by
      have : (Hs.new q false u v).q = q := rfl
      simp only [Hs.keyFromShares, this, hA, hB, bind, Except.bind]
      rw [show (Hs.new q false u v).prf = Prf.new from rfl, show (Hs.new q false u v).hmac = Hmac.new from rfl, hi]
    cases k with
    | plain =>
      refine bind_ok.mpr ⟨_, hk, bind_ok.mpr ⟨(ms, _), (call (by rfl)).mpr ⟨p1, m1, hc, rfl⟩, rfl⟩⟩
    | extended hash =>
      refine bind_ok.mpr ⟨_, hk, bind_ok.mpr ⟨(ms, _), (call (by rfl)).mpr ⟨p1, m1, hc, rfl⟩, rfl⟩⟩
  refine bind_ok.mpr ⟨{ Hs.new q false u v with
      zkPms := ofBytes bufA, masterKey := ms, clientWriteKey := ks.keyC, serverWriteKey := ks.keyS, clientWriteIv := ks.ivC,
      serverWriteIv := ks.ivS, prf := p3, hmac := m3 }, ?_, ?_⟩
  · refine bind_ok.mpr ⟨(p2, m2), hi2, bind_ok.mpr ⟨(key, _), (call (by rfl)).mpr ⟨p3, m3, hc3, rfl⟩, ?_⟩⟩
    exact bind_ok.mpr ⟨_, hx1, bind_ok.mpr ⟨_, hx2, bind_ok.mpr ⟨_, hx3, bind_ok.mpr ⟨_, hx4, rfl⟩⟩⟩⟩
  refine bind_ok.mpr ⟨{ Hs.new q false u v with
      zkPms := ofBytes bufA, masterKey := ms, clientWriteKey := ks.keyC, serverWriteKey := ks.keyS, clientWriteIv := ks.ivC,
      serverWriteIv := ks.ivS, prf := p4, hmac := m4, clientUfin := toBytes uc }, ?_, ?_⟩
  · exact bind_ok.mpr ⟨(uc, _), (call (by rfl)).mpr ⟨p4, m4, hc4, rfl⟩, rfl⟩
  · exact bind_ok.mpr ⟨(us, _), (call (by rfl)).mpr ⟨p5, m5, hc5, rfl⟩, rfl⟩

/-- Every opened inner state has been recomputed. -/
structure Spent (m : Hmac) : Prop where
  len : m.sha.zkIvIn.length = m.sha.ivIn.length
  bound : m.sha.ivIn.length < 2 ^ 32
  pos : m.sha.pos = BitVec.ofNat 64 m.sha.ivIn.length - 1
  zpos : m.sha.zpos = BitVec.ofNat 64 m.sha.zkIvIn.length - 1

/-- **C42, completeness.**  After every honest handshake the derivation of the proof phase, given the revealed secret
`(a + b) mod q`, succeeds, returns the same master key and the same traffic keys as the handshake, its checks hold and
`handshake_check` accepts.  Missing from the full claim: repeated calls, see `C42_repeat_fails`. -/
theorem C42_complete_partial (q : Nat) (u v : List Byte) (hq : bnNumBytes q < 2 ^ 59) (g : Nat → List Byte) (hg : ∀ i, (g i).length = 64)
    (a b : Nat) (ha : a < q) (hb : b < q) (k : MasterSeed) (rc rs tauC tauS : List Byte) (hs : Short k rc rs tauC tauS) :
    ∃ h ms ks cc cs h', (Hs.new q false u v).schedule g a b k rc rs tauC tauS = .ok h
      ∧ HsP.proveSchedule ⟨h, a, b⟩ g [] ((a + b) % q) k rc rs tauC tauS = .ok (ms, ks, cc, cs, h')
      ∧ ms = h.masterKey ∧ ks = ⟨h.clientWriteKey, h.serverWriteKey, h.clientWriteIv, h.serverWriteIv⟩
      ∧ Holds cc ∧ Holds cs ∧ handshakeCheck h'.hs.prf h'.hs.hmac = .ok true
      ∧ ProofStart h.prf h.hmac ∧ h.zkPms = ofNat (8 * bnNumBytes q) a ∧ h.q = q ∧ h.roundsOpt = false
      ∧ Spent h'.hs.hmac ∧ h'.hs.q = q ∧ h'.hs.roundsOpt = false ∧ h'.bnA = b ∧ h'.bnB = b := by
  obtain ⟨bufA, eA, vA⟩ := bnBuffer_bits ha
  obtain ⟨bufB, eB, vB⟩ := bnBuffer_bits hb
  have k1 := addmod_bits ha hb vA vB
  have k2 := addmod_bits hb ha vB vA
  rw [Nat.add_comm b a] at k2
  generalize hK : ofNat (8 * bnNumBytes q) ((a + b) % q) = K at k1 k2
  have hKl : K.length < 2 ^ 63 := by rw [← hK, length_ofNat]; omega
  obtain ⟨M, hM⟩ : ∃ M, M = master k K.reverse (bytesBits rc) (bytesBits rs) := ⟨_, rfl⟩
  have hMl : M.length = 384 := by rw [hM, ← master_eq, length_prf]
  have hv := ops_valid hs g hg M.reverse (by rw [List.length_reverse, hMl]; norm_num)
  have hcost : ((opsOf g M.reverse k rc rs tauC tauS).map PrfOp.cost).sum + (opsOf g M.reverse k rc rs tauC tauS).length + 1 < 2 ^ 64 := by
    simp [opsOf, PrfOp.cost]
  obtain ⟨os, p1, m1, p2, m2, r1, st, r2, hc, -, t1, -, t2, t3, t4, t5⟩ := C45_complete K hKl _ hv hcost
  have hspent : Spent m2 := ⟨by rw [t1, t3], by rw [t3, t2]; simp [opsOf, openedIv], t4, t5⟩
  have hsub : (((((a + b) % q : Nat) : Int) - a) % q).toNat = b := by
    have : ((((a + b) % q : Nat) : Int) - a) % q = b := by
      push_cast
      rw [Int.emod_sub_emod]
      rw [show (a : Int) + b - a = b by omega]
      exact Int.emod_eq_of_lt (by omega) (by omega)
    omega
  obtain ⟨e1, -, -⟩ := C45_sound _ _ _ _ st _ hKl _ hv (by simp [opsOf]) _ r2 hc
  rw [expected, List.reverse_reverse, ← hM] at e1
  generalize hKB : TLS.keyBlock M (bytesBits rc) (bytesBits rs) = KB at e1
  generalize hC : TLS.verifyData M (TLS.ascii "client finished") (bytesBits tauC) = C at e1
  generalize hS : TLS.verifyData M (TLS.ascii "server finished") (bytesBits tauS) = S at e1
  have lKB : KB.reverse.length = 320 := by rw [List.length_reverse, ← hKB, TLS.keyBlock, length_prf]
  have lC : C.reverse.length = 96 := by rw [List.length_reverse, ← hC, TLS.verifyData, length_prf]
  have lS : S.reverse.length = 96 := by rw [List.length_reverse, ← hS, TLS.verifyData, length_prf]
  obtain ⟨ks, hks⟩ := slices_exist KB.reverse lKB
  have hos : os = [none, some M.reverse.reverse, none, some KB.reverse.reverse, some C.reverse.reverse, some S.reverse.reverse] := by
    simp only [List.reverse_reverse]; exact e1
  rw [hos] at r1 r2
  have hon := schedule_of_run (u := u) (v := v) (a := a) (b := b) eA eB (by rw [k1]; exact r1) hks
  have htak : ∀ x : Integer, x.length = 96 → Holds (.data x ((toBytes x).take 12)) := by
    intro x hx
    have hb := toBytes_reverse_bits x (by rw [hx])
    have hl : (toBytes x).length = 12 := by
      have := congrArg List.length hb
      rw [length_bytesBits, List.length_reverse, List.length_reverse, hx] at this
      omega
    rw [List.take_of_length_le (by omega), data_iff, hb]
  refine ⟨_, M.reverse, ks, .data C.reverse ((toBytes C.reverse).take 12), .data S.reverse ((toBytes S.reverse).take 12), _, hon,
    (proveSchedule_iff (by rfl)).mpr ⟨bufB, KB.reverse, C.reverse, S.reverse, p2, m2, ?_, eB, ?_, hks, lC, lS, rfl, rfl, rfl⟩,
    rfl, rfl, htak _ lC, htak _ lS, hc, st, vA, rfl, rfl, hspent, rfl, rfl, hsub, rfl⟩
  · show bnBuffer (bnNumBytes q) (((((a + b) % q : Nat) : Int) - a) % q).toNat = _
    rw [hsub]; exact eB
  · show Prf.runZk p1 m1 (.init (addmod (ofBytes bufB) (ofBytes bufA) q) :: _) = _
    rw [k2]; exact r2

/-- **C42, repeated calls.**  Once everything opened has been recomputed, one more `prove_expansion_keys` (without the round
optimisation) reads `iv_in_hashes` out of range. -/
theorem C42_expansion_repeat_ub (h : HsP) (hr : h.hs.roundsOpt = false) (hsp : Spent h.hs.hmac) (g : Nat → List Byte) (ms : Integer)
    (hm : ms.length < 2 ^ 63) (rc rs : List Byte) :
    h.proveExpansionKeys g ms rc rs = .error (.ub "opt_update: iv_in_hashes[zpos] out of range") := by
  obtain ⟨m1, e1, h1, l1⟩ := init_step h.hs.hmac hsp.pos ms hm
  obtain ⟨f1, f2, f3, f4⟩ := init_frame e1
  have z1 : ZkInv m1 ms.reverse false := ⟨h1, by rw [f2, f3]; exact hsp.zpos, fun _ => f4, by simp⟩
  have hb := hsp.bound
  obtain ⟨s1, x1, x2, x3⟩ := optFirst_zk z1 (by rw [f2, hsp.len]; omega)
  have hnone : m1.sha.ivIn[(zkNext m1 ms.reverse false).length - 1]? = none := by
    rw [List.getElem?_eq_none_iff, zkNext]
    simp only [Bool.false_eq_true, if_false, List.length_append, List.length_cons, List.length_nil, Nat.zero_add, Nat.add_sub_cancel]
    rw [f1, f2, hsp.len]
  rw [hnone] at x3
  have hH : ∀ gg msg, m1.optHmac gg msg true true true = .error (.ub "opt_update: iv_in_hashes[zpos] out of range") := by
    intro gg msg
    unfold Hmac.optHmac Sha.optDigest Sha.optUpdate
    rw [x3]; rfl
  have e2 : expansionKeyLength * 8 = 320 := rfl
  have hblk : prfBlocks 320 = 1 + 1 := rfl
  have hp : ∀ p : Prf, p.optCompute m1 g [] 320 keyExpansionLabel (rs ++ rc) true true true
      = .error (.ub "opt_update: iv_in_hashes[zpos] out of range") := by
    intro p
    unfold Prf.optCompute Prf.optPhash
    rw [hblk, optPhashLoop, hH]; rfl
  simp only [HsP.proveExpansionKeys, Prf.init, e1, bind, Except.bind, Hs.prfCallZk, hr, e2, Bool.not_false, if_true, hp]

/-- **C42, repeated calls.**  `prove_master_key` replaces ALICE's share by BOB's: a second call with the same secret makes the two
parties use different public inputs, unless the shares are equal. -/
theorem C42_master_repeat_refused (h h1 : HsP) (ha : h.bnA < h.hs.q) (hb : h.bnB < h.hs.q) (pms : Nat)
    (h1e : h.proveKey pms = .ok h1) (hne : h.bnA ≠ h.bnB) :
    h1.bnA = h1.bnB ∧ h1.proveKey pms = .error (.error "public inputs of the parties differ") := by
  have hq : 0 < h.hs.q := by omega
  simp only [HsP.proveKey, bind_ok] at h1e
  obtain ⟨bA, hA, bB, hB, h3⟩ := h1e
  split at h3
  · simp at h3
  rename_i hbb
  simp only [ne_eq, not_not] at hbb
  subst hbb
  simp only [bind_ok, Prod.exists, Except.ok.injEq] at h3
  obtain ⟨p0, m0, h3, rfl⟩ := h3
  have e := buffer_inj (emod_lt hq _) hb hA hB
  refine ⟨e, ?_⟩
  have hne2 : (((pms : Int) - h.bnB) % h.hs.q).toNat ≠ h.bnB := by
    intro e2
    apply hne
    have n1 := Int.emod_nonneg ((pms : Int) - h.bnA) (show (h.hs.q : Int) ≠ 0 by omega)
    have n2 := Int.emod_nonneg ((pms : Int) - h.bnB) (show (h.hs.q : Int) ≠ 0 by omega)
    have e3 : ((pms : Int) - h.bnA) % h.hs.q = ((pms : Int) - h.bnB) % h.hs.q := by omega
    have e5 : ((h.bnA : Int)) % h.hs.q = (h.bnB : Int) % h.hs.q := by
      have h5 : (pms - (pms - (h.bnA : Int))) % h.hs.q = (pms - (pms - (h.bnB : Int))) % h.hs.q := by
        rw [Int.sub_emod, e3, ← Int.sub_emod]
      simpa using h5
    rw [Int.emod_eq_of_lt (by omega) (by omega), Int.emod_eq_of_lt (by omega) (by omega)] at e5
    omega
  obtain ⟨b2, hb2, -⟩ := bnBuffer_bits (emod_lt hq ((pms : Int) - h.bnB))
  have hdiff : b2 ≠ bA := by
    rintro rfl
    exact hne2 (buffer_inj (emod_lt hq _) hb hb2 hB)
  show ((bnBuffer (bnNumBytes h.hs.q) (((pms : Int) - ((((pms : Int) - h.bnA) % h.hs.q).toNat : Nat)) % h.hs.q).toNat) >>= _) = _
  rw [e, hb2]
  show (bnBuffer (bnNumBytes h.hs.q) h.bnB >>= _) = _
  rw [hB]
  show (if b2 ≠ bA then _ else _) = _
  rw [if_pos hdiff]

/-- **C42 fails for repeated calls.**  After an honest handshake and an honest proof phase without the round optimisation, deriving
the traffic keys again is undefined, and proving the master key again is refused unless the two shares are equal. -/
theorem C42_repeat_fails (q : Nat) (u v : List Byte) (hq : bnNumBytes q < 2 ^ 59) (g : Nat → List Byte) (hg : ∀ i, (g i).length = 64)
    (a b : Nat) (ha : a < q) (hb : b < q) (k : MasterSeed) (rc rs tauC tauS : List Byte) (hs : Short k rc rs tauC tauS) :
    ∃ h ms ks cc cs h', (Hs.new q false u v).schedule g a b k rc rs tauC tauS = .ok h
      ∧ HsP.proveSchedule ⟨h, a, b⟩ g [] ((a + b) % q) k rc rs tauC tauS = .ok (ms, ks, cc, cs, h')
      ∧ handshakeCheck h'.hs.prf h'.hs.hmac = .ok true
      ∧ h'.proveExpansionKeys g ms rc rs = .error (.ub "opt_update: iv_in_hashes[zpos] out of range")
      ∧ (a ≠ b → h'.proveKey ((a + b) % q) = .error (.error "public inputs of the parties differ")) := by
  obtain ⟨h, ms, ks, cc, cs, h', e1, e2, r1, r2, r3, r4, r5, r6, r7, r8, r9, r10, r11, r12, r13, r14⟩ :=
    C42_complete_partial q u v hq g hg a b ha hb k rc rs tauC tauS hs
  have hml : ms.length < 2 ^ 63 := by
    obtain ⟨x, -⟩ := C42_sound ⟨h, a, b⟩ r9 r6 (by show bnNumBytes h.q < _; rw [r8]; exact hq) a (by show a < h.q; rw [r8]; exact ha)
      (by show h.zkPms = ofNat (8 * bnNumBytes h.q) a; rw [r8]; exact r7) (by show b < h.q; rw [r8]; exact hb) g hg _ k rc rs tauC tauS hs
      ms ks cc cs h' e2 r5 r3 r4
    rw [← List.length_reverse, x, ← master_eq, length_prf]; norm_num
  refine ⟨h, ms, ks, cc, cs, h', e1, e2, r5, C42_expansion_repeat_ub h' r12 r10 g ms hml rc rs, fun hne => ?_⟩
  -- the share of ALICE is now that of BOB
  obtain ⟨bb, eb, -⟩ := bnBuffer_bits hb
  have hlt := emod_lt (q := q) (by omega) ((((a + b) % q : Nat) : Int) - b)
  obtain ⟨ba, ea, -⟩ := bnBuffer_bits hlt
  have hdiff : ba ≠ bb := by
    rintro rfl
    have e := buffer_inj hlt hb ea eb
    apply hne
    have n1 := Int.emod_nonneg ((((a + b) % q : Nat) : Int) - b) (show (q : Int) ≠ 0 by omega)
    have e3 : ((((a + b) % q : Nat) : Int) - b) % q = b := by omega
    push_cast at e3
    rw [Int.emod_sub_emod, show (a : Int) + b - b = a by omega, Int.emod_eq_of_lt (by omega) (by omega)] at e3
    omega
  simp only [HsP.proveKey]
  rw [r11, r13, r14, ea, eb]
  show (if ba ≠ bb then _ else _) = _
  rw [if_pos hdiff]

/-! ### With the round optimisation -/

theorem callZk_rounds {h : Hs} (hr : h.roundsOpt = true) (g res b l s) : h.prfCallZk g res b l s = h.prfCall g res b l s := by
  simp only [Hs.prfCallZk, Hs.prfCall, hr, Bool.not_true, Bool.false_eq_true, if_false]

/-- The position counter is in step with the opened states. -/
structure Ready (h : Hs) : Prop where
  pos : h.hmac.sha.pos = BitVec.ofNat 64 h.hmac.sha.ivIn.length - 1
  size : h.hmac.sha.ivIn.length ≤ 2 ^ 63

theorem keyed_ready {h : Hs} {key} (hk : Keyed h key) (hs : h.hmac.sha.ivIn.length ≤ 2 ^ 63) : Ready h := by
  obtain ⟨_, i, _⟩ := hk
  obtain ⟨_, i', _⟩ := i.sha
  exact ⟨i'.pos, hs⟩

/-- The opened states and the opened and recomputed `M` values of two objects are the same. -/
structure SameOpened (h h' : Hs) : Prop where
  iv : h'.hmac.sha.ivIn = h.hmac.sha.ivIn
  pub : h'.prf.pubM = h.prf.pubM
  sec : h'.prf.zkSecM = h.prf.zkSecM

theorem roundsPhashLoop_frame (seed : Integer) (ri ro : Bool) (n : Nat) : ∀ {p m a res r p' m'},
    roundsPhashLoop seed ri ro n p m a res = .ok (r, p', m') → p'.pubM = p.pubM ∧ p'.zkSecM = p.zkSecM := by
  induction n with
  | zero =>
    intro p m a res r p' m' h
    simp only [roundsPhashLoop, Except.ok.injEq, Prod.mk.injEq] at h
    obtain ⟨-, rfl, -⟩ := h
    exact ⟨rfl, rfl⟩
  | succ n ih =>
    intro p m a res r p' m' h
    obtain ⟨⟨t1, m1⟩, -, h⟩ := bind_ok.mp h
    obtain ⟨⟨t2, m2⟩, -, h⟩ := bind_ok.mp h
    have := ih (p := { p with calls := p.calls + 2 }) h
    exact this

theorem roundsCompute_frame {p : Prf} {m res b l s ri ro r p' m'} (h : p.optRoundsCompute m res b l s ri ro = .ok (r, p', m')) :
    p'.pubM = p.pubM ∧ p'.zkSecM = p.zkSecM := by
  obtain ⟨⟨r1, p1, m1⟩, h1, h⟩ := bind_ok.mp h
  simp only [Except.ok.injEq, Prod.mk.injEq] at h
  obtain ⟨-, rfl, -⟩ := h
  exact roundsPhashLoop_frame _ _ _ _ h1

/-- With the round optimisation nothing is opened by a call. -/
theorem prfCall_rounds {h : Hs} {key} (hr : h.roundsOpt = true) (hk : Keyed h key) (g : Nat → List Byte)
    (res : Integer) (b : Nat) (l s : List Byte) (hs : l.length + s.length < 2 ^ 58) :
    ∃ r h', h.prfCallZk g res b l s = .ok (r, h') ∧ Keyed h' key
      ∧ r.reverse = res.reverse ++ HMAC.prf key (bytesBits l) (bytesBits s) b
      ∧ h' = { h with prf := h'.prf, hmac := h'.hmac } ∧ SameOpened h h' := by
  obtain ⟨inn, inv, hi⟩ := hk
  rw [hr] at hi
  obtain ⟨r, p', m', e, h1, l1, r1⟩ := roundsCompute_step inv h.prf res l s b true true hs
    (by intro _; rcases hi with rfl | rfl <;> simp)
  refine ⟨r, { h with prf := p', hmac := m' }, ?_, ⟨some true, h1, Or.inr (by rw [← hr])⟩, r1, rfl, l1, (roundsCompute_frame e).1, (roundsCompute_frame e).2⟩
  simp only [Hs.prfCallZk, hr, Bool.not_true, Bool.false_eq_true, if_false, bind, Except.bind, e]

/-- **C42, traffic keys with the round optimisation.**  Every call of `prove_expansion_keys`, in every state, for every master key:
the keys are the TLS key block of that master key. -/
theorem C42_rounds_expansion (h : HsP) (hr : h.hs.roundsOpt = true) (hrd : Ready h.hs) (g : Nat → List Byte) (ms : Integer)
    (hm : ms.length < 2 ^ 63) (rc rs : List Byte) (hl : rc.length + rs.length < 2 ^ 57) :
    ∃ ks h', h.proveExpansionKeys g ms rc rs = .ok (ks, h')
      ∧ TLS.IsPartition ⟨ks.keyC.reverse, ks.keyS.reverse, ks.ivC.reverse, ks.ivS.reverse⟩
          (TLS.keyBlock ms.reverse (bytesBits rc) (bytesBits rs))
      ∧ h' = { h with hs := { h.hs with prf := h'.hs.prf, hmac := h'.hs.hmac } } ∧ Keyed h'.hs ms.reverse
      ∧ SameOpened h.hs h'.hs := by
  obtain ⟨m1, e1, i1, l1⟩ := init_step h.hs.hmac hrd.pos ms hm
  obtain ⟨key, h2, e2, k2, r2, f2, l2⟩ := prfCall_rounds (h := { h.hs with prf := { h.hs.prf with calls := 0 }, hmac := m1 }) hr
    ⟨none, i1, Or.inl rfl⟩ g [] 320 keyExpansionLabel (rs ++ rc)
    (by rw [List.length_append]; have : keyExpansionLabel.length = 13 := rfl; omega)
  have hkb : key.reverse = TLS.keyBlock ms.reverse (bytesBits rc) (bytesBits rs) := by
    rw [r2, bytesBits_append]; rfl
  have hlen : key.length = 320 := by rw [← List.length_reverse, hkb, TLS.keyBlock, length_prf]
  obtain ⟨ks, hks⟩ := slices_exist key hlen
  refine ⟨ks, { h with hs := h2 }, ?_, by rw [← hkb]; exact slices_partition hks hlen, ?_, k2, l2.iv.trans l1, l2.pub, l2.sec⟩
  · obtain ⟨hx1, hx2, hx3, hx4⟩ := hks
    refine bind_ok.mpr ⟨({ h.hs.prf with calls := 0 }, m1), by simp only [Prf.init, bind, Except.bind, e1], bind_ok.mpr ⟨(key, h2), e2, ?_⟩⟩
    exact bind_ok.mpr ⟨_, hx1, bind_ok.mpr ⟨_, hx2, bind_ok.mpr ⟨_, hx3, bind_ok.mpr ⟨_, hx4, rfl⟩⟩⟩⟩
  · show ({ h with hs := h2 } : HsP) = _
    rw [f2]

/-- `n` further calls of `prove_expansion_keys`. -/
def repeatKeys (g : Nat → List Byte) (ms : Integer) (rc rs : List Byte) : Nat → HsP → Res (List Keys × HsP)
  | 0, h => .ok ([], h)
  | n + 1, h => do
    let (ks, h) ← h.proveExpansionKeys g ms rc rs
    let (l, h) ← repeatKeys g ms rc rs n h
    .ok (ks :: l, h)

/-- **C42, repeated calls with the round optimisation.**  Any number of calls returns the same keys each time. -/
theorem C42_rounds_expansion_repeat (g : Nat → List Byte) (ms : Integer) (hm : ms.length < 2 ^ 63) (rc rs : List Byte)
    (hl : rc.length + rs.length < 2 ^ 57) (n : Nat) : ∀ (h : HsP), h.hs.roundsOpt = true → Ready h.hs →
    ∃ l h', repeatKeys g ms rc rs n h = .ok (l, h') ∧ l.length = n
      ∧ ∀ ks ∈ l, TLS.IsPartition ⟨ks.keyC.reverse, ks.keyS.reverse, ks.ivC.reverse, ks.ivS.reverse⟩
          (TLS.keyBlock ms.reverse (bytesBits rc) (bytesBits rs)) := by
  induction n with
  | zero => intro h _ _; exact ⟨[], h, rfl, rfl, by simp⟩
  | succ n ih =>
    intro h hr hrd
    obtain ⟨ks, h1, e1, p1, f1, k1, l1⟩ := C42_rounds_expansion h hr hrd g ms hm rc rs hl
    obtain ⟨l, h2, e2, p2, q2⟩ := ih h1 (by rw [f1]; exact hr) (keyed_ready k1 (by rw [l1.iv]; exact hrd.size))
    refine ⟨ks :: l, h2, by simp only [repeatKeys, bind, Except.bind, e1, e2], by simp [p2], ?_⟩
    intro x hx
    rcases List.mem_cons.mp hx with rfl | hx
    · exact p1
    · exact q2 x hx

/-- **C42, the whole derivation with the round optimisation.**  In every state whose secrets are consistent (ALICE's difference is
BOB's share): the derivation succeeds, the keys are those of TLS 1.2 for `(a + b) mod q`, and the two checks hold exactly if the
finished values recorded in the handshake are those of TLS 1.2. -/
theorem C42_rounds (h : HsP) (hr : h.hs.roundsOpt = true) (hrd : Ready h.hs) (hq : bnNumBytes h.hs.q < 2 ^ 59)
    (a : Nat) (ha : a < h.hs.q) (hz : h.hs.zkPms = ofNat (8 * bnNumBytes h.hs.q) a) (hb : h.bnB < h.hs.q)
    (g : Nat → List Byte) (pms : Nat) (hp : (((pms : Int) - h.bnA) % h.hs.q).toNat = h.bnB)
    (k : MasterSeed) (rc rs tauC tauS : List Byte) (hs : Short k rc rs tauC tauS) :
    let M := master k (SHA256.beBits (8 * bnNumBytes h.hs.q) ((a + h.bnB) % h.hs.q)) (bytesBits rc) (bytesBits rs)
    ∃ ms ks cc cs h', h.proveSchedule g [] pms k rc rs tauC tauS = .ok (ms, ks, cc, cs, h')
      ∧ ms.reverse = M
      ∧ TLS.IsPartition ⟨ks.keyC.reverse, ks.keyS.reverse, ks.ivC.reverse, ks.ivS.reverse⟩ (TLS.keyBlock M (bytesBits rc) (bytesBits rs))
      ∧ (Holds cc ↔ bytesBits (h.hs.clientUfin.take 12).reverse = TLS.verifyData M (TLS.ascii "client finished") (bytesBits tauC))
      ∧ (Holds cs ↔ bytesBits (h.hs.serverUfin.take 12).reverse = TLS.verifyData M (TLS.ascii "server finished") (bytesBits tauS))
      ∧ Ready h'.hs ∧ h'.bnA = h.bnB ∧ SameOpened h.hs h'.hs := by
  intro M
  obtain ⟨buf, eb, vb⟩ := bnBuffer_bits hb
  have hkey := addmod_bits hb ha vb hz
  rw [Nat.add_comm h.bnB a] at hkey
  have l2 : clientFinishedLabel.length = 15 := rfl
  have l3 : serverFinishedLabel.length = 15 := rfl
  have hl1 := len_mLabel k
  have hl2 := len_mSeed hs
  have hl4 := hs.tauC
  have hl5 := hs.tauS
  obtain ⟨m1, e1, i1, y1⟩ := init_step h.hs.hmac hrd.pos (addmod (ofBytes buf) h.hs.zkPms h.hs.q)
    (by rw [hkey, length_ofNat]; omega)
  rw [hkey, ofNat_reverse] at i1
  obtain ⟨ms, h2, e2, k2, r2, f2, y2⟩ := prfCall_rounds (h := { h.hs with prf := { h.hs.prf with calls := 0 }, hmac := m1 }) hr
    ⟨none, i1, Or.inl rfl⟩ g [] 384 (mLabel k) (mSeed k rc rs) (by omega)
  rw [List.reverse_nil, List.nil_append, master_eq] at r2
  have hml : ms.length = 384 := by rw [← List.length_reverse, r2, ← master_eq, length_prf]
  have hr2 : h2.roundsOpt = true := by rw [f2]; exact hr
  have hiv2 : h2.hmac.sha.ivIn = h.hs.hmac.sha.ivIn := y2.iv.trans y1
  obtain ⟨ks, h3, e3, p3, f3, k3, y3⟩ := C42_rounds_expansion ⟨h2, h.bnB, h.bnB⟩ hr2 (keyed_ready k2 (by rw [hiv2]; exact hrd.size)) g ms
    (by rw [hml]; norm_num) rc rs hs.rand
  have hr3 : h3.hs.roundsOpt = true := by rw [f3]; exact hr2
  obtain ⟨uc, h4, e4, k4, r4, f4, y4⟩ := prfCall_rounds hr3 k3 g [] 96 clientFinishedLabel tauC (by omega)
  have hr4 : h4.roundsOpt = true := by rw [f4]; exact hr3
  obtain ⟨us, h5, e5, k5, r5, f5, y5⟩ := prfCall_rounds hr4 k4 g [] 96 serverFinishedLabel tauS (by omega)
  rw [r2] at r4 r5 p3
  have hcl : h4.clientUfin = h.hs.clientUfin := by rw [f4, f3]; show h2.clientUfin = _; rw [f2]
  have hsl : h5.serverUfin = h.hs.serverUfin := by rw [f5, f4, f3]; show h2.serverUfin = _; rw [f2]
  have lc : uc.length = 96 := by rw [← List.length_reverse, r4, List.reverse_nil, List.nil_append, length_prf]
  have ls : us.length = 96 := by rw [← List.length_reverse, r5, List.reverse_nil, List.nil_append, length_prf]
  have hb3 : h3.bnA = h.bnB := by rw [f3]
  refine ⟨ms, ks, .data uc (h4.clientUfin.take 12), .data us (h5.serverUfin.take 12), { h3 with hs := h5 }, ?_, r2, p3, ?_, ?_, ?_, hb3,
    y5.iv.trans (y4.iv.trans (y3.iv.trans hiv2)), y5.pub.trans (y4.pub.trans (y3.pub.trans y2.pub)), y5.sec.trans (y4.sec.trans (y3.sec.trans y2.sec))⟩
  · refine bind_ok.mpr ⟨(ms, ⟨h2, h.bnB, h.bnB⟩), ?_, bind_ok.mpr ⟨(ks, h3), e3,
      bind_ok.mpr ⟨(.data uc (h4.clientUfin.take 12), { h3 with hs := h4 }), ?_,
        bind_ok.mpr ⟨(.data us (h5.serverUfin.take 12), { h3 with hs := h5 }), ?_, rfl⟩⟩⟩⟩
    · have hk : h.proveKey pms = .ok ⟨{ h.hs with prf := { h.hs.prf with calls := 0 }, hmac := m1 }, h.bnB, h.bnB⟩ := by
        simp only [HsP.proveKey, hp, eb, bind, Except.bind, ne_eq, not_true_eq_false, if_false, Prf.init, e1]
      cases k with
      | plain => exact bind_ok.mpr ⟨_, hk, bind_ok.mpr ⟨(ms, h2), e2, rfl⟩⟩
      | extended hash => exact bind_ok.mpr ⟨_, hk, bind_ok.mpr ⟨(ms, h2), e2, rfl⟩⟩
    · exact bind_ok.mpr ⟨(uc, h4), e4, bind_ok.mpr ⟨_, checkData_ok.mpr ⟨lc, rfl⟩, rfl⟩⟩
    · exact bind_ok.mpr ⟨(us, h5), e5, bind_ok.mpr ⟨_, checkData_ok.mpr ⟨ls, rfl⟩, rfl⟩⟩
  · rw [data_iff, hcl, r4, List.reverse_nil, List.nil_append]; exact eq_comm
  · rw [data_iff, hsl, r5, List.reverse_nil, List.nil_append]; exact eq_comm
  · refine keyed_ready k5 ?_
    rw [y5.iv, y4.iv, y3.iv]
    show h2.hmac.sha.ivIn.length ≤ _
    rw [hiv2]; exact hrd.size

/-- Nothing has been opened. -/
structure Unopened (h : Hs) : Prop where
  iv : h.hmac.sha.ivIn = []
  pub : h.prf.pubM = []
  sec : h.prf.zkSecM = []

theorem Unopened.same {h h' : Hs} (u : Unopened h) (s : SameOpened h h') : Unopened h' := ⟨s.iv.trans u.iv, s.pub.trans u.pub, s.sec.trans u.sec⟩

theorem Unopened.check {h : Hs} (u : Unopened h) : handshakeCheck h.prf h.hmac = .ok true := by
  simp [handshakeCheck, Prf.check, Prf.checkPairs, Sha.check, u.iv, u.pub, u.sec, bind, Except.bind, pure, Except.pure]

/-- The keys of a key block are unique. -/
theorem partition_unique {x y : TLS.Keys} {kb : List Bool} (hx : TLS.IsPartition x kb) (hy : TLS.IsPartition y kb) : x = y := by
  obtain ⟨x1, x2, x3, x4⟩ := x
  obtain ⟨y1, y2, y3, y4⟩ := y
  obtain ⟨e, a1, a2, a3, a4⟩ := hx
  obtain ⟨f, b1, b2, b3, b4⟩ := hy
  simp only at a1 a2 a3 a4 b1 b2 b3 b4
  rw [e] at f
  simp only [List.append_assoc] at f
  obtain ⟨c1, f2⟩ := List.append_inj f (a1.trans b1.symm)
  obtain ⟨c2, f3⟩ := List.append_inj f2 (a2.trans b2.symm)
  obtain ⟨c3, c4⟩ := List.append_inj f3 (a3.trans b3.symm)
  rw [c1, c2, c3, c4]

/-- **C42, completeness with the round optimisation.**  After an honest handshake the proof phase runs through, derives the same keys, and all
its checks hold. -/
theorem C42_rounds_complete (q : Nat) (u v : List Byte) (hq : bnNumBytes q < 2 ^ 59) (g : Nat → List Byte)
    (a b : Nat) (ha : a < q) (hb : b < q) (k : MasterSeed) (rc rs tauC tauS : List Byte) (hs : Short k rc rs tauC tauS) :
    ∃ h ms ks cc cs h', (Hs.new q true u v).schedule g a b k rc rs tauC tauS = .ok h
      ∧ HsP.proveSchedule ⟨h, a, b⟩ g [] ((a + b) % q) k rc rs tauC tauS = .ok (ms, ks, cc, cs, h')
      ∧ ms = h.masterKey ∧ ks = ⟨h.clientWriteKey, h.serverWriteKey, h.clientWriteIv, h.serverWriteIv⟩
      ∧ TLS.IsPartition ⟨ks.keyC.reverse, ks.keyS.reverse, ks.ivC.reverse, ks.ivS.reverse⟩
          (TLS.keyBlock (master k (SHA256.beBits (8 * bnNumBytes q) ((a + b) % q)) (bytesBits rc) (bytesBits rs)) (bytesBits rc) (bytesBits rs))
      ∧ Holds cc ∧ Holds cs ∧ handshakeCheck h'.hs.prf h'.hs.hmac = .ok true := by
  obtain ⟨M, hM⟩ : ∃ M, M = master k (SHA256.beBits (8 * bnNumBytes q) ((a + b) % q)) (bytesBits rc) (bytesBits rs) := ⟨_, rfl⟩
  have hml : M.length = 384 := by rw [hM, ← master_eq, length_prf]
  obtain ⟨h0, e0, k0, f0, z0, l0⟩ := keyFromShares_step (Hs.new q true u v) ShaInv.new.pos hq a b ha hb
  have hr0 : h0.roundsOpt = true := by rw [f0]; rfl
  have hq0 : h0.q = q := by rw [f0]; rfl
  have z0' : h0.zkPms = ofNat (8 * bnNumBytes q) a := z0
  have m0 : h0.masterKey = [] := by rw [f0]; rfl
  have u0 : Unopened h0 := by
    obtain ⟨bufA, -, e⟩ := bind_ok.mp e0
    obtain ⟨bufB, -, e⟩ := bind_ok.mp e
    obtain ⟨⟨p, m⟩, e1, e⟩ := bind_ok.mp e
    obtain ⟨m', -, e1⟩ := bind_ok.mp e1
    cases e1; cases e
    exact ⟨l0, rfl, rfl⟩
  clear f0
  have hseed := len_mSeed hs
  have hlab := len_mLabel k
  obtain ⟨r1, h1, e1, k1, v1, f1, o1⟩ := prfCall_rounds hr0 k0 g h0.masterKey 384 (mLabel k) (mSeed k rc rs) (by omega)
  rw [callZk_rounds hr0] at e1
  rw [m0, List.reverse_nil, List.nil_append, show (Hs.new q true u v).q = q from rfl, master_eq, ← hM] at v1
  have u1 := u0.same o1
  have hr1 : h1.roundsOpt = true := by rw [f1]; exact hr0
  have hrl : r1.length = 384 := by rw [← List.length_reverse, v1, hml]
  obtain ⟨h1', hh1⟩ : ∃ h1' : Hs, h1' = { h1 with masterKey := r1 } := ⟨_, rfl⟩
  have em : (Hs.new q true u v).computeMaster g a b k rc rs = .ok h1' := by
    cases k with
    | plain => exact bind_ok.mpr ⟨h0, e0, bind_ok.mpr ⟨(r1, h1), e1, by rw [hh1]⟩⟩
    | extended hash => exact bind_ok.mpr ⟨h0, e0, bind_ok.mpr ⟨(r1, h1), e1, by rw [hh1]⟩⟩
  have k1' : Keyed h1' (SHA256.beBits (8 * bnNumBytes q) ((a + b) % q)) := by rw [hh1]; exact k1
  have rd1 := keyed_ready k1' (by rw [hh1]; show h1.hmac.sha.ivIn.length ≤ _; rw [u1.iv]; simp)
  have hr1' : h1'.roundsOpt = true := by rw [hh1]; exact hr1
  obtain ⟨m2, e2, i2, l2⟩ := init_step h1'.hmac rd1.pos r1 (by rw [hrl]; norm_num)
  obtain ⟨key, h2, e3, k2, v2, f2, o2⟩ := prfCall_rounds (h := { h1' with prf := { h1'.prf with calls := 0 }, hmac := m2 }) hr1'
    ⟨none, i2, Or.inl rfl⟩ g [] 320 keyExpansionLabel (rs ++ rc)
    (by rw [List.length_append]; have : keyExpansionLabel.length = 13 := rfl; have := hs.rand; omega)
  rw [callZk_rounds (by exact hr1')] at e3
  have u2 : Unopened h2 := by
    refine Unopened.same ⟨?_, ?_, ?_⟩ o2
    · show m2.sha.ivIn = []
      rw [l2, hh1]; exact u1.iv
    · show h1'.prf.pubM = []
      rw [hh1]; exact u1.pub
    · show h1'.prf.zkSecM = []
      rw [hh1]; exact u1.sec
  have hr2 : h2.roundsOpt = true := by rw [f2]; exact hr1'
  rw [v1] at k2 v2
  have hkb : key.reverse = TLS.keyBlock M (bytesBits rc) (bytesBits rs) := by rw [v2, bytesBits_append]; rfl
  have hkl : key.length = 320 := by rw [← List.length_reverse, hkb, TLS.keyBlock, length_prf]
  obtain ⟨ks, hks⟩ := slices_exist key hkl
  have hpart := slices_partition hks hkl
  rw [hkb] at hpart
  obtain ⟨h3, hh3⟩ : ∃ h3 : Hs, h3 = { h2 with clientWriteKey := ks.keyC, serverWriteKey := ks.keyS, clientWriteIv := ks.ivC, serverWriteIv := ks.ivS } := ⟨_, rfl⟩
  have ee : h1'.computeExpansionKeys g rc rs = .ok h3 := by
    obtain ⟨hx1, hx2, hx3, hx4⟩ := hks
    have hmk : h1'.masterKey = r1 := by rw [hh1]
    refine bind_ok.mpr ⟨({ h1'.prf with calls := 0 }, m2), by rw [hmk]; simp only [Prf.init, bind, Except.bind, e2], bind_ok.mpr ⟨(key, h2), e3, ?_⟩⟩
    exact bind_ok.mpr ⟨_, hx1, bind_ok.mpr ⟨_, hx2, bind_ok.mpr ⟨_, hx3, bind_ok.mpr ⟨_, hx4, by rw [hh3]⟩⟩⟩⟩
  have k3 : Keyed h3 M := by rw [hh3]; exact k2
  have hr3 : h3.roundsOpt = true := by rw [hh3]; exact hr2
  have u3 : Unopened h3 := by rw [hh3]; exact ⟨u2.iv, u2.pub, u2.sec⟩
  have lc : clientFinishedLabel.length = 15 := rfl
  have ls : serverFinishedLabel.length = 15 := rfl
  have htc := hs.tauC
  have hts := hs.tauS
  obtain ⟨uc, h4, e4, k4, v4, f4, o4⟩ := prfCall_rounds hr3 k3 g [] 96 clientFinishedLabel tauC (by omega)
  rw [callZk_rounds hr3] at e4
  obtain ⟨h4', hh4⟩ : ∃ h4' : Hs, h4' = { h4 with clientUfin := toBytes uc } := ⟨_, rfl⟩
  have ec : h3.computeClientFinished g clientFinishedLabel tauC = .ok h4' := bind_ok.mpr ⟨(uc, h4), e4, by rw [hh4]⟩
  have k4' : Keyed h4' M := by rw [hh4]; exact k4
  have hr4 : h4'.roundsOpt = true := by rw [hh4]; show h4.roundsOpt = true; rw [f4]; exact hr3
  obtain ⟨us, h5, e5, k5, v5, f5, o5⟩ := prfCall_rounds hr4 k4' g [] 96 serverFinishedLabel tauS (by omega)
  rw [callZk_rounds hr4] at e5
  obtain ⟨h5', hh5⟩ : ∃ h5' : Hs, h5' = { h5 with serverUfin := toBytes us } := ⟨_, rfl⟩
  have es : h4'.computeServerFinished g serverFinishedLabel tauS = .ok h5' := bind_ok.mpr ⟨(us, h5), e5, by rw [hh5]⟩
  have u5 : Unopened h5' := by
    have := (u3.same o4)
    have u4 : Unopened h4' := by rw [hh4]; exact ⟨this.iv, this.pub, this.sec⟩
    have := u4.same o5
    rw [hh5]; exact ⟨this.iv, this.pub, this.sec⟩
  rw [List.reverse_nil, List.nil_append] at v4 v5
  have luc : uc.length = 96 := by rw [← List.length_reverse, v4, length_prf]
  have lus : us.length = 96 := by rw [← List.length_reverse, v5, length_prf]
  have b4 := toBytes_reverse_bits uc (by rw [luc])
  have b5 := toBytes_reverse_bits us (by rw [lus])
  have len : ∀ x : Integer, x.length = 96 → (toBytes x).take 12 = toBytes x := by
    intro x hx
    have hb := congrArg List.length (toBytes_reverse_bits x (by rw [hx]))
    rw [length_bytesBits, List.length_reverse, List.length_reverse, hx] at hb
    exact List.take_of_length_le (by omega)
  have cu : h5'.clientUfin = toBytes uc := by rw [hh5]; show h5.clientUfin = _; rw [f5, hh4]
  have su : h5'.serverUfin = toBytes us := by rw [hh5]
  have frame : h5'.q = q ∧ h5'.zkPms = ofNat (8 * bnNumBytes q) a ∧ h5'.roundsOpt = true ∧ h5'.masterKey = r1
      ∧ h5'.clientWriteKey = ks.keyC ∧ h5'.serverWriteKey = ks.keyS ∧ h5'.clientWriteIv = ks.ivC ∧ h5'.serverWriteIv = ks.ivS := by
    have q1 : h1'.q = q ∧ h1'.zkPms = ofNat (8 * bnNumBytes q) a ∧ h1'.masterKey = r1 := by
      rw [hh1]; refine ⟨?_, ?_, rfl⟩
      · show h1.q = q; rw [f1]; exact hq0
      · show h1.zkPms = _; rw [f1]; exact z0'
    have q2 : h2.q = q ∧ h2.zkPms = ofNat (8 * bnNumBytes q) a ∧ h2.masterKey = r1 := by
      rw [f2]; exact q1
    have q3 : h4'.q = q ∧ h4'.zkPms = ofNat (8 * bnNumBytes q) a ∧ h4'.masterKey = r1
        ∧ h4'.clientWriteKey = ks.keyC ∧ h4'.serverWriteKey = ks.keyS ∧ h4'.clientWriteIv = ks.ivC ∧ h4'.serverWriteIv = ks.ivS := by
      rw [hh4]; show h4.q = q ∧ h4.zkPms = _ ∧ h4.masterKey = _ ∧ h4.clientWriteKey = _ ∧ h4.serverWriteKey = _ ∧ h4.clientWriteIv = _ ∧ h4.serverWriteIv = _
      rw [f4, hh3]; exact ⟨q2.1, q2.2.1, q2.2.2, rfl, rfl, rfl, rfl⟩
    rw [hh5]
    show h5.q = q ∧ h5.zkPms = _ ∧ h5.roundsOpt = true ∧ h5.masterKey = _ ∧ h5.clientWriteKey = _ ∧ h5.serverWriteKey = _ ∧ h5.clientWriteIv = _ ∧ h5.serverWriteIv = _
    rw [f5]; exact ⟨q3.1, q3.2.1, hr4, q3.2.2⟩
  obtain ⟨w1, w2, w3, w4, w5, w6, w7, w8⟩ := frame
  have k5' : Keyed h5' M := by rw [hh5]; exact k5
  have hsub : (((((a + b) % q : Nat) : Int) - a) % q).toNat = b := by
    have : ((((a + b) % q : Nat) : Int) - a) % q = b := by
      push_cast
      rw [Int.emod_sub_emod]
      rw [show (a : Int) + b - a = b by omega]
      exact Int.emod_eq_of_lt (by omega) (by omega)
    omega
  have C := C42_rounds ⟨h5', a, b⟩ w3 (keyed_ready k5' (by rw [u5.iv]; simp)) (by show bnNumBytes h5'.q < _; rw [w1]; exact hq) a
    (by show a < h5'.q; rw [w1]; exact ha) (by show h5'.zkPms = ofNat (8 * bnNumBytes h5'.q) a; rw [w1]; exact w2) (by show b < h5'.q; rw [w1]; exact hb)
    g ((a + b) % q) (by show (((((a + b) % q : Nat) : Int) - a) % h5'.q).toNat = b; rw [w1]; exact hsub) k rc rs tauC tauS hs
  have hq5 : (HsP.mk h5' a b).hs.q = q := w1
  simp only [w1, ← hM] at C
  obtain ⟨ms, ks', cc, cs, h', c1, c2, c3, c4, c5, -, -, c6⟩ := C
  have hkeq : ks' = ks := by
    have := partition_unique c3 hpart
    simp only [TLS.Keys.mk.injEq, List.reverse_inj] at this
    obtain ⟨t1, t2, t3, t4⟩ := this
    cases ks'; cases ks
    simp only at t1 t2 t3 t4
    rw [t1, t2, t3, t4]
  refine ⟨h5', ms, ks', cc, cs, h', ?_, c1, ?_, ?_, by rw [← hM]; exact c3, ?_, ?_, (u5.same c6).check⟩
  · exact bind_ok.mpr ⟨h1', em, bind_ok.mpr ⟨h3, ee, bind_ok.mpr ⟨h4', ec, es⟩⟩⟩
  · rw [w4]; exact List.reverse_inj.mp (c2.trans v1.symm)
  · rw [w5, w6, w7, w8, hkeq]
  · rw [c4]
    show bytesBits (h5'.clientUfin.take 12).reverse = _
    rw [cu, len uc luc, b4, v4]; rfl
  · rw [c5]
    show bytesBits (h5'.serverUfin.take 12).reverse = _
    rw [su, len us lus, b5, v5]; rfl

/-- Concrete instances: a modulus, shares with a carry, a derivation meeting all hypotheses of `C42_sound`. -/
example : ∃ h : HsP, h.hs.roundsOpt = false ∧ ProofStart h.hs.prf h.hs.hmac ∧ h.hs.q = 251 ∧ h.bnA = 200 ∧ h.bnB = 100
    ∧ h.hs.zkPms = ofNat (8 * bnNumBytes 251) 200
    ∧ ∃ ms ks cc cs h', h.proveSchedule (fun _ => List.replicate 64 0) [] 49 (.extended [7, 8]) [1] [2] [3] [4] = .ok (ms, ks, cc, cs, h')
      ∧ handshakeCheck h'.hs.prf h'.hs.hmac = .ok true ∧ Holds cc ∧ Holds cs := by
  obtain ⟨h, ms, ks, cc, cs, h', e1, e2, r1, r2, r3, r4, r5, r6, r7, r8, r9, -⟩ :=
    C42_complete_partial 251 [] [] (by decide +kernel) (fun _ => List.replicate 64 0) (fun _ => List.length_replicate) 200 100 (by decide) (by decide)
      (.extended [7, 8]) [1] [2] [3] [4] ⟨by decide, by rintro x ⟨⟩; decide, by decide, by decide⟩
  exact ⟨⟨h, 200, 100⟩, r9, r6, r8, rfl, rfl, r7, ms, ks, cc, cs, h', e2, r5, r3, r4⟩

example : Ready (Hs.new 251 true [] []) ∧ (((49 : Int) - 200) % 251).toNat = 100 := ⟨⟨by decide, by decide⟩, by decide⟩

end Verif.Props.HandshakeProof
