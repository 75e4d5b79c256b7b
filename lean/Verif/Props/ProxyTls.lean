import Verif.Model.ProxyTls
import Verif.Props.Handshake
import Verif.Props.AESProver
import Verif.Props.AESCircuit
import Verif.Props.ZkReplay

/-! C48: the proxy model.  A client that knows the pre-master secret proves the session keys and messages to the proxy. -/

namespace Verif.Props.Proxy
open Verif.Model Verif.Model.Integer Verif.Model.SHA Verif.Model.Proxy Verif.Lemmas
open Verif.Spec Verif.Spec.Encoding

/-! ### Specification -/

/-- The pre-master secret as bits: big endian, in the length of the field. -/
def pmsBits (q pms : Nat) : List Bool := SHA256.beBits (8 * bnNumBytes q) pms

/-- What the calls must write: `key` is the key installed last.  The new bits come after those already in the object. -/
def Correct (q : Nat) : Option (List Bool) → List Call → List (List Integer) → Prop
  | _, [], [] => True
  | _, .master _ ms pms rc rs :: cs, o :: os =>
    (∃ r, o = [r] ∧ r.reverse = ms.reverse ++ TLS.masterSecret (pmsBits q pms) (bytesBits rc) (bytesBits rs))
      ∧ Correct q (some (pmsBits q pms)) cs os
  | _, .extended _ ms pms h :: cs, o :: os =>
    (∃ r, o = [r] ∧ r.reverse = ms.reverse ++ TLS.extendedMasterSecret (pmsBits q pms) (bytesBits h))
      ∧ Correct q (some (pmsBits q pms)) cs os
  | _, .expansion _ ms rc rs :: cs, o :: os =>
    (∃ kc ks ic is, o = [kc, ks, ic, is]
        ∧ TLS.IsPartition ⟨kc.reverse, ks.reverse, ic.reverse, is.reverse⟩ (TLS.keyBlock ms.reverse (bytesBits rc) (bytesBits rs)))
      ∧ Correct q (some ms.reverse) cs os
  | some k, .clientFinished _ u _ tau :: cs, o :: os =>
    (∃ r, o = [r] ∧ r.reverse = u.reverse ++ TLS.verifyData k (TLS.ascii "client finished") (bytesBits tau)) ∧ Correct q (some k) cs os
  | some k, .serverFinished _ u _ tau :: cs, o :: os =>
    (∃ r, o = [r] ∧ r.reverse = u.reverse ++ TLS.verifyData k (TLS.ascii "server finished") (bytesBits tau)) ∧ Correct q (some k) cs os
  | _, _, _ => False

/-- Work buffers of the calls. -/
def Buf (g : Nat → List Byte) : Prop := ∀ i, (g i).length = 64

/-- The arguments fit: the pre-master secret is not longer than the field, lengths are not astronomical, a finished message comes after
a key. -/
def Fits (q : Nat) : Bool → List Call → Prop
  | _, [] => True
  | _, .master g _ pms rc rs :: cs => (Buf g ∧ bnNumBytes pms ≤ bnNumBytes q ∧ rc.length + rs.length < 2 ^ 57) ∧ Fits q true cs
  | _, .extended g _ pms h :: cs => (Buf g ∧ bnNumBytes pms ≤ bnNumBytes q ∧ h.length < 2 ^ 57) ∧ Fits q true cs
  | _, .expansion g ms rc rs :: cs => (Buf g ∧ ms.length < 2 ^ 63 ∧ rc.length + rs.length < 2 ^ 57) ∧ Fits q true cs
  | k, .clientFinished g _ _ tau :: cs => (Buf g ∧ k = true ∧ tau.length < 2 ^ 57) ∧ Fits q true cs
  | k, .serverFinished g _ _ tau :: cs => (Buf g ∧ k = true ∧ tau.length < 2 ^ 57) ∧ Fits q true cs

/-! ### The calls -/

/-- The object is keyed with `key`. -/
def Keyed (p : Prover) (key : List Bool) : Prop := ∃ inn, HmacInv p.hmac key inn ∧ inn ≠ some true

theorem Keyed.pos {p : Prover} {key} (h : Keyed p key) : p.hmac.sha.pos = BitVec.ofNat 64 p.hmac.sha.ivIn.length - 1 := by
  obtain ⟨inn, inv, _⟩ := h
  obtain ⟨o, i, _⟩ := inv.sha
  exact i.pos

theorem prfCall_ok {p : Prover} {key} (hk : Keyed p key) (hz : p.zk = false) (g : Nat → List Byte) (hg : Buf g) (res : Integer) (b : Nat)
    (l s : List Byte) (hs : l.length + s.length < 2 ^ 58) (hsz : p.hmac.sha.ivIn.length + 2 * (b / 256 + 1) ≤ 2 ^ 64) :
    ∃ r p', p.prfCall g res b l s = .ok (r, p') ∧ Keyed p' key
      ∧ r.reverse = res.reverse ++ HMAC.prf key (bytesBits l) (bytesBits s) b
      ∧ p' = { p with prf := p'.prf, hmac := p'.hmac }
      ∧ p'.hmac.sha.ivIn.length ≤ p.hmac.sha.ivIn.length + 2 * (b / 256 + 1) := by
  obtain ⟨inn, inv, hi⟩ := hk
  obtain ⟨r, f, m, e, h1, l1, r1, _⟩ := optCompute_step inv p.prf g hg res l s b p.ri p.ro hs (fun _ => hi) hsz
  refine ⟨r, { p with prf := f, hmac := m }, ?_, ⟨_, h1, ?_⟩, r1, rfl, l1⟩
  · simp only [Prover.prfCall, hz, bind, Except.bind, e]
  · split
    · simp
    · exact hi

theorem init_ok (p : Prover) (hpos : p.hmac.sha.pos = BitVec.ofNat 64 p.hmac.sha.ivIn.length - 1) (k : Integer) (hk : k.length < 2 ^ 63) :
    ∃ f m, p.prf.init p.hmac k = .ok (f, m) ∧ Keyed { p with prf := f, hmac := m } k.reverse ∧ m.sha.ivIn = p.hmac.sha.ivIn := by
  obtain ⟨m1, e1, h1, l1⟩ := init_step p.hmac hpos k hk
  exact ⟨{ p.prf with calls := 0 }, m1, by simp only [Prf.init, bind, Except.bind, e1], ⟨none, h1, by simp⟩, l1⟩

theorem buffer_bits (q pms : Nat) (h : bnNumBytes pms ≤ bnNumBytes q) :
    ∃ buf, bnBuffer (bnNumBytes q) pms = .ok buf ∧ (ofBytes buf).length = 8 * bnNumBytes q ∧ (ofBytes buf).reverse = pmsBits q pms := by
  obtain ⟨buf, e, l, v⟩ := bnBuffer_spec (bnNumBytes q) pms h
  refine ⟨buf, e, l, ?_⟩
  rw [pmsBits, ← ofNat_reverse, List.reverse_inj]
  apply val_inj
  · rw [l, length_ofNat]
  · rw [v, val_ofNat, Nat.mod_eq_of_lt]
    refine Nat.lt_of_lt_of_le (lt_pow_bnNumBytes pms) (Nat.pow_le_pow_right (by decide) (by omega))

theorem key_ok (p : Prover) (hpos : p.hmac.sha.pos = BitVec.ofNat 64 p.hmac.sha.ivIn.length - 1) (hq : bnNumBytes p.q < 2 ^ 59) (pms : Nat)
    (h : bnNumBytes pms ≤ bnNumBytes p.q) :
    ∃ p', p.key pms = .ok p' ∧ Keyed p' (pmsBits p.q pms) ∧ p' = { p with prf := p'.prf, hmac := p'.hmac }
      ∧ p'.hmac.sha.ivIn = p.hmac.sha.ivIn := by
  obtain ⟨buf, e, l, b⟩ := buffer_bits p.q pms h
  obtain ⟨f, m, e2, k, i⟩ := init_ok p hpos (ofBytes buf) (by omega)
  rw [b] at k
  exact ⟨_, by simp only [Prover.key, bind, Except.bind, e, e2], k, rfl, i⟩

theorem expansion_ok (p : Prover) (hpos : p.hmac.sha.pos = BitVec.ofNat 64 p.hmac.sha.ivIn.length - 1) (hz : p.zk = false)
    (hsz : p.hmac.sha.ivIn.length + 4 ≤ 2 ^ 64) (g : Nat → List Byte) (hg : Buf g) (ms : Integer) (hm : ms.length < 2 ^ 63)
    (rc rs : List Byte) (hl : rc.length + rs.length < 2 ^ 57) :
    ∃ t p', p.expansionKeys g ms rc rs = .ok (t, p')
      ∧ TLS.IsPartition ⟨t.keyC.reverse, t.keyS.reverse, t.ivC.reverse, t.ivS.reverse⟩ (TLS.keyBlock ms.reverse (bytesBits rc) (bytesBits rs))
      ∧ Keyed p' ms.reverse ∧ p' = { p with prf := p'.prf, hmac := p'.hmac }
      ∧ p'.hmac.sha.ivIn.length ≤ p.hmac.sha.ivIn.length + 4 := by
  obtain ⟨f, m, e1, k1, i1⟩ := init_ok p hpos ms hm
  obtain ⟨r2, p2, e2, k2, r2e, f2, l2⟩ := prfCall_ok k1 hz g hg [] (expansionKeyLength * 8) keyExpansionLabel (rs ++ rc)
    (by rw [List.length_append]; have : keyExpansionLabel.length = 13 := rfl; omega)
    (by show m.sha.ivIn.length + _ ≤ _; rw [i1]; have : expansionKeyLength * 8 = 320 := rfl; omega)
  have hkb : r2.reverse = TLS.keyBlock ms.reverse (bytesBits rc) (bytesBits rs) := by
    rw [r2e, bytesBits_append]; rfl
  have hlen : r2.reverse.length = 320 := by
    rw [hkb, TLS.keyBlock, HMAC.prf, List.length_take, length_pHash]; rfl
  have hlen' : r2.length = 320 := by rw [← List.length_reverse]; exact hlen
  have c1 : keyLength * 8 = 128 := rfl
  have c2 : ivLength * 8 = 32 := rfl
  obtain ⟨x1, ex1, y1⟩ := extract_ok r2 0 128 (by omega)
  obtain ⟨x2, ex2, y2⟩ := extract_ok r2 128 128 (by omega)
  obtain ⟨x3, ex3, y3⟩ := extract_ok r2 (128 * 2) 32 (by omega)
  obtain ⟨x4, ex4, y4⟩ := extract_ok r2 (128 * 2 + 32) 32 (by omega)
  refine ⟨⟨x1, x2, x3, x4⟩, p2, ?_, ?_, k2, by rw [f2], ?_⟩
  · simp only [Prover.expansionKeys, bind, Except.bind, e1, e2, c1, c2, ex1, ex2, ex3, ex4]
  · rw [← hkb]
    simp only [TLS.IsPartition, y1, y2, y3, y4]
    refine ⟨?_, ?_, ?_, ?_, ?_⟩
    · generalize r2.reverse = kb at hlen
      rw [List.drop_zero]
      conv_lhs => rw [← List.take_append_drop 128 kb, ← List.take_append_drop 128 (kb.drop 128),
        ← List.take_append_drop 32 ((kb.drop 128).drop 128)]
      simp only [List.drop_drop, List.append_assoc]
      congr 3
      exact (List.take_of_length_le (by simp; omega)).symm
    all_goals (simp; omega)
  · have : m.sha.ivIn.length = p.hmac.sha.ivIn.length := by rw [i1]
    have l2' : p2.hmac.sha.ivIn.length ≤ m.sha.ivIn.length + 4 := l2
    omega

theorem step_ok (p : Prover) (key : Option (List Bool)) (hpos : p.hmac.sha.pos = BitVec.ofNat 64 p.hmac.sha.ivIn.length - 1)
    (hk : ∀ k, key = some k → Keyed p k) (hq : bnNumBytes p.q < 2 ^ 59) (hz : p.zk = false)
    (hsz : p.hmac.sha.ivIn.length + 4 ≤ 2 ^ 64) (c : Call) (cs : List Call) (hf : Fits p.q key.isSome (c :: cs)) :
    ∃ o p' k, p.step c = .ok (o, p') ∧ Keyed p' k ∧ p' = { p with prf := p'.prf, hmac := p'.hmac }
      ∧ p'.hmac.sha.ivIn.length ≤ p.hmac.sha.ivIn.length + 4 ∧ Fits p.q true cs
      ∧ ∀ os, Correct p.q (some k) cs os → Correct p.q key (c :: cs) (o :: os) := by
  cases c with
  | master g ms pms rc rs =>
    obtain ⟨⟨hg, hp, hl⟩, hf⟩ := hf
    obtain ⟨p1, e1, k1, f1, i1⟩ := key_ok p hpos hq pms hp
    obtain ⟨r, p2, e2, k2, r2, f2, i2⟩ := prfCall_ok k1 (by rw [f1]; exact hz) g hg ms (masterKeyLength * 8) masterKeyLabel (rc ++ rs)
      (by rw [List.length_append]; have : masterKeyLabel.length = 13 := rfl; omega)
      (by rw [i1]; have : masterKeyLength * 8 = 384 := rfl; omega)
    rw [i1] at i2
    refine ⟨[r], p2, _, by simp only [Prover.step, Prover.masterKey, bind, Except.bind, e1, e2], k2, by rw [f2, f1], i2, hf,
      fun os h => ⟨⟨r, rfl, ?_⟩, h⟩⟩
    rw [r2, bytesBits_append]; rfl
  | extended g ms pms hash =>
    obtain ⟨⟨hg, hp, hl⟩, hf⟩ := hf
    obtain ⟨p1, e1, k1, f1, i1⟩ := key_ok p hpos hq pms hp
    obtain ⟨r, p2, e2, k2, r2, f2, i2⟩ := prfCall_ok k1 (by rw [f1]; exact hz) g hg ms (extendedMasterKeyLength * 8) extendedMasterKeyLabel hash
      (by have : extendedMasterKeyLabel.length = 22 := rfl; omega)
      (by rw [i1]; have : extendedMasterKeyLength * 8 = 384 := rfl; omega)
    rw [i1] at i2
    exact ⟨[r], p2, _, by simp only [Prover.step, Prover.extendedMasterKey, bind, Except.bind, e1, e2], k2, by rw [f2, f1], i2, hf,
      fun os h => ⟨⟨r, rfl, by rw [r2]; rfl⟩, h⟩⟩
  | expansion g ms rc rs =>
    obtain ⟨⟨hg, hm, hl⟩, hf⟩ := hf
    obtain ⟨t, p', e, hp, k, f, i⟩ := expansion_ok p hpos hz hsz g hg ms hm rc rs hl
    exact ⟨_, p', _, by simp only [Prover.step, bind, Except.bind, e], k, f, i, hf, fun os h => ⟨⟨_, _, _, _, rfl, hp⟩, h⟩⟩
  | clientFinished g u ms tau =>
    obtain ⟨⟨hg, hs, hl⟩, hf⟩ := hf
    cases key with
    | none => cases hs
    | some k =>
      obtain ⟨r, p2, e2, k2, r2, f2, i2⟩ := prfCall_ok (hk k rfl) hz g hg u (finishedMsgLength * 8) clientFinishedLabel tau
        (by have : clientFinishedLabel.length = 15 := rfl; omega)
        (by have : finishedMsgLength * 8 = 96 := rfl; omega)
      refine ⟨[r], p2, k, by simp only [Prover.step, Prover.clientFinished, bind, Except.bind, e2], k2, f2, ?_, hf,
        fun os h => ⟨⟨r, rfl, by rw [r2]; rfl⟩, h⟩⟩
      have : finishedMsgLength * 8 = 96 := rfl
      omega
  | serverFinished g u ms tau =>
    obtain ⟨⟨hg, hs, hl⟩, hf⟩ := hf
    cases key with
    | none => cases hs
    | some k =>
      obtain ⟨r, p2, e2, k2, r2, f2, i2⟩ := prfCall_ok (hk k rfl) hz g hg u (finishedMsgLength * 8) serverFinishedLabel tau
        (by have : serverFinishedLabel.length = 15 := rfl; omega)
        (by have : finishedMsgLength * 8 = 96 := rfl; omega)
      refine ⟨[r], p2, k, by simp only [Prover.step, Prover.serverFinished, bind, Except.bind, e2], k2, f2, ?_, hf,
        fun os h => ⟨⟨r, rfl, by rw [r2]; rfl⟩, h⟩⟩
      have : finishedMsgLength * 8 = 96 := rfl
      omega

theorem run_ok (cs : List Call) : ∀ (p : Prover) (key : Option (List Bool)),
    p.hmac.sha.pos = BitVec.ofNat 64 p.hmac.sha.ivIn.length - 1 → (∀ k, key = some k → Keyed p k) → bnNumBytes p.q < 2 ^ 59 → p.zk = false →
    p.hmac.sha.ivIn.length + 4 * cs.length ≤ 2 ^ 64 → Fits p.q key.isSome cs →
    ∃ os p', p.run cs = .ok (os, p') ∧ Correct p.q key cs os := by
  induction cs with
  | nil => intro p key _ _ _ _ _ _; exact ⟨[], p, rfl, by cases key <;> exact trivial⟩
  | cons c cs ih =>
    intro p key hpos hk hq hz hsz hf
    rw [List.length_cons] at hsz
    obtain ⟨o, p1, k, e, k1, f1, i1, hf1, hc⟩ := step_ok p key hpos hk hq hz (by omega) c cs hf
    have hq1 : p1.q = p.q := by rw [f1]
    obtain ⟨os, p2, e2, c2⟩ := ih p1 (some k) k1.pos (fun k' h => by cases h; exact k1) (by rw [hq1]; exact hq) (by rw [f1]; exact hz)
      (by omega) (by rw [hq1]; exact hf1)
    rw [hq1] at c2
    exact ⟨o :: os, p2, by simp only [Prover.run, bind, Except.bind, e, e2], hc os c2⟩

/-! ### C48 -/

/-- **C48 (values).**  Any sequence of calls on a new `PRFProver`, with any setting of the two reuse flags: the master secrets, keys and
finished messages are those of RFC 5246 and RFC 7627.  The full property asks for the finished messages under the given `ms`; the
code takes the key installed last (`C48_finished_ignores_ms`). -/
theorem C48_values_partial (q : Nat) (ri ro : Bool) (hq : bnNumBytes q < 2 ^ 59) (cs : List Call) (hf : Fits q false cs)
    (hn : 4 * cs.length ≤ 2 ^ 64) : ∃ os p, ({ q := q, ri := ri, ro := ro } : Prover).run cs = .ok (os, p) ∧ Correct q none cs os :=
  run_ok cs { q := q, ri := ri, ro := ro } none ShaInv.new.pos (fun _ h => by cases h) hq rfl
    (by show ([] : List (List (BitVec 32))).length + _ ≤ _; simpa using hn) hf

/-- **C48 fails (the argument `ms`).**  The finished message does not depend on `ms`: whatever is passed, the call returns the value of the key
installed last.  Right after `prove_master_key` this is the pre-master secret. -/
theorem C48_finished_ignores_ms (q : Nat) (hq : bnNumBytes q < 2 ^ 59) (g : Nat → List Byte) (hg : Buf g) (pms : Nat)
    (hp : bnNumBytes pms ≤ bnNumBytes q) (rc rs tau : List Byte) (hl : rc.length + rs.length < 2 ^ 57) (ht : tau.length < 2 ^ 57)
    (ms : Integer) :
    ∃ r fin p, ({ q := q } : Prover).run [.master g [] pms rc rs, .clientFinished g [] ms tau] = .ok ([[r], [fin]], p)
      ∧ r.reverse = TLS.masterSecret (pmsBits q pms) (bytesBits rc) (bytesBits rs)
      ∧ fin.reverse = TLS.verifyData (pmsBits q pms) (TLS.ascii "client finished") (bytesBits tau) := by
  obtain ⟨os, p, e, c⟩ := C48_values_partial q true true hq [.master g [] pms rc rs, .clientFinished g [] ms tau]
    ⟨⟨hg, hp, hl⟩, ⟨hg, rfl, ht⟩, trivial⟩ (by simp)
  match os, c with
  | [_, _], ⟨⟨r, rfl, h1⟩, ⟨fin, rfl, h2⟩, _⟩ => exact ⟨r, fin, p, e, h1, h2⟩

/-- A pre-master secret longer than the field is written before the buffer. -/
theorem C48_long_secret (p : Prover) (g : Nat → List Byte) (ms : Integer) (pms : Nat) (h : bnNumBytes p.q < bnNumBytes pms) (rc rs : List Byte) :
    ∃ w, p.masterKey g ms pms rc rs = .error (.ub w) := by
  unfold Prover.masterKey Prover.key bnBuffer
  rw [if_neg (by omega)]
  exact ⟨_, rfl⟩

/-- With `zk_flag` set the prover replays openings that were never made: the first call is undefined behaviour. -/
theorem C48_zk_flag (q : Nat) (ri ro : Bool) (hq : bnNumBytes q < 2 ^ 59) (g : Nat → List Byte) (hg : Buf g) (pms : Nat)
    (hp : bnNumBytes pms ≤ bnNumBytes q) (rc rs : List Byte) (hl : rc.length + rs.length < 2 ^ 57) (ms : Integer) :
    ∃ w, ({ q := q, ri := ri, ro := ro, zk := true } : Prover).masterKey g ms pms rc rs = .error (.ub w) := by
  obtain ⟨buf, eb, lb, _⟩ := buffer_bits q pms hp
  obtain ⟨m, e, h, l⟩ := init_step Hmac.new ShaInv.new.pos (ofBytes buf) (by omega)
  obtain ⟨f1, f2, f3, f4⟩ := init_frame e
  have hz : ZkInv m (ofBytes buf).reverse false := ⟨h, by rw [f2, f3]; rfl, fun _ => f4, by simp⟩
  have hiv : m.sha.ivIn = [] := by rw [f1]; rfl
  have ek : ({ q := q, ri := ri, ro := ro, zk := true } : Prover).key pms
      = .ok { q := q, ri := ri, ro := ro, zk := true, prf := { Prf.new with calls := 0 }, hmac := m } := by
    simp only [Prover.key, bind, Except.bind, eb, Prf.init, e]
  simp only [Prover.masterKey, bind, Except.bind, ek, Prover.prfCall, Prf.optCompute, Prf.optPhash]
  rw [show prfBlocks (masterKeyLength * 8) = 1 + 1 from rfl, optPhashLoop]
  simp only [bind, Except.bind]
  cases ri with
  | true =>
    obtain ⟨s1, _, _, e3⟩ := optFirst_zk hz (by rw [f2]; decide)
    rw [hiv] at e3
    simp only [Hmac.optHmac, Sha.optDigest, Sha.optUpdate, bind, Except.bind, e3]
    exact ⟨_, rfl⟩
  | false =>
    have ll : masterKeyLabel.length = 13 := rfl
    obtain ⟨d, m', e4, _⟩ := optHmac_zk_open hz (g (2 * 1 + 1)) (hg _) (masterKeyLabel ++ (rc ++ rs))
      (by rw [List.length_append, List.length_append, ll]; omega) ro
    simp only [e4]
    exact ⟨_, rfl⟩

/-! ### A session -/

/-- AES-128 on blocks. -/
def aes (key : List Byte) (b : BitVec 128) : BitVec 128 := GCM.blockOf (AES.aes128 key (GCM.bytesOf b))

/-- `s.finC` and so on are what the session with these secrets sends: both finished messages (with their header) and the message of the
client, encrypted under the keys of RFC 5246. -/
structure Genuine (q : Nat) (s : Session) (msg : List Byte) : Prop where
  ok : ∃ ck sk civ siv vc vs : List Byte,
    TLS.IsPartition ⟨bytesBits ck, bytesBits sk, bytesBits civ, bytesBits siv⟩
      (TLS.keyBlock (TLS.extendedMasterSecret (pmsBits q s.pms) (bytesBits s.hash)) (bytesBits s.rc) (bytesBits s.rs))
    ∧ bytesBits vc = TLS.verifyData (TLS.extendedMasterSecret (pmsBits q s.pms) (bytesBits s.hash)) (TLS.ascii "client finished") (bytesBits s.tauC)
    ∧ bytesBits vs = TLS.verifyData (TLS.extendedMasterSecret (pmsBits q s.pms) (bytesBits s.hash)) (TLS.ascii "server finished") (bytesBits s.tauS)
    ∧ s.finC = GCM.crypt (aes ck) (GCM.j0 (civ ++ s.ivC)) ([0x14, 0, 0, 12] ++ vc)
    ∧ s.finS = GCM.crypt (aes sk) (GCM.j0 (siv ++ s.ivS)) ([0x14, 0, 0, 12] ++ vs)
    ∧ s.ctxt = GCM.crypt (aes ck) (GCM.j0 (civ ++ s.ivM)) msg

theorem aes_eq (key : List Byte) : aes key = Verif.Props.AESCircuit.aesBlock key := rfl

theorem aesFun_eq (j1 j2 : AESCircuit.Wires) (key : List Byte) (hk : key.length = 16) (ek : Integer)
    (h : AESCircuit.computeKS j1 (strToInt key) = .ok ek) : aesFun j2 ek = aes key := by
  funext b
  have h2 := Verif.Props.AESCircuit.C43_block j1 j2 key hk (ofNat 128 b.toNat) (length_ofNat _ _)
  simp only [h, bind, Except.bind] at h2
  rw [aesFun, h2, AEAD.aes, if_pos (length_ofNat _ _), aes_eq]
  simp only [blk_ofNat]

theorem aesProver_ok (j1 j2 : AESCircuit.Wires) (key iv : List Byte) (hk : key.length = 16) (hi : iv.length = 4) :
    aesProver j1 j2 (strToInt key) (strToInt iv) = .ok (aes key, strToInt iv) := by
  obtain ⟨ek, h1⟩ : ∃ ek, AESCircuit.computeKS j1 (strToInt key) = .ok ek := ⟨_, Verif.Props.AESCircuit.C43_key_schedule j1 key hk⟩
  rw [← aesFun_eq j1 j2 key hk ek h1]
  unfold aesProver
  rw [if_neg (by simp [hk])]
  simp only [bind, Except.bind, h1]
  rw [if_neg (by simp [hi])]

/-- C48: the prover of a record is built only from a key of 128 and a fixed nonce of 32 bits. -/
theorem C48_prover_lengths (j1 j2 : AESCircuit.Wires) (key iv : Integer) (r : (Block → Block) × Integer) (h : aesProver j1 j2 key iv = .ok r) :
    key.length = 128 ∧ iv.length = 32 ∧ r.2 = iv := by
  unfold aesProver at h
  split at h
  · cases h
  · rename_i hk
    simp only [bind, Except.bind] at h
    split at h
    · cases h
    · split at h
      · cases h
      · rename_i hi
        cases h
        exact ⟨by omega, by omega, rfl⟩

/-- The hypothesis is met. -/
example (j1 j2 : AESCircuit.Wires) : aesProver j1 j2 (strToInt (List.replicate 16 7)) (strToInt [1, 2, 3, 4]) = .ok (aes (List.replicate 16 7), strToInt [1, 2, 3, 4]) :=
  aesProver_ok j1 j2 _ _ rfl rfl

theorem private_ok (E : Block → Block) (fiv iv : List Byte) (hf : fiv.length = 4) (hiv : iv.length = 8) (msg ctxt : List Byte) :
    (∃ b, AESProver.provePrivate E (strToInt fiv) iv (strToInt msg) ctxt ctxt.length = .ok b
      ∧ (b = true ↔ ctxt = GCM.crypt E (GCM.j0 (fiv ++ iv)) msg))
    ∨ ((∃ w, AESProver.provePrivate E (strToInt fiv) iv (strToInt msg) ctxt ctxt.length = .error (.error w))
      ∧ ctxt ≠ GCM.crypt E (GCM.j0 (fiv ++ iv)) msg) := by
  by_cases h : ctxt.length = msg.length
  · left
    rw [h]
    exact Verif.Props.C30_private E fiv iv hf hiv msg ctxt
  · right
    constructor
    · simp only [AESProver.provePrivate, Verif.Props.computeCounter_eq E fiv iv hf hiv, bind, Except.bind, AESProver.finishPrivate]
      rw [if_pos (by simp; omega)]
      exact ⟨_, rfl⟩
    · intro e
      apply h
      rw [e]
      simp [GCM.crypt]

theorem extended_ok (p : Prover) (hpos : p.hmac.sha.pos = BitVec.ofNat 64 p.hmac.sha.ivIn.length - 1) (hz : p.zk = false)
    (hq : bnNumBytes p.q < 2 ^ 59) (hsz : p.hmac.sha.ivIn.length + 4 ≤ 2 ^ 64) (g : Nat → List Byte) (hg : Buf g) (pms : Nat)
    (hp : bnNumBytes pms ≤ bnNumBytes p.q) (hash : List Byte) (hl : hash.length < 2 ^ 57) :
    ∃ r p', p.extendedMasterKey g [] pms hash = .ok (r, p')
      ∧ r.reverse = TLS.extendedMasterSecret (pmsBits p.q pms) (bytesBits hash) ∧ Keyed p' (pmsBits p.q pms)
      ∧ p' = { p with prf := p'.prf, hmac := p'.hmac } ∧ p'.hmac.sha.ivIn.length ≤ p.hmac.sha.ivIn.length + 4 := by
  obtain ⟨p1, e1, k1, f1, i1⟩ := key_ok p hpos hq pms hp
  obtain ⟨r, p2, e2, k2, r2, f2, i2⟩ := prfCall_ok k1 (by rw [f1]; exact hz) g hg [] (extendedMasterKeyLength * 8) extendedMasterKeyLabel hash
    (by have : extendedMasterKeyLabel.length = 22 := rfl; omega)
    (by rw [i1]; have : extendedMasterKeyLength * 8 = 384 := rfl; omega)
  rw [i1] at i2
  exact ⟨r, p2, by simp only [Prover.extendedMasterKey, bind, Except.bind, e1, e2], by rw [r2]; rfl, k2, by rw [f2, f1], i2⟩

theorem bytes_of (x : Integer) (n : Nat) (h : x.reverse.length = 8 * n) : ∃ s : List Byte, s.length = n ∧ x = strToInt s ∧ bytesBits s = x.reverse := by
  obtain ⟨s, h1, h2⟩ := exists_strToInt x n (by simpa using h)
  exact ⟨s, h1, h2, by rw [h2, strToInt_reverse]⟩

theorem strToInt_head (head s : List Byte) : strToInt s ++ ofBytes head.reverse = strToInt (head ++ s) := by
  rw [← List.reverse_inj, strToInt_reverse, bytesBits_append, List.reverse_append, strToInt_reverse]
  congr 1
  exact strToInt_reverse head

/-- **C48 (session).**  `prove_proxy_tls` with an honest prover accepts exactly if the recorded ciphertexts are those of the session, and
otherwise reports an error; it has no undefined behaviour. -/
theorem C48_session (q : Nat) (hq : bnNumBytes q < 2 ^ 59) (g : Nat → List Byte) (hg : Buf g) (j1 j2 : AESCircuit.Wires) (s : Session)
    (hp : bnNumBytes s.pms ≤ bnNumBytes q) (hh : s.hash.length < 2 ^ 57) (hr : s.rc.length + s.rs.length < 2 ^ 57)
    (hc : s.tauC.length < 2 ^ 57) (hs : s.tauS.length < 2 ^ 57) (ic : s.ivC.length = 8) (is : s.ivS.length = 8) (im : s.ivM.length = 8) :
    (session q g j1 j2 s = .ok true ∧ Genuine q s s.msg)
      ∨ ((∃ w, session q g j1 j2 s = .error (.error w)) ∧ ¬ Genuine q s s.msg) := by
  obtain ⟨ms, p1, e1, r1, k1, f1, i1⟩ := extended_ok { q := q } ShaInv.new.pos rfl hq (by show 0 + 4 ≤ _; omega) g hg s.pms hp s.hash hh
  have i1 : p1.hmac.sha.ivIn.length ≤ 0 + 4 := i1
  have hml : ms.length = 384 := by
    rw [← List.length_reverse, r1, TLS.extendedMasterSecret, HMAC.prf, List.length_take, length_pHash]; rfl
  obtain ⟨t, p2, e2, part, k2, f2, i2⟩ := expansion_ok p1 k1.pos (by rw [f1]) (by omega) g hg ms (by omega) s.rc s.rs hr
  obtain ⟨fc, p3, e3, k3, r3, f3, i3⟩ := prfCall_ok k2 (by rw [f2, f1]) g hg [] (finishedMsgLength * 8) clientFinishedLabel s.tauC
    (by have : clientFinishedLabel.length = 15 := rfl; omega) (by have : finishedMsgLength * 8 = 96 := rfl; omega)
  obtain ⟨fs, p4, e4, _, r4, _, _⟩ := prfCall_ok k3 (by rw [f3, f2, f1]) g hg [] (finishedMsgLength * 8) serverFinishedLabel s.tauS
    (by have : serverFinishedLabel.length = 15 := rfl; omega) (by have : finishedMsgLength * 8 = 96 := rfl; omega)
  rw [List.reverse_nil, List.nil_append, r1] at r3 r4
  rw [r1] at part
  have lf : ∀ k l u, (HMAC.prf k l u (finishedMsgLength * 8)).length = 8 * 12 := by
    intro k l u; rw [HMAC.prf, List.length_take, length_pHash]; rfl
  obtain ⟨vc, lvc, rfl, bvc⟩ := bytes_of fc 12 (by rw [r3]; exact lf _ _ _)
  obtain ⟨vs, lvs, rfl, bvs⟩ := bytes_of fs 12 (by rw [r4]; exact lf _ _ _)
  obtain ⟨tkc, tks, tic, tis⟩ := t
  obtain ⟨pe, l1, l2, l3, l4⟩ := part
  simp only at pe l1 l2 l3 l4
  obtain ⟨ck, lck, rfl, bck⟩ := bytes_of tkc 16 l1
  obtain ⟨sk, lsk, rfl, bsk⟩ := bytes_of tks 16 l2
  obtain ⟨civ, lci, rfl, bci⟩ := bytes_of tic 4 l3
  obtain ⟨siv, lsi, rfl, bsi⟩ := bytes_of tis 4 l4
  -- the three proofs
  have hsess : session q g j1 j2 s = (do
      let b ← AESProver.provePrivate (aes ck) (strToInt civ) s.ivC (strToInt (finHead ++ vc)) s.finC s.finC.length
      if !b then .error (.error "prove client finish msg error")
      else do
        let b ← AESProver.provePrivate (aes sk) (strToInt siv) s.ivS (strToInt (finHead ++ vs)) s.finS s.finS.length
        if !b then .error (.error "prove server finish msg error")
        else do
          let b ← AESProver.provePrivate (aes ck) (strToInt civ) s.ivM (strToInt s.msg) s.ctxt s.ctxt.length
          if !b then .error (.error "prove http msg error")
          else .ok b) := by
    simp only [session, Prover.clientFinished, Prover.serverFinished, bind, Except.bind, e1, e2, e3, e4, aesProver_ok j1 j2 ck civ lck lci,
      aesProver_ok j1 j2 sk siv lsk lsi, strToInt_head]
    rfl
  rw [hsess]
  -- uniqueness of the specification
  have huniq : Genuine q s s.msg ↔ (s.finC = GCM.crypt (aes ck) (GCM.j0 (civ ++ s.ivC)) (finHead ++ vc)
      ∧ s.finS = GCM.crypt (aes sk) (GCM.j0 (siv ++ s.ivS)) (finHead ++ vs)
      ∧ s.ctxt = GCM.crypt (aes ck) (GCM.j0 (civ ++ s.ivM)) s.msg) := by
    constructor
    · rintro ⟨ck', sk', civ', siv', vc', vs', ⟨pe', m1, m2, m3, m4⟩, hvc, hvs, x1, x2, x3⟩
      simp only at pe' m1 m2 m3 m4
      rw [pe] at pe'
      have a4 := List.append_inj' pe' (by rw [l4, m4])
      have a3 := List.append_inj' a4.1 (by rw [l3, m3])
      have a2 := List.append_inj' a3.1 (by rw [l2, m2])
      obtain rfl : ck = ck' := bytesBits_inj (by rw [bck]; exact a2.1)
      obtain rfl : sk = sk' := bytesBits_inj (by rw [bsk]; exact a2.2)
      obtain rfl : civ = civ' := bytesBits_inj (by rw [bci]; exact a3.2)
      obtain rfl : siv = siv' := bytesBits_inj (by rw [bsi]; exact a4.2)
      obtain rfl : vc = vc' := bytesBits_inj (by rw [bvc, r3, hvc]; rfl)
      obtain rfl : vs = vs' := bytesBits_inj (by rw [bvs, r4, hvs]; rfl)
      exact ⟨x1, x2, x3⟩
    · rintro ⟨x1, x2, x3⟩
      refine ⟨ck, sk, civ, siv, vc, vs, ⟨?_, ?_, ?_, ?_, ?_⟩, by rw [bvc, r3]; rfl, by rw [bvs, r4]; rfl, x1, x2, x3⟩
      · simp only [bck, bsk, bci, bsi]; exact pe
      · rw [bck]; exact l1
      · rw [bsk]; exact l2
      · rw [bci]; exact l3
      · rw [bsi]; exact l4
  rw [huniq]
  rcases private_ok (aes ck) civ s.ivC lci ic (finHead ++ vc) s.finC with ⟨b1, t1, u1⟩ | ⟨⟨w, t1⟩, u1⟩
  · cases b1 with
    | false =>
      right
      simp only [bind, Except.bind, t1]
      exact ⟨⟨_, rfl⟩, fun h => by simpa using u1.2 h.1⟩
    | true =>
      rcases private_ok (aes sk) siv s.ivS lsi is (finHead ++ vs) s.finS with ⟨b2, t2, u2⟩ | ⟨⟨w, t2⟩, u2⟩
      · cases b2 with
        | false =>
          right
          simp only [bind, Except.bind, t1, t2]
          exact ⟨⟨_, rfl⟩, fun h => by simpa using u2.2 h.2.1⟩
        | true =>
          rcases private_ok (aes ck) civ s.ivM lci im s.msg s.ctxt with ⟨b3, t3, u3⟩ | ⟨⟨w, t3⟩, u3⟩
          · cases b3 with
            | false =>
              right
              simp only [bind, Except.bind, t1, t2, t3]
              exact ⟨⟨_, rfl⟩, fun h => by simpa using u3.2 h.2.2⟩
            | true =>
              left
              simp only [bind, Except.bind, t1, t2, t3]
              exact ⟨rfl, u1.1 rfl, u2.1 rfl, u3.1 rfl⟩
          · right
            simp only [bind, Except.bind, t1, t2, t3]
            exact ⟨⟨w, rfl⟩, fun h => u3 h.2.2⟩
      · right
        simp only [bind, Except.bind, t1, t2]
        exact ⟨⟨w, rfl⟩, fun h => u2 h.2.1⟩
  · right
    simp only [bind, Except.bind, t1]
    exact ⟨⟨w, rfl⟩, fun h => u1 h.1⟩

/-! ### A cheating prover -/

theorem feed_step {m : Hmac} {key inn} (h : HmacInv m key inn) (g : List Byte) (hg : g.length = 64) (msg : List Byte)
    (hm : 512 + 8 * msg.length < 2 ^ 64) (hsz : m.sha.ivIn.length ≤ 2 ^ 64) (ri ro : Bool) (hc : ri = true → inn ≠ some true)
    (d : List (BitVec 32)) (hd : d.length = 8) :
    ∃ r m', m.optHmacFeed g msg ri ro false (fun _ => d) = .ok (r, m') ∧ Dig8 r
      ∧ secBits r = SHA256.sha256 (oBlock key ++ d.flatMap SHA256.wordBits)
      ∧ HmacInv m' key (if ri then some false else inn) ∧ m'.sha.ivIn.length ≤ m.sha.ivIn.length + 1 := by
  obtain ⟨o, inv, ho⟩ := h.sha
  obtain ⟨dig, s1, e1, b1, c1, l1, f1⟩ := opt_step inv g hg m.iKeyPad h.ilen msg hm ri hsz (by
    intro hr k b hb
    cases inn with
    | none => simp at hb
    | some k' =>
      simp only [Option.map_some, Option.some.injEq, Prod.mk.injEq] at hb
      obtain ⟨rfl, rfl⟩ := hb
      refine ⟨?_, h.ipad.symm⟩
      have := hc hr
      cases k' <;> simp_all)
  have hin : (concat [] (d.map fun d => ofNat 32 d.toNat)).reverse = d.flatMap SHA256.wordBits := by
    have := openBits_eq d
    rw [openBits] at this
    exact this
  have hoo : (concat m.oKeyPad (d.map fun d => ofNat 32 d.toNat)).reverse = oBlock key ++ d.flatMap SHA256.wordBits := by
    rw [concat_reverse, h.opad, ← hin, concat_reverse]; simp
  obtain ⟨d2, s2, e2, a2, b2, c2, f2⟩ := digest_step c1 (concat m.oKeyPad (d.map fun d => ofNat 32 d.toNat))
    (by rw [← List.length_reverse, hoo, List.length_append, length_oBlock, length_flatMap_wordBits, hd]; decide) ro (by
      intro _ b hb
      rw [hoo, block0_eq _ _ (length_oBlock key)]
      rcases ho with rfl | rfl
      · simp at hb
      · simpa using hb.symm)
  rw [hoo] at b2 c2
  refine ⟨d2, { m with sha := s2, shaCalls := m.shaCalls + 2 }, ?_, a2, sha256_eq _ d2 a2 b2,
    ⟨⟨if ro = true then some (block0 (oBlock key ++ d.flatMap SHA256.wordBits)) else o, ?_, ?_⟩, h.opad, h.ipad⟩, ?_⟩
  rotate_left 1
  · have : (if ri = true then some (false, m.iKeyPad.reverse) else Option.map (fun k => (k, iBlock key)) inn)
        = Option.map (fun k => (k, iBlock key)) (if ri = true then some false else inn) := by
      cases ri <;> simp [h.ipad]
    rw [← this]; exact c2
  · cases ro with
    | false => simpa using ho
    | true => right; simp [block0_eq _ _ (length_oBlock key)]
  · show s2.ivIn.length ≤ _
    rw [f2]; exact l1
  · unfold Hmac.optHmacFeed
    simp only [bind, Except.bind, e1, e2]

/-- The bits a prover gets by feeding the words `d`: no label, no seed, no transcript. -/
def freeBits (key : List Bool) (d : Nat → List (BitVec 32)) : Nat → List Bool
  | 0 => []
  | n + 1 => SHA256.sha256 (HMAC.xorBits (HMAC.blockKey key) (HMAC.padString 0x5c) ++ (d (2 * n)).flatMap SHA256.wordBits) ++ freeBits key d n

theorem length_freeBits (key : List Bool) (d : Nat → List (BitVec 32)) (n : Nat) : (freeBits key d n).length = 256 * n := by
  induction n with
  | zero => rfl
  | succ n ih => rw [freeBits, List.length_append, length_sha256, ih]; omega

theorem phashFeed_ok (key : List Bool) (g : Nat → List Byte) (hg : Buf g) (seed : List Byte) (hs : seed.length < 2 ^ 59) (ri ro : Bool)
    (d : Nat → List (BitVec 32)) (hd : ∀ i, (d i).length = 8) : ∀ (n : Nat) (inn : Option Bool) (p : Prf) (m : Hmac) (a : List Byte)
    (res : Integer), HmacInv m key inn → inn ≠ some true → a.length < 2 ^ 60 → m.sha.ivIn.length + 2 * n ≤ 2 ^ 64 →
    ∃ r p' m' inn', phashFeed (fun i _ => d i) g seed ri ro n p m a res = .ok (r, p', m') ∧ HmacInv m' key inn' ∧ inn' ≠ some true
      ∧ m'.sha.ivIn.length ≤ m.sha.ivIn.length + 2 * n ∧ r.reverse = res.reverse ++ freeBits key d n := by
  intro n
  induction n with
  | zero => intro inn p m a res h hi _ _; exact ⟨res, p, m, inn, rfl, h, hi, by simp, by simp [freeBits]⟩
  | succ n ih =>
    intro inn p m a res h hi ha hsz
    obtain ⟨d1, m1, e1, a1, b1, h1, l1⟩ := feed_step h (g (2 * n + 1)) (hg _) a (by omega) (by omega) ri ro (fun _ => hi) (d (2 * n + 1)) (hd _)
    have hi1 : (if ri = true then some false else inn) ≠ some true := by split; · simp
                                                                         · exact hi
    have hAl : ((revealWords d1).flatMap wordBytes).length = 32 := by
      have h8 := length_bytesBits ((revealWords d1).flatMap wordBytes)
      have hB : (bytesBits ((revealWords d1).flatMap wordBytes)).length = 256 := by
        rw [wordsBytes_bits, revealWords_eq d1 a1, ← secBits_eq d1 a1, b1, length_sha256]
      omega
    obtain ⟨d2, m2, e2, a2, b2, h2, l2⟩ := feed_step h1 (g (2 * n)) (hg _) ((revealWords d1).flatMap wordBytes ++ seed)
      (by rw [List.length_append, hAl]; omega) (by omega) ri ro (fun _ => hi1) (d (2 * n)) (hd _)
    have hi2 : (if ri = true then some false else if ri = true then some false else inn) ≠ some true := by
      split
      · simp
      · exact hi
    obtain ⟨r, p', m', inn', e, h3, hi3, l3, r3⟩ := ih _ { p with calls := p.calls + 1 + 1, pubM := p.pubM ++ [revealWords d1] } m2
      ((revealWords d1).flatMap wordBytes) (concat res d2) h2 hi2 (by rw [hAl]; decide) (by omega)
    refine ⟨r, p', m', inn', ?_, h3, hi3, by omega, ?_⟩
    · simp only [phashFeed, bind, Except.bind, e1, e2, e]
    · have : (concat res d2).reverse = res.reverse ++ secBits d2 := by
        rw [secBits, concat_reverse, concat_reverse]; simp
      rw [r3, this, b2, freeBits, List.append_assoc]; rfl

/-- With the honest input `prfCallFeed` is `prfCall`. -/
theorem prfCallFeed_id (p : Prover) (hz : p.zk = false) (g : Nat → List Byte) (res : Integer) (b : Nat) (l s : List Byte) :
    p.prfCallFeed (fun _ d => d) g res b l s = p.prfCall g res b l s := by
  have : ∀ (n : Nat) (f : Prf) (m : Hmac) (a : List Byte) (res : Integer),
      phashFeed (fun _ d => d) g (l ++ s) p.ri p.ro n f m a res = optPhashLoop g (l ++ s) p.ri p.ro false n f m a res := by
    intro n
    induction n with
    | zero => intro f m a res; rfl
    | succ n ih =>
      intro f m a res
      have hh : ∀ (m : Hmac) x y, m.optHmacFeed x y p.ri p.ro false (fun d => d) = m.optHmac x y p.ri p.ro false := fun _ _ _ => rfl
      simp only [phashFeed, optPhashLoop, bind, Except.bind, hh, ih, Bool.not_false, if_true]
  simp only [Prover.prfCallFeed, Prover.prfCall, Prf.optCompute, Prf.optPhash, bind, Except.bind, hz, this]
  cases optPhashLoop g (l ++ s) p.ri p.ro false (prfBlocks b) p.prf p.hmac (l ++ s) res <;> rfl

/-- **C48 fails against a cheating prover.**  The inner digest of every HMAC is an input of ALICE that nothing binds
(`cipher/hmac_sha256.h:94`).  With the words `d` instead, every call goes through and leaves a keyed object; what it writes depends on
`d` only: the proxy accepts keys and finished messages that are not those of the recorded handshake. -/
theorem C48_prover_unbound {p : Prover} {key : List Bool} (hk : Keyed p key) (g : Nat → List Byte) (hg : Buf g) (res : Integer) (b : Nat)
    (d : Nat → List (BitVec 32)) (hd : ∀ i, (d i).length = 8) (hsz : p.hmac.sha.ivIn.length + 2 * (b / 256 + 1) ≤ 2 ^ 64) :
    ∃ out : List Bool, out = (freeBits key d (b / 256 + 1)).take b ∧ out.length = b ∧
      ∀ l s : List Byte, l.length + s.length < 2 ^ 58 →
        ∃ r p', p.prfCallFeed (fun i _ => d i) g res b l s = .ok (r, p') ∧ Keyed p' key ∧ r.reverse = res.reverse ++ out := by
  refine ⟨_, rfl, by rw [List.length_take, length_freeBits]; omega, fun l s hl => ?_⟩
  obtain ⟨inn, inv, hi⟩ := hk
  obtain ⟨r, f, m, inn', e, h3, hi3, l3, r3⟩ := phashFeed_ok key g hg (l ++ s) (by rw [List.length_append]; omega) p.ri p.ro d hd
    (prfBlocks b) inn p.prf p.hmac (l ++ s) res inv hi (by rw [List.length_append]; omega) hsz
  have hb : prfBlocks b = b / 256 + 1 := rfl
  refine ⟨prfTrunc r b, { p with prf := f, hmac := m }, by simp only [Prover.prfCallFeed, bind, Except.bind, e], ⟨inn', h3, hi3⟩, ?_⟩
  have hrl : r.length = res.length + 256 * (b / 256 + 1) := by
    rw [← List.length_reverse, r3, List.length_append, length_freeBits, List.length_reverse]; rfl
  unfold prfTrunc
  rw [List.reverse_drop, r3, hrl, hb]
  have e : res.length + 256 * (b / 256 + 1) - ((b / 256 + 1) * (8 * 32) - b) = res.reverse.length + b := by
    rw [List.length_reverse]; omega
  rw [e, List.take_length_add_append]

/-! ### The hypotheses can be met -/

example : Fits (2 ^ 255 - 19) false [.extended (fun _ => List.replicate 64 7) [] 12345 (List.replicate 32 1),
    .expansion (fun _ => List.replicate 64 7) (List.replicate 384 true) (List.replicate 32 2) (List.replicate 32 3),
    .clientFinished (fun _ => List.replicate 64 7) [] [] (List.replicate 32 4),
    .serverFinished (fun _ => List.replicate 64 7) [] [] (List.replicate 32 5)] := by
  refine ⟨⟨fun _ => List.length_replicate, by decide +kernel, ?_⟩, ⟨fun _ => List.length_replicate, ?_, ?_⟩,
    ⟨fun _ => List.length_replicate, rfl, ?_⟩, ⟨fun _ => List.length_replicate, rfl, ?_⟩, trivial⟩
  all_goals (simp only [List.length_replicate]; decide)

example : ∃ p key, Keyed p key ∧ p.hmac.sha.ivIn.length + 2 * (384 / 256 + 1) ≤ 2 ^ 64 := by
  obtain ⟨p, e, k, _, i⟩ := key_ok { q := 2 ^ 255 - 19 } ShaInv.new.pos (by decide +kernel) 12345 (by decide +kernel)
  exact ⟨p, _, k, by rw [i]; decide⟩

/-- Every handshake and message has recorded ciphertexts that are genuine. -/
theorem exists_genuine (q : Nat) (s : Session) : ∃ fc fs ct, Genuine q { s with finC := fc, finS := fs, ctxt := ct } s.msg := by
  have lk : (TLS.keyBlock (TLS.extendedMasterSecret (pmsBits q s.pms) (bytesBits s.hash)) (bytesBits s.rc) (bytesBits s.rs)).length = 320 := by
    rw [TLS.keyBlock, HMAC.prf, List.length_take, length_pHash]; rfl
  have lf : ∀ k l u, (TLS.verifyData k l u).length = 8 * 12 := by
    intro k l u; rw [TLS.verifyData, HMAC.prf, List.length_take, length_pHash]; rfl
  have hb : ∀ (x : List Bool) (n : Nat), x.length = 8 * n → ∃ s : List Byte, bytesBits s = x := fun x n h => by
    obtain ⟨s, _, _, h2⟩ := bytes_of x.reverse n (by simpa using h)
    exact ⟨s, by simpa using h2⟩
  obtain ⟨vc, hvc⟩ := hb _ 12 (lf (TLS.extendedMasterSecret (pmsBits q s.pms) (bytesBits s.hash)) (TLS.ascii "client finished") (bytesBits s.tauC))
  obtain ⟨vs, hvs⟩ := hb _ 12 (lf (TLS.extendedMasterSecret (pmsBits q s.pms) (bytesBits s.hash)) (TLS.ascii "server finished") (bytesBits s.tauS))
  generalize hkb : TLS.keyBlock (TLS.extendedMasterSecret (pmsBits q s.pms) (bytesBits s.hash)) (bytesBits s.rc) (bytesBits s.rs) = kb at lk
  obtain ⟨ck, h1⟩ := hb (kb.take 128) 16 (by simp; omega)
  obtain ⟨sk, h2⟩ := hb ((kb.drop 128).take 128) 16 (by simp; omega)
  obtain ⟨civ, h3⟩ := hb ((kb.drop 256).take 32) 4 (by simp; omega)
  obtain ⟨siv, h4⟩ := hb (kb.drop 288) 4 (by simp; omega)
  refine ⟨GCM.crypt (aes ck) (GCM.j0 (civ ++ s.ivC)) ([0x14, 0, 0, 12] ++ vc), GCM.crypt (aes sk) (GCM.j0 (siv ++ s.ivS)) ([0x14, 0, 0, 12] ++ vs),
    GCM.crypt (aes ck) (GCM.j0 (civ ++ s.ivM)) s.msg, ⟨ck, sk, civ, siv, vc, vs, ?_, hvc, hvs, rfl, rfl, rfl⟩⟩
  show TLS.IsPartition _ (TLS.keyBlock (TLS.extendedMasterSecret (pmsBits q s.pms) (bytesBits s.hash)) (bytesBits s.rc) (bytesBits s.rs))
  rw [hkb]
  simp only [TLS.IsPartition, h1, h2, h3, h4]
  refine ⟨?_, ?_, ?_, ?_, ?_⟩
  · conv_lhs => rw [← List.take_append_drop 128 kb, ← List.take_append_drop 128 (kb.drop 128),
      ← List.take_append_drop 32 ((kb.drop 128).drop 128)]
    simp only [List.drop_drop, List.append_assoc]
  all_goals (simp; omega)

/-- A session accepted, and the same with a finished message cut to nothing refused. -/
example (q : Nat) (hq : bnNumBytes q < 2 ^ 59) (pms : Nat) (hp : bnNumBytes pms ≤ bnNumBytes q) (x : List Byte) (hx : x.length < 2 ^ 56)
    (iv : List Byte) (hiv : iv.length = 8) (msg : List Byte) (j1 j2 : AESCircuit.Wires) :
    ∃ fc fs ct, session q (fun _ => List.replicate 64 7) j1 j2 ⟨pms, x, x, x, x, x, iv, fc, iv, fs, iv, msg, ct⟩ = .ok true
      ∧ session q (fun _ => List.replicate 64 7) j1 j2 ⟨pms, x, x, x, x, x, iv, [], iv, fs, iv, msg, ct⟩ ≠ .ok true := by
  obtain ⟨fc, fs, ct, h⟩ := exists_genuine q ⟨pms, x, x, x, x, x, iv, [], iv, [], iv, msg, []⟩
  have h1 : x.length < 2 ^ 57 := by omega
  have h2 : x.length + x.length < 2 ^ 57 := by omega
  refine ⟨fc, fs, ct, ?_, ?_⟩
  · rcases C48_session q hq (fun _ => List.replicate 64 7) (fun _ => List.length_replicate) j1 j2
      ⟨pms, x, x, x, x, x, iv, fc, iv, fs, iv, msg, ct⟩ hp h1 h2 h1 h1 hiv hiv hiv with ⟨a, _⟩ | ⟨_, b⟩
    · exact a
    · exact absurd h b
  · rcases C48_session q hq (fun _ => List.replicate 64 7) (fun _ => List.length_replicate) j1 j2
      ⟨pms, x, x, x, x, x, iv, [], iv, fs, iv, msg, ct⟩ hp h1 h2 h1 h1 hiv hiv hiv with ⟨_, b⟩ | ⟨⟨w, a⟩, _⟩
    · exfalso
      obtain ⟨ck, sk, civ, siv, vc, vs, _, _, _, h1, _⟩ := b.ok
      have := congrArg List.length h1
      simp [GCM.crypt] at this
    · rw [a]; simp

end Verif.Props.Proxy
