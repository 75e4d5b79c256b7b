import Verif.Model.Transcript
import Verif.Props.SessionBound

/-!
C84: what BOB passes to the calls of the handshake (randoms, hashes, labels) plays no part; the keys and the decision are those for what ALICE passes.
-/

namespace Verif.Props.Transcript
open Verif.Model Verif.Model.Integer Verif.Model.AEADProof Verif.Model.SHA Verif.Model.Session
open Verif.Spec Verif.Spec.Encoding
open Verif.Lemmas Verif.Props Verif.Props.AEADProof Verif.Props.Session Verif.Props.HandshakeProof Verif.Props.SessionBound
open Verif.Props.Garbled (aes)

/-- Two computations that go on in the same way from every outcome. -/
theorem bind_congr {α β : Type} {x x' : Res α} {f f' : α → Res β} (hx : x = x') (h : ∀ a, x = .ok a → f a = f' a) : (x >>= f) = (x' >>= f') := by
  subst hx
  cases x with
  | error e => rfl
  | ok a => exact h a rfl

/-- One HMAC: the digest that ALICE computes counts. -/
theorem hmacTwo_eq (m : Hmac) (gA gB msgA msgB : List Byte) (ri ro zk : Bool) : m.optHmacTwo gA gB msgA msgB ri ro zk = m.optHmac gA msgA ri ro zk := by
  unfold Hmac.optHmacTwo Hmac.optHmac Sha.optDigest Sha.optUpdate
  generalize m.sha.optFirst m.iKeyPad ri zk = x
  cases x <;> simp only [bind, Except.bind, ofOwner]

theorem phashTwo_eq (gA gB : Nat → List Byte) (seedA seedB : List Byte) (ri ro zk : Bool) : ∀ (n : Nat) (p : Prf) (m : Hmac) (aA aB : List Byte) (res : Integer),
    optPhashTwo gA gB seedA seedB ri ro zk n p m aA aB res = optPhashLoop gA seedA ri ro zk n p m aA res
  | 0, _, _, _, _, _ => rfl
  | n + 1, p, m, aA, aB, res => by
    unfold optPhashTwo optPhashLoop
    refine bind_congr (hmacTwo_eq _ _ _ _ _ _ _ _) ?_
    rintro ⟨tmp, m1⟩ -
    refine bind_congr rfl ?_
    rintro ⟨tmpd, p1⟩ -
    refine bind_congr (hmacTwo_eq _ _ _ _ _ _ _ _) ?_
    rintro ⟨tmp2, m2⟩ -
    exact phashTwo_eq gA gB seedA seedB ri ro zk n _ _ _ _ _

/-- The lengths that must agree with the round optimisation: those of the strings that are inputs of the circuit. -/
def SameLengths (A B : Passed) : Prop :=
  (A.label ++ A.seed).length = (B.label ++ B.seed).length ∧ (A.rs ++ A.rc).length = (B.rs ++ B.rc).length
    ∧ A.tauC.length = B.tauC.length ∧ A.tauS.length = B.tauS.length

/-- **C84, one call of the PRF.**  The result and the state of both parties after it are those for ALICE's label and seed. -/
theorem C84_compute (p : Prf) (m : Hmac) (rounds : Bool) (gA gB : Nat → List Byte) (res : Integer) (bitlen : Nat) (labelA seedA labelB seedB : List Byte) (zk : Bool)
    (hl : rounds = true → (labelA ++ seedA).length = (labelB ++ seedB).length) :
    p.computeTwo m rounds gA gB res bitlen labelA seedA labelB seedB zk
      = if !rounds then p.optCompute m gA res bitlen labelA seedA true true zk else p.optRoundsCompute m res bitlen labelA seedA true true := by
  unfold Prf.computeTwo
  cases rounds with
  | false =>
    simp only [Bool.not_false, if_true]
    unfold Prf.optCompute Prf.optPhash
    rw [phashTwo_eq]
  | true =>
    simp only [Bool.not_true, Bool.false_eq_true, if_false]
    unfold Prf.optRoundsPhashTwo Prf.optRoundsCompute Prf.optRoundsPhash
    rw [if_neg (by rw [hl rfl]; exact fun h => h rfl)]
    rfl

theorem callTwo (h : Hs) (gA gB : Nat → List Byte) (res : Integer) (bitlen : Nat) (labelA seedA labelB seedB : List Byte)
    (hl : h.roundsOpt = true → (labelA ++ seedA).length = (labelB ++ seedB).length) :
    h.prfCallTwo false gA gB res bitlen labelA seedA labelB seedB = h.prfCall gA res bitlen labelA seedA := by
  unfold Hs.prfCallTwo Hs.prfCall
  rw [C84_compute _ _ _ _ _ _ _ _ _ _ _ _ hl]
  by_cases hr : (!h.roundsOpt) = true
  · simp only [if_pos hr]
  · simp only [if_neg hr]

theorem callTwoZk (h : Hs) (gA gB : Nat → List Byte) (res : Integer) (bitlen : Nat) (labelA seedA labelB seedB : List Byte)
    (hl : h.roundsOpt = true → (labelA ++ seedA).length = (labelB ++ seedB).length) :
    h.prfCallTwo true gA gB res bitlen labelA seedA labelB seedB = h.prfCallZk gA res bitlen labelA seedA := by
  unfold Hs.prfCallTwo Hs.prfCallZk
  rw [C84_compute _ _ _ _ _ _ _ _ _ _ _ _ hl]
  by_cases hr : (!h.roundsOpt) = true
  · simp only [if_pos hr]
  · simp only [if_neg hr]

theorem rounds_call {h h' : Hs} {g : Nat → List Byte} {res : Integer} {b : Nat} {l s : List Byte} {r : Integer} (e : h.prfCall g res b l s = .ok (r, h')) :
    h'.roundsOpt = h.roundsOpt := by
  unfold Hs.prfCall at e
  by_cases hr : (!h.roundsOpt) = true
  · simp only [if_pos hr] at e
    obtain ⟨⟨r', p, m⟩, -, e⟩ := bind_ok.mp e
    simp only [Except.ok.injEq, Prod.mk.injEq] at e
    rw [← e.2]
  simp only [if_neg hr] at e
  obtain ⟨⟨r', p, m⟩, -, e⟩ := bind_ok.mp e
  simp only [Except.ok.injEq, Prod.mk.injEq] at e
  rw [← e.2]

theorem rounds_callZk {h h' : Hs} {g : Nat → List Byte} {res : Integer} {b : Nat} {l s : List Byte} {r : Integer} (e : h.prfCallZk g res b l s = .ok (r, h')) :
    h'.roundsOpt = h.roundsOpt := by
  unfold Hs.prfCallZk at e
  by_cases hr : (!h.roundsOpt) = true
  · simp only [if_pos hr] at e
    obtain ⟨⟨r', p, m⟩, -, e⟩ := bind_ok.mp e
    simp only [Except.ok.injEq, Prod.mk.injEq] at e
    rw [← e.2]
  simp only [if_neg hr] at e
  obtain ⟨⟨r', p, m⟩, -, e⟩ := bind_ok.mp e
  simp only [Except.ok.injEq, Prod.mk.injEq] at e
  rw [← e.2]

theorem rounds_shares {h h' : Hs} {a b : Nat} (e : h.keyFromShares a b = .ok h') : h'.roundsOpt = h.roundsOpt := by
  obtain ⟨_, -, e⟩ := bind_ok.mp e
  obtain ⟨_, -, e⟩ := bind_ok.mp e
  obtain ⟨⟨p, m⟩, -, e⟩ := bind_ok.mp e
  simp only [Except.ok.injEq] at e
  rw [← e]

theorem rounds_key {h h' : HsP} {pms : Nat} (e : h.proveKey pms = .ok h') : h'.hs.roundsOpt = h.hs.roundsOpt := by
  obtain ⟨_, -, e⟩ := bind_ok.mp e
  obtain ⟨_, -, e⟩ := bind_ok.mp e
  split at e
  · cases e
  · obtain ⟨⟨p, m⟩, -, e⟩ := bind_ok.mp e
    simp only [Except.ok.injEq] at e
    rw [← e]

theorem seed_eq (A : Passed) : A.label = mLabel A.k ∧ A.seed = mSeed A.k A.rc A.rs := by
  obtain ⟨k, rc, rs, tc, ts⟩ := A
  cases k <;> exact ⟨rfl, rfl⟩

/-- The two master key functions differ in label and seed only. -/
theorem master_call (h : Hs) (g : Nat → List Byte) (a b : Nat) (A : Passed) : h.computeMaster g a b A.k A.rc A.rs
    = (h.keyFromShares a b >>= fun h => h.prfCall g h.masterKey (masterKeyLength * 8) A.label A.seed >>= fun x => .ok { x.2 with masterKey := x.1 }) := by
  obtain ⟨k, rc, rs, tc, ts⟩ := A
  cases k <;> rfl

theorem prove_call (h : HsP) (g : Nat → List Byte) (ms : Integer) (pms : Nat) (A : Passed) : h.proveMaster g ms pms A.k A.rc A.rs
    = (h.proveKey pms >>= fun h => h.hs.prfCallZk g ms (masterKeyLength * 8) A.label A.seed >>= fun x => .ok (x.1, { h with hs := x.2 })) := by
  obtain ⟨k, rc, rs, tc, ts⟩ := A
  cases k <;> rfl

theorem rounds_master {h h' : Hs} {g : Nat → List Byte} {a b : Nat} {A : Passed} (e : h.computeMaster g a b A.k A.rc A.rs = .ok h') : h'.roundsOpt = h.roundsOpt := by
  rw [master_call] at e
  obtain ⟨h1, e1, e⟩ := bind_ok.mp e
  obtain ⟨⟨r, h2⟩, e2, e⟩ := bind_ok.mp e
  simp only [Except.ok.injEq] at e
  rw [← e, ← rounds_shares e1, ← rounds_call e2]

theorem rounds_expand {h h' : Hs} {g : Nat → List Byte} {rc rs : List Byte} (e : h.computeExpansionKeys g rc rs = .ok h') : h'.roundsOpt = h.roundsOpt := by
  obtain ⟨⟨p, m⟩, -, e⟩ := bind_ok.mp e
  obtain ⟨⟨r, h2⟩, e2, e⟩ := bind_ok.mp e
  obtain ⟨_, -, e⟩ := bind_ok.mp e
  obtain ⟨_, -, e⟩ := bind_ok.mp e
  obtain ⟨_, -, e⟩ := bind_ok.mp e
  obtain ⟨_, -, e⟩ := bind_ok.mp e
  simp only [Except.ok.injEq] at e
  have r2 := rounds_call e2
  rw [← e]
  show h2.roundsOpt = h.roundsOpt
  exact r2

theorem rounds_client {h h' : Hs} {g : Nat → List Byte} {l t : List Byte} (e : h.computeClientFinished g l t = .ok h') : h'.roundsOpt = h.roundsOpt := by
  obtain ⟨⟨r, h2⟩, e2, e⟩ := bind_ok.mp e
  simp only [Except.ok.injEq] at e
  have r2 := rounds_call e2
  rw [← e]
  show h2.roundsOpt = h.roundsOpt
  exact r2

theorem rounds_schedule {h h' : Hs} {g : Nat → List Byte} {a b : Nat} {A : Passed} (e : h.schedule g a b A.k A.rc A.rs A.tauC A.tauS = .ok h') :
    h'.roundsOpt = h.roundsOpt := by
  obtain ⟨h1, e1, e⟩ := bind_ok.mp e
  obtain ⟨h2, e2, e⟩ := bind_ok.mp e
  obtain ⟨h3, e3, e⟩ := bind_ok.mp e
  obtain ⟨⟨r, h4⟩, e4, e⟩ := bind_ok.mp e
  simp only [Except.ok.injEq] at e
  have r4 := rounds_call e4
  rw [← e]
  show h4.roundsOpt = h.roundsOpt
  rw [r4, rounds_client e3, rounds_expand e2, rounds_master e1]

/-- **C84, the handshake.**  Whatever BOB passes (with the round optimisation: strings of the same lengths), the handshake is the one for what ALICE passes: the same
result, opened values, keys, finished values and members of both parties. -/
theorem C84_handshake (h : Hs) (gA gB : Nat → List Byte) (a b : Nat) (A B : Passed) (hl : h.roundsOpt = true → SameLengths A B) :
    h.scheduleTwo gA gB a b A B = h.schedule gA a b A.k A.rc A.rs A.tauC A.tauS := by
  have s1 : h.computeMasterTwo gA gB a b A B = h.computeMaster gA a b A.k A.rc A.rs := by
    rw [master_call]
    refine bind_congr rfl fun h1 e1 => bind_congr ?_ fun _ _ => rfl
    exact callTwo _ _ _ _ _ _ _ _ _ (by rw [rounds_shares e1]; exact fun x => (hl x).1)
  refine bind_congr s1 fun h1 e1 => ?_
  rw [s1] at e1
  have r1 := rounds_master e1
  have s2 : h1.computeExpansionKeysTwo gA gB A B = h1.computeExpansionKeys gA A.rc A.rs := by
    refine bind_congr rfl fun x _ => bind_congr ?_ fun _ _ => rfl
    refine callTwo _ _ _ _ _ _ _ _ _ fun y => ?_
    change h1.roundsOpt = true at y
    rw [r1] at y
    simpa using (hl y).2.1
  refine bind_congr s2 fun h2 e2 => ?_
  rw [s2] at e2
  have r2 := (rounds_expand e2).trans r1
  have s3 : h2.computeClientFinishedTwo gA gB clientFinishedLabel A.tauC clientFinishedLabel B.tauC = h2.computeClientFinished gA clientFinishedLabel A.tauC := by
    refine bind_congr ?_ fun _ _ => rfl
    refine callTwo _ _ _ _ _ _ _ _ _ fun y => ?_
    rw [r2] at y
    simpa using (hl y).2.2.1
  refine bind_congr s3 fun h3 e3 => ?_
  rw [s3] at e3
  have r3 := (rounds_client e3).trans r2
  refine bind_congr ?_ fun _ _ => rfl
  refine callTwo _ _ _ _ _ _ _ _ _ fun y => ?_
  rw [r3] at y
  simpa using (hl y).2.2.2

theorem rounds_pmaster {h h' : HsP} {g : Nat → List Byte} {ms r : Integer} {pms : Nat} {A : Passed} (e : h.proveMaster g ms pms A.k A.rc A.rs = .ok (r, h')) :
    h'.hs.roundsOpt = h.hs.roundsOpt := by
  rw [prove_call] at e
  obtain ⟨h1, e1, e⟩ := bind_ok.mp e
  obtain ⟨⟨r, h2⟩, e2, e⟩ := bind_ok.mp e
  simp only [Except.ok.injEq, Prod.mk.injEq] at e
  rw [← e.2, ← rounds_key e1, ← rounds_callZk e2]

theorem rounds_pexpand {h h' : HsP} {g : Nat → List Byte} {ms : Integer} {rc rs : List Byte} {ks : Keys} (e : h.proveExpansionKeys g ms rc rs = .ok (ks, h')) :
    h'.hs.roundsOpt = h.hs.roundsOpt := by
  obtain ⟨⟨p, m⟩, -, e⟩ := bind_ok.mp e
  obtain ⟨⟨r, h2⟩, e2, e⟩ := bind_ok.mp e
  obtain ⟨_, -, e⟩ := bind_ok.mp e
  obtain ⟨_, -, e⟩ := bind_ok.mp e
  obtain ⟨_, -, e⟩ := bind_ok.mp e
  obtain ⟨_, -, e⟩ := bind_ok.mp e
  simp only [Except.ok.injEq, Prod.mk.injEq] at e
  have r2 := rounds_callZk e2
  rw [← e.2]
  show h2.roundsOpt = h.hs.roundsOpt
  exact r2

theorem rounds_pclient {h h' : HsP} {g : Nat → List Byte} {l t : List Byte} {c : Check} (e : h.proveClientFinished g l t = .ok (c, h')) :
    h'.hs.roundsOpt = h.hs.roundsOpt := by
  obtain ⟨⟨r, h2⟩, e2, e⟩ := bind_ok.mp e
  obtain ⟨_, -, e⟩ := bind_ok.mp e
  simp only [Except.ok.injEq, Prod.mk.injEq] at e
  have r2 := rounds_callZk e2
  rw [← e.2]
  show h2.roundsOpt = h.hs.roundsOpt
  exact r2

/-- **C84, the proof phase.**  The same for the derivation of the proof phase. -/
theorem C84_proof (h : HsP) (gA gB : Nat → List Byte) (ms : Integer) (pms : Nat) (A B : Passed) (hl : h.hs.roundsOpt = true → SameLengths A B) :
    h.proveScheduleTwo gA gB ms pms A B = h.proveSchedule gA ms pms A.k A.rc A.rs A.tauC A.tauS := by
  have s1 : h.proveMasterTwo gA gB ms pms A B = h.proveMaster gA ms pms A.k A.rc A.rs := by
    rw [prove_call]
    refine bind_congr rfl fun h1 e1 => bind_congr ?_ fun _ _ => rfl
    exact callTwoZk _ _ _ _ _ _ _ _ _ (by rw [rounds_key e1]; exact fun x => (hl x).1)
  refine bind_congr s1 ?_
  rintro ⟨ms1, h1⟩ e1
  rw [s1] at e1
  have r1 := rounds_pmaster e1
  have s2 : h1.proveExpansionKeysTwo gA gB ms1 A B = h1.proveExpansionKeys gA ms1 A.rc A.rs := by
    refine bind_congr rfl fun x _ => bind_congr ?_ fun _ _ => rfl
    refine callTwoZk _ _ _ _ _ _ _ _ _ fun y => ?_
    change h1.hs.roundsOpt = true at y
    rw [r1] at y
    simpa using (hl y).2.1
  refine bind_congr s2 ?_
  rintro ⟨ks, h2⟩ e2
  rw [s2] at e2
  have r2 := (rounds_pexpand e2).trans r1
  have s3 : h2.proveClientFinishedTwo gA gB clientFinishedLabel A.tauC clientFinishedLabel B.tauC = h2.proveClientFinished gA clientFinishedLabel A.tauC := by
    refine bind_congr ?_ fun _ _ => rfl
    refine callTwoZk _ _ _ _ _ _ _ _ _ fun y => ?_
    rw [r2] at y
    simpa using (hl y).2.2.1
  refine bind_congr s3 ?_
  rintro ⟨cc, h3⟩ e3
  rw [s3] at e3
  have r3 := (rounds_pclient e3).trans r2
  refine bind_congr ?_ fun _ _ => rfl
  refine bind_congr ?_ fun _ _ => rfl
  refine callTwoZk _ _ _ _ _ _ _ _ _ fun y => ?_
  rw [r3] at y
  simpa using (hl y).2.2.2

/-- **C84, sessions.**  The whole proof phase: the messages handed out, the checks and the decision of the verifier do not depend on the randoms, hashes and the choice
of the master secret function the verifier passes. -/
theorem C84_session (junk : AESCircuit.Wires) (p : Post) (gA gB : Nat → List Byte) (pms : Nat) (A B : Passed) (hl : p.hs.hs.roundsOpt = true → SameLengths A B)
    (finc : PostRecord.Rec) (ivc : List Byte) (fins : PostRecord.Rec) (ivs : List Byte) (claims : List Claim) (aadLen : Nat) :
    p.sessionTwo junk gA gB pms A B finc ivc fins ivs claims aadLen = p.session junk gA pms A.k A.rc A.rs A.tauC A.tauS finc ivc fins ivs claims aadLen := by
  rw [(C74_session_eq _ _ _ _ _ _ _ _ _ _ _ _ _ _ _).1]
  unfold Post.sessionTwo
  rw [C84_proof _ _ _ _ _ _ _ hl]

/-- **C84, other transcripts.**  Sessions of a client that follows the protocol are accepted by a verifier that passes other randoms, another session hash and other
hashes of the handshake messages: after such a handshake, with the records of any messages `ms`, the verifier accepts. -/
theorem C84_other_transcript (q : Nat) (rounds : Bool) (u v : List Byte) (hq : bnNumBytes q < 2 ^ 59) (gA gB : Nat → List Byte) (hg : ∀ i, (gA i).length = 64)
    (a b : Nat) (ha : a < q) (hb : b < q) (A B : Passed) (hs : Short A.k A.rc A.rs A.tauC A.tauS) (hl : rounds = true → SameLengths A B) :
    ∃ h keys, (Hs.new q rounds u v).scheduleTwo gA gB a b A B = .ok h
      ∧ Garbled.Keys.Of keys (master A.k (SHA256.beBits (8 * bnNumBytes q) ((a + b) % q)) (bytesBits A.rc) (bytesBits A.rs)) (bytesBits A.rc) (bytesBits A.rs)
      ∧ h.clientWriteKey = strToInt keys.ck ∧ h.serverWriteKey = strToInt keys.sk ∧ h.clientWriteIv = strToInt keys.civ ∧ h.serverWriteIv = strToInt keys.siv
      ∧ ∀ (junk : AESCircuit.Wires) (hash : List Byte → List Byte) (sc ss : Bool) (c s : AEAD.State) (restC restS : List AEADProof.Rec)
          (ivc aadc txtc ivs aads txts : List Byte) (ms : List Msg) (aadLen : Nat),
          Hist hash (aes keys.ck) keys.civ sc c (⟨ivc, txtc.length, false⟩ :: (sent .client ms ++ restC)) →
          Hist hash (aes keys.sk) keys.siv ss s (⟨ivs, txts.length, false⟩ :: (sent .server ms ++ restS)) →
          ivc.length = 8 → ivs.length = 8 → aadc.length = aadLen → aads.length = aadLen → (∀ m ∈ ms, m.iv.length = 8 ∧ m.aad.length = aadLen) →
          ∃ p' vd, Post.sessionTwo junk { hs := ⟨h, a, b⟩, c := c, s := s } gA gB ((a + b) % q) A B
              (sealRec keys true ivc aadc txtc) ivc (sealRec keys false ivs aads txts) ivs (ms.map (sealed keys)) aadLen = .ok (p', vd)
            ∧ Accepted vd ∧ vd.messages = ms.map fun m => strToInt m.txt := by
  obtain ⟨h, keys, e1, e2, e3, e4, e5, e6, H⟩ := C52_honest q rounds u v hq gA hg a b ha hb A.k A.rc A.rs A.tauC A.tauS hs
  refine ⟨h, keys, (C84_handshake _ _ _ _ _ _ _ hl).trans e1, e2, e3, e4, e5, e6, ?_⟩
  intro junk hash sc ss c s restC restS ivc aadc txtc ivs aads txts ms aadLen hc hs' h1 h2 h3 h4 hms
  rw [C84_session]
  · exact H junk hash sc ss c s restC restS ivc aadc txtc ivs aads txts ms aadLen hc hs' h1 h2 h3 h4 hms
  · intro hr
    exact hl ((rounds_schedule e1).symm.trans hr)

theorem bind_ok {α β : Type} {x : Res α} {f : α → Res β} {b : β} (h : (x >>= f) = .ok b) : ∃ a, x = .ok a ∧ f a = .ok b := by
  cases x with
  | error e => cases h
  | ok a => exact ⟨a, rfl, h⟩

/-- A call that ends: with the round optimisation the strings have the same length. -/
theorem call_lengths {h : Hs} {zk : Bool} {gA gB : Nat → List Byte} {res : Integer} {bitlen : Nat} {labelA seedA labelB seedB : List Byte} {x : Integer × Hs}
    (e : h.prfCallTwo zk gA gB res bitlen labelA seedA labelB seedB = .ok x) (hr : h.roundsOpt = true) :
    x.2.roundsOpt = true ∧ (labelA ++ seedA).length = (labelB ++ seedB).length := by
  obtain ⟨y, e1, e2⟩ := bind_ok e
  cases e2
  refine ⟨hr, ?_⟩
  by_contra hn
  unfold Prf.computeTwo Prf.optRoundsPhashTwo at e1
  rw [hr, if_neg (by decide), if_pos hn] at e1
  cases e1

/-- **C84, the lengths are needed.**  With the round optimisation, if any of the strings differ in length, neither the handshake nor its proof
comes to an end: the parties run different circuits. -/
theorem C84_lengths_needed (A B : Passed) (hn : ¬ SameLengths A B) (gA gB : Nat → List Byte) :
    (∀ (h h' : Hs) (a b : Nat), h.roundsOpt = true → h.scheduleTwo gA gB a b A B ≠ .ok h') ∧
    (∀ (h : HsP) (ms : Integer) (pms : Nat) (d : Session.Derived), h.hs.roundsOpt = true → h.proveScheduleTwo gA gB ms pms A B ≠ .ok d) := by
  constructor
  · intro h h' a b hr e
    obtain ⟨h1, e1, e⟩ := bind_ok e
    obtain ⟨h0, f0, e1⟩ := bind_ok e1
    obtain ⟨x1, f1, e1⟩ := bind_ok e1
    obtain ⟨r1, l1⟩ := call_lengths f1 ((rounds_shares f0).trans hr)
    cases e1
    obtain ⟨h2, e2, e⟩ := bind_ok e
    obtain ⟨pm, _, e2⟩ := bind_ok e2
    obtain ⟨x2, f2, e2⟩ := bind_ok e2
    obtain ⟨r2, l2⟩ := call_lengths f2 r1
    obtain ⟨_, _, e2⟩ := bind_ok e2
    obtain ⟨_, _, e2⟩ := bind_ok e2
    obtain ⟨_, _, e2⟩ := bind_ok e2
    obtain ⟨_, _, e2⟩ := bind_ok e2
    cases e2
    obtain ⟨h3, e3, e⟩ := bind_ok e
    obtain ⟨x3, f3, e3⟩ := bind_ok e3
    obtain ⟨r3, l3⟩ := call_lengths f3 r2
    cases e3
    obtain ⟨x4, f4, e4⟩ := bind_ok e
    obtain ⟨r4, l4⟩ := call_lengths f4 r3
    exact hn ⟨l1, by simpa using l2, by simpa using l3, by simpa using l4⟩
  · intro h ms pms d hr e
    obtain ⟨h1, e1, e⟩ := bind_ok e
    obtain ⟨h0, f0, e1⟩ := bind_ok e1
    obtain ⟨x1, f1, e1⟩ := bind_ok e1
    obtain ⟨r1, l1⟩ := call_lengths f1 ((rounds_key f0).trans hr)
    cases e1
    obtain ⟨h2, e2, e⟩ := bind_ok e
    obtain ⟨pm, _, e2⟩ := bind_ok e2
    obtain ⟨x2, f2, e2⟩ := bind_ok e2
    obtain ⟨r2, l2⟩ := call_lengths f2 r1
    obtain ⟨_, _, e2⟩ := bind_ok e2
    obtain ⟨_, _, e2⟩ := bind_ok e2
    obtain ⟨_, _, e2⟩ := bind_ok e2
    obtain ⟨_, _, e2⟩ := bind_ok e2
    cases e2
    obtain ⟨h3, e3, e⟩ := bind_ok e
    obtain ⟨x3, f3, e3⟩ := bind_ok e3
    obtain ⟨r3, l3⟩ := call_lengths f3 r2
    obtain ⟨_, _, e3⟩ := bind_ok e3
    cases e3
    obtain ⟨h4, e4, e⟩ := bind_ok e
    obtain ⟨x4, f4, e4⟩ := bind_ok e4
    obtain ⟨r4, l4⟩ := call_lengths f4 r3
    exact hn ⟨l1, by simpa using l2, by simpa using l3, by simpa using l4⟩

/-- Another hash of the handshake messages, one byte shorter. -/
example : ¬ SameLengths ⟨.plain, [1], [2], [3], [4]⟩ ⟨.plain, [1], [2], [3], []⟩ ∧ (Hs.new 251 true [] []).roundsOpt = true := by
  exact ⟨fun h => absurd h.2.2.2 (by decide), rfl⟩

/-- A case with strings of different lengths, without the round optimisation: BOB has other randoms and even calls the other master key function. -/
example : ∃ h keys, (Hs.new 251 false [] []).scheduleTwo (fun _ => List.replicate 64 0) (fun _ => []) 200 100 ⟨.extended [7, 8], [1], [2], [3], [4]⟩
      ⟨.plain, [9, 9], [], [3, 3], []⟩ = .ok h ∧ h.clientWriteKey = strToInt (Garbled.Keys.ck keys) := by
  obtain ⟨h, keys, e1, -, e3, -⟩ := C84_other_transcript 251 false [] [] (by decide +kernel) (fun _ => List.replicate 64 0) (fun _ => []) (fun _ => List.length_replicate) 200 100
    (by decide) (by decide) ⟨.extended [7, 8], [1], [2], [3], [4]⟩ ⟨.plain, [9, 9], [], [3, 3], []⟩ ⟨by decide, by rintro x ⟨⟩; decide, by decide, by decide⟩ (by simp)
  exact ⟨h, keys, e1, e3⟩

/-- Strings of the same lengths. -/
example : SameLengths ⟨.extended [7, 8], [1], [2], [3], [4]⟩ ⟨.extended [8, 8], [5], [6], [7], [8]⟩ := ⟨rfl, rfl, rfl, rfl⟩

end Verif.Props.Transcript
