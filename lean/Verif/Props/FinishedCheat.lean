import Verif.Lemmas.FinishedCheat
import Verif.Props.SessionBound

/-!
C83: a client that inputs other inner digests in the computation of the server's finished message gets the traffic keys opened, and a session with records it has made
itself accepted (without the round optimisation).
-/

namespace Verif.Props.FinishedCheat
open Verif.Model Verif.Model.Integer Verif.Model.AEADProof Verif.Model.SHA Verif.Model.Session
open Verif.Spec Verif.Spec.Encoding
open Verif.Lemmas Verif.Props Verif.Props.AEADProof Verif.Props.Session Verif.Props.HandshakeProof
open Verif.Props.Garbled (aes key_of_bits)

/-! ### The calls before the last one -/

/-- The calls on the `PRF` object before `compute_server_finished_msg`. -/
def opsPre (g : Nat → List Byte) (ms : Integer) (k : MasterSeed) (rc rs tauC : List Byte) : List PrfOp :=
  [.optCompute g 384 (mLabel k) (mSeed k rc rs) true true, .init ms,
   .optCompute g 320 keyExpansionLabel (rs ++ rc) true true,
   .optCompute g 96 clientFinishedLabel tauC true true]

/-- The calls before the last one are the corresponding run of the PRF. -/
theorem before_of_run {q u v g a b k rc rs tauC} {bufA bufB : List Byte} {ms key uc : Integer} {ks : Keys} {p m}
    (hA : bnBuffer (bnNumBytes q) a = .ok bufA) (hB : bnBuffer (bnNumBytes q) b = .ok bufB)
    (hrun : Prf.run Prf.new Hmac.new (.init (addmod (ofBytes bufA) (ofBytes bufB) q) :: opsPre g ms k rc rs tauC)
      = .ok ([none, some ms.reverse, none, some key.reverse, some uc.reverse], p, m)) (hsl : Slices key ks) :
    (Hs.new q false u v).before g a b k rc rs tauC = .ok { Hs.new q false u v with
      prf := p, hmac := m, zkPms := ofBytes bufA, masterKey := ms, clientWriteKey := ks.keyC, serverWriteKey := ks.keyS,
      clientWriteIv := ks.ivC, serverWriteIv := ks.ivS, clientUfin := toBytes uc } := by
  have e1 : masterKeyLength * 8 = 384 := rfl
  have e1' : extendedMasterKeyLength * 8 = 384 := rfl
  have e2 : expansionKeyLength * 8 = 320 := rfl
  have e3 : finishedMsgLength * 8 = 96 := rfl
  have e4 : keyLength * 8 = 128 := rfl
  have e5 : ivLength * 8 = 32 := rfl
  obtain ⟨o0, p0, m0, os0, s0, hrun0, eq0⟩ := run_cons.mp hrun
  obtain ⟨hi, rfl⟩ := step_init.mp s0
  obtain ⟨o1, p1, m1, os1, s1, hrun1, eq1⟩ := run_cons.mp hrun0
  obtain ⟨r1, hc, rfl⟩ := step_opt.mp s1
  obtain ⟨o2, p2, m2, os2, s2, hrun2, eq2⟩ := run_cons.mp hrun1
  obtain ⟨hi2, rfl⟩ := step_init.mp s2
  obtain ⟨o3, p3, m3, os3, s3, hrun3, eq3⟩ := run_cons.mp hrun2
  obtain ⟨r3, hc3, rfl⟩ := step_opt.mp s3
  obtain ⟨o4, p4, m4, os4, s4, hrun4, eq4⟩ := run_cons.mp hrun3
  obtain ⟨r4, hc4, rfl⟩ := step_opt.mp s4
  simp only [Prf.run, Except.ok.injEq, Prod.mk.injEq] at hrun4
  obtain ⟨rfl, rfl, rfl⟩ := hrun4
  subst eq4 eq3 eq2 eq1
  simp only [List.cons.injEq, Option.some.injEq, List.reverse_inj, true_and, and_true] at eq0
  obtain ⟨rfl, rfl, rfl⟩ := eq0
  obtain ⟨hx1, hx2, hx3, hx4⟩ := hsl
  refine bind_ok.mpr ⟨{ Hs.new q false u v with prf := p1, hmac := m1, zkPms := ofBytes bufA, masterKey := ms }, ?_, ?_⟩
  · have hk : (Hs.new q false u v).keyFromShares a b = .ok { Hs.new q false u v with zkPms := ofBytes bufA, prf := p0, hmac := m0 } := by
      have : (Hs.new q false u v).q = q := rfl
      simp only [Hs.keyFromShares, this, hA, hB, bind, Except.bind]
      rw [show (Hs.new q false u v).prf = Prf.new from rfl, show (Hs.new q false u v).hmac = Hmac.new from rfl, hi]
    cases k with
    | plain =>
      refine bind_ok.mpr ⟨_, hk, bind_ok.mpr ⟨(ms, _), (call (by rfl)).mpr ⟨p1, m1, hc, rfl⟩, rfl⟩⟩
    | extended hash =>
      refine bind_ok.mpr ⟨_, hk, bind_ok.mpr ⟨(ms, _), (call (by rfl)).mpr ⟨p1, m1, hc, rfl⟩, rfl⟩⟩
  refine bind_ok.mpr ⟨{ Hs.new q false u v with
      zkPms := ofBytes bufA, masterKey := ms, clientWriteKey := ks.keyC, serverWriteKey := ks.keyS, clientWriteIv := ks.ivC,
      serverWriteIv := ks.ivS, prf := p3, hmac := m3 }, ?_, ?_⟩
  · refine bind_ok.mpr ⟨(p2, m2), hi2, bind_ok.mpr ⟨(key, _), (call (by rfl)).mpr ⟨p3, m3, hc3, rfl⟩, ?_⟩⟩
    exact bind_ok.mpr ⟨_, hx1, bind_ok.mpr ⟨_, hx2, bind_ok.mpr ⟨_, hx3, bind_ok.mpr ⟨_, hx4, rfl⟩⟩⟩⟩
  exact bind_ok.mpr ⟨(uc, _), (call (by rfl)).mpr ⟨p4, m4, hc4, rfl⟩, rfl⟩

/-- The proof phase: the calls before the last one as a run of the PRF, and the last one. -/
theorem proveFeed_of_run {h : HsP} (hr : h.hs.roundsOpt = false) {feed : Nat → List (BitVec 32) → List (BitVec 32)} {g : Nat → List Byte} {pms : Nat}
    {k : MasterSeed} {rc rs tauC tauS buf : List Byte} {ms key uc us : Integer} {p p' : Prf} {m m' : Hmac} {ks : Keys}
    (hA : bnBuffer (bnNumBytes h.hs.q) (((pms : Int) - h.bnA) % h.hs.q).toNat = .ok buf) (hB : bnBuffer (bnNumBytes h.hs.q) h.bnB = .ok buf)
    (hrun : Prf.runZk h.hs.prf h.hs.hmac (.init (addmod (ofBytes buf) h.hs.zkPms h.hs.q) :: opsPre g ms k rc rs tauC)
      = .ok ([none, some ms.reverse, none, some key.reverse, some uc.reverse], p, m)) (hsl : Slices key ks) (l1 : uc.length = 96)
    (hf : p.optComputeFeed m feed g [] 96 serverFinishedLabel tauS true true true = .ok (us, p', m')) (l2 : us.length = 96) :
    h.proveScheduleFeed feed g [] pms k rc rs tauC tauS = .ok (ms, ks, .data uc (h.hs.clientUfin.take 12), .data us (h.hs.serverUfin.take 12),
      ⟨{ h.hs with prf := p', hmac := m' }, (((pms : Int) - h.bnA) % h.hs.q).toNat, h.bnB⟩) := by
  obtain ⟨o0, p0, m0, os0, s0, hrun0, eq0⟩ := runZk_cons.mp hrun
  obtain ⟨hi, rfl⟩ := stepZk_init.mp s0
  obtain ⟨o1, p1, m1, os1, s1, hrun1, eq1⟩ := runZk_cons.mp hrun0
  obtain ⟨r1, hc, rfl⟩ := stepZk_opt.mp s1
  obtain ⟨o2, p2, m2, os2, s2, hrun2, eq2⟩ := runZk_cons.mp hrun1
  obtain ⟨hi2, rfl⟩ := stepZk_init.mp s2
  obtain ⟨o3, p3, m3, os3, s3, hrun3, eq3⟩ := runZk_cons.mp hrun2
  obtain ⟨r3, hc3, rfl⟩ := stepZk_opt.mp s3
  obtain ⟨o4, p4, m4, os4, s4, hrun4, eq4⟩ := runZk_cons.mp hrun3
  obtain ⟨r4, hc4, rfl⟩ := stepZk_opt.mp s4
  simp only [Prf.runZk, Except.ok.injEq, Prod.mk.injEq] at hrun4
  obtain ⟨rfl, rfl, rfl⟩ := hrun4
  subst eq4 eq3 eq2 eq1
  simp only [List.cons.injEq, Option.some.injEq, List.reverse_inj, true_and, and_true] at eq0
  obtain ⟨rfl, rfl, rfl⟩ := eq0
  obtain ⟨hx1, hx2, hx3, hx4⟩ := hsl
  have hk : h.proveKey pms = .ok ⟨{ h.hs with prf := p0, hmac := m0 }, (((pms : Int) - h.bnA) % h.hs.q).toNat, h.bnB⟩ := by
    refine bind_ok.mpr ⟨buf, hA, bind_ok.mpr ⟨buf, hB, ?_⟩⟩
    rw [if_neg (by simp)]
    exact bind_ok.mpr ⟨(p0, m0), hi, rfl⟩
  refine bind_ok.mpr ⟨(ms, ⟨{ h.hs with prf := p1, hmac := m1 }, (((pms : Int) - h.bnA) % h.hs.q).toNat, h.bnB⟩), ?_, ?_⟩
  · cases k with
    | plain => exact bind_ok.mpr ⟨_, hk, bind_ok.mpr ⟨(ms, _), (callZk (by exact hr)).mpr ⟨p1, m1, hc, rfl⟩, rfl⟩⟩
    | extended hash => exact bind_ok.mpr ⟨_, hk, bind_ok.mpr ⟨(ms, _), (callZk (by exact hr)).mpr ⟨p1, m1, hc, rfl⟩, rfl⟩⟩
  refine bind_ok.mpr ⟨(ks, ⟨{ h.hs with prf := p3, hmac := m3 }, (((pms : Int) - h.bnA) % h.hs.q).toNat, h.bnB⟩), ?_, ?_⟩
  · refine bind_ok.mpr ⟨(p2, m2), hi2, bind_ok.mpr ⟨(key, _), (callZk (by exact hr)).mpr ⟨p3, m3, hc3, rfl⟩, ?_⟩⟩
    exact bind_ok.mpr ⟨_, hx1, bind_ok.mpr ⟨_, hx2, bind_ok.mpr ⟨_, hx3, bind_ok.mpr ⟨_, hx4, rfl⟩⟩⟩⟩
  refine bind_ok.mpr ⟨(.data uc (h.hs.clientUfin.take 12), ⟨{ h.hs with prf := p4, hmac := m4 }, (((pms : Int) - h.bnA) % h.hs.q).toNat, h.bnB⟩), ?_, ?_⟩
  · exact bind_ok.mpr ⟨(uc, _), (callZk (by exact hr)).mpr ⟨p4, m4, hc4, rfl⟩, bind_ok.mpr ⟨_, checkData_ok.mpr ⟨l1, rfl⟩, rfl⟩⟩
  · refine bind_ok.mpr ⟨(.data us (h.hs.serverUfin.take 12), ⟨{ h.hs with prf := p', hmac := m' }, (((pms : Int) - h.bnA) % h.hs.q).toNat, h.bnB⟩), ?_, rfl⟩
    exact bind_ok.mpr ⟨(us, p', m'), hf, bind_ok.mpr ⟨_, checkData_ok.mpr ⟨l2, rfl⟩, rfl⟩⟩

/-- The result of a proof phase on the queues of a connection, given the outcome of the derivation. -/
theorem given_run {junk : AESCircuit.Wires} {p : Post}
    {k : Garbled.Keys} (l1 : k.ck.length = 16) (l2 : k.sk.length = 16) (l3 : k.civ.length = 4) (l4 : k.siv.length = 4)
    {mk : Integer} {cc cs : Check} {h' : HsP}
    {b : Bool} (hb : handshakeCheck h'.hs.prf h'.hs.hmac = .ok b) (hcc : Holds cc) (hcs : Holds cs)
    {finc : PostRecord.Rec} {ivc : List Byte} {fins : PostRecord.Rec} {ivs : List Byte} {claims : List Claim} {aadLen : Nat}
    (hsz : ∀ r ∈ finc :: fins :: claims.map Claim.buf, Sized aadLen r)
    {hash : List Byte → List Byte} {uc us : Used} (i1 : uc.iv.length = 4) (i2 : us.iv.length = 4) {sc ss : Bool}
    {fc fs : AEADProof.Rec} {recsC recsS restC restS : List AEADProof.Rec}
    (hc : Hist hash uc.E uc.iv sc p.c (fc :: (recsC ++ restC))) (hs : Hist hash us.E us.iv ss p.s (fs :: (recsS ++ restS)))
    (f1 : fc.secret = false) (f2 : finc.ctxt.length = fc.n) (f3 : ivc.length = 8)
    (f4 : fs.secret = false) (f5 : fins.ctxt.length = fs.n) (f6 : ivs.length = 8) (hfit : Fit claims recsC recsS) :
    ∃ p' v, p.sessionGiven junk (mk, ⟨strToInt k.ck, strToInt k.sk, strToInt k.civ, strToInt k.siv⟩, cc, cs, h') finc ivc fins ivs claims aadLen = .ok (p', v) ∧ v.handshake = b
      ∧ v.messages = claims.map (fun c => (outOf k c).2.1)
      ∧ ((∀ c ∈ v.checks, Holds c) ↔ (aes k.ck 0 = uc.E 0 ∧ aes k.sk 0 = us.E 0) ∧ Agrees k true uc ivc fc ∧ Agrees k false us ivs fs
          ∧ AgreeAll k uc us claims recsC recsS)
      ∧ (v.tags = true ↔ (∃ m, OpensTo k true ivc finc m) ∧ (∃ m, OpensTo k false ivs fins m)
        ∧ ∀ c ∈ claims, OpensTo k (ofClient c.kind) c.iv c.buf (GCM.crypt (aes (keyOf k (ofClient c.kind))) (GCM.j0 (saltOf k (ofClient c.kind) ++ c.iv)) c.buf.ctxt)) := by
  obtain ⟨q1, q2⟩ := hist_key i1 hc
  obtain ⟨q3, q4⟩ := hist_key i2 hs
  obtain ⟨k1, c1, c2⟩ := construct_run (E' := aes k.ck) q1 q2 (strToInt k.civ)
  obtain ⟨k2, c3, c4⟩ := construct_run (E' := aes k.sk) q3 q4 (strToInt k.siv)
  obtain ⟨P1, hP1⟩ : ∃ P : Proof, P = ⟨aes k.ck, strToInt k.civ, strToInt (GCM.bytesOf (aes k.ck 0))⟩ := ⟨_, rfl⟩
  obtain ⟨P2, hP2⟩ : ∃ P : Proof, P = ⟨aes k.sk, strToInt k.siv, strToInt (GCM.bytesOf (aes k.sk 0))⟩ := ⟨_, rfl⟩
  obtain ⟨st1, cs1, m1, d1, d2, d3, -⟩ := C40_prove uc.E (aes k.ck) uc.iv k.civ l3 (strToInt (GCM.bytesOf (aes k.ck 0))) fc _ p.c (C40_invariant i1 hc).2
    finc.ctxt ivc f3 f2
  obtain ⟨st2, cs2, m2, d4, d5, d6, -⟩ := C40_prove us.E (aes k.sk) us.iv k.siv l4 (strToInt (GCM.bytesOf (aes k.sk 0))) fs _ p.s (C40_invariant i2 hs).2
    fins.ctxt ivs f6 f5
  rw [f1] at d1
  rw [f4] at d4
  rw [← hP1] at c1 d1
  rw [← hP2] at c3 d4
  have z1 : strToInt (GCM.bytesOf (aes k.ck (GCM.j0 (k.civ ++ ivc)))) = maskOf k true ivc := rfl
  have z2 : strToInt (GCM.bytesOf (aes k.sk (GCM.j0 (k.siv ++ ivs)))) = maskOf k false ivs := rfl
  rw [z1] at d1
  rw [z2] at d4
  let p3 : Post := { p with hs := h', master := mk, keys := ⟨strToInt k.ck, strToInt k.sk, strToInt k.civ, strToInt k.siv⟩, pc := some P1, ps := some P2,
                            c := st1, zc := maskOf k true ivc, s := st2, zs := maskOf k false ivs }
  have o3 : Objects k p3 := ⟨congrArg some hP1, congrArg some hP2⟩
  obtain ⟨p4, cs3, e1, e2, e3, e4, e5, -, -⟩ := records_run l3 l4 uc us restC restS claims recsC recsS p3 hfit o3 d2 d5
  obtain ⟨t, e6, e7⟩ := finalize_iff e2 (e3.trans rfl) (e4.trans rfl) finc fins claims aadLen hsz
  refine ⟨p4, ⟨[cc, cs, k1, k2] ++ cs1 ++ cs2 ++ cs3, b, (claims.map (outOf k)).map (·.2.1), t⟩, ?_, rfl, ?_, ?_, e7⟩
  · unfold Post.sessionGiven
    have s1 : p.step1Given junk (mk, ⟨strToInt k.ck, strToInt k.sk, strToInt k.civ, strToInt k.siv⟩, cc, cs, h')
        = .ok ({ p with hs := h', master := mk, keys := ⟨strToInt k.ck, strToInt k.sk, strToInt k.civ, strToInt k.siv⟩, pc := some P1, ps := some P2 }, [cc, cs, k1, k2]) := by
      unfold Post.step1Given
      dsimp only
      rw [ok_bind _ _ (encrypter_eq junk k.ck l1), ok_bind _ _ c1]
      dsimp only
      rw [ok_bind _ _ (encrypter_eq junk k.sk l2), ok_bind _ _ c3]
    rw [ok_bind _ _ s1]
    dsimp only
    have s2 : Post.step2 { p with hs := h', master := mk, keys := ⟨strToInt k.ck, strToInt k.sk, strToInt k.civ, strToInt k.siv⟩, pc := some P1, ps := some P2 } finc.ctxt ivc
        = .ok ({ p with hs := h', master := mk, keys := ⟨strToInt k.ck, strToInt k.sk, strToInt k.civ, strToInt k.siv⟩, pc := some P1, ps := some P2,
                        c := st1, zc := maskOf k true ivc }, cs1) := by
      simp only [Post.step2]
      rw [ok_bind _ _ d1]
    rw [ok_bind _ _ s2]
    dsimp only
    have s3 : Post.step3 { p with hs := h', master := mk, keys := ⟨strToInt k.ck, strToInt k.sk, strToInt k.civ, strToInt k.siv⟩, pc := some P1, ps := some P2,
                                  c := st1, zc := maskOf k true ivc } fins.ctxt ivs = .ok (p3, cs2, b) := by
      simp only [Post.step3]
      rw [ok_bind _ _ d4]
      dsimp only
      rw [ok_bind _ _ hb]
    rw [ok_bind _ _ s3]
    dsimp only
    rw [ok_bind _ _ e1]
    dsimp only
    rw [ok_bind _ _ e6]
  · rw [List.map_map]; rfl
  · simp only [List.mem_append, List.mem_cons, List.not_mem_nil, or_false, or_imp, forall_and, forall_eq]
    rw [d3, d6, e5, c2, c4]
    constructor
    · rintro ⟨⟨⟨⟨_, _, x1, x2⟩, x3⟩, x4⟩, x5⟩
      exact ⟨⟨x1, x2⟩, x3, x4, x5⟩
    · rintro ⟨⟨x1, x2⟩, x3, x4, x5⟩
      exact ⟨⟨⟨⟨hcc, hcs, x1, x2⟩, x3⟩, x4⟩, x5⟩


/-! ### The handshake with the cheating client -/

/-- The keys as she reads them off the opened values. -/
def stolen (h : Hs) : Garbled.Keys :=
  let t := readKeys h.seen h.serverUfin
  ⟨t.1, t.2.1, t.2.2.1, t.2.2.2⟩

theorem pre_valid {k rc rs tauC tauS} (hs : Short k rc rs tauC tauS) (g : Nat → List Byte) (hg : ∀ i, (g i).length = 64) (ms : Integer)
    (hm : ms.length < 2 ^ 63) : ∀ op ∈ opsPre g ms k rc rs tauC, PrfOp.Valid op ∧ Replayable op := by
  intro op hop
  refine ops_valid hs g hg ms hm op ?_
  simp only [opsPre, List.mem_cons, List.not_mem_nil, or_false] at hop
  rcases hop with rfl | rfl | rfl | rfl <;> simp [opsOf]

/-- What the calls should return. -/
theorem expectedPre (g : Nat → List Byte) (pms : List Bool) (ms : Integer) (k rc rs tauC) :
    prfExpected pms (opsPre g ms k rc rs tauC)
      = [some (master k pms (bytesBits rc) (bytesBits rs)), none, some (TLS.keyBlock ms.reverse (bytesBits rc) (bytesBits rs)),
         some (TLS.verifyData ms.reverse (TLS.ascii "client finished") (bytesBits tauC))] := by
  rw [← master_eq]
  simp only [opsPre, prfExpected, bytesBits_append]
  rfl

theorem openedIv_pre (g : Nat → List Byte) (K M : List Bool) (k rc rs tauC) : openedIv K false (opsPre g M.reverse k rc rs tauC) = [inState K, inState M] := by
  simp only [opsPre, openedIv, List.reverse_reverse, Bool.not_false, Bool.and_self, Bool.or_false, Bool.not_true, Bool.and_false, if_true]
  simp only [Bool.false_eq_true, if_false, List.append_nil, List.singleton_append]
  rfl

theorem five {α β : Type} {f : α → β} {l : List α} {a b c d e : β} (h : l.map f = [a, b, c, d, e]) :
    ∃ v w x y z, l = [v, w, x, y, z] ∧ f v = a ∧ f w = b ∧ f x = c ∧ f y = d ∧ f z = e := by
  obtain ⟨v, l, rfl, h1, h⟩ := List.map_eq_cons_iff.mp h
  obtain ⟨w, l, rfl, h2, h⟩ := List.map_eq_cons_iff.mp h
  obtain ⟨x, l, rfl, h3, h⟩ := List.map_eq_cons_iff.mp h
  obtain ⟨y, l, rfl, h4, h⟩ := List.map_eq_cons_iff.mp h
  obtain ⟨z, l, rfl, h5, h⟩ := List.map_eq_cons_iff.mp h
  rw [List.map_eq_nil_iff] at h
  exact ⟨v, w, x, y, z, by rw [h], h1, h2, h3, h4, h5⟩

/-- The key block from the blocks of `P_hash`. -/
theorem keyBlock_eq (M rc rs : List Bool) : TLS.keyBlock M rc rs
    = HMAC.hmac M (HMAC.A M (TLS.ascii "key expansion" ++ (rs ++ rc)) 1 ++ (TLS.ascii "key expansion" ++ (rs ++ rc)))
      ++ (HMAC.hmac M (HMAC.A M (TLS.ascii "key expansion" ++ (rs ++ rc)) 2 ++ (TLS.ascii "key expansion" ++ (rs ++ rc)))).take 64 := by
  unfold TLS.keyBlock HMAC.prf
  rw [show (40 * 8 + 255) / 256 = 2 from rfl]
  simp only [HMAC.pHash, List.nil_append, Nat.zero_add, Nat.reduceAdd]
  rw [List.take_append, length_hmac, List.take_of_length_le (by rw [length_hmac]; decide)]

/-- Keys that have the bits of the key block are those read off it. -/
theorem read_keys {keys : Garbled.Keys} {T1 T2 : List Bool} (h : bytesBits keys.ck ++ bytesBits keys.sk ++ bytesBits keys.civ ++ bytesBits keys.siv = T1 ++ T2.take 64)
    (l1 : keys.ck.length = 16) (l2 : keys.sk.length = 16) (l3 : keys.civ.length = 4) (hT : T1.length = 256)
    {t f : List Byte} (ht : bytesBits t = T1) (hf : bytesBits f = T2.take 96) (lf : f.length = 12) :
    t.take 16 = keys.ck ∧ t.drop 16 = keys.sk ∧ f.take 4 = keys.civ ∧ (f.drop 4).take 4 = keys.siv := by
  rw [List.append_assoc (bytesBits keys.ck ++ bytesBits keys.sk)] at h
  have hl : (bytesBits keys.ck ++ bytesBits keys.sk).length = T1.length := by
    simp only [List.length_append, length_bytesBits, l1, l2, hT]
  obtain ⟨e1, e2⟩ := List.append_inj h hl
  rw [← bytesBits_append] at e1 e2
  have e3 : t = keys.ck ++ keys.sk := bytesBits_inj (ht.trans e1.symm)
  have e4 : f.take 8 = keys.civ ++ keys.siv := by
    apply bytesBits_inj
    have h8 : bytesBits f = bytesBits (f.take 8) ++ bytesBits (f.drop 8) := by rw [← bytesBits_append, List.take_append_drop]
    have hl8 : (bytesBits (f.take 8)).length = 64 := by rw [length_bytesBits, List.length_take, lf]; decide
    rw [e2, ← List.take_left' (l₂ := bytesBits (f.drop 8)) hl8, ← h8, hf, List.take_take]
    rfl
  refine ⟨by rw [e3, List.take_left' l1], by rw [e3, List.drop_left' l1], ?_, ?_⟩
  · have : f.take 4 = (f.take 8).take 4 := by rw [List.take_take]; rfl
    rw [this, e4, List.take_left' l3]
  · have : (f.drop 4).take 4 = (f.take 8).drop 4 := by rw [List.drop_take]
    rw [this, e4, List.drop_left' l3]

theorem ufin_data (x : Integer) (hx : x.length = 96) : Holds (.data x ((toBytes x).take 12)) ∧ bytesBits (toBytes x).reverse = x.reverse ∧ (toBytes x).length = 12 := by
  have hb := toBytes_reverse_bits x (by rw [hx])
  have hl : (toBytes x).length = 12 := by
    have := congrArg List.length hb
    rw [length_bytesBits, List.length_reverse, List.length_reverse, hx] at this
    omega
  exact ⟨by rw [List.take_of_length_le (by omega), data_iff, hb], hb, hl⟩

/-- The whole run of the cheating client: the handshake, what she reads, and the derivation of the proof phase with the same digests. -/
theorem cheat_run (q : Nat) (u v : List Byte) (hq : bnNumBytes q < 2 ^ 59) (g : Nat → List Byte) (hg : ∀ i, (g i).length = 64)
    (a b : Nat) (ha : a < q) (hb : b < q) (k : MasterSeed) (rc rs tauC tauS : List Byte) (hs : Short k rc rs tauC tauS) :
    ∃ h0 h keys, (Hs.new q false u v).before g a b k rc rs tauC = .ok h0
      ∧ h0.serverFinishedFeed (fun i _ => wrongDigests h0.seen rc rs i) g serverFinishedLabel tauS = .ok h
      ∧ Garbled.Keys.Of keys (master k (SHA256.beBits (8 * bnNumBytes q) ((a + b) % q)) (bytesBits rc) (bytesBits rs)) (bytesBits rc) (bytesBits rs)
      ∧ h.clientWriteKey = strToInt keys.ck ∧ h.serverWriteKey = strToInt keys.sk ∧ h.clientWriteIv = strToInt keys.civ ∧ h.serverWriteIv = strToInt keys.siv
      ∧ keys.ck.length = 16 ∧ keys.sk.length = 16 ∧ keys.civ.length = 4 ∧ keys.siv.length = 4
      ∧ bytesBits h.clientUfin.reverse
          = TLS.verifyData (master k (SHA256.beBits (8 * bnNumBytes q) ((a + b) % q)) (bytesBits rc) (bytesBits rs)) (TLS.ascii "client finished") (bytesBits tauC)
      ∧ stolen h = keys ∧ h.serverUfin.length = 12
      ∧ ∃ mk cc cs h', HsP.proveScheduleFeed ⟨h, a, b⟩ (fun i _ => wrongAgain h.seen rc rs i) g [] ((a + b) % q) k rc rs tauC tauS
          = .ok (mk, ⟨strToInt keys.ck, strToInt keys.sk, strToInt keys.civ, strToInt keys.siv⟩, cc, cs, h')
        ∧ Holds cc ∧ Holds cs ∧ handshakeCheck h'.hs.prf h'.hs.hmac = .ok true := by
  obtain ⟨bufA, eA, vA⟩ := bnBuffer_bits ha
  obtain ⟨bufB, eB, vB⟩ := bnBuffer_bits hb
  have k1 := addmod_bits ha hb vA vB
  have k2 := addmod_bits hb ha vB vA
  rw [Nat.add_comm b a] at k2
  have hKr : (ofNat (8 * bnNumBytes q) ((a + b) % q)).reverse = SHA256.beBits (8 * bnNumBytes q) ((a + b) % q) := ofNat_reverse _ _
  generalize hK : ofNat (8 * bnNumBytes q) ((a + b) % q) = K at k1 k2 hKr
  have hKl : K.length < 2 ^ 63 := by rw [← hK, length_ofNat]; omega
  rw [← hKr]
  obtain ⟨M, hM⟩ : ∃ M, M = master k K.reverse (bytesBits rc) (bytesBits rs) := ⟨_, rfl⟩
  rw [← hM]
  have hMl : M.length = 384 := by rw [hM, ← master_eq, length_prf]
  have hv := pre_valid hs g hg M.reverse (by rw [List.length_reverse, hMl]; norm_num)
  have hsub : (((((a + b) % q : Nat) : Int) - a) % q).toNat = b := by
    have : ((((a + b) % q : Nat) : Int) - a) % q = b := by
      push_cast
      rw [Int.emod_sub_emod]
      rw [show (a : Int) + b - a = b by omega]
      exact Int.emod_eq_of_lt (by omega) (by omega)
    omega
  -- the calls before the last one
  obtain ⟨m0, e0, h0, l0⟩ := init_step Hmac.new ShaInv.new.pos K hKl
  obtain ⟨f1, f2, f3, f4⟩ := init_frame e0
  obtain ⟨p1, m1, e, q1, q2, q3, q4, q5, ⟨new, q6, q6'⟩, q7, q8⟩ := online_run (opsPre g M.reverse k rc rs tauC) { Prf.new with calls := 0 } m0 _ _ h0
    (by simp) hv (by rw [l0]; simp [opsPre, PrfOp.cost, Hmac.new])
  have hpub : p1.pubM = new := by rw [q6]; rfl
  have hiv : m1.sha.ivIn = [inState K.reverse, inState M] := by rw [q7, f1, Option.isSome_none, openedIv_pre]; rfl
  rw [expectedPre, List.reverse_reverse, ← hM] at e
  have hkM : keyAfter K.reverse (opsPre g M.reverse k rc rs tauC) = M := by
    show M.reverse.reverse = M
    rw [List.reverse_reverse]
  have hin : innAfter none (opsPre g M.reverse k rc rs tauC) = some false := rfl
  rw [hkM, hin] at q8
  have hseed : bytesBits (keyExpansionLabel ++ (rs ++ rc)) = TLS.ascii "key expansion" ++ (bytesBits rs ++ bytesBits rc) := by
    rw [bytesBits_append, bytesBits_append]; rfl
  obtain ⟨S, hS⟩ : ∃ S, S = TLS.ascii "key expansion" ++ (bytesBits rs ++ bytesBits rc) := ⟨_, rfl⟩
  have hA : new.map wbits = [HMAC.A K.reverse (bytesBits (mLabel k) ++ bytesBits (mSeed k rc rs)) 1, HMAC.A K.reverse (bytesBits (mLabel k) ++ bytesBits (mSeed k rc rs)) 2,
      HMAC.A M S 1, HMAC.A M S 2, HMAC.A M (bytesBits clientFinishedLabel ++ bytesBits tauC) 1] := by
    rw [q6', hS, ← hseed]
    simp only [opsPre, openedA, List.reverse_reverse, bytesBits_append]
    rfl
  obtain ⟨w1, w2, w3, w4, w5, rfl, -, -, g3, g4, -⟩ := five hA
  obtain ⟨x, hxd⟩ : ∃ x, x = w3.flatMap wordBytes ++ (keyExpansionLabel ++ (rs ++ rc)) := ⟨_, rfl⟩
  obtain ⟨y, hyd⟩ : ∃ y, y = w4.flatMap wordBytes ++ (keyExpansionLabel ++ (rs ++ rc)) := ⟨_, rfl⟩
  have bx : bytesBits x = HMAC.A M S 1 ++ S := by rw [hxd, bytesBits_append, wordsBytes_bits, hseed, ← hS]; exact congrArg (· ++ S) g3
  have bY : bytesBits y = HMAC.A M S 2 ++ S := by rw [hyd, bytesBits_append, wordsBytes_bits, hseed, ← hS]; exact congrArg (· ++ S) g4
  have lS : S.length = 8 * (13 + (rs.length + rc.length)) := by
    rw [hS, ← hseed, length_bytesBits, List.length_append, List.length_append]; rfl
  have lx : 512 + 8 * x.length < 2 ^ 64 := by
    rw [← length_bytesBits, bx, List.length_append, HMAC.A, length_hmac, lS]
    have := hs.rand
    omega
  have ly : 512 + 8 * y.length < 2 ^ 64 := by
    rw [← length_bytesBits, bY, List.length_append, HMAC.A, length_hmac, lS]
    have := hs.rand
    omega
  have hdig : ∀ i, wrongDigests ⟨m1.sha.ivIn, p1.pubM⟩ rc rs i = plainTail (List.replicate 64 0) (inState M) (if i = 1 then x else y) := by
    intro i
    rw [hiv, hpub, hxd, hyd]
    unfold wrongDigests
    split <;> rfl
  -- the last call
  obtain ⟨r, p2, m2, w, e1, b1, b2, b3, b4, b5, b6, b7, b8, b9⟩ := computeFeed_gc q8 (by rw [hiv]; simp only [List.length_cons, List.length_nil]; omega) p1 g x y serverFinishedLabel tauS lx ly
  rw [bx] at b2
  rw [bY] at b3
  obtain ⟨T1, hT1⟩ : ∃ T, T = HMAC.hmac M (HMAC.A M S 1 ++ S) := ⟨_, rfl⟩
  obtain ⟨T2, hT2⟩ : ∃ T, T = HMAC.hmac M (HMAC.A M S 2 ++ S) := ⟨_, rfl⟩
  rw [← hT1] at b2
  rw [← hT2] at b3
  have lT1 : T1.length = 256 := by rw [hT1, length_hmac]
  have lT2 : T2.length = 256 := by rw [hT2, length_hmac]
  have lr : r.length = 96 := by rw [← List.length_reverse, b3, List.length_take, lT2]; rfl
  have hKB := keyBlock_eq M (bytesBits rc) (bytesBits rs)
  rw [← hS, ← hT1, ← hT2] at hKB
  generalize hKB' : TLS.keyBlock M (bytesBits rc) (bytesBits rs) = KB at e hKB
  generalize hC : TLS.verifyData M (TLS.ascii "client finished") (bytesBits tauC) = C at e
  have lKB : KB.reverse.length = 320 := by rw [List.length_reverse, ← hKB', TLS.keyBlock, length_prf]
  have lC : C.reverse.length = 96 := by rw [List.length_reverse, ← hC, TLS.verifyData, length_prf]
  obtain ⟨ks, hks⟩ := slices_exist KB.reverse lKB
  have hrun : Prf.run Prf.new Hmac.new (.init K :: opsPre g M.reverse k rc rs tauC)
      = .ok ([none, some M.reverse.reverse, none, some KB.reverse.reverse, some C.reverse.reverse], p1, m1) := by
    simp only [Prf.run, Prf.step, Prf.init, bind, Except.bind, e0, e, List.reverse_reverse]
  have hon := before_of_run (u := u) (v := v) (a := a) (b := b) eA eB (by rw [k1]; exact hrun) hks
  have hpart := slices_partition hks lKB
  rw [List.reverse_reverse, ← hKB'] at hpart
  obtain ⟨keys, o1, o2, l1, l2, l3, l4⟩ := keys_of hpart
  obtain ⟨t1, t2, t3⟩ := ufin_data r lr
  obtain ⟨t4, t5, t6⟩ := ufin_data C.reverse lC
  have hok := o1.1
  simp only at hok
  rw [hKB', hKB] at hok
  have hread := read_keys hok.symm l1 l2 l3 lT1 (t := w.flatMap wordBytes) (f := (toBytes r).reverse) (by rw [wordsBytes_bits]; exact b2)
    (by rw [t2, b3]) (by rw [List.length_reverse, t3])
  -- the proof phase
  obtain ⟨m3, e3, h3, -⟩ := init_step m2 b9 K hKl
  obtain ⟨c1, c2, c3, c4⟩ := init_frame e3
  have z0 : m2.sha.zkIvIn = [] := by rw [b7, q4, f2]; rfl
  have zp : m2.sha.zpos = -1 := by rw [b8, q5, f3]; rfl
  have hzp : p2.zkPos = 0 := by rw [b5, q3]; rfl
  have hzs : p2.zkSecM = [] := by rw [b4, q2]; rfl
  have z1 : ZkInv m3 K.reverse false := ⟨h3, by rw [c2, c3, z0, zp]; decide, fun _ => c4, by simp⟩
  obtain ⟨p3, m4, r1, r2, r3, r4, r5, r6, r7, r8, r9, r10, r11⟩ := zk_run_prefix (opsPre g M.reverse k rc rs tauC) [T1] [] { p2 with calls := 0 } m3 _ _ z1 hv
    (by rw [c1, b6, hiv]; simp only [List.length_cons, List.length_nil]; omega) (by show p2.zkPos = p2.zkSecM.length; rw [hzp, hzs]; rfl) (by show p2.zkPos ≤ _; rw [hzp]; omega) (by rw [c2, z0]; simp)
    (by show (p2.pubM.drop p2.zkPos).map wbits = _; rw [hzp, b1, hpub, List.drop_zero, List.map_append, q6']; exact congrArg (_ ++ [·]) b2)
    (by rw [c1, c2, z0, b6, hiv, openedIv_pre]; rfl)
    (by intro i x w hx; rw [c2, z0] at hx; simp at hx)
    (by intro i x w hx; change p2.zkSecM[i]? = some x at hx; rw [hzs] at hx; simp at hx)
  have hsn : seenAfter false (opsPre g M.reverse k rc rs tauC) = true := rfl
  rw [hkM, hsn] at r11
  rw [expectedPre, List.reverse_reverse, ← hM, hKB', hC] at r1
  have hlen : m4.sha.ivIn = [inState K.reverse, inState M] := by rw [r10, c1, b6, hiv]
  rw [List.drop_eq_nil_iff] at r7
  have hz4 : m4.sha.zkIvIn.length < 2 ^ 64 := by rw [hlen] at r4; simp only [List.length_cons, List.length_nil] at r4; omega
  obtain ⟨-, hiv4⟩ := IvReady.of_agree (ri := true) r11 r8 hz4 r4 (by simp) rfl
  obtain ⟨w', hw1, hw2⟩ : ∃ w', p3.pubM.drop p3.zkPos = [w'] ∧ wbits w' = T1 := by
    obtain ⟨w', hw, hw'⟩ := List.map_eq_singleton_iff.mp r6
    exact ⟨w', hw, hw'⟩
  have hw3 : p3.pubM[p3.zkPos]? = some w' := by
    have := congrArg (fun l => l[0]?) hw1
    simpa using this
  obtain ⟨r', p4, m5, d1, d2, d3, d4, d5, d6, d7⟩ := computeFeed_zk r11 hz4 hiv4 p3 r2 r9 g x y serverFinishedLabel tauS lx ly hw3 (by rw [hw2, bx, hT1])
  rw [bY, ← hT2, ← b3, List.reverse_inj] at d3
  replace d3 := d3.symm
  subst d3
  have hlp : p3.pubM.length = p3.zkPos + 1 := by
    have := congrArg List.length hw1
    simp only [List.length_drop, List.length_cons, List.length_nil] at this
    omega
  have hrunZ : Prf.runZk p2 m2 (.init K :: opsPre g M.reverse k rc rs tauC)
      = .ok ([none, some M.reverse.reverse, none, some KB.reverse.reverse, some C.reverse.reverse], p3, m4) := by
    simp only [Prf.runZk, Prf.stepZk, Prf.step, Prf.init, bind, Except.bind, e3, r1, List.reverse_reverse]
  subst o2
  have hstolen : stolen { Hs.new q false u v with prf := p2, hmac := m2, serverUfin := toBytes r } = keys := by
    unfold stolen readKeys
    rw [show (Hs.seen { Hs.new q false u v with prf := p2, hmac := m2, serverUfin := toBytes r }).values = p2.pubM from rfl, b1]
    dsimp only
    rw [show (p1.pubM ++ [w]).getLastD [] = w by simp [List.getLastD_eq_getLast?]]
    rw [hread.1, hread.2.1, hread.2.2.1, hread.2.2.2]
  have hz := proveFeed_of_run (h := ⟨{ Hs.new q false u v with
    prf := p2, hmac := m2, zkPms := ofBytes bufA, masterKey := M.reverse, clientWriteKey := strToInt keys.ck, serverWriteKey := strToInt keys.sk,
    clientWriteIv := strToInt keys.civ, serverWriteIv := strToInt keys.siv, clientUfin := toBytes C.reverse, serverUfin := toBytes r }, a, b⟩) rfl
    (feed := fun i _ => plainTail (List.replicate 64 0) (inState M) (if i = 1 then x else y)) (pms := (a + b) % q) (rc := rc) (rs := rs) (k := k) (tauS := tauS)
    (by show bnBuffer (bnNumBytes q) (((((a + b) % q : Nat) : Int) - a) % q).toNat = _; rw [hsub]; exact eB) eB (by show Prf.runZk p2 m2 (.init (addmod (ofBytes bufB) (ofBytes bufA) q) :: _) = _; rw [k2]; exact hrunZ)
    hks lC d1 lr
  have hag : (fun i (_ : List (BitVec 32)) => wrongAgain ⟨m2.sha.ivIn, p2.pubM⟩ rc rs i)
      = fun i _ => plainTail (List.replicate 64 0) (inState M) (if i = 1 then x else y) := by
    funext i _
    rw [wrongAgain, b1, b6, List.dropLast_concat]
    exact hdig i
  rw [← hag] at hz
  refine ⟨_, { Hs.new q false u v with
      prf := p2, hmac := m2, zkPms := ofBytes bufA, masterKey := M.reverse, clientWriteKey := strToInt keys.ck, serverWriteKey := strToInt keys.sk,
      clientWriteIv := strToInt keys.civ, serverWriteIv := strToInt keys.siv, clientUfin := toBytes C.reverse, serverUfin := toBytes r }, keys, hon, ?_, o1,
      rfl, rfl, rfl, rfl, l1, l2, l3, l4, by rw [t5, List.reverse_reverse], hstolen, t3, M.reverse, _, _, _, hz, t4, t1, ?_⟩
  · refine bind_ok.mpr ⟨(r, p2, m2), ?_, rfl⟩
    rw [← e1]
    show Prf.optComputeFeed p1 m1 (fun i _ => wrongDigests ⟨m1.sha.ivIn, p1.pubM⟩ rc rs i) _ _ _ _ _ _ _ _ = _
    rw [funext fun i => funext fun _ => hdig i]
    rfl
  · rw [handshakeCheck_iff]
    refine ⟨by rw [d2, d4, hlp, r2], d5, by rw [d6, d7]; exact r7, ?_⟩
    intro i z w hz hw
    rw [d7] at hz
    rw [d6] at hw
    exact r8 i z w hz hw

/-! ### C83 -/

/-- **C83, the keys.**  Without the round optimisation, whatever the shares, the randoms and the transcripts are: a client that follows the protocol but inputs the inner
digests `wrongDigests` (computed from opened values only) in `compute_server_finished_msg` is not noticed in the handshake (the run goes through and both parties hold
the keys and the client's "finished" value of RFC 5246), and reads all four traffic keys off the values opened in this call.  A record with the opened value
as its plaintext passes the check of the server's "finished" message. -/
theorem C83_keys (q : Nat) (u v : List Byte) (hq : bnNumBytes q < 2 ^ 59) (g : Nat → List Byte) (hg : ∀ i, (g i).length = 64)
    (a b : Nat) (ha : a < q) (hb : b < q) (k : MasterSeed) (rc rs tauC tauS : List Byte) (hs : Short k rc rs tauC tauS) :
    ∃ h, (Hs.new q false u v).scheduleCheat g a b k rc rs tauC tauS = .ok h
      ∧ Garbled.Keys.Of (stolen h) (master k (SHA256.beBits (8 * bnNumBytes q) ((a + b) % q)) (bytesBits rc) (bytesBits rs)) (bytesBits rc) (bytesBits rs)
      ∧ h.clientWriteKey = strToInt (stolen h).ck ∧ h.serverWriteKey = strToInt (stolen h).sk
      ∧ h.clientWriteIv = strToInt (stolen h).civ ∧ h.serverWriteIv = strToInt (stolen h).siv
      ∧ bytesBits h.clientUfin.reverse
          = TLS.verifyData (master k (SHA256.beBits (8 * bnNumBytes q) ((a + b) % q)) (bytesBits rc) (bytesBits rs)) (TLS.ascii "client finished") (bytesBits tauC)
      ∧ h.checkServerFinished (true, h.serverUfin) = true := by
  obtain ⟨h0, h, keys, e1, e2, e3, e4, e5, e6, e7, -, -, -, -, e8, rfl, e9, -⟩ := cheat_run q u v hq g hg a b ha hb k rc rs tauC tauS hs
  refine ⟨h, bind_ok.mpr ⟨h0, e1, e2⟩, e3, e4, e5, e6, e7, e8, ?_⟩
  simp [Hs.checkServerFinished]

/-- **C83, forged records.**  After that handshake, whatever the client then lets the record objects see (finished messages and records of the lengths `txts.length`, …,
with contents of its choice): it makes the server's finished message and all records itself, under the keys it has read, and if it inputs the same digests again in the
proof phase every check passes and the verifier accepts the messages the client has made up.  What the server sent plays no part. -/
theorem C83_accepted (q : Nat) (u v : List Byte) (hq : bnNumBytes q < 2 ^ 59) (g : Nat → List Byte) (hg : ∀ i, (g i).length = 64)
    (a b : Nat) (ha : a < q) (hb : b < q) (k : MasterSeed) (rc rs tauC tauS : List Byte) (hs : Short k rc rs tauC tauS) :
    ∃ h d, (Hs.new q false u v).scheduleCheat g a b k rc rs tauC tauS = .ok h
      ∧ HsP.proveScheduleFeed ⟨h, a, b⟩ (fun i _ => wrongAgain h.seen rc rs i) g [] ((a + b) % q) k rc rs tauC tauS = .ok d
      ∧ h.clientWriteKey = strToInt (stolen h).ck ∧ h.serverWriteKey = strToInt (stolen h).sk
      ∧ h.clientWriteIv = strToInt (stolen h).civ ∧ h.serverWriteIv = strToInt (stolen h).siv
      ∧ (stolen h).civ.length = 4 ∧ (stolen h).siv.length = 4
      ∧ ∀ (junk : AESCircuit.Wires) (hash : List Byte → List Byte) (sc ss : Bool) (c s : AEAD.State) (restC restS : List AEADProof.Rec)
          (ivc aadc txtc ivs aads txts : List Byte) (ms : List Msg) (aadLen : Nat),
          Hist hash (aes (stolen h).ck) (stolen h).civ sc c (⟨ivc, txtc.length, false⟩ :: (sent .client ms ++ restC)) →
          Hist hash (aes (stolen h).sk) (stolen h).siv ss s (⟨ivs, txts.length, false⟩ :: (sent .server ms ++ restS)) →
          ivc.length = 8 → ivs.length = 8 → aadc.length = aadLen → aads.length = aadLen → (∀ m ∈ ms, m.iv.length = 8 ∧ m.aad.length = aadLen) →
          ∃ p' vd, Post.sessionGiven junk { hs := ⟨h, a, b⟩, c := c, s := s } d (sealRec (stolen h) true ivc aadc txtc) ivc
              (sealRec (stolen h) false ivs aads txts) ivs (ms.map (sealed (stolen h))) aadLen = .ok (p', vd)
            ∧ Accepted vd ∧ vd.messages = ms.map fun m => strToInt m.txt := by
  obtain ⟨h0, h, keys, e1, e2, e3, e4, e5, e6, e7, l1, l2, l3, l4, -, hk, -, mk, cc, cs, h', f1, f2, f3, f4⟩ := cheat_run q u v hq g hg a b ha hb k rc rs tauC tauS hs
  refine ⟨h, _, bind_ok.mpr ⟨h0, e1, e2⟩, f1, ?_⟩
  rw [hk]
  refine ⟨e4, e5, e6, e7, l3, l4, ?_⟩
  intro junk hash sc ss c s restC restS ivc aadc txtc ivs aads txts ms aadLen hc hs' h1 h2 h3 h4 hms
  obtain ⟨uc, u1, u2⟩ : ∃ uc : Used, uc.E = aes keys.ck ∧ uc.iv = keys.civ := used_exists _ _
  obtain ⟨us, u3, u4⟩ : ∃ us : Used, us.E = aes keys.sk ∧ us.iv = keys.siv := used_exists _ _
  rw [← u1, ← u2, ← taken_sealed keys] at hc
  rw [← u3, ← u4, ← taken_sealed keys] at hs'
  have a1 := agrees_self keys true u1 u2
  have a2 := agrees_self keys false u3 u4
  obtain ⟨p', vd, g1, g2, g3, g4, g5⟩ := given_run (junk := junk) (p := { hs := ⟨h, a, b⟩, c := c, s := s }) l1 l2 l3 l4 (mk := mk) f4 f2 f3
    (finc := sealRec keys true ivc aadc txtc) (ivc := ivc) (fins := sealRec keys false ivs aads txts) (ivs := ivs) (claims := ms.map (sealed keys)) (aadLen := aadLen)
    (by
      intro r hr
      simp only [List.mem_cons, List.map_map, List.mem_map] at hr
      rcases hr with rfl | rfl | ⟨m, hm, rfl⟩
      · rw [← h3]; exact seal_sized _ _ _ _ _
      · rw [← h4]; exact seal_sized _ _ _ _ _
      · rw [← (hms m hm).2]; exact seal_sized _ _ _ _ _)
    (by rw [u2]; exact l3) (by rw [u4]; exact l4) hc hs' rfl (seal_length _ _ _ _ _) h1 rfl (seal_length _ _ _ _ _) h2
    (fit_taken _ (by intro c hc; obtain ⟨m, hm, rfl⟩ := List.mem_map.mp hc; exact (hms m hm).1))
  refine ⟨p', vd, g1, ⟨?_, ?_, ?_⟩, ?_⟩
  · exact g4.mpr ⟨⟨(congrFun u1 0).symm, (congrFun u3 0).symm⟩, a1 _ _ _, a2 _ _ _, agree_taken a1 a2 _⟩
  · exact g2
  · refine g5.mpr ⟨⟨_, seal_opens _ _ _ _ _⟩, ⟨_, seal_opens _ _ _ _ _⟩, ?_⟩
    intro c hc
    obtain ⟨m, hm, rfl⟩ := List.mem_map.mp hc
    have ho := seal_opens keys (ofClient m.kind) m.iv m.aad m.txt
    have := opens_some ho
    simp only [sealed]
    rw [this]
    exact ho
  · rw [g3, List.map_map]
    refine List.map_congr_left fun m _ => ?_
    exact congrArg strToInt (opens_some (seal_opens keys (ofClient m.kind) m.iv m.aad m.txt))

/-- **C83, the honest client.**  With the digests that were computed, the handshake and the proof phase of the model of the cheating client are those of the protocol. -/
theorem C83_honest_feed (h : Hs) (hr : h.roundsOpt = false) (h' : HsP) (hr' : h'.hs.roundsOpt = false) (g : Nat → List Byte) (label tau : List Byte) :
    h.serverFinishedFeed (fun _ d => d) g label tau = h.computeServerFinished g label tau
      ∧ h'.proveServerFinishedFeed (fun _ d => d) g label tau = h'.proveServerFinished g label tau := by
  have e : ∀ (p : Prf) (m : Hmac) (b : Nat) (zk : Bool), p.optComputeFeed m (fun _ d => d) g [] b label tau true true zk = p.optCompute m g [] b label tau true true zk := by
    intro p m b zk
    unfold Prf.optComputeFeed Prf.optCompute Prf.optPhash
    rw [optPhashFeed_honest]
  constructor
  · unfold Hs.serverFinishedFeed Hs.computeServerFinished Hs.prfCall
    rw [e]
    simp only [hr, Bool.not_false, if_true]
    cases h.prf.optCompute h.hmac g [] (finishedMsgLength * 8) label tau true true false <;> rfl
  · unfold HsP.proveServerFinishedFeed HsP.proveServerFinished Hs.prfCallZk
    rw [e, if_pos (by rw [hr']; rfl)]
    cases h'.hs.prf.optCompute h'.hs.hmac g [] (finishedMsgLength * 8) label tau true true true <;> rfl

/-- A concrete session with a made-up answer that is accepted. -/
example : ∃ (h : Hs) (d : Derived) (p p' : Post) (vd : Verdict) (finc fins : PostRecord.Rec) (claims : List Claim),
    (Hs.new 251 false [] []).scheduleCheat (fun _ => List.replicate 64 0) 200 100 (.extended [7, 8]) [1] [2] [3] [4] = .ok h ∧ p.hs = ⟨h, 200, 100⟩
      ∧ p.sessionGiven (fun _ => false) d finc (List.replicate 8 1) fins (List.replicate 8 1) claims 5 = .ok (p', vd)
      ∧ Accepted vd ∧ vd.messages = [strToInt [0x47, 0x45, 0x54], strToInt [0x4f, 0x4b]] := by
  obtain ⟨h, d, e1, -, -, -, -, -, l3, l4, H⟩ := C83_accepted 251 [] [] (by decide +kernel) (fun _ => List.replicate 64 0) (fun _ => List.length_replicate) 200 100
    (by decide) (by decide) (.extended [7, 8]) [1] [2] [3] [4] ⟨by decide, by rintro x ⟨⟩; decide, by decide, by decide⟩
  generalize stolen h = keys at *
  let ms : List Msg := [⟨.client, List.replicate 8 2, List.replicate 5 0, [0x47, 0x45, 0x54]⟩, ⟨.server, List.replicate 8 2, List.replicate 5 0, [0x4f, 0x4b]⟩]
  obtain ⟨c, hc⟩ := hist_exists id (aes keys.ck) keys.civ l3 true (⟨List.replicate 8 1, ([1, 2, 3] : List Byte).length, false⟩ :: (sent .client ms ++ []))
    (by simp [sent, ms])
  obtain ⟨s, hs⟩ := hist_exists id (aes keys.sk) keys.siv l4 false (⟨List.replicate 8 1, ([4, 5] : List Byte).length, false⟩ :: (sent .server ms ++ []))
    (by simp [sent, ms])
  have H' := H (fun _ => false) id true false c s [] [] (List.replicate 8 1) (List.replicate 5 0) [1, 2, 3] (List.replicate 8 1) (List.replicate 5 0) [4, 5] ms 5 hc hs
    (by simp) (by simp) (by simp) (by simp) (by simp [ms])
  clear H
  obtain ⟨p', vd, g1, g2, g3⟩ := H'
  exact ⟨h, d, _, p', vd, _, _, _, e1, rfl, g1, g2, g3⟩

end Verif.Props.FinishedCheat
