import Verif.Model.SessionGiven
import Verif.Props.ZkForgery

/-!
C74: what the proof phase shows about the records of the connection, whatever keys the prover makes the derivation come out with.
-/

namespace Verif.Props.SessionBound
open Verif.Model Verif.Model.Integer Verif.Model.AEADProof Verif.Model.SHA Verif.Model.ZkCheck Verif.Model.Session Verif.Model.ZkVerifier
open Verif.Spec Verif.Spec.Encoding
open Verif.Props.HandshakeProof (Short master Ready bind_ok)
open Verif.Lemmas Verif.Props Verif.Props.AEADProof Verif.Props.Session Verif.Props.ZkForgery
open Verif.Props.Garbled (aes key_of_bits)

/-! ### Statement -/

/-- The keys have the sizes of the code (`protocol/handshake.h`: 128 bits each key, 32 bits each fixed part). -/
def Widths (ks : Keys) : Prop := ks.keyC.length = 128 ∧ ks.keyS.length = 128 ∧ ks.ivC.length = 32 ∧ ks.ivS.length = 32

/-- The buffers are an authentic record for what the connection used for the record `r`, with the plaintext `m`: GCM with the block cipher and the fixed part of that
direction and the nonce of that record accepts them. -/
def Carries (u : Used) (r : AEADProof.Rec) (b : PostRecord.Rec) (m : List Byte) : Prop := GCM.decrypt u.E (u.iv ++ r.iv) b.aad b.ctxt b.tag = some m

/-- A claim and the message handed over for it show the record `r` of the connection. -/
def Shows (u : Used) (x : Claim × Integer) (r : AEADProof.Rec) : Prop := ∃ m, Carries u r x.1.buf m ∧ x.2 = strToInt m

/-- The claims of one kind, with their messages, show the records `recs` of the connection in order, from the first on. -/
def ShowsAll (u : Used) (kd : Kind) (claims : List Claim) (messages : List Integer) (recs : List AEADProof.Rec) : Prop :=
  ∃ shown rest, recs = shown ++ rest ∧ List.Forall₂ (Shows u) ((claims.zip messages).filter (·.1.kind = kd)) shown

/-- What an accepting verifier knows of the connection: the finished messages are authentic, the messages handed over for records of the client and of the server are the
plaintexts of the records of the connection. -/
def Bound (uc us : Used) (fc fs : AEADProof.Rec) (recsC recsS : List AEADProof.Rec) (finc fins : PostRecord.Rec) (claims : List Claim) (messages : List Integer) : Prop :=
  (∃ m, Carries uc fc finc m) ∧ (∃ m, Carries us fs fins m) ∧ claims.length = messages.length
    ∧ ShowsAll uc .client claims messages recsC ∧ ShowsAll us .server claims messages recsS

/-! ### The derivation as an argument -/

/-- The proof phase is the derivation followed by the phase given its outcome. -/
theorem C74_session_eq (junk : AESCircuit.Wires) (p : Post) (g : Nat → List Byte) (pms : Nat) (k : MasterSeed) (rc rs tauC tauS : List Byte)
    (finc : PostRecord.Rec) (ivc : List Byte) (fins : PostRecord.Rec) (ivs : List Byte) (claims : List Claim) (aadLen : Nat) :
    p.session junk g pms k rc rs tauC tauS finc ivc fins ivs claims aadLen
        = (p.hs.proveSchedule g p.master pms k rc rs tauC tauS >>= fun d => p.sessionGiven junk d finc ivc fins ivs claims aadLen)
      ∧ verify junk p g pms k rc rs tauC tauS finc ivc fins ivs claims aadLen
        = (p.hs.proveSchedule g p.master pms k rc rs tauC tauS >>= fun d => verifyGiven junk p d finc ivc fins ivs claims aadLen) := by
  have h1 : p.step1 junk g pms k rc rs tauC tauS = p.hs.proveSchedule g p.master pms k rc rs tauC tauS >>= p.step1Given junk := rfl
  unfold Post.session verify
  rw [h1]
  cases p.hs.proveSchedule g p.master pms k rc rs tauC tauS with
  | error e => exact ⟨rfl, rfl⟩
  | ok d => exact ⟨rfl, rfl⟩

/-! ### One record -/

theorem decrypt_agree {E E' : Block → Block} {iv iv' aad ctxt tag : List Byte} (h0 : E' 0 = E 0) (hz : E' (GCM.j0 iv') = E (GCM.j0 iv))
    (hk : GCM.keyStream E' (GCM.j0 iv') ctxt.length = GCM.keyStream E (GCM.j0 iv) ctxt.length) :
    GCM.decrypt E' iv' aad ctxt tag = GCM.decrypt E iv aad ctxt tag := by
  have ht : GCM.tag E' (GCM.j0 iv') aad ctxt = GCM.tag E (GCM.j0 iv) aad ctxt := by
    unfold GCM.tag
    rw [show E' 0#128 = E 0#128 from h0, hz]
  have hx : GCM.crypt E' (GCM.j0 iv') ctxt = GCM.crypt E (GCM.j0 iv) ctxt := by
    unfold GCM.crypt
    rw [hk]
  unfold GCM.decrypt
  rw [ht, hx]

/-- A proof that goes through takes the oldest record, which has the length of the ciphertext. -/
theorem prove_fits {E E' : Block → Block} {fiv fiv' : List Byte} (hf' : fiv'.length = 4) {H : Integer} {recs : List AEADProof.Rec} {st st' : AEAD.State}
    (hp : Pending E fiv recs st) {ctxt iv : List Byte} {sec : Bool} (hsec : ∀ r ∈ recs.head?, r.secret = sec) {cs : List Check} {msg : Option Integer} {z0 : Integer}
    (h : prove ⟨E', strToInt fiv', H⟩ st ctxt iv sec = .ok (st', cs, msg, z0)) :
    ∃ r rest, recs = r :: rest ∧ ctxt.length = r.n ∧ iv.length = 8 ∧ r.secret = sec := by
  obtain ⟨hiv, -⟩ := prove_inv hf' h
  obtain ⟨-, es, rfl, hl, q1, q2, q3, q4, q5, q6, q7, q8, q9⟩ := hp
  have s1 := stream_proof E' fiv' iv hf' hiv H ctxt.length
  cases es with
  | nil =>
    simp only [List.map_nil] at q1
    simp [prove, s1, bind, Except.bind, popZ0, q1] at h
  | cons e es =>
    refine ⟨e.r, es.map Entry.r, rfl, ?_, hiv, hsec e.r (by simp)⟩
    have hs : e.r.secret = sec := hsec e.r (by simp)
    obtain ⟨⟨Z, z⟩, e0, h⟩ := bind_ok.mp h
    rw [s1, Except.ok.injEq, Prod.mk.injEq] at e0
    obtain ⟨rfl, rfl⟩ := e0
    obtain ⟨⟨st1, c1⟩, e1, h⟩ := bind_ok.mp h
    have hst : st1.gcZA = st.gcZA ∧ st1.gcZB = st.gcZB ∧ st1.zkZ = st.zkZ ∧ st1.zLen = st.zLen ∧ st1.openZ = st.openZ ∧ st1.openLen = st.openLen := by
      unfold popZ0 at e1
      split at e1
      · obtain ⟨c, -, e1⟩ := bind_ok.mp e1
        simp only [Except.ok.injEq, Prod.mk.injEq] at e1
        rw [← e1.1]
        exact ⟨rfl, rfl, rfl, rfl, rfl, rfl⟩
      · cases e1
    obtain ⟨t4, t5, t6, t7, t8, t9⟩ := hst
    simp only at h
    split at h
    · rename_i hsf
      rw [hsf] at hs
      obtain ⟨⟨st2, c2⟩, e2, -⟩ := bind_ok.mp h
      rw [popOpen, t8, t9, q8, q9] at e2
      simp only [List.filter_cons, hs, Bool.not_false, if_true, List.map_cons] at e2
      obtain ⟨c, e3, -⟩ := bind_ok.mp e2
      unfold checkData at e3
      split at e3
      · cases e3
      · rename_i hn
        simp only [strToInt, length_ofBytes, List.length_reverse, length_keyStream, ne_eq, Decidable.not_not] at hn
        omega
    · rename_i hsf
      have hst : sec = true := by cases sec <;> simp_all
      rw [hst] at hs
      obtain ⟨⟨st2, c2⟩, e2, -⟩ := bind_ok.mp h
      rw [popZ, t4, t5, t6, t7, q4, q5, q6, q7] at e2
      simp only [List.filter_cons, hs, if_true, List.map_cons] at e2
      obtain ⟨c, e3, -⟩ := bind_ok.mp e2
      unfold checkBytes at e3
      split at e3
      · cases e3
      · split at e3
        · cases e3
        · rename_i hn
          simp only [strToInt, length_ofBytes, List.length_reverse, length_keyStream, ne_eq, Decidable.not_not] at hn
          omega

/-! ### All records -/

/-- The claims that run through fit the records of the connection. -/
theorem records_fit {k : Garbled.Keys} (h4c : k.civ.length = 4) (h4s : k.siv.length = 4) (uc us : Used) :
    ∀ (claims : List Claim) (rc rs : List AEADProof.Rec) (p p' : Post) (_ : ∀ r ∈ rc, r.secret = true) (_ : ∀ r ∈ rs, r.secret = true) (_ : Objects k p)
      (_ : Pending uc.E uc.iv rc p.c) (_ : Pending us.E us.iv rs p.s) (cs : List Check) (out : List (Claim × Integer × Integer))
      (_ : p.records claims = .ok (p', cs, out)),
    ∃ rc1 restC rs1 restS, rc = rc1 ++ restC ∧ rs = rs1 ++ restS ∧ Fit claims rc1 rs1
  | [], rc, rs, p, p', _, _, _, _, _, cs, out, _ => ⟨[], rc, [], rs, rfl, rfl, trivial⟩
  | ⟨.client, iv, b⟩ :: l, rc, rs, p, p', hc, hs, ho, pc, ps, cs, out, h => by
    simp only [Post.records] at h
    obtain ⟨⟨p1, k1, m, z0⟩, h1, h2⟩ := bind_ok.mp h
    obtain ⟨⟨p2, k2, o⟩, h3, -⟩ := bind_ok.mp h2
    obtain ⟨-, o1, -⟩ := record_inv h4c h4s ho (c := ⟨.client, iv, b⟩) h1
    simp only [Post.record, ho.c] at h1
    obtain ⟨⟨st, ks, msg, z⟩, e1, e2⟩ := bind_ok.mp h1
    simp only [Except.ok.injEq, Prod.mk.injEq] at e2
    obtain ⟨rfl, -⟩ := e2
    obtain ⟨r, rest, rfl, f1, f2, f3⟩ := prove_fits h4c pc (sec := true) (fun r hr => hc r (List.mem_of_mem_head? hr)) e1
    obtain ⟨st', cs', msg', g1, g2, -⟩ := C40_prove uc.E (aes k.ck) uc.iv k.civ h4c (strToInt (GCM.bytesOf (aes k.ck 0))) r rest p.c pc b.ctxt iv f2 f1
    rw [f3, e1] at g1
    simp only [Except.ok.injEq, Prod.mk.injEq] at g1
    obtain ⟨rfl, -⟩ := g1
    obtain ⟨rc1, restC, rs1, restS, a1, a2, a3⟩ := records_fit h4c h4s uc us l rest rs _ p2 (fun r hr => hc r (List.mem_cons_of_mem _ hr)) hs o1 g2 ps k2 o h3
    exact ⟨r :: rc1, restC, rs1, restS, by rw [a1]; rfl, a2, f2, f1, f3, a3⟩
  | ⟨.server, iv, b⟩ :: l, rc, rs, p, p', hc, hs, ho, pc, ps, cs, out, h => by
    simp only [Post.records] at h
    obtain ⟨⟨p1, k1, m, z0⟩, h1, h2⟩ := bind_ok.mp h
    obtain ⟨⟨p2, k2, o⟩, h3, -⟩ := bind_ok.mp h2
    obtain ⟨-, o1, -⟩ := record_inv h4c h4s ho (c := ⟨.server, iv, b⟩) h1
    simp only [Post.record, ho.s] at h1
    obtain ⟨⟨st, ks, msg, z⟩, e1, e2⟩ := bind_ok.mp h1
    simp only [Except.ok.injEq, Prod.mk.injEq] at e2
    obtain ⟨rfl, -⟩ := e2
    obtain ⟨r, rest, rfl, f1, f2, f3⟩ := prove_fits h4s ps (sec := true) (fun r hr => hs r (List.mem_of_mem_head? hr)) e1
    obtain ⟨st', cs', msg', g1, g2, -⟩ := C40_prove us.E (aes k.sk) us.iv k.siv h4s (strToInt (GCM.bytesOf (aes k.sk 0))) r rest p.s ps b.ctxt iv f2 f1
    rw [f3, e1] at g1
    simp only [Except.ok.injEq, Prod.mk.injEq] at g1
    obtain ⟨rfl, -⟩ := g1
    obtain ⟨rc1, restC, rs1, restS, a1, a2, a3⟩ := records_fit h4c h4s uc us l rc rest _ p2 hc (fun r hr => hs r (List.mem_cons_of_mem _ hr)) o1 pc g2 k2 o h3
    refine ⟨rc1, restC, r :: rs1, restS, a1, by rw [a2]; rfl, ?_⟩
    cases rc1 <;> exact ⟨f2, f1, f3, a3⟩
  | ⟨.last, iv, b⟩ :: l, rc, rs, p, p', hc, hs, ho, pc, ps, cs, out, h => by
    simp only [Post.records] at h
    obtain ⟨⟨p1, k1, m, z0⟩, h1, h2⟩ := bind_ok.mp h
    obtain ⟨⟨p2, k2, o⟩, h3, -⟩ := bind_ok.mp h2
    obtain ⟨-, o1, -⟩ := record_inv h4c h4s ho (c := ⟨.last, iv, b⟩) h1
    simp only [Post.record, ho.s] at h1
    obtain ⟨⟨msg, z⟩, e1, e2⟩ := bind_ok.mp h1
    simp only [Except.ok.injEq, Prod.mk.injEq] at e2
    obtain ⟨rfl, -⟩ := e2
    obtain ⟨f2, -⟩ := last_inv h4s e1
    obtain ⟨rc1, restC, rs1, restS, a1, a2, a3⟩ := records_fit h4c h4s uc us l rc rs _ p2 hc hs o1 pc ps k2 o h3
    refine ⟨rc1, restC, rs1, restS, a1, a2, ?_⟩
    cases rc1 <;> cases rs1 <;> exact ⟨f2, a3⟩

/-- Claims that agree with the records of the connection and are accepted under the keys of the derivation show these records. -/
theorem shows_of {k : Garbled.Keys} {uc us : Used} (hc0 : aes k.ck 0 = uc.E 0) (hs0 : aes k.sk 0 = us.E 0) :
    ∀ (claims : List Claim) (rc rs : List AEADProof.Rec) (_ : Fit claims rc rs) (_ : AgreeAll k uc us claims rc rs)
      (_ : ∀ c ∈ claims, OpensTo k (ofClient c.kind) c.iv c.buf (GCM.crypt (aes (keyOf k (ofClient c.kind))) (GCM.j0 (saltOf k (ofClient c.kind) ++ c.iv)) c.buf.ctxt)),
    List.Forall₂ (Shows uc) ((claims.zip (claims.map fun c => (outOf k c).2.1)).filter (·.1.kind = .client)) rc
      ∧ List.Forall₂ (Shows us) ((claims.zip (claims.map fun c => (outOf k c).2.1)).filter (·.1.kind = .server)) rs
  | [], [], [], _, _, _ => ⟨.nil, .nil⟩
  | ⟨.client, iv, b⟩ :: l, r :: rc, rs, hf, ha, ht => by
    obtain ⟨f1, f2, f3, f4⟩ := hf
    obtain ⟨⟨a1, a2⟩, a3⟩ := ha
    obtain ⟨i1, i2⟩ := shows_of hc0 hs0 l rc rs f4 a3 fun c hc => ht c (List.mem_cons_of_mem _ hc)
    have t := ht ⟨.client, iv, b⟩ List.mem_cons_self
    refine ⟨.cons ⟨_, ?_, rfl⟩ i1, i2⟩
    rw [← f2] at a2
    exact (decrypt_agree (E := uc.E) (iv := uc.iv ++ r.iv) hc0 a1 a2).symm.trans t
  | ⟨.server, iv, b⟩ :: l, rc, r :: rs, hf, ha, ht => by
    have hf : iv.length = 8 ∧ b.ctxt.length = r.n ∧ r.secret = true ∧ Fit l rc rs := by cases rc <;> exact hf
    have ha : Agrees k false us iv r ∧ AgreeAll k uc us l rc rs := by cases rc <;> exact ha
    obtain ⟨f1, f2, f3, f4⟩ := hf
    obtain ⟨⟨a1, a2⟩, a3⟩ := ha
    obtain ⟨i1, i2⟩ := shows_of hc0 hs0 l rc rs f4 a3 fun c hc => ht c (List.mem_cons_of_mem _ hc)
    have t := ht ⟨.server, iv, b⟩ List.mem_cons_self
    refine ⟨i1, .cons ⟨_, ?_, rfl⟩ i2⟩
    rw [← f2] at a2
    exact (decrypt_agree (E := us.E) (iv := us.iv ++ r.iv) hs0 a1 a2).symm.trans t
  | ⟨.last, iv, b⟩ :: l, rc, rs, hf, ha, ht => by
    have hf : iv.length = 8 ∧ Fit l rc rs := by cases rc <;> cases rs <;> exact hf
    have ha : AgreeAll k uc us l rc rs := by cases rc <;> cases rs <;> exact ha
    exact shows_of hc0 hs0 l rc rs hf.2 ha fun c hc => ht c (List.mem_cons_of_mem _ hc)

/-- **C74.**  Whatever the derivation of the proof phase comes out with (any keys, any master secret, any checks): if the proof phase runs through and the verifier accepts,
then the two finished messages are those of the connection, and the messages handed over for records of the client and of the server are the plaintexts of the connection's
records, in order from the first on: GCM under what the connection used accepts the buffers, with the nonces the connection used. -/
theorem C74_bound (junk : AESCircuit.Wires) (p : Post) (d : Derived) (hw : Widths d.2.1)
    {hash : List Byte → List Byte} {uc us : Used} (i1 : uc.iv.length = 4) (i2 : us.iv.length = 4) {sc ss : Bool} {fc fs : AEADProof.Rec} {recsC recsS : List AEADProof.Rec}
    (hc : Hist hash uc.E uc.iv sc p.c (fc :: recsC)) (hs : Hist hash us.E us.iv ss p.s (fs :: recsS))
    (s1 : fc.secret = false) (s2 : ∀ r ∈ recsC, r.secret = true) (s3 : fs.secret = false) (s4 : ∀ r ∈ recsS, r.secret = true)
    (finc : PostRecord.Rec) (ivc : List Byte) (fins : PostRecord.Rec) (ivs : List Byte) (claims : List Claim) (aadLen : Nat)
    (hsz : ∀ r ∈ finc :: fins :: claims.map Claim.buf, Sized aadLen r) (p' : Post) (v : Verdict)
    (h : p.sessionGiven junk d finc ivc fins ivs claims aadLen = .ok (p', v)) (hacc : Accepted v) :
    Bound uc us fc fs recsC recsS finc fins claims v.messages := by
  obtain ⟨mk, ⟨kc, ks, ic, is⟩, cc, cs, h'⟩ := d
  obtain ⟨w1, w2, w3, w4⟩ := hw
  simp only at w1 w2 w3 w4
  obtain ⟨ck, rfl, l1, -⟩ := key_of_bits kc 16 (by simp [w1])
  obtain ⟨sk, rfl, l2, -⟩ := key_of_bits ks 16 (by simp [w2])
  obtain ⟨civ, rfl, l3, -⟩ := key_of_bits ic 4 (by simp [w3])
  obtain ⟨siv, rfl, l4, -⟩ := key_of_bits is 4 (by simp [w4])
  obtain ⟨k, hk⟩ : ∃ k : Garbled.Keys, k = ⟨ck, sk, civ, siv⟩ := ⟨_, rfl⟩
  obtain ⟨⟨p1, k1⟩, h1, h⟩ := bind_ok.mp h
  obtain ⟨⟨p2, k2⟩, h2, h⟩ := bind_ok.mp h
  obtain ⟨⟨p3, k3, b⟩, h3, h⟩ := bind_ok.mp h
  obtain ⟨⟨p4, k4, out⟩, h4, h⟩ := bind_ok.mp h
  obtain ⟨t, h5, h⟩ := bind_ok.mp h
  simp only [Except.ok.injEq, Prod.mk.injEq] at h
  obtain ⟨rfl, rfl⟩ := h
  obtain ⟨c1, c2, c3⟩ := hacc
  simp only at c1 c2 c3
  unfold Post.step1Given at h1
  simp only at h1
  rw [ok_bind _ _ (encrypter_eq junk ck l1)] at h1
  obtain ⟨⟨pc, hcc⟩, e3, h1⟩ := bind_ok.mp h1
  simp only at h1
  rw [ok_bind _ _ (encrypter_eq junk sk l2)] at h1
  obtain ⟨⟨ps, hcs⟩, e5, h1⟩ := bind_ok.mp h1
  simp only [Except.ok.injEq, Prod.mk.injEq] at h1
  obtain ⟨rfl, rfl⟩ := h1
  obtain ⟨q1, q2⟩ := hist_key i1 hc
  obtain ⟨q3, q4⟩ := hist_key i2 hs
  obtain ⟨n1, x1, x2⟩ := construct_run (E' := aes ck) q1 q2 (strToInt civ)
  obtain ⟨n2, x3, x4⟩ := construct_run (E' := aes sk) q3 q4 (strToInt siv)
  rw [x1] at e3
  rw [x3] at e5
  simp only [Except.ok.injEq, Prod.mk.injEq] at e3 e5
  obtain ⟨rfl, rfl⟩ := e3
  obtain ⟨rfl, rfl⟩ := e5
  have hc0 : aes ck 0 = uc.E 0 := x2.1 (c1 _ (by simp))
  have hs0 : aes sk 0 = us.E 0 := x4.1 (c1 _ (by simp))
  simp only [Post.step2] at h2
  obtain ⟨⟨st2, k2', m2, z2⟩, e6, h2⟩ := bind_ok.mp h2
  simp only [Except.ok.injEq, Prod.mk.injEq] at h2
  obtain ⟨rfl, rfl⟩ := h2
  simp only [Post.step3] at h3
  obtain ⟨⟨st3, k3', m3, z3⟩, e7, h3⟩ := bind_ok.mp h3
  obtain ⟨b', e8, h3⟩ := bind_ok.mp h3
  simp only [Except.ok.injEq, Prod.mk.injEq] at h3
  obtain ⟨rfl, rfl, rfl⟩ := h3
  obtain ⟨r1, t1, a1, a2, a3, a4⟩ := prove_fits l3 (C40_invariant i1 hc).2 (fun r hr => by cases hr; exact s1) e6
  cases a1
  obtain ⟨r2, t2, a5, a6, a7, a8⟩ := prove_fits l4 (C40_invariant i2 hs).2 (fun r hr => by cases hr; exact s3) e7
  cases a5
  obtain ⟨-, z2e, -⟩ := prove_inv l3 e6
  obtain ⟨-, z3e, -⟩ := prove_inv l4 e7
  obtain ⟨st1', cs1', m1', d1, d2, d3, -⟩ := C40_prove uc.E (aes ck) uc.iv civ l3 (strToInt (GCM.bytesOf (aes ck 0))) fc _ p.c (C40_invariant i1 hc).2
    finc.ctxt ivc a3 a2
  obtain ⟨st2', cs2', m2', d4, d5, d6, -⟩ := C40_prove us.E (aes sk) us.iv siv l4 (strToInt (GCM.bytesOf (aes sk 0))) fs _ p.s (C40_invariant i2 hs).2
    fins.ctxt ivs a7 a6
  rw [s1, e6] at d1
  rw [s3, e7] at d4
  simp only [Except.ok.injEq, Prod.mk.injEq] at d1 d4
  obtain ⟨rfl, rfl, -⟩ := d1
  obtain ⟨rfl, rfl, -⟩ := d4
  have g1 := d3.1 fun c hc => c1 c (by simp [hc])
  have g2 := d6.1 fun c hc => c1 c (by simp [hc])
  have l3' : k.civ.length = 4 := by rw [hk]; exact l3
  have l4' : k.siv.length = 4 := by rw [hk]; exact l4
  have ob : Objects k (Post.mk h' st2 st3 mk ⟨strToInt ck, strToInt sk, strToInt civ, strToInt siv⟩
      (some ⟨aes ck, strToInt civ, strToInt (GCM.bytesOf (aes ck 0))⟩) (some ⟨aes sk, strToInt siv, strToInt (GCM.bytesOf (aes sk 0))⟩) z2 z3) := by
    rw [hk]; exact ⟨rfl, rfl⟩
  obtain ⟨rc1, restC, rs1, restS, b1, b2, b3⟩ := records_fit l3' l4' uc us claims recsC recsS _ p4 s2 s4 ob d2 d5 k4 out h4
  obtain ⟨p5, cs5, y1, ob5, y2, y3, y4, -⟩ := records_run l3' l4' uc us restC restS claims rc1 rs1 _ b3 ob (by rw [← b1]; exact d2) (by rw [← b2]; exact d5)
  rw [h4] at y1
  simp only [Except.ok.injEq, Prod.mk.injEq] at y1
  obtain ⟨rfl, rfl, rfl⟩ := y1
  have g3 := y4.1 fun c hc => c1 c (by simp [hc])
  have z2f : z2 = maskOf k true ivc := by rw [hk]; exact z2e
  have z3f : z3 = maskOf k false ivs := by rw [hk]; exact z3e
  obtain ⟨t', f1, f2⟩ := finalize_iff ob5 (y2.trans z2f) (y3.trans z3f) finc fins claims aadLen hsz
  rw [f1, Except.ok.injEq] at h5
  rw [h5] at f2
  obtain ⟨⟨m1, o1⟩, ⟨m2, o2⟩, o3⟩ := f2.1 c3
  have hm : (claims.map (outOf k)).map (·.2.1) = claims.map fun c => (outOf k c).2.1 := by rw [List.map_map]; rfl
  have hck : aes k.ck 0 = uc.E 0 := by rw [hk]; exact hc0
  have hsk : aes k.sk 0 = us.E 0 := by rw [hk]; exact hs0
  obtain ⟨v1, v2⟩ := shows_of hck hsk claims rc1 rs1 b3 g3 o3
  refine ⟨⟨m1, ?_⟩, ⟨m2, ?_⟩, by simp, ⟨rc1, restC, b1, ?_⟩, ⟨rs1, restS, b2, ?_⟩⟩
  · have e : OpensTo k true ivc finc m1 := o1
    rw [hk] at e
    unfold OpensTo at e
    rw [← a2] at g1
    exact (decrypt_agree (E := uc.E) (iv := uc.iv ++ fc.iv) hc0 g1.1 g1.2).symm.trans e
  · have e : OpensTo k false ivs fins m2 := o2
    rw [hk] at e
    unfold OpensTo at e
    rw [← a6] at g2
    exact (decrypt_agree (E := us.E) (iv := us.iv ++ fs.iv) hs0 g2.1 g2.2).symm.trans e
  · simp only
    rw [hm]; exact v1
  · simp only
    rw [hm]; exact v2

theorem tls_of {keys : Garbled.Keys} (l3 : keys.civ.length = 4) (l4 : keys.siv.length = 4) {junk : AESCircuit.Wires} {hash : List Byte → List Byte} {sc ss : Bool} {p p' : Post}
    {d : Derived} {fc fs : AEADProof.Rec} {recsC recsS : List AEADProof.Rec} {finc : PostRecord.Rec} {ivc : List Byte} {fins : PostRecord.Rec} {ivs : List Byte} {claims : List Claim}
    {aadLen : Nat} {vd : Verdict} (hw : Widths d.2.1) (hc : Hist hash (aes keys.ck) keys.civ sc p.c (fc :: recsC)) (hs : Hist hash (aes keys.sk) keys.siv ss p.s (fs :: recsS))
    (s1 : fc.secret = false) (s2 : ∀ r ∈ recsC, r.secret = true) (s3 : fs.secret = false) (s4 : ∀ r ∈ recsS, r.secret = true)
    (hsz : ∀ r ∈ finc :: fins :: claims.map Claim.buf, Sized aadLen r)
    (hr : p.sessionGiven junk d finc ivc fins ivs claims aadLen = .ok (p', vd)) (hacc : Accepted vd) :
    (∃ m, OpensTo keys true fc.iv finc m) ∧ (∃ m, OpensTo keys false fs.iv fins m) ∧ claims.length = vd.messages.length
      ∧ ∃ shownC shownS, shownC <+: recsC ∧ shownS <+: recsS
        ∧ List.Forall₂ (fun x r => ∃ m, OpensTo keys true r.iv x.1.buf m ∧ x.2 = strToInt m) ((claims.zip vd.messages).filter (·.1.kind = .client)) shownC
        ∧ List.Forall₂ (fun x r => ∃ m, OpensTo keys false r.iv x.1.buf m ∧ x.2 = strToInt m) ((claims.zip vd.messages).filter (·.1.kind = .server)) shownS := by
  obtain ⟨uc, u1, u2⟩ : ∃ uc : Used, uc.E = aes keys.ck ∧ uc.iv = keys.civ := used_exists _ _
  obtain ⟨us, u3, u4⟩ : ∃ us : Used, us.E = aes keys.sk ∧ us.iv = keys.siv := used_exists _ _
  rw [← u1, ← u2] at hc
  rw [← u3, ← u4] at hs
  obtain ⟨b1, b2, b3, ⟨shC, rC, b4, b5⟩, ⟨shS, rS, b6, b7⟩⟩ := C74_bound junk p d hw (by rw [u2]; exact l3) (by rw [u4]; exact l4) hc hs s1 s2 s3 s4
    finc ivc fins ivs claims aadLen hsz p' vd hr hacc
  have o1 : ∀ r b m, Carries uc r b m → OpensTo keys true r.iv b m := by
    intro r b m h
    unfold Carries at h
    rw [u1, u2] at h
    exact h
  have o2 : ∀ r b m, Carries us r b m → OpensTo keys false r.iv b m := by
    intro r b m h
    unfold Carries at h
    rw [u3, u4] at h
    exact h
  exact ⟨b1.imp fun m h => o1 _ _ _ h, b2.imp fun m h => o2 _ _ _ h, b3, shC, shS, ⟨rC, b4.symm⟩, ⟨rS, b6.symm⟩,
    b5.imp fun _ _ ⟨m, h, e⟩ => ⟨m, o1 _ _ _ h, e⟩, b7.imp fun _ _ ⟨m, h, e⟩ => ⟨m, o2 _ _ _ h, e⟩⟩

/-- **C74, the records of a TLS session.**  After an honest handshake and with record objects that hold the keys of the handshake: whatever keys the prover makes the derivation
of the proof phase come out with, an accepting verifier is handed, for records of the client and of the server, the plaintexts of the connection's records under the TLS keys of
the pre-master secret `(a + b) mod q`. -/
theorem C74_tls (q : Nat) (rounds : Bool) (u v : List Byte) (hq : bnNumBytes q < 2 ^ 59) (g : Nat → List Byte) (hg : ∀ i, (g i).length = 64)
    (a b : Nat) (ha : a < q) (hb : b < q) (k : MasterSeed) (rc rs tauC tauS : List Byte) (hs : Short k rc rs tauC tauS) :
    ∃ h keys, (Hs.new q rounds u v).schedule g a b k rc rs tauC tauS = .ok h
      ∧ Garbled.Keys.Of keys (master k (SHA256.beBits (8 * bnNumBytes q) ((a + b) % q)) (bytesBits rc) (bytesBits rs)) (bytesBits rc) (bytesBits rs)
      ∧ h.clientWriteKey = strToInt keys.ck ∧ h.serverWriteKey = strToInt keys.sk ∧ h.clientWriteIv = strToInt keys.civ ∧ h.serverWriteIv = strToInt keys.siv
      ∧ ∀ (junk : AESCircuit.Wires) (hash : List Byte → List Byte) (sc ss : Bool) (p : Post) (d : Derived) (fc fs : AEADProof.Rec) (recsC recsS : List AEADProof.Rec)
          (finc : PostRecord.Rec) (ivc : List Byte) (fins : PostRecord.Rec) (ivs : List Byte) (claims : List Claim) (aadLen : Nat) (p' : Post) (vd : Verdict),
          Widths d.2.1 → Hist hash (aes keys.ck) keys.civ sc p.c (fc :: recsC) → Hist hash (aes keys.sk) keys.siv ss p.s (fs :: recsS) →
          fc.secret = false → (∀ r ∈ recsC, r.secret = true) → fs.secret = false → (∀ r ∈ recsS, r.secret = true) →
          (∀ r ∈ finc :: fins :: claims.map Claim.buf, Sized aadLen r) →
          p.sessionGiven junk d finc ivc fins ivs claims aadLen = .ok (p', vd) → Accepted vd →
          (∃ m, OpensTo keys true fc.iv finc m) ∧ (∃ m, OpensTo keys false fs.iv fins m) ∧ claims.length = vd.messages.length
            ∧ ∃ shownC shownS, shownC <+: recsC ∧ shownS <+: recsS
              ∧ List.Forall₂ (fun x r => ∃ m, OpensTo keys true r.iv x.1.buf m ∧ x.2 = strToInt m) ((claims.zip vd.messages).filter (·.1.kind = .client)) shownC
              ∧ List.Forall₂ (fun x r => ∃ m, OpensTo keys false r.iv x.1.buf m ∧ x.2 = strToInt m) ((claims.zip vd.messages).filter (·.1.kind = .server)) shownS := by
  obtain ⟨h, keys, e1, e2, e3, e4, e5, e6, l1, l2, l3, l4, -⟩ := honest_keys q rounds u v hq g hg a b ha hb k rc rs tauC tauS hs
  refine ⟨h, keys, e1, e2, e3, e4, e5, e6, ?_⟩
  intro junk hash sc ss p d fc fs recsC recsS finc ivc fins ivs claims aadLen p' vd hw hc hs' s1 s2 s3 s4 hsz hr hacc
  exact tls_of l3 l4 hw hc hs' s1 s2 s3 s4 hsz hr hacc

/-! ### How often a wrong session is accepted -/

/-- As `verify_sound`, given the outcome of the derivation. -/
theorem given_sound {junk : AESCircuit.Wires} {p p' : Post} {d : Derived}
    {finc : PostRecord.Rec} {ivc : List Byte} {fins : PostRecord.Rec} {ivs : List Byte} {claims : List Claim} {aadLen : Nat} {b : Bob}
    (h : verifyGiven junk p d finc ivc fins ivs claims aadLen = .ok (p', b)) (hc : ∀ i ∈ b.items, Claims i)
    (ha : b.accepts b.value = true) :
    ∃ v, p.sessionGiven junk d finc ivc fins ivs claims aadLen = .ok (p', v) ∧ Accepted v ∧ v.messages = b.messages := by
  obtain ⟨⟨p1, k1⟩, e1, h⟩ := bind_ok.mp h
  obtain ⟨⟨p2, k2⟩, e2, h⟩ := bind_ok.mp h
  simp only at h
  cases hps : p2.ps with
  | none => rw [hps] at h; cases h
  | some P =>
    rw [hps] at h
    simp only at h
    obtain ⟨⟨st, k3, o, z0⟩, e3, h⟩ := bind_ok.mp h
    obtain ⟨hs, e4, h⟩ := bind_ok.mp h
    obtain ⟨⟨p4, k4, out⟩, e5, h⟩ := bind_ok.mp h
    rw [← hps] at e5
    simp only at h e5
    split at h
    · rename_i Pc Ps hpc hps4
      split at h
      · cases h
      · rename_i hr
        split at h
        · cases h
        · rename_i hlen
          simp only [Except.ok.injEq, Prod.mk.injEq] at h
          obtain ⟨rfl, rfl⟩ := h
          simp only at hc ha
          have hhs : handshakeCheck p2.hs.hs.prf p2.hs.hs.hmac = .ok true :=
            (handshakeItems_iff _ _).1 ⟨hs, e4, fun i hi => hc i (by simp [hi])⟩
          have s3 : p2.step3 fins.ctxt ivs = .ok ({ p2 with s := st, zs := z0 }, k3, true) := by
            simp only [Post.step3, hps, bind, Except.bind, e3, hhs]
          have s5 : p4.finalize finc fins out aadLen = .ok true := by
            rw [finalize_eq hpc hps4]
            simp only
            rw [if_neg hr, if_neg hlen, ha]
          refine ⟨⟨k1 ++ k2 ++ k3 ++ k4, true, out.map (·.2.1), true⟩, ?_, ⟨?_, rfl, rfl⟩, rfl⟩
          · simp only [Post.sessionGiven, bind, Except.bind, e1, e2, s3, e5, s5]
          · intro c hm
            refine hc (.check c) ?_
            simp only [List.mem_append, List.mem_map, Item.check.injEq, exists_eq_right] at hm ⊢
            tauto
    · cases h

/-- **C74, against forged messages.**  Whatever keys the prover makes the derivation come out with, whatever blocks `l` it holds, whatever bits `y` it announces for the value opened
at the end and whatever digest it sends: of the `2^127` offsets BOB may hold at most one makes BOB accept finished messages or records that are not those of the connection,
unless two of BOB's transcripts collide. -/
theorem C74_count (junk : AESCircuit.Wires) (p : Post) (d : Derived) (hw : Widths d.2.1)
    {hash : List Byte → List Byte} {uc us : Used} (i1 : uc.iv.length = 4) (i2 : us.iv.length = 4) {sc ss : Bool} {fc fs : AEADProof.Rec} {recsC recsS : List AEADProof.Rec}
    (hc : Hist hash uc.E uc.iv sc p.c (fc :: recsC)) (hs : Hist hash us.E us.iv ss p.s (fs :: recsS))
    (s1 : fc.secret = false) (s2 : ∀ r ∈ recsC, r.secret = true) (s3 : fs.secret = false) (s4 : ∀ r ∈ recsS, r.secret = true)
    (finc : PostRecord.Rec) (ivc : List Byte) (fins : PostRecord.Rec) (ivs : List Byte) (claims : List Claim) (aadLen : Nat)
    (hsz : ∀ r ∈ finc :: fins :: claims.map Claim.buf, Sized aadLen r) (p' : Post) (b : Bob)
    (h : verifyGiven junk p d finc ivc fins ivs claims aadLen = .ok (p', b))
    {δ : Type} (D : List Block → δ) (pub : Bool → Block) (T : Block → List Block) (hT : ∀ d d', (T d).length = (T d').length)
    (y : Integer) (l : List (Item × Macs)) (he : l.map Prod.fst = b.items ++ [.opening b.value y]) (hf : ∀ x ∈ l, Fits x.1 x.2)
    (dig : δ) (hn : ¬Collides D pub T l) (hb : ¬Bound uc us fc fs recsC recsS finc fins claims b.messages) :
    Nat.card {d : Block // Odd d ∧ Deceives D pub T b l y dig d} * 2 ^ 127 ≤ Nat.card {d : Block // Odd d} := by
  by_cases hacc : b.accepts y = true
  · have hwi : ∃ x ∈ l, ¬Claims x.1 := by
      by_contra hcl
      push Not at hcl
      have hc' : ∀ i ∈ b.items ++ [.opening b.value y], Claims i := by
        rw [← he]
        intro i hi
        obtain ⟨x, hx, rfl⟩ := List.mem_map.1 hi
        exact hcl x hx
      have hy : b.value = y := hc' (.opening b.value y) (by simp)
      obtain ⟨v, g1, g2, g3⟩ := given_sound h (fun i hi => hc' i (List.mem_append_left _ hi)) (by rw [hy]; exact hacc)
      exact hb (g3 ▸ C74_bound junk p d hw i1 i2 hc hs s1 s2 s3 s4 finc ivc fins ivs claims aadLen hsz p' v g1 g2)
    have := C73_count D pub T hT l hf hwi dig hn
    simpa only [Deceives, hacc, and_true] using this
  · simp [Deceives, hacc]

/-! ### A case -/

/-- A concrete session that meets the hypotheses of `C74_bound` and is accepted: a request and an answer, of which the connection had one record more each. -/
example (rounds : Bool) : ∃ (p p' : Post) (d : Derived) (vd : Verdict) (uc us : Used) (fc fs : AEADProof.Rec) (recsC recsS : List AEADProof.Rec) (finc fins : PostRecord.Rec)
    (claims : List Claim), Widths d.2.1 ∧ uc.iv.length = 4 ∧ us.iv.length = 4 ∧ Hist id uc.E uc.iv true p.c (fc :: recsC) ∧ Hist id us.E us.iv false p.s (fs :: recsS)
      ∧ fc.secret = false ∧ (∀ r ∈ recsC, r.secret = true) ∧ fs.secret = false ∧ (∀ r ∈ recsS, r.secret = true) ∧ recsC.length = 2 ∧ recsS.length = 2
      ∧ (∀ r ∈ finc :: fins :: claims.map Claim.buf, Sized 5 r)
      ∧ p.sessionGiven (fun _ => false) d finc (List.replicate 8 1) fins (List.replicate 8 1) claims 5 = .ok (p', vd) ∧ Accepted vd
      ∧ vd.messages = [strToInt [0x47, 0x45, 0x54], strToInt [0x4f, 0x4b]] := by
  have hsh : Short (.extended [7, 8]) [1] [2] [3] [4] := ⟨by decide, by rintro x ⟨⟩; decide, by decide, by decide⟩
  obtain ⟨h, keys, e1, e2, -, -, -, -, H⟩ := C52_honest 251 rounds [] [] (by decide +kernel) (fun _ => List.replicate 64 0) (fun _ => List.length_replicate) 200 100
    (by decide) (by decide) (.extended [7, 8]) [1] [2] [3] [4] hsh
  obtain ⟨h2, keys2, f1, -, -, -, -, -, l1, l2, l3, l4, mk, cc, cs, h', f2, -⟩ := honest_keys 251 rounds [] [] (by decide +kernel) (fun _ => List.replicate 64 0)
    (fun _ => List.length_replicate) 200 100 (by decide) (by decide) (.extended [7, 8]) [1] [2] [3] [4] hsh
  rw [e1, Except.ok.injEq] at f1
  subst f1
  have hl := of_lengths e2
  let ms : List Msg := [⟨.client, List.replicate 8 2, List.replicate 5 0, [0x47, 0x45, 0x54]⟩, ⟨.server, List.replicate 8 2, List.replicate 5 0, [0x4f, 0x4b]⟩]
  obtain ⟨c, hc⟩ := hist_exists id (aes keys.ck) keys.civ hl.1 true (⟨List.replicate 8 1, ([1, 2, 3] : List Byte).length, false⟩ :: (sent .client ms ++ [⟨List.replicate 8 3, 7, true⟩]))
    (by simp [sent, ms])
  obtain ⟨s, hs⟩ := hist_exists id (aes keys.sk) keys.siv hl.2 false (⟨List.replicate 8 1, ([4, 5] : List Byte).length, false⟩ :: (sent .server ms ++ [⟨List.replicate 8 3, 9, true⟩]))
    (by simp [sent, ms])
  have H' := H (fun _ => false) id true false c s _ _ (List.replicate 8 1) (List.replicate 5 0) [1, 2, 3] (List.replicate 8 1) (List.replicate 5 0) [4, 5] ms 5 hc hs
    (by simp) (by simp) (by simp) (by simp) (by simp [ms])
  clear H
  obtain ⟨p', vd, g1, g2, g3⟩ := H'
  rw [(C74_session_eq _ _ _ _ _ _ _ _ _ _ _ _ _ _ _).1] at g1
  have f2' : HsP.proveSchedule ⟨h, 200, 100⟩ (fun _ => List.replicate 64 0) [] 49 (.extended [7, 8]) [1] [2] [3] [4]
      = .ok (mk, ⟨strToInt keys2.ck, strToInt keys2.sk, strToInt keys2.civ, strToInt keys2.siv⟩, cc, cs, h') := f2
  rw [ok_bind _ _ f2'] at g1
  obtain ⟨uc, u1, u2⟩ : ∃ uc : Used, uc.E = aes keys.ck ∧ uc.iv = keys.civ := used_exists _ _
  obtain ⟨us, u3, u4⟩ : ∃ us : Used, us.E = aes keys.sk ∧ us.iv = keys.siv := used_exists _ _
  rw [← u1, ← u2] at hc
  rw [← u3, ← u4] at hs
  have hz : ∀ r ∈ sealRec keys true (List.replicate 8 1) (List.replicate 5 0) [1, 2, 3] :: sealRec keys false (List.replicate 8 1) (List.replicate 5 0) [4, 5]
      :: (ms.map (sealed keys)).map Claim.buf, Sized 5 r := by
    intro r hr
    simp only [ms, List.map_cons, List.map_nil, List.mem_cons, List.not_mem_nil, or_false] at hr
    rcases hr with rfl | rfl | rfl | rfl <;> exact seal_sized _ _ _ (List.replicate 5 0) _
  have hw : Widths (⟨strToInt keys2.ck, strToInt keys2.sk, strToInt keys2.civ, strToInt keys2.siv⟩ : Keys) :=
    ⟨by simp [strToInt, l1], by simp [strToInt, l2], by simp [strToInt, l3], by simp [strToInt, l4]⟩
  refine ⟨{ hs := ⟨h, 200, 100⟩, c := c, s := s }, p', (mk, ⟨strToInt keys2.ck, strToInt keys2.sk, strToInt keys2.civ, strToInt keys2.siv⟩, cc, cs, h'), vd, uc, us,
    ⟨List.replicate 8 1, ([1, 2, 3] : List Byte).length, false⟩, ⟨List.replicate 8 1, ([4, 5] : List Byte).length, false⟩,
    sent .client ms ++ [⟨List.replicate 8 3, 7, true⟩], sent .server ms ++ [⟨List.replicate 8 3, 9, true⟩], _, _, _, hw, by rw [u2]; exact hl.1, by rw [u4]; exact hl.2,
    hc, hs, rfl, by simp [sent, ms], rfl, by simp [sent, ms], by simp [sent, ms], by simp [sent, ms], hz, g1, g2, g3⟩

end Verif.Props.SessionBound
