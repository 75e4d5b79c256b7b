import Verif.Model.Session
import Verif.Props.HandshakeProof
import Verif.Props.PostRecord
import Verif.Props.AESCircuit
import Verif.Props.Records

/-!
C52: the proof phase of a session as a whole.  What a verifier who accepts knows, and that honest sessions are accepted.
-/

namespace Verif.Props.Session
open Verif.Model Verif.Model.Integer Verif.Model.AEAD Verif.Model.AEADProof Verif.Model.SHA Verif.Model.Session Verif.Lemmas Verif.Props
open Verif.Spec Verif.Spec.Encoding
open Verif.Props.AEADProof (Holds Hist Pending stream_proof C40_last C40_prove C40_invariant construct_queues block_holds)
open Verif.Props.HandshakeProof (Short master C42_sound C42_complete_partial C42_rounds C42_rounds_complete Ready buffer_inj emod_lt bind_ok)
open Verif.Props.PostRecord (C39_gcm)
open Verif.Props.Garbled (aes key_of_bits)

/-! ### Specification -/

/-- The key and the fixed part of the nonce with which a record is protected. -/
def keyOf (k : Garbled.Keys) (client : Bool) : List Byte := if client then k.ck else k.sk
def saltOf (k : Garbled.Keys) (client : Bool) : List Byte := if client then k.civ else k.siv

/-- The records of the client are those of `prove_record_client`. -/
def ofClient : Kind → Bool
  | .client => true
  | _ => false

/-- A record opens to `m`: AES-128-GCM accepts it under the keys of its direction (RFC 5288: nonce = fixed part, explicit part). -/
def OpensTo (k : Garbled.Keys) (client : Bool) (iv : List Byte) (r : PostRecord.Rec) (m : List Byte) : Prop :=
  GCM.decrypt (aes (keyOf k client)) (saltOf k client ++ iv) r.aad r.ctxt r.tag = some m

/-- The verifier accepts: no check failed and both results are true. -/
def Accepted (v : Verdict) : Prop := (∀ c ∈ v.checks, Holds c) ∧ v.handshake = true ∧ v.tags = true

/-- The buffers hold a tag of 16 bytes and additional data of the length given. -/
def Sized (aadLen : Nat) (r : PostRecord.Rec) : Prop := r.tag.length = 16 ∧ r.aad.length = aadLen

/-! ### The cipher -/

theorem blk_ofNat (x : Block) : blk (ofNat 128 x.toNat) = x := by
  rw [blk, val_ofNat]
  simp [Nat.mod_eq_of_lt x.isLt]

theorem aes_ofNat (E : Block → Block) (b : Block) : AEAD.aes E (ofNat 128 b.toNat) = .ok (ofNat 128 (E b).toNat) := by
  rw [AEAD.aes, if_pos (by simp), blk_ofNat]

theorem ok_bind {α β : Type} (x : Res α) (a : α) (h : x = .ok a) (f : α → Res β) : (x >>= f) = f a := by rw [h]; rfl

theorem encrypter_eq (junk : AESCircuit.Wires) (key : List Byte) (hk : key.length = 16) : encrypter junk (strToInt key) = .ok (aes key) := by
  obtain ⟨ek, h1⟩ : ∃ ek, AESCircuit.computeKS junk (strToInt key) = .ok ek := ⟨_, AESCircuit.C43_key_schedule junk key hk⟩
  have h2 : ∀ b : Block, AESCircuit.computeAESKS junk ek (ofNat 128 b.toNat) = .ok (ofNat 128 (aes key b).toNat) := by
    intro b
    have h3 := AESCircuit.C43_block junk junk key hk (ofNat 128 b.toNat) (by simp)
    rw [ok_bind _ _ h1, aes_ofNat] at h3
    exact h3
  unfold encrypter
  rw [ok_bind _ _ h1]
  refine congrArg Except.ok (funext fun b => ?_)
  rw [h2, blockOr, blk_ofNat]

/-! ### What the calls return -/

theorem prove_inv {E : Block → Block} {fiv : List Byte} (hf : fiv.length = 4) {H : Integer} {st st' : State} {ctxt iv : List Byte} {sec : Bool}
    {cs : List Check} {msg : Option Integer} {z0 : Integer}
    (h : prove ⟨E, strToInt fiv, H⟩ st ctxt iv sec = .ok (st', cs, msg, z0)) :
    iv.length = 8 ∧ z0 = strToInt (GCM.bytesOf (E (GCM.j0 (fiv ++ iv))))
      ∧ (sec = true → msg = some (strToInt (GCM.crypt E (GCM.j0 (fiv ++ iv)) ctxt))) := by
  by_cases hiv : iv.length = 8
  · have s1 := stream_proof E fiv iv hf hiv H ctxt.length
    have s2 := C40_last E fiv iv ctxt hf hiv H
    simp only [proveLast, s1, bind, Except.bind, Except.ok.injEq, Prod.mk.injEq] at s2
    simp only [prove, s1, bind, Except.bind] at h
    refine ⟨hiv, ?_⟩
    split at h
    · cases h
    · split at h
      · split at h
        · cases h
        · rename_i hs _ _ _
          simp only [Except.ok.injEq, Prod.mk.injEq] at h
          exact ⟨h.2.2.2.symm, fun hs' => by rw [hs] at hs'; cases hs'⟩
      · split at h
        · cases h
        · simp only [Except.ok.injEq, Prod.mk.injEq] at h
          exact ⟨h.2.2.2.symm, fun _ => by rw [← h.2.2.1, s2.1]⟩
  · simp [prove, AEADProof.stream, setNonce, hiv, bind, Except.bind] at h

theorem last_inv {E : Block → Block} {fiv : List Byte} (hf : fiv.length = 4) {H : Integer} {ctxt iv : List Byte} {msg z0 : Integer}
    (h : proveLast ⟨E, strToInt fiv, H⟩ ctxt iv = .ok (msg, z0)) :
    iv.length = 8 ∧ z0 = strToInt (GCM.bytesOf (E (GCM.j0 (fiv ++ iv)))) ∧ msg = strToInt (GCM.crypt E (GCM.j0 (fiv ++ iv)) ctxt) := by
  by_cases hiv : iv.length = 8
  · rw [C40_last E fiv iv ctxt hf hiv H, Except.ok.injEq, Prod.mk.injEq] at h
    exact ⟨hiv, h.2.symm, h.1.symm⟩
  · simp [proveLast, AEADProof.stream, setNonce, hiv, bind, Except.bind] at h

/-- The proof objects hold the keys `k`. -/
structure Objects (k : Garbled.Keys) (p : Post) : Prop where
  c : p.pc = some ⟨aes k.ck, strToInt k.civ, strToInt (GCM.bytesOf (aes k.ck 0))⟩
  s : p.ps = some ⟨aes k.sk, strToInt k.siv, strToInt (GCM.bytesOf (aes k.sk 0))⟩

/-- What a record call must return. -/
def outOf (k : Garbled.Keys) (c : Claim) : Claim × Integer × Integer :=
  (c, strToInt (GCM.crypt (aes (keyOf k (ofClient c.kind))) (GCM.j0 (saltOf k (ofClient c.kind) ++ c.iv)) c.buf.ctxt),
    strToInt (GCM.bytesOf (aes (keyOf k (ofClient c.kind)) (GCM.j0 (saltOf k (ofClient c.kind) ++ c.iv)))))

theorem record_inv {k : Garbled.Keys} (h4c : k.civ.length = 4) (h4s : k.siv.length = 4) {p p' : Post} (ho : Objects k p) {c : Claim} {cs : List Check}
    {m z0 : Integer} (h : p.record c.kind c.buf.ctxt c.iv = .ok (p', cs, m, z0)) :
    (c, m, z0) = outOf k c ∧ Objects k p' ∧ p'.zc = p.zc ∧ p'.zs = p.zs ∧ p'.hs = p.hs := by
  obtain ⟨kind, iv, buf⟩ := c
  simp only at h
  cases kind with
  | client =>
    simp only [Post.record, ho.c] at h
    obtain ⟨⟨st, ks, msg, z⟩, h1, h2⟩ := bind_ok.mp h
    simp only [Except.ok.injEq, Prod.mk.injEq] at h2
    obtain ⟨rfl, rfl, rfl, rfl⟩ := h2
    obtain ⟨_, e1, e2⟩ := prove_inv h4c h1
    refine ⟨by rw [e2 rfl, e1]; rfl, ⟨rfl, ho.s⟩, ?_, ?_, ?_⟩ <;> rfl
  | server =>
    simp only [Post.record, ho.s] at h
    obtain ⟨⟨st, ks, msg, z⟩, h1, h2⟩ := bind_ok.mp h
    simp only [Except.ok.injEq, Prod.mk.injEq] at h2
    obtain ⟨rfl, rfl, rfl, rfl⟩ := h2
    obtain ⟨_, e1, e2⟩ := prove_inv h4s h1
    refine ⟨by rw [e2 rfl, e1]; rfl, ⟨ho.c, rfl⟩, ?_, ?_, ?_⟩ <;> rfl
  | last =>
    simp only [Post.record, ho.s] at h
    obtain ⟨⟨msg, z⟩, h1, h2⟩ := bind_ok.mp h
    simp only [Except.ok.injEq, Prod.mk.injEq] at h2
    obtain ⟨rfl, rfl, rfl, rfl⟩ := h2
    obtain ⟨_, e1, e2⟩ := last_inv h4s h1
    exact ⟨by rw [e2, e1]; rfl, ho, rfl, rfl, rfl⟩

theorem records_inv {k : Garbled.Keys} (h4c : k.civ.length = 4) (h4s : k.siv.length = 4) : ∀ (claims : List Claim) {p p' : Post} (_ : Objects k p)
    {cs : List Check} {out : List (Claim × Integer × Integer)} (_ : p.records claims = .ok (p', cs, out)),
    out = claims.map (outOf k) ∧ Objects k p' ∧ p'.zc = p.zc ∧ p'.zs = p.zs
  | [], p, p', ho, cs, out, h => by
    simp only [Post.records, Except.ok.injEq, Prod.mk.injEq] at h
    obtain ⟨rfl, rfl, rfl⟩ := h
    exact ⟨rfl, ho, rfl, rfl⟩
  | c :: l, p, p', ho, cs, out, h => by
    simp only [Post.records] at h
    obtain ⟨⟨p1, k1, m, z0⟩, h1, h2⟩ := bind_ok.mp h
    obtain ⟨⟨p2, k2, o⟩, h3, h4⟩ := bind_ok.mp h2
    simp only [Except.ok.injEq, Prod.mk.injEq] at h4
    obtain ⟨rfl, rfl, rfl⟩ := h4
    obtain ⟨e1, o1, a1, b1, -⟩ := record_inv h4c h4s ho h1
    obtain ⟨e2, o2, a2, b2⟩ := records_inv h4c h4s l o1 h3
    exact ⟨by rw [List.map_cons, e1, e2], o2, a2.trans a1, b2.trans b1⟩

/-- The mask that the proof of a record returns. -/
def maskOf (k : Garbled.Keys) (client : Bool) (iv : List Byte) : Integer :=
  strToInt (GCM.bytesOf (aes (keyOf k client) (GCM.j0 (saltOf k client ++ iv))))

/-- `finalize_check` on the results of the record proofs: true exactly if all tags are those of AES-128-GCM. -/
theorem finalize_iff {k : Garbled.Keys} {p : Post} (ho : Objects k p) {ivc ivs : List Byte} (hzc : p.zc = maskOf k true ivc)
    (hzs : p.zs = maskOf k false ivs) (finc fins : PostRecord.Rec) (claims : List Claim) (aadLen : Nat)
    (hb : ∀ r ∈ finc :: fins :: claims.map Claim.buf, Sized aadLen r) :
    ∃ t, p.finalize finc fins (claims.map (outOf k)) aadLen = .ok t
      ∧ (t = true ↔ (∃ m, OpensTo k true ivc finc m) ∧ (∃ m, OpensTo k false ivs fins m)
        ∧ ∀ c ∈ claims, OpensTo k (ofClient c.kind) c.iv c.buf (GCM.crypt (aes (keyOf k (ofClient c.kind))) (GCM.j0 (saltOf k (ofClient c.kind) ++ c.iv)) c.buf.ctxt)) := by
  obtain ⟨enc, henc⟩ : ∃ enc, enc = claims.filter (·.kind = .client) := ⟨_, rfl⟩
  obtain ⟨dec, hdec⟩ : ∃ dec, dec = claims.filter (·.kind ≠ .client) := ⟨_, rfl⟩
  have hec : ∀ c ∈ enc, c ∈ claims ∧ ofClient c.kind = true := by
    intro c hc
    rw [henc, List.mem_filter] at hc
    have h : c.kind = .client := by simpa using hc.2
    exact ⟨hc.1, by rw [h]; rfl⟩
  have hdc : ∀ c ∈ dec, c ∈ claims ∧ ofClient c.kind = false := by
    intro c hc
    rw [hdec, List.mem_filter] at hc
    have h : c.kind ≠ .client := by simpa using hc.2
    refine ⟨hc.1, ?_⟩
    cases h' : c.kind with
    | client => exact absurd h' h
    | server => rfl
    | last => rfl
  have hcl : ∀ c ∈ claims, (ofClient c.kind = true ∧ c ∈ enc) ∨ (ofClient c.kind = false ∧ c ∈ dec) := by
    intro c hc
    by_cases h : c.kind = .client
    · have : c ∈ enc := by rw [henc, List.mem_filter]; exact ⟨hc, by simpa using h⟩
      exact .inl ⟨(hec c this).2, this⟩
    · have : c ∈ dec := by rw [hdec, List.mem_filter]; exact ⟨hc, by simpa using h⟩
      exact .inr ⟨(hdc c this).2, this⟩
  obtain ⟨t, h1, h2⟩ := C39_gcm (aes k.ck) (aes k.sk) k.civ k.siv ivc ivs finc fins (enc.map fun c => (c.iv, c.buf)) (dec.map fun c => (c.iv, c.buf)) aadLen
    (by
      intro r hr
      apply hb r
      simp only [List.mem_cons, List.mem_append, List.mem_map, List.map_map] at hr ⊢
      rcases hr with h | h | ⟨c, hc, rfl⟩ | ⟨c, hc, rfl⟩
      · exact .inl h
      · exact .inr (.inl h)
      · exact .inr (.inr ⟨c, (hec c hc).1, rfl⟩)
      · exact .inr (.inr ⟨c, (hdc c hc).1, rfl⟩))
  have e1 : (claims.map (outOf k)).filter (fun x => decide (x.1.kind = .client)) = enc.map (outOf k) := by
    rw [List.filter_map, henc]; rfl
  have e2 : (claims.map (outOf k)).filter (fun x => decide (x.1.kind ≠ .client)) = dec.map (outOf k) := by
    rw [List.filter_map, hdec]; rfl
  have z1 : (enc.map (outOf k)).map (·.2.2) = (enc.map fun c => (c.iv, c.buf)).map fun p => strToInt (GCM.bytesOf (aes k.ck (GCM.j0 (k.civ ++ p.1)))) := by
    rw [List.map_map, List.map_map]
    apply List.map_congr_left
    intro c hc
    show maskOf k (ofClient c.kind) c.iv = _
    rw [(hec c hc).2]; rfl
  have z2 : (dec.map (outOf k)).map (·.2.2) = (dec.map fun c => (c.iv, c.buf)).map fun p => strToInt (GCM.bytesOf (aes k.sk (GCM.j0 (k.siv ++ p.1)))) := by
    rw [List.map_map, List.map_map]
    apply List.map_congr_left
    intro c hc
    show maskOf k (ofClient c.kind) c.iv = _
    rw [(hdc c hc).2]; rfl
  have b1 : ∀ l : List Claim, (l.map (outOf k)).map (·.1.buf) = (l.map fun c => (c.iv, c.buf)).map Prod.snd := by
    intro l
    rw [List.map_map, List.map_map]; rfl
  have n1 : ∀ l : List Claim, (l.map (outOf k)).length = (l.map fun c => (c.iv, c.buf)).length := by
    intro l; rw [List.length_map, List.length_map]
  refine ⟨t, ?_, h2.trans ?_⟩
  · unfold Post.finalize
    rw [ho.c, ho.s, hzc, hzs]
    simp only [e1, e2]
    rw [z1, z2, b1, b1, n1, n1]
    exact h1
  · have hopen : ∀ cl iv (r : PostRecord.Rec) , (∃ m, OpensTo k cl iv r m) ↔ r.tag = GCM.tag (aes (keyOf k cl)) (GCM.j0 (saltOf k cl ++ iv)) r.aad r.ctxt := by
      intro cl iv r
      unfold OpensTo GCM.decrypt
      by_cases h : r.tag = GCM.tag (aes (keyOf k cl)) (GCM.j0 (saltOf k cl ++ iv)) r.aad r.ctxt
      · rw [if_pos h]; exact ⟨fun _ => h, fun _ => ⟨_, rfl⟩⟩
      · rw [if_neg h]; exact ⟨fun ⟨_, h⟩ => (Option.some_ne_none _ h.symm).elim, fun h' => absurd h' h⟩
    have hopen2 : ∀ cl iv (r : PostRecord.Rec), OpensTo k cl iv r (GCM.crypt (aes (keyOf k cl)) (GCM.j0 (saltOf k cl ++ iv)) r.ctxt)
        ↔ r.tag = GCM.tag (aes (keyOf k cl)) (GCM.j0 (saltOf k cl ++ iv)) r.aad r.ctxt := by
      intro cl iv r
      unfold OpensTo GCM.decrypt
      by_cases h : r.tag = GCM.tag (aes (keyOf k cl)) (GCM.j0 (saltOf k cl ++ iv)) r.aad r.ctxt
      · rw [if_pos h]; exact ⟨fun _ => h, fun _ => rfl⟩
      · rw [if_neg h]; exact ⟨fun h => (Option.some_ne_none _ h.symm).elim, fun h' => absurd h' h⟩
    rw [hopen, hopen]
    simp only [hopen2]
    refine and_congr Iff.rfl (and_congr Iff.rfl ?_)
    constructor
    · rintro ⟨ha, hb⟩ c hc
      rcases hcl c hc with ⟨hk, hm⟩ | ⟨hk, hm⟩
      · rw [hk]; exact ha (c.iv, c.buf) (List.mem_map_of_mem hm)
      · rw [hk]; exact hb (c.iv, c.buf) (List.mem_map_of_mem hm)
    · intro h
      constructor
      · intro x hx
        obtain ⟨c, hc, rfl⟩ := List.mem_map.1 hx
        have := h c (hec c hc).1
        rw [(hec c hc).2] at this
        exact this
      · intro x hx
        obtain ⟨c, hc, rfl⟩ := List.mem_map.1 hx
        have := h c (hdc c hc).1
        rw [(hdc c hc).2] at this
        exact this

/-! ### Taking a session apart -/

theorem construct_inv {E : Block → Block} {fiv : Integer} {st : State} {P : Proof} {c : Check} (h : AEADProof.construct E fiv st = .ok (P, c)) :
    P = ⟨E, fiv, strToInt (GCM.bytesOf (E 0))⟩ ∧ c = .block (strToInt (GCM.bytesOf (E 0))) st.zkH st.gcHB := by
  have ha : AEAD.aes E (ofNat 128 0) = .ok (strToInt (GCM.bytesOf (E 0))) := by
    have := aes_ofNat E 0
    rw [ofNat_block (E 0)] at this
    exact this
  unfold AEADProof.construct at h
  rw [ok_bind _ _ ha] at h
  obtain ⟨c', h1, h2⟩ := bind_ok.mp h
  simp only [Except.ok.injEq, Prod.mk.injEq] at h2
  obtain ⟨rfl, rfl⟩ := h2
  refine ⟨rfl, ?_⟩
  unfold checkBlock at h1
  split at h1
  · cases h1
  · split at h1
    · cases h1
    · exact (Except.ok.inj h1).symm

/-- The keys of the derivation, as bytes. -/
theorem keys_of {ks : Keys} {M rc rs : List Bool}
    (h : TLS.IsPartition ⟨ks.keyC.reverse, ks.keyS.reverse, ks.ivC.reverse, ks.ivS.reverse⟩ (TLS.keyBlock M rc rs)) :
    ∃ k : Garbled.Keys, k.Of M rc rs ∧ ks = ⟨strToInt k.ck, strToInt k.sk, strToInt k.civ, strToInt k.siv⟩
      ∧ k.ck.length = 16 ∧ k.sk.length = 16 ∧ k.civ.length = 4 ∧ k.siv.length = 4 := by
  obtain ⟨kc, ks, ic, is⟩ := ks
  have h0 := h
  obtain ⟨-, h1, h2, h3, h4⟩ := h
  obtain ⟨a, ea, la, ra⟩ := key_of_bits kc 16 h1
  obtain ⟨b, eb, lb, rb⟩ := key_of_bits ks 16 h2
  obtain ⟨c, ec, lc, rc'⟩ := key_of_bits ic 4 h3
  obtain ⟨d, ed, ld, rd⟩ := key_of_bits is 4 h4
  refine ⟨⟨a, b, c, d⟩, ?_, by rw [ea, eb, ec, ed], la, lb, lc, ld⟩
  simp only at h0
  rw [ra, rb, rc', rd] at h0
  exact h0

/-- A proof phase that runs through, given the keys it derives. -/
theorem session_inv {junk : AESCircuit.Wires} {p p' : Post} {g : Nat → List Byte} {pms : Nat} {ms : MasterSeed} {rc rs tauC tauS : List Byte}
    {finc : PostRecord.Rec} {ivc : List Byte} {fins : PostRecord.Rec} {ivs : List Byte} {claims : List Claim} {aadLen : Nat} {v : Verdict}
    (hsz : ∀ r ∈ finc :: fins :: claims.map Claim.buf, Sized aadLen r)
    (h : p.session junk g pms ms rc rs tauC tauS finc ivc fins ivs claims aadLen = .ok (p', v))
    {M R S : List Bool}
    (hk : ∀ mk ks cc cs h', p.hs.proveSchedule g p.master pms ms rc rs tauC tauS = .ok (mk, ks, cc, cs, h') →
      handshakeCheck h'.hs.prf h'.hs.hmac = .ok v.handshake → (∀ c ∈ [cc, cs], c ∈ v.checks) →
      TLS.IsPartition ⟨ks.keyC.reverse, ks.keyS.reverse, ks.ivC.reverse, ks.ivS.reverse⟩ (TLS.keyBlock M R S)) :
    ∃ k : Garbled.Keys, k.Of M R S ∧ ∃ mk cc cs h', p.hs.proveSchedule g p.master pms ms rc rs tauC tauS
        = .ok (mk, ⟨strToInt k.ck, strToInt k.sk, strToInt k.civ, strToInt k.siv⟩, cc, cs, h')
      ∧ handshakeCheck h'.hs.prf h'.hs.hmac = .ok v.handshake ∧ cc ∈ v.checks ∧ cs ∈ v.checks
      ∧ v.messages = claims.map (fun c => (outOf k c).2.1)
      ∧ (v.tags = true ↔ (∃ m, OpensTo k true ivc finc m) ∧ (∃ m, OpensTo k false ivs fins m)
        ∧ ∀ c ∈ claims, OpensTo k (ofClient c.kind) c.iv c.buf (GCM.crypt (aes (keyOf k (ofClient c.kind))) (GCM.j0 (saltOf k (ofClient c.kind) ++ c.iv)) c.buf.ctxt)) := by
  obtain ⟨⟨p1, k1⟩, h1, h⟩ := bind_ok.mp h
  obtain ⟨⟨p2, k2⟩, h2, h⟩ := bind_ok.mp h
  obtain ⟨⟨p3, k3, b⟩, h3, h⟩ := bind_ok.mp h
  obtain ⟨⟨p4, k4, out⟩, h4, h⟩ := bind_ok.mp h
  obtain ⟨t, h5, h⟩ := bind_ok.mp h
  simp only [Except.ok.injEq, Prod.mk.injEq] at h
  obtain ⟨rfl, rfl⟩ := h
  obtain ⟨⟨mk, ks, cc, cs, h'⟩, e1, h1⟩ := bind_ok.mp h1
  obtain ⟨ec, e2, h1⟩ := bind_ok.mp h1
  obtain ⟨⟨pc, hc⟩, e3, h1⟩ := bind_ok.mp h1
  obtain ⟨es, e4, h1⟩ := bind_ok.mp h1
  obtain ⟨⟨ps, hs⟩, e5, h1⟩ := bind_ok.mp h1
  simp only [Except.ok.injEq, Prod.mk.injEq] at h1
  obtain ⟨rfl, rfl⟩ := h1
  obtain ⟨rfl, rfl⟩ := construct_inv e3
  obtain ⟨rfl, rfl⟩ := construct_inv e5
  simp only [Post.step2] at h2
  obtain ⟨⟨st2, k2', m2, z2⟩, e6, h2⟩ := bind_ok.mp h2
  simp only [Except.ok.injEq, Prod.mk.injEq] at h2
  obtain ⟨rfl, rfl⟩ := h2
  simp only [Post.step3] at h3
  obtain ⟨⟨st3, k3', m3, z3⟩, e7, h3⟩ := bind_ok.mp h3
  obtain ⟨b', e8, h3⟩ := bind_ok.mp h3
  simp only [Except.ok.injEq, Prod.mk.injEq] at h3
  obtain ⟨rfl, rfl, rfl⟩ := h3
  obtain ⟨k, hof, rfl, l1, l2, l3, l4⟩ := keys_of (hk mk ks cc cs h' e1 e8 (by simp))
  have e2' := (encrypter_eq junk k.ck l1).symm.trans e2
  have e4' := (encrypter_eq junk k.sk l2).symm.trans e4
  rw [Except.ok.injEq] at e2' e4'
  subst e2' e4'
  obtain ⟨-, z2e, -⟩ := prove_inv l3 e6
  obtain ⟨-, z3e, -⟩ := prove_inv l4 e7
  obtain ⟨ho, ob, zc, zs⟩ := records_inv l3 l4 claims (p := _) ⟨rfl, rfl⟩ h4
  subst ho
  obtain ⟨t', f1, f2⟩ := finalize_iff ob (zc.trans z2e) (zs.trans z3e) finc fins claims aadLen hsz
  rw [f1, Except.ok.injEq] at h5
  subst h5
  refine ⟨k, hof, mk, cc, cs, h', e1, e8, by simp, by simp, ?_, f2⟩
  rw [List.map_map]; rfl

/-- What the verifier learns from accepting, for the keys `k`: both finished messages are valid records, and every message handed to the caller is
the plaintext of a valid record. -/
def Attested (k : Garbled.Keys) (finc fins : PostRecord.Rec) (ivc ivs : List Byte) (claims : List Claim) (messages : List Integer) : Prop :=
  (∃ m, OpensTo k true ivc finc m) ∧ (∃ m, OpensTo k false ivs fins m)
    ∧ List.Forall₂ (fun c m => ∃ txt, OpensTo k (ofClient c.kind) c.iv c.buf txt ∧ m = strToInt txt) claims messages

/-- **C52, soundness.**  Whatever the prover did in the connection (any recorded openings, any queues) and whatever it presents (secret, ciphertexts,
tags, nonces): if the proof phase runs through and the verifier accepts, then for the TLS 1.2 keys of the pre-master secret `(a + b) mod q` (`a` the
share the prover is committed to, `b` the verifier's share) the recorded finished values are the right ones, both finished messages are records
accepted by AES-128-GCM, and every message handed to the caller is the plaintext of a record accepted by AES-128-GCM. -/
theorem C52_sound (junk : AESCircuit.Wires) (p : Post) (hm : p.master = []) (hr : p.hs.hs.roundsOpt = false)
    (hst : ProofStart p.hs.hs.prf p.hs.hs.hmac) (hq : bnNumBytes p.hs.hs.q < 2 ^ 59)
    (a : Nat) (ha : a < p.hs.hs.q) (hz : p.hs.hs.zkPms = ofNat (8 * bnNumBytes p.hs.hs.q) a) (hb : p.hs.bnB < p.hs.hs.q)
    (g : Nat → List Byte) (hg : ∀ i, (g i).length = 64) (pms : Nat) (k : MasterSeed) (rc rs tauC tauS : List Byte) (hs : Short k rc rs tauC tauS)
    (finc : PostRecord.Rec) (ivc : List Byte) (fins : PostRecord.Rec) (ivs : List Byte) (claims : List Claim) (aadLen : Nat)
    (hsz : ∀ r ∈ finc :: fins :: claims.map Claim.buf, Sized aadLen r) (p' : Post) (v : Verdict)
    (h : p.session junk g pms k rc rs tauC tauS finc ivc fins ivs claims aadLen = .ok (p', v)) (hacc : Accepted v) :
    let M := master k (SHA256.beBits (8 * bnNumBytes p.hs.hs.q) ((a + p.hs.bnB) % p.hs.hs.q)) (bytesBits rc) (bytesBits rs)
    bytesBits (p.hs.hs.clientUfin.take 12).reverse = TLS.verifyData M (TLS.ascii "client finished") (bytesBits tauC)
      ∧ bytesBits (p.hs.hs.serverUfin.take 12).reverse = TLS.verifyData M (TLS.ascii "server finished") (bytesBits tauS)
      ∧ ∃ keys : Garbled.Keys, keys.Of M (bytesBits rc) (bytesBits rs) ∧ Attested keys finc fins ivc ivs claims v.messages := by
  intro M
  obtain ⟨c1, c2, c3⟩ := hacc
  have hsnd := fun mk ks cc cs h' (e1 : p.hs.proveSchedule g p.master pms k rc rs tauC tauS = .ok (mk, ks, cc, cs, h'))
      (e2 : handshakeCheck h'.hs.prf h'.hs.hmac = .ok v.handshake) (m1 : cc ∈ v.checks) (m2 : cs ∈ v.checks) =>
    C42_sound p.hs hr hst hq a ha hz hb g hg pms k rc rs tauC tauS hs mk ks cc cs h' (by rw [hm] at e1; exact e1) (by rw [c2] at e2; exact e2)
      (c1 _ m1) (c1 _ m2)
  obtain ⟨keys, hof, mk, cc, cs, h', e1, e2, m1, m2, emsg, etag⟩ := session_inv hsz h (M := M) (R := bytesBits rc) (S := bytesBits rs)
    (fun mk ks cc cs h' e1 e2 hm => (hsnd mk ks cc cs h' e1 e2 (hm _ (by simp)) (hm _ (by simp))).2.1)
  obtain ⟨-, -, f1, f2, -⟩ := hsnd _ _ _ _ _ e1 e2 m1 m2
  obtain ⟨t1, t2, t3⟩ := etag.mp c3
  refine ⟨f1, f2, keys, hof, t1, t2, ?_⟩
  rw [emsg, List.forall₂_map_right_iff, List.forall₂_same]
  exact fun c hc => ⟨_, t3 c hc, rfl⟩

/-- A derivation that runs through was given a secret whose difference to the prover's share is the verifier's share. -/
theorem schedule_secret {h : HsP} {g : Nat → List Byte} {ms : Integer} {pms : Nat} {k : MasterSeed} {rc rs tauC tauS : List Byte}
    {r : Integer × Keys × Check × Check × HsP} (hb : h.bnB < h.hs.q) (he : h.proveSchedule g ms pms k rc rs tauC tauS = .ok r) :
    (((pms : Int) - h.bnA) % h.hs.q).toNat = h.bnB := by
  have hk : ∃ h', h.proveKey pms = .ok h' := by
    obtain ⟨_, e1, _⟩ := bind_ok.mp he
    cases k with
    | plain => obtain ⟨h', e, _⟩ := bind_ok.mp e1; exact ⟨h', e⟩
    | extended _ => obtain ⟨h', e, _⟩ := bind_ok.mp e1; exact ⟨h', e⟩
  obtain ⟨h', e⟩ := hk
  obtain ⟨b1, e1, e2⟩ := bind_ok.mp e
  obtain ⟨b2, e3, e4⟩ := bind_ok.mp e2
  by_cases hne : b1 = b2
  · rw [← hne] at e3
    exact buffer_inj (emod_lt (by omega) _) hb e1 e3
  · rw [if_pos hne] at e4
    cases e4

/-- **C52, soundness with the round optimisation.**  The same, for a handshake object in any state whose position counter is in step. -/
theorem C52_sound_rounds (junk : AESCircuit.Wires) (p : Post) (hm : p.master = []) (hr : p.hs.hs.roundsOpt = true)
    (hrd : Ready p.hs.hs) (hq : bnNumBytes p.hs.hs.q < 2 ^ 59)
    (a : Nat) (ha : a < p.hs.hs.q) (hz : p.hs.hs.zkPms = ofNat (8 * bnNumBytes p.hs.hs.q) a) (hb : p.hs.bnB < p.hs.hs.q)
    (g : Nat → List Byte) (pms : Nat) (k : MasterSeed) (rc rs tauC tauS : List Byte) (hs : Short k rc rs tauC tauS)
    (finc : PostRecord.Rec) (ivc : List Byte) (fins : PostRecord.Rec) (ivs : List Byte) (claims : List Claim) (aadLen : Nat)
    (hsz : ∀ r ∈ finc :: fins :: claims.map Claim.buf, Sized aadLen r) (p' : Post) (v : Verdict)
    (h : p.session junk g pms k rc rs tauC tauS finc ivc fins ivs claims aadLen = .ok (p', v)) (hacc : Accepted v) :
    let M := master k (SHA256.beBits (8 * bnNumBytes p.hs.hs.q) ((a + p.hs.bnB) % p.hs.hs.q)) (bytesBits rc) (bytesBits rs)
    bytesBits (p.hs.hs.clientUfin.take 12).reverse = TLS.verifyData M (TLS.ascii "client finished") (bytesBits tauC)
      ∧ bytesBits (p.hs.hs.serverUfin.take 12).reverse = TLS.verifyData M (TLS.ascii "server finished") (bytesBits tauS)
      ∧ ∃ keys : Garbled.Keys, keys.Of M (bytesBits rc) (bytesBits rs) ∧ Attested keys finc fins ivc ivs claims v.messages := by
  intro M
  obtain ⟨c1, c2, c3⟩ := hacc
  have hsnd : ∀ mk ks cc cs h', p.hs.proveSchedule g p.master pms k rc rs tauC tauS = .ok (mk, ks, cc, cs, h') →
      TLS.IsPartition ⟨ks.keyC.reverse, ks.keyS.reverse, ks.ivC.reverse, ks.ivS.reverse⟩ (TLS.keyBlock M (bytesBits rc) (bytesBits rs))
      ∧ (Holds cc ↔ bytesBits (p.hs.hs.clientUfin.take 12).reverse = TLS.verifyData M (TLS.ascii "client finished") (bytesBits tauC))
      ∧ (Holds cs ↔ bytesBits (p.hs.hs.serverUfin.take 12).reverse = TLS.verifyData M (TLS.ascii "server finished") (bytesBits tauS)) := by
    intro mk ks cc cs h' e1
    obtain ⟨mk', ks', cc', cs', h'', f1, -, f2, f3, f4, -⟩ := C42_rounds p.hs hr hrd hq a ha hz hb g pms (schedule_secret hb e1) k rc rs tauC tauS hs
    rw [hm, f1] at e1
    simp only [Except.ok.injEq, Prod.mk.injEq] at e1
    obtain ⟨-, rfl, rfl, rfl, -⟩ := e1
    exact ⟨f2, f3, f4⟩
  obtain ⟨keys, hof, mk, cc, cs, h', e1, e2, m1, m2, emsg, etag⟩ := session_inv hsz h (M := M) (R := bytesBits rc) (S := bytesBits rs)
    (fun mk ks cc cs h' e1 e2 hm => (hsnd mk ks cc cs h' e1).1)
  obtain ⟨-, f1, f2⟩ := hsnd _ _ _ _ _ e1
  obtain ⟨t1, t2, t3⟩ := etag.mp c3
  refine ⟨f1.mp (c1 _ m1), f2.mp (c1 _ m2), keys, hof, t1, t2, ?_⟩
  rw [emsg, List.forall₂_map_right_iff, List.forall₂_same]
  exact fun c hc => ⟨_, t3 c hc, rfl⟩

/-! ### Sessions after an honest handshake -/

/-- The shares of the hash key in an object's history. -/
theorem hist_key {hash : List Byte → List Byte} {E : Block → Block} {fiv : List Byte} (hf : fiv.length = 4) {s : Bool} {st : State}
    {recs : List AEADProof.Rec} (h : Hist hash E fiv s st recs) : st.gcHA ^^^ st.gcHB = E 0 ∧ st.zkH = ofBytes (blockBytes st.gcHA) := by
  induction h with
  | construct hr hc =>
    rename_i m r raw0 raw1 st
    obtain ⟨st', h1, -, -, h2, -⟩ := construct_eq E (strToInt fiv) s m r raw0 raw1
    rw [hc] at h1
    cases h1
    exact ⟨h2, (construct_queues hc).2.2.2.2.2.2.2.2.2.2⟩
  | encrypt h0 hl he ih =>
    rename_i st st' recs a b msgA msgB aad iv secret m raw0 raw1
    by_cases hiv : iv.length = 8
    · obtain ⟨st2, e1, -, z0A, z0B, -, -, -, e2, e3, e4, -⟩ :=
        encrypt_eq E fiv hf s st (C40_invariant hf h0).1 msgA msgB aad iv hiv secret m raw0 raw1 hl
      rw [he] at e1
      cases e1
      rw [e2, e3, e4]
      exact ih
    · simp [AEAD.encrypt, AEAD.stream, setNonce, hiv, bind, Except.bind] at he
  | decrypt h0 hl he ih =>
    rename_i st st' recs a b cA cB tA tB aad iv secret m raw0 raw1 rA rB
    by_cases hiv : iv.length = 8
    · obtain ⟨st2, e1, -, z0A, z0B, -, -, -, e2, e3, e4, -⟩ :=
        decrypt_eq hash E fiv hf s st (C40_invariant hf h0).1 cA cB tA tB aad iv hiv secret m raw0 raw1 rA rB hl
      rw [he] at e1
      cases e1
      rw [e2, e3, e4]
      exact ih
    · simp [AEAD.decrypt, AEAD.stream, setNonce, hiv, bind, Except.bind] at he
  | prove h0 hf' hn he ih =>
    rename_i st st' r recs E' fiv' H ctxt iv' out
    by_cases hiv : iv'.length = 8
    · obtain ⟨st2, cs, msg, h1, -, -, -, h2, h3, h4, -⟩ := C40_prove E E' fiv fiv' hf' H r recs st (C40_invariant hf h0).2 ctxt iv' hiv hn
      rw [he] at h1
      cases h1
      rw [h2, h3, h4]
      exact ih
    · simp [AEADProof.prove, AEADProof.stream, setNonce, hiv, bind, Except.bind] at he

theorem construct_run {st : State} {E E' : Block → Block} (h1 : st.gcHA ^^^ st.gcHB = E 0) (h2 : st.zkH = ofBytes (blockBytes st.gcHA)) (fiv' : Integer) :
    ∃ c, AEADProof.construct E' fiv' st = .ok (⟨E', fiv', strToInt (GCM.bytesOf (E' 0))⟩, c) ∧ (Holds c ↔ E' 0 = E 0) := by
  have ha : AEAD.aes E' (ofNat 128 0) = .ok (strToInt (GCM.bytesOf (E' 0))) := by
    have := aes_ofNat E' 0
    rw [ofNat_block (E' 0)] at this
    exact this
  have hc : checkBlock (strToInt (GCM.bytesOf (E' 0))) st.zkH st.gcHB = .ok (.block (strToInt (GCM.bytesOf (E' 0))) st.zkH st.gcHB) := by
    rw [checkBlock, h2, if_neg (by simp), if_neg (by simp)]
  refine ⟨.block (strToInt (GCM.bytesOf (E' 0))) st.zkH st.gcHB, ?_, ?_⟩
  · unfold AEADProof.construct
    rw [ok_bind _ _ ha, ok_bind _ _ hc]
  · rw [h2]
    apply block_holds
    rw [← h1, ← BitVec.xor_assoc, BitVec.xor_self, BitVec.zero_xor]

/-- What one direction of the connection used: the function of the key and the fixed part of the nonce. -/
structure Used where
  E : Block → Block
  iv : List Byte

/-- On a record with nonce `iv'` and `n` bytes, the keys `k` give the mask and the key stream that the connection used for the record `r`. -/
def Agrees (k : Garbled.Keys) (client : Bool) (u : Used) (iv' : List Byte) (r : AEADProof.Rec) : Prop :=
  aes (keyOf k client) (GCM.j0 (saltOf k client ++ iv')) = u.E (GCM.j0 (u.iv ++ r.iv))
    ∧ GCM.keyStream (aes (keyOf k client)) (GCM.j0 (saltOf k client ++ iv')) r.n = GCM.keyStream u.E (GCM.j0 (u.iv ++ r.iv)) r.n

/-- The claims take the records of the connection in order: those of the client from `rc`, those of the server from `rs`; `last` takes none.
They have the right length and the nonces 8 bytes. -/
def Fit : List Claim → List AEADProof.Rec → List AEADProof.Rec → Prop
  | [], [], [] => True
  | ⟨.client, iv, b⟩ :: l, r :: rc, rs => iv.length = 8 ∧ b.ctxt.length = r.n ∧ r.secret = true ∧ Fit l rc rs
  | ⟨.server, iv, b⟩ :: l, rc, r :: rs => iv.length = 8 ∧ b.ctxt.length = r.n ∧ r.secret = true ∧ Fit l rc rs
  | ⟨.last, iv, _⟩ :: l, rc, rs => iv.length = 8 ∧ Fit l rc rs
  | _, _, _ => False

/-- Every claim agrees with its record. -/
def AgreeAll (k : Garbled.Keys) (uc us : Used) : List Claim → List AEADProof.Rec → List AEADProof.Rec → Prop
  | ⟨.client, iv, _⟩ :: l, r :: rc, rs => Agrees k true uc iv r ∧ AgreeAll k uc us l rc rs
  | ⟨.server, iv, _⟩ :: l, rc, r :: rs => Agrees k false us iv r ∧ AgreeAll k uc us l rc rs
  | ⟨.last, _, _⟩ :: l, rc, rs => AgreeAll k uc us l rc rs
  | _, _, _ => True

theorem records_run {k : Garbled.Keys} (h4c : k.civ.length = 4) (h4s : k.siv.length = 4) (uc us : Used) (restC restS : List AEADProof.Rec) :
    ∀ (claims : List Claim) (rc rs : List AEADProof.Rec) (p : Post) (_ : Fit claims rc rs) (_ : Objects k p)
      (_ : Pending uc.E uc.iv (rc ++ restC) p.c) (_ : Pending us.E us.iv (rs ++ restS) p.s),
    ∃ p' cs, p.records claims = .ok (p', cs, claims.map (outOf k)) ∧ Objects k p' ∧ p'.zc = p.zc ∧ p'.zs = p.zs
      ∧ ((∀ c ∈ cs, Holds c) ↔ AgreeAll k uc us claims rc rs)
      ∧ Pending uc.E uc.iv restC p'.c ∧ Pending us.E us.iv restS p'.s
  | [], [], [], p, _, ho, hc, hs => ⟨p, [], rfl, ho, rfl, rfl, by simp [AgreeAll], hc, hs⟩
  | ⟨.client, iv, b⟩ :: l, r :: rc, rs, p, hfit, ho, hc, hs => by
    obtain ⟨f1, f2, f3, f4⟩ := hfit
    obtain ⟨st', cs, msg, e1, e2, e3, e4, -⟩ := C40_prove uc.E (aes k.ck) uc.iv k.civ h4c (strToInt (GCM.bytesOf (aes k.ck 0))) r (rc ++ restC) p.c hc b.ctxt iv f1 f2
    rw [f3] at e1 e4
    rw [if_pos rfl] at e4
    subst e4
    have hr : p.record .client b.ctxt iv = .ok ({ p with c := st' }, cs, (outOf k ⟨.client, iv, b⟩).2.1, (outOf k ⟨.client, iv, b⟩).2.2) := by
      simp only [Post.record, ho.c]
      rw [ok_bind _ _ e1]
      rfl
    obtain ⟨p', cs', g1, g2, g3, g4, g5, g6, g7⟩ := records_run h4c h4s uc us restC restS l rc rs { p with c := st' } f4 ⟨ho.c, ho.s⟩ e2 hs
    refine ⟨p', cs ++ cs', ?_, g2, g3, g4, ?_, g6, g7⟩
    · simp only [Post.records]
      rw [ok_bind _ _ hr, ok_bind _ _ g1]
      rfl
    · simp only [List.mem_append, or_imp, forall_and]
      rw [e3, g5]
      rfl
  | ⟨.server, iv, b⟩ :: l, rc, r :: rs, p, hfit, ho, hc, hs => by
    have hfit : iv.length = 8 ∧ b.ctxt.length = r.n ∧ r.secret = true ∧ Fit l rc rs := by cases rc <;> exact hfit
    obtain ⟨f1, f2, f3, f4⟩ := hfit
    obtain ⟨st', cs, msg, e1, e2, e3, e4, -⟩ := C40_prove us.E (aes k.sk) us.iv k.siv h4s (strToInt (GCM.bytesOf (aes k.sk 0))) r (rs ++ restS) p.s hs b.ctxt iv f1 f2
    rw [f3] at e1 e4
    rw [if_pos rfl] at e4
    subst e4
    have hr : p.record .server b.ctxt iv = .ok ({ p with s := st' }, cs, (outOf k ⟨.server, iv, b⟩).2.1, (outOf k ⟨.server, iv, b⟩).2.2) := by
      simp only [Post.record, ho.s]
      rw [ok_bind _ _ e1]
      rfl
    obtain ⟨p', cs', g1, g2, g3, g4, g5, g6, g7⟩ := records_run h4c h4s uc us restC restS l rc rs { p with s := st' } f4 ⟨ho.c, ho.s⟩ hc e2
    refine ⟨p', cs ++ cs', ?_, g2, g3, g4, ?_, g6, g7⟩
    · simp only [Post.records]
      rw [ok_bind _ _ hr, ok_bind _ _ g1]
      rfl
    · simp only [List.mem_append, or_imp, forall_and]
      rw [e3, g5]
      cases rc <;> rfl
  | ⟨.last, iv, b⟩ :: l, rc, rs, p, hfit, ho, hc, hs => by
    have hfit : iv.length = 8 ∧ Fit l rc rs := by cases rc <;> cases rs <;> exact hfit
    obtain ⟨f1, f4⟩ := hfit
    have e1 := C40_last (aes k.sk) k.siv iv b.ctxt h4s f1 (strToInt (GCM.bytesOf (aes k.sk 0)))
    have hr : p.record .last b.ctxt iv = .ok (p, [], (outOf k ⟨.last, iv, b⟩).2.1, (outOf k ⟨.last, iv, b⟩).2.2) := by
      simp only [Post.record, ho.s]
      rw [ok_bind _ _ e1]
      rfl
    obtain ⟨p', cs', g1, g2, g3, g4, g5, g6, g7⟩ := records_run h4c h4s uc us restC restS l rc rs p f4 ho hc hs
    refine ⟨p', cs', ?_, g2, g3, g4, ?_, g6, g7⟩
    · simp only [Post.records]
      rw [ok_bind _ _ hr, ok_bind _ _ g1]
      rfl
    · rw [g5]
      cases rc <;> cases rs <;> rfl

/-- The result of a proof phase on the queues of a connection, given the keys it derives. -/
theorem session_run {junk : AESCircuit.Wires} {p : Post} {g : Nat → List Byte} {pms : Nat} {ms : MasterSeed} {rc rs tauC tauS : List Byte}
    {k : Garbled.Keys} (l1 : k.ck.length = 16) (l2 : k.sk.length = 16) (l3 : k.civ.length = 4) (l4 : k.siv.length = 4)
    {mk : Integer} {cc cs : Check} {h' : HsP}
    (hk : p.hs.proveSchedule g p.master pms ms rc rs tauC tauS = .ok (mk, ⟨strToInt k.ck, strToInt k.sk, strToInt k.civ, strToInt k.siv⟩, cc, cs, h'))
    {b : Bool} (hb : handshakeCheck h'.hs.prf h'.hs.hmac = .ok b) (hcc : Holds cc) (hcs : Holds cs)
    {finc : PostRecord.Rec} {ivc : List Byte} {fins : PostRecord.Rec} {ivs : List Byte} {claims : List Claim} {aadLen : Nat}
    (hsz : ∀ r ∈ finc :: fins :: claims.map Claim.buf, Sized aadLen r)
    {hash : List Byte → List Byte} {uc us : Used} (i1 : uc.iv.length = 4) (i2 : us.iv.length = 4) {sc ss : Bool}
    {fc fs : AEADProof.Rec} {recsC recsS restC restS : List AEADProof.Rec}
    (hc : Hist hash uc.E uc.iv sc p.c (fc :: (recsC ++ restC))) (hs : Hist hash us.E us.iv ss p.s (fs :: (recsS ++ restS)))
    (f1 : fc.secret = false) (f2 : finc.ctxt.length = fc.n) (f3 : ivc.length = 8)
    (f4 : fs.secret = false) (f5 : fins.ctxt.length = fs.n) (f6 : ivs.length = 8) (hfit : Fit claims recsC recsS) :
    ∃ p' v, p.session junk g pms ms rc rs tauC tauS finc ivc fins ivs claims aadLen = .ok (p', v) ∧ v.handshake = b
      ∧ v.messages = claims.map (fun c => (outOf k c).2.1)
      ∧ ((∀ c ∈ v.checks, Holds c) ↔ (aes k.ck 0 = uc.E 0 ∧ aes k.sk 0 = us.E 0) ∧ Agrees k true uc ivc fc ∧ Agrees k false us ivs fs
          ∧ AgreeAll k uc us claims recsC recsS)
      ∧ (v.tags = true ↔ (∃ m, OpensTo k true ivc finc m) ∧ (∃ m, OpensTo k false ivs fins m)
        ∧ ∀ c ∈ claims, OpensTo k (ofClient c.kind) c.iv c.buf (GCM.crypt (aes (keyOf k (ofClient c.kind))) (GCM.j0 (saltOf k (ofClient c.kind) ++ c.iv)) c.buf.ctxt)) := by
  obtain ⟨q1, q2⟩ := hist_key i1 hc
  obtain ⟨q3, q4⟩ := hist_key i2 hs
  obtain ⟨k1, c1, c2⟩ := construct_run (E' := aes k.ck) q1 q2 (strToInt k.civ)
  obtain ⟨k2, c3, c4⟩ := construct_run (E' := aes k.sk) q3 q4 (strToInt k.siv)
  obtain ⟨P1, hP1⟩ : ∃ P : Proof, P = ⟨aes k.ck, strToInt k.civ, strToInt (GCM.bytesOf (aes k.ck 0))⟩ := ⟨_, rfl⟩
  obtain ⟨P2, hP2⟩ : ∃ P : Proof, P = ⟨aes k.sk, strToInt k.siv, strToInt (GCM.bytesOf (aes k.sk 0))⟩ := ⟨_, rfl⟩
  obtain ⟨st1, cs1, m1, d1, d2, d3, -⟩ := C40_prove uc.E (aes k.ck) uc.iv k.civ l3 (strToInt (GCM.bytesOf (aes k.ck 0))) fc _ p.c (C40_invariant i1 hc).2
    finc.ctxt ivc f3 f2
  obtain ⟨st2, cs2, m2, d4, d5, d6, -⟩ := C40_prove us.E (aes k.sk) us.iv k.siv l4 (strToInt (GCM.bytesOf (aes k.sk 0))) fs _ p.s (C40_invariant i2 hs).2
    fins.ctxt ivs f6 f5
  rw [f1] at d1
  rw [f4] at d4
  rw [← hP1] at c1 d1
  rw [← hP2] at c3 d4
  have z1 : strToInt (GCM.bytesOf (aes k.ck (GCM.j0 (k.civ ++ ivc)))) = maskOf k true ivc := rfl
  have z2 : strToInt (GCM.bytesOf (aes k.sk (GCM.j0 (k.siv ++ ivs)))) = maskOf k false ivs := rfl
  rw [z1] at d1
  rw [z2] at d4
  let p3 : Post := { p with hs := h', master := mk, keys := ⟨strToInt k.ck, strToInt k.sk, strToInt k.civ, strToInt k.siv⟩, pc := some P1, ps := some P2,
                            c := st1, zc := maskOf k true ivc, s := st2, zs := maskOf k false ivs }
  have o3 : Objects k p3 := ⟨congrArg some hP1, congrArg some hP2⟩
  obtain ⟨p4, cs3, e1, e2, e3, e4, e5, -, -⟩ := records_run l3 l4 uc us restC restS claims recsC recsS p3 hfit o3 d2 d5
  obtain ⟨t, e6, e7⟩ := finalize_iff e2 (e3.trans rfl) (e4.trans rfl) finc fins claims aadLen hsz
  refine ⟨p4, ⟨[cc, cs, k1, k2] ++ cs1 ++ cs2 ++ cs3, b, (claims.map (outOf k)).map (·.2.1), t⟩, ?_, rfl, ?_, ?_, e7⟩
  · unfold Post.session
    have s1 : p.step1 junk g pms ms rc rs tauC tauS
        = .ok ({ p with hs := h', master := mk, keys := ⟨strToInt k.ck, strToInt k.sk, strToInt k.civ, strToInt k.siv⟩, pc := some P1, ps := some P2 }, [cc, cs, k1, k2]) := by
      unfold Post.step1
      rw [ok_bind _ _ hk]
      dsimp only
      rw [ok_bind _ _ (encrypter_eq junk k.ck l1), ok_bind _ _ c1]
      dsimp only
      rw [ok_bind _ _ (encrypter_eq junk k.sk l2), ok_bind _ _ c3]
    rw [ok_bind _ _ s1]
    dsimp only
    have s2 : Post.step2 { p with hs := h', master := mk, keys := ⟨strToInt k.ck, strToInt k.sk, strToInt k.civ, strToInt k.siv⟩, pc := some P1, ps := some P2 } finc.ctxt ivc
        = .ok ({ p with hs := h', master := mk, keys := ⟨strToInt k.ck, strToInt k.sk, strToInt k.civ, strToInt k.siv⟩, pc := some P1, ps := some P2,
                        c := st1, zc := maskOf k true ivc }, cs1) := by
      simp only [Post.step2]
      rw [ok_bind _ _ d1]
    rw [ok_bind _ _ s2]
    dsimp only
    have s3 : Post.step3 { p with hs := h', master := mk, keys := ⟨strToInt k.ck, strToInt k.sk, strToInt k.civ, strToInt k.siv⟩, pc := some P1, ps := some P2,
                                  c := st1, zc := maskOf k true ivc } fins.ctxt ivs = .ok (p3, cs2, b) := by
      simp only [Post.step3]
      rw [ok_bind _ _ d4]
      dsimp only
      rw [ok_bind _ _ hb]
    rw [ok_bind _ _ s3]
    dsimp only
    rw [ok_bind _ _ e1]
    dsimp only
    rw [ok_bind _ _ e6]
  · rw [List.map_map]; rfl
  · simp only [List.mem_append, List.mem_cons, List.not_mem_nil, or_false, or_imp, forall_and, forall_eq]
    rw [d3, d6, e5, c2, c4]
    constructor
    · rintro ⟨⟨⟨⟨_, _, x1, x2⟩, x3⟩, x4⟩, x5⟩
      exact ⟨⟨x1, x2⟩, x3, x4, x5⟩
    · rintro ⟨⟨x1, x2⟩, x3, x4, x5⟩
      exact ⟨⟨⟨⟨hcc, hcs, x1, x2⟩, x3⟩, x4⟩, x5⟩

/-- The records of one direction that the claims take: the client's for `prove_record_client`, the server's for `prove_record_server`. -/
def taken (kd : Kind) (claims : List Claim) : List AEADProof.Rec :=
  (claims.filter (·.kind = kd)).map fun c => ⟨c.iv, c.buf.ctxt.length, true⟩

theorem fit_taken : ∀ (claims : List Claim), (∀ c ∈ claims, c.iv.length = 8) → Fit claims (taken .client claims) (taken .server claims)
  | [], _ => trivial
  | ⟨.client, iv, b⟩ :: l, h => by
    have ih := fit_taken l fun c hc => h c (List.mem_cons_of_mem _ hc)
    exact ⟨h ⟨.client, iv, b⟩ List.mem_cons_self, rfl, rfl, ih⟩
  | ⟨.server, iv, b⟩ :: l, h => by
    have ih := fit_taken l fun c hc => h c (List.mem_cons_of_mem _ hc)
    have : taken .client (⟨.server, iv, b⟩ :: l) = taken .client l := rfl
    rw [this]
    have : taken .server (⟨.server, iv, b⟩ :: l) = ⟨iv, b.ctxt.length, true⟩ :: taken .server l := rfl
    rw [this]
    have h8 : iv.length = 8 := h ⟨.server, iv, b⟩ List.mem_cons_self
    cases h' : taken .client l with
    | nil => rw [h'] at ih; exact ⟨h8, rfl, rfl, ih⟩
    | cons _ _ => rw [h'] at ih; exact ⟨h8, rfl, rfl, ih⟩
  | ⟨.last, iv, b⟩ :: l, h => by
    have ih := fit_taken l fun c hc => h c (List.mem_cons_of_mem _ hc)
    have h8 : iv.length = 8 := h ⟨.last, iv, b⟩ List.mem_cons_self
    have : taken .client (⟨.last, iv, b⟩ :: l) = taken .client l := rfl
    rw [this]
    have : taken .server (⟨.last, iv, b⟩ :: l) = taken .server l := rfl
    rw [this]
    generalize taken .client l = x at *
    generalize taken .server l = y at *
    cases x <;> cases y <;> exact ⟨h8, ih⟩

theorem agree_taken {k : Garbled.Keys} {uc us : Used} (h1 : ∀ iv n b, Agrees k true uc iv ⟨iv, n, b⟩) (h2 : ∀ iv n b, Agrees k false us iv ⟨iv, n, b⟩)
    (claims : List Claim) : AgreeAll k uc us claims (taken .client claims) (taken .server claims) := by
  induction claims with
  | nil => exact trivial
  | cons c l ih =>
    obtain ⟨kd, iv, b⟩ := c
    cases kd with
    | client => exact ⟨h1 _ _ _, ih⟩
    | server =>
      have e1 : taken .client (⟨.server, iv, b⟩ :: l) = taken .client l := rfl
      have e2 : taken .server (⟨.server, iv, b⟩ :: l) = ⟨iv, b.ctxt.length, true⟩ :: taken .server l := rfl
      rw [e1, e2]
      generalize taken .client l = x at ih ⊢
      cases x <;> exact ⟨h2 _ _ _, ih⟩
    | last =>
      have e1 : taken .client (⟨.last, iv, b⟩ :: l) = taken .client l := rfl
      have e2 : taken .server (⟨.last, iv, b⟩ :: l) = taken .server l := rfl
      rw [e1, e2]
      generalize taken .client l = x at ih ⊢
      generalize taken .server l = y at ih ⊢
      cases x <;> cases y <;> exact ih

theorem agrees_self (k : Garbled.Keys) (cl : Bool) {u : Used} (h1 : u.E = aes (keyOf k cl)) (h2 : u.iv = saltOf k cl) (iv : List Byte) (n : Nat) (b : Bool) :
    Agrees k cl u iv ⟨iv, n, b⟩ := by
  unfold Agrees
  rw [h1, h2]
  exact ⟨rfl, rfl⟩

theorem of_lengths {k : Garbled.Keys} {M rc rs : List Bool} (h : k.Of M rc rs) : k.civ.length = 4 ∧ k.siv.length = 4 := by
  obtain ⟨-, -, -, h3, h4⟩ := h
  simp only [length_bytesBits] at h3 h4
  omega

theorem opens_some {k : Garbled.Keys} {cl : Bool} {iv : List Byte} {r : PostRecord.Rec} {m : List Byte} (h : OpensTo k cl iv r m) :
    GCM.crypt (aes (keyOf k cl)) (GCM.j0 (saltOf k cl ++ iv)) r.ctxt = m := by
  unfold OpensTo GCM.decrypt at h
  split at h
  · exact Option.some.inj h
  · cases h

theorem attested_of {k : Garbled.Keys} {finc fins : PostRecord.Rec} {ivc ivs : List Byte} {claims : List Claim} {ms : List Integer}
    (hm : ms = claims.map (fun c => strToInt (GCM.crypt (aes (keyOf k (ofClient c.kind))) (GCM.j0 (saltOf k (ofClient c.kind) ++ c.iv)) c.buf.ctxt)))
    (x1 : ∃ m, OpensTo k true ivc finc m) (x2 : ∃ m, OpensTo k false ivs fins m)
    (x3 : ∀ c ∈ claims, ∃ m, OpensTo k (ofClient c.kind) c.iv c.buf m) : Attested k finc fins ivc ivs claims ms := by
  refine ⟨x1, x2, ?_⟩
  rw [hm, List.forall₂_map_right_iff, List.forall₂_same]
  intro c hc
  obtain ⟨m, h⟩ := x3 c hc
  exact ⟨m, h, by rw [opens_some h]⟩

theorem used_exists (E : Block → Block) (iv : List Byte) : ∃ u : Used, u.E = E ∧ u.iv = iv := ⟨⟨E, iv⟩, rfl, rfl⟩

/-- The keys an honest handshake derives, and the derivation of the proof phase after it. -/
theorem honest_keys (q : Nat) (rounds : Bool) (u v : List Byte) (hq : bnNumBytes q < 2 ^ 59) (g : Nat → List Byte) (hg : ∀ i, (g i).length = 64)
    (a b : Nat) (ha : a < q) (hb : b < q) (k : MasterSeed) (rc rs tauC tauS : List Byte) (hs : Short k rc rs tauC tauS) :
    ∃ h keys, (Hs.new q rounds u v).schedule g a b k rc rs tauC tauS = .ok h
      ∧ Garbled.Keys.Of keys (master k (SHA256.beBits (8 * bnNumBytes q) ((a + b) % q)) (bytesBits rc) (bytesBits rs)) (bytesBits rc) (bytesBits rs)
      ∧ h.clientWriteKey = strToInt keys.ck ∧ h.serverWriteKey = strToInt keys.sk ∧ h.clientWriteIv = strToInt keys.civ ∧ h.serverWriteIv = strToInt keys.siv
      ∧ keys.ck.length = 16 ∧ keys.sk.length = 16 ∧ keys.civ.length = 4 ∧ keys.siv.length = 4
      ∧ ∃ mk cc cs h', HsP.proveSchedule ⟨h, a, b⟩ g [] ((a + b) % q) k rc rs tauC tauS
          = .ok (mk, ⟨strToInt keys.ck, strToInt keys.sk, strToInt keys.civ, strToInt keys.siv⟩, cc, cs, h')
        ∧ Holds cc ∧ Holds cs ∧ handshakeCheck h'.hs.prf h'.hs.hmac = .ok true := by
  cases rounds with
  | true =>
    obtain ⟨h, ms, ks, cc, cs, h', e1, e2, -, e4, e5, e6, e7, e8⟩ := C42_rounds_complete q u v hq g a b ha hb k rc rs tauC tauS hs
    obtain ⟨keys, o1, o2, l1, l2, l3, l4⟩ := keys_of e5
    rw [o2] at e2 e4
    simp only [Keys.mk.injEq] at e4
    exact ⟨h, keys, e1, o1, e4.1.symm, e4.2.1.symm, e4.2.2.1.symm, e4.2.2.2.symm, l1, l2, l3, l4, ms, cc, cs, h', e2, e6, e7, e8⟩
  | false =>
  obtain ⟨h, ms, ks, cc, cs, h', e1, e2, -, e4, e5, e6, e7, e8, e9, e10, e11, -⟩ := C42_complete_partial q u v hq g hg a b ha hb k rc rs tauC tauS hs
  have hsnd := C42_sound ⟨h, a, b⟩ e11 e8 (by rw [e10]; exact hq) a (by rw [e10]; exact ha) (by rw [e10]; exact e9) (by rw [e10]; exact hb)
    g hg ((a + b) % q) k rc rs tauC tauS hs ms ks cc cs h' e2 e7 e5 e6
  obtain ⟨keys, o1, o2, l1, l2, l3, l4⟩ := keys_of hsnd.2.1
  have e10' : (HsP.mk h a b).hs.q = q := e10
  rw [e10'] at o1
  rw [o2] at e2 e4
  simp only [Keys.mk.injEq] at e4
  exact ⟨h, keys, e1, o1, e4.1.symm, e4.2.1.symm, e4.2.2.1.symm, e4.2.2.2.symm, l1, l2, l3, l4, ms, cc, cs, h', e2, e5, e6, e7⟩

/-- **C52, decision.**  After an honest handshake, whatever keys (`uc`, `us`) and nonces the record objects really used: the proof phase runs through,
hands out the decryptions under the TLS keys, and the verifier accepts exactly if the objects used those keys (the same hash keys, and the same masks
and key streams on all records claimed) and all tags are right. -/
theorem C52_decision (q : Nat) (rounds : Bool) (u v : List Byte) (hq : bnNumBytes q < 2 ^ 59) (g : Nat → List Byte) (hg : ∀ i, (g i).length = 64)
    (a b : Nat) (ha : a < q) (hb : b < q) (k : MasterSeed) (rc rs tauC tauS : List Byte) (hs : Short k rc rs tauC tauS) :
    ∃ h keys, (Hs.new q rounds u v).schedule g a b k rc rs tauC tauS = .ok h
      ∧ Garbled.Keys.Of keys (master k (SHA256.beBits (8 * bnNumBytes q) ((a + b) % q)) (bytesBits rc) (bytesBits rs)) (bytesBits rc) (bytesBits rs)
      ∧ h.clientWriteKey = strToInt keys.ck ∧ h.serverWriteKey = strToInt keys.sk ∧ h.clientWriteIv = strToInt keys.civ ∧ h.serverWriteIv = strToInt keys.siv
      ∧ ∀ (junk : AESCircuit.Wires) (hash : List Byte → List Byte) (uc us : Used) (sc ss : Bool) (c s : State) (fc fs : AEADProof.Rec)
          (recsC recsS restC restS : List AEADProof.Rec) (finc : PostRecord.Rec) (ivc : List Byte) (fins : PostRecord.Rec) (ivs : List Byte)
          (claims : List Claim) (aadLen : Nat), uc.iv.length = 4 → us.iv.length = 4 →
          Hist hash uc.E uc.iv sc c (fc :: (recsC ++ restC)) → Hist hash us.E us.iv ss s (fs :: (recsS ++ restS)) →
          fc.secret = false → finc.ctxt.length = fc.n → ivc.length = 8 → fs.secret = false → fins.ctxt.length = fs.n → ivs.length = 8 →
          Fit claims recsC recsS → (∀ r ∈ finc :: fins :: claims.map Claim.buf, Sized aadLen r) →
          ∃ p' vd, Post.session junk { hs := ⟨h, a, b⟩, c := c, s := s } g ((a + b) % q) k rc rs tauC tauS finc ivc fins ivs claims aadLen = .ok (p', vd)
            ∧ vd.messages = claims.map (fun c => strToInt (GCM.crypt (aes (keyOf keys (ofClient c.kind))) (GCM.j0 (saltOf keys (ofClient c.kind) ++ c.iv)) c.buf.ctxt))
            ∧ (Accepted vd ↔ (aes keys.ck 0 = uc.E 0 ∧ aes keys.sk 0 = us.E 0) ∧ Agrees keys true uc ivc fc ∧ Agrees keys false us ivs fs
                ∧ AgreeAll keys uc us claims recsC recsS
                ∧ (∃ m, OpensTo keys true ivc finc m) ∧ (∃ m, OpensTo keys false ivs fins m)
                ∧ ∀ c ∈ claims, ∃ m, OpensTo keys (ofClient c.kind) c.iv c.buf m) := by
  obtain ⟨h, keys, e1, e2, e3, e4, e5, e6, l1, l2, l3, l4, mk, cc, cs, h', e7, e8, e9, e10⟩ := honest_keys q rounds u v hq g hg a b ha hb k rc rs tauC tauS hs
  refine ⟨h, keys, e1, e2, e3, e4, e5, e6, ?_⟩
  intro junk hash uc us sc ss c s fc fs recsC recsS restC restS finc ivc fins ivs claims aadLen i1 i2 hc hs' f1 f2 f3 f4 f5 f6 hfit hsz
  obtain ⟨p', vd, g1, g2, g3, g4, g5⟩ := session_run (junk := junk) (p := { hs := ⟨h, a, b⟩, c := c, s := s }) l1 l2 l3 l4 e7 e10 e8 e9 hsz i1 i2 hc hs'
    f1 f2 f3 f4 f5 f6 hfit
  refine ⟨p', vd, g1, g3, ?_⟩
  have hiff : ∀ c : Claim, OpensTo keys (ofClient c.kind) c.iv c.buf (GCM.crypt (aes (keyOf keys (ofClient c.kind))) (GCM.j0 (saltOf keys (ofClient c.kind) ++ c.iv)) c.buf.ctxt)
      ↔ ∃ m, OpensTo keys (ofClient c.kind) c.iv c.buf m := by
    intro c
    exact ⟨fun h => ⟨_, h⟩, fun ⟨m, h⟩ => by rw [opens_some h]; exact h⟩
  simp only [hiff] at g5
  unfold Accepted
  rw [g2, g4, g5]
  constructor
  · rintro ⟨⟨x1, x2, x3, x4⟩, -, x5, x6, x7⟩
    exact ⟨x1, x2, x3, x4, x5, x6, x7⟩
  · rintro ⟨x1, x2, x3, x4, x5, x6, x7⟩
    exact ⟨⟨x1, x2, x3, x4⟩, rfl, x5, x6, x7⟩

/-- **C52, completeness.**  An honest session is accepted: after an honest handshake, with record objects that hold the keys of the handshake and whose
records are those claimed (and possibly more), in the same order and with the same nonces, the proof phase runs through, and the verifier accepts exactly
if AES-128-GCM accepts the two finished messages and the records under the TLS keys; the messages are their plaintexts. -/
theorem C52_complete (q : Nat) (rounds : Bool) (u v : List Byte) (hq : bnNumBytes q < 2 ^ 59) (g : Nat → List Byte) (hg : ∀ i, (g i).length = 64)
    (a b : Nat) (ha : a < q) (hb : b < q) (k : MasterSeed) (rc rs tauC tauS : List Byte) (hs : Short k rc rs tauC tauS) :
    ∃ h keys, (Hs.new q rounds u v).schedule g a b k rc rs tauC tauS = .ok h
      ∧ Garbled.Keys.Of keys (master k (SHA256.beBits (8 * bnNumBytes q) ((a + b) % q)) (bytesBits rc) (bytesBits rs)) (bytesBits rc) (bytesBits rs)
      ∧ h.clientWriteKey = strToInt keys.ck ∧ h.serverWriteKey = strToInt keys.sk ∧ h.clientWriteIv = strToInt keys.civ ∧ h.serverWriteIv = strToInt keys.siv
      ∧ ∀ (junk : AESCircuit.Wires) (hash : List Byte → List Byte) (sc ss : Bool) (c s : State) (restC restS : List AEADProof.Rec)
          (finc : PostRecord.Rec) (ivc : List Byte) (fins : PostRecord.Rec) (ivs : List Byte) (claims : List Claim) (aadLen : Nat),
          Hist hash (aes keys.ck) keys.civ sc c (⟨ivc, finc.ctxt.length, false⟩ :: (taken .client claims ++ restC)) →
          Hist hash (aes keys.sk) keys.siv ss s (⟨ivs, fins.ctxt.length, false⟩ :: (taken .server claims ++ restS)) →
          ivc.length = 8 → ivs.length = 8 → (∀ c ∈ claims, c.iv.length = 8) → (∀ r ∈ finc :: fins :: claims.map Claim.buf, Sized aadLen r) →
          ∃ p' vd, Post.session junk { hs := ⟨h, a, b⟩, c := c, s := s } g ((a + b) % q) k rc rs tauC tauS finc ivc fins ivs claims aadLen = .ok (p', vd)
            ∧ (Accepted vd ↔ (∃ m, OpensTo keys true ivc finc m) ∧ (∃ m, OpensTo keys false ivs fins m)
                ∧ ∀ c ∈ claims, ∃ m, OpensTo keys (ofClient c.kind) c.iv c.buf m)
            ∧ (Accepted vd → Attested keys finc fins ivc ivs claims vd.messages) := by
  obtain ⟨h, keys, e1, e2, e3, e4, e5, e6, H⟩ := C52_decision q rounds u v hq g hg a b ha hb k rc rs tauC tauS hs
  refine ⟨h, keys, e1, e2, e3, e4, e5, e6, ?_⟩
  intro junk hash sc ss c s restC restS finc ivc fins ivs claims aadLen hc hs' f3 f6 hiv hsz
  have hl := of_lengths e2
  obtain ⟨uc, u1, u2⟩ : ∃ uc : Used, uc.E = aes keys.ck ∧ uc.iv = keys.civ := used_exists _ _
  obtain ⟨us, u3, u4⟩ : ∃ us : Used, us.E = aes keys.sk ∧ us.iv = keys.siv := used_exists _ _
  rw [← u1, ← u2] at hc
  rw [← u3, ← u4] at hs'
  have H' := H junk hash uc us sc ss c s ⟨ivc, finc.ctxt.length, false⟩ ⟨ivs, fins.ctxt.length, false⟩ (taken .client claims) (taken .server claims) restC restS
    finc ivc fins ivs claims aadLen (by rw [u2]; exact hl.1) (by rw [u4]; exact hl.2) hc hs' rfl rfl f3 rfl rfl f6 (fit_taken claims hiv) hsz
  clear H
  obtain ⟨p', vd, g1, g2, g3⟩ := H'
  have a1 := agrees_self keys true u1 u2
  have a2 := agrees_self keys false u3 u4
  have hiff : Accepted vd ↔ (∃ m, OpensTo keys true ivc finc m) ∧ (∃ m, OpensTo keys false ivs fins m)
                ∧ ∀ c ∈ claims, ∃ m, OpensTo keys (ofClient c.kind) c.iv c.buf m := by
    rw [g3]
    constructor
    · rintro ⟨-, -, -, -, x⟩; exact x
    · intro x; exact ⟨⟨(congrFun u1 0).symm, (congrFun u3 0).symm⟩, a1 _ _ _, a2 _ _ _, agree_taken a1 a2 claims, x⟩
  exact ⟨p', vd, g1, hiff, fun hacc => attested_of g2 (hiff.mp hacc).1 (hiff.mp hacc).2.1 (hiff.mp hacc).2.2⟩

/-! ### Sessions on sealed records -/

/-- A message and how it is sent. -/
structure Msg where
  kind : Kind
  iv : List Byte
  aad : List Byte
  txt : List Byte

/-- The record of a message: AES-128-GCM under the keys of its direction (RFC 5288). -/
def sealRec (k : Garbled.Keys) (client : Bool) (iv aad txt : List Byte) : PostRecord.Rec :=
  let r := GCM.encrypt (aes (keyOf k client)) (saltOf k client ++ iv) aad txt
  ⟨r.1, r.2, aad⟩

def sealed (k : Garbled.Keys) (m : Msg) : Claim := ⟨m.kind, m.iv, sealRec k (ofClient m.kind) m.iv m.aad m.txt⟩

theorem seal_opens (k : Garbled.Keys) (cl : Bool) (iv aad txt : List Byte) : OpensTo k cl iv (sealRec k cl iv aad txt) txt := by
  unfold OpensTo sealRec GCM.encrypt GCM.decrypt
  dsimp only
  rw [if_pos rfl, crypt_twice]

theorem seal_length (k : Garbled.Keys) (cl : Bool) (iv aad txt : List Byte) : (sealRec k cl iv aad txt).ctxt.length = txt.length := by
  unfold sealRec GCM.encrypt GCM.crypt
  simp

theorem seal_sized (k : Garbled.Keys) (cl : Bool) (iv aad txt : List Byte) : Sized aad.length (sealRec k cl iv aad txt) := by
  refine ⟨?_, rfl⟩
  unfold sealRec GCM.encrypt GCM.tag GCM.tagWith
  simp [GCM.bytesOf]

/-- The records of one direction in the order of the messages; those proved with `prove_record_server_last` take none. -/
def sent (kd : Kind) (ms : List Msg) : List AEADProof.Rec := (ms.filter (·.kind = kd)).map fun m => ⟨m.iv, m.txt.length, true⟩

theorem taken_sealed (k : Garbled.Keys) (kd : Kind) (ms : List Msg) : taken kd (ms.map (sealed k)) = sent kd ms := by
  unfold taken sent
  rw [List.filter_map, List.map_map]
  refine List.map_congr_left fun m _ => ?_
  show (⟨m.iv, (sealRec k _ m.iv m.aad m.txt).ctxt.length, true⟩ : AEADProof.Rec) = _
  rw [seal_length]

/-- **C52, honest sessions.**  After an honest handshake, with record objects that hold its keys and have processed the finished messages and the
messages `ms` in their order (and possibly more): the verifier accepts the records of the messages, and the messages handed out are those sent. -/
theorem C52_honest (q : Nat) (rounds : Bool) (u v : List Byte) (hq : bnNumBytes q < 2 ^ 59) (g : Nat → List Byte) (hg : ∀ i, (g i).length = 64)
    (a b : Nat) (ha : a < q) (hb : b < q) (k : MasterSeed) (rc rs tauC tauS : List Byte) (hs : Short k rc rs tauC tauS) :
    ∃ h keys, (Hs.new q rounds u v).schedule g a b k rc rs tauC tauS = .ok h
      ∧ Garbled.Keys.Of keys (master k (SHA256.beBits (8 * bnNumBytes q) ((a + b) % q)) (bytesBits rc) (bytesBits rs)) (bytesBits rc) (bytesBits rs)
      ∧ h.clientWriteKey = strToInt keys.ck ∧ h.serverWriteKey = strToInt keys.sk ∧ h.clientWriteIv = strToInt keys.civ ∧ h.serverWriteIv = strToInt keys.siv
      ∧ ∀ (junk : AESCircuit.Wires) (hash : List Byte → List Byte) (sc ss : Bool) (c s : State) (restC restS : List AEADProof.Rec)
          (ivc aadc txtc ivs aads txts : List Byte) (ms : List Msg) (aadLen : Nat),
          Hist hash (aes keys.ck) keys.civ sc c (⟨ivc, txtc.length, false⟩ :: (sent .client ms ++ restC)) →
          Hist hash (aes keys.sk) keys.siv ss s (⟨ivs, txts.length, false⟩ :: (sent .server ms ++ restS)) →
          ivc.length = 8 → ivs.length = 8 → aadc.length = aadLen → aads.length = aadLen → (∀ m ∈ ms, m.iv.length = 8 ∧ m.aad.length = aadLen) →
          ∃ p' vd, Post.session junk { hs := ⟨h, a, b⟩, c := c, s := s } g ((a + b) % q) k rc rs tauC tauS
              (sealRec keys true ivc aadc txtc) ivc (sealRec keys false ivs aads txts) ivs (ms.map (sealed keys)) aadLen = .ok (p', vd)
            ∧ Accepted vd ∧ vd.messages = ms.map fun m => strToInt m.txt := by
  obtain ⟨h, keys, e1, e2, e3, e4, e5, e6, H⟩ := C52_complete q rounds u v hq g hg a b ha hb k rc rs tauC tauS hs
  refine ⟨h, keys, e1, e2, e3, e4, e5, e6, ?_⟩
  intro junk hash sc ss c s restC restS ivc aadc txtc ivs aads txts ms aadLen hc hs' h1 h2 h3 h4 hms
  have H' := H junk hash sc ss c s restC restS (sealRec keys true ivc aadc txtc) ivc (sealRec keys false ivs aads txts) ivs (ms.map (sealed keys)) aadLen
    (by rw [taken_sealed, seal_length]; exact hc) (by rw [taken_sealed, seal_length]; exact hs') h1 h2
    (by intro c hc; obtain ⟨m, hm, rfl⟩ := List.mem_map.mp hc; exact (hms m hm).1)
    (by
      intro r hr
      simp only [List.mem_cons, List.map_map, List.mem_map] at hr
      rcases hr with rfl | rfl | ⟨m, hm, rfl⟩
      · rw [← h3]; exact seal_sized _ _ _ _ _
      · rw [← h4]; exact seal_sized _ _ _ _ _
      · rw [← (hms m hm).2]; exact seal_sized _ _ _ _ _)
  clear H
  obtain ⟨p', vd, g1, g2, g3⟩ := H'
  have hacc : Accepted vd := by
    rw [g2]
    refine ⟨⟨_, seal_opens _ _ _ _ _⟩, ⟨_, seal_opens _ _ _ _ _⟩, ?_⟩
    intro c hc
    obtain ⟨m, hm, rfl⟩ := List.mem_map.mp hc
    exact ⟨_, seal_opens _ _ _ _ _⟩
  refine ⟨p', vd, g1, hacc, ?_⟩
  obtain ⟨-, -, f⟩ := g3 hacc
  rw [List.forall₂_map_left_iff] at f
  clear g1 g2 g3 hacc hc hs' hms
  generalize vd.messages = out at f ⊢
  induction f with
  | nil => rfl
  | cons hx _ ih =>
    obtain ⟨txt, o1, o2⟩ := hx
    have o3 := opens_some o1
    simp only [sealed] at o3
    rw [opens_some (seal_opens keys _ _ _ _)] at o3
    rw [List.map_cons, ih, o2, o3]

/-- **C52, the last record is bound to nothing.**  The same record objects: besides the records of a session, the verifier accepts any text whatever as
the last message of the server, if it is sealed under the keys, which the prover knows at this point. -/
theorem C52_last_unbound (q : Nat) (rounds : Bool) (u v : List Byte) (hq : bnNumBytes q < 2 ^ 59) (g : Nat → List Byte) (hg : ∀ i, (g i).length = 64)
    (a b : Nat) (ha : a < q) (hb : b < q) (k : MasterSeed) (rc rs tauC tauS : List Byte) (hs : Short k rc rs tauC tauS) :
    ∃ h keys, (Hs.new q rounds u v).schedule g a b k rc rs tauC tauS = .ok h
      ∧ Garbled.Keys.Of keys (master k (SHA256.beBits (8 * bnNumBytes q) ((a + b) % q)) (bytesBits rc) (bytesBits rs)) (bytesBits rc) (bytesBits rs)
      ∧ ∀ (junk : AESCircuit.Wires) (hash : List Byte → List Byte) (sc ss : Bool) (c s : State) (restC restS : List AEADProof.Rec)
          (ivc aadc txtc ivs aads txts : List Byte) (ms : List Msg) (aadLen : Nat),
          Hist hash (aes keys.ck) keys.civ sc c (⟨ivc, txtc.length, false⟩ :: (sent .client ms ++ restC)) →
          Hist hash (aes keys.sk) keys.siv ss s (⟨ivs, txts.length, false⟩ :: (sent .server ms ++ restS)) →
          ivc.length = 8 → ivs.length = 8 → aadc.length = aadLen → aads.length = aadLen → (∀ m ∈ ms, m.iv.length = 8 ∧ m.aad.length = aadLen) →
          ∀ iv aad txt : List Byte, iv.length = 8 → aad.length = aadLen →
          ∃ p' vd, Post.session junk { hs := ⟨h, a, b⟩, c := c, s := s } g ((a + b) % q) k rc rs tauC tauS
              (sealRec keys true ivc aadc txtc) ivc (sealRec keys false ivs aads txts) ivs
              (ms.map (sealed keys) ++ [⟨.last, iv, sealRec keys false iv aad txt⟩]) aadLen = .ok (p', vd)
            ∧ Accepted vd ∧ vd.messages = (ms.map fun m => strToInt m.txt) ++ [strToInt txt] := by
  obtain ⟨h, keys, e1, e2, -, -, -, -, H⟩ := C52_honest q rounds u v hq g hg a b ha hb k rc rs tauC tauS hs
  refine ⟨h, keys, e1, e2, ?_⟩
  intro junk hash sc ss c s restC restS ivc aadc txtc ivs aads txts ms aadLen hc hs' h1 h2 h3 h4 hms iv aad txt h5 h6
  have e : ∀ kd, kd ≠ Kind.last → sent kd (ms ++ [⟨.last, iv, aad, txt⟩]) = sent kd ms := by
    intro kd hk
    unfold sent
    rw [List.filter_append]
    have : ([⟨.last, iv, aad, txt⟩] : List Msg).filter (·.kind = kd) = [] := by
      cases kd with
      | last => exact absurd rfl hk
      | client => rfl
      | server => rfl
    rw [this, List.append_nil]
  have H' := H junk hash sc ss c s restC restS ivc aadc txtc ivs aads txts (ms ++ [⟨.last, iv, aad, txt⟩]) aadLen
    (by rw [e _ (by simp)]; exact hc) (by rw [e _ (by simp)]; exact hs') h1 h2 h3 h4
    (by
      intro m hm
      rcases List.mem_append.mp hm with hm | hm
      · exact hms m hm
      · rw [List.mem_singleton.mp hm]; exact ⟨h5, h6⟩)
  clear H
  rw [List.map_append, List.map_append] at H'
  exact H'

/-- For every list of records with nonces of 8 bytes there are record objects that have processed them. -/
theorem hist_exists (hash : List Byte → List Byte) (E : Block → Block) (fiv : List Byte) (hf : fiv.length = 4) (s : Bool) (recs : List AEADProof.Rec)
    (h : ∀ r ∈ recs, r.iv.length = 8) : ∃ st, Hist hash E fiv s st recs := by
  induction recs using List.reverseRecOn with
  | nil =>
    obtain ⟨st, e, -⟩ := construct_eq E (strToInt fiv) s (fun _ => false) 1 (fun _ => 0) (fun _ => 0)
    exact ⟨st, .construct (by decide) e⟩
  | append_singleton l r ih =>
    obtain ⟨st, hst⟩ := ih fun x hx => h x (List.mem_append_left _ hx)
    have hr := h r (by simp)
    obtain ⟨st', e, -⟩ := encrypt_eq E fiv hf s st (C40_invariant hf hst).1 (List.replicate r.n 0) (List.replicate r.n 0) [] r.iv hr r.secret
      (fun _ => false) (fun _ => 0) (fun _ => 0) (fun _ => rfl)
    have hh := Hist.encrypt hst (fun _ => rfl) e
    rw [List.length_replicate] at hh
    exact ⟨st', hh⟩

/-- A concrete session that meets the hypotheses and is accepted: a request, an answer, another answer proved last. -/
example (rounds : Bool) : ∃ (p p' : Post) (vd : Verdict) (g : Nat → List Byte) (finc fins : PostRecord.Rec) (claims : List Claim),
    p.session (fun _ => false) g 49 (.extended [7, 8]) [1] [2] [3] [4] finc (List.replicate 8 1) fins (List.replicate 8 1) claims 5 = .ok (p', vd)
      ∧ Accepted vd ∧ vd.messages = [strToInt [0x47, 0x45, 0x54], strToInt [0x4f, 0x4b], strToInt []] := by
  obtain ⟨h, keys, -, e2, -, -, -, -, H⟩ := C52_honest 251 rounds [] [] (by decide +kernel) (fun _ => List.replicate 64 0) (fun _ => List.length_replicate) 200 100
    (by decide) (by decide) (.extended [7, 8]) [1] [2] [3] [4] ⟨by decide, by rintro x ⟨⟩; decide, by decide, by decide⟩
  have hl := of_lengths e2
  let ms : List Msg := [⟨.client, List.replicate 8 2, List.replicate 5 0, [0x47, 0x45, 0x54]⟩, ⟨.server, List.replicate 8 2, List.replicate 5 0, [0x4f, 0x4b]⟩,
    ⟨.last, List.replicate 8 3, List.replicate 5 0, []⟩]
  obtain ⟨c, hc⟩ := hist_exists id (aes keys.ck) keys.civ hl.1 true (⟨List.replicate 8 1, ([1, 2, 3] : List Byte).length, false⟩ :: (sent .client ms ++ []))
    (by simp [sent, ms])
  obtain ⟨s, hs⟩ := hist_exists id (aes keys.sk) keys.siv hl.2 false (⟨List.replicate 8 1, ([4, 5] : List Byte).length, false⟩ :: (sent .server ms ++ []))
    (by simp [sent, ms])
  have H' := H (fun _ => false) id true false c s [] [] (List.replicate 8 1) (List.replicate 5 0) [1, 2, 3] (List.replicate 8 1) (List.replicate 5 0) [4, 5] ms 5 hc hs
    (by simp) (by simp) (by simp) (by simp) (by simp [ms])
  clear H
  obtain ⟨p', vd, g1, g2, g3⟩ := H'
  exact ⟨_, p', vd, _, _, _, _, g1, g2, g3⟩

end Verif.Props.Session
