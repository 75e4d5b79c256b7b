import Verif.Props.Session
import Verif.Lemmas.AESInj

/-!
C52, continued: when the record objects used the keys of the handshake, the verifier accepts no other nonces than those of the connection.
-/

namespace Verif.Props.Session
open Verif.Model Verif.Model.Integer Verif.Model.AEAD Verif.Model.AEADProof Verif.Model.SHA Verif.Model.Session Verif.Lemmas Verif.Props
open Verif.Spec Verif.Spec.Encoding
open Verif.Props.AEADProof (Holds Hist C40_prove C40_invariant)
open Verif.Props.HandshakeProof (Short master)
open Verif.Props.Garbled (aes)

/-- The records of a history have nonces of 8 bytes. -/
theorem hist_iv {hash : List Byte → List Byte} {E : Block → Block} {fiv : List Byte} {s : Bool} {st : State}
    {recs : List AEADProof.Rec} (h : Hist hash E fiv s st recs) : ∀ r ∈ recs, r.iv.length = 8 := by
  induction h with
  | construct hr hc => simp
  | encrypt h0 hl he ih =>
    rename_i st st' recs a b msgA msgB aad iv secret m raw0 raw1
    by_cases hiv : iv.length = 8
    · intro r hr
      rcases List.mem_append.mp hr with hr | hr
      · exact ih r hr
      · rw [List.mem_singleton.mp hr]; exact hiv
    · simp [AEAD.encrypt, AEAD.stream, setNonce, hiv, bind, Except.bind] at he
  | decrypt h0 hl he ih =>
    rename_i st st' recs a b cA cB tA tB aad iv secret m raw0 raw1 rA rB
    by_cases hiv : iv.length = 8
    · intro r hr
      rcases List.mem_append.mp hr with hr | hr
      · exact ih r hr
      · rw [List.mem_singleton.mp hr]; exact hiv
    · simp [AEAD.decrypt, AEAD.stream, setNonce, hiv, bind, Except.bind] at he
  | prove h0 hf' hn he ih => exact fun r hr => ih r (List.mem_cons_of_mem _ hr)

/-- AES-128 is injective on blocks. -/
theorem aes_inj {key : List Byte} (hk : key.length = 16) {a b : Block} (h : aes key a = aes key b) : a = b := by
  unfold Garbled.aes at h
  have h1 := congrArg GCM.bytesOf h
  rw [bytesOf_blockOf _ (AESCircuit.length_aes128 _ hk _), bytesOf_blockOf _ (AESCircuit.length_aes128 _ hk _)] at h1
  exact bytesOf_inj (AESInj.aes128_inj hk (by simp) (by simp) h1)

/-- The first counter block determines the nonce. -/
theorem j0_inj {x y : List Byte} (hx : x.length = 12) (hy : y.length = 12) (h : GCM.j0 x = GCM.j0 y) : x = y := by
  unfold GCM.j0 at h
  have h1 := congrArg GCM.bytesOf h
  rw [bytesOf_blockOf _ (by simp [hx]), bytesOf_blockOf _ (by simp [hy])] at h1
  exact (List.append_inj h1 (by rw [hx, hy])).1

/-- With the keys of the handshake a claim agrees with a record exactly if the nonces are the same. -/
theorem agrees_iff (k : Garbled.Keys) (cl : Bool) {u : Used} (h1 : u.E = aes (keyOf k cl)) (h2 : u.iv = saltOf k cl)
    (hk : (keyOf k cl).length = 16) (hs : (saltOf k cl).length = 4) {iv : List Byte} (hiv : iv.length = 8) {r : AEADProof.Rec} (hr : r.iv.length = 8) :
    Agrees k cl u iv r ↔ iv = r.iv := by
  constructor
  · rintro ⟨h, -⟩
    rw [h1, h2] at h
    have h3 := j0_inj (by simp [hs, hiv]) (by simp [hs, hr]) (aes_inj hk h)
    exact List.append_cancel_left h3
  · rintro rfl
    exact agrees_self k cl h1 h2 r.iv r.n r.secret

/-- The claims have the nonces of the records of the connection, in order. -/
def SameNonces : List Claim → List AEADProof.Rec → List AEADProof.Rec → Prop
  | [], _, _ => True
  | ⟨.client, iv, _⟩ :: l, rc, rs => (∃ r, rc.head? = some r ∧ iv = r.iv) ∧ SameNonces l rc.tail rs
  | ⟨.server, iv, _⟩ :: l, rc, rs => (∃ r, rs.head? = some r ∧ iv = r.iv) ∧ SameNonces l rc rs.tail
  | ⟨.last, _, _⟩ :: l, rc, rs => SameNonces l rc rs

theorem agreeAll_iff (k : Garbled.Keys) {uc us : Used} (c1 : uc.E = aes (keyOf k true)) (c2 : uc.iv = saltOf k true) (c3 : (keyOf k true).length = 16)
    (c4 : (saltOf k true).length = 4) (s1 : us.E = aes (keyOf k false)) (s2 : us.iv = saltOf k false) (s3 : (keyOf k false).length = 16)
    (s4 : (saltOf k false).length = 4) : ∀ (claims : List Claim) (rc rs : List AEADProof.Rec), Fit claims rc rs → (∀ r ∈ rc, r.iv.length = 8) →
      (∀ r ∈ rs, r.iv.length = 8) → (AgreeAll k uc us claims rc rs ↔ SameNonces claims rc rs)
  | [], rc, rs, _, _, _ => by cases rc <;> cases rs <;> simp [AgreeAll, SameNonces]
  | ⟨.client, iv, b⟩ :: l, [], rs, h, _, _ => by simp [Fit] at h
  | ⟨.client, iv, b⟩ :: l, r :: rc, rs, h, h1, h2 => by
    simp only [Fit] at h
    simp only [AgreeAll, SameNonces, List.head?_cons, List.tail_cons, Option.some.injEq, exists_eq_left']
    rw [agrees_iff k true c1 c2 c3 c4 h.1 (h1 r (by simp)),
      agreeAll_iff k c1 c2 c3 c4 s1 s2 s3 s4 l rc rs h.2.2.2 (fun x hx => h1 x (by simp [hx])) h2]
  | ⟨.server, iv, b⟩ :: l, rc, [], h, _, _ => by cases rc <;> simp [Fit] at h
  | ⟨.server, iv, b⟩ :: l, rc, r :: rs, h, h1, h2 => by
    have h' : iv.length = 8 ∧ b.ctxt.length = r.n ∧ r.secret = true ∧ Fit l rc rs := by cases rc <;> exact h
    have e : AgreeAll k uc us (⟨.server, iv, b⟩ :: l) rc (r :: rs) ↔ Agrees k false us iv r ∧ AgreeAll k uc us l rc rs := by cases rc <;> exact Iff.rfl
    rw [e]
    simp only [SameNonces, List.head?_cons, List.tail_cons, Option.some.injEq, exists_eq_left']
    rw [agrees_iff k false s1 s2 s3 s4 h'.1 (h2 r (by simp)),
      agreeAll_iff k c1 c2 c3 c4 s1 s2 s3 s4 l rc rs h'.2.2.2 h1 (fun x hx => h2 x (by simp [hx]))]
  | ⟨.last, iv, b⟩ :: l, rc, rs, h, h1, h2 => by
    have h' : iv.length = 8 ∧ Fit l rc rs := by cases rc <;> cases rs <;> exact h
    have e : AgreeAll k uc us (⟨.last, iv, b⟩ :: l) rc rs ↔ AgreeAll k uc us l rc rs := by cases rc <;> cases rs <;> exact Iff.rfl
    rw [e]
    exact agreeAll_iff k c1 c2 c3 c4 s1 s2 s3 s4 l rc rs h'.2 h1 h2

/-- **C52, exactness.**  After an honest handshake, with record objects that hold its keys and any records: the verifier accepts exactly if every
nonce claimed in the proof phase, except those of `prove_record_server_last`, is the nonce of its record of the connection, and AES-128-GCM accepts
the two finished messages and the records under the TLS keys. -/
theorem C52_exact (q : Nat) (rounds : Bool) (u v : List Byte) (hq : bnNumBytes q < 2 ^ 59) (g : Nat → List Byte) (hg : ∀ i, (g i).length = 64)
    (a b : Nat) (ha : a < q) (hb : b < q) (k : MasterSeed) (rc rs tauC tauS : List Byte) (hs : Short k rc rs tauC tauS) :
    ∃ h keys, (Hs.new q rounds u v).schedule g a b k rc rs tauC tauS = .ok h
      ∧ Garbled.Keys.Of keys (master k (SHA256.beBits (8 * bnNumBytes q) ((a + b) % q)) (bytesBits rc) (bytesBits rs)) (bytesBits rc) (bytesBits rs)
      ∧ h.clientWriteKey = strToInt keys.ck ∧ h.serverWriteKey = strToInt keys.sk ∧ h.clientWriteIv = strToInt keys.civ ∧ h.serverWriteIv = strToInt keys.siv
      ∧ ∀ (junk : AESCircuit.Wires) (hash : List Byte → List Byte) (sc ss : Bool) (c s : State) (fc fs : AEADProof.Rec)
          (recsC recsS restC restS : List AEADProof.Rec) (finc : PostRecord.Rec) (ivc : List Byte) (fins : PostRecord.Rec) (ivs : List Byte)
          (claims : List Claim) (aadLen : Nat),
          Hist hash (aes keys.ck) keys.civ sc c (fc :: (recsC ++ restC)) → Hist hash (aes keys.sk) keys.siv ss s (fs :: (recsS ++ restS)) →
          fc.secret = false → finc.ctxt.length = fc.n → ivc.length = 8 → fs.secret = false → fins.ctxt.length = fs.n → ivs.length = 8 →
          Fit claims recsC recsS → (∀ r ∈ finc :: fins :: claims.map Claim.buf, Sized aadLen r) →
          ∃ p' vd, Post.session junk { hs := ⟨h, a, b⟩, c := c, s := s } g ((a + b) % q) k rc rs tauC tauS finc ivc fins ivs claims aadLen = .ok (p', vd)
            ∧ (Accepted vd ↔ ivc = fc.iv ∧ ivs = fs.iv ∧ SameNonces claims recsC recsS
                ∧ (∃ m, OpensTo keys true ivc finc m) ∧ (∃ m, OpensTo keys false ivs fins m)
                ∧ ∀ c ∈ claims, ∃ m, OpensTo keys (ofClient c.kind) c.iv c.buf m) := by
  obtain ⟨h, keys, e1, e2, e3, e4, e5, e6, H⟩ := C52_decision q rounds u v hq g hg a b ha hb k rc rs tauC tauS hs
  refine ⟨h, keys, e1, e2, e3, e4, e5, e6, ?_⟩
  intro junk hash sc ss c s fc fs recsC recsS restC restS finc ivc fins ivs claims aadLen hc hs' f1 f2 f3 f4 f5 f6 hfit hsz
  have hl := of_lengths e2
  have hkl : keys.ck.length = 16 ∧ keys.sk.length = 16 := by
    obtain ⟨-, h1, h2, -⟩ := e2
    simp only [length_bytesBits] at h1 h2
    omega
  have hvc := hist_iv hc
  have hvs := hist_iv hs'
  obtain ⟨uc, u1, u2⟩ : ∃ uc : Used, uc.E = aes keys.ck ∧ uc.iv = keys.civ := used_exists _ _
  obtain ⟨us, u3, u4⟩ : ∃ us : Used, us.E = aes keys.sk ∧ us.iv = keys.siv := used_exists _ _
  rw [← u1, ← u2] at hc
  rw [← u3, ← u4] at hs'
  have H' := H junk hash uc us sc ss c s fc fs recsC recsS restC restS
    finc ivc fins ivs claims aadLen (by rw [u2]; exact hl.1) (by rw [u4]; exact hl.2) hc hs' f1 f2 f3 f4 f5 f6 hfit hsz
  clear H
  obtain ⟨p', vd, g1, -, g3⟩ := H'
  refine ⟨p', vd, g1, ?_⟩
  rw [g3, agrees_iff keys true u1 u2 hkl.1 hl.1 f3 (hvc fc (by simp)), agrees_iff keys false u3 u4 hkl.2 hl.2 f6 (hvs fs (by simp)),
    agreeAll_iff keys u1 u2 hkl.1 hl.1 u3 u4 hkl.2 hl.2 claims recsC recsS hfit (fun r hr => hvc r (by simp [hr])) (fun r hr => hvs r (by simp [hr]))]
  constructor
  · rintro ⟨-, x⟩; exact x
  · intro x; exact ⟨⟨(congrFun u1 0).symm, (congrFun u3 0).symm⟩, x⟩

/-- A concrete case: a record sent with the nonce `2` and claimed with the nonce `iv`, sealed under it, is accepted only for `iv = 2`. -/
example (rounds : Bool) (iv : List Byte) (hiv : iv.length = 8) : ∃ (p p' : Post) (vd : Verdict) (keys : Garbled.Keys) (finc fins : PostRecord.Rec) (buf : PostRecord.Rec),
    p.session (fun _ => false) (fun _ => List.replicate 64 0) 49 (.extended [7, 8]) [1] [2] [3] [4] finc (List.replicate 8 1) fins (List.replicate 8 1)
      [⟨.client, iv, buf⟩] 5 = .ok (p', vd)
      ∧ OpensTo keys true iv buf [0x47, 0x45, 0x54] ∧ (Accepted vd ↔ iv = List.replicate 8 2) := by
  obtain ⟨h, keys, -, e2, -, -, -, -, H⟩ := C52_exact 251 rounds [] [] (by decide +kernel) (fun _ => List.replicate 64 0) (fun _ => List.length_replicate) 200 100
    (by decide) (by decide) (.extended [7, 8]) [1] [2] [3] [4] ⟨by decide, by rintro x ⟨⟩; decide, by decide, by decide⟩
  have hl := of_lengths e2
  obtain ⟨c, hc⟩ := hist_exists id (aes keys.ck) keys.civ hl.1 true (⟨List.replicate 8 1, 3, false⟩ :: ([⟨List.replicate 8 2, 3, true⟩] ++ [])) (by simp)
  obtain ⟨s, hs⟩ := hist_exists id (aes keys.sk) keys.siv hl.2 false (⟨List.replicate 8 1, 2, false⟩ :: ([] ++ [])) (by simp)
  obtain ⟨finc, h1⟩ : ∃ r, r = sealRec keys true (List.replicate 8 1) (List.replicate 5 0) [1, 2, 3] := ⟨_, rfl⟩
  obtain ⟨fins, h2⟩ : ∃ r, r = sealRec keys false (List.replicate 8 1) (List.replicate 5 0) [4, 5] := ⟨_, rfl⟩
  obtain ⟨buf, h3⟩ : ∃ r, r = sealRec keys true iv (List.replicate 5 0) [0x47, 0x45, 0x54] := ⟨_, rfl⟩
  have z1 : Sized 5 finc := by rw [h1]; exact seal_sized keys true _ (List.replicate 5 0) _
  have z2 : Sized 5 fins := by rw [h2]; exact seal_sized keys false _ (List.replicate 5 0) _
  have z3 : Sized 5 buf := by rw [h3]; exact seal_sized keys true _ (List.replicate 5 0) _
  have n1 : finc.ctxt.length = 3 := by rw [h1, seal_length]; rfl
  have n2 : fins.ctxt.length = 2 := by rw [h2, seal_length]; rfl
  have n3 : buf.ctxt.length = 3 := by rw [h3, seal_length]; rfl
  have o1 : OpensTo keys true (List.replicate 8 1) finc [1, 2, 3] := by rw [h1]; exact seal_opens _ _ _ _ _
  have o2 : OpensTo keys false (List.replicate 8 1) fins [4, 5] := by rw [h2]; exact seal_opens _ _ _ _ _
  have o3 : OpensTo keys true iv buf [0x47, 0x45, 0x54] := by rw [h3]; exact seal_opens _ _ _ _ _
  have H' := H (fun _ => false) id true false c s ⟨List.replicate 8 1, 3, false⟩ ⟨List.replicate 8 1, 2, false⟩ [⟨List.replicate 8 2, 3, true⟩] [] [] []
    finc (List.replicate 8 1) fins (List.replicate 8 1) [⟨.client, iv, buf⟩] 5 hc hs rfl n1 (by simp) rfl n2 (by simp) ⟨hiv, n3, rfl, trivial⟩
    (by simp [z1, z2, z3])
  clear H
  obtain ⟨p', vd, g1, g2⟩ := H'
  refine ⟨_, p', vd, keys, finc, fins, buf, g1, o3, ?_⟩
  rw [g2]
  constructor
  · rintro ⟨-, -, ⟨⟨r, hr, h⟩, -⟩, -⟩
    simp only [List.head?_cons, Option.some.injEq] at hr
    rw [h, ← hr]
  · intro h
    refine ⟨rfl, rfl, ⟨⟨_, rfl, h⟩, trivial⟩, ⟨_, o1⟩, ⟨_, o2⟩, ?_⟩
    intro x hx
    rw [List.mem_singleton.mp hx]
    exact ⟨_, o3⟩

end Verif.Props.Session
