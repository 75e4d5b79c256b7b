import Verif.Lemmas.AeadRef
import Verif.Props.Handshake
import Verif.Props.Offline

/-!
The whole path of a connection (C47): garble the operations of the offline classes, run the online classes on the stored tables, take every
opened value from that evaluation.  The opened values are those of TLS 1.2 (RFC 5246, RFC 7627) with AES-128-GCM.
-/

namespace Verif.Props.Garbled
open Verif.Model Verif.Model.Gate Verif.Lemmas Verif.Lemmas.Gate
open Verif.Spec Verif.Spec.Circuit Verif.Spec.Encoding
open Verif.Props (SameShape RevealOk C18_offline_online C18_shares on_run_append Keyed C15_expansion_keys C15_client_finished_reversed
  C15_finished_reversed C15_master_key C15_extended_master_key optCompute_step roundsCompute_step)
open Verif.Props.Offline (C44_connection program_same)

/-! ### Specification -/

/-- AES-128 on blocks. -/
def aes (key : List Byte) (b : BitVec 128) : BitVec 128 := GCM.blockOf (AES.aes128 key (GCM.bytesOf b))

/-- The keys of a connection, as bytes. -/
structure Keys where
  ck : List Byte
  sk : List Byte
  civ : List Byte
  siv : List Byte

/-- The keys are the partition of the key block. -/
def Keys.Of (k : Keys) (master rc rs : List Bool) : Prop :=
  TLS.IsPartition ⟨bytesBits k.ck, bytesBits k.sk, bytesBits k.civ, bytesBits k.siv⟩ (TLS.keyBlock master rc rs)

/-- The key stream of a record of the client or the server with the given explicit nonce. -/
def Keys.stream (k : Keys) (client : Bool) (iv : List Byte) (n : Nat) : List Byte :=
  GCM.keyStream (aes (if client then k.ck else k.sk)) (GCM.j0 ((if client then k.civ else k.siv) ++ iv)) n

/-- The buffers of the calls have their sizes. -/
def Buf (g : Nat → List Byte) : Prop := ∀ i, (g i).length = 64

/-- The first call of a connection with curve order `q`, the two randoms it is given, and the master secret of the RFC.  The
pre-master secret is the sum of the shares modulo `q`, big endian, in the length of `q`. -/
def Starts (q : Nat) (master : List Bool) : Call → Prop
  | .masterKey g a b rc rs => Buf g ∧ a < q ∧ b < q ∧ rc.length + rs.length < 2 ^ 57
      ∧ master = TLS.masterSecret (SHA256.beBits (8 * bnNumBytes q) ((a + b) % q)) (bytesBits rc) (bytesBits rs)
  | .extendedMasterKey g a b hash => Buf g ∧ a < q ∧ b < q ∧ hash.length < 2 ^ 57
      ∧ master = TLS.extendedMasterSecret (SHA256.beBits (8 * bnNumBytes q) ((a + b) % q)) (bytesBits hash)
  | _ => False

/-- The calls after the key derivation: finished messages, record objects and records in any order; a record needs its object (`c`, `s`: the
object of the client, of the server exists). -/
def Admissible (c s : Bool) : List Call → Prop
  | [] => True
  | .clientFinished g l t :: ops => Buf g ∧ l.length + t.length < 2 ^ 58 ∧ Admissible c s ops
  | .serverFinished g l t :: ops => Buf g ∧ l.length + t.length < 2 ^ 58 ∧ Admissible c s ops
  | .newAead _ cl :: ops => Admissible (c || cl) (s || !cl) ops
  | .encrypt _ cl iv _ _ :: ops => (if cl then c else s) = true ∧ iv.length = 8 ∧ Admissible c s ops
  | .decrypt _ cl iv _ _ :: ops => (if cl then c else s) = true ∧ iv.length = 8 ∧ Admissible c s ops
  | _ :: _ => False

/-- Which objects exist after the calls. -/
def objects (c s : Bool) : List Call → Bool × Bool
  | [] => (c, s)
  | .newAead _ cl :: ops => objects (c || cl) (s || !cl) ops
  | _ :: ops => objects c s ops

/-- What a call must open.  The bytes leave the circuit last byte first. -/
def Opens (master : List Bool) (k : Keys) : Call → Out → Prop
  | .clientFinished _ l t, o => ∃ b, o.opened = some b ∧ bytesBits b.reverse = TLS.verifyData master (bytesBits l) (bytesBits t)
  | .serverFinished _ l t, o => ∃ b, o.opened = some b ∧ bytesBits b.reverse = TLS.verifyData master (bytesBits l) (bytesBits t)
  | .newAead _ _, o => o.opened = none
  | .encrypt _ cl iv n sec, o => o.opened = if sec then none else some (k.stream cl iv n).reverse
  | .decrypt _ cl iv n sec, o => o.opened = if sec then none else some (k.stream cl iv n).reverse
  | _, _ => False

/-- The block that masks the tag of a record. -/
def Keys.mask (k : Keys) (client : Bool) (iv : List Byte) : BitVec 128 :=
  aes (if client then k.ck else k.sk) (GCM.j0 ((if client then k.civ else k.siv) ++ iv))

/-- The xor of the least significant bits of the labels the two parties hold for `x`. -/
def shared (E : GC.Env) (n : GC.OnNet) (x : SInt) : List Bool :=
  x.map fun w => (n.gen.get E (wireNo w)).getLsbD 0 ^^ (n.eva.get E (wireNo w)).getLsbD 0

/-- What the label bits of a call must share, most significant bit first: the hash key for a record object, the mask of the tag and the
key stream for a record. -/
def Shares (E : GC.Env) (n : GC.OnNet) (k : Keys) : Call → Out → Prop
  | .newAead _ cl, o => (shared E n o.h).reverse = bytesBits (GCM.bytesOf (aes (if cl then k.ck else k.sk) 0))
  | .encrypt _ cl iv len _, o => (shared E n o.z0).reverse = bytesBits (GCM.bytesOf (k.mask cl iv))
      ∧ (shared E n o.z).reverse = bytesBits (k.stream cl iv len)
  | .decrypt _ cl iv len _, o => (shared E n o.z0).reverse = bytesBits (GCM.bytesOf (k.mask cl iv))
      ∧ (shared E n o.z).reverse = bytesBits (k.stream cl iv len)
  | _, _ => True

/-- The openings of the online phase: what the evaluation of the garbled tables `f` returns for an opening after the operations of
`s`.  A public opening is read by both parties; `alice` says whose value is taken. -/
def backend (E : GC.Env) (f : GC.OffNet) (alice : Bool) : Oracle := fun s p ws =>
  match (GC.syncOnline f).run E (s.program ++ [.reveal p (ws.map wireNo)]) with
  | .ok (os, _) =>
    match os.getLast? with
    | some (_, a, b) => match p with
      | .alice => a
      | .bob => b
      | .pub => if alice then a else b
    | none => []
  | .error _ => []

/-! ### The calls of a connection -/

variable {L : Lib} (hL : LibSound L)
include hL

omit hL in
theorem aes_eq (key : List Byte) : aes key = Verif.Props.AESCircuit.aesBlock key := rfl

omit hL in
theorem stream_eq (k : Keys) (cl : Bool) (iv : List Byte) (n : Nat) :
    k.stream cl iv n = recordStream (if cl then k.ck else k.sk) (if cl then k.civ else k.siv) iv n := by
  unfold Keys.stream recordStream
  rw [aes_eq]

/-- The values of the wires a call hands out. -/
def Holds (t : Sess) (k : Keys) : Call → Out → Prop
  | .newAead _ cl, o => IR t o.h (strToInt (GCM.bytesOf (aes (if cl then k.ck else k.sk) 0)))
  | .encrypt _ cl iv n _, o => IR t o.z0 (strToInt (GCM.bytesOf (k.mask cl iv))) ∧ IR t o.z (strToInt (k.stream cl iv n))
  | .decrypt _ cl iv n _, o => IR t o.z0 (strToInt (GCM.bytesOf (k.mask cl iv))) ∧ IR t o.z (strToInt (k.stream cl iv n))
  | _, _ => True

omit hL in
theorem Holds.mono {t u : Sess} (e : Ext t u) {k : Keys} : ∀ {op : Call} {o : Out}, Holds t k op o → Holds u k op o
  | .newAead _ _, _, h => IR.mono e h
  | .encrypt _ _ _ _ _, _, h => ⟨IR.mono e h.1, IR.mono e h.2⟩
  | .decrypt _ _ _ _ _, _, h => ⟨IR.mono e h.1, IR.mono e h.2⟩
  | .masterKey .., _, _ => trivial
  | .extendedMasterKey .., _, _ => trivial
  | .expansionKeys .., _, _ => trivial
  | .clientFinished .., _, _ => trivial
  | .serverFinished .., _, _ => trivial

/-- The state of a connection after the key derivation. -/
structure CR (t : Sess) (c : ConnG) (v : Hs) (master : List Bool) (k : Keys) (hc hs : Bool) (m : Nat) : Prop where
  h : HSR t c.hs v
  key : Keyed v master
  size : v.hmac.sha.ivIn.length + 2 * m ≤ 2 ^ 63
  ck : v.clientWriteKey = strToInt k.ck ∧ k.ck.length = 16
  sk : v.serverWriteKey = strToInt k.sk ∧ k.sk.length = 16
  civ : v.clientWriteIv = strToInt k.civ ∧ k.civ.length = 4
  siv : v.serverWriteIv = strToInt k.siv ∧ k.siv.length = 4
  ac : hc = true → ∃ a, c.aeadC = some a ∧ AeR t a k.ck k.civ
  as : hs = true → ∃ a, c.aeadS = some a ∧ AeR t a k.sk k.siv

omit hL in
theorem CR.setAead {t : Sess} {c : ConnG} {v : Hs} {master : List Bool} {k : Keys} {hc hs : Bool} {m : Nat}
    (r : CR t c v master k hc hs m) (cl : Bool) {u : Sess} (e : Ext t u) {a : AeadG}
    (h : AeR u a (if cl then k.ck else k.sk) (if cl then k.civ else k.siv)) :
    CR u (c.setAead cl a) v master k (hc || cl) (hs || !cl) m := by
  cases cl with
  | true =>
    refine ⟨r.h.mono e, r.key, r.size, r.ck, r.sk, r.civ, r.siv, fun _ => ⟨a, rfl, h⟩, fun hh => ?_⟩
    rw [Bool.not_true, Bool.or_false] at hh
    obtain ⟨b, h1, h2⟩ := r.as hh
    exact ⟨b, h1, h2.mono e⟩
  | false =>
    refine ⟨r.h.mono e, r.key, r.size, r.ck, r.sk, r.civ, r.siv, fun hh => ?_, fun _ => ⟨a, rfl, h⟩⟩
    rw [Bool.or_false] at hh
    obtain ⟨b, h1, h2⟩ := r.ac hh
    exact ⟨b, h1, h2.mono e⟩

omit hL in
theorem CR.get {t : Sess} {c : ConnG} {v : Hs} {master : List Bool} {k : Keys} {hc hs : Bool} {m : Nat} (r : CR t c v master k hc hs m)
    (cl : Bool) (h : (if cl then hc else hs) = true) :
    ∃ a, c.getAead cl = .ok a ∧ AeR t a (if cl then k.ck else k.sk) (if cl then k.civ else k.siv) := by
  cases cl with
  | true =>
    obtain ⟨a, h1, h2⟩ := r.ac h
    exact ⟨a, by unfold ConnG.getAead; rw [if_pos rfl, h1], h2⟩
  | false =>
    obtain ⟨a, h1, h2⟩ := r.as h
    exact ⟨a, by unfold ConnG.getAead; rw [if_neg Bool.false_ne_true, h1], h2⟩

omit hL in
theorem CR.same {t : Sess} {c : ConnG} {v : Hs} {master : List Bool} {k : Keys} {hc hs : Bool} {m : Nat}
    (r : CR t c v master k (hc || cl) (hs || !cl) m) (h : (if cl then hc else hs) = true) : CR t c v master k hc hs m := by
  cases cl with
  | true => simp only [if_true] at h; subst h; simpa using r
  | false => simp only [Bool.false_eq_true, if_false] at h; subst h; simpa using r

/-- All later calls. -/
theorem ref_rest (master : List Bool) (k : Keys) :
    ∀ (ops : List Call) {t : Sess} {c : ConnG} {v : Hs} {hc hs : Bool}, CR t c v master k hc hs ops.length → Admissible hc hs ops →
      Ref t (c.run L ops) (fun u p => List.Forall₂ (fun op o => Opens master k op o ∧ Holds u k op o) ops p.1
        ∧ ∃ v', CR u p.2 v' master k (objects hc hs ops).1 (objects hc hs ops).2 0) := by
  intro ops
  induction ops with
  | nil => intro t c v hc hs r ha; exact Ref.pure ⟨.nil, v, r⟩
  | cons op ops ih =>
    intro t c v hc hs r ha
    have size' : v.hmac.sha.ivIn.length + 2 * ops.length + 2 ≤ 2 ^ 63 := by
      have := r.size
      rw [List.length_cons] at this
      omega
    have r' : CR t c v master k hc hs ops.length :=
      ⟨r.h, r.key, by omega, r.ck, r.sk, r.civ, r.siv, r.ac, r.as⟩
    suffices hstep : Ref t (c.step L op) (fun u p => (Opens master k op p.1 ∧ Holds u k op p.1) ∧
        ∃ v' hc' hs', CR u p.2 v' master k hc' hs' ops.length ∧ Admissible hc' hs' ops
          ∧ objects hc hs (op :: ops) = objects hc' hs' ops) by
      unfold ConnG.run
      refine Ref.bind hstep fun p u e hp => ?_
      obtain ⟨o, c1⟩ := p
      obtain ⟨h1, v', hc', hs', h2, h3, h4⟩ := hp
      refine Ref.bind (ih h2 h3) fun q u e hq => ?_
      rw [h4]
      exact Ref.pure ⟨.cons ⟨h1.1, h1.2.mono e⟩ hq.1, hq.2⟩
    cases op with
    | masterKey g a b rc rs => exact ha.elim
    | extendedMasterKey g a b sh => exact ha.elim
    | expansionKeys g rc rs => exact ha.elim
    | clientFinished g l t' =>
      obtain ⟨hg, hl, ha⟩ := ha
      obtain ⟨v', e, hk, _, hb, hf, hs'⟩ := C15_client_finished_reversed v master r.key (by omega) g hg l t' hl
      refine Ref.bind (ref_clientFinished hL r.h g l t' e) fun p u ex hp => ?_
      obtain ⟨o, h⟩ := p
      obtain ⟨h1, h2⟩ := hp
      refine Ref.pure ⟨⟨⟨_, congrArg some h1, hb⟩, trivial⟩, v', hc, hs, ?_, ha, rfl⟩
      refine ⟨h2, hk, by omega, ?_, ?_, ?_, ?_, fun hh => ?_, fun hh => ?_⟩
      · rw [hf]; exact r.ck
      · rw [hf]; exact r.sk
      · rw [hf]; exact r.civ
      · rw [hf]; exact r.siv
      · obtain ⟨a, x, y⟩ := r.ac hh; exact ⟨a, x, y.mono ex⟩
      · obtain ⟨a, x, y⟩ := r.as hh; exact ⟨a, x, y.mono ex⟩
    | serverFinished g l t' =>
      obtain ⟨hg, hl, ha⟩ := ha
      obtain ⟨v', e, hk, _, hb, hf, hs'⟩ := C15_finished_reversed v master r.key (by omega) g hg l t' hl
      refine Ref.bind (ref_serverFinished hL r.h g l t' e) fun p u ex hp => ?_
      obtain ⟨o, h⟩ := p
      obtain ⟨h1, h2⟩ := hp
      refine Ref.pure ⟨⟨⟨_, congrArg some h1, hb⟩, trivial⟩, v', hc, hs, ?_, ha, rfl⟩
      refine ⟨h2, hk, by omega, ?_, ?_, ?_, ?_, fun hh => ?_, fun hh => ?_⟩
      · rw [hf]; exact r.ck
      · rw [hf]; exact r.sk
      · rw [hf]; exact r.civ
      · rw [hf]; exact r.siv
      · obtain ⟨a, x, y⟩ := r.ac hh; exact ⟨a, x, y.mono ex⟩
      · obtain ⟨a, x, y⟩ := r.as hh; exact ⟨a, x, y.mono ex⟩
    | newAead j cl =>
      have hk : IR t (if cl then c.hs.clientWriteKey else c.hs.serverWriteKey) (strToInt (if cl then k.ck else k.sk)) := by
        cases cl with
        | true => have := r.h.cwk; rw [r.ck.1] at this; exact this
        | false => have := r.h.swk; rw [r.sk.1] at this; exact this
      have hi : IR t (if cl then c.hs.clientWriteIv else c.hs.serverWriteIv) (strToInt (if cl then k.civ else k.siv)) := by
        cases cl with
        | true => have := r.h.civ; rw [r.civ.1] at this; exact this
        | false => have := r.h.siv; rw [r.siv.1] at this; exact this
      have hl : (if cl then k.ck else k.sk).length = 16 := by
        cases cl with
        | true => exact r.ck.2
        | false => exact r.sk.2
      refine Ref.bind (ref_aeadNew j hl hk hi) fun p u ex hp => ?_
      exact Ref.pure ⟨⟨rfl, hp.1⟩, v, _, _, r'.setAead cl ex hp.2, ha, rfl⟩
    | encrypt j cl iv n sec =>
      obtain ⟨h1, hi, ha⟩ := ha
      obtain ⟨a, e, hr⟩ := r.get cl h1
      have hl : (if cl then k.civ else k.siv).length = 4 := by
        cases cl with
        | true => exact r.civ.2
        | false => exact r.siv.2
      refine Ref.bind (Ref.lift (R := fun _ x => x = a) e rfl) fun x u ex hx => ?_
      subst hx
      refine Ref.bind (ref_encrypt hL (hr.mono ex) hl j iv hi n sec) fun p u' ex' hp => ?_
      refine Ref.pure ⟨⟨?_, hp.1.hz0, ?_⟩, v, hc, hs, (r'.setAead cl (ex.trans ex') hp.2).same h1, ha, rfl⟩
      · show _ = _
        rw [hp.1.ho, stream_eq]
      · rw [stream_eq]; exact hp.1.hz
    | decrypt j cl iv n sec =>
      obtain ⟨h1, hi, ha⟩ := ha
      obtain ⟨a, e, hr⟩ := r.get cl h1
      have hl : (if cl then k.civ else k.siv).length = 4 := by
        cases cl with
        | true => exact r.civ.2
        | false => exact r.siv.2
      refine Ref.bind (Ref.lift (R := fun _ x => x = a) e rfl) fun x u ex hx => ?_
      subst hx
      refine Ref.bind (ref_decrypt hL (hr.mono ex) hl j iv hi n sec) fun p u' ex' hp => ?_
      refine Ref.pure ⟨⟨?_, hp.1.hz0, ?_⟩, v, hc, hs, (r'.setAead cl (ex.trans ex') hp.2).same h1, ha, rfl⟩
      · show _ = _
        rw [hp.1.ho, stream_eq]
      · rw [stream_eq]; exact hp.1.hz

omit hL in
theorem length_prf384 (a b c : List Bool) : (HMAC.prf a b c (48 * 8)).length = 384 := by
  rw [HMAC.prf, List.length_take, length_pHash]; rfl

/-- The master secret. -/
theorem ref_start (q : Nat) (rounds : Bool) (hq : bnNumBytes q < 2 ^ 59) (master : List Bool) (op : Call) (h : Starts q master op)
    {t : Sess} : Ref t (ConnG.step L { hs := { q := q, roundsOpt := rounds } } op) (fun u p => p.1 = {} ∧ p.2.aeadC = none ∧ p.2.aeadS = none
      ∧ ∃ v, HSR u p.2.hs v ∧ v.masterKey.reverse = master ∧ v.masterKey.length = 384 ∧ v.hmac.sha.ivIn.length ≤ 4
        ∧ v.hmac.sha.pos = BitVec.ofNat 64 v.hmac.sha.ivIn.length - 1) := by
  have r0 := HSR.new t q rounds [] []
  cases op with
  | masterKey g a b rc rs =>
    obtain ⟨hg, ha, hb, hl, hm⟩ := h
    obtain ⟨v, e, h1, h2, h3⟩ := C15_master_key (Hs.new q rounds [] []) ⟨_, _, _, _, rfl⟩ hq g hg a b ha hb rc rs hl
    refine Ref.bind (ref_masterKey hL r0 g a b rc rs e) fun x u ex hx => ?_
    refine Ref.pure ⟨rfl, rfl, rfl, v, hx, h1.trans hm.symm, ?_, h2, h3⟩
    rw [← List.length_reverse, h1]; exact length_prf384 _ _ _
  | extendedMasterKey g a b sh =>
    obtain ⟨hg, ha, hb, hl, hm⟩ := h
    obtain ⟨v, e, h1, h2, h3⟩ := C15_extended_master_key (Hs.new q rounds [] []) ⟨_, _, _, _, rfl⟩ hq g hg a b ha hb sh hl
    refine Ref.bind (ref_extMasterKey hL r0 g a b sh e) fun x u ex hx => ?_
    refine Ref.pure ⟨rfl, rfl, rfl, v, hx, h1.trans hm.symm, ?_, h2, h3⟩
    rw [← List.length_reverse, h1]; exact length_prf384 _ _ _
  | _ => exact h.elim

omit hL in
theorem key_of_bits (x : Integer) (n : Nat) (h : x.reverse.length = 8 * n) :
    ∃ s, x = strToInt s ∧ s.length = n ∧ x.reverse = bytesBits s := by
  rw [List.length_reverse] at h
  obtain ⟨s, h1, h2⟩ := exists_strToInt x n h
  exact ⟨s, h2, h1, by rw [h2, strToInt_reverse]⟩

/-- A whole connection on plain values: it succeeds with every oracle that shows the plain values. -/
theorem ref_connection (q : Nat) (rounds : Bool) (hq : bnNumBytes q < 2 ^ 59) (master : List Bool) (start : Call)
    (h : Starts q master start) (g : Nat → List Byte) (hg : Buf g) (rc rs : List Byte) (hl : rc.length + rs.length < 2 ^ 57)
    (rest : List Call) (ha : Admissible false false rest) (hn : rest.length < 2 ^ 60) :
    Ref {} (ConnG.run L { hs := { q := q, roundsOpt := rounds } } (start :: .expansionKeys g rc rs :: rest))
      (fun u p => ∃ k : Keys, k.Of master (bytesBits rc) (bytesBits rs)
        ∧ (∃ outs, p.1 = {} :: {} :: outs ∧ List.Forall₂ (fun op o => Opens master k op o ∧ Holds u k op o) rest outs)
        ∧ ∃ v, CR u p.2 v master k (objects false false rest).1 (objects false false rest).2 0) := by
  unfold ConnG.run
  refine Ref.bind (ref_start hL q rounds hq master start h) fun p u ex hp => ?_
  obtain ⟨o, c⟩ := p
  obtain ⟨rfl, hc, hs, v, r, hm, hml, hv, hp⟩ := hp
  simp only at hc hs r hm ⊢
  obtain ⟨v', e, hk, hm', hkey, hsz⟩ := C15_expansion_keys v hp (by omega) (by omega) g hg rc rs hl
  rw [hm] at hk hkey
  suffices hrest : Ref u (c.run L (.expansionKeys g rc rs :: rest)) (fun u p => ∃ k : Keys, k.Of master (bytesBits rc) (bytesBits rs)
        ∧ (∃ outs, p.1 = {} :: outs ∧ List.Forall₂ (fun op o => Opens master k op o ∧ Holds u k op o) rest outs)
        ∧ ∃ v, CR u p.2 v master k (objects false false rest).1 (objects false false rest).2 0) by
    refine Ref.bind hrest fun p u ex hp => ?_
    obtain ⟨k, h1, ⟨outs, h2, h3⟩, h4⟩ := hp
    exact Ref.pure ⟨k, h1, ⟨outs, by rw [h2], h3⟩, h4⟩
  unfold ConnG.run
  have hx : Ref u (c.step L (.expansionKeys g rc rs)) (fun u p => p.1 = {} ∧ p.2.aeadC = none ∧ p.2.aeadS = none ∧ HSR u p.2.hs v') := by
    refine Ref.bind (ref_expansionKeys hL r g rc rs e) fun x u ex hx => ?_
    exact Ref.pure ⟨rfl, hc, hs, hx⟩
  refine Ref.bind hx fun p u ex hp => ?_
  obtain ⟨o, c⟩ := p
  obtain ⟨rfl, hc, hs, r⟩ := hp
  simp only at hc hs r ⊢
  obtain ⟨ck, a1, a2, a3⟩ := key_of_bits v'.clientWriteKey 16 hk.2.1
  obtain ⟨sk, b1, b2, b3⟩ := key_of_bits v'.serverWriteKey 16 hk.2.2.1
  obtain ⟨civ, c1, c2, c3⟩ := key_of_bits v'.clientWriteIv 4 hk.2.2.2.1
  obtain ⟨siv, d1, d2, d3⟩ := key_of_bits v'.serverWriteIv 4 hk.2.2.2.2
  rw [a3, b3, c3, d3] at hk
  have hR : CR u c v' master ⟨ck, sk, civ, siv⟩ false false rest.length :=
    ⟨r, hkey, by omega, ⟨a1, a2⟩, ⟨b1, b2⟩, ⟨c1, c2⟩, ⟨d1, d2⟩, (fun h => by cases h), (fun h => by cases h)⟩
  refine Ref.bind (ref_rest hL master _ rest hR ha) fun p u ex hp => ?_
  exact Ref.pure ⟨⟨ck, sk, civ, siv⟩, hk, ⟨_, rfl, hp.1⟩, hp.2⟩

/-! ### The garbled evaluation shows the plain values -/

omit hL in
theorem opened_append (a b : List Op) : ∀ w, opened w (a ++ b) = opened w a ++ opened (a.foldl next w) b := by
  induction a with
  | nil => intro w; rfl
  | cons op a ih =>
    intro w
    cases op with
    | reveal p ws =>
      have e : next w (.reveal p ws) = w := by simp [next, newWire]
      simp only [List.cons_append, opened, List.foldl_cons, e, ih]
    | _ => simp only [List.cons_append, opened, List.foldl_cons, ih]

omit hL in
theorem program_cons (l r : List Ev) (p : Party) (ws : SInt) (n m : Nat) :
    ∃ b, Sess.program ⟨l ++ .reveal p ws :: r, n⟩ = (Sess.program ⟨r, m⟩ ++ [.reveal p (ws.map wireNo)]) ++ b := by
  refine ⟨l.reverse.flatMap evOps, ?_⟩
  simp only [Sess.program, List.reverse_append, List.reverse_cons, List.flatMap_append, List.append_assoc, List.flatMap_cons,
    evOps, List.cons_append, List.nil_append]

omit hL in
theorem step_out (E : GC.Env) (n : GC.OnNet) (op : Op) (o : Option (Party × List Bool × List Bool)) (m : GC.OnNet)
    (h : n.step E op = .ok (o, m)) : o.toList.length = match op with | .reveal _ _ => 1 | _ => 0 := by
  cases op <;> simp only [GC.OnNet.step, bind, Except.bind] at h
  case pub b => cases h; rfl
  case inB b => cases h; rfl
  case xor i j => cases h; rfl
  case not i => cases h; rfl
  case inA b => split at h <;> cases h; rfl
  case and i j =>
    split at h
    · cases h
    · split at h
      · cases h
      · split at h <;> cases h; rfl
  case reveal p ws =>
    split at h
    · cases h
    · split at h
      · cases h
      · split at h <;> cases h; rfl

omit hL in
theorem run_length (E : GC.Env) : ∀ (ops : List Op) (n : GC.OnNet) os n', n.run E ops = .ok (os, n') → ∀ w, os.length = (opened w ops).length := by
  intro ops
  induction ops with
  | nil => intro n os n' h w; cases h; rfl
  | cons op ops ih =>
    intro n os n' h w
    simp only [GC.OnNet.run, bind, Except.bind] at h
    cases h1 : n.step E op with
    | error x => rw [h1] at h; cases h
    | ok x =>
      rw [h1] at h
      obtain ⟨o, m⟩ := x
      simp only at h
      cases h2 : m.run E ops with
      | error x => rw [h2] at h; cases h
      | ok y =>
        rw [h2] at h
        obtain ⟨os', m'⟩ := y
        cases h
        have ho : o.toList.length = match op with | .reveal _ _ => 1 | _ => 0 := step_out E n op o m h1
        rw [List.length_append, ho]
        cases op with
        | reveal p ws => simp only [opened, List.length_cons]; rw [ih _ _ _ h2 w]; omega
        | _ => simp only [opened]; rw [ih _ _ _ h2]; exact Nat.zero_add _

omit hL in
theorem forall2_append_left {α β : Type} {R : α → β → Prop} {a b : List α} {c d : List β} (hl : a.length = c.length)
    (h : List.Forall₂ R (a ++ b) (c ++ d)) : List.Forall₂ R a c := by
  have := List.forall₂_take c.length h
  rwa [List.take_left, ← hl, List.take_left] at this

omit hL in
theorem forall2_snoc {α β : Type} {R : α → β → Prop} {o : List α} {a : List β} {y : β} (h : List.Forall₂ R o (a ++ [y])) :
    ∃ o' x, o = o' ++ [x] ∧ R x y := by
  have h := List.rel_reverse h
  rw [List.reverse_append] at h
  cases ho : o.reverse with
  | nil => rw [ho] at h; cases h
  | cons x xs =>
    rw [ho] at h
    cases h with
    | cons h1 h2 =>
      refine ⟨xs.reverse, x, ?_, h1⟩
      rw [← List.reverse_reverse o, ho, List.reverse_cons]

omit hL in
theorem backend_agree (E : GC.Env) (f : GC.OffNet) (alice : Bool) (t : Sess) (os : List (Party × List Bool × List Bool)) (n' : GC.OnNet)
    (h : (GC.syncOnline f).run E t.program = .ok (os, n')) (ho : List.Forall₂ RevealOk os (opened [] t.program)) :
    Agree (backend E f alice) {} t := by
  intro l r p ws n e _ hv
  obtain ⟨b, hb⟩ := program_cons l r p ws t.n n
  have ht : t = ⟨l ++ .reveal p ws :: r, t.n⟩ := by rw [← e]
  rw [ht, hb] at h ho
  rw [on_run_append] at h
  unfold backend
  simp only [bind, Except.bind] at h
  cases h1 : (GC.syncOnline f).run E (Sess.program ⟨r, n⟩ ++ [.reveal p (ws.map wireNo)]) with
  | error x => rw [h1] at h; cases h
  | ok x =>
    rw [h1] at h
    obtain ⟨o1, n1⟩ := x
    simp only at h ⊢
    cases h2 : n1.run E b with
    | error x => rw [h2] at h; cases h
    | ok y =>
      rw [h2] at h
      obtain ⟨o2, n2⟩ := y
      cases h
      have hw : opened [] (Sess.program ⟨r, n⟩ ++ [.reveal p (ws.map wireNo)])
          = opened [] (Sess.program ⟨r, n⟩) ++ [(p, ws.map (bv ⟨r, n⟩))] := by
        rw [opened_append]
        show _ ++ [(p, (ws.map wireNo).map (get (wv ⟨r, n⟩)))] = _
        rw [List.map_map]
        congr 3
        exact List.map_congr_left fun w _ => bv_eq hv w
      have hl := run_length E _ _ _ _ h1 []
      rw [opened_append] at ho
      have ho := forall2_append_left hl ho
      rw [hw] at ho
      obtain ⟨o3, ⟨q, a, c⟩, rfl, h4⟩ := forall2_snoc ho
      rw [List.getLast?_concat]
      obtain ⟨h5, h6, h7⟩ := h4
      simp only at h5 h6 h7
      subst h5
      cases q with
      | alice => exact h6 (by decide)
      | bob => exact h7 (by decide)
      | pub =>
        cases alice with
        | true => exact h6 (by decide)
        | false => exact h7 (by decide)

omit hL in
theorem shared_eq {E : GC.Env} {n : GC.OnNet} {t : Sess} {x : SInt} {v : Integer} (hv : Valid t) (h : IR t x v)
    (hs : ∀ i, ((n.gen.get E i).getLsbD 0 ^^ (n.eva.get E i).getLsbD 0) = get (t.program.foldl next []) i) : shared E n x = v := by
  rw [← map_bv h]
  exact List.map_congr_left fun w _ => (hs _).trans (bv_eq hv w)

omit hL in
theorem shares_of_holds {E : GC.Env} {n : GC.OnNet} {t : Sess} {k : Keys} (hv : Valid t)
    (hs : ∀ i, ((n.gen.get E i).getLsbD 0 ^^ (n.eva.get E i).getLsbD 0) = get (t.program.foldl next []) i) :
    ∀ {op : Call} {o : Out}, Holds t k op o → Shares E n k op o
  | .newAead _ _, _, h => by show _ = _; rw [shared_eq hv h hs, strToInt_reverse]
  | .encrypt .., _, h => ⟨by rw [shared_eq hv h.1 hs, strToInt_reverse], by rw [shared_eq hv h.2 hs, strToInt_reverse]⟩
  | .decrypt .., _, h => ⟨by rw [shared_eq hv h.1 hs, strToInt_reverse], by rw [shared_eq hv h.2 hs, strToInt_reverse]⟩
  | .masterKey .., _, _ => trivial
  | .extendedMasterKey .., _, _ => trivial
  | .expansionKeys .., _, _ => trivial
  | .clientFinished .., _, _ => trivial
  | .serverFinished .., _, _ => trivial

/-- **C47.**  For every curve order, both modes of the PRF, every pair of shares, every client and server random, every sequence of calls
of a connection (finished messages with any label and transcript hash, records of any length in both directions, opened or not), every offline
phase with the same public lengths and any garbage in its buffers, all hash functions, permutations, label streams and `Delta`:

the offline phase succeeds and its operations can be garbled; the online phase, with every opening taken from the evaluation of the garbled
tables by either party, succeeds; and it opens the finished messages of RFC 5246 for the master secret of the sum of the shares (last byte
first), and the AES-128-GCM key stream under the keys of the key block for every record that is not kept secret.

After it the least significant bits of the labels the two parties hold are xor sharings: of the hash key for every record object, of the mask of
the tag and of the key stream for every record, kept secret or not.  This is what `protocol/aead.h` takes as its shares. -/
theorem C47_connection (hO : LibObl L) (q : Nat) (rounds : Bool) (hq : bnNumBytes q < 2 ^ 59) (master : List Bool) (start : Call)
    (h : Starts q master start) (g : Nat → List Byte) (hg : Buf g) (rc rs : List Byte) (hl : rc.length + rs.length < 2 ^ 57)
    (rest : List Call) (ha : Admissible false false rest) (hn : rest.length < 2 ^ 60)
    (ops' : List OffCall) (hm : List.Forall₂ (Matches rounds) (start :: .expansionKeys g rc rs :: rest) ops') (O' : Oracle)
    (E : GC.Env) (d : Block) :
    ∃ y t' f, ConnOff.run L { hs := { q := q, roundsOpt := rounds } } ops' O' {} = .ok (y, t')
      ∧ GC.OffNet.run E { gen := { delta := GC.setDelta d } } t'.program = .ok f
      ∧ ∃ k : Keys, k.Of master (bytesBits rc) (bytesBits rs)
      ∧ ∃ outs c t, (∀ alice, ConnG.run L { hs := { q := q, roundsOpt := rounds } } (start :: .expansionKeys g rc rs :: rest)
          (backend E f alice) {} = .ok (({} :: {} :: outs, c), t))
      ∧ List.Forall₂ (Opens master k) rest outs
      ∧ ∃ os n', (GC.syncOnline f).run E t.program = .ok (os, n') ∧ n'.toEva = [] ∧ n'.toGen = [] ∧ n'.gen.gid = f.gen.gid
      ∧ List.Forall₂ (Shares E n' k) rest outs := by
  obtain ⟨⟨o, c⟩, t, _, run, _, hv, k, hk, ⟨outs, h1, h2⟩, _⟩ :=
    ref_connection hL q rounds hq master start h g hg rc rs hl rest ha hn valid_empty
  simp only at h1
  subst h1
  obtain ⟨y, t', e', hs⟩ := C44_connection hO q rounds _ ops' hm plain O' t _ (run plain (agree_plain _ _))
  have hs' : Same t' t := ⟨hs.1.symm, hs.2.symm⟩
  obtain ⟨f, os, n', g1, g2, g3, g4, g5, g6, _⟩ := C18_offline_online E d _ _ (program_same hs')
  obtain ⟨os', n'', g2', _, g7⟩ := C18_shares E d _ _ (program_same hs') f g1
  have hnn : n'' = n' := by
    rw [g2] at g2'
    exact (congrArg Prod.snd (Except.ok.inj g2')).symm
  subst hnn
  exact ⟨y, t', f, e', g1, k, hk, outs, c, t, fun alice => run _ (backend_agree E f alice t os n'' g2 g3), h2.imp fun _ _ x => x.1,
    os, n'', g2, g4, g5, g6, h2.imp fun _ _ x => shares_of_holds hv g7 x.2⟩

/-! ### A concrete connection -/

omit hL

/-- Finished messages, an opened and a secret record. -/
def exRest : List Call :=
  [.newAead (fun _ _ => .pub true) true, .clientFinished (fun _ => List.replicate 64 7) clientFinishedLabel (List.replicate 32 1),
   .newAead (fun _ _ => .pub false) false, .serverFinished (fun _ => List.replicate 64 9) serverFinishedLabel (List.replicate 32 2),
   .encrypt (fun _ _ => .pub true) true [0, 0, 0, 0, 0, 0, 0, 1] 20 false,
   .decrypt (fun _ _ => .pub true) false [0, 0, 0, 0, 0, 0, 0, 2] 33 true]

def exOff : List OffCall :=
  [.masterKey (fun _ _ => 5), .expansionKeys (fun _ _ => 6), .newAead (fun _ _ => .pub false) true, .clientFinished (fun _ _ => 0),
   .newAead (fun _ _ => .pub false) false, .serverFinished (fun _ _ => 1), .encrypt (fun _ _ => .pub false) true 20 false,
   .decrypt (fun _ _ => .pub false) false 33 true]

def exStart : Call := .masterKey (fun _ => List.replicate 64 3) 200 100 (List.replicate 32 4) (List.replicate 32 5)

theorem exStart_ok : Starts 251 (TLS.masterSecret (SHA256.beBits 8 49) (bytesBits (List.replicate 32 4)) (bytesBits (List.replicate 32 5))) exStart := by
  refine ⟨fun _ => by simp, by decide, by decide, by simp, ?_⟩
  rw [show (200 + 100) % 251 = 49 from rfl, show 8 * bnNumBytes 251 = 8 by decide +kernel]

theorem exRest_ok : Admissible false false exRest :=
  ⟨fun _ => by simp, by decide, fun _ => by simp, by decide, rfl, rfl, rfl, rfl, trivial⟩

theorem exMatch (rounds : Bool) : List.Forall₂ (Matches rounds)
    (exStart :: .expansionKeys (fun _ => List.replicate 64 8) (List.replicate 32 4) (List.replicate 32 5) :: exRest) exOff := by
  refine .cons (fun _ => by simp) (.cons (fun _ => by simp) (.cons rfl (.cons (fun _ => ?_) (.cons rfl (.cons (fun _ => ?_)
    (.cons ⟨rfl, rfl, rfl⟩ (.cons ⟨rfl, rfl, rfl⟩ .nil)))))))
  · decide
  · decide

example (rounds : Bool) (O' : Oracle) (E : GC.Env) (d : Block) := C47_connection empLib_sound empLib_obl 251 rounds (by decide +kernel) _ exStart
  exStart_ok (fun _ => List.replicate 64 8) (fun _ => by simp) (List.replicate 32 4) (List.replicate 32 5) (by simp) exRest exRest_ok
  (by decide) exOff (exMatch rounds) O' E d

/-- The hypotheses of `C44_connection` and `C44_garbled` are met by this connection. -/
example (rounds : Bool) : ∃ x t, ConnG.run empLib { hs := { q := 251, roundsOpt := rounds } }
    (exStart :: .expansionKeys (fun _ => List.replicate 64 8) (List.replicate 32 4) (List.replicate 32 5) :: exRest) plain {} = .ok (x, t) := by
  obtain ⟨x, t, _, run, _⟩ := ref_connection empLib_sound 251 rounds (by decide +kernel) _ exStart exStart_ok
    (fun _ => List.replicate 64 8) (fun _ => by simp) (List.replicate 32 4) (List.replicate 32 5) (by simp) exRest exRest_ok (by decide) valid_empty
  exact ⟨x, t, run plain (agree_plain _ _)⟩

/-- The hypotheses of `C44_aead` are met. -/
example : ∃ x t, Offline.aeadRun empLib (fun _ _ => .pub true) (pubBytes (List.replicate 16 3)) (pubBytes (List.replicate 4 5))
    [⟨true, fun _ _ => .pub true, List.replicate 8 1, 20, false⟩] plain {} = .ok (x, t) := by
  have hk : IR {} (pubBytes (List.replicate 16 3)) (strToInt (List.replicate 16 3#8)) := IR.pub _
  have hi : IR {} (pubBytes (List.replicate 4 5)) (strToInt (List.replicate 4 5#8)) := IR.pub _
  have h : Ref {} (Offline.aeadRun empLib (fun _ _ => .pub true) (pubBytes (List.replicate 16 3)) (pubBytes (List.replicate 4 5))
      [⟨true, fun _ _ => .pub true, List.replicate 8 1, 20, false⟩]) (fun _ _ => True) := by
    refine Ref.bind (ref_aeadNew _ (by simp) hk hi) fun p u e hp => ?_
    refine Ref.bind (R := fun _ _ => True) ?_ fun p u e hp => Ref.pure trivial
    refine Ref.bind (R := fun _ _ => True) ?_ fun p u e hp => Ref.pure trivial
    exact (ref_encrypt empLib_sound hp.2 (by simp) _ _ (by simp) _ _).mono fun _ _ _ _ => trivial
  obtain ⟨x, t, _, run, _⟩ := h valid_empty
  exact ⟨x, t, run plain (agree_plain _ _)⟩

/-- The hypotheses of `C44_prf` are met in both modes. -/
theorem exPrf (key : List Byte) (hk0 : key.length = 32) : (∃ x t, Offline.runAll (Offline.prfStep empLib) {} [.init (pubBytes key),
      .optCompute (fun _ => List.replicate 64 1) [] 96 [1] [2] true true] plain {} = .ok (x, t))
    ∧ ∃ x t, Offline.runAll (Offline.prfStep empLib) {} [.init (pubBytes key),
      .optRoundsCompute [] 96 [1] [2] true true] plain {} = .ok (x, t) := by
  have hk : IR {} (pubBytes key) (Integer.ofBytes key) := IR.pub _
  obtain ⟨m1, e1, i1, l1⟩ := init_step SHA.Hmac.new ShaInv.new.pos (Integer.ofBytes key) (by simp [hk0])
  have l0 : m1.sha.ivIn.length = 0 := by rw [l1]; rfl
  constructor
  · obtain ⟨r, p', m', e2, _⟩ := optCompute_step i1 SHA.Prf.new (fun _ => List.replicate 64 1) (fun _ => by simp) [] [1] [2] 96 true true
      (by simp) (by simp) (by omega)
    have h : Ref {} (Offline.runAll (Offline.prfStep empLib) {} [.init (pubBytes key),
        .optCompute (fun _ => List.replicate 64 1) [] 96 [1] [2] true true]) (fun _ _ => True) := by
      refine Ref.bind (R := fun u p => HR false u p.2 m1) ?_ fun p u e hp => ?_
      · exact Ref.bind (ref_init empLib_sound false (HR.new _ false) hk e1) fun p u e hp => Ref.pure hp
      · refine Ref.bind (R := fun _ _ => True) ?_ fun p u e hp => Ref.pure trivial
        refine Ref.bind (ref_optCompute empLib_sound 96 _ _ _ _ _ hp .nil e2) fun p u e hp => ?_
        exact Ref.bind (R := fun _ _ => True) (Ref.pure trivial) fun p u e hp => Ref.pure trivial
    obtain ⟨x, t, _, run, _⟩ := h valid_empty
    exact ⟨x, t, run plain (agree_plain _ _)⟩
  · obtain ⟨r, p', m', e2, _⟩ := roundsCompute_step i1 SHA.Prf.new [] [1] [2] 96 true true (by simp) (by simp)
    have h : Ref {} (Offline.runAll (Offline.prfStep empLib) {} [.init (pubBytes key),
        .optRoundsCompute [] 96 [1] [2] true true]) (fun _ _ => True) := by
      refine Ref.bind (R := fun u p => HR true u p.2 m1) ?_ fun p u e hp => ?_
      · exact Ref.bind (ref_init empLib_sound true (HR.new _ true) hk e1) fun p u e hp => Ref.pure hp
      · refine Ref.bind (R := fun _ _ => True) ?_ fun p u e hp => Ref.pure trivial
        refine Ref.bind (ref_roundsCompute empLib_sound 96 _ _ _ _ hp .nil e2) fun p u e hp => ?_
        exact Ref.bind (R := fun _ _ => True) (Ref.pure trivial) fun p u e hp => Ref.pure trivial
    obtain ⟨x, t, _, run, _⟩ := h valid_empty
    exact ⟨x, t, run plain (agree_plain _ _)⟩

/-- The hypotheses of `C44_hmac` are met. -/
theorem exHmac (key : List Byte) (hk0 : key.length = 32) : ∃ x t, Offline.runAll (Offline.hmacStep empLib) {} [.init (pubBytes key),
      .optRoundsHmac (pubBytes [1, 2, 3]) true true] plain {} = .ok (x, t) := by
  have hk : IR {} (pubBytes key) (Integer.ofBytes key) := IR.pub _
  obtain ⟨m1, e1, i1, l1⟩ := init_step SHA.Hmac.new ShaInv.new.pos (Integer.ofBytes key) (by simp [hk0])
  obtain ⟨d, m', e2, _⟩ := roundsHmac_step i1 (Integer.ofBytes [1, 2, 3]) (by decide) true true (by simp)
  have h : Ref {} (Offline.runAll (Offline.hmacStep empLib) {} [.init (pubBytes key),
      .optRoundsHmac (pubBytes [1, 2, 3]) true true]) (fun _ _ => True) := by
    refine Ref.bind (R := fun u p => HR true u p.2 m1) ?_ fun p u e hp => ?_
    · exact Ref.bind (ref_init empLib_sound true (HR.new _ true) hk e1) fun p u e hp => Ref.pure hp
    · refine Ref.bind (R := fun _ _ => True) ?_ fun p u e hp => Ref.pure trivial
      refine Ref.bind (ref_roundsHmac empLib_sound hp (IR.pub _) true true e2) fun p u e hp => ?_
      exact Ref.bind (R := fun _ _ => True) (Ref.pure trivial) fun p u e hp => Ref.pure trivial
  obtain ⟨x, t, _, run, _⟩ := h valid_empty
  exact ⟨x, t, run plain (agree_plain _ _)⟩

end Verif.Props.Garbled
