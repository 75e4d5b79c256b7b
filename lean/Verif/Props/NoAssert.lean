import Verif.Model.NoAssert
import Verif.Props.AEADProof
import Verif.Props.AESProver
import Verif.Props.SHA

/-!
C86: what the assertions are needed for.

`CMakeLists.txt` leaves it open whether `NDEBUG` is defined.  The theorems compare the two builds: the build with assertions is the one of the other models; where no assertion
fires the builds agree; the rest says what a build without assertions does where one would have fired.
-/

namespace Verif.Props.NoAssert
open Verif.Model Verif.Model.Integer Verif.Model.AEAD Verif.Lemmas Verif.Props
open Verif.Model.NoAssert (Build)
open Verif.Model.AEADProof (Check Proof)
open Verif.Props.AEADProof (Holds Rec Entry Pending Hist)
open Verif.Model.SHA (Sha)

/-! ### The build with assertions -/

theorem setNonce_checked (fiv : Integer) (iv : List Byte) : Model.NoAssert.setNonce .checked fiv iv = AEAD.setNonce fiv iv := by
  by_cases h : iv.length = 8
  · simp [Model.NoAssert.setNonce, AEAD.setNonce, Model.NoAssert.check, h, bind, Except.bind, List.take_of_length_le]
  · simp [Model.NoAssert.setNonce, AEAD.setNonce, Model.NoAssert.check, h, bind, Except.bind]

theorem checkBlock_checked (res pre : Integer) (g : Block) : Model.NoAssert.checkBlock .checked res pre g = AEADProof.checkBlock res pre g := by
  by_cases h : pre.length = 128
  · by_cases h' : res.length = 128
    · simp [Model.NoAssert.checkBlock, AEADProof.checkBlock, Model.NoAssert.check, h, h', bind, Except.bind, List.take_of_length_le]
    · simp [Model.NoAssert.checkBlock, AEADProof.checkBlock, Model.NoAssert.check, h, h', bind, Except.bind]
  · simp [Model.NoAssert.checkBlock, AEADProof.checkBlock, Model.NoAssert.check, h, bind, Except.bind]

theorem checkBytes_checked (res pre : Integer) (g : List Byte) (n : Nat) :
    Model.NoAssert.checkBytes .checked res pre g n = AEADProof.checkBytes res pre g n := by
  by_cases h : pre.length = n * 8
  · by_cases h' : res.length = n * 8
    · simp [Model.NoAssert.checkBytes, AEADProof.checkBytes, Model.NoAssert.check, h, h', bind, Except.bind, List.take_of_length_le]
    · simp [Model.NoAssert.checkBytes, AEADProof.checkBytes, Model.NoAssert.check, h, h', bind, Except.bind]
  · simp [Model.NoAssert.checkBytes, AEADProof.checkBytes, Model.NoAssert.check, h, bind, Except.bind]

theorem popZ0_checked (st : State) (z : Integer) : Model.NoAssert.popZ0 .checked st z = AEADProof.popZ0 st z := by
  cases h1 : st.gcZ0A <;> cases h2 : st.gcZ0B <;> cases h3 : st.zkZ0 <;>
    simp [Model.NoAssert.popZ0, AEADProof.popZ0, h1, h2, h3, checkBlock_checked, Model.NoAssert.check, bind, Except.bind]

theorem popOpen_checked (st : State) (z : Integer) : Model.NoAssert.popOpen .checked st z = AEADProof.popOpen st z := by
  cases h1 : st.openZ <;> cases h2 : st.openLen <;>
    simp [Model.NoAssert.popOpen, AEADProof.popOpen, h1, h2, Model.NoAssert.check, bind, Except.bind]

theorem popZ_checked (st : State) (z : Integer) : Model.NoAssert.popZ .checked st z = AEADProof.popZ st z := by
  cases h1 : st.gcZA <;> cases h2 : st.gcZB <;> cases h3 : st.zkZ <;> cases h4 : st.zLen <;>
    simp [Model.NoAssert.popZ, AEADProof.popZ, h1, h2, h3, h4, checkBytes_checked, Model.NoAssert.check, bind, Except.bind]

theorem stream_checked (st : State) (iv : List Byte) (n : Nat) (m : Nat → Bool) :
    Model.NoAssert.stream .checked st iv n m = AEAD.stream st iv n m := by
  unfold Model.NoAssert.stream AEAD.stream
  rw [setNonce_checked]

theorem proofStream_checked (P : Proof) (iv : List Byte) (n : Nat) :
    Model.NoAssert.proofStream .checked P iv n = AEADProof.stream P iv n := by
  unfold Model.NoAssert.proofStream AEADProof.stream
  rw [setNonce_checked]

/-- C86: the build with assertions is the code of the other models, encryption. -/
theorem C86_checked_encrypt : Model.NoAssert.encrypt .checked = AEAD.encrypt := by
  funext s st msgA msgB aad iv secret m raw0 raw1
  simp only [Model.NoAssert.encrypt, AEAD.encrypt, stream_checked]

/-- C86: the build with assertions, decryption. -/
theorem C86_checked_decrypt : Model.NoAssert.decrypt .checked = AEAD.decrypt := by
  funext hash s st cA cB tA tB aad iv secret m raw0 raw1 rA rB
  simp only [Model.NoAssert.decrypt, AEAD.decrypt, stream_checked]

theorem prove_checked (P : Proof) (st : State) (ctxt iv : List Byte) (secret : Bool) :
    Model.NoAssert.prove .checked P st ctxt iv secret = AEADProof.prove P st ctxt iv secret := by
  unfold Model.NoAssert.prove AEADProof.prove
  rw [proofStream_checked]
  congr 1
  funext p
  simp only [popZ0_checked, popOpen_checked, popZ_checked]

/-- C86: the build with assertions, the proofs of records. -/
theorem C86_checked_prove : Model.NoAssert.prove .checked = AEADProof.prove ∧ Model.NoAssert.proveLast .checked = AEADProof.proveLast
    ∧ Model.NoAssert.construct .checked = AEADProof.construct ∧ Model.NoAssert.proveAll .checked = AEADProof.proveAll := by
  refine ⟨?_, ?_, ?_, ?_⟩
  · funext P st ctxt iv secret
    exact prove_checked P st ctxt iv secret
  · funext P ctxt iv
    unfold Model.NoAssert.proveLast AEADProof.proveLast
    rw [proofStream_checked]
  · funext E fiv st
    unfold Model.NoAssert.construct AEADProof.construct
    simp only [checkBlock_checked]
  · funext P st rs
    induction rs generalizing st with
    | nil => rfl
    | cons r rs ih =>
      obtain ⟨ctxt, iv, secret⟩ := r
      simp only [Model.NoAssert.proveAll, AEADProof.proveAll, prove_checked, ih]

/-! ### No assertion fires: the builds agree -/

/-- A result of the build with assertions is the result of the other build. -/
def Agree {α : Type} (f : Build → Res α) : Prop := ∀ r, f .checked = .ok r → f .ndebug = .ok r

theorem Agree.pure {α : Type} (x : Res α) : Agree fun _ => x := fun _ h => h

theorem Agree.bind {α β : Type} {f : Build → Res α} {g : Build → α → Res β} (hf : Agree f) (hg : ∀ a, Agree fun b => g b a) :
    Agree fun b => f b >>= g b := by
  intro r h
  cases e : f .checked with
  | error w => simp only [e, Bind.bind, Except.bind] at h; cases h
  | ok a =>
    simp only [e, Bind.bind, Except.bind] at h
    simp only [hf a e, Bind.bind, Except.bind]
    exact hg a r h

theorem Agree.check (p : Prop) [Decidable p] (w : String) : Agree fun b => Model.NoAssert.check b p w := fun _ _ => rfl

theorem Agree.setNonce (fiv : Integer) (iv : List Byte) : Agree fun b => Model.NoAssert.setNonce b fiv iv :=
  (Agree.check _ _).bind fun _ => Agree.pure _

theorem Agree.stream (st : State) (iv : List Byte) (n : Nat) (m : Nat → Bool) : Agree fun b => Model.NoAssert.stream b st iv n m :=
  (Agree.setNonce _ _).bind fun _ => Agree.pure _

theorem Agree.proofStream (P : Proof) (iv : List Byte) (n : Nat) : Agree fun b => Model.NoAssert.proofStream b P iv n :=
  (Agree.setNonce _ _).bind fun _ => Agree.pure _

theorem Agree.checkBlock (res pre : Integer) (g : Block) : Agree fun b => Model.NoAssert.checkBlock b res pre g :=
  (Agree.check _ _).bind fun _ => (Agree.check _ _).bind fun _ => Agree.pure _

theorem Agree.checkBytes (res pre : Integer) (g : List Byte) (n : Nat) : Agree fun b => Model.NoAssert.checkBytes b res pre g n :=
  (Agree.check _ _).bind fun _ => (Agree.check _ _).bind fun _ => Agree.pure _

theorem Agree.popZ0 (st : State) (z : Integer) : Agree fun b => Model.NoAssert.popZ0 b st z := by
  unfold Model.NoAssert.popZ0
  split
  · exact (Agree.checkBlock _ _ _).bind fun _ => Agree.pure _
  · exact (Agree.check _ _).bind fun _ => Agree.pure _

theorem Agree.popOpen (st : State) (z : Integer) : Agree fun b => Model.NoAssert.popOpen b st z := by
  unfold Model.NoAssert.popOpen
  split
  · exact Agree.pure _
  · exact (Agree.check _ _).bind fun _ => Agree.pure _

theorem Agree.popZ (st : State) (z : Integer) : Agree fun b => Model.NoAssert.popZ b st z := by
  unfold Model.NoAssert.popZ
  split
  · split
    · exact (Agree.checkBytes _ _ _ _).bind fun _ => Agree.pure _
    · exact Agree.pure _
  · exact (Agree.check _ _).bind fun _ => Agree.pure _

theorem Agree.prove (P : Proof) (st : State) (ctxt iv : List Byte) (secret : Bool) :
    Agree fun b => Model.NoAssert.prove b P st ctxt iv secret := by
  refine (Agree.proofStream _ _ _).bind fun _ => (Agree.popZ0 _ _).bind fun _ => ?_
  cases secret with
  | true => exact (Agree.popZ _ _).bind fun _ => Agree.pure _
  | false => exact (Agree.popOpen _ _).bind fun _ => Agree.pure _

theorem Agree.proveAll (P : Proof) (st : State) (rs : List (List Byte × List Byte × Bool)) : Agree fun b => Model.NoAssert.proveAll b P st rs := by
  induction rs generalizing st with
  | nil => exact Agree.pure _
  | cons r rs ih => exact (Agree.prove _ _ _ _ _).bind fun a => (ih a.1).bind fun _ => Agree.pure _

/-- C86: whatever the online phase returns with the assertions it returns without them. -/
theorem C86_same_record (s : Bool) (st : State) (hash : List Byte → List Byte) (x y tA tB aad iv : List Byte) (secret : Bool) (m : Nat → Bool) (raw0 raw1 : Nat → Block)
    (rA rB : List Byte) :
    (∀ r, AEAD.encrypt s st x y aad iv secret m raw0 raw1 = .ok r → Model.NoAssert.encrypt .ndebug s st x y aad iv secret m raw0 raw1 = .ok r)
      ∧ (∀ r, AEAD.decrypt hash s st x y tA tB aad iv secret m raw0 raw1 rA rB = .ok r
          → Model.NoAssert.decrypt .ndebug hash s st x y tA tB aad iv secret m raw0 raw1 rA rB = .ok r) := by
  rw [← C86_checked_encrypt, ← C86_checked_decrypt]
  have h1 : Agree fun b => Model.NoAssert.encrypt b s st x y aad iv secret m raw0 raw1 := (Agree.stream _ _ _ _).bind fun _ => Agree.pure _
  have h2 : Agree fun b => Model.NoAssert.decrypt b hash s st x y tA tB aad iv secret m raw0 raw1 rA rB := (Agree.stream _ _ _ _).bind fun _ => Agree.pure _
  exact ⟨h1, h2⟩

/-- C86: whatever the proof phase returns with the assertions it returns without them. -/
theorem C86_same_proof (E : Block → Block) (fiv : Integer) (P : Proof) (st : State) (ctxt iv : List Byte) (rs : List (List Byte × List Byte × Bool)) :
    (∀ r, AEADProof.construct E fiv st = .ok r → Model.NoAssert.construct .ndebug E fiv st = .ok r)
      ∧ (∀ r, AEADProof.proveAll P st rs = .ok r → Model.NoAssert.proveAll .ndebug P st rs = .ok r)
      ∧ (∀ r, AEADProof.proveLast P ctxt iv = .ok r → Model.NoAssert.proveLast .ndebug P ctxt iv = .ok r) := by
  obtain ⟨-, e2, e3, e4⟩ := C86_checked_prove
  rw [← e2, ← e3, ← e4]
  have h1 : Agree fun b => Model.NoAssert.construct b E fiv st := (Agree.pure _).bind fun _ => (Agree.checkBlock _ _ _).bind fun _ => Agree.pure _
  have h3 : Agree fun b => Model.NoAssert.proveLast b P ctxt iv := (Agree.proofStream _ _ _).bind fun _ => Agree.pure _
  exact ⟨h1, Agree.proveAll _ _ _, h3⟩

/-! ### The length of the nonce -/

theorem setNonce_ndebug (fiv : Integer) (iv : List Byte) (h : 8 ≤ iv.length) :
    Model.NoAssert.setNonce .ndebug fiv iv = AEAD.setNonce fiv (iv.drop (iv.length - 8)) := by
  have e : (iv.drop (iv.length - 8)).length = 8 := by rw [List.length_drop]; omega
  have e' : iv.reverse.take 8 = (iv.drop (iv.length - 8)).reverse := by rw [List.reverse_drop]; congr 1; omega
  simp only [Model.NoAssert.setNonce, Model.NoAssert.check, bind, Except.bind]
  rw [if_neg (by omega), AEAD.setNonce, if_neg (by omega), e']

theorem stream_ndebug (st : State) (iv : List Byte) (h : 8 ≤ iv.length) (n : Nat) (m : Nat → Bool) :
    Model.NoAssert.stream .ndebug st iv n m = AEAD.stream st (iv.drop (iv.length - 8)) n m := by
  unfold Model.NoAssert.stream AEAD.stream
  rw [setNonce_ndebug _ _ h]

theorem proofStream_ndebug (P : Proof) (iv : List Byte) (h : 8 ≤ iv.length) (n : Nat) :
    Model.NoAssert.proofStream .ndebug P iv n = AEADProof.stream P (iv.drop (iv.length - 8)) n := by
  unfold Model.NoAssert.proofStream AEADProof.stream
  rw [setNonce_ndebug _ _ h]

/-- C86: without the assertion a nonce of more than eight bytes is not refused: the calls do what they do with its last eight bytes. -/
theorem C86_long_nonce (s : Bool) (st : State) (hash : List Byte → List Byte) (x y tA tB aad iv : List Byte) (hiv : 8 ≤ iv.length) (secret : Bool) (m : Nat → Bool)
    (raw0 raw1 : Nat → Block) (rA rB : List Byte) (P : Proof) :
    Model.NoAssert.encrypt .ndebug s st x y aad iv secret m raw0 raw1 = AEAD.encrypt s st x y aad (iv.drop (iv.length - 8)) secret m raw0 raw1
      ∧ Model.NoAssert.decrypt .ndebug hash s st x y tA tB aad iv secret m raw0 raw1 rA rB
          = AEAD.decrypt hash s st x y tA tB aad (iv.drop (iv.length - 8)) secret m raw0 raw1 rA rB
      ∧ Model.NoAssert.proveLast .ndebug P x iv = AEADProof.proveLast P x (iv.drop (iv.length - 8)) := by
  refine ⟨?_, ?_, ?_⟩
  · simp only [Model.NoAssert.encrypt, AEAD.encrypt, stream_ndebug _ _ hiv]
  · simp only [Model.NoAssert.decrypt, AEAD.decrypt, stream_ndebug _ _ hiv]
  · unfold Model.NoAssert.proveLast AEADProof.proveLast
    rw [proofStream_ndebug _ _ hiv]

/-- C86: so nonces that differ only before their last eight bytes give the same key stream: without the assertion two secret records sent under them tell everyone who sees
the ciphertexts the xor of the messages. -/
theorem C86_nonce_reuse {hash : List Byte → List Byte} {E : Block → Block} {fiv : List Byte} (hf : fiv.length = 4) {s : Bool} {st st' : State} (h : Reach hash E fiv s st)
    (h' : Reach hash E fiv s st') (p q iv x x' y y' aad aad' : List Byte) (hiv : iv.length = 8) (hx : x'.length = x.length) (m m' : Nat → Bool) (raw0 raw1 raw0' raw1' : Nat → Block) :
    ∃ st1 st2 c c' t t', Model.NoAssert.encrypt .ndebug s st x y aad (p ++ iv) true m raw0 raw1 = .ok (st1, ⟨c, t⟩, ⟨c, t⟩)
      ∧ Model.NoAssert.encrypt .ndebug s st' x' y' aad' (q ++ iv) true m' raw0' raw1' = .ok (st2, ⟨c', t'⟩, ⟨c', t'⟩)
      ∧ xorBytes c c' = xorBytes x x' := by
  have e : ∀ l : List Byte, (l ++ iv).drop ((l ++ iv).length - 8) = iv := by
    intro l
    rw [show (l ++ iv).length - 8 = l.length by rw [List.length_append]; omega, List.drop_left]
  obtain ⟨st1, c, t, h1, k1⟩ := C26_encrypt hf h x y aad iv hiv true (by simp) m raw0 raw1
  obtain ⟨st2, c', t', h2, k2⟩ := C26_encrypt hf h' x' y' aad' iv hiv true (by simp) m' raw0' raw1'
  refine ⟨st1, st2, c, c', t, t', ?_, ?_, ?_⟩
  · rw [(C86_long_nonce s st hash x y [] [] aad (p ++ iv) (by simp [hiv]) true m raw0 raw1 [] [] ⟨E, [], []⟩).1, e, h1]
  · rw [(C86_long_nonce s st' hash x' y' [] [] aad' (q ++ iv) (by simp [hiv]) true m' raw0' raw1' [] [] ⟨E, [], []⟩).1, e, h2]
  · simp only [Spec.GCM.encrypt, Prod.mk.injEq] at k1 k2
    rw [k1.1, k2.1, Spec.GCM.crypt, Spec.GCM.crypt, hx]
    have hxor : ∀ a b k : Byte, a ^^^ k ^^^ (b ^^^ k) = a ^^^ b := by
      intro a b k
      rw [BitVec.xor_assoc, BitVec.xor_comm b k, ← BitVec.xor_assoc k, BitVec.xor_self, BitVec.zero_xor]
    have hk := length_keyStream E (Spec.GCM.j0 (fiv ++ iv)) x.length
    generalize Spec.GCM.keyStream E (Spec.GCM.j0 (fiv ++ iv)) x.length = ks at hk ⊢
    apply List.ext_getElem
    · simp [xorBytes, hk, hx]
    · intro i g1 g2
      simp only [xorBytes, List.getElem_zipWith]
      exact hxor _ _ _

/-- C86: a nonce of less than eight bytes: an assertion with them, a read past the end of the copied bytes without. -/
theorem C86_short_nonce (s : Bool) (st : State) (hash : List Byte → List Byte) (x y tA tB aad iv : List Byte) (hiv : iv.length < 8) (secret : Bool) (m : Nat → Bool)
    (raw0 raw1 : Nat → Block) (rA rB : List Byte) (P : Proof) :
    (∃ w, Model.NoAssert.encrypt .ndebug s st x y aad iv secret m raw0 raw1 = .error (.ub w))
      ∧ (∃ w, Model.NoAssert.decrypt .ndebug hash s st x y tA tB aad iv secret m raw0 raw1 rA rB = .error (.ub w))
      ∧ (∃ w, Model.NoAssert.prove .ndebug P st x iv secret = .error (.ub w))
      ∧ (∃ w, Model.NoAssert.proveLast .ndebug P x iv = .error (.ub w))
      ∧ (∃ w, AEAD.encrypt s st x y aad iv secret m raw0 raw1 = .error (.error w)) := by
  have e : ∀ fiv, ∃ w, Model.NoAssert.setNonce .ndebug fiv iv = .error (.ub w) := fun fiv => ⟨_, by
    simp only [Model.NoAssert.setNonce, Model.NoAssert.check, bind, Except.bind]; rw [if_pos hiv]⟩
  obtain ⟨w1, e1⟩ := e st.fixedIv
  obtain ⟨w2, e2⟩ := e P.fixedIv
  refine ⟨⟨w1, ?_⟩, ⟨w1, ?_⟩, ⟨w2, ?_⟩, ⟨w2, ?_⟩, C26_iv_refused s st x y aad iv (by omega) secret m raw0 raw1⟩
  · simp only [Model.NoAssert.encrypt, Model.NoAssert.stream, e1, bind, Except.bind]
  · simp only [Model.NoAssert.decrypt, Model.NoAssert.stream, e1, bind, Except.bind]
  · simp only [Model.NoAssert.prove, Model.NoAssert.proofStream, e2, bind, Except.bind]
  · simp only [Model.NoAssert.proveLast, Model.NoAssert.proofStream, e2, bind, Except.bind]

/-! ### Queues and lengths -/

theorem stream_ok (E : Block → Block) (fiv iv : List Byte) (hf : fiv.length = 4) (hiv : iv.length = 8) (H : Integer) (n : Nat) :
    Model.NoAssert.proofStream .ndebug ⟨E, strToInt fiv, H⟩ iv n = .ok (strToInt (Spec.GCM.keyStream E (Spec.GCM.j0 (fiv ++ iv)) n),
      strToInt (Spec.GCM.bytesOf (E (Spec.GCM.j0 (fiv ++ iv))))) := by
  rw [proofStream_ndebug _ _ (by omega), hiv, Nat.sub_self, List.drop_zero]
  exact Verif.Props.AEADProof.stream_proof E fiv iv hf hiv H n

theorem checkBlock_ok (x : Block) (z g : Block) : Model.NoAssert.checkBlock .ndebug (strToInt (Spec.GCM.bytesOf x)) (ofBytes (blockBytes z)) g
    = .ok (.block (strToInt (Spec.GCM.bytesOf x)) (ofBytes (blockBytes z)) g) := by
  simp only [Model.NoAssert.checkBlock, Model.NoAssert.check, bind, Except.bind]
  rw [if_neg (by simp), if_neg (by simp), List.take_of_length_le (by simp)]

/-- C86: a proof for which there is no record left (or none in its mode): an assertion with them (`C40_no_record`), the front of an empty queue without. -/
theorem C86_no_record {E : Block → Block} {fiv : List Byte} {st : State} {recs : List Rec} (hp : Pending E fiv recs st)
    (E' : Block → Block) (fiv' : List Byte) (hf' : fiv'.length = 4) (H : Integer) (ctxt iv' : List Byte) (hiv : iv'.length = 8)
    (secret : Bool) (hno : ∀ r ∈ recs, r.secret ≠ secret) :
    (∃ w, AEADProof.prove ⟨E', strToInt fiv', H⟩ st ctxt iv' secret = .error (.error w))
      ∧ ∃ w, Model.NoAssert.prove .ndebug ⟨E', strToInt fiv', H⟩ st ctxt iv' secret = .error (.ub w) := by
  refine ⟨Verif.Props.AEADProof.C40_no_record hp E' fiv' hf' H ctxt iv' hiv secret hno, ?_⟩
  obtain ⟨hE, es, h0, hl, q1, q2, q3, q4, q5, q6, q7, q8, q9⟩ := hp
  have s1 := stream_ok E' fiv' iv' hf' hiv H ctxt.length
  have hno' : ∀ e ∈ es, e.r.secret ≠ secret := fun e he => hno e.r (by rw [← h0]; exact List.mem_map_of_mem he)
  cases es with
  | nil =>
    simp only [List.map_nil] at q1
    exact ⟨_, by simp only [Model.NoAssert.prove, s1, bind, Except.bind, Model.NoAssert.popZ0, q1, Model.NoAssert.check]; rfl⟩
  | cons e es =>
    simp only [List.map_cons] at q1 q2 q3
    have c1 := checkBlock_ok (E' (Spec.GCM.j0 (fiv' ++ iv'))) e.z0 (e.z0 ^^^ E (e.r.j fiv))
    cases secret with
    | true =>
      have : (e :: es).filter (·.r.secret) = [] := List.filter_eq_nil_iff.mpr fun x hx => by simpa using hno' x hx
      rw [this, List.map_nil] at q4
      exact ⟨_, by simp only [Model.NoAssert.prove, s1, bind, Except.bind, Model.NoAssert.popZ0, q1, q2, q3, c1, Model.NoAssert.popZ, q4, Model.NoAssert.check, Bool.true_eq_false, if_false]; rfl⟩
    | false =>
      have : (e :: es).filter (!·.r.secret) = [] := List.filter_eq_nil_iff.mpr fun x hx => by simpa using hno' x hx
      rw [this, List.map_nil] at q8
      exact ⟨_, by simp only [Model.NoAssert.prove, s1, bind, Except.bind, Model.NoAssert.popZ0, q1, q2, q3, c1, Model.NoAssert.popOpen, q8, Model.NoAssert.check, if_true]; rfl⟩

theorem ofBytes_take (l : List Byte) (k : Nat) : (ofBytes l).take (8 * k) = ofBytes (l.take k) := by
  by_cases h : k ≤ l.length
  · conv_lhs => rw [← List.take_append_drop k l]
    rw [show ofBytes (l.take k ++ l.drop k) = ofBytes (l.take k) ++ ofBytes (l.drop k) by unfold ofBytes; rw [List.flatMap_append], List.take_append_of_le_length (by simp [h]),
      List.take_of_length_le (by simp)]
  · rw [List.take_of_length_le (by simp; omega), List.take_of_length_le (by omega)]

/-- C86: a secret record of `r.n` bytes is proved with a ciphertext of another length.  With assertions the call stops.  Without them a longer ciphertext reads past the commitment; a
shorter one is accepted exactly if `E(J)` is that of the record and its key stream is the *end* of the key stream of the record, and the record is used up. -/
theorem C86_other_length (E E' : Block → Block) (fiv fiv' : List Byte) (hf' : fiv'.length = 4) (H : Integer) (r : Rec) (recs : List Rec) (hs : r.secret = true)
    (st : State) (hp : Pending E fiv (r :: recs) st) (ctxt iv' : List Byte) (hiv : iv'.length = 8) :
    (ctxt.length ≠ r.n → ∃ w, AEADProof.prove ⟨E', strToInt fiv', H⟩ st ctxt iv' true = .error (.error w))
      ∧ (r.n < ctxt.length → ∃ w, Model.NoAssert.prove .ndebug ⟨E', strToInt fiv', H⟩ st ctxt iv' true = .error (.ub w))
      ∧ (ctxt.length ≤ r.n → ∃ st' cs z0, Model.NoAssert.prove .ndebug ⟨E', strToInt fiv', H⟩ st ctxt iv' true
            = .ok (st', cs, some (strToInt (Spec.GCM.crypt E' (Spec.GCM.j0 (fiv' ++ iv')) ctxt)), z0)
          ∧ Pending E fiv recs st'
          ∧ ((∀ c ∈ cs, Holds c) ↔ E' (Spec.GCM.j0 (fiv' ++ iv')) = E (Spec.GCM.j0 (fiv ++ r.iv))
              ∧ Spec.GCM.keyStream E' (Spec.GCM.j0 (fiv' ++ iv')) ctxt.length
                  = (Spec.GCM.keyStream E (Spec.GCM.j0 (fiv ++ r.iv)) r.n).drop (r.n - ctxt.length))) := by
  obtain ⟨hE, es, h0, hl, q1, q2, q3, q4, q5, q6, q7, q8, q9⟩ := hp
  match es, h0 with
  | e :: es, h0 =>
    simp only [List.map_cons, List.cons.injEq] at h0
    obtain ⟨rfl, rfl⟩ := h0
    simp only [List.map_cons] at q1 q2 q3
    have hz := hl e (by simp)
    have s0 := Verif.Props.AEADProof.stream_proof E' fiv' iv' hf' hiv H ctxt.length
    have s1 := stream_ok E' fiv' iv' hf' hiv H ctxt.length
    have hpl : AEADProof.plain (strToInt (Spec.GCM.keyStream E' (Spec.GCM.j0 (fiv' ++ iv')) ctxt.length)) ctxt
        = strToInt (Spec.GCM.crypt E' (Spec.GCM.j0 (fiv' ++ iv')) ctxt) := by
      unfold AEADProof.plain Spec.GCM.crypt
      change Integer.xor _ (strToInt ctxt) = strToInt (xorBytes ctxt _)
      rw [strToInt_xor _ _ (by rw [length_keyStream])]
      unfold Integer.xor
      rw [List.zipWith_comm]
      simp only [Bool.xor_comm]
    have hks : (Spec.GCM.keyStream E (e.r.j fiv) e.r.n).length = e.r.n := length_keyStream _ _ _
    have hks' : (Spec.GCM.keyStream E' (Spec.GCM.j0 (fiv' ++ iv')) ctxt.length).length = ctxt.length := length_keyStream _ _ _
    generalize hj' : Spec.GCM.j0 (fiv' ++ iv') = j' at *
    generalize hk' : Spec.GCM.keyStream E' j' ctxt.length = ks' at *
    change _ ∧ _ ∧ (_ → ∃ st' cs z0, _ ∧ _ ∧ (_ ↔ E' j' = E (e.r.j fiv) ∧ ks' = (Spec.GCM.keyStream E (e.r.j fiv) e.r.n).drop (e.r.n - ctxt.length)))
    generalize hk : Spec.GCM.keyStream E (e.r.j fiv) e.r.n = ks at *
    have c1 := checkBlock_ok (E' j') e.z0 (e.z0 ^^^ E (e.r.j fiv))
    have c0 : AEADProof.checkBlock (strToInt (Spec.GCM.bytesOf (E' j'))) (ofBytes (blockBytes e.z0)) (e.z0 ^^^ E (e.r.j fiv))
        = .ok (.block (strToInt (Spec.GCM.bytesOf (E' j'))) (ofBytes (blockBytes e.z0)) (e.z0 ^^^ E (e.r.j fiv))) := by
      rw [AEADProof.checkBlock, if_neg (by simp), if_neg (by simp)]
    have b1 := Verif.Props.AEADProof.block_holds e.z0 (e.z0 ^^^ E (e.r.j fiv)) (E' j') (E (e.r.j fiv)) rfl
    simp only [List.filter_cons, hs, if_true, Bool.not_true, Bool.false_eq_true, if_false, List.map_cons] at q4 q5 q6 q7 q8 q9
    rw [hk] at q5
    refine ⟨fun hne => ?_, fun hgt => ?_, fun hle => ?_⟩
    · have c2 : AEADProof.checkBytes (strToInt ks') (ofBytes e.z.reverse) (xorBytes e.z ks).reverse e.r.n = .error (.error "assert(res.size() == (len * 8))") := by
        rw [AEADProof.checkBytes, if_neg (by simp [hz]; omega), if_pos (by simp [hks']; omega)]
      exact ⟨_, by simp only [AEADProof.prove, s0, bind, Except.bind, AEADProof.popZ0, q1, q2, q3, c0, AEADProof.popZ, q4, q5, q6, q7, c2, Bool.true_eq_false, if_false]; rfl⟩
    · have c2 : Model.NoAssert.checkBytes .ndebug (strToInt ks') (ofBytes e.z.reverse) (xorBytes e.z ks).reverse e.r.n
          = .error (.ub "res ^ pre_res: pre_res is shorter") := by
        simp only [Model.NoAssert.checkBytes, Model.NoAssert.check, bind, Except.bind]
        rw [if_neg (by simp [hz]; omega), if_pos (by simp [hks', hz]; omega)]
      exact ⟨_, by simp only [Model.NoAssert.prove, s1, bind, Except.bind, Model.NoAssert.popZ0, q1, q2, q3, c1, Model.NoAssert.popZ, q4, q5, q6, q7, c2, Bool.true_eq_false, if_false]; rfl⟩
    · have c2 : Model.NoAssert.checkBytes .ndebug (strToInt ks') (ofBytes e.z.reverse) (xorBytes e.z ks).reverse e.r.n
          = .ok (.bytes (strToInt ks') (ofBytes (e.z.drop (e.r.n - ctxt.length)).reverse)
              (xorBytes (e.z.drop (e.r.n - ctxt.length)) (ks.drop (e.r.n - ctxt.length))).reverse) := by
        simp only [Model.NoAssert.checkBytes, Model.NoAssert.check, bind, Except.bind]
        rw [if_neg (by simp [hz]; omega), if_neg (by simp [hks', hz]; omega), length_strToInt, hks', ofBytes_take, List.reverse_drop, hz,
          show e.r.n - (e.r.n - ctxt.length) = ctxt.length by omega, Nat.mul_div_cancel_left _ (by omega), Nat.sub_eq_zero_of_le hle]
        have : xorBytes (e.z.drop (e.r.n - ctxt.length)) (ks.drop (e.r.n - ctxt.length)) = (xorBytes e.z ks).drop (e.r.n - ctxt.length) := by
          unfold xorBytes; rw [List.drop_zipWith]
        have hx : (xorBytes e.z ks).length = e.r.n := by simp [xorBytes, hz, hks]
        rw [this, List.reverse_drop, hx, show e.r.n - (e.r.n - ctxt.length) = ctxt.length by omega, List.replicate_zero, List.append_nil,
          List.take_of_length_le (l := (xorBytes e.z ks).reverse) (by simp [hx])]
      have b2 := Verif.Props.AEADProof.bytes_holds (e.z.drop (e.r.n - ctxt.length)) (ks.drop (e.r.n - ctxt.length)) ks' (by simp [hks, hz])
      refine ⟨?_, ?_, ?_, ?_, ?_, ?_⟩
      rotate_left 3
      · simp only [Model.NoAssert.prove, s1, bind, Except.bind, Model.NoAssert.popZ0, q1, q2, q3, c1, Model.NoAssert.popZ, q4, q5, q6, q7, c2, hpl,
          Bool.true_eq_false, if_false]
        rfl
      · exact ⟨hE, es, rfl, fun x hx => hl x (by simp [hx]), rfl, rfl, rfl, rfl, rfl, rfl, rfl, q8, q9⟩
      · simp only [List.mem_cons, List.not_mem_nil, or_false, forall_eq_or_imp, forall_eq, b1, b2]

/-- C86: in particular, without assertions the parties can prove an empty ciphertext in place of a secret record of any length, under its own key and nonce: all checks hold and the record is used
up, although the key stream recorded for it was compared with nothing. -/
theorem C86_empty_ciphertext (E : Block → Block) (fiv : List Byte) (hf : fiv.length = 4) (H : Integer) (r : Rec) (recs : List Rec) (hs : r.secret = true)
    (hi : r.iv.length = 8) (st : State) (hp : Pending E fiv (r :: recs) st) :
    ∃ st' cs z0, Model.NoAssert.prove .ndebug ⟨E, strToInt fiv, H⟩ st [] r.iv true = .ok (st', cs, some [], z0)
      ∧ (∀ c ∈ cs, Holds c) ∧ Pending E fiv recs st' := by
  obtain ⟨st', cs, z0, h1, h2, h3⟩ := (C86_other_length E E fiv fiv hf H r recs hs st hp [] r.iv hi).2.2 (Nat.zero_le _)
  refine ⟨st', cs, z0, h1, h3.mpr ⟨rfl, ?_⟩, h2⟩
  have a : (Spec.GCM.keyStream E (Spec.GCM.j0 (fiv ++ r.iv)) ([] : List Byte).length).length = 0 := length_keyStream _ _ _
  have b : ((Spec.GCM.keyStream E (Spec.GCM.j0 (fiv ++ r.iv)) r.n).drop (r.n - ([] : List Byte).length)).length = 0 := by
    rw [List.length_drop, length_keyStream]; simp
  rw [List.eq_nil_of_length_eq_zero a, List.eq_nil_of_length_eq_zero b]

/-- A reachable state with a secret record of three bytes for `C86_other_length` and `C86_empty_ciphertext`. -/
example : ∃ st, Hist id (fun b => b * b + 3#128) [1, 2, 3, 4] true st [⟨[0, 0, 0, 0, 0, 0, 0, 1], 3, true⟩]
    ∧ Pending (fun b => b * b + 3#128) [1, 2, 3, 4] [⟨[0, 0, 0, 0, 0, 0, 0, 1], 3, true⟩] st := by
  obtain ⟨st0, h0, -⟩ := construct_eq (fun b => b * b + 3#128) (strToInt [1, 2, 3, 4]) true (fun i => i % 3 == 0) 5#128
    (fun i => BitVec.ofNat 128 (i * 7)) (fun i => BitVec.ofNat 128 (i * i))
  have r0 : Hist id (fun b => b * b + 3#128) [1, 2, 3, 4] true st0 [] := .construct (by decide +kernel) h0
  obtain ⟨g0, p0⟩ := Verif.Props.AEADProof.C40_invariant rfl r0
  obtain ⟨st1, a, b, h1, g1, p1⟩ := Verif.Props.AEADProof.C40_encrypt _ [1, 2, 3, 4] rfl true st0 [] g0 p0 [7, 8, 9] [] [] [0, 0, 0, 0, 0, 0, 0, 1] rfl true
    (fun i => i % 5 == 0) (fun i => BitVec.ofNat 128 (i * 7)) (fun i => BitVec.ofNat 128 (i * i)) (by simp)
  exact ⟨st1, Hist.encrypt r0 (by simp) h1, p1⟩

/-- C86: the length of a public record is tested by `check_zero` itself: both builds stop. -/
theorem C86_public_length (E E' : Block → Block) (fiv fiv' : List Byte) (hf' : fiv'.length = 4) (H : Integer) (r : Rec) (recs : List Rec) (hs : r.secret = false)
    (st : State) (hp : Pending E fiv (r :: recs) st) (ctxt iv' : List Byte) (hiv : iv'.length = 8) (hn : ctxt.length ≠ r.n) (b : Build) :
    ∃ w, Model.NoAssert.prove b ⟨E', strToInt fiv', H⟩ st ctxt iv' false = .error (.error w) := by
  obtain ⟨hE, es, h0, hl, q1, q2, q3, q4, q5, q6, q7, q8, q9⟩ := hp
  match es, h0 with
  | e :: es, h0 =>
    simp only [List.map_cons, List.cons.injEq] at h0
    obtain ⟨rfl, rfl⟩ := h0
    simp only [List.map_cons] at q1 q2 q3
    simp only [List.filter_cons, hs, Bool.not_false, if_true, List.map_cons] at q8 q9
    have s0 := Verif.Props.AEADProof.stream_proof E' fiv' iv' hf' hiv H ctxt.length
    have s1 := stream_ok E' fiv' iv' hf' hiv H ctxt.length
    have c1 := checkBlock_ok (E' (Spec.GCM.j0 (fiv' ++ iv'))) e.z0 (e.z0 ^^^ E (e.r.j fiv))
    have c0 : AEADProof.checkBlock (strToInt (Spec.GCM.bytesOf (E' (Spec.GCM.j0 (fiv' ++ iv'))))) (ofBytes (blockBytes e.z0)) (e.z0 ^^^ E (e.r.j fiv))
        = .ok (.block (strToInt (Spec.GCM.bytesOf (E' (Spec.GCM.j0 (fiv' ++ iv'))))) (ofBytes (blockBytes e.z0)) (e.z0 ^^^ E (e.r.j fiv))) := by
      rw [AEADProof.checkBlock, if_neg (by simp), if_neg (by simp)]
    have c2 : AEADProof.checkData (strToInt (Spec.GCM.keyStream E' (Spec.GCM.j0 (fiv' ++ iv')) ctxt.length)) (Spec.GCM.keyStream E (e.r.j fiv) e.r.n).reverse e.r.n
        = .error (.error "inconsistent length!") := by
      rw [AEADProof.checkData, if_pos (by simp; omega)]
    cases b with
    | checked =>
      rw [C86_checked_prove.1]
      exact ⟨_, by simp only [AEADProof.prove, s0, bind, Except.bind, AEADProof.popZ0, q1, q2, q3, c0, AEADProof.popOpen, q8, q9, c2, if_true]; rfl⟩
    | ndebug =>
      exact ⟨_, by simp only [Model.NoAssert.prove, s1, bind, Except.bind, Model.NoAssert.popZ0, q1, q2, q3, c1, Model.NoAssert.popOpen, q8, q9, c2, if_true]; rfl⟩

/-! ### The prover of the proxy protocol -/

theorem computeCounter_ok (b : Build) (E : Block → Block) (fiv iv : List Byte) (hf : fiv.length = 4) (hiv : iv.length = 8) (n : Nat) :
    Model.NoAssert.computeCounter b E (strToInt fiv) iv n = .ok (strToInt (Spec.GCM.keyStream E (Spec.GCM.j0 (fiv ++ iv)) n)) := by
  have : Model.NoAssert.setNonce b (strToInt fiv) iv = AEAD.setNonce (strToInt fiv) iv := by
    cases b with
    | checked => exact setNonce_checked _ _
    | ndebug => rw [setNonce_ndebug _ _ (by omega), hiv, Nat.sub_self, List.drop_zero]
  rw [← computeCounter_eq E fiv iv hf hiv n]
  unfold Model.NoAssert.computeCounter AESProver.computeCounter
  rw [this]

/-- C86: the private prover of the proxy protocol given a secret integer that is longer than the ciphertext, with any bits `hi` above the message.  With assertions it is refused
(`C30_private_length`); without them the proof says nothing about `hi`: it returns true exactly if the ciphertext is that of the low bytes. -/
theorem C86_private_longer (E : Block → Block) (fiv iv : List Byte) (hf : fiv.length = 4) (hiv : iv.length = 8) (msgs ctxts : List Byte) (hi : Integer) :
    (∃ b, Model.NoAssert.provePrivate .ndebug E (strToInt fiv) iv (strToInt msgs ++ hi) ctxts msgs.length = .ok b
      ∧ (b = true ↔ ctxts = Spec.GCM.crypt E (Spec.GCM.j0 (fiv ++ iv)) msgs))
    ∧ (hi ≠ [] → ∃ w, Model.NoAssert.provePrivate .checked E (strToInt fiv) iv (strToInt msgs ++ hi) ctxts msgs.length = .error (.error w)) := by
  refine ⟨?_, fun hne => ?_⟩
  · obtain ⟨b, h1, h2⟩ := C30_private E fiv iv hf hiv msgs ctxts
    refine ⟨b, ?_, h2⟩
    simp only [AESProver.provePrivate, computeCounter_eq E fiv iv hf hiv, bind, Except.bind, AESProver.finishPrivate] at h1
    rw [if_neg (by simp), if_neg (by simp)] at h1
    simp only [Model.NoAssert.provePrivate, Model.NoAssert.check, computeCounter_ok .ndebug E fiv iv hf hiv, bind, Except.bind]
    rw [if_neg (by simp), if_neg (by simp), ← h1]
    congr 4
    unfold Integer.xor
    conv_lhs => rw [← List.append_nil (strToInt (Spec.GCM.keyStream _ _ _)), List.zipWith_append (by simp)]
    simp
  · have : hi.length ≠ 0 := fun h => hne (List.eq_nil_of_length_eq_zero h)
    exact ⟨_, by simp only [Model.NoAssert.provePrivate, Model.NoAssert.check]; rw [if_neg (by simp; omega)]; rfl⟩

/-- C86: a shorter one: without assertions `c ^= msgs` reads past its end. -/
theorem C86_private_shorter (E : Block → Block) (fiv iv : List Byte) (hf : fiv.length = 4) (hiv : iv.length = 8) (msgs : Integer) (ctxts : List Byte) (n : Nat) (hn : msgs.length < 8 * n) :
    ∃ w, Model.NoAssert.provePrivate .ndebug E (strToInt fiv) iv msgs ctxts n = .error (.ub w) := by
  exact ⟨_, by
    simp only [Model.NoAssert.provePrivate, Model.NoAssert.check, computeCounter_ok .ndebug E fiv iv hf hiv, bind, Except.bind]
    rw [if_pos (by simp; omega)]⟩

/-- C86: the prover with assertions is the one of `Verif.Model.AESProver`. -/
theorem C86_checked_private (E : Block → Block) (fiv : Integer) (iv : List Byte) (msgs : Integer) (ctxts : List Byte) (n : Nat) (r : Bool) :
    Model.NoAssert.provePrivate .checked E fiv iv msgs ctxts n = .ok r ↔ AESProver.provePrivate E fiv iv msgs ctxts n = .ok r := by
  have hc : Model.NoAssert.computeCounter .checked E fiv iv n = AESProver.computeCounter E fiv iv n := by
    unfold Model.NoAssert.computeCounter AESProver.computeCounter
    rw [setNonce_checked]
  simp only [Model.NoAssert.provePrivate, AESProver.provePrivate, Model.NoAssert.check, hc, bind, Except.bind, AESProver.finishPrivate]
  by_cases h : msgs.length = 8 * n
  · rw [if_pos h]
    cases AESProver.computeCounter E fiv iv n with
    | error e => simp
    | ok c =>
      simp only [h, ne_eq, not_true_eq_false, if_false]
      by_cases h2 : c.length = 8 * n
      · simp [h2]
      · by_cases h3 : 8 * n < c.length <;> simp [h2, h3]
  · rw [if_neg h]
    cases AESProver.computeCounter E fiv iv n with
    | error e => simp
    | ok c => simp [h]

/-! ### SHA-256 -/

/-- C86: the assertions of `digest` and `opt_rounds_digest` never fire: for every input the two builds return the same. -/
theorem C86_sha_digest (b : Build) (s : Sha) (x : Integer) (h : x.length < 2 ^ 63) (reuse : Bool) :
    Model.NoAssert.shaDigest b s x reuse = s.digest x reuse ∧ Model.NoAssert.shaRoundsDigest b s x reuse = s.optRoundsDigest x reuse := by
  have hm := C08_padding_length x h
  have hc : ∀ w, Model.NoAssert.check b ((SHA.padding x).length % 512 = 0) w = .ok () := by
    intro w
    cases b with
    | checked => simp only [Model.NoAssert.check]; rw [if_pos hm]
    | ndebug => rfl
  constructor
  · simp only [Model.NoAssert.shaDigest, Sha.digest, Model.NoAssert.shaUpdate, Sha.update, hc, bind, Except.bind]
    simp [hm]
  · simp only [Model.NoAssert.shaRoundsDigest, Sha.optRoundsDigest, Model.NoAssert.shaRoundsUpdate, Sha.optRoundsUpdate, hc, bind, Except.bind]
    simp [hm]

theorem secWord_top (x : Integer) (h : 512 ≤ x.length) (i : Nat) (hi : i < 16) : secWord (x.drop (x.length - 512)) i = secWord x i := by
  unfold secWord
  rw [List.length_drop, List.drop_drop]
  congr 2
  omega

/-- C86: `opt_digest` (outside the proof).  With assertions it is the function of `Verif.Model.SHA256`.  Without them a secret part of more than one block is cut to its first 64 bytes without notice, and one of
less than a block makes the compression read past the words. -/
theorem C86_sha_opt_digest (s : Sha) (garbage : List Byte) (sec : Integer) (pub : List Byte) (reuse : Bool) :
    Model.NoAssert.shaOptDigest .checked s garbage sec pub reuse = s.optDigest garbage sec pub reuse false
      ∧ (512 ≤ sec.length → Model.NoAssert.shaOptDigest .ndebug s garbage sec pub reuse = s.optDigest garbage (sec.drop (sec.length - 512)) pub reuse false)
      ∧ (sec.length < 512 → (reuse && s.gcIn) = false → ∃ w, Model.NoAssert.shaOptDigest .ndebug s garbage sec pub reuse = .error (.ub w)) := by
  have key : ∀ (b : Build) (x : Integer), 512 ≤ x.length → (b = .checked → x.length = 512) →
      Model.NoAssert.shaOptDigest b s garbage x pub reuse = s.optDigest garbage (x.drop (x.length - 512)) pub reuse false := by
    intro b x hx hb
    have hl : (x.drop (x.length - 512)).length = 512 := by rw [List.length_drop]; omega
    have hc : ∀ w, Model.NoAssert.check b (x.length = 512) w = .ok () := by
      intro w
      cases b with
      | checked => simp only [Model.NoAssert.check]; rw [if_pos (hb rfl)]
      | ndebug => rfl
    have ht : ((List.range (x.length / 32)).map (secWord x)).take 16 = (List.range 16).map (secWord (x.drop (x.length - 512))) := by
      rw [← List.map_take, List.take_range, Nat.min_eq_left (by omega)]
      exact List.map_congr_left fun i hi => (secWord_top x hx i (List.mem_range.mp hi)).symm
    have h16 : ¬ x.length / 32 < 16 := by omega
    simp only [Model.NoAssert.shaOptDigest, Model.NoAssert.shaOptFirst, Sha.optDigest, Sha.optUpdate, Sha.optFirst, hc, inputWords_eq, bind, Except.bind, hl, ht,
      List.length_map, List.length_range, h16, ne_eq, not_true_eq_false, if_false]
    cases reuse with
    | false => simp
    | true =>
      cases hg : s.gcIn with
      | false => simp
      | true =>
        simp only [Bool.and_self, if_true, Bool.not_true, Bool.false_eq_true, if_false, Bool.not_false]
        cases s.ivIn[s.pos.toNat]? <;> rfl
  refine ⟨?_, fun h => key .ndebug sec h (by simp), fun h hr => ?_⟩
  · by_cases h : sec.length = 512
    · rw [key .checked sec (by omega) fun _ => h, h, Nat.sub_self, List.drop_zero]
    · simp [Model.NoAssert.shaOptDigest, Model.NoAssert.shaOptFirst, Sha.optDigest, Sha.optUpdate, Sha.optFirst, Model.NoAssert.check, h, bind, Except.bind]
  · have h16 : sec.length / 32 < 16 := by omega
    exact ⟨_, by
      simp only [Model.NoAssert.shaOptDigest, Model.NoAssert.shaOptFirst, Model.NoAssert.check, inputWords_eq, bind, Except.bind, hr, List.length_map, List.length_range, h16,
        Bool.false_eq_true, if_false, if_true]
      rfl⟩

/-- Non-vacuity of the length conditions. -/
example : ∃ x y : Integer, 512 < x.length ∧ y.length < 512 ∧ x.length < 2 ^ 63 := ⟨List.replicate 1024 false, [], by rw [List.length_replicate]; omega, by rw [List.length_nil]; omega, by rw [List.length_replicate]; omega⟩

end Verif.Props.NoAssert
