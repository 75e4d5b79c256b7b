import Verif.Model.ProxyVerifier
import Verif.Props.ProxyTls
import Verif.Props.ZkForgery

/-!
C76: the proxy model against a prover who does not follow the protocol: how often BOB accepts a ciphertext that is not the encryption of the message, and what the openings tell BOB.
-/

namespace Verif.Props.ProxyForgery
open Verif.Model Verif.Model.Integer Verif.Model.AESProver Verif.Model.Proxy Verif.Model.ZkVerifier Verif.Model.ProxyVerifier
open Verif.Spec Verif.Spec.Encoding
open Verif.Lemmas Verif.Props Verif.Props.Proxy Verif.Props.ZkForgery
open Verif.Props.HandshakeProof (bind_ok)

/-! ### Statement -/

/-- What a call claims: the ciphertext is the message under the key stream of AES-CTR as in GCM, or the selected bytes are. -/
def Shown (E : Block → Block) (fiv : List Byte) : AESCall → Prop
  | .pub iv m c => c = GCM.crypt E (GCM.j0 (fiv ++ iv)) m
  | .priv iv m c => ∃ s, m = strToInt s ∧ c = GCM.crypt E (GCM.j0 (fiv ++ iv)) s
  | .pubOpt i iv m c => c = List.zipWith (· ^^^ ·) m (selectedStream E (GCM.j0 (fiv ++ iv)) i) ∧ (selectedStream E (GCM.j0 (fiv ++ iv)) i).length = m.length
  | .privOpt i iv m c => ∃ s, m = strToInt s ∧ c = List.zipWith (· ^^^ ·) s (selectedStream E (GCM.j0 (fiv ++ iv)) i)
      ∧ (selectedStream E (GCM.j0 (fiv ++ iv)) i).length = s.length

/-- A call as the interface asks for it: explicit nonces of eight bytes, buffers of one length, block indices below the largest `size_t`. -/
def WellFormed : AESCall → Prop
  | .pub iv m c => iv.length = 8 ∧ c.length = m.length
  | .priv iv _ _ => iv.length = 8
  | .pubOpt i iv m c => iv.length = 8 ∧ c.length = m.length ∧ ∀ x ∈ i, x.id ≠ BitVec.allOnes 64
  | .privOpt i iv _ _ => iv.length = 8 ∧ ∀ x ∈ i, x.id ≠ BitVec.allOnes 64

/-- The bits a call opens, from public data alone. -/
def publicBits : AESCall → Integer
  | .pub _ m c => strToInt (List.zipWith (· ^^^ ·) m c)
  | .priv _ _ c => strToInt c
  | .pubOpt _ _ m c => strToInt (List.zipWith (· ^^^ ·) m c)
  | .privOpt _ _ _ c => strToInt c

/-! ### One call -/

theorem openPublic_finish {c : Integer} {m ct : List Byte} {x : Integer} (h : openPublic c m = .ok x) :
    finishPublic c m ct = .ok (toBytes x == (AEAD.xorBytes m ct).reverse) := by
  unfold openPublic at h
  unfold finishPublic
  simp only
  split at h
  · cases h
  · split at h
    · cases h
    · cases h
      rw [if_neg (by assumption), if_neg (by assumption)]

theorem openPrivate_finish {c m : Integer} {ct : List Byte} {x : Integer} (h : openPrivate c m ct.length = .ok x) :
    finishPrivate c m ct ct.length = .ok ((toBytes x).reverse == ct) := by
  unfold openPrivate at h
  unfold finishPrivate
  split at h
  · cases h
  · split at h
    · cases h
    · cases h
      rw [if_neg (by assumption), if_neg (by assumption)]

/-- With the value itself received, BOB returns what both parties return. -/
theorem opened_run {E : Block → Block} {fiv : Integer} {c : AESCall} {x : Integer} (h : c.opened E fiv = .ok x) : c.run E fiv = .ok (c.judge x) := by
  cases c with
  | pub iv m ct =>
    obtain ⟨z, h1, h2⟩ := bind_ok.1 h
    simp only [AESCall.run, provePublic, h1, bind, Except.bind]
    exact openPublic_finish h2
  | priv iv m ct =>
    obtain ⟨z, h1, h2⟩ := bind_ok.1 h
    simp only [AESCall.run, provePrivate, h1, bind, Except.bind]
    exact openPrivate_finish h2
  | pubOpt i iv m ct =>
    obtain ⟨z, h1, h2⟩ := bind_ok.1 h
    simp only [AESCall.run, provePublicOpt, h1, bind, Except.bind]
    exact openPublic_finish h2
  | privOpt i iv m ct =>
    obtain ⟨z, h1, h2⟩ := bind_ok.1 h
    simp only [AESCall.run, provePrivateOpt, h1, bind, Except.bind]
    exact openPrivate_finish h2

theorem openPublic_len {ks m : List Byte} {x : Integer} (h : openPublic (strToInt ks) m = .ok x) : ks.length = m.length ∧ x = strToInt ks := by
  unfold openPublic at h
  simp only [toBytes_strToInt, List.length_reverse] at h
  split at h
  · cases h
  · split at h
    · cases h
    · cases h
      exact ⟨by omega, rfl⟩

theorem openPrivate_len {ks : List Byte} {m : Integer} {n : Nat} {x : Integer} (h : openPrivate (strToInt ks) m n = .ok x) :
    ∃ s, m = strToInt s ∧ s.length = n ∧ ks.length = n ∧ x = strToInt (AEAD.xorBytes ks s) := by
  unfold openPrivate at h
  split at h
  · cases h
  · rename_i hm
    split at h
    · cases h
    · rename_i hk
      cases h
      obtain ⟨s, h1, h2⟩ := exists_strToInt m n (by omega)
      have hk : ks.length = n := by simp at hk; omega
      exact ⟨s, h2, h1, hk, by rw [h2, strToInt_xor _ _ (by omega)]⟩

theorem xorBytes_swap (a b : List Byte) : AEAD.xorBytes a b = List.zipWith (· ^^^ ·) b a := by
  unfold AEAD.xorBytes; rw [List.zipWith_comm]; congr 1; funext a b; exact BitVec.xor_comm _ _

theorem strToInt_inj {a b : List Byte} (h : strToInt a = strToInt b) : a = b := by
  have := congrArg toBytes h
  simpa [toBytes_strToInt] using this

theorem zip_zip (m k : List Byte) (h : k.length = m.length) : List.zipWith (· ^^^ ·) m (List.zipWith (· ^^^ ·) m k) = k := by
  apply List.ext_getElem
  · simp [h]
  · intro i h1 h2
    simp only [List.getElem_zipWith, ← BitVec.xor_assoc, BitVec.xor_self, BitVec.zero_xor]

/-- The judgement on the value itself: the claim is right; then the value is known beforehand. -/
theorem judge_iff {E : Block → Block} {fiv : List Byte} (hf : fiv.length = 4) {c : AESCall} (hw : WellFormed c) {x : Integer}
    (h : c.opened E (strToInt fiv) = .ok x) : (c.judge x = true ↔ Shown E fiv c) ∧ (Shown E fiv c → x = publicBits c) := by
  cases c with
  | pub iv m ct =>
    obtain ⟨h8, hl⟩ := hw
    obtain ⟨z, h1, h2⟩ := bind_ok.1 h
    rw [computeCounter_eq E fiv iv hf h8] at h1
    cases h1
    obtain ⟨hk, rfl⟩ := openPublic_len h2
    have hs : Shown E fiv (.pub iv m ct) ↔ ct = AEAD.xorBytes m (GCM.keyStream E (GCM.j0 (fiv ++ iv)) m.length) := Iff.rfl
    rw [hs]
    refine ⟨?_, fun e => ?_⟩
    · simp only [AESCall.judge, toBytes_strToInt, beq_iff_eq, List.reverse_inj]
      exact xorBytes_eq_iff _ _ _ hk hl
    · rw [publicBits, e, AEAD.xorBytes, zip_zip _ _ hk]
  | priv iv m ct =>
    obtain ⟨z, h1, h2⟩ := bind_ok.1 h
    rw [computeCounter_eq E fiv iv hf hw] at h1
    cases h1
    obtain ⟨s, rfl, hs, hk, rfl⟩ := openPrivate_len h2
    have hsh : Shown E fiv (.priv iv (strToInt s) ct) ↔ AEAD.xorBytes (GCM.keyStream E (GCM.j0 (fiv ++ iv)) ct.length) s = ct := by
      constructor
      · rintro ⟨s', e, e'⟩
        cases strToInt_inj e
        rw [xorBytes_swap, ← hs]
        exact e'.symm
      · intro e
        refine ⟨s, rfl, ?_⟩
        rw [← e, xorBytes_swap, ← hs]
        rfl
    rw [hsh]
    refine ⟨?_, fun e => ?_⟩
    · simp only [AESCall.judge, toBytes_strToInt, beq_iff_eq, List.reverse_reverse]
    · rw [publicBits, e]
  | pubOpt i iv m ct =>
    obtain ⟨h8, hl, hid⟩ := hw
    obtain ⟨z, h1, h2⟩ := bind_ok.1 h
    rw [C46_computeCounterOpt E fiv iv hf h8 i hid] at h1
    cases h1
    obtain ⟨hk, rfl⟩ := openPublic_len h2
    have hs : Shown E fiv (.pubOpt i iv m ct) ↔ ct = AEAD.xorBytes m (selectedStream E (GCM.j0 (fiv ++ iv)) i) := ⟨fun a => a.1, fun a => ⟨a, hk⟩⟩
    rw [hs]
    refine ⟨?_, fun e => ?_⟩
    · simp only [AESCall.judge, toBytes_strToInt, beq_iff_eq, List.reverse_inj]
      exact xorBytes_eq_iff _ _ _ hk hl
    · rw [publicBits, e, AEAD.xorBytes, zip_zip _ _ hk]
  | privOpt i iv m ct =>
    obtain ⟨h8, hid⟩ := hw
    obtain ⟨z, h1, h2⟩ := bind_ok.1 h
    rw [C46_computeCounterOpt E fiv iv hf h8 i hid] at h1
    cases h1
    obtain ⟨s, rfl, hs, hk, rfl⟩ := openPrivate_len h2
    have hsh : Shown E fiv (.privOpt i iv (strToInt s) ct) ↔ AEAD.xorBytes (selectedStream E (GCM.j0 (fiv ++ iv)) i) s = ct := by
      constructor
      · rintro ⟨s', e, e', -⟩
        cases strToInt_inj e
        rw [xorBytes_swap]
        exact e'.symm
      · intro e
        refine ⟨s, rfl, ?_, by omega⟩
        rw [← e, xorBytes_swap]
    rw [hsh]
    refine ⟨?_, fun e => ?_⟩
    · simp only [AESCall.judge, toBytes_strToInt, beq_iff_eq, List.reverse_reverse]
    · rw [publicBits, e]

/-! ### A sequence of calls -/

/-- The two objects: keys as functions, fixed nonces as bytes. -/
abbrev Objects := Bool → (Block → Block) × List Byte

/-- The objects with the nonces as integers. -/
def Objects.prover (O : Objects) : Bool → (Block → Block) × Integer := fun d => ((O d).1, strToInt (O d).2)

theorem judgeAll_length : ∀ {l : List (Bool × AESCall)} {ys : List Integer}, judgeAll l ys = true → ys.length = l.length
  | [], [], _ => rfl
  | [], _ :: _, h => by simp [judgeAll] at h
  | _ :: _, [], h => by simp [judgeAll] at h
  | (_, c) :: l, y :: ys, h => by
    rw [judgeAll, Bool.and_eq_true] at h
    simp [judgeAll_length h.2]

theorem all_judged (O : Objects) (hO : ∀ d, (O d).2.length = 4) : ∀ {l : List (Bool × AESCall)} {xs : List Integer}, (∀ p ∈ l, WellFormed p.2) →
    openedAll O.prover l = .ok xs →
    xs.length = l.length ∧ (judgeAll l xs = true ↔ ∀ p ∈ l, Shown (O p.1).1 (O p.1).2 p.2)
      ∧ ((∀ p ∈ l, Shown (O p.1).1 (O p.1).2 p.2) → xs = l.map fun p => publicBits p.2)
  | [], xs, _, h => by cases h; simp [judgeAll]
  | (d, c) :: l, xs, hw, h => by
    obtain ⟨x, h1, h2⟩ := bind_ok.1 h
    obtain ⟨ys, h3, h4⟩ := bind_ok.1 h2
    cases h4
    obtain ⟨i1, i2, i3⟩ := all_judged O hO (fun p hp => hw p (List.mem_cons_of_mem _ hp)) h3
    obtain ⟨j1, j2⟩ := judge_iff (hO d) (hw (d, c) List.mem_cons_self) h1
    refine ⟨by simp [i1], ?_, fun hs => ?_⟩
    · rw [judgeAll, Bool.and_eq_true, j1, i2, List.forall_mem_cons]
      exact Iff.rfl
    · rw [List.forall_mem_cons] at hs
      rw [List.map_cons, j2 hs.1, i3 hs.2]

/-- BOB accepts: all comparisons with the bits received are right, and BOB's digest is the one received. -/
def Accepts {δ : Type} (D : List Block → δ) (pub : Bool → Block) (T : Block → List Block) (calls : List (Bool × AESCall)) (ys : List Integer)
    (l : List (Item × Macs)) (dig : δ) (d : Block) : Prop := judgeAll calls ys = true ∧ Passes D pub T l dig d

theorem openings_wrong : ∀ {xs ys : List Integer}, xs.length = ys.length → xs ≠ ys → ∃ i ∈ openings xs ys, ¬Claims i
  | [], [], _, h => absurd rfl h
  | x :: xs, y :: ys, hl, h => by
    by_cases e : x = y
    · subst e
      obtain ⟨i, h1, h2⟩ := openings_wrong (xs := xs) (ys := ys) (by simpa using hl) (fun e => h (by rw [e]))
      exact ⟨i, List.mem_cons_of_mem _ h1, h2⟩
    · exact ⟨_, List.mem_cons_self, e⟩
  | [], _ :: _, hl, _ => by simp at hl
  | _ :: _, [], hl, _ => by simp at hl

/-- **C76, soundness.**  Whatever keys, nonces and messages the wires carry, whatever bits `ys` ALICE sends in the openings, whatever blocks it holds and digest it sends: if one of the
calls claims something wrong, BOB accepts for at most one of its `2^127` offsets, unless two of BOB's transcripts collide.  `T` is what BOB has put before (in the derivation). -/
theorem C76_count (O : Objects) (hO : ∀ d, (O d).2.length = 4) (calls : List (Bool × AESCall)) (hw : ∀ p ∈ calls, WellFormed p.2) (xs : List Integer)
    (hx : openedAll O.prover calls = .ok xs) (hs : ∃ p ∈ calls, ¬Shown (O p.1).1 (O p.1).2 p.2)
    {δ : Type} (D : List Block → δ) (pub : Bool → Block) (T : Block → List Block) (hT : ∀ d d', (T d).length = (T d').length)
    (ys : List Integer) (l : List (Item × Macs)) (he : l.map Prod.fst = openings xs ys) (hf : ∀ x ∈ l, Fits x.1 x.2)
    (dig : δ) (hn : ¬Collides D pub T l) :
    Nat.card {d : Block // Odd d ∧ Accepts D pub T calls ys l dig d} * 2 ^ 127 ≤ Nat.card {d : Block // Odd d} := by
  by_cases hj : judgeAll calls ys = true
  · obtain ⟨i1, i2, -⟩ := all_judged O hO hw hx
    have hne : xs ≠ ys := by
      rintro rfl
      obtain ⟨p, hp, hc⟩ := hs
      exact hc (i2.1 hj p hp)
    obtain ⟨i, h1, h2⟩ := openings_wrong (i1.trans (judgeAll_length hj).symm) hne
    rw [← he] at h1
    obtain ⟨p, hp, rfl⟩ := List.mem_map.1 h1
    have := C73_count D pub T hT l hf ⟨p, hp, h2⟩ dig hn
    simpa only [Accepts, hj, true_and] using this
  · simp [Accepts, hj]

/-- **C76, completeness.**  If all claims are right, an ALICE who opens what the wires carry is accepted for every offset. -/
theorem C76_accepts (O : Objects) (hO : ∀ d, (O d).2.length = 4) (calls : List (Bool × AESCall)) (hw : ∀ p ∈ calls, WellFormed p.2) (xs : List Integer)
    (hx : openedAll O.prover calls = .ok xs) (hs : ∀ p ∈ calls, Shown (O p.1).1 (O p.1).2 p.2)
    {δ : Type} (D : List Block → δ) (pub : Bool → Block) (t : List Block)
    (l : List (Item × Macs)) (he : l.map Prod.fst = openings xs xs) (hf : ∀ x ∈ l, Fits x.1 x.2) (d : Block) :
    Accepts D pub (fun _ => t) calls xs l (D (t ++ l.flatMap fun p => putMacs pub p.1 p.2)) d := by
  have hcl : ∀ i ∈ openings xs xs, Claims i ∧ Lengths i := by
    intro i hi
    obtain ⟨k, hk, rfl⟩ := List.getElem_of_mem hi
    simp [openings, Claims, Lengths]
  refine ⟨(all_judged O hO hw hx).2.1.2 hs, _, C73_honest pub l hf (fun p hp => ?_) (fun p hp => ?_) d t, rfl⟩
  · exact (hcl p.1 (he ▸ List.mem_map_of_mem hp)).2
  · exact (hcl p.1 (he ▸ List.mem_map_of_mem hp)).1

/-- **C76, what the openings tell.**  If all claims are right, the bits opened are the ciphertexts (for private messages) or the key stream under public messages: BOB knows them beforehand. -/
theorem C76_opened (O : Objects) (hO : ∀ d, (O d).2.length = 4) (calls : List (Bool × AESCall)) (hw : ∀ p ∈ calls, WellFormed p.2) (xs : List Integer)
    (hx : openedAll O.prover calls = .ok xs) (hs : ∀ p ∈ calls, Shown (O p.1).1 (O p.1).2 p.2) : xs = calls.map fun p => publicBits p.2 :=
  (all_judged O hO hw hx).2.2 hs

/-! ### The session of `prove_proxy_tls` -/

theorem count_of {calls : List (Bool × AESCall)} {xs : List Integer} (hlen : xs.length = calls.length) (hj : judgeAll calls xs ≠ true)
    {δ : Type} (D : List Block → δ) (pub : Bool → Block) (T : Block → List Block) (hT : ∀ d d', (T d).length = (T d').length)
    (ys : List Integer) (l : List (Item × Macs)) (he : l.map Prod.fst = openings xs ys) (hf : ∀ x ∈ l, Fits x.1 x.2)
    (dig : δ) (hn : ¬Collides D pub T l) :
    Nat.card {d : Block // Odd d ∧ Accepts D pub T calls ys l dig d} * 2 ^ 127 ≤ Nat.card {d : Block // Odd d} := by
  by_cases hy : judgeAll calls ys = true
  · obtain ⟨i, h1, h2⟩ := openings_wrong (hlen.trans (judgeAll_length hy).symm) (by rintro rfl; exact hj hy)
    rw [← he] at h1
    obtain ⟨p, hp, rfl⟩ := List.mem_map.1 h1
    have := C73_count D pub T hT l hf ⟨p, hp, h2⟩ dig hn
    simpa only [Accepts, hy, true_and] using this
  · simp [Accepts, hy]

/-- What BOB is entitled to believe whatever the derivation came out with: the recorded ciphertexts are those of the finished values and of the message under the keys and nonces derived. -/
def Encrypted (t : Traffic) (fc fs m : Integer) (s : Session) : Prop :=
  ∃ ck sk civ siv vc vs msg : List Byte, t = ⟨strToInt ck, strToInt sk, strToInt civ, strToInt siv⟩ ∧ fc = strToInt vc ∧ fs = strToInt vs ∧ m = strToInt msg
    ∧ s.finC = GCM.crypt (aes ck) (GCM.j0 (civ ++ s.ivC)) ([0x14, 0, 0, 12] ++ vc)
    ∧ s.finS = GCM.crypt (aes sk) (GCM.j0 (siv ++ s.ivS)) ([0x14, 0, 0, 12] ++ vs)
    ∧ s.ctxt = GCM.crypt (aes ck) (GCM.j0 (civ ++ s.ivM)) msg

theorem shown_fin {E : Block → Block} {fiv iv ct : List Byte} {f : Integer} (h : Shown E fiv (.priv iv (f ++ ofBytes finHead.reverse) ct)) :
    ∃ v, f = strToInt v ∧ ct = GCM.crypt E (GCM.j0 (fiv ++ iv)) ([0x14, 0, 0, 12] ++ v) := by
  obtain ⟨x, hx, hc⟩ := h
  have hl := congrArg List.length hx
  have h4 : (ofBytes finHead.reverse).length = 32 := rfl
  rw [List.length_append, h4, length_strToInt] at hl
  obtain ⟨v, -, rfl⟩ := exists_strToInt f (x.length - 4) (by omega)
  rw [strToInt_head] at hx
  cases strToInt_inj hx
  exact ⟨v, rfl, hc⟩

/-- The two objects of a session. -/
def objects (Ec Es : Block → Block) (civ siv : List Byte) : Objects := fun d => if d then (Ec, civ) else (Es, siv)

theorem objects_eq (Ec Es : Block → Block) (civ siv : List Byte) :
    (fun d : Bool => if d = true then (Ec, strToInt civ) else (Es, strToInt siv)) = (objects Ec Es civ siv).prover := by
  funext d; cases d <;> rfl

/-- **C76, the session, whatever is derived.**  Whatever keys, nonces, finished values and message the prover makes the derivation come out with: unless the recorded ciphertexts are those of
these values, BOB accepts for at most one offset in `2^127`, whatever the prover sends. -/
theorem C76_given (j1 j2 : AESCircuit.Wires) (t : Traffic) (fc fs m : Integer) (s : Session) (ic : s.ivC.length = 8) (is : s.ivS.length = 8) (im : s.ivM.length = 8)
    (xs : List Integer) (hx : sessionGiven j1 j2 t fc fs m s = .ok xs) (hs : ¬Encrypted t fc fs m s)
    {δ : Type} (D : List Block → δ) (pub : Bool → Block) (T : Block → List Block) (hT : ∀ d d', (T d).length = (T d').length)
    (ys : List Integer) (l : List (Item × Macs)) (he : l.map Prod.fst = openings xs ys) (hf : ∀ x ∈ l, Fits x.1 x.2)
    (dig : δ) (hn : ¬Collides D pub T l) :
    Nat.card {d : Block // Odd d ∧ Accepts D pub T (sessionCalls fc fs m s) ys l dig d} * 2 ^ 127 ≤ Nat.card {d : Block // Odd d} := by
  obtain ⟨pc, h1, hx⟩ := bind_ok.1 hx
  obtain ⟨ps, h2, hx⟩ := bind_ok.1 hx
  obtain ⟨l1, l2, -⟩ := C48_prover_lengths _ _ _ _ _ h1
  obtain ⟨l3, l4, -⟩ := C48_prover_lengths _ _ _ _ _ h2
  obtain ⟨tkc, tks, tic, tis⟩ := t
  obtain ⟨ck, lck, rfl⟩ := exists_strToInt tkc 16 l1
  obtain ⟨civ, lci, rfl⟩ := exists_strToInt tic 4 l2
  obtain ⟨sk, lsk, rfl⟩ := exists_strToInt tks 16 l3
  obtain ⟨siv, lsi, rfl⟩ := exists_strToInt tis 4 l4
  rw [aesProver_ok j1 j2 ck civ lck lci] at h1
  rw [aesProver_ok j1 j2 sk siv lsk lsi] at h2
  obtain rfl := Except.ok.inj h1
  obtain rfl := Except.ok.inj h2
  have hP := objects_eq (aes ck) (aes sk) civ siv
  generalize hEc : aes ck = Ec at *
  generalize hEs : aes sk = Es at *
  rw [hP] at hx
  refine C76_count (objects Ec Es civ siv) (by intro d; cases d <;> simp [objects, lci, lsi]) (sessionCalls fc fs m s) ?_ xs hx ?_ D pub T hT ys l he hf dig hn
  · simp only [sessionCalls, List.forall_mem_cons, WellFormed]
    exact ⟨ic, is, im, by simp⟩
  · by_contra hc
    push Not at hc
    simp only [sessionCalls, List.forall_mem_cons] at hc
    obtain ⟨c1, c2, c3, -⟩ := hc
    obtain ⟨vc, rfl, e1⟩ := shown_fin (E := Ec) (fiv := civ) c1
    obtain ⟨vs, rfl, e2⟩ := shown_fin (E := Es) (fiv := siv) c2
    obtain ⟨msg, rfl, e3⟩ : ∃ x, m = strToInt x ∧ s.ctxt = GCM.crypt Ec (GCM.j0 (civ ++ s.ivM)) x := c3
    subst hEc hEs
    exact hs ⟨ck, sk, civ, siv, vc, vs, msg, rfl, rfl, rfl, rfl, e1, e2, e3⟩

theorem priv_run {E : Block → Block} {fiv : Integer} {iv ct : List Byte} {m : Integer} :
    provePrivate E fiv iv m ct ct.length = .ok true ↔ ∃ x, AESCall.opened E fiv (.priv iv m ct) = .ok x ∧ AESCall.judge x (.priv iv m ct) = true := by
  constructor
  · intro h
    obtain ⟨z, h1, h2⟩ := bind_ok.1 h
    unfold finishPrivate at h2
    split at h2
    · cases h2
    · split at h2
      · cases h2
      · rename_i a b
        refine ⟨xor z m, ?_, Except.ok.inj h2⟩
        simp only [AESCall.opened, h1, bind, Except.bind, openPrivate]
        rw [if_neg a, if_neg b]
  · rintro ⟨x, h1, h2⟩
    have := opened_run h1
    rwa [h2] at this

theorem openedAll_length {P : Bool → (Block → Block) × Integer} : ∀ {l : List (Bool × AESCall)} {xs : List Integer}, openedAll P l = .ok xs → xs.length = l.length
  | [], xs, h => by cases h; rfl
  | (d, c) :: l, xs, h => by
    obtain ⟨x, h1, h2⟩ := bind_ok.1 h
    obtain ⟨ys, h3, h4⟩ := bind_ok.1 h2
    cases h4
    simp [openedAll_length h3]

/-- BOB's side, with the values of the wires received, is the session of both parties. -/
theorem session_iff (q : Nat) (g : Nat → List Byte) (j1 j2 : AESCircuit.Wires) (s : Session) :
    session q g j1 j2 s = .ok true ↔ ∃ calls xs, sessionBob q g j1 j2 s = .ok (calls, xs) ∧ judgeAll calls xs = true := by
  unfold session sessionBob
  simp only [bind_ok, Prod.exists]
  constructor
  · rintro ⟨ms, p1, e1, t, p2, e2, fc, p3, e3, fs, p4, e4, E, i, e5, E', i', e6, b, e7, h⟩
    split at h
    · cases h
    · rename_i hb
      obtain ⟨b2, e8, h⟩ := bind_ok.1 h
      split at h
      · cases h
      · rename_i hb2
        obtain ⟨b3, e9, h⟩ := bind_ok.1 h
        split at h
        · cases h
        · rename_i hb3
          obtain rfl : b = true := by simpa using hb
          obtain rfl : b2 = true := by simpa using hb2
          obtain rfl : b3 = true := by simpa using hb3
          obtain ⟨x1, o1, k1⟩ := priv_run.1 e7
          obtain ⟨x2, o2, k2⟩ := priv_run.1 e8
          obtain ⟨x3, o3, k3⟩ := priv_run.1 e9
          refine ⟨_, [x1, x2, x3], ⟨ms, p1, e1, t, p2, e2, fc, p3, e3, fs, p4, e4, [x1, x2, x3], ?_, rfl⟩, ?_⟩
          · simp only [sessionGiven, sessionCalls, openedAll, e5, e6, bind, Except.bind, if_true, Bool.false_eq_true, if_false, o1, o2, o3]
          · simp only [sessionCalls, judgeAll, k1, k2, k3, Bool.and_self]
  · rintro ⟨calls, xs, ⟨ms, p1, e1, t, p2, e2, fc, p3, e3, fs, p4, e4, xs', e5, e6⟩, hj⟩
    cases e6
    obtain ⟨⟨E, i⟩, a1, e5⟩ := bind_ok.1 e5
    obtain ⟨⟨E', i'⟩, a2, e5⟩ := bind_ok.1 e5
    obtain ⟨x1, o1, e5⟩ := bind_ok.1 e5
    obtain ⟨_, e5, f1⟩ := bind_ok.1 e5
    obtain ⟨x2, o2, e5⟩ := bind_ok.1 e5
    obtain ⟨_, e5, f2⟩ := bind_ok.1 e5
    obtain ⟨x3, o3, e5⟩ := bind_ok.1 e5
    obtain ⟨_, e5, f3⟩ := bind_ok.1 e5
    cases e5
    cases f3
    cases f2
    cases f1
    simp only [sessionCalls, judgeAll, Bool.and_eq_true, and_true] at hj
    refine ⟨ms, p1, e1, t, p2, e2, fc, p3, e3, fs, p4, e4, E, i, a1, E', i', a2, true, priv_run.2 ⟨x1, o1, hj.1⟩, ?_⟩
    simp only [Bool.not_true, Bool.false_eq_true, if_false, bind, Except.bind]
    have k2 := priv_run.2 ⟨x2, o2, hj.2.1⟩
    have k3 := priv_run.2 ⟨x3, o3, hj.2.2⟩
    simp only [if_true, Bool.false_eq_true, if_false] at k2 k3
    simp only [k2, k3, Bool.not_true, Bool.false_eq_true, if_false]

/-- **C76, the session after the derivation of the code.**  A session whose recorded ciphertexts are not those of the pre-master secret and message of the prover is accepted for at most one
offset in `2^127`; a genuine one is accepted. -/
theorem C76_session (q : Nat) (hq : bnNumBytes q < 2 ^ 59) (g : Nat → List Byte) (hg : Buf g) (j1 j2 : AESCircuit.Wires) (s : Session)
    (hp : bnNumBytes s.pms ≤ bnNumBytes q) (hh : s.hash.length < 2 ^ 57) (hr : s.rc.length + s.rs.length < 2 ^ 57)
    (hc : s.tauC.length < 2 ^ 57) (hs : s.tauS.length < 2 ^ 57) (ic : s.ivC.length = 8) (is : s.ivS.length = 8) (im : s.ivM.length = 8)
    {δ : Type} (D : List Block → δ) (pub : Bool → Block) :
    (Genuine q s s.msg → ∃ calls xs, sessionBob q g j1 j2 s = .ok (calls, xs)
      ∧ ∀ (t : List Block) (l : List (Item × Macs)), l.map Prod.fst = openings xs xs → (∀ x ∈ l, Fits x.1 x.2) →
        ∀ d, Accepts D pub (fun _ => t) calls xs l (D (t ++ l.flatMap fun p => putMacs pub p.1 p.2)) d)
    ∧ (¬Genuine q s s.msg → ∀ calls xs, sessionBob q g j1 j2 s = .ok (calls, xs) →
      ∀ (T : Block → List Block), (∀ d d', (T d).length = (T d').length) → ∀ (ys : List Integer) (l : List (Item × Macs)),
        l.map Prod.fst = openings xs ys → (∀ x ∈ l, Fits x.1 x.2) → ∀ dig : δ, ¬Collides D pub T l →
        Nat.card {d : Block // Odd d ∧ Accepts D pub T calls ys l dig d} * 2 ^ 127 ≤ Nat.card {d : Block // Odd d}) := by
  have key := C48_session q hq g hg j1 j2 s hp hh hr hc hs ic is im
  constructor
  · intro hG
    obtain ⟨calls, xs, h1, h2⟩ := (session_iff q g j1 j2 s).1 (by
      rcases key with ⟨a, -⟩ | ⟨-, b⟩
      · exact a
      · exact absurd hG b)
    refine ⟨calls, xs, h1, fun t l he hf d => ⟨h2, _, C73_honest pub l hf (fun p hp => ?_) (fun p hp => ?_) d t, rfl⟩⟩
    all_goals
      have hm : p.1 ∈ openings xs xs := he ▸ List.mem_map_of_mem hp
      obtain ⟨k, hk, e⟩ := List.getElem_of_mem hm
      rw [← e]
      simp [openings, Claims, Lengths]
  · intro hG calls xs h1 T hT ys l he hf dig hn
    have hlen : xs.length = calls.length := by
      obtain ⟨_, -, h1⟩ := bind_ok.1 h1
      obtain ⟨_, -, h1⟩ := bind_ok.1 h1
      obtain ⟨_, -, h1⟩ := bind_ok.1 h1
      obtain ⟨_, -, h1⟩ := bind_ok.1 h1
      obtain ⟨_, e, h1⟩ := bind_ok.1 h1
      cases h1
      obtain ⟨_, -, e⟩ := bind_ok.1 e
      obtain ⟨_, -, e⟩ := bind_ok.1 e
      exact openedAll_length e
    refine count_of hlen (fun hj => ?_) D pub T hT ys l he hf dig hn
    rcases key with ⟨-, b⟩ | ⟨⟨w, a⟩, -⟩
    · exact hG b
    · rw [(session_iff q g j1 j2 s).2 ⟨calls, xs, h1, hj⟩] at a
      cases a

/-! ### Cases -/

theorem crypt_inj {E : Block → Block} {j : Block} {a b : List Byte} (h : GCM.crypt E j a = GCM.crypt E j b) : a = b := by
  have hl : a.length = b.length := by simpa [GCM.crypt] using congrArg List.length h
  have h' : List.zipWith (· ^^^ ·) a (GCM.keyStream E j a.length) = List.zipWith (· ^^^ ·) b (GCM.keyStream E j b.length) := h
  rw [hl] at h'
  have hk : (GCM.keyStream E j b.length).length = b.length := by simp
  generalize GCM.keyStream E j b.length = k at h' hk
  apply List.ext_getElem hl
  intro i h1 h2
  have := congrArg (fun x : List Byte => x[i]?) h'
  simp only [List.getElem?_zipWith, List.getElem?_eq_getElem h1, List.getElem?_eq_getElem h2, List.getElem?_eq_getElem (hk ▸ h2 : i < k.length),
    Option.some.injEq] at this
  have := congrArg (· ^^^ k[i]'(hk ▸ h2)) this
  simpa [BitVec.xor_assoc] using this

/-- A genuine session is not genuine with another message. -/
theorem genuine_unique {q : Nat} {s : Session} {m m' : List Byte} (h : Genuine q s m) (h' : Genuine q s m') : m = m' := by
  obtain ⟨ck, sk, civ, siv, vc, vs, ⟨pe, l1, l2, l3, l4⟩, -, -, -, -, x3⟩ := h
  obtain ⟨ck', sk', civ', siv', vc', vs', ⟨pe', m1, m2, m3, m4⟩, -, -, -, -, x3'⟩ := h'
  simp only at pe l1 l2 l3 l4 pe' m1 m2 m3 m4
  rw [pe] at pe'
  have a4 := List.append_inj' pe' (by rw [l4, m4])
  have a3 := List.append_inj' a4.1 (by rw [l3, m3])
  have a2 := List.append_inj' a3.1 (by rw [l2, m2])
  obtain rfl : ck = ck' := bytesBits_inj a2.1
  obtain rfl : civ = civ' := bytesBits_inj a3.2
  exact crypt_inj (x3.symm.trans x3')

/-- A session with another message of the same length: BOB's run goes through. -/
theorem bob_runs {q : Nat} {g : Nat → List Byte} {j1 j2 : AESCircuit.Wires} {s : Session} {calls : List (Bool × AESCall)} {xs : List Integer}
    (h : sessionBob q g j1 j2 s = .ok (calls, xs)) (m : List Byte) (hm : m.length = s.msg.length) :
    ∃ calls' xs', sessionBob q g j1 j2 { s with msg := m } = .ok (calls', xs') := by
  unfold sessionBob at h ⊢
  simp only [bind_ok, Prod.exists] at h ⊢
  obtain ⟨ms, p1, e1, t, p2, e2, fc, p3, e3, fs, p4, e4, xs', e5, e6⟩ := h
  obtain ⟨⟨E, i⟩, a1, e5⟩ := bind_ok.1 e5
  obtain ⟨⟨E', i'⟩, a2, e5⟩ := bind_ok.1 e5
  obtain ⟨x1, o1, e5⟩ := bind_ok.1 e5
  obtain ⟨_, e5, f1⟩ := bind_ok.1 e5
  obtain ⟨x2, o2, e5⟩ := bind_ok.1 e5
  obtain ⟨_, e5, f2⟩ := bind_ok.1 e5
  obtain ⟨x3, o3, e5⟩ := bind_ok.1 e5
  obtain ⟨z, o4, o5⟩ := bind_ok.1 o3
  simp only [openPrivate] at o5
  split at o5
  · cases o5
  · split at o5
    · cases o5
    · rename_i c1 c2
      have hlen : (ofBytes m.reverse).length = (ofBytes s.msg.reverse).length := by
        rw [show ofBytes m.reverse = strToInt m from rfl, show ofBytes s.msg.reverse = strToInt s.msg from rfl]; simp [hm]
      refine ⟨_, [x1, x2, xor z (ofBytes m.reverse)], ms, p1, e1, t, p2, e2, fc, p3, e3, fs, p4, e4, _, ?_, rfl⟩
      simp only [if_true, Bool.false_eq_true, if_false] at o1 o2 o4
      have o6 : AESCall.opened E i (.priv s.ivM (ofBytes m.reverse) s.ctxt) = .ok (xor z (ofBytes m.reverse)) := by
        simp only [AESCall.opened, o4, bind, Except.bind, openPrivate, hlen]
        rw [if_neg c1, if_neg c2]
      simp only [sessionGiven, sessionCalls, openedAll, a1, a2, bind, Except.bind, if_true, Bool.false_eq_true, if_false, o1, o2, o6]

/-- A recorded session: accepted with its message; with another message of the same length BOB's run goes through, and a prover whose transcript is sent in full is accepted for at most one
offset in `2^127`. -/
example (q : Nat) (hq : bnNumBytes q < 2 ^ 59) (pms : Nat) (hp : bnNumBytes pms ≤ bnNumBytes q) (x : List Byte) (hx : x.length < 2 ^ 56)
    (iv : List Byte) (hiv : iv.length = 8) (j1 j2 : AESCircuit.Wires) (pub : Bool → Block) :
    ∃ fc fs ct calls xs, sessionBob q (fun _ => List.replicate 64 7) j1 j2 ⟨pms, x, x, x, x, x, iv, fc, iv, fs, iv, [8, 9], ct⟩ = .ok (calls, xs)
      ∧ ∀ (ys : List Integer) (l : List (Item × Macs)) (dig : List Block), l.map Prod.fst = openings xs ys → (∀ x ∈ l, Fits x.1 x.2) →
        Nat.card {d : Block // Odd d ∧ Accepts id pub (fun _ => []) calls ys l dig d} * 2 ^ 127 ≤ Nat.card {d : Block // Odd d} := by
  obtain ⟨fc, fs, ct, h⟩ := exists_genuine q ⟨pms, x, x, x, x, x, iv, [], iv, [], iv, [1, 2], []⟩
  have h1 : x.length < 2 ^ 57 := by omega
  have h2 : x.length + x.length < 2 ^ 57 := by omega
  obtain ⟨calls, xs, e, -⟩ := (C76_session q hq (fun _ => List.replicate 64 7) (fun _ => List.length_replicate) j1 j2
    ⟨pms, x, x, x, x, x, iv, fc, iv, fs, iv, [1, 2], ct⟩ hp h1 h2 h1 h1 hiv hiv hiv id pub).1 h
  obtain ⟨calls', xs', e'⟩ := bob_runs e [8, 9] rfl
  refine ⟨fc, fs, ct, calls', xs', e', fun ys l dig he hf => ?_⟩
  exact (C76_session q hq (fun _ => List.replicate 64 7) (fun _ => List.length_replicate) j1 j2
    ⟨pms, x, x, x, x, x, iv, fc, iv, fs, iv, [8, 9], ct⟩ hp h1 h2 h1 h1 hiv hiv hiv id pub).2
    (fun h' => absurd (genuine_unique (m := [1, 2]) (m' := [8, 9]) ⟨h.ok⟩ ⟨h'.ok⟩) (by decide)) calls' xs' e' (fun _ => []) (fun _ _ => rfl) ys l he hf dig
    (by rintro ⟨_, _, _, _, _, _, h, e⟩; exact h e)

/-- Public bytes 1, 2 and 15 of block 3 under a toy cipher, with a right and a wrong ciphertext: the hypotheses of `C76_count` and of `C76_opened` are met. -/
example : let O : Objects := fun _ => (fun x => x, [1, 2, 3, 4])
    let c (ct : List Byte) : AESCall := .pubOpt [⟨3, [0, 1, 1, 0, 0, 0, 0, 0, 0, 0, 0, 0, 0, 0, 0, 1]⟩] [5, 6, 7, 8, 9, 10, 11, 12] [10, 20, 30] ct
    (∃ xs, openedAll O.prover [(true, c [8, 23, 27])] = .ok xs) ∧ Shown (O true).1 (O true).2 (c [8, 23, 27]) ∧ WellFormed (c [8, 23, 27])
      ∧ (∃ xs, openedAll O.prover [(true, c [8, 23, 28])] = .ok xs) ∧ ¬Shown (O true).1 (O true).2 (c [8, 23, 28]) ∧ WellFormed (c [8, 23, 28]) := by
  have h := C46_computeCounterOpt (fun x => x) [1, 2, 3, 4] [5, 6, 7, 8, 9, 10, 11, 12] rfl rfl
    [⟨3, [0, 1, 1, 0, 0, 0, 0, 0, 0, 0, 0, 0, 0, 0, 0, 1]⟩] (by decide)
  have hs : (selectedStream (fun x => x) (GCM.j0 ([1, 2, 3, 4] ++ [5, 6, 7, 8, 9, 10, 11, 12])) [⟨3, [0, 1, 1, 0, 0, 0, 0, 0, 0, 0, 0, 0, 0, 0, 0, 1]⟩])
    = [2, 3, 5] := by decide +kernel
  rw [hs] at h
  have ho : openPublic (strToInt [2, 3, 5]) [10, 20, 30] = .ok (strToInt [2, 3, 5]) := by simp [openPublic, toBytes_strToInt]
  refine ⟨⟨[strToInt [2, 3, 5]], ?_⟩, ⟨?_, ?_⟩, by unfold WellFormed; decide, ⟨[strToInt [2, 3, 5]], ?_⟩, ?_, by unfold WellFormed; decide⟩
  · simp only [openedAll, AESCall.opened, Objects.prover, h, bind, Except.bind, ho]
  · show [8, 23, 27] = List.zipWith (· ^^^ ·) [10, 20, 30] (selectedStream (fun x => x) (GCM.j0 ([1, 2, 3, 4] ++ [5, 6, 7, 8, 9, 10, 11, 12])) _)
    rw [hs]; decide
  · show (selectedStream (fun x => x) (GCM.j0 ([1, 2, 3, 4] ++ [5, 6, 7, 8, 9, 10, 11, 12])) _).length = 3
    rw [hs]; rfl
  · simp only [openedAll, AESCall.opened, Objects.prover, h, bind, Except.bind, ho]
  · rintro ⟨h1, -⟩
    change [8, 23, 28] = List.zipWith (· ^^^ ·) [10, 20, 30] (selectedStream (fun x => x) (GCM.j0 ([1, 2, 3, 4] ++ [5, 6, 7, 8, 9, 10, 11, 12])) _) at h1
    rw [hs] at h1
    exact absurd h1 (by decide)

end Verif.Props.ProxyForgery
