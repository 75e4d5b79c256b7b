import Verif.Model.AESProver
import Verif.Props.AEAD

/-!
C30 and C46: the prover of `protocol/prove_aes.h` and its block-selecting variants.
-/

namespace Verif.Props
open Verif.Model Verif.Model.Integer Verif.Model.AEAD Verif.Model.AESProver Verif.Lemmas

/-! ### Key stream -/

theorem aead_gctr_loop (E : Block → Block) (m : Nat) (res nonce : Integer) :
    AEAD.gctr E m res nonce = AESProver.gctr E m res nonce := by
  induction m generalizing res nonce with
  | zero => simp [AEAD.gctr, AESProver.gctr, gctrLoop, bind, Except.bind, concatOpt]
  | succ m ih =>
    simp only [AEAD.gctr, AESProver.gctr, gctrLoop, bind, Except.bind]
    cases aes E nonce with
    | error e => rfl
    | ok tmp =>
      cases inc nonce 32 with
      | error e => rfl
      | ok n =>
        simp only
        rw [ih]
        simp only [AESProver.gctr, bind, Except.bind]
        cases gctrLoop E m n with
        | error e => rfl
        | ok r =>
          simp only
          rw [concatOpt_eq, concatOpt_eq, concat_eq, concat_eq, concat_eq]
          simp

theorem computeCounter_eq (E : Block → Block) (fiv iv : List Byte) (hf : fiv.length = 4) (hiv : iv.length = 8) (n : Nat) :
    computeCounter E (strToInt fiv) iv n = .ok (strToInt (Spec.GCM.keyStream E (Spec.GCM.j0 (fiv ++ iv)) n)) := by
  obtain ⟨nonce, g1, -, -⟩ := gctr_eq E (1 + ctrLen n) [] (strToInt (fiv ++ iv ++ [0#8, 0#8, 0#8, 1#8]))
    (by simp [hf, hiv])
  rw [blk_strToInt, List.nil_append, aead_gctr_loop] at g1
  change AESProver.gctr E (1 + ctrLen n) [] _
    = .ok (strToInt (ctrBytes E (Spec.GCM.j0 (fiv ++ iv)) (1 + ctrLen n)), nonce) at g1
  have hc := cutZ_stream E (Spec.GCM.j0 (fiv ++ iv)) n
  simp only [computeCounter, setNonce_eq fiv iv hiv, bind, Except.bind, g1]
  rw [← hc]
  rfl

theorem toBytes_strToInt (l : List Byte) : toBytes (strToInt l) = l.reverse := by rw [strToInt, toBytes_ofBytes]

theorem xorBytes_eq_iff (k a c : List Byte) (h1 : k.length = a.length) (h2 : c.length = a.length) :
    k = xorBytes a c ↔ c = xorBytes a k := by
  constructor
  · intro h
    rw [h]
    apply List.ext_getElem
    · simp [h2]
    · intro i g1 g2
      simp only [xorBytes, List.getElem_zipWith, ← BitVec.xor_assoc, BitVec.xor_self, BitVec.zero_xor]
  · intro h
    rw [h]
    apply List.ext_getElem
    · simp [h1]
    · intro i g1 g2
      simp only [xorBytes, List.getElem_zipWith, ← BitVec.xor_assoc, BitVec.xor_self, BitVec.zero_xor]

theorem finishPublic_eq (ks msgs ctxts : List Byte) (h1 : ks.length = msgs.length) (h2 : ctxts.length = msgs.length) :
    finishPublic (strToInt ks) msgs ctxts = .ok (decide (ctxts = xorBytes msgs ks)) := by
  have hl : ks.reverse.length = msgs.length := by simp [h1]
  simp only [finishPublic, toBytes_strToInt]
  rw [if_neg (by omega), if_neg (by omega)]
  congr 1
  rw [Bool.eq_iff_iff, beq_iff_eq, decide_eq_true_iff, List.reverse_inj]
  exact xorBytes_eq_iff _ _ _ h1 h2

theorem finishPrivate_eq (ks msgs ctxts : List Byte) (h1 : ks.length = msgs.length) :
    finishPrivate (strToInt ks) (strToInt msgs) ctxts msgs.length = .ok (decide (ctxts = xorBytes msgs ks)) := by
  rw [finishPrivate, if_neg (by simp), if_neg (by simp [h1]), ← strToInt_xor _ _ h1, toBytes_strToInt,
    List.reverse_reverse]
  congr 1
  rw [Bool.eq_iff_iff, beq_iff_eq, decide_eq_true_iff]
  have : xorBytes ks msgs = xorBytes msgs ks := by
    unfold xorBytes; rw [List.zipWith_comm]; congr 1; funext a b; exact BitVec.xor_comm _ _
  rw [this, eq_comm]

/-! ### C30 -/

/-- C30: `prove_public_msgs` returns true exactly if the ciphertext is the message under AES-CTR as in GCM. -/
theorem C30_public (E : Block → Block) (fiv iv : List Byte) (hf : fiv.length = 4) (hiv : iv.length = 8)
    (msgs ctxts : List Byte) (hl : ctxts.length = msgs.length) :
    ∃ b, provePublic E (strToInt fiv) iv msgs ctxts = .ok b
      ∧ (b = true ↔ ctxts = Spec.GCM.crypt E (Spec.GCM.j0 (fiv ++ iv)) msgs) := by
  refine ⟨decide (ctxts = Spec.GCM.crypt E (Spec.GCM.j0 (fiv ++ iv)) msgs), ?_, by simp⟩
  simp only [provePublic, computeCounter_eq E fiv iv hf hiv, bind, Except.bind]
  exact finishPublic_eq _ msgs ctxts (by simp) hl

/-- C30: `prove_private_msgs` returns true exactly if the ciphertext is the authenticated message (given as a secret
integer, most significant byte first) under AES-CTR. -/
theorem C30_private (E : Block → Block) (fiv iv : List Byte) (hf : fiv.length = 4) (hiv : iv.length = 8)
    (msgs ctxts : List Byte) :
    ∃ b, provePrivate E (strToInt fiv) iv (strToInt msgs) ctxts msgs.length = .ok b
      ∧ (b = true ↔ ctxts = Spec.GCM.crypt E (Spec.GCM.j0 (fiv ++ iv)) msgs) := by
  refine ⟨decide (ctxts = Spec.GCM.crypt E (Spec.GCM.j0 (fiv ++ iv)) msgs), ?_, by simp⟩
  simp only [provePrivate, computeCounter_eq E fiv iv hf hiv, bind, Except.bind]
  exact finishPrivate_eq _ msgs ctxts (by simp)

/-- A message whose length is not the stated one is refused (by the assertion), whatever the ciphertext. -/
theorem C30_private_length (E : Block → Block) (fiv iv : List Byte) (hf : fiv.length = 4) (hiv : iv.length = 8)
    (msgs : Integer) (ctxts : List Byte) (n : Nat) (hn : msgs.length ≠ 8 * n) :
    ∃ w, provePrivate E (strToInt fiv) iv msgs ctxts n = .error (.error w) := by
  simp only [provePrivate, computeCounter_eq E fiv iv hf hiv, bind, Except.bind, finishPrivate]
  rw [if_pos hn]
  exact ⟨_, rfl⟩

example : ([true] : Integer).length ≠ 8 * 2 := by decide

/-! ### C46: selecting blocks -/

theorem counter_congr (j : Block) (a b : Nat) (h : a % 2 ^ 32 = b % 2 ^ 32) :
    Spec.GCM.counter j a = Spec.GCM.counter j b := by
  apply BitVec.eq_of_toNat_eq
  rw [toNat_counter, toNat_counter]
  omega

theorem dist_succ (t i : BitVec 64) (h : i ≠ t) : (t - i).toNat = (t - (i + 1)).toNat + 1 := by
  have h' : i.toNat ≠ t.toNat := fun e => h (BitVec.eq_of_toNat_eq e)
  have h1 := t.isLt
  have h2 := i.isLt
  have e1 : (i + 1).toNat = (i.toNat + 1) % 2 ^ 64 := by rw [BitVec.toNat_add]; rfl
  rw [BitVec.toNat_sub, BitVec.toNat_sub, e1]
  omega

/-- The number of iterations of the loop of `gctr_opt` when the loop variable is `i`. -/
def stepCount : List (BitVec 64) → BitVec 64 → Nat
  | [], _ => 0
  | id :: rest, i => (id + 1 - i).toNat + 1 + stepCount rest (id + 1 + 1)

/-- The key stream block selected by an id: the encryption of counter block `id + 1` (64-bit arithmetic). -/
def idBlock (E : Block → Block) (j : Block) (id : BitVec 64) : Block := E (Spec.GCM.counter j (id + 1).toNat)

theorem inc_counter (j : Block) (i : BitVec 64) (nonce : Integer) (hl : nonce.length = 128)
    (hn : blk nonce = Spec.GCM.counter j i.toNat) :
    ∃ y, inc nonce 32 = .ok y ∧ y.length = 128 ∧ blk y = Spec.GCM.counter j (i + 1).toNat := by
  obtain ⟨y, h1, h2, h3⟩ := inc_eq nonce hl
  refine ⟨y, h1, h2, ?_⟩
  rw [h3, hn]
  have : (i + 1).toNat = (i.toNat + 1) % 2 ^ 64 := by rw [BitVec.toNat_add]; rfl
  exact counter_congr j (i.toNat + 1) _ (by rw [this]; omega)

theorem gctrOptLoop_eq (E : Block → Block) (j : Block) (ids : List (BitVec 64)) (i : BitVec 64) (nonce : Integer)
    (hl : nonce.length = 128) (hn : blk nonce = Spec.GCM.counter j i.toNat) :
    ∃ nonce', gctrOptLoop E ids i nonce
        = .ok (ids.map fun id => strToInt (Spec.GCM.bytesOf (idBlock E j id)), nonce', stepCount ids i) := by
  induction ids generalizing i nonce with
  | nil => exact ⟨nonce, by rw [gctrOptLoop]; rfl⟩
  | cons id rest ihr =>
    generalize hd : (id + 1 - i).toNat = d
    induction d generalizing i nonce with
    | zero =>
      have hi : i = id + 1 := by
        by_contra hne
        have := dist_succ (id + 1) i hne
        omega
      subst hi
      have ha : aes E nonce = .ok (strToInt (Spec.GCM.bytesOf (idBlock E j id))) := by
        rw [aes, if_pos hl, hn, ofNat_block]; rfl
      cases rest with
      | nil =>
        refine ⟨nonce, ?_⟩
        rw [gctrOptLoop, if_pos rfl, ha]
        simp [stepCount, bind, Except.bind]
      | cons id' rest' =>
        obtain ⟨y, h1, h2, h3⟩ := inc_counter j (id + 1) nonce hl hn
        obtain ⟨n', h4⟩ := ihr (id + 1 + 1) y h2 h3
        refine ⟨n', ?_⟩
        rw [gctrOptLoop, if_pos rfl, ha]
        simp only [bind, Except.bind, h1, h4, List.map_cons]
        have e : stepCount (id :: id' :: rest') (id + 1) = stepCount (id' :: rest') (id + 1 + 1) + 1 := by
          rw [stepCount.eq_2 (id + 1) id, hd]; omega
        rw [e]
    | succ d ihd =>
      have hne : i ≠ id + 1 := by
        intro e
        rw [e, BitVec.sub_self] at hd
        exact absurd hd (by simp)
      have hd' := dist_succ (id + 1) i hne
      obtain ⟨y, h1, h2, h3⟩ := inc_counter j i nonce hl hn
      obtain ⟨n', h4⟩ := ihd (i + 1) y h2 h3 (by omega)
      refine ⟨n', ?_⟩
      rw [gctrOptLoop, if_neg hne, h1]
      simp only [bind, Except.bind, h4]
      have e : stepCount (id :: rest) i = stepCount (id :: rest) (i + 1) + 1 := by
        rw [stepCount.eq_2 i, stepCount.eq_2 (i + 1), hd']; omega
      rw [e]

/-- C46: for every list of ids, `gctr_opt` returns in order the encryptions of the counter blocks `id + 1`, after the
given number of iterations. -/
theorem C46_gctr_opt (E : Block → Block) (ids : List (BitVec 64)) (nonce : Integer) (hl : nonce.length = 128) :
    ∃ nonce', gctrOpt E ids nonce
      = .ok (ids.map fun id => strToInt (Spec.GCM.bytesOf (E (Spec.GCM.counter (blk nonce) (id + 1).toNat))),
          nonce', stepCount ids 0) :=
  gctrOptLoop_eq E (blk nonce) ids 0 nonce hl rfl

/-- C46: with ids below `2^64 - 1` these are exactly the blocks with those numbers of the key stream (block 0 being the
first after the mask block). -/
theorem C46_blocks (E : Block → Block) (ids : List (BitVec 64)) (hid : ∀ id ∈ ids, id ≠ BitVec.allOnes 64)
    (nonce : Integer) (hl : nonce.length = 128) :
    ∃ nonce' n, gctrOpt E ids nonce
      = .ok (ids.map fun id => strToInt (Spec.GCM.bytesOf (E (Spec.GCM.counter (Spec.GCM.inc32 (blk nonce)) id.toNat))),
          nonce', n) := by
  obtain ⟨nonce', h⟩ := C46_gctr_opt E ids nonce hl
  refine ⟨nonce', stepCount ids 0, ?_⟩
  rw [h]
  refine congrArg (fun l => Except.ok (l, nonce', stepCount ids 0)) ?_
  apply List.map_congr_left
  intro id hmem
  have hne : id.toNat ≠ 2 ^ 64 - 1 := fun e => hid id hmem (BitVec.eq_of_toNat_eq (by rw [e]; rfl))
  have h1 := id.isLt
  have : (id + 1).toNat = id.toNat + 1 := by
    have e : (id + 1).toNat = (id.toNat + 1) % 2 ^ 64 := by rw [BitVec.toNat_add]; rfl
    omega
  rw [this, counter_inc]

/-- C46: the id `2^64 - 1` selects the mask block `E(J_0)` of the tag. -/
theorem C46_id_max (E : Block → Block) (nonce : Integer) (hl : nonce.length = 128) :
    ∃ nonce' n, gctrOpt E [BitVec.allOnes 64] nonce
      = .ok ([strToInt (Spec.GCM.bytesOf (E (blk nonce)))], nonce', n) := by
  obtain ⟨nonce', h⟩ := C46_gctr_opt E [BitVec.allOnes 64] nonce hl
  have e : Spec.GCM.counter (blk nonce) (BitVec.allOnes 64 + 1).toNat = blk nonce := by
    rw [show (BitVec.allOnes 64 + 1).toNat = 0 from by decide +kernel]; rfl
  rw [List.map_cons, List.map_nil, e] at h
  exact ⟨nonce', _, h⟩

theorem stepCount_increasing (ids : List (BitVec 64)) (i : BitVec 64) (id : BitVec 64)
    (hp : (id :: ids).Pairwise (· < ·)) (hm : ∀ x ∈ id :: ids, x ≠ BitVec.allOnes 64) (hi : i ≤ id + 1) :
    stepCount (id :: ids) i = ((id :: ids).getLast (by simp)).toNat + 2 - i.toNat := by
  have val : ∀ x : BitVec 64, x ≠ BitVec.allOnes 64 → (x + 1).toNat = x.toNat + 1 := by
    intro x hx
    have hne : x.toNat ≠ 2 ^ 64 - 1 := fun e => hx (BitVec.eq_of_toNat_eq (by rw [e]; rfl))
    have h1 := x.isLt
    have e : (x + 1).toNat = (x.toNat + 1) % 2 ^ 64 := by rw [BitVec.toNat_add]; rfl
    omega
  have h1 := val id (hm id (by simp))
  have hi' : i.toNat ≤ (id + 1).toNat := hi
  have hd : (id + 1 - i).toNat = (id + 1).toNat - i.toNat := by
    have a1 := (id + 1).isLt
    rw [BitVec.toNat_sub]; omega
  induction ids generalizing i id with
  | nil => simp only [stepCount, hd, h1, List.getLast_singleton]; omega
  | cons id' ids ih =>
    have hlt : id < id' := (List.pairwise_cons.1 hp).1 id' (by simp)
    have hlt' : id.toNat < id'.toNat := hlt
    have h1' := val id' (hm id' (by simp))
    have b1 := id'.isLt
    have h2 : (id + 1 + 1).toNat = id.toNat + 2 := by
      have e : (id + 1 + 1).toNat = ((id + 1).toNat + 1) % 2 ^ 64 := by rw [BitVec.toNat_add]; rfl
      have : id'.toNat ≠ 2 ^ 64 - 1 := fun e => hm id' (by simp) (BitVec.eq_of_toNat_eq (by rw [e]; rfl))
      omega
    have hi2 : (id + 1 + 1) ≤ id' + 1 := by show (id + 1 + 1).toNat ≤ (id' + 1).toNat; omega
    have hi2' : (id + 1 + 1).toNat ≤ (id' + 1).toNat := hi2
    have := ih (id + 1 + 1) id' (List.pairwise_cons.1 hp).2 (fun x hx => hm x (List.mem_cons_of_mem _ hx)) hi2 h1' hi2'
      (by have a1 := (id' + 1).isLt; rw [BitVec.toNat_sub]; omega)
    rw [stepCount, this, hd, h1, h2, List.getLast_cons (List.cons_ne_nil id' ids)]
    have hge : ∀ (l : List (BitVec 64)) (x : BitVec 64), (x :: l).Pairwise (· < ·) → x.toNat ≤ ((x :: l).getLast (by simp)).toNat := by
      intro l x hpw
      rcases List.eq_nil_or_concat l with rfl | ⟨l', y, rfl⟩
      · simp
      · rw [List.getLast_cons (by simp)]
        simp only [List.concat_eq_append, List.getLast_append_singleton] 
        have : x < y := (List.pairwise_cons.1 hpw).1 y (by simp)
        exact le_of_lt this
    have := hge ids id' (List.pairwise_cons.1 hp).2
    omega

/-- C46: with strictly increasing ids (below `2^64 - 1`) the loop runs `last id + 2` times. -/
theorem C46_terminates (E : Block → Block) (id : BitVec 64) (ids : List (BitVec 64))
    (hp : (id :: ids).Pairwise (· < ·)) (hm : ∀ x ∈ id :: ids, x ≠ BitVec.allOnes 64)
    (nonce : Integer) (hl : nonce.length = 128) :
    ∃ r nonce', gctrOpt E (id :: ids) nonce = .ok (r, nonce', ((id :: ids).getLast (by simp)).toNat + 2) := by
  obtain ⟨n', h⟩ := C46_gctr_opt E (id :: ids) nonce hl
  rw [stepCount_increasing ids 0 id hp hm (Nat.zero_le _)] at h
  exact ⟨_, n', h⟩

/-- C46: an id that is not larger than the one before costs a full turn of the 64-bit loop variable: the loop then runs
at least `2^64` times, which no execution finishes. -/
theorem C46_repeated_id (E : Block → Block) (a b : BitVec 64) (h : b ≤ a) (ha : a ≠ BitVec.allOnes 64)
    (rest : List (BitVec 64)) (nonce : Integer) (hl : nonce.length = 128) :
    ∃ r nonce' n, gctrOpt E (a :: b :: rest) nonce = .ok (r, nonce', n) ∧ 2 ^ 64 ≤ n := by
  obtain ⟨n', h1⟩ := C46_gctr_opt E (a :: b :: rest) nonce hl
  refine ⟨_, n', _, h1, ?_⟩
  simp only [stepCount]
  have hne : a.toNat ≠ 2 ^ 64 - 1 := fun e => ha (BitVec.eq_of_toNat_eq (by rw [e]; rfl))
  have a1 := a.isLt
  have b1 := b.isLt
  have h' : b.toNat ≤ a.toNat := h
  have e0 : (a + 1).toNat = a.toNat + 1 := by
    have e : (a + 1).toNat = (a.toNat + 1) % 2 ^ 64 := by rw [BitVec.toNat_add]; rfl
    omega
  have e1 : (a + 1 - 0).toNat = a.toNat + 1 := by simpa using e0
  have e2 : (a + 1 + 1).toNat = (a.toNat + 2) % 2 ^ 64 := by
    have e : (a + 1 + 1).toNat = ((a + 1).toNat + 1) % 2 ^ 64 := by rw [BitVec.toNat_add]; rfl
    omega
  have e3 : (b + 1).toNat = b.toNat + 1 := by
    have e : (b + 1).toNat = (b.toNat + 1) % 2 ^ 64 := by rw [BitVec.toNat_add]; rfl
    omega
  rw [e1, BitVec.toNat_sub, e2, e3]
  omega

/-- The hypotheses are met by ids 0, 2, 5 (seven iterations) and by 7, 7 (more than `2^64`). -/
example : ([0, 2, 5] : List (BitVec 64)).Pairwise (· < ·) ∧ ∀ x ∈ ([0, 2, 5] : List (BitVec 64)), x ≠ BitVec.allOnes 64 := by
  simp
example (E : Block → Block) (nonce : Integer) (hl : nonce.length = 128) :
    ∃ r nonce' n, gctrOpt E [7, 7] nonce = .ok (r, nonce', n) ∧ 2 ^ 64 ≤ n :=
  C46_repeated_id E 7 7 (by decide +kernel) (by decide +kernel) [] nonce hl

/-! ### C46: selecting bytes -/

/-- The bytes of a block whose mask byte is not zero, in order. -/
def selected (mask : List Byte) (block : List Byte) : List Byte :=
  ((List.range 16).filter fun j => mask.getD j 0 ≠ 0).map fun j => block.getD j 0

/-- All selected bytes of the key stream, block after block. -/
def selectedStream (E : Block → Block) (j : Block) (infos : List CounterInfo) : List Byte :=
  infos.flatMap fun c => selected c.mask (Spec.GCM.bytesOf (E (Spec.GCM.counter (Spec.GCM.inc32 j) c.id.toNat)))

theorem piece_eq (block : List Byte) (begin j : Nat) (hb : begin ≤ j) (hj : j ≤ block.length) :
    piece (strToInt block) begin j = strToInt ((block.drop begin).take (j - begin)) := by
  have e : block = block.take begin ++ ((block.drop begin).take (j - begin) ++ block.drop j) := by
    have h2 : (block.drop begin).take (j - begin) ++ block.drop j = block.drop begin := by
      have := List.take_append_drop (j - begin) (block.drop begin)
      rw [List.drop_drop, show begin + (j - begin) = j by omega] at this
      exact this
    rw [h2, List.take_append_drop]
  generalize hp : (block.drop begin).take (j - begin) = p at e
  have hpl : p.length = j - begin := by rw [← hp]; simp; omega
  have hl : (strToInt block).length = 8 * block.length := by simp
  rw [piece, hl]
  conv_lhs => rw [e]
  rw [strToInt_append, strToInt_append, List.append_assoc, List.drop_left' (by simp; omega),
    List.take_left' (by simp [hpl]; omega)]

theorem getD_take_succ (l : List Byte) (b j : Nat) (hb : b ≤ j) (hj : j < l.length) :
    (l.drop b).take (j + 1 - b) = (l.drop b).take (j - b) ++ [l.getD j 0] := by
  rw [show j + 1 - b = (j - b) + 1 by omega, List.take_add_one]
  congr 1
  rw [List.getElem?_drop, show b + (j - b) = j by omega, List.getElem?_eq_getElem hj]
  simp [List.getElem?_eq_getElem hj]

theorem maskStep_off (mask : List Byte) (x : Integer) (s : Option Nat × List Integer) (j : Nat) (h : mask.getD j 0 = 0) :
    maskStep mask x s j = match s.1 with
      | some b => (none, s.2 ++ [piece x b j])
      | none => (none, s.2) := by
  rw [maskStep, if_neg (not_not.2 h)]; rcases s with ⟨_ | b, v⟩ <;> rfl
theorem maskStep_on (mask : List Byte) (x : Integer) (s : Option Nat × List Integer) (j : Nat) (h : ¬ mask.getD j 0 = 0) :
    maskStep mask x s j = match s.1 with
      | none => (some j, s.2)
      | some b => (some b, s.2) := by
  rw [maskStep, if_pos h]; rcases s with ⟨_ | b, v⟩ <;> rfl

theorem maskLoop_eq (mask block : List Byte) (hl : block.length = 16) (pre : List Byte) (n : Nat) (hn : n ≤ 16) (vec : List Integer)
    (hv : concatOpt [] vec = strToInt pre) :
    ∃ done, concatOpt [] ((List.range n).foldl (maskStep mask (strToInt block)) (none, vec)).2 = strToInt (pre ++ done)
      ∧ match ((List.range n).foldl (maskStep mask (strToInt block)) (none, vec)).1 with
        | none => done = ((List.range n).filter fun j => mask.getD j 0 ≠ 0).map fun j => block.getD j 0
        | some b => b ≤ n ∧ done ++ (block.drop b).take (n - b)
            = ((List.range n).filter fun j => mask.getD j 0 ≠ 0).map fun j => block.getD j 0 := by
  induction n with
  | zero => exact ⟨[], by simpa using hv, by simp⟩
  | succ n ih =>
    obtain ⟨done, h1, h2⟩ := ih (by omega)
    rw [List.range_succ, List.foldl_append, List.foldl_cons, List.foldl_nil]
    generalize (List.range n).foldl (maskStep mask (strToInt block)) (none, vec) = s at h1 h2
    obtain ⟨b, vec'⟩ := s
    simp only at h1 h2
    rw [List.filter_append, List.map_append]
    by_cases hm : mask.getD n 0 = 0
    · have hm' : List.filter (fun j => decide (mask.getD j 0 ≠ 0)) [n] = [] := by
        rw [List.filter_cons_of_neg (by rw [hm]; decide), List.filter_nil]
      rw [hm', List.map_nil, List.append_nil]
      cases b with
      | none => exact ⟨done, by rw [maskStep_off _ _ _ _ hm]; exact h1, by rw [maskStep_off _ _ _ _ hm]; exact h2⟩
      | some b =>
        refine ⟨done ++ (block.drop b).take (n - b), ?_, ?_⟩
        · rw [maskStep_off _ _ _ _ hm]
          simp only
          rw [concatOpt_eq, concat_eq] at h1 ⊢
          rw [List.reverse_append, List.flatten_append, List.append_nil]
          rw [List.append_nil] at h1
          rw [h1, piece_eq _ _ _ h2.1 (by omega)]
          simp only [strToInt_append, List.reverse_cons, List.reverse_nil, List.nil_append, List.flatten_cons, List.flatten_nil,
            List.append_nil, List.append_assoc]
        · rw [maskStep_off _ _ _ _ hm]; exact h2.2
    · have hm' : List.filter (fun j => decide (mask.getD j 0 ≠ 0)) [n] = [n] := by
        exact List.filter_cons_of_pos (decide_eq_true hm)
      rw [hm', List.map_cons, List.map_nil]
      cases b with
      | none =>
        rw [maskStep_on _ _ _ _ hm]
        refine ⟨done, h1, ?_⟩
        simp only
        refine ⟨by omega, ?_⟩
        rw [h2, getD_take_succ _ _ _ (le_refl n) (by omega)]
        simp
      | some b =>
        rw [maskStep_on _ _ _ _ hm]
        refine ⟨done, h1, ?_⟩
        simp only
        refine ⟨by omega, ?_⟩
        rw [← h2.2, getD_take_succ _ _ _ h2.1 (by omega), List.append_assoc]

theorem maskBlock_eq (mask block : List Byte) (hl : block.length = 16) (pre : List Byte) (vec : List Integer)
    (hv : concatOpt [] vec = strToInt pre) :
    concatOpt [] (maskBlock mask (strToInt block) vec) = strToInt (pre ++ selected mask block) := by
  obtain ⟨done, h1, h2⟩ := maskLoop_eq mask block hl pre 16 (le_refl _) vec hv
  unfold maskBlock
  generalize (List.range 16).foldl (maskStep mask (strToInt block)) (none, vec) = s at h1 h2
  obtain ⟨b, vec'⟩ := s
  cases b with
  | none =>
    simp only at h1 h2 ⊢
    rw [h1, h2]; rfl
  | some b =>
    simp only at h1 h2 ⊢
    rw [selected, ← h2.2]
    rw [concatOpt_eq, concat_eq] at h1 ⊢
    rw [List.reverse_append, List.flatten_append, List.append_nil]
    rw [List.append_nil] at h1
    rw [h1, piece_eq _ _ _ h2.1 (by omega)]
    simp only [strToInt_append, List.reverse_cons, List.reverse_nil, List.nil_append, List.flatten_cons, List.flatten_nil,
      List.append_nil, List.append_assoc]

/-- C46: `computeCounterOpt` returns exactly the key stream bytes whose mask byte is set, in order (most significant
byte first). -/
theorem C46_computeCounterOpt (E : Block → Block) (fiv iv : List Byte) (hf : fiv.length = 4) (hiv : iv.length = 8)
    (infos : List CounterInfo) (hid : ∀ c ∈ infos, c.id ≠ BitVec.allOnes 64) :
    computeCounterOpt E (strToInt fiv) infos iv
      = .ok (strToInt (selectedStream E (Spec.GCM.j0 (fiv ++ iv)) infos)) := by
  obtain ⟨n', n, h⟩ := C46_blocks E (infos.map CounterInfo.id)
    (by intro id hm; obtain ⟨c, hc, rfl⟩ := List.mem_map.1 hm; exact hid c hc)
    (strToInt (fiv ++ iv ++ [0#8, 0#8, 0#8, 1#8])) (by simp [hf, hiv])
  simp only [computeCounterOpt, setNonce_eq fiv iv hiv, bind, Except.bind, h]
  congr 1
  rw [blk_strToInt, List.map_map]
  change concatOpt [] (List.foldl _ [] (infos.zip (infos.map fun c =>
    strToInt (Spec.GCM.bytesOf (E (Spec.GCM.counter (Spec.GCM.inc32 (Spec.GCM.j0 (fiv ++ iv))) c.id.toNat)))))) = _
  generalize Spec.GCM.j0 (fiv ++ iv) = j
  clear h hid
  have key : ∀ (infos : List CounterInfo) (pre : List Byte) (vec : List Integer), concatOpt [] vec = strToInt pre →
      concatOpt [] (List.foldl (fun vec p => maskBlock p.1.mask p.2 vec) vec (infos.zip (infos.map fun c =>
        strToInt (Spec.GCM.bytesOf (E (Spec.GCM.counter (Spec.GCM.inc32 j) c.id.toNat))))))
      = strToInt (pre ++ selectedStream E j infos) := by
    intro infos
    induction infos with
    | nil => intro pre vec hv; simpa [selectedStream] using hv
    | cons c cs ih =>
      intro pre vec hv
      simp only [List.map_cons, List.zip_cons_cons, List.foldl_cons]
      rw [ih _ _ (maskBlock_eq c.mask _ (by simp) pre vec hv), List.append_assoc]
      rfl
  have := key infos [] [] (by rfl)
  simpa using this

/-- C30: `prove_public_msgs_opt` returns true exactly if message and ciphertext agree under the selected key stream
bytes, provided the masks select as many bytes as the message has. -/
theorem C30_public_opt (E : Block → Block) (fiv iv : List Byte) (hf : fiv.length = 4) (hiv : iv.length = 8)
    (infos : List CounterInfo) (hid : ∀ c ∈ infos, c.id ≠ BitVec.allOnes 64) (msgs ctxts : List Byte)
    (hl : ctxts.length = msgs.length)
    (hn : (selectedStream E (Spec.GCM.j0 (fiv ++ iv)) infos).length = msgs.length) :
    ∃ b, provePublicOpt E (strToInt fiv) infos iv msgs ctxts = .ok b
      ∧ (b = true ↔ ctxts = List.zipWith (· ^^^ ·) msgs (selectedStream E (Spec.GCM.j0 (fiv ++ iv)) infos)) := by
  refine ⟨_, ?_, decide_eq_true_iff⟩
  simp only [provePublicOpt, C46_computeCounterOpt E fiv iv hf hiv infos hid, bind, Except.bind]
  exact finishPublic_eq _ msgs ctxts hn hl

/-- C30: the same for `prove_private_msgs_opt`. -/
theorem C30_private_opt (E : Block → Block) (fiv iv : List Byte) (hf : fiv.length = 4) (hiv : iv.length = 8)
    (infos : List CounterInfo) (hid : ∀ c ∈ infos, c.id ≠ BitVec.allOnes 64) (msgs ctxts : List Byte)
    (hn : (selectedStream E (Spec.GCM.j0 (fiv ++ iv)) infos).length = msgs.length) :
    ∃ b, provePrivateOpt E (strToInt fiv) infos iv (strToInt msgs) ctxts msgs.length = .ok b
      ∧ (b = true ↔ ctxts = List.zipWith (· ^^^ ·) msgs (selectedStream E (Spec.GCM.j0 (fiv ++ iv)) infos)) := by
  refine ⟨_, ?_, decide_eq_true_iff⟩
  simp only [provePrivateOpt, C46_computeCounterOpt E fiv iv hf hiv infos hid, bind, Except.bind]
  exact finishPrivate_eq _ msgs ctxts hn

/-- C30, the missing check: if the masks select a different number of bytes than `msg_len` says, the public variant writes
or reads outside its buffers. -/
theorem C30_mask_count_unchecked (E : Block → Block) (fiv iv : List Byte) (hf : fiv.length = 4) (hiv : iv.length = 8)
    (infos : List CounterInfo) (hid : ∀ c ∈ infos, c.id ≠ BitVec.allOnes 64) (msgs ctxts : List Byte)
    (hn : (selectedStream E (Spec.GCM.j0 (fiv ++ iv)) infos).length ≠ msgs.length) :
    ∃ w, provePublicOpt E (strToInt fiv) infos iv msgs ctxts = .error (.ub w) := by
  simp only [provePublicOpt, C46_computeCounterOpt E fiv iv hf hiv infos hid, bind, Except.bind, finishPublic,
    toBytes_strToInt, List.length_reverse]
  rcases Nat.lt_or_gt_of_ne hn with h | h
  · rw [if_neg (by omega), if_pos h]; exact ⟨_, rfl⟩
  · rw [if_pos h]; exact ⟨_, rfl⟩

/-- A concrete case: bytes 1, 2 and 15 of block 3. -/
example : ∃ b, provePublicOpt (fun x => x) (strToInt [1, 2, 3, 4])
    [⟨3, [0, 1, 1, 0, 0, 0, 0, 0, 0, 0, 0, 0, 0, 0, 0, 1]⟩] [5, 6, 7, 8, 9, 10, 11, 12] [10, 20, 30] [8, 23, 27] = .ok b
    ∧ b = true := by
  have h := C30_public_opt (fun x => x) [1, 2, 3, 4] [5, 6, 7, 8, 9, 10, 11, 12] rfl rfl
    [⟨3, [0, 1, 1, 0, 0, 0, 0, 0, 0, 0, 0, 0, 0, 0, 0, 1]⟩] (by decide) [10, 20, 30] [8, 23, 27] rfl (by decide +kernel)
  obtain ⟨b, h1, h2⟩ := h
  exact ⟨b, h1, h2.2 (by decide +kernel)⟩

end Verif.Props
