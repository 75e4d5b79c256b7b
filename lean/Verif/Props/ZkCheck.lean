import Verif.Model.ZkCheck
import Verif.Lemmas.GCM
import Mathlib.Data.List.GetD

/-!
C32 and C33: the zero check and the share consistency check.
-/

namespace Verif.Props
open Verif.Model Verif.Model.Integer Verif.Model.ZkCheck Verif.Lemmas

/-- `b * Delta`. -/
def bitMul (delta : Block) (b : Bool) : Block := if b then delta else 0

/-- The MAC relation: `mac = key ^ x * Delta` wire by wire. -/
structure Mac (delta : Block) (macs keys : List Block) (x : Integer) : Prop where
  len : keys.length = x.length
  mac : macs = List.zipWith (fun k b => k ^^^ bitMul delta b) keys x

/-- The blocks of the two parties authenticate the bits `x`, and ALICE reads `x` from the least significant bits (the
convention of emp-zk). -/
structure Auth (delta : Block) (macs keys : List Block) (x : Integer) : Prop extends Mac delta macs keys x where
  lsb : macs.map (fun m => m.getLsbD 0) = x

theorem Mac.mac_len {delta macs keys x} (h : Mac delta macs keys x) : macs.length = x.length := by
  rw [h.mac, List.length_zipWith, h.len, Nat.min_self]

theorem Mac.get {delta macs keys x} (h : Mac delta macs keys x) (i : Nat) (hi : i < x.length) :
    macs[i]'(by rw [h.mac_len]; exact hi) = keys[i]'(by rw [h.len]; exact hi) ^^^ bitMul delta x[i] := by
  simp only [h.mac, List.getElem_zipWith]

/-- Authenticated bits exist for every value: keys with least significant bit zero, `Delta` with least significant bit
one. -/
theorem Auth.intro (delta : Block) (hd : delta.getLsbD 0 = true) (keys : List Block)
    (hk : ∀ k ∈ keys, k.getLsbD 0 = false) (x : Integer) (hl : keys.length = x.length) :
    Auth delta (List.zipWith (fun k b => k ^^^ bitMul delta b) keys x) keys x := by
  refine ⟨⟨hl, rfl⟩, ?_⟩
  apply List.ext_getElem
  · simp [hl]
  · intro i h1 h2
    simp only [List.getElem_map, List.getElem_zipWith, BitVec.getLsbD_xor]
    rw [hk _ (List.getElem_mem _)]
    cases x[i] <;> simp [bitMul, hd]

/-- The public constants authenticate their bits. -/
structure PubOk (delta : Block) (pub : Pub) : Prop where
  mac : ∀ b, pub.mac b = pub.key b ^^^ bitMul delta b
  lsb : ∀ b, (pub.mac b).getLsbD 0 = b

theorem bitMul_xor (delta : Block) (a b : Bool) : bitMul delta (Bool.xor a b) = bitMul delta a ^^^ bitMul delta b := by
  cases a <;> cases b <;> simp [bitMul]

theorem PubOk.map {delta pub} (h : PubOk delta pub) (x : Integer) : Mac delta (x.map pub.mac) (x.map pub.key) x := by
  refine ⟨by simp, ?_⟩
  apply List.ext_getElem
  · simp
  · intro i h1 h2
    simp only [List.getElem_map, List.getElem_zipWith, h.mac]

theorem Mac.xor {delta m1 k1 x1 m2 k2 x2} (h1 : Mac delta m1 k1 x1) (h2 : Mac delta m2 k2 x2)
    (hl : x1.length = x2.length) : Mac delta (xorWires m1 m2) (xorWires k1 k2) (Integer.xor x1 x2) := by
  refine ⟨by simp [xorWires, Integer.xor, h1.len, h2.len], ?_⟩
  rw [h1.mac, h2.mac]
  apply List.ext_getElem
  · simp [xorWires, Integer.xor, h1.len, h2.len]
  · intro i g1 g2
    simp only [xorWires, Integer.xor, List.getElem_zipWith, bitMul_xor]
    ac_rfl

theorem xor_left_eq (k d : Block) : k ^^^ d = k ↔ d = 0 := by
  constructor
  · intro h
    have := congrArg (k ^^^ ·) h
    simpa [← BitVec.xor_assoc] using this
  · intro h; simp [h]

/-- The two lists of a MAC relation are equal exactly if all bits are zero. -/
theorem mac_eq_key (delta : Block) (hd : delta ≠ 0) (keys : List Block) (x : Integer) (hl : keys.length = x.length) :
    List.zipWith (fun k b => k ^^^ bitMul delta b) keys x = keys ↔ ∀ b ∈ x, b = false := by
  induction keys generalizing x with
  | nil =>
    have : x = [] := List.length_eq_zero_iff.1 hl.symm
    simp [this]
  | cons k keys ih =>
    cases x with
    | nil => simp at hl
    | cons b x =>
      rw [List.zipWith_cons_cons, List.cons.injEq, ih x (by simpa using hl), xor_left_eq]
      cases b with
      | false => simp [bitMul]
      | true => simp only [bitMul, if_true, hd, false_and, List.mem_cons, forall_eq_or_imp, Bool.true_eq_false]

theorem append_eq_append_iff_len {α : Type} (a b c d : List α) (h : a.length = b.length) : a ++ c = b ++ d ↔ a = b ∧ c = d :=
  ⟨fun e => List.append_inj e h, fun e => by rw [e.1, e.2]⟩

/-- Xor of two bit lists is zero exactly if they are equal. -/
theorem xor_zero_iff (x y : Integer) (hl : x.length = y.length) : (∀ b ∈ Integer.xor x y, b = false) ↔ x = y := by
  induction x generalizing y with
  | nil => cases y with
    | nil => simp [Integer.xor]
    | cons b y => simp at hl
  | cons a x ih =>
    cases y with
    | nil => simp at hl
    | cons b y =>
      have := ih y (by simpa using hl)
      simp only [Integer.xor] at this
      simp only [Integer.xor, List.zipWith_cons_cons, List.mem_cons, forall_eq_or_imp, this, List.cons.injEq]
      cases a <;> cases b <;> simp

/-! ### C32 -/

/-- C32: for authenticated bits both parties put the same blocks exactly if all bits are zero (and the blocks put before
were the same). -/
theorem C32_check_zero (delta : Block) (hd : delta ≠ 0) (t : Tr) (ht : t.a.length = t.b.length)
    (macs keys : List Block) (x : Integer) (h : Mac delta macs keys x) :
    (checkZero t macs keys).a = (checkZero t macs keys).b ↔ t.a = t.b ∧ ∀ b ∈ x, b = false := by
  simp only [checkZero]
  rw [append_eq_append_iff_len _ _ _ _ ht, h.mac, mac_eq_key delta hd keys x h.len]

/-- The run of a whole sequence of zero checks. -/
def checkAll (t : Tr) (l : List (List Block × List Block)) : Tr := l.foldl (fun t p => checkZero t p.1 p.2) t

/-- C32, batched: after any number of zero checks of authenticated values the two hash inputs agree exactly if every one of
the values is zero. -/
theorem C32_batch (delta : Block) (hd : delta ≠ 0) (t : Tr) (ht : t.a.length = t.b.length)
    (l : List ((List Block × List Block) × Integer)) (h : ∀ p ∈ l, Mac delta p.1.1 p.1.2 p.2) :
    (checkAll t (l.map Prod.fst)).a = (checkAll t (l.map Prod.fst)).b
      ↔ t.a = t.b ∧ ∀ p ∈ l, ∀ b ∈ p.2, b = false := by
  induction l generalizing t with
  | nil => simp [checkAll]
  | cons p l ih =>
    have hp := h p (by simp)
    have := ih (checkZero t p.1.1 p.1.2)
      (by simp only [checkZero, List.length_append, ht, hp.mac_len, hp.len]) (fun q hq => h q (by simp [hq]))
    simp only [checkAll, List.map_cons, List.foldl_cons] at this ⊢
    rw [this, C32_check_zero delta hd t ht _ _ _ hp]
    simp only [List.mem_cons, forall_eq_or_imp, and_assoc]

/-- C32, soundness against a prover who puts arbitrary blocks `m'`: to make BOB's hash input agree although some bit is one
she must find a block that differs from her own by `Delta`. -/
theorem C32_extract (delta : Block) (macs keys : List Block) (x : Integer) (h : Mac delta macs keys x)
    (m' : List Block) (heq : m' = keys) (i : Nat) (hi : i < x.length) (hx : x[i] = true) :
    m'.getD i 0 ^^^ macs.getD i 0 = delta := by
  subst heq
  have hk : i < m'.length := by rw [h.len]; exact hi
  have hm : i < macs.length := by rw [h.mac_len]; exact hi
  rw [List.getD_eq_getElem _ _ hk, List.getD_eq_getElem _ _ hm, h.get i hi, hx, ← BitVec.xor_assoc, BitVec.xor_self,
    BitVec.zero_xor]
  rfl

theorem toBytes_eq_iff (x : Integer) (d : List Byte) (hl : x.length = d.length * 8) : toBytes x = d ↔ x = ofBytes d := by
  constructor
  · intro h
    obtain ⟨l, h1, h2⟩ := exists_strToInt x d.length (by omega)
    rw [h2, strToInt, toBytes_ofBytes] at h
    rw [h2, ← h]; rfl
  · intro h; rw [h, toBytes_ofBytes]

/-- C32 for any element type: if the call does not stop, the two hash inputs agree afterwards exactly if the authenticated
value is the data; if it stops, the value is not the data. -/
theorem C32_data (delta : Block) (hd : delta ≠ 0) (pub : Pub) (hp : PubOk delta pub) (w len : Nat) (t : Tr)
    (ht : t.a.length = t.b.length) (macs keys : List Block) (x : Integer) (h : Auth delta macs keys x)
    (data : List Byte) (hdata : data.length = len * w) (hx : x.length = len * w * 8) :
    match checkZeroData pub w len t macs keys data data with
    | .ok t' => t'.a = t'.b ↔ t.a = t.b ∧ x = ofBytes data
    | .error _ => x ≠ ofBytes data := by
  have hl : (ofBytes data).length = x.length := by rw [length_ofBytes, hdata, hx]; omega
  simp only [checkZeroData]
  rw [if_neg (by rw [h.mac_len, hx]; simp), h.lsb]
  split
  · rename_i hs
    split at hs
    · cases hs
    · simp only [Except.ok.injEq] at hs
      rw [← hs, C32_check_zero delta hd t ht _ _ _ ((hp.map _).xor h.toMac hl), xor_zero_iff _ _ hl, eq_comm (a := x)]
  · rename_i hs
    split at hs
    · rename_i hne
      intro he
      apply hne
      rw [he, toBytes_ofBytes]
    · cases hs

/-- C32 for bytes: the local check of ALICE rejects every other value, so the call succeeds exactly if the authenticated
value is the data, and then both parties have put the same blocks. -/
theorem C32_bytes (delta : Block) (hd : delta ≠ 0) (pub : Pub) (hp : PubOk delta pub) (len : Nat) (t : Tr)
    (ht : t.a = t.b) (macs keys : List Block) (x : Integer) (h : Auth delta macs keys x)
    (data : List Byte) (hdata : data.length = len) (hx : x.length = len * 8) :
    (∃ t', checkZeroData pub 1 len t macs keys data data = .ok t' ∧ t'.a = t'.b) ↔ x = ofBytes data := by
  have key := C32_data delta hd pub hp 1 len t (by rw [ht]) macs keys x h data (by omega) (by omega)
  constructor
  · rintro ⟨t', h1, h2⟩
    rw [h1] at key
    exact (key.1 h2).2
  · intro he
    cases hr : checkZeroData pub 1 len t macs keys data data with
    | error e => rw [hr] at key; exact absurd he key
    | ok t' => rw [hr] at key; exact ⟨t', rfl, key.2 ⟨ht, he⟩⟩

/-- C32 for bytes: every other value is refused on ALICE's side already. -/
theorem C32_bytes_refused (pub : Pub) (len : Nat) (t : Tr) (delta : Block)
    (macs keys : List Block) (x : Integer) (h : Auth delta macs keys x)
    (data : List Byte) (hdata : data.length = len) (hx : x.length = len * 8) (hne : x ≠ ofBytes data) :
    checkZeroData pub 1 len t macs keys data data
      = .error (.error "opened data is not consistent in ALICE side!") := by
  simp only [checkZeroData]
  rw [if_neg (by rw [h.mac_len, hx]; omega), h.lsb, if_pos]
  obtain ⟨l, h1, h2⟩ := exists_strToInt x len (by omega)
  rw [List.take_of_length_le (by rw [h2, strToInt, toBytes_ofBytes]; simp [h1]), List.take_of_length_le (by omega)]
  intro e
  exact hne ((toBytes_eq_iff x data (by omega)).1 e)

/-- C32, the defect: `memcmp` compares `len` bytes instead of `len * sizeof(T)`.  For 32-bit words (the type used by the
hash and PRF checks) ALICE's local check passes whenever the first quarter agrees, although the value is another one. -/
theorem C32_local_check_short (delta : Block) (pub : Pub) (len : Nat) (t : Tr) (macs keys : List Block)
    (pre tail data : List Byte) (hpre : pre.length = len) (htail : tail.length = 3 * len) (hne : tail ≠ data) (h : Auth delta macs keys (ofBytes (pre ++ tail))) :
    ofBytes (pre ++ tail) ≠ ofBytes (pre ++ data)
      ∧ ∃ t', checkZeroData pub 4 len t macs keys (pre ++ data) (pre ++ data) = .ok t' := by
  refine ⟨?_, ?_⟩
  · intro e
    have := congrArg toBytes e
    rw [toBytes_ofBytes, toBytes_ofBytes, List.append_cancel_left_eq] at this
    exact hne this
  · simp only [checkZeroData]
    rw [if_neg (by rw [h.mac_len, length_ofBytes, List.length_append]; omega), h.lsb, toBytes_ofBytes, if_neg]
    · exact ⟨_, rfl⟩
    · rw [← hpre, List.take_left, List.take_left]; simp

/-- The hypotheses are met: one authenticated word against another one. -/
example : ∃ (delta : Block) (macs keys : List Block) (pre tail data : List Byte), delta ≠ 0 ∧ pre.length = 1
    ∧ tail.length = 3 ∧ data.length = 3 ∧ tail ≠ data ∧ Auth delta macs keys (ofBytes (pre ++ tail)) :=
  ⟨0x9d#128, _, List.replicate 32 0x6a#128, [7], [1, 2, 3], [1, 2, 4], by decide, rfl, rfl, rfl, by decide,
    Auth.intro _ (by decide) _ (by intro k hk; rw [List.eq_of_mem_replicate hk]; decide) _ (by decide)⟩

/-! ### C33 -/

/-- An integer of the wrong length is refused. -/
theorem C32_length_refused (pub : Pub) (w len : Nat) (t : Tr) (delta : Block) (macs keys : List Block) (x : Integer)
    (h : Mac delta macs keys x) (dataA dataB : List Byte) (hx : x.length ≠ len * w * 8) :
    checkZeroData pub w len t macs keys dataA dataB = .error (.error "inconsistent length!") := by
  rw [checkZeroData, if_pos (by rw [h.mac_len]; exact hx)]

example : ∃ x : Integer, Mac 3#128 [4#128 ^^^ bitMul 3#128 true] [4#128] x ∧ x.length ≠ 1 * 1 * 8 := ⟨[true], ⟨rfl, rfl⟩, by decide⟩

theorem testBit_block (blk : Block) (i : Nat) (hi : i < 128) : (1#128 <<< i &&& blk = 1#128 <<< i) ↔ blk.getLsbD i = true := by
  constructor
  · intro h
    have := congrArg (fun b : Block => b.getLsbD i) h
    simpa [hi] using this
  · intro h
    apply BitVec.eq_of_getLsbD_eq
    intro j hj
    rw [BitVec.getLsbD_and]
    by_cases e : j = i
    · rw [e, h, Bool.and_true]
    · have : (1#128 <<< i).getLsbD j = false := by
        rw [BitVec.getLsbD_shiftLeft, BitVec.getLsbD_one]
        rcases Nat.lt_or_gt_of_ne e with h' | h'
        · simp [h']
        · simp; omega
      rw [this, Bool.false_and]

/-- The bits of a block. -/
def blockBits (b : Block) : Integer := (List.range 128).map fun i => b.getLsbD i

theorem addBlock_eq (delta : Block) (keys : List Block) (hk : keys.length = 128) (blk : Block) :
    addBlock delta keys blk = addBits delta keys (blockBits blk) := by
  apply List.ext_getElem
  · simp [addBlock, addBits, blockBits, hk]
  · intro i h1 h2
    have hi : i < 128 := by simpa [addBlock, hk] using h1
    simp only [addBlock, addBits, blockBits, List.getElem_map, List.getElem_range, List.getElem_zipWith, testBit_block blk i hi]
    rw [List.getD_eq_getElem _ _ (by omega)]

/-- Adding public bits on BOB's side. -/
theorem Mac.addBits {delta macs keys x} (h : Mac delta macs keys x) (y : Integer) (hl : y.length = x.length) :
    Mac delta macs (addBits delta keys y) (Integer.xor x y) := by
  refine ⟨by simp [ZkCheck.addBits, Integer.xor, h.len], ?_⟩
  rw [h.mac]
  apply List.ext_getElem
  · simp [ZkCheck.addBits, Integer.xor, h.len, hl]
  · intro i g1 g2
    simp only [ZkCheck.addBits, Integer.xor, List.getElem_zipWith]
    cases x[i]'(by simp at g1; omega) <;> cases y[i]'(by simp at g1; omega) <;> simp [bitMul, BitVec.xor_assoc]

/-- C33, block variant: the two hash inputs agree afterwards exactly if the authenticated result is the xor of ALICE's
authenticated share and BOB's block. -/
theorem C33_block (delta : Block) (hd : delta ≠ 0) (t : Tr) (ht : t.a.length = t.b.length)
    (resM resK preM preK : List Block) (r a : Integer) (hr : Mac delta resM resK r) (ha : Mac delta preM preK a)
    (hrl : r.length = 128) (hal : a.length = 128) (blk : Block) :
    ∃ t' preK', homAddBlock delta t resM resK preM preK blk = .ok (t', preK')
      ∧ (t'.a = t'.b ↔ t.a = t.b ∧ r = Integer.xor a (blockBits blk)) := by
  refine ⟨?_, ?_, ?_, ?_⟩
  rotate_left 2
  · rw [homAddBlock, if_neg (by simp [ha.mac_len, hal]), if_neg (by simp [hr.mac_len, hrl])]
  · rw [addBlock_eq delta preK (by rw [ha.len, hal]) blk]
    have hb : (blockBits blk).length = a.length := by simp [blockBits, hal]
    have hx : r.length = (Integer.xor a (blockBits blk)).length := by simp [Integer.xor, hb, hal, hrl]
    rw [C32_check_zero delta hd t ht _ _ _ (hr.xor (ha.addBits _ hb) hx), xor_zero_iff _ _ hx]

/-- C33, byte variant. -/
theorem C33_bytes (delta : Block) (hd : delta ≠ 0) (t : Tr) (ht : t.a.length = t.b.length)
    (resM resK preM preK : List Block) (r a : Integer) (hr : Mac delta resM resK r) (ha : Mac delta preM preK a)
    (len : Nat) (hrl : r.length = len * 8) (hal : a.length = len * 8) (share : List Byte) (hs : share.length = len) :
    ∃ t' preK', homAddBytes delta t resM resK preM preK share len = .ok (t', preK')
      ∧ (t'.a = t'.b ↔ t.a = t.b ∧ r = Integer.xor a (ofBytes share)) := by
  refine ⟨?_, ?_, ?_, ?_⟩
  rotate_left 2
  · rw [homAddBytes, if_neg (by simp [ha.mac_len, hal]), if_neg (by simp [hr.mac_len, hrl])]
  · rw [List.take_of_length_le (by omega)]
    have hb : (ofBytes share).length = a.length := by rw [length_ofBytes]; omega
    have hx : r.length = (Integer.xor a (ofBytes share)).length := by simp [Integer.xor, hs, hal, hrl]; omega
    rw [C32_check_zero delta hd t ht _ _ _ (hr.xor (ha.addBits _ hb) hx), xor_zero_iff _ _ hx]

/-- Integers of the wrong length are refused by both checks. -/
theorem C33_length_refused (delta : Block) (t : Tr) (resM resK preM preK : List Block) (r a : Integer) (hr : Mac delta resM resK r)
    (ha : Mac delta preM preK a) (blk : Block) (share : List Byte) (len : Nat) :
    (a.length ≠ 128 ∨ r.length ≠ 128 → ∃ w, homAddBlock delta t resM resK preM preK blk = .error (.error w))
    ∧ (a.length ≠ len * 8 ∨ r.length ≠ len * 8 → ∃ w, homAddBytes delta t resM resK preM preK share len = .error (.error w)) := by
  have h1 := hr.mac_len
  have h2 := ha.mac_len
  constructor
  · intro h
    unfold homAddBlock
    split
    · exact ⟨_, rfl⟩
    · rw [if_pos (by omega)]; exact ⟨_, rfl⟩
  · intro h
    unfold homAddBytes
    split
    · exact ⟨_, rfl⟩
    · rw [if_pos (by omega)]; exact ⟨_, rfl⟩

/-- C33, soundness against a prover who puts arbitrary blocks `m'`: if BOB's input agrees although the shares do not add up
at bit `i`, she has found `Delta`. -/
theorem C33_extract (delta : Block) (t : Tr) (resM resK preM preK : List Block) (r a : Integer)
    (hr : Mac delta resM resK r) (ha : Mac delta preM preK a) (hrl : r.length = 128) (hal : a.length = 128) (blk : Block)
    (t' : Tr) (preK' m' : List Block) (hrun : homAddBlock delta t resM resK preM preK blk = .ok (t', preK'))
    (heq : t'.b = t.b ++ m') (i : Nat) (hi : i < 128)
    (hne : r[i] ≠ Bool.xor a[i] (blk.getLsbD i)) :
    m'.getD i 0 ^^^ (xorWires resM preM).getD i 0 = delta := by
  rw [homAddBlock, if_neg (by simp [ha.mac_len, hal]), if_neg (by simp [hr.mac_len, hrl])] at hrun
  simp only [Except.ok.injEq, Prod.mk.injEq] at hrun
  rw [← hrun.1, checkZero, addBlock_eq delta preK (by rw [ha.len, hal]) blk] at heq
  have hb : (blockBits blk).length = a.length := by simp [blockBits, hal]
  have hx : r.length = (Integer.xor a (blockBits blk)).length := by simp [Integer.xor, hb, hal, hrl]
  refine C32_extract delta _ _ _ (hr.xor (ha.addBits _ hb) hx) m' (List.append_cancel_left heq).symm i
    (by simp [Integer.xor, hb, hal, hrl]; omega) ?_
  simp only [Integer.xor, List.getElem_zipWith, blockBits, List.getElem_map, List.getElem_range]
  revert hne
  cases r[i] <;> cases a[i] <;> cases blk.getLsbD i <;> simp

theorem addBits_twice (delta : Block) (keys : List Block) (y : Integer) (hl : keys.length = y.length) :
    addBits delta (addBits delta keys y) y = keys := by
  apply List.ext_getElem
  · simp [addBits, hl]
  · intro i g1 g2
    simp only [addBits, List.getElem_zipWith]
    cases y[i]'(by omega)
    · simp
    · simp [BitVec.xor_assoc]

/-- C33, side effect: BOB's keys of `pre_res` are changed in place, so a second check of the same objects is a check that the
result is ALICE's share alone; with a non-zero share of BOB it fails for consistent values. -/
theorem C33_not_repeatable (delta : Block) (hd : delta ≠ 0) (t : Tr) (ht : t.a.length = t.b.length)
    (resM resK preM preK : List Block) (r a : Integer) (hr : Mac delta resM resK r) (ha : Mac delta preM preK a)
    (hrl : r.length = 128) (hal : a.length = 128) (blk : Block) (t1 : Tr) (preK1 : List Block)
    (h1 : homAddBlock delta t resM resK preM preK blk = .ok (t1, preK1)) :
    ∃ t2, homAddBlock delta t1 resM resK preM preK1 blk = .ok (t2, preK)
      ∧ (t2.a = t2.b ↔ t1.a = t1.b ∧ r = a) := by
  rw [homAddBlock, if_neg (by simp [ha.mac_len, hal]), if_neg (by simp [hr.mac_len, hrl])] at h1
  simp only [Except.ok.injEq, Prod.mk.injEq] at h1
  have hk : preK.length = 128 := by rw [ha.len, hal]
  have hb : (blockBits blk).length = a.length := by simp [blockBits, hal]
  rw [addBlock_eq delta preK hk blk] at h1
  have e : addBlock delta preK1 blk = preK := by
    rw [← h1.2, addBlock_eq delta _ (by simp [addBits, hk, hb, hal]), addBits_twice _ _ _ (by rw [hk, hb, hal])]
  refine ⟨?_, ?_, ?_⟩
  rotate_left 1
  · rw [homAddBlock, if_neg (by simp [ha.mac_len, hal]), if_neg (by simp [hr.mac_len, hrl]), e]
  · rw [C32_check_zero delta hd t1 _ _ _ _ (hr.xor ha (by omega)), xor_zero_iff _ _ (by omega)]
    rw [← h1.1]
    simp [checkZero, xorWires, ht, hr.mac_len, ha.mac_len, hr.len, ha.len, addBits, hk, hb, hal, hrl]

/-- The hypotheses of C33 are met by non-trivial values. -/
example : ∃ (delta : Block) (rM rK pM pK : List Block) (r a : Integer), delta ≠ 0 ∧ Mac delta rM rK r ∧ Mac delta pM pK a
    ∧ r.length = 128 ∧ a.length = 128 ∧ r = Integer.xor a (blockBits 0x1234#128) ∧ r ≠ a :=
  ⟨0x9d#128, _, List.replicate 128 0x6a#128, _, List.replicate 128 0x4c#128,
    Integer.xor (ofNat 128 77) (blockBits 0x1234#128), ofNat 128 77, by decide,
    (Auth.intro _ (by decide) _ (by intro k hk; rw [List.eq_of_mem_replicate hk]; decide) _ (by simp [Integer.xor, blockBits])).toMac,
    (Auth.intro _ (by decide) _ (by intro k hk; rw [List.eq_of_mem_replicate hk]; decide) _ (by simp)).toMac,
    by simp [Integer.xor, blockBits], by simp, rfl, by decide +kernel⟩

end Verif.Props
