import Mathlib.Algebra.Field.Defs
import Mathlib.Algebra.CharP.Two
import Mathlib.Algebra.CharP.Lemmas
import Mathlib.Tactic.Ring
import Mathlib.Tactic.LinearCombination
import Verif.Lemmas.GF

/-!
The blocks with xor and `mulBlock` form a field (GF(2^128)); `invBlock` is its inverse.

Irreducibility of the GCM polynomial is not assumed: `a^(2^128) = a` follows from `x^(2^128) = x` (kernel
evaluation), so `a^(2^128-1)` is idempotent, and a linear certificate shows that the only idempotents are
zero and one.
-/

namespace Verif.Lemmas
open Verif.Model Verif.Spec

theorem gcmMul_comm (a b : Block) : gcmMul a b = gcmMul b a :=
  bilin_ext (f := fun a b => gcmMul a b) (g := fun a b => gcmMul b a)
    gcmMul_lin_left gcmMul_lin_right gcmMul_lin_right gcmMul_lin_left
    (fun i j hi hj => by
      show gcmMul _ _ = gcmMul _ _
      rw [gcmMul_basis i j hi hj, gcmMul_basis j i hj hi, Nat.add_comm]) a b

theorem oneBlock_eq : oneBlock = BitVec.twoPow 128 127 := by decide

theorem gcmMul_one_left (a : Block) : gcmMul oneBlock a = a := by
  rw [oneBlock_eq, gcmMul_basis_left 127 (by omega)]; rfl

theorem gcmMul_nextV (a b : Block) : gcmMul a (gcmNextV b) = gcmNextV (gcmMul a b) := by
  rw [gcmMul_eq, gcmMul_eq, lin_gcmNextV.xorSum]
  apply xorSum_congr
  intro i _
  rw [xIter_gcmNextV]
  cases strBit a i
  · simp [lin_gcmNextV.zero]
  · simp

theorem gcmMul_xIter (a b : Block) (k : Nat) : gcmMul a (xIter b k) = xIter (gcmMul a b) k := by
  induction k with
  | zero => rfl
  | succ k ih => rw [xIter, gcmMul_nextV, ih]; rfl

theorem gcmMul_left_comm (a b c : Block) : gcmMul a (gcmMul b c) = gcmMul b (gcmMul a c) := by
  rw [gcmMul_eq b c, gcmMul_eq b (gcmMul a c), (gcmMul_lin_right a).xorSum]
  apply xorSum_congr
  intro i _
  cases strBit b i
  · simp [(gcmMul_lin_right a).zero]
  · simpa using gcmMul_xIter a c i

theorem gcmMul_assoc (a b c : Block) : gcmMul (gcmMul a b) c = gcmMul a (gcmMul b c) := by
  rw [gcmMul_comm (gcmMul a b) c, gcmMul_left_comm c a b, gcmMul_comm c b]

/-- Blocks as ring elements. -/
@[ext] structure F128 where
  val : Block

namespace F128
instance : Zero F128 := ⟨⟨0#128⟩⟩
instance : One F128 := ⟨⟨oneBlock⟩⟩
instance : Add F128 := ⟨fun a b => ⟨a.val ^^^ b.val⟩⟩
instance : Neg F128 := ⟨fun a => a⟩
instance : Mul F128 := ⟨fun a b => ⟨mulBlock a.val b.val⟩⟩

@[simp] theorem zero_val : (0 : F128).val = 0#128 := rfl
@[simp] theorem one_val : (1 : F128).val = oneBlock := rfl
@[simp] theorem add_val (a b : F128) : (a + b).val = a.val ^^^ b.val := rfl
@[simp] theorem neg_val (a : F128) : (-a).val = a.val := rfl
@[simp] theorem mul_val (a b : F128) : (a * b).val = mulBlock a.val b.val := rfl

instance : CommRing F128 where
  add_assoc a b c := by ext1; simp [BitVec.xor_assoc]
  zero_add a := by ext1; simp
  add_zero a := by ext1; simp
  add_comm a b := by ext1; simp [BitVec.xor_comm]
  neg_add_cancel a := by ext1; simp
  mul_assoc a b c := by ext1; simp [mulBlock_eq_gcmMul, gcmMul_assoc]
  one_mul a := by ext1; simp [mulBlock_eq_gcmMul, gcmMul_one_left]
  mul_one a := by ext1; simp [mulBlock_eq_gcmMul, gcmMul_comm _ oneBlock, gcmMul_one_left]
  mul_comm a b := by ext1; simp [mulBlock_eq_gcmMul]; exact gcmMul_comm _ _
  left_distrib a b c := by ext1; simp only [mul_val, add_val]; exact mulBlock_lin_right _ _ _
  right_distrib a b c := by ext1; simp only [mul_val, add_val]; exact mulBlock_lin_left _ _ _
  zero_mul a := by ext1; simp only [mul_val, zero_val]; exact (mulBlock_lin_left _).zero
  mul_zero a := by ext1; simp only [mul_val, zero_val]; exact (mulBlock_lin_right _).zero
  nsmul := nsmulRec
  zsmul := zsmulRec

theorem add_self (a : F128) : a + a = 0 := by ext1; simp

instance : Nontrivial F128 := ⟨⟨0, 1, fun h => by
  have := congrArg F128.val h
  simp only [zero_val, one_val] at this
  exact absurd this (by decide)⟩⟩

instance : CharP F128 2 := CharTwo.of_one_ne_zero_of_two_eq_zero one_ne_zero
  (by rw [← one_add_one_eq_two]; exact add_self 1)

/-- Repeated squaring, as a kernel-friendly loop. -/
def sqIter (a : Block) : Nat → Block
  | 0 => a
  | k + 1 => sqIter (gcmMul a a) k

theorem sqIter_eq (a : F128) (k : Nat) : sqIter a.val k = (a ^ (2 ^ k)).val := by
  induction k generalizing a with
  | zero => simp [sqIter]
  | succ k ih =>
    have : gcmMul a.val a.val = (a * a).val := by simp [mulBlock_eq_gcmMul]
    rw [sqIter, this, ih]
    congr 1
    rw [← pow_two, ← pow_mul, pow_succ, Nat.mul_comm]

theorem x_frob : sqIter (BitVec.twoPow 128 126) 128 = BitVec.twoPow 128 126 := by decide +kernel

/-- The polynomial variable `x`. -/
def X : F128 := ⟨BitVec.twoPow 128 126⟩

theorem X_mul (a : F128) : (X * a).val = gcmNextV a.val := by
  simp only [mul_val, X, mulBlock_eq_gcmMul]
  rw [gcmMul_basis_left 126 (by omega)]; rfl

theorem pow_X_val (k : Nat) (hk : k < 128) : (X ^ k).val = BitVec.twoPow 128 (127 - k) := by
  induction k with
  | zero => simpa using oneBlock_eq
  | succ k ih =>
    rw [pow_succ, mul_comm, X_mul, ih (by omega)]
    have : 127 - k = (127 - (k+1)) + 1 := by omega
    rw [this, gcmNextV_twoPow _ (by omega)]

theorem X_pow_card : X ^ (2 ^ 128) = X := by
  ext1
  rw [← sqIter_eq]
  exact x_frob

theorem pow_card (a : F128) : a ^ (2 ^ 128) = a := by
  have lin : Lin (fun v : Block => ((⟨v⟩ : F128) ^ (2 ^ 128)).val) := by
    intro u v
    have h : (⟨u ^^^ v⟩ : F128) = ⟨u⟩ + ⟨v⟩ := rfl
    simp only [h]
    rw [add_pow_char_pow (p := 2)]; rfl
  have := lin_ext lin lin_id (fun i hi => by
    have h : (⟨BitVec.twoPow 128 i⟩ : F128) = X ^ (127 - i) := by
      ext1
      rw [pow_X_val _ (by omega)]
      have : 127 - (127 - i) = i := by omega
      rw [this]
    simp only [h]
    rw [pow_right_comm, X_pow_card, ← h]) a.val
  ext1
  exact this

/-- Left inverse certificate for `v ↦ v^2 + v` modulo its kernel. -/
def certTable : List Nat :=
  [0x0,
   0x4a2ade42a1db558927495c4d4e62fc1,
   0x35bd0e43ef6cf78dcef750ee63bd3171,
   0x41d77801d619af2a38dab35b297373a6,
   0x36dc3b3404788e15d4cfd6f8f5447461,
   0x7adc3b3404788e15d4cfd6f8f5447467,
   0x5f67891c31b7edb03c86875f90384d1c,
   0x646cca29e3d6cc8fd093e2fc4c0f4ad5,
   0x51eae8be2fe60df61bf9191de1788d94,
   0x36e717e02724b8e1d1527df73b8e8241,
   0x5f86cdbc744e28fe3430f49ddf071154,
   0x2561da5c536a901fe562896ae4899333,
   0x99a6e1cca2f8641a0b0910804c90841,
   0x2cfbb4409945165e45d21862e0409b32,
   0xd94d9da18080030c4db699e5dc0,
   0x197d9b438cafcf2f8e88275824a90133,
   0x645919a4b35879f7d7a68d71cb5770d5,
   0x7348a7e5645f93d076e747a9d181ec26,
   0x602105ae977251e64834e0c2dd2d5a94,
   0x2c14dbb71e26fc964f314b9433eb3eb2,
   0x44eaa59bd8819a999287fa5ed58ad81,
   0x77dcb1c60e3ad5c9e2190477682adba7,
   0x701c741cbd9fc8b06b94eadf79b8c426,
   0x46f806225397f491bb49eab33e4cf467,
   0x79b07befedd921e9cd751ec18ebeebe7,
   0x56f3167fe31302df9eb885b869165d55,
   0x6462e2cc93c28627d2d0526e0d66c2d5,
   0x1a24eaaa541c8b0f9092b01169688933,
   0x4bf6a9a1f02e1f698fec4b1a74166be7,
   0x21ce3a83c07744de74dad50f0d583b32,
   0x634efa836deeebf650dae654442b4894,
   0x224d20acccef41ee67fd0ac2e3641972,
   0x4bf8b9d33b8f38198de17cdee54751e7,
   0x698e6217d7fa8627ef6aa903c013fa95,
   0x457534e82f16f649aa2d862c91005ba7,
   0x144558bb6c9dfcd7bc4c239cf48626f3,
   0x3cfddc25f2ae2df86391fd8d3387a7c0,
   0x2bd77bb364af6b3fc733d8875e039333,
   0x26d44eb77ddd535ff0b1c738de72bb33,
   0x6aef57603cdbfceff55228f556d54755,
   0x285aabc679b16ad7d6c2852abfdb1eb3,
   0x38e6217d7f479d8109554569546afc0,
   0x79880aa666d696d9c926622882fff1e7,
   0x312705524db61730583bcf844c342240,
   0x5c33b52f8947e9462158188b7248d294,
   0x3bdc8ad604b36599e246fae899f68fc1,
   0x72ccff3fd3d186182e1ce9a41041041,
   0x5252e8c1d3a8e3be0d2c5beb59e57554,
   0x489a0b11781e0c1196cc4fdebc394c27,
   0x1af0929920b9589f9fb368dce89d2373,
   0x2f76850d57908a5e54a716d46cf0bb32,
   0x3f46b4c41d7d395874f4e33b9d331780,
   0x7986f6afcfc951e9cb9188c1a5beebe7,
   0x258e6f54bc4bf6f7ef54f70e70ef2ef3,
   0x55aabdbeec28a2078079924a4cd2f295,
   0x229a33517c61d3ee69739a8be16c1972,
   0x49a065cd7758d5196f0e3578d383201,
   0x428019a10caacb8824c8241264b2fba6,
   0x4622ba58b211bb21b69fb337b1785627,
   0x5cea6fd5b105659e2d1ccaeb5d2c7d54,
   0x36e9eb0be64d6b99d3ec2e5e502bb781,
   0x5ce7c3e3d68e47f62e5390ab45fe70d4,
   0x329f337db88e12004e8e904902080000,
   0x48afd66e759a994991d0e977a9aa5ba7,
   0x4a2ade42a1db559927495c4d4e62fc1,
   0x41d77801d619af2838dab35b297373a6,
   0x7adc3b3404788e11d4cfd6f8f5447467,
   0x646cca29e3d6cc87d093e2fc4c0f4ad5,
   0x36e717e02724b8f1d1527df73b8e8241,
   0x2561da5c536a903fe562896ae4899333,
   0x2cfbb4409945161e45d21862e0409b32,
   0x197d9b438cafcfaf8e88275824a90133,
   0x7348a7e5645f92d076e747a9d181ec26,
   0x2c14dbb71e26fe964f314b9433eb3eb2,
   0x77dcb1c60e3ad1c9e2190477682adba7,
   0x46f806225397fc91bb49eab33e4cf467,
   0x56f3167fe31312df9eb885b869165d55,
   0x1a24eaaa541cab0f9092b01169688933,
   0x21ce3a83c07704de74dad50f0d583b32,
   0x224d20acccefc1ee67fd0ac2e3641972,
   0x698e6217d7fb8627ef6aa903c013fa95,
   0x144558bb6c9ffcd7bc4c239cf48626f3,
   0x2bd77bb364ab6b3fc733d8875e039333,
   0x6aef57603cd3fceff55228f556d54755,
   0x38e6217d7e479d8109554569546afc0,
   0x312705524d961730583bcf844c342240,
   0x3bdc8ad604f36599e246fae899f68fc1,
   0x5252e8c1d328e3be0d2c5beb59e57554,
   0x1af0929921b9589f9fb368dce89d2373,
   0x3f46b4c41f7d395874f4e33b9d331780,
   0x258e6f54b84bf6f7ef54f70e70ef2ef3,
   0x229a33517461d3ee69739a8be16c1972,
   0x428019a11caacb8824c8241264b2fba6,
   0x5cea6fd59105659e2d1ccaeb5d2c7d54,
   0x5ce7c3e3968e47f62e5390ab45fe70d4,
   0x48afd66ef59a994991d0e977a9aa5ba7,
   0x41d77800d619af2838dab35b297373a6,
   0x646cca2be3d6cc87d093e2fc4c0f4ad5,
   0x2561da58536a903fe562896ae4899333,
   0x197d9b4b8cafcfaf8e88275824a90133,
   0x2c14dba71e26fe964f314b9433eb3eb2,
   0x46f806025397fc91bb49eab33e4cf467,
   0x1a24eaea541cab0f9092b01169688933,
   0x224d202cccefc1ee67fd0ac2e3641972,
   0x144559bb6c9ffcd7bc4c239cf48626f3,
   0x6aef55603cd3fceff55228f556d54755,
   0x312701524d961730583bcf844c342240,
   0x5252e0c1d328e3be0d2c5beb59e57554,
   0x3f46a4c41f7d395874f4e33b9d331780,
   0x229a13517461d3ee69739a8be16c1972,
   0x5cea2fd59105659e2d1ccaeb5d2c7d54,
   0x48af566ef59a994991d0e977a9aa5ba7,
   0x646dca2be3d6cc87d093e2fc4c0f4ad5,
   0x197f9b4b8cafcfaf8e88275824a90133,
   0x46fc06025397fc91bb49eab33e4cf467,
   0x2245202cccefc1ee67fd0ac2e3641972,
   0x6aff55603cd3fceff55228f556d54755,
   0x5272e0c1d328e3be0d2c5beb59e57554,
   0x22da13517461d3ee69739a8be16c1972,
   0x482f566ef59a994991d0e977a9aa5ba7,
   0x187f9b4b8cafcfaf8e88275824a90133,
   0x2045202cccefc1ee67fd0ac2e3641972,
   0x5672e0c1d328e3be0d2c5beb59e57554,
   0x402f566ef59a994991d0e977a9aa5ba7,
   0x3045202cccefc1ee67fd0ac2e3641972,
   0x602f566ef59a994991d0e977a9aa5ba7,
   0x202f566ef59a994991d0e977a9aa5ba7,
   0x10d04d25f93556e69f58ce2f8d035a94]

def certApply (w : Block) : Block :=
  xorSum (List.range 128) (fun i => if w.getLsbD i then BitVec.ofNat 128 (certTable.getD i 0) else 0#128)

theorem lin_certApply : Lin certApply :=
  lin_xorSum _ (fun i w => if w.getLsbD i then BitVec.ofNat 128 (certTable.getD i 0) else 0#128)
    (fun i => lin_bit i _)

/-- Drop the coefficient of the unit. -/
def dropOne (v : Block) : Block := v ^^^ (if v.getLsbD 127 then oneBlock else 0#128)

theorem cert_basis : ∀ j : Fin 128,
    certApply (gcmMul (BitVec.twoPow 128 j) (BitVec.twoPow 128 j) ^^^ BitVec.twoPow 128 j)
      = dropOne (BitVec.twoPow 128 j) := by
  decide +kernel

theorem cert (v : F128) : certApply (v * v + v).val = dropOne v.val := by
  have lin : Lin (fun u : Block => certApply (((⟨u⟩ : F128) * ⟨u⟩ + ⟨u⟩ : F128)).val) := by
    intro a b
    have h : (⟨a ^^^ b⟩ : F128) = ⟨a⟩ + ⟨b⟩ := rfl
    have h2 : ((⟨a⟩ + ⟨b⟩) * (⟨a⟩ + ⟨b⟩) + (⟨a⟩ + ⟨b⟩) : F128)
        = ((⟨a⟩ * ⟨a⟩ + ⟨a⟩) + (⟨b⟩ * ⟨b⟩ + ⟨b⟩) : F128) := by
      linear_combination add_self ((⟨a⟩ : F128) * ⟨b⟩)
    simp only [h, h2]
    exact lin_certApply _ _
  have lin2 : Lin dropOne := lin_id.xor (lin_bit 127 oneBlock)
  exact lin_ext lin lin2 (fun i hi => by
    have := cert_basis ⟨i, hi⟩
    simpa [mulBlock_eq_gcmMul] using this) v.val

theorem idem (e : F128) (h : e * e = e) : e = 0 ∨ e = 1 := by
  have h1 := cert e
  rw [h, add_self, zero_val, lin_certApply.zero] at h1
  simp only [dropOne] at h1
  by_cases hb : e.val.getLsbD 127
  · right
    rw [if_pos hb] at h1
    ext1
    exact (BitVec.xor_eq_zero_iff.1 h1.symm)
  · left
    rw [if_neg hb] at h1
    ext1
    simpa using h1.symm

theorem pow_card_sub_one (a : F128) (ha : a ≠ 0) : a ^ (2 ^ 128 - 1) = 1 := by
  have h1 : a * a ^ (2 ^ 128 - 1) = a := by
    rw [← pow_succ']
    exact pow_card a
  have h2 : a ^ (2 ^ 128 - 1) * a ^ (2 ^ 128 - 1) = a ^ (2 ^ 128 - 1) := by
    have e : (2:Nat) ^ 128 - 1 = (2 ^ 128 - 2) + 1 := by norm_num
    calc a ^ (2 ^ 128 - 1) * a ^ (2 ^ 128 - 1)
        = a ^ (2 ^ 128 - 2) * (a * a ^ (2 ^ 128 - 1)) := by
          rw [← mul_assoc, ← pow_succ, ← e]
      _ = a ^ (2 ^ 128 - 1) := by rw [h1, ← pow_succ, ← e]
  rcases idem _ h2 with h | h
  · rw [h, mul_zero] at h1; exact absurd h1.symm ha
  · exact h

/-! ### `powBlock` and `invBlock` -/

theorem invStep_eq (h r : F128) : invStep (h.val, r.val) = ((h ^ 2).val, (h ^ 2 * r).val) := by
  simp [invStep, pow_two]

theorem inv_loop (a : F128) (k : Nat) (l : List Nat) (hl : l.length = k) :
    l.foldl (fun s _ => invStep s) (a.val, a.val) = ((a ^ (2 ^ k)).val, (a ^ (2 ^ (k+1) - 1)).val) := by
  induction k generalizing l with
  | zero =>
    have : l = [] := List.length_eq_zero_iff.1 hl
    subst this; simp
  | succ k ih =>
    obtain ⟨l', x, rfl⟩ : ∃ l' x, l = l' ++ [x] := by
      refine ⟨l.dropLast, l.getLast (by rintro rfl; simp at hl), (List.dropLast_append_getLast _).symm⟩
    rw [List.foldl_append, ih l' (by simpa using hl)]
    simp only [List.foldl_cons, List.foldl_nil, invStep_eq]
    rw [← pow_mul, ← pow_succ, ← pow_add]
    have : 2 ^ (k+1) + (2 ^ (k+1) - 1) = 2 ^ (k+1+1) - 1 := by
      have := Nat.one_le_two_pow (n := k+1)
      rw [pow_succ 2 (k+1)]; omega
    rw [this]

theorem invBlock_eq_pow (a : F128) : invBlock a.val = (a ^ (2 ^ 128 - 2)).val := by
  rw [invBlock, inv_loop a 126 _ (by simp)]
  simp only
  rw [← mul_val, ← pow_add]
  have e : 2 ^ (126 + 1) - 1 + (2 ^ (126 + 1) - 1) = 2 ^ 128 - 2 := by norm_num
  rw [e]

theorem mul_invBlock (a : F128) (ha : a ≠ 0) : a * ⟨invBlock a.val⟩ = 1 := by
  have : (⟨invBlock a.val⟩ : F128) = a ^ (2 ^ 128 - 2) := by ext1; exact invBlock_eq_pow a
  rw [this, ← pow_succ']
  exact pow_card_sub_one a ha

theorem invBlock_zero : invBlock 0#128 = 0#128 := by
  have := invBlock_eq_pow 0
  simp only [zero_val] at this
  rw [this, zero_pow (by norm_num)]; rfl

instance : Inv F128 := ⟨fun a => ⟨invBlock a.val⟩⟩
theorem inv_val (a : F128) : (a⁻¹).val = invBlock a.val := rfl

instance : Field F128 where
  mul_inv_cancel a ha := mul_invBlock a ha
  inv_zero := by ext1; exact invBlock_zero
  nnqsmul := _
  nnqsmul_def := fun _ _ => rfl
  qsmul := _
  qsmul_def := fun _ _ => rfl

end F128

end Verif.Lemmas
