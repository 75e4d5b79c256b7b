import Verif.Lemmas.AESProbeData
import Verif.Lemmas.AESWires
import Verif.Lemmas.AESCircuit
import Verif.Model.GarblerKey

/-! The gates of the last S-boxes of the cipher circuit: what they get from the S-box inputs, and where their outputs go. -/

namespace Verif.Lemmas.AESProbe
open Verif.Model Verif.Model.AESCircuit Verif.Model.GC Verif.Lemmas.AESCert Verif.Lemmas.Bristol Verif.Lemmas.AESCircuit
open Verif.Spec

/-- The gates of `lastGates` in the output of gate `i`, as a set of bits. -/
def gmask (i : Nat) : Nat :=
  cond (Nat.ble (Nat.succ i) firstGate) 0
    (force (fieldT carryTab (Nat.sub i firstGate)) fun f => Nat.shiftLeft (Nat.mod f 256) (Nat.mul 8 (Nat.div f 256)))

/-- The same for a wire of the circuit file. -/
def wmask (x : Nat) : Nat := cond (Nat.ble (Nat.succ x) 1536) 0 (gmask (fieldT encProd x))

/-- The gate with the bits `m` is one of `lastGates`. -/
def isLast (i m : Nat) : Bool :=
  force (Nat.log2 m) fun p => and (Nat.ble (Nat.succ p) 128) (and (Nat.beq (lastGates.getD p 0) i) (Nat.beq m (Nat.pow 2 p)))

def carryCheck (i : Nat) : Bool :=
  or (Nat.ble 29059 i) (force (rawT encTree i) fun r => force (gmask i) fun m =>
    cond (Nat.beq (fld r 0) 0) (and (Nat.beq (wmask (fld r 16)) 0) (and (Nat.beq (wmask (fld r 32)) 0) (or (Nat.beq m 0) (isLast i m))))
      (cond (Nat.beq (fld r 0) 1) (Nat.beq m (Nat.xor (wmask (fld r 16)) (wmask (fld r 32)))) (Nat.beq m (wmask (fld r 16)))))

theorem carry_ok : allPow carryCheck 12 firstGate = true := by decide +kernel

theorem ssa_gate {c : Circuit} {t p : Tree} {d : Nat} (ht : treeCheck c.chunks t = true) (hn : c.numGate ≤ 256 * c.chunks.length)
    (h : ssaCheck t p c.numGate (c.n1 + c.n2) d = true) (i : Nat) (hi : i < c.numGate) : fieldT p (c.gate i).o = i ∧ c.n1 + c.n2 ≤ (c.gate i).o := by
  have key : ssaGate p (c.n1 + c.n2) i (raw c.chunks i) = true := by
    rw [← tree_sound ht i (by omega)]
    simp only [ssaCheck] at h
    cases hr : ssaRun t p c.numGate (c.n1 + c.n2) d (.ok 0) with
    | bad => rw [hr] at h; simp at h
    | ok k =>
      rw [hr] at h
      have e := Nat.eq_of_beq_eq_true h
      exact ssaRun_sound t p _ _ d 0 (fun j hj => by omega) k hr i (by omega)
  simp only [ssaGate, Bool.and_eq_true] at key
  obtain ⟨_, _, _, h4, h5⟩ := key
  rw [gate_raw]
  exact ⟨Nat.eq_of_beq_eq_true h5, Nat.le_of_ble_eq_true h4⟩

/-- A wire the circuit writes is written by the gate the table names. -/
theorem prod_gate (i : Nat) (hi : i < aesEncKs.numGate) : fieldT encProd (aesEncKs.gate i).o = i ∧ 1536 ≤ (aesEncKs.gate i).o :=
  ssa_gate encTree_ok (by decide) encSsa_ok i hi

theorem written_prod {i z : Nat} (hi : i ≤ aesEncKs.numGate) (h : Written aesEncKs i z) (hz : 1536 ≤ z) : fieldT encProd z < i ∧ (aesEncKs.gate (fieldT encProd z)).o = z := by
  rcases h with h | ⟨k, hk, e⟩
  · have : z < 1536 := h
    omega
  · have := prod_gate k (by omega)
    rw [e] at this
    rw [this.1]
    exact ⟨hk, e⟩

theorem numGate_eq : aesEncKs.numGate = 29059 := by decide

theorem carry_gate (i : Nat) (hi : i < aesEncKs.numGate) :
    ((aesEncKs.gate i).op = 0 → wmask (aesEncKs.gate i).a = 0 ∧ wmask (aesEncKs.gate i).b = 0 ∧ (gmask i = 0 ∨ ∃ p < 128, lastGates.getD p 0 = i ∧ gmask i = 2 ^ p))
    ∧ ((aesEncKs.gate i).op = 1 → gmask i = wmask (aesEncKs.gate i).a ^^^ wmask (aesEncKs.gate i).b)
    ∧ ((aesEncKs.gate i).op ≠ 0 → (aesEncKs.gate i).op ≠ 1 → gmask i = wmask (aesEncKs.gate i).a) := by
  by_cases hf : i < firstGate
  · have low : ∀ k, k < firstGate → gmask k = 0 := by
      intro k hk
      unfold gmask
      rw [show Nat.ble (Nat.succ k) firstGate = true from by rw [Nat.ble_eq]; exact hk, cond_true]
    have lowW : ∀ z, Written aesEncKs i z → wmask z = 0 := by
      intro z hz
      unfold wmask
      by_cases h : z < 1536
      · rw [show Nat.ble (Nat.succ z) 1536 = true from by rw [Nat.ble_eq]; exact h, cond_true]
      · have := (written_prod (Nat.le_of_lt hi) hz (by omega)).1
        rw [show Nat.ble (Nat.succ z) 1536 = false from by rw [← Bool.not_eq_true, Nat.ble_eq]; omega, cond_false]
        exact low _ (by omega)
    obtain ⟨ha, hb⟩ := enc_wired.1 i hi
    rw [lowW _ ha, lowW _ hb, low i hf]
    exact ⟨fun _ => ⟨rfl, rfl, Or.inl rfl⟩, fun _ => rfl, fun _ _ => rfl⟩
  have hk := allPow_sound carry_ok i (by omega) (by rw [numGate_eq] at hi; have : firstGate = 25942 := rfl; omega)
  simp only [carryCheck, force_eq, Bool.or_eq_true] at hk
  rcases hk with hk | hk
  · have := Nat.le_of_ble_eq_true hk; rw [numGate_eq] at hi; omega
  · rw [tree_sound encTree_ok i (Nat.lt_of_lt_of_le hi (by decide))] at hk
    rw [gate_raw]
    simp only
    refine ⟨?_, ?_, ?_⟩
    · intro h0
      have e : Nat.beq (fld (raw aesEncKs.chunks i) 0) 0 = true := by rw [h0]; rfl
      rw [e, cond_true] at hk
      simp only [isLast, force_eq, Bool.and_eq_true, Bool.or_eq_true] at hk
      obtain ⟨h1, h2, h3⟩ := hk
      refine ⟨Nat.eq_of_beq_eq_true h1, Nat.eq_of_beq_eq_true h2, ?_⟩
      rcases h3 with h3 | ⟨h3, h4, h5⟩
      · exact Or.inl (Nat.eq_of_beq_eq_true h3)
      · exact Or.inr ⟨_, Nat.le_of_ble_eq_true h3, Nat.eq_of_beq_eq_true h4, Nat.eq_of_beq_eq_true h5⟩
    · intro h1
      have e : Nat.beq (fld (raw aesEncKs.chunks i) 0) 0 = false := by rw [h1]; rfl
      have e' : Nat.beq (fld (raw aesEncKs.chunks i) 0) 1 = true := by rw [h1]; rfl
      rw [e, e', cond_false, cond_true] at hk
      exact Nat.eq_of_beq_eq_true hk
    · intro h0 h1
      have e : Nat.beq (fld (raw aesEncKs.chunks i) 0) 0 = false := by rw [← Bool.not_eq_true, Nat.beq_eq]; exact h0
      have e' : Nat.beq (fld (raw aesEncKs.chunks i) 0) 1 = false := by rw [← Bool.not_eq_true, Nat.beq_eq]; exact h1
      rw [e, e', cond_false, cond_false] at hk
      exact Nat.eq_of_beq_eq_true hk

/-- The gates of `lastGates`. -/
def lastCheck (p : Nat) : Bool :=
  force (lastGates.getD p 0) fun i => force (rawT encTree i) fun r =>
    and (Nat.ble (Nat.succ i) 29059) (and (Nat.beq (fld r 0) 0) (and (Nat.beq (gmask i) (Nat.pow 2 p))
      (and (Nat.ble 1536 (fld r 32)) (Nat.beq (fieldT encProd (fld r 32)) (lastArgs.getD p 0)))))

theorem last_ok : allLt 128 lastCheck = true := by decide +kernel

theorem last_gate (p : Nat) (hp : p < 128) : lastGates.getD p 0 < aesEncKs.numGate ∧ (aesEncKs.gate (lastGates.getD p 0)).op = 0 ∧ gmask (lastGates.getD p 0) = 2 ^ p
    ∧ 1536 ≤ (aesEncKs.gate (lastGates.getD p 0)).b ∧ fieldT encProd (aesEncKs.gate (lastGates.getD p 0)).b = lastArgs.getD p 0 := by
  have h := allLt_sound last_ok p hp
  simp only [lastCheck, force_eq, Bool.and_eq_true] at h
  obtain ⟨h1, h2, h3, h4, h5⟩ := h
  have h1 : lastGates.getD p 0 < 29059 := Nat.le_of_ble_eq_true h1
  rw [tree_sound encTree_ok _ (Nat.lt_of_lt_of_le h1 (by decide))] at h2 h4 h5
  rw [gate_raw, numGate_eq]
  exact ⟨h1, Nat.eq_of_beq_eq_true h2, Nat.eq_of_beq_eq_true h3, Nat.le_of_ble_eq_true h4, Nat.eq_of_beq_eq_true h5⟩

/-- The gates in the outputs. -/
theorem out_mask : ∀ o < 128, gmask (fieldT encProd (30467 + o)) = mask ((lastCarry.getD (o % 8) []).map fun t => 8 * rowFrom (o / 8) + t) := by decide +kernel

/-- The second operands as sums of the bits of the S-box inputs. -/
def argForm (p : Nat) : List Nat := (lastForms.getD (p % 8) []).map fun b => 8 * (p / 8) + (7 - b) + 1

theorem arg_ok : modCheck encTree aesEncKs.numGate 320 1 true 128 (encTarget 9) (fun v => Nat.pow 2 (Nat.succ v)) 128
    (fun p => fld (rawT encTree (lastGates.getD p 0)) 32) (fun p => mask (argForm p)) argCert.tpos argCert.d argCert.n argCert.code = true := by decide +kernel

theorem sum_map (env : Nat → Bool) (f : Nat → Nat) (l : List Nat) (b : Bool) : l.foldl (fun b i => b ^^ env (f i)) b = (b ^^ sum env (l.map f)) := by
  induction l generalizing b with
  | nil => simp [sum]
  | cons v l ih =>
    rw [List.foldl_cons, ih, List.map_cons, sum]
    cases b <;> cases env (f v) <;> cases sum env (l.map f) <;> rfl

/-- The second operand of gate `t` of S-box `s` is a sum of bits of the S-box input. -/
theorem arg_value {W : Wires} (hW : ∀ i < aesEncKs.numGate, W (aesEncKs.gate i).o = (aesEncKs.gate i).out W) (p : Nat) (hp : p < 128) :
    W (aesEncKs.gate (lastGates.getD p 0)).b = formBit (p % 8) (wbyte W (encTarget 9) (p / 8)) := by
  have hex : ∀ p < 128, ∀ v ∈ argForm p, v < 320 := by decide +kernel
  have h := linear_sound encTree_ok (by decide) hW (by decide) arg_ok p hp (hex p hp)
  have hb : (aesEncKs.gate (lastGates.getD p 0)).b = fld (rawT encTree (lastGates.getD p 0)) 32 := by
    rw [tree_sound encTree_ok _ (Nat.lt_of_lt_of_le (last_gate p hp).1 (by decide)), gate_raw]
  rw [hb, h, argForm, formBit]
  have hr : ∀ t < 8, ∀ b ∈ lastForms.getD t [], b < 8 := by decide
  have e : ∀ (l : List Nat) (a : Bool), (∀ b ∈ l, b < 8) → l.foldl (fun a i => a ^^ (wbyte W (encTarget 9) (p / 8)).getLsbD i) a
      = l.foldl (fun a i => a ^^ (fun v => if v = 0 then true else W (encTarget 9 (v - 1))) (8 * (p / 8) + (7 - i) + 1)) a := by
    intro l
    induction l with
    | nil => intro a _; rfl
    | cons i l ih =>
      intro a hl
      have hi := hl i (by simp)
      have := bit_wbyte W (encTarget 9) (p / 8) (7 - i) (by omega)
      rw [bit, show 7 - (7 - i) = i by omega] at this
      rw [List.foldl_cons, List.foldl_cons, this, ih _ fun b hb => hl b (List.mem_cons_of_mem _ hb)]
      simp
  rw [e _ _ (hr (p % 8) (by omega))]
  have := sum_map (fun v => if v = 0 then true else W (encTarget 9 (v - 1))) (fun b => 8 * (p / 8) + (7 - b) + 1) (lastForms.getD (p % 8) []) false
  rw [Bool.false_xor] at this
  exact this.symm

/-! ### The number of a gate -/

theorem gateNo_succ (c : Circuit) (i : Nat) : gateNo c (i + 1) = gateNo c i + if (c.gate i).op = 0 then 1 else 0 := by
  unfold gateNo
  rw [List.range_succ, List.map_append, List.sum_append]
  simp

theorem gateNo_mono (c : Circuit) {i j : Nat} (h : i ≤ j) : gateNo c i ≤ gateNo c j := by
  induction j with
  | zero => rw [show i = 0 by omega]
  | succ j ih =>
    by_cases e : i = j + 1
    · rw [e]
    · have := ih (by omega)
      rw [gateNo_succ]
      omega

theorem gateNo_lt (c : Circuit) {i j : Nat} (h : i < j) (hi : (c.gate i).op = 0) : gateNo c i < gateNo c j := by
  have := gateNo_mono c (show i + 1 ≤ j from h)
  rw [gateNo_succ, if_pos hi] at this
  omega

theorem gateNo_inj (c : Circuit) {i j : Nat} (hi : (c.gate i).op = 0) (hj : (c.gate j).op = 0) (h : gateNo c i = gateNo c j) : i = j := by
  by_contra hne
  rcases Nat.lt_or_gt_of_ne hne with l | l
  · have := gateNo_lt c l hi; omega
  · have := gateNo_lt c l hj; omega

/-! ### The blocks -/

theorem rows_none {k0 : Nat} {S : Nat → Bool} {k : Nat} (h : ∀ p < 128, k ≠ k0 + gateNo aesEncKs (lastGates.getD p 0)) : keyRows k0 S k = (0, 0) := by
  unfold keyRows
  have : (List.range 128).find? (fun p => S (p / 8) && k == k0 + gateNo aesEncKs (lastGates.getD p 0)) = none := by
    rw [List.find?_eq_none]
    intro p hp
    have := h p (List.mem_range.1 hp)
    rw [beq_eq_false_iff_ne.2 this, Bool.and_false]
    simp
  rw [this]

theorem rows_before {k0 : Nat} {S : Nat → Bool} {k : Nat} (h : k < k0) : keyRows k0 S k = (0, 0) := rows_none fun p _ => by omega

theorem rows_after {k0 : Nat} {S : Nat → Bool} {k : Nat} (h : k0 + gateNo aesEncKs aesEncKs.numGate ≤ k) : keyRows k0 S k = (0, 0) := by
  refine rows_none fun p hp => ?_
  have := gateNo_lt aesEncKs (last_gate p hp).1 (last_gate p hp).2.1
  omega

theorem rows_other {k0 : Nat} {S : Nat → Bool} {i : Nat} (hi : (aesEncKs.gate i).op = 0) (hm : gmask i = 0) : keyRows k0 S (k0 + gateNo aesEncKs i) = (0, 0) := by
  refine rows_none fun p hp h => ?_
  have := gateNo_inj aesEncKs hi (last_gate p hp).2.1 (by omega)
  rw [this, (last_gate p hp).2.2.1] at hm
  exact absurd hm (Nat.pos_iff_ne_zero.1 (Nat.two_pow_pos p))

theorem rows_last (k0 : Nat) (S : Nat → Bool) (p : Nat) (hp : p < 128) :
    keyRows k0 S (k0 + gateNo aesEncKs (lastGates.getD p 0)) = (0, sel (S (p / 8)) (tag (p % 8))) := by
  have uniq : ∀ q < 128, k0 + gateNo aesEncKs (lastGates.getD p 0) = k0 + gateNo aesEncKs (lastGates.getD q 0) → q = p := by
    intro q hq h
    have := gateNo_inj aesEncKs (last_gate p hp).2.1 (last_gate q hq).2.1 (by omega)
    have h2 := (last_gate p hp).2.2.1
    rw [this, (last_gate q hq).2.2.1] at h2
    exact Nat.pow_right_injective (Nat.le_refl 2) h2
  unfold keyRows
  cases hf : (List.range 128).find? (fun q => S (q / 8) && k0 + gateNo aesEncKs (lastGates.getD p 0) == k0 + gateNo aesEncKs (lastGates.getD q 0)) with
  | none =>
    rw [List.find?_eq_none] at hf
    have := hf p (List.mem_range.2 hp)
    simp at this
    rw [this]
    rfl
  | some q =>
    have h1 := List.find?_some hf
    have h2 := List.mem_range.1 (List.mem_of_find?_eq_some hf)
    simp only [Bool.and_eq_true, beq_iff_eq] at h1
    have := uniq q h2 h1.2
    subst this
    rw [h1.1]
    rfl

theorem rows_even (k0 : Nat) (S : Nat → Bool) (k : Nat) : lsb (keyRows k0 S k).1 = false ∧ lsb (keyRows k0 S k).2 = false := by
  have h0 : lsb (0 : Block) = false := by decide
  refine ⟨h0, ?_⟩
  unfold keyRows
  simp only
  split
  · unfold tag lsb
    simp
  · exact h0

/-! ### Sums of blocks -/

/-- The sum of the blocks with numbers in `m`, below `n`. -/
def tot (γ : Nat → Block) (m : Nat) : Nat → Block
  | 0 => 0
  | n + 1 => tot γ m n ^^^ sel (m.testBit n) (γ n)

theorem tot_xor (γ : Nat → Block) (a b n : Nat) : tot γ (a ^^^ b) n = tot γ a n ^^^ tot γ b n := by
  induction n with
  | zero => exact (BitVec.xor_zero (x := 0#128)).symm
  | succ n ih =>
    rw [tot, tot, tot, ih, Nat.testBit_xor]
    have : sel (a.testBit n ^^ b.testBit n) (γ n) = sel (a.testBit n) (γ n) ^^^ sel (b.testBit n) (γ n) := by
      cases a.testBit n <;> cases b.testBit n <;> simp [sel]
    rw [this]
    ac_rfl

theorem tot_zero (γ : Nat → Block) (n : Nat) : tot γ 0 n = 0#128 := by
  induction n with
  | zero => rfl
  | succ n ih => rw [tot, ih, Nat.zero_testBit]; exact BitVec.xor_zero

theorem tot_pow (γ : Nat → Block) (p n : Nat) : tot γ (2 ^ p) n = if p < n then γ p else 0#128 := by
  induction n with
  | zero => rfl
  | succ n ih =>
    rw [tot, ih, Nat.testBit_two_pow]
    by_cases e : p = n
    · subst e
      simp [sel]
    · rw [decide_eq_false e]
      by_cases h : p < n
      · rw [if_pos h, if_pos (by omega)]
        exact BitVec.xor_zero
      · rw [if_neg h, if_neg (by omega)]
        exact BitVec.xor_zero

theorem tot_mask (γ : Nat → Block) (n : Nat) : ∀ (l : List Nat) (b : Block), (∀ p ∈ l, p < n) → b ^^^ tot γ (mask l) n = l.foldl (fun b p => b ^^^ γ p) b
  | [], b, _ => by
    show b ^^^ tot γ 0 n = b
    rw [tot_zero, BitVec.xor_zero]
  | p :: l, b, h => by
    show b ^^^ tot γ (2 ^ p ^^^ mask l) n = _
    rw [tot_xor, tot_pow, if_pos (h p (by simp)), ← BitVec.xor_assoc, tot_mask γ n l _ fun q hq => h q (List.mem_cons_of_mem _ hq)]
    rfl

end Verif.Lemmas.AESProbe
