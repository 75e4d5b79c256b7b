import Verif.Lemmas.AESDrift

/-! The values on the wires of the cipher circuit in a session, and what the blocks on the outputs say about the S-box inputs. -/

namespace Verif.Lemmas.AESDrift
open Verif.Model Verif.Model.Integer Verif.Model.Gate Verif.Model.AESCircuit Verif.Model.GC Verif.Lemmas.AESCert Verif.Lemmas.Bristol Verif.Lemmas.AESCircuit Verif.Lemmas.AESProbe
open Verif.Lemmas.Gate (wv Valid IR BR inR bv bv_eq)
open Verif.Spec
open Verif.Spec.Encoding
open Verif.Spec.Circuit (Op next onWire drift Calm)

/-- The wires of the circuit with a key schedule and a block. -/
theorem enc_wires (ws : List AES.Word) (hs : IsSchedule ws) (msg : List Byte) (hm : msg.length = 16) :
    ∃ W : Wires, (∀ i < aesEncKs.numGate, W (aesEncKs.gate i).o = (aesEncKs.gate i).out W)
      ∧ (∀ z < 1408, W z = (keyLayout ws).getD z false) ∧ (∀ z, 1408 ≤ z → z < 1536 → W z = (strToInt msg).getD (z - 1408) false)
      ∧ (∀ q < 16, wbyte W (encTarget 9) q = (AES.rounds ws msg 9).getD q 0)
      ∧ (List.range 128).map (fun o => W (30467 + o)) = bytesBits (AES.cipher ws msg) := by
  obtain ⟨hW, hin⟩ := ssa_sound encTree_ok (by decide) encSsa_ok (aesEncKs.start (fun _ => false) (keyLayout ws) (strToInt msg))
  generalize aesEncKs.run (aesEncKs.start (fun _ => false) (keyLayout ws) (strToInt msg)) aesEncKs.numGate = W at hW hin
  have ik : ∀ z < 1408, W z = (keyLayout ws).getD z false := by
    intro z hz
    rw [hin z (by show _ < 1536; omega)]
    exact if_pos hz
  have im : ∀ z, 1408 ≤ z → z < 1536 → W z = (strToInt msg).getD (z - 1408) false := by
    intro z h1 h2
    rw [hin z h2]
    exact (if_neg (show ¬ z < 1408 by omega)).trans (if_pos (show z < 1408 + 128 from h2))
  have hk : ∀ r < 11, ∀ q < 16, wbyte W (keyWire r) q = (AES.roundKey ws r).getD q 0 := by
    intro r hr q hq
    apply byte_ext
    intro j hj
    have hkw : keyWire r (8 * q + j) = 32 * (4 * r + q / 4) + 8 * (3 - q % 4) + j := by
      unfold keyWire
      rw [show (8 * q + j) / 8 = q by omega, show (8 * q + j) / 32 = q / 4 by omega, show (8 * q + j) % 8 = j by omega]
      omega
    rw [bit_wbyte _ _ _ _ hj, hkw, (hs.roundKey r hr).2 q hq, ← getD_keyLayout _ hs.2 _ _ _ (by omega) hj]
    exact ik _ (by omega)
  have hi : ∀ q < 16, wbyte W (encVar 0) q = msg.getD q 0 := by
    intro q hq
    apply byte_ext
    intro j hj
    rw [bit_wbyte _ _ _ _ hj, ← getD_strToInt _ _ _ (by omega) hj, encVar, if_pos (by omega), if_pos rfl, im _ (by omega) (by omega)]
    exact congrArg (fun z => (strToInt msg).getD z false) (by omega)
  refine ⟨W, hW, ik, im, (enc_rounds hW ws hs msg hm hk hi 9 (by omega)).2, ?_⟩
  obtain ⟨fl, fv⟩ := enc_final hW ws hs msg hm hk hi
  apply bits_ext
  · rw [fl]; simp
  · intro q hq j hj
    rw [fl] at hq
    rw [← fv q hq, bit_wbyte _ _ _ _ hj, encTarget, if_neg (by omega), getD_range _ _ _ _ (by omega)]

/-- The values of the session after the circuit. -/
theorem after_values {s : Sess} (hs : Valid s) {x y : SInt} {ws : List AES.Word} (hsc : IsSchedule ws) {msg : List Byte} (hm : msg.length = 16)
    (hx : IR s x (keyLayout ws)) (hy : IR s y (strToInt msg)) :
    Inputs s x y ∧ ∃ l : List Bool, wv (after s x y) = wv s ++ l ∧ l.length = aesEncKs.numGate
      ∧ (∀ p < 128, l.getD (lastArgs.getD p 0) false = formBit (p % 8) ((AES.rounds ws msg 9).getD (p / 8) 0))
      ∧ (List.range 128).map (fun o => l.getD (fieldT encProd (30467 + o)) false) = bytesBits (AES.cipher ws msg) := by
  obtain ⟨W, hW, ik, im, hr, ho⟩ := enc_wires ws hsc msg hm
  have mem : ∀ {l : SInt} {v : Integer}, IR s l v → ∀ w ∈ l, inR s w := by
    intro l v h
    induction h with
    | nil => intro w hw; cases hw
    | cons h _ ih =>
      intro w hw
      rcases List.mem_cons.1 hw with rfl | hw
      · exact h.1
      · exact ih w hw
  have hin : Inputs s x y := ⟨mem hx, mem hy⟩
  have h0 : ∀ z < 1536, Circuit.get (wv s) (wireNo (wireOf s.n x y z)) = W z := by
    intro z hz
    rw [bv_eq hs]
    unfold wireOf
    by_cases h : z < 1408
    · rw [if_pos h, ik z h]
      exact (hx.getD' z).2
    · rw [if_neg h, if_pos hz, im z (by omega) hz]
      exact (hy.getD' _).2
  refine ⟨hin, (List.range aesEncKs.numGate).map fun i => W (aesEncKs.gate i).o, ?_, ?_, ?_, ?_⟩
  · show (after s x y).program.foldl next [] = _
    rw [program_after, List.foldl_append]
    exact values_run hs hin hW h0 _ (Nat.le_refl _)
  · rw [List.length_map, List.length_range]
  · intro p hp
    obtain ⟨l1, l2, l3, l4, l5⟩ := last_gate p hp
    obtain ⟨w1, w2⟩ := written_prod (Nat.le_of_lt l1) (enc_wired.1 _ l1).2 l4
    rw [l5] at w1 w2
    rw [getD_range _ _ _ _ (by omega), w2, arg_value hW p hp, hr _ (by omega)]
  · rw [← ho]
    refine List.map_congr_left fun o hlt => ?_
    have hlt := List.mem_range.1 hlt
    have e : aesEncKs.numWire - aesEncKs.n3 = 30467 := by decide
    have hw := enc_wired.2 o hlt
    rw [e] at hw
    obtain ⟨w1, w2⟩ := written_prod (Nat.le_refl _) hw (by omega)
    rw [getD_range _ _ _ _ w1, w2]

/-! ### From the blocks to the bytes -/

theorem tag_bit (b : Bool) (t u : Nat) (ht : t < 8) : (sel b (tag t)).getLsbD (u + 1) = (b && decide (t = u)) := by
  cases b
  · simp [sel]
  · have : t + 1 < 128 := by omega
    simp [sel, tag, BitVec.getLsbD_twoPow, this]

theorem fold_bit (B : Nat → Bool) (u : Nat) : ∀ (l : List Nat) (b : Block), l.Nodup → (∀ t ∈ l, t < 8) →
    (l.foldl (fun b t => b ^^^ sel (B t) (tag t)) b).getLsbD (u + 1) = (b.getLsbD (u + 1) ^^ (B u && decide (u ∈ l))) := by
  intro l
  induction l with
  | nil => intro b _ _; simp
  | cons t l ih =>
    intro b hn hl
    rw [List.foldl_cons, ih _ (List.nodup_cons.1 hn).2 fun x hx => hl x (List.mem_cons_of_mem _ hx), BitVec.getLsbD_xor, tag_bit _ _ _ (hl t (by simp))]
    by_cases e : t = u
    · subst e
      have := (List.nodup_cons.1 hn).1
      simp [this]
    · have e' : ¬ u = t := fun h => e h.symm
      simp [e, e']

/-- Bit `i` of a byte as a sum of the eight values. -/
def unForm : List (List Nat) := [[0], [3, 4, 7], [2, 4, 7], [6, 1, 3, 4, 7], [1, 4, 7], [5, 1, 2, 4, 7], [4, 0, 5, 1, 2, 4, 7], [4, 7]]

theorem unForm_ok : ∀ a < 256, ∀ i < 8, (BitVec.ofNat 8 a).getLsbD i = (unForm.getD i []).foldl (fun b t => b ^^ formBit t (BitVec.ofNat 8 a)) false := by
  decide +kernel

theorem unForm_lt : ∀ i < 8, ∀ t ∈ unForm.getD i [], t < 8 := by decide

theorem fold_congr (B C : Nat → Bool) (l : List Nat) (h : ∀ t ∈ l, B t = C t) (b : Bool) :
    l.foldl (fun b t => b ^^ B t) b = l.foldl (fun b t => b ^^ C t) b := by
  induction l generalizing b with
  | nil => rfl
  | cons t l ih =>
    rw [List.foldl_cons, List.foldl_cons, h t (by simp)]
    exact ih (fun x hx => h x (List.mem_cons_of_mem _ hx)) _

theorem bit_form (x : BitVec 8) (i : Nat) (hi : i < 8) : x.getLsbD i = (unForm.getD i []).foldl (fun b t => b ^^ formBit t x) false := by
  have := unForm_ok x.toNat x.isLt i hi
  rwa [BitVec.ofNat_toNat, BitVec.setWidth_eq] at this

theorem forms_inj (x y : BitVec 8) (h : ∀ t < 8, formBit t x = formBit t y) : x = y := by
  apply BitVec.eq_of_getLsbD_eq
  intro i hi
  rw [bit_form x i hi, bit_form y i hi]
  exact fold_congr _ _ _ (fun t ht => h t (unForm_lt i hi t ht)) _

theorem carry_nodup : ∀ j < 8, (lastCarry.getD j []).Nodup ∧ ∀ t ∈ lastCarry.getD j [], t < 8 := by decide

theorem carry_all : ∀ t < 8, ∃ j < 8, t ∈ lastCarry.getD j [] := by decide

theorem rowFrom_onto : ∀ q < 16, ∃ b < 16, rowFrom b = q := by decide

/-- The blocks determine the bytes of the chosen S-boxes. -/
theorem guess_iff (E : Env) (g : OnGen) (delta : Block) (S : Nat → Bool) (N : Nat) (ws : List Nat) (bs : List Bool) (x y : List (BitVec 8)) :
    guess E g delta S N ws bs x = guess E g delta S N ws bs y ↔ ∀ q < 16, S q = true → x.getD q 0 = y.getD q 0 := by
  constructor
  · intro h q hq hS
    obtain ⟨b, hb, rfl⟩ := rowFrom_onto q hq
    apply forms_inj
    intro t ht
    obtain ⟨j, hj, hm⟩ := carry_all t ht
    have hi : 127 - (8 * b + j) < 128 := by omega
    have he : onOutput E g S N x (8 * b + j) = onOutput E g S N y (8 * b + j) := by
      have h1 := congrArg (fun l => l.getD (127 - (8 * b + j)) 0) h
      simp only [guess] at h1
      rw [getD_range _ _ _ _ hi, getD_range _ _ _ _ hi, show 127 - (127 - (8 * b + j)) = 8 * b + j by omega] at h1
      have h2 := congrArg (fun z => (g.get E (ws.getD (127 - (8 * b + j)) 0) ^^^ sel (bs.getD (127 - (8 * b + j)) false) delta) ^^^ z) h1
      simpa only [← BitVec.xor_assoc, BitVec.xor_self, BitVec.zero_xor] using h2
    simp only [onOutput] at he
    rw [show (8 * b + j) / 8 = b by omega, show (8 * b + j) % 8 = j by omega, if_pos hS, if_pos hS] at he
    have h3 := congrArg (fun z => BitVec.getLsbD z (t + 1)) he
    obtain ⟨c1, c2⟩ := carry_nodup j hj
    rw [fold_bit (fun t => formBit t (x.getD (rowFrom b) 0) ^^ lsb (g.get E (N + lastArgs.getD (8 * rowFrom b + t) 0))) t _ _ c1 c2,
      fold_bit (fun t => formBit t (y.getD (rowFrom b) 0) ^^ lsb (g.get E (N + lastArgs.getD (8 * rowFrom b + t) 0))) t _ _ c1 c2] at h3
    rw [decide_eq_true hm, Bool.and_true, Bool.and_true] at h3
    have hb : ∀ z a b c : Bool, (z ^^ (a ^^ c)) = (z ^^ (b ^^ c)) → a = b := by decide
    exact hb _ _ _ _ h3
  · intro h
    refine List.map_congr_left fun i hi => ?_
    have hi := List.mem_range.1 hi
    have hr : rowFrom ((127 - i) / 8) < 16 := by unfold rowFrom; omega
    congr 1
    simp only [onOutput]
    by_cases hS : S (rowFrom ((127 - i) / 8)) = true
    · rw [if_pos hS, if_pos hS, h _ hr hS]
    · rw [if_neg hS, if_neg hS]

/-- Later operations leave what is on the wires. -/
theorem drift_more (P : Nat → Block × Block) (c : Nat → Bool) : ∀ (ops : List Op) (st : Nat × List Block), ∃ t, (ops.foldl (drift P c) st).2 = st.2 ++ t
  | [], st => ⟨[], (List.append_nil _).symm⟩
  | op :: ops, st => by
    obtain ⟨t, h⟩ := drift_more P c ops (drift P c st op)
    have : ∃ u, (drift P c st op).2 = st.2 ++ u := by
      cases op <;> first | exact ⟨_, rfl⟩ | exact ⟨[], (List.append_nil _).symm⟩
    obtain ⟨u, hu⟩ := this
    exact ⟨u ++ t, by rw [List.foldl_cons, h, hu, List.append_assoc]⟩

theorem onWire_left (l t : List Block) (i : Nat) (h : i < l.length) : onWire (l ++ t) i = onWire l i := by
  unfold onWire
  rw [List.getD_append _ _ _ _ h]

/-- The numbers of the output wires, in the order of the result. -/
theorem outs_getD (n i : Nat) (hi : i < 128) : ((outWires n).map wireNo).getD i 0 = n + 2 + fieldT encProd (30467 + (127 - i)) := by
  unfold outWires
  rw [← List.map_reverse, List.map_map, List.getD_eq_getElem _ _ (by simp [hi]), List.getElem_map, List.getElem_reverse]
  simp only [List.getElem_range, List.length_range, Function.comp, wireNo]
  rw [show 128 - 1 - i = 127 - i by omega]
  omega

theorem outs_length (n : Nat) : ((outWires n).map wireNo).length = 128 := by
  unfold outWires; simp

end Verif.Lemmas.AESDrift
