import Verif.Model.VOPE

/-! C59: what the receiver of `VOPE` learns about the secret point `h` of the sender.  `vope.h` masks `h` with `ot->Delta`, whose lowest bit is one (C16). -/

namespace Verif.Props.VOPEView
open Verif.Model Verif.Model.VOPE

/-- All the receiver has after the run: its bits, the OT outputs and the message. -/
structure View where
  bits : Nat → Bool
  ot : Nat → Block
  msg : Block

def view (K : Nat → Block) (delta h : Block) (bits : Nat → Bool) : View := ⟨bits, cotOut K delta bits, diff delta h⟩

/-- Deltas of the OT: the lowest bit is one. -/
def Odd (delta : Block) : Prop := delta.getLsbD 0 = true

/-- Secrecy of `h`: the randomness of the sender for `h` goes one-to-one to that for `h'`, with the same view. -/
def Hides (h h' : Block) : Prop :=
  ∀ bits, ∃ (f g : Block × (Nat → Block) → Block × (Nat → Block)), (∀ x, g (f x) = x) ∧ (∀ x, f (g x) = x)
    ∧ ∀ x, Odd x.1 → Odd (f x).1 ∧ view (f x).2 (f x).1 h' bits = view x.2 x.1 h bits

/-- The buffer of the receiver is computed from its view (`vope.h:26-33`). -/
theorem C59_parties (K : Nat → Block) (delta h : Block) (bits : Nat → Bool) :
    recvMem K delta h bits = fun k => (view K delta h bits).ot k ^^^ (if bits k then (view K delta h bits).msg else 0#128) := rfl

/-- Change of the sender's randomness by `e`. -/
def move (bits : Nat → Bool) (e : Block) (x : Block × (Nat → Block)) : Block × (Nat → Block) :=
  (x.1 ^^^ e, fun k => x.2 k ^^^ (if bits k then e else 0#128))

theorem move_move (bits : Nat → Bool) (e : Block) (x : Block × (Nat → Block)) : move bits e (move bits e x) = x := by
  have c : ∀ y : Block, y ^^^ e ^^^ e = y := fun y => by rw [BitVec.xor_assoc, BitVec.xor_self, BitVec.xor_zero]
  unfold move
  ext1
  · exact c _
  · funext k
    dsimp only
    cases bits k
    · simp
    · exact c _

/-- **C59, the part that holds.**  Points with the same lowest bit cannot be told apart. -/
theorem C59_hides_partial (h h' : Block) (hb : h.getLsbD 0 = h'.getLsbD 0) : Hides h h' := by
  intro bits
  refine ⟨move bits (h ^^^ h'), move bits (h ^^^ h'), move_move _ _, move_move _ _, fun x hx => ⟨?_, ?_⟩⟩
  · unfold Odd at *
    show (x.1 ^^^ (h ^^^ h')).getLsbD 0 = true
    rw [BitVec.getLsbD_xor, BitVec.getLsbD_xor, hx, hb, Bool.xor_self]
    rfl
  · unfold view move cotOut diff
    congr 1
    · funext k
      dsimp only
      cases bits k
      · simp
      · simp only [if_true]
        have : ∀ y d e : Block, y ^^^ e ^^^ (d ^^^ e) = y ^^^ d := by
          intro y d e
          rw [BitVec.xor_comm d e, BitVec.xor_assoc, ← BitVec.xor_assoc e, BitVec.xor_self, BitVec.zero_xor]
        exact this _ _ _
    · have : ∀ a b d : Block, b ^^^ (d ^^^ (a ^^^ b)) = a ^^^ d := by
        intro a b d
        rw [← BitVec.xor_assoc d, BitVec.xor_comm, BitVec.xor_assoc, BitVec.xor_self, BitVec.xor_zero, BitVec.xor_comm]
      exact this _ _ _

/-- **C59, one bit of `h` leaks**: the message shows the lowest bit of `h`, for every run. -/
theorem C59_lowest_bit (K : Nat → Block) (delta h : Block) (bits : Nat → Bool) (hd : Odd delta) :
    h.getLsbD 0 = !(view K delta h bits).msg.getLsbD 0 := by
  unfold Odd at hd
  show _ = !(h ^^^ delta).getLsbD 0
  rw [BitVec.getLsbD_xor, hd]
  cases h.getLsbD 0 <;> rfl

/-- **C59 does not hold**: points with different lowest bits are told apart by every run. -/
theorem C59_not_hidden (h h' : Block) (hb : h.getLsbD 0 ≠ h'.getLsbD 0) : ¬ Hides h h' := by
  intro H
  obtain ⟨f, g, -, -, hv⟩ := H (fun _ => false)
  obtain ⟨o, e⟩ := hv (1, fun _ => 0) (by unfold Odd; decide)
  apply hb
  rw [C59_lowest_bit _ _ h' (fun _ => false) o, e] at *
  exact C59_lowest_bit _ _ h (fun _ => false) (by unfold Odd; decide)

/-- `h` is hidden exactly up to its lowest bit. -/
theorem C59_iff (h h' : Block) : Hides h h' ↔ h.getLsbD 0 = h'.getLsbD 0 :=
  ⟨fun H => Decidable.byContradiction fun hb => C59_not_hidden h h' hb H, C59_hides_partial h h'⟩

/-- **C59, two runs over one OT** (one `Delta`) show the difference of the two points. -/
theorem C59_two_runs (K K' : Nat → Block) (delta h h' : Block) (bits bits' : Nat → Bool) :
    (view K delta h bits).msg ^^^ (view K' delta h' bits').msg = h ^^^ h' := by
  show (h ^^^ delta) ^^^ (h' ^^^ delta) = _
  rw [BitVec.xor_comm h' delta, BitVec.xor_assoc, ← BitVec.xor_assoc delta, BitVec.xor_self, BitVec.zero_xor]

/-- **C59, `Delta` leaks with `h`**: if `h` becomes known afterwards (`test/vope.cpp` sends it), the OT's `Delta` is known, and with it all labels of the garbler. -/
theorem C59_delta (K : Nat → Block) (delta h : Block) (bits : Nat → Bool) : (view K delta h bits).msg ^^^ h = delta := by
  show (h ^^^ delta) ^^^ h = delta
  rw [BitVec.xor_comm h delta, BitVec.xor_assoc, BitVec.xor_self, BitVec.xor_zero]

example : Hides 4#128 6#128 ∧ ¬ Hides 4#128 7#128 :=
  ⟨C59_hides_partial _ _ (by decide), C59_not_hidden _ _ (by decide)⟩

end Verif.Props.VOPEView
