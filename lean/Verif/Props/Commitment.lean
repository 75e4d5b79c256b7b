import Verif.Model.DecryptEnd
import Verif.Lemmas.BlockConv

/-! C31: the commitment and its use at the end of `AEAD::decrypt`. -/

namespace Verif.Props
open Verif.Model Verif.Model.AEAD Verif.Lemmas

/-- C31: `open` accepts what `commit` returned. -/
theorem C31_open_commit (hash : List Byte → List Byte) (rnd data : List Byte) :
    Commitment.opens hash (Commitment.commit hash rnd data) rnd data = true := by
  simp [Commitment.opens, Commitment.commit]

/-- C31: two different openings of one commitment (randomness of the fixed length) are a collision of the hash. -/
theorem C31_binding (hash : List Byte → List Byte) (com rnd rnd' data data' : List Byte) (hr : rnd.length = rnd'.length)
    (h : Commitment.opens hash com rnd data = true) (h' : Commitment.opens hash com rnd' data' = true)
    (hne : data ≠ data' ∨ rnd ≠ rnd') : ∃ x y, x ≠ y ∧ hash x = hash y := by
  refine ⟨data ++ rnd, data' ++ rnd', ?_, ?_⟩
  · intro e
    have := List.append_inj' e hr
    rcases hne with h | h
    · exact h this.1
    · exact h this.2
  · simp only [Commitment.opens, beq_iff_eq] at h h'
    rw [← h, ← h']

/-- C31: against a peer that follows the protocol the final comparison is the one with the sum of the two values. -/
theorem C31_honest (hash : List Byte → List Byte) (out out' : Block) (rnd rnd' tag : List Byte) :
    DecryptEnd.run hash out rnd tag (DecryptEnd.honest hash out' rnd') = (tag.take 16 == blockToTag (out ^^^ out')) := by
  simp [DecryptEnd.run, DecryptEnd.honest, finish, Commitment.opens, Commitment.commit]

/-- C31: a run that returns true ends with an accepted opening whose value makes up the tag. -/
theorem C31_accepted (hash : List Byte → List Byte) (out : Block) (rnd tag : List Byte) (p : DecryptEnd.Peer)
    (h : DecryptEnd.run hash out rnd tag p = true) :
    ∃ other rnd', p.com (hash (blockBytes out ++ rnd)) = hash (blockBytes other ++ rnd')
      ∧ tag.take 16 = (blockBytes (out ^^^ other)).reverse := by
  simp only [DecryptEnd.run, finish] at h
  rw [Bool.if_false_right, Bool.and_eq_true, decide_eq_true_eq, beq_iff_eq, Commitment.opens, beq_iff_eq] at h
  exact ⟨_, _, h.1, h.2⟩

/-- The honest peer with the value `other` is accepted with the tag of the two values. -/
example (hash : List Byte → List Byte) (out other : Block) (rnd rnd' : List Byte) :
    DecryptEnd.run hash out rnd (blockToTag (out ^^^ other)) (DecryptEnd.honest hash other rnd') = true := by
  rw [C31_honest, List.take_of_length_le (by simp [blockToTag, blockBytes]), beq_self_eq_true]

/-- C31: a peer whose commitment does not depend on the party's one (as if the commitments had been exchanged at the same
time) is bound to one value before it sees the party's: any two accepted values, whatever the party's values were, give a
collision. -/
theorem C31_bound (hash : List Byte → List Byte) (com : List Byte) (out1 out2 : Block) (rnd1 rnd2 tag1 tag2 : List Byte)
    (op : List Byte → Block → List Byte → Block × List Byte) (hlen : ∀ c o r, (op c o r).2.length = 16)
    (h1 : DecryptEnd.run hash out1 rnd1 tag1 ⟨fun _ => com, op⟩ = true)
    (h2 : DecryptEnd.run hash out2 rnd2 tag2 ⟨fun _ => com, op⟩ = true) :
    (∃ x y, x ≠ y ∧ hash x = hash y) ∨
      (op (Commitment.commit hash rnd1 (blockBytes out1)) out1 rnd1).1
        = (op (Commitment.commit hash rnd2 (blockBytes out2)) out2 rnd2).1 := by
  simp only [DecryptEnd.run, finish] at h1 h2
  rw [Bool.if_false_right, Bool.and_eq_true, decide_eq_true_eq] at h1 h2
  by_cases e : (op (Commitment.commit hash rnd1 (blockBytes out1)) out1 rnd1).1
    = (op (Commitment.commit hash rnd2 (blockBytes out2)) out2 rnd2).1
  · exact Or.inr e
  · refine Or.inl (C31_binding hash com _ _ _ _ (by rw [hlen, hlen]) h1.1 h2.1 (Or.inl ?_))
    intro e'
    apply e
    have := congrArg blockOfBytes e'
    rwa [blockOfBytes_blockBytes, blockOfBytes_blockBytes] at this

/-- One commitment, two runs of the party with different values, both accepted: the opening does not depend on the run. -/
example : DecryptEnd.run (fun x => x) 3 [1] (blockToTag (3 ^^^ 9)) ⟨fun _ => blockBytes 9 ++ List.replicate 16 0, fun _ _ _ => (9, List.replicate 16 0)⟩ = true
    ∧ DecryptEnd.run (fun x => x) 5 [2] (blockToTag (5 ^^^ 9)) ⟨fun _ => blockBytes 9 ++ List.replicate 16 0, fun _ _ _ => (9, List.replicate 16 0)⟩ = true
    ∧ ∀ c o r, ((fun _ _ _ => (9, List.replicate 16 0) : List Byte → Block → List Byte → Block × List Byte) c o r).2.length = 16 :=
  ⟨by decide +kernel, by decide +kernel, fun _ _ _ => rfl⟩

/-- C31, the last part fails: a peer that sends back the party's own commitment and opening is accepted, and the party then
compares the tag with zero, whatever its own value was. -/
theorem C31_reflection : ∃ p : DecryptEnd.Peer, ∀ (hash : List Byte → List Byte) (out : Block) (rnd tag : List Byte),
    DecryptEnd.run hash out rnd tag p = (tag.take 16 == List.replicate 16 0#8) := by
  refine ⟨⟨fun c => c, fun _ o r => (o, r)⟩, ?_⟩
  intro hash out rnd tag
  have : blockToTag (0 : Block) = List.replicate 16 0#8 := by decide
  simp only [DecryptEnd.run, finish, Commitment.opens, Commitment.commit, BEq.rfl, if_true, BitVec.xor_self]
  rw [← this]; rfl

/-- C31: in particular the party accepts the all-zero tag for every ciphertext. -/
theorem C31_zero_tag_accepted (hash : List Byte → List Byte) (out : Block) (rnd : List Byte) :
    ∃ p, DecryptEnd.run hash out rnd (List.replicate 16 0#8) p = true := by
  obtain ⟨p, h⟩ := C31_reflection
  exact ⟨p, by rw [h]; decide⟩

/-- A concrete collision case for `C31_binding`: the constant hash. -/
example : ∃ x y, x ≠ y ∧ (fun _ : List Byte => [1#8]) x = (fun _ => [1#8]) y :=
  C31_binding (fun _ => [1#8]) [1#8] [5] [6] [7] [8] rfl rfl rfl (Or.inl (by decide))

end Verif.Props
