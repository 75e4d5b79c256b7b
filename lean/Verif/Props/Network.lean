import Verif.Model.Network
import Verif.Lemmas.Addmod
import Verif.Lemmas.GCM

/-! C37: numbers over the network. -/

namespace Verif.Props
open Verif.Model Verif.Model.Integer Verif.Model.SHA Verif.Model.Network Verif.Lemmas

theorem bin2bn_bn2bin (n : Nat) : bin2bn (bn2bin n) = n := val_bn2bin n

theorem val_u32 (n : Nat) (h : n < 2 ^ 32) : val (ofBytes (u32 n)) = n := by
  simp only [u32, ofBytes, List.flatMap_cons, List.flatMap_nil, val_append, val_ofNat, length_ofNat, BitVec.toNat_ofNat,
    List.append_nil]
  omega

/-- C37: `recv_bn` returns the number passed to `send_bn`, hashes the same bytes and consumes exactly what was sent. -/
theorem C37_roundtrip (n : Nat) (h : (bn2bin n).length ≤ 1000) :
    ∃ w hb, sendBn n = .ok (w, hb) ∧ ∀ rest, recvBn (w ++ rest) = .ok (n, hb, rest) := by
  refine ⟨u32 (bn2bin n).length ++ bn2bin n, bn2bin n, ?_, ?_⟩
  · simp only [sendBn]; rw [if_neg (by omega)]
  · intro rest
    have h4 : (u32 (bn2bin n).length).length = 4 := rfl
    simp only [recvBn]
    rw [if_neg (by simp [h4]), List.append_assoc, List.take_left' h4, List.drop_left' h4, val_u32 _ (by omega),
      if_neg (by omega), if_neg (by simp), List.take_left, List.drop_left, bin2bn_bn2bin]

/-- C37, sequences: the numbers arrive in order and both parties hash the same bytes. -/
theorem C37_sequence (ns : List Nat) (h : ∀ n ∈ ns, (bn2bin n).length ≤ 1000) :
    ∃ w hb, sendBns ns = .ok (w, hb) ∧ ∀ rest, recvBns ns.length (w ++ rest) = .ok (ns, hb, rest) := by
  induction ns with
  | nil => exact ⟨[], [], rfl, fun rest => rfl⟩
  | cons n ns ih =>
    obtain ⟨w1, h1, a1, a2⟩ := C37_roundtrip n (h n (by simp))
    obtain ⟨w2, h2, b1, b2⟩ := ih (fun m hm => h m (by simp [hm]))
    refine ⟨w1 ++ w2, h1 ++ h2, ?_, ?_⟩
    · simp only [sendBns, a1, b1, bind, Except.bind]
    · intro rest
      simp only [recvBns, List.length_cons, bind, Except.bind, List.append_assoc, a2, b2]

/-- C37: every number below `2^8000` can be sent. -/
theorem C37_sendable (n : Nat) (h : n < 256 ^ 1000) : (bn2bin n).length ≤ 1000 := by
  have key : ∀ k n, n < 256 ^ k → (bn2bin n).length ≤ k := by
    intro k
    induction k with
    | zero => intro n hn; rw [bn2bin]; simp at hn; simp [hn]
    | succ k ih =>
      intro n hn
      rw [bn2bin]
      split
      · simp
      · have := ih (n / 256) (by rw [Nat.pow_succ] at hn; omega)
        simp; omega
  exact key 1000 n h

/-- C37, the sender's buffer: larger numbers overflow it. -/
theorem C37_send_overflow (n : Nat) (h : 256 ^ 1000 ≤ n) : ∃ m, sendBn n = .error (.ub m) := by
  have hl := lt_pow_bnNumBytes n
  rw [pow_mul] at hl
  have : 1000 < (bn2bin n).length := by
    by_contra hc
    have : (2 ^ 8 : Nat) ^ bnNumBytes n ≤ 256 ^ 1000 := Nat.pow_le_pow_right (by norm_num) (Nat.not_lt.1 hc)
    exact absurd (lt_of_lt_of_le hl this) (Nat.not_lt.2 h)
  exact ⟨_, if_pos this⟩

/-- C37, the receiver's buffer: a message of the peer leaves the buffer exactly if its length field is above 1000.  Nothing
in the code prevents such a message. -/
theorem C37_recv_overflow (s : List Byte) :
    (∃ m, recvBn s = .error (.ub m)) ↔ 4 ≤ s.length ∧ 1000 < val (ofBytes (s.take 4)) := by
  simp only [recvBn]
  by_cases h4 : s.length < 4
  · rw [if_pos h4]
    constructor
    · rintro ⟨m, hm⟩; cases hm
    · intro h; omega
  · rw [if_neg h4]
    by_cases hl : val (ofBytes (s.take 4)) > 1000
    · rw [if_pos hl]
      exact ⟨fun _ => ⟨by omega, hl⟩, fun _ => ⟨_, rfl⟩⟩
    · rw [if_neg hl]
      constructor
      · rintro ⟨m, hm⟩
        split at hm <;> cases hm
      · intro h; omega

/-- C37: such a message exists: four bytes are enough. -/
theorem C37_recv_overflow_exists : ∃ s m, recvBn s = .error (.ub m) :=
  ⟨[0xff, 0xff, 0xff, 0xff], (C37_recv_overflow _).2 (by decide)⟩

/-- C37: a number that is received is the value of at most 1000 bytes of the peer, which need not be the shortest encoding;
the hash gets these bytes. -/
theorem C37_received (s : List Byte) (n : Nat) (hb rest : List Byte) (h : recvBn s = .ok (n, hb, rest)) :
    ∃ len, s = len ++ hb ++ rest ∧ len.length = 4 ∧ val (ofBytes len) = hb.length ∧ n = bin2bn hb ∧ hb.length ≤ 1000 := by
  simp only [recvBn] at h
  split at h
  · cases h
  · split at h
    · cases h
    · split at h
      · cases h
      · rename_i h4 h5 h6
        simp only [Except.ok.injEq, Prod.mk.injEq] at h
        obtain ⟨e1, e2, e3⟩ := h
        have e4 : hb.length = val (ofBytes (s.take 4)) := by rw [← e2, List.length_take]; omega
        refine ⟨s.take 4, ?_, by rw [List.length_take]; omega, e4.symm, by rw [← e1, e2], by omega⟩
        rw [List.append_assoc, ← e2, ← e3, List.take_append_drop, List.take_append_drop]

/-- C37, transcript: the hash gets the bytes without their lengths, so the transcript does not determine the numbers. -/
theorem C37_transcript_ambiguous : ∃ (ns ms : List Nat) (w w' hb : List Byte), ns ≠ ms ∧ ns.length = ms.length
    ∧ sendBns ns = .ok (w, hb) ∧ sendBns ms = .ok (w', hb) := by
  have e1 : sendBn 1 = .ok (u32 1 ++ [1], [1]) := by simp [sendBn, bn2bin]
  have e2 : sendBn 515 = .ok (u32 2 ++ [2, 3], [2, 3]) := by simp [sendBn, bn2bin]
  have e3 : sendBn 258 = .ok (u32 2 ++ [1, 2], [1, 2]) := by simp [sendBn, bn2bin]
  have e4 : sendBn 3 = .ok (u32 1 ++ [3], [3]) := by simp [sendBn, bn2bin]
  refine ⟨[1, 515], [258, 3], (u32 1 ++ [1]) ++ ((u32 2 ++ [2, 3]) ++ []), (u32 2 ++ [1, 2]) ++ ((u32 1 ++ [3]) ++ []),
    [1, 2, 3], by decide, rfl, ?_, ?_⟩
  · simp only [sendBns, e1, e2, bind, Except.bind]; rfl
  · simp only [sendBns, e3, e4, bind, Except.bind]; rfl

theorem bn2bin_inj {n m : Nat} (h : bn2bin n = bn2bin m) : n = m := by
  rw [← bin2bn_bn2bin n, h, bin2bn_bn2bin]

/-- C37, what remains of the transcript claim: among sequences whose numbers have the same byte lengths the transcript
determines the numbers.  Missing: different lengths, see `C37_transcript_ambiguous`. -/
theorem C37_transcript_partial (ns ms : List Nat) (hl : ns.map bnNumBytes = ms.map bnNumBytes) (w w' hb : List Byte)
    (h1 : sendBns ns = .ok (w, hb)) (h2 : sendBns ms = .ok (w', hb)) : ns = ms := by
  have tr : ∀ (ns : List Nat) (w hb : List Byte), sendBns ns = .ok (w, hb) → hb = ns.flatMap bn2bin := by
    intro ns
    induction ns with
    | nil => intro w hb h; simp only [sendBns, Except.ok.injEq, Prod.mk.injEq] at h; simp [← h.2]
    | cons n ns ih =>
      intro w hb h
      simp only [sendBns, bind, Except.bind] at h
      cases h3 : sendBn n with
      | error e => rw [h3] at h; cases h
      | ok p =>
        rw [h3] at h
        cases h4 : sendBns ns with
        | error e => rw [h4] at h; cases h
        | ok r =>
          rw [h4] at h
          simp only [Except.ok.injEq, Prod.mk.injEq] at h
          have : p.2 = bn2bin n := by
            simp only [sendBn] at h3
            split at h3
            · cases h3
            · simp only [Except.ok.injEq] at h3; rw [← h3]
          rw [← h.2, this, ih r.1 r.2 h4, List.flatMap_cons]
  have e := (tr ns w hb h1).symm.trans (tr ms w' hb h2)
  clear h1 h2 tr
  induction ns generalizing ms with
  | nil =>
    cases ms with
    | nil => rfl
    | cons m ms => simp at hl
  | cons n ns ih =>
    cases ms with
    | nil => simp at hl
    | cons m ms =>
      simp only [List.map_cons, List.cons.injEq] at hl
      rw [List.flatMap_cons, List.flatMap_cons] at e
      have := List.append_inj e hl.1
      rw [bn2bin_inj this.1, ih ms hl.2 this.2]

/-- The round trip is not vacuous: a 256-bit number. -/
example : ∃ w hb, sendBn (2 ^ 256 - 189) = .ok (w, hb) ∧ ∀ rest, recvBn (w ++ rest) = .ok (2 ^ 256 - 189, hb, rest) :=
  C37_roundtrip _ (C37_sendable _ (lt_of_lt_of_le (b := 256 ^ 32) (by norm_num)
    (Nat.pow_le_pow_right (by norm_num) (by norm_num))))

end Verif.Props
