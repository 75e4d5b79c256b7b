import Verif.Props.Arrays
import Mathlib.Algebra.BigOperators.Group.Finset.Basic

/-! # C66: how many arrays each function of the hash, of HMAC and of the PRF makes -/

namespace Verif.Props.Arrays
open Verif.Model Verif.Model.Arrays Verif.Lemmas.Arrays

/-- The function returns, having made `k` arrays and released them. -/
def Makes (c : Code) (k : Nat) : Prop :=
  ∀ m, Heap m → ∃ m', run c m = .ok m' ∧ m'.next = m.next + k ∧ m'.live.Perm m.live

/-- The arrays that a piece of code makes. -/
def made : Code → Nat
  | .done => 0
  | .loc _ rest => 1 + made rest
  | .call c rest => made c + made rest
  | .keep _ _ rest => 1 + made rest
  | .pop _ rest => made rest

theorem release_next {m m' : Mem} {g : Guard} {p : Nat} (h : m.release g p = .ok m') : m'.next = m.next := by
  cases g with
  | arr =>
    simp only [Mem.release] at h
    split at h
    · cases h; rfl
    · cases h
  | one => cases h
  | raw => cases h; rfl

theorem run_next : ∀ (c : Code) {m m' : Mem}, run c m = .ok m' → m'.next = m.next + made c
  | .done, m, m', h => by cases h; rfl
  | .loc g rest, m, m', h => by
    simp only [run, bind, Except.bind] at h
    cases hr : run rest m.make with
    | error e => rw [hr] at h; cases h
    | ok a =>
      rw [hr] at h
      rw [release_next h, run_next rest hr]
      simp only [Mem.make, made]; omega
  | .call c rest, m, m', h => by
    simp only [run, bind, Except.bind] at h
    cases hr : run c m with
    | error e => rw [hr] at h; cases h
    | ok a =>
      rw [hr] at h
      rw [run_next rest h, run_next c hr]
      simp only [made]; omega
  | .keep c g rest, m, m', h => by
    simp only [run] at h
    rw [run_next rest h]
    simp only [Mem.make, made]; omega
  | .pop c rest, m, m', h => by
    simp only [run] at h
    split at h
    · cases h
    · rename_i p g k hk
      simp only [bind, Except.bind] at h
      split at h
      · cases h
      · rename_i a ha
        rw [run_next rest h, release_next ha]
        rfl

theorem sum_same (k n : Nat) : ∑ _i ∈ Finset.range n, k = n * k := by
  induction n with
  | zero => rw [Finset.sum_range_zero, Nat.zero_mul]
  | succ n ih => rw [Finset.sum_range_succ, ih, Nat.succ_mul]

theorem made_calls (c : Nat → Code) (n : Nat) : made (calls c n .done) = ∑ i ∈ Finset.range n, made (c i) := by
  induction n with
  | zero => rfl
  | succ n ih => rw [calls, made, ih, Finset.sum_range_succ, Nat.add_comm]

theorem makes_of {c : Code} (h : Restores c) {k : Nat} (hk : made c = k) : Makes c k := by
  intro m hm
  obtain ⟨m', h1, h2, -⟩ := h m hm
  exact ⟨m', h1, hk ▸ run_next c h1, h2⟩

theorem made_sha (n : Nat) : made (shaUpdate n) = n + 1 := by
  simp only [shaUpdate, made, made_calls, oneArray, sum_same]; omega

theorem made_hmac (n k : Nat) : made (hmacCode n k) = n + k + 3 := by
  simp [hmacCode, made, made_sha]; omega

/-- **C66**.  A digest of `n` blocks makes `n + 1` arrays, an HMAC of `n` and `k` blocks `n + k + 3`, and `P_hash` with `n` blocks of
output those of its `2n` HMACs and two or three of its own; all are released. -/
theorem C66_made (a b : Nat → Nat) (n k : Nat) :
    Makes (shaUpdate n) (n + 1) ∧ Makes (hmacCode n k) (n + k + 3) ∧
    Makes (phashCode (fun i => hmacCode (a i) (b i)) n) (∑ i ∈ Finset.range (2 * n), (a i + b i + 3) + 2) ∧
    Makes (roundsPhashCode (fun i => hmacCode (a i) (b i)) n) (∑ i ∈ Finset.range (2 * n), (a i + b i + 3) + 3) ∧
    Makes (offPhashCode (fun i => hmacCode (a i) (b i)) n) (∑ i ∈ Finset.range (2 * n), (a i + b i + 3) + 2) ∧
    Makes (finalizeCode n) (2 * n + 1) := by
  have h := C66_hash a b n k none
  refine ⟨makes_of h.1 (made_sha n), makes_of h.2.1 (made_hmac n k), makes_of h.2.2.2.1 ?_, makes_of h.2.2.2.2.1 ?_,
    makes_of h.2.2.2.2.2 ?_, makes_of (C66_small n).2.2.2.2 ?_⟩
  · simp only [phashCode, made, made_calls, made_hmac]; omega
  · simp only [roundsPhashCode, made, made_calls, made_hmac]; omega
  · simp only [offPhashCode, made, made_calls, made_hmac]; omega
  · simp only [finalizeCode, made, made_calls, compareTag, oneArray, sum_same]; omega

/-- The two rounds of the master key, four HMACs of three and two blocks, beside five other arrays. -/
example : ∃ m', run (roundsPhashCode (fun _ => hmacCode 3 2) 2) (others 5) = .ok m' ∧ m'.next = 40 ∧ m'.live.Perm (List.range 5) := by
  obtain ⟨m', h1, h2, h3⟩ := (C66_made (fun _ => 3) (fun _ => 2) 2 0).2.2.2.1 _ (heap_others 5)
  exact ⟨m', h1, by simpa [others] using h2, h3⟩

/-- What the four HMACs of the two rounds, or the two of the only round, make. -/
def hmacs (a b : Nat → Nat) (rounds : Nat) : Nat := ∑ i ∈ Finset.range (2 * rounds), (a i + b i + 3)

/-- What the initialisation of HMAC makes: a key of more than a block is hashed, with `n` blocks. -/
def keyCost : Option Nat → Nat
  | some n => n + 2
  | none => 0

theorem made_init (l : Option Nat) : made (hmacInit l) = keyCost l := by
  cases l with
  | none => rfl
  | some n => simp only [hmacInit, made, made_sha, keyCost]; omega

/-- **C66**.  With `ENABLE_ROUNDS_OPT`: the arrays of the derivations of the handshake.  Both keys are of two rounds, a finished message
is of one. -/
theorem C66_made_rounds (a b : Nat → Nat) (l : Option Nat) (zk : Bool) :
    let h := fun i => hmacCode (a i) (b i)
    Makes (masterKeyCode true zk h oneArray (hmacInit l)) (hmacs a b 2 + keyCost l + 7) ∧
    Makes (extendedKeyCode (prfCode true zk h 384) oneArray (hmacInit l)) (hmacs a b 2 + keyCost l + 6) ∧
    Makes (expansionCode true zk h (hmacInit l)) (hmacs a b 2 + keyCost l + 5) ∧
    Makes (finishedCode true zk h) (hmacs a b 1 + 4) := by
  intro h
  have r := C66_rounds a b l zk
  have hp : ∀ n, made (prfCode true zk (fun i => hmacCode (a i) (b i)) n) = hmacs a b (n / 256 + 1) + 4 := by
    intro n
    simp only [prfCode, computeCode, if_true, roundsPhashCode, made, made_calls, made_hmac, hmacs]; omega
  refine ⟨makes_of r.1 ?_, makes_of r.2.1 ?_, makes_of r.2.2.1 ?_, makes_of r.2.2.2 ?_⟩
  · simp only [masterKeyCode, made, hp, made_init, oneArray, show 384 / 256 + 1 = 2 from rfl]; omega
  · simp only [extendedKeyCode, made, hp, made_init, oneArray, show 384 / 256 + 1 = 2 from rfl]; omega
  · simp only [expansionCode, made, hp, made_init, show 320 / 256 + 1 = 2 from rfl]; omega
  · simp only [finishedCode, made, hp]

/-- The expansion of the keys with a master secret that fits in a block. -/
example : ∃ m', run (expansionCode true false (fun _ => hmacCode 3 2) (hmacInit none)) (others 5) = .ok m' ∧ m'.next = 42 := by
  obtain ⟨m', h1, h2, -⟩ := (C66_made_rounds (fun _ => 3) (fun _ => 2) none false).2.2.1 _ (heap_others 5)
  exact ⟨m', h1, by simpa [others, hmacs, keyCost] using h2⟩

/-- The arrays that an operation on an `AEAD` object makes: the party that checks the commitments of `decrypt` makes two more. -/
def cost : Op → Nat
  | .encrypt _ => 6
  | .decrypt _ bob => if bob then 11 else 9
  | .checkFinished bob => if bob then 12 else 10
  | .prove _ => 4

/-- **C66**.  Every sequence of operations that runs to its end makes so many arrays; with `C66_aead` it is known which are still
there. -/
theorem C66_made_aead (os : List Op) (m m' : Mem) (h : runOps os m = .ok m') : m'.next = m.next + (os.map cost).sum := by
  induction os generalizing m with
  | nil => cases h; rfl
  | cons o os ih =>
    simp only [runOps, bind, Except.bind] at h
    cases hr : run o.code m with
    | error e => rw [hr] at h; cases h
    | ok a =>
      rw [hr] at h
      rw [ih a h, run_next _ hr, List.map_cons, List.sum_cons, Nat.add_assoc]
      congr 2
      cases o with
      | encrypt s => rfl
      | decrypt s b => cases b <;> rfl
      | checkFinished b => cases b <;> rfl
      | prove s => cases s <;> rfl

/-- Two records, their proofs and the check of a finished message, as BOB. -/
example : (runOps [.encrypt true, .decrypt false true, .checkFinished true, .prove true, .prove false] (others 2)).toOption.map Mem.next
    = some 39 := by decide +kernel

end Verif.Props.Arrays
