import Mathlib.Algebra.Group.Defs
import Verif.Spec.Circuit

/-!
What an outsider of the computation can count: who feeds how many bits, who is shown how many bits, and the number of gates.

The numbers are those of the usual circuits: ripple-carry adders, one AND gate per selected bit, SHA-256 compression by FIPS 180-4,
AES-128 with 32 AND gates per S-box (40 in the key schedule, 160 in the rounds).
-/

namespace Verif.Spec.Profile
open Verif.Spec.Circuit (Party)

/-- An exchange with a party: `n` bits of ALICE or of both, the bits of BOB, or `n` bits shown. -/
inductive Item where
  | feed (p : Party) (n : Nat)
  | bob (bits : List Bool)
  | open (p : Party) (n : Nat)
deriving DecidableEq

/-- The exchanges in order, the number of AND gates, and the number of XOR and NOT gates. -/
@[ext] structure Cost where
  io : List Item
  ands : Nat
  frees : Nat
deriving DecidableEq

namespace Cost

instance : Zero Cost := ⟨⟨[], 0, 0⟩⟩
instance : Add Cost := ⟨fun a b => ⟨a.io ++ b.io, a.ands + b.ands, a.frees + b.frees⟩⟩

@[simp] theorem zero_io : (0 : Cost).io = [] := rfl
@[simp] theorem zero_ands : (0 : Cost).ands = 0 := rfl
@[simp] theorem zero_frees : (0 : Cost).frees = 0 := rfl
@[simp] theorem add_io (a b : Cost) : (a + b).io = a.io ++ b.io := rfl
@[simp] theorem add_ands (a b : Cost) : (a + b).ands = a.ands + b.ands := rfl
@[simp] theorem add_frees (a b : Cost) : (a + b).frees = a.frees + b.frees := rfl

instance : AddMonoid Cost where
  add_assoc a b c := by ext1 <;> simp [Nat.add_assoc]
  zero_add a := by ext1 <;> simp
  add_zero a := by ext1 <;> simp
  nsmul := nsmulRec

end Cost

def gates (a x : Nat) : Cost := ⟨[], a, x⟩
def feed (p : Party) (n : Nat) : Cost := ⟨[.feed p n], 0, 0⟩
def feedBob (bits : List Bool) : Cost := ⟨[.bob bits], 0, 0⟩
def opens (p : Party) (n : Nat) : Cost := ⟨[.open p n], 0, 0⟩

/-- Addition or subtraction of `n` bits: no AND gate for the last carry. -/
def adder (n : Nat) : Cost := gates (n - 1) (if n = 0 then 0 else 4 * (n - 1) + 2)

/-- Selection between two `n`-bit values. -/
def select (n : Nat) : Cost := gates n (2 * n)

/-- Compression of SHA-256: 48 schedule words with 3 additions, 64 rounds with 7 additions, Ch and Maj with 32 AND gates each, 8 final additions. -/
def compress : Cost :=
  gates (48 * (3 * 31) + 64 * (7 * 31 + 2 * 32) + 8 * 31) (48 * (2 * 128 + 3 * 126) + 64 * (2 * 160 + 5 * 32 + 7 * 126) + 8 * 126)

/-- AES-128 key schedule and rounds. -/
def aesKeys : Cost := gates (40 * 32) (5729 + 224)
def aesRounds : Cost := gates (160 * 32) (22576 + 1363)

/-- Number of chunks of a padded message of `n` bits. -/
def chunks (n : Nat) : Nat := (n + 64) / 512 + 1

/-- The sum of the shares modulo a number of `n` bytes. -/
def addmod (n : Nat) : Cost := adder (8 * n + 1) + (adder (8 * n + 2) + gates 0 1) + adder (8 * n + 2) + select (8 * n + 2)

/-- The two pads for an HMAC key of `n` bits; a key longer than a chunk is hashed. -/
def hmacKey (n : Nat) : Cost := (if 512 < n then chunks n • compress else 0) + gates 0 (64 * 2 * 512)

/-- The first chunk is the pad: it is compressed once per key. -/
def once (fresh : Bool) : Nat := if fresh then 0 else 1

/-- HMAC of a message both parties know, with a pad of `pad` bits: the hash of the inner pad is opened once per key, and the inner digest is fed as eight words. -/
def hmacOpen (pad : Nat) (fresh : Bool) : Cost :=
  (if fresh then compress + opens .pub 256 else 0) + 8 • feed .alice 32 + (chunks (pad + 256) - once fresh) • compress

/-- HMAC of a secret message of `n` bits. -/
def hmacSecret (pad : Nat) (fresh : Bool) (n : Nat) : Cost :=
  (chunks (pad + n) - once fresh) • compress + (chunks (pad + 256) - once fresh) • compress

/-- `P_hash` with `n` blocks: A(i) is opened, the block is not. -/
def blocksOpen (pad : Nat) : Nat → Bool → Cost
  | 0, _ => 0
  | n + 1, fresh => hmacOpen pad fresh + opens .pub 256 + hmacOpen pad false + blocksOpen pad n false

/-- `P_hash` with `n` blocks inside the computation; `a` is the length of A(i), `seed` that of the seed. -/
def blocksSecret (pad seed : Nat) : Nat → Bool → Nat → Cost
  | 0, _, _ => 0
  | n + 1, fresh, a => hmacSecret pad fresh a + hmacSecret pad false (256 + seed) + blocksSecret pad seed n false 256

/-- The PRF of TLS 1.2 with `n` blocks, for label and seed of `len` bytes together. -/
def prf (rounds : Bool) (pad : Nat) (fresh : Bool) (n len : Nat) : Cost :=
  if rounds then feed .alice (8 * len) + blocksSecret pad (8 * len) n fresh (8 * len) else blocksOpen pad n fresh

/-- One AES block and one step of the counter per 128 bits of the key stream, and one for the tag. -/
def record (n : Nat) (secret : Bool) : Cost :=
  feed .alice 64 + (1 + (8 * n + 127) / 128) • (aesRounds + adder 32) + (if secret then 0 else opens .pub (8 * n))

/-- A call of a connection, the share of BOB and the public lengths (in bytes) it depends on. -/
inductive Call where
  | masterKey (share seed : Nat)
  | extendedMasterKey (share seed : Nat)
  | expansionKeys (seed : Nat)
  | finished (label seed : Nat)
  | newAead
  | record (n : Nat) (secret : Bool)

/-- What the profile of later calls depends on: whether there is an HMAC key, whether it has not been used yet, and the length of the master secret in bits. -/
structure State where
  pad : Nat := 0
  fresh : Bool := true
  master : Nat := 0

/-- The bits of a number, least significant first. -/
def bits (n v : Nat) : List Bool := (List.range n).map v.testBit

/-- The profile of one call; the PRF gives 2 blocks for the master secret and the key block, 1 for a finished message. -/
def step (rounds : Bool) (q : Nat) (s : State) : Call → Cost × State
  | .masterKey b n => (feed .alice (8 * q) + feedBob (bits (8 * q) b) + addmod q + hmacKey (8 * q) + prf rounds 512 true 2 (13 + n), ⟨512, false, s.master + 384⟩)
  | .extendedMasterKey b n => (feed .alice (8 * q) + feedBob (bits (8 * q) b) + addmod q + hmacKey (8 * q) + prf rounds 512 true 2 (22 + n), ⟨512, false, s.master + 384⟩)
  | .expansionKeys n => (hmacKey s.master + prf rounds 512 true 2 (13 + n), ⟨512, false, s.master⟩)
  | .finished l n => (prf rounds s.pad s.fresh 1 (l + n) + opens .pub 96, ⟨s.pad, false, s.master⟩)
  | .newAead => (aesKeys + aesRounds, s)
  | .record n secret => (record n secret, s)

/-- The profile of a connection over a curve whose field elements have `q` bytes. -/
def run (rounds : Bool) (q : Nat) : State → List Call → Cost
  | _, [] => 0
  | s, c :: cs => (step rounds q s c).1 + run rounds q (step rounds q s c).2 cs

end Verif.Spec.Profile
