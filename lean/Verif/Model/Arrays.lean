import Verif.Model.Integer

/-! Who releases the arrays made with `new T[n]`, and how.  A local array is named by a raw pointer and by a smart pointer declared
in the next line; the smart pointer releases it at the end of the scope.  Arrays that outlive the function are kept in a
vector or a deque of smart pointers of the object.  Releasing memory of `new T[n]` by `delete` (and not `delete[]`) is
undefined behaviour.

The contents of the arrays are in `Model/Buffers.lean`, OpenSSL objects in `Model/Ownership.lean`, the backends in
`Model/Switch.lean`. -/

namespace Verif.Model.Arrays
open Verif.Model

/-- What releases an array: the pointers of `backend/vope.h:21`, `cipher/prf.h:20`, `cipher/utils.h:283`. -/
inductive Guard where
  /-- `std::unique_ptr<T[]>`, and `UniqueBytes` of `backend/bn_utils.h:177-189`: `delete[]`. -/
  | arr
  /-- `std::shared_ptr<T>` of a pointer to the first element, `cipher/prf.h:20,70`, `cipher/sha256.h:37`: `delete`. -/
  | one
  /-- No smart pointer, `cipher/utils.h:283`. -/
  | raw
deriving DecidableEq

/-- The arrays in memory, the name of the next one, and those that two containers of the object keep, oldest first.
Not in the code: the arrays of `new T[n]`, such as `protocol/aead.h:204,263`, and the containers
`protocol/aead.h:31,37`, `cipher/prf.h:20`, `cipher/sha256.h:37`. -/
structure Mem where
  live : List Nat
  next : Nat
  kept : Bool → List (Nat × Guard)

/-- `new T[n]`. As in `backend/vope.h:20`. -/
def Mem.make (m : Mem) : Mem := { m with live := m.next :: m.live, next := m.next + 1 }

/-- The destructor of the smart pointer of array `p`.
The destructors of the pointers of `backend/vope.h:21`, `cipher/prf.h:20,70`,
`cipher/sha256.h:37`. -/
def Mem.release (m : Mem) (g : Guard) (p : Nat) : Res Mem :=
  match g with
  | .arr => if p ∈ m.live then .ok { m with live := m.live.erase p } else .error (.ub "delete[] of memory that is not allocated")
  | .one => .error (.ub "delete of memory of new[]")
  | .raw => .ok m

/-- The part of a function that matters here. Functions such as `protocol/aead.h:169-305`. -/
inductive Code where
  /-- The end of the scope. -/
  | done
  /-- A local array and its smart pointer, both until the end of the scope. -/
  | loc (g : Guard) (rest : Code)
  /-- Another scope: a call, or a block. -/
  | call (c rest : Code)
  /-- An array kept by the object, in container `c`. -/
  | keep (c : Bool) (g : Guard) (rest : Code)
  /-- `pop_front` of the smart pointers of container `c`. -/
  | pop (c : Bool) (rest : Code)

/-- Execution; smart pointers of locals are destroyed in the reverse order of their declarations.
Functions such as `protocol/aead.h:169-305`. -/
def run : Code → Mem → Res Mem
  | .done, m => .ok m
  | .loc g rest, m => do
    let m' ← run rest m.make
    m'.release g m.next
  | .call c rest, m => do
    let m ← run c m
    run rest m
  | .keep c g rest, m => run rest { m.make with kept := fun d => if d = c then m.kept d ++ [(m.next, g)] else m.kept d }
  | .pop c rest, m =>
    match m.kept c with
    | [] => .error (.error "assert: the container is not empty")
    | (p, g) :: k => do
      let m ← { m with kept := fun d => if d = c then k else m.kept d }.release g p
      run rest m

/-- Release of a list of arrays.
The destructors of the containers `cipher/prf.h:20`, `cipher/sha256.h:37`. -/
def releaseAll : List (Nat × Guard) → Mem → Res Mem
  | [], m => .ok m
  | (p, g) :: l, m => do
    let m ← m.release g p
    releaseAll l m

/-- The destructor of the object: every kept array is released.
Implicit or empty destructors: `protocol/aead.h:86`, `cipher/prf.h:10`, `cipher/sha256.h:14`. -/
def destroy (m : Mem) : Res Mem :=
  releaseAll (m.kept false ++ m.kept true) { m with kept := fun _ => [] }

/-- `n` calls, the `i`-th being `c i`. Loops such as those of `cipher/prf.h:59-130`. -/
def calls (c : Nat → Code) : Nat → Code → Code
  | 0, rest => rest
  | n + 1, rest => .call (c n) (calls c n rest)

/-! ### `cipher/` -/

/-- `str_to_int` (`cipher/utils.h:51`), `int_to_hex` (63, 80), `block_to_hex` (307), `hex_to_block` (321), `set_nonce`
(`protocol/aead.h:126`, `protocol/aead_izk.h:107`, `protocol/prove_aes.h:130`), `addmod` (`protocol/addmod.h:29`), `chunk_compress`
(`cipher/sha256.h:424,775`), `plain_chunk_compress` (470), `Commitment::open` (`backend/commitment.h:33`), `feed`
(`backend/primus_gen.h:43`, `backend/primus_eva.h:38`, `backend/online_primus_gen.h:24`), `itmac_hom_add_check` (`protocol/aead_izk.h:37`), `compute_tag` (`protocol/aead.h:506`),
`AEADOffline::encrypt` and `decrypt` (618, 637), `VOPE::compute_send` (`backend/vope.h:60`), `prove_private_msgs` and `_opt`
(`protocol/prove_aes.h:246,295`): one array. -/
def oneArray : Code := .loc .arr .done

/-- `prove_public_msgs` and `_opt` (`protocol/prove_aes.h:218,224,266,272`), `OLE::compute` of the receiver (`backend/ole.h:50,71`),
`OLEF2K::compute` (`backend/ole_f2k.h:28` and one of 31, 42), `VOPE::compute_recv` (`backend/vope.h:20,22`), `check_zero` of ALICE
(`backend/check_zero.h:40,46`): two arrays. -/
def twoArrays : Code := .loc .arr (.loc .arr .done)

/-- `compare_tag` (`protocol/aead.h:540-542`), and `prove_aead_last` (`protocol/aead_izk.h:186-215`): an array and a call, in either
order. -/
def compareTag : Code := .loc .arr (.call oneArray .done)
/-- `protocol/aead_izk.h:186-215`. -/
def proveLast : Code := .call oneArray (.loc .arr .done)

/-- `finalize_check`, `protocol/post_record.h:155-200`: `blks_h` and `n` calls of `compare_tag`. -/
def finalizeCode (n : Nat) : Code := .loc .arr (calls (fun _ => compareTag) n .done)

/-- `integer_to_block(block*, Integer&)`, `cipher/utils.h:280-290`. -/
def integerToBlocksCode : Code := .loc .raw .done

/-- `SHA256::update` and `opt_rounds_update`, `cipher/sha256.h:208-252,378-420` (and 642-690, 735-771), with `n` calls of `chunk_compress`. -/
def shaUpdate (n : Nat) : Code := .loc .arr (calls (fun _ => oneArray) n .done)

/-- The three ways through the first part of `opt_update`, `cipher/sha256.h:272-333`. -/
inductive First where
  /-- the stored state is reused (294-297) -/
  | reused
  /-- the state is opened and kept (275-292) -/
  | opened
  /-- the state is computed in a local array (302-316, 322-333) -/
  | computed

/-- `opt_update`, `cipher/sha256.h:255-375`, with `k` calls of `plain_chunk_compress`. -/
def shaOptUpdate (f : First) (k : Nat) : Code :=
  let rest := Code.loc .arr (calls (fun _ => oneArray) k .done)
  match f with
  | .reused => rest
  | .opened => .call (.loc .arr (.call oneArray (.keep false .one .done))) rest
  | .computed => .call (.loc .arr (.call oneArray .done)) rest

/-- `hmac_sha256`, `cipher/hmac_sha256.h:59-74`, and `opt_rounds_hmac_sha256`, 105-123: `tmp_dig` and two digests. -/
def hmacCode (n k : Nat) : Code := .loc .arr (.call (shaUpdate n) (.call (shaUpdate k) .done))

/-- `opt_hmac_sha256`, `cipher/hmac_sha256.h:76-102`. -/
def optHmacCode (f : First) (k n : Nat) : Code := .loc .arr (.call (shaOptUpdate f k) (.loc .arr (.call (shaUpdate n) .done)))

/-- `init`, `cipher/hmac_sha256.h:24-57`: a long key is hashed, with the local `tmp`. -/
def hmacInit (long : Option Nat) : Code :=
  match long with
  | some n => .call (.loc .arr (.call (shaUpdate n) .done)) .done
  | none => .done

/-- `phash` and `opt_rounds_phash`, `cipher/prf.h:28-57,132-170`, with `2n` HMAC calls; the second has the array `rseed` too. -/
def phashCode (h : Nat → Code) (n : Nat) : Code := .loc .arr (.loc .arr (calls h (2 * n) .done))
/-- `opt_rounds_phash`, `cipher/prf.h:132-170`. -/
def roundsPhashCode (h : Nat → Code) (n : Nat) : Code := .loc .arr (.loc .arr (.loc .arr (calls h (2 * n) .done)))

/-- The loop of `opt_phash`, `cipher/prf.h:86-125`: `A[i]` in `p_A` until the function returns, `pub_M` in `p_pub_M` of the object,
which is made only outside the proof phase. -/
def optPhashRounds (h : Nat → Code) (zk : Bool) : Nat → Code
  | 0 => .done
  | n + 1 =>
    .call (h (2 * n + 1)) (.loc .one
      (if zk then .call (h (2 * n)) (optPhashRounds h zk n)
       else .keep true .one (.call (h (2 * n)) (optPhashRounds h zk n))))

/-- `opt_phash`, `cipher/prf.h:59-130`: `A[0]`, `tmp`, `tmpd`, `As` and the rounds. -/
def optPhashCode (h : Nat → Code) (zk : Bool) (n : Nat) : Code :=
  .loc .one (.loc .arr (.loc .arr (.loc .arr (optPhashRounds h zk n))))

/-- `opt_compute` and `opt_rounds_compute`, `cipher/prf.h:184-222`: `label_seed` and the call. -/
def computeCode (phash : Code) : Code := .loc .arr (.call phash .done)

/-- `PRFOffline::opt_phash`, `cipher/prf.h:245-275` (`tmp`, `tmpd`), and `PRFOffline::opt_rounds_phash`, 277-308 (`A`, `tmp`). -/
def offPhashCode (h : Nat → Code) (n : Nat) : Code := .loc .arr (.loc .arr (calls h (2 * n) .done))

/-! ### `protocol/handshake.h`, `protocol/prove_prf.h` -/

/-- The two kinds of `compute`, by `ENABLE_ROUNDS_OPT`; `n` is the number of rounds.
`protocol/handshake.h:219-227`. -/
def prfCode (rounds zk : Bool) (h : Nat → Code) (bitlen : Nat) : Code :=
  let n := bitlen / 256 + 1
  computeCode (if rounds then roundsPhashCode h n else optPhashCode h zk n)

/-- `compute_master_key` and `prove_master_key` (`protocol/handshake.h:187-229,371-412`, `protocol/prove_prf.h:44-74` with
`rounds = false`): `buf`, `addmod` (not in `PRFProver`, where `a` is `done`), `seed`, `init` (`i`), the PRF. -/
def masterKeyCode (rounds zk : Bool) (h : Nat → Code) (a i : Code) : Code :=
  .loc .arr (.call a (.loc .arr (.call i (.call (prfCode rounds zk h 384) .done))))

/-- `compute_extended_master_key` and `prove_extended_master_key` (`protocol/handshake.h:231-264,415-446`, `protocol/prove_prf.h:77-102`),
and the offline versions (`protocol/handshake.h:564-612`): `buf`, `addmod`, `init`, the PRF `c`. -/
def extendedKeyCode (c a i : Code) : Code := .loc .arr (.call a (.call i (.call c .done)))

/-- `compute_expansion_keys` and `prove_expansion_keys` (`protocol/handshake.h:266-297,448-486`, `protocol/prove_prf.h:104-131`): `seed`,
`init`, the PRF. -/
def expansionCode (rounds zk : Bool) (h : Nat → Code) (i : Code) : Code :=
  .loc .arr (.call i (.call (prfCode rounds zk h 320) .done))

/-- The finished messages (`protocol/handshake.h:299-327` and the proofs of them). -/
def finishedCode (rounds zk : Bool) (h : Nat → Code) : Code := .call (prfCode rounds zk h 96) .done

/-! ### `protocol/aead.h`, `protocol/aead_izk.h` -/

/-- `AEAD::encrypt`, `protocol/aead.h:168-306`: `set_nonce`, `z`, the kept copy of `z` (in `p_gc_z` if `secret`, else in `p_open_z`),
`x`, the OLE. -/
def encryptCode (secret : Bool) : Code :=
  .call oneArray (.loc .arr (.keep secret .arr (.loc .arr (.call twoArrays .done))))

/-- `AEAD::decrypt`, `protocol/aead.h:308-493`: the same, then `com`, `rnd`, for BOB `coma`, `rnda`, and `Commitment::open`. -/
def decryptCode (secret bob : Bool) : Code :=
  .call oneArray (.loc .arr (.keep secret .arr (.loc .arr (.call twoArrays (.loc .arr (.loc .arr
    (if bob then .call (.loc .arr (.loc .arr (.call oneArray .done))) .done else .call oneArray .done)))))))

/-- `decrypt_and_check_server_finished_msg`, `protocol/handshake.h:355-370`: `msg` and `decrypt`. -/
def checkFinishedCode (bob : Bool) : Code := .loc .arr (.call (decryptCode false bob) .done)

/-- `AEAD_Proof::prove_aead`, `protocol/aead_izk.h:120-184`, on the deques of the `AEAD` object: `set_nonce`, the check of `z0`, the
check of `z`, `pop_front`, and the array `rctxt` of a secret record.  A failed check ends the process; it is not modelled here. -/
def proveCode (secret : Bool) : Code :=
  .call oneArray (.call oneArray (.call (if secret then oneArray else twoArrays)
    (.pop secret (if secret then .loc .arr .done else .done))))

/-- What is done with an `AEAD` object.
`protocol/aead.h:169,309`, `protocol/handshake.h:355`, `protocol/aead_izk.h:120,186`. -/
inductive Op where
  | encrypt (secret : Bool) | decrypt (secret bob : Bool) | checkFinished (bob : Bool) | prove (secret : Bool)

/-- `protocol/aead.h:169,309`, `protocol/handshake.h:355`, `protocol/aead_izk.h:120,186`. -/
def Op.code : Op → Code
  | .encrypt s => encryptCode s
  | .decrypt s b => decryptCode s b
  | .checkFinished b => checkFinishedCode b
  | .prove s => proveCode s

/-- A sequence of operations.
Not in the code: a use of the classes of `protocol/aead.h:14` and `protocol/aead_izk.h:49`. -/
def runOps : List Op → Mem → Res Mem
  | [], m => .ok m
  | o :: os, m => do
    let m ← run o.code m
    runOps os m

/-! ### `backend/primus_party.h` -/

/-- The constructor, `backend/primus_party.h:31-34`: `buf` in `p_buf` (container `false`), `buff` in `p_buff` (container `true`). -/
def partyNew : Code := .keep false .arr (.keep true .arr .done)

/-- `set_batch_size`, `backend/primus_party.h:36-44`. -/
def setBatch : Code := .pop false (.pop true (.keep false .arr (.keep true .arr .done)))

end Verif.Model.Arrays
