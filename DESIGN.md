# Formal model of primus-labs/otls: design

The model lives in `lean/Verif`.  Properties are in `properties.jsonl` (C01, C02, ...), the status of each
is in `MANIFEST.json`.  This file says what is modelled, how each property is proved, what is trusted, and
where the code and the property disagree.

## Layout

* `Verif/Model/*.lean`: functional models of the C++ functions.  Each definition cites file and lines.
* `Verif/Spec/*.lean`: small independent specifications (FIPS 180-4, RFC 2104, RFC 5246, SP 800-38D,
  FIPS-197, abstract algebra).  They do not import the models.
* `Verif/Lemmas/*.lean`: helper lemmas.
* `Verif/Props/*.lean`: the property theorems with non-vacuity examples.

## Conventions

* `emp::Integer` = list of bits, least significant first.  `+`,`-` modulo 2^n, `geq` = sign bit of the
  difference, `select`, `^`, `&`, `>>`, `<<` bitwise.
* A secret bit in a two-party backend is a pair (garbler label, evaluator label) related by
  `eva = gen xor bit*Delta`.  At protocol level a secret is its plain value together with arbitrary share
  bits `lsb(gen)`, `lsb(eva)` whose xor is the value.
* Undefined behaviour (out-of-range access, division by zero, double free, uninitialised read) is an
  explicit outcome of the model, never a totalised default.
* Hash functions, PRGs, block ciphers (where not the subject), OT outputs and groups are parameters:
  theorems hold for every instance that satisfies the stated relation.

## Trusted base

* Lean's kernel (4.33.0).  Every theorem in `Verif/Props` depends on a subset of the axioms `propext`,
  `Classical.choice`, `Quot.sound` and on nothing else; there is no `sorry`, no added axiom, no compiled
  evaluation (`native_decide`, `bv_decide`).  Tables are checked with `decide +kernel`, by the kernel itself.
* The reading of the C++ sources recorded in the comments of the model (file and lines at every definition).
* The behaviour of external libraries, as listed next.

### External code and how it enters

| external | how it enters the model |
|----------|-------------------------|
| emp-tool `Integer`, `Bit` | values: bit lists with the documented operators.  Gate level (C44, C47, C53): a parameter `Lib` of circuits; `LibObl` (operations depend on wires only) `LibSound` (the values are right) and, for C53, `LibDep` (sums and selections of bits that depend on inputs depend on inputs) are hypotheses, met by the ripple-carry circuits `empLib` (`empLib_obl`, `empLib_sound`, `empLib_dep`) |
| emp-tool `BristolFormat` | inputs on the first wires, gates in file order, outputs on the last wires; other wires arbitrary |
| emp-tool `MITCCRH`, `CRH`, `PRG`, `sigma` | arbitrary functions |
| emp-tool `GaloisFieldPacking`, `gfmul` | product in the polynomial representation; VOPE has it as a parameter too |
| emp-ot Ferret / COT / IKNP | ideal: sender block `K`, receiver `K ^ r*Delta`; choice OT delivers the chosen message |
| emp-zk `ZKBoolCircExec`, `auth_helper` | a wire is a MAC/key pair; hash inputs of both sides recorded as lists |
| emp-zk `finalize_zk_bool` (C91 only) | deletes `circ_exec` and `prot_exec`, leaves the pointers; its source was not available, so this is an assumption |
| OpenSSL BN, EC | integers with Euclidean residues; points of a Weierstrass curve with Mathlib's group law or an abstract group; SEC 1 encoding |
| SHA-256 as used by `emp::Hash` | arbitrary function; binding theorems extract a collision |
| Intel intrinsics | written out on `BitVec 128` (shift, PCLMULQDQ, unpack, shuffle) |
| `NetIO` | FIFO channels that deliver what was sent; the adversarial theorems (C19, C31, C32, C36, C42, C50, C51) let the peer send anything |

### Modelled source

| source | model |
|--------|-------|
| cipher/utils.h, utils.cpp | Integer, BlockConv, Block, AESCircuit (computeKS, computeAES_KS), Switch (init_files) |
| cipher/sha256.h | SHA256, ShaHistory, ZkReplay; gate level GateOnline, GateOffline |
| cipher/hmac_sha256.h | HMAC, ShaHistory; GateOnline, GateOffline |
| cipher/prf.h | PRF, ZkReplay; GateOnline, GateOffline |
| cipher/circuit_files | AESCircuitData (all gates) |
| backend/bn_utils.h | OLE (hash), GC (garble, evaluate), Network, Ownership (Unique*) |
| byte arrays of all headers | Buffers (cells and bounds), Arrays (release) |
| backend/opt_hg_*.h, primus_*.h | GC, Cot, Setup (constructors), OpenFlip (an evaluator that changes bits opened to ALICE; also for online_*.h) |
| backend/offline_*.h, online_*.h | OfflineGC, GarblerCheat (a garbler that sends other tables), GarblerProbe (a garbler that shifts one table), GarblerKey (a garbler that adds blocks to tables of the last S-boxes), Setup (constructors); GarblerDirect (another garbler of the ordinary backend); the parties apart (also of primus_gen.h, primus_eva.h): GCParty |
| sends, receives and flushes of protocol/* and backend/*, as two processes | Wire (assumes: emp-ot and emp-zk calls are joint steps on `io` that flush it, bytes are labels, a receive of other bytes than expected counts as waiting) |
| backend/backend.h, switch.* | OfflineGC (sync), Setup, Switch, Threads, SwitchProxy (with the setup functions of prove_aes.h) |
| backend/ole.h, ole_f2k.h, vope.h | OLE, OLECheat (a party that does not follow the protocol), VOPE, NoAssertConv (both builds) |
| backend/check_zero.h, commitment.h | ZkCheck, ZkVerifier (BOB alone), ZkView (its wires), Commitment |
| protocol/addmod.h, e2f.h, handshake.h | Handshake, E2F, E2FParty, E2FCheat (a party that does not follow the protocol), DH, HandshakeProof; GateOnline, GateOffline |
| protocol/aead.h | AEAD, AEADCheat (a sender of the OLE that does not follow the protocol), AEADParty (messages), DecryptEnd, Records, RecordTwo (parties that pass different nonces and additional data), NoAssert (build without assertions; also for aead_izk.h, prove_aes.h, sha256.h); GateOnline, GateOffline |
| protocol/aead_izk.h, prove_aes.h, com_conv.h, post_record.h, prove_prf.h, record.h | AEADProof, ZkCheck, AESProver, ComConv, ComConvParty, PostRecord, HandshakeProof, DH, ProxyTls, ProxyVerifier (BOB alone), Records, Session, SessionGiven, FinishedCheat (a client that inputs other inner digests), Transcript (parties that pass different randoms and hashes); members of record.h at gate level: GateRecord, NoAssertConv (both builds) |
| test/prove_proxy_tls.cpp | ProxyTls (the only test program modelled: it is the only caller of the proxy mode) |

Not modelled: logging and time measurement, memory management of vectors, threads except for the globals of `switch.cpp` and `utils.cpp` (C94), the `USE_PRIMUS_EMP` build variants
(same statements through wrapper classes), the other test programs, computational secrecy and probability.  C54 to C57, C59 and C60 (and C51) speak about what a party learns: they
are perfect statements (equality of messages after a one-to-one change of randomness, with ideal oblivious transfers), for
parties that follow the protocol.  Nothing is said about the probability of a guess.  The evaluator's view (C62) is compared in the ideal model: the function under the
garbling hash is an arbitrary function from blocks to blocks (not only a permutation), fixed-key AES itself is not analysed, and runs in
which two points of the hash or a label and a public constant coincide are excluded; C67 (offline/online backend) and C69 (ordinary backend) bound their share of all draws; soundness theorems say what must coincide (a hash collision, a
guessed `Delta`) for a wrong value to pass.  C63 and C64 count block ciphers: all functions from blocks to blocks under which the records seen are sent, not only permutations and not
only AES.

### Simplifications

* `size_t` lengths are natural numbers unless the property is about wrap-around (C08, C29, C35, C46).
* Call counters are kept in the value-level SHA/HMAC models and left out of the gate-level models.
* A copy of an `Integer` is a value; sharing of labels between copies is visible only at gate level.
* Operands of C++ operators with side effects are evaluated from left to right (unspecified in C++); only the
  order of gates inside one expression depends on it.
* An `assert` is active, except in `Model.NoAssert` and `Model.NoAssertConv` (C86, C88), where the build is a parameter.

## Disagreements between code and property

Each entry is a theorem; the property is kept as a `_partial` theorem under the stated restriction.

* Finished messages leave the circuit byte-reversed, so a peer following the RFC rejects them unless the caller
  reverses them (`C15_finished_reversed`, `C15_honest_finished_rejected`).
* `compute_master_key` appends to the key member: a second call gives a longer key (`C15_master_key_appended`).
* `addmod` widens the caller's modulus object by two bits (`C24_modulus_widened`); the proof phase then sees a
  wider constant on a repeated call.
* One SHA object used with `opt_digest` and `opt_rounds_digest`, both with reuse, reads a cache that is not there:
  undefined behaviour (`C11_mixing_undefined`, `C13_mixing_undefined`).
* A cheating ALICE may feed another inner HMAC digest in `opt_hmac` (`C45_inner_digest_unbound`).  C74 shows that this changes nothing in what is attested
  about the connection's records, except those of `prove_record_server_last`.  But the records of the connection need not come from the server: without the round
  optimisation a client that inputs the inner digests of the key expansion in `compute_server_finished_msg` has `client_write_key`, `server_write_key` and both IVs opened
  (`C83_keys`) while the connection is still open, makes the server's finished message and all records itself, and is believed (`C83_accepted`).
  This breaks what the protocol is for.  `Integer(32, dig[i], ALICE)` (`cipher/hmac_sha256.h:94`) would have to be public, as in the line commented out above it,
  or be computed in the circuit.
* Openings that involve public constant wires are not authenticated in the optimised backend
  (`C19_constant_wires_unauthenticated`).
* `set_batch_size` after the first input makes the buffers of the parties disagree or be read uninitialised
  (`C20_set_batch_size`, `C20_set_batch_size_smaller`).
* The point at infinity is not checked in the key exchange; a zero scalar of one party gives a wrong secret, of
  the other a client that waits (`C41_infinity_unchecked`, `C41_zero_scalar`).  The overloads of `compute_primus_VA` and
  `compute_client_VB` that take a number of the caller do not store it; `reveal_pms` then fails (`C41_client_overload`, `C41_primus_overload`).
* Nothing in `OLE`, `OLEF2K` and `E2F` ties the messages of the OLE to the inputs: one changed message makes the conversion of the points fail exactly if one
  bit of the other party's mask `r` is 1 (`C77_bit`); the messages of the conversion do not show it.
- The same holds for tags (`C79`): a sender of `OLEF2K` that changes one block makes the tag wrong exactly if a chosen bit of the other party's share
  of the hash key is 1. The wrong tag is noticed only where the tag is used (by the server, or in `decrypt`), so each attempt that goes unnoticed
  tells the sender one bit (`C79_key_bit`, `C79_decrypt`, `C79_construct`).
* The evaluator of the offline/online backend checks nothing it is sent (`C80_no_check`). A garbler can make each AND gate any function that is true for an
  odd number of operands, and so open an input of BOB (`C80_run`, `C80_leak`). What is attested is checked again in the proof phase (C74); what was
  opened to the garbler before is not undone by it.
* At a public opening the evaluator sends a digest of its labels before the garbler has shown anything. A garbler that shifted the table of a gate reads
  an operand of that gate off the digest, and all opened bits are the right ones, so that neither the run nor the proof phase shows it (`C81_unnoticed`,
  `C81_bit`, `C81_adder`).
* The same with the cipher circuit: ALICE checks guesses of bytes of the last AES round key against the digest of one opened block of key stream, 256 guesses
  for one byte, `256^k` for `k` bytes of one digest; bytes of several digests under one key add up to the key (`C82_one_byte`, `C82_whole_key`). The gates and linear forms in
  `Model.GarblerKey` were found with `tools/lastbox.py`; the kernel checks them against the circuit (`carry_ok`, `arg_ok`, `last_ok`). The theorems are for a garbler that changes
  tables of the last circuit of one record; that the operations of a whole connection after the record stay away from its wires is a hypothesis.
* The randoms and hashes BOB passes to the handshake and to the proof phase are dropped: the inner digest (or the seed, with the round optimisation) is an input of ALICE
  (`C84_session`).  The models with one argument for both parties, and the theorems about them (C42, C45, C52, C74), are about the strings ALICE passes; that BOB's are the same is
  not checked by the code.
* `encrypt` and `decrypt` call `set_nonce` without its third argument, so the nonce is an input of ALICE also without the offline/online backend, and BOB's nonce is dropped; so is BOB's
  additional data (`C85_run`).  BOB's code cannot refuse a nonce ALICE uses twice, which gives her the hash key (`C85_reuse`).  For the proof phase the ciphertexts and tags of the connection
  are not kept: the code accepts other texts of the same lengths under the same nonces (`C85_other_texts`); the nonces are compared there, the ciphertexts have to be compared by the caller.
* The checks of lengths of the record layer are assertions, and whether they are compiled depends on a build type the repository does not set (`CMakeLists.txt`).  Without them long nonces are cut
  (`C86_long_nonce`, `C86_nonce_reuse`), an empty ciphertext is proved in place of any secret record (`C86_empty_ciphertext`) and further bits of a private message are not attested
  (`C86_private_longer`); the other violated assertions become reads out of range.
* The evaluator of the ordinary backend checks nothing either: tables and opening bits of the garbler are taken as they come (`C87_run`, `C87_no_check`).  As constants are told by their blocks, a
  table can make a secret wire a constant for one value of an operand, and the evaluator then sends nothing at an opening to ALICE (`C87_silent`).
* `compute_com_send`/`compute_com_recv` append the commitment of `r` after the whole of the caller's vector: with a vector longer than `chunk_len` the assertions of `linear_comb_com` and
  `linear_comb_rand` stop the program after the messages have been exchanged, and without assertions the sender refuses an honest receiver (`C88_long_checked`, `C88_honest`).
* The ordinary backend leaks in the same way as the online one (C81): `reveal` of the evaluator sends a digest of its labels, and a garbler that changed one table reads a bit of the evaluator's secrets
  from it while every opened value is right (`C89_bit`).
* `reveal` for ALICE only (`primus_gen.h:77-81`, `online_primus_gen.h:49-53`) takes the evaluator's bit as it comes; only PUBLIC openings are checked (`C90_ordinary`, `C90_shown`).  All openings
  of the protocol are PUBLIC.
* `setup_proxy_protocol` (`prove_aes.h:14-38`) only throws again when the setup fails: the circuits of `init_files` are lost and the pointers of an earlier session stay (`C91_failed_setup`, `C91_dangling`); a `finalize_proxy_protocol` after such failures goes through a null pointer (`C91_failures_then_finalize`);
  the two modes share the circuits without counting, so nested sessions free them twice (`C91_nested`).
* The comparison of digests in `ComConv::open` (C36) takes a fraction of more than 2^-16 of all pairs for equal, and a sender that sends a digest starting with a zero byte can open it to
  any values whose digest does too (`C92_pairs_bounds`, `C92_equivocation`).
* `AEAD::encrypt` (`aead.h:286-299`), the constructor (`aead.h:70`) and `OLEF2K::compute` (`ole_f2k.h:37`) never flush what they send on `io`; they rely on emp-tool flushing a connection
  before it receives on it (`C93_needs_flush_before_receive`).  `compute_com_recv` returns with unsent bytes in the buffer (`com_conv.h:583-584`).  `compute_primus_VA` sends as many bytes
  as the encoding has, one for `t = 0`, while the client always receives 65 (`C93_short_point`).
* Without `THREADING` the backends are global variables of the program: two valid sessions in two threads free objects twice (`C94_shared_sessions`).  With it a thread cannot use or free
  what another has set up (`C94_other_thread`, `C94_finalize_elsewhere`).
* In `E2F::open`, `encrypt` and `decrypt` both parties send before they read.  This hangs if the messages on `io_opt` do not fit into the connection (`C95_opening_too_large`,
  `C95_bobs_numbers`, `C95_opening_after`, `C95_encrypt_too_small`, `C95_decrypt_too_small`); 72 bytes suffice (`C95_code`), and for circuits and
  records with a decryption exactly 32 are needed (`C95_records_exact`).
* VOPE packs with the polynomial product and multiplies with the bit-reflected one (`C34_mixed_products`); from
  length 65 its buffers overlap (`C34_long`).
* VOPE masks the point with `Delta`, whose lowest bit is one: the lowest bit of the point is sent in the clear, two runs over
  one OT show the difference of the points, and a point that becomes known shows `Delta` (`C59_lowest_bit`,
  `C59_not_hidden`, `C59_two_runs`, `C59_delta`).
- C61: the constructors `UniquePoint(EC_POINT*)` and `UniqueCtx(BN_CTX*)` (bn_utils.h:149, 171) initialise the `unique_ptr`
  with `nullptr` instead of their argument, so every local point is leaked: one per `compute_primus_VA`,
  `compute_client_VB`, `reveal_pms` of ALICE, `open_check` and `linear_comb_com`, four per `compute_com_send`.
  `mask_mac` (com_conv.h:255-262) never gives `r` to `p_r` (`C61_not_balanced`, `C61_unbounded`).
* C68: the constructors `PrimusGen` and `PrimusEva` with an OT object passed in do not check or set its `Delta`; with another offset than
  that of the garbled circuit the labels of BOB's inputs are wrong (`C68_given`), with an unset one the role test of `AEAD` is undefined (`C68_given_role`).
  No caller passes one.
* The AEAD constructor accepts the zero mask `r`; then the shares of `H` are lost (`C25_zero_mask`).
* `gctr_opt` with ids that do not increase runs through the whole 32-bit counter (`C46_repeated_id`).
* The block-selecting provers do not compare the number of masked bytes with `msg_len`
  (`C30_mask_count_unchecked`).
* In `AEAD::decrypt` a peer that echoes commitment and opening is accepted (`C31_reflection`,
  `C31_zero_tag_accepted`).
* `obv_ghash` uses the input of ALICE only (aead.h:150-156): BOB accepts any ciphertext of the right length if his tag is the
  tag of ALICE's ciphertext, and in public mode outputs its decryption (`C58_bob_not_bound`, `C58_not_authentic`).  The
  model's `aad` and `iv` are ALICE's too.
* A `decrypt` that returns false has opened the right tag of ALICE's ciphertext to both parties; the next call with it is
  accepted (`C58_oracle`).  In secret mode ALICE has the plaintext before any tag is compared (`C57_decrypt`).
* `check_zero` compares a number of bytes that ignores the element size (`C32_local_check_short`).
* `itmac_hom_add_check` changes its argument, so it cannot be run twice (`C33_not_repeatable`).
* `send_bn` and `recv_bn` write past 1000 bytes for long numbers, and the hashed transcript does not determine the
  numbers (`C37_recv_overflow`, `C37_send_overflow`, `C37_transcript_ambiguous`).
* `PedersenComm::open` style comparison with `strncmp` stops at a zero byte (`C36_zero_byte`); the conversion check
  divides by zero for batch size 0, truncates the size to `int` and then reads out of range (`C35_batch_zero`,
  `C35_batch_truncated`, `C35_batch_out_of_range`).
* `compute_com_recv` sends its MAC whatever its check of the verifier says (com_conv.h:581-584), so a verifier that
  changes one message learns one bit; and since the numbers are hashed without their lengths, moving a byte from one
  message to the next passes the check (`C51_receiver_unconditional`, `C51_leak`, `C51_shift_accepted`).
* `prove_record_server_last` compares nothing with the connection and `finalize_check` does not ask for all records, so
  the last message can be any text sealed under the keys and records can be left out (`C52_last_unbound`,
  `C52_complete`).
* `AEAD_Proof` takes the oldest stored tag mask, whatever record is proved (`C40_wrong_order`).
* `finalize_check` with more records than stored, or with unproved finished messages, reads out of range
  (`C39_too_few`, `C39_unproved_finished`).
* Life cycle: finalising twice frees twice, switching after finalising uses freed objects, a failing setup after
  an earlier session leaves dangling pointers, a retry leaks (`C38_finalize_twice`, `C38_use_after_finalize`,
  `C38_failure_after_session`, `C38_retry_leaks`).
* The proof phase cannot be repeated: `prove_expansion_keys` reads out of range, `prove_master_key` has other
  public inputs (`C42_repeat_fails`, `C42_expansion_repeat_ub`, `C42_master_repeat_refused`).
* Proxy mode: `prove_client_finished_msg` and `prove_server_finished_msg` do not read their argument `ms`
  (`C48_finished_ignores_ms`); a pre-master secret longer than the field is written before the buffer
  (`C48_long_secret`); `zk_flag` is undefined behaviour (`C48_zk_flag`); the inner digest that ALICE inputs is bound by
  nothing, so the keys a prover shows need not depend on the handshake (`C48_prover_unbound`).
* `AEAD::encrypt` and `Record::encrypt` take the variable part of the nonce from the caller and keep no record of it; a nonce used twice is not refused, the difference of
  the messages is seen and the hash key has few candidates (`C64_reuse_not_refused`, `C64_reuse_forges`).
* Buffers: `HMAC_SHA256_Offline::opt_hmac_sha256` clears 8 of the 32 bytes of `dig` and reads all of them
  (`C65_offline_uninitialised`); the lengths given by callers are not checked (`C65_concat_short`, `C65_tag_short`, `C65_pms_long`).
* Arrays: `opt_phash` keeps `new unsigned char[]` in `shared_ptr<unsigned char>`, `p_pub_M` and `p_iv_in_hashes` keep `new uint32_t[]`
  in `shared_ptr<uint32_t>`; both are released by `delete` (`C66_opt_compute`, `C66_handshake`, `C66_sha_object`).
  `integer_to_block(block*, Integer&)` loses its array (`C66_integer_to_block`).

## Mutation testing

`seeded/LOG.jsonl` has one line per wrong program: the definition of the model that was edited in a scratch copy, the
edit, the claim it breaks, the theorems that failed, and what was tightened if none did.

## Plan per property

| id | model | proof |
|----|-------|-------|
| C01 | `Integer` lists, concat family | induction over vectors; positional value |
| C02 | blocks as BitVec 128, bytes | index arithmetic, round trip |
| C03 | str_to_int, int_to_hex, integer_to_chars | induction, base-256 digits |
| C04 | mulBlock with PCLMUL/shift intrinsics on BitVec | bilinearity + kernel evaluation on the whole basis |
| C05 | same | transfer to polynomials modulo the GCM polynomial |
| C06 | powBlock, invBlock loops | induction; Frobenius and Berlekamp certificate |
| C07 | ghash loop | induction against GHASH recursion and Horner form |
| C08 | padding arithmetic with 64 bit wrap | arithmetic, omega |
| C09 | update, compress on lists | refinement to FIPS 180-4 over BitVec 32 |
| C10, C11 | opt_update / opt_rounds_update with cache state | invariant over call histories |
| C12, C13 | HMAC state machine | refinement to RFC 2104, invariant over histories |
| C14 | phash variants | induction on blocks |
| C15 | handshake slices | composition of C14 and C01 |
| C16 | half gates | case split on select bits |
| C17 | OptHalfGateGen/Eva on programs | simulation by induction on programs |
| C18 | offline and online backends on programs | simulation by induction |
| C19 | reveal check | soundness up to collision; constant wires: negation |
| C20 | COT buffers | lockstep invariant by induction; set_batch_size: negation |
| C21, C22 | OLE, OLEF2K | induction on bits; linearity |
| C23 | E2F | algebra in ZMod q |
| C24 | addmod on bits | arithmetic |
| C25-C29 | AEAD | refinement to SP 800-38D with the block cipher as parameter |
| C30, C46 | AESProver | refinement; negations for id order / mask counts |
| C31 | Commitment | completeness, collision extraction, reflection witness |
| C32, C33 | check_zero, itmac_hom_add_check | iff theorems |
| C34 | VOPE with explicit buffer | correct for length <= 64, negation at 65 |
| C35, C36 | ComConv, Pedersen | completeness over an abstract group; strncmp negation |
| C37 | send_bn, recv_bn | round trip; overflow and ambiguity negations |
| C38 | switch pointer machine | invariant; double finalize negation |
| C39, C40 | PostRecord, AEAD_Proof queues | iff, FIFO invariant |
| C41, C42 | DH, post-record derivation | group algebra; repeated call negation |
| C43 | circuit files as data | certified symbolic evaluation in the kernel |
| C44 | operation traces of online and offline classes | relation between the two runs, by induction over call lists |
| C45 | check positions | invariant over histories |
| C47 | gate-level programs, garbled | refinement of every gate program to its value model, composed with C15, C18, C43, C44 |
| C48 | PRFProver, AESProver, the session of test/prove_proxy_tls.cpp | invariant over call sequences; iff theorem for the session; cheating prover: negation |
| C49 | AEAD objects on the label bits of a garbled connection (Model/Records) | induction over the calls, C47 for the shares, C25 to C27 for each call |
| C50, C51 | the parties of ComConv apart (Model/ComConvParty) | algebra over ZMod q, counting, extraction from two runs; leak witness |
| C52 | the proof phase as a whole (Model/Session) | inversion of every step, composed with C39, C40, C42, C43; decision theorem for honest handshakes; injectivity of AES-128 (Lemmas/AESInj) for the nonces |
| C53 | gate-level connection over the optimised backend | refinement as in C47 with C17; a Hoare logic for the dependence of wires on inputs (Lemmas/Depend*), checked gate by gate for the AES circuits |
| C54 | view of the garbler | explicit simulator for the messages of the evaluator, equality of streams by induction over the program; the choice bits are changed by an involution |
| C55 | view of each party of E2F::compute_online (Model/E2FParty) | explicit bijection of the other party's residues, algebra over ZMod q |
| C56 | view of the OLE receiver | involution of the strings that are not chosen, induction over the inputs |
| C57 | messages of AEAD::encrypt and decrypt (Model/AEADParty) | explicit functions of the recipient's data, in every reachable state |
| C58 | acceptance in AEAD::decrypt | iff theorem (partial: BOB's tag is compared with ALICE's ciphertext); negation; tag oracle |
| C59 | view of the VOPE receiver | iff theorem: hidden exactly up to the lowest bit (partial); leak theorems |
| C60 | view of the honest verifier in ComConv | explicit bijection of the prover's coins, with C51_deviation for the MAC |
| C61 | lives of objects over a heap (Model/Ownership) | invariant (allocated = owned + rest) by mutual induction over actions and bodies; exact losses (partial); negation; number of allocations by induction over actions |
| C62 | view of the evaluator (Model/GCParty) | explicit involution of the function under the hash at the points the evaluator does not ask for; induction over two runs side by side; counting over all functions; decision trees for distinguishers |
| C63 | a record that was not sent (Model/AEAD, Spec/GCM) | GHASH is a polynomial in the hash key, injective in the hashed data, with at most as many roots as blocks; ciphers ≃ hash key × rest; counting; union over attempts |
| C64 | records and messages (Model/AEAD, Spec/GCM) | involution of the cipher at the counter blocks (partial: nonces used once); negation for a nonce used twice |
| C65 | arrays with unwritten cells (Model/Buffers) | simulation of the byte-string functions; negations for lengths beyond the array and for the offline HMAC (partial) |
| C66 | scopes, guards and kept arrays over a heap (Model/Arrays) | invariant (heap = kept + others) by induction over code; sequences of operations; negations (partial); number of arrays by induction over code |
| C67 | ideal game beside the two phases (Props/EvaluatorBound, EvaluatorAdvantage) | simulation of the run from drawn labels, rows and hash values; one-to-one map from the draws of the game to those of the garbler; union bound by resampling one coordinate; the involution of C62 |
| C68 | constructors of both parties over a setup channel, two-environment runs (Model/Setup) | round trip of `block_to_bool`; equality of the two-environment run with the joint run; C17, C18, C20 |
| C69 | the same for the ordinary backend (Props/BackendGame, BackendBound, BackendAdvantage): wires as sets of variables, fixed by the program alone | simulation by induction on programs; every label is an affine function of one fresh variable, so a coincidence fixes it; one-to-one map from the draws of the game; C17, C62 |
| C70 | event list of the gate-level classes against a closed description (Spec/Profile, Lemmas/Profile); members of Record and HandShake (Model/GateRecord) | cost judgement `Io m c R` with rules for every construct, induction over the calls; AND counts of the circuit files by the kernel; C44 for the offline phase |
| C71 | programs of C70 in the games of C67 and C69 | equality of programs up to ALICE's bits from C44 and C70; counts from the description |
| C72 | evaluator that sends anything at one opening, in the games of C67 and C69; connections by C70 | the game does not use the offset, so a list computed in it contains the offset for 2m of 2^128 values; C19 turns an accepted wrong value into the offset or a collision |
| C73 | proof phase on the verifier's side (`Model.ZkVerifier`), prover holds any blocks and sends any bits and digest | a wrong item puts a block shifted by the offset, so transcripts of two offsets differ; all items right is C52's acceptance |
| C74 | proof phase with the outcome of the derivation as an argument (`Model.SessionGiven`) on a connection's record objects | a proof that goes through takes the oldest record (C40); its checks equate hash key, mask and key stream with those of the connection, so GCM gives the same result |
| C75 | proof phase on wires that are XORs of independent ones (`Model.ZkView`), prover follows the protocol | XOR commutes with passing from blocks to keys, so what is put is a function of the keys; blocks and keys are in bijection |
| C76 | BOB's side of the proxy mode (`Model.ProxyVerifier`), arbitrary prover | an accepted wrong claim needs a wrong opening; the bound of C73 for items |
| C77 | OLE and point conversion against a sender with arbitrary messages or a receiver with arbitrary choice bits (`Model.OLECheat`) | the receiver's loop is linear in the messages; only the share of `r²` is hit, which no message depends on |
| C78 | one party of the conversion against any strategy (`Model.E2FCheat`) | the third message is affine in `a` with slope zero only for a right bet, the last one is masked by `r`; an injective map on a finite set is a bijection |
| C79 | `encrypt`, `decrypt` and the constructor with the OLE of a cheating sender (`Model.AEADCheat`) | the run differs from the honest one by the error of `C77`; the product with a unit vector is not zero because the ring of blocks is a field |
| C80 | the garbler of `Model.GarblerCheat`, the evaluator of the code | invariant of C21 (label = base label or base label plus `Delta`) with the function of the gate in place of AND; for `C80_no_check` induction over the program with the kinds of the queued messages |
| C81 | the garbler of `Model.GarblerProbe`, the evaluator of the code | invariant: the evaluator's labels are the honest ones plus one block on the marked wires (`Spec.Linear`); induction over the program after the gate |
| C82 | the garbler of `Model.GarblerKey`, the evaluator of the code, `AeadG.encrypt` | invariant: the evaluator's labels are the honest ones plus what `Spec.Drift` puts on the wires; which gates reach which outputs and what the operands are by certificates over the whole circuit (`Lemmas.AESProbe`), the key schedule backwards (`Lemmas.KeyBack`) |
| C83 | handshake and proof phase without the round optimisation, ALICE inputs given inner digests in the last call (`Model.FinishedCheat`), the rest of the proof phase by `Model.SessionGiven` | the calls before by the runs of C15 and C45 (prefix of the replay), the last call by direct computation; the key block is `T(1)` and a prefix of `T(2)`; then as C52 |
| C84 | handshake and proof phase with own strings of each party (`Model.Transcript`) | equality with the model for one string, call by call; then C52 |
| C85 | record objects with own nonces and additional data of each party (`Model.RecordTwo`) | equality with the model for one nonce, induction on the calls; GHASH of one-block records differs by a multiple of the square of the hash key, squaring is a bijection of the field |
| C86 | functions with an `assert`, with the build as a parameter (`Model.NoAssert`) | equality of the checked build with the other models; agreement is closed under sequencing; the cut nonce; the queues of C40 |
| C87 | ordinary backend with another garbler (`Model.GarblerDirect`); plain programs with known wires (`Spec.ConstGates`) | invariant of C17 with the set of constants; one gate is `C80_gate`; the loop of `reveal` with inverted bits |
| C88 | commitment conversion with the caller's vectors and the build as parameters (`Model.NoAssertConv`) | intermediate values of `ComConv.Env.run` (`run_ok`); the combination differs from that of C35 in one term |
| C89 | the evaluator and the parties of `Model.GCParty` with one table of the stream changed | invariant `Apart`: honest labels plus one block on the marked wires, none of them a constant; `C62_parties` and the invariant of C17 give the honest labels |
| C90 | `Model.OpenFlip`: both backends with an evaluator that changes bits opened to ALICE | invariant of C17 (`NetInv`) with a second list saying which wires are not constants (`SecInv`), invariant of C18 (`Replay`); the values are those of `Spec.Flip` |
| C91 | `Model.SwitchProxy`: calls of both modes on the globals and the heap of `Model.Switch` | the state after setup written out; sessions preserve the heap, so they compose; `C38_finalize_iff` for the double free |
| C92 | `strncmpEq` and `openRecv` of `Model.ComConv` | bijections that take the first byte off; recurrence for the pairs and its closed form |
| C93 | `Model.Wire`: statements on the connections, two processes with buffers | unbuffered semantics with the diamond property, so one complete run decides all; a scan shows that a waiting party holds nothing back (`Tidy`); a measure bounds the length; calls composed by a frame lemma; `Model.WireGC` computes the operations of each party from its own labels, equal by the invariant of C17 |
| C94 | `Model.Threads`: calls of `Model.Switch` by several threads on one heap | simulation up to the names of objects: what a thread sees is what it would see alone, renamed, with a frame of objects of others; carried through every call |
| C95 | `Model.WireCap`: the same statements over connections of bounded size, byte by byte | diamond property of the bounded, buffered steps, so one complete run decides all; that run is put together from pieces, between which one party may have unread bytes in its buffer (`Flow`) |
| C96 | `Model.WireGC`, `Model.GC`; spec `Spec.Known` (constant propagation) | invariant: a label of the garbler is the block of a constant exactly where the constant is known without the inputs; then induction over the program; offline/online backend (`Props.TrafficOnline`): forms of the recorded messages of `Model.GCParty`, from any state; `Spec.Known` is right for every run of the plain circuit (`Props.KnownRight`) |
| C97 | `Model.Wire`; cost functions in `Props.WireBytes`, written from the lengths alone | sums over the lists of statements, call by call; the blocks of a tag by `C93_tag_blocks_closed` |
| C98 | counters of `Model.SHA256`, `Model.HMAC`, `Model.PRF`; `count` in `Props.Counters` is written from numbers of blocks alone | inversion of every call that ends, induction over blocks and calls; flags of stored states carried along; that the sequences end is C14 |
