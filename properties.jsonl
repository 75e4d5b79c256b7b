{"id": "C01", "title": "Word concatenation is big-endian and all variants agree", "statement": "Concatenating a vector of secret integers with concat, concat_opt or intvec_to_int gives the integer whose most significant part is the first element and whose value is the base-2^w positional value of the words; concat_opt always gives the same bits as concat; reverse_concat gives the mirrored (first element least significant) order; extract_integer returns exactly the requested slice counted from the most significant end, so slicing a concatenation returns its pieces; rrot and lrot are the rotations of the bits to either side by the amount given, and undo each other.", "quantifier": "all vectors of integers, all widths, all offsets and lengths inside the integer, all amounts up to the width", "why_tests_cant": "Widths, counts and offsets are unbounded; tests only exercise the few record/handshake layouts.", "anchors": ["cipher/utils.h: concat, concat_opt, reverse_concat, intvec_to_int, extract_integer, rrot, lrot"]}
{"id": "C02", "title": "Hex/block/integer conversions round trip", "statement": "hex_to_block applied to the bytes written by block_to_hex gives back the same blocks, block_to_hex applied to the blocks written by hex_to_block gives back the same bytes, byte k of the string is byte 15-(k mod 16) of block k/16, and hex_to_block reports an error for every length that is not a multiple of 16 and for no other length. integer_to_block keeps the value of a 128-bit integer, writes longer ones block by block from the most significant end, and refuses all other widths.", "quantifier": "all block arrays, byte strings and integers of any length", "why_tests_cant": "Needs every byte position of arrays of every length.", "anchors": ["cipher/utils.h: block_to_hex, hex_to_block, integer_to_block"]}
{"id": "C03", "title": "Secret/byte-string conversions are big-endian and lossless", "statement": "str_to_int followed by revealing bytes gives the string with the first character most significant; int_to_hex writes each word big-endian so that rebuilding words from the bytes returns the input words; integer_to_chars writes the integer's bytes most significant first.", "quantifier": "all strings, all word vectors, all integers whose size is a multiple of 8", "why_tests_cant": "Quantifies over all values and lengths.", "anchors": ["cipher/utils.h: str_to_int, int_to_hex, integer_to_chars"]}
{"id": "C04", "title": "mulBlock is the GCM field multiplication", "statement": "For every pair of 128-bit blocks mulBlock returns exactly the product defined by NIST SP 800-38D algorithm 1 (bit-reflected GF(2^128) modulo x^128+x^7+x^2+x+1).", "quantifier": "all 2^256 pairs of blocks", "why_tests_cant": "2^256 inputs; a wrong shift in the reduction can affect a vanishing fraction of sampled inputs.", "anchors": ["cipher/utils.h: mulBlock"]}
{"id": "C05", "title": "Block multiplication is a commutative ring with unit", "statement": "mulBlock is commutative, associative, distributes over xor, has the block with only bit 127 set as unit and the zero block as zero, and has no zero divisors.", "quantifier": "all triples of blocks", "why_tests_cant": "Algebraic laws over 2^384 triples.", "anchors": ["cipher/utils.h: mulBlock, powBlock"]}
{"id": "C06", "title": "powBlock and invBlock compute powers and inverses", "statement": "powBlock(a, n) returns a multiplied by itself n times (the unit for n = 0) for every 64-bit n; invBlock(a) times a is the unit for every non-zero a, and invBlock of zero is zero.", "quantifier": "all blocks, all 64-bit exponents", "why_tests_cant": "Inversion is exponentiation by 2^128-2; correctness needs that the ring is a field, which no sample of inputs shows.", "anchors": ["cipher/utils.h: powBlock, invBlock"]}
{"id": "C07", "title": "ghash is the GHASH function", "statement": "ghash(h, x, m) returns X_m of the SP 800-38D GHASH recursion over blocks x[0..m), equivalently the sum of x[i]*h^(m-i).", "quantifier": "all keys h, all block sequences of any length", "why_tests_cant": "Unbounded message length.", "anchors": ["cipher/utils.h: ghash"]}
{"id": "C08", "title": "SHA-256 padding is the FIPS 180-4 padding", "statement": "For a message of L bits the padded message is the message, a one bit, the least number of zero bits that makes the total a multiple of 512 with 64 bits left, and L as a 64-bit big-endian number; its length is a multiple of 512 and different messages have different padded messages.", "quantifier": "all messages of every bit length below 2^63", "why_tests_cant": "Boundary behaviour at every residue of the length modulo 512 and arbitrarily many blocks.", "anchors": ["cipher/sha256.h: SHA256::padding"]}
{"id": "C09", "title": "Secret SHA-256 digest equals FIPS 180-4 SHA-256", "statement": "digest on a secret integer holding a message returns the eight words of SHA-256(message); the compression used for secret data and the one used for public data compute the same FIPS 180-4 compression function.", "quantifier": "all messages of any length, all chaining values and blocks", "why_tests_cant": "All messages; equality of two independent implementations on all 768-bit inputs.", "anchors": ["cipher/sha256.h: SHA256::digest, update, chunk_compress, plain_chunk_compress"]}
{"id": "C10", "title": "Half-public SHA-256 equals SHA-256 of the concatenation", "statement": "opt_digest with a 64-byte secret first block and public remaining bytes returns SHA-256(secret || public) for every public length, on the first call and on every later call that reuses the opened intermediate state with the same secret.", "quantifier": "all secrets, all public suffixes, all histories of calls since the last reset", "why_tests_cant": "Caching bugs depend on call histories and on every length modulo 64.", "anchors": ["cipher/sha256.h: SHA256::opt_update, opt_digest"]}
{"id": "C11", "title": "Round-optimised SHA-256 equals SHA-256", "statement": "opt_rounds_digest, which keeps the secret state after the first block and reuses it, returns SHA-256(message) on the first call and on each later reuse with the same first block, whatever other calls the object served in between.", "quantifier": "all messages below 2^63 bits, all call histories", "why_tests_cant": "Caching bugs depend on histories.", "anchors": ["cipher/sha256.h: SHA256::opt_rounds_update, opt_rounds_digest"]}
{"id": "C12", "title": "HMAC-SHA256 equals RFC 2104", "statement": "After init(key), hmac_sha256(msg) returns HMAC-SHA256(key,msg): keys longer than one block are hashed first, shorter keys zero padded, with ipad 0x36 and opad 0x5c.", "quantifier": "all keys and messages of any byte length", "why_tests_cant": "Boundary at key length 64 and all lengths.", "anchors": ["cipher/hmac_sha256.h: HMAC_SHA256::init, hmac_sha256"]}
{"id": "C13", "title": "Optimised HMAC variants equal HMAC for every call history", "statement": "After init(key), any sequence of opt_hmac_sha256 / opt_rounds_hmac_sha256 / hmac_sha256 calls, with any reuse flags, each returns HMAC-SHA256(key,msg_i); a later init with another key makes later calls use the other key only.", "quantifier": "all keys, all finite sequences of init and mac calls", "why_tests_cant": "Stale cached inner/outer states only appear in particular call orders.", "anchors": ["cipher/hmac_sha256.h: opt_hmac_sha256, opt_rounds_hmac_sha256, init", "cipher/sha256.h: refresh"]}
{"id": "C14", "title": "TLS PRF equals RFC 5246 for every output length", "statement": "compute, opt_compute and opt_rounds_compute return the first bitlen bits of P_SHA256(secret, label || seed), whatever bitlen, label and seed are, and all three agree.", "quantifier": "all secrets, labels, seeds and output lengths", "why_tests_cant": "All lengths including exact multiples of the digest size.", "anchors": ["cipher/prf.h: PRF::compute, opt_compute, opt_rounds_compute, phash, opt_phash, opt_rounds_phash"]}
{"id": "C15", "title": "Handshake key schedule equals TLS 1.2", "statement": "The master key is PRF(pms,'master secret', client_random||server_random)[0..48) (or PRF(pms,'extended master secret', session_hash)), the key block is PRF(master,'key expansion', server_random||client_random) and is split as client key, server key, client iv, server iv in that order; finished messages are PRF(master, label, hash)[0..12).", "quantifier": "all pre-master secrets, randoms, session hashes and transcripts", "why_tests_cant": "Slicing and seed order must hold for all values, e.g. symmetric test inputs hide swaps (tests use constant bytes).", "anchors": ["protocol/handshake.h: compute_master_key, compute_extended_master_key, compute_expansion_keys, compute_client_finished_msg, compute_server_finished_msg"]}
{"id": "C16", "title": "Half-gate garbling is correct", "statement": "Evaluating a garbled AND gate on the labels of bits a and b yields the label of a AND b, for every label pair, every global offset with least significant bit one, every gate index and every hash function.", "quantifier": "all labels, offsets, tweaks, hash functions and input bits", "why_tests_cant": "Labels are random 128-bit strings.", "anchors": ["backend/bn_utils.h: garble_gate_garble_halfgates, garble_gate_eval_halfgates"]}
{"id": "C17", "title": "Garbled execution of any program reveals the plaintext result", "statement": "For every straight-line program of AND/XOR/NOT gates over private and public wires, executing it with the garbler and evaluator of the optimised backend and revealing a wire gives the plaintext value, as long as no accidental label coincidence happens.", "quantifier": "all programs, all inputs, all label choices without coincidence", "why_tests_cant": "All circuits and label assignments; public-wire shortcuts create many case combinations.", "anchors": ["backend/opt_hg_gen.h: OptHalfGateGen", "backend/opt_hg_eva.h: OptHalfGateEva", "backend/primus_gen.h: reveal", "backend/primus_eva.h: reveal"]}
{"id": "C18", "title": "Offline garbling plus online evaluation equals plaintext", "statement": "If the online phase issues the same sequence of gates, inputs and reveals as the offline phase, every reveal in the online phase returns the plaintext value, for ALICE, BOB and PUBLIC; wires that are equal or constant need no special treatment.", "quantifier": "all programs, all inputs of both parties, all seeds and hash functions", "why_tests_cant": "All programs; off-by-one in any replay counter only shows in some program shapes.", "anchors": ["backend/offline_hg_gen.h", "backend/offline_hg_eva.h", "backend/online_hg_gen.h", "backend/online_hg_eva.h", "backend/offline_primus_gen.h", "backend/offline_primus_eva.h", "backend/online_primus_gen.h", "backend/online_primus_eva.h", "backend/backend.h: sync_offline_online"]}
{"id": "C19", "title": "A public opening cannot be forged by the evaluator", "statement": "When the garbler accepts a public opening, the bits it outputs are the true bits of the opened wires, or the evaluator has produced a hash collision or the other label of a wire.", "quantifier": "all evaluator messages, all wires including constant wires", "why_tests_cant": "Ranges over all adversarial messages.", "anchors": ["backend/primus_gen.h: reveal", "backend/online_primus_gen.h: reveal"]}
{"id": "C20", "title": "Correlated OTs for evaluator inputs stay in step and are never reused", "statement": "For every sequence of input calls of any lengths both parties consume the same pre-computed correlations, each correlation is used for at most one input bit, and each input bit gets the label of its value; changing the batch size in between keeps this true.", "quantifier": "all sequences of feed calls and batch size changes", "why_tests_cant": "Buffer refill boundaries depend on the history of lengths.", "anchors": ["backend/primus_gen.h: feed", "backend/primus_eva.h: feed", "backend/primus_party.h: set_batch_size"]}
{"id": "C21", "title": "Prime-field OLE gives additive shares of the product", "statement": "After OLE::compute the outputs of the two parties sum modulo q to the product of their inputs, element by element, for every q and all inputs below 2^bit_length of q.", "quantifier": "all moduli, all input vectors, all correlated-OT outputs and hash values", "why_tests_cant": "All 256-bit inputs and masks.", "anchors": ["backend/ole.h: OLE::compute"]}
{"id": "C22", "title": "GF(2^128) OLE gives xor shares of the product", "statement": "After OLEF2K::compute the outputs of the two parties xor to the mulBlock product of their inputs, element by element.", "quantifier": "all input vectors of any length, all correlated-OT outputs", "why_tests_cant": "All 128-bit inputs and masks.", "anchors": ["backend/ole_f2k.h: OLEF2K::compute"]}
{"id": "C23", "title": "E2F converts point shares to additive shares of the x coordinate", "statement": "For points V_A, V_B with different x coordinates compute_offline followed by compute_online gives outputs that sum modulo q to the x coordinate of V_A+V_B, or reports an error when the opened masked denominator is zero; nothing else happens.", "quantifier": "all primes q, all points, all randomness of both parties", "why_tests_cant": "All field elements and randomness; degenerate denominators have negligible test probability.", "anchors": ["protocol/e2f.h: E2F::compute_offline, compute_online"]}
{"id": "C24", "title": "addmod adds modulo q", "statement": "addmod(res,a,b,q) sets res to (a+b) mod q with the width of q for all a,b below q.", "quantifier": "all q and all a,b<q of the same byte width", "why_tests_cant": "Carry and comparison boundaries for all 512-bit input pairs.", "anchors": ["protocol/addmod.h: addmod"]}
{"id": "C25", "title": "GCM hash key powers are multiplicatively then additively shared", "statement": "After the AEAD constructor the two parties hold values whose product is the hash key H, and the value each computes in the joint GHASH xors to GHASH_H of the blocks.", "quantifier": "all keys, masks and block sequences", "why_tests_cant": "All 128-bit masks; unbounded number of blocks.", "anchors": ["protocol/aead.h: AEAD::AEAD, obv_ghash"]}
{"id": "C26", "title": "AEAD encryption equals AES-GCM", "statement": "encrypt gives both parties the ciphertext and tag of AES-128-GCM (SP 800-38D) for the key, 12-byte nonce fixed_iv||iv, additional data and message, in both the public and the secret message mode, for every message and additional data length.", "quantifier": "all keys, nonces, additional data and messages", "why_tests_cant": "All lengths modulo 16, counters, and values.", "anchors": ["protocol/aead.h: AEAD::encrypt, gctr, set_nonce, inc"]}
{"id": "C27", "title": "AEAD decryption returns the plaintext and accepts exactly correct tags", "statement": "In an honest run decrypt returns true to both parties iff the tag is the AES-GCM tag of the additional data and ciphertext, and the message buffer equals ciphertext xor key stream; in secret mode only ALICE's buffer is written; encrypt then decrypt returns the message.", "quantifier": "all keys, nonces, ciphertexts and tags", "why_tests_cant": "All tags and lengths.", "anchors": ["protocol/aead.h: AEAD::decrypt"]}
{"id": "C28", "title": "Plain tag recomputation equals the GCM tag", "statement": "compute_tag returns the AES-GCM tag for the additional data and ciphertext given H and E(J0), and compare_tag returns true iff the given tag equals it.", "quantifier": "all H, masks, additional data, ciphertexts and tags", "why_tests_cant": "All lengths and values.", "anchors": ["protocol/aead.h: compute_tag, compare_tag"]}
{"id": "C29", "title": "Counter blocks follow SP 800-38D and do not repeat in a record", "statement": "The first counter block is fixed_iv||iv||00000001, the i-th key stream block is the encryption of that block with its last 32 bits incremented i times modulo 2^32, and the blocks used for one record are pairwise different as long as the record has fewer than 2^32 blocks.", "quantifier": "all nonces and record lengths", "why_tests_cant": "Wrap-around near 2^32 and all lengths.", "anchors": ["protocol/aead.h: inc, gctr, set_nonce", "protocol/prove_aes.h: inc, gctr, set_nonce"]}
{"id": "C30", "title": "AES prover accepts exactly matching ciphertexts", "statement": "prove_public_msgs / prove_private_msgs return true iff the ciphertext equals message xor the AES-CTR key stream; the block-selecting variants return true iff this holds on the bytes selected by the masks.", "quantifier": "all keys, nonces, messages, ciphertexts, block ids and masks", "why_tests_cant": "All lengths, all mask patterns.", "anchors": ["protocol/prove_aes.h: prove_public_msgs, prove_private_msgs, prove_public_msgs_opt, prove_private_msgs_opt, computeCounter, computeCounterOpt, gctr, gctr_opt"]}
{"id": "C31", "title": "Commitments open to what was committed", "statement": "open accepts the value and randomness returned by commit; accepting two different values for one commitment gives a hash collision; a commitment accepted as coming from the peer was not made by the party itself.", "quantifier": "all data, randomness and adversarial openings", "why_tests_cant": "Adversarial inputs.", "anchors": ["backend/commitment.h: Commitment::commit, open", "protocol/aead.h: AEAD::decrypt"]}
{"id": "C32", "title": "Zero checks accept exactly zero values", "statement": "The batched zero check makes both parties hash the same bytes iff the authenticated value equals the expected public data, and the local check on ALICE's side rejects every different data.", "quantifier": "all authenticated values, all lengths, all offsets", "why_tests_cant": "All values and lengths.", "anchors": ["backend/check_zero.h: check_zero"]}
{"id": "C33", "title": "Share consistency check accepts exactly consistent shares", "statement": "itmac_hom_add_check makes both parties hash the same bytes iff the authenticated result is the xor of the authenticated ALICE share and BOB's share.", "quantifier": "all shares, values and MAC keys", "why_tests_cant": "All values.", "anchors": ["protocol/aead_izk.h: itmac_hom_add_check"]}
{"id": "C34", "title": "VOPE gives a polynomial and its evaluation", "statement": "After VOPE the receiver holds the coefficients of a polynomial of degree length and the sender its value at its secret point, for every length.", "quantifier": "all lengths, points and correlations", "why_tests_cant": "All lengths; buffer overlap appears only above a threshold that the test does not reach.", "anchors": ["backend/vope.h: VOPE::compute_send, compute_recv"]}
{"id": "C35", "title": "Commitment conversion completes and yields commitments to the authenticated bits", "statement": "In an honest run compute_com_send and compute_com_recv both succeed and the i-th commitment opens to the number whose bits are the i-th chunk of the authenticated bits.", "quantifier": "all bit vectors, all chunk sizes accepted by the parameter check, all randomness", "why_tests_cant": "All lengths and chunk sizes.", "anchors": ["protocol/com_conv.h: ComConv::compute_com_send, compute_com_recv, convert_send, convert_recv, mask_mac, mask_key, PedersenComm"]}
{"id": "C36", "title": "Opened digests are compared in full", "statement": "ComConv::open accepts only if the digest of the opened values equals the committed digest.", "quantifier": "all digests", "why_tests_cant": "Differences after a zero byte occur with probability about 1/256 per byte.", "anchors": ["protocol/com_conv.h: ComConv::open"]}
{"id": "C37", "title": "Big numbers round trip over the network within bounds", "statement": "recv_bn returns the number passed to send_bn on the other side and consumes exactly the bytes sent; no message from the peer makes recv_bn write outside its buffer; the transcript hash determines the sequence of numbers.", "quantifier": "all non-negative numbers, all peer messages", "why_tests_cant": "Adversarial lengths.", "anchors": ["backend/bn_utils.h: send_bn, recv_bn"]}
{"id": "C38", "title": "Protocol life cycle never uses or frees a dead backend", "statement": "After setup_protocol, any sequence of switch calls selects the intended backend; finalize_protocol frees every backend exactly once; a failing setup leaves no dangling backend and a later setup or finalize is safe.", "quantifier": "all failure points and all call sequences", "why_tests_cant": "Histories with failures at each point.", "anchors": ["backend/switch.h", "backend/switch.cpp"]}
{"id": "C39", "title": "Final record check accepts exactly when all tags are valid", "statement": "PostRecord::finalize_check succeeds iff the client finished, server finished and all record tags equal the AES-GCM tags under the matching direction's hash key.", "quantifier": "all numbers of records, all tags, ciphertexts and additional data", "why_tests_cant": "Any number of records.", "anchors": ["protocol/post_record.h: finalize_check"]}
{"id": "C40", "title": "Deferred proofs are matched to records in order", "statement": "If records are encrypted/decrypted in some order with public or secret mode and later proved in the same order with the same modes, each proof is checked against the shares and openings of its own record, and no queue is popped when empty.", "quantifier": "all finite sequences of records and modes", "why_tests_cant": "All histories.", "anchors": ["protocol/aead.h: AEAD open/share queues", "protocol/aead_izk.h: AEAD_Proof::prove_aead, prove_aead_last"]}
{"id": "C41", "title": "Joint key exchange equals plain Diffie-Hellman", "statement": "The public key the client sends is (t_a+t_b)G, the parties' points add to (t_a+t_b)T_s, and the shares output by the handshake add modulo q to the x coordinate of the plain Diffie-Hellman secret; revealing t_a later is accepted iff it matches the first message and recomputes the same secret.", "quantifier": "all scalars and server points", "why_tests_cant": "All group elements.", "anchors": ["protocol/handshake.h: compute_primus_VA, compute_client_VB, compute_pms_online", "protocol/post_record.h: reveal_pms"]}
{"id": "C42", "title": "Post-record key derivation reproduces the online keys", "statement": "prove_master_key / prove_expansion_keys derive the same keys as the online phase from the revealed secret, each time they are called.", "quantifier": "all secrets, shares, randoms and numbers of calls", "why_tests_cant": "Histories with repeated calls.", "anchors": ["protocol/handshake.h: prove_master_key, prove_extended_master_key, prove_expansion_keys"]}
{"id": "C43", "title": "AES circuits equal FIPS-197", "statement": "The key schedule circuit file computes the FIPS-197 AES-128 key expansion and the encryption circuit file computes the AES-128 cipher from the expanded key, for every key and block.", "quantifier": "all 2^256 key/block pairs", "why_tests_cant": "2^256 inputs; a single wrong gate deep in a circuit of 29059 gates can be invisible on test vectors.", "anchors": ["cipher/circuit_files/aes128_ks.txt", "cipher/circuit_files/aes128_with_ks.txt", "cipher/utils.h: computeKS, computeAES_KS"]}
{"id": "C44", "title": "Offline classes issue the same operations as online classes", "statement": "For matching public lengths, each offline class issues the same sequence of inputs, circuit operations and reveals as its online counterpart, for SHA-256, HMAC, PRF, AEAD and the handshake.", "quantifier": "all lengths and call sequences", "why_tests_cant": "Mismatch appears only for particular lengths or histories.", "anchors": ["cipher/sha256.h: SHA256Offline", "cipher/hmac_sha256.h: HMAC_SHA256_Offline", "cipher/prf.h: PRFOffline", "protocol/aead.h: AEADOffline", "protocol/handshake.h: HandShakeOffline"]}
{"id": "C45", "title": "Opened intermediate hashes are re-checked in the proof phase", "statement": "After the online phase and a proof phase with the same sequence of key installations and calls, the final consistency check compares each opened intermediate hash of the online phase with the value recomputed in the proof phase, in matching order and completely.", "quantifier": "all call sequences", "why_tests_cant": "All histories; order mismatch only visible in some.", "anchors": ["cipher/sha256.h: sha256_check", "cipher/prf.h: prf_check", "protocol/handshake.h: handshake_check"]}
{"id": "C46", "title": "Block-selective key stream generation terminates and selects the requested blocks", "statement": "gctr_opt with strictly increasing block ids returns exactly the key stream blocks of those ids and terminates; computeCounterOpt returns exactly the bytes whose mask is set, in order.", "quantifier": "all id lists and masks", "why_tests_cant": "All id lists; non-increasing ids.", "anchors": ["protocol/prove_aes.h: gctr_opt, computeCounterOpt"]}
{"id": "C47", "title": "A garbled connection opens the values of TLS 1.2 with AES-128-GCM", "statement": "Garble the operations issued by the offline classes for a connection, then run the online classes and take every opened value from the evaluation of the stored tables. The run terminates without error, both parties read the same values, every finished message is the verify_data of RFC 5246 for the (extended) master secret of the summed pre-master shares, and every opened key stream is the AES-128-GCM key stream of its nonce under the partition of the key block. For every record, opened or secret, the lowest label bits of the two parties xor to the key stream and to the tag mask block, and for every record object to the hash key.", "quantifier": "all curve orders, shares, randoms, transcripts, PRF modes, sequences of finished messages and records, buffers, tables, hash functions of the garbling and global differences", "why_tests_cant": "All call sequences and inputs through every layer at once; a test sees one connection.", "anchors": ["protocol/handshake.h: compute_master_key, compute_extended_master_key, compute_expansion_keys, compute_client_finished_msg, compute_server_finished_msg", "protocol/aead.h: AEAD::encrypt, AEAD::decrypt, gctr", "protocol/aead.h: AEADOffline; protocol/handshake.h: HandShakeOffline", "backend/offline_hg_gen.h, backend/offline_hg_eva.h, backend/online_hg_gen.h, backend/online_hg_eva.h"]}
{"id": "C48", "title": "The proxy-model prover shows the keys, finished messages and plaintexts of the recorded session", "statement": "Every sequence of PRFProver calls writes the (extended) master secret, the traffic keys and the finished messages of RFC 5246 / RFC 7627 for the given pre-master secret, master secret, randoms and hashes; prove_proxy_tls accepts exactly if the recorded ciphertexts of both finished messages and of the client's message are the AES-128-GCM encryptions under these keys; no other inner HMAC digest can be used by the prover.", "quantifier": "all field sizes, pre-master secrets, randoms, hashes, call sequences, reuse flags, nonces, messages and ciphertexts", "why_tests_cant": "The test has one recorded session with an honest prover; call orders, flag settings, wrong ciphertexts and a cheating prover are not exercised.", "anchors": ["protocol/prove_prf.h: PRFProver", "protocol/prove_aes.h: AESProver", "test/prove_proxy_tls.cpp: prove_proxy_tls", "cipher/hmac_sha256.h:94"]}
{"id": "C49", "title": "The records of a garbled connection are TLS 1.2 AES-128-GCM records", "statement": "Run the record objects of a connection on the lowest label bits of its garbled evaluation. Every call succeeds; encrypt gives both parties the ciphertext and tag of AES-128-GCM under the keys of the TLS key block with nonce fixed iv || explicit iv; decrypt gives ALICE the plaintext, BOB too unless the record is secret, and both parties accept exactly if AES-128-GCM accepts; each party's object ends with the label bits of H, of every tag mask and of every secret key stream in the queues used by the proof phase.", "quantifier": "all connections of C47, all messages, additional data, nonces, received ciphertexts and tags, modes, masks, correlations, OT directions, hash functions and global differences", "why_tests_cant": "Every sequence of records through handshake, garbling, label shares, OLE and GHASH at once; a test sees one connection with random labels.", "anchors": ["protocol/aead.h: AEAD::AEAD, AEAD::encrypt, AEAD::decrypt, obv_ghash", "protocol/record.h: Record::encrypt, Record::decrypt", "backend/backend.h: setup_offline_backend, setup_online_backend, sync_offline_online", "cipher/utils.h: integer_to_block, integer_to_chars"]}
{"id": "C50", "title": "A cheating prover cannot convert other bits into commitments", "statement": "If compute_com_send returns true, then the numbers in the commitments are the numbers whose bits are authenticated, chunk by chunk, unless the prover's values determine the discrete logarithm of h, or determine the verifier's secret aDelta, or the deviations cancel under the coefficients (one coefficient vector in q); two accepting answers to coefficients differing in one chunk give an opening of that commitment. The answer is fixed by its hash before the secrets are opened.", "quantifier": "all prime orders, groups, authenticated bits, batch sizes with 2^bs <= q, all messages of the prover, all coefficients", "why_tests_cant": "A statement about every possible cheating prover and about numbers of coefficient vectors; the test runs two honest parties.", "anchors": ["protocol/com_conv.h: ComConv::compute_com_send", "protocol/com_conv.h: PedersenComm::open_check, linear_comb_com", "protocol/com_conv.h: commitDelta, convert_send, open, gen_chi"]}
{"id": "C51", "title": "A cheating verifier is caught before the prover answers", "statement": "compute_com_recv sends its combined MAC only if the numbers it received are those of an honest verifier with the committed secrets; otherwise the verifier learns nothing about single bits.", "quantifier": "all messages of the verifier, all authenticated bits, batch sizes, masks, commitments", "why_tests_cant": "Needs a verifier that deviates in chosen positions; both parties of the test are honest.", "anchors": ["protocol/com_conv.h: ComConv::compute_com_recv, convert_recv, open(vector<block>&)", "protocol/com_conv.h:581-584", "backend/bn_utils.h: recv_bn"]}
{"id": "C52", "title": "What an accepting verifier knows about the whole session", "statement": "If the proof phase (steps 1 to 3, the record proofs, finalize_check) runs through and the verifier accepts, then for the TLS 1.2 keys of the pre-master secret made of the two committed shares the finished values are right, both finished messages are records accepted by AES-128-GCM, and every message handed to the caller is the plaintext of a record accepted by AES-128-GCM. Honest sessions are accepted and give the messages sent. Otherwise the verifier accepts exactly if the record objects used those keys on all records claimed and all tags are right; with objects that hold those keys, exactly if the nonces claimed are those of the records and all tags are right. Records that are not claimed, and the record given to prove_record_server_last, are bound to nothing in the connection.", "quantifier": "all states of the handshake and record objects, all shares, secrets, ciphertexts, tags, nonces, orders and numbers of records; both modes of the PRF", "why_tests_cant": "The tests run one honest session with fixed data; acceptance of altered data, keys and record sequences is a statement about every session.", "anchors": ["protocol/post_record.h: prove_and_check_handshake_step1/2/3, prove_record_client, prove_record_server, prove_record_server_last, finalize_check", "protocol/handshake.h: prove_*, handshake_check", "protocol/aead_izk.h: AEAD_Proof"]}
{"id": "C53", "title": "A connection over the optimised backend", "statement": "With the backend that garbles and evaluates gate by gate (setup_protocol without the offline/online split), a whole connection opens the finished messages of RFC 5246 and the AES-128-GCM key streams, all messages are consumed, and the label bits of the wires of H, Z0 and Z (which aead.h takes as xor shares) share these values, unless a label coincides with a reserved one. Wires with a public label do not share anything, so this needs that no wire of H, Z0 or Z has one.", "quantifier": "all curve orders, shares, randoms, transcript hashes, both PRF modes, all sequences of record objects, finished messages and records, all label streams, permutations, hash functions and Delta without coincidences", "why_tests_cant": "The shares are right only if each of the thousands of wires has a label that is not one of the four reserved blocks; one run shows one choice of labels, inputs and lengths.", "anchors": ["backend/opt_hg_gen.h, backend/opt_hg_eva.h", "backend/switch.h: setup_protocol", "protocol/handshake.h: compute_master_key, compute_expansion_keys, compute_*_finished_msg", "protocol/aead.h: AEAD, encrypt, decrypt (getLSB of the labels)"]}
{"id": "C54", "title": "What the garbler learns about the inputs of BOB", "statement": "The messages the garbler receives in a run of the gate-by-gate backend can be computed from its own program, its own inputs and secrets, the values opened to ALICE or to both, and one random bit per input of BOB. Two programs that differ only in the inputs of BOB and open the same values to ALICE give the garbler the same messages up to a change of the random choice bits of the evaluator. In the offline/online backend they give it the same messages. The garbler, run alone on these messages, has the outputs and the final state of the joint run.", "quantifier": "all programs, all inputs, all label streams, permutations, hash functions, choice bits and Delta (gate-by-gate backend: without coincidences with reserved labels)", "why_tests_cant": "Secrecy compares runs: a test sees the messages of one run and cannot tell whether they would be the same for all other inputs with the same outputs.", "anchors": ["backend/primus_gen.h: feed, reveal", "backend/primus_eva.h: feed, reveal", "backend/online_primus_gen.h: feed, reveal", "backend/online_primus_eva.h: feed, reveal"]}
{"id": "C55", "title": "What the parties of the point conversion learn", "statement": "The messages a party receives in E2F::compute_online do not tell it which point the other party has: for any two points of the other party whose x coordinates differ from its own, the messages are the same up to a one-to-one change of the other party's random residues, with the outputs of the oblivious linear evaluations of the preparation fixed. That the x coordinates are equal does show: the run stops after three messages. A preparation used twice shows the differences of the coordinates. The two parties run together give the result of the joint model (C23).", "quantifier": "all primes q, all points, all random residues and OLE outputs of the party that looks", "why_tests_cant": "Secrecy compares the distribution of the messages for all pairs of inputs; a test sees single runs.", "anchors": ["protocol/e2f.h: compute_offline, compute_online"]}
{"id": "C56", "title": "What the receiver of an oblivious linear evaluation learns about the sender's inputs", "statement": "The messages OLE::compute and OLEF2K::compute send to the receiver can be explained by any other inputs of the sender: after a one-to-one change of the strings the receiver did not choose (OLEF2K), or of the hash function at the blocks the receiver does not have (OLE, if these blocks differ from each other and from those it has), the messages for the other inputs are the same, and so is all that the receiver reads.", "quantifier": "all lists of inputs of equal length, all moduli, all OT strings, all hash functions", "why_tests_cant": "Secrecy compares the messages of all pairs of inputs over all the sender's randomness; a test sees single runs.", "anchors": ["backend/ole.h: compute", "backend/ole_f2k.h: compute"]}
{"id": "C57", "title": "What the parties tell each other when a record is encrypted or decrypted", "statement": "Every message of AEAD::encrypt and AEAD::decrypt outside the garbled circuit and the OLE is determined by what the recipient holds (its shares of the key stream and of the tag), by its outputs, by the right tag of ALICE's ciphertext and by the commitment randomness. In secret mode BOB receives nothing that depends on the plaintext when a record is decrypted. The shares a party holds of the key stream say nothing about it: ALICE's are her label bits, BOB's are the same for any two ciphers after a fixed change of ALICE's label bits.", "quantifier": "all states reached by any sequence of calls, all messages, ciphertexts, tags (right or wrong), additional data, nonces, both modes, all randomness, all ciphers", "why_tests_cant": "That messages are functions of the recipient's own data is a statement about all pairs of runs.", "anchors": ["protocol/aead.h: encrypt, decrypt, obv_ghash"]}
{"id": "C58", "title": "An accepted record is authentic for both parties", "statement": "If AEAD::decrypt returns true to a party, the tag this party has is the AES-GCM tag of the ciphertext this party has. A call that returns false gives no party a tag that a later call accepts.", "quantifier": "all states reached by any sequence of calls, all ciphertexts and tags of both parties, both modes, all randomness, all ciphers", "why_tests_cant": "The tests give both parties the same ciphertext, so they cannot tell whose ciphertext is authenticated.", "anchors": ["protocol/aead.h: decrypt, obv_ghash (lines 150-156: only ALICE's input is used)"]}
{"id": "C59", "title": "What the receiver of VOPE learns about the sender's point", "statement": "The receiver of VOPE::compute_recv learns nothing about the point h of the sender: for any two points, the sender's randomness (Delta and the correlated OT keys) goes one-to-one to randomness with which the receiver sees the same.", "quantifier": "all points h, h', all choice bits, all OT keys and all Deltas with lowest bit one", "why_tests_cant": "The test program sends h to the receiver afterwards; it cannot show what the messages before tell about it.", "anchors": ["backend/vope.h: compute_send, compute_recv"]}
{"id": "C60", "title": "What an honest verifier learns in the commitment conversion", "statement": "For a verifier that sends the numbers of the protocol, the messages of compute_com_recv (commitments, opening of the combination, hash and MAC) do not depend on the authenticated bits: for any two lists of bits under the same keys the prover's coins go one-to-one to coins with which it sends the same. PedersenComm::commit hides perfectly.", "quantifier": "all groups of prime order, all hash functions and coefficient generators, all keys, bits, batch sizes, Deltas, openings", "why_tests_cant": "Secrecy compares all pairs of inputs over all coins; a test sees single runs.", "anchors": ["protocol/com_conv.h: PedersenComm::commit, compute_com_recv"]}
{"id": "C61", "title": "OpenSSL objects are freed exactly once", "statement": "Every BIGNUM, EC_POINT, EC_GROUP and BN_CTX that an object of OLE, E2F, HandShake, HandShakeOffline, PostRecord, PRFProver, PedersenComm or ComConv allocates in its constructor or in any sequence of calls is freed exactly once, at the latest by the destructor of the object; nothing is freed twice and no object of the caller is freed.", "quantifier": "all heaps before, all sequences of method calls, all bit lengths, numbers of keys and batch sizes", "why_tests_cant": "The test programs end after a few calls and the operating system reclaims the memory; a leak shows in no result.", "anchors": ["backend/bn_utils.h: UniqueBN, UniquePoint, UniqueGroup, UniqueCtx", "protocol/com_conv.h: open_check, linear_comb_com, mask_mac, compute_com_send, compute_com_recv", "protocol/handshake.h: compute_primus_VA, compute_client_VB", "protocol/post_record.h: reveal_pms"]}
{"id": "C62", "title": "What the evaluator of a garbled circuit learns", "statement": "In the gate-by-gate and in the offline/online backend the evaluator learns nothing about the inputs of ALICE but the values opened to it. For two programs that differ only in the inputs of ALICE and open the same values to BOB or to both, the function under the garbling hash can be changed one-to-one, at points the evaluator does not ask for, and in the offline/online backend the labels drawn for the inputs of ALICE, so that the evaluator receives the same messages (in both phases), holds the same labels, outputs and sends the same. Every changed point is the sum of a label it holds and the global offset; whatever is computed from its view with more questions to the function is the same for both inputs, unless such a point is asked for.", "quantifier": "all programs, inputs, offsets, generators and functions under the hash for which no label is accidentally a public constant and no two points of the hash coincide", "why_tests_cant": "Secrecy compares all pairs of inputs over all functions; a test sees single runs.", "anchors": ["backend/opt_hg_gen.h: and_gate, garble_gate_garble_halfgates", "backend/opt_hg_eva.h: and_gate", "backend/primus_gen.h: feed, reveal", "backend/primus_eva.h: feed, reveal", "backend/offline_hg_gen.h: and_gate", "backend/offline_primus_gen.h: reveal", "backend/online_primus_gen.h: feed, reveal", "backend/online_primus_eva.h: feed, reveal"]}
{"id": "C63", "title": "Forging a record", "statement": "A record that was not sent (its nonce, additional data and ciphertext are not those of one record sent) is accepted by AEAD::decrypt of a party, in any state and with any tag, for at most N of 2^128 of the block ciphers under which the records that were seen are sent under nonces used once, where N is the largest number of blocks hashed for one record (one per 16 bytes of additional data or ciphertext, and one). Under a nonce that no record has it is exactly one of 2^128. With q forged records it is at most q N of 2^128.", "quantifier": "all records sent with distinct nonces and lengths within the limits of GCM, all forged records, all reachable states, both modes and both OT directions", "why_tests_cant": "The claim counts over all block ciphers and all forgeries; a test tries single forgeries, which are refused by a weak tag comparison as well.", "anchors": ["protocol/aead.h: AEAD, encrypt, decrypt, obv_ghash, set_nonce, gctr"]}
{"id": "C64", "title": "Records do not reveal the messages, also when nonces repeat", "statement": "The ciphertexts and tags produced by AEAD::encrypt reveal nothing about the messages but their lengths: the number of block ciphers under which they are produced is the same for all messages of the same lengths. (Holds for nonces used once; encrypt does not refuse a nonce it has used before, and then the difference of two messages is seen, at most N candidates for the hash key remain, and the right one gives accepted tags for all further records under that nonce.)", "quantifier": "all sequences of records, all messages, all reachable states", "why_tests_cant": "Secrecy compares all pairs of messages over all ciphers; a test of round trips passes with repeated nonces.", "anchors": ["protocol/aead.h: encrypt, set_nonce, gctr", "protocol/record.h: Record::encrypt"]}
{"id": "C65", "title": "Byte buffers: every cell is written before it is read, within the array, and holds what the value-level functions say", "statement": "Seeing arrays as cells that may be unwritten: the label and seed of the PRF, the pre-master secret, the tag input of a record, block_to_hex and hex_to_block, the masking loop of a record, the 64-byte array of the plain SHA-256 and the arrays of opt_phash are used within their bounds, no cell is read before it is written, and the result is that of the function on byte strings (RFC 5246 for the PRF, SHA-256 for the digest, GCM for the tag input), for all lengths that the arrays of the caller hold; a longer length or a longer secret reads or writes outside an array. (The offline HMAC reads words it has not written: memset gets the number of words instead of bytes.)", "quantifier": "all inputs, lengths, array contents and object states", "why_tests_cant": "Reading an unwritten or a neighbouring cell usually yields a plausible value, and the property ranges over all lengths.", "anchors": ["cipher/prf.h: opt_phash, opt_compute", "cipher/sha256.h: opt_update", "cipher/hmac_sha256.h: HMAC_SHA256_Offline::opt_hmac_sha256", "cipher/utils.h: block_to_hex, hex_to_block, integer_to_chars", "protocol/aead.h: encrypt, decrypt, compute_tag", "protocol/handshake.h: compute_master_key, compute_expansion_keys"]}
{"id": "C66", "title": "Arrays of new[] are released exactly once, by delete[]", "statement": "Every function restores the heap: the arrays it makes are released when it returns, except those the object keeps, which its destructor or the proof phase releases, each once and by delete[]. (Holds for the utilities, the checks, the round-optimised key derivation with its proofs, AEAD objects under any sequence of encrypt, decrypt and proofs, and the buffers of the backends. Without ENABLE_ROUNDS_OPT every PRF computation, and the destruction of every SHA-256 object that opened a state, releases an array by delete, which is undefined behaviour; integer_to_block(block*, Integer&) leaks one array per call.)", "quantifier": "all heaps, all numbers of rounds and blocks, all sequences of operations", "why_tests_cant": "Mismatched delete of bytes goes unnoticed with common allocators; leaks change no output; and the claim ranges over all call sequences.", "anchors": ["cipher/prf.h: opt_phash, p_A, p_pub_M", "cipher/sha256.h: opt_update, p_iv_in_hashes", "cipher/utils.h: integer_to_block", "protocol/aead.h: p_gc_z, p_open_z", "protocol/aead_izk.h: prove_aead", "backend/primus_party.h: set_batch_size"]}
{"id": "C67", "title": "How well the evaluator of the offline/online backend can tell two inputs of the garbler apart", "statement": "A distinguisher gets everything the evaluator stores, receives, holds, outputs and sends in the offline and the online phase and may ask for q further values of the function under the garbling hash. For two online programs that differ only in the inputs of ALICE and open the same values to BOB, the share of draws (function, labels of the inputs, offset) for which it says yes differs by at most (12 A^2 + 4 A q) / 2^128, where A is the number of AND gates; and at most 12 A^2 / 2^128 of all draws make two points of the hash coincide.", "quantifier": "all circuits of up to 2^63 AND gates, all inputs, all distinguishers and numbers of questions, counted over all functions from blocks to blocks, all labels and all offsets", "why_tests_cant": "The bound is about all strategies of a distinguisher and a share of 2^128 or more draws.", "anchors": ["backend/offline_hg_gen.h: and_gate", "backend/online_hg_eva.h: and_gate", "backend/bn_utils.h: garble_gate_garble_halfgates, garble_gate_eval_halfgates", "backend/offline_primus_gen.h: feed, reveal", "backend/online_primus_gen.h: feed, reveal", "backend/online_primus_eva.h: feed, reveal"]}
{"id": "C68", "title": "The constructors leave the two parties in states that fit together", "statement": "After setup_backend each party has only what its own constructors made of its own draws and of the messages it received. These fit: all setup messages are consumed, the offset of the garbled circuit is odd and equals the Delta of the garbler's OT object, the evaluator's Delta is zero (so that the test by which AEAD decides who sends gives opposite answers), fix point, shared seed and position in the buffer of correlated OTs agree; a program run from there opens the plain values. After setup_offline_backend, an offline phase, setup_online_backend and sync_offline_online the garbler uses offset, seed and labels of the offline phase whatever the online constructors drew, and the online phase opens the plain values. An OT object passed as optional argument is taken as it is: labels of BOB's inputs are right exactly if its Delta is the offset.", "quantifier": "all draws of both parties, all generators, all programs", "why_tests_cant": "Draws are 128-bit blocks; a mismatch that shows only for some of them, or only for the offline/online pair, is not met by tests.", "anchors": ["backend/backend.h: setup_backend, setup_offline_backend, setup_online_backend, sync_offline_online", "backend/opt_hg_gen.h: OptHalfGateGen, set_delta", "backend/opt_hg_eva.h: OptHalfGateEva", "backend/primus_party.h: PrimusParty", "backend/primus_gen.h: PrimusGen", "backend/primus_eva.h: PrimusEva", "backend/online_primus_gen.h: OnlinePrimusGen, set_seed", "backend/online_primus_eva.h: OnlinePrimusEva", "protocol/aead.h: AEAD"]}
{"id": "C69", "title": "In the ordinary backend coincidences are rare, and the evaluator's view hardly depends on the garbler's input", "statement": "For every program with W wires and at most A AND gates and all inputs: when the function under the garbling hash, the labels of ALICE's inputs, the blocks of the correlated OTs and the offset are drawn uniformly, all but the part (4 W + 12 A^2) / 2^128 of the draws give a run of PrimusGen and PrimusEva that opens exactly the plain values to the entitled parties, with all messages consumed and equal gate counters. A distinguisher that gets everything the evaluator gets, holds, outputs and sends and asks for q more values of the function says yes at most the part (4 W + 12 A^2 + 4 A q) / 2^128 of the draws more often for one input of ALICE than for another that opens the same values to BOB.", "quantifier": "all programs of the interface (inputs, constants, XOR, NOT, AND, reveal, any wiring), all inputs, all distinguishers, all choice bits of BOB", "why_tests_cant": "It is a statement about the share of all functions, labels and offsets, and about all distinguishers; a test sees one draw.", "anchors": ["backend/opt_hg_gen.h: and_gate, garble_gate_garble_halfgates", "backend/opt_hg_eva.h: and_gate, garble_gate_eval_halfgates", "backend/primus_gen.h: feed, reveal", "backend/primus_eva.h: feed, reveal"]}
{"id": "C70", "title": "What a connection feeds, opens and garbles is fixed by public lengths", "statement": "For every curve, both modes of the PRF and every sequence of calls of HandShake and AEAD that runs through: the inputs and openings (party, number of bits, order) and the numbers of AND and free gates handed to the backend are those of a closed description that reads only lengths and BOB's shares. All openings go to both parties. In rounds mode only finished messages (96 bits) and the key stream of records that are not secret are opened, otherwise also the inner hash of each HMAC key and each A(i) (256 bits). BOB feeds exactly its share of the pre-master secret. The offline phase has the same exchanges and gates. The members of Record open nothing.", "quantifier": "all moduli, both modes, all sequences of calls with any shares, randoms, transcripts, nonces and record lengths, whatever the openings return", "why_tests_cant": "A test runs a few fixed lengths and does not see that no further opening or input occurs for other sequences and values.", "anchors": ["protocol/handshake.h: compute_master_key, compute_extended_master_key, compute_expansion_keys, compute_client_finished_msg, compute_server_finished_msg, encrypt_client_finished_msg, decrypt_server_finished_msg", "cipher/prf.h", "cipher/hmac_sha256.h", "cipher/sha256.h", "protocol/aead.h", "protocol/record.h"]}
{"id": "C71", "title": "BOB can hardly tell two runs of a connection apart that open the same values", "statement": "Two runs of a connection with the same calls and lengths and the same shares of BOB, but any shares (and randoms, transcripts, opened-and-refed digests) of ALICE, hand the backends programs that differ in the bits of ALICE only. If they open the same values, a distinguisher that sees everything BOB gets, stores, holds, outputs and sends and asks for n more values of the function under the hash says yes at most the part (12 A^2 + 4 A n)/2^128 of the draws more often for one run than for the other (offline/online backend), or (4 W + 12 A^2 + 4 A n)/2^128 (ordinary backend), with A AND gates and W wires given by the description of C70. Key derivation and secret records in rounds mode open nothing, so there the condition on openings falls away.", "quantifier": "all moduli, both modes, all sequences of calls, all inputs of ALICE, all distinguishers", "why_tests_cant": "It compares the shares of all draws on which an arbitrary distinguisher succeeds.", "anchors": ["protocol/handshake.h", "protocol/aead.h", "protocol/record.h", "backend/offline_hg_gen.h", "backend/offline_hg_eva.h", "backend/online_hg_gen.h", "backend/online_hg_eva.h", "backend/opt_hg_gen.h", "backend/opt_hg_eva.h"]}
{"id": "C72", "title": "A wrong value is hardly ever accepted at a public opening", "statement": "The evaluator follows the protocol up to a PUBLIC opening and there sends any bits and the digest of any blocks, computed from everything it has stored, got, output and sent so far, the labels it holds and q more values of the function under the hash. Over all functions under the hash, labels and offsets the garbler outputs another value than that of an opened wire for at most the part (12 A^2 + 4 A q + 2 m)/2^128 of the draws (offline/online backend; A AND gates, m wires), besides those where two different lists have the same digest. At any point of a program the evaluator names the offset among m blocks at most that often. For the ordinary backend 4 W more (W wires), and only wires that are no constants (constants can be forged, C19). The garbler accepts given bits exactly if the digest is that of the labels held with the offset added where the bit is wrong. For a connection the K openings of C70 give K times the bound.", "quantifier": "all programs, all positions in them, all inputs of both parties, all strategies with any number of questions; all connections", "why_tests_cant": "It counts the draws on which an arbitrary strategy succeeds.", "anchors": ["backend/primus_gen.h: reveal", "backend/primus_eva.h: reveal", "backend/online_primus_gen.h: reveal", "backend/online_primus_eva.h: reveal", "protocol/handshake.h", "protocol/aead.h"]}
{"id": "C73", "title": "A cheating prover gets a false session accepted for at most one offset in 2^127", "statement": "In the proof phase the verifier puts blocks into a digest for every check_zero, itmac_hom_add_check and for the opening of finalize_check, and accepts if its digest is the one received and the tags agree with the bits received. Whatever the prover did in the connection, whatever secret, ciphertexts, tags and nonces it presents, whatever blocks it holds, whatever bits it announces at the opening and whatever digest it sends: of the 2^127 offsets the verifier may hold at most one makes it accept messages that are not plaintexts of records valid under the keys of the pre-master secret with the right finished values, unless two of the verifier's transcripts have the same digest. After an honest handshake the verifier's run goes through whatever records of the recorded lengths are presented, and the same holds as soon as one of them is not valid under AES-128-GCM. A prover who presents valid records and its own blocks is accepted for every offset.", "quantifier": "all states of the prover's objects, all presented secrets, records and nonces, all blocks, announced bits and digests, all offsets", "why_tests_cant": "It counts the offsets on which an arbitrary forgery succeeds.", "anchors": ["protocol/post_record.h", "backend/check_zero.h", "protocol/aead_izk.h: itmac_hom_add_check", "protocol/handshake.h: handshake_check", "cipher/prf.h: prf_check", "cipher/sha256.h: sha256_check"]}
{"id": "C74", "title": "What is attested about the connection's records does not depend on the key derivation of the proof phase", "statement": "In the proof phase the prover may feed other inner digests than those opened, so that the keys come out differently. Whatever keys (of the right sizes), master secret and checks the derivation comes out with: if the proof phase of a connection runs through and the verifier accepts, then the presented finished messages are accepted by GCM under the keys, fixed parts and nonces the connection used, and the messages handed over for prove_record_client and prove_record_server are, in order, the plaintexts of the first records of the connection of that direction under these keys and nonces. After an honest handshake these are the TLS keys of the pre-master secret. On the verifier's side: of the 2^127 offsets at most one makes it accept something else, whatever blocks, bits and digest the prover sends, unless two transcripts have the same digest.", "quantifier": "all outcomes of the derivation, all presented records and nonces, all histories of the record objects with a public finished message followed by secret records, all blocks, bits and digests of the prover", "why_tests_cant": "It quantifies over every result a dishonest derivation may have.", "anchors": ["protocol/post_record.h", "protocol/aead_izk.h: prove_aead", "protocol/aead.h", "cipher/hmac_sha256.h:94"]}
{"id": "C75", "title": "The verifier learns nothing in the proof phase but the hash keys and the masks of the tags", "statement": "In an accepted proof phase of a prover who follows the protocol, the digest the verifier receives for the checks of all messages (check_zero, itmac_hom_add_check, the opening of finalize_check) is the digest of the blocks the verifier computes itself from its keys, its offset, the circuit, its own shares, the public data and the bits opened. With the prover's blocks of the input and AND wires drawn uniformly, every event about what the verifier sees (its keys and the digest) has, whatever the prover's secrets, the same number of outcomes as for a simulator that is given only the bits opened. These bits are the two hash keys E(0) and the masks E(J0) of the two finished messages and of the records claimed.", "quantifier": "all accepted sessions, all offsets, all digest functions, all assignments of wires (any XORs of input and AND wires), all events", "why_tests_cant": "It compares distributions over all blocks of the prover for all secrets.", "anchors": ["protocol/post_record.h: finalize_check", "backend/check_zero.h", "protocol/aead_izk.h: itmac_hom_add_check"]}
{"id": "C76", "title": "Proxy mode: a cheating prover gets a wrong ciphertext accepted for at most one offset in 2^127, and the openings tell the verifier nothing new", "statement": "In the proxy mode, for every sequence of calls of prove_public_msgs, prove_private_msgs and their _opt variants, whatever keys, nonces and messages the authenticated wires carry, whatever bits the prover sends in the openings and whatever digest at the end: if one of the calls is about a ciphertext that is not the message under the key stream, the verifier accepts (all calls return true and finalize reports no cheating) for at most one of its 2^127 offsets, unless two of its transcripts collide. If all are right, a prover who follows the protocol is accepted, and the bits opened are the ciphertexts (private messages) or the XOR of public message and ciphertext. prove_proxy_tls: unless the recorded finished messages and message are those of the keys and finished values derived (whatever was derived), resp. of the pre-master secret when the derivation is that of the code, the same bound holds.", "quantifier": "all sequences of calls, keys, nonces, messages, ciphertexts, bits sent, digests, offsets, sessions", "why_tests_cant": "The prover is arbitrary and the verifier's offset ranges over 2^127 values.", "anchors": ["protocol/prove_aes.h: AESProver", "protocol/prove_aes.h: finalize_proxy_protocol", "test/prove_proxy_tls.cpp"]}
{"id": "C77", "title": "A cheating sender of the oblivious linear evaluation is never noticed and learns a bit of its choice of the other party's random number; a cheating receiver can only choose another input", "statement": "OLE::compute: whatever numbers the party holding Delta sends in place of its messages (as many as the code sends), the other party ends without an error, and output i of the two parties add modulo q to in_i * in_i' plus the sum over the set bits j of the receiver's input of 2^j times the error of message (i, j). So with one message changed all other products are right and the one hit is right exactly if the bit is 0. The same for OLEF2K::compute in GF(2^128). A receiver with arbitrary choice bits has the outputs of a receiver that follows the code on some input of at most bit_length bits. E2F: if the party holding Delta adds e to message j of the fifth element and follows the code otherwise, all messages of compute_online and its refusal are unchanged, and the outputs add to the x coordinate plus 2*2^j*e if the bit j of the other party's r is set; for an odd prime q not dividing e the conversion is right exactly if that bit is 0.", "quantifier": "all messages sent, moduli, hash functions, correlations, inputs, random numbers, coordinates, bit positions and errors", "why_tests_cant": "The tests run two parties that follow the protocol.", "anchors": ["backend/ole.h: OLE::compute", "backend/ole_f2k.h: OLEF2K::compute", "protocol/e2f.h: compute_offline", "protocol/e2f.h: compute_online"]}
{"id": "C78", "title": "A party of the point conversion that does not follow the protocol learns only whether a bet on the other's x coordinate is right", "statement": "E2F: let one party put any five numbers into the OLE (and get any outputs), and in compute_online send any numbers, each after having seen the messages the other party sends in the same call of open. For any two points of the other party there is a bijection of its random numbers modulo q (a, b, bp, r) that keeps its first two messages, and all of its messages and whether it stops, except where the cheating party has bet on one of the two x coordinates (the number it sends first plus its OLE input is minus that coordinate). For a uniform coordinate a bet is right once in q times; when right, the third message is a number the cheating party can compute. Against a party that follows the code the run is that of C55.", "quantifier": "all primes q, roles, OLE inputs and outputs, adaptive strategies, points, random numbers", "why_tests_cant": "The strategies and the random numbers are arbitrary; the claim is about distributions.", "anchors": ["protocol/e2f.h: open", "protocol/e2f.h: compute_offline", "protocol/e2f.h: compute_online"]}
{"id": "C79", "title": "A sender of the oblivious linear evaluation can make a tag wrong depending on one bit of the other party's share of the hash key", "statement": "AEAD: let the party that sends in OLEF2K send any blocks instead of those of the code. In every reachable state encrypt still gives both parties the ciphertext of GCM and one common tag, the tag of GCM with an error added that is a sum over the bits set in the receiver's inputs. A sender that adds e (not 0) to block 128*i+j makes the tag wrong exactly if bit j of the receiver's input i is set; for i = 0 and ALICE as sender this is bit j of BOB's share of the hash key. In decrypt, given the right tag, both parties return true exactly if the bit is not set. In the constructor the same change leaves a product of the shares that is not the hash key exactly if bit j of the receiver's additive share of it is set. Nothing in the code notices the change.", "quantifier": "all ciphers, reachable states, messages, modes, roles, changed blocks and their positions", "why_tests_cant": "Tests run both parties as coded; the claim is about all messages of a party that does not follow the code.", "anchors": ["protocol/aead.h: obv_ghash", "protocol/aead.h: AEAD constructor", "protocol/aead.h: encrypt", "protocol/aead.h: decrypt", "backend/ole_f2k.h: compute"]}
{"id": "C80", "title": "A garbler of the offline/online backend can make every AND gate another function, and the evaluator's code checks nothing", "statement": "Offline/online backend: let ALICE add Delta to chosen rows of the tables of AND gates and keep the matching output labels. The evaluator then gets, in every gate, the label of a function f of the two operands; the functions reachable in this way are exactly those true for an odd number of the four operand pairs. For every choice of such a function per gate and every program whose online phase has the shape of the offline phase, the online phase runs to its end and opens to each party what the program with these functions opens; queues end empty and gate counters agree. With the functions all AND the run is the one of the code. So ALICE with input 0 gets an input b of BOB out of a program that should show 0 only. Whatever tables and masks the evaluator holds (enough of them) and whatever blocks and bits it is sent, its online code returns without an error.", "quantifier": "all programs, inputs, functions per gate, hash functions of the labels, offsets, tables, masks, blocks and bits", "why_tests_cant": "Tests run both parties as coded; the claim is about all functions put in place of AND and all messages of a garbler that does not follow the code.", "anchors": ["backend/offline_hg_gen.h: and_gate", "backend/offline_hg_eva.h: and_gate", "backend/online_hg_eva.h: and_gate", "backend/online_primus_eva.h: feed, reveal", "backend/bn_utils.h: garble_gate_garble_halfgates"]}
{"id": "C81", "title": "The digest the evaluator sends at a public opening tells a garbler that changed one table a bit of its choice, and nothing that is opened changes", "statement": "Offline/online backend: let ALICE add blocks u, v with lowest bit 0 to the two rows of the table of one AND gate and follow the code otherwise. If the output of the gate reaches no other AND gate, the evaluator's run ends with the same opened bits and queues as without the change, and the labels of the wires the gate reaches through XOR and NOT are shifted by one block. If such wires are opened to both parties, the digest of the labels that the evaluator sends is the digest of the labels shifted by u when the first operand's colour bit is set and by v when the second one's is. With a digest that tells the two candidates apart (v = 0, u not 0) the garbler gets the plain bit of the first operand out of the digest, for every program of the shape gates, AND, XOR/NOT, public opening. The last carry gate of an adder is an example: its operand comes out although only the sum is opened.", "quantifier": "all programs of the shape, inputs, offsets, u and v with lowest bit 0, hash functions of the labels; for the reading of the bit: digests that differ on the two candidates", "why_tests_cant": "Opened values and the run are the same with and without the change, so no test of outcomes can see it; the claim is about all programs and all added blocks.", "anchors": ["backend/online_primus_eva.h: reveal", "backend/online_primus_gen.h: reveal", "backend/offline_hg_gen.h: and_gate", "backend/online_hg_eva.h: and_gate"]}
{"id": "C82", "title": "A garbler that changes tables in the last S-boxes of the cipher can check guesses of the AES key against the digest of an opened block of key stream, and all that is opened is right", "statement": "Offline/online backend: let ALICE add blocks with lowest bit 0 to rows of the tables of any gates such that nothing of it reaches the operand of an AND gate, and follow the code otherwise. Then all that the evaluator opens in the session is right, and the digest it sends at a public opening is that of the labels with the added blocks on them, selected by colour bits. In the circuit aes128_with_ks.txt eight AND gates of each S-box of the last round reach the output through XOR and INV only, and their second operands determine the S-box input. For a record of 16 bytes encrypted in public mode (the size of a Finished message), after any session and before any operations that do not compute with the wires of that circuit, the garbler can add blocks in chosen S-boxes so that, with an injective digest, the digest equals the one it computes for a guess of the state before the last round exactly if the guess is right in the chosen bytes. For one S-box the 256 guesses give a byte of the last round key; a right guess for all of them gives the AES key.", "quantifier": "all keys, nonces, earlier sessions, later operations away from the circuit, offsets, sets of S-boxes, injective digests", "why_tests_cant": "Opened values and the run are the same with and without the change, so no test of outcomes can see it; the claim is about all keys and sessions and uses the 29059 gates of the circuit file.", "anchors": ["cipher/circuit_files/aes128_with_ks.txt", "backend/online_primus_eva.h: reveal", "backend/offline_hg_gen.h: and_gate", "protocol/aead.h: AEAD::encrypt", "cipher/utils.h: computeAES_KS"]}
{"id": "C83", "title": "A client that inputs other inner digests in compute_server_finished_msg reads the traffic keys off the opened values and gets records it made itself accepted", "statement": "Without the round optimisation (the default), HMAC takes the inner digest as a private input of ALICE that nothing ties to the inner state. Let ALICE follow the protocol except that in compute_server_finished_msg it inputs the inner digests of the two HMAC calls that produced the key block, which it can compute from values already opened (the inner state and A(1), A(2) of the key expansion). Then the handshake runs through, both parties hold the right keys and the right client finished value, the value A(1) opened in this call is client_write_key || server_write_key and the opened finished value begins with the two IVs. A record with that value as its plaintext passes decrypt_and_check_server_finished_msg. If ALICE inputs the same digests again in prove_server_finished_msg, every check of the proof phase passes, and the verifier accepts finished messages and records that ALICE sealed itself with whatever content it likes; nothing of it comes from the server.", "quantifier": "all moduli and shares, randoms, transcripts, master secret variants, record contents, numbers of records, additional data", "why_tests_cant": "Tests run the honest client only; the claim is about a client that deviates in one private input, for all keys and messages.", "anchors": ["cipher/hmac_sha256.h: opt_hmac_sha256", "cipher/prf.h: opt_phash", "protocol/handshake.h: compute_server_finished_msg, prove_server_finished_msg", "protocol/post_record.h: prove_and_check_handshake_step1"]}
{"id": "C84", "title": "The randoms, session hash and transcript hashes the verifier passes have no effect on keys, opened values or its decision", "statement": "Let ALICE and BOB pass different labels, client and server randoms, session hash, transcript hashes, or call different master key functions, in the handshake and in the proof phase (with the round optimisation: strings of the same lengths). Then every call, the whole handshake, the derivation of the proof phase and the whole proof phase end with exactly the results they have when BOB passes what ALICE passes: the opened inner digest resp. the seed is an input of ALICE, and BOB's is dropped. In particular a session of a client that follows the protocol is accepted by a verifier that holds other randoms and transcripts.", "quantifier": "all strings of both parties (same lengths with the round optimisation), all states of the objects, all shares, records and messages", "why_tests_cant": "Tests pass the same strings to both parties.", "anchors": ["cipher/hmac_sha256.h: opt_hmac_sha256", "cipher/prf.h: opt_rounds_phash", "protocol/handshake.h: compute_*, prove_*", "protocol/post_record.h: prove_and_check_handshake_step1"]}
{"id": "C85", "title": "The nonces and additional data the verifier passes in the connection have no effect, and the ciphertexts and tags of the connection are not kept for the proof", "statement": "Let ALICE and BOB pass different nonces and additional data (of the same lengths) to AEAD::encrypt and AEAD::decrypt. Then every sequence of calls ends in the same state and gives both parties the same results as if BOB passed ALICE's: the nonce is an input of ALICE in every call and only her blocks are hashed. If ALICE uses a nonce twice with the same additional data and two different messages of the same length up to 16 bytes, she computes the hash key exactly from the two records, whatever nonces BOB passes, and makes for every message that is not longer a record under that nonce that AES-GCM accepts. In the proof phase, other texts of the same lengths claimed under the same nonces and sealed under the keys are accepted and handed out: the ciphertexts and tags of the connection have to be compared by the caller.", "quantifier": "all reachable states, all sequences of calls, both modes, all buffers of both parties (same lengths), all randomness, all ciphers; all shares, randoms and messages of a session", "why_tests_cant": "Tests pass the same nonces to both parties, use each nonce once, and claim the records of the connection.", "anchors": ["protocol/aead.h: set_nonce, obv_ghash, encrypt, decrypt", "protocol/record.h: Record::encrypt, Record::decrypt", "protocol/aead_izk.h: prove_aead", "protocol/post_record.h: prove_record_client, prove_record_server, finalize_check"]}
{"id": "C86", "title": "What the assertions are needed for", "statement": "Whether assert is active depends on a build type that the repository does not set. Wherever the functions with assertions return a result, the build without them returns the same. The assertions of SHA256::digest and opt_rounds_digest never fire. Without the other assertions: a nonce of more than eight bytes is silently cut to its last eight bytes, so that two secret records under nonces with the same ending give away the xor of their messages; a shorter nonce, a proof without a record left, and a ciphertext longer than its secret record read out of range; a ciphertext shorter than its secret record is accepted exactly if E(J) agrees and its key stream is the end of the recorded one, so an empty ciphertext is accepted for every secret record; prove_private_msgs accepts a secret integer with any further bits above the message; opt_digest hashes only the first block of a longer secret part. The length of a public record is checked in both builds. OLE::compute without assertions handles the first out.size() inputs as C21 says and reads past the end of a shorter input. AESProver without assertions uses the first 128 bits of a longer key and the first 32 bits of a longer iv, so that keys which agree there give the same key stream; shorter ones are read past their end; with assertions every other length stops the program.", "quantifier": "all states (reachable ones for the queues), all buffers and lengths, all ciphers, all randomness, both builds", "why_tests_cant": "The tests run in one build and pass arguments for which no assertion fires.", "anchors": ["protocol/aead.h: set_nonce, encrypt, decrypt", "protocol/aead_izk.h: itmac_hom_add_check, set_nonce, prove_aead, prove_aead_last", "protocol/prove_aes.h: set_nonce, prove_private_msgs", "cipher/sha256.h: update, opt_update, opt_rounds_update", "CMakeLists.txt", "backend/ole.h: OLE::compute", "protocol/prove_aes.h: AESProver::AESProver, gctr, set_nonce"]}
{"id": "C87", "title": "A garbler of the ordinary backend can replace the garbled gates by other functions, show BOB inverted bits and have a wire taken for a constant; the evaluator checks nothing", "statement": "Ordinary backend: let ALICE add Delta to chosen rows of the tables of AND gates and invert the bits it sends for chosen wires at openings. For every such choice and every program, without accidental label coincidences, the run succeeds with the code of the evaluator and the queues end empty; each opening gives ALICE the values of the program in which every gate on two secret wires computes the function of its table, and BOB these values with the chosen secret wires inverted; gates with a constant operand and constants are as in the code. The functions are exactly those true for an odd number of operand pairs. Without changes this is the code and gives the plain values. So ALICE with input 0 gets an input of BOB out of a program that should show 0 only, and BOB sees the inverse of a bit opened to both. ALICE can also make a table with which the evaluator gets the block of the constant 0 exactly for one value of the first operand; when the output is opened to ALICE the evaluator then sends no bit, which tells the operand. Whatever blocks and bits the evaluator is sent, in the order it asks for them, its code returns without an error.", "quantifier": "all programs, inputs, table changes, inverted wires, hash functions of the labels, offsets, blocks and bits; no accidental label coincidence for the runs", "why_tests_cant": "Tests run both parties as coded; the claim is about all tables and bits of a garbler that does not follow the code.", "anchors": ["backend/opt_hg_gen.h: and_gate", "backend/opt_hg_eva.h: and_gate", "backend/primus_gen.h: reveal", "backend/primus_eva.h: feed, reveal", "backend/bn_utils.h: garble_gate_eval_halfgates"]}
{"id": "C88", "title": "Commitment conversion with vectors of any length: which lengths work, which stop the program and which make the sender refuse an honest receiver", "statement": "compute_com_send and compute_com_recv write to the caller's vectors com and rnds. If these have exactly chunk_len elements, builds with and without assertions do what C35 describes, honest run or not. If one of them is shorter, both builds write past its end. If com of the sender or rnds of the receiver is longer, a build with assertions stops (com of the receiver may be longer). A build without assertions goes on: both parties hold the same commitments, the receiver's verdict is unchanged, and a sender that would have accepted accepts exactly if the next point of its vector is the commitment to r under the next number of rnds. With fresh longer vectors it refuses an honest receiver unless r*g is the point at infinity (both longer), unless the commitment of r is (only com longer), or unless its mask rnd_r*h is (only rnds longer).", "quantifier": "all groups, bit vectors, chunk sizes accepted by the parameter check, randomness, vector lengths and contents, both kinds of build", "why_tests_cant": "The test program uses vectors of the right length and one kind of build.", "anchors": ["protocol/com_conv.h: ComConv::compute_com_send, compute_com_recv, PedersenComm::linear_comb_com, linear_comb_rand"]}
{"id": "C89", "title": "Ordinary backend: the digest of a public opening tells a garbler that changed one table a bit of its choice", "statement": "In the ordinary (not offline/online) backend, let the garbler add blocks with lowest bit 0 to the two rows of one garbled AND gate on secret wires whose output reaches no other AND gate. Unless a changed label coincides with the block of a constant, the evaluator's code runs as before: same opened values, same messages read, same messages sent, except that the digest it sends in a public opening is that of labels with one block added on the wires that contain the output of the gate. If the garbler adds a nonzero block to the first row only and an opened wire contains the output, the digest equals one of two candidates the garbler can compute, and which one tells the value of the first operand of the gate, also if it is a secret of the evaluator.", "quantifier": "all programs before the gate, all XOR/NOT programs after it, all inputs, hash functions, permutations, label streams, correlated OTs, offsets and added blocks without label coincidence", "why_tests_cant": "Tests run a garbler that follows the code; the opened values do not change.", "anchors": ["backend/opt_hg_gen.h: garble", "backend/opt_hg_eva.h: and_gate, xor_gate, not_gate", "backend/primus_eva.h: reveal", "backend/primus_gen.h: reveal"]}
{"id": "C90", "title": "Openings to ALICE only are not authenticated", "statement": "The digest check of reveal is done for PUBLIC openings only. An evaluator that changes any of the bits it sends in openings to ALICE, at every opening as it likes, is not noticed: the program runs through, all messages are consumed, and the openings to BOB and PUBLIC before and after are those of the plain program. In the ordinary backend ALICE's values are changed exactly on the wires that depend on an input (constants carried through the gates cannot be changed); in the offline/online backend on every wire, so ALICE can be shown any values. The protocol code opens everything to PUBLIC, so this concerns other users of the backend.", "quantifier": "all programs, all inputs, all choices of the changed bits, all hash functions, permutations, label streams, correlated OTs and offsets (without label coincidence in the ordinary backend)", "why_tests_cant": "Tests run an evaluator that follows the code.", "anchors": ["backend/primus_gen.h: reveal", "backend/primus_eva.h: reveal", "backend/online_primus_gen.h: reveal", "backend/online_primus_eva.h: reveal"]}
{"id": "C91", "title": "Life cycle of the proxy mode, alone and together with the other mode", "statement": "From any state, setup_proxy_protocol, uses and synchronisations, and finalize_proxy_protocol never use or free a dead object and leave exactly the objects from before; any sequence of complete sessions of both modes is defined and leaves nothing. A setup_proxy_protocol that throws frees nothing: two circuits are lost for every failure, and the circuit object if it was made; prot_exec keeps its old value, so that after an earlier session a use or finalize_proxy_protocol goes through a dead object. A proxy session inside a session of the other mode makes finalize_protocol free the circuits twice, and a second finalize_proxy_protocol is undefined.", "quantifier": "all states, all sequences of sessions, all numbers of failed setups, all calls inside the sessions", "why_tests_cant": "Each test runs one session of one mode and no setup fails.", "anchors": ["protocol/prove_aes.h: setup_proxy_protocol, finalize_proxy_protocol", "backend/switch.h: finalize_protocol", "cipher/utils.cpp: init_files, uninit_files"]}
{"id": "C92", "title": "How many digests ComConv::open takes for equal, and what a sender gets from it", "statement": "The comparison by strncmp accepts, for a stored digest whose first zero byte is followed by m bytes, exactly 256^m digests, and exactly one if there is no zero byte. Of all pairs of n-byte digests the sum over k < n of 255^k * 256^(2(n-1-k)), plus 255^n, are taken for equal; for 32 bytes that is a fraction between 2^-16 and 2^-16 + 2^-23 instead of 2^-256. A stored digest that starts with a zero byte is matched by one digest in 256, and none by more. If both stored digests and both digests recomputed from the opened values start with a zero byte, open accepts, whatever seed, offset and aDelta are opened: the sender may choose the digest without knowing an opening of it.", "quantifier": "all stored digests, all digest lengths, all hash functions and groups, all opened values and MACs", "why_tests_cant": "The counts range over all digests; the acceptance needs about 256 tries for each digest.", "anchors": ["protocol/com_conv.h: ComConv::open"]}
{"id": "C93", "title": "No party waits for ever: what one sends is what the other receives", "statement": "If both parties make the same sequence of calls with the same public parameters (handshake message, pre-master secret offline and online, circuits in the ordinary, online or offline backend, AEAD constructor, encrypt, decrypt, revealed pre-master secret, conversion of commitments, calls of the proof phase), then however their processes are scheduled the session ends after a bounded number of steps, and then all statements were executed, all buffers are empty and every byte sent was received, on both connections. This rests on connections that flush before they receive: without that, encrypt can stop with both parties waiting, for every length of message. A first handshake message of one byte (the point at infinity, t = 0) leaves ALICE waiting.", "quantifier": "all backends and buffer positions, all sequences of calls, all circuits, all lengths, all interleavings of the two processes", "why_tests_cant": "A test sees one schedule and one choice of lengths on one machine; whether a process hangs depends on the interleaving and on what fills a buffer.", "anchors": ["protocol/aead.h: AEAD::encrypt, AEAD::decrypt", "protocol/e2f.h: E2F::open", "backend/ole.h: OLE::compute", "backend/ole_f2k.h: OLEF2K::compute", "backend/primus_gen.h", "backend/primus_eva.h", "protocol/com_conv.h"]}
{"id": "C94", "title": "Threads: with THREADING the sessions of different threads do not disturb each other", "statement": "In a build with THREADING, any interleaving of calls (setup, failing setup, switches, sync, use, finalize) of any number of threads is defined if and only if the calls of each thread made alone are; every thread then has selected a backend of the kind it would have alone, alive or not, and the heap is empty at the end exactly if each thread alone leaves it empty. So valid sessions in any number of threads and modes, interleaved in any way, are defined and free everything. A backend set up by one thread cannot be used by another, and finalize_protocol in another thread frees nothing. Without THREADING the thread does not matter: two valid sessions in two threads can delete objects twice, and one thread's setup takes away the backend another has selected.", "quantifier": "all schedules, numbers of threads, sequences of calls and failures", "why_tests_cant": "Schedules are unboundedly many and the tests use one thread.", "anchors": ["backend/switch.cpp: THREADING", "backend/switch.h", "cipher/utils.cpp: THREADING"]}
{"id": "C95", "title": "Connections that hold only so many bytes: no party waits for ever", "statement": "Over connections that hold at most cap bytes sent and not yet read (a party that sends more waits, bytes are read as they come), every session of the two parties ends after a bounded number of steps in every schedule, with everything sent received, provided cap is at least 1 and the messages that BOB (in E2F::open and decrypt) or ALICE (in encrypt) writes to io_opt before reading fit into cap. For the code, with numbers of 32 bytes, 72 bytes are enough whatever the circuits and records. If neither party's numbers of an opening fit, or if BOB's do not and bits of BOB are still in a buffer, the session can hang. A session with any calls before it can hang at decrypt if cap is less than 32 and at encrypt if it is less than 16; for sessions of circuits and records with at least one decrypt, cap at least 32 is exactly the condition for always ending.", "quantifier": "all capacities, schedules, backends, sequences of calls, circuits and lengths", "why_tests_cant": "Local sockets hold far more bytes than a test sends, and schedules are unboundedly many.", "anchors": ["protocol/e2f.h: open", "protocol/aead.h: encrypt, decrypt", "backend/primus_gen.h", "backend/primus_eva.h", "backend/ole_f2k.h", "protocol/com_conv.h"]}
{"id": "C96", "title": "Private inputs cannot be seen from which messages are sent and how long they are", "statement": "In the ordinary backend a gate sends a table only if neither label is the block of a constant, and an opening sends bits only for the other labels, each party going by its own labels. For every program, unless a label coincides with a constant by accident, what the parties exchange (inputs, tables, openings and how many bits each has) is what constant propagation gives on the program without the private inputs. So two runs that differ in the private inputs, and in offset, labels and transfers, go through the same statements with the same kinds and lengths of messages, for ALICE and for BOB. Public inputs are seen: another constant can change the number of tables. In the backend with an offline phase no gate and no opening looks at constants: both phases end for every program, and two runs that differ in inputs, constants, labels and offset exchange messages of the same kinds and lengths in both directions, with no exception for coincidences.", "quantifier": "all programs, private inputs, offsets, label streams, permutations, correlated transfers and batch sizes", "why_tests_cant": "Tests compare results, not the sequence of messages, and cannot range over all programs and inputs.", "anchors": ["backend/opt_hg_gen.h: and_gate, xor_gate, not_gate", "backend/opt_hg_eva.h: and_gate, xor_gate, not_gate", "backend/primus_gen.h: feed, reveal", "backend/primus_eva.h: feed, reveal", "backend/offline_hg_gen.h, offline_primus_gen.h, offline_primus_eva.h", "backend/online_hg_gen.h, online_hg_eva.h, online_primus_gen.h, online_primus_eva.h: feed, and_gate, reveal"]}
{"id": "C97", "title": "How many bytes each party puts on each connection", "statement": "For every session, in the ordinary backend and in the one with an offline phase, the bytes ALICE and BOB send on io and on io_opt are the sum of a cost of each call, and what a party receives on a connection is what the other sends there. The cost depends on lengths only, not on positions in the buffer of correlations: encrypting or decrypting a record of n bytes with a bytes of additional data makes ALICE send 2048 bytes for each of the ceil(n/16) + ceil(a/16) + 1 blocks hashed for the tag, so at least 128 for each byte. With an offline phase, gates cost 32 bytes there and nothing online; for a whole connection this gives the bytes in closed form from the profile of C70. What the oblivious transfer and zero-knowledge libraries send themselves is not counted.", "quantifier": "all sessions (lists of calls), batch sizes, positions, lists of operations, lengths of records, additional data and numbers", "why_tests_cant": "Tests fix the lengths of a few records and do not count bytes per connection and party.", "anchors": ["protocol/aead.h: encrypt, decrypt, constructor", "protocol/e2f.h: open, compute_offline", "protocol/com_conv.h: compute_com_send, compute_com_recv", "protocol/handshake.h: compute_primus_VA", "protocol/post_record.h: reveal_pms", "backend/ole.h: compute", "backend/ole_f2k.h: compute", "backend/primus_gen.h, primus_eva.h", "backend/offline_primus_gen.h, online_primus_gen.h, online_primus_eva.h"]}
{"id": "C98", "title": "The counters of calls are right, and reuse makes the PRF cost two compressions per block", "statement": "After every sequence of calls of init, compute, opt_compute and opt_rounds_compute that ends, hmac_calls() is the number of HMACs since the last init, two for each of the floor(bitlen/256)+1 blocks of output of each call, and SHA256_call the number of digests, two for each HMAC and one for the init if the key has more than 512 bits. compression_calls() after init with a key of at most 512 bits and a sequence of at least one opt_compute, each with both kinds of reuse, is two for each block of output and two more for the whole sequence; one opt_compute without reuse costs six for each block. compute and opt_rounds_compute of n blocks from a label and seed of L bits together make B(512+L) + 2 + 4(n-1) + n(B(768+L) + 2) compressions, where B(x) = floor((x+64)/512) + 1; opt_rounds_compute with reuse 4n-2 fewer.", "quantifier": "all sequences of calls, keys, lengths, labels, seeds and reuse flags (hmac_calls, SHA256_call); all keys of at most 512 bits, all sequences of derivations (compression_calls)", "why_tests_cant": "Tests print the counters for a few lengths and compare them with nothing.", "anchors": ["cipher/prf.h: hmac_calls", "cipher/hmac_sha256.h: SHA256_call", "cipher/sha256.h: compression_calls, update, opt_update"]}
