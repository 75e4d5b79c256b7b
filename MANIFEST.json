{
 "claims": [
  {
   "property": "C01",
   "status": "proved",
   "theorems": [
    "Verif.Props.C01_rrot",
    "Verif.Props.C01_lrot",
    "Verif.Props.C01_rotations_inverse",
    "Verif.Props.C01_concat_bits",
    "Verif.Props.C01_concat_value",
    "Verif.Props.C01_concat_variants",
    "Verif.Props.C01_intvec",
    "Verif.Props.C01_reverse_concat",
    "Verif.Props.C01_extract",
    "Verif.Props.C01_extract_defined",
    "Verif.Props.C01_extract_concat"
   ],
   "note": "concat, concat_opt, move_concat, reverse_concat, intvec_to_int, extract_integer; out-of-range extraction is UB in the model."
  },
  {
   "property": "C02",
   "status": "proved",
   "theorems": [
    "Verif.Props.C02_integer",
    "Verif.Props.C02_integer_blocks",
    "Verif.Props.C02_hex_of_block",
    "Verif.Props.C02_block_of_hex",
    "Verif.Props.C02_error_iff",
    "Verif.Props.C02_byte_position"
   ],
   "note": ""
  },
  {
   "property": "C03",
   "status": "proved",
   "theorems": [
    "Verif.Props.C03_str_bits",
    "Verif.Props.C03_str_roundtrip",
    "Verif.Props.C03_chars",
    "Verif.Props.C03_chars_roundtrip",
    "Verif.Props.C03_hex32",
    "Verif.Props.C03_hex64",
    "Verif.Props.C03_digits_value"
   ],
   "note": ""
  },
  {
   "property": "C04",
   "status": "proved",
   "theorems": [
    "Verif.Props.C04_mulBlock_is_gcm_mul"
   ],
   "note": "mulBlock instruction by instruction against SP 800-38D multiplication; all 2^256 inputs."
  },
  {
   "property": "C05",
   "status": "proved",
   "theorems": [
    "Verif.Props.C05_mul_comm",
    "Verif.Props.C05_mul_assoc",
    "Verif.Props.C05_mul_xor",
    "Verif.Props.C05_mul_one",
    "Verif.Props.C05_mul_zero",
    "Verif.Props.C05_no_zero_divisors",
    "Verif.Props.C05_polynomial",
    "Verif.Props.C05_coefficients"
   ],
   "note": "Ring laws, no zero divisors, identification with GF(2)[x]/(p)."
  },
  {
   "property": "C06",
   "status": "proved",
   "theorems": [
    "Verif.Props.C06_powBlock",
    "Verif.Props.C06_invBlock",
    "Verif.Props.C06_invBlock_zero"
   ],
   "note": ""
  },
  {
   "property": "C07",
   "status": "proved",
   "theorems": [
    "Verif.Props.C07_ghash_is_gcm_ghash",
    "Verif.Props.C07_ghash_sum"
   ],
   "note": ""
  },
  {
   "property": "C08",
   "status": "proved",
   "theorems": [
    "Verif.Props.C08_padding",
    "Verif.Props.C08_padding_length",
    "Verif.Props.C08_padding_least",
    "Verif.Props.C08_padding_injective"
   ],
   "note": "All messages below 2^63 bits."
  },
  {
   "property": "C09",
   "status": "proved",
   "theorems": [
    "Verif.Props.C09_compression",
    "Verif.Props.C09_compression_native",
    "Verif.Props.C09_digest",
    "Verif.Props.C09_history"
   ],
   "note": ""
  },
  {
   "property": "C10",
   "status": "proved",
   "theorems": [
    "Verif.Props.C10_opt_digest",
    "Verif.Props.C09_history"
   ],
   "note": "C09_history is the statement for whole histories."
  },
  {
   "property": "C11",
   "status": "partial",
   "theorems": [
    "Verif.Props.C11_mixing_undefined",
    "Verif.Props.C09_history"
   ],
   "note": "Proved for coherent histories (C09_history); mixing both optimised digests with reuse on one object is undefined behaviour (C11_mixing_undefined)."
  },
  {
   "property": "C12",
   "status": "proved",
   "theorems": [
    "Verif.Props.C12_hmac",
    "Verif.Props.C12_key_forms"
   ],
   "note": ""
  },
  {
   "property": "C13",
   "status": "partial",
   "theorems": [
    "Verif.Props.C13_history_partial",
    "Verif.Props.C13_mixing_undefined"
   ],
   "note": "Proved for histories not mixing the two reuse variants under one key; the negation is proved for the rest (C13_mixing_undefined)."
  },
  {
   "property": "C14",
   "status": "proved",
   "theorems": [
    "Verif.Props.C14_history",
    "Verif.Props.C14_agree"
   ],
   "note": "Histories that mix opt_compute and opt_rounds_compute with reused inner hashes inside one key epoch are excluded by NoMix: C11/C13 show they are undefined."
  },
  {
   "property": "C15",
   "status": "partial",
   "theorems": [
    "Verif.Props.C15_master_key",
    "Verif.Props.C15_extended_master_key",
    "Verif.Props.C15_expansion_keys",
    "Verif.Props.C15_finished_reversed",
    "Verif.Props.C15_client_finished_reversed",
    "Verif.Props.C15_honest_finished_rejected",
    "Verif.Props.C15_master_key_appended",
    "Verif.Props.C15_schedule_partial"
   ],
   "note": "The key schedule is proved equal to TLS 1.2 / RFC 7627. The finished messages come out byte-reversed: proved as C15_finished_reversed, C15_client_finished_reversed and C15_honest_finished_rejected. A second compute_master_key appends: C15_master_key_appended."
  },
  {
   "property": "C16",
   "status": "proved",
   "theorems": [
    "Verif.Props.C16_halfgate",
    "Verif.Props.C16_delta",
    "Verif.Props.C16_delta_needed",
    "Verif.Props.C16_tweaks",
    "Verif.Props.C16_numbers"
   ],
   "note": "C16_delta_needed shows the least significant bit condition is needed."
  },
  {
   "property": "C17",
   "status": "proved",
   "theorems": [
    "Verif.Props.Direct.C17_shares",
    "Verif.Props.Direct.C17_hypothesis_satisfiable",
    "Verif.Props.C17_execution"
   ],
   "note": "The coincidence condition is NoCoincidence; it is decidable and met by a concrete program using every operation."
  },
  {
   "property": "C18",
   "status": "proved",
   "theorems": [
    "Verif.Props.C18_offline_online",
    "Verif.Props.C18_shares",
    "Verif.Props.C18_extra_gate"
   ],
   "note": ""
  },
  {
   "property": "C19",
   "status": "partial",
   "theorems": [
    "Verif.Props.C19_online",
    "Verif.Props.C19_opt_partial",
    "Verif.Props.C19_constant_wires_unauthenticated"
   ],
   "note": "Holds for the online backend (C19_online) and for the secret wires of the optimised backend (C19_opt_partial). Fails for public constant wires of the optimised backend: C19_constant_wires_unauthenticated."
  },
  {
   "property": "C20",
   "status": "partial",
   "theorems": [
    "Verif.Props.C20_feed_partial",
    "Verif.Props.C20_set_batch_size",
    "Verif.Props.C20_set_batch_size_smaller",
    "Verif.Props.C20_set_batch_size_garbler"
   ],
   "note": "Proved for all histories of inputs (C20_feed_partial). Fails for set_batch_size: C20_set_batch_size, C20_set_batch_size_smaller."
  },
  {
   "property": "C21",
   "status": "proved",
   "theorems": [
    "Verif.Props.C21_ole",
    "Verif.Props.C21_bound_needed",
    "Verif.Props.C21_fresh"
   ],
   "note": "C21_bound_needed shows the bit length condition is needed."
  },
  {
   "property": "C22",
   "status": "proved",
   "theorems": [
    "Verif.Props.C22_ole_f2k",
    "Verif.Props.C22_fresh"
   ],
   "note": ""
  },
  {
   "property": "C23",
   "status": "proved",
   "theorems": [
    "Verif.Props.C23_e2f",
    "Verif.Props.C23_group",
    "Verif.Props.C23_refused"
   ],
   "note": "C23_group ties the formula to the group of the curve; C23_refused gives the refused inputs."
  },
  {
   "property": "C24",
   "status": "proved",
   "theorems": [
    "Verif.Props.C24_addmod",
    "Verif.Props.C24_addmod_shared",
    "Verif.Props.C24_modulus_widened"
   ],
   "note": "Includes C24_modulus_widened: addmod mutates the caller's modulus."
  },
  {
   "property": "C25",
   "status": "partial",
   "theorems": [
    "Verif.Props.C25_construct_partial",
    "Verif.Props.C25_zero_mask",
    "Verif.Props.C25_ghash"
   ],
   "note": "Proved for every non-zero mask r (C25_construct_partial, C25_ghash). The constructor draws r without checking for zero; then the shares of H are lost: C25_zero_mask."
  },
  {
   "property": "C26",
   "status": "proved",
   "theorems": [
    "Verif.Props.C26_encrypt",
    "Verif.Props.C26_iv_refused"
   ],
   "note": "For every reachable state of the AEAD object (Reach), every IV, additional data and message."
  },
  {
   "property": "C27",
   "status": "proved",
   "theorems": [
    "Verif.Props.C27_decrypt",
    "Verif.Props.C27_roundtrip"
   ],
   "note": "For every reachable state of the AEAD object (Reach)."
  },
  {
   "property": "C28",
   "status": "proved",
   "theorems": [
    "Verif.Props.C28_compute_tag",
    "Verif.Props.C28_compute_tag_gcm",
    "Verif.Props.C28_compare_tag",
    "Verif.Props.C28_mask_unique"
   ],
   "note": ""
  },
  {
   "property": "C29",
   "status": "proved",
   "theorems": [
    "Verif.Props.C29_first",
    "Verif.Props.C29_gctr",
    "Verif.Props.C29_counter",
    "Verif.Props.C29_distinct",
    "Verif.Props.C29_wraps",
    "Verif.Props.C29_records",
    "Verif.Props.C29_mask_separate"
   ],
   "note": "C29_wraps gives the wrap of the 32-bit counter, the limit of C29_distinct."
  },
  {
   "property": "C30",
   "status": "partial",
   "theorems": [
    "Verif.Props.C30_public",
    "Verif.Props.C30_private",
    "Verif.Props.C30_private_length",
    "Verif.Props.C30_public_opt",
    "Verif.Props.C30_private_opt",
    "Verif.Props.C30_mask_count_unchecked"
   ],
   "note": "All four provers are exact (iff). The block-selecting variants hold only if the masks select msg_len bytes, which the code does not check: C30_mask_count_unchecked."
  },
  {
   "property": "C31",
   "status": "partial",
   "theorems": [
    "Verif.Props.C31_open_commit",
    "Verif.Props.C31_binding",
    "Verif.Props.C31_honest",
    "Verif.Props.C31_accepted",
    "Verif.Props.C31_bound",
    "Verif.Props.C31_reflection",
    "Verif.Props.C31_zero_tag_accepted"
   ],
   "note": "Completeness and binding (to a hash collision) are proved for all values. The last part fails: a peer echoing the party's own commitment and opening is accepted, C31_reflection, C31_zero_tag_accepted."
  },
  {
   "property": "C32",
   "status": "partial",
   "theorems": [
    "Verif.Props.C32_check_zero",
    "Verif.Props.C32_batch",
    "Verif.Props.C32_extract",
    "Verif.Props.C32_data",
    "Verif.Props.C32_bytes",
    "Verif.Props.C32_bytes_refused",
    "Verif.Props.C32_local_check_short",
    "Verif.Props.C32_length_refused"
   ],
   "note": "The hash inputs agree iff the value is the data (C32_data, C32_batch, C32_bytes), also against a cheating prover (C32_extract). ALICE's local check rejects every other value only for bytes (C32_bytes_refused); for wider element types it compares only a part: C32_local_check_short."
  },
  {
   "property": "C33",
   "status": "proved",
   "theorems": [
    "Verif.Props.C33_block",
    "Verif.Props.C33_bytes",
    "Verif.Props.C33_length_refused",
    "Verif.Props.C33_extract",
    "Verif.Props.C33_not_repeatable"
   ],
   "note": "C33_not_repeatable: the check changes its argument, so it cannot be run twice on one object."
  },
  {
   "property": "C34",
   "status": "partial",
   "theorems": [
    "Verif.Props.C34_vope_partial",
    "Verif.Props.C34_length_one",
    "Verif.Props.C34_mixed_products",
    "Verif.Props.C34_long"
   ],
   "note": "Proved for lengths 1 to 64 if the packing used mulBlock (C34_vope_partial), and for length 1 as the code is (C34_length_one). The code packs with another product (C34_mixed_products) and its buffers overlap from length 65 on (C34_long)."
  },
  {
   "property": "C35",
   "status": "partial",
   "theorems": [
    "Verif.Props.ComConv.C35_honest_partial",
    "Verif.Props.ComConv.C35_batch_zero",
    "Verif.Props.ComConv.C35_batch_refused",
    "Verif.Props.ComConv.C35_batch_truncated",
    "Verif.Props.ComConv.C35_batch_out_of_range"
   ],
   "note": "For every batch size that fits an int and every randomness (C35_honest_partial); sizes refused: C35_batch_refused. Fails outside: batch size 0 divides by zero (C35_batch_zero), the check sees the size truncated to int (C35_batch_truncated), then reads out of range (C35_batch_out_of_range)."
  },
  {
   "property": "C36",
   "status": "partial",
   "theorems": [
    "Verif.Props.ComConv.C36_open_partial",
    "Verif.Props.ComConv.C36_binding_partial",
    "Verif.Props.ComConv.C36_zero_byte"
   ],
   "note": "strncmp stops at a common zero byte: exact for stored digests without a zero byte (C36_open_partial, C36_binding_partial), refuted otherwise (C36_zero_byte)."
  },
  {
   "property": "C37",
   "status": "partial",
   "theorems": [
    "Verif.Props.C37_roundtrip",
    "Verif.Props.C37_sequence",
    "Verif.Props.C37_sendable",
    "Verif.Props.C37_send_overflow",
    "Verif.Props.C37_recv_overflow",
    "Verif.Props.C37_recv_overflow_exists",
    "Verif.Props.C37_received",
    "Verif.Props.C37_transcript_ambiguous",
    "Verif.Props.C37_transcript_partial"
   ],
   "note": "Round trip and consumption are exact (C37_roundtrip, C37_sequence, C37_received). The bounds claim fails for both buffers (C37_recv_overflow, C37_send_overflow) and the transcript does not determine the numbers (C37_transcript_ambiguous) unless their lengths agree (C37_transcript_partial)."
  },
  {
   "property": "C38",
   "status": "partial",
   "theorems": [
    "Verif.Props.Switch.C38_select",
    "Verif.Props.Switch.C38_session",
    "Verif.Props.Switch.C38_sessions",
    "Verif.Props.Switch.C38_finalize_iff",
    "Verif.Props.Switch.C38_finalize_twice",
    "Verif.Props.Switch.C38_session_twice",
    "Verif.Props.Switch.C38_use_after_finalize",
    "Verif.Props.Switch.C38_failed_setup",
    "Verif.Props.Switch.C38_failures_then_finalize",
    "Verif.Props.Switch.C38_failure_freed",
    "Verif.Props.Switch.C38_retry_leaks",
    "Verif.Props.Switch.C38_failure_after_session"
   ],
   "note": "Proved for any number of successful sessions (C38_select, C38_sessions), for failing setups from program start (C38_failed_setup, C38_failures_then_finalize, C38_failure_freed), and exactly which states finalize is defined in (C38_finalize_iff). Refuted: finalize twice (C38_finalize_twice, C38_session_twice), switching after finalize (C38_use_after_finalize), a failing setup after an earlier session then finalize (C38_failure_after_session, exact), retry after failure leaks (C38_retry_leaks)."
  },
  {
   "property": "C39",
   "status": "proved",
   "theorems": [
    "Verif.Props.PostRecord.C39_finalize",
    "Verif.Props.PostRecord.C39_gcm",
    "Verif.Props.PostRecord.C39_wrong_tag",
    "Verif.Props.PostRecord.C39_too_few",
    "Verif.Props.PostRecord.C39_short_buffer",
    "Verif.Props.PostRecord.C39_unproved_finished"
   ],
   "note": "For any number of records and all buffers of the stated sizes (C39_finalize, C39_gcm). Outside: a count larger than a vector, or unproved finished messages, is undefined behaviour (C39_too_few, C39_unproved_finished)."
  },
  {
   "property": "C40",
   "status": "proved",
   "theorems": [
    "Verif.Props.AEADProof.C40_prove",
    "Verif.Props.AEADProof.C40_encrypt",
    "Verif.Props.AEADProof.C40_decrypt",
    "Verif.Props.AEADProof.C40_invariant",
    "Verif.Props.AEADProof.C40_prove_all",
    "Verif.Props.AEADProof.C40_construct",
    "Verif.Props.AEADProof.C40_last",
    "Verif.Props.AEADProof.C40_no_record",
    "Verif.Props.AEADProof.C40_unasserted",
    "Verif.Props.AEADProof.C40_wrong_order"
   ],
   "note": "For any interleaving of encryptions, decryptions and in-order proofs (C40_invariant, C40_prove_all). The order matters: a proof whose mode is not that of the oldest record is checked against the E(J) of another record (C40_wrong_order); a proof without a record is refused by the assertions (C40_no_record)."
  },
  {
   "property": "C41",
   "status": "partial",
   "theorems": [
    "Verif.Props.C41_public_key",
    "Verif.Props.C41_zero_scalar",
    "Verif.Props.C41_client",
    "Verif.Props.C41_accepted_form",
    "Verif.Props.C41_pms",
    "Verif.Props.C41_pms_refused",
    "Verif.Props.C41_infinity_unchecked",
    "Verif.Props.C41_reveal",
    "Verif.Props.C41_end_to_end",
    "Verif.Props.C41_object",
    "Verif.Props.C41_client_overload",
    "Verif.Props.C41_primus_overload"
   ],
   "note": "Proved for scalars that give no point at infinity. A zero t_b is not noticed and gives a wrong secret (C41_infinity_unchecked); a zero t_a leaves the client waiting (C41_zero_scalar). The overloads that take a scalar of the caller (no caller in the repository) do not store it, so that reveal_pms fails afterwards (C41_client_overload, C41_primus_overload)."
  },
  {
   "property": "C42",
   "status": "partial",
   "theorems": [
    "Verif.Props.HandshakeProof.C42_sound",
    "Verif.Props.HandshakeProof.C42_complete_partial",
    "Verif.Props.HandshakeProof.C42_expansion_repeat_ub",
    "Verif.Props.HandshakeProof.C42_master_repeat_refused",
    "Verif.Props.HandshakeProof.C42_repeat_fails",
    "Verif.Props.HandshakeProof.C42_rounds_expansion",
    "Verif.Props.HandshakeProof.C42_rounds_expansion_repeat",
    "Verif.Props.HandshakeProof.C42_rounds",
    "Verif.Props.HandshakeProof.C42_rounds_complete"
   ],
   "note": "First derivation after any honest handshake gives the same keys and passes the checks (C42_complete_partial); whatever passes the checks is the TLS 1.2 derivation from the committed share (C42_sound). With the round optimisation the traffic keys are right at every call (C42_rounds, C42_rounds_expansion_repeat) and an honest handshake passes all checks (C42_rounds_complete). Repeated calls fail otherwise: the second prove_expansion_keys reads out of range and the second prove_master_key uses different public inputs (C42_repeat_fails, C42_expansion_repeat_ub, C42_master_repeat_refused)."
  },
  {
   "property": "C43",
   "status": "proved",
   "theorems": [
    "Verif.Props.AESCircuit.C43_key_schedule",
    "Verif.Props.AESCircuit.C43_cipher",
    "Verif.Props.AESCircuit.C43_aes128",
    "Verif.Props.AESCircuit.C43_block",
    "Verif.Props.AESCircuit.C43_spec_inverse"
   ],
   "note": "Both circuit files (transcribed gate by gate, tools/circuits.py --check compares) are evaluated in file order by a model of BristolFormat with arbitrary initial wires; the kernel checks certificates for all 36292 gates. Key expansion for every 16-byte key, cipher for every 44 words and every block, composition, and the identification with the block function of the AEAD model."
  },
  {
   "property": "C44",
   "status": "proved",
   "theorems": [
    "Verif.Props.Offline.C44_sha",
    "Verif.Props.Offline.C44_hmac",
    "Verif.Props.Offline.C44_prf",
    "Verif.Props.Offline.C44_aead",
    "Verif.Props.Offline.C44_connection",
    "Verif.Props.Offline.C44_garbled"
   ],
   "note": "At the level of backend operations: inputs (party, length), gates (operands), openings (party, wires). SHA-256, HMAC, PRF and AEAD objects for all call sequences; the whole connection for both PRF modes, with the public lengths of the handshake (64 bytes of randoms, 32-byte session hash) needed only in rounds mode. All openings, all indeterminate memory. The arithmetic circuits of emp-tool are a parameter whose operations depend on wires only (LibObl; met by ripple-carry circuits, empLib_obl). C44_garbled composes with C18."
  },
  {
   "property": "C45",
   "status": "partial",
   "theorems": [
    "Verif.Props.C45_sound",
    "Verif.Props.C45_complete",
    "Verif.Props.C45_check",
    "Verif.Props.C45_unreplayed",
    "Verif.Props.C45_inner_digest_unbound"
   ],
   "note": "Soundness of the replayed checks for arbitrary opened values and completeness for honest ones are proved for the init/opt_compute call sequences the handshake makes. The claim fails against a cheating ALICE who feeds another inner digest: C45_inner_digest_unbound."
  },
  {
   "property": "C46",
   "status": "proved",
   "theorems": [
    "Verif.Props.C46_gctr_opt",
    "Verif.Props.C46_blocks",
    "Verif.Props.C46_id_max",
    "Verif.Props.C46_terminates",
    "Verif.Props.C46_repeated_id",
    "Verif.Props.C46_computeCounterOpt"
   ],
   "note": "For all lists of ids, including wrapping ones; C46_repeated_id gives the cost of non-increasing ids."
  },
  {
   "property": "C47",
   "status": "proved",
   "theorems": [
    "Verif.Props.Garbled.C47_connection"
   ],
   "note": "Composition of C44, C18 and the value refinement of the gate programs (Lemmas GateRef to AeadRef) with C15, C43. The arithmetic circuits of emp-tool are a parameter that must compute addition, subtraction, comparison, selection and permuting correctly (LibSound) and issue operations depending on wires only (LibObl); ripple-carry circuits meet both (empLib_sound, empLib_obl). Lengths below 2^57 bytes."
  },
  {
   "property": "C48",
   "status": "partial",
   "theorems": [
    "Verif.Props.Proxy.C48_values_partial",
    "Verif.Props.Proxy.C48_finished_ignores_ms",
    "Verif.Props.Proxy.C48_long_secret",
    "Verif.Props.Proxy.C48_zk_flag",
    "Verif.Props.Proxy.C48_prover_lengths",
    "Verif.Props.Proxy.C48_session",
    "Verif.Props.Proxy.C48_prover_unbound"
   ],
   "note": "Values for every call sequence and both reuse flags (C48_values_partial); prove_proxy_tls with an honest prover accepts exactly the genuine ciphertexts and never has undefined behaviour (C48_session). Refuted: the finished messages ignore the argument ms (C48_finished_ignores_ms), a pre-master secret longer than the field is written before the buffer (C48_long_secret), zk_flag set is undefined behaviour (C48_zk_flag), and a cheating prover gets keys and finished messages that do not depend on the handshake (C48_prover_unbound)."
  },
  {
   "property": "C49",
   "status": "proved",
   "theorems": [
    "Verif.Props.Records.C49_session"
   ],
   "note": "Composition of C47 (label bits are xor sharings) with C25, C26, C27 for whole sequences of calls (C49_session). The mask of a constructor must not be zero (see C25_zero_mask); correlations of the OLE are those of honest parties; lengths as in C47."
  },
  {
   "property": "C50",
   "status": "proved",
   "theorems": [
    "Verif.Props.ComConv.C50_soundness",
    "Verif.Props.ComConv.C50_coefficients",
    "Verif.Props.ComConv.C50_extract",
    "Verif.Props.ComConv.C50_committed",
    "Verif.Props.ComConv.C50_composition",
    "Verif.Props.ComConv.C50_sender_unconditional"
   ],
   "note": "C50_soundness for a prover that knows openings of its points, C50_coefficients counts the coefficient vectors of its last case, C50_extract for a prover that is run twice, C50_committed for the order of the messages, C50_composition: the joint run of C35 is the two parties. The hash and coefficient functions are arbitrary; no probability is computed beyond the count. C50_sender_unconditional: the secrets are opened whatever the check of the commitment says."
  },
  {
   "property": "C51",
   "status": "partial",
   "theorems": [
    "Verif.Props.ComConv.C51_receiver_unconditional",
    "Verif.Props.ComConv.C51_deviation",
    "Verif.Props.ComConv.C51_leak",
    "Verif.Props.ComConv.C51_shift_accepted",
    "Verif.Props.ComConv.C51_checked_partial"
   ],
   "note": "Refuted: the MAC is sent whatever the check says (C51_receiver_unconditional), one changed message shows one bit (C51_leak), and moving a byte between two messages is not even noticed (C51_shift_accepted); C51_deviation says exactly what the verifier sees. C51_checked_partial: what the check gives for digests without a zero byte."
  },
  {
   "property": "C52",
   "status": "proved",
   "theorems": [
    "Verif.Props.Session.C52_sound",
    "Verif.Props.Session.C52_sound_rounds",
    "Verif.Props.Session.C52_decision",
    "Verif.Props.Session.C52_complete",
    "Verif.Props.Session.C52_honest",
    "Verif.Props.Session.C52_last_unbound",
    "Verif.Props.Session.C52_exact"
   ],
   "note": "Composition of C42, C43, C40, C39. Soundness for arbitrary recorded openings and queues, with the round optimisation (C52_sound_rounds) and without (C52_sound); the prover is committed to its share and to the shares in the queues, the checks of the zero-knowledge backend are those of C36. C52_decision, C52_complete, C52_honest: sessions after an honest handshake, both modes; with record objects that hold the keys of the handshake no other nonces are accepted (C52_exact, from the injectivity of AES-128). C52_last_unbound: the record proved last can be any text sealed under the keys."
  },
  {
   "property": "C53",
   "status": "proved",
   "theorems": [
    "Verif.Props.Direct.C53_connection",
    "Verif.Props.Direct.C17_shares",
    "Verif.Props.Direct.C17_hypothesis_satisfiable"
   ],
   "note": "NoCoincidence is the hypothesis of C17_execution (no label of the run is one of the reserved blocks); C17_hypothesis_satisfiable: one environment meets it for every program. The sharing of H, Z0 and Z is for curve orders of at least four bytes. C17_shares is the statement for arbitrary programs."
  },
  {
   "property": "C54",
   "status": "proved",
   "theorems": [
    "Verif.Props.GarblerView.C54_parties",
    "Verif.Props.GarblerView.C54_simulation",
    "Verif.Props.GarblerView.C54_private",
    "Verif.Props.GarblerView.C54_shift_involution",
    "Verif.Props.GarblerView.C54_parties_online",
    "Verif.Props.GarblerView.C54_online_simulation",
    "Verif.Props.GarblerView.C54_online_private"
   ],
   "note": "Perfect simulation for an evaluator that follows the protocol (the garbler may look at all its messages afterwards); the oblivious transfers are ideal. C54_parties and C54_parties_online: the joint machine of C17 and C18 is the composition of the two parties. The converse, what the evaluator learns from the tables, needs assumptions on the hash function and is not covered."
  },
  {
   "property": "C55",
   "status": "proved",
   "theorems": [
    "Verif.Props.E2FView.C55_parties",
    "Verif.Props.E2FView.C55_alice_view",
    "Verif.Props.E2FView.C55_bob_view",
    "Verif.Props.E2FView.C55_stop",
    "Verif.Props.E2FView.C55_reuse"
   ],
   "note": "The preparation is the ideal OLE (outputs of the party that looks are fixed, those of the other are determined). The residues of the other party range over all of ZMod q; BN_rand reduced mod q is not exactly uniform. C55_stop: equality of the x coordinates is visible. C55_reuse: one preparation must not be used twice."
  },
  {
   "property": "C56",
   "status": "proved",
   "theorems": [
    "Verif.Props.OLEView.C56_f2k",
    "Verif.Props.OLEView.C56_f2k_chosen",
    "Verif.Props.OLEView.C56_prime"
   ],
   "note": "The oblivious transfers are ideal. C56_prime asks that the blocks the receiver does not have are pairwise distinct and distinct from those it has (Distinct), shown satisfiable by an example."
  },
  {
   "property": "C57",
   "status": "proved",
   "theorems": [
    "Verif.Props.RecordView.C57_encrypt",
    "Verif.Props.RecordView.C57_alice_share",
    "Verif.Props.RecordView.C57_bob_share",
    "Verif.Props.RecordView.C57_decrypt"
   ],
   "note": "Messages outside the garbled circuit, the OLE (C56) and the zero-knowledge backend. C57_bob_share and C57_alice_share are about the shares of the key stream and of E(J0)."
  },
  {
   "property": "C58",
   "status": "partial",
   "theorems": [
    "Verif.Props.RecordView.C58_accept_partial",
    "Verif.Props.RecordView.C58_bob_not_bound",
    "Verif.Props.RecordView.C58_not_authentic",
    "Verif.Props.RecordView.C58_oracle"
   ],
   "note": "C58_accept_partial: ALICE accepts exactly if her tag fits her ciphertext, BOB exactly if his tag fits the ciphertext of ALICE. The statement for BOB is refuted by C58_not_authentic (C58_bob_not_bound: every other ciphertext of that length is accepted); the second sentence by C58_oracle."
  },
  {
   "property": "C59",
   "status": "partial",
   "theorems": [
    "Verif.Props.VOPEView.C59_parties",
    "Verif.Props.VOPEView.C59_hides_partial",
    "Verif.Props.VOPEView.C59_lowest_bit",
    "Verif.Props.VOPEView.C59_not_hidden",
    "Verif.Props.VOPEView.C59_iff",
    "Verif.Props.VOPEView.C59_two_runs",
    "Verif.Props.VOPEView.C59_delta"
   ],
   "note": "Holds for points with the same lowest bit (C59_hides_partial) and for no others (C59_not_hidden, C59_iff), because the lowest bit of Delta is one. Only the test program uses VOPE."
  },
  {
   "property": "C60",
   "status": "proved",
   "theorems": [
    "Verif.Props.ComConv.C60_commit",
    "Verif.Props.ComConv.C60_hiding"
   ],
   "note": "Perfect hiding for a verifier whose numbers are those of the protocol; what a deviating verifier learns is C51. The coins are uniform in ZMod q (BN_rand_range). The hypothesis that g is a multiple of h holds in a group of prime order with h not zero."
  },
  {
   "property": "C61",
   "status": "partial",
   "theorems": [
    "Verif.Props.Ownership.C61_ole_partial",
    "Verif.Props.Ownership.C61_e2f_partial",
    "Verif.Props.Ownership.C61_keys_partial",
    "Verif.Props.Ownership.C61_handshake",
    "Verif.Props.Ownership.C61_postRecord",
    "Verif.Props.Ownership.C61_pedersen",
    "Verif.Props.Ownership.C61_comConv",
    "Verif.Props.Ownership.C61_not_balanced",
    "Verif.Props.Ownership.C61_unbounded",
    "Verif.Props.Ownership.C61_made",
    "Verif.Props.Ownership.C61_made_small",
    "Verif.Props.Ownership.C61_freed"
   ],
   "note": "Balanced for OLE, E2F, HandShakeOffline, PRFProver (C61_ole_partial, C61_e2f_partial, C61_keys_partial) and for BOB in PostRecord. For HandShake, PostRecord, PedersenComm and ComConv nothing is freed twice, and C61_handshake, C61_postRecord, C61_pedersen, C61_comConv say exactly which objects are lost by any sequence of calls; C61_not_balanced and C61_unbounded refute the statement. C61_made, C61_made_small and C61_freed count the objects allocated and freed. Byte buffers and exits through error() are not modelled."
  },
  {
   "property": "C62",
   "status": "proved",
   "theorems": [
    "Verif.Props.EvaluatorView.C62_parties",
    "Verif.Props.EvaluatorView.C62_private",
    "Verif.Props.EvaluatorView.C62_change",
    "Verif.Props.EvaluatorView.C62_distinguisher",
    "Verif.Props.EvaluatorView.C62_distribution",
    "Verif.Props.EvaluatorViewOnline.C62_online_parties",
    "Verif.Props.EvaluatorViewOnline.C62_online_private",
    "Verif.Props.EvaluatorViewOnline.C62_online_change",
    "Verif.Props.EvaluatorViewOnline.C62_online_distinguisher",
    "Verif.Props.EvaluatorViewOnline.C62_online_distribution"
   ],
   "note": "The function under the garbling hash is an arbitrary function from blocks to blocks (ideal model, counted over all functions, not over permutations; fixed-key AES is not analysed). Runs with coincidences (Good) are excluded; C67 and C69 bound their share of all draws. The correlated OTs are ideal."
  },
  {
   "property": "C63",
   "status": "proved",
   "theorems": [
    "Verif.Props.Forgery.C63_forgery",
    "Verif.Props.Forgery.C63_new_nonce",
    "Verif.Props.Forgery.C63_attempts"
   ],
   "note": "The block cipher is an arbitrary function from blocks to blocks and ciphers are counted (functions, not permutations); AES itself is not analysed. Acceptance is that of the model of AEAD::decrypt with both parties following the protocol."
  },
  {
   "property": "C64",
   "status": "partial",
   "theorems": [
    "Verif.Props.NonceUse.C64_messages_hidden_partial",
    "Verif.Props.NonceUse.C64_reuse_not_refused",
    "Verif.Props.NonceUse.C64_reuse_forges"
   ],
   "note": "C64_messages_hidden_partial proves the claim when nonces are used once (counted over functions from blocks to blocks). The API does not enforce this: C64_reuse_not_refused and C64_reuse_forges refute the statement for a repeated nonce."
  },
  {
   "property": "C65",
   "status": "partial",
   "theorems": [
    "Verif.Props.C65_concat",
    "Verif.Props.C65_concat_short",
    "Verif.Props.C65_reversed",
    "Verif.Props.C65_pms",
    "Verif.Props.C65_pms_long",
    "Verif.Props.C65_tag",
    "Verif.Props.C65_tag_short",
    "Verif.Props.C65_block_to_hex",
    "Verif.Props.C65_hex_to_block",
    "Verif.Props.C65_hex_refused",
    "Verif.Props.C65_mask",
    "Verif.Props.C65_mask_long",
    "Verif.Props.C65_sha",
    "Verif.Props.C65_sha_digest",
    "Verif.Props.C65_prf",
    "Verif.Props.C65_prf_any",
    "Verif.Props.C65_offline_uninitialised",
    "Verif.Props.C65_grid"
   ],
   "note": "Proved for the arrays of the online code and for all lengths they hold; C65_concat_short, C65_tag_short, C65_mask_long and C65_pms_long say when the code leaves an array. C65_offline_uninitialised refutes the claim for the offline HMAC (its values are ignored by the offline garbler). Arrays of Integers and the arrays inside emp-tool and OpenSSL are not modelled as cells."
  },
  {
   "property": "C66",
   "status": "partial",
   "theorems": [
    "Verif.Props.Arrays.C66_small",
    "Verif.Props.Arrays.C66_hash",
    "Verif.Props.Arrays.C66_rounds",
    "Verif.Props.Arrays.C66_opt_compute",
    "Verif.Props.Arrays.C66_handshake",
    "Verif.Props.Arrays.C66_sha_object",
    "Verif.Props.Arrays.C66_sha_object_unopened",
    "Verif.Props.Arrays.C66_integer_to_block",
    "Verif.Props.Arrays.C66_aead",
    "Verif.Props.Arrays.C66_aead_refused",
    "Verif.Props.Arrays.C66_party",
    "Verif.Props.Arrays.C66_made",
    "Verif.Props.Arrays.C66_made_rounds",
    "Verif.Props.Arrays.C66_made_aead"
   ],
   "note": "Proved for every function that uses unique_ptr<T[]> and for AEAD objects and party buffers under all call sequences. C66_made, C66_made_rounds and C66_made_aead count the arrays of the hash, HMAC and PRF functions and of the records. C66_opt_compute, C66_handshake and C66_sha_object refute it without ENABLE_ROUNDS_OPT (delete of an array), C66_integer_to_block is a leak. Exits through error() and exceptions are not modelled."
  },
  {
   "property": "C67",
   "status": "proved",
   "theorems": [
    "Verif.Props.EvaluatorBound.C67_coincidence",
    "Verif.Props.EvaluatorBound.C67_advantage"
   ],
   "note": "C67_advantage and C67_coincidence. The function under the hash ranges over all functions from blocks to blocks (fixed-key AES in the code), labels and offset over all blocks; sigma is linear and one-to-one and the two public constants are not related by a tweak (hypothesis Fair, case_fair shows a case with the sigma of emp-tool). Oblivious transfer is ideal. The evaluator follows the protocol."
  },
  {
   "property": "C68",
   "status": "proved",
   "theorems": [
    "Verif.Props.Setup.C68_backend",
    "Verif.Props.Setup.C68_run",
    "Verif.Props.Setup.C68_given",
    "Verif.Props.Setup.C68_given_role",
    "Verif.Props.Setup.C68_online",
    "Verif.Props.Setup.C68_online_run",
    "Verif.Props.Setup.C68_accepts"
   ],
   "note": "C68_backend, C68_run (under NoCoincidence, as C17), C68_online, C68_online_run; C68_given and C68_given_role for the optional argument, which no caller in the repository uses. The OT extension is ideal; generators are arbitrary functions of seed and position."
  },
  {
   "property": "C69",
   "status": "proved",
   "theorems": [
    "Verif.Props.BackendBound.C69_coincidence",
    "Verif.Props.BackendBound.C69_correct",
    "Verif.Props.BackendBound.C69_advantage"
   ],
   "note": "C69_coincidence, C69_correct, C69_advantage: C17 and C62 with their hypothesis about coincidences replaced by a bound on its failure. The function under the hash ranges over all functions from blocks to blocks (fixed-key AES in the code); labels, OT blocks and offset over all blocks; hypothesis Fair (sigma linear and one-to-one, fix point neither public nor mapped to a tweak; case_fair shows a case with the sigma of emp-tool). Oblivious transfer is ideal. Both parties follow the protocol."
  },
  {
   "property": "C70",
   "status": "proved",
   "theorems": [
    "Verif.Props.Profile.C70_profile",
    "Verif.Props.Profile.C70_offline",
    "Verif.Props.Profile.C70_counts",
    "Verif.Props.Profile.C70_openings",
    "Verif.Props.Profile.C70_bob",
    "Verif.Props.Profile.C70_members"
   ],
   "note": "C70_profile, C70_counts, C70_openings, C70_bob, C70_offline, C70_members. Lengths below 2^55 bytes, at most 2^53 calls; the integer operations of emp enter through LibCost (met by empLib_cost)."
  },
  {
   "property": "C71",
   "status": "proved",
   "theorems": [
    "Verif.Props.Profile.C71_programs",
    "Verif.Props.Profile.C71_online",
    "Verif.Props.Profile.C71_ordinary",
    "Verif.Props.Profile.C71_silent"
   ],
   "note": "C71_programs, C71_online, C71_ordinary, C71_silent: C67 and C69 applied to the programs of C70. Ideal function under the hash, ideal oblivious transfer, BOB follows the protocol (as in C67, C69)."
  },
  {
   "property": "C72",
   "status": "proved",
   "theorems": [
    "Verif.Props.BackendBound.C72_ordinary_offset",
    "Verif.Props.BackendBound.C72_ordinary_forge",
    "Verif.Props.BackendBound.C72_ordinary_run",
    "Verif.Props.Profile.C72_connection",
    "Verif.Props.Profile.C72_connection_ordinary",
    "Verif.Props.EvaluatorBound.C72_offset",
    "Verif.Props.EvaluatorBound.C72_forge",
    "Verif.Props.EvaluatorBound.C72_accepts",
    "Verif.Props.EvaluatorBound.C72_run"
   ],
   "note": "C72_offset, C72_forge, C72_run, C72_accepts, C72_connection (offline/online); C72_ordinary_offset, C72_ordinary_forge, C72_ordinary_run, C72_connection_ordinary (ordinary; non-constant wires, constants are open by C19_constant_wires_unauthenticated). Ideal function under the garbling hash, ideal oblivious transfer; collisions of the opening digest are set apart, not bounded."
  },
  {
   "property": "C73",
   "status": "proved",
   "theorems": [
    "Verif.Props.ZkForgery.C73_offset",
    "Verif.Props.ZkForgery.C73_count",
    "Verif.Props.ZkForgery.C73_honest",
    "Verif.Props.ZkForgery.C73_parties",
    "Verif.Props.ZkForgery.C73_session",
    "Verif.Props.ZkForgery.C73_session_rounds",
    "Verif.Props.ZkForgery.C73_accepts",
    "Verif.Props.ZkForgery.C73_records"
   ],
   "note": "C73_offset, C73_count (items), C73_session, C73_session_rounds (with C52_sound), C73_records (after an honest handshake, C52_complete), C73_honest, C73_accepts (completeness), C73_parties (the functions of both parties restrict to these). The key of a wire is the prover MAC shifted by the offset, and AND gates are right (emp-zk, external). Collisions of the digest are set apart, not bounded. As in C52, the prover feeds the opened inner digests (C45_inner_digest_unbound) and the share of the pre-master secret it is committed to."
  },
  {
   "property": "C74",
   "status": "proved",
   "theorems": [
    "Verif.Props.SessionBound.C74_session_eq",
    "Verif.Props.SessionBound.C74_bound",
    "Verif.Props.SessionBound.C74_tls",
    "Verif.Props.SessionBound.C74_count"
   ],
   "note": "C74_session_eq (the proof phase is the derivation followed by the remainder given its outcome), C74_bound, C74_tls (TLS keys after an honest handshake), C74_count (verifier alone, counting offsets). The record objects of the connection have an honest history (C40): the shares the prover committed to during the connection are those of the garbled circuit. Records shown by prove_record_server_last are not covered, they are not bound to the connection (C52_last_unbound)."
  },
  {
   "property": "C75",
   "status": "proved",
   "theorems": [
    "Verif.Props.ZkView.C75_view",
    "Verif.Props.ZkView.C75_count",
    "Verif.Props.ZkView.C75_session",
    "Verif.Props.ZkView.C75_opened"
   ],
   "note": "C75_view (the digest is computed by the verifier itself), C75_count (equal counts for every event), C75_session (accepted sessions), C75_opened (the bits opened, after an honest handshake). The messages of the zero-knowledge backend for its AND gates and its consistency check are external (emp-zk). The opened hash keys and masks are what the code reveals; with them the verifier can check tags but also forge them for the nonces used."
  },
  {
   "property": "C76",
   "status": "proved",
   "theorems": [
    "Verif.Props.ProxyForgery.C76_count",
    "Verif.Props.ProxyForgery.C76_accepts",
    "Verif.Props.ProxyForgery.C76_opened",
    "Verif.Props.ProxyForgery.C76_given",
    "Verif.Props.ProxyForgery.C76_session"
   ],
   "note": "C76_count (all call sequences), C76_accepts (completeness), C76_opened (what is opened), C76_given (prove_proxy_tls, whatever is derived), C76_session (prove_proxy_tls after the derivation of the code). That a cheating prover is not bound to the derivation is C48_prover_unbound. The zero-knowledge backend (keys, final comparison of digests) is external; a collision of the digest is excluded by hypothesis."
  },
  {
   "property": "C77",
   "status": "proved",
   "theorems": [
    "Verif.Props.OLECheat.C77_sender",
    "Verif.Props.OLECheat.C77_selective",
    "Verif.Props.OLECheat.C77_receiver",
    "Verif.Props.OLECheat.C77_f2k",
    "Verif.Props.OLECheat.C77_conversion",
    "Verif.Props.OLECheat.C77_bit"
   ],
   "note": "C77_sender (any messages), C77_selective (one changed message), C77_receiver (any choice bits), C77_f2k (GF(2^128)), C77_conversion and C77_bit (through E2F: nothing the code does in the conversion notices the change; the result is wrong exactly if the bit is set). The correlated and random OT are external and taken as correct."
  },
  {
   "property": "C78",
   "status": "proved",
   "theorems": [
    "Verif.Props.E2FCheat.C78_view",
    "Verif.Props.E2FCheat.C78_hit",
    "Verif.Props.E2FCheat.C78_bets",
    "Verif.Props.E2FCheat.C78_honest"
   ],
   "note": "C78_view (bijection for every strategy), C78_hit (a right bet shows), C78_bets (count), C78_honest (the strategy of the code gives talk). The outputs of the OLE are those of a correct OLE on the numbers put in; what a sender gains by wrong OLE messages is C77. Random numbers are uniform modulo q (BN_rand followed by BN_mod is so only nearly)."
  },
  {
   "property": "C79",
   "status": "proved",
   "theorems": [
    "Verif.Props.AEADCheat.C79_encrypt_any",
    "Verif.Props.AEADCheat.C79_encrypt",
    "Verif.Props.AEADCheat.C79_key_bit",
    "Verif.Props.AEADCheat.C79_decrypt",
    "Verif.Props.AEADCheat.C79_construct"
   ],
   "note": "C79_encrypt_any (every sender), C79_encrypt (one block changed), C79_key_bit (the bit is a bit of the share of the hash key), C79_decrypt, C79_construct. The sender follows the code outside of OLEF2K."
  },
  {
   "property": "C80",
   "status": "proved",
   "theorems": [
    "Verif.Props.GarblerCheat.C80_gate",
    "Verif.Props.GarblerCheat.C80_functions",
    "Verif.Props.GarblerCheat.C80_run",
    "Verif.Props.GarblerCheat.C80_honest",
    "Verif.Props.GarblerCheat.C80_leak",
    "Verif.Props.GarblerCheat.C80_no_check"
   ],
   "note": "C80_gate, C80_functions (one gate, which functions), C80_run (whole runs), C80_honest, C80_leak (an input of BOB opened), C80_no_check (any tables and messages). Outside of the tables the garbler of C80_run follows the code."
  },
  {
   "property": "C81",
   "status": "proved",
   "theorems": [
    "Verif.Props.GarblerProbe.C81_unnoticed",
    "Verif.Props.GarblerProbe.C81_digest",
    "Verif.Props.GarblerProbe.C81_bit",
    "Verif.Props.GarblerProbe.C81_adder"
   ],
   "note": "C81_unnoticed (same openings), C81_digest (what the evaluator sends), C81_bit (the operand read off it), C81_adder (last carry of an adder). One changed gate; the operations between the gate and the opening are XOR and NOT."
  },
  {
   "property": "C82",
   "status": "proved",
   "theorems": [
    "Verif.Props.GarblerKey.C82_digest",
    "Verif.Props.GarblerKeyAES.C82_state",
    "Verif.Props.GarblerKeyAES.C82_away",
    "Verif.Props.GarblerKeyAES.C82_round_key",
    "Verif.Props.GarblerKeyAES.C82_key",
    "Verif.Props.GarblerKeyAES.C82_encrypt",
    "Verif.Props.GarblerKeyAES.C82_whole_key",
    "Verif.Props.GarblerKeyAES.C82_one_byte"
   ],
   "note": "C82_digest (any tables, any session), C82_state and C82_away (a run of the cipher circuit), C82_encrypt (a record of 16 bytes), C82_one_byte, C82_round_key, C82_key, C82_whole_key. A digest allows to check a guess of all chosen bytes at once: with k S-boxes 256^k guesses."
  },
  {
   "property": "C83",
   "status": "proved",
   "theorems": [
    "Verif.Props.FinishedCheat.C83_keys",
    "Verif.Props.FinishedCheat.C83_accepted",
    "Verif.Props.FinishedCheat.C83_honest_feed"
   ],
   "note": "C83_keys (the handshake), C83_accepted (the proof phase), C83_honest_feed (the model of the deviating client with nothing replaced is the protocol). An attack on the code as it is; the round optimisation computes the inner digest in the circuit and is not concerned."
  },
  {
   "property": "C84",
   "status": "proved",
   "theorems": [
    "Verif.Props.Transcript.C84_compute",
    "Verif.Props.Transcript.C84_handshake",
    "Verif.Props.Transcript.C84_proof",
    "Verif.Props.Transcript.C84_session",
    "Verif.Props.Transcript.C84_other_transcript",
    "Verif.Props.Transcript.C84_lengths_needed"
   ],
   "note": "C84_compute (one PRF call), C84_handshake, C84_proof, C84_session (equalities for all states; C84_lengths_needed: with the round optimisation and strings of different lengths nothing ends), C84_other_transcript (honest sessions are accepted whatever BOB passes). The soundness theorems C42, C52, C74 are about the strings ALICE passes."
  },
  {
   "property": "C85",
   "status": "proved",
   "theorems": [
    "Verif.Props.RecordTwo.C85_encrypt",
    "Verif.Props.RecordTwo.C85_decrypt",
    "Verif.Props.RecordTwo.C85_run",
    "Verif.Props.RecordTwo.C85_run_results",
    "Verif.Props.RecordTwo.C85_reuse",
    "Verif.Props.RecordTwo.C85_other_texts"
   ],
   "note": "C85_encrypt, C85_decrypt, C85_run (equalities for all states and buffers), C85_reuse (the hash key from two records, records of any message not longer), C85_other_texts (other texts are accepted in the proof phase)."
  },
  {
   "property": "C86",
   "status": "proved",
   "theorems": [
    "Verif.Props.NoAssert.C86_checked_encrypt",
    "Verif.Props.NoAssert.C86_checked_decrypt",
    "Verif.Props.NoAssert.C86_checked_prove",
    "Verif.Props.NoAssert.C86_same_record",
    "Verif.Props.NoAssert.C86_same_proof",
    "Verif.Props.NoAssert.C86_long_nonce",
    "Verif.Props.NoAssert.C86_nonce_reuse",
    "Verif.Props.NoAssert.C86_short_nonce",
    "Verif.Props.NoAssert.C86_no_record",
    "Verif.Props.NoAssert.C86_other_length",
    "Verif.Props.NoAssert.C86_empty_ciphertext",
    "Verif.Props.NoAssert.C86_public_length",
    "Verif.Props.NoAssert.C86_private_longer",
    "Verif.Props.NoAssert.C86_private_shorter",
    "Verif.Props.NoAssert.C86_checked_private",
    "Verif.Props.NoAssert.C86_sha_digest",
    "Verif.Props.NoAssert.C86_sha_opt_digest",
    "Verif.Props.NoAssertConv.C86_ole",
    "Verif.Props.NoAssertConv.C86_aes_prover_exact",
    "Verif.Props.NoAssertConv.C86_aes_prover_long",
    "Verif.Props.NoAssertConv.C86_aes_prover_wrong"
   ],
   "note": "C86_checked_* (the build with assertions is the other models), C86_same_* (agreement where a result is returned), C86_long_nonce, C86_nonce_reuse, C86_short_nonce, C86_no_record, C86_other_length, C86_empty_ciphertext, C86_public_length, C86_private_longer, C86_private_shorter, C86_sha_digest, C86_sha_opt_digest. The assertions of the offline classes are not followed. C86_ole, C86_aes_prover_exact, C86_aes_prover_long, C86_aes_prover_wrong: the assertions of OLE and AESProver; those of com_conv.h are C88."
  },
  {
   "property": "C87",
   "status": "proved",
   "theorems": [
    "Verif.Props.GarblerDirect.C87_run",
    "Verif.Props.GarblerDirect.C87_functions",
    "Verif.Props.GarblerDirect.C87_honest",
    "Verif.Props.GarblerDirect.C87_plain",
    "Verif.Props.GarblerDirect.C87_leak",
    "Verif.Props.GarblerDirect.C87_silent_gate",
    "Verif.Props.GarblerDirect.C87_silent",
    "Verif.Props.GarblerDirect.C87_no_check"
   ],
   "note": "C87_run (all programs, tables changed by Delta, bits inverted at openings), C87_functions, C87_honest and C87_plain (no changes: the code and the plain values), C87_leak, C87_silent_gate and C87_silent (a wire the evaluator takes for a constant), C87_no_check. The runs assume no accidental label coincidence, as C17 does."
  },
  {
   "property": "C88",
   "status": "proved",
   "theorems": [
    "Verif.Props.NoAssertConv.C88_exact",
    "Verif.Props.NoAssertConv.C88_long",
    "Verif.Props.NoAssertConv.C88_long_checked",
    "Verif.Props.NoAssertConv.C88_short",
    "Verif.Props.NoAssertConv.C88_honest",
    "Verif.Props.NoAssertConv.C88_honest_one"
   ],
   "note": "C88_exact (exact lengths, any run), C88_short, C88_long_checked, C88_long (any run of C35, without assertions), C88_honest and C88_honest_one (honest run with fresh longer vectors)."
  },
  {
   "property": "C89",
   "status": "proved",
   "theorems": [
    "Verif.Props.ProbeDirect.C89_unnoticed",
    "Verif.Props.ProbeDirect.C89_digest",
    "Verif.Props.ProbeDirect.C89_bit"
   ],
   "note": "C89_unnoticed (evaluator alone, any messages), C89_digest (both parties, from the start), C89_bit (the candidates of the garbler). The no-coincidence conditions are those of C17 and AptRun; an example meets all of them for all inputs."
  },
  {
   "property": "C90",
   "status": "proved",
   "theorems": [
    "Verif.Props.OpenFlip.C90_ordinary",
    "Verif.Props.OpenFlip.C90_online",
    "Verif.Props.OpenFlip.C90_shown"
   ],
   "note": "C90_ordinary, C90_online, and C90_shown (any values). No function of the protocol or cipher directories opens a value to ALICE only; the reveal functions of the backends offer it."
  },
  {
   "property": "C91",
   "status": "proved",
   "theorems": [
    "Verif.Props.Switch.C91_session",
    "Verif.Props.Switch.C91_sessions",
    "Verif.Props.Switch.C91_failed_setup",
    "Verif.Props.Switch.C91_retries",
    "Verif.Props.Switch.C91_dangling",
    "Verif.Props.Switch.C91_nested",
    "Verif.Props.Switch.C91_after_finalize",
    "Verif.Props.Switch.C91_failures_then_finalize"
   ],
   "note": "C91_session, C91_sessions, C91_failed_setup, C91_retries, C91_dangling, C91_nested, C91_after_finalize. The effect of finalize_zk_bool (emp-zk, not in the repository) is an assumption of the model: it deletes circ_exec and prot_exec and leaves the pointers."
  },
  {
   "property": "C92",
   "status": "proved",
   "theorems": [
    "Verif.Props.DigestCompare.C92_accepted",
    "Verif.Props.DigestCompare.C92_accepted_only",
    "Verif.Props.DigestCompare.C92_pairs",
    "Verif.Props.DigestCompare.C92_pairs_bounds",
    "Verif.Props.DigestCompare.C92_equivocation",
    "Verif.Props.DigestCompare.C92_best",
    "Verif.Props.DigestCompare.C92_best_reached"
   ],
   "note": "C92_accepted, C92_accepted_only, C92_pairs, C92_pairs_bounds, C92_best, C92_best_reached, C92_equivocation. Quantifies the failure of C36. Counts are over uniformly distributed digests; nothing is said about SHA-256 itself."
  },
  {
   "property": "C93",
   "status": "proved",
   "theorems": [
    "Verif.Props.Wire.C93_session",
    "Verif.Props.Wire.C93_never_stuck",
    "Verif.Props.Wire.C93_ends_well",
    "Verif.Props.Wire.C93_needs_flush_before_receive",
    "Verif.Props.Wire.C93_short_point",
    "Verif.Props.Wire.C93_program",
    "Verif.Props.Wire.C93_gate_bytes",
    "Verif.Props.Wire.C93_opening_bytes",
    "Verif.Props.Wire.C93_coincidence",
    "Verif.Props.Wire.C93_tag_blocks",
    "Verif.Props.Wire.C93_tag_blocks_closed"
   ],
   "note": "C93_session, C93_never_stuck, C93_ends_well; C93_needs_flush_before_receive and C93_short_point say what it rests on. C93_program, C93_gate_bytes, C93_opening_bytes link it to the garbled-circuit model: each party decides by its own labels what it sends and awaits (C93_coincidence: not so if a label collides with a constant). C93_tag_blocks: the products of a tag on the wire are the blocks of GCM. Calls of emp-ot and emp-zk are joint steps on io that flush it; emp-tool NetIO is assumed to flush a connection before receiving on it."
  },
  {
   "property": "C94",
   "status": "proved",
   "theorems": [
    "Verif.Props.Threads.C94_isolated",
    "Verif.Props.Threads.C94_same_backend",
    "Verif.Props.Threads.C94_no_leak",
    "Verif.Props.Threads.C94_sessions",
    "Verif.Props.Threads.C94_select",
    "Verif.Props.Threads.C94_other_thread",
    "Verif.Props.Threads.C94_finalize_elsewhere",
    "Verif.Props.Threads.C94_shared",
    "Verif.Props.Threads.C94_shared_sessions",
    "Verif.Props.Threads.C94_shared_select"
   ],
   "note": "C94_isolated, C94_same_backend, C94_no_leak, C94_sessions, C94_select for the THREADING build; C94_other_thread, C94_finalize_elsewhere, C94_shared, C94_shared_sessions, C94_shared_select say what does not work. A call is one step; circ_exec and prot_exec of emp-tool are taken to be thread-local in the same build."
  },
  {
   "property": "C95",
   "status": "proved",
   "theorems": [
    "Verif.Props.WireCap.C95_session",
    "Verif.Props.WireCap.C95_code",
    "Verif.Props.WireCap.C95_opening_too_large",
    "Verif.Props.WireCap.C95_bobs_numbers",
    "Verif.Props.WireCap.C95_decrypt_too_small",
    "Verif.Props.WireCap.C95_encrypt_too_small",
    "Verif.Props.WireCap.C95_opening_after",
    "Verif.Props.WireCap.C95_records_exact"
   ],
   "note": "C95_session and C95_code are the positive statements; C95_records_exact says exactly which room records need; C95_opening_too_large, C95_opening_after, C95_bobs_numbers, C95_encrypt_too_small and C95_decrypt_too_small show what happens without it. Calls of emp-ot and emp-zk are joint steps, as in C93."
  },
  {
   "property": "C96",
   "status": "proved",
   "theorems": [
    "Verif.Props.TrafficShape.C96_known_right",
    "Verif.Props.TrafficShape.C96_online",
    "Verif.Props.TrafficShape.C96_online_unseen",
    "Verif.Props.TrafficShape.C96_offline",
    "Verif.Props.TrafficShape.C96_online_always",
    "Verif.Props.TrafficShape.C96_traffic",
    "Verif.Props.TrafficShape.C96_inputs_unseen",
    "Verif.Props.TrafficShape.C96_constants_seen"
   ],
   "note": "C96_traffic and C96_inputs_unseen, for runs without accidental coincidence of labels (how rare they are is C69; C93_coincidence shows what they do). C96_constants_seen: public inputs are visible. C96_online, C96_online_unseen, C96_offline, C96_online_always: the offline/online backend, with no such exception; there constants are not visible either. C96_known_right: the constants taken as known are right, and the same for all private inputs. Lengths and order of messages only; their contents are C62 and C69."
  },
  {
   "property": "C97",
   "status": "proved",
   "theorems": [
    "Verif.Props.ConnectionBytes.C97_connection",
    "Verif.Props.WireBytes.C97_program",
    "Verif.Props.WireBytes.C97_call",
    "Verif.Props.WireBytes.C97_session",
    "Verif.Props.WireBytes.C97_overhead",
    "Verif.Props.WireBytes.C97_tables_before"
   ],
   "note": "C97_call, C97_session; C97_overhead and C97_tables_before are consequences. C97_program: a program on the ordinary backend, from what C96 says. C97_connection: the gates of a whole connection, from the number of conjunctions and openings of C70. Lengths of serialised numbers are parameters (C37 has the encoding). Calls of emp-ot and emp-zk (joint steps of the model) are not counted."
  },
  {
   "property": "C98",
   "status": "proved",
   "theorems": [
    "Verif.Props.Counters.C98_calls",
    "Verif.Props.Counters.C98_compressions",
    "Verif.Props.Counters.C98_sequence",
    "Verif.Props.Counters.C98_rounds",
    "Verif.Props.Counters.C98_compute"
   ],
   "note": "C98_calls for every sequence of calls that ends (C14 says which do). C98_compressions: one derivation with and without reuse. C98_sequence: many derivations from one secret, which end. C98_rounds and C98_compute: the other two functions, one call after init. Counters are natural numbers in the model; in the code size_t (hmac_calls) and int."
  }
 ]
}