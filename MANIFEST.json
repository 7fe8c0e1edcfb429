{
 "claims": [
  {
   "property": "C01",
   "status": "proved",
   "theorems": [
    "EmpZk.C01_mul64_exact",
    "EmpZk.C01_mod_exact",
    "EmpZk.C01_add_exact",
    "EmpZk.C01_add_domain_tight",
    "EmpZk.C01_mult_exact",
    "EmpZk.C01_mult_exact_wide",
    "EmpZk.C01_mod_pre",
    "EmpZk.C01_extract_exact",
    "EmpZk.C01_field_homomorphism"
   ],
   "note": "All 64-bit words in the stated domains; tight domain of add_mod shown."
  },
  {
   "property": "C02",
   "status": "proved",
   "theorems": [
    "EmpZk.C02_vec_mod",
    "EmpZk.C02_vec_cond_sub",
    "EmpZk.C02_signed_compare_limit",
    "EmpZk.C02_mult_mod_block",
    "EmpZk.C02_mult_mod_bch2_block",
    "EmpZk.C02_mult_mod_bch2_word",
    "EmpZk.C02_mult_mod_bch4_word",
    "EmpZk.C02_mult_mod_bch4_block",
    "EmpZk.C02_add_mod_block",
    "EmpZk.C02_add_mod_block_word"
   ],
   "note": "Every vector kernel equals the scalar one lane by lane on canonical lanes; the signed compare limits vec_partial_mod to lanes below 2^63 (witness given)."
  },
  {
   "property": "C03",
   "status": "proved",
   "theorems": [
    "EmpZk.C03_mod128_congr",
    "EmpZk.C03_mod128_canonical_iff",
    "EmpZk.C03_mod128_exact",
    "EmpZk.C03_domain",
    "EmpZk.C03_noncanonical_witness"
   ],
   "note": "Exact characterisation of when the 128-bit reduction is canonical; always congruent."
  },
  {
   "property": "C04",
   "status": "proved",
   "theorems": [
    "EmpZk.C04_coeff_powers",
    "EmpZk.C04_coeff_zero_length_ub",
    "EmpZk.C04_inner_product"
   ],
   "note": "All lengths; length zero is undefined behaviour in the C++ and is none in the model."
  },
  {
   "property": "C05",
   "status": "proved",
   "theorems": [
    "EmpZk.C05_lane_full_product",
    "EmpZk.C05_batch_products"
   ],
   "note": "Carry-less product, field reduction, batch routine with any aliasing; GF(2^128) proved to be a field (irreducibility by a Rabin-style argument)."
  },
  {
   "property": "C06",
   "status": "proved",
   "theorems": [
    "EmpZk.C06_set_zero_bit",
    "EmpZk.C06_set_value_in_block",
    "EmpZk.C06_mac_invariant",
    "EmpZk.C06_progress",
    "EmpZk.C06_committed"
   ],
   "note": "All programs; label invariant for honest sides, commitment for arbitrary provers, word-level low-bit handling."
  },
  {
   "property": "C07",
   "status": "proved",
   "theorems": [
    "EmpZk.C07_honest_session",
    "EmpZk.C07_completes"
   ],
   "note": "Honest sessions; completion characterised exactly (a last batch smaller than the thread count divides by zero)."
  },
  {
   "property": "C08",
   "status": "proved",
   "theorems": [
    "EmpZk.C08_choice_bits",
    "EmpZk.C08_and_check_complete"
   ],
   "note": "All batches, seeds, masks, Delta, thread counts; word-level collection of the mask bits."
  },
  {
   "property": "C09",
   "status": "proved",
   "theorems": [
    "EmpZk.C09_and_check_sound"
   ],
   "note": "Counting bound over all (seeds, Delta), for every answer strategy."
  },
  {
   "property": "C10",
   "status": "partial",
   "theorems": [
    "EmpZk.C10_coverage_partial",
    "EmpZk.C10_in_bounds",
    "EmpZk.C10_large_batches",
    "EmpZk.C10_coverage_false",
    "EmpZk.C10_undefined_small_batch",
    "EmpZk.C10_uncovered_accepted"
   ],
   "note": "False as stated: the split leaves gates unchecked when cnt/threads <= cnt%threads and divides by zero when cnt < threads; exact condition proved."
  },
  {
   "property": "C11",
   "status": "proved",
   "theorems": [
    "EmpZk.C11_open_binding",
    "EmpZk.C11_open_complete",
    "EmpZk.C11_session_binding"
   ],
   "note": "One opening: at most one Delta; whole session: explicit hash collision."
  },
  {
   "property": "C12",
   "status": "proved",
   "theorems": [
    "EmpZk.C12_flag_iff"
   ],
   "note": "Exact characterisation for arbitrary messages."
  },
  {
   "property": "C13",
   "status": "proved",
   "theorems": [
    "EmpZk.C13_and_batches",
    "EmpZk.C13_no_overflow"
   ],
   "note": "Arbitrary messages; batches are exactly the program's gates in order."
  },
  {
   "property": "C14",
   "status": "proved",
   "theorems": [
    "EmpZk.C14_no_ub",
    "EmpZk.C14_no_deadlock",
    "EmpZk.C14_fifo",
    "EmpZk.C14_prefix",
    "EmpZk.C14_terminates"
   ],
   "note": "All buffer sizes, mirrored programs and schedules of the two concurrent endpoints: no UB, no deadlock, termination, exact FIFO contents."
  },
  {
   "property": "C15",
   "status": "proved",
   "theorems": [
    "EmpZk.C15_same_challenges",
    "EmpZk.C15_binding",
    "EmpZk.C15_data_not_hashed"
   ],
   "note": "All schedules; digests equal, hashed transcript determines the bits; limit stated: byte traffic is not hashed."
  },
  {
   "property": "C16",
   "status": "proved",
   "theorems": [
    "EmpZk.C16_roundtrip",
    "EmpZk.C16_portable_pack",
    "EmpZk.C16_portable_unpack",
    "EmpZk.C16_any_bytes"
   ],
   "note": "All lengths and contents; portable loops agree with the instructions."
  },
  {
   "property": "C17",
   "status": "proved",
   "theorems": [
    "EmpZk.C17_mac_invariant",
    "EmpZk.C17_progress",
    "EmpZk.C17_honest_session",
    "EmpZk.C17_completes"
   ],
   "note": "All programs with canonical inputs and constants; completion characterised exactly (a last batch of 32 or more gates but fewer than the thread count divides by zero)."
  },
  {
   "property": "C18",
   "status": "proved",
   "theorems": [
    "EmpZk.C18_mul_check_complete",
    "EmpZk.C18_answer_exists"
   ],
   "note": "All batches, thread counts, seeds, masks, Delta, on machine words."
  },
  {
   "property": "C19",
   "status": "proved",
   "theorems": [
    "EmpZk.C19_mul_check_sound",
    "EmpZk.C19_coverage",
    "EmpZk.C19_uncovered"
   ],
   "note": "Counting bound per task of checked gates, for every answer strategy with arbitrary 64-bit words; gates outside all tasks characterised exactly (39 gates, 8 threads leave 4 unchecked)."
  },
  {
   "property": "C20",
   "status": "partial",
   "theorems": [
    "EmpZk.C20_open_binding_partial",
    "EmpZk.C20_zero_binding",
    "EmpZk.C20_open_complete",
    "EmpZk.C20_binding_false",
    "EmpZk.C20_session_binding"
   ],
   "note": "At most one Delta is false for non-canonical words (witness: two Delta accept); proved: at most two for all words, one for canonical words; whole-session statement gives a hash collision."
  },
  {
   "property": "C21",
   "status": "partial",
   "theorems": [
    "EmpZk.C21_canonical_false",
    "EmpZk.C21_residue_partial"
   ],
   "note": "False: p is accepted for 0 and returned. Proved: the residue is right."
  },
  {
   "property": "C22",
   "status": "proved",
   "theorems": [
    "EmpZk.C22_choice_bits",
    "EmpZk.C22_poly_complete",
    "EmpZk.C22_multi"
   ],
   "note": "All five statement kinds, all batches."
  },
  {
   "property": "C23",
   "status": "proved",
   "theorems": [
    "EmpZk.C23_poly_sound"
   ],
   "note": "Counting bound over (seed, Delta), for every answer strategy."
  },
  {
   "property": "C24",
   "status": "proved",
   "theorems": [
    "EmpZk.C24_poly_complete",
    "EmpZk.C24_poly_sound"
   ],
   "note": "Completeness and counting soundness for both kinds of statements, arbitrary answer words."
  },
  {
   "property": "C25",
   "status": "proved",
   "theorems": [
    "EmpZk.C25_poly_batches"
   ],
   "note": "Arbitrary messages; batches are exactly the program's statements in order."
  },
  {
   "property": "C26",
   "status": "proved",
   "theorems": [
    "EmpZk.C26_batch",
    "EmpZk.C26_single"
   ],
   "note": ""
  },
  {
   "property": "C27",
   "status": "proved",
   "theorems": [
    "EmpZk.C27_complete",
    "EmpZk.C27_consistent",
    "EmpZk.C27_sound",
    "EmpZk.C27_selective_failure"
   ],
   "note": "Bound size*p + 2^60*p of p^2 (about one half) is tight up to the size*p term: C27_selective_failure shows the one-row deviation is accepted whenever that bit of Delta is 0."
  },
  {
   "property": "C28",
   "status": "proved",
   "theorems": [
    "EmpZk.C28_chosen_message",
    "EmpZk.C28_choice_hidden"
   ],
   "note": ""
  },
  {
   "property": "C29",
   "status": "proved",
   "theorems": [
    "EmpZk.C29_reconstruct",
    "EmpZk.C29_index",
    "EmpZk.C29_index_onto",
    "EmpZk.C29_in_bounds"
   ],
   "note": ""
  },
  {
   "property": "C30",
   "status": "proved",
   "theorems": [
    "EmpZk.C30_single_point_f2k",
    "EmpZk.C30_single_point"
   ],
   "note": "F_p (word level) and F_{2^128}; all trees, choice vectors and memory contents."
  },
  {
   "property": "C31",
   "status": "proved",
   "theorems": [
    "EmpZk.C31_batch_check_f2k",
    "EmpZk.C31_batch_check"
   ],
   "note": "F_p (word level) and F_{2^128}; all trees, seeds, challenges."
  },
  {
   "property": "C32",
   "status": "proved",
   "theorems": [
    "EmpZk.C32_partition",
    "EmpZk.C32_channels"
   ],
   "note": "All tree and thread counts; mpfss.h:104-129 uses the same ranges."
  },
  {
   "property": "C33",
   "status": "proved",
   "theorems": [
    "EmpZk.C33_index_range",
    "EmpZk.C33_onto"
   ],
   "note": "All k below 2^31 and all words."
  },
  {
   "property": "C34",
   "status": "proved",
   "theorems": [
    "EmpZk.C34_correlation_f2k",
    "EmpZk.C34_correlation",
    "EmpZk.C34_no_overflow"
   ],
   "note": "Both fields; word-level overflow bounds for F_p."
  },
  {
   "property": "C35",
   "status": "partial",
   "theorems": [
    "EmpZk.C35_coverage",
    "EmpZk.C35_partial",
    "EmpZk.C35_false",
    "EmpZk.C35_tail_unmixed",
    "EmpZk.C35_schedule"
   ],
   "note": "False: positions at or above (threads+1)*(n/(threads+1)) are never mixed (default n with 6 threads); exact coverage proved for all parameters."
  },
  {
   "property": "C36",
   "status": "proved",
   "theorems": [
    "EmpZk.C36_stream",
    "EmpZk.C36_resize",
    "EmpZk.C36_aligned"
   ],
   "note": "All request sequences, any element type."
  },
  {
   "property": "C37",
   "status": "proved",
   "theorems": [
    "EmpZk.C37_in_bounds",
    "EmpZk.C37_int_range",
    "EmpZk.C37_small_limit_overflow"
   ],
   "note": "All request sequences; needs M <= n - M, which the constructor does not check (witness of an overflow otherwise)."
  },
  {
   "property": "C38",
   "status": "proved",
   "theorems": [
    "EmpZk.C38_aligned",
    "EmpZk.C38_inplace",
    "EmpZk.C38_any_size"
   ],
   "note": "All t >= 1 whose size fits int; both parties' answers aligned."
  },
  {
   "property": "C39",
   "status": "partial",
   "theorems": [
    "EmpZk.C39_send",
    "EmpZk.C39_recv",
    "EmpZk.C39_f2k_false",
    "EmpZk.C39_f2k_partial"
   ],
   "note": "Holds for F_p (disjoint ranges); false for F_{2^128}: index t is both check mask and first LPN input (svole.h:128)."
  },
  {
   "property": "C40",
   "status": "partial",
   "theorems": [
    "EmpZk.C40_false",
    "EmpZk.C40_partial"
   ],
   "note": "False: the array b is never assigned before it is read, for every depth >= 2 and tree count; what would hold with assigned bits is proved."
  },
  {
   "property": "C41",
   "status": "proved",
   "theorems": [
    "EmpZk.C41_bool2arith",
    "EmpZk.C41_arith2bool",
    "EmpZk.C41_round_trip",
    "EmpZk.C41_open",
    "EmpZk.C41_range_needed"
   ],
   "note": "Value and label level, precondition x < p (C41_range_needed shows it is needed and unchecked); opening soundness for canonical words."
  },
  {
   "property": "C42",
   "status": "proved",
   "theorems": [
    "EmpZk.C42_fresh",
    "EmpZk.C42_rounds"
   ],
   "note": "Any sequence of single and bulk conversions from construction; natural numbers for the uint32/int counters."
  },
  {
   "property": "C43",
   "status": "partial",
   "theorems": [
    "EmpZk.C43_transcript",
    "EmpZk.C43_exact",
    "EmpZk.C43_false",
    "EmpZk.C43_partial"
   ],
   "note": "False: a bucket with sum exactly p makes honest parties abort (C43_false, exact criterion C43_exact). Transcripts tied to values by C43_transcript."
  },
  {
   "property": "C44",
   "status": "partial",
   "theorems": [
    "EmpZk.C44_false",
    "EmpZk.C44_exact",
    "EmpZk.C44_partial"
   ],
   "note": "False for the last random point (index ell is used); for all other points every candidate has exactly one role."
  },
  {
   "property": "C45",
   "status": "proved",
   "theorems": [
    "EmpZk.C45_honest",
    "EmpZk.C45_packed_mac"
   ],
   "note": "Honest runs of any length; needs at least three accesses (bch4) and at most 2^(step_sz-1)."
  },
  {
   "property": "C46",
   "status": "partial",
   "theorems": [
    "EmpZk.C46_false",
    "EmpZk.C46_partial",
    "EmpZk.C46_protocol"
   ],
   "note": "False: the extra index bit of the sorted rows is not packed (C46_false); proved when it is zero, down to the comparison of products (C46_protocol)."
  },
  {
   "property": "C47",
   "status": "proved",
   "theorems": [
    "EmpZk.C47_complete",
    "EmpZk.C47_challenges",
    "EmpZk.C47_delta",
    "EmpZk.C47_sound"
   ],
   "note": "Products of 4/3/2/1-element groups, comparison of the two MACs; soundness for adaptive outputs and messages."
  },
  {
   "property": "C48",
   "status": "partial",
   "theorems": [
    "EmpZk.C48_complete",
    "EmpZk.C48_false",
    "EmpZk.C48_partial"
   ],
   "note": "False for 3 and 4 operands (C48_false: the five free sums absorb the error); proved for 5 operands, also in mixed batches."
  },
  {
   "property": "C49",
   "status": "partial",
   "theorems": [
    "EmpZk.C49_false",
    "EmpZk.C49_partial",
    "EmpZk.C49_inn_prdt"
   ],
   "note": "False for lists shorter than the group width minus one (C49_false); proved for all others."
  },
  {
   "property": "C50",
   "status": "partial",
   "theorems": [
    "EmpZk.C50_ext_false",
    "EmpZk.C50_ext_refresh_false",
    "EmpZk.C50_false",
    "EmpZk.C50_refresh_false",
    "EmpZk.C50_partial"
   ],
   "note": "False: check() clears mem (C50_false, C50_ext_false), refresh() is undefined whenever it triggers (C50_refresh_false, C50_ext_refresh_false)."
  },
  {
   "property": "C51",
   "status": "partial",
   "theorems": [
    "EmpZk.C51_honest",
    "EmpZk.C51_packed_mac",
    "EmpZk.C51_false",
    "EmpZk.C51_partial",
    "EmpZk.C51_protocol"
   ],
   "note": "Honest runs with automatic checks proved; soundness false (C51_false: extra index bit), proved when it is zero."
  },
  {
   "property": "C52",
   "status": "partial",
   "theorems": [
    "EmpZk.C52_injective",
    "EmpZk.C52_false",
    "EmpZk.C52_partial",
    "EmpZk.C52_mac"
   ],
   "note": "False for cells of at most 64 bits: check() cannot take rows apart (C52_false: loop bound wraps, out-of-bounds read). For more words: packing injective and inverted by check (C52_partial), MAC relation of packed and compressed rows (C52_mac)."
  },
  {
   "property": "C53",
   "status": "partial",
   "theorems": [
    "EmpZk.C53_false",
    "EmpZk.C53_first_read_false",
    "EmpZk.C53_partial",
    "EmpZk.C53_protocol"
   ],
   "note": "False as stated: indices of neighbouring sorted rows need only differ, so rows of one address can be split and a stale read accepted (C53_false); first reads unconstrained (C53_first_read_false). Under grouping: C53_partial, and with compression and product comparison C53_protocol."
  },
  {
   "property": "C54",
   "status": "partial",
   "theorems": [
    "EmpZk.C54_false",
    "EmpZk.C54_partial"
   ],
   "note": "False: the ZKRAM condition and the two-operand check only print (C54_false)."
  },
  {
   "property": "C55",
   "status": "partial",
   "theorems": [
    "EmpZk.C55_history",
    "EmpZk.C55_false",
    "EmpZk.C55_partial",
    "EmpZk.C55_uncovered"
   ],
   "note": "False when fewer gates than threads (uninitialised sums) and for the uncovered tail; completeness and soundness on covered gates proved."
  },
  {
   "property": "C56",
   "status": "proved",
   "theorems": [
    "EmpZk.C56_box",
    "EmpZk.C56_substitution",
    "EmpZk.C56_clear",
    "EmpZk.C56_circuit",
    "EmpZk.C56_session",
    "EmpZk.C56_knowledge",
    "EmpZk.C56_permutation",
    "EmpZk.C56_network",
    "EmpZk.C56_network_knowledge"
   ],
   "note": "Substitution layer = published table and a permutation; the bool version computes LowMC; the Bit version builds one program (the same for all keys and messages up to the inputs) whose plain evaluation is the clear ciphertext, with 3 AND gates per box; honest sessions reveal it; accepted sessions have a key and messages encrypting to what was revealed. Also: encryption is injective iff every linear layer is; the code does not test that its random matrices are invertible."
  },
  {
   "property": "C57",
   "status": "proved",
   "theorems": [
    "EmpZk.C57_simulation",
    "EmpZk.C57_witness_hiding"
   ],
   "note": "Perfect simulation: for every program, keys, Delta, challenges, the honest transcript with correlation bits c equals the simulator's transcript with bits psi(c), psi a bijection; two-witness corollary. The simulator knows the verifier's view, the program shape and the revealed values only."
  },
  {
   "property": "C58",
   "status": "proved",
   "theorems": [
    "EmpZk.C58_simulation",
    "EmpZk.C58_witness_hiding"
   ],
   "note": "Explicit simulator and a bijection on the prover's correlation values, for all programs with true claims and inputs below p; two witnesses with equal outputs have equal transcript distributions."
  },
  {
   "property": "C59",
   "status": "partial",
   "theorems": [
    "EmpZk.C59_batch_leak",
    "EmpZk.C59_false",
    "EmpZk.C59_set_leak",
    "EmpZk.C59_partial"
   ],
   "note": "False: batch sums and set-equality MACs are unmasked (C59_false, C59_batch_leak, C59_set_leak); hiding proved for the two-operand products."
  },
  {
   "property": "C60",
   "status": "partial",
   "theorems": [
    "EmpZk.C60_undefined_iff",
    "EmpZk.C60_false",
    "EmpZk.C60_left_behind",
    "EmpZk.C60_leak_false",
    "EmpZk.C60_partial",
    "EmpZk.C60_dangling",
    "EmpZk.C60_guard"
   ],
   "note": "False of the code: undefined exactly when an arithmetic session without conversions is closed after one with conversions (C60_undefined_iff, witness C60_false); one ThreadPool per arithmetic session is never freed (C60_left_behind, C60_leak_false); the guard of setup_zk_arith accepts a deleted boolean backend (C60_guard). Proved part: C60_partial."
  },
  {
   "property": "C61",
   "status": "partial",
   "theorems": [
    "EmpZk.C61_partial",
    "EmpZk.C61_false",
    "EmpZk.C61_empty_digest"
   ],
   "note": "False: corrections d are not hashed (C61_false, C61_empty_digest); bound for a prover that commits first."
  },
  {
   "property": "C62",
   "status": "proved",
   "theorems": [
    "EmpZk.C62_extraction"
   ],
   "note": "Extraction from three accepting Delta under explicit non-degeneracy conditions, all satisfied by honest sessions (example)."
  },
  {
   "property": "C63",
   "status": "partial",
   "theorems": [
    "EmpZk.C63_correction_partial",
    "EmpZk.C63_residue_false",
    "EmpZk.C63_selective_failure"
   ],
   "note": "False for non-canonical words (a lost carry subtracts 8): the word 2^64-9 is consistent with no committed value and makes acceptance depend on Delta; proved for canonical words."
  },
  {
   "property": "C64",
   "status": "proved",
   "theorems": [
    "EmpZk.C64_extraction"
   ],
   "note": "Extraction from five accepting Delta under explicit conditions, all met by honest sessions (example). Correction and reveal words canonical (see C63); check answers arbitrary."
  },
  {
   "property": "C65",
   "status": "proved",
   "theorems": [
    "EmpZk.C65_mul_batches",
    "EmpZk.C65_poly_batches"
   ],
   "note": "Arbitrary messages."
  },
  {
   "property": "C66",
   "status": "proved",
   "theorems": [
    "EmpZk.C66_extension",
    "EmpZk.C66_stream",
    "EmpZk.C66_setup",
    "EmpZk.C66_extension_f2k",
    "EmpZk.C66_inplace_f2k",
    "EmpZk.C66_setup_f2k"
   ],
   "note": "All parameters meeting the size conditions, all randomness, all rounds; both fields."
  },
  {
   "property": "C67",
   "status": "proved",
   "theorems": [
    "EmpZk.C67_base",
    "EmpZk.C67_value_onto"
   ],
   "note": "All OT outputs."
  },
  {
   "property": "C68",
   "status": "partial",
   "theorems": [
    "EmpZk.C68_open",
    "EmpZk.C68_accepts",
    "EmpZk.C68_false",
    "EmpZk.C68_shift",
    "EmpZk.C68_partial"
   ],
   "note": "False: a boolean integer a+p in an output candidate passes for every point and conversions with it are off by two (C68_false). Even with integers below p the acceptance rate reaches 1/7 (C68_shift), which is also the bound (C68_partial)."
  },
  {
   "property": "C69",
   "status": "proved",
   "theorems": [
    "EmpZk.C69_bool2arith",
    "EmpZk.C69_arith2bool"
   ],
   "note": ""
  },
  {
   "property": "C70",
   "status": "proved",
   "theorems": [
    "EmpZk.C70_honest",
    "EmpZk.C70_unwritten",
    "EmpZk.C70_one_word"
   ],
   "note": "State machine of ZkRamExt against a specification by the latest write. Undefined cases shown separately (C70_unwritten, C70_one_word)."
  },
  {
   "property": "C71",
   "status": "partial",
   "theorems": [
    "EmpZk.C71_verdicts",
    "EmpZk.C71_false",
    "EmpZk.C71_partial"
   ],
   "note": "False of the code when the arithmetic session is closed after the boolean one (C71_false, the order of test/arith/abconversion.cpp); C71_verdicts gives the exact verdict for every history, C71_partial the part that holds."
  },
  {
   "property": "C72",
   "status": "proved",
   "theorems": [
    "EmpZk.C72_fresh_words",
    "EmpZk.C72_fresh_words_f2k",
    "EmpZk.C72_words_in_range"
   ],
   "note": ""
  },
  {
   "property": "C73",
   "status": "partial",
   "theorems": [
    "EmpZk.C73_binding_partial",
    "EmpZk.C73_cut_off",
    "EmpZk.C73_cut_off_network",
    "EmpZk.C73_binding_network_partial",
    "EmpZk.C73_false"
   ],
   "note": "Holds between two consecutive digests on the channel (C73_binding_partial). False once the RAM extension takes digests on the same channel: C73_cut_off, C73_false."
  },
  {
   "property": "C74",
   "status": "partial",
   "theorems": [
    "EmpZk.C74_positive_partial",
    "EmpZk.C74_negative_off_by_one",
    "EmpZk.C74_false"
   ],
   "note": "Positive floats (C74_positive_partial). False for every negative float of scaled magnitude at least 1: C74_negative_off_by_one, C74_false."
  },
  {
   "property": "C75",
   "status": "partial",
   "theorems": [
    "EmpZk.C75_value_partial",
    "EmpZk.C75_exact_small",
    "EmpZk.C75_roundtrip_partial",
    "EmpZk.C75_zero_false",
    "EmpZk.C75_roundtrip_false"
   ],
   "note": "Non-zero elements (C75_value_partial, C75_exact_small), round trip of positive integers (C75_roundtrip_partial). False for zero and for negative floats: C75_zero_false, C75_roundtrip_false."
  },
  {
   "property": "C76",
   "status": "proved",
   "theorems": [
    "EmpZk.C76_completes",
    "EmpZk.C76_mirrored",
    "EmpZk.C76_no_deadlock",
    "EmpZk.C76_finishes",
    "EmpZk.C76_session"
   ],
   "note": "Honest parties. FerretCOT's own traffic is any mirrored sequence of calls. Combines C07, C14, C15."
  },
  {
   "property": "C77",
   "status": "proved",
   "theorems": [
    "EmpZk.C77_no_ub",
    "EmpZk.C77_alignment_needed",
    "EmpZk.C77_binding",
    "EmpZk.C77_completes",
    "EmpZk.C77_messages",
    "EmpZk.C77_extraction",
    "EmpZk.C77_sender",
    "EmpZk.C77_honest"
   ],
   "note": "Receiving endpoint and verifier under arbitrary bytes. Extraction at byte level excludes bad challenges (probability bounded in C09, C23) and collisions of the final hash; C77_alignment_needed shows why the buffer size must be divisible by 8."
  },
  {
   "property": "C78",
   "status": "partial",
   "theorems": [
    "EmpZk.C78_reply",
    "EmpZk.C78_honest_partial",
    "EmpZk.C78_exposed",
    "EmpZk.C78_unnoticed",
    "EmpZk.C78_two_verifiers",
    "EmpZk.C78_false",
    "EmpZk.C78_reply_f2k",
    "EmpZk.C78_exposed_f2k",
    "EmpZk.C78_unnoticed_f2k",
    "EmpZk.C78_forge"
   ],
   "note": "False: a prover that adds one to its check word gets a hash that determines Delta, and the verifier does not notice (C78_exposed, C78_unnoticed, C78_two_verifiers, C78_false). Holds for the right word (C78_honest_partial)."
  },
  {
   "property": "C79",
   "status": "partial",
   "theorems": [
    "EmpZk.C79_input_word",
    "EmpZk.C79_input_count",
    "EmpZk.C79_input_false",
    "EmpZk.C79_public_false",
    "EmpZk.C79_constants_false",
    "EmpZk.C79_expected_false",
    "EmpZk.C79_partial"
   ],
   "note": "False for words of p and more: an input w > p gets a wrong correction for min(p, w-p) of the masks and the honest session is rejected; constants 2^64-1 likewise. Holds for words below p (C79_partial)."
  },
  {
   "property": "C80",
   "status": "proved",
   "theorems": [
    "EmpZk.C80_linear",
    "EmpZk.C80_mu",
    "EmpZk.C80_triple",
    "EmpZk.C80_check_auth_mac",
    "EmpZk.C80_check_mul"
   ],
   "note": "Functions without caller in the repository; proved for all canonical values."
  },
  {
   "property": "C81",
   "status": "partial",
   "theorems": [
    "EmpZk.C81_wrong",
    "EmpZk.C81_wrong_count",
    "EmpZk.C81_false",
    "EmpZk.C81_round_trip",
    "EmpZk.C81_congruent",
    "EmpZk.C81_partial"
   ],
   "note": "False of the code: C81_false (sum + p is accepted for at least 2^60 of the p values of Delta and gives x - 2; C81_round_trip turns it into an authenticated field element). C81_partial bounds what any word can give and shows the claim for words below p."
  },
  {
   "property": "C82",
   "status": "partial",
   "theorems": [
    "EmpZk.C82_value",
    "EmpZk.C82_auth",
    "EmpZk.C82_count",
    "EmpZk.C82_false",
    "EmpZk.C82_partial",
    "EmpZk.C82_signed"
   ],
   "note": "False of the code for integers from p + 2 on other than 2^62 - 1 (C82_false; C82_count gives the number of masks for each result, C82_signed for negative numbers). C82_partial: the claim for exactly the other integers; C82_value and C82_auth cover all."
  },
  {
   "property": "C83",
   "status": "proved",
   "theorems": [
    "EmpZk.C83_every_schedule"
   ],
   "note": "Two-process model over byte streams. VOLE extension messages are an exchange with fixed contents, the correlations are those of AEnv.Good; the channel is reliable and unbounded; error() sets a flag."
  },
  {
   "property": "C84",
   "status": "proved",
   "theorems": [
    "EmpZk.C84_bytes",
    "EmpZk.C84_schedule",
    "EmpZk.C84_one_transcript",
    "EmpZk.C84_extraction"
   ],
   "note": "Any prover process; words canonical (C63 shows why); conditions on seeds, threads and hash as in C64; VOLE correlations ideal."
  },
  {
   "property": "C85",
   "status": "proved",
   "theorems": [
    "EmpZk.C85_error",
    "EmpZk.C85_one_thread"
   ],
   "note": "counted over all seeds and Delta for every adaptive strategy with canonical words; condition on batch sizes when more than one thread (see C10/C19), none for one thread; seeds taken as uniform residues"
  },
  {
   "property": "C86",
   "status": "proved",
   "theorems": [
    "EmpZk.C86_prover",
    "EmpZk.C86_verifier",
    "EmpZk.C86_negate",
    "EmpZk.C86_every_schedule",
    "EmpZk.C86_bytes",
    "EmpZk.C86_schedule",
    "EmpZk.C86_one_transcript",
    "EmpZk.C86_extraction"
   ],
   "note": "equality of batched and single calls for both parties on any messages; every schedule; any prover process"
  },
  {
   "property": "C87",
   "status": "proved",
   "theorems": [
    "EmpZk.C87_log",
    "EmpZk.C87_error",
    "EmpZk.C87_expand",
    "EmpZk.C87_one_thread"
   ],
   "note": "Any prover process, any schedule; randomness counted over the blocks and words actually drawn. The PRG expansion (external) enters through ExpandGood; C87_expand derives it from a bound on fibres. The prover's messages inside VOLE extension are fixed, as in C83/C84."
  },
  {
   "property": "C88",
   "status": "proved",
   "theorems": [
    "EmpZk.C88_extension",
    "EmpZk.C88_chain",
    "EmpZk.C88_protocol",
    "EmpZk.C88_sizes",
    "EmpZk.C88_tree_digest"
   ],
   "note": "All schedules of all threads; base OTs and cot_gen are inputs (external). The threads' local check computations are done in one place."
  },
  {
   "property": "C89",
   "status": "proved",
   "theorems": [
    "EmpZk.C89_whole_proof",
    "EmpZk.C89_sizes"
   ],
   "note": "Honest parties. The OTs themselves and the PRG/hash functions are external (arbitrary functions, OT outcomes as hypotheses); worker threads of the multiplication check do no communication and are modelled as in C23/C56."
  },
  {
   "property": "C90",
   "status": "partial",
   "theorems": [
    "EmpZk.C90_view_partial",
    "EmpZk.C90_count_partial",
    "EmpZk.C90_seed_false"
   ],
   "note": "False of the code when a polynomial statement is checked and the peer sends a seed above p (C90_seed_false: the prover does not reduce the seed, the highest bit of its answer tells witnesses apart). Proved against every peer for programs without polynomial statements, and with them for peers that send seeds below p. Correlations come from an ideal VOLE; the hash of the opened MACs is any function."
  },
  {
   "property": "C91",
   "status": "proved",
   "theorems": [
    "EmpZk.C91_view",
    "EmpZk.C91_count",
    "EmpZk.C91_same_prover"
   ],
   "note": "against any peer process; FerretCOT is an ideal COT (external); the calls it makes on the endpoint are arbitrary but fixed by the number of correlations used; hash and seed derivation arbitrary functions"
  },
  {
   "property": "C92",
   "status": "partial",
   "theorems": [
    "EmpZk.C92_false",
    "EmpZk.C92_digests_partial",
    "EmpZk.C92_one_batch_partial"
   ],
   "note": "False of the code: C92_false gives, for every hash function, generator and number of threads, calls of a prover by which the verifier accepts for every Delta although no inputs produce the outputs. Proved instead: equal challenges in all checks together imply equal bits, wires, openings, gates and statements (C92_digests_partial); with one batch the single challenge binds everything (C92_one_batch_partial)."
  },
  {
   "property": "C93",
   "status": "proved",
   "theorems": [
    "EmpZk.C93_error"
   ],
   "note": "The bound is for programs without polynomial statements whose AND gates fit into one batch and are covered by the split among the threads; hash and generator are modelled as one random function. Several batches: C92_false."
  },
  {
   "property": "C94",
   "status": "partial",
   "theorems": [
    "EmpZk.C94_committed",
    "EmpZk.C94_error_partial",
    "EmpZk.C94_false"
   ],
   "note": "False of the code: negation in C94_false (for every hash function, batch size, thread count and interleaving the prover can be committed to different lists with equal products). C94_committed: bytes that take the verifier to the challenge commit the prover to all wires. C94_error_partial: no AND check between start and challenge; error (Q+1)n/|F| over all functions in place of the hash."
  },
  {
   "property": "C95",
   "status": "partial",
   "theorems": [
    "EmpZk.C95_digests",
    "EmpZk.C95_false",
    "EmpZk.C95_f2k_partial",
    "EmpZk.C95_binding"
   ],
   "note": "False over F_{2^128}: C95_digests (seeds do not depend on the trees) and C95_false (trees accepted for every choice of the receiver, with wrong MACs). C95_binding is the property over F_p, C95_f2k_partial what would hold over F_{2^128} if the seed were drawn after the trees."
  },
  {
   "property": "C96",
   "status": "proved",
   "theorems": [
    "EmpZk.C96_session",
    "EmpZk.C96_memory",
    "EmpZk.C96_differs"
   ],
   "note": "All interleavings of the byte channel. SVoleF2k and FerretCOT are outside: they deliver valid correlations and make any mirrored calls. C96_memory: the set-equality check with permuted words passes for every challenge; C96_differs: the count of challenges for which differing lists pass."
  },
  {
   "property": "C97",
   "status": "proved",
   "theorems": [
    "EmpZk.C97_session",
    "EmpZk.C97_unwritten",
    "EmpZk.C97_circuits"
   ],
   "note": "comparison circuits and correlations are outside (CmpLib.Good, MixEnv.Good)"
  },
  {
   "property": "C98",
   "status": "proved",
   "theorems": [
    "EmpZk.C98_session",
    "EmpZk.C98_circuits"
   ],
   "note": "honest parties; assumes the two defects of C43/C44 do not show; emp-tool's Integer circuits from outside, shown to exist; C98_session is for all programs and schedules"
  },
  {
   "property": "C99",
   "status": "proved",
   "theorems": [
    "EmpZk.C99_session"
   ],
   "note": "any number of automatic checks inside the program; comparison circuits and correlation generators external (empLib is an instance)"
  },
  {
   "property": "C100",
   "status": "proved",
   "theorems": [
    "EmpZk.C100_session",
    "EmpZk.C100_one_word",
    "EmpZk.C100_unwritten"
   ],
   "note": "C100_session: every program; C100_unwritten, C100_one_word: the two undefined cases"
  },
  {
   "property": "C101",
   "status": "proved",
   "theorems": [
    "EmpZk.C101_extension",
    "EmpZk.C101_chain",
    "EmpZk.C101_protocol",
    "EmpZk.C101_sizes",
    "EmpZk.C101_refill"
   ],
   "note": "From the correlated OTs on; the OTs themselves (FerretCOT, BaseCot) are outside. The digest of a tree is an arbitrary block, the same for both parties."
  },
  {
   "property": "C102",
   "status": "proved",
   "theorems": [
    "EmpZk.C102_session",
    "EmpZk.C102_path",
    "EmpZk.C102_straight",
    "EmpZk.C102_memory",
    "EmpZk.C102_told",
    "EmpZk.C102_extraction"
   ],
   "note": "programs that branch on revealed values, over the network with and without a memory; soundness of the path"
  },
  {
   "property": "C103",
   "status": "proved",
   "theorems": [
    "EmpZk.C103_committed",
    "EmpZk.C103_extraction",
    "EmpZk.C103_batches",
    "EmpZk.C103_unit"
   ],
   "note": "Hypotheses: the challenges are not among the few bad ones (counted in C09, C23, C45, C48; the prover can compute them, C61), the splits cover the batches (C10), products of more than two blocks have five operands (C48), the verifier's hash does not collide on the lists hashed."
  },
  {
   "property": "C104",
   "status": "partial",
   "theorems": [
    "EmpZk.C104_partial",
    "EmpZk.C104_runs",
    "EmpZk.C104_false",
    "EmpZk.C104_stale"
   ],
   "note": "Holds up to the extra index bit of the sorted rows, which nothing forces to be zero (C104_stale: an accepted stale read on the network), and access with the write flag, which does not bind the stored value to its argument (C104_false). C104_partial gives the exact alternatives; C104_runs shows that every run with arbitrary values and rows of the right multiset can be brought about. Reads of the smallest address before its first write are not constrained."
  },
  {
   "property": "C105",
   "status": "partial",
   "theorems": [
    "EmpZk.C105_committed",
    "EmpZk.C105_extraction",
    "EmpZk.C105_path",
    "EmpZk.C105_batches",
    "EmpZk.C105_unit",
    "EmpZk.C105_public",
    "EmpZk.C105_partial"
   ],
   "note": "Commitment to values and path, and extraction along the path, are proved for all branching sessions (C105_committed, C105_extraction, C105_path, C105_unit); that the verifier's program is independent of private values is C105_public. The memory part is C105_partial: as in C104, an extra index bit that is set and a bad challenge remain as alternatives, since the code falsifies the full statement (C104_stale, C104_false)."
  },
  {
   "property": "C106",
   "status": "partial",
   "theorems": [
    "EmpZk.C106_partial",
    "EmpZk.C106_runs",
    "EmpZk.C106_stale",
    "EmpZk.C106_unchecked"
   ],
   "note": "C106_partial: an accepted session is a run of the program in which reads returned some values; if all bits of the checks are true, then at one of the checks an extra index bit is set or the challenge is bad, or all checked reads inside the contents are right and (last call a check) the program was run as written. Full statement false: C106_stale (extra index bit in no packed word), C106_unchecked (the destructor does not check)."
  },
  {
   "property": "C107",
   "status": "partial",
   "theorems": [
    "EmpZk.C107_partial",
    "EmpZk.C107_runs",
    "EmpZk.C107_stale",
    "EmpZk.C107_first"
   ],
   "note": "C107_partial: an accepted session is a run of the program in which the memory returned some words; if the check gave true, then the committed rows of some index are not consecutive, or the challenge is bad, or every read of a written address returned the latest value (and, if every address was written before it was read, the program was run as written). Full statement false: C107_stale (rows not grouped), C107_first (reads before any write)."
  },
  {
   "property": "C108",
   "status": "partial",
   "theorems": [
    "EmpZk.C108_wrong",
    "EmpZk.C108_attack",
    "EmpZk.C108_false",
    "EmpZk.C108_committed",
    "EmpZk.C108_partial"
   ],
   "note": "False with conversions: C108_wrong (every environment), C108_attack and C108_false - one prover program, independent of Delta, sends the opened sum plus p in arith2bool and is accepted under every schedule for every Delta up to p/2 with an output the program cannot have. Proved for programs without conversions (bits and field elements interleaved on one endpoint, any prover, any schedule): C108_committed (the messages determine one list of bits and one of field elements), C108_partial (extraction from six and five secrets, given good challenges, words below p and no collisions)."
  },
  {
   "property": "C109",
   "status": "proved",
   "theorems": [
    "EmpZk.C109_branching",
    "EmpZk.C109_branching_network",
    "EmpZk.C109_branching_memory",
    "EmpZk.C109_traffic",
    "EmpZk.C109_network",
    "EmpZk.C109_memory",
    "EmpZk.C109_readonly",
    "EmpZk.C109_wide",
    "EmpZk.C109_conversions",
    "EmpZk.C109_conversions_network"
   ],
   "note": "sizes and order of the prover's pieces and its ending are equal for any two witnesses/environments with the same public parameters, given the same answers; on the network the sizes of one run continue those of the other; memories: accesses inside the memory for both witnesses; also for programs of bits, field elements and conversions; also for programs that branch on revealed bits, for two witnesses that reveal the same bits"
  },
  {
   "property": "C110",
   "status": "proved",
   "theorems": [
    "EmpZk.C110_network",
    "EmpZk.C110_silent",
    "EmpZk.C110_branching",
    "EmpZk.C110_conversions"
   ],
   "note": "For any prover and schedule; until one of the verifiers stops at a failed check, and to the end for programs without checks that stop. External correlation generators are assumed to make calls that do not depend on the secrets."
  },
  {
   "property": "C111",
   "status": "partial",
   "theorems": [
    "EmpZk.C111_verifier",
    "EmpZk.C111_prover_partial",
    "EmpZk.C111_conversions",
    "EmpZk.C111_conversions_prover_partial",
    "EmpZk.C111_verifier_branching",
    "EmpZk.C111_prover_branching_partial",
    "EmpZk.C111_false",
    "EmpZk.C111_boolean_honest",
    "EmpZk.C111_boolean",
    "EmpZk.C111_verifier_statement",
    "EmpZk.C111_prover_statement_partial",
    "EmpZk.C111_memory",
    "EmpZk.C111_readonly",
    "EmpZk.C111_wide",
    "EmpZk.C111_conversions_statement",
    "EmpZk.C111_branching_statement"
   ],
   "note": "Proved for both parties of programs of bits, words, products and memories, straight-line (C111_verifier, C111_prover_partial) and branching on revealed bits (C111_verifier_branching, C111_prover_branching_partial), for both parties of sessions with boolean gates only (C111_boolean_honest, C111_boolean), for the verifier of conversions (C111_conversions), all against every program on the other endpoint, and for the prover of conversions against every program that sends points in range (C111_conversions_prover_partial). It is enough that the statement holds for one witness (C111_verifier_statement, C111_prover_statement_partial, C111_memory, C111_readonly, C111_wide, C111_conversions_statement, C111_boolean), for branching programs on every way (C111_branching_statement). False for the prover of conversions and other points (C111_false): the random point is used as an index unchecked."
  },
  {
   "property": "C112",
   "status": "proved",
   "theorems": [
    "EmpZk.C112_result",
    "EmpZk.C112_end",
    "EmpZk.C112_buffer",
    "EmpZk.C112_verdict",
    "EmpZk.C112_conversions"
   ],
   "note": "For arbitrary programs on both ends: two runs in which a party ends agree on how it ends, also with other contents of the uninitialised receive buffer (C112_result, C112_buffer); if one schedule comes to an end, all do, after the same number of steps and in the same configuration (C112_end); for the verifiers of mixed sessions and of conversions with any prover (C112_verdict, C112_conversions)."
  },
  {
   "property": "C113",
   "status": "proved",
   "theorems": [
    "EmpZk.C113_same_bytes",
    "EmpZk.C113_bytes",
    "EmpZk.C113_verdict",
    "EmpZk.C113_conversions",
    "EmpZk.C113_prover",
    "EmpZk.C113_bytes_back"
   ],
   "note": "For arbitrary programs on both ends and all schedules, in both directions (C113_same_bytes, C113_bytes, C113_prover, C113_bytes_back); for the verifiers of mixed sessions and of conversions in terms of outputs and verdict (C113_verdict, C113_conversions)."
  }
 ]
}