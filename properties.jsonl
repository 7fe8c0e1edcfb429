{"id": "C01", "title": "Scalar F_p arithmetic is exact and canonical", "statement": "For p = 2^61-1: mod(x) returns x mod p in [0,p) for every 64-bit x; add_mod(a,b) returns (a+b) mod p in [0,p) whenever a+b < 2p; mult_mod(a,b) returns a*b mod p in [0,p) for all canonical a,b; mul64 returns exactly the low and high words of the 128-bit product.", "quantifier": "all 64-bit words in the stated domains", "why_tests_cant": "2^64..2^128 operand pairs; the corner values (0, p, 2p-1, carries) are never hit by random tests", "anchors": ["emp-zk/emp-vole/utility.h: mul64, mod, add_mod, mult_mod"]}
{"id": "C02", "title": "Vectorised and batched F_p kernels agree lane by lane with the scalar ones", "statement": "vec_mod, vec_partial_mod, mult_mod(block,u64), mult_mod_bch2/bch4 (block and u64 forms, including the AVX512 form), add_mod(block,..) return in every lane what the scalar operation returns for that lane, and no lane influences another.", "quantifier": "all lane contents and multipliers in the canonical range", "why_tests_cant": "lane cross-talk and signed-compare boundary errors only show on particular bit patterns; the AVX512 path is not even compiled on most CI machines", "anchors": ["emp-zk/emp-vole/utility.h: vec_partial_mod, vec_mod, mult_mod(block,uint64_t), mult_mod_bch2, mult_mod_bch4, vec_partial_mod_bch4, add_mod(block,...)"]}
{"id": "C03", "title": "128-bit reduction mod(k,p) is exact on the products the code feeds it", "statement": "mod(k,pr) equals k mod p and is canonical for every product of two canonical elements, every shifted element x*2^i with i<=60 and every sum used in the code; outside k < p*(2^61+1)-ish range it is not canonical.", "quantifier": "all 128-bit k below the stated bound", "why_tests_cant": "128-bit input space", "anchors": ["emp-zk/emp-vole/utility.h: mod(T,T)", "emp-zk/emp-vole/cope.h: prm2pr"]}
{"id": "C04", "title": "Universal-hash coefficients are the powers of the seed and the inner product is exact", "statement": "uni_hash_coeff_gen(coeff,seed,n) yields coeff[i]=seed^(i+1) in F_p and vector_inn_prdt_sum_red(a,b,n) returns sum a[i]*b[i] mod p, for every n and all canonical inputs.", "quantifier": "all lengths n, all canonical vectors and seeds", "why_tests_cant": "unbounded length; a single wrong coefficient still passes every honest-run test", "anchors": ["emp-zk/emp-vole/utility.h: uni_hash_coeff_gen, vector_inn_prdt_sum_red"]}
{"id": "C05", "title": "Carry-less 128x128 multiplication recombines its four 64-bit partial products exactly", "statement": "For all 128-bit a,b, every lane of gfmul_1<N>, gfmul3, gfmul4, gfmul6 computes, before reduction, the two halves of the full 256-bit carry-less product of that lane's operands, independent of the other lanes and of aliasing between operand references and the result array.", "quantifier": "all 128-bit operands, all lanes", "why_tests_cant": "2^256 operand pairs", "anchors": ["emp-zk/extensions/ram-zk/gfmul.h: mul128_0, gfmul_1, mul128_3, mul128_4, mul128_6"]}
{"id": "C06", "title": "Every boolean circuit keeps prover and verifier labels correlated", "statement": "After any honest sequence of private inputs, public constants, XOR, NOT and AND gates over any wires, each wire's prover label M and verifier label K satisfy M = K xor x*Delta where x is the value the plain circuit gives to that wire, M's low bit is x and K's low bit is 0.", "quantifier": "all circuits (gate histories of any length), all inputs, all correlation randomness", "why_tests_cant": "property of every gate history and every value of the secret Delta", "anchors": ["emp-zk/emp-zk-bool/ostriple.h: authenticated_bits_input, auth_compute_and", "emp-zk/emp-zk-bool/zk_prover.h: ZKBoolCircExecPrv", "emp-zk/emp-zk-bool/zk_verifier.h: ZKBoolCircExecVer, set_ostriple"]}
{"id": "C07", "title": "An honest boolean proof reveals the circuit's values and is never flagged as cheating", "statement": "In every honest session, reveal(PUBLIC) returns on both sides the value of the plain circuit, and at finalisation the two MAC digests are computed over identical data, so no cheating is recorded by the output check.", "quantifier": "all circuits and all interleavings of reveals with other gates", "why_tests_cant": "history quantifier", "anchors": ["emp-zk/emp-zk-bool/ostriple.h: verify_output, ~OSTriple", "emp-zk/emp-zk-bool/triple_auth.h: prv_check, ver_check, finalize", "emp-zk/emp-zk-bool/zk_prover.h: reveal", "emp-zk/emp-zk-bool/zk_verifier.h: reveal"]}
{"id": "C08", "title": "The AND batch check accepts every honest batch", "statement": "For every batch of honestly computed AND gates, every seed, every thread count for which the split is defined, and every value of the masking correlations, the verifier's equation W = B* holds.", "quantifier": "all batches, seeds, Delta, masks, thread counts", "why_tests_cant": "quantifies over Delta, seed and batch contents", "anchors": ["emp-zk/emp-zk-bool/ostriple.h: andgate_correctness_check_manage, andgate_correctness_check"]}
{"id": "C09", "title": "A wrong AND gate inside the checked range is caught except for few (seed, Delta) pairs", "statement": "If some gate covered by the batch check carries an output different from the AND of its inputs, then whatever the prover answers (any function of the challenge), at most (n+2)*|F| of the |F|^2 (seed, Delta) pairs are accepted, n being the batch length.", "quantifier": "all deviating batches and all prover strategies", "why_tests_cant": "soundness is a statement about all adversaries and all challenges", "anchors": ["emp-zk/emp-zk-bool/ostriple.h: andgate_correctness_check_manage"]}
{"id": "C10", "title": "The AND batch check covers every AND gate", "statement": "Every AND gate executed before a check (or before finalisation) lies in the range of exactly one of the per-thread checks of that batch, for every batch size and thread count.", "quantifier": "all check_cnt >= 1 and threads >= 1", "why_tests_cant": "the tests use batch sizes and thread counts that divide evenly", "anchors": ["emp-zk/emp-zk-bool/ostriple.h: andgate_correctness_check_manage (task_base, leftover)", "emp-zk/emp-zk-arith/ostriple.h: andgate_correctness_check_manage", "emp-zk/extensions/ram-zk/ostriple.h: andgate_correctness_check_manage"]}
{"id": "C11", "title": "Opening a boolean wire to the wrong value requires knowing Delta", "statement": "For a wire with label K on the verifier side, the set of Delta for which a prover's claimed wrong bit together with any fixed claimed MAC is accepted has at most one element; a correct bit with the honest MAC is always accepted.", "quantifier": "all labels, all claimed bits and MACs", "why_tests_cant": "adversarial quantifier", "anchors": ["emp-zk/emp-zk-bool/triple_auth.h: ver_check", "emp-zk/emp-zk-bool/ostriple.h: verify_output"]}
{"id": "C12", "title": "finalize_zk_bool reports cheating exactly when some check of the session failed", "statement": "finalize_zk_bool returns true iff, since the last setup_zk_bool, an AND batch check, a polynomial batch check or the output digest comparison failed; nothing else sets or clears the flag.", "quantifier": "all session histories", "why_tests_cant": "history quantifier; tests only run honest sessions", "anchors": ["emp-zk/emp-zk-bool/cheat_record.h: CheatRecord", "emp-zk/emp-zk-bool/emp-zk-bool.h: setup_zk_bool, finalize_zk_bool"]}
{"id": "C13", "title": "AND-gate buffers never overflow and every gate is submitted to exactly one batch", "statement": "In any history of AND gates followed by finalisation, writes to the left/right/out buffers stay below CHECK_SZ, and the concatenation of the batches handed to the checker is exactly the sequence of gates executed (nothing dropped, nothing checked with another gate's output).", "quantifier": "all numbers of gates and all CHECK_SZ > 0", "why_tests_cant": "needs > 2^20 gates per batch; all boundary positions", "anchors": ["emp-zk/emp-zk-bool/ostriple.h: auth_compute_and, ~OSTriple", "emp-zk/emp-zk-arith/ostriple.h: auth_compute_mul_send, ~FpOSTriple"]}
{"id": "C14", "title": "BoolIO is a faithful FIFO for every interleaving of bit and byte traffic", "statement": "If sender and receiver perform mirrored sequences of send_bit/recv_bit, send_data/recv_data and flush, the receiver obtains exactly the sent bits and bytes in order, with no deadlock by length mismatch, whatever the buffer size.", "quantifier": "all mirrored operation sequences, all contents, all buffer sizes > 0", "why_tests_cant": "phase of the bit buffer relative to byte traffic has unboundedly many cases", "anchors": ["emp-zk/emp-zk-bool/bool_io.h: send_bit, recv_bit, flush, send_data_internal, recv_data_internal"]}
{"id": "C15", "title": "Both ends of BoolIO derive the same challenge hash", "statement": "After any mirrored sequence and a flush on both sides, get_hash_block returns the same value on both sides, and the hashed transcript contains every bit the prover has sent.", "quantifier": "all mirrored operation sequences", "why_tests_cant": "same", "anchors": ["emp-zk/emp-zk-bool/bool_io.h: get_hash_block, flush, send_bool_raw, recv_bool_raw"]}
{"id": "C16", "title": "Bool packing on the wire is lossless for every length", "statement": "send_bool_raw followed by recv_bool_raw of the same length transfers every boolean array unchanged, for every length including lengths not divisible by 8, using ceil-free layout length/8 packed bytes plus length%8 raw bytes.", "quantifier": "all lengths and contents", "why_tests_cant": "all lengths x all contents", "anchors": ["emp-zk/emp-zk-bool/bool_io.h: send_bool_raw, recv_bool_raw"]}
{"id": "C17", "title": "Every arithmetic circuit keeps IT-MACs valid and values correct", "statement": "After any honest sequence of IntFp inputs (< p), public constants, additions, constant multiplications, negations and multiplications, each wire satisfies mac = key + value*Delta mod p, value is the plain evaluation over F_p, and all stored words are canonical.", "quantifier": "all circuits, inputs < p, Delta, correlation randomness", "why_tests_cant": "history quantifier and secret Delta", "anchors": ["emp-zk/emp-zk-arith/ostriple.h: authenticated_val_input, auth_compute_mul_send, auth_compute_mul_recv", "emp-zk/emp-zk-arith/zk_fp_exec_prover.h", "emp-zk/emp-zk-arith/zk_fp_exec_verifier.h", "emp-zk/emp-zk-arith/int_fp.h"]}
{"id": "C18", "title": "The multiplication batch check accepts every honest batch", "statement": "For every batch of honest multiplications, every seed, mask and Delta, the equation checked by the verifier holds exactly on the 64-bit words it compares.", "quantifier": "all batches, seeds, masks, Delta", "why_tests_cant": "same", "anchors": ["emp-zk/emp-zk-arith/ostriple.h: andgate_correctness_check_manage, andgate_correctness_check"]}
{"id": "C19", "title": "A wrong product inside the checked range is caught except for few (seed, Delta) pairs", "statement": "If a checked multiplication gate's output value differs from the product, then for any prover answer strategy at most (n+4)*p of the p^2 (seed, Delta) pairs accept (per task of n gates), and at most (n+2)*p if the answer words are below p.", "quantifier": "all deviating batches and strategies", "why_tests_cant": "adversarial quantifier", "anchors": ["emp-zk/emp-zk-arith/ostriple.h: andgate_correctness_check_manage"]}
{"id": "C20", "title": "Arithmetic openings are binding", "statement": "For a wire with committed value v: reveal with a word v' not congruent to v, and any MAC, is accepted for at most one Delta; reveal_zero / batch_reveal_check_zero on a non-zero wire is accepted for at most one Delta and is always accepted on a zero wire.", "quantifier": "all wires, claimed values and MACs", "why_tests_cant": "adversarial quantifier", "anchors": ["emp-zk/emp-zk-arith/ostriple.h: reveal_recv, reveal_check_recv, reveal_check_zero", "emp-zk/emp-zk-arith/triple_auth.h: FpAuthHelper"]}
{"id": "C21", "title": "Values returned by an accepted reveal are canonical field elements", "statement": "If the output check passes, every word returned by IntFp::reveal on the verifier side is the canonical representative (< p) of the committed value.", "quantifier": "all provers (also malicious)", "why_tests_cant": "honest tests always send canonical words", "anchors": ["emp-zk/emp-zk-arith/ostriple.h: reveal_recv", "emp-zk/emp-zk-arith/int_fp.h: reveal"]}
{"id": "C22", "title": "Batch polynomial proofs over F_2 accept true statements", "statement": "zkp_poly_deg2, zkp_inner_prdt, both zkp_inner_prdt_eq and zkp_inner_prdt_multi: if the committed bits satisfy the stated polynomial identity, the batch check passes for every seed, mask and Delta.", "quantifier": "all lengths, bits, coefficients, labels, seeds", "why_tests_cant": "length and randomness quantifiers", "anchors": ["emp-zk/emp-zk-bool/polynomial.h: PolyProof"]}
{"id": "C23", "title": "Batch polynomial proofs over F_2 reject false statements", "statement": "If at least one queued statement is false, any prover strategy is accepted for at most (n+2)*|F| of the |F|^2 (seed, Delta) pairs.", "quantifier": "all queued batches with a false member, all strategies", "why_tests_cant": "adversarial quantifier", "anchors": ["emp-zk/emp-zk-bool/polynomial.h: batch_check"]}
{"id": "C24", "title": "Batch polynomial proofs over F_p are complete and sound", "statement": "Same as the two previous claims for FpPolyProof (zkp_poly_deg2, zkp_inner_prdt) over F_p, on the actual 64-bit words.", "quantifier": "all batches, coefficients, seeds, strategies", "why_tests_cant": "adversarial quantifier", "anchors": ["emp-zk/emp-zk-arith/polynomial.h: FpPolyProof"]}
{"id": "C25", "title": "No queued polynomial statement is lost and the statement buffers never overflow", "statement": "For any history of statements and destruction, each statement is in exactly one batch that is checked, in order, and num never exceeds buffer_sz at a write.", "quantifier": "all histories, all buffer sizes > 0", "why_tests_cant": "boundaries at 10^6 statements", "anchors": ["emp-zk/emp-zk-bool/polynomial.h", "emp-zk/emp-zk-arith/polynomial.h", "emp-zk/extensions/ram-zk/poly_prdt.h"]}
{"id": "C26", "title": "COPE extension gives a correct subfield-VOLE correlation", "statement": "For every Delta < p, every OT output and every input vector u, sender and receiver outputs satisfy M[i] = K[i] + u[i]*Delta mod p, for both the single and the batched extend.", "quantifier": "all Delta, u, PRG outputs, sizes", "why_tests_cant": "all Delta and lengths", "anchors": ["emp-zk/emp-vole/cope.h: extend, prm2pr, delta64_to_bool"]}
{"id": "C27", "title": "The base sVOLE consistency check is complete and sound", "statement": "With an honest receiver the check passes for every secret, challenge and randomness and the size shares are authenticated pairs. A receiver that uses one input per column in all 61 rows obtains a correct correlation whatever it answers. A receiver with two different row inputs in some column is accepted for at most size*p + 2^60*p of the p*p pairs (challenge, Delta), however it computes its answer. The check is not sound for a fixed Delta: a deviation in one row is accepted exactly if that bit of Delta is 0.", "quantifier": "all triples, seeds", "why_tests_cant": "adversarial quantifier", "anchors": ["emp-zk/emp-vole/base_svole.h: triple_gen_send, triple_gen_recv, sender_check, recver_check"]}
{"id": "C28", "title": "Precomputed OT delivers exactly the chosen message", "statement": "For any number of sessions run through OTPre in order, receiver session s obtains m_{b} for each of its choice bits b, for all sender messages, all correlation randomness.", "quantifier": "all messages, choices, session counts and lengths", "why_tests_cant": "all choice patterns", "anchors": ["emp-zk/emp-vole/preot.h: OTPre"]}
{"id": "C29", "title": "GGM reconstruction yields every leaf except the punctured one", "statement": "For every depth, seed and choice vector, the receiver's reconstructed tree agrees with the sender's tree on every leaf other than choice_pos, and choice_pos is the integer whose bits are the complements of the choice bits (most significant first).", "quantifier": "all depths, seeds, choice vectors", "why_tests_cant": "2^depth positions; unbounded depth", "anchors": ["emp-zk/emp-vole/spfss_sender.h: ggm_tree_gen", "emp-zk/emp-vole/spfss_recver.h: get_index, ggm_tree_reconstruction, layer_recover"]}
{"id": "C30", "title": "Single-point sVOLE outputs differ by beta*Delta exactly at the chosen position", "statement": "w[i] = v[i] for i != alpha and w[alpha] = v[alpha] + beta*Delta mod p for all trees and all (beta, key/mac) correlations; likewise over F_{2^k}.", "quantifier": "all trees, positions, correlations", "why_tests_cant": "same", "anchors": ["emp-zk/emp-vole/spfss_sender.h: compute", "emp-zk/emp-vole/spfss_recver.h: compute", "emp-zk/emp-vole-f2k/spfss_f2k_sender.h", "emp-zk/emp-vole-f2k/spfss_f2k_recver.h"]}
{"id": "C31", "title": "The MPFSS batch consistency check accepts honest parties", "statement": "For any number of trees, any positions, betas, chi-coefficients and mask correlation, the two hashed values are equal words, over F_p and over F_{2^k}.", "quantifier": "all tree counts, contents and seeds", "why_tests_cant": "quantifies over all randomness", "anchors": ["emp-zk/emp-vole/mpfss_reg.h: consistency_batch_check", "emp-zk/emp-vole-f2k/mpfss.h: consistency_batch_check"]}
{"id": "C32", "title": "MPFSS work splitting handles each tree exactly once", "statement": "For every tree count and thread count, the per-thread ranges partition the trees and each range uses its own channel.", "quantifier": "all tree_n, threads >= 1", "why_tests_cant": "only a few parameter sets are tested", "anchors": ["emp-zk/emp-vole/mpfss_reg.h: mpfss", "emp-zk/emp-vole-f2k/mpfss.h: mpfss"]}
{"id": "C33", "title": "LPN index derivation stays in range", "statement": "Every index produced by the mask-and-subtract derivation is < k, for every 32-bit random word and every k >= 1 (k below 2^30).", "quantifier": "all 32-bit words, all k", "why_tests_cant": "2^32 words x all k", "anchors": ["emp-zk/emp-vole/lpn.h: LpnFp ctor, __compute4, __compute1", "emp-zk/emp-vole-f2k/lpn_f2k.h"]}
{"id": "C34", "title": "LPN mixing preserves the VOLE correlation without word overflow", "statement": "If the k base correlations and the n sparse correlations satisfy mac = key + x*Delta, so do the n outputs, words remain canonical, and no intermediate 64-bit sum overflows.", "quantifier": "all inputs, index choices, thread counts", "why_tests_cant": "all randomness", "anchors": ["emp-zk/emp-vole/lpn.h: add1, add2, add1_single, add2_single, task, compute_send, compute_recv", "emp-zk/emp-vole-f2k/lpn_f2k.h"]}
{"id": "C35", "title": "LPN mixing touches every output position exactly once", "statement": "For every n and thread count every output index is mixed with d base correlations exactly once, and the result does not depend on the order in which the worker tasks run.", "quantifier": "all n, threads, schedules", "why_tests_cant": "the tested parameter sets divide evenly; schedules are not controlled by tests", "anchors": ["emp-zk/emp-vole/lpn.h: compute, task", "emp-zk/emp-vole-f2k/lpn_f2k.h: compute, task"]}
{"id": "C36", "title": "VoleTriple::extend is a prefix of one fixed correlation stream, however it is called", "statement": "For every sequence of extend(buf,num) calls, the concatenation of the delivered correlations equals the concatenation of the usable parts of successive batches: none repeated, none skipped, independent of how the requests are sized; sender and receiver calling with the same sizes stay aligned.", "quantifier": "all sequences of request sizes", "why_tests_cant": "state machine over unbounded call histories with 10^7-sized buffers", "anchors": ["emp-zk/emp-vole/vole_triple.h: extend(T*,int), extend(T*)"]}
{"id": "C37", "title": "VoleTriple::extend never writes outside the caller's buffer and never delivers reserved correlations", "statement": "For every request size and buffer state all writes to data lie in [0,num) and all reads of the internal buffer lie in its usable part; the last M correlations of each batch are only used to seed the next one.", "quantifier": "all request sizes and states", "why_tests_cant": "in-place rounds only trigger above 10^7 requests", "anchors": ["emp-zk/emp-vole/vole_triple.h: extend, extend_inplace"]}
{"id": "C38", "title": "In-place extension sizes are mutually consistent", "statement": "byte_memory_need_inplace(t) for t >= 1 returns a size accepted by extend_inplace that yields at least t correlations and less than t + ot_limit; the in-place rounds exactly fill it.", "quantifier": "all t >= 1 and parameter sets with 0 < M < n", "why_tests_cant": "arithmetic over all sizes", "anchors": ["emp-zk/emp-vole/vole_triple.h: byte_memory_need_inplace, extend_inplace", "emp-zk/emp-vole-f2k/svole.h: byte_memory_need_inplace, extend_inplace"]}
{"id": "C39", "title": "Each precomputed correlation is used for one purpose only", "statement": "Within one extension, the correlations used as tree masks, as consistency-check mask and as LPN secret are disjoint index ranges inside the M reserved ones.", "quantifier": "all parameter sets", "why_tests_cant": "not observable by functional tests", "anchors": ["emp-zk/emp-vole/vole_triple.h: extend", "emp-zk/emp-vole-f2k/svole.h: extend"]}
{"id": "C40", "title": "The positions of the sparse noise are determined by initialised choice bits", "statement": "Every choice bit read when selecting a noise position has been assigned before.", "quantifier": "all runs", "why_tests_cant": "reads of indeterminate values look fine under test", "anchors": ["emp-zk/emp-vole/spfss_recver.h: SpfssRecverFp ctor, get_index", "emp-zk/emp-vole/mpfss_reg.h: mpfss", "emp-zk/emp-vole/preot.h: choices_recver"]}
{"id": "C41", "title": "bool2arith and arith2bool preserve values", "statement": "For any committed value x < p, arith2bool gives the 62-bit boolean integer of x and bool2arith of a 62-bit boolean x < p gives the field element x, for every edaBit used for masking; the round trip is the identity.", "quantifier": "all x < p and all edaBits r < p", "why_tests_cant": "p^2 pairs; wrap boundaries x+r = p, 2^61", "anchors": ["emp-zk/edabit/edabits.h: bool2arith, arith2bool", "emp-zk/emp-zk-arith/conversion.h"]}
{"id": "C42", "title": "Bulk conversion converts every element exactly once with fresh edaBits", "statement": "For every length and every fill state of the edaBit buffers, the bulk conversions process each index exactly once, never use an edaBit twice and never read past the generated ones.", "quantifier": "all lengths and buffer states", "why_tests_cant": "regeneration occurs every 800000 conversions", "anchors": ["emp-zk/edabit/edabits.h: bool2arith(bulk), arith2bool(bulk), next_edabits"]}
{"id": "C43", "title": "edaBit generation never aborts on honest parties", "statement": "For all honestly sampled edaBits, the cut-and-choose and bucket checks pass.", "quantifier": "all sampled values < p", "why_tests_cant": "failure needs a+b = p exactly", "anchors": ["emp-zk/edabit/edabits.h: edabits_gen_backend", "emp-zk/edabit/auth_helper.h"]}
{"id": "C44", "title": "edaBit generation stays inside its buffers and never reuses an opened candidate", "statement": "For every public random point, all candidates opened, used for bucket checks and output are pairwise distinct indices within the allocated arrays.", "quantifier": "all random points", "why_tests_cant": "one bad point in a million", "anchors": ["emp-zk/edabit/edabits.h: random_point, fp_index, f2_index, edabits_gen_backend"]}
{"id": "C45", "title": "Honest ZK-RAM behaves like a memory and passes its own check", "statement": "For every sequence of reads, writes and accesses in which each address is written before it is read, each read returns the last value written to that address and the final check succeeds.", "quantifier": "all access sequences of any length, all address/step/value widths", "why_tests_cant": "history quantifier", "anchors": ["emp-zk/extensions/ram-zk/zk-mem.h: read, write, access, check"]}
{"id": "C46", "title": "A ZK-RAM whose check passes returned the last written value on every read", "statement": "For every (malicious) prover: if the ordering condition and the multiset equality hold, then every read returned the value of the latest preceding write to the same address.", "quantifier": "all access logs and all prover-supplied sorted lists", "why_tests_cant": "adversarial quantifier", "anchors": ["emp-zk/extensions/ram-zk/zk-mem.h: check"]}
{"id": "C47", "title": "The product test decides multiset equality up to few challenges", "statement": "Equal multisets always pass; for different multisets of size n at most n challenges r make the products equal.", "quantifier": "all multisets over the field, all r", "why_tests_cant": "adversarial quantifier", "anchors": ["emp-zk/extensions/ram-zk/zk-mem.h: inn_prdt, inn_prdt_bch2/3/4, check_set_euqality", "emp-zk/extensions/ram-zk/ro-zk-mem.h", "emp-zk/extensions/ram-zk/zk-mem-ext.h"]}
{"id": "C48", "title": "Multi-operand product gates are complete and sound", "statement": "polyPrdt3/4/5 with their batch check accept exactly when output = product (for honest messages), and a wrong product survives for at most (n + degree)*|F| of the (seed, Delta) pairs.", "quantifier": "all operands, MACs, Delta, seeds", "why_tests_cant": "degree-5 identity with 10 secrets; adversarial quantifier", "anchors": ["emp-zk/extensions/ram-zk/poly_prdt.h: polyPrdt3, polyPrdt4, polyPrdt5, batch_check", "emp-zk/extensions/ram-zk/ostriple.h: compute_mul3, compute_mul4, compute_mul5"]}
{"id": "C49", "title": "The batched product loops multiply every element exactly once for every list length", "statement": "inn_prdt, inn_prdt_bch2, inn_prdt_bch3, inn_prdt_bch4 return the product over all step elements of (x_i + r), reading only valid indices, for every number of accesses.", "quantifier": "all list lengths", "why_tests_cant": "unsigned underflow only for tiny lists", "anchors": ["emp-zk/extensions/ram-zk/zk-mem.h: inn_prdt_bch2, inn_prdt_bch3, inn_prdt_bch4"]}
{"id": "C50", "title": "A RAM object stays usable after a check or refresh", "statement": "After check() or refresh() every later read/write is well defined and refresh() preserves the memory contents.", "quantifier": "all histories", "why_tests_cant": "out-of-bounds accesses on a cleared vector usually go unnoticed", "anchors": ["emp-zk/extensions/ram-zk/zk-mem.h: check, refresh", "emp-zk/extensions/ram-zk/zk-mem-ext.h: check, refresh"]}
{"id": "C51", "title": "A read-only ZK memory whose check passes returned the initial contents", "statement": "For every (malicious) prover: if the ordering condition and multiset equality hold, every read at address a returned the value init stored at a; honest executions always pass, including after automatic re-checks.", "quantifier": "all read sequences, all prover-supplied sorted lists", "why_tests_cant": "adversarial quantifier", "anchors": ["emp-zk/extensions/ram-zk/ro-zk-mem.h: init, read, check"]}
{"id": "C52", "title": "Wide-value RAM rows are packed injectively and consistently on values and MACs", "statement": "For every value width the packed 128-bit words of a row determine (index, step, op, value words), the prover's packed values and the packed MACs satisfy the MAC relation word by word, and check() unpacks what pack() packed.", "quantifier": "all widths, indices, steps, values", "why_tests_cant": "all widths", "anchors": ["emp-zk/extensions/ram-zk/zk-mem-ext.h: pack, check, compress_rows"]}
{"id": "C53", "title": "A wide-value RAM whose check passes returned the last written value on every read", "statement": "As for ZK-RAM, for ZkRamExt.", "quantifier": "all access logs and prover-supplied sorted lists", "why_tests_cant": "adversarial quantifier", "anchors": ["emp-zk/extensions/ram-zk/zk-mem-ext.h: check"]}
{"id": "C54", "title": "Failed RAM checks are visible to the caller", "statement": "If the ordering condition or a multiplication check inside a RAM proof fails, the verifier aborts or finalize_zk_bool reports cheating.", "quantifier": "all runs", "why_tests_cant": "failure paths are not tested", "anchors": ["emp-zk/extensions/ram-zk/zk-mem.h: check", "emp-zk/extensions/ram-zk/ostriple.h: andgate_correctness_check_manage"]}
{"id": "C55", "title": "F_{2^k} multiplication keeps MACs valid, checks the right gate outputs and reads only initialised sums", "statement": "For every history of compute_mul calls the output label is a valid MAC on the product, the check pairs each gate's inputs with its own output MAC, and every partial sum read in the check has been written.", "quantifier": "all histories and thread counts", "why_tests_cant": "thread/batch boundary cases", "anchors": ["emp-zk/extensions/ram-zk/ostriple.h: compute_mul, compute_add_const, andgate_correctness_check_manage, andgate_correctness_check"]}
{"id": "C56", "title": "The in-circuit LowMC equals the clear LowMC", "statement": "For every key and message, the values carried by the Bit ciphertext computed by encrypt equal the ciphertext computed by the clear encrypt with the same key, and the substitution layer is a permutation equal to the published S-box table.", "quantifier": "all keys, messages, matrices, constants", "why_tests_cant": "2^192 inputs", "anchors": ["emp-zk/extensions/lowmc.h: ZKLowMC"]}
{"id": "C57", "title": "Boolean proof messages reveal nothing about the witness", "statement": "For every circuit and Delta, for any two witnesses giving the same revealed outputs there is a bijection of the prover's correlation randomness that makes the entire transcript seen by the verifier (correction bits and batch-check answers) identical.", "quantifier": "all circuits, witness pairs, randomness", "why_tests_cant": "zero-knowledge is a property of distributions", "anchors": ["emp-zk/emp-zk-bool/ostriple.h: authenticated_bits_input, auth_compute_and, andgate_correctness_check_manage"]}
{"id": "C58", "title": "Arithmetic proof messages reveal nothing about the witness", "statement": "Same for arithmetic circuits over F_p with inputs < p.", "quantifier": "all circuits, witness pairs, randomness", "why_tests_cant": "same", "anchors": ["emp-zk/emp-zk-arith/ostriple.h: authenticated_val_input, auth_compute_mul_send, andgate_correctness_check_manage"]}
{"id": "C59", "title": "RAM product-check messages reveal nothing about the witness", "statement": "Same for the messages of F2kPolyPrdt::batch_check and the set-equality check.", "quantifier": "all witnesses, randomness", "why_tests_cant": "same", "anchors": ["emp-zk/extensions/ram-zk/poly_prdt.h: batch_check", "emp-zk/extensions/ram-zk/zk-mem.h: check_set_euqality"]}
{"id": "C60", "title": "Sessions can be set up and finalised repeatedly", "statement": "Any sequence of setup/finalize pairs (boolean, arithmetic with or without conversion) frees each object exactly once and leaves no dangling global.", "quantifier": "all sequences of sessions", "why_tests_cant": "history quantifier", "anchors": ["emp-zk/emp-zk-arith/emp-zk-arith.h: setup_zk_arith, finalize_zk_arith", "emp-zk/emp-zk-bool/emp-zk-bool.h", "emp-zk/emp-zk-arith/conversion.h"]}
{"id": "C61", "title": "F2k product corrections are bound before the challenge", "statement": "In the products over F_{2^128} the correction messages are absorbed into the hash that defines the batch-check challenge, so that a prover who sends a wrong correction for some product is caught with overwhelming probability.", "quantifier": "all provers, all batches", "why_tests_cant": "adaptive adversary quantifier", "anchors": ["emp-zk/extensions/ram-zk/ostriple.h: compute_mul, andgate_correctness_check", "emp-zk/emp-zk-bool/bool_io.h: send_data_internal"]}
{"id": "C62", "title": "An accepted boolean proof determines a satisfying witness", "statement": "If a boolean session with fixed messages ends without cheat record for at least three verifier keys Delta, with challenges outside the small bad set and no hash collision, then there are input bits on which the plain circuit produces exactly the outputs revealed to the verifier and satisfies all polynomial statements.", "quantifier": "all circuits, all (malicious) message sequences", "why_tests_cant": "adversary quantifier", "anchors": ["emp-zk/emp-zk-bool/ostriple.h", "emp-zk/emp-zk-bool/polynomial.h", "emp-zk/emp-zk-bool/triple_auth.h"]}
{"id": "C63", "title": "Correction words of a malicious arithmetic prover act as their residue modulo p", "statement": "For every 64-bit correction word sent for an input or multiplication, the verifier's key afterwards is, for every Delta, the key of one fixed value (u minus the residue of the word), so that the word commits the prover and no later check depends on Delta in another way.", "quantifier": "all 64-bit words, all correlations, all Delta", "why_tests_cant": "adversarial words, secret Delta", "anchors": ["emp-zk/emp-zk-arith/ostriple.h: authenticated_val_input (verifier), auth_compute_mul_recv", "emp-zk/emp-vole/utility.h: mult_mod"]}
{"id": "C64", "title": "An accepted arithmetic proof determines a satisfying witness", "statement": "If an arithmetic session with fixed messages is accepted for at least five verifier keys Delta, with challenges outside the small bad set, all gates covered by the check and no hash collision, then there are inputs below p on which the plain program produces exactly the revealed outputs and satisfies every expected value, zero opening and polynomial statement.", "quantifier": "all programs, all message sequences with canonical correction and reveal words, all check answers", "why_tests_cant": "adversary quantifier", "anchors": ["emp-zk/emp-zk-arith/ostriple.h", "emp-zk/emp-zk-arith/polynomial.h", "emp-zk/emp-zk-arith/triple_auth.h"]}
{"id": "C65", "title": "Every arithmetic multiplication and statement is put under exactly one check, in order", "statement": "For every program and every prover, when the verifier's session ends each multiplication and each polynomial statement has been checked in exactly one batch, in program order, on the wires of the program; buffers never exceed their size.", "quantifier": "all programs, all messages, all buffer sizes", "why_tests_cant": "boundary cases of buffers", "anchors": ["emp-zk/emp-zk-arith/ostriple.h: auth_compute_mul_recv, andgate_correctness_check_manage, ~FpOSTriple", "emp-zk/emp-zk-arith/polynomial.h: zkp_poly_deg2, zkp_inner_prdt, ~FpPolyProof"]}
{"id": "C66", "title": "One VOLE extension, and any sequence of them, deliver valid correlations", "statement": "If the reserved correlations are valid then after one extension both parties' checks agree and they hold n valid correlations; by induction every correlation delivered by any sequence of requests after setup satisfies MAC = key + value * Delta. Holds for the F_p and the F_{2^128} version.", "quantifier": "all parameters, seeds, noise positions, challenges, thread counts, request sequences", "why_tests_cant": "composition over unboundedly many rounds", "anchors": ["emp-zk/emp-vole/vole_triple.h: extend_send, extend_recv, setup", "emp-zk/emp-vole-f2k/svole.h: extend_send, extend_recv, extend, setup, extend_inplace"]}
{"id": "C67", "title": "Base correlations over F_{2^128} are valid and carry the OT choice bits", "statement": "Packing 128 random correlated OT blocks gives value, MAC and key with MAC = key + value * Delta, where bit i of the value is the choice bit of OT i.", "quantifier": "all OT outputs, all Delta", "why_tests_cant": "2^128 values", "anchors": ["emp-zk/emp-vole-f2k/base_svole.h: extend"]}
{"id": "C68", "title": "A cheating prover cannot get a wrong edaBit through generation", "statement": "If some output edaBit (boolean integer, field element) is inconsistent, the verifier accepts for at most a negligible fraction of its random points, whatever the prover enters; words opened are the committed ones except for one Delta.", "quantifier": "all candidates a prover may enter, all random points, all Delta", "why_tests_cant": "adversarial inputs chosen against the index arithmetic", "anchors": ["emp-zk/edabit/edabits.h: edabits_gen_backend, f2_index, fp_index, random_point", "emp-zk/edabit/auth_helper.h: open_check_send, open_check_recv"]}
{"id": "C69", "title": "Conversions reveal nothing about the converted value", "statement": "The word opened in a conversion is a bijection of the one-time mask, for every value, so it is uniform and independent of the value; everything else the verifier hashes is computed from it and its keys.", "quantifier": "all values, all masks", "why_tests_cant": "distribution statement", "anchors": ["emp-zk/edabit/edabits.h: bool2arith, arith2bool"]}
{"id": "C70", "title": "Honest runs of the RAM with cells of several words", "statement": "For every sequence of reads and writes (at least three, at most 2^(step width - 1)) in which no address is read before it is written, all calls are well defined, every read returns the words of the latest write, and the check passes. Reading a cell never written, and any check with cells of at most 64 bits, are undefined.", "quantifier": "all call sequences, all widths", "why_tests_cant": "unbounded sequences; undefined behaviour is not observable", "anchors": ["emp-zk/extensions/ram-zk/zk-mem-ext.h: read, write, check, pack"]}
{"id": "C71", "title": "The verdict of a session covers everything recorded in it", "statement": "The value returned by finalize_zk_bool says whether a failed check was recorded since the matching setup_zk_bool, and every failed check that is recorded, boolean or arithmetic, shows in the verdict of some session.", "quantifier": "all orders in which sessions are opened, used and closed, all sets of failed checks", "why_tests_cant": "unboundedly many orders; failing checks need a cheating peer", "anchors": ["emp-zk/emp-zk-bool/emp-zk-bool.h: setup_zk_bool, finalize_zk_bool, CheatRecord", "emp-zk/emp-zk-arith/emp-zk-arith.h: finalize_zk_arith", "emp-zk/emp-zk-bool/cheat_record.h"]}
{"id": "C72", "title": "LPN entries are selected by independent random words", "statement": "In one expansion no 32-bit word of the public generator's output is used twice, for two output positions or for two entries of one position, and all words read lie in the blocks that were generated.", "quantifier": "all output lengths, all thread counts, both fields", "why_tests_cant": "reuse of a word changes the code's rate, not any observable value: both parties still agree", "anchors": ["emp-zk/emp-vole/lpn.h: __compute4, __compute1, add1, add2, task, compute", "emp-zk/emp-vole-f2k/lpn_f2k.h: __compute4, __compute1, task, compute"]}
{"id": "C73", "title": "The challenge of an AND-gate check binds the prover to every correction of the batch", "statement": "The coefficients of a batch check of AND gates are derived from a digest that contains every correction bit of the batch: two provers that make the same calls and reach the same digest sent the same corrections. So a prover cannot know the coefficients before it has committed to all outputs of the batch.", "quantifier": "all programs, also those that use the RAM objects; all buffer contents and padding, all positions of flushes and digests", "why_tests_cant": "needs a prover that chooses outputs against the coefficients; honest runs never show it", "anchors": ["emp-zk/emp-zk-bool/ostriple.h: andgate_correctness_check_manage", "emp-zk/emp-zk-bool/bool_io.h: get_hash_block", "emp-zk/extensions/ram-zk/ostriple.h: F2kOSTriple, ~F2kOSTriple", "emp-zk/emp-vole-f2k/spfss_f2k_sender.h: consistency_check_msg_gen"]}
{"id": "C74", "title": "Floats are converted to the field element of the scaled integer", "statement": "FloatToInt62(f, s) is the field element of f * 2^s rounded towards zero, for positive and negative floats whose scaled magnitude is below 2^60.", "quantifier": "all floats, all scales", "why_tests_cant": "2^32 floats times all scales; a deviation by one unit is easily taken for rounding", "anchors": ["emp-zk/extensions/floats.h: FloatToInt62"]}
{"id": "C75", "title": "Field elements are converted to the nearest smaller float, and back", "statement": "Int62ToFloat(x, s) is the signed number x stands for, divided by 2^s and rounded towards zero to 24 binary digits, for every field element, zero included; it is exact below 2^24; and a float that is an integer after scaling survives the conversion to a field element and back.", "quantifier": "all field elements, all scales, all floats", "why_tests_cant": "2^61 elements times all scales", "anchors": ["emp-zk/extensions/floats.h: Int62ToFloat, FloatToInt62"]}
{"id": "C76", "title": "A boolean proof over the network completes under every schedule", "statement": "When both parties run the same well-formed program over the channel, their calls on the two endpoints mirror each other; whatever the relative speed of the parties there is no deadlock, no read outside a buffer, and the run can be carried to its end; then the verifier has the outputs of the program, has received exactly what the prover sent, and reports no cheating if the claims are true.", "quantifier": "all programs, all buffer sizes, all interleavings, all buffer contents and padding", "why_tests_cant": "unboundedly many interleavings and program shapes; a deadlock shows up only for particular fill levels of a buffer", "anchors": ["emp-zk/emp-zk-bool/ostriple.h: authenticated_bits_input, auth_compute_and, andgate_correctness_check_manage, verify_output", "emp-zk/emp-zk-bool/polynomial.h: batch_check", "emp-zk/emp-zk-bool/triple_auth.h", "emp-zk/emp-zk-bool/bool_io.h"]}
{"id": "C77", "title": "Soundness of a boolean proof against a prover that sends arbitrary bytes", "statement": "Whatever bytes arrive at the verifier and whenever they arrive, its endpoint performs no undefined operation; the verifier finishes for exactly the programs for which it finishes with an honest prover, after exactly the calls of the program, having used everything it received. If the verifier accepts the same bytes for three values of its secret, then, bad challenges and hash collisions excepted, there are inputs on which the program has the outputs the verifier has seen and all claims are true. Two provers that lead the verifier to the same digest sent the same bits since the digest before.", "quantifier": "all byte streams, all schedules, all programs, all uninitialised buffer contents", "why_tests_cant": "a malicious peer can send any bytes; unit tests run the library's own prover", "anchors": ["emp-zk/emp-zk-bool/bool_io.h: recv_bit, recv_data, get_hash_block", "emp-zk/emp-zk-bool/ostriple.h", "emp-zk/emp-zk-bool/polynomial.h: batch_check", "emp-zk/emp-zk-bool/triple_auth.h: check"]}
{"id": "C78", "title": "Setting up correlations tells the prover nothing about the verifier's secret", "statement": "Whatever the prover sends during an extension of the correlations, the verifier's reply in the consistency check contains nothing about its secret Delta that the prover could not compute itself; or the verifier notices the deviation.", "quantifier": "all trees, all correlations, all words a prover may send, both fields", "why_tests_cant": "needs a prover that deviates in a single word; the honest prover's run is unaffected", "anchors": ["emp-zk/emp-vole/mpfss_reg.h: consistency_batch_check", "emp-zk/emp-vole-f2k/mpfss.h: consistency_batch_check"]}
{"id": "C79", "title": "Arithmetic values given as any 64-bit word count as their residue modulo p", "statement": "IntFp takes inputs, public constants, factors and expected values as uint64_t. For every word, also p and above, an honest session treats it as its residue modulo p: the proof of a true statement is accepted and the values revealed are right modulo p.", "quantifier": "all 64-bit words, all masks, all Delta", "why_tests_cant": "Tests draw values below p (or small ones); the failure depends on the random mask and on Delta.", "anchors": ["emp-zk/emp-zk-arith/int_fp.h:19-62", "emp-zk/emp-zk-arith/ostriple.h:69-90", "emp-zk/emp-zk-arith/ostriple.h:322-334", "emp-zk/emp-zk-arith/ostriple.h:436-465", "emp-zk/emp-zk-arith/zk_fp_exec_verifier.h:60-68"]}
{"id": "C80", "title": "Linear operations and triple checks on authenticated field elements are consistent between the parties", "statement": "Sums, differences, sums with a public constant and public multiples computed by prover and verifier on their shares stay authenticated under the same Delta. The check value of a multiplication against a correct triple authenticates x*y - z: opening it to zero passes when z = x*y, and fails otherwise for every Delta but 0. The debug checks of MACs and products pass exactly when the relations they test hold.", "quantifier": "all field elements, MACs and Delta; lists of any length", "why_tests_cant": "The functions have no caller in the repository and no test; the sign conventions differ between the two parties.", "anchors": ["emp-zk/emp-zk-arith/ostriple.h:368-520"]}
{"id": "C81", "title": "An accepted conversion from arithmetic to boolean has the value of its input", "statement": "Given correct edaBits: whatever word the prover sends for the masked value and whatever it hashes, if the verifier accepts, then the Integer obtained by arith2bool has the value of the field element converted, except for a bounded number of values of Delta.", "quantifier": "all inputs, masks, MACs, all words a prover may send, all Delta", "why_tests_cant": "Needs a prover that sends a word of p or more; the library's own prover always sends a reduced one.", "anchors": ["emp-zk/edabit/edabits.h:221-292", "emp-zk/edabit/auth_helper.h:26-47"]}
{"id": "C82", "title": "The field element obtained by bool2arith is determined by the Integer converted", "statement": "bool2arith(x) depends only on the value of the 62-bit Integer x, not on the random edaBit used: it is x modulo p for the unsigned reading (or, for a user who converts negative numbers, the residue of the signed one), with a valid MAC.", "quantifier": "all 62-bit integers, all masks, all MACs and Delta", "why_tests_cant": "For a given integer the wrong result appears only for some of 2^61 random masks.", "anchors": ["emp-zk/edabit/edabits.h:151-219", "emp-zk/emp-zk-arith/conversion.h:7-15"]}
{"id": "C83", "title": "An arithmetic proof over the network completes under every schedule", "statement": "When both parties run the same well-formed program over the channel, whatever the relative speed of the parties: no deadlock, the same number of steps in every order, both return with no byte left over, both hold the values of the program, and the verifier reports nothing if the claims are true.", "quantifier": "all programs, all buffer sizes, all interleavings, all VOLE outputs, all seeds", "why_tests_cant": "unboundedly many interleavings; a deadlock or a shifted message shows only at particular fill levels of the two check buffers", "anchors": ["emp-zk/emp-zk-arith/ostriple.h:31-354", "emp-zk/emp-zk-arith/polynomial.h:33-158", "emp-zk/emp-zk-arith/triple_auth.h:21-38", "emp-zk/emp-zk-arith/emp-zk-arith.h:46-51"]}
{"id": "C84", "title": "Soundness of an arithmetic proof against an arbitrary prover process", "statement": "The verifier of an arithmetic session is connected to any program at all that sends and receives bytes, and may look at what the verifier sends. What the verifier returns does not depend on timing. For all values of Delta for which it returns it has processed the same messages, so the prover is committed. If such a program, whose words are below p, is accepted for five values of Delta, then, bad challenges and hash collisions excepted, there are inputs on which all claims of the program are true and the outputs are the values the verifier got.", "quantifier": "all prover processes, all schedules, all byte streams, all programs", "why_tests_cant": "a malicious peer can run any program; unit tests run the library's own prover", "anchors": ["emp-zk/emp-zk-arith/ostriple.h:31-354", "emp-zk/emp-zk-arith/polynomial.h:33-158", "emp-zk/emp-zk-arith/triple_auth.h:21-38"]}
{"id": "C85", "title": "Error of a whole arithmetic proof", "statement": "Whatever strategy a prover follows, choosing each message from everything it has seen so far: over the verifier's random choices (the seeds of all checks and Delta), the chance that the verifier accepts although no inputs make the program's claims true with the values it returned is at most (number of multiplications + number of polynomial statements + 4) / p, collisions of the hash function excepted.", "quantifier": "all programs, all adaptive strategies with words below p, all buffer sizes, any number of checks; the count is over all seeds and all Delta", "why_tests_cant": "a probability over 2^61-sized choices, for every strategy; tests run the honest prover", "anchors": ["emp-zk/emp-zk-arith/ostriple.h:31-354", "emp-zk/emp-zk-arith/polynomial.h:33-158", "emp-zk/emp-zk-arith/triple_auth.h:21-38"]}
{"id": "C86", "title": "Batched calls of the arithmetic API are the single calls", "statement": "batch_feed, batch_reveal, batch_reveal_check, batch_reveal_check_zero on arrays of any length, mixed with single calls, give the same wires, values, comparisons and verdicts as the single calls one after the other, for both parties, honest or not; over the network a program with batched calls completes under every schedule, and a prover process against it is committed as in the case of single calls. negate() negates.", "quantifier": "all programs, all array lengths, all messages, all schedules, all prover processes", "why_tests_cant": "array lengths, positions of a wrong element and interleavings are unbounded; the tests use batches of one size with an honest prover", "anchors": ["emp-zk/emp-zk-arith/int_fp.h:60-83", "emp-zk/emp-zk-arith/ostriple.h:79-117", "emp-zk/emp-zk-arith/ostriple.h:294-335"]}
{"id": "C87", "title": "Error of a whole arithmetic proof over the network, against any prover process", "statement": "The verifier draws a 128-bit block for every multiplication check, a 64-bit word for every check of polynomial statements and a 64-bit word for Delta, and runs over the network against any program at all, under any schedule. The fraction of its random choices for which it accepts although no inputs make the claims of the program true with the values it returned is at most m*E/2^128 + (9n+36)/2^64, for m multiplications and n statements, where E bounds how many blocks (per gate) expand to coefficients that cancel an error; words below p, collisions of the hash function excepted. With one thread E is the number of blocks that expand to the same first coefficient.", "quantifier": "all prover processes, all schedules, all programs, all buffer sizes, any number of checks; the count is over all blocks and words the verifier can draw", "why_tests_cant": "a probability over 2^128-sized choices for every program of the peer and every interleaving", "anchors": ["emp-zk/emp-zk-arith/ostriple.h:31-354", "emp-zk/emp-zk-arith/polynomial.h:33-158", "emp-zk/emp-zk-arith/triple_auth.h:21-38", "emp-zk/emp-vole/utility.h:184-186"]}
{"id": "C88", "title": "The VOLE preprocessing completes over the network with any number of threads", "statement": "Two honest parties that run the preprocessing of the arithmetic correlations over the network - base correlations with their check, the two extensions of the setup, then any number of main extensions, each fed by correlations of the one before, with several threads that each use a channel of their own - always complete: they never wait for each other for ever, perform no undefined operation, no check fails, nothing is left on any channel, and every batch both obtain consists of n valid correlations under the secret. The result does not depend on how the threads are scheduled.", "quantifier": "for every secret below p, all tree seeds, noise positions, OT results and PRG outputs, every number of threads, every chain of extension sizes that fit, and every interleaving of all threads of both parties", "why_tests_cant": "the number of interleavings of the threads of two parties is exponential; a test sees one of them, for one size", "anchors": ["emp-zk/emp-vole/vole_triple.h:100-213", "emp-zk/emp-vole/mpfss_reg.h:72-240", "emp-zk/emp-vole/preot.h:46-98", "emp-zk/emp-vole/base_svole.h:35-96", "emp-zk/emp-vole/cope.h:91-161"]}
{"id": "C89", "title": "A whole arithmetic proof from the base OTs to the verdict, with any number of threads", "statement": "Two honest parties that begin with nothing but oblivious transfers and the verifier's secret run the whole arithmetic proof over the network: preprocessing, constructor, any well-formed program of the arithmetic API, final checks. Correlations are produced by the VOLE protocol itself, over all channels, whenever the stock is exhausted in the middle of the program. Whatever the randomness, the number of threads and the interleaving of all threads of both parties: nobody waits for ever, no undefined operation is performed, no check of the preprocessing fails, both parties return with nothing left on any channel, both hold the values of the plain program, and the verifier accepts if the claims of the program are true.", "quantifier": "for every secret below p, all randomness of all extensions, every number of threads, every well-formed program of any length, every interleaving of all threads of both parties", "why_tests_cant": "the tests run a handful of fixed programs, rarely long enough to exhaust the 10 million correlations of one extension, under the one interleaving the scheduler happens to pick", "anchors": ["emp-zk/emp-zk-arith/emp-zk-arith.h:11-51", "emp-zk/emp-zk-arith/ostriple.h:28-354", "emp-zk/emp-zk-arith/polynomial.h:33-158", "emp-zk/emp-vole/vole_triple.h:100-255", "emp-zk/emp-vole/mpfss_reg.h:72-240"]}
{"id": "C90", "title": "An arithmetic proof tells a verifier that deviates from the protocol nothing", "statement": "The prover runs any program of the arithmetic API over the network, against any program at all in the place of the verifier, which has any Delta and any keys for the correlations. If two witnesses make all claims of the program true and lead to the same opened values, then for every conclusion the peer may reach the number of the prover's random choices for which it reaches it is the same for both witnesses - whatever it sends, in whatever order, under every schedule, any number of checks and batches.", "quantifier": "all peers (adaptive, not only honest verifiers), all programs, all pairs of witnesses, all Delta and keys, all schedules", "why_tests_cant": "a statement about all programs of the peer and equality of counts over p^n random choices", "anchors": ["emp-zk/emp-zk-arith/polynomial.h:42-81", "emp-zk/emp-zk-arith/ostriple.h:69-241", "emp-zk/emp-zk-arith/ostriple.h:294-354", "emp-zk/emp-zk-arith/triple_auth.h:21-38"]}
{"id": "C91", "title": "A boolean proof tells a verifier that deviates from the protocol nothing", "statement": "The prover runs any program of bits over the network - inputs, AND gates, polynomial statements, openings, final checks -, against any program at all in the place of the verifier, which knows Delta and all keys of the correlations. If two witnesses make all claims of the program true and lead to the same opened values, then for every conclusion the peer may reach, the number of the prover's correlation bits for which it reaches it is the same for both witnesses - whatever seeds it sends, in whatever order, under every schedule, for any size of the send buffer and of the batches.", "quantifier": "all peers (adaptive, not only honest verifiers), all programs, all pairs of witnesses, all Delta and keys, all buffer sizes, all hash and seed functions, all schedules", "why_tests_cant": "a statement about all programs of the peer and equality of counts over 2^n random choices", "anchors": ["emp-zk/emp-zk-bool/ostriple.h:33-211", "emp-zk/emp-zk-bool/ostriple.h:261-290", "emp-zk/emp-zk-bool/polynomial.h:42-97", "emp-zk/emp-zk-bool/triple_auth.h:33-43", "emp-zk/emp-zk-bool/bool_io.h:26-74"]}
{"id": "C92", "title": "The challenge of a check depends on everything that enters the check", "statement": "In a boolean proof with any number of batches of AND gates, the challenge with which a batch is checked depends on all bits the prover has sent so far that enter the batch, in particular on its inputs, so that the prover cannot fix a batch first and choose its inputs afterwards. (False: a digest covers the bits since the previous check only. Inputs given before the first check can be chosen after the second batch has been fixed; with more than 128 of them the verifier accepts impossible outputs for every Delta.)", "quantifier": "all programs, all prover messages, all Delta, all hash functions and generators, all interleavings", "why_tests_cant": "a test runs an honest prover; it never sees a prover that chooses its inputs with knowledge of a challenge", "anchors": ["emp-zk/emp-zk-bool/ostriple.h:116-151", "emp-zk/emp-zk-bool/bool_io.h:26-62"]}
{"id": "C93", "title": "Error of a boolean proof with one batch against a prover that computes challenges in advance", "statement": "A program of bits whose AND gates fit into one batch, without polynomial statements. The challenge of the check is a hash of the bytes the prover has sent, so a prover can compute the challenges of as many strings as it likes before it sends any byte. Let the seeds derived from a string be a random function of it. Whatever a prover does with the answers to Q such evaluations, the bytes it then sends make the verifier accept outputs that no inputs produce in at most the fraction ((Q+1)*n + 4)/2^128 of all cases (random function and Delta), n being the number of AND gates; collisions of the hash of the opened values excepted. (With several batches there is no such bound, see the property before.)", "quantifier": "all programs, all buffer sizes and junk in buffers, all adaptive evaluation strategies with any number of evaluations, all byte strings sent; the count is over all functions and all Delta", "why_tests_cant": "a probability over all functions on byte strings and 2^127 values of Delta, for every strategy", "anchors": ["emp-zk/emp-zk-bool/ostriple.h:116-211", "emp-zk/emp-zk-bool/bool_io.h:26-74"]}
{"id": "C94", "title": "The challenge of a memory check depends on every row that is compared", "statement": "A memory is checked by comparing two lists of rows, at a point r computed by hashing what the prover has sent. The prover is committed to every row of both lists before it can know r, so that for all but a fraction (Q+1)*n/2^128 of the functions in the place of the hash a prover that evaluates the function Q times ends up with equal lists or a mismatch (n rows in each list). (False: the hash covers the bits since the last check of a batch of AND gates only. When more AND gates than fit into a batch are computed between the rows and r - as the comparisons of neighbouring rows do in a memory with enough accesses - the prover knows r before it chooses the rows, and can commit to different lists with the same product.)", "quantifier": "all programs before the check, all rows, all byte strings sent, all adaptive evaluation strategies; the negation: all hash functions, batch sizes, thread counts, buffer sizes, interleavings and Delta", "why_tests_cant": "a test runs an honest prover; it never sees a prover that chooses its rows with knowledge of the challenge", "anchors": ["emp-zk/extensions/ram-zk/zk-mem.h:128-183", "emp-zk/extensions/ram-zk/zk-mem.h:312-316", "emp-zk/extensions/ram-zk/ro-zk-mem.h:208-210", "emp-zk/emp-zk-bool/zk_bool_circuit_exec.h:22-26", "emp-zk/emp-zk-bool/bool_io.h:39-43"]}
{"id": "C95", "title": "The consistency check of an extension detects a sender of inconsistent trees", "statement": "In an extension of correlations the party with Delta sends GGM trees, and a check is made that they are consistent. If the party that receives the trees accepts, the correlations it obtains are valid, whatever the sender sent and whatever the receiver's choices were, except for a fraction of about 2^levels/|F| of the seeds of the check; a sender of other trees has to guess choices of the receiver. (Over F_p this holds: the receiver draws the seed after the trees. Over F_{2^128} it is false: the seed is a digest that covers bits only, not the messages of the trees, so the sender knows it and can send trees that are accepted for all choices and give wrong MACs around the noise position of every tree; the positions of the wrong MACs reveal all but the lowest bit of every position.)", "quantifier": "all tree sizes and counts, all Delta, correlations, seeds of trees, junk memory, digests and choices of the receiver; over F_p all sets of trees that share a seed and all leaves; digests: all calls before, interleavings and buffer sizes", "why_tests_cant": "a test runs an honest sender; the deviation is a different program, and the error bound is a probability over 2^61 or 2^128 seeds", "anchors": ["emp-zk/emp-vole-f2k/spfss_f2k_recver.h:33-100", "emp-zk/emp-vole-f2k/spfss_f2k_sender.h:60-75", "emp-zk/emp-vole-f2k/mpfss.h:100-210", "emp-zk/emp-vole/mpfss_reg.h:136-232"]}
{"id": "C96", "title": "A proof that mixes boolean gates with memory checks runs to its end over the network", "statement": "The two parties run a program of bits and, in between, products of committed blocks over F_{2^128} and the set-equality checks of the memories, all on one channel: inputs, AND gates, polynomial statements, packed words, challenges, products of two and of three to five blocks, comparisons, the destructor of the memory backend, openings and the final checks. If the program is well-formed and its claims and comparisons hold for every challenge - as the comparison of a list of words with the same words in another order does -, then under every interleaving there is no undefined behaviour, no deadlock, nobody stops, every schedule can be carried on to the end, and at the end both parties have the values of the plain computation, no check has failed, the verifier holds the keys of the prover's blocks, and the channel is empty. Required: the last batch of AND gates and the last batch of products of two blocks are empty or have at least as many elements as there are threads; a check of n words adds 2*((n-1) mod 4) products of two blocks. Lists that differ as multisets make the comparison fail for all but at most n challenges.", "quantifier": "all programs, all values, all interleavings, all batch, buffer and stock sizes, all thread counts, all hash functions, all calls of the correlation generators", "why_tests_cant": "the order of bytes and bits on the channel depends on when batches fill up in three different buffers; tests see a few sizes and schedules", "anchors": ["emp-zk/extensions/ram-zk/ostriple.h:24-193", "emp-zk/extensions/ram-zk/ostriple.h:225-330", "emp-zk/extensions/ram-zk/poly_prdt.h:60-240", "emp-zk/extensions/ram-zk/zk-mem.h:276-331", "emp-zk/emp-zk-bool/ostriple.h:95-211", "emp-zk/emp-zk-bool/bool_io.h:26-74"]}
{"id": "C97", "title": "A program with a memory computes over the network what it says", "statement": "The two parties run a program of bits that creates a memory, reads and writes it at secret addresses (read, write and access), and checks it. If it makes at least three and at most 2^(step_sz-1) accesses, its addresses and values fit the widths, and it reads no address before writing it, then every call is well defined, under every interleaving there is no deadlock and nobody stops, every read returns the latest value written to its address, and at the end both parties have the outputs of the plain program, the check has revealed true, no check has failed and the channel is empty. If the program reads an address (other than the least one) that was never accessed before, the check reveals false and both parties carry on to the same end: nothing else happens.", "quantifier": "all programs, all widths with index_sz + step_sz + 1 <= 64 and val_sz <= 64, all values and addresses, all interleavings, all batch, buffer and stock sizes, all thread counts, all hash functions, all comparison circuits that compute equality and the sign of the difference", "why_tests_cant": "the inputs of the check depend on the secret values and are sorted by the prover; the wires, gates, packed words and products that arise differ for every program and schedule", "anchors": ["emp-zk/extensions/ram-zk/zk-mem.h:19-113", "emp-zk/extensions/ram-zk/zk-mem.h:128-183", "emp-zk/extensions/ram-zk/zk-mem.h:276-331", "emp-zk/emp-zk-bool/zk_bool_circuit_exec.h:22-26"]}
{"id": "C98", "title": "A program that mixes bits, field elements and conversions runs to its end over the network", "statement": "The two parties run a program of bits, of field elements, and of conversions between 62-bit integers and field elements (one at a time or several in a call), all on one channel: boolean inputs and gates, field inputs and products, polynomial statements, openings; generation of edaBits whenever the stock is used up (candidates, random point, opened candidates, buckets, digests), the differences that are opened in a conversion, and the final checks. If the program is well-formed, the converted integers are below p and its claims are true, then under every interleaving there is no undefined behaviour, no deadlock, nobody stops, every schedule can be carried on to the end, and at the end both parties have the bits and field elements of the plain computation, where a conversion does not change the number; no check has failed; the field elements are authenticated; and the channel is empty. Required: the random points do not reach behind the candidates and no bucket has the sum p (the defects of two properties above); the last batches of AND gates and of products are empty or large enough - every conversion adds AND gates, and so does every generation. The circuits for sums and differences modulo p built from ripple-carry adders are correct for all integers.", "quantifier": "all programs, all values, all interleavings, all numbers of edaBits per generation, bucket sizes, batch and buffer sizes, thread counts, hash functions and calls of the correlation generators", "why_tests_cant": "when batches fill up and when edaBits run out depends on the whole program; tests see a few sizes and schedules and use 800000 edaBits per generation", "anchors": ["emp-zk/edabit/edabits.h:82-149", "emp-zk/edabit/edabits.h:151-292", "emp-zk/edabit/auth_helper.h:22-151", "emp-zk/emp-zk-arith/emp-zk-arith.h:12-51", "emp-zk/emp-zk-arith/conversion.h:7-23", "emp-zk/emp-zk-arith/ostriple.h:69-241"]}
{"id": "C99", "title": "A program with a read-only memory computes over the network what it says", "statement": "The two parties run a program of bits that creates a read-only memory with secret contents, reads it at secret addresses, and may ask for checks; after every eight reads per element a check is made by itself. If the contents are not empty, fit the widths, and all addresses read are inside the contents, then every call is well defined, under every interleaving there is no deadlock and nobody stops, every read returns the element at its address - also after any number of checks, which neither lose nor change it -, every check of n rows opens n-1 bits that are all true, and at the end both parties have the outputs of the plain program, no check has failed and the channel is empty. A check the program asks for needs at least three rows.", "quantifier": "all programs of any length with any number of checks, all widths up to 64 bits, all contents and addresses, all interleavings, all batch, buffer and stock sizes, all thread counts, all hash functions, all comparison circuits that compute equality and the sign of the difference", "why_tests_cant": "the checks happen inside reads and change which rows the next check compares; the wires, gates, packed words and products that arise differ for every program and schedule", "anchors": ["emp-zk/extensions/ram-zk/ro-zk-mem.h:18-121", "emp-zk/extensions/ram-zk/ro-zk-mem.h:181-229"]}
{"id": "C100", "title": "A program with a memory of several words per cell computes over the network what it says", "statement": "The two parties run a program of bits that creates a memory whose cells hold more than 64 bits, reads and writes whole cells at secret addresses, and checks it. If it makes at least three and at most 2^(step_sz-1) accesses, its addresses and values fit the widths, and it reads no address before writing it, then every call is well defined, under every interleaving there is no deadlock and nobody stops, every read returns all words of the latest value written to its address, the check does not throw, and at the end both parties have the outputs of the plain program, the check has revealed true, no check has failed and the channel is empty. A read of an address never written is undefined behaviour, and with cells of at most 64 bits the check of every program that made an access is.", "quantifier": "all programs, all index widths up to 32, step widths up to 31, cell sizes above 64 bits, all values and addresses, all interleavings, all batch, buffer and stock sizes, all thread counts, all hash functions and coefficient generators, all comparison circuits that compute equality and the sign of the difference", "why_tests_cant": "the inputs of the check depend on the secret values and are sorted by the prover on the first word only; the blocks, coefficients and products that arise differ for every cell size, program and schedule", "anchors": ["emp-zk/extensions/ram-zk/zk-mem-ext.h:22-148", "emp-zk/extensions/ram-zk/zk-mem-ext.h:163-299", "emp-zk/extensions/ram-zk/zk-mem-ext.h:300-337"]}
{"id": "C101", "title": "The VOLE over F_{2^128} completes over the network with any number of threads", "statement": "The two parties set up the correlation generator over F_{2^128} and extend it any number of times, each with any number of threads that build and transfer the trees over their own channels. From valid correlated OTs on, for all randomness, under every schedule of all threads of both parties, nobody waits for ever, no undefined operation is performed, all schedules have the same number of steps, the consistency checks pass, nothing is left on any channel, and every extension ends with n valid correlations under the verifier's secret, of which the first n - t - k - 1 fill the buffer of the memory checks. All parameter sets the constructor accepts (and with a non-negative buffer size) provide every extension with the correlations it needs.", "quantifier": "all tree sizes and counts, all numbers of threads (also more threads than trees), all schedules, all seeds, choices, digests, secrets, all numbers of extensions, all parameter sets the constructor accepts", "why_tests_cant": "schedules of several threads on two machines; tests run one schedule with one parameter set", "anchors": ["emp-zk/emp-vole-f2k/svole.h:8-35", "emp-zk/emp-vole-f2k/svole.h:104-232", "emp-zk/emp-vole-f2k/mpfss.h:86-210", "emp-zk/emp-vole-f2k/spfss_f2k_sender.h:24-76", "emp-zk/emp-vole-f2k/spfss_f2k_recver.h:36-100", "emp-zk/emp-vole-f2k/base_svole.h:28-43", "emp-zk/extensions/ram-zk/ostriple.h:31-55"]}
{"id": "C102", "title": "Programs may branch on what is revealed", "statement": "A user's program looks at the bits revealed so far and chooses what to do next: branches, loops until a condition holds, before, during and after the life of a memory. Each party decides from the bits it was itself given. If the path the program takes on plain values is well defined and its claims are true, then under every interleaving there is no undefined behaviour, no deadlock, nobody stops, both parties take that path, at the end they have its outputs, no check has failed and the channel is empty; with a memory, reads return the latest value written on the path. Against a prover that sends arbitrary messages the verifier's path is determined by the messages alone, not by its secrets; if it accepts them for three values of its secret then, bad challenges and hash collisions excepted, there are inputs on which the program takes this very path, reveals the bits the verifier saw and makes only true claims.", "quantifier": "all programs (trees of instructions with any function of the revealed bits at every node), all values, all interleavings, all batch, buffer and stock sizes, all thread counts, all messages of a prover", "why_tests_cant": "which instructions are executed depends on earlier messages; a test sees one path per run", "anchors": ["emp-zk/emp-zk-bool/zk_prover.h:67-74", "emp-zk/emp-zk-bool/zk_verifier.h:78-84", "emp-zk/emp-zk-bool/ostriple.h:261-290", "emp-zk/extensions/ram-zk/zk-mem.h:57-183"]}
{"id": "C103", "title": "A verifier that accepts a session with packed words and products has been convinced by values", "statement": "The verifier runs a program of bits, of words packed from bits, of challenges, of sums and products of two or of five words and of comparisons of words - as the memory checks make them - against a prover that runs any program at all on its endpoint: it may choose every message depending on everything it has received. Whatever the schedule, if the verifier returns then the messages commit the prover to exactly one list of bits and words, which does not depend on the verifier's secret nor on the schedule, and the keys and outputs the verifier holds are those of the committed values. If with everything else fixed the verifier complains of nothing for six values of its secret, then there are inputs for which the plain session with the same challenges goes through - every gate, every product and every comparison holds -, all claims are true, the outputs are those the verifier saw, and the words it holds keys of are those of the plain session. Excepted: the few challenges that let an error cancel inside a batch, batches that the split over the threads does not cover (a defect stated above), products of three or four words (stated above to be unsound), and collisions of the verifier's hash. With one thread and buffers of one entry no challenge except zero has to be excluded. The batches are never empty, never larger than the buffers, and their challenges are made from the transcript.", "quantifier": "all programs of the prover, all schedules, all sessions, all correlations, all batch, buffer and stock sizes, all thread counts, all hash functions and challenge functions", "why_tests_cant": "a quantification over all cheating provers and over pairs of runs with different secrets", "anchors": ["emp-zk/extensions/ram-zk/ostriple.h:80-121", "emp-zk/extensions/ram-zk/ostriple.h:161-193", "emp-zk/extensions/ram-zk/ostriple.h:197-310", "emp-zk/extensions/ram-zk/zk-mem.h:33-47", "emp-zk/extensions/ram-zk/zk-mem.h:276-331", "emp-zk/extensions/ram-zk/poly_prdt.h:51-240", "emp-zk/emp-zk-bool/ostriple.h:95-211", "emp-zk/emp-zk-bool/triple_auth.h:18-44"]}
{"id": "C104", "title": "A verifier that accepts a program with a memory has seen the outputs of that program", "statement": "A program reads, writes and accesses a read-write memory at secret addresses, reveals some results, and runs the memory's check; the prover may run any program at all on its endpoint. If the verifier accepts (no cheating recorded, no warning, the check revealed true and printed no \"wrong!!\") for several values of its secret, the challenges are not bad and the hash does not collide, then there are inputs with which the program, run with an ideal memory in which a read returns the latest value written to its address and an access with the write flag stores its argument, has exactly the outputs the verifier saw.", "quantifier": "all programs of the prover, all schedules, all programs with a memory (at least 3 and at most 2^(step_sz-1) accesses), all widths the packing supports, all correlations, all buffer sizes and thread counts", "why_tests_cant": "quantifies over all cheating provers and over pairs of runs with different secrets; a test runs the honest prover", "anchors": ["emp-zk/extensions/ram-zk/zk-mem.h:33-115", "emp-zk/extensions/ram-zk/zk-mem.h:128-183", "emp-zk/extensions/ram-zk/zk-mem.h:276-331", "emp-zk/extensions/ram-zk/ostriple.h:80-121", "emp-zk/emp-zk-bool/ostriple.h:95-211"]}
{"id": "C105", "title": "A verifier that accepts a program that branches has been convinced by values, with a memory too", "statement": "The verifier runs a program that chooses what to do next from the bits it was given, with packed words, challenges, products and comparisons of words and with a memory, against a prover that runs any program at all on its endpoint. Whatever the schedule, if the verifier returns then the messages commit the prover to one list of bits and words and to one path of the program; neither depends on the verifier's secret nor on the schedule. If with everything else fixed the verifier complains of nothing for six values of its secret, then there are inputs for which the plain program takes this very path - every gate, product and comparison on it holds -, all claims on it are true and the bits revealed are those the verifier saw. With a memory: if the check reveals true, the program on these inputs, with a memory whose reads return the latest value written, takes the path the verifier took and has the outputs it saw. Which program the verifier runs does not depend on the prover's private values. (The part about the memory is false in general for the reasons stated for programs without branches: the extra index bit is in no packed word, and an access with the write flag does not store its argument.) Excepted: bad challenges, batches the split over the threads does not cover, products of three or four words, collisions of the verifier's hash.", "quantifier": "all programs of the prover, all schedules, all branching programs, all correlations, all batch, buffer and stock sizes, all thread counts, all hash functions and challenge functions", "why_tests_cant": "a test runs the honest prover on a few paths; it can neither try all deviations nor see what the messages commit to, and the path itself depends on the messages", "anchors": ["emp-zk/emp-zk-bool/zk_verifier.h:78-83", "emp-zk/emp-zk-bool/ostriple.h:95-211", "emp-zk/emp-zk-bool/ostriple.h:261-274", "emp-zk/extensions/ram-zk/zk-mem.h:33-183", "emp-zk/extensions/ram-zk/zk-mem.h:276-331", "emp-zk/extensions/ram-zk/ostriple.h:80-121", "emp-zk/extensions/ram-zk/ostriple.h:161-310", "emp-zk/extensions/ram-zk/poly_prdt.h:51-240"]}
{"id": "C106", "title": "A verifier that accepts a program with a read-only memory has seen the outputs of that program", "statement": "A program fills a read-only memory with values it holds, reads it at secret addresses, asks for checks (others run by themselves after eight reads per element), and reveals some results; the prover may run any program at all on its endpoint. If the verifier accepts (no cheating recorded, no warning, no check stopped with \"cheat!\") for several values of its secret, the challenges are not bad and the hash does not collide, then there are inputs with which the program, run with an ideal memory in which a read returns the element at its address, has exactly the outputs the verifier saw.", "quantifier": "all programs of the prover, all schedules, all programs with a read-only memory (any contents up to 2^index_sz elements, any number of reads and checks), all widths up to 64 bits, all correlations, all buffer sizes and thread counts", "why_tests_cant": "quantifies over all cheating provers and over pairs of runs with different secrets; a test runs the honest prover", "anchors": ["emp-zk/extensions/ram-zk/ro-zk-mem.h:18-121", "emp-zk/extensions/ram-zk/ro-zk-mem.h:145-227", "emp-zk/extensions/ram-zk/ostriple.h:80-121", "emp-zk/emp-zk-bool/ostriple.h:95-211"]}
{"id": "C107", "title": "A verifier that accepts a program with a memory of wide cells has seen the outputs of that program", "statement": "A program writes and reads a memory whose cells are several words wide at secret addresses, reveals some results, and runs the memory's check; the prover may run any program at all on its endpoint. If the verifier accepts (no cheating recorded, no warning, the check did not throw) for several values of its secret, the challenges are not bad and the hash does not collide, then there are inputs with which the program, run with an ideal memory in which a read returns all words of the latest value written to its address, has exactly the outputs the verifier saw.", "quantifier": "all programs of the prover, all schedules, all programs with such a memory (at least 3 and at most 2^(step_sz-1) accesses), all value widths above 64 bits, all index and step widths the packing supports, all correlations, all buffer sizes and thread counts", "why_tests_cant": "quantifies over all cheating provers and over pairs of runs with different secrets; a test runs the honest prover", "anchors": ["emp-zk/extensions/ram-zk/zk-mem-ext.h:70-337", "emp-zk/extensions/ram-zk/ostriple.h:80-121", "emp-zk/emp-zk-bool/ostriple.h:95-211"]}
{"id": "C108", "title": "A verifier that accepts a program with bits, field elements and conversions has seen the outputs of that program", "statement": "A program computes with secret bits and secret field elements, converts between the two, flushes, and reveals some of them; the prover may run any program at all on its endpoint. If the verifier accepts (no cheating recorded, no error, no digest mismatch) for several values of its two secrets, the challenges are not bad and the hashes do not collide, then there are inputs with which the program, run on plain bits and field elements with exact conversions, has exactly the outputs the verifier saw, and all its claims are true.", "quantifier": "all programs of the prover, all schedules, all programs of bits, field elements and conversions, all correlations, all buffer sizes and thread counts, all hash functions", "why_tests_cant": "quantifies over all cheating provers and over pairs of runs with different secrets; a test runs the honest prover", "anchors": ["emp-zk/edabit/edabits.h:151-292", "emp-zk/emp-zk-arith/conversion.h:7-23", "emp-zk/emp-zk-arith/emp-zk-arith.h:12-51", "emp-zk/emp-zk-arith/ostriple.h:92-162", "emp-zk/emp-zk-arith/ostriple.h:303-354", "emp-zk/emp-zk-bool/ostriple.h:95-211"]}
{"id": "C109", "title": "The sizes of the prover's messages show nothing of its secrets", "statement": "The prover runs a program of bits, packed words and products, possibly with a memory (read-write, read-only or with wide cells), or a program of bits, field elements and conversions between them. For two witnesses - other private inputs, other random correlations, other addresses, values and directions of the memory accesses, other secrets of the verifier and other challenges - and the same bytes from the verifier, it hands the network messages of the same sizes in the same order between the same answers, and it returns, stops or fails in both cases or in neither. Over the network, under any schedules and with any verifiers, the sizes sent in one run continue those sent in the other as long as the bytes received agree. A program may also look at bits it has revealed and choose what to do next; then this holds for two witnesses that reveal the same bits. (Only the sizes: contents do depend on the witness in places, see the property about the unmasked product checks.) For programs with a memory both witnesses must make accesses inside the memory, and for the wide and the read-only memory the check must not stop the program.", "quantifier": "all programs, all pairs of witnesses and environments with the same public parameters, all verifiers, all schedules, all buffer sizes and thread counts", "why_tests_cant": "a relation between two runs for all pairs of secrets; a test compares a few pairs of traces", "anchors": ["emp-zk/emp-zk-bool/bool_io.h:34-98", "emp-zk/emp-zk-bool/ostriple.h:95-211", "emp-zk/emp-zk-bool/polynomial.h:40-95", "emp-zk/extensions/ram-zk/ostriple.h:66-310", "emp-zk/extensions/ram-zk/zk-mem.h:57-331", "emp-zk/extensions/ram-zk/ro-zk-mem.h:31-207", "emp-zk/extensions/ram-zk/zk-mem-ext.h:105-335", "emp-zk/emp-zk-arith/ostriple.h:95-420", "emp-zk/emp-zk-arith/conversion.h:7-23", "emp-zk/edabit/edabits.h:60-310"]}
{"id": "C110", "title": "What the verifier sends shows nothing of its secrets", "statement": "The verifier runs a program of bits, packed words and products, or of bits, field elements and conversions, against a prover that runs any program at all on its endpoint. Take two verifiers that differ in their secrets - other values of Delta, other keys of all correlations, other hash functions - and agree on the public parameters and on the random seeds and points they draw to be sent. Whatever the schedule, everything the prover receives, sends and computes is the same with both until one of the verifiers stops at a failed check; if both return, they have opened the same values. In a program of bits, polynomials of bits and products of two words no check stops the verifier at all, so the prover sees exactly the same to the end, and nothing it sends can make the verifier's answers depend on Delta.", "quantifier": "all programs of the prover, all schedules, all programs of the verifier, all pairs of secrets and correlations, all buffer sizes and thread counts", "why_tests_cant": "a relation between two runs for all pairs of secrets and all cheating provers; a test has one honest prover and never compares secrets", "anchors": ["emp-zk/emp-zk-bool/bool_io.h:34-98", "emp-zk/emp-zk-bool/ostriple.h:95-211", "emp-zk/emp-zk-bool/polynomial.h:40-95", "emp-zk/extensions/ram-zk/ostriple.h:66-310", "emp-zk/extensions/ram-zk/poly_prdt.h:51-240", "emp-zk/emp-zk-arith/ostriple.h:92-354", "emp-zk/emp-zk-arith/polynomial.h:42-158", "emp-zk/edabit/edabits.h:82-329", "emp-zk/edabit/auth_helper.h:38-151"]}
{"id": "C111", "title": "No peer can drive a party into undefined behaviour", "statement": "A party runs its part of a program - of bits, packed words, products and memories, or of bits, field elements and conversions - and the other end of the connection may send anything at any time. If the party's program returns in one run, with some peer, some private inputs and some correlations, then in no run, with no peer, no private inputs and no correlations of the same sizes, does the party read or write outside its buffers, divide by zero or perform another undefined operation: at worst it waits or stops with an error. One successful run is therefore enough to know that a program is safe against every peer. (False for the prover of conversions: it uses the random point it receives as an index without checking its range, so a verifier can make it read, and send, memory behind the end of its candidates.)", "quantifier": "all peers (any program on the other endpoint), all schedules, all programs, all private inputs, correlations and keys, all batch and buffer sizes and thread counts", "why_tests_cant": "quantifies over all bytes a peer may send; tests run the library against itself", "anchors": ["emp-zk/emp-zk-bool/bool_io.h:34-98", "emp-zk/emp-zk-bool/ostriple.h:95-211", "emp-zk/emp-zk-bool/polynomial.h:40-95", "emp-zk/extensions/ram-zk/ostriple.h:66-310", "emp-zk/extensions/ram-zk/poly_prdt.h:51-240", "emp-zk/emp-zk-arith/ostriple.h:92-354", "emp-zk/edabit/edabits.h:82-149", "emp-zk/edabit/edabits.h:294-306", "emp-zk/edabit/auth_helper.h:38-151"]}
{"id": "C112", "title": "The outcome of a session does not depend on the schedule", "statement": "Two programs on the two ends of a connection, honest or not, run in some order, with arbitrary delays between a send and the receive. If a party ends in one run and also in another run of the same two programs, it ends in the same way - the same outputs, the same record of failed checks, or the same stop; in particular no timing makes a verifier accept what it rejects under another timing. If under one schedule both parties come to an end, or to a point where each waits for the other, then they do so under every schedule, after the same number of steps and with the same bytes received. Nor does anything depend on what the uninitialised receive buffer holds at the start.", "quantifier": "all programs of either party, all pairs of schedules, all buffer sizes, all contents of the uninitialised receive buffer", "why_tests_cant": "timing cannot be enumerated; tests see the few interleavings that a loaded machine happens to produce", "anchors": ["emp-zk/emp-zk-bool/bool_io.h:6-98", "emp-zk/emp-zk-bool/zk_verifier.h:60-85", "emp-zk/emp-zk-bool/zk_prover.h:50-75"]}
{"id": "C113", "title": "The verdict depends on the bytes received only", "statement": "A verifier runs its part of a program against two different provers, under different schedules. If the bytes that arrive are the same, one after the other, then the verifier ends in the same way with both: the same outputs, the same record of failed checks or the same stop, the same digests. It does not matter which program sends the bytes, what it computes in between, and into which messages and flushes it cuts them; further bytes behind the last one used do not matter either. In the same way what a prover ends with depends only on the bytes the verifier sends back.", "quantifier": "all pairs of programs on the prover's end, all verifier programs, all schedules, all buffer sizes", "why_tests_cant": "quantifies over all programs that could send the same bytes; tests run the one prover of the library", "anchors": ["emp-zk/emp-zk-bool/bool_io.h:26-98", "emp-zk/emp-zk-bool/zk_verifier.h:60-85", "emp-zk/emp-zk-bool/ostriple.h:95-211"]}
