# Formal model of emp-zk in Lean 4 — design

Source: `/repo` (emp-toolkit/emp-zk, C++), read as text. Project: `/verif/lean`.
Property list: `properties.jsonl`. Status per property: `MANIFEST.json`. Mutation log: `seeded/LOG.jsonl`.

## Layout

* `Verif/Model/*.lean` – executable model, one file per C++ file or class; every definition cites file and lines.
* `Verif/Spec/*.lean` – small specifications written without the model's helpers
  (plain circuit evaluation, memory semantics, streams, point functions ...).
* `Verif/Lemmas/*.lean` – helper lemmas.
* `Verif/Props/*.lean` – the property theorems, each with an `example` meeting its hypotheses.

## Modelling conventions

* 64-bit words are `BitVec 64`; 128-bit C++ integers are `BitVec 128` (F_p labels: pair of words).
* 128-bit blocks (`__m128i` used as F_{2^128} elements): the boolean protocol is stated over an arbitrary
  field of characteristic two with a "low bit" functional (`BlockField`), because `gfmul`, `GaloisFieldPacking`,
  `uni_hash_coeff_gen(block)`, `vector_inn_prdt_sum_red(block)` live in emp-tool, not in this repository.
  A concrete instance (`GF128`, 128-bit vectors modulo x^128+x^7+x^2+x+1) shows the class is inhabited by the real thing.
* A session of two parties is modelled jointly; the messages that cross the network are explicit values. For honest runs
  the verifier gets what the prover sent; for soundness the messages are arbitrary (any function of what the prover has seen).
* Randomness is always a universally quantified input. Probabilistic claims become counting claims
  (number of (seed, Delta) pairs accepted; bijections of randomness for zero knowledge).
* Hash digests: compared digests are modelled by comparing the hashed content (collision-free hash assumed; trusted).
* PRG / PRP outputs are arbitrary functions of their seed.
* Undefined behaviour (out-of-bounds access, division by zero, reading an uninitialised value, use after clear) is a
  distinct outcome (`Outcome.ub`), never silently totalised.
* Machine threads: tasks with disjoint write sets; schedule independence is proved for the write sets computed by the code.

## Property by property: what is modelled, how it is proved

| id | model | proof idea |
|----|-------|-----------|
| C01 | `mul64, mod, add_mod, mult_mod` on BitVec 64 | toNat arithmetic, omega, 2^61 = 1 mod p |
| C02 | lane functions on pairs/quadruples of words incl. signed compare | reduce to C01 per lane |
| C03 | `mod128` on BitVec 128 | toNat arithmetic; witness for non-canonical result outside the domain |
| C04 | `uniHashCoeffGen`, `innPrdtSumRed` as folds | induction on length |
| C05 | `clmul64` (bit-level), `mul128` recombination | carry-less product as polynomial over F_2 (xor-sum of shifts) |
| C06 | joint session state (prover labels, verifier labels), ops input/pub/xor/not/and | invariant by induction over op list; spec = plain circuit evaluation |
| C07 | reveal and digest lists | same invariant; digest lists equal |
| C08 | AND check sums per thread | algebra in char 2 + C06 relation |
| C09 | verifier equation for arbitrary answers | polynomial in seed (degree n) and Delta (degree 2), root counting |
| C10 | `taskBase, leftover` split | exact covered count; negation by witness (threads 4, 7 gates); `_partial` under `check_cnt % threads < check_cnt / threads` |
| C11 | `ver_check` acceptance | linear equation in Delta |
| C12 | `CheatRecord` state machine over session events | invariant |
| C13 | buffer counter state machine with check events | invariant: pending ++ checked = executed |
| C14-C16 | BoolIO sender/receiver state machines over a byte/bit channel | simulation invariant between the two states, induction over op list |
| C17 | joint arithmetic session on words | invariant mac = key + v*Delta in ZMod p + canonical |
| C18,C19 | check sums on words | transfer to ZMod p, root counting |
| C20,C21 | reveal acceptance | linear equation in Delta; negation of canonicity by witness (p for 0) |
| C22-C25 | PolyProof/FpPolyProof statements, batch_check, buffers | as C08/C09/C13 |
| C26 | COPE extend (sender/receiver), prm2pr | sum over bits of Delta |
| C27 | base sVOLE check | linear identity; root counting |
| C28 | OTPre sessions | xor algebra |
| C29 | GGM tree in-place generation and reconstruction over an arbitrary length-doubling expansion | invariant per level: all nodes but the path node equal |
| C30 | leaf correction | sum over leaves |
| C31 | batch check values | linear algebra over F_p / char 2 |
| C32 | width/range split | arithmetic |
| C33 | mask/subtract index | bit arithmetic: mask < 2k |
| C34 | add1/add2 on words, bounds | induction + omega bounds |
| C35 | task ranges; negation by witness (n not divisible by threads+1); partial | arithmetic; commuting disjoint updates |
| C36,C37 | extend state machine over an abstract batch generator with memory as function updates | refinement to stream |
| C38 | size arithmetic | div/mod |
| C39 | index ranges; negation for F2k (mask index t is also LPN input) | arithmetic |
| C40 | receiver object with uninitialised choice array | negation: the read is of an indeterminate value |
| C41 | conversion of one value on 62-bit integers/words | case split on wrap |
| C42 | bulk round arithmetic with buffer state | induction on rounds |
| C43 | cut-and-choose equality on honest values; negation by witness a+b=p; partial otherwise | arithmetic |
| C44 | index maps; negation (point ell_faulty-1 reads candidate ell); partial | modular arithmetic |
| C45,C46 | RAM access log, sorted list, condition; negation by the unconstrained top index bit; partial when that bit is 0 | sorted-list argument |
| C47 | products of (x+r) | polynomial with given roots; unique factorisation |
| C48 | polyPrdt3/4/5 coefficient computations, batch check | ring identities in char 2, root counting |
| C49 | loops with 64-bit unsigned bound; negation (underflow, < 3 accesses); partial | induction |
| C50 | mem vector with size; negation: cleared vector accessed | outcome ub |
| C51 | ROM log; negation by top bit; partial | sorted-list argument |
| C52 | pack on words and MACs | bit/word layout lemmas; linear packing |
| C53 | adjacency condition; negation by split groups; partial under grouped order | list induction |
| C54 | failure events; negation for ZKRAM | event model |
| C55 | compute_mul history; negation (uninitialised sums when check_cnt < threads); partial | invariant |
| C56 | LowMC on bits and on MAC labels | homomorphism; finite table for the S-box; over the network by C76 and C77 (`C56_network`, `C56_network_knowledge`) |
| C57-C59 | transcripts as functions of witness and masks | bijection on masks; negation for the unmasked RAM check |
| C61 | same model with `d` unhashed; negation: two wrong products cancelling for every Delta | algebra |
| C62 | malicious sessions: `comSession` (labels committed by the messages) | extraction by simulation + root counting |
| C63 | `feedB` on arbitrary words | carry analysis of `mult_mod`; false for non-canonical words (witness `2^64-9`), partial for canonical ones |
| C64 | malicious arithmetic sessions: `acomSession` | extraction as for C62 |
| C65 | verifier's run on arbitrary messages | invariant over the run |
| C66 | composition of trees, check, LPN and buffering, F_p and F_{2^128} | C31 + C34 per round, induction over rounds |
| C67 | packing of OT blocks | linearity of packing, bits of the packed block |
| C68 | value-level cut and choose (connected to the hashed transcripts by C43_transcript); negation: an integer >= p in an output candidate passes for every point; bound 1/7 for integers < p, reached | stabiliser subgroup of the bad set in Z/800002, divisors of 800002 |
| C69 | word opened as a function of the mask | bijection modulo p |
| C70 | `ZkRamExt` read/write/check as a state machine; a specification by the latest write | invariant over calls; sortedness of the first word |
| C60 | heap of objects with the constructors, destructors and global pointers of setup/finalize; negations (stale conversion pointer deleted twice, thread pool never freed, closed boolean backend passes the guard) | invariant over all allowed histories, exact condition for undefined behaviour |
| C71 | same state machine with the cheat record; negation (arithmetic failure recorded after `finalize_zk_bool`) | induction over histories |
| C72 | pairs (number encrypted, word) read by the LPN steps | no duplicates: start positions of the steps are different, words inside a step are different |
| C73 | sending endpoint of C15 with digests, AND check of C09, a prover choosing wrong outputs | binding since the previous digest from C15; negation: after another digest the contents depend on later calls only, then pigeonhole on 2^n error patterns against 2^128 sums |
| C74 | `floatToInt62` on bit strings; shifts beyond the width left open | value of a float as a rational, floor; negation: -1.0 becomes the word 2^61-1 |
| C75 | `int62ToFloat` on bit strings | logarithm and the 24 leading digits; round trip for positive integers; negations: 0 becomes 2^(-1-s), -1.0 comes back as 0.5 |
| C76 | `netSessionP`, `netSessionV`: the sessions of C07 with every message passed through the endpoints of C14; `rcot` (external) makes arbitrary mirrored calls | simulation: calls mirror each other, then C14 (order, progress) and C15 (digests) turn the byte-level run into the message-level run of C07 |
| C77 | `ReachAdv`: the verifier's endpoint with arbitrary bytes arriving at arbitrary times; `netSessionV` on whatever its calls return | invariant of the receiving endpoint (no undefined read); every inbox is the image of message-level messages that do not depend on `Delta` (`netSessionV_any`), then C62; binding by induction on the calls. Padding bits are not inspected by the receiver but enter the digest, so a prover can vary the challenge without varying its messages: the statement allows this (any challenge derived from a received digest) |
| C78 | `mpfssCheckSend`, `f2kCheckSend` on an arbitrary word of the prover; `extSend`, `extF2kKey` | closed form of the hashed word: the prover's own word minus `t * Delta` when it sends `x_star + t`; hence false (the reply to `x_star + 1` determines Delta, and the verifier's outputs do not depend on the word); true for the right word |
| C79 | `feedA`, `feedB`, `pubB`, `mulConstA/B` and sessions on arbitrary words | the correction of an input `w` is exact up to 8 when `u + p < w`; count of such masks; sum of at most three lost carries cannot repair `8 Delta`; concrete sessions for constants |
| C80 | `Model/ArithTriple.lean`: linear operations, `compute_mu_*`, debug checks | labels and keys as images of pairs (value, MAC), then ring identities |
| C81 | `Model/Convert.lean`: one conversion, each party on its own, the verifier on an arbitrary received word | negation: the word `sum + p` is accepted for more than half of all `Delta` and gives `x - 2`; bounds on what any word can give by the number of `Delta` accepting it |
| C82 | `Model/Convert.lean`: `bool2arith` of one element | exact value for every 62-bit integer and every mask; count of the masks; the claim holds iff `x <= p + 1` or `x = 2^62 - 1` |
| C83 | `Model/Proc.lean` (two parties, two byte streams), `Model/ArithNet.lean` (both processes of an arithmetic session: who sends how many bytes when) | the two programs compose step by step (`Co`); one-step diamond property of two parties, so every schedule is a prefix of a run of the same length to the same end; results from C17 |
| C84 | the same, with an arbitrary `Proc` as prover; `Spec/ArithWire.lean`: how the messages are cut out of the bytes, without Delta | the verifier on bytes equals the message-level verifier on the decoded messages; Church-Rosser for two parties; verifiers for two values of Delta send the same bytes (`Proc.Like`), hence one transcript per prover process; C64 |
| C85 | `Spec/ArithGame.lean`: a strategy sees the seeds of the checks begun so far; `Cheated`: accepted, no collision, no explaining inputs | the batches are prefixes of the run that do not depend on their own seeds (`mulBuf_causal`); union bound over adaptive choices (`card_adaptive`), one seed bad for at most as many values as the batch has gates (C19, C24); C64 for the other seeds. The seeds are taken as independent and uniform residues (the code expands one block per check with a PRG and reduces it) |
| C86 | `Model/ArithBatch.lean`: batched calls as the code makes them (all VOLE outputs first, one message of `len` words, one comparison), at message level and as processes; `Spec/ArithBatch.lean`: the single calls | induction over the arrays (`aprvRun_inputs`, `averRun_checks`, ...), then over the program; network theorems as C83/C84 |
| C87 | `Spec/ArithProcGame.lean`: the verifier's process of C83/C84 with its random choices drawn from 128-bit blocks and 64-bit words, a log of the bytes it receives, `ProcCheats`, `ExpandGood` (quality of the external PRG expansion) | the verifier's first `k` instructions as a process do not depend on seeds of later checks (`run_reseed`, equality of processes); a run contains the runs of its parts (`reach_split`); so a process has a causal family of messages, to which the counting of C85 applies (`family_error`); at most nine 64-bit words have the same residue |
| C88 | `Model/Par.lean`: parties with several threads and one channel per thread, all interleavings; `Model/ExtendNet.lean`, `Model/SetupNet.lean`: every message of the base correlations, the OT choices, the trees, the check, by thread and channel | the small-step relation is confluent in one step (diamond), so one complete schedule decides all (`ParDuo.reach_reach`); a complete schedule is composed from those of the threads (`CoPar.run`, `CoPar.bind`) and the values are those of C27, C28, C66; induction over the chain of extensions |
| C89 | `Model/ArithFull.lean`: the program of the calling thread as a `VProg` that sends, receives and asks for correlations; `extend` of vole_triple.h with its stock, in-place rounds and copies as a protocol over all channels; setup, session and final checks in one party | requests: the two parties' stocks are always at the same place and a request runs the same number of extensions on both sides (`coPar_one`, from the stream theorem C36 and `coPar_extension` of C88); session: the proof of C83 with every message script replaced by a request (`vco_session`); the streams are valid correlations, so C17 applies |
| C90 | `Spec/ArithView.lean`: the prover's program of C89 (`aprvProg`) with an ideal VOLE (values uniform, MACs `key + Delta * u` for any `Delta` and keys), run as a process against an arbitrary process; what the peer returns | a coupling of the two provers (`VProg.Equi`): the same bytes are sent if the masks are shifted by a bijection that depends on the bytes received so far, one mask per input, product and check (`step_view`, `session_view`); the bijections compose to one permutation of all masks (`equi_ret`). False if the peer sends a seed of p or more for a polynomial check (`C90_seed_false`) |
| C91 | `Model/BoolProc.lean`: the prover of C76 as an interactive program (`bprvProg`) that sends and receives through its endpoint and asks for correlations; `Spec/BoolView.lean`: correlations `key + u * Delta` of an ideal COT with random bits `u`, run as a process against an arbitrary process | coupling over random bits (`CProg.Equi`): one bit per input and AND gate shifted by the difference of the witnesses, 128 bits per check shifted by the difference of the check sums (`packBits_surj`), the bijection depending on the bytes received so far; the buffered gates and statements of the two provers have the same keys (`BPair`). `C91_same_prover`: the program sends the bytes and reaches the state of the prover of C76 |
| C92 | verifier process of C76 (`Model/BoolNet.lean`) with its receiving endpoint; a program of two batches (`Spec/LateInput.lean`) and the bits of a prover that fixes the second batch before its inputs | negation: the second digest is computed from the bits after the first check only, so by pigeonhole on 2^n inputs against 2^128 sums there are inputs which the second batch does not notice; then the answers are those of an honest prover and all executions end in acceptance for every Delta. Positive part: equal digests in all checks imply equal bits, by induction over the digests, then a relation between two runs of the verifier |
| C93 | verifier process of C76 with its receiving endpoint (`Model/BoolNet.lean`, `Model/BoolNetAdv.lean`); the prover is a decision tree that asks a function of byte strings and then names the bytes to deliver (`Spec/Rom.lean`); hash followed by generator is the random function | the string determines the committed gates (equal digests give equal bits, C92, hence equal transcript, wires and gates), also when the challenges differ; few answers are bad for the gates of a string; induction on the tree over partially fixed functions counts the functions that lead to a bad answer; otherwise at most two Delta are accepted (C62) |
| C94 | verifier process of C76 up to the challenge of a memory check, with the flush of `sync_zk_bool` (`Model/RamChal.lean`); rows are lists of wires (`Spec/RamChal.lean`); the prover is a decision tree as in C93 | negation: with a full batch between the rows and the challenge the last digest depends only on the correction of the last AND, so the prover knows `r`; by pigeonhole on the contents of more than 128 addresses against 2^128 products there are two different memories with equal products; the answers to the AND check are the honest ones. Positive part (no AND check before the challenge): the string determines the committed wires (two runs with equal digests have equal keys for every secret, two secrets determine the wire), few challenges confuse two lists (C47), count over all functions as in C93 |
| C95 | trees, check and extension of C30, C31, C34, C66 in both fields; calls of a tree on the channel (`treeCallsF`); keys that fit given leaves and receivers that accept (`Spec/TreeCheat.lean`) | negation over F_{2^128}: the digests of the channel do not depend on any tree message (`C95_digests`, all interleavings); with the digest `s` added to the first OT message of the last level, one to the second and `s+1` to the sum, the check sum of the errors is `s^(2j+1)*s + s^(2j+2) = 0`, the LPN step carries the error to the output. F_p: the compared word is determined by what was sent and the check sum of the keys, so two receivers that accept one answer give a root of a non-zero polynomial of degree `2^levels`; trees of one task share a seed, hence the sum over them |
| C96 | `Model/Calls.lean`: parties as programs over their endpoint, whose continuation depends on what the endpoint returns; `Model/MixNet.lean`: boolean part, `F2kOSTriple` with its buffer and stock, the polynomial products, packing, set equality and the destructor as such programs; `Spec/MixNet.lean`: the plain computation with arbitrary challenges | a lock-step relation between the two programs (every call mirrored, continuations related for all answers) implies the statement for all interleavings (`lock_network`, by simulation into C14); the relation is proved function by function, with invariants for wires, keys, buffers and batch sizes |
| C97 | `Model/RamNet.lean`: the calls of `ZKRAM` as a generator of instructions of a mixed session (input and public bits, packed words, the sorted rows, the condition circuit, the set-equality check), comparison circuits of emp-tool from outside (`CmpLib`; `empLib` is one); `Spec/RamNet.lean`: the plain program, the memory being its list of accesses | generator, plain program and plain session are related by an invariant through all calls (with the invariant of C45 for the prover's arrays); the wires of the k-th sorted row by position; one round of the condition circuit gate by gate; then C96. The negative case: a chain of rows starts every address but the least with a write |
| C98 | `Model/ConvNet.lean`: sessions of boolean and arithmetic instructions and conversions as programs over one endpoint (`edabits_gen_backend` with candidates, random point, openings, passes and digest; `next_edabits`; single and bulk conversions; finalisation), correlation generators and the circuits of emp-tool's `Integer` from outside; `Model/IntCircuit.lean`: such circuits; `Spec/ConvNet.lean`: the plain program on bits and field elements with its numbers of AND gates and products | both parties step for step in lock step (as C96): an invariant for the boolean state, one for the arithmetic state, one for the edaBits of the current generation (indices as in C42, buckets as in C43); the conversions by C41; the rounds of bulk calls as in C42; the adder, subtractor and selection gate by gate with induction on the bits |
| C99 | `Model/RoNet.lean`: the calls of `ROZKRAM` as a generator of instructions of a mixed session (as C97), with the automatic checks inside reads; the program's wires have numbers of their own, so that its meaning does not depend on the wires a check makes; `Spec/RoNet.lean`: the plain program | generator, plain program and plain session related by an invariant through all calls and for every sequence of challenges (with the invariant of C51 for the prover's arrays; the blocks a check makes are counted); one round of the condition gate by gate; then C96 |
| C100 | `Model/ExtNet.lean`: the calls of `ZkRamExt` as a generator of instructions of a mixed session (as C97): blocks packed from pieces at offsets, several coefficients from one challenge, combinations of rows, the condition with all words; `Spec/ExtNet.lean`: the plain program; the instructions `packAt`, `chals`, `lin` are added to C96 | generator, plain program and plain session related by an invariant through all calls (with the invariant of C70 for the prover's arrays); the loop of `pack` equals a two-by-two recursion whose blocks are those of the packed words; the condition gate by gate; the compressed rows are a permutation of each other for all coefficients; then C96 |
| C101 | `Model/ExtendNetF.lean`: every message of an extension over F_{2^128} by thread and channel, chains of extensions from the base correlations on, in the model of threads of C88; the digests of the trees are given from outside, equal for both parties (C15, C95_digests) | as C88: diamond property, a complete schedule composed from those of the threads, values from C28, C66, C67; induction over the chain; the batches meet the assumptions C96 makes about correlations (C101_refill) |
| C102 | `Model/Branch.lean`: programs as trees: blocks of instructions, then any function of the bits the party was given so far; both parties of the mixed session of C96 follow the tree, each with its own bits; generator for programs with a `ZKRAM`; the verifier of a branching program on arbitrary messages; `Spec/Branch.lean`: the path on plain values, the path the messages tell | induction over the tree with the lock-step lemmas of C96 and C97 (both have the plain outputs after every block, so both go on with the same subtree); for arbitrary messages: the verifier's run equals that of the straight-line program on the path told by the messages (an equation for every secret), hence C62 applies, and equal outputs at the end mean equal decisions on the way |
| C103 | the verifier of `Model/MixNet.lean` against an arbitrary program of the prover (`SProg`) on the network of `Model/Calls.lean`; `Spec/MixCommit.lean`: a program that asks the endpoint the same questions as the verifier and records what the answers commit to - pairs (value, MAC) fixed without the secret - and every comparison made | the verifier's program follows the recording program call by call with the keys of the committed pairs (`Follows`, function by function), the network is confluent, so one record serves every schedule and every secret; what holds of every result of the recording program (`RProg.All`): if no recorded gate, product or comparison is wrong, the plain session on the committed inputs goes through; six secrets make every recorded equation an identity in the secret (degrees 2, 5 and 1), good challenges then rule out errors. The prover can compute the challenges itself (C61), hence good challenges are a hypothesis; 3- and 4-operand products are excluded (`C48_false`) |
| C104 | the programs of `Model/RamNet.lean` (calls of `ZKRAM`, the check) run by the verifier of `Model/MixNet.lean` against an arbitrary program of the prover; `Spec/RamTrace.lean`: runs of the program in which the memory returns arbitrary values, with their list of accesses | extraction of C103, then induction over the calls: the plain session of the replaced inputs is a run with arbitrary values (`csim_steps`), the check is the condition on rows the prover chose and the equality of two products (`csim_check`); C46 on the extracted rows; a run whose reads return the latest write is the plain program (`UTrace.plain`). `C104_partial`: the alternatives left are an extra index bit that is set, a bad challenge, or right reads. `C104_runs`: every run can be brought about. Negations: `C104_false` (`access` with the write flag does not store its argument), `C104_stale` (extra index bit), both as accepted sessions on the network. Hypotheses: six values of Delta, challenges not bad (they are hashes the prover can compute, C61), no collisions, at least three accesses, operands of the widths of the memory |
| C105 | the verifier of the branching programs of `Model/Branch.lean` (mixed sessions of C96, memories of C97) against an arbitrary program of the prover; `Spec/BranchCommit.lean`: the committed side of a branching program (`branchCommit`, a program without Delta), plain runs along a path (`MPathLike`), runs in which the memory returns arbitrary values along a path (`WalkLike`, `TraceLike`) | the verifier's program follows the committed one node by node, since revealed bits are determined by the messages (`branch_follows`); the path is one session, so extraction is `mix_faith` of C103 for that session (`C105_extraction`, `C105_path`); for a memory the session of the path is that of a list of calls, so `ram_verdict` of C104 applies (`C105_partial`). `C105_public`: two generator trees made from different private values are alike (same questions to the endpoint, same keys). Hypotheses and exceptions as in C103 and C104; the negations `C104_stale` and `C104_false` are programs without branches and so apply here too |
| C106 | the programs of `Model/RoNet.lean` (`init`, reads, automatic and requested checks of `ROZKRAM`) run by the verifier of `Model/MixNet.lean` against an arbitrary program of the prover; `Spec/RoTrace.lean`: runs of the program in which reads return arbitrary values, with the reads each check covers and the bits it reveals | extraction of C103, then induction over the calls: the plain session of the replaced inputs is a run with arbitrary values (`vsim_backs`), each check is the condition on rows the prover chose and the equality of two products (`vsim_check`, `ro_verdict`); C51 on the extracted rows; a run whose checked reads are right, whose addresses are inside and which ends with a check is the plain program (`VTrace.plain`). `C106_partial`: the alternatives left are, at one of the checks, an extra index bit that is set or a bad challenge. The model reveals the bits of a check and goes on; the code stops with `error("cheat!")` if one is false, hence the hypothesis that they are true. `C106_runs`: every run can be brought about. Negations: `C106_stale` (extra index bit), `C106_unchecked` (reads after the last check), both as accepted sessions on the network. Hypotheses as in C104 |
| C107 | the programs of `Model/ExtNet.lean` (reads and writes of `ZkRamExt`, its check) run by the verifier of `Model/MixNet.lean` against an arbitrary program of the prover; `Spec/ExtTrace.lean`: runs of the program in which the memory returns arbitrary words, with their list of accesses | extraction of C103, then induction over the calls: the plain session of the replaced inputs is a run with arbitrary words (`xcsim_steps`), the check is the condition on rows the prover chose and the equality of the products of the combined rows (`xcsim_check`, `ext_verdict`); C53 on the extracted rows. `C107_partial`: the alternatives left are rows of an index that do not follow one another, a bad challenge (equal products of combined rows that are no permutation), or right reads. `C107_runs`: every run can be brought about. The model reveals the condition and goes on; the code throws if it is false, hence the hypothesis that it is true. Negations: `C107_stale` (rows not grouped), `C107_first` (a read before any write returns what the prover likes), both as accepted sessions on the network. Hypotheses as in C104 |
| C108 | the verifier of `Model/ConvNet.lean` against an arbitrary program of the prover; `Spec/ConvCheat.lean`: a prover that is honest but for one conversion to bits; `Spec/ConvCommit.lean`: a program that asks the endpoint the same questions as the verifier and records the committed bits, the committed field elements and the messages of the arithmetic part | negation on the network: the cheating prover and the verifier in lock step (`lock_cheat`), so `C108_wrong` holds in every environment; `C108_attack`, `C108_false`: one prover that does not know `Delta` is accepted under every schedule for every `Delta <= p/2`, with outputs the program cannot have. `C108_partial`: programs without conversions, bits and field elements interleaved over one endpoint: the verifier follows the recording program (`conv_follows`), six secrets of the boolean part and five of the arithmetic part, then the argument of C103 and C64; the two plain computations are merged into one run of the program. Hypotheses: words below p, challenges not bad, no collisions |
| C109 | the prover of `Model/MixNet.lean`, the memories of `Model/RamNet.lean`, `RoNet.lean`, `ExtNet.lean`; `Spec/Traffic.lean`: the sizes of the pieces a program puts on the wire for given answers, and a run over the network that records them; `Spec/MixTraffic.lean`: environments with the same public parameters, programs without the prover's inputs | two provers make the same kinds of calls (`Alike`: equal sizes of data, equal answers), by going through every function of the prover with a relation that keeps lengths and counters only (`mixProver_alike`); `alike_traffic` and `sent_traffic` carry this to `BoolIO` and to the network. Memories: the instructions generated for two witnesses differ in input bits only (`ramGen_both`, `roProg_both`, `extGen_both`), if both are defined. Conversions: the same for the prover of `Model/ConvNet.lean`, including the making of edaBits (`Spec/ConvTraffic.lean`, `convProver_alike`). Programs that choose what to do next from revealed bits (`Model/Branch.lean`, `Spec/BranchTraffic.lean`): the prover's bits are those of the plain program whatever it receives (`bopsS_tracks`, `mopsS_tracks`), hence two witnesses that reveal the same bits take the same branches and have the same traffic, also with a memory in which they access other cells (`ramTree_opens`); an example shows that with other revealed bits the traffic differs. Sizes only: contents leak as in C59 |
| C110 | the verifiers of `Model/MixNet.lean` and `Model/ConvNet.lean` against an arbitrary program of the prover; `Spec/VerSilent.lean`: environments of the verifier that agree on public parameters and on what is drawn to be sent, configurations that differ in the verifier's own state only | two verifiers make the same calls with the same bytes and may stop at checks (`RAlike`), by going through every function of the verifier (`mixVerifier_alike`, `convVerifier_alike`); `ralike_network` carries this to any prover and schedule. `C110_silent`: without `polyMul` products and equality checks nothing stops, so the views are equal to the end. `C110_branching`: programs that branch on revealed bits (`Branch.Same`). In the arithmetic part a failed check sets a flag in the model where the code calls `error`; up to there the statement is about the code, after it the code sends nothing. What `FerretCOT` and `VoleTriple` send is outside: the calls they make are assumed not to depend on the secrets |
| C111 | both parties of `Model/MixNet.lean` and the verifier of `Model/ConvNet.lean` against an arbitrary program on the other endpoint; undefined operations are the outcome `.fail` of a program and `.ub` of the receiving endpoint | the relations of C109 and C110 take a parameter that says which received bytes are compared: with nothing required, the two programs may receive different bytes and still make the same calls (`mixProver_alike`, `mixVerifier_alike`, `convVerifier_alike`). A program related to one that returns never fails (`ralike_safe`, `alike_safe`); the endpoint is safe with any bytes (`reach_no_ub`). False for the prover of conversions: `C111_false`, a verifier that sends 2^32 - 1 as the point. With points that leave room for the opened candidates it is safe as well (`C111_conversions_prover_partial`): the same relation, where two messages of four bytes may differ if both are such points (`PtRel`), and `Stocked` says that all candidates are there. Programs that branch on revealed bits, which a dishonest prover chooses: `C111_verifier_branching`, `C111_prover_branching_partial`; a branching program that fails has a way through it (`Spec/Route.lean`) that fails (`branchR_route`, `branchS_route`), so it is enough that every way is a program that returns in some run. The bits on a way are arbitrary, but as many as were opened and the same at every later branch (`Lemmas/Opened.lean`: `bopsR_more`, `mopsS_more`). Instead of a run the statement is enough: a program that holds for one witness (C96), or a program with a memory whose accesses are fine for one witness (C97), is safe for both parties with every peer and every other witness (`C111_verifier_statement`, `C111_prover_statement_partial`, `C111_memory`, `C111_readonly`, `C111_wide`, `C111_branching_statement`, and `C111_conversions_statement` for the verifier of conversions, from C98 to C100) Sessions with boolean gates only (`Model/BoolProg.lean`, the session without `F2kOSTriple`): `C111_boolean_honest`, `C111_boolean`. |
| C112 | any two programs over the endpoints of `Model/Calls.lean` and their interleavings (`PReach`; with a number of steps: `PRuns`, `Spec/Sched.lean`) | steps of the two programs commute (`step_diamond`), hence two runs can be joined (`preach_confluent`) and all runs to the end have the same length (`runs_all`); a program that has ended does not change (`ended_stays`). `C112_result`, `C112_end` for arbitrary programs, `C112_verdict` and `C112_conversions` for the verifiers of sessions with any prover. Two runs may start with different contents of the receive buffer (`C112_buffer`): it is refilled before it is read (`SameBut`, `stepQ_sameBut`). Each party is one sequential program: threads inside a party are C88, C89, C101 |
| C113 | the model of C112, with all bytes sent so far (`PStream`, `Spec/Stream.lean`) | a run with some prover is a run of the verifier alone with the bytes of that prover in the connection from the start (`stream_fed`); two such runs are joined (C112). `C113_same_bytes` for arbitrary programs, `C113_bytes` (every run has such bytes), `C113_verdict` for sessions of bits, words, products and memories, `C113_conversions`; `C113_prover` and `C113_bytes_back` for the other direction (`PBack`, `back_fed`) |

## Where the code and a property disagree

For each of these there is a theorem with a concrete witness (name given) and a `_partial` theorem or an exact criterion beside it.

| finding | code | theorems |
|---|---|---|
| the last worker of the AND check gets `task_base + cnt % task_base` gates instead of `cnt % threads` more: gates stay unchecked; the boolean check divides by zero below `threads` gates (the arithmetic one uses a single task below 32 gates, the RAM one a guard) | emp-zk-bool/ostriple.h:153-166 (same in emp-zk-arith/ostriple.h:189-202, ram-zk/ostriple.h:206-224) | C10_coverage_false, C10_uncovered_accepted, C10_undefined_small_batch, C19_uncovered, C55_uncovered |
| a bucket of edaBits with sum exactly p makes honest parties abort | edabits.h:115-142 | C43_false, C43_exact |
| the last random point opens candidate `ell`, one behind the end; the prover does not check the point it receives, so a verifier can make it read (and send) memory behind the end of its candidates | edabits.h:104-112, 294-306 | C44_false, C44_exact, C111_false |
| an integer >= p in an output candidate passes for every point; with integers below p a wrong edaBit passes for up to one point in seven | edabits.h:106-141 | C68_false, C68_shift |
| `reveal` accepts and returns non-canonical words; two Delta can accept a wrong word | emp-zk-arith/ostriple.h:303-310 | C21_canonical_false, C20_binding_false |
| `mult_mod` loses a carry for non-canonical words | emp-vole/utility.h:128-134 | C63_residue_false |
| LPN leaves the last `n % (threads+1)` positions unmixed | lpn.h:165-180 | C35_false |
| the noise positions come from an array that is never assigned | spfss_recver.h:19-25, mpfss_reg.h:85-94 | C40_false |
| F_{2^128} extension: the check mask is also the first LPN input | emp-vole-f2k/svole.h:123-139 | C39_f2k_false |
| products of three and four operands are not bound | poly_prdt.h:53-92, 94-203 | C48_false |
| product loops underflow for short lists | zk-mem.h:206-310 | C49_false |
| ZKRAM/ROZKRAM: the top index bit of the sorted rows is not packed | zk-mem.h:33-47, 152-162; ro-zk-mem.h:64-70, 96-108 | C46_false, C51_false |
| ZKRAM: a failed condition only prints | zk-mem.h:164-165, ram-zk/ostriple.h:262-264 | C54_false |
| `check` clears the memory; `refresh` is undefined whenever it triggers | zk-mem.h:179-183, 114-126 | C50_false, C50_refresh_false |
| ZkRamExt: cells of one word cannot be checked; rows of one address may be split; unwritten cells cannot be read | zk-mem-ext.h:105-128, 197-211, 230-238 | C52_false, C53_false, C70_unwritten |
| RAM product checks send unmasked sums | poly_prdt.h:63-72, zk-mem.h:320-331 | C59_false, C59_batch_leak, C59_set_leak |
| corrections of F_{2^128} products are not hashed | ram-zk/ostriple.h:108-118 | C61_false |
| corrections of AND gates sent before another user of the channel takes a digest (RAM constructor, checks, destructor) are not covered by the challenge of their check; with more than 128 such gates wrong outputs are accepted for every Delta | bool_io.h:39-43, emp-zk-bool/ostriple.h:144-146, zk-mem.h:22-28, spfss_f2k_sender.h:66, ram-zk/ostriple.h:57-61 | C73_cut_off, C73_false |
| negative floats are negated modulo 2^61 instead of 2^61 - 1: the element is one too large | floats.h:22-23 | C74_negative_off_by_one, C74_false |
| the element 0 is converted to the float 2^(-1-s); -1.0 comes back as +0.5 | floats.h:39-50 | C75_zero_false, C75_roundtrip_false |
| stale pointers after finalize: double delete, use of a deleted backend; one thread pool leaked per arithmetic session | emp-zk-arith.h:12-51, emp-zk-arith/ostriple.h:54-63 | C60_false, C60_leak_false, C60_guard |
| failures recorded after `finalize_zk_bool` are in no verdict | emp-zk-arith.h:46-51 | C71_false |
| the equality test of the MPFSS check is one-sided: the verifier sends the hash of its word and never learns whether the prover's word matches; a prover that sends `x_star + 1` gets the hash of a known word minus Delta (61 bits over F_p) and goes on unnoticed | mpfss_reg.h:201-235, emp-vole-f2k/mpfss.h:171-207 | C78_exposed, C78_unnoticed, C78_false |
| inputs, constants and expected values of p and more are not reduced: for an input `w > p` the subtraction `PR - w` wraps for `min p (w - p)` of the masks and the honest proof is rejected; public constants and factors likewise | emp-zk-arith/ostriple.h:72-73, 84-85, 326, zk_fp_exec_verifier.h:65-67 | C79_input_count, C79_input_false, C79_public_false, C79_constants_false, C79_expected_false |
| the challenge of the second and later AND batches does not cover bits sent before the previous check: a prover that chooses more than 128 inputs after it has fixed the second batch is accepted for every Delta with outputs no inputs produce (an input opened as 1 whose AND with 1 is opened as 0) | emp-zk-bool/ostriple.h:118-121, 144-151, bool_io.h:39-43 | C92_false |
| the challenge of a memory check does not cover rows committed before the last check of an AND batch: with more than CHECK_SZ AND gates (1 M by default) between the rows and the challenge - the comparisons of neighbouring rows of a memory with some ten thousand accesses - the prover knows the challenge before it chooses the rows and can make two different lists pass | extensions/ram-zk/zk-mem.h:128-183, 312-316, ro-zk-mem.h:208-210, zk-mem-ext.h:259, 341, emp-zk-bool/bool_io.h:39-43 | C94_false |
| the seed of the consistency check of a tree over F_{2^128} is the digest of the channel, which covers bits but not the messages of the tree (they travel as raw data); a party with Delta can send trees that every receiver accepts and that make the MACs around each noise position wrong, which reveals the positions when the correlations are used | emp-vole-f2k/spfss_f2k_recver.h:88, spfss_f2k_sender.h:65 (TODO Fiat-Shamir), emp-zk-bool/bool_io.h:39-43, 64-74 | C95_false, C95_digests |
| `ZKRAM::access` with the write flag commits the prover to a fresh input for the stored value; `value` is only revealed to the prover and never compared with it, so a prover can store (and return) anything through `access` | extensions/ram-zk/zk-mem.h:57-80 | C104_false |
| The destructor of `ROZKRAM` does not check: reads since the last check (fewer than eight per element) are never checked unless the program calls `check()` itself, so a prover can return anything for them | extensions/ram-zk/ro-zk-mem.h:18-62 | C106_unchecked |
| `ZkRamExt` allows the first row of an index to be a read: a read of an address that was never written returns whatever the prover likes, and the check passes | extensions/ram-zk/zk-mem-ext.h:227-247 | C107_first |
| `arith2bool` takes the opened sum from the network as a 64-bit word and cuts it to 62 bits, but checks it only modulo p: a prover that sends `sum + p` in place of `sum` is accepted for every `Delta <= p/2` and the bits obtained are those of `x - 2` | auth_helper.h:38-47, edabits.h:227-236, 278-287 | C81_wrong, C81_wrong_count, C81_false, C81_round_trip, C108_wrong, C108_attack, C108_false (on the network) |
| `bool2arith` of an Integer of p + 2 or more (so of every negative one but -1) gives a field element that depends on the random mask: `x` or `x - 2` | edabits.h:151-165, 200-217 | C82_value, C82_count, C82_false, C82_signed |
| the prover uses the 64-bit seed of a polynomial check as it arrives: with a seed of 2^64 - 1 its answer is not reduced to the range of the mask, and the highest bit tells the witnesses 1 and -1 of `x * y = 1` apart, with every mask | emp-zk-arith/polynomial.h:51-61, emp-vole/utility.h:128-134, 188-200 | C90_seed_false, C90_view_partial |

## Trusted base

* The Lean 4.33.0 kernel and the Mathlib modules imported. Every theorem of `Verif/Props` depends on `propext`, `Classical.choice`,
  `Quot.sound` at most (checked with `#print axioms`; no axiom, `sorry`, `native_decide` or `bv_decide` anywhere).
* The reading of the C++ text: each model definition cites its lines and names its simplifications.
* Taken as given (external to the repository): emp-tool `gfmul`, `reduce`, `uni_hash_coeff_gen(block)`, `vector_inn_prdt_sum_red(block)`,
  `GaloisFieldPacking`, `bool_to_block` (by their meaning over F_2[X]/(X^128+X^7+X^2+X+1)); `FerretCOT::rcot`, `BaseCot`, `OTCO`
  (correlations `M = K + b*Delta` with the low bits fixed); PRG, PRP, `TwoKeyPRP`, CCRH (arbitrary functions); `Hash` (arbitrary function, or
  comparison of the hashed data where a theorem says so); the circuits of `Bit`/`Integer`/`Float` (values; `leading_zeros`, `abs`, shifts below the width); `IO` (reliable FIFO); `std::sort`.

### Modelled

| part | files |
|---|---|
| F_p and carry-less arithmetic | emp-vole/utility.h, extensions/ram-zk/gfmul.h |
| boolean protocol | emp-zk-bool/: ostriple.h, triple_auth.h, polynomial.h, bool_io.h, cheat_record.h, zk_prover.h, zk_verifier.h, zk_bool_circuit_exec.h, emp-zk-bool.h |
| arithmetic protocol | emp-zk-arith/: ostriple.h, triple_auth.h, polynomial.h, zk_fp_exec_prover.h, zk_fp_exec_verifier.h, emp-zk-arith.h |
| VOLE over F_p | emp-vole/: cope.h, base_svole.h, preot.h, spfss_*.h, mpfss_reg.h, lpn.h, vole_triple.h |
| VOLE over F_{2^128} | emp-vole-f2k/: base_svole.h, spfss_f2k_*.h, mpfss.h, lpn_f2k.h, svole.h |
| conversions | edabit/edabits.h, auth_helper.h (over the byte channel: `ConvNet`) |
| RAM | extensions/ram-zk/: ostriple.h, poly_prdt.h, zk-mem.h, ro-zk-mem.h, zk-mem-ext.h |
| LowMC | extensions/lowmc.h |
| floats | extensions/floats.h |
| session lifetimes | constructors, destructors and globals of all of the above |

### Not modelled

The forwarding wrappers of int_fp.h (except the batched calls, C86), zk_fp_exec.h and conversion.h beyond the calls they make;
network start-up and seeds from the operating
system; timing; memory exhaustion; data races other than the write sets of the worker tasks; the benchmarks and tests.
