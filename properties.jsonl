{"id": "C01", "title": "Four-byte word stack operations move exactly one word", "statement": "Running the script of u32_push(v) puts the four bytes of v on the main stack with the least significant byte on top and changes nothing else; u32_pick(n) and u32_roll(n) copy, respectively move, the n-th word from the top (counting from 0) to the top, and u32_dup, u32_drop, u32_toaltstack and u32_fromaltstack duplicate, remove and transfer exactly the top word, all other elements keeping their order.", "quantifier": "every u32 value, every word depth n, every main and alt stack content", "why_tests_cant": "stack depth and contents are unbounded; tests run two or three fixed words", "anchors": ["scripts/src/u32/u32_std.rs: u32_push, u32_pick, u32_roll, u32_dup, u32_drop, u32_toaltstack, u32_fromaltstack"]}
{"id": "C02", "title": "32-bit addition script adds modulo 2^32", "statement": "For any two words at distinct depths a and b, the script of u32_add(a,b) keeps word a and consumes word b, u32_add_drop(a,b) consumes both, and both leave the sum modulo 2^32 on top of the stack, the remaining words unchanged and in order.", "quantifier": "all pairs of 32-bit words, all distinct depths, all surrounding stacks", "why_tests_cant": "2^64 operand pairs and unbounded stack shapes; carry propagation errors show only on particular byte patterns", "anchors": ["scripts/src/u32/u32_add.rs: u8_add_carry, u8_add, u32_add, u32_add_drop", "scripts/src/u32/u32_zip.rs: u32_zip, u32_copy_zip"]}
{"id": "C03", "title": "32-bit XOR script computes bitwise XOR through the lookup table", "statement": "With the table pushed by u8_push_xor_table below stack_size-1 words, the script of u32_xor(a,b,stack_size) leaves the bitwise XOR of words a and b on top, consumes exactly word b, keeps word a, and leaves the table and every other element intact; u8_drop_xor_table removes exactly the table.", "quantifier": "all pairs of 32-bit words, all distinct depths below the number of words, all stacks above and below the table", "why_tests_cant": "2^64 operand pairs; a single wrong table entry or depth affects only specific bytes at specific depths", "anchors": ["scripts/src/u32/u32_xor.rs: u8_xor, u32_xor, u8_push_xor_table, u8_drop_xor_table"]}
{"id": "C04", "title": "Rotation script rotates right by any amount", "statement": "For every rotation amount below 32 and every word, the script of u32_rrot(n) replaces the top word by its right rotation by n bits and leaves the rest of the stack unchanged.", "quantifier": "all 32-bit words, all n in 0..31, all stacks below", "why_tests_cant": "tests sample random words; the general path mixes bytes with a per-amount bit split and a byte reorder", "anchors": ["scripts/src/u32/u32_rrot.rs: u32_rrot, u32_rrot7, u32_rrot8, u32_rrot16, u8_extract_hbit, byte_reorder, specific_optimize"]}
{"id": "C05", "title": "Word comparison scripts decide equality", "statement": "u32_equal leaves true exactly when the two top words are equal, u32_notequal leaves true exactly when they differ, and u32_equalverify succeeds exactly when they are equal; each consumes exactly the two words.", "quantifier": "all pairs of words and all stacks below", "why_tests_cant": "a missed byte position is visible only on words that differ in that byte alone", "anchors": ["scripts/src/u32/u32_std.rs: u32_equal, u32_notequal, u32_equalverify"]}
{"id": "C06", "title": "Compressing a word to one script number is faithful", "statement": "For every word below 2^31 u32_compress leaves the script number of the same value, and two different words never compress to the same stack element. (The code violates the second half: 0x80000000 and 0 both become the empty element.)", "quantifier": "all 32-bit words and all stacks below", "why_tests_cant": "the only colliding pair is one in 2^63 pairs", "anchors": ["scripts/src/u32/u32_std.rs: u32_compress"]}
{"id": "C07", "title": "Block-of-four pseudo opcodes act on whole blocks", "statement": "OP_4PICK and OP_4ROLL with the depth n given on the stack copy, respectively move, the four elements at depth n..n+3 to the top preserving their order; OP_4DUP, OP_4DROP, OP_4SWAP, OP_4TOALTSTACK and OP_4FROMALTSTACK act on the top block(s) of four, and OP_4FROMALTSTACK undoes OP_4TOALTSTACK.", "quantifier": "all depths n and all stacks deep enough", "why_tests_cant": "depth and content are unbounded", "anchors": ["scripts/src/pseudo.rs: OP_4PICK, OP_4ROLL, OP_4DUP, OP_4DROP, OP_4SWAP, OP_4TOALTSTACK, OP_4FROMALTSTACK"]}
{"id": "C08", "title": "Replication pseudo opcode makes exactly n copies", "statement": "OP_NDUP(n) leaves n additional copies of the top element above it, and push_to_stack(e,n) pushes exactly n copies of e, for every n, with the remaining stack unchanged.", "quantifier": "all n, all elements, all stacks", "why_tests_cant": "the number of copies is produced by a batching loop whose remainder cases depend on n", "anchors": ["scripts/src/pseudo.rs: OP_NDUP, push_to_stack"]}
{"id": "C09", "title": "Multiplication pseudo opcodes multiply by the stated power of two", "statement": "OP_2MUL, OP_4MUL, OP_16MUL, OP_256MUL and op_2k_mul(k) replace a number x by 2x, 4x, 16x, 256x and 2^k x whenever every intermediate operand fits a 4-byte script number, and fail (never return a wrong number) otherwise.", "quantifier": "all script numbers x, all k", "why_tests_cant": "the overflow boundary depends on k and x jointly", "anchors": ["scripts/src/pseudo.rs: OP_2MUL, OP_4MUL, OP_16MUL, OP_256MUL, op_2k_mul"]}
{"id": "C10", "title": "The BLAKE3 script hashes every 64-byte block correctly", "statement": "For every 64-byte message placed on the stack as the API documents, the script of blake3() leaves exactly the 32-byte BLAKE3 digest of the message on the stack, with nothing else added or removed.", "quantifier": "all 64-byte messages and all stacks below", "why_tests_cant": "2^512 messages; the generated script is tens of thousands of opcodes whose depths are computed by a pointer-tracking generator", "anchors": ["scripts/src/hashes/blake3.rs: blake3, compress, round, permute, G, initial_state, ptr_init, Env"]}
{"id": "C11", "title": "Variable-length BLAKE3 script hashes every length correctly", "statement": "For every length between 1 and 512 bytes (the range the API supports) and every message of that length, the script of blake3_var_length(len) leaves exactly the BLAKE3 digest of the message.", "quantifier": "all lengths in the supported range, all messages, all stacks below", "why_tests_cant": "block count, padding, flags and chaining depend on the length; messages are unbounded in number", "anchors": ["scripts/src/hashes/blake3.rs: blake3_var_length"]}
{"id": "C12", "title": "Pointer map of the BLAKE3 generator always names the right word", "statement": "Throughout the generation of one compression, after every emitted fragment the depth the generator has recorded for each state or message word is the depth at which the running script holds that word, and the recorded depths are distinct and cover all tracked words.", "quantifier": "all prefixes of the generated script, all messages", "why_tests_cant": "it is an invariant over every step of the generation, not an input/output example", "anchors": ["scripts/src/hashes/blake3.rs: Ptr, Env, ptr_insert, ptr_extract, ptr"]}
{"id": "C13", "title": "A signed digit vector always verifies and is recovered", "statement": "For every secret key and every 32-bit value, running the signature produced for it followed by the verification script generated from the corresponding public key succeeds and leaves exactly the message digits, from which the recovery script rebuilds the four bytes of the value.", "quantifier": "all secrets, all values, any hash function, all stacks below", "why_tests_cant": "2^32 values times all keys; failures depend on digits with particular values (0 and 15) and checksum digits", "anchors": ["scripts/src/bit_comm/winternitz.rs: Winternitz::sign, checksig_verify, checksum, to_digits, generate_public_key", "scripts/src/bit_comm/bit_comm_u32.rs: BitCommitmentU32"]}
{"id": "C14", "title": "The verification script accepts only chain-consistent signatures", "statement": "Whenever the verification script accepts a witness, for every position the claimed digit d is between 0 and 15 after clamping, hashing the supplied preimage 15-d times gives the public key of that position, and the two checksum digits equal the checksum of the message digits.", "quantifier": "all witnesses (any byte strings on the stack), all public keys, any hash function", "why_tests_cant": "the adversary's witness ranges over arbitrary byte strings, including negative and oversized digits", "anchors": ["scripts/src/bit_comm/winternitz.rs: checksig_verify"]}
{"id": "C15", "title": "Signing a second message needs a fresh hash preimage", "statement": "If a message and its checksum digits are signed, then any accepted digit vector that differs from it in at least one position has a position with a strictly smaller digit, so the witness contains a value whose further hashing yields a chain element that the first signature did not reveal.", "quantifier": "all pairs of distinct messages, all witnesses", "why_tests_cant": "quantifies over all pairs of messages; the argument is the checksum domination lemma", "anchors": ["scripts/src/bit_comm/winternitz.rs: checksum, to_digits, sign, checksig_verify"]}
{"id": "C16", "title": "Digit decomposition and checksum are lossless", "statement": "to_digits(v,8) returns eight digits below 16 whose base-16 value is v for every 32-bit v, the checksum of any eight digits is between 0 and 120 and fits the two checksum digits exactly.", "quantifier": "all 32-bit values, all digit vectors", "why_tests_cant": "2^32 values", "anchors": ["scripts/src/bit_comm/winternitz.rs: to_digits, Winternitz::checksum, LOG_D, DIGITS, N0, N1"]}
{"id": "C17", "title": "A committed value check accepts exactly the committed value", "statement": "recover_message_euqal_to_commit_message succeeds on a valid signature of v exactly when the commitment's current value is v. (For values at or above 2^31 the code compares a sign-magnitude number with a five-byte positive number and rejects the honest signature.)", "quantifier": "all 32-bit values", "why_tests_cant": "needs the boundary at 2^31 and all values around it", "anchors": ["scripts/src/bit_comm/bit_comm_u32.rs: recover_message_euqal_to_commit_message, recover_message_at_stack", "scripts/src/u32/u32_std.rs: u32_compress"]}
{"id": "C18", "title": "The x-or-minus-x check accepts exactly x and its negation", "statement": "The script of check_equal_x_or_neg_x_script accepts a pair of words exactly when one equals the other or its additive inverse in the field. (The code compares byte by byte and violates this in both directions.)", "quantifier": "all pairs of words", "why_tests_cant": "violations are byte mixtures of x and -x that no fixed test contains", "anchors": ["scripts/src/bit_comm/bit_comm_u32.rs: check_equal_x_or_neg_x_script"]}
{"id": "C19", "title": "Leaf index map of the built tree is correct", "statement": "After adding any power-of-two number of scripts and building the tree, the leaf returned for index i is the i-th added script, whatever order the taproot library puts each pair of children in; the index map is a permutation.", "quantifier": "all leaf counts that are powers of two, all scripts, all per-node orderings decided by node hashes", "why_tests_cant": "the child order at each of n-1 nodes depends on hash values: 2^(n-1) histories", "anchors": ["basic/src/tcs/builder.rs: TreeBuilder::add_leaf, build_tree, reverse_idx_dict", "basic/src/tcs/complete_taptree.rs: get_tapleaf"]}
{"id": "C20", "title": "Every leaf of a built tree has an accepted inclusion proof", "statement": "For every built tree with at least two leaves and every index, the inclusion proof returned for that index verifies against the tree's root; single-leaf trees are handled as well. (The code panics on a single-leaf tree and one of the two checking entry points looks up a different leaf.)", "quantifier": "all trees, all indices", "why_tests_cant": "tree depth and shape are unbounded", "anchors": ["basic/src/tcs/complete_taptree.rs: verify_inclusion, verify_inclusion_by_index, get_leaf_proof", "basic/src/tcs/mod.rs: query_proof, verify_proof"]}
{"id": "C21", "title": "An accepted inclusion proof binds the script to the root", "statement": "If an inclusion proof for a script verifies against the root of a tree, then either the script is one of the tree's leaves or two different inputs with the same node or leaf hash can be computed from the proof and the tree.", "quantifier": "all trees, all candidate scripts and paths, any hash functions", "why_tests_cant": "adversarial proofs range over all paths", "anchors": ["basic/src/tcs/complete_taptree.rs: verify_inclusion", "basic/src/tcs/mod.rs: verify_proof"]}
{"id": "C22", "title": "Combining two trees keeps both index spaces addressable", "statement": "After combining tree A with tree B, index i < |A| addresses leaf i of A and index |A|+j addresses leaf j of B, for either child order.", "quantifier": "all pairs of trees, both child orders", "why_tests_cant": "order depends on hashes; sizes unbounded", "anchors": ["basic/src/tcs/complete_taptree.rs: combine, combine_other_script", "basic/src/tcs/mod.rs: combine_two_nodes"]}
{"id": "C23", "title": "Leaf rows of a commitment hold every matrix row at the right replication", "statement": "Committing several matrices of power-of-two heights produces, at leaf index i, the concatenation over the matrices (tallest first, ties in input order) of row i >> (log max height - log height).", "quantifier": "all lists of matrices with power-of-two heights, all indices", "why_tests_cant": "number and heights of matrices are unbounded", "anchors": ["basic/src/tcs/mod.rs: padding_matrix, commit_polys"]}
{"id": "C24", "title": "Opening an index returns the committed rows and verifies", "statement": "For matrices given in non-increasing height order, opening any index returns exactly row index >> (log max height - log height) of each matrix and the returned opening verifies against the commitment.", "quantifier": "all matrix lists, all indices, all query times", "why_tests_cant": "unbounded families of matrices and indices", "anchors": ["basic/src/mmcs/taptree_mmcs.rs: open_batch, verify_batch, commit", "basic/src/tcs/mod.rs: open_with_one_query, verify"]}
{"id": "C25", "title": "An accepted opening is bound to the queried index", "statement": "If an opening is accepted for a query index then the opened values are those committed at that index. (The code checks against the index contained in the proof, chosen by the prover, and never against the queried index.)", "quantifier": "all proofs, all indices", "why_tests_cant": "requires considering every proof an adversary may submit", "anchors": ["basic/src/tcs/mod.rs: verify, CommitedProof", "fri/src/two_adic_pcs.rs: verify", "basic/src/mmcs/taptree_mmcs.rs: verify_batch"]}
{"id": "C26", "title": "An accepted opening fixes every opened value", "statement": "If an opening is accepted, every opened value presented was checked against a committed value; surplus or missing values are rejected.", "quantifier": "all lists of opened values of all lengths", "why_tests_cant": "requires all lengths", "anchors": ["basic/src/tcs/mod.rs: verify, generate_script, set_commited_value"]}
{"id": "C27", "title": "The leaf script accepts exactly the committed index and evaluations", "statement": "The script of a committed leaf, run on the witness generated for the same index and evaluations, succeeds; and if it succeeds on any witness, then the index recovered from the witness is the leaf's index and each recovered evaluation word is the committed word.", "quantifier": "all indices, all evaluation lists, all witnesses", "why_tests_cant": "adversarial witnesses, unbounded number of evaluations", "anchors": ["basic/src/tcs/mod.rs: generate_script, generate_witness"]}
{"id": "C28", "title": "Transcript splitting does not matter", "statement": "Observing a commitment as one array, as a hash object, as nested vectors or word by word leaves the challenger in the same state, so prover and verifier that observe the same words in the same order draw the same challenges whatever the grouping.", "quantifier": "all sequences of words, all groupings, all challenger states", "why_tests_cant": "unbounded observation sequences", "anchors": ["basic/src/challenger/mod.rs: CanObserve impls, observe"]}
{"id": "C29", "title": "No challenge is served from stale output", "statement": "Any challenge drawn after an observation is computed from a permutation call made after that observation, and every permutation call's input contains all the words observed since the previous call, in order.", "quantifier": "all interleavings of observe and sample of any length", "why_tests_cant": "quantifies over histories of unbounded length", "anchors": ["basic/src/challenger/mod.rs: observe, duplexing, sample"]}
{"id": "C30", "title": "Sampled query indices cover exactly the requested range", "statement": "sample_bits(b) returns a value below 2^b, and every value below 2^b is the result for some permutation output. (The code can never return the upper half: results are below 15/16 of 2^(b-1).)", "quantifier": "all b up to 32, all permutation outputs", "why_tests_cant": "an unreachable range cannot be seen from samples that are in range", "anchors": ["basic/src/challenger/mod.rs: sample_bits, as_usize", "basic/src/challenger/chan_field.rs: from_pf"]}
{"id": "C31", "title": "Proof-of-work witness found by the prover is accepted by the verifier", "statement": "Whenever grind(bits) returns a witness, check_witness(bits, witness) on a challenger in the state before grinding returns true, and afterwards both challengers are in the same state and produce the same further challenges.", "quantifier": "all challenger states, all bits, any permutation, whichever witness the parallel search finds", "why_tests_cant": "the search is parallel and nondeterministic; states are unbounded", "anchors": ["basic/src/challenger/mod.rs: grind, check_witness"]}
{"id": "C32", "title": "The grinding search space covers all witnesses", "statement": "grind tries every 32-bit witness before giving up. (The code only tries the 4096 smallest and panics when none of them works.)", "quantifier": "all challenger states and bit counts", "why_tests_cant": "depends on the hash values of all candidates", "anchors": ["basic/src/challenger/chan_field.rs: mod_p", "basic/src/challenger/mod.rs: grind"]}
{"id": "C33", "title": "Challenger word and byte conversions are lossless and canonical", "statement": "Converting a 32-byte digest to eight words and back is the identity in both directions, integers below 2^32 survive the word encoding, and field elements sampled from a word are canonical and congruent to the little-endian value of the word.", "quantifier": "all byte arrays and words", "why_tests_cant": "2^256 digests", "anchors": ["basic/src/challenger/chan_field.rs: u256_to_u32, u32_to_u256, from_u64, from_pf"]}
{"id": "C34", "title": "The script challenger mirrors the native challenger", "statement": "For every protocol transcript, the value that the script expression challenger's generated expression evaluates to equals the native challenger's sample. (Holds when every sample is preceded by an observation; violated by consecutive samples, because the script challenger discards the rest of an output block.)", "quantifier": "all sequences of observe and sample", "why_tests_cant": "unbounded histories; the divergence needs two samples without an observation between them", "anchors": ["script_expr/src/challenger_expr.rs: observe, duplexing, sample, sample_bits, check_witness", "basic/src/challenger/mod.rs: sample"]}
{"id": "C35", "title": "Folding one row equals folding the whole matrix", "statement": "The value the verifier computes for pair index i with fold_row equals entry i of the vector the prover computes with fold_matrix, for every beta, every height and every matrix of two columns.", "quantifier": "all power-of-two heights, all rows, all field elements", "why_tests_cant": "unbounded heights, all field values", "anchors": ["fri/src/two_adic_pcs.rs: fold_row, fold_matrix"]}
{"id": "C36", "title": "Folding evaluations evaluates the folded polynomial", "statement": "If the vector holds, in bit-reversed order, the evaluations of a polynomial p on the two-adic subgroup of order 2n, then the folded vector holds, in bit-reversed order, the evaluations on the subgroup of order n of p_even + beta*p_odd, whose degree is at most half.", "quantifier": "all polynomials, all n, all beta", "why_tests_cant": "quantifies over all polynomials", "anchors": ["fri/src/two_adic_pcs.rs: fold_matrix", "fri/src/fold_even_odd.rs: fold_even_odd"]}
{"id": "C37", "title": "An honest FRI proof passes every query", "statement": "For every list of inputs of strictly decreasing power-of-two lengths above the blowup, each a low-degree evaluation vector, every sequence of betas and every query index, the folding checks of the query succeed and end in the prover's final value.", "quantifier": "all inputs, betas, query indices", "why_tests_cant": "unbounded sizes; all indices", "anchors": ["fri/src/prover.rs: bf_commit_phase, bf_answer_query", "fri/src/verifier.rs: verify_query"]}
{"id": "C38", "title": "The verifier links the input polynomials to the first FRI layer", "statement": "A query is accepted only if the combination of the opened input polynomials at the query point equals the value committed in the first FRI layer. (The code skips the comparison in the first round and discards the combination, so acceptance does not depend on it.)", "quantifier": "all proofs and query indices", "why_tests_cant": "needs an adversarial proof that no honest prover outputs", "anchors": ["fri/src/verifier.rs: verify_query (log_folded_height < log_max_height - 1)"]}
{"id": "C39", "title": "Proofs with missing folding rounds are rejected", "statement": "A FRI proof whose query does not contain one opening per commitment is rejected. (The code zips the lists and silently checks the common prefix.)", "quantifier": "all proofs", "why_tests_cant": "adversarial proof shapes", "anchors": ["fri/src/verifier.rs: verify_query, verify_shape_and_sample_challenges"]}
{"id": "C40", "title": "Verifier acceptance implies consistent folding of committed values", "statement": "If a query with as many openings as commitments is accepted, then every committed pair was accepted by the commitment scheme, each later round's committed value at the query position is the fold of the previous pair plus the reduced opening of that height, and the last fold equals the final value.", "quantifier": "all proofs, all betas, all indices", "why_tests_cant": "adversarial proofs", "anchors": ["fri/src/verifier.rs: verify_query, verify_challenges"]}
{"id": "C41", "title": "Invalid proofs are reported as errors, not panics", "statement": "Verification of any proof returns Ok or Err. (The code panics: mismatching folds hit an assertion, and FRI errors are unwrapped by the polynomial commitment layer.)", "quantifier": "all proofs", "why_tests_cant": "adversarial proofs", "anchors": ["fri/src/verifier.rs: verify_query", "fri/src/two_adic_pcs.rs: verify"]}
{"id": "C42", "title": "Prover and verifier form the same batched opening", "statement": "For every set of matrices, opening points and claimed values, the batched quotient value the prover folds at row index of height h equals the value the verifier recomputes for the query index restricted to height h.", "quantifier": "all matrices, widths, points, alpha, indices", "why_tests_cant": "offset bookkeeping of alpha powers depends on the number and order of matrices per height", "anchors": ["fri/src/two_adic_pcs.rs: open, verify"]}
{"id": "C43", "title": "The script folding expression equals the native fold", "statement": "For every query position, the expression built for a folding step evaluates to the native fold_row value whenever the folded value matches the committed value, and the running point expression equals the point of that layer. (With blowup 1 the code stops squaring one round early.)", "quantifier": "all indices, heights, field elements", "why_tests_cant": "all indices and heights", "anchors": ["fri/src/two_adic_pcs.rs: fold_row_with_expr", "fri/src/script_verifier.rs: bf_verify_query"]}
{"id": "C44", "title": "Symbolic degree bounds the true constraint degree", "statement": "For every symbolic constraint, substituting trace polynomials of degree below n and the selector polynomials gives a polynomial of degree at most degree_multiple*(n-1)+... i.e. within the bound the quotient domain is sized for.", "quantifier": "all symbolic expressions, all trace polynomials", "why_tests_cant": "unbounded expressions", "anchors": ["uni-stark/src/symbolic_expression.rs: degree_multiple", "uni-stark/src/symbolic_variable.rs: degree_multiple"]}
{"id": "C45", "title": "The chosen number of quotient chunks is sufficient and minimal", "statement": "For every maximal constraint degree d, the number of quotient chunks is the least power of two not below max(d,2)-1.", "quantifier": "all degrees d", "why_tests_cant": "all naturals", "anchors": ["uni-stark/src/symbolic_builder.rs: get_log_quotient_degree"]}
{"id": "C46", "title": "Constraint folding agrees between prover, verifier and script", "statement": "For every list of constraint values and every alpha, the prover's folder, the verifier's folder and the script expression builder produce the same combination, sum of alpha^(k-1-i) c_i. (The script builder panics on an empty list.)", "quantifier": "all constraint lists, all alpha", "why_tests_cant": "unbounded lists", "anchors": ["uni-stark/src/folder.rs: assert_zero", "script_expr/src/script_builder.rs: get_accmulator_expr"]}
{"id": "C47", "title": "Quotient chunks recombine to the quotient polynomial", "statement": "For disjoint chunk cosets covering the quotient domain, the verifier's weighted sum of the chunk values at zeta equals the value at zeta of the unique polynomial of degree below the quotient domain size agreeing with the chunk polynomials on their cosets.", "quantifier": "all chunk counts, all polynomials, all zeta", "why_tests_cant": "quantifies over polynomials and field points", "anchors": ["uni-stark/src/verifier.rs: verify (zps, quotient)", "uni-stark/src/prover.rs: quotient_values"]}
{"id": "C48", "title": "Out-of-domain check is sound and complete", "statement": "If all constraints hold on every row then the out-of-domain identity holds at every zeta outside the domain; if the folded constraint polynomial does not vanish on the trace domain, the identity fails for all but a number of zeta bounded by its degree.", "quantifier": "all traces, all constraints, all zeta", "why_tests_cant": "universal over polynomials", "anchors": ["uni-stark/src/verifier.rs: verify", "uni-stark/src/prover.rs: prove"]}
{"id": "C49", "title": "Selector values characterise first, last and transition rows", "statement": "On the trace domain the first-row selector is nonzero exactly at the first point, the last-row selector exactly at the last point and the transition selector is zero exactly at the last point.", "quantifier": "all domain sizes, all points", "why_tests_cant": "all domain sizes", "anchors": ["uni-stark/src/prover.rs: quotient_values", "uni-stark/src/verifier.rs: verify", "script_expr/src/lagrange.rs: selectors_at_point_expr"]}
{"id": "C50", "title": "Debug constraint check accepts exactly the valid traces", "statement": "check_constraints returns without panic exactly when every constraint is zero on every row, with the next row taken cyclically and the first/last/transition flags of that row.", "quantifier": "all traces, all constraint sets", "why_tests_cant": "unbounded traces", "anchors": ["uni-stark/src/check_constraints.rs: check_constraints"]}
{"id": "C51", "title": "Malformed proofs are rejected by shape before use", "statement": "verify returns the invalid-shape error exactly when the opened values do not have the trace width, the number of quotient chunks or the extension degree the instance requires.", "quantifier": "all proofs", "why_tests_cant": "all shapes", "anchors": ["uni-stark/src/verifier.rs: verify"]}
{"id": "C52", "title": "Challenges depend on the public values", "statement": "Two runs that differ only in public values draw challenges that depend on them. (The code does not observe public values or the trace length; all challenges are independent of them.)", "quantifier": "all public values and proofs", "why_tests_cant": "absence of a dependency is a statement about all inputs", "anchors": ["uni-stark/src/prover.rs: prove", "uni-stark/src/verifier.rs: verify"]}
{"id": "C53", "title": "Coset vanishing polynomial helper is correct", "statement": "ZerofierOnCoset evaluated at index i of the larger coset equals the vanishing polynomial of the trace subgroup at that point, the inverse evaluation is its inverse, and the unnormalised Lagrange basis is the vanishing polynomial divided by (x - point).", "quantifier": "all sizes, rates and indices", "why_tests_cant": "periodicity of the table over all indices", "anchors": ["uni-stark/src/zerofier_coset.rs: ZerofierOnCoset"]}
{"id": "C54", "title": "Sharing subexpressions does not change the compiled script's result", "statement": "For every expression built from single-output operations, the script generated with common-subexpression sharing leaves the same value on top of the same stack as the mathematical value of the expression, and the alt stack is left as it was found.", "quantifier": "all expressions with any sharing, all inputs", "why_tests_cant": "unbounded expression DAGs and sharing patterns", "anchors": ["script_expr/src/lib.rs: Expression::express_to_script, simulate_express", "script_expr/src/alias.rs: express"]}
{"id": "C55", "title": "Binary field operators respect operand order and size", "statement": "For every mix of base and extension operands, the scripts generated for addition, subtraction and multiplication compute lhs op rhs in the field.", "quantifier": "all operand values and size combinations", "why_tests_cant": "all field elements; subtraction order errors are invisible for symmetric inputs", "anchors": ["script_expr/src/script_gen.rs: op_add, op_sub, op_mul"]}
{"id": "C56", "title": "Bit decomposition, reversal and extraction scripts are exact", "statement": "The generated scripts turn an index that fits the bit length into its bits and its bit-reversed index, and a sample below 2^31 into its high bits, exactly as reverse_bits_len and a right shift do, for every bit length they accept. (An index that does not fit is not rejected, and compressed words with the top bit set are read in another encoding.)", "quantifier": "all values and bit lengths", "why_tests_cant": "all values", "anchors": ["script_expr/src/script_helper.rs: value_to_bits_format, compress_bits, compress_custom_bits, reverse_bits_len_script, index_to_reverse_index, value_32_bits_to_altstack"]}
{"id": "C57", "title": "Root-of-unity script computes the generator power", "statement": "index_to_rou(i, b) leaves the i-th power of the primitive 2^b-th root of unity for every i < 2^b and fails for larger i.", "quantifier": "all b up to 27, all i", "why_tests_cant": "2^27 indices per b", "anchors": ["script_expr/src/script_helper.rs: index_to_rou, push_two_adic_generator_table, value_to_generator_bit_altstack"]}
{"id": "C58", "title": "Sampled words reduce to the canonical field element", "statement": "The script of u32_to_u31 applied to a compressed word leaves the canonical residue of that word modulo the field order, equal to the native conversion.", "quantifier": "all 32-bit words", "why_tests_cant": "2^32 words, boundaries at p, 2^31, 2^31+... ", "anchors": ["scripts/src/lib.rs: u31_lib::u32_to_u31", "scripts/src/u32/u32_std.rs: u32_compress", "basic/src/challenger/chan_field.rs: from_pf"]}
{"id": "C59", "title": "All hint checks must hold for a script to accept", "statement": "A script with embedded hint checks accepts only if the main check and every hint check hold. (The code chains them with equality, so an even number of failing checks is accepted.)", "quantifier": "all numbers of hints and all outcomes", "why_tests_cant": "needs combinations of failing checks", "anchors": ["script_expr/src/input_manager.rs: embed_hint_verify, add_hint_verify, set_exec_dsl"]}
{"id": "C60", "title": "Table lookup script returns the indexed entry", "statement": "A table pushed by the table operation and a lookup with index i returns entry i and leaves the rest of the stack unchanged, for every table and every index below its length. (An index past the end is not rejected and returns an element from below the table.) The same holds for the lookup as an expression: compared with a value it gives a script that succeeds exactly when the entry is that value, and two lookups may share one table. A lookup in a table of extension elements is refused when the script is generated.", "quantifier": "all tables, all indices", "why_tests_cant": "unbounded tables", "anchors": ["script_expr/src/script_gen.rs: op_table, op_lookup"]}
{"id": "C61", "title": "Distinct value counter counts distinct values", "statement": "After any sequence of get_or_set calls the number reported is the number of distinct values passed, and equal values always receive the same handle.", "quantifier": "all call sequences", "why_tests_cant": "unbounded histories", "anchors": ["script_expr/src/value_manager.rs: ValueCounter"]}
{"id": "C62", "title": "Script arithmetic in the 31-bit field is correct and canonical", "statement": "For canonical inputs, the field addition, doubling, subtraction and multiplication scripts leave the canonical residue of the result, never exceeding the 4-byte operand limit in between.", "quantifier": "all canonical operands", "why_tests_cant": "2^62 operand pairs", "anchors": ["scripts/src/u31/mod.rs: u31_add, u31_sub, u31_double, u31_mul, u31_to_bits"]}
{"id": "C63", "title": "Digits convert to a 32-bit number", "statement": "convert_digits_to_u32 applied to the digits of a value leaves the value for every digit size and count in range.", "quantifier": "all digit vectors", "why_tests_cant": "all values", "anchors": ["scripts/src/u31/mod.rs: convert_digits_to_u32"]}
{"id": "C64", "title": "Query expressions read the opening at the queried position", "statement": "For every query index and round, the pair the prover opens contains the value at the queried position and its sibling, and the position inside the pair is the low bit of the shifted index.", "quantifier": "all indices and rounds", "why_tests_cant": "all indices", "anchors": ["fri/src/prover.rs: bf_answer_query", "fri/src/verifier.rs: verify_query", "fri/src/proof.rs: get_leaf_index_by_query_index"]}
{"id": "C65", "title": "The 160-bit BLAKE3 script leaves the truncated digest", "statement": "For every 40-byte message on the stack, the 160-bit script consumes exactly the message and leaves exactly the first 20 bytes of its BLAKE3 digest, with the rest of both stacks unchanged.", "quantifier": "all 40-byte messages, all stacks", "why_tests_cant": "2^320 messages", "anchors": ["scripts/src/hashes/blake3.rs: blake3_160, compress_160"]}
{"id": "C66", "title": "Digest comparison scripts accept exactly the right digest", "statement": "Hashing a message, pushing expected digest bytes from hex and running the digest comparison script succeeds if and only if the expected bytes are the digest, and leaves the stacks as they were before the message.", "quantifier": "all messages, all expected digests, all stacks", "why_tests_cant": "a comparison that skips one word passes every positive test", "anchors": ["scripts/src/hashes/blake3.rs: push_bytes_hex, blake3_hash_equalverify, blake3_160_hash_equalverify"]}
{"id": "C67", "title": "A multi-word commitment recovers all its words in order", "statement": "For every list of words and keys, the witness of the commitment run through check_and_recover leaves exactly the words, first word on top, and restores both stacks otherwise.", "quantifier": "all word lists, all keys, any 20-byte hash, all stacks", "why_tests_cant": "lists of any length and every word value", "anchors": ["scripts/src/bit_comm/bit_comm.rs: BitCommitment::new, check_and_recover, witness, recover_message_at_altstack, message_from_altstack"]}
{"id": "C68", "title": "A commitment key vouches for one value", "statement": "After a commitment has been re-bound to another value and both values have been signed, a third value still cannot be signed without the secret. (The code re-signs with the same one-time key and violates this.)", "quantifier": "all keys, all values", "why_tests_cant": "the forgery mixes parts of two signatures; no test combines them", "anchors": ["scripts/src/bit_comm/bit_comm_u32.rs: change_value, signature", "scripts/src/bit_comm/bit_comm.rs: new_with_commits"]}
{"id": "C69", "title": "One-time operators are never used for two query commitments", "statement": "Committing the same matrices once per query assigns fresh bit commitment operators to every commitment: no operator serves two values of a leaf or two query commitments, provided the manager does not repeat itself.", "quantifier": "all matrices, all query counts, all managers", "why_tests_cant": "reuse shows only when signatures of two queries are combined", "anchors": ["basic/src/tcs/mod.rs: commit_polys, commit_poly_with_query_times"]}
{"id": "C70", "title": "Challenges bind the transcript", "statement": "Two different sequences of observed words never lead to the same challenges, short of a collision of the hash. (Trailing zero words are invisible, so the code violates this.)", "quantifier": "all pairs of histories, any hash function", "why_tests_cant": "tests compare equal transcripts only; the ambiguity needs a transcript ending in zero words", "anchors": ["basic/src/challenger/mod.rs: BfChallenger::duplexing, Blake3Permutation::permute_mut"]}
{"id": "C71", "title": "The proof-of-work check hashes exactly the padded witness", "statement": "Checking a witness absorbs it with seven zero words as one full block on top of the current transcript, by exactly one permutation call, and accepts exactly when the requested number of top bits of the drawn element are zero.", "quantifier": "all challenger states without pending words, all permutations, witnesses and bit counts", "why_tests_cant": "an incompletely padded block gives the same result with the production permutation in most states", "anchors": ["basic/src/challenger/mod.rs: check_witness"]}
{"id": "C72", "title": "An honest polynomial opening verifies and returns the true values", "statement": "Opening honestly committed batches returns the committed polynomials' values at the requested points, and the verifier, starting from the same transcript with these values, accepts and ends in the prover's transcript state. Committing extends each batch from its own domain to the fixed coset of the enlarged subgroup.", "quantifier": "all batches, matrix heights and widths, domains with nonzero shift, points outside the coset, challenges", "why_tests_cant": "tests open a few fixed matrices at one point with one seed", "anchors": ["fri/src/two_adic_pcs.rs: commit, open, verify, compute_inverse_denominators"]}
{"id": "C73", "title": "Claimed opened values are bound by verification", "statement": "Changing a claimed opened value makes polynomial-opening verification fail unless the low-degree test is fooled. (The verifier ignores the values of every matrix of the largest height, so the code violates this.)", "quantifier": "all claimed values, commitments, proofs", "why_tests_cant": "tests only verify values that the prover returned", "anchors": ["fri/src/two_adic_pcs.rs: verify", "fri/src/verifier.rs: verify_query"]}
{"id": "C74", "title": "Polynomial-opening verification reports invalid proofs as errors", "statement": "An invalid opening proof makes verification return an error rather than abort. (Every failure is unwrapped inside, so the code violates this.)", "quantifier": "all proofs", "why_tests_cant": "tests only verify honest proofs", "anchors": ["fri/src/two_adic_pcs.rs: verify"]}
{"id": "C75", "title": "An accepted proof needs a satisfying trace", "statement": "If no trace satisfies the constraints with the given public values, no proof is accepted, except for an unlikely choice of the challenges. (The opened values are not bound to the commitments, so the code violates this: a proof of any statement can be turned into an accepted proof of any other.)", "quantifier": "all constraint sets, public values, proofs, challengers and hash functions", "why_tests_cant": "tests only verify honestly generated proofs", "anchors": ["uni-stark/src/verifier.rs: verify", "fri/src/two_adic_pcs.rs: verify"]}
{"id": "C76", "title": "Unary field operators, powers and equality checks", "statement": "For every field element, base or extension, the scripts generated for negation, doubling, squaring and raising to a constant power of two compute that operation (other exponents are refused at generation), a number below 2^31 becomes the field element it denotes, and the equality check passes exactly for equal elements. (Converting a number whose declared size is 4 leaves three elements too many.)", "quantifier": "all field elements, all exponents", "why_tests_cant": "all field elements; wrong coordinates are invisible for base elements", "anchors": ["script_expr/src/script_gen.rs: op_neg, op_double, op_square, op_expconst, op_num_to_field, op_euqal, op_euqalverify, op_4_u32_to_u32", "script_expr/src/script_helper.rs: value_exp_n"]}
{"id": "C77", "title": "The script verifier checks the challenges of the native verifier", "statement": "In the script verifier, the generated script for the challenges accepts exactly when the challenges used to build all other scripts (alpha, zeta, the folding challenges, the query indices) are those derived from the commitments, and accepts those of an honest proof. (Query indices follow each other in the transcript, where the script's challenger departs from the native one; and their failed checks cancel in pairs. So the code violates this in both directions.)", "quantifier": "all commitments, FRI proofs, numbers of queries", "why_tests_cant": "the end-to-end test uses one proof with an even number of queries, where the failures cancel", "anchors": ["fri/src/script_verifier.rs: bf_sample_challenges", "uni-stark/src/script_verifier.rs: generate_script_verifier", "fri/src/two_adic_pcs.rs: generate_verify_expr"]}
{"id": "C78", "title": "The quotient check of the script verifier", "statement": "For every number of quotient chunks the script verifier's check of the quotient value can be built, and the script succeeds exactly when the supplied inverse denominators are the inverses and the claimed quotient value is the combination of the opened chunk values that the native verifier computes.", "quantifier": "all degrees, generators, numbers of chunks, opened chunk values, supplied denominators and claimed values", "why_tests_cant": "The test has a single chunk; the assertion that fails is reached only with two or more.", "anchors": ["uni-stark/src/scripts/bf_unistark.rs: compute_quotient_expr", "uni-stark/src/scripts/utils.rs: get_table", "script_expr/src/alias.rs: mul_ext, sub_ext, mul_base, sub_base"]}
{"id": "C79", "title": "The opening checks of the script verifier", "statement": "In the script verifier, every query script accepts exactly when the values reduced from the opened rows and the claimed values at the opening points, folded with the opened siblings, give the final value of the proof; scripts are generated and accept wherever the native opening verification accepts and its top row holds the reduced opening; and a script accepts the inputs of its own opening points only. (The points enter the script only through supplied inverses that nothing checks, so the code violates the last part.)", "quantifier": "all opening claims, numbers of batches, matrices, points and columns, folding challenges, query indices, opened rows", "why_tests_cant": "the end-to-end test runs honest inputs of one proof", "anchors": ["fri/src/two_adic_pcs.rs: generate_verify_expr", "fri/src/script_verifier.rs: bf_verify_challenges, bf_verify_query"]}
{"id": "C80", "title": "The constraint script of the script verifier", "statement": "For every AIR, the script that recomputes the folded constraints in the script verifier can be generated, and it accepts exactly when the value it is compared with is the combination by powers of alpha of the constraint values at the opened rows; so it accepts the accumulator of the native verifier. (An AIR without assertions panics.)", "quantifier": "all AIRs, opened rows, public values, trace sizes, points outside the two excluded ones, alpha and claimed values", "why_tests_cant": "the end-to-end test runs one Fibonacci AIR at one point with the right value", "anchors": ["uni-stark/src/script_verifier.rs: generate_script_verifier", "script_expr/src/script_builder.rs: ScriptConstraintBuilder", "script_expr/src/lagrange.rs: selectors_at_point_expr"]}
{"id": "C81", "title": "Selectors as expressions", "statement": "For every coset and every point where the native selectors exist, the selector expressions have the values of the native selectors, and the expression for the vanishing polynomial has its value. (The exponent is written with an exclusive or, and one is not subtracted, so the last part is violated.)", "quantifier": "all cosets, points", "why_tests_cant": "the only test compares the first three at one point of the unshifted domain", "anchors": ["script_expr/src/lagrange.rs: selectors_at_point_expr"]}
{"id": "C82", "title": "The script verifier and the native verifier agree", "statement": "For every AIR, proof and public values, the script verifier succeeds exactly when the native verifier accepts; in particular it succeeds on every honest proof. (An AIR with two or more quotient chunks panics, and so does the proof of a trace with one row; every query index is compared with one from another part of the transcript and failed comparisons cancel in pairs; so the code violates this.)", "quantifier": "all AIRs, traces, proofs, public values, commitment schemes, numbers of queries", "why_tests_cant": "the end-to-end test runs one honest proof with an even number of queries and a single chunk", "anchors": ["uni-stark/src/script_verifier.rs: generate_script_verifier", "uni-stark/src/verifier.rs: verify"]}
{"id": "C83", "title": "FRI soundness error", "statement": "A prover whose committed word is far from every polynomial of the degree bound passes all queries only for a small share of the challenges and query indices: at most (m + rounds) / |F| + (1 - (m + 1) / domain)^queries when the word differs from every such polynomial in more than m positions and m is up to a third of the minimum distance, at most (m (m + degree bound) / 3 + rounds) / |F| + (1 - (m + 1) / domain)^queries when m is up to half of it, also if it chooses later words and the final value after seeing the earlier challenges. The values claimed for the inputs of every height are bound in the same way. (The first part holds, in the unique-decoding regime and for openings bound to the committed words; the second does not: words that cancel the inputs pass at every index.)", "quantifier": "all provers, fields, numbers of rounds, blowups, numbers of queries", "why_tests_cant": "a statement about all provers and about probabilities; tests run honest provers", "anchors": ["fri/src/verifier.rs: verify_query", "fri/src/verifier.rs: verify_challenges"]}
{"id": "C84", "title": "Proofs without content are refused", "statement": "A proof that opens nothing - no commitments of folded words and, for every query, neither input openings nor openings of folded words - is refused by the verification of openings, by the STARK verifier and by the script verifier, whatever the claimed values, the AIR and the public values are. (Violated: it is accepted by the verification of openings for all claims, and by the STARK verifier for every AIR and public values once the quotient values are computed from the challenges. The script verifier succeeds on it as on honest proofs.)", "quantifier": "all AIRs, public values, commitments, claimed values, configurations", "why_tests_cant": "tests verify honest proofs only; nothing checks how many openings a proof contains", "anchors": ["fri/src/verifier.rs: verify_query", "fri/src/two_adic_pcs.rs: verify", "uni-stark/src/verifier.rs: verify", "uni-stark/src/script_verifier.rs: generate_script_verifier"]}
{"id": "C85", "title": "Client programs check what they say", "statement": "Take any program that reads inputs and hints, and computes with constants, additions, subtractions, multiplications, negations, squares, doublings, powers, sums, products and mixed operations of the base field and its extension, using every value any number of times. Comparing one of its values with a constant gives a script that can be generated, and whose run succeeds exactly when the value, computed in the fields, is that constant and every input occurs in its formula. An unused input makes every run fail.", "quantifier": "all programs, inputs, hints, constants and compared values, with one or several operations per value", "why_tests_cant": "tests run about twenty fixed programs, each with the value it should have", "anchors": ["script_expr/src/alias.rs: Dsl", "script_expr/src/input_manager.rs: InputManager", "script_expr/src/alias.rs: express_with_optimize", "script_expr/src/script_gen.rs"]}
{"id": "C86", "title": "Inputs go to the manager handed out last", "statement": "After a client has asked for the next manager, inputs it assigns are held by that manager until it asks for another one or moves to another one; the value counter counts exactly the different words among the inputs of all managers. (Violated for the first part: the index of the current manager is increased by one while the new manager is put at the end, so after adding a manager or moving back the inputs go to another manager than the one handed out.)", "quantifier": "all sequences of calls, all input values", "why_tests_cant": "tests only ask for the next manager", "anchors": ["script_expr/src/input_manager.rs: ManagerAssign"]}
{"id": "C87", "title": "Tables of roots of unity", "statement": "The table that the field gives for a number of bits exists exactly when the field has a subgroup of that order; it then has 2^bits entries, entry i is the i-th power of the generator of that order, no element occurs twice, and the elements are exactly the solutions of x^(2^bits) = 1. The modulus, as an element of the field, is zero.", "quantifier": "all numbers of bits, all two-adic fields", "why_tests_cant": "tests call it for one small size; the set of roots is a statement about all field elements", "anchors": ["basic/src/field/mod.rs: sub_group", "basic/src/field/mod.rs: field_mod"]}
{"id": "C88", "title": "Room on the stacks", "statement": "Bitcoin refuses a script as soon as the main and the alternate stack together hold more than 1000 elements. For each script of the library there is a number d, independent of the values on the stacks, such that the script behaves as without the limit iff there are at most 1000 - d elements when it starts, and fails otherwise: 328 for the hash of a block, 328 and the padding for messages up to 512 bytes, 35 for a multiplication in the field, and so on. A bit commitment to at most 49 words can be recovered from its honest witness; one to 50 words or more cannot.", "quantifier": "all scripts on 32-bit words, hashes of 1 to 512 bytes, field and bit scripts, bit commitments to any number of words; all stacks", "why_tests_cant": "tests run the scripts on nearly empty stacks, and in an executor whose enforcement of the limit is not visible in the repository", "anchors": ["scripts/src/u32/u32_std.rs", "scripts/src/hashes/blake3.rs: blake3_var_length", "scripts/src/bit_comm/bit_comm.rs: BitCommitment", "scripts/src/lib.rs: execute_script_with_inputs"]}
{"id": "C89", "title": "Openings can be spent on Bitcoin", "statement": "Opening any index of any commitment gives a leaf that the honest witness unlocks also under the limit of 1000 stack elements. (Violated: this holds exactly up to 48 words per leaf, 48 columns over the base field or 12 over the extension. A leaf with more words can be committed to, opened and verified natively, but no witness at all unlocks it.)", "quantifier": "all matrices, heights, widths and indices, all bit commitments with the witness sizes of those in the repository", "why_tests_cant": "tests use a few columns", "anchors": ["basic/src/tcs/mod.rs: commit_polys", "basic/src/tcs/mod.rs: generate_script", "basic/src/mmcs/taptree_mmcs.rs: open_batch"]}
{"id": "C90", "title": "Generated scripts can be run on Bitcoin", "statement": "Every script that the expression compiler generates for a manager of inputs, or for the folded constraints of an AIR, behaves under the limit of 1000 stack elements as without it. (Violated: all inputs are pushed before anything is computed. With more than 1000 words of inputs no script of a manager can be run, and the script of the folded constraints of any AIR of 126 columns or more, which accepts without the limit, accepts no witness.)", "quantifier": "all managers, expressions, AIRs, opened values and public values", "why_tests_cant": "tests use AIRs of two columns", "anchors": ["script_expr/src/input_manager.rs: InputManager", "script_expr/src/script_builder.rs: set_variable_values", "uni-stark/src/script_verifier.rs: generate_script_verifier"]}
{"id": "C91", "title": "Small generated scripts fit", "statement": "A number computed from the expression alone bounds the stack elements that its generated script needs: the words of the inputs, four for every value used more than once, and the deepest point of the evaluation. If this number and the witness are at most 1000 together, the script behaves under the limit as without it. Hence a client program with k inputs and q operations and constants gives, if 4k + 8q is at most 935, a script whose run under the limit succeeds exactly when the compared value is right and every input is used; and for an AIR of w columns with p public values and m assertions of s operations, constants and variables together, the script of the folded constraints accepts under the limit exactly the right value if 8w + 4p + 8s + 16m is at most 887.", "quantifier": "all expressions, managers, programs and AIRs of at most that size, all values", "why_tests_cant": "tests run small scripts one by one; nothing tells which sizes are safe", "anchors": ["script_expr/src/input_manager.rs: InputManager", "script_expr/src/alias.rs: express_with_optimize", "script_expr/src/alias.rs: Dsl", "uni-stark/src/script_verifier.rs: generate_script_verifier"]}
{"id": "C92", "title": "AIRs that use a value several times", "statement": "An AIR is a program: it computes values from columns, public values, row flags, constants and earlier values, clones and uses them any number of times, and asserts things about them, possibly under conditions. Its assertions (is zero, is one, are equal, is a bit, under conditions) are all satisfied exactly when every assertion whose conditions are nonzero holds. The prover's folder, the verifier's folder and the symbolic constraints are those of the AIR in which every use is written out, and so is the verdict of the script verifier. The script of the folded constraints, in which a value used twice is one shared node, accepts exactly the value of the verifier's accumulator; it needs room only for the operations written in the program, however often their results are used.", "quantifier": "all programs with at least one assertion, all rows, public values, challenges and proofs", "why_tests_cant": "tests run one AIR, that of the Fibonacci numbers, which uses no computed value twice", "anchors": ["script_expr/src/script_builder.rs: ScriptConstraintBuilder", "script_expr/src/alias.rs: Dsl::clone", "uni-stark/src/folder.rs", "uni-stark/src/symbolic_builder.rs", "uni-stark/src/script_verifier.rs: generate_script_verifier"]}
{"id": "C93", "title": "Scripts for x^n - 1 and powers of a generator", "statement": "The script for exponent 2^k turns any element x of the base or extension field into x^(2^k) - 1. The script for a generator g and q chunks turns an index i of its table (0 to 2q - 2) into g^(i - (q - 1)), the entry of the native table counted from its end, and leaves the rest of the stack alone; generating it panics exactly for no chunks, or for g = 0 and two or more chunks. An index outside the table is refused. (Violated: it reads the caller's stack instead.)", "quantifier": "all elements, exponents, generators, numbers of chunks and indices, all stacks below", "why_tests_cant": "tests run a few indices of one table and one exponent", "anchors": ["uni-stark/src/scripts/utils.rs: value_exp_n_minus_one", "uni-stark/src/scripts/utils.rs: push_generator_table", "uni-stark/src/scripts/utils.rs: get_generator"]}
{"id": "C94", "title": "Scripts fit into Bitcoin's size limits", "statement": "Every script that is generated fits, with its witness, into a block (4,000,000 weight units), and no element is longer than 520 bytes. For leaves of commitments this holds with room to spare: script and honest witness have at most 1268 bytes per word, so that a leaf that the stack limit allows takes less than a quarter of a relayed transaction. (Violated by the script that checks the challenges: every check recomputes the transcript's hashes from its beginning, 89000 opcodes each. With four or more queries, and as many roots per commitment, or with seven rounds and queries together, the script is larger than a block; for the repository's own example it is more than seven blocks.)", "quantifier": "all commitments, widths, heights, values and indices; all transcripts, configurations and proofs", "why_tests_cant": "tests execute scripts without a size limit and never measure them", "anchors": ["uni-stark/src/script_verifier.rs: generate_script_verifier", "fri/src/script_verifier.rs: bf_sample_challenges", "script_expr/src/challenger_expr.rs: BfChallengerExpr", "script_expr/src/alias.rs: express_with_optimize", "basic/src/tcs/mod.rs: generate_script"]}
{"id": "C95", "title": "Comparing a multi-word commitment with its value", "statement": "A commitment to any number of words, compared with the committed words, accepts a signature of words under the same keys iff they are the committed words, and leaves the rest of the stack alone. (Holds for one and for four words below 2^31, the word 2^31 apart, which is read as 0. Violated for every other number of words, for which the comparison of extension field elements is used: with two words the caller's stack is compared, with eight words or more the committed words are compared with each other and the signed ones not at all.)", "quantifier": "all numbers of words, committed and signed words, keys and stacks below", "why_tests_cant": "tests compare one word and one extension field element", "anchors": ["scripts/src/bit_comm/bit_comm.rs: recover_message_euqal_to_commit_message", "scripts/src/u31_ext/mod.rs: u31ext_equalverify"]}
{"id": "C96", "title": "Equivocation is punished", "statement": "The equivocation script accepts exactly two valid signatures, under the given public key, of different messages. (Violated: the script is empty, so a witness without signatures is accepted.)", "quantifier": "all public keys and witnesses", "why_tests_cant": "there is no test of the script", "anchors": ["scripts/src/bit_comm/winternitz.rs: equivocation"]}
{"id": "C97", "title": "Assertions about expressions", "statement": "Asserting that an expression has a value returns iff its mathematical value is that value; for expressions with inputs it panics, since none are supplied. The debug variant does the same in debug builds, and in release builds returns for every value.", "quantifier": "all programs of constants and field operations in either field, whose values may be used any number of times, all claimed values", "why_tests_cant": "tests assert a few equations", "anchors": ["script_expr/src/lib.rs: run_dsl", "script_expr/src/lib.rs: assert_dsl", "script_expr/src/lib.rs: debug_assert_dsl"]}
{"id": "C98", "title": "A proof speaks of one size of the trace", "statement": "Of the same proof with two different values of `degree_bits` the STARK verifier accepts at most one: the number of rows is bound to the proof.", "quantifier": "for all AIRs, configurations, challengers, proofs, public values and values of degree_bits, in builds with and without overflow checks", "why_tests_cant": "Tests verify proofs as they were made; nobody changes degree_bits and verifies again, the transcript line that observes it is commented out, and the wrap-around of the shift exists in release builds only.", "anchors": [{"file": "uni-stark/src/verifier.rs", "symbol": "verify"}, {"file": "uni-stark/src/proof.rs", "symbol": "Proof"}]}
{"id": "C99", "title": "Symbolic arithmetic", "statement": "Operators, sums and products of symbolic expressions, with all mixtures of expressions, variables and field elements, have the value of the ring operation for all values of the variables and selectors; the degree an expression reports is its degree in the columns and row selectors, and bounds the degree of the polynomial it denotes, apart from the selector of transitions.", "quantifier": "for all expressions made with the library, all values of variables in all rings, all polynomials for the columns, all lists of summands and factors", "why_tests_cant": "Tests use a few constraints of fixed shape; degrees and values of arbitrary expressions are an induction.", "anchors": [{"file": "uni-stark/src/symbolic_expression.rs", "symbol": "SymbolicExpression"}, {"file": "uni-stark/src/symbolic_variable.rs", "symbol": "SymbolicVariable"}]}
{"id": "C100", "title": "A symbolic variable as a script input", "statement": "Converting a symbolic variable into a script input gives the input that the script builder uses for the same cell of the window or the same public value, and different variables give different inputs.", "quantifier": "for all rows, columns and kinds of variables", "why_tests_cant": "The conversion is exercised by no test; the tests that did are commented out.", "anchors": [{"file": "uni-stark/src/expr_helper.rs", "symbol": "From<SymbolicVariable<F>> for Variable"}, {"file": "script_expr/src/script_builder.rs", "symbol": "ScriptConstraintBuilder::new_with_expr"}]}
{"id": "C101", "title": "A claim about a matrix taller than the domain of the opening proof is refused", "statement": "The opening verifier knows the size of the domain from the number of commitments in the proof. If a claim is about a matrix whose extended height exceeds this domain, verification fails; such a claim never switches off the checks of other claims, and builds with and without overflow checks give the same verdict.", "quantifier": "for all proofs, claimed domains, points and values, all commitment schemes and challengers, builds with and without overflow checks", "why_tests_cant": "The tests run the debug build with claims made by the prover, whose heights always fit; the difference shows only for claims no honest prover makes and only in a release build.", "anchors": ["fri/src/two_adic_pcs.rs: TwoAdicFriPcs::verify", "fri/src/verifier.rs: verify_query"]}
{"id": "C102", "title": "Nodes of expressions have identifiers of their own", "statement": "However many threads build expressions at the same time and however their steps interleave, no two nodes built in a process have the same identifier, so that the script compiled from an expression never takes one node for another.", "quantifier": "for all numbers of threads, all interleavings of their steps, all numbers of nodes, in builds with and without overflow checks", "why_tests_cant": "A race shows only under some schedules, and the end of the 32-bit range only after four thousand million nodes.", "anchors": ["script_expr/src/alias.rs: get_opid", "script_expr/src/lib.rs: express_to_script", "script_expr/src/lib.rs: assert_dsl"]}
{"id": "C103", "title": "Opening and verifying several queries in one call", "statement": "Committing to the same matrices once per query and opening a list of indices in one call gives for every index its committed row and a proof; verifying them in one call accepts iff every query is accepted on its own, accepts what the opening returns, and the first query that is refused refuses the whole call.", "quantifier": "for all lists of matrices of power-of-two heights, all lists of indices, with repetitions, all numbers of queries, all proofs and values for the verification", "why_tests_cant": "Tests open a few indices of a few matrices; the equivalence with single queries is an induction over the number of queries.", "anchors": ["basic/src/tcs/mod.rs: PolyTCS::commit_poly_with_query_times", "basic/src/tcs/mod.rs: PolyTCS::open_with_query_times", "basic/src/tcs/mod.rs: PolyTCS::verify_with_query_times"]}
{"id": "C104", "title": "Secrets of word commitments", "statement": "A commitment to a word is made for exactly the keys that are hex strings of even length; both secret generators return such keys, so committing to any number of words never fails and the signature is accepted. Two draws of the random generator that differ in a character are different secrets and share no chain start unless the hash function has a collision. Nobody who does not know a secret can sign. (Violated by the constant generator: every word of every commitment has one public secret, and anybody signs any words.)", "quantifier": "all keys, all random characters, all words and numbers of words", "why_tests_cant": "tests use one generator and a few values", "anchors": ["scripts/src/bit_comm/secret_generator.rs: ConstantSecretGen, ThreadSecretGen", "scripts/src/bit_comm/bit_comm.rs: new, new_with_box", "scripts/src/bit_comm/winternitz.rs: generate_public_key"]}
{"id": "C105", "title": "Keeping recovered words on the alternative stack", "statement": "Recovering one commitment after another to the alternative stack and fetching the words back in the opposite order leaves all signed words in order and both stacks below untouched; moving recovered words to the alternative stack and back changes nothing, and in between is the same as recovering them there.", "quantifier": "all numbers of commitments, words per commitment, committed and signed words, keys, both stacks below and continuations", "why_tests_cant": "tests fetch two commitments of one fixed size", "anchors": ["scripts/src/bit_comm/bit_comm.rs: check_and_recover_to_altstack, message_to_altstack, message_from_altstack", "scripts/src/bit_comm/bit_comm_u32.rs: recover_message_at_altstack, message_from_altstack"]}
{"id": "C106", "title": "Arithmetic on input variables", "statement": "Adding, subtracting and multiplying input variables, with or without a value attached, expressions and field elements in any mixture makes an expression whose script computes the same formula of the field over the values that are on the stack, whatever values are attached, and leaves the inputs in place, with and without sharing of common parts. A variable annotated with the size of another field is refused, and an expression that reads a variable which the caller did not supply does not compile. A variable is named by its row and column. (Violated for the last sentence: the annotation is part of the name.)", "quantifier": "all programs of operators of any length with any sharing, both fields, all values, all stacks below, all maps of inputs", "why_tests_cant": "tests build a few fixed expressions; that every overload keeps the order of its operands and its operation shows only over all programs and values", "anchors": ["script_expr/src/variable.rs: Variable, ValueVariable and their operators", "script_expr/src/alias.rs: Dsl operators", "script_expr/src/lib.rs: express_to_script"]}
{"id": "C107", "title": "Claimed values are fixed before they are combined", "statement": "The values that a proof claims for the opened polynomials are absorbed into the transcript before the challenge that combines them is drawn, so that a proof accepted for one statement cannot be turned into an accepted proof of another by changing claimed values only. (Violated by both verifiers.)", "quantifier": "all accepted proofs, all algebraic systems and public values with the same width and number of quotient chunks, all challenges outside a small set", "why_tests_cant": "every test verifies the claims that the prover made; choosing claims after the challenge is not something a test of honest proofs does", "anchors": ["uni-stark/src/verifier.rs: verify", "uni-stark/src/prover.rs: prove", "uni-stark/src/script_verifier.rs: generate_script_verifier", "fri/src/two_adic_pcs.rs: open, verify", "fri/src/verifier.rs: verify_shape_and_sample_challenges, verify_challenges"]}
{"id": "C108", "title": "The two verifiers together check every query in full", "statement": "If both the native verifier and the script verifier accept a proof, then in every query the opened entry of the first folding round at the queried position is the combination of the opened input rows with the claimed values, every further entry is the fold of the pair before it plus the contribution of the inputs of its height, and the last pair folds to the final value, unless a folding challenge is the negative of the point of its round, which no challenge outside the base field is.", "quantifier": "all proofs, all numbers of rounds, openings and queries, all algebraic systems with one quotient chunk, all commitment schemes", "why_tests_cant": "tests run each verifier on honest proofs; which entries a pair of verifiers ties together shows only on proofs that no prover makes", "anchors": ["fri/src/verifier.rs: verify_query, verify_challenges", "fri/src/script_verifier.rs: bf_verify_query, bf_verify_challenges", "uni-stark/src/script_verifier.rs: generate_script_verifier"]}
{"id": "C109", "title": "Soundness of the folding rounds with respect to the opened inputs", "statement": "Whatever words a prover commits to and however it reacts to the folding challenges: if the combinations of opened inputs and claimed values are, at every height, not values of a polynomial of low degree up to a small number of positions, then for all but a stated small part of the folding challenges and query indices one of the two verifiers refuses. (Proved for the sum of the combinations of all heights; violated for the single heights, which no challenge separates.)", "quantifier": "all fields with two-adic generators, all numbers of rounds and queries, all blowups, all adaptive provers, all challenges and query indices", "why_tests_cant": "a test runs one prover with one transcript; the probability over all challenges and the quantifier over all provers cannot be sampled", "anchors": ["fri/src/verifier.rs: verify_query, verify_challenges", "fri/src/script_verifier.rs: bf_verify_query, bf_verify_challenges", "fri/src/two_adic_pcs.rs: verify"]}
{"id": "C110", "title": "Soundness of the opening check", "statement": "If a prover commits to matrices and claims values for their columns at some points, and the claims are not the values of polynomials that have at most the degree of the domain and agree with the committed columns up to a small number of common positions, then for all but a stated small part of the combining challenges, folding challenges and query indices one of the two verifiers refuses, whatever words the prover commits to and however it reacts to the challenges. Right claims can be made to pass for all challenges. (Proved for claims made before the combining challenge and matrices of one height, as in uni-stark; the code does not enforce the former.)", "quantifier": "all fields, numbers of matrices, columns, points, folding rounds and queries, all blowups, all adaptive provers, all challenges and query indices", "why_tests_cant": "a test runs one prover with one transcript; the probability over all challenges and the quantifier over all provers cannot be sampled", "anchors": ["fri/src/two_adic_pcs.rs: verify", "fri/src/verifier.rs: verify_query, verify_challenges", "fri/src/script_verifier.rs: bf_verify_query, bf_verify_challenges", "uni-stark/src/verifier.rs: verify"]}
{"id": "C111", "title": "Soundness of the proof system", "statement": "Whatever a prover commits to and however it reacts to the challenges: if no trace of the claimed number of rows satisfies the algebraic system with the given public values, then for all but a stated small part of the challenges (for the constraints, the opened point, the combination, the folding rounds) and query indices one of the two verifiers refuses. The same holds if the committed trace is not, up to a small number of positions, an extension of a trace that satisfies the system. True statements can be made to pass. (Proved for a prover that claims the opened values before it sees the combining challenge, which the code does not enforce.)", "quantifier": "all algebraic systems with row flags as factors, all public values, trace lengths, numbers of chunks, blowups, folding rounds and queries, all adaptive provers, all challenges and query indices", "why_tests_cant": "a test runs one prover with one transcript; the probability over all challenges and the quantifier over all provers cannot be sampled", "anchors": ["uni-stark/src/verifier.rs: verify", "uni-stark/src/script_verifier.rs: generate_script_verifier", "uni-stark/src/folder.rs: VerifierConstraintFolder", "fri/src/two_adic_pcs.rs: verify", "fri/src/verifier.rs: verify_challenges, verify_query", "fri/src/script_verifier.rs: bf_verify_challenges, bf_verify_query"]}
{"id": "C112", "title": "Opened values are committed values whatever keys a proof carries", "statement": "If the verification of an opening accepts, then the values begin with the row of a leaf of the commitment and the index in the proof is the index of this leaf, even if the proof carries other bit commitment operators (keys) than the commitment was made with, or it exhibits two different inputs of the hash function with the same hash.", "quantifier": "all commitments to matrices of any number and size, all openings, all values, all operators with keys that can be decoded, in any number and order", "why_tests_cant": "tests verify openings with the operators that were handed out; the quantifier over foreign keys and signatures cannot be sampled", "anchors": ["basic/src/tcs/mod.rs: verify, verify_proof, generate_witness, generate_script", "scripts/src/bit_comm/winternitz.rs", "scripts/src/bit_comm/bit_comm.rs", "scripts/src/bit_comm/bit_comm_u32.rs"]}
{"id": "C113", "title": "One value per index", "statement": "Two accepted openings with the same index against the same commitment show the same values, unless they exhibit a hash collision. (Violated: the index is a label in a leaf, it is not tied to the position of the leaf in the tree; one root can be opened to any number of different rows at one index. Holds for trees whose leaves carry different indices.)", "quantifier": "all commitments, honest or not, all pairs of openings, all indices below 2^31", "why_tests_cant": "tests make commitments with the code, which numbers the leaves; a root of a tree with repeated numbers is made only by an attacker", "anchors": ["basic/src/tcs/mod.rs: verify, verify_proof", "basic/src/mmcs/taptree_mmcs.rs: verify_batch"]}
{"id": "C114", "title": "Soundness with separate commitments per query", "statement": "The protocol commits to the same matrices once per query, and each query is answered from its own commitment. Even if a prover commits to different matrices and words for each query, a false statement passes for at most a stated small part of the challenges and query indices: the number of queries times the error of the challenges for one query, plus the error of the queries.", "quantifier": "all algebraic systems with row flags as factors, all public values, trace lengths, numbers of chunks, blowups, folding rounds and queries, all provers that adapt to the challenges and use different commitments for each query", "why_tests_cant": "a test commits to the same matrix every time; the probability over all challenges and the quantifier over all provers cannot be sampled", "anchors": ["basic/src/mmcs/taptree_mmcs.rs: commit, open_batch, verify_batch", "basic/src/tcs/mod.rs: commit_poly_with_query_times", "fri/src/verifier.rs: verify_challenges", "uni-stark/src/verifier.rs: verify"]}
{"id": "C115", "title": "Openings of an accepted proof are rows of what was committed", "statement": "If both verifiers accept a proof and the commitments in it were made by the code from some rows and words, then every query whose openings carry the queried index and rows of the right width is a query that passes for exactly these rows and words (in the sense of the soundness properties above), or one of its openings exhibits two different inputs of the hash function with the same hash. Proofs made by the prover meet all these conditions. (The verifiers check neither the index in an opening nor the widths.)", "quantifier": "all proofs, public values, algebraic systems with one quotient chunk, matrices, words, numbers of queries and folding rounds, Winternitz keys, all provers", "why_tests_cant": "tests verify proofs of the honest prover; that no other openings are accepted is a statement about all proofs", "anchors": ["basic/src/mmcs/taptree_mmcs.rs: commit, open_batch, verify_batch", "basic/src/tcs/mod.rs: verify, commit_poly_with_query_times", "fri/src/two_adic_pcs.rs: verify", "fri/src/verifier.rs: verify_query", "uni-stark/src/verifier.rs: verify", "uni-stark/src/script_verifier.rs: generate_script_verifier"]}
{"id": "C116", "title": "Running a manager again gives the same verdict", "statement": "A manager that has run its check with success gives the same verdict when run again, or when run with another check that holds, and looking at the simulated inputs before the run does not change the verdict.", "quantifier": "every manager built with the expression language, every check and every later check, every sequence simulate_input; run and run; run", "why_tests_cant": "tests run every manager once; the state kept between calls (tracker, counts, cached copies) is never exercised twice", "anchors": ["script_expr/src/input_manager.rs: InputManager::simulate_input, InputManager::run, ManagerAssign::simulate_input", "script_expr/src/lib.rs: Expression::simulate_express, Expression::express_to_script, IdCount"]}
{"id": "C117", "title": "What the native verifier accepts, reports and panics on", "statement": "The native verifier accepts a proof exactly if: the algebraic system is within its columns and public values and the quotient domain exists; the opened values have the right shape; the challenges can be drawn and the proof-of-work witness passes; every opened row and pair is accepted by the commitment scheme; from the second folding round on, the entry of the pair at the queried position is the line through the pair before at the challenge plus the combined claims of that height; the last line gives the final value; the opened point is outside of the trace domain; and the combined constraints at the point are the vanishing polynomial times the quotient that the chunks stand for. It reports a shape error exactly if only the shape is wrong, a mismatch exactly if only the last condition fails, and panics in all other cases. (The first pair is not compared with anything, see the properties on forged proofs.)", "quantifier": "all setups (fields, commitment schemes, challengers, configurations), all algebraic systems, public values, challenger states and proofs, honest or not", "why_tests_cant": "tests verify a few honest proofs and a few modified ones; that no other proof is accepted, and which outcome each has, is a statement about all proofs", "anchors": ["uni-stark/src/verifier.rs: verify", "fri/src/two_adic_pcs.rs: verify", "fri/src/verifier.rs: verify_shape_and_sample_challenges, verify_challenges, verify_query", "uni-stark/src/folder.rs: VerifierConstraintFolder"]}
{"id": "C118", "title": "What the quotient check of the script verifier compares, apart from its operand assertions", "statement": "For an algebraic system with q quotient chunks, the check that the script verifier generates for the quotient would, if its operand assertions did not stop it, accept a quotient value exactly if it is the value the native verifier computes from the same chunks, the same point and the denominators of the native verifier, and reject wrong denominators.", "quantifier": "all numbers of rows and of chunks whose product is a size with a root of unity, all opened chunks, all points given by an expression of the point, all claimed quotient values, all sets of arithmetic scripts that compute the field operations", "why_tests_cant": "the only test that runs has one chunk, where the loops over chunks are empty; with two or more the generation panics", "anchors": ["uni-stark/src/scripts/bf_unistark.rs: compute_quotient_expr", "uni-stark/src/scripts/utils.rs: get_table", "uni-stark/src/script_verifier.rs: verify", "uni-stark/src/verifier.rs: verify"]}
{"id": "C119", "title": "What becomes of a proof made from a trace that does not satisfy the system", "statement": "If a trace does not satisfy the algebraic system, the prover refuses it when debug assertions are on. Without them it makes a proof, and the verifier reports a mismatch for it, unless one of few challenges is drawn: fewer values of the first challenge than there are assertions, and for the others fewer values of the second challenge than the trace has rows. Exactly: the proof is accepted if the remainder of the combined constraints modulo the vanishing polynomial of the rows is zero at the second challenge. For the Fibonacci system a wrong result is reported for all challenges.", "quantifier": "all setups whose parts work, all algebraic systems whose assertions are filtered by at most one transition filter, all traces, public values, challenger states, witnesses and runs", "why_tests_cant": "tests prove satisfying traces only; that the prover's wrong quotient does not accidentally pass is a statement about all traces and challenges", "anchors": ["uni-stark/src/prover.rs: prove, quotient_values", "uni-stark/src/check_constraints.rs: check_constraints", "uni-stark/src/verifier.rs: verify", "fri/src/two_adic_pcs.rs: open"]}
{"id": "C120", "title": "When the prover makes a proof", "statement": "The prover makes a proof exactly if the number of rows is a power of two, the assertions mention only existing columns and public values, their degree is at most the blowup factor plus one, with debug assertions the trace satisfies the system, the second challenge is not a point of the coset on which the prover evaluates, and the witness passes the proof-of-work check in a state that does not depend on the witness. In all other cases it panics.", "quantifier": "all setups whose parts work, all algebraic systems with columns, all rectangular traces within the size limit of the field, all public values, challenger states and witnesses", "why_tests_cant": "tests prove a few small traces; that there is no other reason to panic, and that each of these reasons makes it panic, is a statement about all inputs", "anchors": ["uni-stark/src/prover.rs: prove, quotient_values", "uni-stark/src/symbolic_builder.rs: get_log_quotient_degree", "fri/src/two_adic_pcs.rs: commit, get_evaluations_on_domain, open", "fri/src/prover.rs: bf_prove"]}
{"id": "C121", "title": "An accepted proof cannot be altered", "statement": "A proof that differs from an accepted proof in its opening part or in one claimed quotient value (for the script verifier also in one claimed trace value) is not accepted: every part of the proof is read and checked. (Violated by both verifiers: further openings at the end of a query are ignored.)", "quantifier": "all setups, algebraic systems, public values and accepted proofs, honest or not; all lists of additional openings; all other final values, numbers of queries, single quotient values and single trace values", "why_tests_cant": "tests verify the proofs as the prover makes them; that no variant of an accepted proof passes is a statement about all proofs", "anchors": ["fri/src/verifier.rs: verify_challenges, verify_query", "fri/src/script_verifier.rs: bf_verify_query", "fri/src/two_adic_pcs.rs: verify, generate_verify_expr", "uni-stark/src/verifier.rs: verify", "uni-stark/src/script_verifier.rs: generate_script_verifier"]}
