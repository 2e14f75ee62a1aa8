{
 "claims": [
  {
   "property": "C01",
   "status": "proved",
   "theorems": [
    "TapStark.C01_push",
    "TapStark.C01_pick",
    "TapStark.C01_roll",
    "TapStark.C01_dup",
    "TapStark.C01_drop",
    "TapStark.C01_alt"
   ],
   "note": ""
  },
  {
   "property": "C02",
   "status": "proved",
   "theorems": [
    "TapStark.C02_add",
    "TapStark.C02_add_drop",
    "TapStark.C02_same_depth"
   ],
   "note": ""
  },
  {
   "property": "C03",
   "status": "proved",
   "theorems": [
    "TapStark.C03_xor"
   ],
   "note": ""
  },
  {
   "property": "C04",
   "status": "proved",
   "theorems": [
    "TapStark.C04_rrot",
    "TapStark.C04_rrot_range"
   ],
   "note": ""
  },
  {
   "property": "C05",
   "status": "proved",
   "theorems": [
    "TapStark.C05_equal",
    "TapStark.C05_notequal",
    "TapStark.C05_equalverify"
   ],
   "note": ""
  },
  {
   "property": "C06",
   "status": "partial",
   "theorems": [
    "TapStark.C06_compress_partial",
    "TapStark.C06_compress_general",
    "TapStark.C06_compress_collision",
    "TapStark.C06_compress_injective_partial"
   ],
   "note": "The code violates injectivity: 0x80000000 and 0 compress to the same element (collision theorem). Proved: faithful below 2^31, and injective apart from that word."
  },
  {
   "property": "C07",
   "status": "proved",
   "theorems": [
    "TapStark.C07_pick",
    "TapStark.C07_roll",
    "TapStark.C07_dup_drop_swap",
    "TapStark.C07_alt"
   ],
   "note": ""
  },
  {
   "property": "C08",
   "status": "proved",
   "theorems": [
    "TapStark.C08_ndup",
    "TapStark.C08_push_to_stack"
   ],
   "note": ""
  },
  {
   "property": "C09",
   "status": "proved",
   "theorems": [
    "TapStark.C09_mul_pow",
    "TapStark.C09_mul_fixed"
   ],
   "note": ""
  },
  {
   "property": "C10",
   "status": "proved",
   "theorems": [
    "TapStark.C10_blake3"
   ],
   "note": ""
  },
  {
   "property": "C100",
   "status": "partial",
   "theorems": [
    "TapStark.Stark.C100_violated_transposed",
    "TapStark.Stark.C100_violated_collision",
    "TapStark.Stark.C100_violated_public",
    "TapStark.Stark.C100_injective_partial"
   ],
   "note": "Violated: rows and columns are exchanged, matrices are confused, public values panic. The conversion is public but not used in the repository."
  },
  {
   "property": "C101",
   "status": "partial",
   "theorems": [
    "TapStark.Pcs.C101_checked",
    "TapStark.Pcs.C101_violated_release",
    "TapStark.Pcs.C101_agree",
    "TapStark.Pcs.C101_shift",
    "TapStark.Pcs.C101_instance",
    "TapStark.Pcs.C101_instance_accepted"
   ],
   "note": "Holds with overflow checks: in an accepted proof every opened matrix fits. Violated without them: a taller matrix puts an entry in front of all reduced openings that no round consumes, so no claimed value is checked at all. When all claims fit, both builds agree."
  },
  {
   "property": "C102",
   "status": "partial",
   "theorems": [
    "TapStark.OpId.C102_ids",
    "TapStark.OpId.C102_unique",
    "TapStark.OpId.C102_exhausted",
    "TapStark.OpId.C102_available",
    "TapStark.OpId.C102_shared",
    "TapStark.OpId.C102_instance",
    "TapStark.OpId.C102_violated_wrap",
    "TapStark.OpId.C102_violated_assert"
   ],
   "note": "Holds for all interleavings with overflow checks, and without them for the first 2^32 nodes. Violated after that: identifiers repeat, and an assertion about a constant can succeed for every value. The mutex is modelled as one holder at a time, poisoned by a panic of its holder."
  },
  {
   "property": "C103",
   "status": "proved",
   "theorems": [
    "TapStark.Tcs.C103_accepts",
    "TapStark.Tcs.C103_refuses",
    "TapStark.Tcs.C103_open",
    "TapStark.Tcs.C103_complete",
    "TapStark.Tcs.C103_instance",
    "TapStark.Tcs.C103_violated_zero"
   ],
   "note": "For at least one query; with none the opening panics (C103_violated_zero) and the verification accepts (C26). Assumptions on bit commitments and fields as in C24."
  },
  {
   "property": "C104",
   "status": "partial",
   "theorems": [
    "TapStark.C104_key",
    "TapStark.C104_decode",
    "TapStark.C104_thread",
    "TapStark.C104_thread_distinct",
    "TapStark.C104_complete",
    "TapStark.C104_violated_constant",
    "TapStark.C104_instance"
   ],
   "note": "Holds for the random generator up to the strength of its randomness and of hash160 (forging needs a preimage, C15). Violated by the constant generator: a signature of any words made without knowing anything is accepted."
  },
  {
   "property": "C105",
   "status": "proved",
   "theorems": [
    "TapStark.C105_several",
    "TapStark.C105_move",
    "TapStark.C105_word",
    "TapStark.C105_instance"
   ],
   "note": "Words are recovered as sign-and-magnitude numbers (C17): a word below 2^31 as itself."
  },
  {
   "property": "C106",
   "status": "partial",
   "theorems": [
    "TapStark.C106_panics",
    "TapStark.C106_value",
    "TapStark.C106_missing",
    "TapStark.C106_missing_step",
    "TapStark.C106_violated_annotation",
    "TapStark.C106_instance"
   ],
   "note": "Violated in one respect: the same row and column under another annotation is another input, and the operators accept a variable without annotation that the map has under an annotation (C106_violated_annotation). Everything else is proved, for any contract-abiding field scripts and tracker."
  },
  {
   "property": "C107",
   "status": "partial",
   "theorems": [
    "TapStark.Pcs.C107_violated_claims_chosen_after",
    "TapStark.Stark.C107_violated_other_statement",
    "TapStark.Stark.C107_violated_honest_proof",
    "TapStark.Stark.C107_violated_script",
    "TapStark.Stark.C107_violated_instance",
    "TapStark.Stark.C107_script_other_claims",
    "TapStark.Stark.C107_script_exact",
    "TapStark.Stark.C107_script_exact_instance",
    "TapStark.Stark.C107_native_exact",
    "TapStark.Stark.C107_native_exact_instance",
    "TapStark.Stark.C107_native_rounds",
    "TapStark.Stark.C107_native_rounds_instance"
   ],
   "note": "Violated: neither verifier makes the claimed values part of the transcript before it draws the combining challenge, so claims with the same combinations are interchangeable (C107_violated_claims_chosen_after) and any accepted proof, honest ones included, turns into an accepted proof of any other statement with the same width and number of chunks by moving two claimed quotient values. The conditions on the challenges fail for at most 2^(k+q) + 1 values. C107_violated_instance is a run of both verifiers with BLAKE3 and the parameters of the code base. C107_script_exact says which claims are interchangeable for the script verifier: with two queries at different points, it succeeds with other claims, for any statement of the same width, just when they pass the check of the quotient and two sums with powers of the challenge are the same. For the native verifier every claim that passes the check of the quotient is as good as any other, when there are as many folding rounds as the trace has bits (C107_native_exact), as in every honest proof; C107_native_rounds says, for any number of folding rounds, which combinations have to be the same."
  },
  {
   "property": "C108",
   "status": "proved",
   "theorems": [
    "TapStark.Fri.C108_query",
    "TapStark.Stark.C108_both",
    "TapStark.Stark.C108_outside_base",
    "TapStark.Stark.C108_instance"
   ],
   "note": "Neither verifier checks a query in full: the native one does not compare the entry of the first round with the inputs (C38), the script does not compare any opened own entry. C108_query states exactly when a query that passes the native verifier passes the script; the exceptional challenges lie in the base field (C108_outside_base). C108_both covers queries with fewer openings than commitments: it speaks of the rounds that have an opening, and C39_script_partial bounds how many must."
  },
  {
   "property": "C109",
   "status": "partial",
   "theorems": [
    "TapStark.Fri.C109_passing_is_low_degree",
    "TapStark.Fri.C109_soundness_error",
    "TapStark.Fri.C109_passes_both",
    "TapStark.Fri.C109_honest_passes",
    "TapStark.Fri.C109_violated_heights",
    "TapStark.Fri.C109_violated_any_word",
    "TapStark.Fri.C109_instance"
   ],
   "note": "Proved for the sum over all heights, each read at the position above which the index lies, in the whole unique-decoding regime, for a query that passes the native verifier and the chain of the query script (C43_query_accepts says that this is what the script checks; C108 that neither suffices alone). With one height, as in uni-stark, the sum is the combination itself. Violated for several heights: they are added without a challenge, so words that cancel pass for all challenges (C109_violated_heights, C109_violated_any_word). Openings are assumed to be those of the committed words (C25, C39)."
  },
  {
   "property": "C11",
   "status": "proved",
   "theorems": [
    "TapStark.C11_var_length",
    "TapStark.C11_too_long",
    "TapStark.C11_zero_length"
   ],
   "note": "blake3_var_length(0) is outside the property; C11_zero_length shows it hashes sixteen unrelated words."
  },
  {
   "property": "C110",
   "status": "partial",
   "theorems": [
    "TapStark.Pcs.C110_passing_claims_hold",
    "TapStark.Pcs.C110_soundness_error",
    "TapStark.Pcs.C110_right_claims_pass",
    "TapStark.Stark.C110_accepted",
    "TapStark.Stark.C110_instance",
    "TapStark.Stark.C110_instance_more_rounds"
   ],
   "note": "Proved for claims fixed before the combining challenge; the code draws this challenge without observing the claims, and claims chosen after it are not bound (C107). C110_accepted: the queries of a proof that both verifiers accept pass in the sense of the theorem, for all matrices and words of which it shows the openings. Proofs may have more folding rounds than the matrices have bits (the distance shrinks with the size of the domain); with fewer no query passes. Missing: matrices of several heights (violated there, C109_violated_heights), distances beyond half of the minimum distance, and openings that carry another index or width than that of the query (the binding of the others is C115)."
  },
  {
   "property": "C111",
   "status": "partial",
   "theorems": [
    "TapStark.Stark.C111_few_queries_pass",
    "TapStark.Stark.C111_soundness_error",
    "TapStark.Stark.C111_false_statement",
    "TapStark.Stark.C111_true_statement",
    "TapStark.Stark.C111_accepted",
    "TapStark.Stark.C111_fibonacci",
    "TapStark.Stark.C111_instance",
    "TapStark.Stark.C111_instance_more_rounds",
    "TapStark.Stark.C111_true_instance"
   ],
   "note": "Proved for the interactive protocol in which the opened values are claimed before the combining challenge. The code draws this challenge without observing the claims, and then statements can be exchanged (C107); without the script verifier the inputs are not bound at all (C75). C111_accepted: the queries of a proof that both verifiers accept pass in the sense of the theorem, for every prover whose answers are those in the proof. Any number of folding rounds, also other than the bits of the trace length, which the code does not compare. Missing: the order above, distances beyond half of the minimum distance, the transcript as a random function, and openings that carry another index or width than that of the query (the binding of the others is C115)."
  },
  {
   "property": "C112",
   "status": "proved",
   "theorems": [
    "TapStark.Tcs.C112_any_operators",
    "TapStark.Tcs.C112_any_keys",
    "TapStark.Tcs.C112_instance"
   ],
   "note": "Removes the assumption of C25 that the proof carries the operators of the commitment. C112_any_keys: Winternitz operators with any keys that decode; C112_any_operators: any operators whose witnesses open the committed ones only to the values they were made for. The index in the proof is a 32-bit word recovered as sign and magnitude (C17), hence the bound 2^31."
  },
  {
   "property": "C113",
   "status": "partial",
   "theorems": [
    "TapStark.Tcs.C113_violated_many_rows",
    "TapStark.Tcs.C113_violated_two_rows",
    "TapStark.Tcs.C113_distinct_indices_partial"
   ],
   "note": "Violated for commitments that are not made by the code: neither the verification nor the script compares the index with the path. Holds if the leaves of the tree carry different indices, as in commitments made by the code."
  },
  {
   "property": "C114",
   "status": "partial",
   "theorems": [
    "TapStark.Stark.C114_separate_commitments",
    "TapStark.Stark.C114_false_statement",
    "TapStark.Stark.C114_instance"
   ],
   "note": "As C111 (claims made before the combining challenge, openings those of the committed matrices, unique decoding), without the assumption that all queries are answered from the same matrices, which nothing in the verification ensures. C111_accepted applies to each query with its own prover, as does C115_accepted."
  },
  {
   "property": "C115",
   "status": "partial",
   "theorems": [
    "TapStark.Tcs.C115_batch",
    "TapStark.Stark.C115_accepted",
    "TapStark.Stark.C115_honest",
    "TapStark.Stark.C115_instance"
   ],
   "note": "Links the commitments of the code to the provers of C111 and C114. Partial because the index in an opening and the widths of the opened rows are hypotheses: the verifiers compare neither with the query (C25, C26). For commitments that are not made by the code there may be several rows per index (C113)."
  },
  {
   "property": "C116",
   "status": "partial",
   "theorems": [
    "TapStark.C116_first",
    "TapStark.C116_violated_occupied",
    "TapStark.C116_violated_inputs",
    "TapStark.C116_violated_next",
    "TapStark.C116_violated_same",
    "TapStark.Prog.C116_violated_program",
    "TapStark.Prog.C116_instance",
    "TapStark.Prog.C116_instance_next"
   ],
   "note": "The property does not hold: run and simulate_input keep the tracker, the counts and the cached copies. The first run is the run that C85 and the other properties are about (C116_first). After a successful run the result stays on the stack, and a second run of the same check panics, whatever its inputs are then (C116_violated_same), as does every check made of new nodes (C116_violated_next). After simulate_input every manager with an input panics in run (C116_violated_inputs). Not covered: a second check that shares some but not all nodes with the first."
  },
  {
   "property": "C117",
   "status": "proved",
   "theorems": [
    "TapStark.Pcs.C117_opening_exact",
    "TapStark.Stark.C117_verdict",
    "TapStark.Stark.C117_instance"
   ],
   "note": "Both directions, for every proof. The conditions are written out in Spec/Verdict.lean without the verifier's loops. C117_opening_exact is the part of the polynomial commitment scheme. The number of folding rounds plus the blowup must not exceed the two-adicity of the field: above, two_adic_generator panics in the code, while the model's generator is a total function."
  },
  {
   "property": "C118",
   "status": "partial",
   "theorems": [
    "TapStark.Stark.C118_weights",
    "TapStark.Stark.C118_two_chunks",
    "TapStark.Stark.C118_violated_four_chunks",
    "TapStark.Stark.C118_violated_instance",
    "TapStark.Stark.C118_violated_denominators",
    "TapStark.Stark.C118_two_chunks_instance"
   ],
   "note": "The property does not hold from four chunks on: the loops use g^j where the native verifier has g^-j, so the i-th chunk gets the native weight of chunk (q-i) mod q (C118_weights); for one or two chunks the two agree (C118_two_chunks). An even number of wrong denominators is accepted (C118_violated_denominators). All theorems are about the variant of compute_quotient_expr without the assertions on operands; with them it panics for two or more chunks (C78)."
  },
  {
   "property": "C119",
   "status": "proved",
   "theorems": [
    "TapStark.Stark.C119_quotient",
    "TapStark.Stark.C119_exact",
    "TapStark.Stark.C119_wrong_trace",
    "TapStark.Stark.C119_debug",
    "TapStark.Stark.C119_fibonacci",
    "TapStark.Stark.C119_instance"
   ],
   "note": "C119_quotient holds for every algebraic system, also with nested transition filters; the other statements need the degree bound that the prover relies on (C44). The exceptional challenges are named before the run and depend on the system, the trace and the public values only."
  },
  {
   "property": "C12",
   "status": "proved",
   "theorems": [
    "TapStark.C12_pointer_map",
    "TapStark.C12_compress_prefix_ok",
    "TapStark.C12_compress_steps"
   ],
   "note": "Fragments are quarter-rounds and message permutations, in any legal sequence."
  },
  {
   "property": "C120",
   "status": "proved",
   "theorems": [
    "TapStark.Stark.C120_refuses",
    "TapStark.Stark.C120_serves",
    "TapStark.Stark.C120_instance"
   ],
   "note": "Traces of one row are included (C120_instance makes and verifies one). Above the size limit two_adic_generator panics in the code, while the generator of the model is a total function. C48_honest_run, from which C120_serves follows, now also says that no other witness leads to a proof."
  },
  {
   "property": "C121",
   "status": "partial",
   "theorems": [
    "TapStark.Stark.C121_violated_surplus_ignored",
    "TapStark.Stark.C121_violated_script_surplus_ignored",
    "TapStark.Stark.C121_violated_more_openings",
    "TapStark.Stark.C121_violated_honest_proof",
    "TapStark.Stark.C121_final_value_partial",
    "TapStark.Stark.C121_query_count_partial",
    "TapStark.Stark.C121_quotient_value_partial",
    "TapStark.Stark.C121_instance",
    "TapStark.Stark.C121_script_final_value_partial",
    "TapStark.Stark.C121_script_query_count_partial",
    "TapStark.Stark.C121_script_quotient_value_partial",
    "TapStark.Stark.C121_script_instance",
    "TapStark.Stark.C121_script_trace_value_partial",
    "TapStark.Stark.C121_script_trace_instance"
   ],
   "note": "Violated: izip! stops at the shortest list, so openings of a query beyond the two commitments and the folding rounds are never read; both verifiers give the same verdict whatever they are, and every honest proof has accepted variants. Other final values, other numbers of queries and one changed quotient value are refused (for the quotient value the point must lie outside of the quotient domain). Two changed quotient values can be accepted (C107). The script verifier refuses the same three changes (one quotient chunk, as it supports), and one changed value of the opened trace rows, if the batching challenge is not zero and for one query the opened row has the column and no folding challenge is the negative of the point of its round."
  },
  {
   "property": "C13",
   "status": "proved",
   "theorems": [
    "TapStark.C13_complete",
    "TapStark.C13_bad_key",
    "TapStark.C13_raw_sign_zero"
   ],
   "note": "The hash is any function with 20-byte output. C13_raw_sign_zero records that the raw sign() output (before signature() repairs zero digits) is rejected under minimal encoding."
  },
  {
   "property": "C14",
   "status": "proved",
   "theorems": [
    "TapStark.C14_exact",
    "TapStark.C14_digit_range"
   ],
   "note": "Exact characterisation on every stack."
  },
  {
   "property": "C15",
   "status": "proved",
   "theorems": [
    "TapStark.C15_domination",
    "TapStark.C15_forgery_needs_preimage"
   ],
   "note": ""
  },
  {
   "property": "C16",
   "status": "proved",
   "theorems": [
    "TapStark.C16_digits_range",
    "TapStark.C16_digits_value",
    "TapStark.C16_word",
    "TapStark.C16_checksum",
    "TapStark.C16_checksum_length"
   ],
   "note": ""
  },
  {
   "property": "C17",
   "status": "partial",
   "theorems": [
    "TapStark.C17_check_partial",
    "TapStark.C17_exact",
    "TapStark.C17_rejects_large",
    "TapStark.C17_accepts_other",
    "TapStark.C17_four_bytes"
   ],
   "note": "Violated for values of 2^31 and more (C17_rejects_large) and by the signature of 2^31 against 0 (C17_accepts_other); holds otherwise."
  },
  {
   "property": "C18",
   "status": "partial",
   "theorems": [
    "TapStark.C18_exact_partial",
    "TapStark.C18_accepts_mixture",
    "TapStark.C18_rejects_x"
   ],
   "note": "Violated in both directions; the exact behaviour is C18_exact_partial."
  },
  {
   "property": "C19",
   "status": "proved",
   "theorems": [
    "TapStark.Tap.C19_leaf_index_map",
    "TapStark.Tap.C19_any_tree"
   ],
   "note": "The per-node child order is whatever the (arbitrary) node hashes decide."
  },
  {
   "property": "C20",
   "status": "partial",
   "theorems": [
    "TapStark.Tap.C20_inclusion_complete",
    "TapStark.Tap.C20_hidden",
    "TapStark.Tap.C20_single_leaf_panics",
    "TapStark.Tap.C20_by_index_checks_other_leaf"
   ],
   "note": "Holds for every tree of two or more leaves. Violated for single-leaf trees (C20_single_leaf_panics), and the by-index entry point checks the leaf of another index (C20_by_index_checks_other_leaf)."
  },
  {
   "property": "C21",
   "status": "proved",
   "theorems": [
    "TapStark.Tap.C21_inclusion_binding"
   ],
   "note": "The collision is between a named query of the proof and a named query of the tree."
  },
  {
   "property": "C22",
   "status": "proved",
   "theorems": [
    "TapStark.Tap.C22_combine",
    "TapStark.Tap.C22_combine_succeeds",
    "TapStark.Tap.C22_combine_other_script"
   ],
   "note": ""
  },
  {
   "property": "C23",
   "status": "proved",
   "theorems": [
    "TapStark.Tcs.C23_padding",
    "TapStark.Tcs.C23_width",
    "TapStark.Tcs.C23_other_heights_panic"
   ],
   "note": ""
  },
  {
   "property": "C24",
   "status": "proved",
   "theorems": [
    "TapStark.Tcs.C24_open_verify",
    "TapStark.Tcs.C24_commit_query_times",
    "TapStark.Tcs.C24_batch",
    "TapStark.Tcs.C24_instance",
    "TapStark.Tcs.C24_unsorted_panics",
    "TapStark.Tcs.C24_single_leaf_panics"
   ],
   "note": "For commitments with at least two leaves; a single-leaf commitment's opening panics in the inclusion check. Bit commitments are any operators with the specification BcOk, which the Winternitz commitment of scripts/ meets."
  },
  {
   "property": "C25",
   "status": "partial",
   "theorems": [
    "TapStark.Tcs.C25_bound_to_proof_index_partial",
    "TapStark.Tcs.C25_not_bound_to_index"
   ],
   "note": "Violated: the opening of another index is accepted. What holds: values are bound to the index inside the proof, up to named hash collisions (for proofs that carry other operators: C112)."
  },
  {
   "property": "C26",
   "status": "partial",
   "theorems": [
    "TapStark.Tcs.C26_every_query_partial",
    "TapStark.Tcs.C25_bound_to_proof_index_partial",
    "TapStark.Tcs.C26_surplus_accepted",
    "TapStark.Tcs.C26_missing_panics",
    "TapStark.Tcs.C26_zero_queries_accept"
   ],
   "note": "Violated: surplus values are accepted unchecked, missing values panic, zero queries are accepted."
  },
  {
   "property": "C27",
   "status": "proved",
   "theorems": [
    "TapStark.Tcs.C27_exact",
    "TapStark.Tcs.C27_honest_witness"
   ],
   "note": ""
  },
  {
   "property": "C28",
   "status": "proved",
   "theorems": [
    "TapStark.FS.C28_grouping"
   ],
   "note": ""
  },
  {
   "property": "C29",
   "status": "proved",
   "theorems": [
    "TapStark.FS.C29_fresh",
    "TapStark.FS.C29_squeeze"
   ],
   "note": ""
  },
  {
   "property": "C30",
   "status": "partial",
   "theorems": [
    "TapStark.FS.C30_range_partial",
    "TapStark.FS.C30_onto_partial",
    "TapStark.FS.C30_upper_half_never",
    "TapStark.FS.C30_more_than_32_panics"
   ],
   "note": "Violated: the upper half of the requested range is never returned. Proved: the exact set of attainable values."
  },
  {
   "property": "C31",
   "status": "proved",
   "theorems": [
    "TapStark.FS.C31_grind_accepted",
    "TapStark.FS.C31_same_future"
   ],
   "note": ""
  },
  {
   "property": "C32",
   "status": "partial",
   "theorems": [
    "TapStark.FS.C32_small_partial",
    "TapStark.FS.C32_search_incomplete"
   ],
   "note": "Violated: only the 4096 smallest witnesses are tried."
  },
  {
   "property": "C33",
   "status": "proved",
   "theorems": [
    "TapStark.FS.C33_digest_roundtrip",
    "TapStark.FS.C33_words_roundtrip",
    "TapStark.FS.C33_byte_order",
    "TapStark.FS.C33_u64_roundtrip",
    "TapStark.FS.C33_value_roundtrip",
    "TapStark.FS.C33_field",
    "TapStark.FS.C33_slice"
   ],
   "note": ""
  },
  {
   "property": "C34",
   "status": "partial",
   "theorems": [
    "TapStark.C34_exact",
    "TapStark.C34_native_partial",
    "TapStark.C34_violated_consecutive"
   ],
   "note": "Violated: a sample that directly follows another one comes from another block (C34_violated_consecutive, with BLAKE3 itself). C34_exact says what the script samples in every history: the native challenger that forgets the rest of its block, with the word 2^31 read as 0; C34_native_partial: equal to the native sample without consecutive samples and without that word. BLAKE3 on 64-byte blocks is the trusted external hash (IsBlake3)."
  },
  {
   "property": "C35",
   "status": "proved",
   "theorems": [
    "TapStark.Fri.C35_row_eq_matrix",
    "TapStark.Fri.C35_other_arity_panics"
   ],
   "note": ""
  },
  {
   "property": "C36",
   "status": "proved",
   "theorems": [
    "TapStark.Fri.C36_folds_polynomial",
    "TapStark.Fri.C36_fold_poly",
    "TapStark.Fri.C36_degree"
   ],
   "note": ""
  },
  {
   "property": "C37",
   "status": "proved",
   "theorems": [
    "TapStark.Fri.C37_honest_accepted",
    "TapStark.Fri.C37_honest_no_panic",
    "TapStark.Fri.C37_deployed",
    "TapStark.Fri.C37_inputs_instance",
    "TapStark.Fri.C37_instance",
    "TapStark.Fri.C37_final_layer"
   ],
   "note": "Blowup at least 2. C37_deployed discharges every hypothesis on the field, the commitment scheme and the challenger."
  },
  {
   "property": "C38",
   "status": "partial",
   "theorems": [
    "TapStark.Fri.C38_violated_top_ignored",
    "TapStark.Fri.C38_violated_wrong_top_accepted",
    "TapStark.Fri.C38_instance",
    "TapStark.Fri.C40_accepted_query"
   ],
   "note": "Violated: the verdict does not depend on the reduced opening at the largest height. For the smaller heights the sum of the folded value and the reduced opening is compared with the next committed word (C40_accepted_query); a cheating prover can cancel them there (C83_violated_inputs)."
  },
  {
   "property": "C39",
   "status": "partial",
   "theorems": [
    "TapStark.Fri.C39_violated_no_rounds",
    "TapStark.Fri.C39_violated_truncation",
    "TapStark.Fri.C40_shape",
    "TapStark.Fri.C39_native_partial",
    "TapStark.Fri.C39_native_instance",
    "TapStark.Fri.C39_violated_script_truncation",
    "TapStark.Fri.C39_script_instance",
    "TapStark.Stark.C39_script_partial",
    "TapStark.Stark.C39_script_run"
   ],
   "note": "Violated: proofs without any openings and final value 0 pass. Only the number of query proofs is checked (C40_shape); what is left in the native verifier is C39_native_partial: a query has no openings at all only where the final value is zero, and debug builds require the openings to reach the blow-up for the index of the query. The script verifier also ignores commitments and challenges beyond the openings of a query (C39_violated_script_truncation); what holds is that on success every query opening a row of the trace reaches the round of the trace (C39_script_partial)."
  },
  {
   "property": "C40",
   "status": "proved",
   "theorems": [
    "TapStark.Fri.C40_accepted_query",
    "TapStark.Fri.C40_instance",
    "TapStark.Fri.C40_accepted_proof",
    "TapStark.Fri.C40_shape"
   ],
   "note": ""
  },
  {
   "property": "C41",
   "status": "partial",
   "theorems": [
    "TapStark.Fri.C41_violated_mismatch_panics",
    "TapStark.Fri.C41_violated_row_count_panics",
    "TapStark.Fri.C41_violated_short_row_panics",
    "TapStark.Fri.C41_reported_errors_partial",
    "TapStark.Fri.C41_query_exact",
    "TapStark.Fri.C41_queries_exact",
    "TapStark.Fri.C41_instance"
   ],
   "note": "Violated: mismatching and malformed openings panic. C41_reported_errors_partial lists the faults that are reported before and after the queries; C41_query_exact says for any number of rounds exactly which queries are accepted, which are reported as errors and which panic, and C41_queries_exact that the first query not in order decides."
  },
  {
   "property": "C42",
   "status": "proved",
   "theorems": [
    "TapStark.Pcs.C42_same_reduced_openings"
   ],
   "note": ""
  },
  {
   "property": "C43",
   "status": "partial",
   "theorems": [
    "TapStark.Fri.C43_fold_step",
    "TapStark.Fri.C43_query_accepts",
    "TapStark.Fri.C43_query_built",
    "TapStark.Fri.C43_native",
    "TapStark.Fri.C43_one_manager_per_query",
    "TapStark.Fri.C43_instance",
    "TapStark.Fri.C43_violated_no_blowup",
    "TapStark.Fri.C43_violated_own_entries"
   ],
   "note": "Proved for every blowup of at least 2, domains up to 2^27 (the two-adicity of the field), both fields of the compiler, and reduced openings whose expressions meet OpensTo; with blowup 1 the last point is not squared (C43_violated_no_blowup). There may be more openings than commitments, or fewer if every reduced opening belongs to a round that has one. The script never reads the entry of a row at the own position, where the native verifier compares it (C43_violated_own_entries)."
  },
  {
   "property": "C44",
   "status": "partial",
   "theorems": [
    "TapStark.Stark.C44_symbolic_degree",
    "TapStark.Stark.C44_quotient_fits_partial",
    "TapStark.Stark.C48_violated_nested_transition"
   ],
   "note": "The exact bound is C44_symbolic_degree: the symbolic degree does not count transition flags. With fewer transition flags than the degree the quotient fits; violated by three nested transition filters."
  },
  {
   "property": "C45",
   "status": "proved",
   "theorems": [
    "TapStark.Stark.C45_least_power_of_two",
    "TapStark.Stark.C45_degree_is_max"
   ],
   "note": ""
  },
  {
   "property": "C46",
   "status": "partial",
   "theorems": [
    "TapStark.Stark.C46_folders_agree_partial",
    "TapStark.Stark.C46_violated_empty"
   ],
   "note": "Holds for every non-empty constraint list; the script expression builder panics on an empty one."
  },
  {
   "property": "C47",
   "status": "proved",
   "theorems": [
    "TapStark.Stark.C47_recombine"
   ],
   "note": ""
  },
  {
   "property": "C48",
   "status": "partial",
   "theorems": [
    "TapStark.Stark.C48_complete_partial",
    "TapStark.Stark.C48_complete_identity",
    "TapStark.Stark.C48_sound_partial",
    "TapStark.Stark.C48_no_panic",
    "TapStark.Stark.C48_honest_run",
    "TapStark.Stark.C48_deployed",
    "TapStark.Stark.C48_C75_instance",
    "TapStark.Stark.C48_in_domain_never_accepted",
    "TapStark.Stark.C48_violated_nested_transition",
    "TapStark.Stark.C48_violated_flag_arithmetic"
   ],
   "note": "Holds for AIRs that use the row flags as filters (when_first_row and so on), with at most as many transition filters as the degree allows. Violated by nested transition filters and by arithmetic on row flags. C48_deployed discharges the hypotheses on the field, commitment schemes and challenger."
  },
  {
   "property": "C49",
   "status": "proved",
   "theorems": [
    "TapStark.Stark.C49_selectors",
    "TapStark.Stark.C49_not_normalised"
   ],
   "note": "For the native selectors; for those of the script verifier see C81."
  },
  {
   "property": "C50",
   "status": "proved",
   "theorems": [
    "TapStark.Stark.C50_check_constraints"
   ],
   "note": ""
  },
  {
   "property": "C51",
   "status": "partial",
   "theorems": [
    "TapStark.Stark.C51_shape_partial",
    "TapStark.Stark.C51_violated_panics"
   ],
   "note": "Exact for proofs whose claimed trace length has a quotient domain; longer claims panic."
  },
  {
   "property": "C52",
   "status": "partial",
   "theorems": [
    "TapStark.Stark.C52_violated_prover",
    "TapStark.Stark.C52_violated_verifier",
    "TapStark.Stark.C52_violated_only_final"
   ],
   "note": "Violated: no challenge depends on the public values or the claimed length."
  },
  {
   "property": "C53",
   "status": "proved",
   "theorems": [
    "TapStark.Stark.C53_zerofier",
    "TapStark.Stark.C53_panics"
   ],
   "note": ""
  },
  {
   "property": "C54",
   "status": "proved",
   "theorems": [
    "TapStark.C54_shared",
    "TapStark.C54_unshared",
    "TapStark.C54_sharing_irrelevant",
    "TapStark.C54_instance",
    "TapStark.C54_violated_multi_output",
    "TapStark.C54_violated_unshared_move"
   ],
   "note": "All operations, also those with several outputs as long as the latter need no cached operand (MultiOk); the violated theorems show both restrictions necessary."
  },
  {
   "property": "C55",
   "status": "proved",
   "theorems": [
    "TapStark.C55_add",
    "TapStark.C55_sub",
    "TapStark.C55_mul",
    "TapStark.C55_instance",
    "TapStark.repoLib_ok"
   ],
   "note": "For every arithmetic library meeting U31Lib.Ok; repoLib_ok shows that scripts written from those in the repository meet it."
  },
  {
   "property": "C56",
   "status": "proved",
   "theorems": [
    "TapStark.C56_bits",
    "TapStark.C56_reverse",
    "TapStark.C56_reverse_native",
    "TapStark.C56_instance",
    "TapStark.C56_lengths",
    "TapStark.C56_checked_reverse",
    "TapStark.C56_high_bits",
    "TapStark.C56_high_bits_negative",
    "TapStark.C56_violated_out_of_range",
    "TapStark.C56_violated_compressed"
   ],
   "note": "The violated theorems record what the scripts do outside the stated range."
  },
  {
   "property": "C57",
   "status": "proved",
   "theorems": [
    "TapStark.C57_base",
    "TapStark.C57_ext",
    "TapStark.C57_out_of_range",
    "TapStark.C57_too_large",
    "TapStark.C57_instance"
   ],
   "note": "Indices of absolute value below 2^31, the range of script numbers."
  },
  {
   "property": "C58",
   "status": "partial",
   "theorems": [
    "TapStark.C58_reduce_partial",
    "TapStark.C58_native_partial",
    "TapStark.C58_violated_min_word",
    "TapStark.C58_instance"
   ],
   "note": "All words but 0x80000000, for which the script leaves 0 and the native conversion does not."
  },
  {
   "property": "C59",
   "status": "partial",
   "theorems": [
    "TapStark.C59_exact",
    "TapStark.C59_accepts_partial",
    "TapStark.C59_violated_two_failures",
    "TapStark.C59_ext_checks"
   ],
   "note": "Violated: the checks are chained with equality, so an even number of failing base field checks is accepted. C59_exact says what is accepted; at most one failing check is caught, and so is every failing extension field check."
  },
  {
   "property": "C60",
   "status": "proved",
   "theorems": [
    "TapStark.C60_lookup",
    "TapStark.C60_instance",
    "TapStark.C60_violated_out_of_range",
    "TapStark.C60_violated_instance",
    "TapStark.C60_expression",
    "TapStark.C60_expression_instance",
    "TapStark.C60_shared_table",
    "TapStark.C60_extension_refused"
   ],
   "note": ""
  },
  {
   "property": "C61",
   "status": "proved",
   "theorems": [
    "TapStark.C61_counts_distinct",
    "TapStark.C61_instance"
   ],
   "note": ""
  },
  {
   "property": "C62",
   "status": "proved",
   "theorems": [
    "TapStark.C62_add",
    "TapStark.C62_double",
    "TapStark.C62_sub",
    "TapStark.C62_mul",
    "TapStark.C62_to_bits",
    "TapStark.C62_instance",
    "TapStark.C62_ext",
    "TapStark.C62_ext_equalverify"
   ],
   "note": "For every modulus below 2^31. The scripts are those of the text in /repo/scripts/src/u31; the crate compiled instead is external."
  },
  {
   "property": "C63",
   "status": "partial",
   "theorems": [
    "TapStark.C63_violated",
    "TapStark.C63_violated_example",
    "TapStark.C63_violated_disabled"
   ],
   "note": "Violated: operands of the shift are swapped, the opcode is disabled, the result stays on the alt stack."
  },
  {
   "property": "C64",
   "status": "proved",
   "theorems": [
    "TapStark.Fri.C64_pair",
    "TapStark.Fri.C64_opened_rows",
    "TapStark.Fri.C64_leaf_index"
   ],
   "note": ""
  },
  {
   "property": "C65",
   "status": "proved",
   "theorems": [
    "TapStark.C65_blake3_160"
   ],
   "note": ""
  },
  {
   "property": "C66",
   "status": "proved",
   "theorems": [
    "TapStark.C66_hash_equalverify",
    "TapStark.C66_hash_equalverify_160"
   ],
   "note": ""
  },
  {
   "property": "C67",
   "status": "proved",
   "theorems": [
    "TapStark.C67_check_and_recover"
   ],
   "note": ""
  },
  {
   "property": "C68",
   "status": "partial",
   "theorems": [
    "TapStark.C68_key_reuse_forges_any_value"
   ],
   "note": "Violated: two signatures under the same key allow any value. What holds for a single signature is C15."
  },
  {
   "property": "C69",
   "status": "proved",
   "theorems": [
    "TapStark.Tcs.C69_operator_numbers",
    "TapStark.Tcs.C69_never_reused"
   ],
   "note": ""
  },
  {
   "property": "C70",
   "status": "partial",
   "theorems": [
    "TapStark.FS.C70_transcript_binding_partial",
    "TapStark.FS.C70_trailing_zero_invisible"
   ],
   "note": "Violated by trailing zero words. Proved for histories with the same pattern of calls, up to a named collision."
  },
  {
   "property": "C71",
   "status": "proved",
   "theorems": [
    "TapStark.FS.C71_pow_block"
   ],
   "note": ""
  },
  {
   "property": "C72",
   "status": "proved",
   "theorems": [
    "TapStark.Pcs.C72_honest_opening_accepted",
    "TapStark.Pcs.C72_honest_no_panic",
    "TapStark.Pcs.C72_honest_run",
    "TapStark.Pcs.C72_commit",
    "TapStark.Pcs.C72_deployed_commit",
    "TapStark.Pcs.C72_deployed",
    "TapStark.Pcs.C72_instance"
   ],
   "note": "Domains of every size, also of one point: such matrices have the height at which the rounds end and the verifier never looks at their reduced openings, which are zero for an honest prover. Blowup at least 2. C72_deployed discharges the hypotheses on the field and the commitment schemes; the external DFT and interpolation are assumed correct."
  },
  {
   "property": "C73",
   "status": "partial",
   "theorems": [
    "TapStark.Pcs.C73_violated_top_values_ignored",
    "TapStark.Pcs.C73_violated_any_values_accepted",
    "TapStark.Pcs.C73_instance",
    "TapStark.Pcs.C73_lower_partial",
    "TapStark.Pcs.C73_lower_instance",
    "TapStark.Pcs.C73_exact",
    "TapStark.Pcs.C73_exact_instance"
   ],
   "note": "Violated: claimed values of the matrices of the largest height are ignored; if all matrices have the same height, every claim is accepted. With an empty proof every claim is accepted at all heights (C84). What holds: in an accepted proof, one other value claimed for a matrix of at least two rows below the largest height is refused, if the batching challenge is not zero and some query opens the column and the folding round of the matrix (C73_lower_partial). C73_exact says which claims are interchangeable: those whose combinations agree, for every query, at every height that belongs to an opened round after the first. The script verifier refuses one other value of the trace at the largest height too (C121). Both verifiers together do bind the claims that are made before the combining challenge (C110)."
  },
  {
   "property": "C74",
   "status": "partial",
   "theorems": [
    "TapStark.Pcs.C74_violated_never_err",
    "TapStark.Pcs.C74_violated_shape_panics"
   ],
   "note": "Violated: no input makes verification return an error; it accepts or panics. C117_opening_exact says on which inputs."
  },
  {
   "property": "C75",
   "status": "partial",
   "theorems": [
    "TapStark.Stark.C75_violated_forged_proof",
    "TapStark.Stark.C48_C75_instance",
    "TapStark.Stark.fib_seven"
   ],
   "note": "Violated: any accepted proof can be turned into an accepted proof of another statement. The algebraic part of soundness, with values bound to polynomials, is C48_sound_partial; for the whole protocol with both verifiers see C111 and C114."
  },
  {
   "property": "C76",
   "status": "proved",
   "theorems": [
    "TapStark.C76_unary",
    "TapStark.C76_power",
    "TapStark.C76_equalverify",
    "TapStark.C76_equal",
    "TapStark.C76_num_to_field",
    "TapStark.C76_violated_num_to_field_ext",
    "TapStark.C76_four_to_one",
    "TapStark.C76_instance"
   ],
   "note": "The violated theorem records the conversion of an operand of size 4."
  },
  {
   "property": "C77",
   "status": "partial",
   "theorems": [
    "TapStark.Stark.C77_exact",
    "TapStark.Stark.C77_accepts",
    "TapStark.Stark.C77_violated_one_query",
    "TapStark.Stark.C77_violated_two_queries"
   ],
   "note": "Violated both ways, with BLAKE3 itself: with one query the script rejects the native verifier's own challenges, with two it accepts indices that differ from those it computes. C77_exact says what is accepted for every transcript the native verifier gets through; C77_accepts: acceptance depends on the parity of the number of differing query indices only. Proof-of-work bits and domain sizes between 1 and 31 bits, degree bits up to 27; with no degree bits (one row) nothing is accepted, because the script of index_to_rou(1, 0) fails."
  },
  {
   "property": "C78",
   "status": "partial",
   "theorems": [
    "TapStark.Stark.C78_one_chunk",
    "TapStark.Stark.C78_native",
    "TapStark.Stark.C78_violated_two_chunks"
   ],
   "note": "Violated: with two or more chunks building the check panics for every input (mul_ext, sub_ext, mul_base and sub_base assert operand fields that the loops do not have). With one chunk the check always builds and accepts exactly denominator 1 and the native quotient value."
  },
  {
   "property": "C79",
   "status": "partial",
   "theorems": [
    "TapStark.Pcs.C79_openings",
    "TapStark.Pcs.C79_exact",
    "TapStark.Pcs.C79_native",
    "TapStark.Pcs.C79_instance",
    "TapStark.Pcs.C79_violated_points",
    "TapStark.Pcs.C79_points_instance",
    "TapStark.Pcs.C79_exact_even",
    "TapStark.Pcs.C79_unread_instance",
    "TapStark.Fri.C79_violated_no_rounds",
    "TapStark.Fri.C79_violated_unread"
   ],
   "note": "Exact acceptance of every query script and completeness relative to the native verifier, for blowup at least 2, matrices of at least two rows and domains up to 2^27. Violated: the checks do not depend on the opening points, so the script generated for one point accepts the inputs of another; and without commit-phase commitments (all matrices of one row) the script of a query that opens anything fails (C79_violated_no_rounds). The number of openings in a query is arbitrary: with fewer openings than commitments, C79_exact needs an opening for the round of every matrix, and where no round reads the reduced openings the script fails (C79_violated_unread) although the native verifier accepts (C79_unread_instance); for matrices of one height C79_exact_even needs no condition on the openings."
  },
  {
   "property": "C80",
   "status": "partial",
   "theorems": [
    "TapStark.Stark.C80_exact",
    "TapStark.Stark.C80_native",
    "TapStark.Stark.C80_violated_empty",
    "TapStark.Stark.C80_instance"
   ],
   "note": "Proved for every AIR with at least one assertion, every opened row, public value and point other than 1 and the last point of the domain (excluded by the native verifier too); an AIR without assertions panics. StackTracker::drop is an assumption on the external crate. An AIR is a list of expression trees; AIRs whose expressions share values are C92."
  },
  {
   "property": "C81",
   "status": "partial",
   "theorems": [
    "TapStark.Stark.C81_selectors",
    "TapStark.Stark.C81_violated_zH"
   ],
   "note": "First, last and transition selectors proved for every coset. The z_h expression is wrong on every coset."
  },
  {
   "property": "C82",
   "status": "partial",
   "theorems": [
    "TapStark.Stark.C82_exact",
    "TapStark.Stark.C82_native_partial",
    "TapStark.Stark.C82_honest_partial",
    "TapStark.Stark.C82_violated_many_chunks",
    "TapStark.Stark.C82_violated_two_chunks",
    "TapStark.Stark.C82_instance",
    "TapStark.Stark.C82_violated_one_query",
    "TapStark.Stark.C82_violated_two_indices",
    "TapStark.Stark.C82_violated_no_rounds",
    "TapStark.Stark.C82_violated_one_row",
    "TapStark.Stark.C82_violated_one_row_instance",
    "TapStark.Stark.C82_violated_zero_bits",
    "TapStark.Stark.C82_violated_zero_bits_instance"
   ],
   "note": "Violated: with two or more chunks it never succeeds; on a proof with degree_bits 0 it never succeeds, whatever the proof (C82_violated_zero_bits); on honest proofs of one-row traces it never succeeds although the native verifier accepts (C82_violated_one_row); with one query it fails on an honest proof that the native verifier accepts (C82_violated_one_query); with two it succeeds with wrong query indices (C82_violated_two_indices). With one chunk C82_exact says exactly what the script verifier accepts, with no condition on the shape of the queries; C82_native_partial: on proofs the native verifier accepts and whose top rows hold the reduced openings, it succeeds iff the transcripts agree up to an even number of query indices; C82_honest_partial: every honest proof passes the native verifier, and the script verifier iff an even number of query indices differ."
  },
  {
   "property": "C83",
   "status": "partial",
   "theorems": [
    "TapStark.Fri.C83_passes_iff",
    "TapStark.Fri.C83_passing_is_low_degree",
    "TapStark.Fri.C83_passing_is_low_degree_half",
    "TapStark.Fri.C83_soundness_error",
    "TapStark.Fri.C83_soundness_error_half",
    "TapStark.Fri.C83_honest_passes",
    "TapStark.Fri.C83_far_instance",
    "TapStark.Fri.C83_violated_inputs"
   ],
   "note": "Proved in the whole unique-decoding regime (up to half of the distance; up to a third with the error (m + rounds)/|F|, beyond that with (m (m + 2^rounds) / 3 + rounds)/|F|) for every prover that chooses its words adaptively, under the assumption that openings are those of the committed words at the queried position; the code itself does not bind them (C25), nor requires one per round (C39). What is proved close to low degree is the sum of the first committed word and the reduced openings of the smaller heights; no query ties the reduced openings themselves, so every claimed value can be accepted (C83_violated_inputs). Missing: distances beyond half of the minimum distance (list decoding), and the passage from committed words to a computationally binding scheme."
  },
  {
   "property": "C84",
   "status": "partial",
   "theorems": [
    "TapStark.Pcs.C84_violated_empty_opening",
    "TapStark.Stark.C84_violated_empty_proof",
    "TapStark.Stark.C84_instance",
    "TapStark.Stark.C84_violated_script",
    "TapStark.Stark.C84_violated_script_instance",
    "TapStark.Stark.fib_seven"
   ],
   "note": "Violated: an opening proof without commitments and with empty query proofs is accepted for all claims, and with computed quotient values a proof from nothing is accepted for every AIR and public values, also with debug assertions; the script verifier accepts it too, on the same condition as honest proofs (C84_violated_script, with a run under BLAKE3). What is required of a proof is its number of query proofs and the proof of work (C40_shape). No positive part is claimed."
  },
  {
   "property": "C85",
   "status": "proved",
   "theorems": [
    "TapStark.Prog.C85_program",
    "TapStark.Prog.C85_unused_input",
    "TapStark.Prog.C85_instance"
   ],
   "note": "For the node kinds a client program can build from field elements: constants, inputs, hints, +, -, *, negation, square, double, power, sum, product, and the mixed operations. Arithmetic scripts and stack tracker satisfy recorded contracts, shown for the repository's scripts (C47) and for a reference tracker."
  },
  {
   "property": "C86",
   "status": "partial",
   "theorems": [
    "TapStark.ManagerAssign.C86_exact",
    "TapStark.ManagerAssign.C86_exact_instance",
    "TapStark.ManagerAssign.C86_next_only_partial",
    "TapStark.ManagerAssign.C86_violated_not_last",
    "TapStark.ManagerAssign.C86_instance",
    "TapStark.ManagerAssign.C86_value_count"
   ],
   "note": "C86_exact says for every sequence of calls which manager gets which inputs and which sequences panic. Violated after adding a manager or moving back: the next manager handed out is not the one that gets the next input (C86_violated_not_last). Proved for clients that only ask for the next manager, as the repository's own callers do; the statistics hold in general (C86_value_count)."
  },
  {
   "property": "C87",
   "status": "proved",
   "theorems": [
    "TapStark.C87_subgroup",
    "TapStark.C87_babybear",
    "TapStark.C87_instance"
   ],
   "note": "Fields with the two-adic generators of TwoAdic; BabyBear is one."
  },
  {
   "property": "C88",
   "status": "proved",
   "theorems": [
    "TapStark.C88_words",
    "TapStark.C88_hash",
    "TapStark.C88_hash_fits",
    "TapStark.C88_hash_full",
    "TapStark.C88_field",
    "TapStark.C88_bit_commitment"
   ],
   "note": "The limit is that of Bitcoin consensus, stacks measured after every opcode and the witness before the first one. Whether the executor used in the repository enforces it is not visible there."
  },
  {
   "property": "C89",
   "status": "partial",
   "theorems": [
    "TapStark.Tcs.C89_leaf_spendable",
    "TapStark.Tcs.C89_violated_wide"
   ],
   "note": "Violated for more than 48 words per leaf (C89_violated_wide); C89_leaf_spendable is exact. For commitments whose recovery needs the room of the Winternitz commitment (20 elements per word, 17 more while running); winternitz_manager shows that the latter meets this."
  },
  {
   "property": "C90",
   "status": "partial",
   "theorems": [
    "TapStark.C90_inputs",
    "TapStark.C90_inputs_instance",
    "TapStark.Stark.C90_trace",
    "TapStark.Stark.C90_violated_trace",
    "TapStark.Stark.C90_instance"
   ],
   "note": "Violated: more than 1000 words of inputs cannot be pushed (C90_inputs, C90_trace); an AIR with 126 columns shows it (C90_instance). How much room scripts with fewer inputs need at most is C91."
  },
  {
   "property": "C91",
   "status": "proved",
   "theorems": [
    "TapStark.C91_manager",
    "TapStark.Prog.C91_program",
    "TapStark.Prog.C91_library",
    "TapStark.Prog.C91_instance",
    "TapStark.Stark.C91_trace",
    "TapStark.Stark.C91_trace_instance"
   ],
   "note": "The field scripts need R elements beside their operands and the tracker at most four: contracts shown for the repository's scripts with R = 41 (repoLib_slim) and for the reference tracker (refTracker_thrifty). An upper bound, not the exact room."
  },
  {
   "property": "C92",
   "status": "proved",
   "theorems": [
    "TapStark.Stark.C92_meaning",
    "TapStark.Stark.C92_unfold",
    "TapStark.Stark.C92_native",
    "TapStark.Stark.C92_script",
    "TapStark.Stark.C92_agree",
    "TapStark.Stark.C92_room",
    "TapStark.Stark.C92_verifier",
    "TapStark.Stark.C92_instance",
    "TapStark.Stark.C92_instance_holds",
    "TapStark.Stark.C92_verifier_instance"
   ],
   "note": "The provided methods of AirBuilder and its filtered builder (p3-air, outside the repository) are modelled by their documented definitions. A program refers to earlier values by position; a missing position is a program that does not compile. The script for an AIR without assertions cannot be generated (C80_violated_empty)."
  },
  {
   "property": "C93",
   "status": "partial",
   "theorems": [
    "TapStark.Uni.C93_power",
    "TapStark.Uni.C93_power_instance",
    "TapStark.Uni.C93_panics",
    "TapStark.Uni.C93_generator_base",
    "TapStark.Uni.C93_generator_ext",
    "TapStark.Uni.C93_table",
    "TapStark.Uni.C93_violated_out_of_range",
    "TapStark.Uni.C93_generator_instance"
   ],
   "note": "Violated: an index outside the table is not refused (C93_violated_out_of_range). Everything else is proved."
  },
  {
   "property": "C94",
   "status": "partial",
   "theorems": [
    "TapStark.Size.C94_leaf",
    "TapStark.Size.C94_leaf_fits",
    "TapStark.Size.C94_winternitz_manager",
    "TapStark.Size.C94_challenges",
    "TapStark.Size.C94_violated_four_queries",
    "TapStark.Size.C94_violated_seven",
    "TapStark.Size.C94_violated_test",
    "TapStark.Size.C94_instance"
   ],
   "note": "Violated by the script of the challenges. Sizes: the number of opcodes is a lower bound of the bytes; for upper bounds every pushed number counts its bytes. The sizes of the other generated scripts are not bounded."
  },
  {
   "property": "C95",
   "status": "partial",
   "theorems": [
    "TapStark.C95_exact",
    "TapStark.C95_one_or_four_partial",
    "TapStark.C95_violated_two",
    "TapStark.C95_violated_eight"
   ],
   "note": "Violated for other numbers of words than one and four (C95_violated_two, C95_violated_eight); C95_exact says what happens for any number."
  },
  {
   "property": "C96",
   "status": "partial",
   "theorems": [
    "TapStark.C96_violated",
    "TapStark.C96_exact"
   ],
   "note": "Violated: the script is empty."
  },
  {
   "property": "C97",
   "status": "proved",
   "theorems": [
    "TapStark.Prog.C97_run",
    "TapStark.Prog.C97_assert",
    "TapStark.Prog.C97_instance",
    "TapStark.Prog.C97_other_type",
    "TapStark.Prog.C97_other_type_instance"
   ],
   "note": "Programs as in C85: constants, inputs, field operations, sums, products, in either field. There is no call with a constant of the other field (C97_other_type)."
  },
  {
   "property": "C98",
   "status": "partial",
   "theorems": [
    "TapStark.Stark.C98_small",
    "TapStark.Stark.C98_checked",
    "TapStark.Stark.C98_violated_release",
    "TapStark.Stark.C98_release_exact",
    "TapStark.Stark.C98_violated_sizes",
    "TapStark.Stark.C98_instance"
   ],
   "note": "Violated: without overflow checks multiples of 64 can be added (C98_violated_release, and C98_release_exact says nothing else wraps); in every build one proof is accepted for several sizes (C98_violated_sizes)."
  },
  {
   "property": "C99",
   "status": "proved",
   "theorems": [
    "TapStark.Stark.C99_sum",
    "TapStark.Stark.C99_product",
    "TapStark.Stark.C99_field_lists",
    "TapStark.Stark.C99_operators",
    "TapStark.Stark.C99_degree",
    "TapStark.Stark.C99_air",
    "TapStark.Stark.C99_bound",
    "TapStark.Stark.C99_bound_attained"
   ],
   "note": "Constants of the field (from_canonical and so on) are those of p3-field, outside the repository. The degree in the selector of transitions is not reported (C44)."
  }
 ]
}