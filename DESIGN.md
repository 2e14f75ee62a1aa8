# Formal model of bitlayer-org/tap-stark — design

The code is read as text from `/repo` (Rust, pinned commit); it is never built or run.
The model and all proofs are in Lean 4 under `lean/Verif/`.

## 1. Approach

tap-stark has three kinds of code, and each gets its own style of model.

1. **Bitcoin Script generators** (`scripts/`, `script_expr/src/script_gen.rs`,
   `script_expr/src/script_helper.rs`, leaf scripts in `basic/src/tcs`).
   A generator becomes a Lean function returning a list of opcodes, and the opcodes are run by
   a small total interpreter (`Verif/Script/`).  Stack elements are byte strings; numbers use the
   script-number encoding and arithmetic operands are limited to four bytes, as in consensus.
   Failure is `none`.  HASH160 is a parameter.  Theorems quantify over the whole stack.
2. **Protocol state machines** (challenger, tap tree, commitment scheme, FRI, PCS, STARK).
   Plain functions on lists and structures.  Panics and `Err` are distinct explicit values.
   Hash functions, the taproot library and the permutation are parameters.
3. **Field and polynomial arithmetic** (folding, quotients, selectors, degrees).  Stated over an
   arbitrary `Field` (or a field with the two-adic generator laws that `TwoAdicField` promises),
   with Mathlib polynomials as the specification.

For every property there is a theorem in a `Verif/Props/*.lean` file.  Specifications that are not
part of the code (BLAKE3, bit rotation, polynomial folding, …) are in `Verif/Spec/*.lean`.
Beside the theorems stand examples and theorems named `Cxx_instance` that meet their hypotheses on concrete data.  The
files `Verif/Props/Cases*.lean` apply further theorems to concrete data, one example per theorem.

Where the code violates a property, the negation is proved with a concrete witness and the part
that holds is proved as `…_partial`.

## 2. Plan per property

| Property | Model | Proof |
|---|---|---|
| C01, C05, C07–C09 | opcode lists of `u32_std.rs`, `pseudo.rs` | symbolic execution, induction on depth / count |
| C02 | `u32_zip.rs`, `u32_add.rs` | zip lemma by induction on depths, byte carry arithmetic |
| C03 | `u32_xor.rs` with its 256-entry table | table facts by kernel evaluation over all bytes, lifted to words |
| C04 | `u32_rrot.rs`, all 32 amounts | byte-split lemma, then case per amount |
| C06, C17, C58 | `u32_compress`, bit commitment check, `u32_to_u31` | integer arithmetic; counterexamples for the violated halves |
| C10–C12 | `blake3.rs` generator with its pointer map | refinement: pointer-map invariant between word stack and BLAKE3 state |
| C13–C16 | `winternitz.rs`, `bit_comm_u32.rs` | hash chains by induction, symbolic execution, checksum domination |
| C18 | `check_equal_x_or_neg_x_script` | exact characterisation + counterexamples |
| C19–C22 | `builder.rs`, `complete_taptree.rs` with the child order an arbitrary oracle | invariant over the combine loop |
| C23–C27 | `tcs/mod.rs`, `taptree_mmcs.rs` | list reasoning; counterexamples for C25, C26 |
| C28–C34 | `challenger/`, `challenger_expr.rs` | invariants over operation histories; divergence witness |
| C35–C43, C64 | `fri/`, `script_verifier.rs` | field algebra, bit reversal, induction over rounds; negations for C38, C39, C41; for C41 also the exact set of proofs that are accepted, reported and panicked on (`Props/FriOutcome.lean`) |
| C72–C74 | `two_adic_pcs.rs` commit, open, verify | state relation between the prover's and the verifier's accumulators; quotient polynomials of low degree; negations for C73, C74; for C73 below the largest height (`Props/LowerClaims.lean`): two accepted lists of claims have the same reduced openings there, since the opened pairs are the same, and one changed claim changes the combination of its height; `Props/ClaimsOpening.lean` says exactly which claims are interchangeable, from the exact conditions of C117 |
| C44–C53, C75 | `uni-stark/`, constraint folding of `script_expr/src/script_builder.rs` | AIRs as expressions with a row semantics and a polynomial semantics; divisibility by the vanishing polynomial; degree induction; interpolation on cosets; negations with explicit AIRs and proofs |
| C54–C61 | `script_expr/` | compiler correctness by induction on expressions, invariants on use counts |
| C55, C57, C76 | field operations of `script_gen.rs`, `index_to_rou` | effect of a fragment on the top of the stack (`Does`); induction on bits |
| C77 | `bf_sample_challenges`, transcript part of `generate_script_verifier` | refinement: every check compares the native challenger with the challenger of C34; parity of the failed checks |
| C78 | `compute_quotient_expr` with the constructors it uses | panic for two or more chunks for all inputs; for one chunk refinement to the native quotient value through C59 |
| C79 | `generate_verify_expr`, all loops of its input opening | loop-by-loop simulation of the native input opening (value of every expression), then C43 per query (queries with fewer openings than commitments as queries with a larger blowup; where no round reads a reduced opening, the names of its inputs are shown to occur in no expression of the script); a relation between the managers of two proofs for the independence of the points |
| C80 | `generate_script_verifier`, the script of the folded constraints; `ScriptConstraintBuilder` | structural induction on the expressions of the AIR (value of every generated expression), induction over the folding loop, then C54 for the generated script and its stack |
| C81 | `selectors_at_point_expr` | value of every generated expression, for an arbitrary coset |
| C82 | `generate_script_verifier` as a whole (one manager per query, the quotient and challenge managers, the trace script), compared with `verify` | exact acceptance by combining C77 to C80 (every manager accepts iff its checks hold), then the native acceptance implies each part; honest proofs through completeness (C48) and a lemma that their top rows hold the reduced openings |
| C83 | `verify_query` run against an adaptive prover: a strategy gives the word committed to after every list of challenges and the final value; queries that pass are those `verify_query` accepts for openings of these words | a query passes iff the words are consistent along its path (C40 and its converse); proximity of lines within a third of the distance (own proof, by two good challenges and counting) and within half of it (own proof: the Berlekamp-Welch equation solved over polynomials in the challenge by counting dimensions, then two challenges without errors where the locator does not vanish), then induction on the rounds and counting over challenges and indices |
| C84 | `TwoAdicFriPcs::verify` and the STARK `verify` on a proof that opens nothing | direct computation: every `izip!` over empty lists does nothing, the folded value is 0; the quotient values are solved from the out-of-domain identity (as for C75) |
| C85 | straight-line programs over the constructors of `alias.rs`, the input manager and `equal_for_f`, then `run` | induction over the program: every value denotes its field value and the inputs that occur in its tree are those of its formula; then the theorem about runs of a manager (C59) |
| C86 | `ManagerAssign` and its statistics | invariant: while only `next_manager` is called the current index is that of the last manager; violation for every state whose current manager is not the last; counting by C61 |
| C87 | `BfField::sub_group`, `field_mod` | loop invariant; roots of unity of a primitive root |
| C88 | `runL`: the interpreter with the limit of 1000 elements on both stacks, after every opcode and for the witness | an analysis `Eff p n o k t` (elements needed, left, lower and upper bound of the peak) that is sound for `runL`; composed along the generators of the scripts; exact because lower and upper bound coincide |
| C89 | leaf scripts of `tcs` under `runL` | the analysis of C88 for the script of a leaf, by induction on its values; with C24 and C27 |
| C90 | scripts of managers and of the folded constraints under `runL` | compiled scripts start with the pushes of all inputs (`Tracker` only appends); after these the stack holds their words, by the invariant of C54 |
| C91 | generated scripts under `runL`, upper bound | `need` is computed from the expression as the operands are evaluated left to right (`Spec/Room.lean`); the invariant of C54 is extended by the number of elements held on both stacks (`Tracker.held`, `Tracker.Fits`), every step of `simulate` keeps it within what `need` and the copies of shared values allow; sizes of programs and AIRs bound both |
| C92 | `Air::eval` as a straight-line program over the methods of an arbitrary builder (`Model/AirProgram.lean`), instantiated with values (folders), symbolic expressions, trees, and nodes of the script builder with the identifier counter as state | a builder without state computes the image of the trees under a homomorphism, by induction over the program; for the script builder every value denotes its field value and every identifier is new (`eval_makes`, `tidy_eval`), then as C80 and C91; the verdict of the script verifier depends on the generated script only through its acceptance |
| C93 | `value_exp_n_minus_one`, `push_generator_table`, `get_generator` (`Model/UniScripts.lean`) over either field | composition of script contracts (`Does`), induction over the table; the violation runs the lookup with an index beyond the table |
| C94 | number of opcodes and bytes of scripts (`Spec/ScriptSize.lean`); leaves, the manager of the challenges | leaves: additivity of sizes, Winternitz locks of 840 bytes; challenges: an invariant of the challenger's state (length of its chain of hashes, identifiers in use) through every observation and sample, a lower bound of the compiled script by the hashes under nodes with several outputs (`compile_length`; such nodes are never cached), and the nodes visited only once |
| C95 | `recover_message_euqal_to_commit_message` of `BitCommitment` (`Model/MultiComm.lean`) | recovery of the signed words for any number of words (as C67, for another value under the same keys), then the comparison script on explicit stacks |
| C96 | `equivocation` (`Model/MultiComm.lean`) | the empty script run on a witness without signatures |
| C97 | `run_dsl`, `assert_dsl`, `debug_assert_dsl` (`Model/RunDsl.lean`) on the programs of C85 | compiler correctness (C54) without inputs; induction over the compiler for the panic on a missing input |
| C98 | `verify` with the two shifts by `degree_bits` as 64-bit machine arithmetic, with and without overflow checks (`Model/DegreeBits.lean`) | exact relation to `Stark.verify`; violation in release builds for every proof; violation in all builds by a proof of zeros, from the exact form of the out-of-domain check (C48) and C84 |
| C99 | operators, sums, products, conversions of symbolic expressions and variables (`Model/Symbolic.lean`); value, degree and the expressions a user can make (`Spec/Symbolic.lean`) | induction over lists and over how an expression was made; degree of polynomials |
| C100 | the conversion of symbolic variables to script inputs (`Model/Symbolic.lean`) against the inputs of the script builder (`Model/TraceScript.lean`) | comparison for all rows and columns |
| C101 | `verifyR` (Model/PcsRelease.lean): the opening verifier without overflow checks, with the wrapped difference of heights and the masked shift; `verify` is the build with checks | `C101_checked`: accepted with checks means all opened matrices fit. `C101_violated_release`: without checks, one opened matrix that is too tall makes the verdict independent of all claimed values (the keys of the map of reduced openings do not depend on the values, and a first entry above the domain blocks the iterator). `C101_agree`: equal verdicts when all claims fit |
| C102 | `OpId.Step` (Model/OpId.lean): a transition system of any number of threads in `get_opid`, locking, adding and returning being separate steps; the mutex has one holder and is poisoned by a panic | Invariant over all reachable states: `C102_ids` (identifiers are 1, 2, 3, ... modulo `2^32` in the order of returns), `C102_unique`, `C102_exhausted` (with overflow checks), `C102_available` (any sequence of threads can get identifiers), `C102_shared` (hypothesis `Shared` of C54). `C102_violated_wrap`, `C102_violated_assert`: without overflow checks identifiers repeat and `assert_dsl` on a constant accepts every value |
| C103 | `openWithQueryTimes`, `verifyWithQueryTimes`, `commitPolyWithQueryTimes` (Model/Tcs.lean) | Induction over the number of queries: `C103_accepts`, `C103_refuses`; `C103_open` (what the combined opening consists of), `C103_complete` from C24; `C103_violated_zero`: without queries the opening panics |
| C104 | `constantSecret`, `threadSecret`, `toLowerHex`, `utf8Bytes` (Model/Secret.lean), `hexDecode`, `BitComm.new` (Model/Winternitz.lean); random characters are a parameter | `C104_key`: induction over the key; `C104_thread`: decoding of the encoding by induction over bytes; `C104_thread_distinct` from the injectivity of UTF-8; `C104_complete` from the recovery theorem of C95; `C104_violated_constant` |
| C105 | `BitComm.recoverAtAlt`, `messageToAlt`, `messageFromAlt`, `BitCommU32.recoverAtAlt` (Model/Winternitz.lean) | Induction over the commitments: `C105_several`; `C105_move`, `C105_word` |
| C106 | `VStep.make`, `VStep.build`, `Variable.toDsl`, `ValueVariable.new`, `toVar`, `toDsl` (Model/VarOps.lean), `compile` | Induction over the program: every step keeps a set of well-formed nodes that copy inputs and move none, then C54; a cache invariant for inputs that the map does not have |
| C107 | `Pcs.verify`, `verifyInput`, `Stark.verify`, `generateScriptVerifier` | Violated. The reduced openings depend on the claims through their combinations with powers of the challenge only (induction over rounds, matrices, points and columns), so two claimed quotient values can be moved along the kernel of that combination until the quotient identity holds for another statement; an instance with BLAKE3 for both verifiers. For the script verifier the interchangeable claims are determined: the change of the reduced opening is a sum of two fractions in the queried point (induction over columns), folding is injective in it, and two different points force both numerators to be zero. For the native verifier they are all claims that pass the quotient check, since it ignores those of the largest height (C73); for any number of folding rounds, from the exact statement for the opening verifier (C73) |
| C108 | `verifyQuery`, `bfQueryManager`, `Stark.verify`, `generateScriptVerifier` | Both verifiers compute the same chain of lines from two start values; by induction every round multiplies the difference by (β + x)/2x, so equal ends mean equal starts; combined with C40 and C82 |
| C109 | `verifyQuery`, `foldChain`, `Strategy` | C108 for every index that passes, outside of at most 2^(h+1)·\|F\|^(r−1) challenge vectors, ties the first word to the reduced openings; then C83's closeness theorem and its counting of challenges and indices; violation by a prover that cancels heights |
| C110 | `verifyInput` (`roundLoop`, `matLoop`, `pointLoop`, `columnLoop`), `verifyQuery`, `foldChain`, `Strategy` | Induction over the loops shows that the input check returns Σ αⁿ (pₙ(x) − yₙ)/(x − zₙ); a curve version of the Berlekamp–Welch argument (`curve_close`) shows that a combination close to the code for too many α has all its quotients equal to polynomials on the same positions; C109 for the folding; with more rounds than bits, the word is constant on fibres and the polynomial is one in a power of the variable (`descend_many`); counting of (α, β, indices) |
| C111 | `verify` (`oodCheck`, `recombine`, `verifierFold`), `verifyInput`, `verifyQuery`, `foldChain`; a prover as a function of the challenges so far (`Prover`) | C110 gives polynomials of degree at most 2^k for every column; they have values in the base field on enough points, so they come from the base field, and two of them cannot be close to the same column, so they are fixed before the next challenge; then the two polynomial identities of C48, for polynomials of degree at most 2^k; counting over all challenges |
| C112 | `Tcs.verify`, `commitPolys`, `CommittedLeaf.script`, Winternitz locking scripts with foreign keys | The accepting run of the committed locking scripts splits the witness into the pieces of the operators (`accepts_script`); a Winternitz witness of any keys has the shape of the committed one, and an accepted one opens to the digits it contains (`winter_shows`). Hash chain of the path as in C21/C25. |
| C113 | `Tcs.verify`, `Tree.newWithScripts`, `CommittedLeaf.script` | The tree over scripts with one index and different rows is built and each leaf opened (`build_spec`, `honest_accepts`). The positive part by `bound_to_leaf`: an accepted opening shows the row and index of one leaf, or a collision. |
| C114 | as C111, with one `Prover` per query | The union bound over the queries for the bad challenges; outside of them each query passes for few indices, and the indices are independent (`error_of_small_each`). |
| C115 | `Tcs.verifyBatch`, `mmcsCommit`, `verifyInput`, `verifyQuery`, `verify`, `generateScriptVerifier`; for the honest case `prove`, `Pcs.open`, `bfProve`, `commitLoop`, `answerQuery` | C112 for every opening that an accepted proof shows (C40 for the rounds), then C111_accepted. Honest proofs: induction over the folding rounds shows from which words the commitments are made (`commitLoop_data`) and at which indices they are opened (`answerQuery_index`), lifted to `prove` (`produced_linked`). |
| C116 | `InputManager::simulate_input` and `run` on the state a manager keeps (tracker, variables, counts, cached copies): `RunState`, `simulateOn`, `runOn` | Violated. `C116_first`: from a new manager this is `run`. A compilation depends on the entries of its own nodes only (`express_congr`), so that a check of new nodes on an occupied stack leaves two elements (`C116_violated_occupied`, hence `_inputs`, `_next`). The same check again: if it has shared nodes their entries are still set while the alt stack is empty (`express_caches`, `express_stuck`: a panic); otherwise the caches are clean and the result lands on the old one. |
| C117 | `uni-stark/src/verifier.rs` `verify` with everything below it (`Pcs.verify`, `Fri.verifyChallenges`, `oodCheck`) | `Spec/Verdict.lean` states the conditions without the loops: `RoundsInOrder`, `OpeningInOrder`, `ShapeOk`, `quotientValue`, `ConstraintsMatch`. `C117_opening_exact`: the loops of `verifyInput` and `verifyQuery` succeed exactly under them (induction over rounds, matrices and points). `C117_verdict`: all outcomes of `verify`; the out-of-domain check is solved for the quotient (`oodCheck_exact`). |
| C118 | `compute_quotient_expr` with `strict = false`: the same function without the operand assertions of `sub_ext`, `mul_ext`, `sub_base`, `mul_base`; `get_table`, `op_table`, `op_lookup` | This is a variant of the code, since the code panics (C78). `quotient_exact`: the generated checks, for every table and every hint, by induction over the loops with the language of C59 extended by table entries (`Spec/Dsl.lean`, `tableKind`: all entries of a table have one kind, as `op_table` asserts by its type). `Proofs/QuotientRoots.lean`: products over roots of unity, relating the looked up powers to the native weights. Result: right for one and two chunks, permuted from four on; wrong denominators cancel in pairs. |
| C119 | `prove` without a satisfying trace, `check_constraints`, `verify` | `C119_quotient`: from `produced`, what the chunks of the prover interpolate (`CosetQuotient`) and what the verifier compares. `remainder_iff`: the difference of the two sides is divisible by `X^N - g^N` (it vanishes on the evaluation coset), and the cofactor is the remainder modulo `X^n - 1` up to a constant, so the verdict is a statement about the remainder at `zeta`. `produced_off_coset`: the prover panics if `zeta` is on its evaluation coset (division by zero), which excludes the other zeros. |
| C120 | `prove` with everything below it, on all inputs | `Servable` (`Spec/ProverExact.lean`) lists what the prover asks. `C120_refuses`: each violated condition makes one of the steps panic (`prove_degree`: the matrix of the commitment is shorter than the quotient domain). `C120_serves`: C48's honest run with its converse, read off the commit phase and the proof-of-work check; `produced_off_coset` for the second challenge. |
| C121 | `verify`, `generate_script_verifier` on two proofs that differ in their opening part | `SameUpToSurplus`: equal up to what the queries hold beyond the openings that `izip!` pairs. `verify_surplus`, `generateVerifyExpr_surplus`: equal results of both verifiers of openings, by induction over the queries. The parts that hold: `verify_final` follows the accepting run with the other final value to the comparison; `recombine_set` is the change of the recombined quotient under one changed value, and `weight_ne` says that no chunk has weight zero outside of the quotient domain. For the script verifier (`Props/AlterScript.lean`) both proofs are put through `C82_exact`: same transcript, same chains, so same final value and quotient. For a trace value (`Props/AlterTrace.lean`) the reduced openings differ in exactly one height (`verifyInput_set`), and `foldChain_inj` says that chains which differ there end differently. |
| C62, C63 | `scripts/src/u31` | integer arithmetic on symbolic stacks |

| C65, C66 | `blake3_160`, digest comparison | corollaries of C10, symbolic execution |
| C69 | per-query commitments | operator numbers by induction on the queries |
| C70 | challenger records | backwards induction over the permutation calls; counterexample |
| C67, C68 | multi-word commitments, key reuse | induction on the words; forging from two signatures |

## 3. Trusted base

* Lean's kernel and the three standard axioms `propext`, `Classical.choice`, `Quot.sound`.  No
  theorem depends on any other axiom; `native_decide`, `bv_decide` and `sorry` are not used.
* The reading of the Rust text: every definition cites file and lines.
* The Script interpreter as a description of tapscript execution.  `run` does not model the limit of
  1000 stack elements; `runL` (C88 to C90) does.  The script size limit, signature opcodes and `OP_SUCCESS` are not
  modelled.  `execute_script` (scripts/src/lib.rs:97-160) drives a fork of `bitcoin_scriptexec`; whether that fork
  enforces the limit by default is not visible in /repo.
* Parameters standing for external crates, each an arbitrary function with the assumption stated as
  a theorem hypothesis where one is needed:

| Parameter | Stands for | Assumption |
|---|---|---|
| `cfg.hash160` | `OP_HASH160`, `bitcoin::hashes::hash160` | 20-byte output where needed |
| `cfg.minimal` | MINIMALDATA / MINIMALIF script flags | none (both settings covered) |
| `TapHash.leafHash`, `branchHash` | tagged hashes of the `bitcoin` crate | none; children are ordered by hash as `combine_node_infos` does |
| `Bc`, `Manager` | the `bitcomm` operators of the primitives crate | `BcOk` (frame, soundness, honest opening); proved for the Winternitz commitment in `scripts/` |
| `perm`, `hash` of the challenger | the permutation; the `blake3` crate inside it | width-preserving where needed; none for `hash` |
| `gen` | `TwoAdicField::two_adic_generator` | `TwoAdic` (orders `2^b`); proved for BabyBear |
| `Mmcs` | the commitment scheme FRI is generic over | `Mmcs.Honest` for completeness; proved for `TapTreeMmcs` |
| `Chall` | the challenger FRI is generic over | `Chall.Total` and index range for completeness; proved for the BLAKE3 challenger |
| `Pcs.Ext` | `coset_lde_batch` (p3-dft), `interpolate_coset` (p3-interpolation) | `Ext.Correct` (they evaluate the interpolating polynomial), `Ext.Width`; satisfiable: `lagrangeExt_correct` |
| `InMmcs` | the commitment scheme the PCS is generic over | `InMmcs.Opens` for completeness; proved for `TapTreeMmcs` |
| `Stark.Setup` | `StarkConfig`: fields, commitment schemes, challenger | `Setup.Ok`; proved for BabyBear, its extension of degree four, `TapTreeMmcs` and the BLAKE3 challenger (`deployed_ok`) |
| `ExtDeg` | coordinates of the extension field (p3-field) | `ExtDeg.Ok`; proved for `X^4 - 11` over BabyBear |
| `FieldRep` | `BfField::U32_SIZE`, `as_u32_vec` | `FieldOk` (1 or 4 words below 2^31, injective); proved for BabyBear words |
| `TrackerLib` | script fragments of `StackTracker` (bitcoin_script_stack): push, copy, move, to and from the alt stack | `TrackerLib.Ok`, for variables of at most four elements; proved for `refTracker` |
| `U31Lib` | scripts of the crate rust-bitcoin-u31-or-u30 | `U31Lib.Ok` (each computes its field operation on the top of the stack); proved for `repoLib`, written with the scripts of `scripts/src/u31*` |

## 4. What is modelled

* `scripts/src/u32`, `scripts/src/pseudo.rs`, `scripts/src/hashes/blake3*`, `scripts/src/bit_comm`,
  `scripts/src/winternitz*`: every script generator.
* `scripts/src/u31`, `scripts/src/u31_ext`: arithmetic as written; these directories are not part of the build,
  which uses an external crate of the same interface.
* `basic/src/tcs` (builder, complete tree, commitment scheme) and `basic/src/mmcs/taptree_mmcs.rs`.
* `basic/src/challenger`: the native challenger, grinding, byte conversions.  `find_any` is a relation.
* `fri/src`: folding (`two_adic_pcs.rs`, `fold_even_odd.rs`), `prover.rs`, `verifier.rs`, `proof.rs`.
  `two_adic_pcs.rs` commit, open and verify: matrices are row lists, the arrays of 32 accumulators are
  functions with an explicit bound check, `usize` underflow is a panic.
  Results distinguish `Ok`, `Err` and panic; debug assertions are a flag.
* `uni-stark/src`: prover, verifier, folders, symbolic expressions and degrees, debug constraint check,
  `zerofier_coset.rs`, and the domain arithmetic of p3-commit it calls.  An AIR is a list of assertions over
  an expression type; preprocessed columns are not supported by the code and not modelled.  C92 adds AIRs as programs
  that use values several times, with `when` and the derived assertions of p3-air.  `square`, `double` and `exp_u64` in
  generic AIR code are provided methods made of `*` and `+`, since the inherent methods of `Dsl` are not visible there.

* `script_expr/src/script_helper.rs`, `value_manager.rs`, and the compiler: `lib.rs` (counting visits, caching on the
  alt stack), every generator of `script_gen.rs`, node types of `opcode.rs`.  Expressions are trees whose nodes carry
  identifiers; `Arc` sharing is equality of identifiers.  The stack tracker is a list of variables per stack and the
  script so far.  The value of an expression is `eval` in `Verif/Spec/Express.lean`, which knows nothing of scripts.
* `script_expr/src/alias.rs` constructors and `input_manager.rs` (managers, inputs, hints,
  `embed_hint_verify`, `run`).  The global identifier counter is passed along.
* `script_expr/src/challenger_expr.rs`: the challenger that builds expressions.  That the `blake3` crate computes
  BLAKE3 on blocks of 64 bytes (`IsBlake3`) is a hypothesis of the theorems relating it to the native challenger.
* `fri/src/script_verifier.rs` `bf_sample_challenges`, and the challenges of `generate_script_verifier`
  (uni-stark/src/script_verifier.rs:79-106, 192-217) with their manager.
* `fri/src/script_verifier.rs` (`bf_verify_query`, `bf_verify_challenges`), `fold_row_with_expr`, and
  `generate_verify_expr` of `two_adic_pcs.rs`.
* `uni-stark/src/scripts`: `compute_quotient_expr` with its helpers.
* `script_expr/src/script_builder.rs` and `lagrange.rs`, and `generate_script_verifier` as a whole;
  its printed statistics are left out.

Not modelled: Rust memory layout, threading (`rayon` iterators are sequential maps), serialisation,
logging, the test modules, key generation randomness.

## 5. Defects of the code found while modelling

Each is a theorem where a theorem name is given.

* `u32_compress` maps 0x80000000 and 0 to the same element (`C06_compress_collision`), so the
  bit-commitment equality check rejects large values and accepts a wrong one (`C17_*`).
* `check_equal_x_or_neg_x_script` compares byte by byte (`C18_*`).
* `blake3_var_length(0)` hashes unrelated words (`C11_zero_length`).
* `sign` leaves `[0]` for zero digits, rejected under minimal encoding (`C13_raw_sign_zero`).
* Changing the value of a bit commitment reuses its one-time key (`C68_key_reuse_forges_any_value`).
* `verify_inclusion` indexes `path[0]` and panics on single-leaf trees;
  `verify_inclusion_by_index` applies the index map twice (`C20_*`).
* `padding_matrix` and `open_batch` panic for heights that are not powers of two or not sorted
  (`C23_other_heights_panic`, `C24_unsorted_panics`).
* Openings are checked against the index carried by the proof, not the queried one
  (`C25_not_bound_to_index`); surplus values are ignored, zero queries accepted (`C26_*`).
* `sample_bits(b)` never returns a value with the top bit set (`C30_upper_half_never`).
* `grind` tries only 4096 witnesses because `mod_p` is `1 << 12` (`C32_search_incomplete`).
* The challenger absorbs without padding: trailing zero words do not change the challenges
  (`C70_trailing_zero_invisible`).
* `verify_query` does not compare the first round with the reduced opening and then overwrites it, so
  the input polynomials at the largest height are not linked to the FRI layers (`C38_*`).
* Openings, commitments and challenges are zipped: missing rounds are not noticed, and a proof without
  openings and final value 0 passes every query (`C39_*`).  The script verifier ignores the same rounds, but on success every
  query that opens a row of the trace reaches the round of the trace (`Props/ShortScript.lean`).
* A mismatch in a later round hits `assert_eq!`, and malformed openings index out of bounds (`C41_*`).
* A blowup of 1 makes the last FRI layer a single-leaf tree, whose opening panics; hence the
  hypothesis `1 ≤ logBlowup` in C37.
* Polynomial-opening verification ignores the claimed values of all matrices of the largest height
  (`C73_*`, a consequence of C38), and unwraps every error (`C74_*`).
* A matrix on a domain of one point is folded in by the prover after the last round but never consumed
  by the verifier.  Its reduced openings are zero for an honest prover (`combQuot_const`), so C72, C48 and C120
  hold for such matrices and for one-row traces all the same.  The script verifier does refuse one-row traces: a
  query script without rounds leaves its inputs on the stack (`C79_violated_no_rounds`, `C82_violated_one_row`).  Whatever the proof, with
  `degree_bits` 0 the script of the challenges fails, because it computes `index_to_rou(1, 0)` and the index 1 has
  more than 0 bits (`C82_violated_zero_bits`); `C82_exact` therefore lists `1 ≤ degreeBits` among what is accepted.
* Symbolic degrees do not count transition filters, so an AIR with three nested ones gets too few quotient
  chunks and honest proofs are rejected (`C48_violated_nested_transition`).
* The row flags of prover and verifier are not 0 and 1, those of the debug check are: arithmetic on flags
  passes the debug check and cannot be proved (`C48_violated_flag_arithmetic`).
* Neither public values nor the trace length enter the challenges (`C52_*`).
* A proof that claims a too long trace makes the verifier panic (`C51_violated_panics`).
* Because the opened values are not bound, every accepted proof can be rewritten into an accepted proof of any
  other statement with the same number of quotient chunks (`C75_violated_forged_proof`).
* `get_accmulator_expr` panics for an AIR without constraints (`C46_violated_empty`).
* `convert_digits_to_u32` uses a disabled opcode, with swapped operands, and leaves its result on the alt stack
  (`C63_*`).
* The reversal script turns an index that does not fit into the all-ones index (`C56_violated_out_of_range`), a
  look-up past the end of a table reads the stack below it (`C60_violated_*`). Within the table the look-up is right,
  also as an expression (`C60_expression`, `C60_shared_table`), but not for extension elements (`C60_extension_refused`).
* `u32_compress` writes sign and magnitude, `value_to_32_bits_format` reads two's complement
  (`C56_violated_compressed`).
* A sampled word 0x80000000 becomes 0 in the script and 134217727 natively (`C58_violated_min_word`).
* Converting a number of declared size 4 to the field leaves three elements too many
  (`C76_violated_num_to_field_ext`).
* Nodes with several outputs are never cached but counted as if they were: expressing such a node twice moves its
  shared operands twice, and the generator panics (`C54_violated_multi_output`).  Without sharing, a moved input used
  twice panics (`C54_violated_unshared_move`).
* `embed_hint_verify` chains the checks with equality: an even number of failing base field checks is accepted
  (`C59_violated_two_failures`).
* `bf_verify_query` does not square the point before the last round of a proof without blowup: the script then
  rejects what the native verifier accepts (`C43_violated_no_blowup`).  Unlike the native verifier it never reads the
  entry of a row at the own position but uses the folded value, so the top reduced openings are bound
  (`C43_query_accepts`); where such an entry of a later row is wrong, the native verifier panics and the script accepts
  (`C43_violated_own_entries`).
* The challenger that builds expressions keeps one node per block and drops it after a sample: a sample that directly
  follows another one is taken from a fresh block, while the native challenger takes it from the rest of the old one
  (`C34_violated_consecutive`).  The query indices are sampled in a row.
* Consequence for the script verifier: every query index is compared with an index from another block, and failed
  index checks cancel in pairs.  The script of the challenges accepts iff an even number of them differ
  (`C77_accepts`); an honest proof with one query is rejected (`C77_violated_one_query`), wrong indices are accepted in
  pairs (`C77_violated_two_queries`).  The challenge that combines the openings is not checked by any script.
* The script verifier cannot handle an AIR with two or more quotient chunks: the loops of `compute_quotient_expr` apply
  `sub_ext` and `mul_ext` to extension field operands and `sub_base` and `mul_base` to base field operands, and all four
  assert the opposite (`C78_violated_two_chunks`).  The only test that runs has one chunk.  Behind the panic, the
  numerators use `g^j` where the native verifier uses `g^-j`, which differs from four chunks on
  (`C118_violated_four_chunks`, on the variant without the assertions).
* The inverse of `x - z` that `generate_verify_expr` uses in a script is an input that no check relates to `x` and `z`:
  the checks do not depend on the opening points, and those generated for one point accept the inputs of another
  (`C79_violated_points`, `C79_points_instance`).
* `selectors_at_point_expr` (script_expr/src/lagrange.rs:14-40) raises to `2 ^ log_n`, which is an exclusive or in Rust,
  and omits the `- 1` (`C81_violated_zH`); its `z_h` is not used by the script verifier.
* The script of the folded constraints cannot be generated for an AIR without assertions (`C80_violated_empty`).
* `ManagerAssign::next_manager` advances from the previous index while `add_manager` does not, and the conversion of a
  `SymbolicVariable` to a `Variable` swaps row and column (by reading; neither is used by the script verifier's result).
* The script verifier as a whole never succeeds for an AIR with two or more chunks (`C82_violated_two_chunks`; `C82_violated_many_chunks` has
  honest proofs with two and four chunks that the native verifier accepts), and on
  an honest proof with one chunk it succeeds iff an even number of query indices differ from those of its script
  (`C82_honest_partial`).  Both occur with BLAKE3 and the commitments of the code base: an honest proof with one query is
  refused (`C82_violated_one_query`), one with two queries succeeds with two wrong indices (`C82_violated_two_indices`).
* Even with an opening for every round, the queries do not bind the reduced openings of any height: a prover that commits
  to words that cancel them passes at every index (`C83_violated_inputs`).  What the rounds show to be of low degree is
  only the sum of the first committed word and the reduced openings of the smaller heights.
* The STARK verifier accepts a proof made from nothing for every AIR and public values: no commitments of folded words,
  empty query proofs, final value 0, any two commitments, any opened trace values, quotient values computed from the
  challenges (`C84_violated_empty_proof`, `C84_instance`).  Only the proof of work has to be done.  The script verifier
  succeeds on such a proof too (`C84_violated_script`, `C84_violated_script_instance`).  The lengths of
  `commit_phase_commits`, `commit_phase_openings` and `input_proof` are checked nowhere, and every loop over them is an
  `izip!`, which stops at the shortest list.
- **The next manager is not the current one** (C86): `next_manager` increases the index of the current manager by one, but
  puts the new manager at the end.  After `add_manager` or `move_current_index` these differ, and inputs go to a manager
  other than the one just handed out (`C86_violated_not_last`).
- **Scripts that cannot be run on Bitcoin** (C88, C89, C90): consensus refuses more than 1000 stack elements.  A bit
  commitment to 50 words or more can never be recovered, a leaf with more than 48 words can be spent by no witness, and
  the script of the folded constraints of an AIR with 126 columns or more cannot be run, though natively all of these are
  committed to, opened and verified (`C88_bit_commitment`, `C89_violated_wide`, `C90_violated_trace`).
