{"id": "C01", "title": "Permutation is textbook Poseidon", "statement": "permute(state, mds, rc), with rc holding at least R_F+R_P rows, leaves in state exactly the result of the HADES construction: R_F/2 full rounds, R_P partial rounds (S-box on word 0 only), R_F/2 full rounds, each round being add-constants, S-box, matrix multiplication, using the i-th row of rc in the i-th round.", "quantifier": "every width, field, state, matrix, constant table and number of rounds", "why_tests_cant": "test vectors fix one field, one width and a dozen states", "anchors": ["poseidon-base/src/primitives.rs: permute"]}
{"id": "C02", "title": "Compact constants compute the same permutation", "statement": "Running permute with the constants returned by P128Pow5T3Compact::constants() gives the same state as running it with P128Pow5T3::constants(), and the compact table has zero in words 1.. of every partial round (so only word 0 needs a constant).", "quantifier": "every input state, every table of raw round constants, every matrix, every number of partial rounds", "why_tests_cant": "test_compact_constants compares the two on one input with the BN254 constants", "anchors": ["poseidon-base/src/primitives/p128pow5t3_compact.rs: P128Pow5T3Compact::constants", "poseidon-base/src/primitives/p128pow5t3.rs: P128Pow5T3::constants"]}
{"id": "C03", "title": "The BN254 permutation is a bijection", "statement": "permute over bn256::Fr with the crate's constants maps distinct states to distinct states and reaches every state; x -> x^5 is a bijection of Fr.", "quantifier": "every pair of 3-word states over the 254-bit field", "why_tests_cant": "the domain has about 2^762 states", "anchors": ["poseidon-base/src/primitives.rs: permute, Hash::permute", "poseidon-base/src/primitives/bn256/fp.rs: MDS"]}
{"id": "C04", "title": "hash_with_domain is one permutation of [domain, a, b]", "statement": "Hashable::hash_with_domain([a,b], d) returns word 0 of the permutation of the state [d, a, b], never panics, and hash([a,b]) is the d = 0 case.", "quantifier": "every a, b, d in the field", "why_tests_cant": "tests check two inputs", "anchors": ["poseidon-base/src/hash.rs: Hashable::hash_with_domain, Hashable::hash", "poseidon-base/src/primitives.rs: Hash<ConstantLengthIden3>::hash"]}
{"id": "C05", "title": "hash_msg is the rate-2 sponge of the zero-padded message", "statement": "MessageHashable::hash_msg(msg, cap), msg non-empty, returns word 0 of the sponge that starts from [cap,0,0], adds the message two words at a time into words 1 and 2 (an odd tail is completed with a zero word) and permutes once after every pair.", "quantifier": "every non-empty message of every length and every u128 capacity", "why_tests_cant": "message length is unbounded; tests use lengths 3 and 4", "anchors": ["poseidon-base/src/hash.rs: MessageHashable::hash_msg", "poseidon-base/src/primitives.rs: Hash<VariableLengthIden3>::hash_with_cap, Sponge::absorb, Sponge::finish_absorbing"]}
{"id": "C06", "title": "hash_msg panics exactly on the empty message", "statement": "hash_msg(msg, cap) panics if and only if msg is empty (whatever cap is); on every other message it returns a value.", "quantifier": "every message and capacity", "why_tests_cant": "absence of a panic on all lengths cannot be sampled; no test hashes an empty message", "anchors": ["poseidon-base/src/primitives.rs: poseidon_sponge, VariableLengthIden3::padding", "poseidon-base/src/hash.rs: hash_msg"]}
{"id": "C07", "title": "Default capacity never overflows and separates lengths", "statement": "hash_msg(msg, None) uses the capacity len(msg)*2^64 (len(msg) with feature legacy); the u128 product never overflows for any usize length, and messages of different lengths start from different capacity words in bn256::Fr.", "quantifier": "all pairs of message lengths representable in usize, both feature settings", "why_tests_cant": "lengths range over 2^64 values", "anchors": ["poseidon-base/src/hash.rs: HASHABLE_DOMAIN_SPEC, hash_msg"]}
{"id": "C08", "title": "Zero padding is visible only through the capacity", "statement": "For an odd-length message m and an explicit cap, hash_msg(m, Some(cap)) == hash_msg(m ++ [0], Some(cap)); hence a caller who passes an explicit cap must encode the length in it.", "quantifier": "every odd-length message and every capacity", "why_tests_cant": "quantifies over all messages; a test shows only one collision pair", "anchors": ["poseidon-base/src/primitives.rs: VariableLengthIden3::padding, hash_with_cap"]}
{"id": "C09", "title": "Two-word messages agree with hash_with_domain", "statement": "hash_msg([a,b], Some(c)) == hash_with_domain([a,b], F::from_u128(c)); in particular MPT mode is var-len mode with capacity 0.", "quantifier": "all a, b and all u128 c", "why_tests_cant": "the input space is unbounded for a test", "anchors": ["poseidon-base/src/hash.rs: hash_msg, hash_with_domain"]}
{"id": "C10", "title": "Constant-length hashing", "statement": "Hash<_, S, ConstantLength<L>, T, RATE>::init().hash(msg) with L > 0 and 0 < RATE < T absorbs msg padded with zeros to a multiple of RATE, RATE words per permutation starting at word 0, from the state whose word RATE is L*2^64 and whose other words are 0, and returns word 0; for L = 0 it panics.", "quantifier": "every width, rate, length, message and field", "why_tests_cant": "tests use L = 2 and 3 with T = 3 on Pasta", "anchors": ["poseidon-base/src/primitives.rs: ConstantLength, Hash<ConstantLength>::hash, Sponge"]}
{"id": "C11", "title": "Iden3 constant-length hashing of any length", "statement": "Hash<_, S, ConstantLengthIden3<L>, T, RATE>::init().hash(msg, d) with L > 0 absorbs the zero-padded message right-aligned (words T-RATE..T-1), from the state whose capacity word ((RATE + layout) mod T) is d, and returns word 0. The layout assertion of the sponge never fires for any domain of the crate.", "quantifier": "every width, rate, length, message, domain value", "why_tests_cant": "tests use L = 2 only", "anchors": ["poseidon-base/src/primitives.rs: ConstantLengthIden3, Sponge::new, update_capacity, poseidon_sponge"]}
{"id": "C12", "title": "Squeezing order", "statement": "After absorbing, the k-th call to squeeze returns word (k mod RATE) of the state after floor(k/RATE) further permutations; squeeze always returns for RATE > 0.", "quantifier": "every number of squeezes, width and rate", "why_tests_cant": "number of calls is unbounded; no test squeezes twice", "anchors": ["poseidon-base/src/primitives.rs: Sponge::squeeze"]}
{"id": "C13", "title": "Hash results do not depend on call history or initialisation races", "statement": "Whatever sequence of hasher()/msg_hasher()/hash calls was made before, from however many threads racing to initialise the cache, each call returns the value a freshly initialised hasher would.", "quantifier": "every history of calls and every interleaving of cache initialisations", "why_tests_cant": "schedules and histories are unbounded; test_lazy_init calls twice", "anchors": ["poseidon-base/src/hash.rs: Fr::hasher, Fr::msg_hasher (OnceCell)"]}
{"id": "C14", "title": "Grain produces the reference self-shrinking LFSR stream", "statement": "The bits delivered by the generator are those of the 80-bit LFSR b[i+80] = b[i+62]^b[i+51]^b[i+38]^b[i+23]^b[i+13]^b[i], after discarding the first 160, filtered in pairs (keep the second bit iff the first is 1), although the code advances 8 bits at a time.", "quantifier": "every parameter set, initial state and number of bits drawn", "why_tests_cant": "the stream is unbounded", "anchors": ["poseidon-base/src/primitives/grain.rs: Grain::new, load_next_8_bits, get_next_bit, Iterator::next"]}
{"id": "C15", "title": "Drawing a bit from Grain always terminates", "statement": "From any state reachable from Grain::new the pair-skipping loop of next() stops after a bounded number of LFSR bits, for every parameter choice.", "quantifier": "every parameter set and every point of the stream", "why_tests_cant": "termination cannot be tested", "anchors": ["poseidon-base/src/primitives/grain.rs: Iterator::next"]}
{"id": "C16", "title": "Grain seeding separates parameter sets", "statement": "Two parameter sets (S-box type, field size, t, R_F, R_P) that fit their bit fields produce the same initial LFSR state only if they are equal; bits 50..79 are all ones.", "quantifier": "all in-range parameter sets", "why_tests_cant": "pairs of parameter sets: about 2^88", "anchors": ["poseidon-base/src/primitives/grain.rs: Grain::new"]}
{"id": "C17", "title": "Field elements drawn from Grain", "statement": "next_field_element returns the value of the first group of NUM_BITS output bits, read most significant bit first, that is below the modulus, and consumes exactly the groups up to it; next_field_element_without_rejection returns the next group reduced modulo p.", "quantifier": "every generator state and modulus", "why_tests_cant": "rejection depends on the stream position; one test draws one element and ignores it", "anchors": ["poseidon-base/src/primitives/grain.rs: next_field_element, next_field_element_without_rejection"]}
{"id": "C18", "title": "generate_mds returns an MDS matrix and its inverse", "statement": "Whenever generate_mds returns, mds is the Cauchy matrix 1/(x_i + y_j) of pairwise distinct x, y drawn from the generator, mds * mds_inv = mds_inv * mds = 1, and every square submatrix of mds is invertible. It panics only if some x_i + y_j = 0.", "quantifier": "every width T, every field, every stream of drawn values, every select count", "why_tests_cant": "tests check the inverse for one 3x3 matrix", "anchors": ["poseidon-base/src/primitives/mds.rs: generate_mds"]}
{"id": "C19", "title": "Duplicate detection in generate_mds is exact", "statement": "The sort/dedup length comparison accepts a batch of drawn values if and only if they are pairwise distinct.", "quantifier": "every list of field elements under every total order", "why_tests_cant": "collisions have probability ~2^-250 and are never exercised", "anchors": ["poseidon-base/src/primitives/mds.rs: generate_mds"]}
{"id": "C20", "title": "MDS_INV of bn256 inverts MDS", "statement": "The determinant/cofactor formula that initialises MDS_INV yields a two-sided inverse for every 3x3 matrix with non-zero determinant and panics otherwise; the BN254 matrix of the crate has non-zero determinant.", "quantifier": "every 3x3 matrix over every field", "why_tests_cant": "verify_mds checks the one hard-coded matrix", "anchors": ["poseidon-base/src/primitives/bn256/fp.rs: MDS_INV"]}
{"id": "C21", "title": "Septidon chip soundness", "statement": "If advice values satisfy all gates of SeptidonChip and the fixed cells are those written by assign_permutation at pairwise disjoint 8-row regions, then in every region the three final-state cells hold the Poseidon permutation of the three initial-state cells.", "quantifier": "every assignment of the advice columns (honest or malicious), every placement of regions, every number of permutations, every constant table of the right shape", "why_tests_cant": "MockProver checks honest witnesses; a test cannot enumerate malicious ones", "anchors": ["poseidon-circuit/src/poseidon/septidon/septidon_chip.rs: SeptidonChip::configure, assign_permutation_with_offset", "poseidon-circuit/src/poseidon/septidon/loop_chip.rs", "poseidon-circuit/src/poseidon/septidon/control.rs", "poseidon-circuit/src/poseidon/septidon/septuple_round.rs", "poseidon-circuit/src/poseidon/septidon/transition_round.rs", "poseidon-circuit/src/poseidon/septidon/full_round.rs"]}
{"id": "C22", "title": "Septidon chip completeness", "statement": "For every list of initial states, the cells written by permute / permute_batch satisfy every gate of the chip on every row of the domain, including unused rows and rows with arbitrary blinding values, and the returned words carry the permuted states.", "quantifier": "every list of initial states, every domain size that fits, all blinding values", "why_tests_cant": "tests use a single state", "anchors": ["poseidon-circuit/src/poseidon/septidon/instruction.rs: permute, permute_batch", "poseidon-circuit/src/poseidon/septidon/septidon_chip.rs: assign_permutation_with_offset"]}
{"id": "C23", "title": "Pow5 chip soundness", "statement": "For every width, even R_F, any (odd or even) R_P and constants whose m_inv inverts m_reg, any advice satisfying the Pow5Chip gates over a region laid out by permute makes the last state row the Poseidon permutation of the first.", "quantifier": "every width, round numbers, constants, field and advice assignment", "why_tests_cant": "MockProver checks honest witnesses for one spec", "anchors": ["poseidon-circuit/src/poseidon/pow5.rs: Pow5Chip::configure, permute, Pow5State"]}
{"id": "C24", "title": "Pow5 chip completeness", "statement": "For every initial state the cells written by Pow5Chip::permute satisfy every gate on every row, and the returned words carry the permuted state.", "quantifier": "every width, round numbers, constants and initial state", "why_tests_cant": "tests use one state on one field", "anchors": ["poseidon-circuit/src/poseidon/pow5.rs: permute, Pow5State::round/full_round/partial_round/partial_round_single"]}
{"id": "C25", "title": "permute_batch equals mapping permute, for any parallelism", "statement": "SeptidonChip::permute_batch(states) returns, in order, for each state the words permute would return, and writes the same cells, whatever available_parallelism() is.", "quantifier": "every list of states and every thread count", "why_tests_cant": "thread count and list length are unbounded", "anchors": ["poseidon-circuit/src/poseidon/septidon/instruction.rs: permute_batch"]}
{"id": "C26", "title": "Hash table soundness: digest of a message block", "statement": "In any accepted assignment of the loaded circuit, take enabled rows a..b with head flag 1 on a, 0 on a+1..b and 1 on b+1. Then column 0 on all rows a..b equals the sponge digest of the words in columns 1,2 of rows a..b started with capacity control[a] + domain[a] (the domain of each continuation row being added to the capacity as well). With zero domains and control[a] = c this is hash_msg(words, Some(c)).", "quantifier": "every advice assignment that satisfies gates, lookups and copy constraints, every table size and block length", "why_tests_cant": "soundness quantifies over all malicious witnesses", "anchors": ["poseidon-circuit/src/hash.rs: SpongeConfig::configure_sub, SpongeChip::load"]}
{"id": "C27", "title": "Hash table soundness: MPT rows", "statement": "In any accepted assignment every enabled row except the last whose control is 0 is a block by itself (head flag 1, next row head flag 1) and its column 0 is hash_with_domain([col1,col2], domain).", "quantifier": "every accepted assignment, every row", "why_tests_cant": "quantifies over malicious witnesses", "anchors": ["poseidon-circuit/src/hash.rs: configure_sub"]}
{"id": "C28", "title": "Control flags count down and are range checked", "statement": "In any accepted assignment, head flags are 0/1, the first and last enabled rows are heads, and in each block of rows a..b the controls are (i + (b-j)*STEP)*2^64 for j = a..b with one i <= STEP (i >= 1 if the block has several rows); so the head control determines the number of rows. Wrap-around modulo p is impossible for any usize table size and step.", "quantifier": "every accepted assignment, every calcs and STEP below 2^64", "why_tests_cant": "modular wrap-around attacks cannot be sampled", "anchors": ["poseidon-circuit/src/hash.rs: configure_sub (control constrain, control step, control range check)"]}
{"id": "C29", "title": "The hash table is functional", "statement": "In any accepted assignment, two blocks that end before the last enabled row and have the same head control, domains and words have the same digest; the digest is determined by them.", "quantifier": "every accepted assignment and pair of blocks", "why_tests_cant": "quantifies over malicious witnesses", "anchors": ["poseidon-circuit/src/hash.rs: configure_sub, load"]}
{"id": "C30", "title": "Custom rows reveal nothing but zero inputs", "statement": "In any accepted assignment, row 0 and the last enabled row have both message words and the control equal to 0, and the last row is a head; row 0 is not enabled. The digest (and domain) on the last row is unconstrained: a satisfying assignment exists for every value.", "quantifier": "every accepted assignment; every digest value", "why_tests_cant": "quantifies over witnesses", "anchors": ["poseidon-circuit/src/hash.rs: custom row gate, fill_hash_tbl_custom, fill_hash_tbl_body"]}
{"id": "C31", "title": "Hash table completeness", "statement": "load() on a table whose rows form complete blocks (every control above STEP is followed by a row with control lower by STEP and domain 0), with a zero padding row in last position and matching checks, yields cells that satisfy every gate, lookup and copy constraint on every row, for all blinding values and either permutation chip.", "quantifier": "every well-formed table of every size, every domain size that fits", "why_tests_cant": "tests use at most three rows", "anchors": ["poseidon-circuit/src/hash.rs: fill_hash_tbl_custom, fill_hash_tbl_body, load"]}
{"id": "C32", "title": "Honest witness is accepted only for well-formed tables", "statement": "Conversely, if the cells written by load() satisfy the gates then the rows form complete blocks with zero domains on continuation rows and a zero last row: a truncated stream, a full table whose last row is not zero, or a domain on a continuation row is always rejected.", "quantifier": "every table over bn256::Fr, every calcs", "why_tests_cant": "needs all malformed tables", "anchors": ["poseidon-circuit/src/hash.rs: configure_sub, fill_hash_tbl_body, stream_inputs_with_check"]}
{"id": "C33", "title": "Tables built by the API are accepted", "statement": "For every sequence of fixed_inputs / stream_inputs(_with_check) calls in which every stream supplies exactly enough words for its start control with the circuit's STEP and every given check is the right digest, load with calcs > table_size() succeeds and its cells satisfy the circuit, and row i of the exposed table carries (digest, words, control*2^64, domain, head) of the corresponding input.", "quantifier": "every sequence of builder calls", "why_tests_cant": "call histories are unbounded", "anchors": ["poseidon-circuit/src/hash.rs: PoseidonHashTable, SpongeChip::load"]}
{"id": "C34", "title": "Serial and parallel loading write the same circuit", "statement": "With the same table and calcs >= table_size, load in serial and in parallel mode assign the same value to every cell, the same fixed columns, selectors and copy constraints, whatever the thread count.", "quantifier": "every table, thread count and chunking", "why_tests_cant": "poseidon_parallel_synthesis compares one table on one machine", "anchors": ["poseidon-circuit/src/hash.rs: load, fill_hash_tbl_body, fill_hash_tbl_body_partial", "poseidon-circuit/src/poseidon/septidon/instruction.rs: permute_batch"]}
{"id": "C35", "title": "The circuit shape does not depend on the witness", "statement": "Fixed columns, selectors, lookup table and copy constraints written by load depend only on calcs, STEP, the configuration and the state of the layouter, not on the table contents or the number of threads, nor on the mode as long as the columns of the table are free from the same row on; so keys generated from an empty table fit any table. On a layouter where q_enable is used further down than the table columns, serial and parallel loading give different circuits.", "quantifier": "every pair of tables, modes and thread counts", "why_tests_cant": "all pairs of tables", "anchors": ["poseidon-circuit/src/hash.rs: load"]}
{"id": "C36", "title": "Chunking covers the table once, at block boundaries", "statement": "The parallel split concatenates back to the table, has no empty chunk, each chunk but the last ends at the end of a block and has at least min_len rows.", "quantifier": "every table, STEP, min_len", "why_tests_cant": "unbounded lists", "anchors": ["poseidon-circuit/src/hash.rs: load (assignments chunking)"]}
{"id": "C37", "title": "Capacity check of load", "statement": "Serial load panics iff calcs is smaller than the number of inputs or controls or a check mismatches; parallel load never checks calcs and silently drops rows beyond it.", "quantifier": "every table and calcs", "why_tests_cant": "needs every table; documents an asymmetry no test shows", "anchors": ["poseidon-circuit/src/hash.rs: fill_hash_tbl_body (assert), load"]}
{"id": "C38", "title": "Builder keeps the table aligned", "statement": "After any sequence of builder calls on an empty table that did not panic, controls, domain and checks are never longer than inputs, so resize never drops an entry; after fixed_inputs or stream_inputs all four have equal length; previously added inputs, controls, domains and checks are never changed.", "quantifier": "every sequence of builder calls", "why_tests_cant": "call histories are unbounded", "anchors": ["poseidon-circuit/src/hash.rs: PoseidonHashTable::{constant_inputs, constant_inputs_with_check, fixed_inputs, stream_inputs, stream_inputs_with_check}"]}
{"id": "C39", "title": "stream_inputs accepts exactly the right lengths", "statement": "stream_inputs(words, ctrl, step) with step > 0, on a table with aligned controls, panics iff words is empty or has more pairs than max(1, ceil(ctrl/step)); the controls appended are ctrl, ctrl-step, ctrl-2*step, ...; the last one is <= step iff exactly max(1, ceil(ctrl/step)) pairs are given. Shorter streams are accepted silently.", "quantifier": "every word list, start control and step", "why_tests_cant": "unbounded parameters", "anchors": ["poseidon-circuit/src/hash.rs: stream_inputs_with_check"]}
{"id": "C40", "title": "stream_inputs after constant_inputs panics", "statement": "If constant_inputs added at least one row (and no later call realigned the controls), every following stream_inputs panics; fixed_inputs realigns and makes streams possible again.", "quantifier": "every table and stream", "why_tests_cant": "quantifies over histories", "anchors": ["poseidon-circuit/src/hash.rs: constant_inputs, stream_inputs_with_check"]}
{"id": "C41", "title": "Checks are enforced", "statement": "load panics if and only if (given enough calcs) some check on a row differs from the sponge state word 0 after that row; for the last row of a block this is the block digest.", "quantifier": "every table and check vector", "why_tests_cant": "unbounded tables", "anchors": ["poseidon-circuit/src/hash.rs: fill_hash_tbl_body, fill_hash_tbl_body_partial"]}
{"id": "C42", "title": "Control encoding never overflows", "statement": "control as u128 * HASHABLE_DOMAIN_SPEC, step as u128 * HASHABLE_DOMAIN_SPEC and the range table entries never overflow u128, and distinct u64 controls give distinct field elements of bn256::Fr.", "quantifier": "all u64 / usize values", "why_tests_cant": "2^64 values", "anchors": ["poseidon-circuit/src/hash.rs: fill_hash_tbl_body, configure_sub, load", "poseidon-base/src/hash.rs: HASHABLE_DOMAIN_SPEC"]}
{"id": "C43", "title": "Copy constraints only touch equality-enabled columns", "statement": "Every copy constraint emitted by load and permute (serial or parallel, either chip) joins cells of columns on which configure enabled equality, so synthesis cannot fail with a column-not-in-permutation error.", "quantifier": "every table, calcs, chip and prior constraint system", "why_tests_cant": "must hold for every table and surrounding circuit", "anchors": ["poseidon-circuit/src/hash.rs: configure_sub, load", "poseidon-circuit/src/poseidon/septidon/instruction.rs: configure", "poseidon-circuit/src/poseidon/pow5.rs: configure"]}
{"id": "C44", "title": "minimum_row_require covers the permutation rows", "statement": "The permutations of a table occupy at most minimum_row_require() rows with the chip of the build: hash_block_size() is at least the height of one permutation region (equal for Pow5 without feature short, one more than Septidon's 8 with it). If Pow5 is chosen in a build with feature short, hash_block_size() is 9 and too small for its 38 rows.", "quantifier": "every table, every R_P", "why_tests_cant": "table size and round numbers are unbounded", "anchors": ["poseidon-base/src/hash.rs: hash_block_size", "poseidon-circuit/src/hash.rs: minimum_row_require", "poseidon-circuit/src/poseidon/septidon/septidon_chip.rs: height_per_permutation"]}
{"id": "C45", "title": "Hash gadget soundness and completeness", "statement": "For the in-circuit Hash over Pow5Chip with ConstantLength<L>, L > 0, any accepted assignment makes the returned cell equal to the native Hash::hash of the message cells, and the honest assignment is accepted for every message.", "quantifier": "every width, L, message, accepted assignment", "why_tests_cant": "MockProver tests honest witnesses for L = 2, 3", "anchors": ["poseidon-circuit/src/poseidon.rs: Sponge, Hash::hash", "poseidon-circuit/src/poseidon/pow5.rs: initial_state, add_input, get_output"]}
{"id": "C46", "title": "Both chips expose the same function", "statement": "For the same initial state, SeptidonChip (compact constants) and Pow5Chip (raw or compact constants) return the same final state, equal to Hash::permute of the native crate.", "quantifier": "every state", "why_tests_cant": "2^762 states", "anchors": ["poseidon-circuit/src/poseidon/septidon", "poseidon-circuit/src/poseidon/pow5.rs", "poseidon-base/src/params.rs"]}
{"id": "C47", "title": "End-to-end: a looked-up digest is the hash of the message", "statement": "With step = STEP > 0: if an accepted table contains an enabled non-last head row (d, w0, w1, L*2^64, 0, 1) whose block has zero domains, then d = hash_msg(words of the block, Some(L*2^64)) and the block has exactly max(1, ceil(L/STEP)) rows (L = 0 giving the MPT digest hash_with_domain([w0,w1], domain)).", "quantifier": "every accepted assignment and every length L below 2^64 (for hash_msg: blocks of fewer than 2^64 words, the size of a usize)", "why_tests_cant": "quantifies over malicious witnesses and all lengths", "anchors": ["poseidon-circuit/src/hash.rs", "poseidon-base/src/hash.rs: hash_msg", "spec/hash-table.md"]}
{"id": "C48", "title": "Multi-word integer helpers are exact", "statement": "adc, mac, macx and mul_512 never overflow their 128-bit intermediates and return exactly a+b+carry, a+b*c+carry, a+b*c and the 512-bit product of two 256-bit numbers; sbb returns a-(b+borrow) modulo 2^64 and an all-ones or all-zeros borrow word telling whether it went negative. (fields.rs is in the source tree but its mod line in primitives.rs is commented out.)", "quantifier": "all 64-bit words, all 256-bit numbers, all carries and borrows", "why_tests_cant": "2^192 to 2^512 inputs; carry bugs need rare operands", "anchors": ["poseidon-base/src/primitives/fields.rs"]}
{"id": "C49", "title": "The default constant generation is Grain plus Cauchy, and yields the hard-coded BN254 tables", "statement": "Whenever the default Spec::constants returns (R_F, R_P, T, r_f, r_p and secure_mds arbitrary), the round constants are, row by row and in order, exactly those groups of modulus-size bits of the reference Grain stream that are below the modulus, nothing is skipped, and the MDS matrix is the Cauchy matrix of the following duplicate-free batch after skipping secure_mds of them, with its true inverse; every square submatrix is invertible. It can only fail by exhausting its iteration budget or by a zero Cauchy denominator. The hard-coded BN254 round constants and MDS are what it returns for (3, 8, 57, 0).", "quantifier": "all prime fields up to 256 bits, widths, round counts, secure_mds values; for the BN254 part the whole table of 195 constants and 9 matrix entries", "why_tests_cant": "a test compares a few constants of one instance; the claim is about the generation for every parameter set and about every entry", "anchors": ["poseidon-base/src/primitives.rs: Spec::constants", "poseidon-base/src/primitives/grain.rs", "poseidon-base/src/primitives/mds.rs", "poseidon-base/src/primitives/bn256/fp.rs: ROUND_CONSTANTS, MDS"]}
{"id": "C50", "title": "The Pallas instance is textbook Poseidon with Grain-generated constants in both builds", "statement": "The Pallas tables (192 round constants, MDS, MDS_INV) are exactly what the default generation produces for a 255-bit field with 8 full and 56 partial rounds; MDS_INV is the inverse of MDS; with and without feature short the permutation with the cached constants never panics, equals textbook Poseidon with the raw constants and is a bijection; the constant-length hash over Pallas is the rate-2 sponge over it.", "quantifier": "both builds, every state, every message of every positive length", "why_tests_cant": "2^765 states; tests check two permutation vectors and one hash vector in the build they were compiled for", "anchors": ["poseidon-base/src/primitives/pasta/mod.rs", "poseidon-base/src/primitives/pasta/fp.rs", "poseidon-base/src/primitives/p128pow5t3.rs: tests"]}
{"id": "C51", "title": "The Tonelli-Shanks square root is correct and complete", "statement": "For a field of 2^S*t+1 elements with t odd, given a root of unity of order exactly 2^S and the words of (t-1)/2, sqrt_tonelli_shanks returns some x with x*x = f exactly when f is a square (including zero) and none otherwise, although its loops run a fixed schedule and go on changing the variables after the root is found. (The function is private and currently unused.)", "quantifier": "all finite fields, all elements", "why_tests_cant": "half of a 255-bit field are squares; the constant-time schedule makes the value of every local after convergence matter", "anchors": ["poseidon-base/src/primitives/pasta/mod.rs: sqrt_tonelli_shanks"]}
{"id": "C52", "title": "The in-circuit sponge is the textbook duplex sponge for every number of squeezed words", "statement": "Using the sponge gadget directly (new, absorb, finish_absorbing, squeeze), with cells or constant padding words and any initial capacity: after absorbing a positive multiple of RATE words the k-th squeezed cell holds word (k mod RATE) of the textbook state after k/RATE further permutations, in every accepted grid, and the honest grid is accepted; finishing with an incomplete block panics. The gadget ignores Domain::layout, so for the iden3 domains it does not compute the native hash (shown on BN254).", "quantifier": "all widths, rates, round numbers, constants with invertible MDS, column choices, word lists, numbers of squeezed words, layouters, witnesses", "why_tests_cant": "soundness ranges over all witnesses; tests only squeeze one word with ConstantLength", "anchors": ["poseidon-circuit/src/poseidon.rs: Sponge, poseidon_sponge", "poseidon-circuit/src/poseidon/pow5.rs: initial_state, add_input, get_output"]}
{"id": "C53", "title": "Constraint degree and exposed columns", "statement": "Configuring the hash circuit adds polynomials and lookups whose largest required degree is exactly 6 with either chip (table gates at most 4, range lookup 5, chip gates 6), in any host constraint system and for any constants; the exposed table columns and commitment_index are the caller's six columns in order, and the numbers of added columns and selectors are fixed. With GATE_DEGREE_5 = true the Septidon transition gate still has degree 6, contrary to the comment in params.rs.", "quantifier": "every host constraint system, every matrix and constants, every Pow5 width >= 2, legacy and step", "why_tests_cant": "a test configures one circuit; the statement is about every host constraint system, width and constant set, and about both values of a compile-time constant", "anchors": ["poseidon-circuit/src/hash.rs:65-226", "poseidon-circuit/src/poseidon/septidon/params.rs:1-3", "poseidon-circuit/src/poseidon/septidon/control.rs:25-80", "poseidon-circuit/src/poseidon/septidon/transition_round.rs:14-65", "poseidon-circuit/src/poseidon/pow5.rs:74-240", "spec/septidon.md"]}
{"id": "C54", "title": "Collisions of the message hash reduce to the permutation", "statement": "If hash_msg on two BN254 messages with two capacities returns the same value, then either the zero-completed rate pairs and capacities coincide, or two distinct inputs on which the two computations evaluated the permutation agree in output word 0, or an evaluated permutation output hits the other computation's capacity. With the default capacity (message length times 2^64) equal padded input means equal messages. The byte-string encoding of spec/hash-table.md (words of at most 31 bytes read little-endian, capacity byte length times 2^64) is injective, so collisions of byte strings reduce likewise.", "quantifier": "all nonempty messages over the BN254 scalar field, all capacities, all byte strings below 2^64 bytes", "why_tests_cant": "collision resistance is a statement about all pairs of messages; no sample of pairs can show that padding or the capacity encoding introduces no collision", "anchors": ["poseidon-base/src/hash.rs: hash_msg, HASHABLE_DOMAIN_SPEC", "poseidon-base/src/primitives.rs: Sponge", "spec/hash-table.md"]}
{"id": "C55", "title": "Meaning of the GATE_DEGREE_5 setting", "statement": "Setting GATE_DEGREE_5 = true changes no column and no equality-enabled column; every grid accepted with it is accepted without it, so soundness carries over; when the domain is filled with marked 8-row blocks the two settings accept the same grids; but on any row without a marker on it or four rows below the full state of the next row is determined by the row, so unused or blinded rows are not free, while without the setting a chip with no marker accepts every advice assignment.", "quantifier": "every host constraint system, matrix, constants and grid", "why_tests_cant": "the constant is false in every build the tests run, and the claims are about all grids", "anchors": ["poseidon-circuit/src/poseidon/septidon/params.rs:1-3", "poseidon-circuit/src/poseidon/septidon/control.rs:25-80"]}
{"id": "C56", "title": "Active S-boxes of the permutation", "statement": "For two different states, the number of S-box evaluations of the permutation whose inputs differ is at least T+1 per pair of consecutive full rounds plus one per T consecutive partial rounds, whenever the S-box is bijective, the matrix is MDS and the first rows of its first T powers are independent. The hard-coded BN254 and Pallas matrices meet the conditions: at least 35 of 81 (BN254) and 34 of 80 (Pallas) S-boxes are active; in particular no nonzero difference passes three consecutive partial rounds without touching the S-box.", "quantifier": "every pair of distinct states, every width, round numbers and constants; the two hard-coded instances in both builds", "why_tests_cant": "a statement about all pairs of 254-bit states and the choice of the MDS matrix (secure_mds); sampled pairs activate almost all S-boxes", "anchors": ["poseidon-base/src/primitives.rs: permute, Spec::secure_mds", "poseidon-base/src/primitives/mds.rs: generate_mds", "poseidon-base/src/primitives/bn256/fp.rs: MDS", "poseidon-base/src/primitives/pasta/fp.rs: MDS"]}
{"id": "C57", "title": "The hash table witness is determined by the exposed inputs", "statement": "Take accepted assignments of two hash table circuits with the same number of calculations; chip, build, features, steps, loading mode, host circuit and the table given to load may all differ. If columns 1-5 (words, control, domain, head flag) agree on the enabled rows, then the six permutation state columns and the continuation column agree on all enabled rows, the digest column agrees on every enabled row but the last, and the inverse column agrees wherever the control is not zero.", "quantifier": "every pair of accepted grids (arbitrary advice), every pair of chips, builds, modes, steps, tables, host circuits and numbers of rows", "why_tests_cant": "quantifies over all pairs of malicious witnesses; a test compares a few honest ones", "anchors": ["poseidon-circuit/src/hash.rs: SpongeConfig::configure_sub", "poseidon-circuit/src/hash.rs: SpongeChip::load"]}
{"id": "C58", "title": "Exact set of hash statements the circuit proves", "statement": "With a step K > 0, some accepted assignment exposes a block with head control c*SPEC, given rows (domain and two words each) and digest d if and only if there are exactly max(1, ceil(c/K)) rows and d is the sponge digest; for messages this is hash_msg, for one row with control 0 it is hash_with_domain. In particular for the README's message of 19 fields the provable capacities are 19..20 at step 2 and 289..320 at step 32 (the README states 298..320).", "quantifier": "every chip, build, loading mode, step, control, list of rows and digest; the left side ranges over all circuits, tables and advice", "why_tests_cant": "an equivalence: both that nothing else can be proved by any witness and that everything allowed can be proved", "anchors": ["poseidon-circuit/src/hash.rs: SpongeConfig::configure_sub", "poseidon-circuit/src/hash.rs: SpongeChip::load", "README.md: Usage", "spec/hash-table.md"]}
{"id": "C59", "title": "Collisions between table blocks and separation of the MPT and message modes", "statement": "If two blocks of two accepted hash tables (domains zero after the first row) have the same digest, they have the same rows and the same initial capacity, or the permutation inputs evaluated by the blocks contain two different inputs whose images agree in word 0, or one whose image hits the other block's initial capacity. Without `legacy`, an MPT row with a 64-bit domain and a message block never agree without such a weakness, in the table and natively; with `legacy` every two-word message collides with the MPT hash under domain 2.", "quantifier": "every pair of accepted assignments (chips, builds, steps, modes, tables, advice), every pair of blocks; every message and domain", "why_tests_cant": "collisions cannot be found by testing; the statement is a reduction over all inputs and all witnesses", "anchors": ["poseidon-circuit/src/hash.rs: SpongeConfig::configure_sub", "poseidon-base/src/hash.rs: HASHABLE_DOMAIN_SPEC, hash_with_domain, MessageHashable", "spec/hash-table.md: Legacy scheme"]}
{"id": "C60", "title": "Exact relation of the whole hash table", "statement": "The contents of the six table columns on the enabled rows that some accepted assignment can have are exactly the valid tables: a sequence of blocks, each carrying the sponge digest of its rows on every row, a head flag on its first row only and controls counting down by step*SPEC to i*SPEC with i <= STEP (i > 0 if the block has several rows), followed by one row with zero words, zero control, head flag 1 and arbitrary digest and domain. The assignment can be chosen with any given fixed columns, selectors and foreign advice.", "quantifier": "every chip, build, loading mode, table passed to load, pair of steps, surrounding circuit that does not write the table's advice columns, and every table of six-column rows", "why_tests_cant": "an equivalence over all witnesses of all tables: it says both that nothing else is accepted and that nothing of the described form is rejected", "anchors": ["poseidon-circuit/src/hash.rs: SpongeConfig::configure_sub", "poseidon-circuit/src/hash.rs: SpongeChip::load", "spec/hash-table.md"]}
{"id": "C61", "title": "Domains on continuation rows are unconstrained", "statement": "The circuit adds the domain of every row to the state and does not force it to 0 on continuation rows. So for every beginning of a message of two rows or more and every digest D there is a last row with which the circuit proves the digest D; and for every first pair of words there is a two-row block with head domain 0 whose proved digest differs from hash_msg of its words. A user of the table must look up the domain of every row.", "quantifier": "every chip, build, loading mode, step, control, list of leading rows, digest", "why_tests_cant": "the honest witness never has such domains, so no test of the repository can meet them; the claim is about adversarial witnesses for every prefix and digest", "anchors": ["poseidon-circuit/src/hash.rs: input_constrain gate (lines 190-231)", "poseidon-circuit/src/hash.rs: fill_hash_tbl_body"]}
{"id": "C62", "title": "The constant strings parse to the constants", "statement": "from_str_vartime returns a value exactly on the decimal notations of natural numbers (non-empty, no sign, no leading zero), namely the residue of the number; the initialisers of ROUND_CONSTANTS and MDS panic exactly if a string they read is missing or is not such a notation; on the strings of the crate they do not panic and yield the constants the rest of the model uses.", "quantifier": "all strings, all fields; all tables of strings; the 195 + 9 strings of the crate", "why_tests_cant": "The tests only see the strings that are in the table; that every accepted string denotes its number, and that everything else panics instead of being truncated, is about all strings.", "anchors": ["poseidon-base/src/primitives/bn256/fp.rs:16-29", "poseidon-base/src/primitives/bn256/fp.rs:64-282"]}
{"id": "C63", "title": "No subspace trails", "statement": "If the S-box has no constant derivative, the matrix is invertible with nonzero corner entry and the first rows and first columns of its powers 0..T-1 are independent, then every sequence of subspaces that starts nonzero and such that each round maps cosets of one into cosets of the next has reached the whole space after 2T-1 partial rounds; with an MDS matrix, after two full rounds. Both hold for the BN254 and Pallas instances (5 partial or 2 full rounds), i.e. matrix 0 of the generator is a secure choice in the sense of secure_mds.", "quantifier": "all sequences of subspaces, all windows of consecutive rounds, all round constants, every width", "why_tests_cant": "A statement about all subspaces and all of their cosets in a field of 2^254 elements.", "anchors": ["poseidon-base/src/primitives.rs:57-62", "poseidon-base/src/primitives/bn256/fp.rs:264-282", "poseidon-base/src/primitives/pasta/fp.rs"]}
{"id": "C64", "title": "How many rows the circuit needs", "statement": "If the columns of the hash table are unused, what load writes fits into u usable rows iff STEP+2 <= u (range table and the row it is filled from), calcs+1 <= u (table and custom row) and 8*calcs or 38*calcs <= u (permutations). So with calcs equal to the table size, minimum_row_require() rows are enough iff they hold the range table (false for up to 7 rows with Septidon and for one row with Pow5 when STEP is 62), and with Pow5 they are never enough for an accepted witness of a table that does not end in an empty row.", "quantifier": "all tables, sizes, steps, modes, thread counts, chips, builds", "why_tests_cant": "The tests use generous sizes (k=7..11); the exact bound is over all sizes.", "anchors": ["poseidon-circuit/src/hash.rs:324-330", "poseidon-circuit/src/hash.rs:727-904", "poseidon-base/src/hash.rs:54-62"]}
{"id": "C65", "title": "The floor planner does not matter", "statement": "Serial loading under any floor planner that puts the regions at rows of its choice without overlap succeeds under the same conditions as under the simple one, needs exactly the rows its regions reach, and accepts exactly the same tables; the honest witness is accepted iff the rows form complete blocks. The simple floor planner is one of them. The soundness properties of the hash table hold under all of them.", "quantifier": "all placements of the table region and of each permutation region, all tables, both chips", "why_tests_cant": "Every test uses SimpleFloorPlanner; placements are unboundedly many.", "anchors": ["poseidon-circuit/src/hash.rs:765-772", "poseidon-circuit/src/hash.rs:871-904", "poseidon-circuit/src/poseidon/septidon.rs", "poseidon-circuit/src/poseidon/pow5.rs"]}
{"id": "C66", "title": "What a lookup into the table proves", "statement": "With step K, a row (digest, word, word, n*SPEC, domain, head flag) occurs as an enabled row of an accepted assignment iff: head flag 1 and n > K (any digest), or head flag 1 and the digest is that of the row by itself, or the row has zero words and n = 0 (any digest and domain), or head flag 0 and n > 0 (any digest). For control 0 this says hash_with_domain, except for two zero words. So a message of two or more rows whose rows are looked up one by one is bound to no digest: every digest is possible, and even if no continuation row has a domain, the continuation rows of any other words are answered with the digest of the message.", "quantifier": "all words, digests, domains, flags, controls n < 2^63, steps, messages of up to 2^31 rows; both chips, builds, loading modes", "why_tests_cant": "Tests look at honest witnesses; this is about all accepted assignments.", "anchors": ["spec/hash-table.md:16-30", "poseidon-circuit/src/hash.rs:127-322", "poseidon-circuit/src/hash.rs:727-904"]}
{"id": "C67", "title": "Several hash tables in one circuit do not interfere", "statement": "Take a circuit that is configured with any number of hash tables (distinct caller's columns, other configuration in between) and loads them in any order under a common layouter, with other operations on other columns in between. An assignment that carries the fixed columns and selectors of the synthesis and meets all gates, lookups and copy constraints of the circuit is accepted for every one of the tables, so the soundness properties hold for each. The assignment written by the synthesis meets the constraints of a table iff the rows of that table form complete blocks, whatever the other tables contain.", "quantifier": "all numbers of tables, chips, steps, tables, orders, interleaved operations", "why_tests_cant": "The tests use one table per circuit.", "anchors": ["poseidon-circuit/src/hash.rs:127-322", "poseidon-circuit/src/hash.rs:727-904"]}
{"id": "C68", "title": "Algebraic degree of the permutation and number of preimages", "statement": "On every line of states each output word of a Poseidon permutation with S-box x^e (e >= 2, any field, width, matrix, round constants) is a polynomial of degree at most e^(rounds), whose top coefficient depends only on the matrix and the direction. For BN254 each output word is a polynomial of degree exactly 5^65 in each input word whatever the other two are, and no smaller degree takes the same values (5^64 for Pallas). Hence at most 5^65 values of one argument of hash_with_domain (the others fixed) give a digest, at most 5^65*r pairs do, and at most 5^65 values of the last word (or of one of the last two) of a message of any length give a digest, although the field has more than 2^102*5^65 elements.", "quantifier": "all fields, widths, exponents, matrices, constants, states, digests, message lengths", "why_tests_cant": "The degree of a function on a 254-bit field and the size of preimage sets cannot be sampled.", "anchors": ["poseidon-base/src/primitives.rs:99-165", "poseidon-base/src/hash.rs:84-125"]}
{"id": "C69", "title": "What a verdict of the mock prover means", "statement": "MockProver::verify (gates on the usable or on all rows, with poisoned blinding rows; lookups; copies) accepts a grid of the hash table exactly if the grid satisfies the constraint system and, when there are blinding rows, row 0 carries no block mark; on the witness of load it accepts exactly the tables made of complete blocks. Every region of load, in both modes and for all chips, assigns every cell queried by a gate whose selector it enables. The only test of the Septidon chip, verify_at_rows(0..1, 0..0), accepts any final state.", "quantifier": "all tables, witnesses, chips, modes, grid sizes, placements", "why_tests_cant": "The tests use the mock prover as an oracle on a few tables; whether its verdict agrees with the constraint system on all grids, and in particular whether a rotation can reach a blinding row, is a statement about all witnesses.", "anchors": ["poseidon-circuit/src/hash.rs:1100-1101", "poseidon-circuit/src/hash.rs:1128-1129", "poseidon-circuit/src/poseidon/septidon/tests.rs:9-18", "poseidon-circuit/src/hash.rs:156-161"]}
{"id": "C70", "title": "Period of the Grain generator and termination of the rejection loop", "statement": "The 80-bit register sequence behind the round constants has least period 2^80-1 for every parameter set; every nonzero register content occurs exactly once per period and all parameter sets run through the same cycle. The delivered (self-shrunk) bits repeat after 2^79 bits, half of which are ones. next_field_element returns for every parameter set, every field of n <= 256 bits and from every state of the generator, hence so does the round constant loop of Spec::constants for every width and number of rounds.", "quantifier": "all parameter sets, positions in the stream, fields of at most 256 bits, widths, numbers of rounds", "why_tests_cant": "The loop has no bound in the code; a test only observes that it stopped for one field and one parameter set. A period of 2^80-1 cannot be observed by running the generator.", "anchors": ["poseidon-base/src/primitives/grain.rs:84-101", "poseidon-base/src/primitives/grain.rs:112-137", "poseidon-base/src/primitives/grain.rs:171-179", "poseidon-base/src/primitives.rs:71-82"]}
{"id": "C71", "title": "Rows outside the table, and what load leaves for the floor planner", "statement": "Outside the table (custom row and enabled rows) the caller's six columns of an accepted proof can be changed in any way that keeps the product of the head mark and the control of the row before in the range table on every usable row: nothing else looks at these rows, and this range check is not switched off by q_enable. After a serial load every later region that uses a table column or q_enable is placed below the table, and the witness stays accepted whatever it writes. After a parallel load the floor planner still takes all enabled rows to be free: a later region with a single cell of a table column is placed on the first enabled row and overwrites it, and if that is a head mark other than 1 every grid is rejected.", "quantifier": "all accepted grids and all changes of them; all tables, modes, numbers of threads, layouts before, later regions and values", "why_tests_cant": "The tests load one table as the last thing in the circuit and never look at the state left in the layouter or at unused rows.", "anchors": ["poseidon-circuit/src/hash.rs:156-161", "poseidon-circuit/src/hash.rs:412-563", "poseidon-circuit/src/hash.rs:565-588", "poseidon-circuit/src/hash.rs:745-860"]}
{"id": "C72", "title": "Unknown values: key generation sees the circuit that is proved", "statement": "With halo2's Value, which may be unknown, in place of field elements: both permutation chips and the hash gadget succeed or panic independently of the values of the words and of whether they are known, and produce the same regions, fixed cells, selectors, copies, constants and output cells. A state all of whose words are known yields the textbook permutation, and a message all of whose words are known the native digest; as soon as one word is unknown every output is unknown. With known values the programs are the ones the other properties are about. The helpers in util.rs for expressions and for values agree and compute the power, the product, the choice and the disjunction they are meant to.", "quantifier": "all fields, constants, widths, round numbers, columns and layouters; all lists of states and messages of all lengths with known and unknown words; batches with any number of threads", "why_tests_cant": "The tests synthesise with known values; a run of key generation shows one circuit, not that every assignment of the witness leads to it.", "anchors": ["poseidon-circuit/src/poseidon/septidon/util.rs:5-136", "poseidon-circuit/src/poseidon/septidon/instruction.rs:42-163", "poseidon-circuit/src/poseidon/septidon/septidon_chip.rs:125-184", "poseidon-circuit/src/poseidon/pow5.rs:290-481", "poseidon-circuit/src/poseidon/pow5.rs:514-708", "poseidon-circuit/src/poseidon.rs:144-338"]}
{"id": "C73", "title": "Parallel synthesis does not depend on how the threads are scheduled", "statement": "In parallel mode load and permute_batch run closures in threads through assign_regions. Whatever the order in which the operations of different threads happen, load has the same outcome as when the closures run one after the other: the same panic, or the same first free rows, the same content of every advice and fixed cell, the same selectors and copy constraints, also together with whatever comes later; a grid is accepted or honest under one schedule iff it is under the other. The reason: the thread of a chunk writes only the rows it has shown to the floor planner (one per item of the table, eight per permutation), and the floor planner puts the chunks right below each other. With closures that write more rows than they have shown, the grid would depend on the schedule.", "quantifier": "all fields, constants, native permutations, tables, sizes, thread counts, states of the layouter and schedules, both chips", "why_tests_cant": "A test sees the few schedules that happen on the machine it runs on; a race shows up under one schedule in many.", "anchors": ["poseidon-circuit/src/hash.rs:565-722", "poseidon-circuit/src/hash.rs:773-869", "poseidon-circuit/src/poseidon/septidon/instruction.rs:87-163", "poseidon-circuit/src/poseidon.rs:74-83"]}
{"id": "C74", "title": "Every differential characteristic of the permutation is followed by a tiny part of all inputs and constants", "statement": "A characteristic prescribes the difference of two states before every round. The number of pairs of round constants and input that follow it is exactly the number of inputs times the product over the rounds of the number of states for which the round takes one difference to the next. The S-box x^5 takes an input difference other than zero to a given output difference for at most four inputs, so the count is at most a (4/q)^A part of all pairs, with A the number of active S-boxes. With the matrices and round numbers of the code, every characteristic that begins with a difference other than zero is followed by at most a (4/r)^35 part for BN254 (less than 2^-8785) and a (4/p)^34 part for Pallas.", "quantifier": "all characteristics; all S-boxes, matrices, widths and numbers of rounds for the exact count", "why_tests_cant": "There are about 2^16700 characteristics for 65 rounds and as many pairs per characteristic; sampling sees none of them.", "anchors": ["poseidon-base/src/primitives.rs: permute, Spec::secure_mds", "poseidon-base/src/primitives/mds.rs: generate_mds", "poseidon-base/src/primitives/bn256/fp.rs: MDS", "poseidon-base/src/primitives/pasta/fp.rs: MDS"]}
{"id": "C75", "title": "The test circuits are complete and sound for every message, and fit exactly the stated rows", "statement": "HashCircuit and PermuteCircuit of the tests, taken as whole circuits for any width, even number of full rounds, constants, message (or initial state) and claimed output: they are configured and laid out without panic, they need exactly hashRows (one permutation and two rows) rows, and every copy constraint connects columns enabled for equality. In every grid with the laid out fixed cells, selectors and copy constraints on which the gates hold, the cell with the claimed output is the native hash (the last row is the permutation) of the words in row 0. The honest grid satisfies all gates, and its copy constraints hold exactly if the claimed output is the native one; the mock prover agrees, including poisoned blinding rows and the check for unassigned cells. An odd number of full rounds, width 1, an empty message and a message longer than the width panic. For P128Pow5T3 over Pallas the circuits take 43 rows for one or two words, 83 for three, 39 for the permutation.", "quantifier": "all fields, widths, round numbers (two or more partial rounds for the hash), constants with an inverse matrix, messages, outputs and grids", "why_tests_cant": "The tests run the mock prover on the honest grid of one random message for two lengths; they never try a dishonest grid or a wrong output, and one spec.", "anchors": ["poseidon-circuit/src/poseidon/pow5.rs:733-836", "poseidon-circuit/src/poseidon/pow5.rs:838-996", "poseidon-circuit/src/poseidon/pow5.rs:245-490", "poseidon-circuit/src/poseidon.rs: Hash, Sponge"]}
{"id": "C76", "title": "Rows reserved by the proof system, and the exact sizes for which the tests pass", "statement": "configure_sub adds to the caller's columns exactly the rotations -1 and 0 (hash index, control) or 0 (the others), none to other host columns, and queries none of the columns it creates at more than three rotations. So the number of blinding factors is 5, or two more than the rotations of the most-queried host column, and the hash table never raises it by itself. The test circuits of the hash table pass the mock prover for size 2^k exactly if the table fits the calculations, its checks match, its rows form complete blocks, and 2^k is at least STEP+8, calcs+7 and rows*calcs+6 (8 rows per permutation for Septidon, 38 for Pow5). The Pow5 test circuits and the Septidon chip reserve six rows too; k = 6 and 7 in the tests are the least sizes, and the assumption `inactive_rows = 6` of the Septidon test is right.", "quantifier": "all host constraint systems, both chips, builds, modes, tables, calcs, steps and sizes k", "why_tests_cant": "Each test runs with one fixed k and table and only shows that this size is enough; that a smaller one is not, or how a host's queries change the number of rows, is never tried.", "anchors": ["poseidon-circuit/src/hash.rs:75-226", "poseidon-circuit/src/hash.rs:997-1150", "poseidon-circuit/tests/hash_proving.rs:25-75", "poseidon-circuit/src/poseidon/septidon/tests.rs:8-18", "poseidon-circuit/src/poseidon/pow5.rs:832-996"]}
{"id": "C77", "title": "The three steps must be equal", "statement": "The number of units per row is given three times: to the builder (stream_inputs), to configure_sub (SpongeConfig::step) and as the const generic STEP of the chip; nothing compares them. For any step and STEP the circuit proves that rows with control c hash to d iff d is the sponge digest and c is step for every row but one plus at most STEP for the last (not 0 if there are several rows). Every length can be proved iff step <= STEP, and every length has only one number of rows iff STEP <= step. With a STEP that is larger than the builder's step, a message of several rows whose length is at most STEP is accepted, but every row is exposed as a hash of its own, with the digest of its two words. The circuit accepts every message built with step K and exposes it as one block with its digest iff all three steps are K.", "quantifier": "all steps below 2^63, all lengths, messages, chips, builds, loading modes and accepted assignments", "why_tests_cant": "The tests use the same constant in all three places; a mixture compiles and panics nowhere, and for many lengths it works.", "anchors": ["poseidon-circuit/src/hash.rs:58-60", "poseidon-circuit/src/hash.rs:75-79", "poseidon-circuit/src/hash.rs:135-161", "poseidon-circuit/src/hash.rs:279-315", "poseidon-circuit/src/hash.rs:334-362", "poseidon-circuit/src/hash.rs:536", "poseidon-circuit/src/hash.rs:730-746"]}
{"id": "C78", "title": "A configuration is loaded once", "statement": "The column of the step range is a lookup table column, which halo2 lets a circuit fill once. After a load, every further load with the same SpongeConfig is an error, whatever the second table, its capacity, the chip's STEP, the mode and the operations in between are. The tables of a circuit that calls configure_sub several times can each be loaded once, in any order and with anything in between, without meeting this error. In general a synthesis that goes through without the check goes through with it and writes the same iff its loads have different step range columns, none of them filled before, and otherwise ends in the error.", "quantifier": "all numbers and orders of loads and other steps, all tables, chips, builds, loading modes and layouters", "why_tests_cant": "Every test loads one table once.", "anchors": ["poseidon-circuit/src/hash.rs:91", "poseidon-circuit/src/hash.rs:133", "poseidon-circuit/src/hash.rs:727-746"]}
{"id": "C79", "title": "One key, made without the witnesses, proves the right pairs", "statement": "HashCircuit has an optional message and an optional output, and its keys are made from without_witnesses, which has neither. Whatever is given, the outcome is the one for any other message and output: the same panic, or the same constraint system and the same layout up to the values of advice cells, with all fixed cells, selectors, copies and constants known; these and the number of rows are determined by the key. With both given the circuit is the one of C75. With the key made without witnesses, on any number of rows that suffices, an accepted assignment with m in the cells of the message and y in the cell of the output exists iff y is the native hash of m; for the Pasta tests this holds with their k for either build.", "quantifier": "all fields, widths, constants, even numbers of full rounds, at least two partial rounds, messages of all lengths that fit, optional or not, and all assignments", "why_tests_cant": "MockProver runs the circuit with the witness it is given; no test makes a key from without_witnesses (only print_poseidon_chip builds a circuit without witnesses, to draw it).", "anchors": ["poseidon-circuit/src/poseidon/pow5.rs:838-939", "poseidon-circuit/src/poseidon/pow5.rs:857-863", "poseidon-circuit/src/poseidon/pow5.rs:898-904", "poseidon-circuit/src/poseidon/pow5.rs:927-933"]}
{"id": "C80", "title": "Digests over the last row of round constants", "statement": "The constants of the last full round are added just before its S-boxes. Over the choice of that row alone, with all other cached constants those of the crate: for every input each value of an output word is reached by exactly one in q of the rows, and two different inputs agree in an output word for at most four in q of the rows (a function with S-box of differential uniformity m: at most m). For hash_with_domain over BN254 with the cached constants of either build: exactly r^2 of the r^3 rows for each digest, at most 4 r^2 for a collision of two inputs that differ in a word or in the domain; the same for hash_msg of different messages of one or two words with the default capacity; the same for every word of the Pallas permutation.", "quantifier": "all inputs, domains, digests, output words; for the general theorems all finite fields, widths, round numbers, bijective S-boxes, invertible matrices with a row without zeros and all other constants", "why_tests_cant": "The rows of constants are r^3 in number and the inputs r^3; a test sees one row and a few inputs.", "anchors": ["poseidon-base/src/primitives.rs:97-149", "poseidon-base/src/hash.rs:85-132", "poseidon-base/src/params.rs:21-24"]}
{"id": "C81", "title": "The test circuit of the Septidon chip", "statement": "TestCircuit of septidon/tests.rs assigns height/8 permutations of one initial state with assign_permutation, one region after the other, and compares each final state with an expected one. For every initial state, expected state and height the synthesis succeeds iff height < 8 or the textbook permutation of the initial state is the expected state, and panics otherwise. A circuit that is synthesised has no copies and no lookups, reserves six rows for every k, takes exactly 8*(height/8) rows; the honest assignment satisfies all gates on all rows (the test looks at row 0 only) and holds both states in each region; whatever the advice, gates that hold on all rows make each final state the permutation of its initial state. With the constants of the crate, the state 0,1,2 and the expected string the test succeeds for every k >= 3, and for k >= 4 fails with any other expected state.", "quantifier": "all fields, matrices, compact constants, states, heights, sizes k, and all assignments", "why_tests_cant": "The test runs k = 5 with one input, and verify_at_rows(0..1, 0..0) evaluates the gates on row 0 only.", "anchors": ["poseidon-circuit/src/poseidon/septidon/tests.rs:8-66", "poseidon-circuit/src/poseidon/septidon/septidon_chip.rs:37-89", "poseidon-circuit/src/poseidon/septidon/septidon_chip.rs:116-184"]}
{"id": "C82", "title": "Sums of digests over a line of inputs", "statement": "Along every line of states s + x w, the sum over all field elements x of x^a times a product of k_i-th powers of the output words is 0 whenever a + 5^65 * sum k_i < r - 1 (BN254; 5^64 and p for Pallas; any finite field, width, power S-box and round numbers in general). So for hash_with_domain along every line of its three arguments, and for hash_msg along every line of last blocks after any words, all moments of the digest of order up to 2^102 vanish: a zero-sum property that a random function has with probability 1/r each. One free word gives more than 2^102 different digests, whatever the other words are.", "quantifier": "all lines, exponents, other words, domains, earlier blocks, both builds; in general all finite fields, widths, matrices, constants, exponents", "why_tests_cant": "The sums run over the whole field of about 2^254 elements.", "anchors": ["poseidon-base/src/primitives.rs:97-149", "poseidon-base/src/hash.rs:84-123"]}
{"id": "C83", "title": "The hash modes with an ideal permutation", "statement": "hash_msg and hash_with_domain use the permutation as a black box. Let it be any permutation of the r^3 states and let an adversary ask it and its inverse adaptively at n points. Except for a fraction of at most 2n(n + L + d)/r of all permutations, no two different calls (messages of 1 to L words with the default capacity, nodes with one of d domains that are not such capacities) whose evaluations are all in the transcript have the same digest; and except for at most 2n(n + L + d + t)/r no such call has one of t given digests. With 2^120 queries and L + d + t < 2^64 this is less than one permutation in 2^12. The transcript determines the results of the calls it contains.", "quantifier": "all deterministic adaptive strategies (forward and inverse queries), all n up to half of the states, all L < 2^64, all finite sets of domains and targets, both values of legacy; in general all finite fields and sets of capacities", "why_tests_cant": "It counts over all (r^3)! permutations and all adaptive strategies.", "anchors": ["poseidon-base/src/primitives.rs:181-330", "poseidon-base/src/primitives.rs:500-540", "poseidon-base/src/hash.rs:84-123"]}
{"id": "C84", "title": "No under-constrained cells", "statement": "Every advice cell of the circuit is accounted for. Septidon: the gates hold if and only if every advice cell written in every permutation region has the value permute writes there for the state in the first row, except two helper cells of the transition column per region, which are free. Pow5: the same without exceptions (all intermediate states and partial S-box cells). Hash table: two accepted assignments of a run with the same table columns 1-5 on the enabled rows agree on a set of cells (state columns, continuation flag, inverse where the control is not 0, all digests but the last, all chip cells but the helper cells), and conversely any values that agree with an accepted assignment on these cells are accepted if and only if the digest and state cell of the custom row are equal and the range condition holds on the unenabled rows. So exactly the listed cells are determined and nothing else is constrained.", "quantifier": "all advice assignments, all placements of regions, all surrounding circuits, tables, steps, modes, chips; for the chips all fields, matrices, round constants, widths and round numbers", "why_tests_cant": "It quantifies over every assignment of every advice cell; a mock prover run only shows that the honest assignment is accepted.", "anchors": ["poseidon-circuit/src/poseidon/septidon/septidon_chip.rs:37-150", "poseidon-circuit/src/poseidon/septidon/transition_round.rs:20-110", "poseidon-circuit/src/poseidon/pow5.rs:60-330", "poseidon-circuit/src/hash.rs:60-420"]}
{"id": "C85", "title": "Linear correlations over the last two rows of constants", "statement": "Over the choice of the rows of round constants of the last two full rounds, all other constants being those of the crate, linear correlations are small: for any function of modulus at most 1 of the input state and any nonzero linear combination of the output words of the BN254 or Pallas permutation, at most a fraction 1/(2^375 eps^2) of the choices gives a correlation of eps or more through any nontrivial character; for the digest of hash_with_domain with a fixed domain and any function of the two input words, at most 1/(2^121 eps^2). For any width, MDS matrix and bijective S-box whose squared correlations are at most p, the squared correlation averaged over the two rows is at most p^T q^T/|X|; for x^5 the fourth power of a correlation is at most 5/(q-1).", "quantifier": "all functions of the input, all output masks, all characters, all thresholds; in the general form all finite fields, widths, MDS matrices, S-boxes, round numbers and other constants", "why_tests_cant": "It is a statement about sums over all inputs and an average over r^6 choices of constants.", "anchors": ["poseidon-base/src/primitives.rs:97-149", "poseidon-base/src/hash.rs:85-132", "poseidon-base/src/params.rs:21-24"]}
{"id": "C86", "title": "Soundness of the argument behind a proof", "statement": "Take the PLONK argument of halo2 with ideal commitments: the prover sends polynomials of degree less than the number of rows, then permuted lookup columns, grand products and quotient pieces, each after the challenges theta; beta, gamma; y; the verifier reads values at a random point x and checks one equation. If key generation succeeds and a prover, adaptive in all challenges, has committed to an assignment that breaks a gate on any row, a lookup or a copy constraint of the synthesis, then at most K.slack * q^4 of the q^5 challenge tuples convince the verifier, where K.slack = width*usable rows + 3*cells + 4*usable rows + number of terms + degree * n is explicit (width: the most columns of a lookup, less one). Lookups may have any number of columns, compressed with powers of theta. Copy constraints are those logged by the synthesis, turned into a permutation by the assembly algorithm of key generation.", "quantifier": "all finite fields, all constraint systems, all synthesis logs, all numbers of rows with a domain, all adaptive provers", "why_tests_cant": "The prover is an arbitrary function of the challenges and the count runs over q^5 tuples; the test makes one honest proof.", "anchors": ["poseidon-circuit/tests/hash_proving.rs:114-177", "Cargo.toml:14-29"]}
{"id": "C87", "title": "Keys and proofs of circuits with a hash table", "statement": "In any circuit that contains the gates and lookups of a hash table and does not write its fixed columns and selectors elsewhere: key generation succeeds if and only if there are at least the minimum number of rows and everything assigned lies in the usable rows (the copy constraints of the table are never the reason of a failure); and a prover convinces the verifier for more than K.slack * r^4 challenges only if the advice it committed to is an accepted assignment of the hash table, so that all soundness statements about accepted assignments (C26-C30, C47, C57-C60, C66) hold for what was committed.", "quantifier": "all surrounding circuits, tables, steps, numbers of calculations, chips, floor plans, builds and all adaptive provers over the BN254 scalar field", "why_tests_cant": "It quantifies over all provers and all circuits around the table.", "anchors": ["poseidon-circuit/src/hash.rs:75-905", "poseidon-circuit/tests/hash_proving.rs:25-50", "poseidon-circuit/tests/hash_proving.rs:114-177"]}
{"id": "C88", "title": "Proofs of the test circuits bind digests", "statement": "For the test circuit on 2^k rows, k at most 28, with the 2^k-th root of unity and coset generator of BN254: there are keys if and only if STEP+8, calcs+7 and rows*calcs+6 are at most 2^k; and if a prover convinces the verifier for more than 52 * 2^k * r^4 of the r^5 challenges, then for every message block of the committed table all index cells hold hash_msg of the words of the block with the control as length.", "quantifier": "all tables, steps, numbers of calculations, modes, chips, sizes up to 2^28 and all adaptive provers", "why_tests_cant": "The bound is about all provers; a test cannot show that no proof of a wrong digest exists.", "anchors": ["poseidon-circuit/tests/hash_proving.rs:25-50", "poseidon-circuit/tests/hash_proving.rs:114-177", "poseidon-circuit/src/hash.rs:75-905", "poseidon-base/src/hash.rs:85-132"]}
{"id": "C89", "title": "Completeness of the argument behind a proof", "statement": "If key generation succeeds, then for every assignment (as polynomials of degree less than the number of rows, with arbitrary values in the rows reserved for blinding) that meets all gates, lookups and copy constraints there is a prover with exactly these advice columns, and all its messages of degree less than the number of rows, that convinces the verifier for all but K.loss * q^4 of the q^5 challenges, K.loss = cells + 2 * lookups * usable rows + n.", "quantifier": "all finite fields, constraint systems, synthesis logs, assignments and blinding values", "why_tests_cant": "It needs the existence of permuted columns, grand products and quotients for every satisfying assignment.", "anchors": ["poseidon-circuit/tests/hash_proving.rs:114-177", "Cargo.toml:14-29"]}
{"id": "C90", "title": "The mock prover and real proofs agree", "statement": "For the test circuits on 2^k rows, k at most 28, with any blinding: the witness written by load can be proven for all but 17 * 2^k * r^4 of the r^5 challenges if its rows form complete blocks; otherwise no prover with this witness convinces for more than 52 * 2^k * r^4. Hence MockProver accepts a test circuit if and only if load succeeds, keys exist and some prover with the witness of load convinces the verifier for more than 52 * 2^k * r^4 challenges.", "quantifier": "all tables, steps, numbers of calculations, modes, chips, builds, sizes up to 2^28, all blinding values and all adaptive provers", "why_tests_cant": "The tests run MockProver on a few tables and make one proof.", "anchors": ["poseidon-circuit/tests/hash_proving.rs:52-177", "poseidon-circuit/src/hash.rs:924-1241"]}
{"id": "C91", "title": "One key for all tables", "statement": "The result of key generation, key or error, does not depend on what is in the table nor on the loading mode and the number of threads (between serial and parallel loading if the columns are free from the same row on), in any surrounding circuit; the key made with the empty table of without_witnesses is the one of the table to be proven; and keys made for different numbers of calculations are different.", "quantifier": "all tables, modes, thread counts, surrounding circuits, sizes, domains and builds", "why_tests_cant": "vk_validity compares two keys for two tables.", "anchors": ["poseidon-circuit/tests/hash_proving.rs:80-177", "poseidon-circuit/src/hash.rs:364-905"]}
{"id": "C92", "title": "Lookups into the hash table are sound in proofs", "statement": "In any circuit that contains a hash table and has a key, and that looks up six expressions (digest, two words, control, domain, head) in the enabled rows of the table on the rows where an expression q is 1: if a prover convinces the verifier for more than K.slack * r^4 of the r^5 challenges, then all rows looked up are rows of one accepted hash table. In particular where the control is 0 and the head 1, the digest is the hash of the two words in the domain, or both words are 0.", "quantifier": "all circuits around the table, all lookup expressions and rows, all adaptive provers, all builds", "why_tests_cant": "No circuit in the repository looks into the table, and the prover is arbitrary.", "anchors": ["spec/hash-table.md:16-20", "spec/hash-table.md:61-68", "poseidon-circuit/src/hash.rs:80-92"]}
{"id": "C93", "title": "A circuit with requests proves hashes, all of them and nothing else", "statement": "Take a circuit with a hash table of calcs rows and m < calcs requests (digest, two words, domain) looked up in it, on 2^k rows, k at most 28, with STEP+8, calcs+7 and rows*calcs+6 at most 2^k. The key, made with the empty table and empty requests, exists. For requests whose words are not both 0 there is a prover with these requests that convinces the verifier for more than 58 * 2^k * r^4 of the r^5 challenges if and only if in every request hash_with_domain of the words in the domain is the digest. In that case there is a prover that fails for at most 19 * 2^k * r^4 challenges.", "quantifier": "all requests, numbers of requests and calculations, steps, modes, chips, builds and sizes up to 2^28; all adaptive provers", "why_tests_cant": "It quantifies over all requests and all provers; the tests prove one table without anything looking into it.", "anchors": ["spec/hash-table.md:16-20", "spec/hash-table.md:61-68", "poseidon-circuit/tests/hash_proving.rs:114-177", "poseidon-base/src/hash.rs:86-100"]}
{"id": "C94", "title": "Messages looked up row by row", "statement": "In a circuit whose hash table has one more gate (no domain on enabled rows with a control), if all rows of a message of c > 0 bytes in ceil(c/STEP) pairs of words are answered by enabled rows of an accepted table under digest D, then hash_msg of the words with capacity c*2^64 (c in the legacy encoding) is D, or the table itself contains two different complete messages whose hash_msg are both D. Conversely every list of messages with their digests is answered by an accepted table that meets the gate. The same with a prover that convinces the verifier.", "quantifier": "all tables, messages, row positions, steps, surrounding circuits, builds; all adaptive provers", "why_tests_cant": "It is a claim about all witnesses of the table, including those where the rows looked up come from different messages (C66_message_mixed).", "anchors": ["spec/hash-table.md:16-20", "spec/hash-table.md:40-68", "poseidon-circuit/src/hash.rs:290-420"]}
{"id": "C95", "title": "A circuit with messages proves their digests", "statement": "Take a circuit with a hash table of calcs rows, the gate of C94 and m < calcs rows of messages looked up in it, on 2^k rows, k at most 28, with STEP+8, calcs+7 and rows*calcs+6 at most 2^k. The key, made with the empty table and no messages, exists. A prover with given messages and digests that convinces the verifier for more than 58 * 2^k * r^4 of the r^5 challenges has every digest right, or has committed to a table that contains a collision of hash_msg; if all digests are right there is such a prover. This prover fails for at most 19 * 2^k * r^4 challenges.", "quantifier": "all lists of messages of 0 < c < 2^64 bytes, numbers of calculations, steps, modes, chips, builds and sizes up to 2^28; all adaptive provers", "why_tests_cant": "It quantifies over all messages and all provers; the tests prove one table without anything looking into it.", "anchors": ["spec/hash-table.md:16-20", "spec/hash-table.md:40-68", "poseidon-circuit/tests/hash_proving.rs:114-177", "poseidon-base/src/hash.rs:40-140"]}
{"id": "C96", "title": "A proof shows nothing of the table", "statement": "For any circuit with a key, any two assignments, all challenges with x^n != 1, and any values the verifier can read of the prover's polynomials: as many random values of the prover (in the rows that cannot be assigned) make the verifier read these values for the one assignment as for the other. What it reads decides the only value of the quotient it accepts. In the test circuits two tables with the same number of calculations have the same key, a table of complete blocks is proven for all random values but for 17 * 2^k in r of all challenges, and proofs of two tables cannot be told apart.", "quantifier": "all circuits with a key, assignments, random values, challenges and views; all tables, modes, chips, builds and sizes up to 2^28 for the test circuits", "why_tests_cant": "A test makes one proof; that nothing can be learned from it is a statement about the distribution of all proofs.", "anchors": ["poseidon-circuit/tests/hash_proving.rs:82-111", "poseidon-circuit/tests/hash_proving.rs:114-177"]}
{"id": "C97", "title": "Non-interactive proofs", "statement": "The challenges come from a random oracle asked for what the prover has written so far, as the transcript of the tests does with a hash. A prover that may ask for the challenges of Q scripts, choosing each script after seeing all earlier answers, has a script accepted whose assignment breaks the circuit for at most Q * slack in q of all oracles (slack as in C86). For the test circuits on 2^k rows: Q * 52 * 2^k in r for a table that is not accepted or has a block whose digest is not that of its words; below 2^-119 for Q <= 2^100 and k <= 28. The prover of C90 finds a proof of any table of complete blocks with four questions, but for 17 * 2^k in r of all oracles.", "quantifier": "all circuits with a key, adaptive provers, numbers of questions and oracles; all tables, modes, chips, builds and sizes up to 2^28 for the test circuits", "why_tests_cant": "The tests make a proof with one transcript and verify it; no test searches for a transcript that accepts a wrong table.", "anchors": ["poseidon-circuit/tests/hash_proving.rs:114-177", "poseidon-circuit/src/hash.rs:1190-1241"]}
{"id": "C98", "title": "Build, environment variable and processors do not matter", "statement": "load assigns serially exactly if the feature parallel_syn is off or CIRCUIT_ASSIGNMENT_TYPE is the string serial; any other value, or none, means parallel, in as many chunks as there are processors (32 if they cannot be counted). The number of processors that the permutation chip sees changes nothing at all. A key made in one environment from one table is the key made in any other environment from any other table (in a larger circuit: between serial and parallel if the columns are free from the same row on). A proof made in one environment is sound and complete for the key made in another; in particular the circuit of poseidon_parallel_synthesis has a key and a proof whatever the two environments are.", "quantifier": "all features, values of the variable, numbers of processors, tables, chips, builds, sizes up to 2^28", "why_tests_cant": "The test sets the variable to serial for the key and to parallel for the proof on one machine with one table.", "anchors": ["poseidon-circuit/src/hash.rs:746-763", "poseidon-circuit/src/hash.rs:806-809", "poseidon-circuit/src/poseidon/septidon/instruction.rs:92-95", "poseidon-circuit/src/hash.rs:1155-1241"]}
{"id": "C99", "title": "Proofs about the hash gadget and the chips' test circuits", "statement": "In any circuit that contains the gates of the Pow5 chip, hashes any list of messages with the gadget (or runs its sponge) and then does anything else below, a proof for the circuit's key shows that every returned cell is the native hash of its message cells (the sponge output of its words): a prover committed to anything else convinces for at most slack in q of all challenges, and one with Q tries at a random oracle for at most Q times that. HashCircuit and PermuteCircuit of the tests have a key exactly if there are enough rows (over Pallas: k at least 6, or 7 for three words); proofs show output = native hash of row 0, and honest provers show every message with its hash. The key is the same for all messages and outputs and is the one made without a witness. TestCircuit of the Septidon chip over bn256 has a key exactly if its permutations fit into 2^k - 6 rows and k is at least 3; proofs show all its permutations.", "quantifier": "all parameters with the right lengths, columns, programs, surrounding circuits, messages, provers, oracles, sizes up to 2^32 (Pallas) or 2^28 (bn256)", "why_tests_cant": "The tests run MockProver, with no proof at all, on one message each; a prover who cheats is not in them.", "anchors": ["poseidon-circuit/src/poseidon.rs:140-338", "poseidon-circuit/src/poseidon/pow5.rs:733-1020", "poseidon-circuit/src/poseidon/septidon/tests.rs"]}
{"id": "C100", "title": "Lookups into the hash table in non-interactive proofs", "statement": "C92 to C95 for provers that get their challenges from a random oracle as well. In any circuit with a hash table, lookups into it and a key: a prover who tries Q scripts has one accepted whose table is not accepted, or whose looked-up rows are not all in the table, for at most Q * slack in r of all oracles. So proofs show that a request with control 0 and head 1 has the digest hash_with_domain gives (or both words 0), and that a message all of whose rows are looked up has the digest hash_msg gives, or the committed table contains a collision of hash_msg. For the circuits with requests (C93) and with messages (C95) on 2^k rows, slack is at most 58 * 2^k, and honest provers show any requests or messages with right digests, failing for at most 19 * 2^k in r of all challenges.", "quantifier": "all circuits with a table and lookups, provers, numbers of tries, requests, messages, chips, builds, sizes up to 2^28", "why_tests_cant": "No circuit that looks into the table is in the repository; the tests do not cheat.", "anchors": ["spec/hash-table.md", "poseidon-circuit/src/hash.rs:80-211", "poseidon-circuit/tests/hash_proving.rs:114-177"]}
{"id": "C101", "title": "The opening of many polynomials at many points", "statement": "The opening protocol the tests name (KZG commitments, SHPLONK): commitments are sums of powers of a secret in a group, and the verifier makes one pairing check for all claimed values. Whatever polynomials of degree less than n a prover knows behind its commitments and whatever bilinear pairing: if one of the claimed values (the first one for its polynomial and point) is wrong, there is a polynomial of degree at most n, made from the prover's own polynomials, that has the secret as a root whenever the verifier accepts, and that is zero while the verifier accepts for at most (3 q + n) |F|^2 of the |F|^3 challenges (q openings). With a random secret the verifier accepts for at most (3 q + 2 n) |F|^3 of all |F|^4 secrets and challenges. If all values are right, the honest quotients are accepted for every secret and all challenges but those that hit an opened point. Of several values claimed for one polynomial at one point only the first one is checked.", "quantifier": "all fields, groups with a nondegenerate pairing, lists of openings, polynomials, secrets, challenges", "why_tests_cant": "Tests run honest provers with one secret.", "anchors": ["poseidon-circuit/tests/hash_proving.rs:9-13", "poseidon-circuit/tests/hash_proving.rs:114-177"]}
{"id": "C102", "title": "Proofs with commitments", "statement": "What proofs with ideal commitments show (C100: Key.Proves) is shown by proofs with KZG commitments and openings, for provers that know the polynomials behind their commitments and if no polynomial is opened at one point twice: such a prover has committed to a good assignment, or a nonzero polynomial of degree at most n made from its own polynomials has the secret of the parameters as a root for all but at most slack + 3 q + n + 1 in |F| of the challenges for which the verifier accepts. With a random secret the verifier accepts a bad assignment for at most slack + 3 q + 2 n + 1 in |F| of secrets and challenges. Honest provers are accepted for all challenges but loss + q in |F|, whatever the secret. The circuits of the crate inside any host that queries no row more than 3 above or 7 below open no polynomial twice at a point on more than ten rows, with at most 11 openings per column and 430 more. For the circuit with requests of C93 on 2^k rows: a wrong digest is accepted for at most 60 * 2^k + 1702 in r of secrets and challenges, right ones are accepted for all challenges but 19 * 2^k + 567 in r.", "quantifier": "all circuits and keys, provers, pairings, secrets, challenges; all hosts, chips, builds, requests, sizes up to 2^28", "why_tests_cant": "The tests make honest proofs for one circuit and do not cheat.", "anchors": ["poseidon-circuit/tests/hash_proving.rs:114-177", "poseidon-circuit/src/hash.rs:80-211"]}
{"id": "C103", "title": "Non-interactive proofs with commitments", "statement": "The proofs of the tests, with KZG commitments, openings and all eight challenges from a random oracle that is asked with what has been written so far (commitments; after x the claimed values too). A player may know the secret of the parameters, asks Q times with commitments to polynomials it knows, may go back, try again and stop anywhere. What proofs with ideal commitments show (Key.Proves) is shown: a proof that is accepted and has committed to an assignment without the property is found for at most Q * (slack + 3 q + n + 1) in |F| of all oracles, unless the secret is a root of a nonzero polynomial of degree at most n found in what the player has done: the difference of two of its polynomials for the same place, or what the verifier checks to be zero at the secret. Such a list of polynomials has few roots: with p commitments and Q moves at most (p Q^2 + Q) n secrets are found. Any interactive prover becomes one that makes seven moves and is accepted for the same share of oracles. For the tests' own circuit on 2^k rows: a table that is not accepted or a block with a wrong digest for at most Q (53 * 2^k + 1522) in r of the oracles, below 2^-119 for 2^100 moves and up to 2^28 rows; complete witnesses of load are accepted for all but 17 * 2^k + 507 in r, whatever the secret. The same for the circuits with requests (C93) and messages (C95).", "quantifier": "all circuits and keys, players, numbers of moves, pairings, secrets, oracles; all chips, builds, tables, sizes up to 2^28", "why_tests_cant": "The tests make two honest proofs and do not cheat; Q moves of an arbitrary strategy cannot be run.", "anchors": ["poseidon-circuit/tests/hash_proving.rs:13-15", "poseidon-circuit/tests/hash_proving.rs:114-177", "poseidon-circuit/src/hash.rs:80-211"]}
{"id": "C104", "title": "Digests of calls that were not evaluated are random", "statement": "hash_msg and hash_with_domain run with a permutation chosen at random among all permutations of the states. An adversary asks the permutation and its inverse at n points and makes calls (messages of 1 to len words with the default capacity, nodes with domains that are no such capacity), in any order, each step depending on all answers before. Let the calls be different, with sigma blocks in all, and let no call have all its evaluations of the permutation among the questions. Then no event about what the adversary sees can tell the digests from independent random field elements: the frequencies of the event, over permutations with the digests of the code and over permutations and tuples of field elements, differ by at most (2 n (n + c) + sigma (sigma + 2 n + c)) / r plus the frequency with which these rules are broken with random answers, where c = len + number of domains. With 2^120 questions and blocks and less than 2^64 capacities this is at most 2^-12. An adversary who keeps to the rules guesses a digest for at most 1 + 2 n (n + c) + sigma (sigma + 2 n + c) in r of the permutations. The rule about evaluations is needed: who asks for the evaluation of a node knows its digest for every permutation.", "quantifier": "all adversaries, numbers of steps, questions and blocks, events, lengths below 2^64, domains, both values of the legacy flag", "why_tests_cant": "A statement about all permutations and all adaptive adversaries; tests compare digests of fixed inputs.", "anchors": ["poseidon-base/src/primitives.rs:181-330", "poseidon-base/src/primitives.rs:500-540", "poseidon-base/src/hash.rs:84-123"]}
{"id": "C105", "title": "Commitments to the columns hide the assignment", "statement": "A proof with KZG commitments, which are not blinded themselves: only the random values in the last rows of the columns hide them. For any circuit with a key, any two assignments, any secret and challenges whose n-th power is not 1, any commitments to all columns that depend on the assignment (advice, permuted inputs and tables, products of the permutation argument and of lookups) and any values of them that the verifier can read: the number of choices of the prover's random values that make it send exactly these is the same for both assignments. So what is received for one assignment could have been received for any other. If commitments to columns and to pieces of the quotient and all values are the same for two convincing provers, the queries of the verifier and both commitments of the SHPLONK opening are the same too, unless the secret is one of the points. One random row less is not enough: with as many random values as points read, there are assignments, values and a commitment with one choice for the one and none for the other. In the test circuits of the crate all tables with the same number of rows have the same key and commitments and values show nothing of the table.", "quantifier": "all circuits, lookups, assignments, challenges, secrets and points off the domain, groups, commitments and values", "why_tests_cant": "A count over all random values of a prover; a test makes one proof.", "anchors": ["poseidon-circuit/tests/hash_proving.rs:113-177", "poseidon-circuit/tests/hash_proving.rs:147-172", "poseidon-circuit/src/hash.rs:1191-1237"]}
{"id": "C106", "title": "The hash function cannot be told from a random function", "statement": "hash_msg (messages of 1 to len words) and hash_with_domain (given domains), run with a random permutation in place of Poseidon, are indifferentiable from a random function. There is a simulator for the permutation and its inverse that sees only the questions to it, not the calls of the hash function, and calls the random function at most once per question. For every distinguisher, who in N steps in any order asks the permutation, its inverse and the hash function (with at most sigma blocks), may repeat calls and may evaluate them itself, and for every event: its frequency with the code and a random permutation differs from that with a random function and the simulator by at most (N+sigma)(N+sigma+len+#domains)/r. In numbers 2^-13 for 2^120 steps and blocks. Hence, if for each call at most s digests are wanted, a call with a wanted digest is found with frequency at most (N s)/r more than that bound. The condition that no domain is the capacity of a message is needed: otherwise a node and a message always have the same digest.", "quantifier": "all distinguishers, numbers of steps and blocks, events, maximal lengths below 2^64, sets of domains that are not capacities, both capacity rules", "why_tests_cant": "A statement about all adversaries and a count over all permutations of the states and all functions.", "anchors": ["poseidon-base/src/primitives.rs:181-330", "poseidon-base/src/primitives.rs:500-540", "poseidon-base/src/hash.rs:84-123"]}
{"id": "C107", "title": "Messages hashed with a given capacity", "statement": "hash_msg with a capacity given by the caller (Some(cap), of type u128) and hash_with_domain, with a random permutation in place of Poseidon, are indifferentiable from a random function of (capacity, words), with the simulator and bound of C106, for every set of capacities that determine the number of words and are not domains. The controls of the hash table are such a set: control c (a number of bytes or other units) has capacity c*2^64 (c in the legacy encoding) and 2*ceil(c/step) words. Hence a collision, of two calls that differ in capacity or words, is found in N steps and sigma blocks with frequency at most (N^2 + (N+sigma)(N+sigma+#capacities+#domains))/r, and for the hash table at most 2^-12 with 2^120 steps and blocks. The condition is needed: with one capacity for several lengths a message of an odd number of words and the same message with a zero appended have the same digest for every permutation.", "quantifier": "all distinguishers, numbers of steps and blocks, events, finite sets of capacities and lengths for them, sets of domains, maximal controls and steps with sum below 2^63, both capacity rules", "why_tests_cant": "A statement about all adversaries and a count over all permutations of the states and all functions.", "anchors": ["poseidon-base/src/primitives.rs:181-330", "poseidon-base/src/primitives.rs:500-540", "poseidon-base/src/hash.rs:84-123"]}
{"id": "C108", "title": "Paths of a binary tree looked up in the hash table", "statement": "The nodes (digest, left, right, domain) that can be looked up together with control 0 in one accepted hash table are exactly the lists in which hash_with_domain gives every digest, except that one node with two zero words may have any digest and domain. Hence, if no node has two zero words, two paths of the same shape to one root that are looked up in one accepted table are equal or the table holds a collision of hash_with_domain; the same for every prover that convinces the verifier of a circuit with the lookups, and for two proofs of the host circuit of C93, where a path is opened by a convincing prover if and only if all its nodes are right. If nodes next to leaves have a domain of their own, paths of different lengths that follow one key are bound too. Any number of right paths can be looked up in one table. The condition is needed: two zero leaves can be looked up below any value on any right path.", "quantifier": "both chips and capacity rules, all modes, steps, lists of fewer than 2^63 nodes, paths of all lengths, grids, circuits with the configuration, provers", "why_tests_cant": "Quantifies over all accepted tables, which are not only those that load assigns, and over all provers.", "anchors": ["spec/hash-table.md:16-30", "poseidon-circuit/src/hash.rs:127-322", "poseidon-circuit/src/hash.rs:727-904"]}
{"id": "C109", "title": "Tries made with hash_with_domain", "statement": "Tries with nodes hash_with_domain([left, right], domain), a domain of their own for leaves and the value 0 for an empty part: every trie has exactly one root and list of right nodes; two tries with one root are equal, or two of their nodes are a collision of hash_with_domain, or a node has digest 0. A leaf with a path of branches to the root of a trie, looked up in an accepted table with no node of two zero words, is in the trie at the place that the sides of the path tell; a path from the value 0 shows that this part of the trie is empty; else a node of the trie and one that was looked up are a collision or a node has digest 0. The same for provers that convince the verifier of the host circuit of C93, with one key for all tries, where also every leaf of the trie is shown by some prover.", "quantifier": "all tries, roots, paths of all lengths, domains, accepted tables, provers, chips, modes, steps", "why_tests_cant": "Quantifies over all tries and all accepted tables and provers, not those of an honest run.", "anchors": ["spec/hash-table.md:16-30", "poseidon-circuit/src/hash.rs:127-322", "poseidon-circuit/src/hash.rs:727-904"]}
{"id": "C110", "title": "Tries with a random permutation", "statement": "With a random permutation in place of Poseidon, an adversary that asks the permutation and its inverse and calls hash_with_domain and hash_msg, N steps and sigma blocks in all, finds two different tries with one root, or a trie and a path to its root that shows a leaf which is not there, or one that shows nothing where there is something (all nodes having been called), with frequency at most (N^2 + N + (N+sigma)(N+sigma+len+#domains))/r, which is at most 2^-12 for 2^120 steps and blocks.", "quantifier": "all adversaries, numbers of steps and blocks, maximal lengths, sets of domains that are not capacities of messages, both capacity rules", "why_tests_cant": "A count over all permutations of the states, for all adversaries.", "anchors": ["poseidon-base/src/primitives.rs:181-330", "poseidon-base/src/primitives.rs:500-540", "poseidon-base/src/hash.rs:84-123"]}
{"id": "C111", "title": "Changes of a trie", "statement": "A change of a trie is shown by two paths with the same sides, siblings and domains, from the value of the old part to the old root and from that of the new part to the new root. For any number of changes in a row, whose nodes are looked up in an accepted table with no node of two zero words, or in proofs that convince the verifier: from every trie with the first root, each change finds its old part at its place, the trie with all new parts put there has the last root, or two nodes of the trie and of what was shown are a collision of hash_with_domain, or one has digest 0. The new trie is determined; the other places are as before; every change can be shown. With a random permutation false changes are found with frequency at most (N^2 + N + (N+sigma)(N+sigma+len+#domains))/r.", "quantifier": "all tries, chains of changes of any length, parts, paths, domains, accepted tables, provers, adversaries", "why_tests_cant": "Quantifies over all tries, all chains of changes and all accepted tables and provers.", "anchors": ["spec/hash-table.md:16-30", "poseidon-circuit/src/hash.rs:127-322", "poseidon-circuit/src/hash.rs:727-904"]}
{"id": "C112", "title": "Hashes of byte strings", "statement": "A byte string that is not empty is hashed as in the var-len mode of spec/hash-table.md: words of k = STEP/2 bytes, two to a row, and the number of bytes (times HASHABLE_DOMAIN_SPEC) as capacity. The circuit proves a digest for these rows and this control exactly if it is the one the code computes. For k <= 31, two different byte strings with one digest show a weakness of the permutation. If the rows of a byte string are looked up one by one in an accepted table whose rows with a control have no domain, the digest is the hash of the byte string or the table holds two different messages with that digest; two different byte strings looked up under one digest show a weakness or such messages. Any byte strings can be looked up in one table. With a random permutation, two byte strings with one digest are found with frequency at most 2^-12 in 2^120 steps and blocks.", "quantifier": "all byte strings of any length below 2^63, all word sizes, chips, modes, accepted tables, adversaries", "why_tests_cant": "Quantifies over all byte strings and all accepted tables, and over adversaries.", "anchors": ["spec/hash-table.md:16-20", "spec/hash-table.md:40-68", "poseidon-circuit/src/hash.rs:290-420"]}
{"id": "C113", "title": "Collisions of constant-length hashing", "statement": "For every width, rate and permutation: two messages with the same digest under ConstantLength start from the same state and have the same padded blocks, or their computations show a weakness of the permutation: two different last inputs with the same word 0 of the image, two different earlier inputs with the same capacity words of the image, or an earlier input whose image has the capacity words of the other first state. For messages of one length they are equal, or the two inputs are at the same place. The same holds for ConstantLengthIden3 with domains. Over Pallas, in both builds, messages of any lengths below 2^64 are equal or show a weakness of textbook Poseidon. In the circuit, two calls of the hash gadget whose outputs are equal in an accepted grid have the same words, or show a weakness.", "quantifier": "all widths, rates, permutations, fields, messages, domains, programs that call the gadget, accepted grids", "why_tests_cant": "Quantifies over all pairs of messages and all permutations and grids.", "anchors": ["poseidon-base/src/primitives.rs: ConstantLength, Hash<ConstantLength>::hash, Sponge", "poseidon-circuit/src/poseidon.rs: Sponge, Hash::hash", "poseidon-circuit/src/poseidon/pow5.rs: initial_state, add_input, get_output"]}
{"id": "C114", "title": "Constant-length hashing with an ideal permutation", "statement": "Take a random permutation of the states of width RATE+1 over a field of q elements, for any rate, in place of Poseidon's. For every adversary of n queries to it and its inverse, the probability that all evaluations for two different messages of up to len words with the same ConstantLength digest are among the queries is at most 2n(2n+len)/q, whether the messages have one length or two; for a message with one of given digests it is at most 2n(2n+len+#targets)/q. A message whose evaluations are all among the queries has a digest determined by the answers. Over Pallas with width 3, 2^120 queries succeed with probability below 2^-11.", "quantifier": "all finite fields, rates, adversaries, numbers of queries, messages, sets of targets", "why_tests_cant": "Counts over all permutations of the state space for every adaptive adversary.", "anchors": ["poseidon-base/src/primitives.rs: ConstantLength, Hash<ConstantLength>::hash, Sponge"]}
{"id": "C115", "title": "Proofs about byte strings", "statement": "Take a circuit with the hash table (any step 2k, build, chip, load mode), the rule that rows with a control have no domain, and columns that hold the rows of byte strings packed in words of k bytes and are looked up in the table. One key, made before the strings are known, serves all lists of byte strings with the given number of rows. The columns determine the byte strings and digests (k <= 31). A prover that convinces the verifier, interactively or with a random oracle, has the digest that hash_msg computes for every byte string in the columns, or its table contains a collision of hash_msg; and any byte strings with right digests are shown by an honest prover. The same holds for non-interactive proofs with commitments, for players that do not find the secret of the parameters. Two proofs, of circuits of any sizes, with one digest are about the same byte string, or show a weakness of the permutation, or one of the tables holds a collision.", "quantifier": "all lists of byte strings, digests, provers, word sizes, circuit sizes, builds, chips, load modes", "why_tests_cant": "Quantifies over all provers and all byte strings of any length; a test runs an honest prover on a few strings.", "anchors": ["spec/hash-table.md:16-20", "spec/hash-table.md:40-68", "poseidon-circuit/src/hash.rs:290-420", "spec/hash-table.md", "poseidon-circuit/src/hash.rs:80-211", "poseidon-circuit/tests/hash_proving.rs:114-177"]}
{"id": "C116", "title": "Merkle paths with the hash gadget", "statement": "A circuit that lays out a Merkle path with the Hash gadget, one ConstantLength<2> hash for each sibling on the cell returned by the hash below, always succeeds, and in every accepted grid the last cell is the root that native hashing computes from the leaf and siblings in the grid; the honest grid satisfies gates and copy constraints. Proofs for the circuit, with anything laid out after the path, show this. Two paths with the same sides to one root are equal, or a node of the one and a node of the other show a weakness of the permutation; so do two convincing provers with the same root. For a tree of the depth of the path with its root, the leaf of the path is the leaf of the tree at the position given by the sides, or a node of the path and a node of the tree show a weakness.", "quantifier": "all path lengths, sides, leaf and sibling cells and values, earlier and later regions, grids, provers, fields, widths, round numbers, matrices and constants", "why_tests_cant": "Quantifies over paths of any length, all accepted grids and all provers; a test proves one honest hash.", "anchors": ["poseidon-circuit/src/poseidon.rs: Sponge, Hash::hash", "poseidon-circuit/src/poseidon/pow5.rs: initial_state, add_input, get_output", "poseidon-base/src/primitives.rs: ConstantLength, Hash<ConstantLength>::hash, Sponge"]}
