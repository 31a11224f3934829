{
 "claims": [
  {
   "property": "C01",
   "status": "proved",
   "theorems": [
    "Props.C01_permute_textbook"
   ],
   "note": ""
  },
  {
   "property": "C02",
   "status": "proved",
   "theorems": [
    "Props.C02_compact_same_permutation",
    "Props.C02_compact_same_permutation_general"
   ],
   "note": ""
  },
  {
   "property": "C03",
   "status": "proved",
   "theorems": [
    "Props.C03_bn254_bijective"
   ],
   "note": ""
  },
  {
   "property": "C04",
   "status": "proved",
   "theorems": [
    "Props.C04_hash_with_domain",
    "Props.C04_C05_bn254"
   ],
   "note": ""
  },
  {
   "property": "C05",
   "status": "proved",
   "theorems": [
    "Props.C05_hash_msg",
    "Props.C04_C05_bn254"
   ],
   "note": "Lengths below 2^64 (usize)."
  },
  {
   "property": "C06",
   "status": "proved",
   "theorems": [
    "Props.C06_hash_msg_panics_iff_empty"
   ],
   "note": ""
  },
  {
   "property": "C07",
   "status": "proved",
   "theorems": [
    "Props.C07_default_capacity",
    "Props.C07_none_is_default"
   ],
   "note": ""
  },
  {
   "property": "C08",
   "status": "proved",
   "theorems": [
    "Props.C08_zero_padding_collides"
   ],
   "note": ""
  },
  {
   "property": "C09",
   "status": "proved",
   "theorems": [
    "Props.C09_two_words"
   ],
   "note": ""
  },
  {
   "property": "C10",
   "status": "proved",
   "theorems": [
    "Props.C10_constant_length"
   ],
   "note": ""
  },
  {
   "property": "C11",
   "status": "proved",
   "theorems": [
    "Props.C11_constant_length_iden3",
    "Props.C11_layout_assertion"
   ],
   "note": ""
  },
  {
   "property": "C12",
   "status": "proved",
   "theorems": [
    "Props.C12_squeeze_order"
   ],
   "note": ""
  },
  {
   "property": "C13",
   "status": "proved",
   "theorems": [
    "Props.C13_history_independent",
    "Props.C13_no_deadlock"
   ],
   "note": "OnceCell/lazy_static are abstracted to atomic claim/publish/read steps."
  },
  {
   "property": "C14",
   "status": "proved",
   "theorems": [
    "Props.C14_grain_stream"
   ],
   "note": "For every parameter set (cut to its field width, which is what the code does) and every number of bits."
  },
  {
   "property": "C15",
   "status": "proved",
   "theorems": [
    "Props.C15_grain_next_terminates"
   ],
   "note": "Bezout certificate over GF(2) shows 120 consecutive pairs cannot all start with 0."
  },
  {
   "property": "C16",
   "status": "proved",
   "theorems": [
    "Props.C16_seed_injective",
    "Props.C16_out_of_range_collision"
   ],
   "note": "Second theorem: out-of-range parameters do collide."
  },
  {
   "property": "C17",
   "status": "proved",
   "theorems": [
    "Props.C17_field_elements",
    "Props.C17_draw_total"
   ],
   "note": "from_repr_vartime / from_uniform_bytes are modelled as comparison with p / reduction mod p of the little-endian value. Termination of the rejection loop is C70."
  },
  {
   "property": "C18",
   "status": "proved",
   "theorems": [
    "Props.C18_generate_mds",
    "Props.C18_generate_mds_panics"
   ],
   "note": "Generic over field, generator, width, order and select."
  },
  {
   "property": "C19",
   "status": "proved",
   "theorems": [
    "Props.C19_duplicate_detection"
   ],
   "note": ""
  },
  {
   "property": "C20",
   "status": "proved",
   "theorems": [
    "Props.C20_mds_inv",
    "Props.C20_bn254_mds_inv"
   ],
   "note": ""
  },
  {
   "property": "C21",
   "status": "proved",
   "theorems": [
    "Props.C21_septidon_sound",
    "Props.C21_septidon_sound_bn254"
   ],
   "note": "Any advice assignment, any placement of disjoint regions, any other operations around; second theorem instantiates the constants of the crate."
  },
  {
   "property": "C22",
   "status": "proved",
   "theorems": [
    "Props.C22_septidon_complete"
   ],
   "note": "permute one by one and permute_batch with any thread count, any blinding values."
  },
  {
   "property": "C23",
   "status": "proved",
   "theorems": [
    "Props.C23_pow5_sound"
   ],
   "note": "Any width, round numbers and constants with m_inv inverse of m_reg; any advice assignment, any placement of disjoint regions."
  },
  {
   "property": "C24",
   "status": "proved",
   "theorems": [
    "Props.C24_pow5_complete"
   ],
   "note": "Any width, round numbers and constants; any blinding values."
  },
  {
   "property": "C25",
   "status": "proved",
   "theorems": [
    "Props.C25_permute_batch"
   ],
   "note": "Literal equality of returned words and of the logs of writes and copies; the level invariant on the layouter is established and preserved by chip calls."
  },
  {
   "property": "C26",
   "status": "proved",
   "theorems": [
    "Props.C26_block_digest"
   ],
   "note": "Any accepted advice assignment, both chips, any placement of the regions."
  },
  {
   "property": "C27",
   "status": "proved",
   "theorems": [
    "Props.C27_mpt_rows"
   ],
   "note": ""
  },
  {
   "property": "C28",
   "status": "proved",
   "theorems": [
    "Props.C28_controls"
   ],
   "note": ""
  },
  {
   "property": "C29",
   "status": "proved",
   "theorems": [
    "Props.C29_functional"
   ],
   "note": ""
  },
  {
   "property": "C30",
   "status": "proved",
   "theorems": [
    "Props.C30_custom_rows",
    "Props.C30_last_row_free"
   ],
   "note": "Second theorem: digest and domain of the last enabled row are unconstrained."
  },
  {
   "property": "C31",
   "status": "proved",
   "theorems": [
    "Props.C31_complete"
   ],
   "note": ""
  },
  {
   "property": "C32",
   "status": "proved",
   "theorems": [
    "Props.C32_only_complete",
    "Props.C32_rejected"
   ],
   "note": ""
  },
  {
   "property": "C33",
   "status": "proved",
   "theorems": [
    "Props.C33_api"
   ],
   "note": "Any sequence of the five builder calls, either chip, mode and build. The digest is tied to hash_msg and hash_with_domain by Props.Job.digest_eq."
  },
  {
   "property": "C34",
   "status": "proved",
   "theorems": [
    "Props.C34_modes"
   ],
   "note": ""
  },
  {
   "property": "C35",
   "status": "proved",
   "theorems": [
    "Props.C35_shape",
    "Props.C35_mode_matters"
   ],
   "note": "Second theorem: on a layouter that is not level the two modes lay the circuit out differently."
  },
  {
   "property": "C36",
   "status": "proved",
   "theorems": [
    "Props.C36_chunks"
   ],
   "note": ""
  },
  {
   "property": "C37",
   "status": "proved",
   "theorems": [
    "Props.C37_capacity"
   ],
   "note": ""
  },
  {
   "property": "C38",
   "status": "proved",
   "theorems": [
    "Props.C38_builder_aligned",
    "Props.C38_contents"
   ],
   "note": "Any sequence of the five builder calls."
  },
  {
   "property": "C39",
   "status": "proved",
   "theorems": [
    "Props.C39_stream_lengths",
    "Props.C39_stream_inputs"
   ],
   "note": ""
  },
  {
   "property": "C40",
   "status": "proved",
   "theorems": [
    "Props.C40_stream_after_constant"
   ],
   "note": ""
  },
  {
   "property": "C41",
   "status": "proved",
   "theorems": [
    "Props.C41_checks"
   ],
   "note": ""
  },
  {
   "property": "C42",
   "status": "proved",
   "theorems": [
    "Props.C42_control_encoding"
   ],
   "note": ""
  },
  {
   "property": "C43",
   "status": "proved",
   "theorems": [
    "Props.C43_load",
    "Props.C43_permute"
   ],
   "note": ""
  },
  {
   "property": "C44",
   "status": "proved",
   "theorems": [
    "Props.C44_pow5_height",
    "Props.C44_septidon_height",
    "Props.C44_rows",
    "Props.C44_pow5_short"
   ],
   "note": "The last theorem shows where the claim fails: Pow5 chosen explicitly in a build with the default feature short needs 38 rows per hash, hash_block_size() says 9."
  },
  {
   "property": "C45",
   "status": "proved",
   "theorems": [
    "Props.C45_gadget",
    "Props.C45_gadget_empty",
    "Props.C45_gadget_no_constants"
   ],
   "note": "Any number of chained hashes on any layouter; soundness for every accepted grid and completeness of the honest one. The empty message panics natively and in the circuit."
  },
  {
   "property": "C46",
   "status": "proved",
   "theorems": [
    "Props.C46_chips_agree"
   ],
   "note": "Septidon with compact constants, Pow5 with raw and with compact constants, native permutation."
  },
  {
   "property": "C47",
   "status": "proved",
   "theorems": [
    "Props.C47_lookup"
   ],
   "note": ""
  },
  {
   "property": "C48",
   "status": "proved",
   "theorems": [
    "Props.C48_adc",
    "Props.C48_sbb",
    "Props.C48_mac",
    "Props.C48_mul_512"
   ],
   "note": ""
  },
  {
   "property": "C49",
   "status": "proved",
   "theorems": [
    "Props.C49_default_constants",
    "Props.C49_default_constants_panics",
    "Props.C49_bn254_constants"
   ],
   "note": "The BN254 equality is a kernel computation over the whole table."
  },
  {
   "property": "C50",
   "status": "proved",
   "theorems": [
    "Props.C50_pasta_constants",
    "Props.C50_pasta_permutation",
    "Props.C50_pasta_hash"
   ],
   "note": ""
  },
  {
   "property": "C51",
   "status": "proved",
   "theorems": [
    "Props.C51_sqrt"
   ],
   "note": "pow_vartime (crate ff) is taken to be exponentiation by the number its words spell."
  },
  {
   "property": "C52",
   "status": "proved",
   "theorems": [
    "Props.C52_gadget_sponge",
    "Props.C52_gadget_unpadded",
    "Props.C52_layout_ignored"
   ],
   "note": "C52_layout_ignored is a finding: iden3 domains do not give the native hash in the gadget."
  },
  {
   "property": "C53",
   "status": "proved",
   "theorems": [
    "Props.C53_circuit_degree",
    "Props.C53_table_degree",
    "Props.C53_septidon_degree",
    "Props.C53_septidon_degree5",
    "Props.C53_pow5_degree"
   ],
   "note": "exact degree 6 for either chip and any host constraint system; column counts and exposed columns; C53_septidon_degree5 is the finding that the transition gate keeps degree 6 when GATE_DEGREE_5 is set"
  },
  {
   "property": "C54",
   "status": "proved",
   "theorems": [
    "Props.C54_collision",
    "Props.C54_default",
    "Props.C54_bytes"
   ],
   "note": "the weakness is explicit: the permutation inputs are among those evaluated"
  },
  {
   "property": "C55",
   "status": "proved",
   "theorems": [
    "Props.C55_degree5_stricter",
    "Props.C55_degree5_all_rows",
    "Props.C55_degree5_no_blinding",
    "Props.C55_standard_unused_free"
   ],
   "note": ""
  },
  {
   "property": "C56",
   "status": "proved",
   "theorems": [
    "Props.C56_active_sboxes",
    "Props.C56_bn254",
    "Props.C56_pasta"
   ],
   "note": ""
  },
  {
   "property": "C57",
   "status": "proved",
   "theorems": [
    "Props.C57_table_determined"
   ],
   "note": "the exceptions are real: C30 for the last digest, and the inverse of 0 is unconstrained"
  },
  {
   "property": "C58",
   "status": "proved",
   "theorems": [
    "Props.C58_provable",
    "Props.C58_message",
    "Props.C58_mpt",
    "Props.C58_readme"
   ],
   "note": ""
  },
  {
   "property": "C59",
   "status": "proved",
   "theorems": [
    "Props.C59_table_collision",
    "Props.C59_modes_separated",
    "Props.C59_native"
   ],
   "note": ""
  },
  {
   "property": "C60",
   "status": "proved",
   "theorems": [
    "Props.C60_exact",
    "Props.C60_exists"
   ],
   "note": ""
  },
  {
   "property": "C61",
   "status": "proved",
   "theorems": [
    "Props.C61_steered",
    "Props.C61_wrong_digest"
   ],
   "note": "finding: the property that continuation domains are zero fails; proved as its negation"
  },
  {
   "property": "C62",
   "status": "proved",
   "theorems": [
    "Props.C62_fromStr",
    "Props.C62_roundConstants",
    "Props.C62_mds",
    "Props.C62_bn254"
   ],
   "note": "full strength; the parser is a function of the ff crate modelled from its documentation"
  },
  {
   "property": "C63",
   "status": "proved",
   "theorems": [
    "Props.C63_partial",
    "Props.C63_full",
    "Props.C63_bn254",
    "Props.C63_pasta"
   ],
   "note": ""
  },
  {
   "property": "C64",
   "status": "proved",
   "theorems": [
    "Props.C64_rows",
    "Props.C64_minimum",
    "Props.C64_pow5_never"
   ],
   "note": "finding: minimum_row_require() is too small for small tables; proved as an equivalence"
  },
  {
   "property": "C65",
   "status": "proved",
   "theorems": [
    "Props.C65_planner",
    "Props.C65_apart",
    "Props.C65_simple",
    "Props.C65_same_tables"
   ],
   "note": "serial loading; parallel loading asks the layouter for its own kind of regions (scroll fork) and is modelled with the simple planner"
  },
  {
   "property": "C66",
   "status": "proved",
   "theorems": [
    "Props.C66_lookup",
    "Props.C66_mpt",
    "Props.C66_message_unbound",
    "Props.C66_message_mixed"
   ],
   "note": "finding: lookups of continuation rows must be tied to the head row by the client"
  },
  {
   "property": "C67",
   "status": "proved",
   "theorems": [
    "Props.C67_sound",
    "Props.C67_complete"
   ],
   "note": ""
  },
  {
   "property": "C68",
   "status": "proved",
   "theorems": [
    "Props.C68_lead",
    "Props.C68_bn254",
    "Props.C68_pasta",
    "Props.C68_preimages",
    "Props.C68_message"
   ],
   "note": ""
  },
  {
   "property": "C69",
   "status": "proved",
   "theorems": [
    "Props.C69_mock",
    "Props.C69_honest",
    "Props.C69_regions",
    "Props.C69_septidon_test"
   ],
   "note": "MockProver::verify is modelled in Halo2/Mock.lean (trusted); finding: the Septidon test checks row 0 only"
  },
  {
   "property": "C70",
   "status": "proved",
   "theorems": [
    "Props.C70_lfsr_period",
    "Props.C70_shift",
    "Props.C70_output_period",
    "Props.C70_next_field_element_terminates",
    "Props.C70_constants_terminate"
   ],
   "note": "primitivity of the feedback polynomial and the piece with a zero at every residue modulo 256 are finite computations checked by the kernel (decide +kernel); everything else is for all parameters"
  },
  {
   "property": "C71",
   "status": "proved",
   "theorems": [
    "Props.C71_outside",
    "Props.C71_serial_apart",
    "Props.C71_parallel_over",
    "Props.C71_parallel_rejected",
    "Props.C71_serial_accepted"
   ],
   "note": "finding: the shape pass of the parallel mode registers one column only, so later regions on the caller's table columns land in the table"
  },
  {
   "property": "C72",
   "status": "proved",
   "theorems": [
    "Props.C72_septidon",
    "Props.C72_pow5",
    "Props.C72_hash",
    "Props.C72_hash_circuit",
    "Props.C72_known",
    "Props.C72_util"
   ],
   "note": "the hash table itself assigns plain field elements only; its parts use the two chips covered here"
  },
  {
   "property": "C73",
   "status": "proved",
   "theorems": [
    "Props.C73_load",
    "Props.C73_accepted",
    "Props.C73_rows_table",
    "Props.C73_rows_batch",
    "Props.C73_ranges",
    "Props.C73_race"
   ],
   "note": "the schedule orders the logged operations of the second calls; the closures share no other state (C13 covers the caches)"
  },
  {
   "property": "C74",
   "status": "proved",
   "theorems": [
    "Props.C74_sbox",
    "Props.C74_followers",
    "Props.C74_active",
    "Props.C74_characteristic",
    "Props.C74_bn254",
    "Props.C74_pasta",
    "Props.C74_exists"
   ],
   "note": "counts pairs of round constants and input, as is usual for characteristics; the constants of the code are one choice of these (C56_bn254, C56_pasta state that the rounds are those of the code)"
  },
  {
   "property": "C75",
   "status": "proved",
   "theorems": [
    "Props.C75_hash",
    "Props.C75_permute",
    "Props.C75_panics",
    "Props.C75_regions",
    "Props.C75_pasta",
    "Props.C75_pasta_permute"
   ],
   "note": "messages and outputs are known values (C72 has the unknown ones); hash with at least two partial rounds, as the row count differs otherwise"
  },
  {
   "property": "C76",
   "status": "proved",
   "theorems": [
    "Props.C76_rotations",
    "Props.C76_blinding",
    "Props.C76_alone",
    "Props.C76_tests",
    "Props.C76_pow5",
    "Props.C76_pow5_sizes",
    "Props.C76_septidon"
   ],
   "note": "the formula for blinding factors is a trusted model of halo2; queries are those occurring in the polynomials; the passing of the cell check is C69_regions and C75_regions"
  },
  {
   "property": "C77",
   "status": "proved",
   "theorems": [
    "Props.C77_provable",
    "Props.C77_rows",
    "Props.C77_split",
    "Props.C77_steps"
   ],
   "note": "Exact statements provable for any pair of steps; when every length is provable and when it has one number of rows; what a too large STEP exposes; all messages are served iff the three steps are equal."
  },
  {
   "property": "C78",
   "status": "proved",
   "theorems": [
    "Props.C78_check",
    "Props.C78_twice",
    "Props.C78_each"
   ],
   "note": "the check is that of halo2's layouter (trusted model); that the loads write to their own columns only is C67"
  },
  {
   "property": "C79",
   "status": "proved",
   "theorems": [
    "Props.C79_circuit",
    "Props.C79_known",
    "Props.C79_key",
    "Props.C79_proves",
    "Props.C79_pasta"
   ],
   "note": "key = fixed cells, selectors, copies and constraint system; at least two partial rounds in C79_proves, as in C75"
  },
  {
   "property": "C80",
   "status": "proved",
   "theorems": [
    "Props.C80_uniform",
    "Props.C80_collision",
    "Props.C80_bn254",
    "Props.C80_messages",
    "Props.C80_pasta"
   ],
   "note": "a statement about the family of hashes indexed by the last row of constants, not about the one row the crate has; messages of one block only"
  },
  {
   "property": "C81",
   "status": "proved",
   "theorems": [
    "Props.C81_outcome",
    "Props.C81_circuit",
    "Props.C81_bn254"
   ],
   "note": "the printed form of the final state is compared as words"
  },
  {
   "property": "C82",
   "status": "proved",
   "theorems": [
    "Props.C82_moments",
    "Props.C82_permutation",
    "Props.C82_hash",
    "Props.C82_message",
    "Props.C82_values",
    "Props.C82_pasta"
   ],
   "note": "lines in the last block of a message only"
  },
  {
   "property": "C83",
   "status": "proved",
   "theorems": [
    "Props.C83_collision",
    "Props.C83_preimage",
    "Props.C83_asked",
    "Props.C83_calls",
    "Props.C83_targets",
    "Props.C83_numbers"
   ],
   "note": "a statement about the mode with a random permutation in place of Poseidon; randomised adversaries follow by averaging; that Poseidon behaves like a random permutation is not claimed"
  },
  {
   "property": "C84",
   "status": "proved",
   "theorems": [
    "Props.C84_septidon",
    "Props.C84_pow5",
    "Props.C84_determined",
    "Props.C84_exact",
    "Props.C84_free"
   ],
   "note": "the table part needs at least one calculation for the exact set; columns outside the hash table are not constrained by it and are left to the surrounding circuit"
  },
  {
   "property": "C85",
   "status": "proved",
   "theorems": [
    "Props.C85_sbox",
    "Props.C85_average",
    "Props.C85_count",
    "Props.C85_bn254",
    "Props.C85_pasta"
   ],
   "note": "an average over the last two rows of constants, not a bound for the rows of the crate; the S-box bound is a fourth-moment bound, weaker than Weil's"
  },
  {
   "property": "C86",
   "status": "proved",
   "theorems": [
    "Props.C86_sound"
   ],
   "note": "an interactive argument with ideal commitments and random challenges; commitment scheme, openings and the hash that derives the challenges are not modelled"
  },
  {
   "property": "C87",
   "status": "proved",
   "theorems": [
    "Props.C87_keygen",
    "Props.C87_sound"
   ],
   "note": "same model of the argument as C86; the counts are over challenges, with the prover's coins fixed"
  },
  {
   "property": "C88",
   "status": "proved",
   "theorems": [
    "Props.C88_tests"
   ],
   "note": "same model of the argument as C86"
  },
  {
   "property": "C89",
   "status": "proved",
   "theorems": [
    "Props.C89_complete"
   ],
   "note": "same model of the argument as C86; zero knowledge is C96"
  },
  {
   "property": "C90",
   "status": "proved",
   "theorems": [
    "Props.C90_tests",
    "Props.C90_mock"
   ],
   "note": "same model of the argument as C86; MockProver as in C69 and C76"
  },
  {
   "property": "C91",
   "status": "proved",
   "theorems": [
    "Props.C91_key",
    "Props.C91_tests",
    "Props.C91_calcs"
   ],
   "note": "key as in C86: serialisation of the key is not modelled"
  },
  {
   "property": "C92",
   "status": "proved",
   "theorems": [
    "Props.C92_lookup",
    "Props.C92_mpt"
   ],
   "note": "same model of the argument as C86; the looking circuit is arbitrary; what a row of an accepted table means is C66"
  },
  {
   "property": "C93",
   "status": "proved",
   "theorems": [
    "Props.C93_host"
   ],
   "note": "same model of the argument as C86; the circuit with requests is ours, the repository has only the table"
  },
  {
   "property": "C94",
   "status": "proved",
   "theorems": [
    "Props.C94_message",
    "Props.C94_complete",
    "Props.C94_circuit"
   ],
   "note": "the additional gate is not in the code: C66_message_unbound and C66_message_mixed show that without it the rows of a message do not bind its digest"
  },
  {
   "property": "C95",
   "status": "proved",
   "theorems": [
    "Props.C95_code"
   ],
   "note": "same model of the argument as C86; the circuit with messages is ours, the repository has only the table"
  },
  {
   "property": "C96",
   "status": "proved",
   "theorems": [
    "Props.C96_hiding",
    "Props.C96_quotient",
    "Props.C96_complete",
    "Props.C96_tests",
    "Props.C96_any"
   ],
   "note": "same model of the argument as C86, with the polynomials that create_proof sends; commitments are ideal and hide"
  },
  {
   "property": "C97",
   "status": "proved",
   "theorems": [
    "Props.C97_oracle",
    "Props.C97_sound",
    "Props.C97_complete",
    "Props.C97_table",
    "Props.C97_tests",
    "Props.C97_numbers"
   ],
   "note": "same model of the argument as C86; the hash of the transcript is a random oracle for one fixed key, the openings are ideal"
  },
  {
   "property": "C98",
   "status": "proved",
   "theorems": [
    "Props.C98_mode",
    "Props.C98_load",
    "Props.C98_key",
    "Props.C98_tests",
    "Props.C98_synthesis"
   ],
   "note": "argument as in C97; loading under the simple floor planner"
  },
  {
   "property": "C99",
   "status": "proved",
   "theorems": [
    "Props.C99_gadget",
    "Props.C99_sponge",
    "Props.C99_hash",
    "Props.C99_permute",
    "Props.C99_pasta",
    "Props.C99_pasta_permute",
    "Props.C99_key",
    "Props.C99_witness",
    "Props.C99_septidon"
   ],
   "note": "argument as in C97; the root of unity and delta of Pallas are those of pasta_curves, checked to generate the right groups; the surrounding circuit of C99_gadget/C99_sponge writes to the chip's columns only below its rows"
  },
  {
   "property": "C100",
   "status": "proved",
   "theorems": [
    "Props.C100_lookup",
    "Props.C100_mpt",
    "Props.C100_message",
    "Props.C100_host",
    "Props.C100_code"
   ],
   "note": "argument as in C97; the circuits with requests and messages are models of users of the crate, not of code in the repository"
  },
  {
   "property": "C101",
   "status": "proved",
   "theorems": [
    "Props.C101_extract",
    "Props.C101_sound",
    "Props.C101_complete",
    "Props.C101_first"
   ],
   "note": "trusted model of KZG and SHPLONK as published (halo2 is not in the repository); provers know the polynomials behind their commitments; groups are vector spaces over the scalar field with a bilinear map"
  },
  {
   "property": "C102",
   "status": "proved",
   "theorems": [
    "Props.C102_extract",
    "Props.C102_sound",
    "Props.C102_complete",
    "Props.C102_apart",
    "Props.C102_table",
    "Props.C102_host"
   ],
   "note": "argument as in C97, commitments and openings as in C101; interactive; the random polynomial of the vanishing argument is left out; the circuit with requests is a model of a user of the crate"
  },
  {
   "property": "C103",
   "status": "proved",
   "theorems": [
    "Props.C103_oracle",
    "Props.C103_extract",
    "Props.C103_complete",
    "Props.C103_shows",
    "Props.C103_breaks",
    "Props.C103_table",
    "Props.C103_host",
    "Props.C103_code",
    "Props.C103_tests",
    "Props.C103_numbers"
   ],
   "note": "argument as in C97, commitments and openings as in C101; the hash of the transcript is a random oracle; players know polynomials behind their commitments; that the secret cannot be found as a root is left as a condition"
  },
  {
   "property": "C104",
   "status": "proved",
   "theorems": [
    "Props.C104_random",
    "Props.C104_guess",
    "Props.C104_numbers",
    "Props.C104_needed"
   ],
   "note": "the permutation is ideal, as in C83; an adversary may not evaluate the calls it makes (no simulator, so not indifferentiability)"
  },
  {
   "property": "C105",
   "status": "proved",
   "theorems": [
    "Props.C105_hiding",
    "Props.C105_any",
    "Props.C105_opening",
    "Props.C105_rest",
    "Props.C105_needed",
    "Props.C105_tests"
   ],
   "note": "the commitments to the pieces of the quotient are not blinded by rows of their own and are not claimed to hide anything; challenges are fixed before"
  },
  {
   "property": "C106",
   "status": "proved",
   "theorems": [
    "Props.C106_indifferentiable",
    "Props.C106_steps",
    "Props.C106_numbers",
    "Props.C106_wanted",
    "Props.C106_oracle",
    "Props.C106_needed"
   ],
   "note": "about the modes of use with an ideal permutation, not about the Poseidon permutation; the simulator is a function of the table of questions, its running time is not modelled"
  },
  {
   "property": "C107",
   "status": "proved",
   "theorems": [
    "Props.C107_capacity",
    "Props.C107_collision",
    "Props.C107_controls",
    "Props.C107_table",
    "Props.C107_needed"
   ],
   "note": "about the modes of use with an ideal permutation, not about the Poseidon permutation"
  },
  {
   "property": "C108",
   "status": "proved",
   "theorems": [
    "Props.C108_nodes",
    "Props.C108_bind",
    "Props.C108_depth",
    "Props.C108_right",
    "Props.C108_paths",
    "Props.C108_complete",
    "Props.C108_forged",
    "Props.C108_prover",
    "Props.C108_host"
   ],
   "note": "the circuit that looks up paths is not in the repository; the host circuit is the one of C93"
  },
  {
   "property": "C109",
   "status": "proved",
   "theorems": [
    "Props.C109_root",
    "Props.C109_bind",
    "Props.C109_path",
    "Props.C109_member",
    "Props.C109_absent",
    "Props.C109_complete",
    "Props.C109_table",
    "Props.C109_host"
   ],
   "note": "tries and the circuit that looks up paths are not in the repository, only the hash and the table they use"
  },
  {
   "property": "C110",
   "status": "proved",
   "theorems": [
    "Props.C110_trie",
    "Props.C110_numbers"
   ],
   "note": "about the mode of use with an ideal permutation, not about the Poseidon permutation; tries are not in the repository"
  },
  {
   "property": "C111",
   "status": "proved",
   "theorems": [
    "Props.C111_changes",
    "Props.C111_unique",
    "Props.C111_set",
    "Props.C111_complete",
    "Props.C111_table",
    "Props.C111_prover",
    "Props.C111_ideal"
   ],
   "note": "tries and the circuit that looks up paths are not in the repository, only the hash and the table they use"
  },
  {
   "property": "C112",
   "status": "proved",
   "theorems": [
    "Props.C112_proves",
    "Props.C112_bytes",
    "Props.C112_table",
    "Props.C112_two",
    "Props.C112_complete",
    "Props.C112_valid",
    "Props.C112_ideal"
   ],
   "note": "the packing of bytes into words is done by the users of the crate; it is modelled from spec/hash-table.md. The frequency is for a random permutation in place of Poseidon's"
  },
  {
   "property": "C113",
   "status": "proved",
   "theorems": [
    "Props.C113_constant",
    "Props.C113_same_length",
    "Props.C113_iden3",
    "Props.C113_pasta",
    "Props.C113_gadget"
   ],
   "note": ""
  },
  {
   "property": "C114",
   "status": "proved",
   "theorems": [
    "Props.C114_collision",
    "Props.C114_preimage",
    "Props.C114_evaluated",
    "Props.C114_pasta"
   ],
   "note": "a random permutation takes the place of Poseidon's; the width is RATE + 1, as in all instances of the gadget"
  },
  {
   "property": "C115",
   "status": "proved",
   "theorems": [
    "Props.C115_columns",
    "Props.C115_proofs",
    "Props.C115_two",
    "Props.C115_commitments"
   ],
   "note": "the packing of bytes and the columns with the lookups belong to the users of the crate; assumptions on the proof system as in C95, C100 and C103"
  },
  {
   "property": "C116",
   "status": "proved",
   "theorems": [
    "Props.C116_path",
    "Props.C116_bind",
    "Props.C116_proofs",
    "Props.C116_two",
    "Props.C116_member",
    "Props.C116_member_proofs"
   ],
   "note": "the tree belongs to the users of the gadget; the sides are fixed for the circuit; assumptions on the proof system as in C95"
  }
 ]
}