{
 "claims": [
  {
   "property": "C01",
   "status": "proved",
   "theorems": [
    "Peyl.C01_mul",
    "Peyl.C01_group_laws",
    "Peyl.C01_mul_error"
   ],
   "note": ""
  },
  {
   "property": "C02",
   "status": "proved",
   "theorems": [
    "Peyl.C02_is_permutation"
   ],
   "note": ""
  },
  {
   "property": "C03",
   "status": "proved",
   "theorems": [
    "Peyl.C03_from_cox",
    "Peyl.C03_shortlex",
    "Peyl.C03_length"
   ],
   "note": ""
  },
  {
   "property": "C04",
   "status": "proved",
   "theorems": [
    "Peyl.C04_shortlex_least"
   ],
   "note": ""
  },
  {
   "property": "C05",
   "status": "proved",
   "theorems": [
    "Peyl.C05_descents",
    "Peyl.C05_descent_tests"
   ],
   "note": ""
  },
  {
   "property": "C06",
   "status": "proved",
   "theorems": [
    "Peyl.C06_disjoint_cycles",
    "Peyl.C06_decomp_unique",
    "Peyl.C06_cycle_type"
   ],
   "note": ""
  },
  {
   "property": "C07",
   "status": "proved",
   "theorems": [
    "Peyl.C07_parity",
    "Peyl.C07_parity_mul"
   ],
   "note": ""
  },
  {
   "property": "C08",
   "status": "partial",
   "theorems": [
    "Peyl.C08_from_cycle_partial",
    "Peyl.C08_from_cycle_short",
    "Peyl.C08_from_cycles_never"
   ],
   "note": "from_cycle is proved correct for n-cycles only: the code indexes modulo n instead of the cycle length, so shorter cycles raise IndexError (refuted in Lean); from_cycles never returns on a non-empty list."
  },
  {
   "property": "C09",
   "status": "proved",
   "theorems": [
    "Peyl.C09_pop_independent",
    "Peyl.C09_renorm_entry"
   ],
   "note": ""
  },
  {
   "property": "C10",
   "status": "proved",
   "theorems": [
    "Peyl.C10_from_perm_seq",
    "Peyl.C10_lift_spec",
    "Peyl.C10_from_perm"
   ],
   "note": "n>=2; for n=1 the identity and D coincide."
  },
  {
   "property": "C11",
   "status": "proved",
   "theorems": [
    "Peyl.C11_mul",
    "Peyl.C11_mul_error"
   ],
   "note": "n>=2; for n=1 the identity and D coincide."
  },
  {
   "property": "C12",
   "status": "proved",
   "theorems": [
    "Peyl.C12_inv"
   ],
   "note": ""
  },
  {
   "property": "C13",
   "status": "proved",
   "theorems": [
    "Peyl.C13_pow",
    "Peyl.C13_pow_recurrence"
   ],
   "note": ""
  },
  {
   "property": "C14",
   "status": "proved",
   "theorems": [
    "Peyl.C14_artin_word",
    "Peyl.C14_from_artin_word",
    "Peyl.C14_magma",
    "Peyl.C14_artin_word_form",
    "Peyl.C14_word_length",
    "Peyl.C14_magma_form"
   ],
   "note": ""
  },
  {
   "property": "C15",
   "status": "proved",
   "theorems": [
    "Peyl.C15_unique",
    "Peyl.C15_word_problem",
    "Peyl.C15_surjective"
   ],
   "note": ""
  },
  {
   "property": "C16",
   "status": "proved",
   "theorems": [
    "Peyl.C16_all_of_length",
    "Peyl.C16_following"
   ],
   "note": ""
  },
  {
   "property": "C17",
   "status": "proved",
   "theorems": [
    "Peyl.C17_sample"
   ],
   "note": "n>=3, as the property says: for n=2 there is no proper factor and choice([]) raises."
  },
  {
   "property": "C18",
   "status": "proved",
   "theorems": [
    "Peyl.C18_descendants",
    "Peyl.C18_suffixes",
    "Peyl.C18_substring",
    "Peyl.C18_cut"
   ],
   "note": "nf_suffixes keeps self.power, so the suffix statement is for x of power 0, as the property says."
  },
  {
   "property": "C19",
   "status": "proved",
   "theorems": [
    "Peyl.C19_positive_lift",
    "Peyl.C19_roundtrip",
    "Peyl.C19_from_gnf_pair",
    "Peyl.C19_from_gnf_pair_normal"
   ],
   "note": ""
  },
  {
   "property": "C20",
   "status": "proved",
   "theorems": [
    "Peyl.C20_inf_sup",
    "Peyl.C20_inv"
   ],
   "note": ""
  },
  {
   "property": "C21",
   "status": "proved",
   "theorems": [
    "Peyl.C21_constructor",
    "Peyl.C21_out_of_range_accepted",
    "Peyl.C21_size_guard"
   ],
   "note": "Indices in range; C21_out_of_range_accepted shows the constructor does not check the range of a single factor."
  },
  {
   "property": "C22",
   "status": "proved",
   "theorems": [
    "Peyl.C22_gens",
    "Peyl.C22_gens_two_strands",
    "Peyl.C22_artin_gens"
   ],
   "note": "n=2 raises AssertionError in the code (C22_gens_two_strands)."
  },
  {
   "property": "C23",
   "status": "proved",
   "theorems": [
    "Peyl.C23_conjugation"
   ],
   "note": ""
  },
  {
   "property": "C24",
   "status": "proved",
   "theorems": [
    "Peyl.C24_gnf",
    "Peyl.C24_dgnf",
    "Peyl.C24_injective",
    "Peyl.C24_bad_prefix",
    "Peyl.C24_validated"
   ],
   "note": "text as characters (ASCII); literal_eval modelled on integers and tuples; CPython's limit on the number of digits of an int literal is not modelled"
  },
  {
   "property": "C25",
   "status": "proved",
   "theorems": [
    "Peyl.C25_is_parallel_descending",
    "Peyl.C25_to_permutation",
    "Peyl.C25_from_permutation",
    "Peyl.C25_components",
    "Peyl.C25_edges",
    "Peyl.C25_from_components",
    "Peyl.C25_partitions"
   ],
   "note": ""
  },
  {
   "property": "C26",
   "status": "proved",
   "theorems": [
    "Peyl.C26_complements",
    "Peyl.C26_rotation",
    "Peyl.C26_double"
   ],
   "note": ""
  },
  {
   "property": "C27",
   "status": "proved",
   "theorems": [
    "Peyl.C27_all_of_size",
    "Peyl.C27_catalan",
    "Peyl.C27_extremes"
   ],
   "note": ""
  },
  {
   "property": "C28",
   "status": "proved",
   "theorems": [
    "Peyl.C28_from_npar_seq",
    "Peyl.C28_lift_spec",
    "Peyl.C28_mul",
    "Peyl.C28_mul_error",
    "Peyl.C28_inv",
    "Peyl.C28_pow",
    "Peyl.C28_from_artin_word",
    "Peyl.C28_artin_word"
   ],
   "note": "every table size guard and every pop choice"
  },
  {
   "property": "C29",
   "status": "proved",
   "theorems": [
    "Peyl.C29_unique",
    "Peyl.C29_word_problem",
    "Peyl.C29_to_GNF",
    "Peyl.C29_to_DGNF"
   ],
   "note": ""
  },
  {
   "property": "C30",
   "status": "proved",
   "theorems": [
    "Peyl.C30_bkl_gen",
    "Peyl.C30_relations",
    "Peyl.C30_component",
    "Peyl.C30_npar_word"
   ],
   "note": ""
  },
  {
   "property": "C31",
   "status": "proved",
   "theorems": [
    "Peyl.C31_lpoly_trimmed",
    "Peyl.C31_lpoly_canonical",
    "Peyl.C31_lpoly_unique_rep"
   ],
   "note": ""
  },
  {
   "property": "C32",
   "status": "proved",
   "theorems": [
    "Peyl.C32_lpoly_arithmetic",
    "Peyl.C32_lpoly_ring_laws"
   ],
   "note": ""
  },
  {
   "property": "C33",
   "status": "proved",
   "theorems": [
    "Peyl.C33_lpoly_pow",
    "Peyl.C33_lpoly_pow_neg"
   ],
   "note": ""
  },
  {
   "property": "C34",
   "status": "proved",
   "theorems": [
    "Peyl.C34_lpoly_evaluate_unit",
    "Peyl.C34_lpoly_evaluate_hom",
    "Peyl.C34_lpoly_evaluate_nonneg",
    "Peyl.C34_lpoly_evaluate_error"
   ],
   "note": "The object returned for the zero polynomial is the int 0 in Python; the model returns the zero object."
  },
  {
   "property": "C35",
   "status": "proved",
   "theorems": [
    "Peyl.C35_quantum_integer"
   ],
   "note": ""
  },
  {
   "property": "C36",
   "status": "proved",
   "theorems": [
    "Peyl.C36_divmod",
    "Peyl.C36_divmod_monic",
    "Peyl.C36_truediv"
   ],
   "note": ""
  },
  {
   "property": "C37",
   "status": "proved",
   "theorems": [
    "Peyl.C37_poly_arithmetic",
    "Peyl.C37_poly_canonical"
   ],
   "note": "Same simplification for evaluate of 0 as in C34."
  },
  {
   "property": "C38",
   "status": "proved",
   "theorems": [
    "Peyl.C38_cyclotomic",
    "Peyl.C38_cyclotomic_error"
   ],
   "note": ""
  },
  {
   "property": "C39",
   "status": "proved",
   "theorems": [
    "Peyl.C39_chebyshev",
    "Peyl.C39_chebyshev_error"
   ],
   "note": ""
  },
  {
   "property": "C40",
   "status": "proved",
   "theorems": [
    "Peyl.C40_minpolycos"
   ],
   "note": "Uses the real-number minimal polynomial from Mathlib."
  },
  {
   "property": "C41",
   "status": "proved",
   "theorems": [
    "Peyl.C41_lpoly_truediv"
   ],
   "note": ""
  },
  {
   "property": "C42",
   "status": "proved",
   "theorems": [
    "Peyl.C42_matrix_mul",
    "Peyl.C42_matrix_assoc",
    "Peyl.C42_matrix_identity",
    "Peyl.C42_matrix_pow",
    "Peyl.C42_matrix_ops",
    "Peyl.C42_matrix_rows",
    "Peyl.C42_indices_entries"
   ],
   "note": ""
  },
  {
   "property": "C43",
   "status": "partial",
   "theorems": [
    "Peyl.C43_is_symmetric_always_true",
    "Peyl.C43_is_symmetric_refuted",
    "Peyl.C43_row_column_partial",
    "Peyl.C43_row_refuted"
   ],
   "note": "The code violates the property: is_symmetric answers True for every matrix and row(i) raises for ncols<=i<nrows (both proved); column and row for i<ncols are proved correct."
  },
  {
   "property": "C44",
   "status": "proved",
   "theorems": [
    "Peyl.C44_reduction_commutes",
    "Peyl.C44_reduction_pow",
    "Peyl.C44_reduction_sound"
   ],
   "note": ""
  },
  {
   "property": "C45",
   "status": "proved",
   "theorems": [
    "Peyl.C45_is_crossingless_matching",
    "Peyl.C45_in_words"
   ],
   "note": ""
  },
  {
   "property": "C46",
   "status": "proved",
   "theorems": [
    "Peyl.C46_generate_sequences",
    "Peyl.C46_rejects",
    "Peyl.C46_tl_basis"
   ],
   "note": ""
  },
  {
   "property": "C47",
   "status": "proved",
   "theorems": [
    "Peyl.C47_compose",
    "Peyl.C47_compose_rejects",
    "Peyl.C47_mul"
   ],
   "note": ""
  },
  {
   "property": "C48",
   "status": "proved",
   "theorems": [
    "Peyl.C48_unit",
    "Peyl.C48_e_squared",
    "Peyl.C48_e_neighbours",
    "Peyl.C48_e_commute",
    "Peyl.C48_e_rejects",
    "Peyl.C48_closed"
   ],
   "note": ""
  },
  {
   "property": "C49",
   "status": "partial",
   "theorems": [
    "Peyl.C49_refuted",
    "Peyl.C49_mul_partial",
    "Peyl.C49_mul_any_partial"
   ],
   "note": "The documented order is false: x*y puts y on top of x (C49_refuted). Proved: the product never raises on compatible types, bubbles add up, and for (n,n) diagrams it is the stacking in the opposite order."
  },
  {
   "property": "C50",
   "status": "partial",
   "theorems": [
    "Peyl.C50_refuted",
    "Peyl.C50_flip_partial",
    "Peyl.C50_flip_diagram",
    "Peyl.C50_flip_twice"
   ],
   "note": "The flag twist_v is ignored: coefficients are inverted for twist_v=False as well (C50_refuted). Proved for twist_v=True, and flipping twice is the identity for any flags."
  },
  {
   "property": "C51",
   "status": "proved",
   "theorems": [
    "Peyl.C51_cell_basis",
    "Peyl.C51_tableaux_basis",
    "Peyl.C51_empty"
   ],
   "note": ""
  },
  {
   "property": "C52",
   "status": "proved",
   "theorems": [
    "Peyl.C52_relations",
    "Peyl.C52_rejects",
    "Peyl.C52_tl_gens_invs",
    "Peyl.C52_cell_matrix",
    "Peyl.C52_evaluate",
    "Peyl.C52_tl_basis"
   ],
   "note": ""
  },
  {
   "property": "C53",
   "status": "proved",
   "theorems": [
    "Peyl.C53_realises",
    "Peyl.C53_word",
    "Peyl.C53_well_defined",
    "Peyl.C53_evaluate",
    "Peyl.C53_multiplicative",
    "Peyl.C53_id"
   ],
   "note": "For every representation whose generator matrices satisfy the Artin relations (RepBase.Relations); instances are supplied separately."
  },
  {
   "property": "C54",
   "status": "proved",
   "theorems": [
    "Peyl.C54_full_twist",
    "Peyl.C54_hypotheses",
    "Peyl.C54_symmetric_table",
    "Peyl.C54_same_length"
   ],
   "note": ""
  },
  {
   "property": "C55",
   "status": "proved",
   "theorems": [
    "Peyl.C55_image_unique",
    "Peyl.C55_same_length",
    "Peyl.C55_single",
    "Peyl.C55_integers",
    "Peyl.C55_symmetric_table",
    "Peyl.C55_braid_factors",
    "Peyl.C55_search_same_length",
    "Peyl.C55_search_prefixes",
    "Peyl.C55_search_evaluate_braids",
    "Peyl.C55_id"
   ],
   "note": "Garside (GNF) braids; for every representation satisfying the Artin relations whose full twist is scalar."
  },
  {
   "property": "C56",
   "status": "partial",
   "theorems": [
    "Peyl.C56_relations_partial",
    "Peyl.C56_inverses_refuted"
   ],
   "note": "Braid relations and invertibility of the generators proved for all n and units q, t; the returned inverses are the generators themselves, so the inverse half is false (C56_inverses_refuted)."
  },
  {
   "property": "C57",
   "status": "proved",
   "theorems": [
    "Peyl.C57_mul",
    "Peyl.C57_mul_quotdeg",
    "Peyl.C57_mul_error"
   ],
   "note": ""
  },
  {
   "property": "C58",
   "status": "proved",
   "theorems": [
    "Peyl.C58_projectivise",
    "Peyl.C58_projectivise_total",
    "Peyl.C58_idempotent",
    "Peyl.C58_canonical"
   ],
   "note": ""
  },
  {
   "property": "C59",
   "status": "partial",
   "theorems": [
    "Peyl.C59_degrees_partial",
    "Peyl.C59_shift_invariant",
    "Peyl.C59_nz_terms",
    "Peyl.C59_eye",
    "Peyl.C59_projlen_zero_refuted"
   ],
   "note": "Everything is proved except \"zero if A==0\": for a zero matrix projlen returns the number of degree slices (C59_projlen_zero_refuted), contradicting the doc string."
  },
  {
   "property": "C60",
   "status": "proved",
   "theorems": [
    "Peyl.C60_trim",
    "Peyl.C60_trim_left",
    "Peyl.C60_pack",
    "Peyl.C60_zeropad",
    "Peyl.C60_concatenate"
   ],
   "note": ""
  },
  {
   "property": "C61",
   "status": "proved",
   "theorems": [
    "Peyl.C61_to_matrix",
    "Peyl.C61_from_matrix",
    "Peyl.C61_from_matrix_negative",
    "Peyl.C61_roundtrip"
   ],
   "note": "from_matrix returns None for matrices mixing ints and Laurent polynomials (modelled as an error); the round trip is for to_matrix output and homogeneous matrices."
  },
  {
   "property": "C62",
   "status": "proved",
   "theorems": [
    "Peyl.C62_fixed_width"
   ],
   "note": "Wrapping arithmetic is modelled as two's complement of width w (model of numpy int32/int64)."
  },
  {
   "property": "C63",
   "status": "proved",
   "theorems": [
    "Peyl.C63_search_capacity",
    "Peyl.C63_search_no_error",
    "Peyl.C63_capacity",
    "Peyl.C63_errors",
    "Peyl.C63_no_error",
    "Peyl.C63_zero_image"
   ],
   "note": "bucketing.Tracker; histories of add_braids_images/discard_bucket, any random generator; the same for the exported braidsearch.Tracker in C63_search_*"
  },
  {
   "property": "C64",
   "status": "proved",
   "theorems": [
    "Peyl.C64_search_contents",
    "Peyl.C64_contents",
    "Peyl.C64_buckets",
    "Peyl.C64_widths"
   ],
   "note": "bucketing.Tracker; the same for the exported braidsearch.Tracker in C64_search_*"
  },
  {
   "property": "C65",
   "status": "proved",
   "theorems": [
    "Peyl.C65_search_counters",
    "Peyl.C65_counters"
   ],
   "note": "bucketing.Tracker; the same for the exported braidsearch.Tracker in C65_search_*"
  },
  {
   "property": "C66",
   "status": "proved",
   "theorems": [
    "Peyl.C66_evict_min"
   ],
   "note": "weights are exact rationals in the model, floats in the code"
  },
  {
   "property": "C67",
   "status": "proved",
   "theorems": [
    "Peyl.C67_search_first",
    "Peyl.C67_greedy_first"
   ],
   "note": "the same for the exported braidsearch.Tracker in C67_search_*"
  },
  {
   "property": "C68",
   "status": "proved",
   "theorems": [
    "Peyl.C68_uniform",
    "Peyl.C68_outcomes",
    "Peyl.C68_sample",
    "Peyl.C68_item"
   ],
   "note": "exported braidsearch.Tracker, any history of batches and discards over several buckets; the random source is a tape whose entries are uniform on 0..L-1 with L divisible by every k that occurs, so that `randint(1,k)` is exactly uniform and independent; C68_sample gives the joint law of the content, C68_item the chance of one braid; bucketing.Tracker's Uniform reservoir is C130"
  },
  {
   "property": "C69",
   "status": "proved",
   "theorems": [
    "Peyl.C69_tracker_descendants",
    "Peyl.C69_tracker_descendants_dual",
    "Peyl.C69_descendants",
    "Peyl.C69_one_factor"
   ],
   "note": "exported braidsearch.Tracker, braids of Δ-power 0; the representation is any one satisfying the Artin relations whose full twist is scalar"
  },
  {
   "property": "C70",
   "status": "proved",
   "theorems": [
    "Peyl.C70_tracker_history",
    "Peyl.C70_braids_images",
    "Peyl.C70_tracker_bootstrap",
    "Peyl.C70_tracker_total",
    "Peyl.C70_tracker_history_dual",
    "Peyl.C70_tracker_bootstrap_dual",
    "Peyl.C70_validate_none",
    "Peyl.C70_validate_widths",
    "Peyl.C70_validate_broadcast",
    "Peyl.C70_validate_some",
    "Peyl.C70_jones_setup",
    "Peyl.C70_stored_images",
    "Peyl.C70_bootstrap",
    "Peyl.C70_search_history"
   ],
   "note": "exported braidsearch.Tracker; valiate_buckets itself raises TypeError there (wrong signature), soundness is stated directly"
  },
  {
   "property": "C71",
   "status": "proved",
   "theorems": [
    "Peyl.C71_selection",
    "Peyl.C71_order_irrelevant"
   ],
   "note": ""
  },
  {
   "property": "C72",
   "status": "proved",
   "theorems": [
    "Peyl.C72_round",
    "Peyl.C72_projlen_one",
    "Peyl.C72_loop",
    "Peyl.C72_main",
    "Peyl.C72_lengths"
   ],
   "note": "argument parsing, printing, timing and SQLite itself are not modelled; database rows are an output list"
  },
  {
   "property": "C73",
   "status": "proved",
   "theorems": [
    "Peyl.C73_batched",
    "Peyl.C73_batched_error"
   ],
   "note": ""
  },
  {
   "property": "C74",
   "status": "proved",
   "theorems": [
    "Peyl.C74_hash_bucket",
    "Peyl.C74_missing"
   ],
   "note": "hash is an arbitrary function"
  },
  {
   "property": "C75",
   "status": "proved",
   "theorems": [
    "Peyl.C75_defined",
    "Peyl.C75_braid",
    "Peyl.C75_commute",
    "Peyl.C75_det"
   ],
   "note": ""
  },
  {
   "property": "C76",
   "status": "proved",
   "theorems": [
    "Peyl.C76_pop_independent",
    "Peyl.C76_renorm_entry",
    "Peyl.C76_small",
    "Peyl.C76_size_guard"
   ],
   "note": ""
  },
  {
   "property": "C77",
   "status": "proved",
   "theorems": [
    "Peyl.C77_constructor"
   ],
   "note": "out-of-range single factors are not checked by the code (see C21)"
  },
  {
   "property": "C78",
   "status": "proved",
   "theorems": [
    "Peyl.C78_all_of_length",
    "Peyl.C78_sample",
    "Peyl.C78_descendants",
    "Peyl.C78_suffixes",
    "Peyl.C78_substring"
   ],
   "note": ""
  },
  {
   "property": "C79",
   "status": "proved",
   "theorems": [
    "Peyl.C79_inf_sup"
   ],
   "note": ""
  },
  {
   "property": "C80",
   "status": "proved",
   "theorems": [
    "Peyl.C80_bkl_gens",
    "Peyl.C80_group_bkl_gens",
    "Peyl.C80_two_strands",
    "Peyl.C80_from_npar",
    "Peyl.C80_artin_gens"
   ],
   "note": ""
  },
  {
   "property": "C81",
   "status": "proved",
   "theorems": [
    "Peyl.C81_conjugation"
   ],
   "note": ""
  },
  {
   "property": "C82",
   "status": "proved",
   "theorems": [
    "Peyl.C82_complete",
    "Peyl.C82_run",
    "Peyl.C82_jones"
   ],
   "note": "near-kernel = power of v times a constant matrix; strictness k < bucket size is needed because a repeated offer to a full bucket can evict a braid; search.py after argument parsing"
  },
  {
   "property": "C83",
   "status": "proved",
   "theorems": [
    "Peyl.C83_diagrams",
    "Peyl.C83_morphisms",
    "Peyl.C83_product",
    "Peyl.C83_ext"
   ],
   "note": ""
  },
  {
   "property": "C84",
   "status": "proved",
   "theorems": [
    "Peyl.C84_trace_count",
    "Peyl.C84_trace",
    "Peyl.C84_cyclic",
    "Peyl.C84_linear",
    "Peyl.C84_values"
   ],
   "note": ""
  },
  {
   "property": "C85",
   "status": "proved",
   "theorems": [
    "Peyl.C85_hcomp",
    "Peyl.C85_monoid",
    "Peyl.C85_id",
    "Peyl.C85_interchange",
    "Peyl.C85_trace",
    "Peyl.C85_ext"
   ],
   "note": ""
  },
  {
   "property": "C86",
   "status": "proved",
   "theorems": [
    "Peyl.C86_bilinear",
    "Peyl.C86_sub",
    "Peyl.C86_pow",
    "Peyl.C86_pow_rejects"
   ],
   "note": ""
  },
  {
   "property": "C87",
   "status": "proved",
   "theorems": [
    "Peyl.C87_homomorphism",
    "Peyl.C87_id",
    "Peyl.C87_trace_formula",
    "Peyl.C87_rejects"
   ],
   "note": ""
  },
  {
   "property": "C88",
   "status": "partial",
   "theorems": [
    "Peyl.C88_refuted",
    "Peyl.C88_cells_partial"
   ],
   "note": "Refuted for every n in Lean (C88_refuted): the list stops at r = n//2 - 1 and leaves out TLCell(n, n//2). Proved: the list is exactly the cell modules with r < n//2."
  },
  {
   "property": "C89",
   "status": "proved",
   "theorems": [
    "Peyl.C89_diagrams",
    "Peyl.C89_morphisms",
    "Peyl.C89_trace"
   ],
   "note": ""
  },
  {
   "property": "C90",
   "status": "partial",
   "theorems": [
    "Peyl.C90_evaluate",
    "Peyl.C90_conversion",
    "Peyl.C90_same_length_partial",
    "Peyl.C90_bulk_conversion",
    "Peyl.C90_permutation",
    "Peyl.C90_npar",
    "Peyl.C90_integers",
    "Peyl.C90_refuted"
   ],
   "note": "Refuted in Lean for pure powers of δ (C90_refuted): bulk evaluation of DGNF δ^2 in B_3 over F_2 returns a coefficient 2, not reduced mod p. Proved: everything else; equality modulo p in all cases."
  },
  {
   "property": "C91",
   "status": "proved",
   "theorems": [
    "Peyl.C91_delta_power",
    "Peyl.C91_full_twist"
   ],
   "note": ""
  },
  {
   "property": "C92",
   "status": "proved",
   "theorems": [
    "Peyl.C92_read",
    "Peyl.C92_injective"
   ],
   "note": ""
  },
  {
   "property": "C93",
   "status": "partial",
   "theorems": [
    "Peyl.C93_read_partial",
    "Peyl.C93_injective_partial",
    "Peyl.C93_refuted"
   ],
   "note": "Refuted in Lean (C93_refuted): Poly([2]) and Poly([1]) print alike, because a nonzero constant term always prints as 1. Proved: reading back gives the polynomial with its constant term replaced by its sign; faithful when the constant term is -1, 0 or 1."
  },
  {
   "property": "C94",
   "status": "proved",
   "theorems": [
    "Peyl.C94_canonical",
    "Peyl.C94_repr",
    "Peyl.C94_injective"
   ],
   "note": ""
  },
  {
   "property": "C95",
   "status": "proved",
   "theorems": [
    "Peyl.C95_bucket_product",
    "Peyl.C95_missing"
   ],
   "note": ""
  },
  {
   "property": "C96",
   "status": "proved",
   "theorems": [
    "Peyl.C96_substrings"
   ],
   "note": ""
  },
  {
   "property": "C97",
   "status": "proved",
   "theorems": [
    "Peyl.C97_sound",
    "Peyl.C97_no_error"
   ],
   "note": ""
  },
  {
   "property": "C98",
   "status": "proved",
   "theorems": [
    "Peyl.C98_sample_images",
    "Peyl.C98_sample_reaches",
    "Peyl.C98_sample_none",
    "Peyl.C98_sample_upto",
    "Peyl.C98_sample_upto_empty"
   ],
   "note": ""
  },
  {
   "property": "C99",
   "status": "proved",
   "theorems": [
    "Peyl.C99_below_1",
    "Peyl.C99_zero",
    "Peyl.C99_near_kernel"
   ],
   "note": ""
  },
  {
   "property": "C100",
   "status": "proved",
   "theorems": [
    "Peyl.C100_tracker_stats",
    "Peyl.C100_tracker_bucket_stats_missing",
    "Peyl.C100_tracker_bucket_stats",
    "Peyl.C100_tracker_bucket_stats_dual",
    "Peyl.C100_bucket_stats",
    "Peyl.C100_bucket_stats_missing",
    "Peyl.C100_stats",
    "Peyl.C100_stats_reservoir"
   ],
   "note": ""
  },
  {
   "property": "C101",
   "status": "partial",
   "theorems": [
    "Peyl.C101_empty_partial",
    "Peyl.C101_refuted"
   ],
   "note": "The claim is false of the code: for any tracker with a bucket valiate_buckets raises AttributeError (self.p does not exist); C101_refuted proves this, C101_empty_partial proves the claim for empty trackers."
  },
  {
   "property": "C102",
   "status": "proved",
   "theorems": [
    "Peyl.C102_list",
    "Peyl.C102_tensor",
    "Peyl.C102_mismatch"
   ],
   "note": ""
  },
  {
   "property": "C103",
   "status": "partial",
   "theorems": [
    "Peyl.C103_all_partial",
    "Peyl.C103_count",
    "Peyl.C103_power_refuted"
   ],
   "note": "Proved for power 0; false for other powers: the power argument is ignored (C103_power_refuted)."
  },
  {
   "property": "C104",
   "status": "partial",
   "theorems": [
    "Peyl.C104_word_partial",
    "Peyl.C104_evaluate_partial",
    "Peyl.C104_negative_refuted",
    "Peyl.C104_jones_refuted",
    "Peyl.C104_npar_partial"
   ],
   "note": "Proved when the generator and inverse matrices have no negative powers of v; otherwise the method raises ValueError for every word (C104_negative_refuted), in particular for JonesCellRep(n, r) with r>=1 (C104_jones_refuted)."
  },
  {
   "property": "C105",
   "status": "proved",
   "theorems": [
    "Peyl.C105_exists",
    "Peyl.C105_full_twist",
    "Peyl.C105_same_length",
    "Peyl.C105_single",
    "Peyl.C105_integers"
   ],
   "note": ""
  },
  {
   "property": "C106",
   "status": "partial",
   "theorems": [
    "Peyl.C106_word_unsigned",
    "Peyl.C106_word_partial",
    "Peyl.C106_permutation",
    "Peyl.C106_evaluate_scalar",
    "Peyl.C106_evaluate_partial",
    "Peyl.C106_evaluate_refuted",
    "Peyl.C106_word_refuted",
    "Peyl.C106_dual_refuted"
   ],
   "note": "Proved for permutations, words without negative exponents and GNFs with Δ-power >= 0; false otherwise: LKBRep passes the generators as inverses, so signs are ignored (C106_word_refuted, C106_evaluate_refuted, C106_dual_refuted)."
  },
  {
   "property": "C107",
   "status": "proved",
   "theorems": [
    "Peyl.C107_exists",
    "Peyl.C107_trace",
    "Peyl.C107_conj",
    "Peyl.C107_free",
    "Peyl.C107_stab",
    "Peyl.C107_skein",
    "Peyl.C107_unknot",
    "Peyl.C107_value",
    "Peyl.C107_invariant",
    "Peyl.C107_trefoil"
   ],
   "note": ""
  },
  {
   "property": "C108",
   "status": "proved",
   "theorems": [
    "Peyl.C108_statements",
    "Peyl.C108_crash",
    "Peyl.C108_crash_unique",
    "Peyl.C108_schedule",
    "Peyl.C108_durable",
    "Peyl.C108_restart",
    "Peyl.C108_any_run",
    "Peyl.C108_saved_before_failure",
    "Peyl.C108_no_stale_lock",
    "Peyl.C108_text"
   ],
   "note": ""
  },
  {
   "property": "C109",
   "status": "proved",
   "theorems": [
    "Peyl.C109_basis",
    "Peyl.C109_odd",
    "Peyl.C109_pairs"
   ],
   "note": ""
  },
  {
   "property": "C110",
   "status": "proved",
   "theorems": [
    "Peyl.C110_latex",
    "Peyl.C110_injective"
   ],
   "note": ""
  },
  {
   "property": "C111",
   "status": "proved",
   "theorems": [
    "Peyl.C111_latex",
    "Peyl.C111_injective"
   ],
   "note": ""
  },
  {
   "property": "C112",
   "status": "proved",
   "theorems": [
    "Peyl.C112_latex",
    "Peyl.C112_repr",
    "Peyl.C112_read",
    "Peyl.C112_injective"
   ],
   "note": ""
  },
  {
   "property": "C113",
   "status": "proved",
   "theorems": [
    "Peyl.C113_repr",
    "Peyl.C113_latex",
    "Peyl.C113_injective"
   ],
   "note": ""
  },
  {
   "property": "C114",
   "status": "proved",
   "theorems": [
    "Peyl.C114_repr",
    "Peyl.C114_injective",
    "Peyl.C114_latex",
    "Peyl.C114_str_empty"
   ],
   "note": "`str` does not show the number of columns of a matrix without rows (C114_str_empty), which the property does not claim."
  },
  {
   "property": "C115",
   "status": "proved",
   "theorems": [
    "Peyl.C115_arcs",
    "Peyl.C115_dots",
    "Peyl.C115_frame",
    "Peyl.C115_faithful"
   ],
   "note": "Coordinates are real numbers instead of floats; the text made by the library `svg` is not modelled."
  },
  {
   "property": "C116",
   "status": "partial",
   "theorems": [
    "Peyl.C116_through_partial",
    "Peyl.C116_apart_partial",
    "Peyl.C116_cup_cap_partial",
    "Peyl.C116_concentric_partial",
    "Peyl.C116_refuted"
   ],
   "note": "Refuted for the code (C116_refuted: the diagram with 12 dots on each side and all arcs nested; the frame has a fixed height of 35 and long arcs rise to nearly 18.75). Proved for every diagram: two through strands never meet (C116_through_partial), curves side by side never meet (C116_apart_partial), a bottom arc and a top arc spanning at most 9 steps never meet (C116_cup_cap_partial), arcs with the same middle on one side never meet (C116_concentric_partial). Missing: a through strand and an arc, and nested arcs with different middles, where the claim is also expected to fail for large diagrams."
  },
  {
   "property": "C117",
   "status": "proved",
   "theorems": [
    "Peyl.C117_gnf",
    "Peyl.C117_dgnf",
    "Peyl.C117_not_uniform"
   ],
   "note": "C117_not_uniform shows that the stronger reading (uniform on normal forms) is false; the code does not claim it."
  },
  {
   "property": "C118",
   "status": "proved",
   "theorems": [
    "Peyl.C118_table",
    "Peyl.C118_heading",
    "Peyl.C118_matrix",
    "Peyl.C118_faithful",
    "Peyl.C118_row"
   ],
   "note": "`</td>` (for boxes `</div>`) must not occur in the texts put in; other tags may."
  },
  {
   "property": "C119",
   "status": "partial",
   "theorems": [
    "Peyl.C119_int_partial",
    "Peyl.C119_refuted"
   ],
   "note": "Holds for integers (C119_int_partial); false for Laurent polynomials (C119_refuted), because of the code."
  },
  {
   "property": "C120",
   "status": "proved",
   "theorems": [
    "Peyl.C120_terms",
    "Peyl.C120_faithful"
   ],
   "note": "The text made by the library `svg` is a parameter."
  },
  {
   "property": "C121",
   "status": "partial",
   "theorems": [
    "Peyl.C121_refuted",
    "Peyl.C121_trivial_partial",
    "Peyl.C121_terms_partial",
    "Peyl.C121_quotient_partial"
   ],
   "note": "False for every r ≥ 1 (C121_refuted): AssertionError. True for r = 0 (C121_trivial_partial). C121_terms_partial says what the method does for morphisms with n lower points, C121_quotient_partial that `mor.quotient(n - 2r)` is the projection."
  },
  {
   "property": "C122",
   "status": "proved",
   "theorems": [
    "Peyl.C122_near_kernel",
    "Peyl.C122_projlen",
    "Peyl.C122_search",
    "Peyl.C122_unfaithful"
   ],
   "note": "C122_near_kernel is the statement about the homomorphism, C122_projlen about `projlen`, C122_search about the output of search.py, C122_unfaithful the consequence for faithfulness."
  },
  {
   "property": "C123",
   "status": "proved",
   "theorems": [
    "Peyl.C123_five_strands",
    "Peyl.C123_four_strands",
    "Peyl.C123_documented"
   ],
   "note": "C123_documented is (a), C123_five_strands and C123_four_strands are (b). n = 4 with other moduli (in particular p = 0) is an open problem; n ≤ 3 is C124."
  },
  {
   "property": "C124",
   "status": "proved",
   "theorems": [
    "Peyl.C124_projlen",
    "Peyl.C124_faithful",
    "Peyl.C124_search"
   ],
   "note": "C124_projlen, C124_faithful, C124_search. Together with C123 this settles faithfulness of JonesCellRep(n, 1, p) except for n = 4 and moduli with a prime factor above 5 or p = 0."
  },
  {
   "property": "C125",
   "status": "partial",
   "theorems": [
    "Peyl.C125_init",
    "Peyl.C125_repr",
    "Peyl.C125_dimension_partial",
    "Peyl.C125_negative_r_refuted",
    "Peyl.C125_negative_r_matrices_refuted",
    "Peyl.C125_summand_trivial_refuted",
    "Peyl.C125_dimensions_agree"
   ],
   "note": "C125_init, C125_repr, C125_dimension_partial (r >= 0), C125_dimensions_agree (r >= 1). Missing because false of the code: a negative r is accepted and then neither the dimension nor the matrices can be computed (C125_negative_r_refuted, C125_negative_r_matrices_refuted); JonesSummand(n, 0, p).dimension() raises ValueError (C125_summand_trivial_refuted)."
  },
  {
   "property": "C126",
   "status": "partial",
   "theorems": [
    "Peyl.C126_trivial",
    "Peyl.C126_scalar",
    "Peyl.C126_power",
    "Peyl.C126_four_two_refuted",
    "Peyl.C126_search_refuted"
   ],
   "note": "C126_trivial (r = 0), C122_projlen (r = 1), for every r: C126_scalar, C126_power (some power of the braid times a power of the Garside element is in the kernel). Missing because false of the code: the claim itself for r = 2 (C126_four_two_refuted: JonesCellRep(4, 2, p), every p; C126_search_refuted: search.py 4 2 p announces such a braid)."
  },
  {
   "property": "C127",
   "status": "proved",
   "theorems": [
    "Peyl.C127_matrices",
    "Peyl.C127_burau_generator"
   ],
   "note": "C127_matrices, C127_burau_generator (the two implementations return equal matrix objects)"
  },
  {
   "property": "C128",
   "status": "proved",
   "theorems": [
    "Peyl.C128_product",
    "Peyl.C128_matrices",
    "Peyl.C128_words"
   ],
   "note": "C128_product (all braids), C128_matrices, C128_words"
  },
  {
   "property": "C129",
   "status": "proved",
   "theorems": [
    "Peyl.C129_half_twist",
    "Peyl.C129_near_kernel",
    "Peyl.C129_documented"
   ],
   "note": "All n, p, k and braids. The identity braid is excluded in the second theorem because `evaluate` returns integer entries for the empty word (covered by the first theorem, k = 0)."
  },
  {
   "property": "C130",
   "status": "proved",
   "theorems": [
    "Peyl.C130_uniform_sample",
    "Peyl.C130_uniform_item",
    "Peyl.C130_last_favoured"
   ],
   "note": "All histories. Draws are modelled as independent and uniform (the property of random.Random that the code relies on); exact rationals replace the float division K/N."
  },
  {
   "property": "C131",
   "status": "partial",
   "theorems": [
    "Peyl.C131_capacity_one_partial",
    "Peyl.C131_own_weight_partial",
    "Peyl.C131_light_favoured"
   ],
   "note": "Proved: for capacity 1 the chance is w/W up to N/M; for every capacity, raising the weight of one offer in an otherwise equal history does not lower its chance. Refuted for capacity K >= 2 between items of one history (C131_light_favoured): the code accepts with w/W instead of K*w/W, so a heavier item offered to a full bucket is kept less often than each lighter one offered before."
  },
  {
   "property": "C132",
   "status": "partial",
   "theorems": [
    "Peyl.C132_rep_partial",
    "Peyl.C132_gens_refuted",
    "Peyl.C132_search_partial",
    "Peyl.C132_factors_refuted"
   ],
   "note": "Proved for every program that does not write into the arrays of polymat_artin_gens_invs() (RepBase), and for every program that writes only into results of the bulk evaluators and of evaluate_braid_factors of braids that are not powers of Delta (braidsearch). Refuted for the rest: C132_gens_refuted, C132_factors_refuted."
  },
  {
   "property": "C133",
   "status": "proved",
   "theorems": [
    "Peyl.C133_elements",
    "Peyl.C133_generators",
    "Peyl.C133_reflections"
   ],
   "note": ""
  },
  {
   "property": "C134",
   "status": "proved",
   "theorems": [
    "Peyl.C134_vectors",
    "Peyl.C134_coordinate",
    "Peyl.C134_scalar_product",
    "Peyl.C134_is_square",
    "Peyl.C134_getitem"
   ],
   "note": ""
  },
  {
   "property": "C135",
   "status": "partial",
   "theorems": [
    "Peyl.C135_mod_p_dual",
    "Peyl.C135_integers_dual",
    "Peyl.C135_mod_p",
    "Peyl.C135_search_mod_p",
    "Peyl.C135_search_refuted",
    "Peyl.C135_integers",
    "Peyl.C135_search_integers",
    "Peyl.C135_wraps",
    "Peyl.C135_refuted",
    "Peyl.C135_lkb_mod_p",
    "Peyl.C135_lkb_integers"
   ],
   "note": "The unrestricted claim is false of the code: C135_refuted (p = 0, (s1 s2^-1)^49 on three strands: a wrong image without error) and C135_search_refuted (JonesSummand(2, 1, 65537): symmetric_table raises). Proved below the stated bounds for all braids, and modulo 2^64 without a bound. The theorems C135_lkb_mod_p and C135_lkb_integers cover LKBRep."
  },
  {
   "property": "C136",
   "status": "proved",
   "theorems": [
    "Peyl.C136_history",
    "Peyl.C136_main",
    "Peyl.C136_search",
    "Peyl.C136_integers"
   ],
   "note": "The bound is explicit; beyond it C135_search_refuted shows that the code does fail."
  },
  {
   "property": "C137",
   "status": "proved",
   "theorems": [
    "Peyl.C137_mod_p",
    "Peyl.C137_integers",
    "Peyl.C137_sound_mod_p",
    "Peyl.C137_sound_integers",
    "Peyl.C137_mod_p_dual",
    "Peyl.C137_integers_dual",
    "Peyl.C137_sound_mod_p_dual",
    "Peyl.C137_sound_integers_dual"
   ],
   "note": "For GNF and DGNF and the Jones cell representations; other representations are not covered."
  },
  {
   "property": "C138",
   "status": "proved",
   "theorems": [
    "Peyl.C138_history",
    "Peyl.C138_bootstrap",
    "Peyl.C138_machine_mod_p",
    "Peyl.C138_machine_integers",
    "Peyl.C138_setup"
   ],
   "note": "For GNF. For DGNF the words of the factors contain inverse letters, which LKBRep evaluates wrongly (C56, C106)."
  },
  {
   "property": "C139",
   "status": "partial",
   "theorems": [
    "Peyl.C139_paste",
    "Peyl.C139_line_unique",
    "Peyl.C139_run",
    "Peyl.C139_separators",
    "Peyl.C139_boot_refuted"
   ],
   "note": "Proved except for the number in \"Bootstrapping up to Garside length L (k braids)\", which is the number of braids of length exactly L (C139_boot_refuted). Tables printed by pandas and measured times are not modelled."
  },
  {
   "property": "C140",
   "status": "partial",
   "theorems": [
    "Peyl.C140_accepts",
    "Peyl.C140_runs_partial",
    "Peyl.C140_seven_refuted",
    "Peyl.C140_trivial_refuted",
    "Peyl.C140_one_refuted",
    "Peyl.C140_bucket_refuted",
    "Peyl.C140_no_bootstrap"
   ],
   "note": "Proved for 3 <= n <= 6, r >= 1, p >= 2 (prime or not), bucket size >= 1 and for bootstrap length 0; refuted for the other accepted arguments: n = 7 (ValueError of the table), r = 0 (ValueError of math.comb), p = 1 (assertion of projectivise), bucket size 0 (IndexError)."
  },
  {
   "property": "C141",
   "status": "proved",
   "theorems": [
    "Peyl.C141_main",
    "Peyl.C141_report",
    "Peyl.C141_program",
    "Peyl.C141_database"
   ],
   "note": ""
  },
  {
   "property": "C142",
   "status": "proved",
   "theorems": [
    "Peyl.C142_operators",
    "Peyl.C142_classes",
    "Peyl.C142_gnf_order",
    "Peyl.C142_dgnf_order",
    "Peyl.C142_gnf_sorted",
    "Peyl.C142_dgnf_sorted",
    "Peyl.C142_keys",
    "Peyl.C142_set",
    "Peyl.C142_mixed"
   ],
   "note": ""
  },
  {
   "property": "C143",
   "status": "proved",
   "theorems": [
    "Peyl.C143_evaluations",
    "Peyl.C143_plot",
    "Peyl.C143_from_matrix",
    "Peyl.C143_trajectories"
   ],
   "note": ""
  },
  {
   "property": "C144",
   "status": "proved",
   "theorems": [
    "Peyl.C144_independent",
    "Peyl.C144_growth",
    "Peyl.C144_doubles",
    "Peyl.C144_braids",
    "Peyl.C144_two",
    "Peyl.C144_three",
    "Peyl.C144_four",
    "Peyl.C144_documented",
    "Peyl.C144_dual_independent",
    "Peyl.C144_dual_growth",
    "Peyl.C144_dual_braids",
    "Peyl.C144_dual_three",
    "Peyl.C144_dual_four"
   ],
   "note": ""
  }
 ]
}