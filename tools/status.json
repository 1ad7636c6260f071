{
 "C01": {
  "note": "",
  "status": "proved"
 },
 "C02": {
  "note": "",
  "status": "proved"
 },
 "C03": {
  "note": "",
  "status": "proved"
 },
 "C04": {
  "note": "",
  "status": "proved"
 },
 "C05": {
  "note": "",
  "status": "proved"
 },
 "C06": {
  "note": "",
  "status": "proved"
 },
 "C07": {
  "note": "",
  "status": "proved"
 },
 "C08": {
  "note": "from_cycle is proved correct for n-cycles only: the code indexes modulo n instead of the cycle length, so shorter cycles raise IndexError (refuted in Lean); from_cycles never returns on a non-empty list.",
  "status": "partial"
 },
 "C09": {
  "note": "",
  "status": "proved"
 },
 "C10": {
  "note": "n>=2; for n=1 the identity and D coincide.",
  "status": "proved"
 },
 "C11": {
  "note": "n>=2; for n=1 the identity and D coincide.",
  "status": "proved"
 },
 "C12": {
  "note": "",
  "status": "proved"
 },
 "C13": {
  "note": "",
  "status": "proved"
 },
 "C14": {
  "note": "",
  "status": "proved"
 },
 "C15": {
  "note": "",
  "status": "proved"
 },
 "C16": {
  "note": "",
  "status": "proved"
 },
 "C17": {
  "note": "n>=3, as the property says: for n=2 there is no proper factor and choice([]) raises.",
  "status": "proved"
 },
 "C18": {
  "note": "nf_suffixes keeps self.power, so the suffix statement is for x of power 0, as the property says.",
  "status": "proved"
 },
 "C19": {
  "note": "",
  "status": "proved"
 },
 "C20": {
  "note": "",
  "status": "proved"
 },
 "C21": {
  "note": "Indices in range; C21_out_of_range_accepted shows the constructor does not check the range of a single factor.",
  "status": "proved"
 },
 "C22": {
  "note": "n=2 raises AssertionError in the code (C22_gens_two_strands).",
  "status": "proved"
 },
 "C23": {
  "note": "",
  "status": "proved"
 },
 "C24": {
  "note": "text as characters (ASCII); literal_eval modelled on integers and tuples; CPython's limit on the number of digits of an int literal is not modelled",
  "status": "proved"
 },
 "C25": {
  "note": "",
  "status": "proved"
 },
 "C26": {
  "note": "",
  "status": "proved"
 },
 "C27": {
  "note": "",
  "status": "proved"
 },
 "C28": {
  "note": "every table size guard and every pop choice",
  "status": "proved"
 },
 "C29": {
  "note": "",
  "status": "proved"
 },
 "C30": {
  "note": "",
  "status": "proved"
 },
 "C31": {
  "note": "",
  "status": "proved"
 },
 "C32": {
  "note": "",
  "status": "proved"
 },
 "C33": {
  "note": "",
  "status": "proved"
 },
 "C34": {
  "note": "The object returned for the zero polynomial is the int 0 in Python; the model returns the zero object.",
  "status": "proved"
 },
 "C35": {
  "note": "",
  "status": "proved"
 },
 "C36": {
  "note": "",
  "status": "proved"
 },
 "C37": {
  "note": "Same simplification for evaluate of 0 as in C34.",
  "status": "proved"
 },
 "C38": {
  "note": "",
  "status": "proved"
 },
 "C39": {
  "note": "",
  "status": "proved"
 },
 "C40": {
  "note": "Uses the real-number minimal polynomial from Mathlib.",
  "status": "proved"
 },
 "C41": {
  "note": "",
  "status": "proved"
 },
 "C42": {
  "note": "",
  "status": "proved"
 },
 "C43": {
  "note": "The code violates the property: is_symmetric answers True for every matrix and row(i) raises for ncols<=i<nrows (both proved); column and row for i<ncols are proved correct.",
  "status": "partial"
 },
 "C44": {
  "note": "",
  "status": "proved"
 },
 "C45": {
  "note": "",
  "status": "proved"
 },
 "C46": {
  "note": "",
  "status": "proved"
 },
 "C47": {
  "note": "",
  "status": "proved"
 },
 "C48": {
  "note": "",
  "status": "proved"
 },
 "C49": {
  "note": "The documented order is false: x*y puts y on top of x (C49_refuted). Proved: the product never raises on compatible types, bubbles add up, and for (n,n) diagrams it is the stacking in the opposite order.",
  "status": "partial"
 },
 "C50": {
  "note": "The flag twist_v is ignored: coefficients are inverted for twist_v=False as well (C50_refuted). Proved for twist_v=True, and flipping twice is the identity for any flags.",
  "status": "partial"
 },
 "C51": {
  "note": "",
  "status": "proved"
 },
 "C52": {
  "note": "",
  "status": "proved"
 },
 "C53": {
  "note": "For every representation whose generator matrices satisfy the Artin relations (RepBase.Relations); instances are supplied separately.",
  "status": "proved"
 },
 "C54": {
  "note": "",
  "status": "proved"
 },
 "C55": {
  "note": "Garside (GNF) braids; for every representation satisfying the Artin relations whose full twist is scalar.",
  "status": "proved"
 },
 "C56": {
  "note": "Braid relations and invertibility of the generators proved for all n and units q, t; the returned inverses are the generators themselves, so the inverse half is false (C56_inverses_refuted).",
  "status": "partial"
 },
 "C57": {
  "note": "",
  "status": "proved"
 },
 "C58": {
  "note": "",
  "status": "proved"
 },
 "C59": {
  "note": "Everything is proved except \"zero if A==0\": for a zero matrix projlen returns the number of degree slices (C59_projlen_zero_refuted), contradicting the doc string.",
  "status": "partial"
 },
 "C60": {
  "note": "",
  "status": "proved"
 },
 "C61": {
  "note": "from_matrix returns None for matrices mixing ints and Laurent polynomials (modelled as an error); the round trip is for to_matrix output and homogeneous matrices.",
  "status": "proved"
 },
 "C62": {
  "note": "Wrapping arithmetic is modelled as two's complement of width w (model of numpy int32/int64).",
  "status": "proved"
 },
 "C63": {
  "note": "bucketing.Tracker; histories of add_braids_images/discard_bucket, any random generator; the same for the exported braidsearch.Tracker in C63_search_*",
  "status": "proved"
 },
 "C64": {
  "note": "bucketing.Tracker; the same for the exported braidsearch.Tracker in C64_search_*",
  "status": "proved"
 },
 "C65": {
  "note": "bucketing.Tracker; the same for the exported braidsearch.Tracker in C65_search_*",
  "status": "proved"
 },
 "C66": {
  "note": "weights are exact rationals in the model, floats in the code",
  "status": "proved"
 },
 "C67": {
  "note": "the same for the exported braidsearch.Tracker in C67_search_*",
  "status": "proved"
 },
 "C68": {
  "note": "exported braidsearch.Tracker, any history of batches and discards over several buckets; the random source is a tape whose entries are uniform on 0..L-1 with L divisible by every k that occurs, so that `randint(1,k)` is exactly uniform and independent; C68_sample gives the joint law of the content, C68_item the chance of one braid; bucketing.Tracker's Uniform reservoir is C130",
  "status": "proved"
 },
 "C69": {
  "note": "exported braidsearch.Tracker, braids of Δ-power 0; the representation is any one satisfying the Artin relations whose full twist is scalar",
  "status": "proved"
 },
 "C70": {
  "note": "exported braidsearch.Tracker; valiate_buckets itself raises TypeError there (wrong signature), soundness is stated directly",
  "status": "proved"
 },
 "C71": {
  "note": "",
  "status": "proved"
 },
 "C72": {
  "note": "argument parsing, printing, timing and SQLite itself are not modelled; database rows are an output list",
  "status": "proved"
 },
 "C73": {
  "note": "",
  "status": "proved"
 },
 "C74": {
  "note": "hash is an arbitrary function",
  "status": "proved"
 },
 "C75": {
  "note": "",
  "status": "proved"
 },
 "C76": {
  "note": "",
  "status": "proved"
 },
 "C77": {
  "note": "out-of-range single factors are not checked by the code (see C21)",
  "status": "proved"
 },
 "C78": {
  "note": "",
  "status": "proved"
 },
 "C79": {
  "note": "",
  "status": "proved"
 },
 "C80": {
  "note": "",
  "status": "proved"
 },
 "C81": {
  "note": "",
  "status": "proved"
 },
 "C82": {
  "note": "near-kernel = power of v times a constant matrix; strictness k < bucket size is needed because a repeated offer to a full bucket can evict a braid; search.py after argument parsing",
  "status": "proved"
 },
 "C83": {
  "note": "",
  "status": "proved"
 },
 "C84": {
  "note": "",
  "status": "proved"
 },
 "C85": {
  "note": "",
  "status": "proved"
 },
 "C86": {
  "note": "",
  "status": "proved"
 },
 "C87": {
  "note": "",
  "status": "proved"
 },
 "C88": {
  "note": "Refuted for every n in Lean (C88_refuted): the list stops at r = n//2 - 1 and leaves out TLCell(n, n//2). Proved: the list is exactly the cell modules with r < n//2.",
  "status": "partial"
 },
 "C89": {
  "note": "",
  "status": "proved"
 },
 "C90": {
  "status": "partial",
  "note": "Refuted in Lean for pure powers of δ (C90_refuted): bulk evaluation of DGNF δ^2 in B_3 over F_2 returns a coefficient 2, not reduced mod p. Proved: everything else; equality modulo p in all cases."
 },
 "C91": {
  "status": "proved",
  "note": ""
 },
 "C92": {
  "status": "proved",
  "note": ""
 },
 "C94": {
  "status": "proved",
  "note": ""
 },
 "C93": {
  "status": "partial",
  "note": "Refuted in Lean (C93_refuted): Poly([2]) and Poly([1]) print alike, because a nonzero constant term always prints as 1. Proved: reading back gives the polynomial with its constant term replaced by its sign; faithful when the constant term is -1, 0 or 1."
 },
 "C95": {
  "status": "proved",
  "note": ""
 },
 "C96": {
  "status": "proved",
  "note": ""
 },
 "C97": {
  "status": "proved",
  "note": ""
 },
 "C98": {
  "status": "proved",
  "note": ""
 },
 "C99": {
  "status": "proved",
  "note": ""
 },
 "C100": {
  "status": "proved",
  "note": ""
 },
 "C102": {
  "status": "proved",
  "note": ""
 },
 "C101": {
  "status": "partial",
  "note": "The claim is false of the code: for any tracker with a bucket valiate_buckets raises AttributeError (self.p does not exist); C101_refuted proves this, C101_empty_partial proves the claim for empty trackers."
 },
 "C103": {
  "status": "partial",
  "note": "Proved for power 0; false for other powers: the power argument is ignored (C103_power_refuted)."
 },
 "C104": {
  "status": "partial",
  "note": "Proved when the generator and inverse matrices have no negative powers of v; otherwise the method raises ValueError for every word (C104_negative_refuted), in particular for JonesCellRep(n, r) with r>=1 (C104_jones_refuted)."
 },
 "C105": {
  "status": "proved",
  "note": ""
 },
 "C106": {
  "status": "partial",
  "note": "Proved for permutations, words without negative exponents and GNFs with Δ-power >= 0; false otherwise: LKBRep passes the generators as inverses, so signs are ignored (C106_word_refuted, C106_evaluate_refuted, C106_dual_refuted)."
 },
 "C107": {
  "status": "proved",
  "note": ""
 },
 "C108": {
  "status": "proved",
  "note": ""
 },
 "C109": {
  "status": "proved",
  "note": ""
 },
 "C110": {
  "status": "proved",
  "note": ""
 },
 "C111": {
  "status": "proved",
  "note": ""
 },
 "C112": {
  "status": "proved",
  "note": ""
 },
 "C113": {
  "status": "proved",
  "note": ""
 },
 "C114": {
  "status": "proved",
  "note": "`str` does not show the number of columns of a matrix without rows (C114_str_empty), which the property does not claim."
 },
 "C115": {
  "status": "proved",
  "note": "Coordinates are real numbers instead of floats; the text made by the library `svg` is not modelled."
 },
 "C116": {
  "status": "partial",
  "note": "Refuted for the code (C116_refuted: the diagram with 12 dots on each side and all arcs nested; the frame has a fixed height of 35 and long arcs rise to nearly 18.75). Proved for every diagram: two through strands never meet (C116_through_partial), curves side by side never meet (C116_apart_partial), a bottom arc and a top arc spanning at most 9 steps never meet (C116_cup_cap_partial), arcs with the same middle on one side never meet (C116_concentric_partial). Missing: a through strand and an arc, and nested arcs with different middles, where the claim is also expected to fail for large diagrams."
 },
 "C117": {
  "status": "proved",
  "note": "C117_not_uniform shows that the stronger reading (uniform on normal forms) is false; the code does not claim it."
 },
 "C118": {
  "status": "proved",
  "note": "`</td>` (for boxes `</div>`) must not occur in the texts put in; other tags may."
 },
 "C119": {
  "status": "partial",
  "note": "Holds for integers (C119_int_partial); false for Laurent polynomials (C119_refuted), because of the code."
 },
 "C120": {
  "status": "proved",
  "note": "The text made by the library `svg` is a parameter."
 },
 "C121": {
  "status": "partial",
  "note": "False for every r ≥ 1 (C121_refuted): AssertionError. True for r = 0 (C121_trivial_partial). C121_terms_partial says what the method does for morphisms with n lower points, C121_quotient_partial that `mor.quotient(n - 2r)` is the projection."
 },
 "C122": {
  "status": "proved",
  "note": "C122_near_kernel is the statement about the homomorphism, C122_projlen about `projlen`, C122_search about the output of search.py, C122_unfaithful the consequence for faithfulness."
 },
 "C123": {
  "status": "proved",
  "note": "C123_documented is (a), C123_five_strands and C123_four_strands are (b). n = 4 with other moduli (in particular p = 0) is an open problem; n ≤ 3 is C124."
 },
 "C124": {
  "status": "proved",
  "note": "C124_projlen, C124_faithful, C124_search. Together with C123 this settles faithfulness of JonesCellRep(n, 1, p) except for n = 4 and moduli with a prime factor above 5 or p = 0."
 },
 "C125": {
  "status": "partial",
  "note": "C125_init, C125_repr, C125_dimension_partial (r >= 0), C125_dimensions_agree (r >= 1). Missing because false of the code: a negative r is accepted and then neither the dimension nor the matrices can be computed (C125_negative_r_refuted, C125_negative_r_matrices_refuted); JonesSummand(n, 0, p).dimension() raises ValueError (C125_summand_trivial_refuted)."
 },
 "C126": {
  "status": "partial",
  "note": "C126_trivial (r = 0), C122_projlen (r = 1), for every r: C126_scalar, C126_power (some power of the braid times a power of the Garside element is in the kernel). Missing because false of the code: the claim itself for r = 2 (C126_four_two_refuted: JonesCellRep(4, 2, p), every p; C126_search_refuted: search.py 4 2 p announces such a braid)."
 },
 "C127": {
  "status": "proved",
  "note": "C127_matrices, C127_burau_generator (the two implementations return equal matrix objects)"
 },
 "C128": {
  "status": "proved",
  "note": "C128_product (all braids), C128_matrices, C128_words"
 },
 "C129": {
  "status": "proved",
  "note": "All n, p, k and braids. The identity braid is excluded in the second theorem because `evaluate` returns integer entries for the empty word (covered by the first theorem, k = 0)."
 },
 "C130": {
  "status": "proved",
  "note": "All histories. Draws are modelled as independent and uniform (the property of random.Random that the code relies on); exact rationals replace the float division K/N."
 },
 "C131": {
  "status": "partial",
  "note": "Proved: for capacity 1 the chance is w/W up to N/M; for every capacity, raising the weight of one offer in an otherwise equal history does not lower its chance. Refuted for capacity K >= 2 between items of one history (C131_light_favoured): the code accepts with w/W instead of K*w/W, so a heavier item offered to a full bucket is kept less often than each lighter one offered before."
 },
 "C132": {
  "status": "partial",
  "note": "Proved for every program that does not write into the arrays of polymat_artin_gens_invs() (RepBase), and for every program that writes only into results of the bulk evaluators and of evaluate_braid_factors of braids that are not powers of Delta (braidsearch). Refuted for the rest: C132_gens_refuted, C132_factors_refuted."
 },
 "C133": {
  "status": "proved",
  "note": ""
 },
 "C134": {
  "status": "proved",
  "note": ""
 },
 "C135": {
  "status": "partial",
  "note": "The unrestricted claim is false of the code: C135_refuted (p = 0, (s1 s2^-1)^49 on three strands: a wrong image without error) and C135_search_refuted (JonesSummand(2, 1, 65537): symmetric_table raises). Proved below the stated bounds for all braids, and modulo 2^64 without a bound. The theorems C135_lkb_mod_p and C135_lkb_integers cover LKBRep."
 },
 "C136": {
  "status": "proved",
  "note": "The bound is explicit; beyond it C135_search_refuted shows that the code does fail."
 },
 "C137": {
  "status": "proved",
  "note": "For GNF and DGNF and the Jones cell representations; other representations are not covered."
 },
 "C138": {
  "status": "proved",
  "note": "For GNF. For DGNF the words of the factors contain inverse letters, which LKBRep evaluates wrongly (C56, C106)."
 },
 "C139": {
  "status": "partial",
  "note": "Proved except for the number in \"Bootstrapping up to Garside length L (k braids)\", which is the number of braids of length exactly L (C139_boot_refuted). Tables printed by pandas and measured times are not modelled."
 },
 "C140": {
  "status": "partial",
  "note": "Proved for 3 <= n <= 6, r >= 1, p >= 2 (prime or not), bucket size >= 1 and for bootstrap length 0; refuted for the other accepted arguments: n = 7 (ValueError of the table), r = 0 (ValueError of math.comb), p = 1 (assertion of projectivise), bucket size 0 (IndexError)."
 },
 "C141": {
  "status": "proved",
  "note": ""
 },
 "C142": {
  "status": "proved",
  "note": ""
 },
 "C143": {
  "status": "proved",
  "note": ""
 },
 "C144": {
  "status": "proved",
  "note": ""
 }
}