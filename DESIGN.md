# Formal model of geordw/braids-project in Lean 4

Nothing in /repo was executed; the model was written by reading the Python source. The tie between model and
code is the citation (file, lines) carried by every definition of `lean/Verif/Model/*`.

## 1. Trusted base

* The Lean 4.33 kernel, and Mathlib (as installed) as a library of definitions (`PresentedGroup`, `Polynomial`,
  `LaurentPolynomial`, `Matrix`, `Equiv.Perm`, `Polynomial.cyclotomic`, `Polynomial.Chebyshev.T`, `minpoly`).
* Axioms: each theorem depends on a subset of `propext`, `Classical.choice`, `Quot.sound`. No axiom is added, no
  proof is left open, no `native_decide`/`bv_decide`; where `decide` occurs it is for concrete examples and for
  finite side conditions, and is checked by the kernel.
* The specifications in `lean/Verif/Spec/*` say what they should (they are short: Artin's presentation, inversion sets,
  noncrossing matchings, denotations in Mathlib's rings, histories of operations).
* The hand transcription: that each definition in `Verif/Model` computes what the cited Python lines compute.

## 2. Idealisations of the Python runtime

| Python | Model | Consequence |
|---|---|---|
| unbounded `int` | `Int`/`Nat` | exact |
| numpy integer arrays | exact integers, arrays as functions on finite index types with explicit degree axis | C62 separately proves that two's-complement `int32`/`int64` arithmetic gives the same residues while the stated bound on p holds |
| tuples, lists | `List` | exact |
| dictionaries | association lists in insertion order, or functions for pure look-up tables | exact for the operations used |
| `set`, `set.pop`, `frozenset` iteration | a list plus an arbitrary choice/order oracle; theorems quantify over it | C09, C28: results do not depend on it |
| `random`, `np.random` | an arbitrary generator `Rng S` (or a tape of draws in C68) | theorems hold for every outcome; C68 counts tapes |
| exceptions, failed `assert` | `Except.error` with a tag (`assertion`, `index`, `value`, `type`, `zeroDiv`, ...) or `none` | a theorem saying `= .ok _` says that nothing is raised |
| recursion/`while` | structural recursion, or fuel that is proved sufficient | termination is part of the theorems |
| `functools.cache`, memo dicts | values in the functional models; the aliasing of cached arrays is modelled by a heap in C132 (`RepBase`, `braidsearch`); the suffix cache of `bucketing.Tracker` and the table caches are modelled | C70 includes cache correctness, C132 the effect of in-place writes |
| floats (weights, probabilities) | rationals / ordered values | rounding not modelled (C66, C67) |
| `np.argsort` | an arbitrary function returning a permutation of the indices | theorems hold for every such function |
| `heapq` | the list of entries with the minimum popped | exact for observable results |
| `ast.literal_eval` | a parser for integers and (nested) tuples of integers in ASCII | the CPython 4300-digit limit is not modelled (C24) |
| `hash` | an arbitrary function | C74 |
| numpy broadcasting in `==` | as in numpy 1.26 for the shapes that occur (equal, or one side of length 1) | see finding 31 |

## 3. Layout

* `Verif/Model/*`  executable model, one file (or two) per Python module.
* `Verif/Spec/*`   short independent specifications.
* `Verif/Lemmas/*` helper lemmas and the mathematics (Garside theory of germs, Temperley-Lieb diagram calculus, ...).
* `Verif/Props/*`  the property theorems `Cnn_*`, each followed or preceded by `example`s showing that a concrete,
  non-trivial case meets the hypotheses.
* `tools/props.py` writes `properties.jsonl`; `tools/manifest.py` writes `MANIFEST.json` from theorem names and
  `tools/status.json`; `tools/mutate.py` runs seeded bugs in a scratch copy (`seeded/LOG.jsonl`);
  `tools/design_cov.py` writes section 6.

## 4. What is modelled for each property and how it is proved

| Properties | What is modelled | How it is proved |
|---|---|---|
| C01, C02 | `is_permutation`, `mul`, `inv`, `id` on words `List Nat` | bridge to `Equiv.Perm (Fin n)` |
| C03, C04 | `shortlex` loop | loop invariant; exchange condition for minimality among all words |
| C05 | `is_left/right_descent`, descent sets, `length` | inversion sets |
| C06, C07, C08 | `disjoint_cycles`, `parity`, `from_cycle(s)` | loop invariant over visited set; sign homomorphism. C08 partial: the code is wrong for short cycles (finding 1) |
| C09-C13, C15, C20, C21, C23 | `NFTable`, `PermTable.create`, `NFBase`, `GNF` on index lists | an abstract Garside germ (partial products, confluent "move" rewriting), Newman's lemma, Δ-cancellation, then an action of Artin's presented group on normal forms for uniqueness; table entries related to permutations by an indexing lemma |
| C14, C19, C22 | `from_artin_word`, `artin_word`, positive lifts, `BraidGroup.gens` | the above plus reduced-word lifts |
| C16, C17, C18 | `all_of_garside_length`, `count_...`, `sample`, `nf_suffixes` | path counting in the follow graph |
| C24 | `adapt_braid`, `convert_braid` on characters with a literal parser | print/parse induction |
| C25-C27, C76 | `noncrossing.py` (`NPar`, `NParTable.create`) | noncrossing partitions as blocks; correspondence with geodesic permutations; lattice meet |
| C28-C30, C77-C81 | `DGNF`, BKL generators, conversions | the same germ theory instantiated with noncrossing partitions (dual Garside structure), and an isomorphism with Artin's group |
| C31-C37, C41 | `lpoly.py`, `poly.py` | denotation in `LaurentPolynomial ℤ`, `Polynomial ℤ`; injective on trimmed representations |
| C38-C40 | `cyclotomic`, `chebyshevT`, `minpolycos` | against Mathlib's `Polynomial.cyclotomic`, `Chebyshev.T`, and `minpoly ℚ (2cos(2π/n))` |
| C42-C44 | `matrix.py` with mixed int/LPoly entries | denotation in Mathlib matrices. C43 partial (finding 4) |
| C45-C51 | `tl.py` diagrams | noncrossing-matching spec; path-following with fuel shown sufficient; explicit formula for `e_i * diagram`. C49, C50 partial (findings 5, 6) |
| C52-C55 | `jonesrep.py`, `braidsearch.py` evaluators | operators on the span of the cell basis, then matrices; full twist scalar by a central-element computation |
| C56 | `LKBRep` | relations by casework on pairs; partial (finding 13) |
| C57-C62 | `polymat.py` | arrays as functions on finite index types; denotation as polynomial matrices. C59 partial (finding 8) |
| C63-C67, C73, C74 | `bucketing.py`, `braidsearch.Tracker` as state machines with random oracle | invariants by induction over operation lists |
| C68 | uniform reservoir of braidsearch.Tracker: joint law of the content of a bucket, for any history of batches and discards | expectation over tapes, one offer at a time; the draws of other buckets are integrated out; the ideal sampler of C130 |
| C69, C70 | descendant generation, bootstrap and validation of both trackers | an invariant "every stored slot is the projectivised true image", with the suffix-product lemma |
| C71, C72, C82 | `search.py` selection and round logic, exhaustive search | list induction; induction over rounds |
| C75 | `BurauRep` | matrix computations on entries |
| C83-C89 | `TLDiag`, `TLExtDiag`, `TLMor`, `TLCell` | joining of matchings as graph components: associativity, trace = number of closed loops, interchange law, linear category, cell modules. C88 partial (finding 7) |
| C90-C91 | `evaluate*` on DGNF, `δ^n` | images of dual normal forms by induction on factors through the artin words of noncrossing partitions; C90 partial (finding 9); δ^n = Δ² by the conversion theorem C76 |
| C92-C94 | `__repr__`/LaTeX printing, `canonical_decomposition` | printers modelled character by character; an independent reader (`Spec/Display.lean`) recovers the value, hence injectivity. C93 partial (finding 3) |
| C95-C97 | `braidsearch.Tracker.bucket_product`, `substrings`, all histories | each operation is a run of additions of true batches (`Reach`), so soundness follows from the run invariant; induction over histories (`Spec/TrackerHistory.lean`) |
| C98-C102 | sampling with images, `all_of_length_below_1`, `stats`/`bucket_stats` of both trackers, `valiate_buckets`, data frames | enumeration and evaluation theorems combined over batches; per-bucket invariants of histories; C101 partial (finding 33) |
| C103 | `BraidGroup` wrappers | enumeration theorem; partial (finding 34) |
| C104 | `polymat_evaluate_artin_word`, `polymat_evaluate` | loop invariant over the word, products of polynomial matrices; partial (finding 18) |
| C105-C106 | `LKBRep` with the evaluators of `RepBase` | Krammer's forms: Δ² acts by t²q^{2n} (sum over forks), the bulk evaluators never read the wrong inverses; `evaluate` is compared with the sign-forgetting word; C106 partial (finding 36) |
| C107 | `JonesCellRep(n, r, p).evaluate_artin_word` for all cells, `tl_gens_invs`, `TLMor.trace` | the word is the image of a product in the Temperley–Lieb algebra; trace formula (C87); closing a diagram with one more strand through `e` at the last two strands (two-colourings of diagrams); Markov moves as an inductive relation; value of the trefoil as a check |
| C108 | `search.py` 59-162 as a trace of database statements; SQLite by its documented transaction semantics (trusted) | trace equals the rounds of `Search.main` (C72); invariant on every schedule: each process is between or inside its transactions; exact count for one process; C72 gives the truth of rows |
| C109 | `TLMor.basis`, `support`, `pairs`, `__rmul__` | coefficient function of a sum; C46 for the diagrams; extensionality of well-formed morphisms |
| C110 | `Permutation._repr_latex_`; independent reader of texts (Spec/Printing) | reading back joined text; C03 for the word |
| C111 | `GNF._repr_latex_`, `str.strip`, `str.join` | C94 for the decomposition, Matsumoto (lift of a reduced word), C15 for injectivity |
| C112 | `NPar.__repr__` (set order an arbitrary permutation), `NPar._repr_latex_` | C25 for components and uniqueness |
| C113 | `DGNF.__repr__`, `DGNF._repr_latex_` | C112 with padding; C29 for injectivity |
| C114 | `Matrix.__repr__`, `__str__`, `_repr_latex_` | characters of printed entries; cutting joined text; C92 for entries |
| C115 | `draw_svg`: the Bézier curves of the path, real coordinates | loop invariant (drawn = partner already visited); convexity of Bézier curves; counting ends on each edge |
| C116 | as C115 | positive: monotone heights, intervals, bounds on exp; refuted by explicit intersection |
| C117 | `NFTable.sample` as a function of the draws | counting the favourable sequences of draws, induction on the length; C16 for extensions |
| C118 | `show.py`, text as lists of characters, an object by the texts of its display methods | an HTML reader (Spec/Show) run on the text, induction on rows and cells; C92 for entries |
| C119 | as C118 | C118; refuted by a 1 × 1 matrix of Laurent polynomials |
| C120 | `TLMor._repr_html_` with the text of an SVG picture left open | an HTML reader run on the text; C92 and C115 for faithfulness |
| C121 | `TLCell.project_vector` | refuted for every r ≥ 1 (the wrong side is compared); what it does instead; C51 and the specification of `quotient` |
| C122 | `JonesCellRep(n, 1, p)`, `polymat.projlen`, `search.main` | the cell representation is conjugate to a permutation of the reduced Burau representation; the half twist acts by a monomial anti-diagonal matrix; a constant matrix commuting with all generators up to the flip is scalar ± v^k, and the determinant gives the power |
| C123 | `JonesCellRep.evaluate`, `from_gnf_pair`, `polymat.projlen`; the elements in Verif/Spec/KernelElements.lean | the action of a word on coefficient lists is computed in the kernel (`decide +kernel`) and proved equal to the Burau matrix for every number of strands; nontriviality by uniqueness of normal forms, and for (b) by the action on sequences of transpositions of five letters; b in the kernel mod q gives b^(q^k) mod q^(k+1), commutators combine different primes |
| C124 | `JonesCellRep(3, 1, p)`, `evaluate`, `polymat.projlen`, `search.main` | induction over the canonical factors: the largest degree occurs in the column of the last letter with a unit coefficient, the smallest one in the other column; left-weightedness makes each factor widen the spread by two |
| C125 | constructors on arbitrary integers, `__repr__` as a character list, `dimension` with `math.comb` raising for negative arguments | case analysis; the decimal text of an integer followed by a non-digit determines it; monotonicity of binomial coefficients below the middle |
| C126 | `JonesCellRep(n, r, p)` for all r, `evaluate`, `polymat.projlen`, `search.main` | at v = 1 the representation factors through the symmetric group, so a suitable power of a projlen 1 braid acts by a power of v, and so does the full twist; for (4, 2) the matrices are computed: σ1σ2σ1 acts by v^3 times a swap, the Garside element by v^6 |
| C127 | `cell_matrices(n, 1)` through the sorted cell basis, `artin_gens_invs`, `burau_generator_v2` | the one-cup diagrams in lexicographic order, the action of e_i on them, canonical Laurent polynomials |
| C128 | the data of `MagmaCheck.m` (generated, Spec/MagmaData.lean), `magma_artin_word`, `evaluate` | C127 makes the literal matrices a homomorphism; C14_magma_form gives the exact words, compared with the data by kernel computation; C123 gives the kernel |
| C129 | As C122, C123 and C127; the entries of the matrix are given by `garsideEntry` (Spec/Burau) | The half twist intertwines the generators, so it acts by a multiple of the flip; its square is the full twist, and specialising v = -1 fixes the sign. The determinant gives the exponent sum, hence the power; entries of `evaluate` are trimmed Laurent polynomials in range, so they are determined by their values |
| C130 | The tracker of C63-C67, run with a generator that reads its draws from a tape; the chance of an event is the number of favourable tapes over the number of tapes (Spec/ReservoirChance) | The average over tapes satisfies the recursion of the process that accepts with chance #{k : k/M <= K/(i+1)}/M; changing each acceptance chance by at most 1/M changes every event by at most 1/M for each offer; the process with exact acceptance chances is Algorithm R, by induction on the offers |
| C131 | As C130 | The exact chance of an item is its acceptance chance times the chances to survive the later offers; for capacity 1 the product telescopes to w/W, and both factors are monotone in the item's own weight. For capacity K >= 2 the claim fails |
| C132 | A heap of arrays with addresses, the caches as maps from arguments to addresses, and each evaluation function rewritten to read and allocate arrays (Model/Heap, Model/HeapSearch) | Invariant: every cached address holds the value that the pure model computes, and no result address that the program may write is cached; preserved by calls and by writes |
| C133 | `permutations.py` functions behind `SymmetricGroup` | Membership and absence of repetitions from the comprehension; transpositions are conjugate in the symmetric group (Mathlib); counting by a sum |
| C134 | `matrix.py` | The specification of the product (C42) applied to vectors; lists of entries by index |
| C135 | `MachineEval.lean`: every evaluator again, with w-bit integers (stores raise, sums and products wrap) | Widths of the factor images from the Jones matrices bound the sums modulo p; over the integers every product of m generators has coefficients at most 2^m; for arbitrary braids the machine computes modulo 2^64 (ring homomorphism, uniqueness of projectivised images); an explicit braid whose exact image does not fit; for LKBRep the column sums of a generator are at most 5 and its exponents span at most abs(deg t) + n abs(deg q) |
| C136 | `MachineTracker.lean`: the tracker operations and main with w-bit integers | Invariant of the states: entries of stored images at most p - 1, widths as in the tag; widths of prefix images bound all sums; equality of the two programs step by step, then C82; for p = 0 the braid of every intermediate product is, up to full twists, a positive word of at most 62 letters, which bounds its entries |
| C137 | `MachineBucket.lean`: the tracker of bucketing.py with w-bit integers | Invariant of C70 (stored and cached images are exact); a braid of k factors is a positive word of length at most k n(n-1)/2, so its image is Small, which bounds widths (mod p) and entries (p = 0) of every product; then C70. For DGNF a factor is a product of at most n-1 band generators, each a signed word of at most 2n-3 letters, and the matrices of inverse generators are Small up to a power of v |
| C138 | `Bucketing.lean`, `MachineBucket.lean`, `LKB.lean`: the tracker with LKBRep | The words of the GNF table are positive, so evaluation never reads the inverses and C70 applies to the generators with their true inverses; sizes of generators (column sums at most 5, exponents spanning at most abs(deg t) + n abs(deg q)) bound 64-bit intermediate results |
| C139 | `SearchText.lean`: the lines printed by `search.py` (not the pandas tables and times) and Python's reading of ints, tuples and lists | printer/parser round trip by induction on the text; text of the loop related to the results of C72 by induction over rounds; the count of C16. The bootstrapping count is refuted (finding 47) |
| C140 | `SearchProgram.lean`: `search.py` from the parsed arguments on | C72 applied to the Jones representations of C54, table size guard, C125; for p = 1 every product is zero (induction-free: first evaluation). Refuted for n = 7, r = 0, p = 1 and bucket size 0 (finding 48) |
| C141 | the models of C72, C139, C140 with the traversal orders as parameters | the table does not depend on set.pop (C09); by induction over rounds the states of the two runs are equal: the selection is sorted by projlen, which differs between buckets of one length, and discarding commutes |
| C142 | the methods generated by dataclasses (order=True, frozen=True) on (n, power, factors), sorted as stable insertion sort, dictionaries with keys compared by == | lexicographic order is total; uniqueness of normal forms (C15, C29) turns equality of fields into equality of braids; induction over the history |
| C143 | the numbers handed to matplotlib in the two plots | uniqueness of normal forms identifies the partial products; images of the generators have entries in ℤ[v], hence so do positive braids; uniqueness of projectivised images |
| C144 | the counters of both normal forms | bijection with the elements between powers of Δ (uniqueness, inf and sup); the counts after each proper factor satisfy a linear recurrence, checked at the start by the kernel and carried on by induction |

Not expressible / not modelled: the text of SVG pictures (the library `svg`; the curves `draw_svg` makes are modelled), argument
parsing and printing in `search.py`, the SQLite library itself (its documented transaction semantics are assumed in
`Model/SearchDb.lean`), wall-clock timing, numpy memory
layout, pandas frames (only the columns used by logic), floating point rounding.

## 5. Findings (behaviour of the code that contradicts its documentation or a natural reading)

Each is either proved in Lean as a refutation (named) or was noticed while modelling.

1. `from_cycle` indexes with `% n` instead of the cycle length: IndexError for short cycles; `from_cycles` TypeError (C08).
2. `__post__init__` typos (`SymmetricGroup`, `Permutation`, `NPar`): validation never runs.
3. `Poly.__repr__` prints every nonzero constant term as `1` (so `Poly(2,)` and `Poly(1,)` print alike; C93_refuted).
4. `Matrix.is_symmetric` is always True; `Matrix.row` checks its bound against `ncols` (C43).
5. `TLExtDiag.__mul__` composes in the order opposite to its docstring (C49_refuted).
6. `TLMor.flip` ignores `twist_v` (C50_refuted).
7. `tl.JonesRep.cells` misses r = n//2 (C88_refuted).
8. `polymat.projlen(0)` returns D, not 0 (C59_projlen_zero_refuted).
9. `_polymat_delta_power` does not reduce `mat**power` modulo p; for a pure power of δ the bulk evaluator returns it as is, so coefficients may be ≥ p (C90_refuted: δ² in B_3 over F_2).
10. `JonesSummand.dimension` for r=0 raises ValueError; `search.py` allows n=7 but `PermTable.create` raises for n≥7; p=1 makes everything zero; `evaluate_artin_word` leaves integer entries unreduced.
11. `BraidGroup(2).gens()`, `artin_gens(2)`, `bkl_gens(2)` AssertionError (C22_gens_two_strands); `NParTable.create(1)/(0)` IndexError; for n=1 identity and Δ coincide.
12. `nf_suffixes` keeps `self.power`; `all_of_garside_length` ignores the power.
13. `LKBRep.artin_gens_invs` returns the generators as inverses (C56).
14. `minpolycos` asserts a generator object (always true); `evaluate` of zero returns the int 0; `braidsearch.valiate_buckets` calls with a wrong signature; `braidsearch.Tracker` dedupes only when not full but still counts.
15. `search.py` selection: if the first bucket's count exceeds `use_best` the selection is empty.
16. The GNF constructor does not range-check single factors (C21_out_of_range_accepted).
17. `from_matrix` returns None for mixed int/LPoly entries; its int branch ignores dtype; the exported `peyl.Tracker` is `braidsearch.Tracker`.
18. `RepBase.polymat_artin_gens_invs` calls `from_matrix(invs)` without `proj`: ValueError for JonesCellRep(n, r) with r >= 1 (and every representation with a negative power of v in a generator or inverse), so `polymat_evaluate(_artin_word)` always raise there (C104_negative_refuted, C104_jones_refuted).
19. bucketing: capacity 0 with EvictMin gives IndexError; AChao with all weights 0 gives ZeroDivisionError.
20. `braidsearch.nf_descendants` reads `bucket_images` lazily while adding (harmless; C69).
21. `braidsearch.substrings` ranges skip i=0 and j≥length−1; with step_size>1 `nf_descendants` offers the same prefix repeatedly, inflating reservoir counts.
22. `evaluate` of the identity braid returns a matrix of ints, never `==` to an LPoly matrix.
23. `polymat_evaluate_braid_integers_of_same_length` with empty sequences returns a batch axis of length 1.
24. `evaluate_braids` images of one length share a width.
25. `JonesCellRep` accepts negative r.
26. `JonesSummand` with n=1: pack of an empty list, AssertionError.
27. `TLExtDiag.__mul__` on non-square types silently produces a non-stacking (C49_mul_any_partial).
28. `braidsearch.Tracker`: when a bucket is full, re-offering a stored braid can evict a different braid (so C82 needs count < bucket size strictly).
29. `register_sqlite3_adapters` registers the converter twice (harmless).
30. `TLCell.project_vector` asserts `mor.bot == n` (should be `mor.top`), so fails for r>0; `TLCell.project_leftmult_matrix` with `mor.top ≠ n` silently returns a zero matrix; `TLMor.trace` does not check `top == bot`.
31. `bucketing.valiate_buckets`: numpy broadcasting when one width is 1 could hide a wrong stored image; the suffix cache keyed by (length, last factor) ignores the power (fine for power 0 only); `nf_descendants` on a length-0 bucket raises IndexError.
32. After `bucket_product` the buckets hold braids with non-zero Δ-powers (e.g. in B_3 over F_2 the products of the length-1 bucket with itself put Δ·σ1 back into it); `nf_descendants` on such a bucket offers `x * suffix` where the suffix carries the power of x again (finding 12), which may have the same length as x, so the bucket can change between chunks of 1000 pairs while the images of later chunks are read from it. C97 therefore asks for Δ-power zero in the bucket `nf_descendants` is applied to.
33. `braidsearch.Tracker.valiate_buckets` reads `self.p`, which `__init__` never sets, so it raises AttributeError on every tracker with a bucket (C101_refuted).
34. `BraidGroup.all_of_garside_length(length, power)` ignores `power` (C103_power_refuted).
35. `all_of_length_below_1(rep, 0)` returns nothing (division by zero gives nan/inf); `sample_braids_images(rep, length, 0)` raises IndexError.
36. Because `LKBRep` hands its generators over as their own inverses (finding on C56), `LKBRep.evaluate` forgets the signs of exponents: a GNF with Δ-power -k comes out multiplied by (t²q^{2n})^k, and noncrossing partitions and DGNFs spelled with inverse letters come out wrong (C106_evaluate_refuted, C106_word_refuted, C106_dual_refuted).
37. `search.py` stores `str(astuple(braid))` without the class name, so `convert_braid` (the converter peyl registers) raises ValueError on every cell of column `gnf` (C108_text); and a search that is restarted after a crash starts again and inserts the rows of the finished rounds a second time (C108_restart).
38. `draw_svg` draws crossing curves for crossingless diagrams: with 12 nested dots on each side the outer cup and the outer cap meet (C116_refuted); the frame height does not grow with the diagram (the comment at tl.py:561 mentions it).
39. `GNF.sample` is not uniform on normal forms: on 4 strands σ1·σ1 comes up with chance 1/(22·3) and σ2·σ2 with 1/(22·5) (C117_not_uniform).
40. `FramedMatrix` blanks an entry if its text is `0`, but the text of an LPoly entry is ` $ 0 $ `, so zero Laurent polynomials are not blanked (C119_refuted). Its column headings must have `_repr_html_` (AttributeError otherwise), though its row headings may be anything (C118_heading).
41. `TLCell(n, r).project_vector(mor)` asserts `mor.bot == n`, but vectors of the cell module have `bot = n - 2r`: for r ≥ 1 every vector is refused (C121_refuted).
42. `JonesCellRep(n, r, p)` with a negative r passes the constructor's assertions (n - 2r >= 0 is the only test); `dimension()` then raises ValueError and `artin_gens_invs()` AssertionError (Lean: `C125_negative_r_refuted`).
43. `search.py 4 2 p` announces "near-kernel elements" that are not in the kernel times a power of the Garside element (README claim), e.g. `(0, [(2, 1, 0, 3)])`: in JonesCellRep(4, 2, p) the braid σ1σ2σ1 acts by v^3 times a swap and the Garside element by the scalar v^6 (Lean: `C126_four_two_refuted`, `C126_search_refuted`); for r = 1 the claim is true (C122).
44. `reservoir_method='AChao'` accepts with probability weight / reservoir_weight; Chao's method (and the code's own 'Uniform') needs capacity * weight / reservoir_weight. For every capacity >= 2, after the bucket was filled with items of weight v, an item of weight between v and 2v is kept strictly less often than each of them, and with equal weights the sample is not uniform (Lean: `C131_light_favoured`). The `<=` in both methods makes the last offer more likely by at most 2**-53 (Lean: `C130_last_favoured`).
45. `braidsearch.evaluate_braid_factors` of a power of Δ returns the cached identity (or Δ) array itself, because `projectivise` returns its argument when there is nothing to cut; `polymat_artin_gens_invs()`, `JonesSummand.id()`, `artin_gens_invs()` and `symmetric_table()` also hand out cached arrays. An in-place write into one of them silently changes all later evaluations of every equal representation (Lean: `C132_factors_refuted`, `C132_gens_refuted`).
46. Over the integers (p = 0) the bulk evaluators multiply int64 tensors, which wrap around silently: on three strands polymat_evaluate_braid of JonesCellRep(3, 1, 0) returns a wrong image for (s1 s2^-1)^49, whose exact image has the coefficient -13186681001379939167 (C135_refuted); `evaluate` is exact. In the search (int32 for p > 0) products overflow for large p: symmetric_table of JonesSummand(2, 1, 65537) fails its own assertion (C135_search_refuted).
47. `search.py` announces "Bootstrapping up to Garside length L (k braids)" with k the number of braids of Garside length exactly L; the bootstrapping goes through those of lengths 1, ..., L, which are more for L ≥ 2 (Lean: `C139_boot_refuted`).
48. `search.py` accepts n = 7, r = 0 and p = 1, but none of them can run: the table of GNF is limited to n < 7 (ValueError), `JonesSummand.dimension` computes `math.comb(n, -1)` for r = 0 (ValueError), and modulo 1 every matrix is zero (AssertionError in `projectivise`); `--bucket-size 0` is accepted too and fails at the first braid (Lean: `C140_bucket_refuted`, `C140_seven_refuted`, `C140_trivial_refuted`, `C140_one_refuted`).

## 6. Coverage of /repo, function by function (generated)

A function is listed as modelled if the model cites its lines.

<!-- coverage:begin -->
**search.py** (model: MachineTracker, Search, SearchDb, SearchProgram, SearchText): 3 modelled, 0 not.

* modelled: `elapsed.__enter__`, `elapsed.__exit__`, `main`

**peyl/braid.py** (model: Adapter, Braid, Display, NPar, Plots, Printing, SearchMisc): 60 modelled, 2 not.

* modelled: `NFTable.is_factors_normalised`, `NFTable.normalise_factors`, `NFTable.product_normalised_factors`, `NFTable.normal_forms`, `NFTable.count_normal_forms`, `NFTable.sample`, `PermTable.create`, `NParTable.create`, `NFBase.__post_init__`, `NFBase.identity`, `NFBase.artin_gens`, `NFBase.canonical_factors`, `NFBase.canonical_factor`, `NFBase.canonical_decomposition`, `NFBase.canonical_length`, `NFBase.inf`, `NFBase.sup`, `NFBase.__mul__`, `NFBase.inv`, `NFBase.__pow__`, `NFBase.artin_word`, `NFBase.magma_artin_word`, `NFBase.substring`, `NFBase.nf_descendants`, `NFBase.nf_suffixes`, `NFBase.count_all_of_length`, `NFBase.all_of_length`, `NFBase.sample`, `GNF._nf_table`, `GNF.__repr__`, `GNF._repr_latex_`, `GNF.from_perm`, `GNF.from_perm_seq`, `GNF.from_artin_word`, `GNF._factors_to_DGNF`, `GNF.to_DGNF`, `GNF.garside_length`, `DGNF._nf_table`, `DGNF.__repr__`, `DGNF._repr_latex_`, `DGNF.from_npar`, `DGNF.bkl_gens`, `DGNF.from_npar_seq`, `DGNF.from_artin_word`, `DGNF._factors_to_GNF`, `DGNF.to_GNF`, `BraidGroup.__post_init__`, `BraidGroup.id`, `BraidGroup.gens`, `BraidGroup.bkl_gens`, `BraidGroup.invs`, `BraidGroup.positive_lift`, `BraidGroup.from_npar`, `BraidGroup.from_gnf_pair`, `BraidGroup.all_of_garside_length`, `BraidGroup.count_all_of_garside_length`, `BraidGroup.sample_braid_perm`, `adapt_braid`, `convert_braid`, `register_sqlite3_adapters`
* not modelled: `NFBase.__init__`, `NFBase._nf_table`

**peyl/braidsearch.py** (model: BraidSearch, Bucketing, FixedWidth, HeapSearch, Jones, JonesObject, MachineEval, MachineTracker, SearchMisc): 33 modelled, 0 not.

* modelled: `tl_gens_invs`, `cell_matrix`, `cell_matrices`, `JonesSummand.__post_init__`, `JonesSummand.__repr__`, `JonesSummand.dtype`, `JonesSummand.dimension`, `JonesSummand.id`, `JonesSummand.artin_gens_invs`, `JonesSummand.mul`, `batched`, `symmetric_table`, `evaluate_braid_factors`, `evaluate_braids_of_same_length`, `evaluate_prefixes_of_same_length`, `evaluate_braids`, `sample_braids_images`, `sample_braids_images_upto_length`, `braids_images_to_dataframe`, `all_of_length_below_1`, `Tracker.__init__`, `Tracker.discard_bucket`, `Tracker.braid_image_stats`, `Tracker.bucket_stats`, `Tracker.bucket_braids_images`, `Tracker.stats`, `Tracker.stats_reservoir`, `Tracker.valiate_buckets`, `Tracker.add_braids_images`, `Tracker.bucket_product`, `Tracker.nf_descendants`, `Tracker.substrings`, `Tracker.bootstrap_exhaustive`

**peyl/bucketing.py** (model: BucketStats, Bucketing, MachineBucket): 23 modelled, 1 not.

* modelled: `Stats.NFKind.calculate`, `Stats.CanonicalLength.calculate`, `Stats.ProjectiveLength.calculate`, `Stats.NonzeroTerms.calculate`, `batched`, `Bucket.create`, `Bucket.size`, `Bucket.is_full`, `Bucket.braids_images`, `Bucket.show_reservoir`, `Bucket.append_braid`, `Bucket.replace_braid`, `Tracker.__init__`, `Tracker.discard_bucket`, `Tracker.braid_image_stats`, `Tracker.bucket_stats`, `Tracker.bucket_braids_images`, `Tracker.stats`, `Tracker.valiate_buckets`, `Tracker.add_braids_images`, `Tracker.nf_descendants`, `Tracker.bootstrap_exhaustive`, `Tracker.hash_bucket`
* not modelled: `BraidStatBase.calculate`

**peyl/jonesrep.py** (model: FixedWidth, Heap, Jones, JonesObject, LKB, LPoly, MachineEval, Matrix, Misc, RepBase, RepMisc): 28 modelled, 0 not.

* modelled: `tl_gens_invs`, `cell_matrix`, `cell_matrices`, `RepBase.__init__`, `RepBase.dimension`, `RepBase.artin_gens_invs`, `RepBase.id`, `RepBase.polymat_dtype`, `RepBase.evaluate_artin_word`, `RepBase.evaluate`, `RepBase.polymat_id`, `RepBase.polymat_mul`, `RepBase.polymat_artin_gens_invs`, `RepBase._polymat_braid_factor`, `RepBase._polymat_delta_power`, `RepBase.polymat_evaluate_artin_word`, `RepBase.polymat_evaluate`, `RepBase.polymat_evaluate_braid`, `RepBase.polymat_evaluate_braids_of_same_length`, `RepBase.polymat_evaluate_braid_integers_of_same_length`, `JonesCellRep.__init__`, `JonesCellRep.__repr__`, `JonesCellRep.dimension`, `JonesCellRep.tl_basis`, `JonesCellRep.artin_gens_invs`, `LKBRep.__init__`, `LKBRep.dimension`, `LKBRep.artin_gens_invs`

**peyl/lpoly.py** (model: Display, LPoly, Matrix, Poly, PrintMatrix, Show): 19 modelled, 0 not.

* modelled: `LPoly.__init__`, `LPoly.is_zero`, `LPoly.is_unit`, `LPoly.evaluate`, `LPoly.valuation`, `LPoly.degree`, `LPoly.__repr__`, `LPoly.fmt`, `LPoly._repr_latex_`, `LPoly.__add__`, `LPoly.__sub__`, `LPoly.__rsub__`, `LPoly.__neg__`, `LPoly.__mul__`, `LPoly.__pow__`, `LPoly.__truediv__`, `LPoly.map`, `LPoly.coerce`, `LPoly.quantum_integer`

**peyl/matrix.py** (model: Matrix, Misc, PrintMatrix): 28 modelled, 0 not.

* modelled: `Matrix.__post_init__`, `Matrix.indices`, `Matrix.from_rows`, `Matrix.identity`, `Matrix.zero`, `Matrix.row_vector`, `Matrix.col_vector`, `Matrix.col_coord_vector`, `Matrix.scalar`, `Matrix.row`, `Matrix.column`, `Matrix.rows`, `Matrix._checkbounds`, `Matrix.__getitem__`, `Matrix.__mul__`, `Matrix.__pow__`, `Matrix.__rmul__`, `Matrix.__sub__`, `Matrix.trace`, `Matrix.is_square`, `Matrix.is_symmetric`, `Matrix.__repr__`, `Matrix._repr_latex_`, `Matrix.__str__`, `Matrix.transpose`, `Matrix.is_integral`, `Matrix.entries`, `Matrix.map`

**peyl/noncrossing.py** (model: NPar, Printing): 18 modelled, 0 not.

* modelled: `catalan`, `are_pairwise_disjoint`, `bkl_gen_to_artin_word`, `npar_component_to_artin_word`, `NPar.__post__init__`, `NPar.__repr__`, `NPar.finest`, `NPar.coarsest`, `NPar.all_of_size`, `NPar.from_components`, `NPar.from_permutation`, `NPar.to_permutation`, `NPar.components`, `NPar.edges`, `NPar.left_complement`, `NPar.right_complement`, `NPar._repr_latex_`, `NPar.artin_word`

**peyl/permutations.py** (model: Display, Misc, Permutations, Printing, RepMisc): 42 modelled, 1 not.

* modelled: `is_permutation`, `identity`, `is_identity`, `transposition`, `longest_element`, `is_longest_element`, `disjoint_cycles`, `cycle_type`, `parity`, `length`, `inverse`, `compose`, `right_descent_set`, `is_right_descent`, `left_descent_set`, `is_left_descent`, `shortlex`, `from_cox`, `is_descending_cycles`, `is_parallel_descending_cycles`, `SymmetricGroup.id`, `SymmetricGroup.longest_element`, `SymmetricGroup.cox_gens`, `SymmetricGroup.reflections`, `SymmetricGroup.from_cox`, `SymmetricGroup.from_cycle`, `SymmetricGroup.from_cycles`, `SymmetricGroup.elements`, `Permutation.__post__init__`, `Permutation.group`, `Permutation.length`, `Permutation.disjoint_cycles`, `Permutation.cycle_type`, `Permutation.shortlex`, `Permutation.artin_word`, `Permutation.is_right_descent`, `Permutation.right_descent_set`, `Permutation.is_left_descent`, `Permutation.left_descent_set`, `Permutation.inv`, `Permutation.__mul__`, `Permutation._repr_latex_`
* not modelled: `SymmetricGroup.__post__init__`

**peyl/poly.py** (model: Display, Poly): 15 modelled, 0 not.

* modelled: `Poly.__init__`, `Poly.deg`, `Poly.is_zero`, `Poly.evaluate`, `Poly.__repr__`, `Poly.__add__`, `Poly.__sub__`, `Poly.__neg__`, `Poly.__mul__`, `Poly.__pow__`, `Poly.__divmod__`, `Poly.__truediv__`, `Poly.cyclotomic`, `Poly.chebyshevT`, `Poly.minpolycos`

**peyl/polymat.py** (model: BraidSearch, FixedWidth, Heap, HeapSearch, MachineEval, Polymat): 19 modelled, 0 not.

* modelled: `eye`, `trim`, `trim_left`, `mul`, `pack`, `zeropad`, `concatenate`, `burau_generator_v2`, `to_matrix`, `from_matrix`, `projectivise`, `degmax`, `valmin`, `nz_terms`, `projrank`, `rhogap`, `efflen`, `projlen`, `proj_starts_ends`

**peyl/show.py** (model: Show): 7 modelled, 0 not.

* modelled: `Row.__init__`, `Row._repr_html_`, `FramedMatrix.__init__`, `FramedMatrix._repr_html_`, `Latex.__init__`, `Latex._repr_latex_`, `html_repr`

**peyl/tl.py** (model: JonesObject, Show, TL, TLBasis, TLCell, TLDraw): 50 modelled, 0 not.

* modelled: `is_crossingless_matching`, `generate_sequences`, `compose`, `trace_count`, `insert`, `TLDiag.__init__`, `TLDiag.id`, `TLDiag.__mul__`, `TLDiag.__matmul__`, `TLDiag.flip`, `TLDiag._repr_html_`, `through_strands`, `tl_basis`, `tl_tableaux_basis`, `cell_dimension`, `cell_basis`, `TLExtDiag.__init__`, `TLExtDiag.id`, `TLExtDiag.e`, `TLExtDiag.add_bubbles`, `TLExtDiag.split_bubbles`, `TLExtDiag.__mul__`, `TLExtDiag.__matmul__`, `TLMor.__init__`, `TLMor.id`, `TLMor.e`, `TLMor.basis`, `TLMor.from_tldiag`, `TLMor.support`, `TLMor.pairs`, `TLMor.coefficient`, `TLMor.is_zero`, `TLMor.quotient`, `TLMor.trace`, `TLMor.__mul__`, `TLMor.__add__`, `TLMor.flip`, `TLMor.__neg__`, `TLMor.__sub__`, `TLMor.__rmul__`, `TLMor.__pow__`, `TLMor._repr_html_`, `TLCell.__post_init__`, `TLCell.dim`, `TLCell.basis_diagrams`, `TLCell.project_vector`, `TLCell.project_leftmult_matrix`, `TLCell.trace_scalar`, `JonesRep.__init__`, `draw_svg`

<!-- coverage:end -->
