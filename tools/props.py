import json
P=[]
def p(title, statement, quantifier, why, anchors):
    P.append(dict(id=f"C{len(P)+1:02d}", title=title, statement=statement, quantifier=quantifier, why_tests_cant=why, anchors=anchors))

inf="The domain is infinite; tests only sample it."
# --- permutations
p("Permutations form a group under * and inv","For permutations of any n points, `*` is associative with `SymmetricGroup(n).id()` as two-sided unit, `inv()` is a two-sided inverse, `(x*y)` applies y first and then x, and multiplying permutations of different sizes raises ValueError.","all n and all permutations of n points","There are n! permutations for each of infinitely many n.",["peyl/permutations.py: compose, inverse, identity, Permutation.__mul__, Permutation.inv"])
p("is_permutation decides exactly the permutations","`is_permutation(word)` returns True iff word lists every integer of [0, len(word)) exactly once; in particular repeated, negative or out-of-range entries are rejected.","all finite integer sequences, any length, any (also negative) entries","The bitmask trick has to be right for all words, not only the five in the doctest.",["peyl/permutations.py: is_permutation"])
p("shortlex spells the permutation and is reduced","`shortlex(perm)` terminates on every permutation without tripping its own assertion; `from_cox(n, shortlex(perm))` is perm again, and the number of letters equals `length(perm)`, the number of inversions.","all n, all permutations","Termination of a backtracking while loop and the assertion must hold for every permutation.",["peyl/permutations.py: shortlex, from_cox, length, Permutation.artin_word"])
p("shortlex is lexicographically least","Among all words of minimal length in the Coxeter generators that multiply to perm, `shortlex(perm)` is the lexicographically smallest.","all n, all permutations, all competing reduced words","The competing set of reduced words is huge and depends on n.",["peyl/permutations.py: shortlex, from_cox"])
p("Descent sets are exactly the length-lowering generators","i is in `right_descent_set()` iff multiplying on the right by the i-th adjacent transposition lowers `length`; likewise `left_descent_set()` on the left; `is_right_descent`/`is_left_descent` agree with the sets on legal indices.","all n, all permutations, all i in [0,n-1)",inf,["peyl/permutations.py: right_descent_set, left_descent_set, is_right_descent, is_left_descent, length"])
p("disjoint_cycles is the orbit decomposition","`disjoint_cycles(perm)` terminates and returns cycles which together contain each point exactly once, each cycle is a traversal orbit of perm starting at its least element, and the cycles are ordered by least element; `cycle_type` is the decreasing list of their lengths and sums to n.","all n, all permutations","while-loop termination and partition property over all permutations.",["peyl/permutations.py: disjoint_cycles, cycle_type"])
p("parity equals inversion parity","`parity(perm)` equals `length(perm) mod 2`, and is additive modulo 2 under multiplication.","all n, all permutations","The number-of-cycles shortcut must match the number of inversions for every permutation.",["peyl/permutations.py: parity, cycle_type, length"])
p("Permutation from cycles","`SymmetricGroup(n).from_cycle(c)` returns the permutation sending c[i] to c[i+1] cyclically and fixing all else; `from_cycles` multiplies those.","all n, all duplicate-free cycles in [0,n)","Shorter cycles than n are the ordinary case, untested.",["peyl/permutations.py: SymmetricGroup.from_cycle, SymmetricGroup.from_cycles"])
# --- GNF
p("Renormalisation is independent of set iteration order","Building the permutation table moves arbitrary (set.pop) generators from the right factor to the left one; the loop always terminates and the resulting table entry is the same whatever element pop returns at each step.","all n, all pairs of permutations, all pop choices","Set iteration order is a runtime schedule; only one is ever observed by a test run.",["peyl/braid.py: PermTable.create (lines 246-261)"])
p("Normalising any factor list gives a normal form of the same braid","`GNF.from_perm_seq(n, perms)` (via normalise_factors) succeeds for every list of permutations: its result passes the constructor's normal-form assertion and denotes, in the braid group, the product of the positive lifts.","all n>=2 (below the table size guard) and all finite lists of permutations","The double loop has to work for lists of any length.",["peyl/braid.py: NFTable.normalise_factors, GNF.from_perm_seq, NFBase.__post_init__"])
p("Braid multiplication is the group multiplication","For any GNFs x, y on the same n strands, `x*y` succeeds (the constructor assertion cannot fire) and denotes the product of x and y in Artin's braid group B_n; this includes every early exit and fast path. Different n raises ValueError.","all n>=2, all pairs of normal forms of any length and any Δ power","Early `break`s in the combing loop must be right for arbitrarily long normal forms.",["peyl/braid.py: NFBase.__mul__, NFTable.product_normalised_factors"])
p("Braid inversion","`x.inv()` succeeds and `x * x.inv() == x.inv() * x == identity` for every normal form x; its class in B_n is the inverse of that of x.","all n>=2, all normal forms",inf,["peyl/braid.py: NFBase.inv"])
p("Braid powers","`x ** k` equals the k-fold product for k>=0 and the |k|-fold product of `x.inv()` for k<0, for every integer k.","all normal forms, all integers k","The exponent is unbounded.",["peyl/braid.py: NFBase.__pow__"])
p("Artin words round-trip","`x.artin_word()` is a word in the Artin generators whose value in B_n is x, `GNF.from_artin_word(n, w)` succeeds for every word of legal letters and integer exponents and denotes w in B_n, and `from_artin_word(n, x.artin_word()) == x`. `magma_artin_word` lists the same letters 1-indexed and signed. The word is the shortlex word of the Garside element (reversed and inverted for a negative infimum) |inf| times, followed by the shortlex words of the canonical factors, so its length is |inf|·n(n-1)/2 plus the lengths of the factors.","all n>=2, all normal forms, all Artin words",inf,["peyl/braid.py: NFBase.artin_word, GNF.from_artin_word, NFBase.magma_artin_word"])
p("Normal form decides the word problem","Two Artin words denote the same element of B_n iff `GNF.from_artin_word` returns equal objects; equivalently two GNF objects on n>=2 strands are equal iff they denote the same braid.","all n>=2, all pairs of words / normal forms","Soundness of == for group equality is a statement about all words (Garside's theorem).",["peyl/braid.py: GNF (dataclass equality), GNF.from_artin_word, NFTable.is_factors_normalised"])
p("Enumeration and counting of normal forms agree","`GNF.all_of_length(n, k, power)` yields every normal form with k factors exactly once, all pass the constructor assertion, and there are exactly `count_all_of_length(n, k)` of them; the same with a `following` factor.","all n, all k","The number of normal forms grows exponentially in k.",["peyl/braid.py: NFTable.normal_forms, NFTable.count_normal_forms, NFBase.all_of_length, NFBase.count_all_of_length"])
p("sample returns a legal normal form","For every outcome of the random generator, `GNF.sample(n, k)` (n>=3) returns a normal form with exactly k factors and Δ-power 0, never runs out of successors, and every such normal form is a possible outcome.","all n>=3, all k, all random choices","Ranges over all random streams.",["peyl/braid.py: NFTable.sample, NFBase.sample"])
p("Suffix extension has no cancellation","For a normal form x with Δ-power 0, `nf_suffixes(k)` yields exactly the y of k factors with Δ-power 0 such that `x*y` has the concatenated factors (no cancellation), and `nf_descendants` yields exactly the normal forms extending x by one factor.","all n, all x, all k",inf,["peyl/braid.py: NFBase.nf_suffixes, NFBase.nf_descendants"])
p("Decomposition round-trip and positive lifts","`BraidGroup(n).from_gnf_pair((x.inf(), words of x.canonical_factors())) == x` for every x; `positive_lift(perm)` succeeds for every permutation and denotes the positive permutation braid.","all n>=2, all normal forms, all permutations",inf,["peyl/braid.py: BraidGroup.from_gnf_pair, BraidGroup.positive_lift, NFBase.canonical_decomposition"])
p("inf and sup are Garside's infimum and supremum","`x.inf()` is the largest d such that Δ^-d x is a positive braid, and `x.sup()` the smallest d such that x^-1 Δ^d is positive; `canonical_length` is their difference.","all n>=2, all normal forms","Quantifies over all integers d and all positive words.",["peyl/braid.py: NFBase.inf, NFBase.sup, NFBase.canonical_length"])
p("The normal-form constructor accepts exactly normal forms","Constructing a GNF from factor indices in [0,n!) succeeds iff the factors are all proper (neither 1 nor Δ) and each adjacent pair satisfies L(next) ⊆ R(previous), and raises AssertionError otherwise; at or above the size guard it raises ValueError. (Single out-of-range indices are accepted: the range is a precondition.)","all n>=2, all lists of indices in range",inf,["peyl/braid.py: NFBase.__post_init__, NFTable.is_factors_normalised, PermTable.create"])
p("Artin generators exist and satisfy the braid relations","`BraidGroup(n).gens()` returns for n>=3 the n-1 braids denoting σ_0..σ_(n-2), `invs()` their inverses, with σiσj=σjσi for |i-j|>=2 and σiσ(i+1)σi=σ(i+1)σiσ(i+1), as == of normal forms; for n=1 it returns the empty list and for n=2 it raises AssertionError (σ_0=Δ is not a legal factor).","all n>=1","n ranges over all legal sizes; n=2 is a boundary case nobody tests.",["peyl/braid.py: BraidGroup.gens, NFBase.artin_gens"])
p("Conjugation by Δ","Multiplying any braid x by Δ on the right equals multiplying on the left the braid whose factors are conjugated by the longest element; Δ² is central.","all n>=2, all normal forms",inf,["peyl/braid.py: NFBase.__mul__, tau_right, PermTable.create"])
p("SQLite adapter round-trip","`convert_braid(adapt_braid(x)) == x` for every GNF and DGNF, and the kind (GNF/DGNF) is preserved.","all n, powers (any sign), factor tuples of any length (0 and 1 included)",inf,["peyl/braid.py: adapt_braid, convert_braid"])
# --- DGNF
p("NPar and descending-cycle permutations correspond","`to_permutation` and `from_permutation` are inverse bijections between noncrossing partitions of [0,n) and permutations accepted by `is_parallel_descending_cycles`; `from_components(p.components()) == p`.","all n, all noncrossing partitions, all permutations","Catalan-many objects for each n.",["peyl/noncrossing.py: NPar.from_permutation, NPar.to_permutation, NPar.components, NPar.from_components","peyl/permutations.py: is_parallel_descending_cycles"])
p("Complements","`left_complement` and `right_complement` are inverse to each other, stay noncrossing, and satisfy perm(*p)·perm(p) = perm(coarsest) = perm(p)·perm(p*); applying left_complement 2n times is the identity.","all n, all noncrossing partitions",inf,["peyl/noncrossing.py: NPar.left_complement, NPar.right_complement"])
p("NPar enumeration is exact","`NPar.all_of_size(n)` yields every noncrossing partition exactly once, catalan(n) in number, and includes finest(n) and coarsest(n).","all n",inf,["peyl/noncrossing.py: NPar.all_of_size, catalan, NPar.finest, NPar.coarsest"])
p("Dual normal forms: arithmetic denotes B_n","For DGNFs, `*`, `inv`, `**`, `from_artin_word`, `artin_word` succeed and denote the corresponding operations of B_n under the BKL generators.","all n>=3, all dual normal forms of any length",inf,["peyl/braid.py: DGNF, NParTable.create, NFBase.__mul__, NFBase.inv"])
p("Dual normal form uniqueness and conversions","Two DGNFs on n>=2 strands are equal iff they denote the same braid, and `to_GNF`, `to_DGNF` are inverse to each other and preserve the braid.","all n>=3, all normal forms",inf,["peyl/braid.py: GNF.to_DGNF, DGNF.to_GNF"])
p("BKL generators","`bkl_gen_to_artin_word(s,t)` is symmetric in s,t, empty for s=t and denotes the band generator; the band generators satisfy the BKL relations in B_n; `npar.artin_word()` denotes the product of its components.","all n, all s,t",inf,["peyl/noncrossing.py: bkl_gen_to_artin_word, npar_component_to_artin_word, NPar.artin_word"])
# --- algebra
p("LPoly is a canonical form","Two LPoly objects are == iff they denote the same Laurent polynomial; every operation returns a trimmed object (zero has val 0 and no coefficients; otherwise the first and last coefficients are nonzero), so valuation() and degree() are the true lowest and highest exponents.","all Laurent polynomials, all operations",inf,["peyl/lpoly.py: LPoly.__init__, __eq__, valuation, degree, is_zero"])
p("LPoly arithmetic is Laurent polynomial arithmetic","+, -, unary -, *, and mixed int operations agree with the ring Z[v,v^-1]: commutative, associative, distributive.","all pairs of LPolys and ints",inf,["peyl/lpoly.py: __add__, __sub__, __rsub__, __neg__, __mul__"])
p("LPoly powers","x**n is the n-fold product for n>=0; for n<0 it is the inverse power when x is ±v^k, and ValueError otherwise - exactly for the elements ±v^k are the units.","all LPolys, all integer exponents",inf,["peyl/lpoly.py: __pow__, is_unit"])
p("LPoly evaluation is a ring homomorphism","`x.evaluate(y)` for a unit y (or y any LPoly when x has no negative powers) is the substitution v↦y, hence compatible with + and *.","all LPolys x and units y",inf,["peyl/lpoly.py: evaluate"])
p("Quantum integers","[n]·(v - v^-1) = v^n - v^-n and [-n] = -[n] for all integers n.","all integers n",inf,["peyl/lpoly.py: quantum_integer"])
p("Polynomial division","`divmod(n, d)` for nonzero d terminates; if it returns (q, r) then n = d·q + r and r has smaller degree than d; it raises ValueError only when a leading coefficient is not divisible, never for d with leading coefficient ±1; `n / d` returns q iff n = d·q for some integer polynomial q, else raises.","all integer polynomials n, nonzero d",inf,["peyl/poly.py: Poly.__divmod__, Poly.__truediv__"])
p("Poly arithmetic","+, -, *, ** on Poly agree with Z[x] and always produce trimmed coefficient tuples, so == is equality of polynomials.","all integer polynomials",inf,["peyl/poly.py: Poly.__init__, __add__, __sub__, __mul__, __pow__, __neg__"])
p("cyclotomic(n) is the nth cyclotomic polynomial","For every n>=1 `Poly.cyclotomic(n)` terminates, its internal divisions are exact (assertion never fires), and the result is the n-th cyclotomic polynomial; n<=0 raises ValueError.","all n",inf,["peyl/poly.py: Poly.cyclotomic"])
p("Chebyshev polynomials","`Poly.chebyshevT(n)` is the Chebyshev polynomial of the first kind for every n>=0 (T_n(cos t)=cos nt); negative n raises.","all n",inf,["peyl/poly.py: Poly.chebyshevT"])
p("minpolycos","`Poly.minpolycos(n)` for n>=1 never fails and returns the monic integer polynomial with Ψ_n(v+1/v)·v^deg = Φ_n(v) (n>=3), the minimal polynomial of 2cos(2π/n).","all n>=1",inf,["peyl/poly.py: Poly.minpolycos"])
p("LPoly exact division","`a / b` for b≠0 returns the unique c with c·b = a when it exists in Z[v,v^-1], and raises otherwise.","all LPolys",inf,["peyl/lpoly.py: __truediv__"])
p("Matrix arithmetic","Matrix `*` is the matrix product (associative, identity is a unit, ValueError exactly on incompatible shapes), `**` is the iterated product for exp>=0, `trace`, `transpose`, `from_rows`/`rows` behave as the mathematical operations.","all shapes and entries",inf,["peyl/matrix.py: Matrix"])
p("Matrix predicates and row access","`is_symmetric()` is True iff M[i,j]=M[j,i] for all i,j; `row(i)` returns row i for every 0<=i<nrows and `column(j)` for every 0<=j<ncols.","all matrices","A single square example passes even when the predicate only looks at the diagonal.",["peyl/matrix.py: Matrix.is_symmetric, Matrix.row, Matrix.column"])
p("Reduction modulo p is compatible with products","Reducing coefficients modulo p before or after multiplying Laurent matrices gives the same final reduced matrix (evaluate_artin_word reduces generators and the product).","all p, all words",inf,["peyl/jonesrep.py: RepBase.evaluate_artin_word, JonesCellRep.artin_gens_invs","peyl/lpoly.py: LPoly.map"])
# --- TL
p("is_crossingless_matching decides noncrossing perfect matchings","Returns True iff seq is a fixed-point-free involution with no a<b<seq[a]<seq[b]; never raises on any integer sequence.","all integer sequences",inf,["peyl/tl.py: is_crossingless_matching"])
p("generate_sequences enumerates exactly","For even n>=0 it yields every crossingless matching of n points exactly once, catalan(n/2) in number; odd or negative n raises.","all n",inf,["peyl/tl.py: generate_sequences, tl_basis"])
p("Diagram composition terminates and stays crossingless","Composing crossingless diagrams with any number of middle points terminates, its assertion never fires, the result matches i and j iff they are joined by a path through the stacked picture, and the bubble count is the number of closed loops.","all compatible diagrams",inf,["peyl/tl.py: compose, TLDiag.__mul__"])
p("TL identity, generators and relations","id is a two-sided unit; e_i e_i = (v+v^-1) e_i, e_i e_{i±1} e_i = e_i, e_i e_j = e_j e_i for |i-j|>=2 in TLMor.","all n, all legal i, j",inf,["peyl/tl.py: TLMor.e, TLMor.id, TLMor.__mul__, compose"])
p("TLExtDiag vertical composition","`x * y` places x on top of y (doc string), with bubbles adding up.","all compatible diagrams","The test-suite only checks relations that are symmetric under reversal.",["peyl/tl.py: TLExtDiag.__mul__"])
p("Flip","`TLMor.flip(twist_v=False)` flips diagrams and leaves coefficients alone, `twist_v=True` additionally substitutes v↦1/v; flipping twice is the identity.","all morphisms",inf,["peyl/tl.py: TLMor.flip, TLDiag.flip"])
p("Cell basis is exact","`cell_basis(n, r)` lists exactly the crossingless diagrams of type (n, n-2r) with n-2r through strands, once each, C(n,r)-C(n,r-1) in number.","all n, r with 2r<=n",inf,["peyl/tl.py: cell_basis, cell_dimension, through_strands"])
# --- reps
p("Jones cell representation satisfies the braid relations","The matrices returned by `JonesCellRep(n,r,p).artin_gens_invs()` satisfy the braid relations and gens[i]*invs[i] = identity (modulo p when p>0); the assertion in tl_gens_invs never fires.","all n>=1, all r with 2r<=n, all p","Tests check five (n,r) pairs.",["peyl/jonesrep.py: cell_matrices, tl_gens_invs, cell_matrix, JonesCellRep.artin_gens_invs"])
p("evaluate is well defined and multiplicative on braids","`rep.evaluate(x*y) = rep.evaluate(x)*rep.evaluate(y)` (reduced mod p), and equal braids given by different words evaluate equally.","all n>=2, r, p, all braids",inf,["peyl/jonesrep.py: RepBase.evaluate, evaluate_artin_word"])
p("The full twist is scalar","In every cell representation Δ² evaluates to a power of v times the identity, so the projective shortcut Δ²=1 used by the bulk evaluators is sound and the assertion in symmetric_table cannot fail.","all n, r, p",inf,["peyl/jonesrep.py: _polymat_delta_power","peyl/braidsearch.py: symmetric_table, evaluate_braid_factors"])
p("Bulk evaluation equals word evaluation projectively","`polymat_evaluate_braids_of_same_length` returns for each braid the projectivised matrix of `evaluate(braid)` (mod p); likewise JonesSummand's evaluate_braids_of_same_length and evaluate_braids (which restores the input order).","all n, r, p, all lists of braids of equal length",inf,["peyl/jonesrep.py: polymat_evaluate_braids_of_same_length, polymat_evaluate","peyl/braidsearch.py: evaluate_braids, evaluate_braids_of_same_length"])
p("LKB representation","The generator matrices of LKBRep satisfy the braid relations, and the matrices returned as inverses are the inverses.","all n, units q,t",inf,["peyl/jonesrep.py: LKBRep.artin_gens_invs"])
p("polymat.mul is polynomial matrix multiplication","`mul(A,B)` represents the product of the polynomial matrices represented by A and B; with quotdeg it is that product truncated below degree quotdeg; shape mismatch raises.","all shapes and degrees",inf,["peyl/polymat.py: mul"])
p("projectivise is the canonical projective representative","`projectivise(A)` represents A divided by the largest power of v dividing it, has no superfluous leading or trailing degree slices, is idempotent, and two nonzero matrices have equal projectivisation iff they differ by a power of v; zero input raises.","all nonzero polymats, batched or not",inf,["peyl/polymat.py: projectivise, proj_starts_ends"])
p("projlen, degmax, valmin, efflen","valmin/degmax are the least and greatest degrees with a nonzero entry; projlen = degmax-valmin+1, or zero if A==0 (doc string); efflen likewise; all invariant under multiplication by v^k.","all polymats",inf,["peyl/polymat.py: degmax, valmin, projlen, efflen, rhogap"])
p("trim, zeropad, pack, concatenate keep the represented matrices","These helpers only change the degree padding: the i-th entry of the packed tensor represents the i-th input.","all lists of polymats",inf,["peyl/polymat.py: trim, trim_left, zeropad, pack, concatenate"])
p("to_matrix / from_matrix round-trip","from_matrix(to_matrix(A)) represents A; from_matrix raises on negative powers unless proj, in which case the result is v^k times the input.","all polymats and Laurent matrices",inf,["peyl/polymat.py: to_matrix, from_matrix"])
p("Fixed-width arithmetic does not change results for bounded p","With coefficients in [0,p), the machine-integer product followed by % p equals the exact product mod p whenever inner-dimension × degree-width × (p-1)² fits the dtype.","all dims, degrees, p within the bound","Overflow only happens for large entries/degrees.",["peyl/jonesrep.py: polymat_mul, polymat_dtype","peyl/polymat.py: mul"])
# --- trackers
p("Bucket capacity invariant","No sequence of tracker operations makes a bucket hold more than its capacity; append_braid on a full bucket raises and replace_braid out of range raises, and neither error can be triggered through add_braids_images.","all operation histories, all random outcomes, all sampling methods","All histories and random streams.",["peyl/bucketing.py: Bucket, Tracker.add_braids_images","peyl/braidsearch.py: Tracker.add_braids_images"])
p("Buckets only hold offered pairs, correctly filed","Every (braid, image, weight) triple in a bucket was offered to the tracker with that braid (image projectivised), sits in the bucket of its tag, and braids/images/weights stay index-aligned.","all operation histories and random outcomes","All histories.",["peyl/bucketing.py: Tracker.add_braids_images, Bucket.append_braid, Bucket.replace_braid"])
p("Reservoir counters","reservoir_count of a bucket equals the number of braids offered with that tag since the bucket was created, reservoir_weight the sum of their weights, and size = min(count, capacity).","all histories","All histories.",["peyl/bucketing.py: Bucket.show_reservoir, Tracker.add_braids_images"])
p("EvictMin keeps the heaviest","With reservoir_method='EvictMin' the bucket's weights are, as a multiset, the `capacity` largest weights offered.","all offer sequences","All sequences of weights.",["peyl/bucketing.py: Tracker.add_braids_images (EvictMin)"])
p("GreedyFirst keeps the first ones","With 'GreedyFirst' the bucket holds exactly the first `capacity` offered triples of its tag, in order.","all offer sequences","All sequences.",["peyl/bucketing.py: Tracker.add_braids_images (GreedyFirst)"])
p("Uniform reservoir sampling","A bootstrapping `braidsearch.Tracker` keeps a uniform sample: after any sequence of `add_braids_images` and discards of buckets, if the braids offered to a bucket since it was last discarded are distinct, every set of min(N, bucket_size) of the N offered braids is equally likely to be the content of that bucket, whatever happens in the other buckets that share the random source; in particular each offered braid is retained with probability exactly min(1, bucket_size/N).","all operation sequences, all N, all bucket sizes, over the uniform distribution of random outcomes","A statement about a probability distribution.",["peyl/braidsearch.py: Tracker.add_braids_images","peyl/bucketing.py: Tracker.add_braids_images (Uniform)"])
p("Descendant step offers every extension exactly once","`Tracker.nf_descendants(tag, k)` offers exactly the products braid*suffix over the bucket's braids and their k-factor suffixes, each paired with the product of the stored image and the suffix image.","all buckets, all k",inf,["peyl/bucketing.py: Tracker.nf_descendants","peyl/braidsearch.py: Tracker.nf_descendants"])
p("Stored images are the true images","If every offered image is the projectivised image of its braid then in every reachable tracker state each stored image is the projectivised image of its stored braid (so valiate_buckets reports soundness), also after nf_descendants and bootstrap.","all histories built from bootstrap_exhaustive, nf_descendants, discard_bucket","All histories.",["peyl/bucketing.py: Tracker.valiate_buckets, Tracker.nf_descendants, Tracker.bootstrap_exhaustive"])
p("Search selection respects its budget","In each round the selected buckets are the lowest-projlen buckets of the round's length, taken as a prefix whose total count is at most --use-best (and --save-best for the database), and that prefix is maximal.","all bucket statistics and budgets","All statistics tables.",["search.py: main"])
p("Search loop rounds","After the round for length L every bucket of length <= L that existed at the start of the round has been discarded, near-kernel braids present at the start are reported, and the loop halts after that round when --stop-at-projlen-1 is set.","all tracker states and rounds","All rounds/histories.",["search.py: main"])
p("batched partitions its input","Concatenating the chunks gives back the input; every chunk has length in [1,k], all but the last exactly k; k<1 raises.","all iterables, all k>=1",inf,["peyl/bucketing.py: batched","peyl/braidsearch.py: batched"])
p("hash_bucket groups equal images","In the dictionary returned by hash_bucket all braids of the bucket occur exactly once and braids with equal images are listed under the same key.","all buckets, any hash function",inf,["peyl/bucketing.py: Tracker.hash_bucket"])
p("Burau generators satisfy the braid relations","`burau_generator_v2(n,s)` exists exactly for 0<=s<n-1, neighbouring generators satisfy the braid relation, far ones commute, and each has determinant -v^2 as the doc string says.","all n, s",inf,["peyl/polymat.py: burau_generator_v2"])
# --- dual normal form
p("The dual normal form table is canonical","`NParTable.create(n)` (n>=2, below its size guard) is the same whatever element each `set.pop` returns: its renormalisation entry for (a, b) is the unique left-weighted pair with the same product, and `is_normalised` says whether (a, b) already is left-weighted; n<2 raises IndexError and a table over the guard raises ValueError.","all n, all pop choices, all pairs of noncrossing partitions","The set's iteration order depends on hashing and the number of pairs grows as catalan(n)^2.",["peyl/braid.py: NParTable.create"])
p("DGNF constructor accepts exactly the dual normal forms","`DGNF(n, power, factors)` with factors in range succeeds iff no factor is the identity or δ and every adjacent pair is left-weighted, and raises AssertionError otherwise.","all n, powers, factor tuples",inf,["peyl/braid.py: NFBase.__post_init__, DGNF"])
p("Dual normal form enumeration","`DGNF.all_of_garside_length` yields every dual normal form of that canonical length exactly once; `nf_descendants`, `nf_suffixes` and `sample_braid_perm`-style sampling produce valid dual normal forms of the expected length.","all n, lengths, random outcomes",inf,["peyl/braid.py: NFBase.all_of_garside_length, nf_descendants, nf_suffixes, sample, DGNF"])
p("Dual infimum and supremum","For a DGNF, `inf()` is the largest k with δ^-k x band-positive and `sup()` the least k with x^-1 δ^k band-positive.","all n>=2, all braids",inf,["peyl/braid.py: NFBase.inf, NFBase.sup, DGNF"])
p("Band generators","For n>=3 `DGNF.bkl_gens(n)[i,j]` and `BraidGroup(n).bkl_gens()[i,j]` are the Birman-Ko-Lee generators a_ij (symmetric in i,j; identity when i=j), with exactly the keys 0<=i,j<n; n=2 raises AssertionError; `from_npar(p)` is the positive lift of p.","all n, all i,j, all noncrossing partitions",inf,["peyl/braid.py: DGNF.bkl_gens, DGNF.from_npar, BraidGroup.bkl_gens"])
p("Conjugation by δ","x·δ = δ·x' where x' has the same power and its factors rotated by one strand, and δ^n is central, as computed by `*` on DGNF objects.","all n>=2, all braids",inf,["peyl/braid.py: NFBase.__mul__, NParTable.create (tau)"])
# --- completeness of the search
p("The search is exhaustive while it can be","If bootstrap_length, step_size >= 1 and for every length m <= M the number of braids of length m (Δ-power 0) is below the bucket size and at most --use-best, then every round for a length L <= M prints every near-kernel braid of length L and the first round all of length <= bootstrap_length; so without --stop-at-projlen-1 `search.py` prints a braid of length <= min(M, 499) iff its matrix is a power of v times a constant matrix.","all n, r, p, arguments, random outcomes, set orders and M satisfying the bounds","All braids of all lengths, random streams and set orders.",["search.py: main","peyl/braidsearch.py: Tracker"])
# --- the Temperley-Lieb category
p("Composition of Temperley-Lieb diagrams and morphisms is associative","Whenever the types match, `(a*b)*c == a*(b*c)` for TLDiag (with the same total number of closed loops), TLMor (exact equality of the objects) and square TLExtDiag; the product of morphisms is the bilinear extension of the product of diagrams with a factor v + v^-1 for each closed loop.","all types, all diagrams and all formal combinations","Diagrams of arbitrary size; loops arise from interactions of three diagrams.",["peyl/tl.py: TLDiag.__mul__, TLMor.__mul__, TLExtDiag.__mul__, compose_matching"])
p("The trace counts closed loops and is a trace","`trace_count(seq)` is the number of circles obtained by closing the diagram, i.e. the number of orbits of the two matchings; `TLMor.trace` is the linear extension with a factor (v+v^-1)^loops; it is cyclic, trace(x*y) == trace(y*x), linear, and trace(id(n)) = (v+v^-1)^n.","all n, all diagrams and morphisms of square type (x*y of any matching types)",inf,["peyl/tl.py: trace_count, TLMor.trace"])
p("`@` is a monoidal product","`a @ b` draws a to the left of b; it is associative, the empty diagram is its unit, identities go to identities, the interchange law (a@b)*(c@d) = (a*c)@(b*d) holds with loops adding up, and traces of diagrams add.","all diagrams",inf,["peyl/tl.py: TLDiag.__matmul__, TLExtDiag.__matmul__"])
p("Morphisms form a linear category","`+`, `-`, unary minus, scalar multiplication and `*` on TLMor are bilinear and produce no zero terms; `m ** k` is the k-fold product for every k >= 0 and negative or non-square powers raise.","all morphisms and scalars, all k","Unbounded exponents and combinations.",["peyl/tl.py: TLMor.__add__, __sub__, __neg__, __mul__, __pow__"])
p("Cell modules are representations and give the Markov trace","For 0<=2r<=n `TLCell(n,r).project_leftmult_matrix` is multiplicative and unital on TL(n,n), and for every morphism m, m.trace() = sum over r of trace_scalar(r) times the trace of the cell matrix; parameters out of range raise AssertionError.","all n, r and all morphisms","The trace formula is a theorem about all diagrams (semisimplicity of TL).",["peyl/tl.py: TLCell"])
p("JonesRep lists all cell modules","`tl.JonesRep(n).cells` contains TLCell(n,r) for every r with 0 <= 2r <= n.","all n",inf,["peyl/tl.py: JonesRep"])
p("Flips reverse products","`(a*b).flip() == b.flip()*a.flip()` for diagrams (with equal loop counts) and for morphisms, and the trace of a flipped morphism is the trace with v inverted.","all matching pairs",inf,["peyl/tl.py: TLDiag.flip, TLMor.flip"])
# --- dual evaluation, full twists, printing
p("Evaluating a dual normal form agrees with the braid","`rep.evaluate`, `evaluate_perm`, `evaluate_npar` and the bulk evaluators applied to DGNF objects give the image of the braid, the same as for its GNF conversion, with entries reduced modulo p.","all representations realising the braid relations, all n, all dual normal forms and batches",inf,["peyl/rep.py: RepBase.evaluate, polymat_evaluate_braids_of_same_length, polymat_evaluate_braid_integers_of_same_length","peyl/braid.py: DGNF"])
p("δ^n is the full twist","Converting the DGNF δ^(nk) gives the GNF Δ^(2k), and it is central in both normal forms.","all n>=2, all integers k","Unbounded n and k.",["peyl/braid.py: DGNF.from_artin_word, GNF.from_artin_word, NFBase.canonical_length"])
p("Printed Laurent polynomials can be read back","The string printed for a Laurent polynomial (plain or LaTeX) denotes, read as a formula in v, exactly that polynomial; different polynomials print differently.","all Laurent polynomials",inf,["peyl/lpoly.py: LPoly.__repr__, LPoly._repr_latex_"])
p("Printed polynomials can be read back","`repr` of a Poly denotes, read as a formula, exactly that polynomial; different polynomials print differently.","all polynomials",inf,["peyl/poly.py: Poly.__repr__"])
p("Canonical decompositions and printed braids determine the braid","`canonical_decomposition` of a GNF is the list of permutations of its factors whose positive lifts multiply, with the power of Δ, to the braid, and two braids with the same `repr` are equal.","all n>=2, all Garside normal forms",inf,["peyl/braid.py: GNF.canonical_factor, GNF.canonical_decomposition, GNF.__repr__"])
# --- products and substrings of buckets
p("bucket_product offers every product once","`Tracker.bucket_product(t, u)` on existing buckets adds exactly the products x*y of the stored braids (row by row), each with its true projectivised image, and nothing else; a missing bucket raises AssertionError.","all reachable trackers, all pairs of buckets (equal ones too)","All histories and bucket contents.",["peyl/braidsearch.py: Tracker.bucket_product"])
p("substrings offers the substrings with true images","`Tracker.substrings(t)` on a bucket of length l offers, for 1<=i, i+2<=j<=l-2, the substring from i to j of every stored braid with its true image, and leaves the bucket alone.","all reachable trackers and buckets","All histories and bucket contents.",["peyl/braidsearch.py: Tracker.substrings","peyl/braid.py: NFBase.substring"])
p("A tracker is sound after any history","After any sequence of add_braids_images (of true images), bootstrap_exhaustive, nf_descendants (on buckets with Δ-power zero), bucket_product, substrings and discard_bucket, every stored image is the projectivised image of its braid, filed under its length and projlen, and no operation on existing buckets raises.","all histories","All histories.",["peyl/braidsearch.py: Tracker"])
# --- sampling, scanning, statistics
p("Samples come with true images","`sample_braids_images(rep, length, count)` returns count braids of Garside length exactly `length` with Δ-power zero and a tensor whose i-th matrix is the projectivised image of the i-th braid, whatever the random choices; every such list of braids can occur; `sample_braids_images_upto_length` does so for all lengths of the range in order.","all n>=3, lengths, counts >= 1, sequences of random choices, representations","All random choices and all representations.",["peyl/braidsearch.py: sample_braids_images, sample_braids_images_upto_length"])
p("all_of_length_below_1 finds exactly the braids of small degree spread","`all_of_length_below_1(rep, length)` returns, each once and in the order of enumeration, exactly the braids with Δ-power zero and Garside length `length` for which rhogap < length, with the tensor of their projectivised images; in particular every near-kernel braid of the length is returned.","all n>=2, lengths >= 1, representations",inf,["peyl/braidsearch.py: all_of_length_below_1"])
p("Tracker statistics describe the contents","After any history `stats()` has one row per bucket with the number of stored braids, the number offered (and, for bucketing.Tracker, the average weights of the stored and of the offered ones), and `bucket_stats(t)` has one row per stored braid with the length and projlen of the tag and the number of monomials of its matrix; a missing bucket raises ValueError.","all histories of both trackers","All histories and bucket contents.",["peyl/braidsearch.py: Tracker.stats, Tracker.stats_reservoir, Tracker.bucket_stats, braid_image_stats","peyl/bucketing.py: Tracker.stats, Tracker.bucket_stats, Tracker.braid_image_stats"])
p("braidsearch.Tracker.valiate_buckets checks every stored pair","`valiate_buckets` of a `braidsearch.Tracker` all of whose stored images are right reports that all bucket entries are sound.","all reachable trackers","All histories.",["peyl/braidsearch.py: Tracker.valiate_buckets"])
p("Data frames describe the braids row by row","`braids_images_to_dataframe(braids, images)` has one row per braid in order with its image, Garside length, number of monomials, valmin, degmax and rhogap of its matrix, for a list of images and for a tensor; a tensor or list of another length is rejected.","all lists of braids with their images",inf,["peyl/braidsearch.py: braids_images_to_dataframe"])
p("The BraidGroup enumeration wrappers agree with GNF","`BraidGroup(n).all_of_garside_length(length, power)` lists each braid of the length and Δ-power exactly once and `count_all_of_garside_length` is their number.","all n>=2, lengths, powers",inf,["peyl/braid.py: BraidGroup.all_of_garside_length, BraidGroup.count_all_of_garside_length"])
# --- slow polymat evaluation, LKB evaluation
p("polymat_evaluate_artin_word returns the projectivised matrix","`rep.polymat_evaluate_artin_word(word)` returns the projectivised matrix of the braid the word spells, and `polymat_evaluate(obj)` that of the braid of a permutation, noncrossing partition or normal form.","all representations, words and objects",inf,["peyl/jonesrep.py: RepBase.polymat_evaluate_artin_word, polymat_evaluate, polymat_artin_gens_invs"])
p("Bulk evaluation in the LKB representation","In `LKBRep(n, p, q, t)` with units q, t the full twist acts by the scalar t^2 q^(2n), a power of v, and `polymat_evaluate_braids_of_same_length`, `polymat_evaluate_braid` and `polymat_evaluate_braid_integers_of_same_length` applied to GNFs return their projectivised matrices.","all n>=2, p, units q and t, all lists of GNFs of equal length",inf,["peyl/jonesrep.py: LKBRep, polymat_evaluate_braids_of_same_length, polymat_evaluate_braid"])
p("evaluate in the LKB representation","`LKBRep(n, p, q, t).evaluate` and `evaluate_artin_word` return the matrix of the braid of a word, permutation, noncrossing partition or normal form.","all n>=2, p, units q and t, all words and objects",inf,["peyl/jonesrep.py: LKBRep, RepBase.evaluate, RepBase.evaluate_artin_word"])
# --- the Jones polynomial
p("The cell representations give the Jones polynomial of the closed braid","Evaluate a braid word in every `JonesCellRep(n, r, p)`, 0<=2r<=n, and add up the traces of the matrices with the quantum integers [n-2r+1] as weights: the sum is `TLMor.trace` of the product of the `tl_gens_invs`, conjugate braids have the same sum, a new strand with one crossing multiplies it by v^-1 or v, a free strand by v+v^-1, and the skein relation holds; times v^(exponent sum) it is therefore the same for any two words related by Markov moves (so it depends on the link only).","all n>=1, moduli p != 1, words, chains of Markov moves","Unbounded words, strands and chains of moves.",["peyl/jonesrep.py: JonesCellRep, RepBase.evaluate_artin_word, tl_gens_invs","peyl/tl.py: TLMor.trace"])
p("The search database survives crashes and concurrent searches","Stop `search.py ... --database f` anywhere (kill, exception, Ctrl-C): the table holds what was there before followed by all rows of the first j rounds, in order, where j is the number of rounds already committed, and nothing of the round in progress. With any number of searches on one file, interleaved and killed anywhere, and after power loss, every search has whole rounds only, its first ones in order, and every new row is true: its text is the tuple of a GNF of the stated length whose matrix in JonesCellRep(n, r, p) has the stated projlen. Rows once committed stay (short of power loss).","all arguments, crash points, numbers of processes, schedules and previous contents","Unbounded crash points and interleavings.",["search.py: main, DB_SCHEMA, DB_PRAGMAS"])
p("TLMor.basis is a basis","`TLMor.basis(top, bot)` has Catalan many elements and every morphism of that type is a linear combination of them in exactly one way, with the coefficients returned by `coefficient`; `pairs()` lists each diagram of `support()` once with its non-zero coefficient and the sum of `c * TLMor.from_tldiag(d)` over the pairs is the morphism. For odd top + bot `basis` raises.","all types (top, bot) and all morphisms","All diagrams and coefficients.",["peyl/tl.py: TLMor.basis, TLMor.support, TLMor.pairs, TLMor.coefficient, TLMor.__add__, TLMor.__rmul__, TLMor.from_tldiag"])
p("Permutation notebook form","For every permutation the notebook (LaTeX) form is enclosed in dollar signs and the numbers in it are the permutation's shortlex word, so `SymmetricGroup.from_cox` applied to the numbers read off the text gives the permutation back; permutations of the same number of points that print the same are equal.","all permutations of any number of points","All objects; a test sees a few printed texts.",["peyl/permutations.py: Permutation._repr_latex_, Permutation.shortlex, SymmetricGroup.from_cox"])
p("GNF notebook form","The notebook form of a GNF has exactly one semicolon: the signed number before it is the power of Δ, the comma-separated groups of numbers after it are reduced words of the canonical factors in order, and Δ to that power times the positive words is the braid; braids on the same number of strands that print the same are equal.","all GNF objects on n ≥ 2 strands below the size guard","All objects; a test sees a few printed texts.",["peyl/braid.py: GNF._repr_latex_, GNF.canonical_decomposition", "peyl/permutations.py: Permutation._repr_latex_"])
p("NPar printed forms","The numbers in the notebook form of a noncrossing partition are its components in order, and `NPar.from_components(n, ...)` rebuilds the partition from them; in `repr` the number before the (only) opening square bracket is n and `from_components` rebuilds the partition from the sets after it, whatever order Python prints set elements in. Partitions with equal `repr` are equal; partitions of the same n with equal notebook form are equal.","all noncrossing partitions, all orders in which a set may be printed","All objects; a test sees a few printed texts.",["peyl/noncrossing.py: NPar.__repr__, NPar._repr_latex_, NPar.components, NPar.from_components"])
p("DGNF printed forms","`repr` of a DGNF shows the power of δ and then, in order, texts of the factors from each of which the factor's partition is rebuilt; its notebook form has one semicolon, before it the power, after it the components of the factors' partitions. Dual normal forms on the same number of strands that print the same in either way are equal.","all DGNF objects below the size guard, all orders in which a set may be printed","All objects; a test sees a few printed texts.",["peyl/braid.py: DGNF.__repr__, DGNF._repr_latex_, DGNF.canonical_decomposition", "peyl/noncrossing.py: NPar.__repr__, NPar._repr_latex_"])
p("Matrix printed forms","For a matrix with entries, the brackets and commas of `repr` and of `str` delimit exactly the `repr`s of the entries M[i, j], row by row, in every one of the layouts (one row, one column, several lines); an empty matrix shows its two sizes. Matrices with equal `repr` are equal, matrices with entries and equal `str` are equal, and in the LaTeX form each cell reads as the Laurent polynomial M[i, j].","all matrices of ints and Laurent polynomials of every size","All objects; a test sees a few printed texts.",["peyl/matrix.py: Matrix.__repr__, Matrix.__str__, Matrix._repr_latex_, Matrix.rows", "peyl/lpoly.py: LPoly.__repr__, LPoly.fmt"])
p("Pictures of diagrams: one curve per arc","The picture of a crossingless diagram has exactly one curve for each arc, whose ends are the two dots the arc joins; different dots are at different places, bottom dots on the lower edge and top dots on the upper edge, at least the margin away from the sides; no point of a curve is outside the frame, so nothing is clipped; and different diagrams (of any numbers of dots) have different pictures.","all crossingless diagrams with any numbers of top and bottom dots, all points of all curves","All diagrams of every size; a test looks at a few pictures.",["peyl/tl.py: draw_svg, TLDiag._repr_html_"])
p("Pictures of diagrams: curves do not cross","In the picture of a crossingless diagram no two curves meet.","all crossingless diagrams, all pairs of curves, all points of them","All diagrams of every size; a test looks at a few pictures.",["peyl/tl.py: draw_svg"])
p("Distribution of random normal forms","If every random choice is uniform and the choices are independent, then in `GNF.sample(n, k)` and `DGNF.sample(n, k)` every factor is equally likely to be any of the factors that may legally follow the earlier ones: the chance of each normal form is the product of the reciprocals of the numbers of legal one-factor extensions of its prefixes. (It is not the uniform distribution on the normal forms of that length when n = 4.)","all n, all lengths, all normal forms, all sequences of draws","A probability is a statement about all sequences of draws; a test sees a few samples.",["peyl/braid.py: NFTable.sample, NFBase.sample"])
p("Notebook tables and rows show the objects where they are","`FramedMatrix(rows, cols, entries)` shows as an HTML table whose first row is an empty cell followed by the column headings, and whose further rows are a row heading followed by the entries of that row, each in its column; the table determines a `Matrix` of entries. `Row(items, caption_fn)` shows one box per item, in order, with the caption of item i under item i. A column heading that cannot be shown as HTML raises AttributeError.","all headings, all entries (sequences or matrices), all rows of items, all captions","A test looks at a few tables; the statement is about tables and rows of every size and content.",["peyl/show.py: Row, FramedMatrix, Latex, html_repr"])
p("Zero entries of a framed matrix are blank","In the table of a `FramedMatrix` the cell of an entry is empty exactly if the entry is zero.","all matrices, all places","A test looks at a few matrices.",["peyl/show.py: FramedMatrix._repr_html_"])
p("Pictures of morphisms show their terms","The notebook picture of a `TLMor` is a paragraph with, in the order of the terms and separated by plus signs, each coefficient followed by the picture of its diagram; morphisms with the same picture have the same terms.","all morphisms, all ways of writing a picture that tell different curves apart","A test looks at a few morphisms.",["peyl/tl.py: TLMor._repr_html_, draw_svg"])
p("project_vector projects onto the cell module","For a cell module TLCell(n, r) ⊆ TL(n, n - 2r) and a vector `mor` of TL(n, n - 2r), `project_vector(mor)` is the projection of `mor` onto the cell module: the coefficients at the basis diagrams are kept and the others dropped.","all n, all r with 2r ≤ n, all vectors of TL(n, n - 2r)","A test tries a few vectors; and the method is not called by the rest of the library.",["peyl/tl.py: TLCell.project_vector, TLMor.quotient"])
p("A braid of projlen 1 is in the kernel up to a power of the Garside element","For JonesCellRep(n, 1, p) (the reduced Burau representation modulo p): the polynomial-matrix image of a braid has projlen 1 exactly if the braid with the same canonical factors and some power of the Garside element evaluates to the identity matrix. So every braid that search.py n 1 p reports as a near-kernel element gives an element of the kernel, and one reported braid with at least one canonical factor shows that the representation is not faithful.","all n ≥ 2, all moduli p ≠ 1 (p = 0 is the integers), all GNFs; all command lines, bucket sizes, seeds and orders of search.py","README states it for every run of the search; a test can check single braids only, not that no reported braid is a false positive (a constant matrix that is not scalar) for any n and p.",["README.md: Searching for braids", "peyl/jonesrep.py: JonesCellRep", "peyl/polymat.py: projlen", "search.py: main"])
p("The documented kernel elements, and which representations are unfaithful","(a) Every element documented in the notebook (a_true, b_true, c_true, d_true) and in the README (one for p = 2, two for p = 5) is what is said about it: the listed permutations are its canonical factors, it is not the identity braid, `JonesCellRep(n, 1, p).evaluate` of it is the identity matrix, and without the power of the Garside element its projlen is 1. (b) JonesCellRep(n, 1, p) is unfaithful for every n ≥ 5 and every modulus p (including the integers), and for every n ≥ 4 and every p ≠ 0, 1 without prime factors above 5: some braid with canonical factors evaluates to the identity matrix, so there is something for search.py to find.","(a) all seven documented elements; (b) all n ≥ 5 and p ≠ 1; all n ≥ 4 and p ≠ 0, 1 whose prime factors are 2, 3, 5; every enumeration order of the tables","(a) needs Magma or a run of the notebook, and that the element is not the identity rests on uniqueness of normal forms; (b) is a statement about infinitely many n and p.",["README.md", "p=5 kernel elements.ipynb", "MagmaCheck.m", "peyl/jonesrep.py: JonesCellRep", "peyl/rep.py: RepBase.evaluate", "peyl/braid.py: BraidGroup.from_gnf_pair", "peyl/polymat.py: projlen"])
p("On two and three strands the representation is faithful","For every modulus p ≠ 1 JonesCellRep(2, 1, p) and JonesCellRep(3, 1, p) are faithful: two GNFs evaluate to the same matrix only if they are equal. On three strands projlen of the image of a GNF is exactly 2 * canonical_length() + 1. So search.py 3 1 p reports no braid with canonical factors, whatever the options, seed and bucket size.","all p ≠ 1 (p = 0 is the integers), all GNFs on 2 and 3 strands; all command lines, bucket sizes, seeds and orders","A statement about infinitely many braids and moduli; a search that finds nothing proves nothing.",["peyl/jonesrep.py: JonesCellRep", "peyl/rep.py: RepBase.evaluate", "peyl/polymat.py: projlen", "search.py: main"])
p("Every constructed representation can be used, and its printed form identifies it","JonesCellRep(n, r, p) and JonesSummand(n, r, p) accept exactly n >= 1, 2r <= n, p >= 0 and raise AssertionError otherwise; repr tells two representations with different (n, r, p) apart; dimension() of an accepted representation returns the positive number C(n, r) - C(n, r-1) (1 for r = 0), and both classes agree.","all integers n, r, p","All parameters, including negative ones; injectivity of a text form is a statement about all pairs.",["peyl/jonesrep.py: JonesCellRep.__init__, __repr__, dimension", "peyl/braidsearch.py: JonesSummand.__post_init__, __repr__, dimension"])
p("A braid of projlen 1 is in the kernel up to powers, for every cell representation","What search.py reports (README: a projlen 1 braid is necessarily in the kernel times a power of the Garside element) for JonesCellRep(n, r, p) with any r: if projlen of the image of a braid is 1, the braid times a power of the Garside element evaluates to the identity.","all n >= 2, r with 2r <= n, p ≠ 1, all braids, all searches","A statement about all braids and all representations; for r = 1 it is true (C122), so trying out the documented runs does not show that it fails for r = 2.",["README.md: --stop-at-projlen-1", "search.py: main", "peyl/jonesrep.py: JonesCellRep", "peyl/polymat.py: projlen"])
p("JonesCellRep(n, 1, p) is the reduced Burau representation, entry by entry","JonesCellRep(n, 1, p).artin_gens_invs() returns n-1 matrices of size (n-1)x(n-1) and their inverses. The matrix of generator s is the identity except row s, which is -v, -v^2, -v in columns s-1, s, s+1 (cut off at the border), with coefficients reduced to Python remainders mod p; the inverse has v^-1 for v. polymat.burau_generator_v2(n, s) is the same matrix.","all n >= 2, all p ≠ 1, all generators and entries","For every n and p; the basis order of the cell module (a sort of diagrams) decides where the entries are, and only small n can be printed.",["peyl/jonesrep.py: JonesCellRep.artin_gens_invs", "peyl/tl.py: cell_basis", "peyl/polymat.py: burau_generator_v2, to_matrix", "MagmaCheck.m"])
p("The cross-check in Magma computes the same thing","Multiplying the Burau matrices along x.magma_artin_word() gives JonesCellRep(n, 1, p).evaluate(x). The matrices entered in MagmaCheck.m are the generators and inverses of JonesCellRep(4, 1, 5) and JonesCellRep(6, 1, 0); the words entered are magma_artin_word of the notebook's elements; each spells a non-trivial braid and multiplies to the identity.","all n >= 2, p ≠ 1, all braids; all matrices and words of MagmaCheck.m","The general part is about all braids. The Magma script needs Magma, and nothing in the repository ties its data to the library.",["MagmaCheck.m", "peyl/braid.py: NFBase.magma_artin_word", "peyl/jonesrep.py: JonesCellRep.evaluate", "p=5 kernel elements.ipynb"])
p("Matrices of the powers of the Garside element, and of every near-kernel braid","Delta = BraidGroup(n).positive_lift of the order reversing permutation is GNF(1, ()), Delta**k is GNF(k, ()), and JonesCellRep(n, 1, p).evaluate(Delta**k) is exactly the matrix with entries (-1)^((n+1)k) v^(nk), reduced into Python's range of remainders, on the diagonal for even k and on the antidiagonal for odd k, and zero elsewhere. For every braid x other than the identity, projlen is 1 exactly if evaluate(x) is one of these matrices; the power k is then inf(x) plus twice the total length of the canonical factors divided by n(n-1), and Delta**j * x evaluates to the identity exactly for j = -k. The elements documented in the notebook and the README evaluate, before the correction, to the matrices printed there.","every n >= 2, every modulus p != 1 (0 included), every power k, every braid in normal form; every documented element","The claim is about all braids and all powers; the notebook prints it for four elements",["p=5 kernel elements.ipynb", "README.md", "peyl/jonesrep.py:RepBase.evaluate", "peyl/jonesrep.py:JonesCellRep", "peyl/braid.py:BraidGroup.positive_lift", "peyl/polymat.py:projlen"])
p("A bucket filled by 'Uniform' is a uniform sample","With reservoir_method='Uniform', after any history of add_braids_images calls and discarded buckets, the set of braids in a bucket is a uniform sample of the N different braids offered to it since it was last discarded: for every family of sets of min(N, K) offered braids (K = bucket_capacity), the chance that the bucket holds a set of the family is the size of the family over the number of all such sets, and each braid is held with chance min(1, K/N), up to N/M, where M is the number of values of random.random() (2**53). The last braid offered to a full bucket has strictly more than K/N.","every configuration with K >= 1, every history of batches (any tags) and discards, every N, every family of samples, every resolution M of random()","A statistical test cannot establish a distribution for all histories, and would not see a deviation of 2**-53",["peyl/bucketing.py:Tracker.add_braids_images", "peyl/bucketing.py:Tracker.discard_bucket", "peyl/bucketing.py:Bucket.show_reservoir", "peyl/bucketing.py:Bucket.replace_braid"])
p("Weights bias the reservoir of 'AChao'","With reservoir_method='AChao' and positive weights, heavier items are included more: a braid that is offered to a bucket with a larger weight has a larger chance to be in it at the end (Tracker docstring).","every configuration with K >= 1, every history of batches with positive weights, every resolution M of random()","A statistical claim about all histories",["peyl/bucketing.py:Tracker", "peyl/bucketing.py:Tracker.add_braids_images"])
p("Results of evaluations belong to the caller","Arrays returned by the evaluation functions of RepBase and of braidsearch belong to the caller: whatever a program writes into them in place, every later call returns the value that its arguments determine, although generators, tables, identity matrices and images of factors are cached between calls.","every representation, every program, i.e. every history of calls and of in-place writes into returned arrays, any number of braids in the calls","Aliasing between cached and returned arrays shows only in particular histories; tests of single calls cannot see it",["peyl/jonesrep.py:RepBase.__init__", "peyl/jonesrep.py:RepBase.polymat_artin_gens_invs", "peyl/jonesrep.py:RepBase._polymat_braid_factor", "peyl/jonesrep.py:RepBase.polymat_evaluate_braids_of_same_length", "peyl/jonesrep.py:RepBase.polymat_evaluate_artin_word", "peyl/braidsearch.py:JonesSummand.id", "peyl/braidsearch.py:JonesSummand.artin_gens_invs", "peyl/braidsearch.py:symmetric_table", "peyl/braidsearch.py:evaluate_braid_factors", "peyl/braidsearch.py:evaluate_braids_of_same_length", "peyl/braidsearch.py:evaluate_prefixes_of_same_length", "peyl/polymat.py:projectivise"])
p("Lists of a symmetric group","For every n: SymmetricGroup(n).elements() yields every permutation of 0..n-1 once; id fixes every point and longest_element reverses the order; cox_gens are the transpositions of neighbours in order, from_cox multiplies them, and every permutation is such a product (a letter without generator raises); reflections lists every transposition once, n(n-1)/2 of them, and these are the conjugates of the generators.","every n, every permutation, every word in the generators","The lists must be complete and free of repetitions for every n; tests check a few n",["peyl/permutations.py:SymmetricGroup.elements", "peyl/permutations.py:SymmetricGroup.cox_gens", "peyl/permutations.py:SymmetricGroup.reflections", "peyl/permutations.py:SymmetricGroup.from_cox", "peyl/permutations.py:SymmetricGroup.longest_element"])
p("Vectors and entries of matrices","row_vector(xs) and col_vector(xs) have the given entries in order and are transposes of each other; row_vector(xs) * col_vector(ys) is the scalar product (ValueError for different lengths); M * col_coord_vector(c, j) is column j of M, and zero for j out of range; M[i, j] is entry j of row i of rows() in range and raises IndexError otherwise, also for negative indices; is_square() says exactly whether M has a trace and powers.","all lists of integers and Laurent polynomials, all matrices, all integers i, j","Must hold for all sizes and entries",["peyl/matrix.py:Matrix.row_vector", "peyl/matrix.py:Matrix.col_vector", "peyl/matrix.py:Matrix.col_coord_vector", "peyl/matrix.py:Matrix.__getitem__", "peyl/matrix.py:Matrix.is_square"])
p("Images of braids with machine integers","The bulk evaluators of JonesCellRep (int64 tensors) and JonesSummand (int32 tensors for p > 0, int64 for p = 0) return the same images as with exact integers, and hence the projectivised matrices of the braids, however long the braids are: no sum or product inside an evaluation wraps around. Holds modulo p while dim * (n(n-1)+1) * (p-1)^2 < 2^63 (JonesCellRep) or < 2^31 (JonesSummand), and over the integers for braids with at most 62 crossings; for longer braids over the integers the result is the exact one modulo 2^64. For DGNF (JonesCellRep): modulo p for powers that are 0 or 1 modulo n while dim * (2(n-1)(2n-3)+1) * (p-1)^2 < 2^63, over the integers while (power mod n + length)(n-1)(2n-3) <= 62. For LKBRep(n, p, q, t) with units q, t and GNF: modulo p while dim * (dim * (|deg t| + n |deg q|) + 1) * (p-1)^2 < 2^63, dim = n(n-1)/2, over the integers for braids with at most 27 crossings.","every n, r, p, every list of braids in normal form of any length","Overflow is silent and shows only for long braids or large p; a bound on every intermediate coefficient is needed",["peyl/jonesrep.py:RepBase.polymat_evaluate_braids_of_same_length", "peyl/jonesrep.py:RepBase.polymat_evaluate_braid_integers_of_same_length", "peyl/jonesrep.py:RepBase.polymat_evaluate_braid", "peyl/braidsearch.py:JonesSummand.dtype", "peyl/braidsearch.py:symmetric_table", "peyl/braidsearch.py:evaluate_braids_of_same_length", "peyl/braidsearch.py:evaluate_prefixes_of_same_length", "peyl/braidsearch.py:evaluate_braids", "peyl/braidsearch.py:evaluate_braid_factors", "peyl/polymat.py:mul", "peyl/polymat.py:from_matrix"])
p("The search with 32-bit integers","Modulo p the tracker of peyl/braidsearch.py keeps images as 32-bit integers and multiplies them without overflow checks. As long as dim * ((step_size + 1) * n(n-1) + 1) * (p-1)^2 < 2^31, search.py prints, selects, saves, keeps and raises exactly what it would with exact integers, for all arguments and all random choices; in particular the braids it prints are in the near kernel, and an exhaustive run prints all of them. More generally every history of bootstrap_exhaustive, nf_descendants, bucket_product, substrings, add_braids_images and discard_bucket calls leaves the same buckets as exact integers, as long as no single product exceeds the same kind of bound. Over the integers (p = 0, 64-bit integers, up to eleven strands) the same holds for every history of operations none of which multiplies more than 62 / (n(n-1)/2) canonical factors, and all stored images are right.","every n, r, p, all command line arguments below the bound, every history of tracker calls, every random generator","Overflow is silent: a wrong image only shows as a braid in a wrong bucket thousands of factors later; the bound must be preserved by every step of every run",["search.py:main", "peyl/braidsearch.py:Tracker.nf_descendants", "peyl/braidsearch.py:Tracker.bootstrap_exhaustive", "peyl/braidsearch.py:Tracker.substrings", "peyl/braidsearch.py:Tracker.bucket_product", "peyl/braidsearch.py:Tracker.add_braids_images", "peyl/braidsearch.py:JonesSummand.dtype"])
p("bucketing.Tracker with 64-bit integers","The tracker of peyl/bucketing.py multiplies stored 64-bit images without overflow checks. For JonesCellRep(n, r, p) and GNF: modulo p, as long as dim * (k n(n-1) + 1) * (p-1)^2 < 2^63 for every number k of factors that one nf_descendants call adds (and for k = 1), every history of bootstrap_exhaustive, nf_descendants, discard_bucket and additions of true batches gives the same buckets, cache and random choices, or the same exception, as exact integers would, however long the braids get; over the integers the same holds as long as no operation handles braids with more than 62 / (n(n-1)/2) factors. In both cases every stored image is then the exact projectivised image of its braid, and valiate_buckets, itself computed with 64-bit integers, reports no wrong entry. The same holds for DGNF with the bounds dim * (2k(n-1)(2n-3) + 1) * (p-1)^2 < 2^63 and (number of factors)(n-1)(2n-3) <= 62.","every n, r, p, every history below the bounds, every configuration of statistics, capacity and selection method, every random generator and every argsort","Overflow is silent and valiate_buckets recomputes with the same overflowing arithmetic, so that a test which compares with it can pass on wrong images; the bounds must hold for every braid that a history can reach",["peyl/bucketing.py:Tracker.nf_descendants", "peyl/bucketing.py:Tracker.bootstrap_exhaustive", "peyl/bucketing.py:Tracker.add_braids_images", "peyl/bucketing.py:Tracker.valiate_buckets", "peyl/jonesrep.py:RepBase.polymat_mul", "peyl/jonesrep.py:RepBase.polymat_evaluate_braids_of_same_length"])
p("bucketing.Tracker with LKBRep","A bucketing.Tracker made with LKBRep(n, p, q, t) for units q, t and GNF stores only true images, although LKBRep hands out generators instead of their inverses: after every history of bootstrap_exhaustive, nf_descendants, discard_bucket and additions of true batches every bucket holds legal braids of its length with their projectivised images in the Lawrence-Krammer-Bigelow representation, valiate_buckets finds nothing wrong, and bootstrap_exhaustive offers every braid up to the given length once. With 64-bit integers the same tracker or the same exception results modulo p as long as dim * (k dim (|deg t| + n |deg q|) + 1) * (p-1)^2 < 2^63, dim = n(n-1)/2, for every number k of factors one nf_descendants call adds (and k = 1), and over the integers as long as no operation handles braids with more than 27 / dim factors.","every n, p, units q and t, every history (below the bounds for 64-bit integers), every configuration of statistics, capacity and selection method, every random generator and every argsort","The project never tests the tracker with this representation, and its wrong inverses make it plausible that images are wrong; correctness must hold along every history",["peyl/bucketing.py:Tracker.nf_descendants", "peyl/bucketing.py:Tracker.bootstrap_exhaustive", "peyl/bucketing.py:Tracker.valiate_buckets", "peyl/jonesrep.py:LKBRep", "peyl/jonesrep.py:RepBase.polymat_evaluate_braids_of_same_length"])
p("The printed report of search.py is true and can be read back","The line search.py prints for a near-kernel braid ends with a text which Python reads as a pair, and BraidGroup(n).from_gnf_pair of that pair (the workflow of the README) returns exactly the stored braid; the Garside length in the line is its canonical length; two equal lines come from the same n, r, p and the same braid. In every round of every run the lines printed are those of the near-kernel braids found in that round, the number of braids announced as selected is the number of braids in the selected buckets, and the number announced as saved is the number of rows inserted into the database; the number announced for the bootstrapping is the number of braids it goes through.","every normal form on any number of strands, every run (arguments, seed, order of set traversal), every round","The output of a run depends on the whole search; a formatting slip or a wrong count shows only on particular braids, and reading back must work for every braid",["search.py:main", "peyl/braid.py:BraidGroup.from_gnf_pair", "peyl/braid.py:NFBase.canonical_decomposition", "peyl/braid.py:BraidGroup.count_all_of_garside_length"])
p("Every command line search.py accepts runs a search","search.py refuses, with AssertionError, exactly the positional arguments other than 3 <= n <= 7, 0 <= 2r <= n, p > 0. Every command line it accepts runs to its end without an exception, going through the lengths in turn up to the last one or, with --stop-at-projlen-1, the first with a near-kernel braid, and every braid it reports as a near-kernel element is one.","every n, r, p (any integers), every bucket size >= 0, budgets, step size, seed, random generator and order of set traversal","A run takes hours and is random; that no round of any run raises cannot be tried out, and the bad accepted arguments fail only after start-up",["search.py:main", "search.py:parser", "peyl/braidsearch.py:JonesSummand", "peyl/braidsearch.py:JonesSummand.dimension", "peyl/braid.py:GNF._nf_table"])
D={d['id']:d for d in P}
D['C10']['statement']+=" `GNF.from_perm(w)` is the positive lift of w."
D['C10']['anchors'][0]=D['C10']['anchors'][0].replace("GNF.from_perm_seq,","GNF.from_perm_seq, GNF.from_perm,")
D['C18']['statement']+=" `x.substring(i, j)` is, for 0 <= i <= j <= len(factors), the normal form with the power of x and exactly its factors i..j-1 (AssertionError otherwise), and cutting x at any place gives x back as a braid."
D['C18']['anchors'][0]+=", NFBase.substring"
D['C22']['statement']+=" `GNF.artin_gens(n)` returns the same objects."
D['C80']['statement']+=" `DGNF.artin_gens(n)` (n>=3) are the n-1 Artin generators in order."
D['C80']['anchors'][0]+=", NFBase.artin_gens"
D['C78']['statement']+=" `substring(i, j)` is the dual normal form with the same power and the factors i..j-1."
D['C78']['anchors'][0]+=", substring"
p("A search is reproducible","Two runs of search.py with the same arguments, seed and random generator do the same thing, whatever the orders in which Python traverses its sets (the set of buckets, and set.pop while the tables of the normal form are built): they go through the same rounds, select the same buckets, insert the same rows into the database in the same order, stop at the same length, end with the same tracker, and find the same near-kernel braids in every round. Their reports agree line by line, except that the lines about near-kernel braids of one round may be in another order.","all arguments with which the search runs, all seeds and random generators, all pairs of traversal orders, in every round","Traversal orders of sets depend on hashes and on the history of the set; a test sees one of them",["search.py:main", "peyl/braidsearch.py:Tracker.stats", "peyl/braidsearch.py:Tracker.discard_bucket", "peyl/braid.py:PermTable"])
p("Braids can be compared, sorted and used as keys","The comparison operators of GNF and of DGNF are a total order: of two braids on n strands exactly one is smaller unless they are the same element of the braid group, and then they are equal; a smaller infimum comes first. sorted() returns an ascending rearrangement which depends only on the elements of the group in the list, not on their order or on how they were computed. A dictionary with braids as keys is a map on the braid group: after any history of assignments and removals a lookup finds the value last assigned to the same element, and no element has two entries; set() keeps each element once. A GNF and a DGNF are never equal, and comparing or sorting them together raises TypeError.","all normal forms of both kinds on any number of strands the tables support, all lists, all histories of a dictionary","A test compares and sorts some braids; that equal elements are always the same key, whatever words they come from, is the word problem for all of them",["peyl/braid.py:GNF", "peyl/braid.py:DGNF"])
p("The projlens plotted in the notebook","The notebook's plot for one element takes the canonical factors of the braid, lifts and multiplies them and evaluates each partial product with JonesCellRep.evaluate: entry k is the matrix of the braid with the first k + 1 canonical factors and infimum zero, whatever the infimum of the braid (a power of the Garside element raises IndexError). In a Jones representation from_matrix never meets a negative power of v there, and number k of the plot is the number of degrees the powers of v in that matrix span. plot_trajectories, which uses evaluate_prefixes_of_same_length of JonesSummand, gives every braid one point for each number of factors from 0 to its length, at the number of degrees spanned by the matrix of that prefix; for braids with infimum zero the two plots show the same numbers, after a first point (0, 1). In general projectivise(from_matrix(evaluate(x), proj=True)) is what polymat_evaluate_braid(x) returns.","all Jones representations (all n, r, p), all braids in Garside normal form, all batches of braids of one canonical length","A test compares the two ways of computing projlens on some braids; that they agree, and that no negative power of v can occur, is a statement about the images of all positive braids",["p=5 kernel elements.ipynb", "peyl/jonesrep.py:RepBase.evaluate", "peyl/polymat.py:from_matrix", "peyl/polymat.py:projectivise", "peyl/braidsearch.py:evaluate_prefixes_of_same_length"])
p("How many braids there are of each canonical length","count_all_of_length (and BraidGroup.count_all_of_garside_length) returns, for every k and every d, the number of elements b of the braid group for which d is the largest exponent with Δ^-d b positive and d + k the smallest with b⁻¹ Δ^(d+k) positive; this number is finite and does not depend on how the table was built. It is 1 for k = 0, n! - 2 for k = 1, and the count for j + k is at most the product of the counts for j and k; from three strands on it at least doubles with every factor. On two strands it is 0 for k ≥ 1, on three strands 2^(k+1), on four strands 22, 164, 982, and then 8 c(k+2) - 15 c(k+1) + 6 c(k); the number printed in the notebook for four strands and length 54, 3.7011e+40, is right. The same for DGNF with δ and band generators: Catalan(n) - 2 for k = 1, 3·2^(k-1) on three strands, and on four strands 12, 72, 372, 1840, and then 8 c(k+3) - 19 c(k+2) + 20 c(k+1) - 10 c(k).","all n within the table limit, all lengths, all exponents d, all traversal orders of sets","A test can list the braids of small length; the number for length 54 cannot be checked by listing, and the recurrences are about every length",["peyl/braid.py:NFBase.count_all_of_length", "peyl/braid.py:NFTable.count_normal_forms", "peyl/braid.py:BraidGroup.count_all_of_garside_length", "p=5 kernel elements.ipynb"])
open('/verif/properties.jsonl','w').write(''.join(json.dumps(x,ensure_ascii=False)+'\n' for x in P))
print(len(P)); 
for x in P: print(x['id'],x['title'])
