import Verif.Lemmas.BurauPowers
import Verif.Props.Magma
/-!
# The matrices of the powers of the Garside element, and of the braids of projlen 1 (C129)
-/
namespace Peyl
open LaurentPolynomial Jones Polymat Bur BraidSearch Perms
variable {lim : Nat} {ω : List Nat → List Nat → Nat → Nat}

namespace Bur
theorem minusOne_ne {p : Nat} (hp : p ≠ 1) : minusOne p ≠ 0 := by
  rw [minusOne]; split <;> omega

theorem minusOne_cast (p : Nat) : ((minusOne p : ℤ) : ZMod p) = -1 := by
  rw [minusOne]; split
  · simp
  · push_cast; simp

theorem garsideEntry_trimmed {n p : Nat} (hp : p ≠ 1) (k : ℤ) (i j : Nat) : (garsideEntry n p k i j).Trimmed := by
  rw [garsideEntry]
  have := minusOne_ne hp
  split_ifs <;> simp [LPoly.Trimmed, this]

theorem single_coeff (v c l : ℤ) : (⟨v, [c]⟩ : LPoly).den.coeff l = if v = l then c else 0 := by
  have : (⟨v, [c]⟩ : LPoly).den = AddMonoidAlgebra.single v c := by
    rw [LaurentPolynomial.single_eq_C_mul_T]; simp [LPoly.den, listPoly, mul_comm]
  rw [this, AddMonoidAlgebra.coeff_single, Finsupp.single_apply]

theorem garsideEntry_cases {p : Nat} (n : Nat) (hp0 : p ≠ 0) (hp : p ≠ 1) (k : ℤ) (i j : Nat) : (∃ c, 0 ≤ c ∧ c < (p : ℤ) ∧ garsideEntry n p k i j = ⟨n * k, [c]⟩) ∨ garsideEntry n p k i j = ⟨0, []⟩ := by
  rw [garsideEntry, minusOne, if_neg hp0]
  by_cases h : (if k % 2 = 0 then i = j else i + j = n - 2)
  · rw [if_pos h]
    by_cases h2 : ((n : ℤ) + 1) * k % 2 = 0
    · rw [if_pos h2]; exact .inl ⟨1, by omega, by omega, rfl⟩
    · rw [if_neg h2]; exact .inl ⟨p - 1, by omega, by omega, rfl⟩
  · rw [if_neg h]; exact .inr rfl

theorem garsideEntry_coeff {n p : Nat} (hp0 : p ≠ 0) (hp : p ≠ 1) (k : ℤ) (i j : Nat) (l : ℤ) : 0 ≤ (garsideEntry n p k i j).den.coeff l ∧ (garsideEntry n p k i j).den.coeff l < p := by
  rcases garsideEntry_cases n hp0 hp k i j with ⟨c, h1, h2, h3⟩ | h3
  · rw [h3, single_coeff]
    split
    · exact ⟨h1, h2⟩
    · exact ⟨le_rfl, by omega⟩
  · have : (⟨0, []⟩ : LPoly).den = 0 := by simp [LPoly.den, listPoly]
    rw [h3, this]
    exact ⟨le_rfl, by show (0 : ℤ) < p; omega⟩

theorem garsideEntry_red {n p : Nat} (k : ℤ) (i j : Fin (n - 1)) : LPoly.red p (garsideEntry n p k i j).den = ((T (n * k) : (ZMod p)[T;T⁻¹]) • (twist (ZMod p) n k).map C) i j := by
  rw [_root_.Matrix.smul_apply, _root_.Matrix.map_apply, smul_eq_mul, twist, garsideEntry]
  have hd : ∀ v c : ℤ, LPoly.red p (⟨v, [c]⟩ : LPoly).den = T v * C ((c : ℤ) : ZMod p) := by
    intro v c
    have : (⟨v, [c]⟩ : LPoly).den = C c * T v := by simp [LPoly.den, listPoly, mul_comm]
    rw [this, map_mul, red_T]
    have : LPoly.red p (C c) = C ((c : ℤ) : ZMod p) := by
      apply LaurentPolynomial.ext; intro l
      rw [LPoly.coeff_red, ← LaurentPolynomial.single_eq_C, ← LaurentPolynomial.single_eq_C, AddMonoidAlgebra.coeff_single, AddMonoidAlgebra.coeff_single, Finsupp.single_apply, Finsupp.single_apply]
      split <;> simp
    rw [this, mul_comm]
  split_ifs
  all_goals first
    | (rw [hd, minusOne_cast])
    | (rw [hd]; simp)
    | (simp [LPoly.den, listPoly])

/-- The matrix is that of the `k`-th power of the half twist, entry by entry. -/
structure IsGarside (n p : Nat) (k : ℤ) (m : Matrix) : Prop where
  nrows : m.nrows = n - 1
  ncols : m.ncols = n - 1
  length : m.data.length = (n - 1) * (n - 1)
  get : ∀ i j : Nat, i < n - 1 → j < n - 1 → m.get i j = .ok (.lp (garsideEntry n p k i j))

theorem isGarside_of {n p : Nat} (hp : p ≠ 1) (hn : 2 ≤ n) {m : Matrix} {k : ℤ} (h1 : m.Shape (n - 1) (n - 1)) (h2 : Matrix.CoeffRed p (n - 1) m) (h3 : ∀ y ∈ m.data, ∃ q, y = .lp q)
    (h4 : m.denMod p (n - 1) = rep n (vT (ZMod p)) (halfTwist n ^ k)) : IsGarside n p k m := by
  have : Nontrivial (ZMod p) := ZMod.nontrivial_iff.2 hp
  refine ⟨h1.nrows, h1.ncols, h1.length, fun i j hi hj => ?_⟩
  refine Matrix.get_of_red h1 h3 h2 (garsideEntry n p k) (garsideEntry_trimmed hp k) (fun h0 i j l => garsideEntry_coeff h0 hp k i j l) (fun i j => ?_) hi hj
  rw [garsideEntry_red, h4]
  exact congrFun (congrFun (const_twist (K := ZMod p) hn k) i) j

theorem IsGarside.denMod {n p : Nat} (hp : p ≠ 1) (hn : 2 ≤ n) {m : Matrix} {k : ℤ} (h : IsGarside n p k m) : m.denMod p (n - 1) = rep n (vT (ZMod p)) (halfTwist n ^ k) := by
  have : Nontrivial (ZMod p) := ZMod.nontrivial_iff.2 hp
  rw [show rep n (vT (ZMod p)) (halfTwist n ^ k) = _ from const_twist (K := ZMod p) hn k]
  refine _root_.Matrix.ext fun i j => ?_
  rw [← garsideEntry_red, Matrix.denMod, _root_.Matrix.map_apply, Matrix.den, h.get i j i.2 j.2]
  rfl

theorem expo_gnf {n : Nat} (hn : 2 ≤ n) (hl : n < lim) {x : NF} (hx : IsGNF lim ω n x) {fs : List (List Nat)} (hf : NF.canonicalFactors (GNF.tbl lim ω) x = .ok fs) :
    2 * expo n (gnfBraid n x) = n * (n - 1) * NF.inf x + 2 * (fs.map Perms.length).sum := by
  obtain ⟨t, R⟩ := exists_greal lim ω hn hl
  have hx' := R.isGNF_iff.1 hx
  have key : ∀ (l : List Nat) (fs : List (List Nat)), l.mapM (lookup (elements n)) = .ok fs → expo n (l.map fun f => lift (permAt n f)).prod = ((fs.map Perms.length).sum : ℕ) := by
    intro l
    induction l with
    | nil => intro fs h; rw [List.mapM_nil] at h; cases h; simp [expo_one]
    | cons f l ih =>
      intro fs h
      rw [List.mapM_cons, bind_eq_ok] at h
      obtain ⟨c, hc, h⟩ := h
      rw [bind_eq_ok] at h
      obtain ⟨cs, hcs, h⟩ := h
      cases h
      rw [lookup_ok] at hc
      obtain ⟨hlt, rfl⟩ := List.getElem?_eq_some_iff.1 hc
      rw [List.map_cons, List.prod_cons, expo_mul, ih cs hcs, expo_lift, permAt_spec hlt, List.map_cons, List.sum_cons, length_eq]
      push_cast; rfl
  rw [NF.canonicalFactors, hx'.n_eq, R.1.ok, bind_ok, R.2.2.1] at hf
  rw [gnfBraid, expo_mul, expo_zpow, key _ _ hf, mul_add, NF.inf, mul_left_comm, two_expo_half]
  push_cast; ring
end Bur

/-- C129: the powers of the Garside element: `positive_lift` of the order reversing permutation is the element `Delta`, `Delta**k` is the
normal form with infimum `k` and no factors, and `JonesCellRep(n, 1, p).evaluate(Delta**k)` is, entry by entry, `±v^(nk)` on the diagonal or
the antidiagonal (for `k = 0` it is `Matrix.id(n-1)`). -/
theorem C129_half_twist (n p : Nat) (hn : 2 ≤ n) (hl : n < lim) (hp : p ≠ 1) : ∃ rep : RepBase (dimension n 1), cellRep n 1 p = .ok rep ∧
    BraidGroup.positiveLift lim ω n (List.range n).reverse = .ok ⟨n, 1, []⟩ ∧
    ∀ k : ℤ, NF.pow (GNF.tbl lim ω) ⟨n, 1, []⟩ k = .ok ⟨n, k, []⟩ ∧ ∃ m, rep.evaluate (GNF.tbl lim ω) ⟨n, k, []⟩ = .ok m ∧ (k = 0 → m = Matrix.identity (n - 1)) ∧
      (k ≠ 0 → m.nrows = n - 1 ∧ m.ncols = n - 1 ∧ m.data.length = (n - 1) * (n - 1) ∧ ∀ i j : Nat, i < n - 1 → j < n - 1 → m.get i j = .ok (.lp (garsideEntry n p k i j))) := by
  obtain ⟨rep', h1, e1, e2, l1, l2, h⟩ := C127_matrices n p hn hp
  have hid : IsGNF lim ω n ⟨n, 0, []⟩ := by
    obtain ⟨t, R⟩ := exists_greal lim ω hn hl
    obtain ⟨z, -, z2, rfl, -⟩ := R.1.identity_spec
    exact R.isGNF_iff.2 z2
  have hk : ∀ k : ℤ, IsGNF lim ω n ⟨n, k, []⟩ ∧ gnfBraid n ⟨n, k, []⟩ = halfTwist n ^ k := fun k => ⟨isGNF_power hid k, by simp [gnfBraid]⟩
  refine ⟨rep', h1, ?_, fun k => ⟨?_, ?_⟩⟩
  · have e : (List.range n).reverse = wordOf (w0 n) := by rw [WordForm.range_rev, longestElement_eq]
    obtain ⟨x, x1, x2, x3⟩ := positiveLift_spec (lim := lim) (ω := ω) hn hl (w0 n)
    rw [e, x1, (C15_unique hn hl _ _ x2 (hk 1).1).2 (by rw [x3, (hk 1).2, zpow_one, halfTwist])]
  · obtain ⟨z, z1, z2, z3⟩ := C13_pow hn hl ⟨n, 1, []⟩ (hk 1).1 k
    rw [z1, (C15_unique hn hl _ _ z2 (hk k).1).2 (by rw [z3, (hk 1).2, (hk k).2, zpow_one])]
  · obtain ⟨m, m1, m2, m3, m4, m5⟩ := evaluate_rep hn hl hp (dimension_one n hn) rep' e1 e2 l1 l2 h _ (hk k).1
    refine ⟨m, m1, fun h0 => ?_, fun h0 => ?_⟩
    · subst h0
      obtain ⟨t, R⟩ := exists_greal lim ω hn hl
      have hw : NF.artinWord (GNF.tbl lim ω) ⟨n, 0, []⟩ = .ok [] := by
        obtain ⟨ds, fs, us, d1, f1, u1, w1⟩ := C14_artin_word_form (ω := ω) hn hl ⟨n, 0, []⟩ hid
        have : fs = [] := by
          rw [NF.canonicalFactors, R.1.ok, bind_ok, List.mapM_nil] at f1; cases f1; rfl
        subst this
        rw [List.mapM_nil] at u1; cases u1
        rw [w1]; simp [NF.inf]
      rw [RepBase.evaluate, hw, bind_ok, RepBase.evaluateArtinWord, List.mapM_nil] at m1
      have e : dimension n 1 = n - 1 := dimension_one n hn
      have m1 : (.ok (if rep'.p ≠ 0 then (Matrix.identity (dimension n 1)).map (Entry.modp rep'.p) else Matrix.identity (dimension n 1)) : Except Err Matrix) = .ok m := m1
      injection m1 with m1
      rw [← m1]
      generalize rep'.p = q
      rw [e]
      split
      · rw [Matrix.map]
        have : ∀ y ∈ (Matrix.identity (n - 1)).data, Entry.modp q y = y := by
          intro y hy
          simp only [Matrix.identity, Matrix.tabulate, List.mem_flatMap, List.mem_map] at hy
          obtain ⟨i, -, j, -, rfl⟩ := hy
          rfl
        rw [List.map_congr_left this, List.map_id']
      · rfl
    · have := isGarside_of hp hn m2 m4 (m5 (by simpa using h0)) (by rw [m3, (hk k).2])
      exact ⟨this.nrows, this.ncols, this.length, this.get⟩

/-- C129: for every braid `x` other than the identity: `projlen` is 1 exactly if `evaluate(x)` is, entry by entry, the matrix of a power `k`
of the Garside element.  That power is `inf(x)` plus twice the number of letters of the canonical factors over `n (n-1)`; and
`Delta**j * x` evaluates to the identity matrix exactly for `j = -k`. -/
theorem C129_near_kernel (n p : Nat) (hn : 2 ≤ n) (hl : n < lim) (hp : p ≠ 1) : ∃ rep : RepBase (dimension n 1), cellRep n 1 p = .ok rep ∧
    ∀ x, IsGNF lim ω n x → x ≠ ⟨n, 0, []⟩ → ∃ fs A pl m, NF.canonicalFactors (GNF.tbl lim ω) x = .ok fs ∧ rep.evalOne (GNF.tbl lim ω) x = .ok A ∧ projlen A = .ok pl ∧
      rep.evaluate (GNF.tbl lim ω) x = .ok m ∧ m.nrows = n - 1 ∧ m.ncols = n - 1 ∧ m.data.length = (n - 1) * (n - 1) ∧
      (pl () = 1 ↔ ∃ k : ℤ, ∀ i j : Nat, i < n - 1 → j < n - 1 → m.get i j = .ok (.lp (garsideEntry n p k i j))) ∧
      ∀ k : ℤ, (∀ i j : Nat, i < n - 1 → j < n - 1 → m.get i j = .ok (.lp (garsideEntry n p k i j))) →
        n * (n - 1) * (k - NF.inf x) = 2 * (fs.map Perms.length).sum ∧
        ∀ j : ℤ, ∃ y z m', NF.pow (GNF.tbl lim ω) ⟨n, 1, []⟩ j = .ok y ∧ NF.mul (GNF.tbl lim ω) y x = .ok z ∧ rep.evaluate (GNF.tbl lim ω) z = .ok m' ∧
          (m'.den (n - 1) (n - 1) = 1 ↔ j = -k) := by
  obtain ⟨rep', h1, e1, e2, l1, l2, h⟩ := C127_matrices n p hn hp
  have : Nontrivial (ZMod p) := ZMod.nontrivial_iff.2 hp
  obtain ⟨rep2, q1, q2⟩ := C122_projlen (ω := ω) n p hn hl hp
  rw [h1] at q1; cases q1
  obtain ⟨rep3, r1, -, r2⟩ := C129_half_twist (ω := ω) n p hn hl hp
  have hd := dimension_one n hn
  have hid : IsGNF lim ω n ⟨n, 0, []⟩ := by
    obtain ⟨t, R⟩ := exists_greal lim ω hn hl
    obtain ⟨z, -, z2, rfl, -⟩ := R.1.identity_spec
    exact R.isGNF_iff.2 z2
  have ev := evaluate_rep (ω := ω) hn hl hp hd rep' e1 e2 l1 l2 h
  have one_iff : ∀ {y : NF} {m : Matrix}, IsGNF lim ω n y → rep'.evaluate (GNF.tbl lim ω) y = .ok m → (m.den (n - 1) (n - 1) = 1 ↔ rep n (vT (ZMod p)) (gnfBraid n y) = 1) := by
    intro y m hy hm
    obtain ⟨ρ, G, I, gs, g1, g2, -, -, hF, hd'⟩ := C54_hypotheses n 1 p hn (by omega)
    rw [h1] at g1; cases g1
    obtain ⟨e, he⟩ := realises_burau hn h1 g2
    have h3 := evaluate_one hn hl hp hd' g2 hy
    have h4 : ρ (gnfBraid n y) = 1 ↔ rep n (vT (ZMod p)) (gnfBraid n y) = 1 := by
      rw [he]
      constructor
      · intro h
        have := congrArg (fun M => M.submatrix e.symm e.symm) h
        simpa using this
      · intro h; rw [h]; simp
    have hdd : m.den (dimension n 1) (dimension n 1) = 1 ↔ m.den (n - 1) (n - 1) = 1 := by rw [hd]
    rw [← h4, ← h3, ← hdd]
    exact ⟨fun q => ⟨m, hm, q⟩, fun ⟨m', a, b⟩ => by rw [hm] at a; cases a; exact b⟩
  refine ⟨rep', h1, fun x hx h0 => ?_⟩
  obtain ⟨m, m1, m2, m3, m4, m5⟩ := ev x hx
  obtain ⟨A, pl, a1, a2, a3⟩ := q2 x hx
  obtain ⟨ds, fs, us, -, f1, -, -⟩ := C14_artin_word_form hn hl x hx
  have gk : ∀ k : ℤ, (∀ i j : Nat, i < n - 1 → j < n - 1 → m.get i j = .ok (.lp (garsideEntry n p k i j))) ↔ rep n (vT (ZMod p)) (gnfBraid n x) = rep n (vT (ZMod p)) (halfTwist n ^ k) := by
    intro k
    constructor
    · intro hk
      rw [← m3, IsGarside.denMod hp hn ⟨m2.nrows, m2.ncols, m2.length, hk⟩]
    · intro hk
      exact (isGarside_of hp hn m2 m4 (m5 h0) (by rw [m3, hk])).get
  have ker_iff : ∀ (b : Braid n) (j : ℤ), rep n (vT (ZMod p)) (halfTwist n ^ j * b) = 1 ↔ rep n (vT (ZMod p)) b = rep n (vT (ZMod p)) (halfTwist n ^ (-j)) := by
    intro b j
    constructor
    · intro q
      have : rep n (vT (ZMod p)) (halfTwist n ^ (-j) * (halfTwist n ^ j * b)) = rep n (vT (ZMod p)) (halfTwist n ^ (-j)) := by rw [map_mul, q, mul_one]
      rwa [← mul_assoc, ← zpow_add, neg_add_cancel, zpow_zero, one_mul] at this
    · intro q
      rw [map_mul, q, ← map_mul, ← zpow_add, add_neg_cancel, zpow_zero, map_one]
  refine ⟨fs, A, pl, m, f1, a1, a2, m1, m2.nrows, m2.ncols, m2.length, ?_, fun k hk => ⟨?_, fun j => ?_⟩⟩
  · have hdd : ∀ m' : Matrix, m'.den (dimension n 1) (dimension n 1) = 1 ↔ m'.den (n - 1) (n - 1) = 1 := fun m' => by rw [hd]
    rw [a3]
    constructor
    · rintro ⟨k, m', g1, g2, g3⟩
      rw [hdd] at g3
      have := (one_iff g1 g2).1 g3
      rw [gnfBraid_power, ker_iff] at this
      exact ⟨_, (gk _).2 (by rw [this])⟩
    · rintro ⟨k, hk⟩
      have h5 := (gk k).1 hk
      obtain ⟨m', b1, -⟩ := ev _ (isGNF_power hx (x.power - k))
      refine ⟨x.power - k, m', isGNF_power hx _, b1, ?_⟩
      rw [hdd, one_iff (isGNF_power hx _) b1, gnfBraid_power, ker_iff, h5]
      congr 2; ring
  · have h5 := (gk k).1 hk
    have h6 : rep n (vT (ZMod p)) (halfTwist n ^ (-k) * gnfBraid n x) = 1 := by rw [ker_iff, h5, neg_neg]
    have h7 := expo_ker h6
    have h8 := expo_gnf hn hl hx f1
    have h9 := two_expo_half (n := n)
    rw [expo_mul, expo_zpow] at h7
    linear_combination (-2) * h7 - k * h9 + h8
  · have hy : IsGNF lim ω n ⟨n, j, []⟩ := isGNF_power hid j
    obtain ⟨z, z1, z2, z3⟩ := C11_mul hn hl _ x hy hx
    obtain ⟨m', b1, -⟩ := ev z z2
    refine ⟨_, z, m', (r2 j).1, z1, b1, ?_⟩
    rw [one_iff z2 b1, z3, show gnfBraid n ⟨n, j, []⟩ = halfTwist n ^ j by simp [gnfBraid], ker_iff, (gk k).1 hk]
    constructor
    · intro q
      have : rep n (vT (ZMod p)) (halfTwist n ^ (k + j)) = 1 := by
        rw [zpow_add, map_mul, q, ← map_mul, ← zpow_add, neg_add_cancel, zpow_zero, map_one]
      have := half_pow_ker hn hp this
      omega
    · rintro rfl; rw [neg_neg]

/-- C129: the matrices printed in the notebook and the README: the documented elements, before the Garside power is divided out, evaluate to
the matrix of that power. -/
theorem C129_documented (x : KernelElement) (hx : x ∈ kernelElements) (hl : x.n < lim) : ∃ (rep : RepBase (dimension x.n 1)) (y : NF) (m : Matrix), cellRep x.n 1 x.p = .ok rep ∧
    BraidGroup.fromGnfPair lim ω x.n 0 x.seq = .ok y ∧ rep.evaluate (GNF.tbl lim ω) y = .ok m ∧ m.nrows = x.n - 1 ∧ m.ncols = x.n - 1 ∧
    ∀ i j : Nat, i < x.n - 1 → j < x.n - 1 → m.get i j = .ok (.lp (garsideEntry x.n x.p x.power i j)) := by
  have hb : 2 ≤ x.n ∧ x.p ≠ 1 ∧ x.seq ≠ [] ∧ x.n * (x.n - 1) * x.power = 2 * (x.seq.map Perms.length).sum := by
    clear hl; revert x; decide +kernel
  obtain ⟨hn, hp, hs, hlen⟩ := hb
  obtain ⟨rep', h1, ⟨y, A, y1, y2, yi, yf, y3, y4, y5⟩, -⟩ := C123_documented (ω := ω) x hx hl
  obtain ⟨rep2, g1, g2⟩ := C129_near_kernel (ω := ω) x.n x.p hn hl hp
  rw [h1] at g1; cases g1
  have hne : y ≠ ⟨x.n, 0, []⟩ := by
    rintro rfl
    exact hs (List.eq_nil_of_length_eq_zero y3.symm)
  obtain ⟨fs, A', pl, m, f1, a1, a2, m1, m2, m3, -, m5, m6⟩ := g2 y y2 hne
  rw [y4] at a1; cases a1
  rw [y5] at a2; cases a2
  obtain ⟨k, hk⟩ := m5.1 rfl
  have h6 := (m6 k hk).1
  rw [yf] at f1; cases f1
  have hc : (x.n : ℤ) * (x.n - 1) * x.power = 2 * (x.seq.map Perms.length).sum := by
    have h7 : ((x.n * (x.n - 1) * x.power : ℕ) : ℤ) = ((2 * (x.seq.map Perms.length).sum : ℕ) : ℤ) := by rw [hlen]
    rw [Nat.cast_mul, Nat.cast_mul, Nat.cast_sub (by omega), Nat.cast_mul] at h7
    exact_mod_cast h7
  rw [yi, sub_zero, ← hc] at h6
  have hz : (x.n : ℤ) * (x.n - 1) ≠ 0 := mul_ne_zero (by omega) (by omega)
  obtain rfl := mul_left_cancel₀ hz h6
  exact ⟨rep', y, m, h1, y1, m1, m2, m3, hk⟩

/-- The notebook's `cell_rep.evaluate(a)`: `4v^108` on the antidiagonal. -/
example : elemA ∈ kernelElements ∧ elemA.power = 27 ∧ garsideEntry 4 5 27 0 2 = ⟨108, [4]⟩ ∧ garsideEntry 4 5 27 0 0 = ⟨0, []⟩ ∧ garsideEntry 6 0 14 3 3 = ⟨84, [1]⟩ := by
  exact ⟨by simp [kernelElements], rfl, by decide, by decide, by decide⟩

end Peyl
