import Verif.Lemmas.MinPolyCos
import Verif.Lemmas.LPolyCoeff
/-!
# Properties C31–C41: Laurent polynomials and polynomials
-/
namespace Peyl
open Polynomial LaurentPolynomial

/-! ## C31 -/

/-- C31 (objects): the constructor and every operation return trimmed objects. -/
theorem C31_lpoly_trimmed :
    (∀ val c, (LPoly.make val c).Trimmed) ∧
    (∀ a b : LPoly, (a.add b).Trimmed ∧ (a.sub b).Trimmed ∧ (a.mul b).Trimmed ∧ a.neg.Trimmed) ∧
    (∀ (a : LPoly) (k : Int), (a.addInt k).Trimmed ∧ (a.subInt k).Trimmed ∧ (a.rsubInt k).Trimmed ∧ (a.mulInt k).Trimmed) ∧
    (∀ (a : LPoly) (n : Int) (r : LPoly), a.Trimmed → a.pow n = .ok r → r.Trimmed) ∧
    (∀ (a b r : LPoly), a.truediv b = .ok r → r.Trimmed) ∧
    (∀ (f : Int → Int) (a : LPoly), (a.map f).Trimmed) ∧ (∀ n, (LPoly.quantumInteger n).Trimmed) := by
  refine ⟨LPoly.trimmed_make, fun a b => ⟨LPoly.trimmed_make _ _, LPoly.trimmed_make _ _, LPoly.trimmed_make _ _, LPoly.trimmed_make _ _⟩,
    fun a k => ⟨LPoly.trimmed_make _ _, LPoly.trimmed_make _ _, LPoly.trimmed_make _ _, LPoly.trimmed_make _ _⟩, ?_, ?_,
    fun f a => LPoly.trimmed_make _ _, ?_⟩
  · intro a n r ha h
    unfold LPoly.pow at h
    split at h
    · split at h
      · cases h; exact LPoly.trimmed_powNat _ (LPoly.trimmed_make _ _) _
      · cases h
    · cases h; exact LPoly.trimmed_powNat _ ha _
  · intro a b r h
    unfold LPoly.truediv at h
    cases hq : Poly.truediv (Poly.make a.coeffs) (Poly.make b.coeffs) with
    | error e => rw [hq] at h; cases h
    | ok q => rw [hq] at h; cases h; exact LPoly.trimmed_make _ _
  · intro n; unfold LPoly.quantumInteger; split <;> exact LPoly.trimmed_make _ _

/-- C31: `==` is equality of Laurent polynomials, and `valuation`/`degree` are the extreme exponents. -/
theorem C31_lpoly_canonical (p q : LPoly) (hp : p.Trimmed) (hq : q.Trimmed) :
    (p = q ↔ p.den = q.den) ∧ (p.isZero = true ↔ p.den = 0) ∧
    (p.den ≠ 0 → p.den.coeff p.valuation ≠ 0 ∧ p.den.coeff p.degree ≠ 0 ∧
      ∀ k, p.den.coeff k ≠ 0 → p.valuation ≤ k ∧ k ≤ p.degree) := by
  refine ⟨⟨fun h => by rw [h], hp.den_inj hq⟩, ?_, ?_⟩
  · rw [LPoly.den_eq_zero_iff hp]; simp [LPoly.isZero]
  · intro h
    rw [Ne, LPoly.den_eq_zero_iff hp] at h
    refine ⟨LPoly.head_ne hp h, LPoly.getLast_ne hp h, fun k hk => ⟨?_, ?_⟩⟩
    · by_contra hc; exact hk (LPoly.coeff_below p k (by omega))
    · by_contra hc; exact hk (LPoly.coeff_above p k (by omega))

/-- Every Laurent polynomial has exactly one trimmed representation. -/
theorem C31_lpoly_unique_rep (f : ℤ[T;T⁻¹]) : ∃! p : LPoly, p.Trimmed ∧ p.den = f := by
  obtain ⟨p, h1, h2⟩ := LPoly.exists_den f
  exact ⟨p, ⟨h1, h2⟩, fun q hq => hq.1.den_inj h1 (hq.2.trans h2.symm)⟩

example : (LPoly.make (-3) [0, 0, 5, 0, -1, 0]).Trimmed ∧ LPoly.make (-3) [0, 0, 5, 0, -1, 0] = ⟨-1, [5, 0, -1]⟩ := by decide

/-! ## C32 -/

/-- C32: the operators compute in `ℤ[v,v⁻¹]`. -/
theorem C32_lpoly_arithmetic (a b : LPoly) (k : Int) :
    (a.add b).den = a.den + b.den ∧ (a.sub b).den = a.den - b.den ∧ a.neg.den = - a.den ∧
    (a.mul b).den = a.den * b.den ∧ (a.addInt k).den = a.den + LaurentPolynomial.C k ∧
    (a.subInt k).den = a.den - LaurentPolynomial.C k ∧ (a.rsubInt k).den = LaurentPolynomial.C k - a.den ∧
    (a.mulInt k).den = a.den * LaurentPolynomial.C k :=
  ⟨LPoly.den_add a b, LPoly.den_sub a b, LPoly.den_neg a, LPoly.den_mul a b, LPoly.den_addInt a k, LPoly.den_subInt a k,
    LPoly.den_rsubInt a k, LPoly.den_mulInt a k⟩

/-- C32: the ring laws, as `==` of objects. -/
theorem C32_lpoly_ring_laws (a b c : LPoly) (ha : a.Trimmed) :
    a.add b = b.add a ∧ a.mul b = b.mul a ∧ (a.add b).add c = a.add (b.add c) ∧ (a.mul b).mul c = a.mul (b.mul c) ∧
    a.mul (b.add c) = (a.mul b).add (a.mul c) ∧ a.add (LPoly.make 0 []) = a ∧ a.mul (LPoly.make 0 [1]) = a ∧
    a.sub a = LPoly.make 0 [] := by
  have t := C31_lpoly_trimmed.2.1
  have inj : ∀ (p q : LPoly), p.Trimmed → q.Trimmed → p.den = q.den → p = q := fun p q hp hq h => hp.den_inj hq h
  refine ⟨?_, ?_, ?_, ?_, ?_, ?_, ?_, ?_⟩
  · exact inj (a.add b) (b.add a) (t a b).1 (t b a).1 (by rw [LPoly.den_add, LPoly.den_add]; ring)
  · exact inj (a.mul b) (b.mul a) (t a b).2.2.1 (t b a).2.2.1 (by rw [LPoly.den_mul, LPoly.den_mul]; ring)
  · exact inj ((a.add b).add c) (a.add (b.add c)) (t _ _).1 (t _ _).1 (by simp only [LPoly.den_add]; ring)
  · exact inj ((a.mul b).mul c) (a.mul (b.mul c)) (t _ _).2.2.1 (t _ _).2.2.1 (by simp only [LPoly.den_mul]; ring)
  · exact inj (a.mul (b.add c)) ((a.mul b).add (a.mul c)) (t _ _).2.2.1 (t _ _).1 (by simp only [LPoly.den_mul, LPoly.den_add]; ring)
  · exact inj (a.add (LPoly.make 0 [])) a (t _ _).1 ha (by rw [LPoly.den_add, LPoly.den_make]; simp)
  · exact inj (a.mul (LPoly.make 0 [1])) a (t _ _).2.2.1 ha (by rw [LPoly.den_mul, LPoly.den_make]; simp)
  · exact inj (a.sub a) (LPoly.make 0 []) (t _ _).2.1 (LPoly.trimmed_make _ _) (by rw [LPoly.den_sub, LPoly.den_make]; simp)

/-! ## C33 -/

/-- C33: non-negative powers are iterated products. -/
theorem C33_lpoly_pow (a : LPoly) (n : Nat) : ∃ r, a.pow n = .ok r ∧ r.den = a.den ^ n :=
  ⟨_, LPoly.pow_nonneg a n (by omega), LPoly.den_powNat _ _⟩

/-- C33: negative powers of units are the inverse powers; of anything else they raise `ValueError`; the units are
exactly the objects for which `is_unit()` holds. -/
theorem C33_lpoly_pow_neg (a : LPoly) (ha : a.Trimmed) (n : Nat) (hn : 0 < n) :
    (IsUnit a.den → ∃ r, a.pow (-n) = .ok r ∧ r.den * a.den ^ n = 1) ∧
    (¬ IsUnit a.den → a.pow (-n) = .error .value) ∧ (a.isUnit = true ↔ IsUnit a.den) := by
  refine ⟨?_, fun h => LPoly.pow_neg_error ha h (by omega), ?_⟩
  · rintro ⟨u, hu⟩
    obtain ⟨r, h1, _, h3⟩ := LPoly.den_pow_unit ha u hu (-n)
    refine ⟨r, h1, ?_⟩
    rw [h3, ← hu, ← Units.val_pow_eq_pow_val, ← Units.val_mul]; simp
  · rw [LPoly.isUnit_den_iff ha, LPoly.isUnit]
    constructor
    · intro h
      rw [Bool.and_eq_true, Bool.or_eq_true] at h
      obtain ⟨h1, h2⟩ := h
      have h1 : a.coeffs.length = 1 := by simpa using h1
      obtain ⟨c, hc⟩ := List.length_eq_one_iff.1 h1
      rw [hc] at h2 ⊢; simpa using h2
    · rintro (h | h) <;> rw [h] <;> decide

example : ∃ a : LPoly, a.Trimmed ∧ IsUnit a.den ∧ a.pow (-3) = .ok ⟨-6, [-1]⟩ :=
  ⟨⟨2, [-1]⟩, by decide, (LPoly.isUnit_den_iff (by decide)).2 (Or.inr rfl), by decide +kernel⟩
example : ∃ a : LPoly, a.Trimmed ∧ ¬ IsUnit a.den ∧ a.pow (-3) = .error .value :=
  ⟨⟨0, [1, 1]⟩, by decide, fun h => by have := (LPoly.isUnit_den_iff (by decide)).1 h; simp at this, by decide +kernel⟩

/-! ## C34 -/

/-- C34: evaluation at a unit is the ring homomorphism `v ↦ y`. -/
theorem C34_lpoly_evaluate_unit (p y : LPoly) (hy : y.Trimmed) (u : (ℤ[T;T⁻¹])ˣ) (hu : (u : ℤ[T;T⁻¹]) = y.den) :
    ∃ r, p.evaluate y = .ok r ∧ r.Trimmed ∧ r.den = LaurentPolynomial.eval₂ LaurentPolynomial.C u p.den :=
  LPoly.evaluate_unit p hy u hu

/-- C34: hence it is compatible with `+` and `*`, as `==` of objects. -/
theorem C34_lpoly_evaluate_hom (p q y : LPoly) (hy : y.Trimmed) (hu : IsUnit y.den) :
    ∃ rp rq, p.evaluate y = .ok rp ∧ q.evaluate y = .ok rq ∧
      (p.add q).evaluate y = .ok (rp.add rq) ∧ (p.mul q).evaluate y = .ok (rp.mul rq) := by
  obtain ⟨u, hu⟩ := hu
  obtain ⟨rp, h1, t1, d1⟩ := LPoly.evaluate_unit p hy u hu
  obtain ⟨rq, h2, t2, d2⟩ := LPoly.evaluate_unit q hy u hu
  obtain ⟨ra, h3, t3, d3⟩ := LPoly.evaluate_unit (p.add q) hy u hu
  obtain ⟨rm, h4, t4, d4⟩ := LPoly.evaluate_unit (p.mul q) hy u hu
  refine ⟨rp, rq, h1, h2, ?_, ?_⟩
  · rw [h3]; congr 1
    exact t3.den_inj (LPoly.trimmed_make _ _) (by rw [d3, LPoly.den_add, map_add, LPoly.den_add, d1, d2])
  · rw [h4]; congr 1
    exact t4.den_inj (LPoly.trimmed_make _ _) (by rw [d4, LPoly.den_mul, map_mul, LPoly.den_mul, d1, d2])

/-- C34: evaluation of a Laurent polynomial without negative powers at any point is substitution. -/
theorem C34_lpoly_evaluate_nonneg (p y : LPoly) (hy : y.Trimmed) (P : ℤ[X]) (hP : p.den = toLaurent P) (hp : p.Trimmed) :
    ∃ r, p.evaluate y = .ok r ∧ r.Trimmed ∧ r.den = aeval y.den P := by
  by_cases h0 : p.coeffs = []
  · have hv : p.val = 0 := hp.1 h0
    obtain ⟨r, h1, h2, h3⟩ := LPoly.evaluate_nonneg p hy (by omega)
    refine ⟨r, h1, h2, ?_⟩
    have : P = 0 := by rw [← toLaurent_eq_zero, ← hP, LPoly.den_eq_zero_iff hp]; exact h0
    rw [h3, this, h0]; simp
  · have hv : 0 ≤ p.val := by
      by_contra hc
      have h1 := LPoly.head_ne hp h0
      rw [hP, coeff_toLaurent_int, if_neg (by rw [LPoly.valuation]; omega)] at h1
      exact h1 rfl
    obtain ⟨r, h1, h2, h3⟩ := LPoly.evaluate_nonneg p hy hv
    refine ⟨r, h1, h2, ?_⟩
    rw [h3]
    congr 1
    rw [← toLaurent_inj, ← hP, LPoly.den, map_mul, toLaurent_X_pow, Int.toNat_of_nonneg hv]

/-- C34: with a negative power, evaluation at a non-unit raises `ValueError`. -/
theorem C34_lpoly_evaluate_error (p y : LPoly) (hp : p.Trimmed) (hy : y.Trimmed) (hv : p.valuation < 0) (hu : ¬ IsUnit y.den) :
    p.evaluate y = .error .value := LPoly.evaluate_error hp hy hv hu

example : (LPoly.make (-1) [1, 0, 2]).evaluate ⟨-1, [-1]⟩ = .ok ⟨-1, [-2, 0, -1]⟩ := by decide +kernel

/-! ## C35 -/

/-- C35: `[n]·(v - v⁻¹) = vⁿ - v⁻ⁿ` and `[-n] = -[n]`. -/
theorem C35_quantum_integer (n : Int) :
    (LPoly.quantumInteger n).den * (T 1 - T (-1)) = T n - T (-n) ∧
    LPoly.quantumInteger (-n) = (LPoly.quantumInteger n).neg := by
  refine ⟨LPoly.quantum_spec n, ?_⟩
  have ht : ∀ m, (LPoly.quantumInteger m).Trimmed := C31_lpoly_trimmed.2.2.2.2.2.2
  apply LPoly.Trimmed.den_inj (p := LPoly.quantumInteger (-n)) (q := (LPoly.quantumInteger n).neg) (ht _) (C31_lpoly_trimmed.2.1 _ (LPoly.make 0 [])).2.2.2
  have hne : (T 1 - T (-1) : ℤ[T;T⁻¹]) ≠ 0 := by
    intro h
    have := congrArg (fun f => f.coeff 1) h
    simp at this
  apply mul_right_cancel₀ hne
  rw [LPoly.quantum_spec, LPoly.den_neg, neg_mul, LPoly.quantum_spec]
  simp

/-! ## C36 -/

/-- C36: `divmod` by zero fails its assertion; otherwise it succeeds iff an integer quotient and remainder exist, and
then returns them (they are unique); else it raises `ValueError`. -/
theorem C36_divmod (n d : Poly) (hn : n.Trimmed) (hd : d.Trimmed) :
    (d.den = 0 → n.divmod d = .error .assertion) ∧
    (d.den ≠ 0 → ∀ Q R : ℤ[X], (n.den = d.den * Q + R ∧ R.degree < d.den.degree) →
      ∃ q r : Poly, n.divmod d = .ok (q, r) ∧ q.den = Q ∧ r.den = R) ∧
    (d.den ≠ 0 → (¬ ∃ Q R : ℤ[X], n.den = d.den * Q + R ∧ R.degree < d.den.degree) → n.divmod d = .error .value) := by
  refine ⟨Poly.divmod_zero hd, ?_, ?_⟩
  · intro h0 Q R h
    rcases Poly.divmod_spec hn hd h0 with ⟨q, r, h1, h2, h3, h4⟩ | ⟨_, h2⟩
    · exact ⟨q, r, h1, Poly.IsDiv.unique h4 h⟩
    · exact absurd ⟨Q, R, h⟩ h2
  · intro h0 h
    rcases Poly.divmod_spec hn hd h0 with ⟨q, r, h1, h2, h3, h4⟩ | ⟨h1, _⟩
    · exact absurd ⟨_, _, h4⟩ h
    · exact h1

/-- C36: with leading coefficient `±1` division always succeeds. -/
theorem C36_divmod_monic (n d : Poly) (hn : n.Trimmed) (hd : d.Trimmed) (h : d.den.leadingCoeff = 1 ∨ d.den.leadingCoeff = -1) :
    ∃ q r : Poly, n.divmod d = .ok (q, r) ∧ n.den = d.den * q.den + r.den ∧ r.den.degree < d.den.degree := by
  have h0 : d.den ≠ 0 := by
    intro h0; rw [h0] at h; simp at h
  rcases Poly.divmod_spec hn hd h0 with ⟨q, r, h1, h2, h3, h4⟩ | ⟨_, h2⟩
  · exact ⟨q, r, h1, h4⟩
  · exfalso
    apply h2
    rcases h with h | h
    · exact ⟨n.den /ₘ d.den, n.den %ₘ d.den, by rw [add_comm, modByMonic_add_div], degree_modByMonic_lt _ h⟩
    · have hm : (-d.den).Monic := by rw [Monic, leadingCoeff_neg, h]; norm_num
      refine ⟨- (n.den /ₘ (-d.den)), n.den %ₘ (-d.den), ?_, ?_⟩
      · have := modByMonic_add_div n.den (-d.den)
        linear_combination -this
      · have := degree_modByMonic_lt n.den hm
        rwa [degree_neg] at this

/-- C36: `n / d` returns the exact quotient when there is one and raises `ValueError` otherwise. -/
theorem C36_truediv (n d : Poly) (hn : n.Trimmed) (hd : d.Trimmed) (h0 : d.den ≠ 0) :
    (∀ Q : ℤ[X], n.den = d.den * Q → ∃ q : Poly, n.truediv d = .ok q ∧ q.den = Q) ∧
    ((¬ ∃ Q : ℤ[X], n.den = d.den * Q) → n.truediv d = .error .value) := by
  refine ⟨?_, Poly.truediv_error hn hd h0⟩
  intro Q h
  obtain ⟨q, h1, _, h3⟩ := Poly.truediv_exact hn hd h0 Q h
  exact ⟨q, h1, h3⟩

example : (⟨[-1, 0, 0, 1]⟩ : Poly).truediv ⟨[-1, 1]⟩ = .ok ⟨[1, 1, 1]⟩ ∧
    (⟨[0, 0, 1]⟩ : Poly).divmod ⟨[0, 2]⟩ = .error .value ∧ (⟨[0, 1]⟩ : Poly).truediv ⟨[1, 1]⟩ = .error .value := by
  decide +kernel

/-! ## C37 -/

/-- C37: `Poly` arithmetic is arithmetic of `ℤ[X]`. -/
theorem C37_poly_arithmetic (a b : Poly) (k : Int) (n : Nat) :
    (a.add b).den = a.den + b.den ∧ (a.sub b).den = a.den - b.den ∧ a.neg.den = -a.den ∧ (a.mul b).den = a.den * b.den ∧
    (a.addInt k).den = a.den + Polynomial.C k ∧ (a.subInt k).den = a.den - Polynomial.C k ∧ (a.mulInt k).den = a.den * Polynomial.C k ∧
    (∃ r, a.pow n = .ok r ∧ r.den = a.den ^ n) ∧ (a.evaluate b).den = a.den.comp b.den := by
  refine ⟨Poly.den_add a b, Poly.den_sub a b, Poly.den_neg a, Poly.den_mul a b, Poly.den_addInt a k, Poly.den_subInt a k,
    Poly.den_mulInt a k, ⟨_, by rw [Poly.pow, if_neg (by omega)]; rfl, Poly.den_powNat _ _⟩, Poly.den_evaluate a b⟩

/-- C37: results are trimmed and `==` is equality of polynomials; `deg` is the degree (−1 for zero). -/
theorem C37_poly_canonical :
    (∀ l, (Poly.make l).Trimmed) ∧
    (∀ (a b : Poly) (k : Int), (a.add b).Trimmed ∧ (a.sub b).Trimmed ∧ a.neg.Trimmed ∧ (a.mul b).Trimmed ∧ (a.addInt k).Trimmed ∧
      (a.subInt k).Trimmed ∧ (a.mulInt k).Trimmed) ∧
    (∀ (a r : Poly) (n : Int), a.Trimmed → a.pow n = .ok r → r.Trimmed) ∧
    (∀ p q : Poly, p.Trimmed → q.Trimmed → (p = q ↔ p.den = q.den)) ∧
    (∀ p : Poly, p.Trimmed → (p.den = 0 → p.deg = -1) ∧ (p.den ≠ 0 → p.deg = p.den.natDegree)) ∧
    (∀ (a : Poly) (n : Int), n < 0 → a.pow n = .error .value) := by
  have t := Poly.trimmed_make
  refine ⟨t, fun a b k => ⟨t _, t _, t _, t _, t _, t _, t _⟩, ?_, fun p q hp hq => ⟨fun h => by rw [h], hp.den_inj hq⟩, ?_, ?_⟩
  · intro a r n ha h
    unfold Poly.pow at h
    split at h
    · cases h
    · cases h; exact Poly.trimmed_powNat _ ha _
  · intro p hp
    rw [Ne, Poly.den_eq_zero_iff hp, Poly.natDegree_den hp]
    refine ⟨fun h => by simp [Poly.deg, h], fun h => ?_⟩
    have : 0 < p.coeffs.length := List.length_pos_iff.2 h
    unfold Poly.deg; omega
  · intro a n hn; rw [Poly.pow, if_pos hn]

/-! ## C38 -/

/-- C38: `cyclotomic(n)` succeeds for every `n ≥ 1` and is the `n`-th cyclotomic polynomial. -/
theorem C38_cyclotomic (n : Nat) (hn : 0 < n) :
    ∃ p : Poly, Poly.cyclotomic n = .ok p ∧ p.Trimmed ∧ p.den = Polynomial.cyclotomic n ℤ := by
  obtain ⟨p, h⟩ := Poly.cyclotomicNat_spec n hn
  exact ⟨p, by rw [Poly.cyclotomic, if_neg (by omega)]; exact h.1, h.2⟩

theorem C38_cyclotomic_error (n : Int) (hn : n ≤ 0) : Poly.cyclotomic n = .error .value := by
  rw [Poly.cyclotomic, if_pos hn]

/-! ## C39 -/

/-- C39: `chebyshevT(n)` is the Chebyshev polynomial of the first kind, so `T_n(cos t) = cos(nt)`. -/
theorem C39_chebyshev (n : Nat) :
    ∃ p : Poly, Poly.chebyshevT n = .ok p ∧ p.Trimmed ∧ p.den = Chebyshev.T ℤ n ∧
      ∀ v : ℤ[T;T⁻¹], ∀ w : ℤ[T;T⁻¹], v * w = 1 → ∀ x : ℤ[T;T⁻¹], 2 * x = v + w → 2 * aeval x p.den = v ^ n + w ^ n := by
  refine ⟨Poly.chebyshevNat n, by rw [Poly.chebyshevT, if_neg (by omega)]; rfl, Poly.trimmed_chebyshevNat n, Poly.chebyshevNat_spec n, ?_⟩
  intro v w hvw x hx
  rw [Poly.chebyshevNat_spec]
  induction n using Nat.strong_induction_on with
  | _ n ih =>
    match n with
    | 0 => simp; norm_num
    | 1 => simp [hx]
    | n + 2 =>
      have e : ((n + 2 : ℕ) : ℤ) = (n : ℤ) + 2 := by push_cast; rfl
      have h1 := ih (n + 1) (by omega)
      have h0 := ih n (by omega)
      push_cast at h1 ⊢
      rw [Chebyshev.T_add_two]
      simp only [map_sub, map_mul, map_ofNat, aeval_X]
      have : 2 * (2 * x * (aeval x) (Chebyshev.T ℤ (↑n + 1)) - (aeval x) (Chebyshev.T ℤ ↑n)) =
          2 * x * (2 * (aeval x) (Chebyshev.T ℤ (↑n + 1))) - 2 * (aeval x) (Chebyshev.T ℤ ↑n) := by ring
      rw [this, h1, h0, hx]
      calc (v + w) * (v ^ (n + 1) + w ^ (n + 1)) - (v ^ n + w ^ n)
          = v ^ (n + 2) + w ^ (n + 2) + (v * w) * (v ^ n + w ^ n) - (v ^ n + w ^ n) := by ring
        _ = _ := by rw [hvw]; ring

theorem C39_chebyshev_error (n : Int) (hn : n < 0) : Poly.chebyshevT n = .error .value := by
  rw [Poly.chebyshevT, if_pos hn]

/-! ## C40 -/

/-- C40: `minpolycos(n)` succeeds for `n ≥ 1`; the result is the minimal polynomial over ℤ of `2cos(2π/n)`, monic,
and for `n ≥ 3` satisfies `Ψ_n(v+v⁻¹)·v^deg = Φ_n(v)`. -/
theorem C40_minpolycos (n : Nat) (hn : 0 < n) :
    ∃ p : Poly, Poly.minpolycosNat n = .ok p ∧ p.Trimmed ∧ p.den.Monic ∧
      p.den = minpoly ℤ (2 * Real.cos (2 * Real.pi / n)) ∧
      (3 ≤ n → T p.den.natDegree * aeval (T 1 + T (-1) : ℤ[T;T⁻¹]) p.den = toLaurent (Polynomial.cyclotomic n ℤ)) := by
  obtain ⟨p, h1, h2, h3, k, h4⟩ := Poly.minpolycosNat_spec n hn
  refine ⟨p, h1, h2, h3, (Poly.minpoly_two_cos n hn _ h3 k h4).symm, ?_⟩
  intro h
  obtain ⟨e1, e2, e3⟩ := Poly.hom_eq_theta h3 hn h4
  have h4' : aeval (T 1 + T (-1) : ℤ[T;T⁻¹]) p.den = T k * toLaurent (Poly.theta n) := h4
  rw [h4', e1, ← mul_assoc, ← T_add, Poly.theta, Poly.extraFactor, if_neg (by omega)]
  simp

/-! ## C41 -/

/-- C41: exact division of Laurent polynomials. -/
theorem C41_lpoly_truediv (a b : LPoly) (ha : a.Trimmed) (hb : b.Trimmed) :
    (b.den = 0 → a.truediv b = .error .assertion) ∧
    (b.den ≠ 0 → ∀ c, c * b.den = a.den → ∃ r, a.truediv b = .ok r ∧ r.Trimmed ∧ r.den = c) ∧
    (b.den ≠ 0 → (¬ ∃ c, c * b.den = a.den) → a.truediv b = .error .value) :=
  ⟨LPoly.truediv_zero hb, fun h0 c h => LPoly.truediv_exact ha hb h0 c h, fun h0 h => LPoly.truediv_error ha hb h0 h⟩

example : (⟨-1, [-1, 0, 1]⟩ : LPoly).truediv ⟨3, [1, 1]⟩ = .ok ⟨-4, [-1, 1]⟩ := by decide +kernel

end Peyl
