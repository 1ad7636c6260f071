import Verif.Lemmas.PolyDiv
import Mathlib.RingTheory.Polynomial.Cyclotomic.Basic
import Mathlib.RingTheory.Polynomial.Chebyshev
/-!
# Cyclotomic and Chebyshev polynomials, `minpolycos`
-/
namespace Peyl
open Polynomial
namespace Poly

/-! ## Proper divisors as listed by `range` -/

theorem divList_eq (n : Nat) (f : Nat → ℤ[X]) :
    (((List.range n).filter fun d => 1 ≤ d ∧ n % d = 0).map f).prod = ∏ d ∈ n.properDivisors, f d := by
  have hnd : ((List.range n).filter fun d => 1 ≤ d ∧ n % d = 0).Nodup := List.Nodup.filter _ List.nodup_range
  rw [← List.prod_toFinset _ hnd]
  apply Finset.prod_congr _ (fun _ _ => rfl)
  ext d
  simp only [List.mem_toFinset, List.mem_filter, List.mem_range, decide_eq_true_eq, Nat.mem_properDivisors]
  constructor
  · rintro ⟨h1, h2, h3⟩; exact ⟨Nat.dvd_of_mod_eq_zero h3, h1⟩
  · rintro ⟨h1, h2⟩
    exact ⟨h2, Nat.pos_of_dvd_of_pos h1 (by omega), Nat.mod_eq_zero_of_dvd h1⟩

/-- A monadic fold of exact divisions. -/
theorem foldlM_div {α : Type} (f : Poly → α → Except Err Poly) (g : α → ℤ[X]) (ds : List α)
    (step : ∀ (a : α), a ∈ ds → ∀ (p : Poly) (Q : ℤ[X]), p.Trimmed → p.den = g a * Q →
      ∃ q : Poly, f p a = .ok q ∧ q.Trimmed ∧ q.den = Q) :
    ∀ (p : Poly) (Q : ℤ[X]), p.Trimmed → p.den = (ds.map g).prod * Q →
      ∃ q : Poly, ds.foldlM f p = .ok q ∧ q.Trimmed ∧ q.den = Q := by
  induction ds with
  | nil => intro p Q hp h; exact ⟨p, rfl, hp, by simpa using h⟩
  | cons d ds ih =>
    intro p Q hp h
    rw [List.map_cons, List.prod_cons, mul_assoc] at h
    obtain ⟨q, h1, h2, h3⟩ := step d (by simp) p _ hp h
    obtain ⟨q', h1', h2', h3'⟩ := ih (fun a ha => step a (by simp [ha])) q Q h2 h3
    exact ⟨q', by simp [List.foldlM_cons, h1, bind, Except.bind]; exact h1', h2', h3'⟩

theorem cyclotomicNat_spec (n : Nat) (hn : 0 < n) :
    ∃ p : Poly, cyclotomicNat n = .ok p ∧ p.Trimmed ∧ p.den = Polynomial.cyclotomic n ℤ := by
  induction n using Nat.strong_induction_on with
  | _ n ih =>
    rw [cyclotomicNat, if_neg (by omega)]
    have hstart : (make ((-1) :: (List.replicate (n - 1) 0 ++ [1]))).den = X ^ n - 1 := by
      rw [den_make, listPoly_cons, listPoly_append, listPoly_replicate]
      obtain ⟨m, rfl⟩ : ∃ m, n = m + 1 := ⟨n - 1, by omega⟩
      simp [pow_succ]; ring
    refine foldlM_div _ (fun d => Polynomial.cyclotomic d.1 ℤ) _ ?_ _ _ (trimmed_make _) ?_
    · rintro ⟨d, hd⟩ _ p Q hp h
      simp only [List.mem_filter, List.mem_range, decide_eq_true_eq] at hd
      obtain ⟨c, hc1, hc2, hc3⟩ := ih d hd.1 (by omega)
      obtain ⟨q, r, h1, h2, h3, h4⟩ := divmod_exact hp hc2 (by rw [hc3]; exact cyclotomic_ne_zero _ _) Q (by rw [hc3]; exact h)
      exact ⟨q, by simp [hc1, h1, h4, bind, Except.bind], h2, h3⟩
    · rw [hstart, List.attach_map_val (f := fun d => Polynomial.cyclotomic d ℤ), divList_eq,
        ← prod_cyclotomic_eq_X_pow_sub_one hn, ← Nat.insert_self_properDivisors (by omega),
        Finset.prod_insert (by simp)]
      ring

theorem chebyshevNat_spec (n : Nat) : (chebyshevNat n).den = Chebyshev.T ℤ n := by
  fun_induction chebyshevNat n with
  | case1 => simp
  | case2 => simp
  | case3 n ih1 ih2 =>
    rw [den_sub, den_mul, ih1, ih2, den_make]
    have e : ((n + 2 : ℕ) : ℤ) = (n : ℤ) + 2 := by push_cast; rfl
    rw [show ((n.succ.succ : ℕ) : ℤ) = (n : ℤ) + 2 from e, Chebyshev.T_add_two]
    simp [mul_comm]

theorem trimmed_chebyshevNat (n : Nat) : (chebyshevNat n).Trimmed := by
  fun_cases chebyshevNat n <;> exact trimmed_make _

/-! ## Substituting `v + v⁻¹` -/
open LaurentPolynomial (T)

/-- `v + v⁻¹`. -/
noncomputable def yv : LaurentPolynomial ℤ := T 1 + T (-1)

/-- Substitution of `v + v⁻¹` for the variable. -/
noncomputable def subst : ℤ[X] →ₐ[ℤ] LaurentPolynomial ℤ := aeval yv

/-- `X^d * P(X + 1/X)` as a polynomial. -/
noncomputable def hom (d : Nat) (P : ℤ[X]) : ℤ[X] :=
  ∑ k ∈ Finset.range (d + 1), C (P.coeff k) * (X ^ (d - k) * (X ^ 2 + 1) ^ k)

theorem toLaurent_hom (d : Nat) (P : ℤ[X]) (h : P.natDegree ≤ d) :
    toLaurent (hom d P) = T d * subst P := by
  rw [hom, map_sum, subst, aeval_eq_sum_range' (Nat.lt_succ_of_le h), Finset.mul_sum]
  apply Finset.sum_congr rfl
  intro k hk
  have hk : k ≤ d := by simpa [Nat.lt_succ_iff] using hk
  simp only [map_mul, toLaurent_C, map_pow, toLaurent_X, map_add, map_one, yv]
  have h1 : (T 1 : LaurentPolynomial ℤ) ^ 2 + 1 = T 1 * (T 1 + T (-1)) := by
    rw [mul_add, ← LaurentPolynomial.T_add, ← LaurentPolynomial.T_add, LaurentPolynomial.T_pow]; simp
  rw [h1, mul_pow, LaurentPolynomial.T_pow, LaurentPolynomial.T_pow, ← mul_assoc (T _), ← LaurentPolynomial.T_add,
    LaurentPolynomial.smul_eq_C_mul]
  have : ((d - k : ℕ) : ℤ) * 1 + (k : ℤ) * 1 = d := by push_cast [hk]; ring
  rw [this]; ring

theorem hom_coeff_top (d : Nat) (P : ℤ[X]) : (hom d P).coeff (2 * d) = P.coeff d := by
  have hm : (X ^ 2 + 1 : ℤ[X]).Monic := by monicity!
  have hdeg : (X ^ 2 + 1 : ℤ[X]).natDegree = 2 := by compute_degree!
  rw [hom, finset_sum_coeff, Finset.sum_range_succ, Finset.sum_eq_zero, zero_add]
  · rw [coeff_C_mul, Nat.sub_self, pow_zero, one_mul]
    have : (2 * d) = ((X ^ 2 + 1 : ℤ[X]) ^ d).natDegree := by rw [hm.natDegree_pow, hdeg]; ring
    rw [this]
    have := (hm.pow d).coeff_natDegree
    rw [this, mul_one]
  · intro k hk
    have hk : k < d := by simpa using hk
    rw [coeff_C_mul, (coeff_eq_zero_of_natDegree_lt (p := X ^ (d - k) * (X ^ 2 + 1) ^ k)), mul_zero]
    rw [Monic.natDegree_mul (monic_X_pow _) (hm.pow k), natDegree_X_pow, hm.natDegree_pow, hdeg]
    omega

theorem hom_natDegree_le (d : Nat) (P : ℤ[X]) : (hom d P).natDegree ≤ 2 * d := by
  apply natDegree_sum_le_of_forall_le
  intro k hk
  have hk : k ≤ d := by simpa [Nat.lt_succ_iff] using hk
  refine (natDegree_C_mul_le _ _).trans (natDegree_mul_le.trans ?_)
  have h1 : ((X ^ 2 + 1 : ℤ[X]) ^ k).natDegree ≤ k * 2 := natDegree_pow_le_of_le k (by compute_degree!)
  rw [natDegree_X_pow]; omega

theorem hom_eval_zero (d : Nat) (P : ℤ[X]) : (hom d P).coeff 0 = P.coeff d := by
  rw [coeff_zero_eq_eval_zero, hom, eval_finset_sum, Finset.sum_range_succ, Finset.sum_eq_zero, zero_add]
  · simp
  · intro k hk
    have hk : k < d := by simpa using hk
    simp [zero_pow (by omega : d - k ≠ 0)]

theorem subst_eq (d : Nat) (P : ℤ[X]) (h : P.natDegree ≤ d) : subst P = T (-d) * toLaurent (hom d P) := by
  rw [toLaurent_hom d P h, ← mul_assoc, ← LaurentPolynomial.T_add]; simp

theorem subst_injective (P : ℤ[X]) (h : subst P = 0) : P = 0 := by
  have h1 := toLaurent_hom P.natDegree P le_rfl
  rw [h, mul_zero, toLaurent_eq_zero] at h1
  have := hom_coeff_top P.natDegree P
  rw [h1, coeff_zero] at this
  exact leadingCoeff_eq_zero.1 this.symm

theorem isCoprime_X_pow (A : ℤ[X]) (h : A.coeff 0 = 1) (n : Nat) : IsCoprime A (X ^ n) := by
  apply IsCoprime.pow_right
  refine ⟨1, - A.divX, ?_⟩
  have := divX_mul_X_add A
  rw [h] at this
  conv_lhs => rw [one_mul]; lhs; rw [← this]
  simp

/-- Divisibility by a monic polynomial can be tested after substituting `v + v⁻¹`. -/
theorem dvd_of_subst_dvd (P R : ℤ[X]) (hP : P.Monic) (h : subst P ∣ subst R) : P ∣ R := by
  have hsub : subst P ∣ subst (R %ₘ P) := by
    have := modByMonic_add_div R P
    rw [← this, map_add, map_mul] at h
    exact (dvd_add_left (Dvd.intro _ rfl)).1 h
  rw [← modByMonic_eq_zero_iff_dvd hP]
  by_contra hne
  set R' := R %ₘ P with hR'
  have hP1 : P ≠ 1 := by rintro rfl; simp [hR'] at hne
  have hdeg : R'.natDegree < P.natDegree := natDegree_modByMonic_lt R hP hP1
  obtain ⟨g, hg⟩ := hsub
  obtain ⟨n, G, hG⟩ := LaurentPolynomial.exists_T_pow g
  rw [subst_eq _ P le_rfl, subst_eq _ R' le_rfl] at hg
  set A := hom P.natDegree P with hA
  set B := hom R'.natDegree R' with hB
  have hA0 : A.coeff 0 = 1 := by rw [hA, hom_eval_zero]; exact hP.coeff_natDegree
  have hA2 : A.coeff (2 * P.natDegree) = 1 := by rw [hA, hom_coeff_top]; exact hP.coeff_natDegree
  have hBdeg : B.natDegree ≤ 2 * R'.natDegree := hom_natDegree_le _ _
  have hB0 : B ≠ 0 := by
    intro h0
    have := hom_coeff_top R'.natDegree R'
    rw [← hB, h0, coeff_zero] at this
    exact hne (leadingCoeff_eq_zero.1 this.symm)
  -- A * G * X^r = B * X^(p+n)
  have key : A * G * X ^ R'.natDegree = B * X ^ (P.natDegree + n) := by
    rw [← toLaurent_inj]
    simp only [map_mul, hG, toLaurent_X_pow]
    have e : (T (P.natDegree + n + R'.natDegree) : LaurentPolynomial ℤ) * (T (-(R'.natDegree : ℤ)) * toLaurent B) =
      T (P.natDegree + n + R'.natDegree) * (T (-(P.natDegree : ℤ)) * toLaurent A * g) := by rw [hg]
    have t1 : (T (P.natDegree + n + R'.natDegree) : LaurentPolynomial ℤ) * T (-(R'.natDegree : ℤ)) = T (P.natDegree + n) := by
      rw [← LaurentPolynomial.T_add]; congr 1; ring
    have t2 : (T (P.natDegree + n + R'.natDegree) : LaurentPolynomial ℤ) * T (-(P.natDegree : ℤ)) = T n * T R'.natDegree := by
      rw [← LaurentPolynomial.T_add, ← LaurentPolynomial.T_add]; congr 1; ring
    push_cast
    calc toLaurent A * (g * T n) * T R'.natDegree = (T n * T R'.natDegree) * toLaurent A * g := by ring
      _ = T (P.natDegree + n + R'.natDegree) * (T (-(P.natDegree : ℤ)) * toLaurent A * g) := by rw [← t2]; ring
      _ = _ := by rw [← e, ← mul_assoc, t1]; ring
  have hdvd : A ∣ B := (isCoprime_X_pow A hA0 _).dvd_of_dvd_mul_right ⟨G * X ^ R'.natDegree, by rw [← key]; ring⟩
  have h1 := natDegree_le_of_dvd hdvd hB0
  have h2 : 2 * P.natDegree ≤ A.natDegree := le_natDegree_of_ne_zero (by rw [hA2]; exact one_ne_zero)
  omega

/-! ## `minpolycos` -/

theorem subst_C (k : Nat) : subst (Chebyshev.C ℤ k) = T k + T (-k) := by
  induction k using Nat.strong_induction_on with
  | _ k ih =>
    match k with
    | 0 => simp only [Nat.cast_zero, Chebyshev.C_zero, subst, map_ofNat, neg_zero, LaurentPolynomial.T_zero]; norm_num
    | 1 => simp [subst, yv]
    | k + 2 =>
      have e : ((k + 2 : ℕ) : ℤ) = (k : ℤ) + 2 := by push_cast; rfl
      have h1 := ih (k + 1) (by omega)
      have h0 := ih k (by omega)
      push_cast at h1 ⊢
      rw [Chebyshev.C_add_two, map_sub, map_mul, h1, h0]
      simp only [subst, aeval_X, yv, add_mul, mul_add, ← LaurentPolynomial.T_add]
      have e1 : (1 : ℤ) + (k + 1) = k + 2 := by ring
      have e2 : (1 : ℤ) + (-(k + 1)) = -k := by ring
      have e3 : (-1 : ℤ) + (k + 1) = k := by ring
      have e4 : (-1 : ℤ) + (-(k + 1)) = -(k + 2) := by ring
      rw [e1, e2, e3, e4]; ring

/-- The polynomial in `y = 2x` whose divisors are taken. -/
noncomputable def Lpoly (n : Nat) : ℤ[X] :=
  Chebyshev.C ℤ ((n / 2 : ℕ) + 1) - Chebyshev.C ℤ (if n % 2 = 1 then ((n / 2 : ℕ) : ℤ) else (n / 2 : ℕ) - 1)

noncomputable def extraFactor (n : Nat) : ℤ[X] := if n ≤ 2 then Polynomial.cyclotomic n ℤ else 1

/-- `Φ_n` for `n ≥ 3`, `Φ_n²` for `n ≤ 2`. -/
noncomputable def theta (n : Nat) : ℤ[X] := Polynomial.cyclotomic n ℤ * extraFactor n

theorem prod_extra (n : Nat) (hn : 0 < n) :
    ∏ d ∈ n.divisors, extraFactor d = if n % 2 = 1 then X - 1 else X ^ 2 - 1 := by
  unfold extraFactor
  rw [Finset.prod_ite, Finset.prod_const_one, mul_one]
  have h : n.divisors.filter (· ≤ 2) = if n % 2 = 1 then {1} else {1, 2} := by
    ext d
    simp only [Finset.mem_filter, Nat.mem_divisors]
    split
    · rename_i hodd
      simp only [Finset.mem_singleton]
      constructor
      · rintro ⟨⟨h1, _⟩, h2⟩
        have hd : d ≠ 0 := by rintro rfl; simp at h1; omega
        have hd2 : d ≠ 2 := by rintro rfl; omega
        omega
      · rintro rfl; simp; omega
    · rename_i hev
      simp only [Finset.mem_insert, Finset.mem_singleton]
      constructor
      · rintro ⟨⟨h1, _⟩, h2⟩
        have hd : d ≠ 0 := by rintro rfl; simp at h1; omega
        omega
      · rintro (rfl | rfl)
        · simp; omega
        · exact ⟨⟨by omega, by omega⟩, le_rfl⟩
  rw [h]
  split
  · simp
  · rw [Finset.prod_pair (by norm_num)]; simp; ring

theorem prod_theta (n : Nat) (hn : 0 < n) :
    ∏ d ∈ n.divisors, theta d = (X ^ n - 1) * (if n % 2 = 1 then X - 1 else X ^ 2 - 1) := by
  unfold theta
  rw [Finset.prod_mul_distrib, prod_extra n hn, prod_cyclotomic_eq_X_pow_sub_one hn]

theorem subst_Lpoly (n : Nat) (hn : 0 < n) :
    subst (Lpoly n) = T (-((n / 2 : ℕ) + 1)) * toLaurent (∏ d ∈ n.divisors, theta d) := by
  rw [prod_theta n hn]
  set s := n / 2 with hs
  have e : (((s + 1 : ℕ)) : ℤ) = (s : ℤ) + 1 := by push_cast; rfl
  rw [Lpoly, map_sub, ← hs, ← e, subst_C]
  by_cases hodd : n % 2 = 1
  · simp only [hodd, if_true]
    rw [subst_C]
    have hn' : n = 2 * s + 1 := by omega
    rw [hn']
    simp only [map_mul, map_sub, map_one, toLaurent_X_pow, toLaurent_X, sub_mul, mul_sub, ← LaurentPolynomial.T_add, mul_one, one_mul]
    have e1 : (-((s + 1 : ℕ) : ℤ)) + (((2 * s + 1 : ℕ) : ℤ) + 1) = (s + 1 : ℕ) := by push_cast; ring
    have e2 : (-((s + 1 : ℕ) : ℤ)) + ((2 * s + 1 : ℕ) : ℤ) = s := by push_cast; ring
    have e3 : (-((s + 1 : ℕ) : ℤ)) + 1 = -s := by push_cast; ring
    rw [e1, e2, e3]; ring
  · simp only [hodd, if_false]
    obtain ⟨t, ht⟩ : ∃ t, s = t + 1 := ⟨s - 1, by omega⟩
    have e0 : (s : ℤ) - 1 = (t : ℕ) := by rw [ht]; push_cast; ring
    rw [e0, subst_C]
    have hn' : n = 2 * t + 2 := by omega
    rw [hn', ht]
    simp only [map_mul, map_sub, map_one, toLaurent_X_pow, toLaurent_X, sub_mul, mul_sub, ← LaurentPolynomial.T_add, mul_one, one_mul]
    have e1 : (-((t + 1 + 1 : ℕ) : ℤ)) + (((2 * t + 2 : ℕ) : ℤ) + (2 : ℕ)) = (t + 1 + 1 : ℕ) := by push_cast; ring
    have e2 : (-((t + 1 + 1 : ℕ) : ℤ)) + ((2 * t + 2 : ℕ) : ℤ) = t := by push_cast; ring
    have e3 : (-((t + 1 + 1 : ℕ) : ℤ)) + (2 : ℕ) = -t := by push_cast; ring
    rw [e1, e2, e3]; ring

theorem monic_Lpoly (n : Nat) (hn : 0 < n) : (Lpoly n).Monic := by
  have hdeg : ∀ k : ℕ, (Chebyshev.C ℤ (k + 1)).Monic ∧ (Chebyshev.C ℤ (k + 1)).natDegree = k + 1 ∧
      (Chebyshev.C ℤ k).natDegree ≤ k := by
    intro k
    induction k with
    | zero => simp [monic_X]
    | succ k ih =>
      obtain ⟨h1, h2, h3⟩ := ih
      have e : (((k + 1 : ℕ) : ℤ) + 1) = (k : ℤ) + 2 := by push_cast; ring
      have e' : (((k + 1 : ℕ) : ℤ)) = (k : ℤ) + 1 := by push_cast; ring
      rw [e, Chebyshev.C_add_two, e']
      have hm : (X * Chebyshev.C ℤ (k + 1)).Monic := monic_X.mul h1
      have hmd : (X * Chebyshev.C ℤ (k + 1)).natDegree = k + 2 := by
        rw [Monic.natDegree_mul monic_X h1, natDegree_X, h2]; ring
      have hlt : (Chebyshev.C ℤ k).degree < (X * Chebyshev.C ℤ (k + 1)).degree := by
        apply degree_lt_degree; omega
      refine ⟨hm.sub_of_left hlt, ?_, h2.le⟩
      rw [natDegree_sub_eq_left_of_natDegree_lt (by omega), hmd]
  obtain ⟨h1, h2, h3⟩ := hdeg (n / 2)
  unfold Lpoly
  apply h1.sub_of_left
  apply degree_lt_degree
  rw [h2]
  by_cases hodd : n % 2 = 1
  · simp only [hodd, if_true]; omega
  · simp only [hodd, if_false]
    obtain ⟨t, ht⟩ : ∃ t, n / 2 = t + 1 := ⟨n / 2 - 1, by omega⟩
    have e0 : ((n / 2 : ℕ) : ℤ) - 1 = (t : ℕ) := by rw [ht]; push_cast; ring
    rw [e0]
    have := (hdeg t).2.2
    omega

theorem Lpoly_comp (n : Nat) : (Lpoly n).comp (2 * X) =
    (Chebyshev.T ℤ ((n / 2 : ℕ) + 1) - Chebyshev.T ℤ (if n % 2 = 1 then ((n / 2 : ℕ) : ℤ) else (n / 2 : ℕ) - 1)) * 2 := by
  rw [Lpoly, sub_comp, Chebyshev.C_comp_two_mul_X, Chebyshev.C_comp_two_mul_X]; ring

theorem minpolycosNat_spec (n : Nat) (hn : 0 < n) :
    ∃ p : Poly, minpolycosNat n = .ok p ∧ p.Trimmed ∧ p.den.Monic ∧
      ∃ k : ℤ, subst p.den = T k * toLaurent (theta n) := by
  induction n using Nat.strong_induction_on with
  | _ n ih =>
    haveI : Inhabited Poly := ⟨make []⟩
    choose! psi h1 h2 h3 h4 using ih
    choose! kk h4 using h4
    have hmem : ∀ d ∈ n.properDivisors, d < n ∧ 0 < d := by
      intro d hd
      rw [Nat.mem_properDivisors] at hd
      exact ⟨hd.2, Nat.pos_of_dvd_of_pos hd.1 hn⟩
    set P := ∏ d ∈ n.properDivisors, (psi d).den with hP
    have hPm : P.Monic := monic_prod_of_monic _ _ fun d hd => h3 d (hmem d hd).1 (hmem d hd).2
    have hPs : subst P = T (∑ d ∈ n.properDivisors, kk d) * toLaurent (∏ d ∈ n.properDivisors, theta d) := by
      rw [hP, map_prod, map_prod]
      have : ∀ s : Finset ℕ, (T (∑ d ∈ s, kk d) : LaurentPolynomial ℤ) = ∏ d ∈ s, T (kk d) := by
        intro s
        induction s using Finset.induction_on with
        | empty => simp
        | insert a s ha ih => rw [Finset.sum_insert ha, Finset.prod_insert ha, LaurentPolynomial.T_add, ih]
      rw [this, ← Finset.prod_mul_distrib]
      exact Finset.prod_congr rfl fun d hd => h4 d (hmem d hd).1 (hmem d hd).2
    have hdiv : ∏ d ∈ n.divisors, theta d = theta n * ∏ d ∈ n.properDivisors, theta d := by
      rw [← Nat.insert_self_properDivisors (by omega), Finset.prod_insert (by simp)]
    have hL := subst_Lpoly n hn
    rw [hdiv, map_mul] at hL
    set K := ∑ d ∈ n.properDivisors, kk d with hK
    set s1 : ℤ := -((n / 2 : ℕ) + 1) with hs1
    have hLP : subst (Lpoly n) = subst P * (T (s1 - K) * toLaurent (theta n)) := by
      rw [hL, hPs]
      have : (T s1 : LaurentPolynomial ℤ) = T K * T (s1 - K) := by rw [← LaurentPolynomial.T_add]; congr 1; ring
      rw [this]; ring
    obtain ⟨Q, hQ⟩ := dvd_of_subst_dvd P (Lpoly n) hPm ⟨_, hLP⟩
    have hQm : Q.Monic := Monic.of_mul_monic_left hPm (hQ ▸ monic_Lpoly n hn)
    have hPne : subst P ≠ 0 := fun h => hPm.ne_zero (subst_injective P h)
    have hQs : subst Q = T (s1 - K) * toLaurent (theta n) := by
      rw [hQ, map_mul] at hLP
      exact mul_left_cancel₀ hPne hLP
    have h2X : (make [0, 2]).den = 2 * X := by simp [mul_comm]
    -- the fold
    obtain ⟨a, ha, hat, had⟩ : ∃ a : Poly, chebyshevT (((n / 2 : ℕ) : ℤ) + 1) = .ok a ∧ a.Trimmed ∧
        a.den = Chebyshev.T ℤ ((n / 2 : ℕ) + 1) := by
      refine ⟨chebyshevNat (n / 2 + 1), ?_, trimmed_chebyshevNat _, by rw [chebyshevNat_spec]; push_cast; rfl⟩
      unfold chebyshevT
      rw [if_neg (by omega)]; rfl
    obtain ⟨b, hb, hbt, hbd⟩ : ∃ b : Poly,
        chebyshevT (if n % 2 = 1 then ((n / 2 : ℕ) : ℤ) else ((n / 2 : ℕ) : ℤ) - 1) = .ok b ∧ b.Trimmed ∧
        b.den = Chebyshev.T ℤ (if n % 2 = 1 then ((n / 2 : ℕ) : ℤ) else (n / 2 : ℕ) - 1) := by
      have hpos : 0 ≤ (if n % 2 = 1 then ((n / 2 : ℕ) : ℤ) else ((n / 2 : ℕ) : ℤ) - 1) := by split <;> omega
      refine ⟨chebyshevNat (if n % 2 = 1 then ((n / 2 : ℕ) : ℤ) else ((n / 2 : ℕ) : ℤ) - 1).toNat, ?_, trimmed_chebyshevNat _, ?_⟩
      · unfold chebyshevT
        rw [if_neg (by omega)]
      · rw [chebyshevNat_spec, Int.toNat_of_nonneg hpos]
    have hfold := foldlM_div
      (fun (poly : Poly) (d : {x // x ∈ (List.range n).filter fun d => decide (1 ≤ d ∧ n % d = 0)}) => do
        let m ← minpolycosNat d.1
        truediv poly (evaluate m (make [0, 2])))
      (fun d => (psi d.1).den.comp (2 * X)) (((List.range n).filter fun d => decide (1 ≤ d ∧ n % d = 0)).attach)
      (by
        rintro ⟨d, hd⟩ _ p R hp h
        simp only [List.mem_filter, List.mem_range, decide_eq_true_eq] at hd
        have e1 := h1 d hd.1 (by omega)
        have e3 := h3 d hd.1 (by omega)
        have hne : (evaluate (psi d) (make [0, 2])).den ≠ 0 := by
          rw [den_evaluate, h2X]
          intro h0
          have := congrArg (fun q => q.coeff ((psi d).den.natDegree)) h0
          have h2C : (2 * X : ℤ[X]) = C 2 * X := by simp
          simp only [h2C, comp_C_mul_X_coeff, coeff_zero] at this
          rw [e3.coeff_natDegree] at this
          simp at this
        obtain ⟨q, g1, g2, g3⟩ := truediv_exact hp (trimmed_evaluate _ _) hne R (by rw [den_evaluate, h2X]; exact h)
        exact ⟨q, by simp [e1, g1, bind, Except.bind], g2, g3⟩)
      (mulInt (sub a b) 2) (Q.comp (2 * X)) (trimmed_make _)
      (by
        rw [List.attach_map_val (f := fun d => (psi d).den.comp (2 * X)), divList_eq, den_mulInt, den_sub, had, hbd]
        have := Lpoly_comp n
        rw [hQ, mul_comp, hP, prod_comp] at this
        rw [this]; simp)
    obtain ⟨poly, g1, g2, g3⟩ := hfold
    refine ⟨make ((enum poly.coeffs).map fun ic => ic.2.fdiv (2 ^ ic.1)), ?_, trimmed_make _, ?_⟩
    · rw [minpolycosNat]
      simp only [ha, hb, bind, Except.bind] at g1 ⊢
      rw [g1]
    · have hden : (make ((enum poly.coeffs).map fun ic => ic.2.fdiv (2 ^ ic.1))).den = Q := by
        ext i
        rw [den_make, coeff_listPoly]
        have hc : poly.coeffs.getD i 0 = Q.coeff i * 2 ^ i := by
          rw [← coeff_listPoly]
          have := congrArg (fun q => q.coeff i) g3
          have h2C : (2 * X : ℤ[X]) = C 2 * X := by simp
          simp only [h2C, comp_C_mul_X_coeff] at this
          exact this
        by_cases hi : i < poly.coeffs.length
        · rw [enum_eq_map]
          simp only [List.map_map, List.getD_eq_getElem?_getD, List.getElem?_map, List.getElem?_range hi]
          simp only [Option.map_some, Option.getD_some, Function.comp, ← List.getD_eq_getElem?_getD, hc]
          exact Int.mul_fdiv_cancel _ (by positivity)
        · rw [List.getD_eq_getElem?_getD, List.getElem?_eq_none (by simp [enum]; omega)]
          rw [List.getD_eq_getElem?_getD, List.getElem?_eq_none (by omega)] at hc
          simp only [Option.getD_none] at hc ⊢
          have : (2 : ℤ) ^ i ≠ 0 := by positivity
          exact ((mul_eq_zero.1 hc.symm).resolve_right this).symm
      rw [hden]
      exact ⟨hQm, _, hQs⟩

end Poly
end Peyl
