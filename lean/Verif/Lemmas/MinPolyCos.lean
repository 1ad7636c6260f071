import Verif.Lemmas.PolySpecial
import Mathlib.RingTheory.Polynomial.Cyclotomic.Roots
import Mathlib.RingTheory.RootsOfUnity.Complex
import Mathlib.FieldTheory.Minpoly.IsIntegrallyClosed
/-!
# `minpolycos` returns the minimal polynomial of `2cos(2π/n)`
-/
namespace Peyl
open Polynomial
namespace Poly
open LaurentPolynomial (T)

theorem theta_coeff_zero (n : Nat) (hn : 0 < n) : (theta n).coeff 0 = 1 := by
  rw [theta, extraFactor, mul_coeff_zero]
  rcases lt_or_ge 1 n with h | h
  · rw [cyclotomic_coeff_zero ℤ h]
    split
    · rw [cyclotomic_coeff_zero ℤ h]; rfl
    · simp
  · have : n = 1 := by omega
    subst this; simp

theorem theta_natDegree (n : Nat) (hn : 0 < n) : (theta n).natDegree = if n ≤ 2 then 2 else n.totient := by
  rw [theta, extraFactor]
  by_cases h : n ≤ 2
  · simp only [h, if_true]
    rw [Monic.natDegree_mul (cyclotomic.monic _ _) (cyclotomic.monic _ _), natDegree_cyclotomic]
    have : n = 1 ∨ n = 2 := by omega
    rcases this with rfl | rfl <;> simp
  · simp [h, natDegree_cyclotomic]

theorem hom_eq_theta {P : ℤ[X]} (hP : P.Monic) {n : Nat} (hn : 0 < n) {k : ℤ}
    (h : subst P = T k * toLaurent (theta n)) :
    k = -(P.natDegree : ℤ) ∧ hom P.natDegree P = theta n ∧ 2 * P.natDegree = (theta n).natDegree := by
  have h1 := toLaurent_hom P.natDegree P le_rfl
  rw [h, ← mul_assoc, ← LaurentPolynomial.T_add] at h1
  have hA : (hom P.natDegree P).coeff 0 = 1 := by rw [hom_eval_zero]; exact hP.coeff_natDegree
  have hB := theta_coeff_zero n hn
  have e : (P.natDegree : ℤ) + k = 0 ∧ hom P.natDegree P = theta n := by
    generalize hj : (P.natDegree : ℤ) + k = j at h1
    rcases le_total 0 j with hj0 | hj0
    · obtain ⟨m, rfl⟩ := Int.eq_ofNat_of_zero_le hj0
      have : X ^ 0 * hom P.natDegree P = X ^ m * theta n := by
        rw [← toLaurent_inj, map_mul, map_mul, toLaurent_X_pow, toLaurent_X_pow, h1]; simp
      obtain ⟨e1, e2⟩ := X_pow_mul_inj (by rw [hA]; norm_num) (by rw [hB]; norm_num) this
      exact ⟨by rw [← e1]; rfl, e2⟩
    · obtain ⟨m, hm⟩ := Int.eq_ofNat_of_zero_le (neg_nonneg.2 hj0)
      have : X ^ m * hom P.natDegree P = X ^ 0 * theta n := by
        rw [← toLaurent_inj, map_mul, map_mul, toLaurent_X_pow, toLaurent_X_pow, h1, ← mul_assoc, ← LaurentPolynomial.T_add]
        have : (m : ℤ) + j = 0 := by omega
        rw [this]; simp
      obtain ⟨e1, e2⟩ := X_pow_mul_inj (by rw [hA]; norm_num) (by rw [hB]; norm_num) this
      exact ⟨by subst e1; simp at hm; omega, e2⟩
  refine ⟨by omega, e.2, ?_⟩
  rw [← e.2]
  apply le_antisymm
  · exact le_natDegree_of_ne_zero (by rw [hom_coeff_top, hP.coeff_natDegree]; norm_num)
  · exact hom_natDegree_le _ _

/-- A unit of ℂ. -/
noncomputable def zetaUnit (n : Nat) : ℂˣ := Units.mk0 (Complex.exp (2 * Real.pi * Complex.I / n)) (Complex.exp_ne_zero _)

theorem zeta_add_inv (n : Nat) : ((zetaUnit n : ℂˣ) : ℂ) + ((zetaUnit n)⁻¹ : ℂˣ) = ((2 * Real.cos (2 * Real.pi / n) : ℝ) : ℂ) := by
  have h1 : ((zetaUnit n)⁻¹ : ℂˣ) = Complex.exp (-(2 * Real.pi * Complex.I / n)) := by
    rw [Complex.exp_neg, Units.val_inv_eq_inv_val]; rfl
  rw [h1]
  push_cast
  rw [Complex.two_cos]
  simp only [zetaUnit, Units.val_mk0]
  congr 1 <;> congr 1 <;> ring

theorem eval_subst (n : Nat) (P : ℤ[X]) :
    LaurentPolynomial.eval₂ (Int.castRingHom ℂ) (zetaUnit n) (subst P) =
      aeval (((2 * Real.cos (2 * Real.pi / n) : ℝ) : ℂ)) P := by
  rw [← zeta_add_inv]
  have : (LaurentPolynomial.eval₂ (Int.castRingHom ℂ) (zetaUnit n)) yv = ((zetaUnit n : ℂˣ) : ℂ) + ((zetaUnit n)⁻¹ : ℂˣ) := by
    rw [yv, map_add, LaurentPolynomial.eval₂_T, LaurentPolynomial.eval₂_T]; simp
  rw [← this]
  induction P using Polynomial.induction_on' with
  | add p q hp hq => simp [hp, hq]
  | monomial n a => simp [subst, aeval_monomial]

theorem minpoly_two_cos (n : Nat) (hn : 0 < n) (P : ℤ[X]) (hP : P.Monic) (k : ℤ)
    (h : subst P = T k * toLaurent (theta n)) : minpoly ℤ (2 * Real.cos (2 * Real.pi / n)) = P := by
  set y : ℝ := 2 * Real.cos (2 * Real.pi / n) with hy
  have hprim : IsPrimitiveRoot ((zetaUnit n : ℂˣ) : ℂ) n := Complex.isPrimitiveRoot_exp n (by omega)
  have hcyc : aeval ((zetaUnit n : ℂˣ) : ℂ) (Polynomial.cyclotomic n ℤ) = 0 := by
    rw [aeval_def, eval₂_eq_eval_map, map_cyclotomic]
    exact hprim.isRoot_cyclotomic hn
  have hrootC : aeval ((y : ℝ) : ℂ) P = 0 := by
    rw [hy, ← eval_subst, h, map_mul, LaurentPolynomial.eval₂_toLaurent, theta]
    have : Polynomial.eval₂ (Int.castRingHom ℂ) ((zetaUnit n : ℂˣ) : ℂ) (Polynomial.cyclotomic n ℤ) = 0 := hcyc
    rw [eval₂_mul, this]; simp
  have hroot : aeval y P = 0 := by
    have : ((aeval y P : ℝ) : ℂ) = 0 := by
      rw [← hrootC]
      have := aeval_algebraMap_apply ℂ y P
      simpa using this.symm
    exact_mod_cast this
  have hint : IsIntegral ℤ y := ⟨P, hP, hroot⟩
  have hdvd : minpoly ℤ y ∣ P := minpoly.isIntegrallyClosed_dvd hint hroot
  have hfm := minpoly.monic hint
  set f := minpoly ℤ y with hf
  have hf0 : aeval ((y : ℝ) : ℂ) f = 0 := by
    have h1 : aeval y f = 0 := minpoly.aeval ℤ y
    have := aeval_algebraMap_apply ℂ y f
    rw [h1] at this; simpa using this
  have hdeg := (hom_eq_theta hP hn h).2.2
  rw [theta_natDegree n hn] at hdeg
  have hA : aeval ((zetaUnit n : ℂˣ) : ℂ) (hom f.natDegree f) = 0 := by
    have e1 : LaurentPolynomial.eval₂ (Int.castRingHom ℂ) (zetaUnit n) (toLaurent (hom f.natDegree f)) = 0 := by
      rw [toLaurent_hom _ _ le_rfl, map_mul, eval_subst, ← hy, hf0, mul_zero]
    rw [LaurentPolynomial.eval₂_toLaurent] at e1
    exact e1
  have hAne : hom f.natDegree f ≠ 0 := by
    intro h0
    have := hom_coeff_top f.natDegree f
    rw [h0, coeff_zero, hfm.coeff_natDegree] at this
    exact zero_ne_one this
  have hle : P.natDegree ≤ f.natDegree := by
    by_cases h2 : n ≤ 2
    · simp only [h2, if_true] at hdeg
      have : 0 < f.natDegree := minpoly.natDegree_pos hint
      omega
    · simp only [h2, if_false] at hdeg
      have hd : Polynomial.cyclotomic n ℤ ∣ hom f.natDegree f := by
        rw [cyclotomic_eq_minpoly hprim hn]
        exact minpoly.isIntegrallyClosed_dvd (hprim.isIntegral hn) hA
      have := natDegree_le_of_dvd hd hAne
      rw [natDegree_cyclotomic] at this
      have := hom_natDegree_le f.natDegree f
      omega
  exact (eq_of_monic_of_dvd_of_natDegree_le hfm hP hdvd hle).symm

end Poly
end Peyl
