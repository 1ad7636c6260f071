import Verif.Lemmas.LPoly
import Mathlib.Data.ZMod.Basic
/-!
# Coefficients of denotations, and reduction modulo `p`
-/
namespace Peyl
open Polynomial LaurentPolynomial

theorem coeff_toLaurent_int (f : ℤ[X]) (j : ℤ) : (toLaurent f).coeff j = if 0 ≤ j then f.coeff j.toNat else 0 := by
  induction f using Polynomial.induction_on' with
  | add p q hp hq =>
    rw [map_add, AddMonoidAlgebra.coeff_add, Finsupp.add_apply, hp, hq]; split <;> simp
  | monomial n a =>
    rw [← C_mul_X_pow_eq_monomial, toLaurent_C_mul_X_pow, ← single_eq_C_mul_T, AddMonoidAlgebra.coeff_single, Finsupp.single_apply,
      coeff_C_mul_X_pow]
    by_cases h : (n : ℤ) = j
    · subst h; simp
    · rw [if_neg h]
      split
      · rw [if_neg (by omega)]
      · rfl

namespace LPoly

/-- The stored coefficient of `v^k`. -/
def coeffAt (p : LPoly) (k : ℤ) : ℤ := if p.val ≤ k then p.coeffs.getD (k - p.val).toNat 0 else 0

theorem coeff_den (p : LPoly) (k : ℤ) : p.den.coeff k = p.coeffAt k := by
  have : p.den.coeff k = (toLaurent (listPoly p.coeffs)).coeff (-p.val + k) := by
    rw [den, T, AddMonoidAlgebra.coeff_single_mul_apply, one_mul]
  rw [this, coeff_toLaurent_int, coeffAt, coeff_listPoly]
  by_cases h : p.val ≤ k
  · rw [if_pos h, if_pos (by omega), show -p.val + k = k - p.val by ring]
  · rw [if_neg h, if_neg (by omega)]

theorem coeff_make (val : ℤ) (c : List ℤ) (k : ℤ) : (make val c).den.coeff k = if val ≤ k then c.getD (k - val).toNat 0 else 0 := by
  rw [show (make val c).den = (LPoly.mk val c).den from den_make val c, coeff_den]; rfl

theorem coeffAt_map (f : ℤ → ℤ) (hf : f 0 = 0) (p : LPoly) (k : ℤ) : (map f p).den.coeff k = f (p.den.coeff k) := by
  rw [map, coeff_make, coeff_den, coeffAt]
  split
  · simp only [List.getD_eq_getElem?_getD, List.getElem?_map]
    cases p.coeffs[(k - p.val).toNat]? <;> simp [hf]
  · rw [hf]

theorem trimmed_map (f : ℤ → ℤ) (p : LPoly) : (map f p).Trimmed := trimmed_make _ _

/-- Reduction of coefficients, `ℤ[v,v⁻¹] → (ℤ/p)[v,v⁻¹]`. -/
noncomputable def red (p : ℕ) : ℤ[T;T⁻¹] →+* (ZMod p)[T;T⁻¹] := AddMonoidAlgebra.mapRingHom ℤ (Int.castRingHom (ZMod p))

theorem coeff_red (p : ℕ) (f : ℤ[T;T⁻¹]) (k : ℤ) : (red p f).coeff k = ((f.coeff k : ℤ) : ZMod p) := by
  rw [red, AddMonoidAlgebra.coeff_mapRingHom]; rfl

theorem red_map (p : ℕ) (x : LPoly) : red p (map (fun n => n.fmod p) x).den = red p x.den := by
  apply LaurentPolynomial.ext
  intro k
  rw [coeff_red, coeff_red, coeffAt_map _ (by simp)]
  rw [ZMod.intCast_eq_intCast_iff, Int.ModEq, Int.fmod_eq_emod_of_nonneg _ (by omega)]
  simp

/-- Two Laurent polynomials agree modulo `p` iff the reduced objects are equal. -/
theorem map_mod_eq_iff (p : ℕ) (x y : LPoly) :
    map (fun n => n.fmod p) x = map (fun n => n.fmod p) y ↔ red p x.den = red p y.den := by
  constructor
  · intro h; rw [← red_map, ← red_map p y, h]
  · intro h
    apply (trimmed_map _ _).den_inj (trimmed_map _ _)
    apply LaurentPolynomial.ext
    intro k
    rw [coeffAt_map _ (by simp), coeffAt_map _ (by simp)]
    have := congrArg (fun f => f.coeff k) h
    simp only [coeff_red, ZMod.intCast_eq_intCast_iff, Int.ModEq] at this
    rw [Int.fmod_eq_emod_of_nonneg _ (by omega), Int.fmod_eq_emod_of_nonneg _ (by omega), this]

theorem getLast_ne {p : LPoly} (hp : p.Trimmed) (h : p.coeffs ≠ []) : p.den.coeff p.degree ≠ 0 := by
  have hl : 0 < p.coeffs.length := List.length_pos_iff.2 h
  rw [coeff_den, coeffAt, degree, if_pos (by omega)]
  intro h0
  apply hp.2.2
  rw [getLast?_eq_getD]
  refine ⟨h, ?_⟩
  rw [← h0]; congr 1; omega

theorem head_ne {p : LPoly} (hp : p.Trimmed) (h : p.coeffs ≠ []) : p.den.coeff p.valuation ≠ 0 := by
  rw [coeff_den, coeffAt, valuation, if_pos le_rfl]
  intro h0
  apply hp.2.1
  rw [head?_eq_getD]
  refine ⟨h, ?_⟩
  rw [← h0]; congr 1; omega

theorem coeff_above (p : LPoly) (k : ℤ) (h : p.degree < k) : p.den.coeff k = 0 := by
  rw [coeff_den, coeffAt]
  split
  · rw [List.getD_eq_getElem?_getD, List.getElem?_eq_none]
    · rfl
    · unfold degree at h; omega
  · rfl

theorem coeff_below (p : LPoly) (k : ℤ) (h : k < p.valuation) : p.den.coeff k = 0 := by
  rw [coeff_den, coeffAt, if_neg]; unfold valuation at h; omega

end LPoly
end Peyl
