import Verif.Lemmas.Hurwitz
import Verif.Lemmas.ProjRep
import Mathlib.NumberTheory.Basic
import Mathlib.Algebra.Polynomial.AlgebraMap
/-!
# The kernel of the reduced Burau representation for different moduli
-/
namespace Peyl
namespace Bur
open _root_.Matrix LaurentPolynomial
variable {n : Nat}

theorem rep_red (N : Nat) (b : Braid n) : rep n (vT (ZMod N)) b = (rep n (vT ℤ) b).map (LPoly.red N) := by
  rw [rep_map]
  congr 2
  ext1
  exact (red_T (p := N) 1).symm

/-- The kernel modulo `N`, over the integers. -/
theorem ker_iff (N : Nat) (b : Braid n) : rep n (vT (ZMod N)) b = 1 ↔ ∃ M : _root_.Matrix (Fin (n - 1)) (Fin (n - 1)) ℤ[T;T⁻¹], rep n (vT ℤ) b = 1 + (N : ℤ[T;T⁻¹]) • M := by
  constructor
  · intro h
    rw [rep_red] at h
    have h1 : ∀ i j (k : ℤ), (N : ℤ) ∣ ((rep n (vT ℤ) b - 1) i j).coeff k := by
      intro i j k
      have h2 : LPoly.red N ((rep n (vT ℤ) b - 1) i j) = 0 := by
        have := congrFun (congrFun h i) j
        rw [_root_.Matrix.map_apply] at this
        rw [_root_.Matrix.sub_apply, map_sub, this, _root_.Matrix.one_apply, _root_.Matrix.one_apply]
        split_ifs <;> simp
      have := congrArg (fun f => f.coeff k) h2
      simp only [LPoly.coeff_red] at this
      exact (ZMod.intCast_zmod_eq_zero_iff_dvd _ _).1 (by simpa using this)
    have h3 : ∀ f : ℤ[T;T⁻¹], (∀ k, (N : ℤ) ∣ f.coeff k) → ∃ g : ℤ[T;T⁻¹], f = N * g := by
      intro f hf
      refine ⟨f.coeff.support.sum fun k => C (f.coeff k / N) * T k, ?_⟩
      apply LaurentPolynomial.ext
      intro m
      have e : ∀ g : ℤ[T;T⁻¹], ((N : ℤ[T;T⁻¹]) * g).coeff m = N * g.coeff m := by
        intro g
        rw [← nsmul_eq_mul, AddMonoidAlgebra.coeff_smul]; simp
      rw [e]
      have e2 : (f.coeff.support.sum fun k => (C (f.coeff k / N) * T k : ℤ[T;T⁻¹])).coeff m = if m ∈ f.coeff.support then f.coeff m / N else 0 := by
        rw [AddMonoidAlgebra.coeff_sum, Finsupp.finset_sum_apply]
        simp only [← LaurentPolynomial.single_eq_C_mul_T, AddMonoidAlgebra.coeff_single, Finsupp.single_apply]
        rw [Finset.sum_ite_eq']
      rw [e2]
      split_ifs with hm
      · rw [Int.mul_ediv_cancel' (hf m)]
      · simpa using hm
    choose g hg using fun i j => h3 _ (h1 i j)
    refine ⟨_root_.Matrix.of g, ?_⟩
    refine _root_.Matrix.ext fun i j => ?_
    have := hg i j
    rw [_root_.Matrix.sub_apply] at this
    rw [_root_.Matrix.add_apply, _root_.Matrix.smul_apply, _root_.Matrix.of_apply, smul_eq_mul, ← this]
    ring
  · rintro ⟨M, h⟩
    rw [rep_red, h]
    refine _root_.Matrix.ext fun i j => ?_
    rw [_root_.Matrix.map_apply, _root_.Matrix.add_apply, _root_.Matrix.smul_apply, smul_eq_mul, map_add, map_mul]
    have : LPoly.red N (N : ℤ[T;T⁻¹]) = 0 := by
      rw [map_natCast, ← map_natCast (C : ZMod N →+* (ZMod N)[T;T⁻¹]), ZMod.natCast_self, map_zero]
    rw [this, zero_mul, add_zero, _root_.Matrix.one_apply, _root_.Matrix.one_apply]
    split_ifs <;> simp

/-- Powers: `b` modulo `q` gives `b ^ q^k` modulo `q^(k+1)`. -/
theorem ker_pow {q : Nat} {b : Braid n} (h : rep n (vT (ZMod q)) b = 1) (k : Nat) : rep n (vT (ZMod (q ^ (k + 1)))) (b ^ q ^ k) = 1 := by
  obtain ⟨M, hM⟩ := (ker_iff q b).1 h
  rw [ker_iff]
  have h1 := dvd_sub_pow_of_dvd_sub (R := Polynomial ℤ[T;T⁻¹]) (p := q) (a := 1 + (q : Polynomial ℤ[T;T⁻¹]) * Polynomial.X) (b := 1) ⟨Polynomial.X, by ring⟩ k
  obtain ⟨c, hc⟩ := h1
  refine ⟨Polynomial.aeval M c, ?_⟩
  have h2 := congrArg (Polynomial.aeval M) hc
  simp only [map_sub, map_pow, map_add, map_one, map_mul, map_natCast, Polynomial.aeval_X, one_pow] at h2
  rw [map_pow, hM, ← sub_eq_iff_eq_add']
  have e : ∀ (m : Nat) (X : _root_.Matrix (Fin (n - 1)) (Fin (n - 1)) ℤ[T;T⁻¹]), (m : ℤ[T;T⁻¹]) • X = (m : _root_.Matrix (Fin (n - 1)) (Fin (n - 1)) ℤ[T;T⁻¹]) * X := by
    intro m X
    rw [Nat.cast_smul_eq_nsmul, nsmul_eq_mul]
  rw [e, e, h2]
  push_cast
  rfl

theorem ker_dvd {N M : Nat} (hd : N ∣ M) {b : Braid n} (h : rep n (vT (ZMod M)) b = 1) : rep n (vT (ZMod N)) b = 1 := by
  obtain ⟨c, rfl⟩ := hd
  obtain ⟨X, hX⟩ := (ker_iff _ b).1 h
  refine (ker_iff _ b).2 ⟨(c : ℤ[T;T⁻¹]) • X, ?_⟩
  rw [hX, smul_smul]; push_cast; rfl

theorem ker_zero {b : Braid n} (h : rep n (vT ℤ) b = 1) (N : Nat) : rep n (vT (ZMod N)) b = 1 :=
  (ker_iff _ b).2 ⟨0, by rw [h, smul_zero, add_zero]⟩

theorem ker_coprime {N M : Nat} (hc : N.Coprime M) {b : Braid n} (h1 : rep n (vT (ZMod N)) b = 1) (h2 : rep n (vT (ZMod M)) b = 1) : rep n (vT (ZMod (N * M))) b = 1 := by
  obtain ⟨X, hX⟩ := (ker_iff _ b).1 h1
  obtain ⟨Y, hY⟩ := (ker_iff _ b).1 h2
  have hco : IsCoprime (N : ℤ) (M : ℤ) := Nat.isCoprime_iff_coprime.2 hc
  obtain ⟨u, v, huv⟩ := hco
  have huv' : (u : ℤ[T;T⁻¹]) * N + v * M = 1 := by exact_mod_cast congrArg (Int.cast : ℤ → ℤ[T;T⁻¹]) huv
  refine (ker_iff _ b).2 ⟨(v : ℤ[T;T⁻¹]) • X + (u : ℤ[T;T⁻¹]) • Y, ?_⟩
  have e : (N : ℤ[T;T⁻¹]) • X = (M : ℤ[T;T⁻¹]) • Y := by rw [hX] at hY; exact add_left_cancel hY
  rw [hX]
  congr 1
  push_cast
  rw [smul_add, smul_smul, smul_smul]
  have e2 : ((N : ℤ[T;T⁻¹]) * M * u) • Y = ((N : ℤ[T;T⁻¹]) * u) • ((N : ℤ[T;T⁻¹]) • X) := by rw [e, smul_smul]; congr 1; ring
  rw [e2, smul_smul, ← add_smul]
  congr 1
  linear_combination (-(N : ℤ[T;T⁻¹])) * huv'

section
variable {R : Type*} [CommRing R] {v : Rˣ}
theorem ker_comm_left {a : Braid n} (h : rep n v a = 1) (b : Braid n) : rep n v (a * b * a⁻¹ * b⁻¹) = 1 := by
  have h' : rep n v a⁻¹ = 1 := by
    have := map_mul (rep n v) a⁻¹ a
    rw [inv_mul_cancel, map_one, h, mul_one] at this
    exact this.symm
  rw [map_mul, map_mul, map_mul, h, h', one_mul, mul_one, ← map_mul, mul_inv_cancel, map_one]

theorem ker_comm_right {b : Braid n} (h : rep n v b = 1) (a : Braid n) : rep n v (a * b * a⁻¹ * b⁻¹) = 1 := by
  have h' : rep n v b⁻¹ = 1 := by
    have := map_mul (rep n v) b⁻¹ b
    rw [inv_mul_cancel, map_one, h, mul_one] at this
    exact this.symm
  rw [map_mul, map_mul, map_mul, h, h', mul_one, mul_one, ← map_mul, mul_inv_cancel, map_one]
end

end Bur
end Peyl
