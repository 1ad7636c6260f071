import Verif.Model.LPoly
import Mathlib.Algebra.Polynomial.Laurent
/-!
# Specification: what polynomial objects denote

`Poly.den` sends a coefficient tuple (constant term first) to the polynomial of `ℤ[X]` it lists;
`LPoly.den` sends `(val, coeffs)` to the Laurent polynomial `v^val * (coeffs)`.
-/
namespace Peyl
open Polynomial

/-- The polynomial `c₀ + c₁X + c₂X² + ...` listed by `[c₀, c₁, c₂, ...]`. -/
noncomputable def listPoly : List Int → ℤ[X]
  | [] => 0
  | c :: cs => C c + X * listPoly cs

/-- The element of `ℤ[X]` a `Poly` stands for. -/
noncomputable def Poly.den (p : Poly) : ℤ[X] := listPoly p.coeffs

/-- Trimmed: empty, or the last coefficient is non-zero. -/
def Poly.Trimmed (p : Poly) : Prop := p.coeffs.getLast? ≠ some 0

/-- The Laurent polynomial an `LPoly` stands for. -/
noncomputable def LPoly.den (p : LPoly) : LaurentPolynomial ℤ :=
  LaurentPolynomial.T p.val * Polynomial.toLaurent (listPoly p.coeffs)

/-- Trimmed: zero is stored as `(0, ())`, otherwise first and last coefficient are non-zero. -/
def LPoly.Trimmed (p : LPoly) : Prop :=
  (p.coeffs = [] → p.val = 0) ∧ p.coeffs.head? ≠ some 0 ∧ p.coeffs.getLast? ≠ some 0

instance (p : Poly) : Decidable p.Trimmed := by unfold Poly.Trimmed; infer_instance
instance (p : LPoly) : Decidable p.Trimmed := by unfold LPoly.Trimmed; infer_instance

end Peyl
