import Verif.Model.Polymat
import Verif.Spec.Matrix
import Mathlib.Algebra.Polynomial.Coeff
/-!
# Specification: what polynomial tensors denote
-/
namespace Peyl
open Polynomial

/-- The `I × J` matrix over `ℤ[v]` that the tensor `A` of shape `(α, I, J, D)` stands for at batch index `a`: entry `(i, j)`
is `Σ_d A[a, i, j, d] v^d`. -/
noncomputable def Polymat.den {α : Type} {I J : Nat} (A : PArr α I J) (a : α) : _root_.Matrix (Fin I) (Fin J) ℤ[X] :=
  fun i j => listPoly (A.map fun S => S a i j)

/-- The degrees in which a matrix of polynomials has a non-zero coefficient. -/
def degSet {R : Type} [Semiring R] {I J : Nat} (M : _root_.Matrix (Fin I) (Fin J) R[X]) : Set ℕ := {d | ∃ i j, (M i j).coeff d ≠ 0}

end Peyl
