import Verif.Model.Matrix
import Verif.Spec.Poly
import Mathlib.LinearAlgebra.Matrix.Trace
/-!
# Specification: what matrices denote
-/
namespace Peyl
open LaurentPolynomial

/-- The Laurent polynomial an entry stands for (an int is a constant). -/
noncomputable def Entry.den : Entry → ℤ[T;T⁻¹]
  | .int k => LaurentPolynomial.C k
  | .lp p => p.den

/-- Entries hold trimmed Laurent polynomials. -/
def Entry.Ok : Entry → Prop
  | .int _ => True
  | .lp p => p.Trimmed

/-- `m` is a well-formed `r × c` matrix object. -/
structure Matrix.Shape (m : Matrix) (r c : Nat) : Prop where
  nrows : m.nrows = r
  ncols : m.ncols = c
  length : m.data.length = r * c
  ok : ∀ x ∈ m.data, x.Ok

/-- The mathematical `r × c` matrix over `ℤ[v,v⁻¹]` an object of that shape stands for: entry `(i,j)` is what
`M[i, j]` returns. -/
noncomputable def Matrix.den (r c : Nat) (m : Matrix) : _root_.Matrix (Fin r) (Fin c) ℤ[T;T⁻¹] :=
  fun i j => match m.get i j with
    | .ok x => x.den
    | .error _ => 0

end Peyl
