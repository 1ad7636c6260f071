import Verif.Model.LPoly
/-!
# The reduced Burau matrices, as printed

Row `s` of the matrix of `σ_s` is `(0, …, -v, -v², -v, …, 0)` with `-v²` at column `s`; the other rows are those of the identity.  The
inverse has `v⁻¹` in place of `v`.
-/
namespace Peyl

/-- `-1` modulo `p`, in the range of Python's `%`. -/
def minusOne (p : Nat) : Int := if p = 0 then -1 else p - 1

/-- Entry `(i, j)` of the matrix of `σ_s` (`x = 1`) or of its inverse (`x = -1`), as a Laurent polynomial `v^val * coeffs`. -/
def burauEntry (p : Nat) (x : Int) (s i j : Nat) : LPoly :=
  if i = s then
    if j = s then ⟨2 * x, [minusOne p]⟩
    else if j = s + 1 ∨ j + 1 = s then ⟨x, [minusOne p]⟩
    else ⟨0, []⟩
  else if i = j then ⟨0, [1]⟩
  else ⟨0, []⟩

/-- Entry `(i, j)` of the matrix of the `k`-th power of the half twist: `± v^(n k)` on the diagonal for even `k`, on the antidiagonal for odd
`k`; the sign is `(-1)^((n+1) k)`. -/
def garsideEntry (n p : Nat) (k : Int) (i j : Nat) : LPoly :=
  if (if k % 2 = 0 then i = j else i + j = n - 2) then ⟨n * k, [if (n + 1) * k % 2 = 0 then 1 else minusOne p]⟩ else ⟨0, []⟩

end Peyl
