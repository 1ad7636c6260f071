import Verif.Spec.MagmaData
import Verif.Spec.Burau
import Verif.Spec.Rep
/-!
# What `MagmaCheck.m` computes
-/
namespace Peyl
open LaurentPolynomial

/-- The reduced Burau matrix of the letter `k`: `k` stands for `σ_(k-1)`, `-k` for its inverse. -/
noncomputable def burauLetter (p m : Nat) (k : ℤ) : LMat p m := fun i j => LPoly.red p (burauEntry 0 k.sign (k.natAbs - 1) i j).den

/-- MagmaCheck.m:14-20, 60-72: `mats[k]`, as entered. -/
noncomputable def MagmaMats.mat (M : MagmaMats) (k : ℤ) : LMat M.p (M.n - 1) := fun i j =>
  if 0 < k then LPoly.red M.p ((M.gens.getD (k.natAbs - 1) []).getD ((M.n - 1) * i + j) ⟨0, []⟩).den
  else T (-2) * LPoly.red M.p ((M.invs.getD (k.natAbs - 1) []).getD ((M.n - 1) * i + j) ⟨0, []⟩).den

end Peyl
