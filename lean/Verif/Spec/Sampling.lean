import Verif.Model.Braid
import Mathlib.Data.Fintype.Pi
import Mathlib.Data.Rat.Cast.Defs
/-!
# Specification vocabulary: the chance of an outcome
-/
namespace Peyl

/-- A finite sequence of draws, continued by zeros. -/
def draws {k N : Nat} (r : Fin k → Fin N) (j : Nat) : Nat := if h : j < k then (r ⟨j, h⟩).val else 0

/-- The chance that the computation `f`, which asks its random generator `k` times, returns `x`, when the draws are independent and each
of them is one of `N` equally likely numbers: favourable sequences of draws over all sequences. -/
def chance (k N : Nat) (f : (Nat → Nat) → Except Err NF) (x : NF) : ℚ :=
  ((Finset.univ.filter fun r : Fin k → Fin N => f (draws r) = .ok x).card : ℚ) / (N : ℚ) ^ k

end Peyl
