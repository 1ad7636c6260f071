import Verif.Spec.Descend
import Verif.Model.SearchMisc
/-!
# Specification vocabulary: degrees and terms of Laurent polynomial matrices
-/
namespace Peyl
variable {p d : Nat}

/-- All exponents occurring in the matrix lie in a window of `m` consecutive integers. -/
def FitsIn (M : LMat p d) (m : ℤ) : Prop := ∃ lo : ℤ, ∀ i j k, (M i j).coeff k ≠ 0 → lo ≤ k ∧ k < lo + m

/-- The number of monomials occurring in all entries. -/
noncomputable def termCount (M : LMat p d) : Nat := ∑ i, ∑ j, (M i j).coeff.support.card

/-- What a row says about a braid and its image. -/
def BraidSearch.FrameRow.Describes {p : Nat} (r : BraidSearch.FrameRow d) (x : NF) (A : Img d) (M : LMat p d) : Prop :=
  r.braid = x ∧ r.image = A ∧ r.length = NF.garsideLength x ∧ r.nzTerms = termCount M ∧ r.valmin = 0 ∧ r.rhogap2 = r.degmax ∧
    ∀ m : ℤ, FitsIn M m ↔ r.degmax < m

end Peyl
