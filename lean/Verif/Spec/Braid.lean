import Verif.Spec.Permutations
import Mathlib.GroupTheory.PresentedGroup
/-!
# Specification vocabulary for braids

Artin's braid group, its generators, and what it means for a braid to be the positive lift of a permutation.
-/
namespace Peyl

/-- Artin's relations on `n - 1` generators. -/
def artinRels (n : Nat) : Set (FreeGroup (Fin (n - 1))) :=
  {r | (∃ i j : Fin (n - 1), i.val + 2 ≤ j.val ∧
          r = FreeGroup.of i * FreeGroup.of j * (FreeGroup.of j * FreeGroup.of i)⁻¹) ∨
       (∃ i j : Fin (n - 1), i.val + 1 = j.val ∧
          r = FreeGroup.of i * FreeGroup.of j * FreeGroup.of i * (FreeGroup.of j * FreeGroup.of i * FreeGroup.of j)⁻¹)}

/-- Artin's braid group on `n` strands. -/
abbrev Braid (n : Nat) : Type := PresentedGroup (artinRels n)

/-- The Artin generator `σ_i`, `0 ≤ i < n - 1` (the identity for an illegal index). -/
def sigma (n i : Nat) : Braid n := if h : i < n - 1 then PresentedGroup.of ⟨i, h⟩ else 1

/-- The braid spelled by a list of pairs (generator, exponent). -/
def wordBraid (n : Nat) (w : List (Nat × Int)) : Braid n := (w.map fun se => sigma n se.1 ^ se.2).prod

/-- The braid spelled by a positive word. -/
def posWord (n : Nat) (w : List Nat) : Braid n := (w.map (sigma n)).prod

/-- `w` is a reduced word of the permutation `π`: it spells `π` with as many letters as `π` has inversions. -/
def IsReduced {n : Nat} (w : List Nat) (π : Equiv.Perm (Fin n)) : Prop :=
  (∀ s ∈ w, s + 1 < n) ∧ coxProd n w = π ∧ w.length = inv π

/-- The positive braids: products of Artin generators. -/
def IsPositive {n : Nat} (b : Braid n) : Prop := ∃ w : List Nat, b = posWord n w

open Classical in
/-- The positive permutation braid: the braid spelled by a reduced word (which one does not matter, see
`lift_eq_posWord`). -/
noncomputable def lift {n : Nat} (π : Equiv.Perm (Fin n)) : Braid n :=
  if h : ∃ w, IsReduced w π then posWord n h.choose else 1

/-- The half twist. -/
noncomputable def halfTwist (n : Nat) : Braid n := lift (w0 n)

end Peyl
