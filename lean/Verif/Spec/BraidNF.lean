import Verif.Spec.Braid
import Verif.Model.Braid
/-!
# Specification vocabulary for Garside normal form objects (`GNF`)
-/
namespace Peyl

open Classical in
/-- The permutation that index `i` stands for: the `i`-th one in the order of `SymmetricGroup(n).elements()`. -/
noncomputable def permAt (n i : Nat) : Equiv.Perm (Fin n) :=
  if h : ∃ π : Equiv.Perm (Fin n), (Perms.elements n)[i]? = some (wordOf π) then h.choose else 1

/-- `x` is a `GNF` object on `n` strands: it can be constructed, from factor indices in `[0, n!)`. -/
def IsGNF (lim : Nat) (ω : List Nat → List Nat → Nat → Nat) (n : Nat) (x : NF) : Prop :=
  (∀ f ∈ x.factors, f < n.factorial) ∧ NF.make (GNF.tbl lim ω) n x.power x.factors = .ok x

instance (lim : Nat) (ω : List Nat → List Nat → Nat → Nat) (n : Nat) (x : NF) : Decidable (IsGNF lim ω n x) := by
  unfold IsGNF
  have : Decidable (NF.make (GNF.tbl lim ω) n x.power x.factors = .ok x) :=
    match NF.make (GNF.tbl lim ω) n x.power x.factors with
    | .ok y => decidable_of_iff (y = x) (by simp)
    | .error e => isFalse (by simp)
  infer_instance

/-- The element of Artin's braid group denoted by a `GNF` object: `Δ^power · f₁ ⋯ f_k`, each factor being the positive
permutation braid of the permutation it indexes. -/
noncomputable def gnfBraid (n : Nat) (x : NF) : Braid n :=
  halfTwist n ^ x.power * (x.factors.map fun f => lift (permAt n f)).prod

/-- Left-weighted pairs: every `i` with `π⁻¹(i) > π⁻¹(i+1)` for the right factor has `ρ(i) > ρ(i+1)` for the left one. -/
def LeftWeighted {n : Nat} (ρ π : Equiv.Perm (Fin n)) : Prop :=
  ∀ i (h : i + 1 < n), π⁻¹ ⟨i + 1, h⟩ < π⁻¹ ⟨i, by omega⟩ → ρ ⟨i + 1, h⟩ < ρ ⟨i, by omega⟩

end Peyl
