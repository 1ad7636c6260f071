import Verif.Spec.NPar
import Verif.Spec.BraidNF
/-!
# Specification vocabulary for dual Garside normal form objects (`DGNF`)
-/
namespace Peyl

open Classical in
/-- The permutation that index `i` stands for: that of the `i`-th noncrossing partition yielded by `NPar.all_of_size(n)`. -/
noncomputable def nparAt (n i : Nat) : Equiv.Perm (Fin n) :=
  if h : ∃ π : Equiv.Perm (Fin n), ∃ l p, NPar.allOfSize n = .ok l ∧ l[i]? = some p ∧ p.toPermutation = .ok (wordOf π) then h.choose else 1

/-- `x` is a `DGNF` object on `n` strands: it can be constructed, from factor indices in `[0, catalan(n))`. -/
def IsDGNF (lim : Nat) (ω : NPar → NPar → Nat → Nat) (n : Nat) (x : NF) : Prop :=
  (∀ f ∈ x.factors, f < NPar.catalanNum n) ∧ NF.make (DGNF.tbl lim ω) n x.power x.factors = .ok x

instance (lim : Nat) (ω : NPar → NPar → Nat → Nat) (n : Nat) (x : NF) : Decidable (IsDGNF lim ω n x) := by
  unfold IsDGNF
  have : Decidable (NF.make (DGNF.tbl lim ω) n x.power x.factors = .ok x) :=
    match NF.make (DGNF.tbl lim ω) n x.power x.factors with
    | .ok y => decidable_of_iff (y = x) (by simp)
    | .error e => isFalse (by simp)
  infer_instance

/-- The element of Artin's braid group denoted by a `DGNF` object: `δ^power · f₁ ⋯ f_k`, each factor being the product of the
band generators along a shortest factorisation into transpositions of the permutation it indexes. -/
noncomputable def dgnfBraid (n : Nat) (x : NF) : Braid n :=
  delta n ^ x.power * (x.factors.map fun f => dlift (nparAt n f)).prod

/-- Left-weighted pairs of noncrossing partitions: no two points are in a common block of the right factor and of the right
(Kreweras) complement `ρ⁻¹ δ` of the left factor. -/
def DualLeftWeighted {n : Nat} (ρ π : Equiv.Perm (Fin n)) : Prop :=
  ∀ a b : Fin n, a < b → (ρ⁻¹ * dcyc n).SameCycle a b → ¬ π.SameCycle a b

/-- A product of band generators (no inverses). -/
def IsBandPositive {n : Nat} (b : Braid n) : Prop :=
  ∃ w : List (Nat × Nat), (∀ p ∈ w, p.1 < n ∧ p.2 < n) ∧ b = (w.map fun p => band n p.1 p.2).prod

end Peyl
