import Verif.Spec.Braid
/-!
# Specification vocabulary for the dual (band) generators of the braid group
-/
namespace Peyl

/-- The band generator on the strands `a` and `a + k + 1`: `σ_{a+k} ⋯ σ_{a+1} · σ_a · σ_{a+1}⁻¹ ⋯ σ_{a+k}⁻¹`. -/
def bandUp (n a : Nat) : Nat → Braid n
  | 0 => sigma n a
  | k + 1 => sigma n (a + k + 1) * bandUp n a k * (sigma n (a + k + 1))⁻¹

/-- The band generator on the strands `s` and `t` (trivial if they coincide). -/
def band (n s t : Nat) : Braid n := if s = t then 1 else bandUp n (min s t) (max s t - min s t - 1)

/-- `w` is a factorisation of `π` into transpositions. -/
def IsTransWord {n : Nat} (w : List (Fin n × Fin n)) (π : Equiv.Perm (Fin n)) : Prop :=
  (∀ p ∈ w, p.1 < p.2) ∧ (w.map fun p => Equiv.swap p.1 p.2).prod = π

/-- `w` is a factorisation of `π` into as few transpositions as possible. -/
def IsMinTransWord {n : Nat} (w : List (Fin n × Fin n)) (π : Equiv.Perm (Fin n)) : Prop :=
  IsTransWord w π ∧ ∀ w', IsTransWord w' π → w.length ≤ w'.length

open Classical in
/-- The dual lift of a permutation: the product of the band generators along a shortest factorisation into transpositions (for
noncrossing permutations it does not matter which one, see `dlift_eq`). -/
noncomputable def dlift {n : Nat} (π : Equiv.Perm (Fin n)) : Braid n :=
  if h : ∃ w, IsMinTransWord w π then (h.choose.map fun p => band n p.1 p.2).prod else 1

/-- The descending cycle `i ↦ i - 1` modulo `n`. -/
def dcyc (n : Nat) : Equiv.Perm (Fin n) := (finRotate n)⁻¹

/-- The dual Garside element `δ`. -/
noncomputable def delta (n : Nat) : Braid n := dlift (dcyc n)

end Peyl
