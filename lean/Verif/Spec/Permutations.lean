import Mathlib.Tactic
import Mathlib.Data.List.OfFn
import Mathlib.GroupTheory.Perm.Basic
/-!
# Specification vocabulary for permutations

`wordOf π` is the word notation `[π 0, …, π (n-1)]` of a permutation of `Fin n`; `inv π` counts its inversions;
`sg n i` is the adjacent transposition of `i` and `i+1`.
-/
namespace Peyl

/-- `w` lists every integer of `[0, len(w))` exactly once. -/
def IsPermWord (w : List Nat) : Prop := w.Nodup ∧ ∀ k ∈ w, k < w.length

instance : DecidablePred IsPermWord := fun w => by unfold IsPermWord; infer_instance

/-- Word notation of a permutation. -/
def wordOf {n : Nat} (π : Equiv.Perm (Fin n)) : List Nat := List.ofFn fun i => (π i : Nat)

/-- The inversions of a permutation. -/
def invSet {n : Nat} (π : Equiv.Perm (Fin n)) : Finset (Fin n × Fin n) :=
  Finset.univ.filter fun p => p.1 < p.2 ∧ π p.2 < π p.1

/-- The number of inversions. -/
def inv {n : Nat} (π : Equiv.Perm (Fin n)) : Nat := (invSet π).card

/-- The adjacent transposition `(i, i+1)` (the identity if that is not a legal index). -/
def sg (n i : Nat) : Equiv.Perm (Fin n) :=
  if h : i + 1 < n then Equiv.swap ⟨i, by omega⟩ ⟨i + 1, h⟩ else 1

/-- The reversing permutation, the longest element of the symmetric group. -/
def w0 (n : Nat) : Equiv.Perm (Fin n) := Fin.revPerm

/-- The permutation spelled by a word in the adjacent transpositions. -/
def coxProd (n : Nat) (w : List Nat) : Equiv.Perm (Fin n) := (w.map (sg n)).prod

end Peyl

namespace Peyl

/-- `c` is one orbit of the permutation word `w`, listed in traversal order (`c[i+1] = w[c[i]]`, cyclically) starting at
its least element. -/
def IsCycleOf (w c : List Nat) : Prop :=
  c ≠ [] ∧ (∀ i, i < c.length → w.getD (c.getD i 0) 0 = c.getD ((i + 1) % c.length) 0) ∧ ∀ x ∈ c, c.getD 0 0 ≤ x

/-- The decomposition into orbits, ordered by least element, each point occurring exactly once. -/
structure IsCycleDecomp (w : List Nat) (cs : List (List Nat)) : Prop where
  cycle : ∀ c ∈ cs, IsCycleOf w c
  cover : cs.flatten.Perm (List.range w.length)
  sorted : (cs.map fun c => c.getD 0 0).Pairwise (· < ·)

end Peyl
