import Verif.Model.NPar
import Verif.Spec.TL
import Verif.Spec.BKL
import Mathlib.GroupTheory.Perm.Cycle.Basic
/-!
# Specification vocabulary: noncrossing partitions
-/
namespace Peyl
open Equiv

/-- A legal `NPar`: the involution is a crossingless matching of `2n` points on a line. -/
def NPar.Ok (p : NPar) : Prop := p.inv.length = 2 * p.n ∧ TL.Crossingless p.inv

/-- No two blocks of a partition of `0, …, n-1` (given as an equivalence relation) cross. -/
def NonCrossing {n : Nat} (r : Fin n → Fin n → Prop) : Prop :=
  ∀ a b c d : Fin n, a < b → b < c → c < d → r a c → r b d → r a b

/-- The partition drawn by an `NPar`: `a` and `b` lie in the same block if they are linked by a chain of arcs, an arc from
`2a + 1` to `2b` linking `a` and `b`. -/
def NPar.blocks (p : NPar) : Setoid (Fin p.n) := Relation.EqvGen.setoid fun a b => TL.at_ p.inv (2 * a + 1) = 2 * b

/-- Every cycle descends: each point is sent to the next lower point of its cycle, and hence the least one to the greatest. -/
def Descending {n : Nat} (x : Perm (Fin n)) : Prop := ∀ a b : Fin n, x.SameCycle a b → a < b → a ≤ x b ∧ x b < b

/-- A product of disjoint parallel descending cycles. -/
def ParallelDescending {n : Nat} (x : Perm (Fin n)) : Prop := Descending x ∧ NonCrossing x.SameCycle

/-- `cs` lists the blocks of a partition of `0, …, n-1`: each block is ascending, the blocks are ordered by their least
elements, and every point occurs exactly once. -/
structure IsBlockList {n : Nat} (r : Setoid (Fin n)) (cs : List (List Nat)) : Prop where
  nonempty : ∀ c ∈ cs, c ≠ []
  ascending : ∀ c ∈ cs, c.Pairwise (· < ·)
  ordered : (cs.map fun c => c.getD 0 0).Pairwise (· < ·)
  cover : cs.flatten.Perm (List.range n)
  block : ∀ a b : Fin n, r a b ↔ ∃ c ∈ cs, (a : Nat) ∈ c ∧ (b : Nat) ∈ c

/-- The partition of `0, …, n-1` with the given disjoint components, the points not mentioned being on their own. -/
def compRel {n : Nat} (comps : List (List Int)) (a b : Fin n) : Prop := a = b ∨ ∃ c ∈ comps, (a : Int) ∈ c ∧ (b : Int) ∈ c

end Peyl
