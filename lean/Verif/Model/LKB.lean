import Verif.Model.Matrix
import Verif.Model.Permutations
import Verif.Model.RepBase
/-!
# Model of `LKBRep` of `peyl/jonesrep.py`
-/
namespace Peyl
namespace LKB

/-- peyl/jonesrep.py:301, the keys of the dict `gen` in the order of insertion: `(i, j)` for `i` in `range(n)`, `j` in
`range(i + 1, n)`. -/
def pairs (n : Nat) : List (Nat × Nat) := (List.range n).flatMap fun i => (List.range' (i + 1) (n - (i + 1))).map fun j => (i, j)

/-- peyl/jonesrep.py:302-321, the column of the matrix of `σ_s` with the index `(i, j)`, as the list of the items of the dict
`col`.  Entries that the code leaves as ints are coerced at once (peyl/jonesrep.py:324 does it later). -/
def column (q t : LPoly) (s i j : Nat) : Except Err (List ((Nat × Nat) × LPoly)) :=
  let one := LPoly.make 0 [1]
  if i = s ∧ j = s + 1 then .ok [((i, j), LPoly.mul (LPoly.mul t q) q)]
  else if i < s ∧ j = s then .ok [((i, j), LPoly.add (LPoly.neg q) one), ((i, j + 1), q)]
  else if i < s ∧ j = s + 1 then do
    .ok [((i, j - 1), one), ((j - 1, j), LPoly.mul (LPoly.mul t (← LPoly.pow q ((j : Int) - i))) (LPoly.sub q one))]
  else if i = s ∧ s + 1 < j then .ok [((i, i + 1), LPoly.mul (LPoly.mul t q) (LPoly.sub q one)), ((i + 1, j), q)]
  else if i = s + 1 ∧ s + 1 < j then .ok [((i - 1, j), one), ((i, j), LPoly.add (LPoly.neg q) one)]
  else if (i < j ∧ j < s) ∨ (s + 1 < i ∧ i < j) then .ok [((i, j), one)]
  else if i < s ∧ s + 1 < j then do
    .ok [((i, j), one), ((s, s + 1), LPoly.mul (LPoly.mul t (← LPoly.pow q ((s : Int) - i))) (← LPoly.pow (LPoly.sub q one) 2))]
  else .error .value

/-- `col.get(row, 0)`, coerced. -/
def get (col : List ((Nat × Nat) × LPoly)) (row : Nat × Nat) : LPoly :=
  match col.find? fun e => e.1 == row with
  | some e => e.2
  | none => LPoly.make 0 []

/-- peyl/jonesrep.py:300-327, the matrix of `σ_s`. -/
def gen (n : Nat) (q t : LPoly) (s : Nat) : Except Err Matrix := do
  let cols ← (pairs n).mapM fun ij => column q t s ij.1 ij.2
  Matrix.fromRows ((pairs n).map fun row => cols.map fun col => Entry.lp (get col row))

/-- peyl/jonesrep.py:280-291 and 296-329: the constructor's assertions and `artin_gens_invs`, which returns the generators twice. -/
def artinGensInvs (n : Nat) (q t : LPoly) : Except Err (List Matrix × List Matrix) := do
  pyAssert (1 ≤ n)
  pyAssert q.isUnit
  pyAssert t.isUnit
  let gens ← (List.range (n - 1)).mapM fun s => gen n q t s
  .ok (gens, gens)

/-- peyl/jonesrep.py:292-293 `LKBRep.dimension`. -/
abbrev dimension (n : Nat) : Nat := n.choose 2

/-- peyl/jonesrep.py:280-329 `LKBRep(n, p, q, t)` as a `RepBase`: `artin_gens_invs` does not reduce mod `p`. -/
def rep (n p : Nat) (q t : LPoly) : Except Err (RepBase (dimension n)) := do
  let gi ← artinGensInvs n q t
  .ok ⟨n, p, gi.1, gi.2⟩

end LKB
end Peyl
