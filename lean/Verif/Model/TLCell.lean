import Verif.Model.TL
import Verif.Model.Jones
/-!
# Model of `TLCell` and `JonesRep` of `peyl/tl.py`
-/
namespace Peyl

/-- peyl/tl.py:502-506 `class TLCell` (a frozen dataclass). -/
structure TLCell where
  n : Int
  r : Int
  deriving DecidableEq, Repr

namespace TLCell

/-- peyl/tl.py:508-509 `__post_init__`. -/
def make (n r : Int) : Except Err TLCell := do
  pyAssert (0 ≤ n ∧ 0 ≤ r ∧ 0 ≤ n - 2 * r)
  .ok ⟨n, r⟩

/-- peyl/tl.py:511-512 `dim`.  (The fields of a constructed cell are not negative, so `toNat` loses nothing.) -/
def dim (c : TLCell) : Except Err Int := TL.cellDimension c.n.toNat c.r.toNat

/-- peyl/tl.py:514-515 `basis_diagrams`. -/
def basisDiagrams (c : TLCell) : Except Err (List TLDiag) := TL.cellBasis c.n.toNat c.r.toNat

/-- peyl/tl.py:517-520 `project_vector`. -/
def projectVector (c : TLCell) (m : TLMor) : Except Err TLMor := do
  pyAssert ((m.bot : Int) == c.n)
  TLMor.quotient m (c.n - 2 * c.r).toNat

/-- peyl/tl.py:530-532: the column `j` of the matrix. -/
def column (c : TLCell) (m : TLMor) (basis : List TLDiag) (vj : TLDiag) : Except Err (List LPoly) := do
  let result ← TLMor.quotient (← TLMor.mulDiag m vj) (c.n - 2 * c.r).toNat
  .ok (basis.map fun vi => (TLMor.get? result.terms vi).getD (LPoly.make 0 []))

/-- peyl/tl.py:522-534 `project_leftmult_matrix`.  The table `rows`, filled column by column, is read off the list of columns; it
has `dim` rows of `dim` entries (`dim` is the number of basis diagrams, C51, so no `None` is left in it). -/
def projectLeftmultMatrix (c : TLCell) (m : TLMor) : Except Err Matrix := do
  let dim ← c.dim
  let basis ← c.basisDiagrams
  let cols ← basis.mapM (c.column m basis)
  Matrix.fromRows ((List.range dim.toNat).map fun i => cols.map fun col => Entry.lp (col.getD i (LPoly.make 0 [])))

/-- peyl/tl.py:536-541 `trace_scalar`. -/
def traceScalar (c : TLCell) : LPoly := LPoly.quantumInteger (c.n - 2 * c.r + 1)

end TLCell

/-- peyl/tl.py:544-553 `JonesRep(n).cells`. -/
def TL.jonesRepCells (n : Int) : Except Err (List TLCell) := do
  pyAssert (0 ≤ n)
  (List.range (n / 2).toNat).mapM fun r : Nat => TLCell.make n (r : Int)

end Peyl
