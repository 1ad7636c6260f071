import Verif.Model.Matrix
import Verif.Model.Jones
/-!
# Model of a few small methods
-/
namespace Peyl

/-- peyl/matrix.py:58-59 `indices`. -/
def Matrix.indices (m : Matrix) : List (Nat × Nat) := (List.range m.nrows).flatMap fun i => (List.range m.ncols).map fun j => (i, j)

/-- peyl/matrix.py:293-295 `entries`. -/
def Matrix.entries (m : Matrix) : List Entry := m.data

/-- peyl/jonesrep.py:251-252 `tl_basis`. -/
def Jones.tlBasis (n r : Nat) : Except Err (List TLDiag) := TL.cellBasis n r

/-- peyl/permutations.py:393-394 `group` (the number of points) of a `Permutation`, given by its word. -/
def Perms.group (w : List Nat) : Nat := w.length

/-- peyl/permutations.py:361-363 `SymmetricGroup.from_cox`: the word of the permutation. -/
def Perms.groupFromCox (n : Nat) (seq : List Nat) : Except Err (List Nat) := Perms.fromCox n seq

end Peyl
