import Verif.Model.Printing
import Verif.Model.Matrix
/-!
# Model of the printed forms of `Matrix` (peyl/matrix.py)

Text is a list of characters.  Indices into `data` are in range for every constructed matrix, so they are read with `Matrix.at'`.
-/
namespace Peyl
open Adapter

/-- `repr` of an entry: Python's decimal `repr` of an int, peyl/lpoly.py:78-96 of an `LPoly`.  Neither has a `__str__` of its own, so this is also
`str`. -/
def Entry.repr : Entry → List Char
  | .int k => reprInt k
  | .lp p => p.repr

/-- peyl/matrix.py:268-269 `get_repr`: an `LPoly` has `_repr_latex_`, an int has not. -/
def Entry.latex : Entry → List Char
  | .int k => reprInt k
  | .lp p => p.fmt true

namespace Matrix

/-- The rows printed by peyl/matrix.py:261-262 and 274-277: `self.data[self.ncols * i + j]` for `j in range(self.ncols)`, `i in range(self.nrows)`. -/
def printRows (f : Entry → List Char) (m : Matrix) : List (List (List Char)) :=
  (List.range m.nrows).map fun i => (List.range m.ncols).map fun j => f (at' m.data (m.ncols * i + j))

/-- peyl/matrix.py:236-265 `__repr__`. -/
def repr (m : Matrix) : List Char :=
  if m.nrows = 0 ∨ m.ncols = 0 then ['M', 'a', 't', 'r', 'i', 'x', '('] ++ reprNat m.nrows ++ [',', ' '] ++ reprNat m.ncols ++ [',', ' ', '[', ']', ')']
  else if m.nrows = 1 then ['M', 'a', 't', 'r', 'i', 'x', '(', '[', '['] ++ joinWith [',', ' '] (m.data.map Entry.repr) ++ [']', ']', ')']
  else if m.ncols = 1 then ['M', 'a', 't', 'r', 'i', 'x', '(', '['] ++ joinWith [',', ' '] (m.data.map fun c => ['['] ++ c.repr ++ [']']) ++ [']', ')']
  else joinWith ['\n'] ([['M', 'a', 't', 'r', 'i', 'x', '(', '[']] ++
    ((printRows Entry.repr m).map fun row => [' ', ' ', ' ', ' ', '['] ++ joinWith [',', ' '] row ++ [']', ',']) ++ [[']', ')']])

/-- peyl/matrix.py:267-281 `_repr_latex_`. -/
def latex (m : Matrix) : List Char :=
  ['\\', 'b', 'e', 'g', 'i', 'n', '{', 'p', 'm', 'a', 't', 'r', 'i', 'x', '}'] ++
    joinWith [' ', '\\', '\\', ' '] ((printRows Entry.latex m).map fun row => joinWith [' ', '&', ' '] row) ++
    ['\\', 'e', 'n', 'd', '{', 'p', 'm', 'a', 't', 'r', 'i', 'x', '}']

/-- peyl/matrix.py:283-285 `__str__`. -/
def str (m : Matrix) : List Char :=
  ['M', '['] ++ joinWith [',', ' '] (m.rows.map fun row => ['['] ++ joinWith [',', ' '] (row.map Entry.repr) ++ [']']) ++ [']']

end Matrix
end Peyl
