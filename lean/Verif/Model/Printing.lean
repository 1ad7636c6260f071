import Verif.Model.Display
import Verif.Model.NPar
/-!
# Model of the printed forms of permutations, noncrossing partitions, normal forms

Text is a list of characters, as in `Model/Display.lean`.
-/
namespace Peyl
open Adapter

/-- Python `text.strip('$')`. -/
def stripDollar (s : List Char) : List Char := ((s.dropWhile (· == '$')).reverse.dropWhile (· == '$')).reverse

/-- Python `sep.join(parts)`. -/
def joinWith (sep : List Char) : List (List Char) → List Char
  | [] => []
  | [a] => a
  | a :: b :: l => a ++ sep ++ joinWith sep (b :: l)

/-- peyl/permutations.py:435-438 `Permutation._repr_latex_`. -/
def Perms.latex (w : List Nat) : Except Err (List Char) := do
  if Perms.isIdentity w then .ok ['$', '\\', 'm', 'a', 't', 'h', 'r', 'm', '{', 'i', 'd', '}', '$']
  else do
    let word ← Perms.shortlex w
    .ok (['$'] ++ joinWith [' '] (word.map fun i => ['s', '_', '{'] ++ reprNat i ++ ['}']) ++ ['$'])

/-- peyl/braid.py:544-547 `GNF._repr_latex_`. -/
def GNF.latex (tbl : Nat → Except Err (NFTable (List Nat))) (x : NF) : Except Err (List Char) := do
  let (power, perms) ← NF.canonicalDecomposition tbl x
  let parts ← perms.mapM fun w => do .ok (stripDollar (← Perms.latex w))
  .ok (['$', '(', '\\', 'D', 'e', 'l', 't', 'a', '^', '{'] ++ reprInt power ++ ['}', ';'] ++ joinWith [',', ' '] parts ++ [')', '$'])

namespace NPar

/-- peyl/noncrossing.py:243-244 `_repr_latex_`. -/
def latex (p : NPar) : Except Err (List Char) := do
  let cs ← p.components
  .ok (['$', 'p', '('] ++ joinWith [' ', '∪', ' '] (cs.map fun c => ['\\', '{'] ++ joinWith [',', ' '] (c.map reprNat) ++ ['\\', '}']) ++ [')', '$'])

/-- peyl/noncrossing.py:105-106 `__repr__`.  `so` is the order in which Python happens to print the elements of a set. -/
def repr (so : List Nat → List Nat) (p : NPar) : Except Err (List Char) := do
  let cs ← p.components
  .ok (['N', 'P', 'a', 'r', '('] ++ reprNat p.n ++ [',', ' ', '['] ++
    joinWith [',', ' '] ((cs.filter fun c => decide (1 < c.length)).map fun c => ['{'] ++ joinWith [',', ' '] ((so c).map reprNat) ++ ['}']) ++ [']', ')'])

end NPar

/-- peyl/braid.py:628-629 `DGNF.__repr__`. -/
def DGNF.repr (tbl : Nat → Except Err (NFTable NPar)) (so : List Nat → List Nat) (x : NF) : Except Err (List Char) := do
  let (power, npars) ← NF.canonicalDecomposition tbl x
  let parts ← npars.mapM (NPar.repr so)
  .ok (['D', 'G', 'N', 'F'] ++ Adapter.reprTuple [reprInt power, Adapter.reprTuple parts])

/-- peyl/braid.py:631-634 `DGNF._repr_latex_`. -/
def DGNF.latex (tbl : Nat → Except Err (NFTable NPar)) (x : NF) : Except Err (List Char) := do
  let (power, npars) ← NF.canonicalDecomposition tbl x
  let parts ← npars.mapM fun p => do .ok (stripDollar (← NPar.latex p))
  .ok (['$', '(', '\\', 'd', 'e', 'l', 't', 'a', '^', '{'] ++ reprInt power ++ ['}', ';'] ++ joinWith [',', ' '] parts ++ [')', '$'])

end Peyl
