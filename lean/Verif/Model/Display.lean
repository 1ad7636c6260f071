import Verif.Model.LPoly
import Verif.Model.Adapter
/-!
# Model of the textual forms of `LPoly`, `Poly` and `GNF`

Text is a list of characters; f-string formatting of an `int` is Python's decimal `repr` (`Adapter.reprInt`, `Adapter.reprNat`).
-/
namespace Peyl
open Adapter

/-- `enumerate(coeffs, start)`. -/
def enumFrom (start : Int) : List Int → List (Int × Int)
  | [] => []
  | c :: cs => (start, c) :: enumFrom (start + 1) cs

namespace Display

/-- peyl/lpoly.py:109 and peyl/poly.py:72, `sign`; `first` says that `parts` is still empty. -/
def signText (first : Bool) (c : Int) : List Char :=
  if c > 0 ∧ ¬ first then [' ', '+', ' '] else if c < 0 ∧ ¬ first then [' ', '-', ' '] else if c > 0 then [] else ['-']

end Display

namespace LPoly

/-- peyl/lpoly.py:102, 110 `term`. -/
def fmtTerm (latex : Bool) (i : Int) : List Char :=
  if i = 0 then [] else if i = 1 then ['v'] else if latex then ['v', '^', '{'] ++ reprInt i ++ ['}'] else ['v', '^'] ++ reprInt i

/-- peyl/lpoly.py:111 `coeff`. -/
def fmtCoeff (i c : Int) : List Char :=
  if i = 0 then reprNat c.natAbs else if c.natAbs = 1 then [] else reprNat c.natAbs

/-- peyl/lpoly.py:104-112, the loop building `parts`. -/
def fmtLoop (latex : Bool) : List (Int × Int) → List (List Char) → List (List Char)
  | [], parts => parts
  | (i, c) :: l, parts =>
    if c = 0 then fmtLoop latex l parts
    else fmtLoop latex l (parts ++ [Display.signText parts.isEmpty c ++ fmtCoeff i c ++ fmtTerm latex i])

/-- peyl/lpoly.py:98-114 `fmt`, with `mode='latex'` if `latex` (this is `_repr_latex_`). -/
def fmt (latex : Bool) (p : LPoly) : List Char :=
  if p.coeffs.length = 0 then ['0'] else (fmtLoop latex (enumFrom p.val p.coeffs).reverse []).flatten

/-- peyl/lpoly.py:78-96 `__repr__`. -/
def repr (p : LPoly) : List Char := ['L', 'P', 'o', 'l', 'y', '(', '\''] ++ fmt false p ++ ['\'', ')']

/-- peyl/lpoly.py:185-190 `coerce` of an `int` (an `LPoly` is returned as it is; other types raise ValueError). -/
def coerceInt (k : Int) : LPoly := make 0 [k]

end LPoly

namespace Poly

/-- peyl/poly.py:73 `term`. -/
def fmtTerm (i : Int) : List Char := if i = 0 then [] else if i = 1 then ['x'] else ['x', '^'] ++ reprInt i

/-- peyl/poly.py:74 `coeff` (always `'1'` for the constant term). -/
def fmtCoeff (i c : Int) : List Char := if i = 0 then ['1'] else if c.natAbs = 1 then [] else reprNat c.natAbs

/-- peyl/poly.py:67-75, the loop building `parts`. -/
def fmtLoop : List (Int × Int) → List (List Char) → List (List Char)
  | [], parts => parts
  | (i, c) :: l, parts =>
    if c = 0 then fmtLoop l parts else fmtLoop l (parts ++ [Display.signText parts.isEmpty c ++ fmtCoeff i c ++ fmtTerm i])

/-- The text between the quotes of peyl/poly.py:49-77 `__repr__`. -/
def body (p : Poly) : List Char :=
  if p.coeffs.length = 0 then ['0'] else (fmtLoop (enumFrom 0 p.coeffs).reverse []).flatten

/-- peyl/poly.py:49-77 `__repr__`. -/
def repr (p : Poly) : List Char := ['P', 'o', 'l', 'y', '(', '\''] ++ body p ++ ['\'', ')']

end Poly

/-- peyl/permutations.py:386-391: the `repr` the dataclass decorator gives to `Permutation`. -/
def Perms.repr (w : List Nat) : List Char :=
  ['P', 'e', 'r', 'm', 'u', 't', 'a', 't', 'i', 'o', 'n', '(', 'w', 'o', 'r', 'd', '='] ++ Adapter.reprTuple (w.map fun (f : Nat) => reprInt f) ++ [')']

/-- peyl/braid.py:380-383 `canonical_factor`; a Python index, negative ones count from the end. -/
def NF.canonicalFactor {T : Type} (tbl : Nat → Except Err (NFTable T)) (x : NF) (i : Int) : Except Err T := do
  let t ← tbl x.n
  let k : Int := if i < 0 then i + x.factors.length else i
  if k < 0 then .error .index else lookup t.divs (← lookup x.factors k.toNat)

/-- peyl/braid.py:385-390 `canonical_decomposition`. -/
def NF.canonicalDecomposition {T : Type} (tbl : Nat → Except Err (NFTable T)) (x : NF) : Except Err (Int × List T) := do
  .ok (x.power, ← NF.canonicalFactors tbl x)

/-- peyl/braid.py:541-542 `GNF.__repr__`. -/
def GNF.repr (tbl : Nat → Except Err (NFTable (List Nat))) (x : NF) : Except Err (List Char) := do
  let (power, perms) ← NF.canonicalDecomposition tbl x
  .ok (['G', 'N', 'F'] ++ Adapter.reprTuple [reprInt power, Adapter.reprTuple (perms.map Perms.repr)])

end Peyl
