import Verif.Model.PrintMatrix
import Verif.Model.TLDraw
/-!
# Model of `peyl/show.py`

Text is a list of characters.  An object is known to `show.py` by the texts which its display methods return.
-/
namespace Peyl
namespace Show

/-- What `show.py` can ask of an object: `_repr_html_()` and `_repr_latex_()` if it has these methods, its characters if it is a `str`, and
`repr`. -/
structure Obj where
  html : Option (List Char)
  latex : Option (List Char)
  str : Option (List Char)
  repr : List Char

/-- A Python int. -/
def Obj.ofInt (k : Int) : Obj := ⟨none, none, none, Adapter.reprInt k⟩

/-- A Python string (its `repr` is never asked for). -/
def Obj.ofStr (s : List Char) : Obj := ⟨none, none, some s, s⟩

/-- peyl/lpoly.py:78-117 an `LPoly`. -/
def Obj.ofLPoly (p : LPoly) : Obj := ⟨none, some (p.fmt true), none, p.repr⟩

/-- An entry of a matrix. -/
def Obj.ofEntry : Entry → Obj
  | .int k => .ofInt k
  | .lp p => .ofLPoly p

/-- peyl/show.py:92-97 `Latex`. -/
def Obj.ofLatex (markup r : List Char) : Obj := ⟨none, some (['$'] ++ markup ++ ['$']), none, r⟩

/-- peyl/show.py:100-110 `html_repr`. -/
def htmlRepr (o : Obj) (preferLatex : Bool := false) : List Char :=
  match (if preferLatex then o.latex else none) with
  | some l => [' ', '$', ' '] ++ l ++ [' ', '$', ' ']
  | none =>
    match o.html with
    | some h => h
    | none =>
      match o.latex with
      | some l => l
      | none =>
        match o.str with
        | some s => s
        | none => o.repr

/-- peyl/show.py:8-52 `Row(items, caption_fn)._repr_html_()`. -/
def row (items : List Obj) (caption : Option (Nat → Obj → Obj)) : List Char :=
  ['<', 'd', 'i', 'v', ' ', 's', 't', 'y', 'l', 'e', '=', '\"', 'd', 'i', 's', 'p', 'l', 'a', 'y', ':', ' ', 'f', 'l', 'e', 'x', ';', ' ', 'f', 'l', 'e', 'x', '-', 'd', 'i', 'r', 'e', 'c', 't', 'i', 'o', 'n', ':', ' ', 'r', 'o', 'w', ';', ' ', 'f', 'l', 'e', 'x', '-', 'w', 'r', 'a', 'p', ':', ' ', 'w', 'r', 'a', 'p', ';', ' ', 'r', 'o', 'w', '-', 'g', 'a', 'p', ':', ' ', '1', 'e', 'm', ';', ' ', 'a', 'l', 'i', 'g', 'n', '-', 'i', 't', 'e', 'm', 's', ':', ' ', 'c', 'e', 'n', 't', 'e', 'r', ';', '\"', '>'] ++
    joinWith [',', ' '] (items.zipIdx.map fun x =>
      ['<', 'd', 'i', 'v', ' ', 's', 't', 'y', 'l', 'e', '=', '\"', 'd', 'i', 's', 'p', 'l', 'a', 'y', ':', ' ', 'f', 'l', 'e', 'x', ';', ' ', 'f', 'l', 'e', 'x', '-', 'd', 'i', 'r', 'e', 'c', 't', 'i', 'o', 'n', ':', ' ', 'c', 'o', 'l', 'u', 'm', 'n', ';', ' ', 'a', 'l', 'i', 'g', 'n', '-', 'i', 't', 'e', 'm', 's', ':', ' ', 'c', 'e', 'n', 't', 'e', 'r', ';', '\"', '>'] ++ htmlRepr x.1 ++
        (match caption with
          | none => []
          | some f => ['<', 'p', '>'] ++ htmlRepr (f x.2 x.1) ++ ['<', '/', 'p', '>']) ++
        ['<', '/', 'd', 'i', 'v', '>']) ++
    ['<', '/', 'd', 'i', 'v', '>']

/-- peyl/show.py:55-65 the entries of a `FramedMatrix`: a sequence of sequences, or an object indexed by pairs, such as a `Matrix`. -/
inductive Entries where
  | seq (rows : List (List Obj))
  | mat (m : Matrix)

/-- peyl/show.py:64-65 `e`; the indices are natural numbers. -/
def Entries.get : Entries → Nat → Nat → Except Err Obj
  | .seq rows, i, j => do lookup (← lookup rows i) j
  | .mat m, i, j => do .ok (.ofEntry (← m.get i j))

/-- peyl/show.py:62-63 `f`. -/
def blankZero (v : List Char) : List Char := if v = ['0'] then [] else v

/-- peyl/show.py:71 a heading; a column heading without the method `_repr_html_` raises AttributeError. -/
def heading (o : Obj) : Except Err (List Char) :=
  match o.html with
  | some h => .ok (['<', 't', 'd', ' ', 's', 't', 'y', 'l', 'e', '=', '\"', 't', 'e', 'x', 't', '-', 'a', 'l', 'i', 'g', 'n', ':', ' ', 'c', 'e', 'n', 't', 'e', 'r', '\"', '>'] ++ h ++ ['<', '/', 't', 'd', '>'])
  | none => .error .attribute

/-- peyl/show.py:82-85 one cell. -/
def cell (es : Entries) (i j : Nat) : Except Err (List Char) := do
  let o ← es.get i j
  .ok (['<', 't', 'd', ' ', 's', 't', 'y', 'l', 'e', '=', '\"', 't', 'e', 'x', 't', '-', 'a', 'l', 'i', 'g', 'n', ':', ' ', 'c', 'e', 'n', 't', 'e', 'r', '\"', '>'] ++ blankZero (htmlRepr o true) ++ ['<', '/', 't', 'd', '>'])

/-- peyl/show.py:74-88 one row. -/
def tableRow (cols : Nat) (es : Entries) (x : Obj × Nat) : Except Err (List Char) := do
  let cells ← (List.range cols).mapM (cell es x.2)
  .ok (['<', 't', 'r', '>'] ++ ['<', 't', 'd', ' ', 's', 't', 'y', 'l', 'e', '=', '\"', 't', 'e', 'x', 't', '-', 'a', 'l', 'i', 'g', 'n', ':', ' ', 'c', 'e', 'n', 't', 'e', 'r', '\"', '>'] ++ htmlRepr x.1 ++ ['<', '/', 't', 'd', '>'] ++ cells.flatten ++ ['<', '/', 't', 'r', '>'])

/-- peyl/show.py:55-89 `FramedMatrix(rows, cols, entries)._repr_html_()`. -/
def framedMatrix (rows cols : List Obj) (es : Entries) : Except Err (List Char) := do
  let heads ← cols.mapM heading
  let body ← rows.zipIdx.mapM (tableRow cols.length es)
  .ok (['<', 't', 'a', 'b', 'l', 'e', '>'] ++ ['<', 't', 'r', '>'] ++ ['<', 't', 'd', '>', '<', '/', 't', 'd', '>'] ++ heads.flatten ++ ['<', '/', 't', 'r', '>'] ++ body.flatten ++ ['<', '/', 't', 'a', 'b', 'l', 'e', '>'])

/-- peyl/tl.py:486-499 `TLMor._repr_html_`. The text of a picture is made by the library `svg`; `svg` is that text for the diagram with the given
sequence and number of lower points.  An assertion of `draw_svg` that fails, or an index out of range in it, is the same exception here. -/
noncomputable def morHtml (svg : List Nat → Nat → List Char) (m : TLMor) : Except Err (List Char) := do
  let parts ← m.terms.mapM fun x => do
    let _ ← TLDraw.drawSvg x.1.seq x.1.bot
    .ok (['$', '('] ++ x.2.fmt true ++ [')', '$'] ++ svg x.1.seq x.1.bot)
  .ok (['<', 'p', ' ', 's', 't', 'y', 'l', 'e', '=', '\"', 'd', 'i', 's', 'p', 'l', 'a', 'y', ':', ' ', 'f', 'l', 'e', 'x', ';', 'f', 'l', 'e', 'x', '-', 'd', 'i', 'r', 'e', 'c', 't', 'i', 'o', 'n', ':', ' ', 'r', 'o', 'w', ';', 'f', 'l', 'e', 'x', '-', 'w', 'r', 'a', 'p', ':', ' ', 'w', 'r', 'a', 'p', ';', 'j', 'u', 's', 't', 'i', 'f', 'y', '-', 'c', 'o', 'n', 't', 'e', 'n', 't', ':', ' ', 'f', 'l', 'e', 'x', '-', 's', 't', 'a', 'r', 't', ';', 'a', 'l', 'i', 'g', 'n', '-', 'i', 't', 'e', 'm', 's', ':', ' ', 'c', 'e', 'n', 't', 'e', 'r', ';', '\"', '>'] ++ joinWith ['<', 's', 'p', 'a', 'n', ' ', 's', 't', 'y', 'l', 'e', '=', '\"', 'p', 'a', 'd', 'd', 'i', 'n', 'g', ':', ' ', '0', ' ', '0', '.', '3', 'e', 'm', '\"', '>', '$', '+', '$', '<', '/', 's', 'p', 'a', 'n', '>'] parts ++ ['<', '/', 'p', '>'])

end Show
end Peyl
