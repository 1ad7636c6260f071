import Verif.Model.TL
import Mathlib.Analysis.SpecialFunctions.Exp
/-!
# Model of `draw_svg` (peyl/tl.py)

Coordinates are real numbers where Python has floats (they are multiples of 1/2, except for the heights of control points, so only those are
rounded in Python).  The SVG text made from the path by the library `svg` is not modelled: the model returns the curves of the path.
-/
namespace Peyl
namespace TLDraw

/-- A cubic Bézier curve: `svg.M(sx, sy), svg.C(x1, y1, x2, y2, tx, ty)` of peyl/tl.py:598 and 602. -/
structure Curve where
  (sx sy x1 y1 x2 y2 tx ty : ℝ)

/-- peyl/tl.py:571 `width`; `M = 10`, `W = 15`. -/
noncomputable def width (top bot : Nat) : ℝ := 2 * 10 + ((max bot top : Nat) - 1) * 15

/-- peyl/tl.py:572 `height`. -/
noncomputable def height : ℝ := 35

/-- peyl/tl.py:574-575 `numx` (an integer: for `v ≥ len(seq)` it would be negative). -/
def numx (len bot v : Nat) : Int := if v < bot then v else (len : Int) - v - 1

/-- peyl/tl.py:576-577 `pos`. -/
noncomputable def pos (len bot v : Nat) : ℝ × ℝ :=
  (width (len - bot) bot / 2 + (0.5 + (numx len bot v : ℝ) - (if v < bot then (bot : ℝ) else ((len - bot : Nat) : ℝ)) / 2) * 15,
    if v < bot then height else 0)

/-- peyl/tl.py:597 `dist`. -/
noncomputable def dist (i j : Nat) : ℝ := 1 / (1 + Real.exp (-|(i : ℝ) - (j : ℝ)| / 4))

/-- peyl/tl.py:591-602: the curve from point `i` to its partner `j`; `C = 25`. -/
noncomputable def curve (len bot i j : Nat) : Curve :=
  let s := pos len bot i
  let t := pos len bot j
  let dy : ℝ := if i < bot then -25 else 25
  if (i < bot ∧ j < bot) ∨ (bot ≤ i ∧ bot ≤ j) then
    ⟨s.1, s.2, s.1, s.2 + dy * dist i j, t.1, t.2 + dy * dist i j, t.1, t.2⟩
  else ⟨s.1, s.2, s.1, s.2 + dy, t.1, t.2 - dy, t.1, t.2⟩

/-- peyl/tl.py:584-604, the loop; `drawn[seq[i]] = True` raises IndexError for an entry out of range. -/
noncomputable def drawLoop (seq : List Nat) (bot : Nat) : List Nat → List Bool → List Curve → Except Err (List Curve)
  | [], _, path => .ok path
  | i :: is, drawn, path =>
    if drawn.getD i false then drawLoop seq bot is drawn path
    else do
      let j ← lookup seq i
      if drawn.length ≤ j then .error .index
      else drawLoop seq bot is ((drawn.set i true).set j true) (path ++ [curve seq.length bot i j])

/-- peyl/tl.py:558-615 `draw_svg`: the curves of the path. -/
noncomputable def drawSvg (seq : List Nat) (bot : Nat) : Except Err (List Curve) := do
  pyAssert (bot ≤ seq.length)
  drawLoop seq bot (List.range seq.length) (List.replicate seq.length false) []

end TLDraw

/-- peyl/tl.py:212-213 `TLDiag._repr_html_`: the curves of the path. -/
noncomputable def TLDiag.reprHtml (d : TLDiag) : Except Err (List TLDraw.Curve) := TLDraw.drawSvg d.seq d.bot

end Peyl
