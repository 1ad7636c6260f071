import Verif.Model.TLDraw
import Verif.Spec.TL
/-!
# Specification vocabulary: pictures of diagrams
-/
namespace Peyl
namespace TLDraw

/-- The point of a cubic Bézier curve at time `t`. -/
noncomputable def Curve.point (c : Curve) (t : ℝ) : ℝ × ℝ :=
  ((1 - t) ^ 3 * c.sx + 3 * (1 - t) ^ 2 * t * c.x1 + 3 * (1 - t) * t ^ 2 * c.x2 + t ^ 3 * c.tx,
    (1 - t) ^ 3 * c.sy + 3 * (1 - t) ^ 2 * t * c.y1 + 3 * (1 - t) * t ^ 2 * c.y2 + t ^ 3 * c.ty)

/-- Where the dots of a diagram are drawn: the bottom dots, numbered from left to right, at height 35 (the y-axis points down), and the top
dots, numbered from right to left after them, at height 0; 15 apart, each row centred in the picture. -/
noncomputable def dot (d : TLDiag) (i : Nat) : ℝ × ℝ :=
  if i < d.bot then (width d.top d.bot / 2 + 15 * (i - ((d.bot : ℝ) - 1) / 2), 35)
  else (width d.top d.bot / 2 + 15 * (((d.top + d.bot : ℝ) - 1 - i) - ((d.top : ℝ) - 1) / 2), 0)

/-- Two curves have a point in common. -/
def Curve.Meet (a b : Curve) : Prop := ∃ s t : ℝ, 0 ≤ s ∧ s ≤ 1 ∧ 0 ≤ t ∧ t ≤ 1 ∧ a.point s = b.point t

end TLDraw
end Peyl
