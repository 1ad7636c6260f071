import Verif.Model.TL
import Verif.Spec.Poly
import Mathlib.Data.Set.Card
import Mathlib.Data.Finset.Range
import Mathlib.Logic.Relation
/-!
# Specification vocabulary: crossingless matchings and stacked pictures
-/
namespace Peyl
namespace TL

/-- `f` is a crossingless perfect matching of the points `0, …, N-1` on a line: an involution without fixed points, no two
arcs of which cross. -/
structure NCMatching (N : Nat) (f : Nat → Nat) : Prop where
  lt : ∀ i, i < N → f i < N
  nofix : ∀ i, i < N → f i ≠ i
  invol : ∀ i, i < N → f (f i) = i
  noncross : ∀ a b, a < N → b < N → a < b → b < f a → f a < f b → False

/-- The partner of the point `i` in a matching given as a list. -/
def at_ (s : List Nat) (i : Nat) : Nat := s.getD i 0

/-- A list that is a crossingless perfect matching of its positions. -/
def Crossingless (s : List Nat) : Prop := NCMatching s.length (at_ s)

/-- Points of two diagrams stacked on each other: `(false, v)` is the point `v` of the lower, `(true, v)` of the upper one. -/
abbrev Pt := Bool × Nat

/-- One step in the stacked picture: along an arc of either diagram, or across a glued point of the middle row.  The middle row
carries the numbers `0, …, mid-1` (left to right) as the bottom of the upper diagram and `L-1, …, L-mid` as the top of the lower
one. -/
inductive Link (upper lower : List Nat) (mid : Nat) : Pt → Pt → Prop
  | lower (v : Nat) : v < lower.length → Link upper lower mid (false, v) (false, at_ lower v)
  | upper (v : Nat) : v < upper.length → Link upper lower mid (true, v) (true, at_ upper v)
  | glue (v : Nat) : v < mid → Link upper lower mid (true, v) (false, lower.length - 1 - v)

/-- Two points are joined by a path of the stacked picture. -/
def Joined (upper lower : List Nat) (mid : Nat) : Pt → Pt → Prop := Relation.EqvGen (Link upper lower mid)

/-- The outer point number `i` of the stacked picture: bottom points of the lower diagram first, then the top points of the
upper one. -/
def outer (lower : List Nat) (mid : Nat) (i : Nat) : Pt :=
  if i < lower.length - mid then (false, i) else (true, i - (lower.length - mid) + mid)

/-- The closed loops of the stacked picture: the connected components of middle points that reach no outer point. -/
def closedLoops (upper lower : List Nat) (mid : Nat) : Set (Set Pt) :=
  {C | ∃ v, v < mid ∧ C = {x | Joined upper lower mid (true, v) x} ∧
    ∀ i, i < (lower.length - mid) + (upper.length - mid) → outer lower mid i ∉ C}

end TL

/-- A diagram the constructor accepts: a crossingless matching of its top and bottom points. -/
def TLDiag.Ok (d : TLDiag) : Prop := d.top + d.bot = d.seq.length ∧ TL.Crossingless d.seq

/-- The number of through strands: bottom points joined to top points. -/
def TLDiag.through (d : TLDiag) : Nat := ((Finset.range d.bot).filter fun i => d.bot ≤ TL.at_ d.seq i).card

/-- The coefficient of the diagram `d` in a list of terms. -/
noncomputable def TLMor.coefIn (terms : List (TLDiag × LPoly)) (d : TLDiag) : LaurentPolynomial ℤ :=
  (terms.map fun t => if t.1 = d then t.2.den else 0).sum

/-- The coefficient of the diagram `d` in a morphism. -/
noncomputable def TLMor.coef (m : TLMor) (d : TLDiag) : LaurentPolynomial ℤ := TLMor.coefIn m.terms d

/-- The state in which the constructor leaves a morphism: each diagram is good, of the right type and listed at most once, in
increasing order, with a normalised non-zero coefficient. -/
structure TLMor.WF (m : TLMor) : Prop where
  nodup : (m.terms.map (·.1)).Nodup
  sorted : m.terms.Pairwise fun a b => TLDiag.le a.1 b.1 = true
  type : ∀ t ∈ m.terms, t.1.top = m.top ∧ t.1.bot = m.bot
  good : ∀ t ∈ m.terms, t.1.Ok
  coeff : ∀ t ∈ m.terms, t.2.Trimmed ∧ t.2.den ≠ 0

end Peyl
