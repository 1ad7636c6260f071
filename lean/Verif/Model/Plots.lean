import Verif.Model.Braid
import Verif.Model.RepBase
import Verif.Model.BraidSearch
/-!
# Model of the two plots of projlens in `p=5 kernel elements.ipynb`

Only the numbers handed to matplotlib are modelled, not the drawing; cells are cited by the lines of the notebook file.  Arrays hold exact
integers.
-/
namespace Peyl
namespace Plots
open Polymat BraidSearch
variable {d : Nat} (lim : Nat) (ω : List Nat → List Nat → Nat → Nat)

/-- p=5 kernel elements.ipynb:492-494, the loop: multiply by the next factor and evaluate; `prev` is `left_factors[i-1]`.  The Garside
factors are handed over one after another instead of by index. -/
def evaluateLoop (rep : RepBase d) : NF → List NF → Except Err (List Matrix)
  | _, [] => .ok []
  | prev, g :: gs => do
    let left ← NF.mul (GNF.tbl lim ω) prev g
    let m ← rep.evaluate (GNF.tbl lim ω) left
    let ms ← evaluateLoop rep left gs
    .ok (m :: ms)

/-- p=5 kernel elements.ipynb:487-494 `evaluations`; `BG` is the braid group on the strands of the representation.  Without a
factor `left_factors[0]` raises IndexError. -/
def evaluations (rep : RepBase d) (gamma : NF) : Except Err (List Matrix) := do
  let can ← NF.canonicalFactors (GNF.tbl lim ω) gamma
  let garside ← can.mapM (BraidGroup.positiveLift lim ω rep.n)
  match garside with
  | [] => .error .index
  | g :: gs => do
    let m ← rep.evaluate (GNF.tbl lim ω) g
    let ms ← evaluateLoop lim ω rep g gs
    .ok (m :: ms)

/-- p=5 kernel elements.ipynb:518 `X`: `projectivise(from_matrix(...)).shape[-1]`. -/
def projLengths (rep : RepBase d) (gamma : NF) : Except Err (List Nat) := do
  let ms ← evaluations lim ω rep gamma
  ms.mapM fun m => do
    let P ← projectivise (← fromMatrix d d m false)
    .ok P.length

/-- p=5 kernel elements.ipynb:50-53 `plot_trajectories`, the points of the curve of every braid of a bucket; matplotlib raises
ValueError when there are not as many x values as y values.  `garside_length` is `canonical_length` (peyl/braid.py:601-603). -/
def trajectories (sm : Summand d) (xs : List NF) : Except Err (List (List (Nat × Int))) := do
  let images ← evalPrefixes (GNF.tbl lim ω) sm xs
  let projlens ← images.mapM projlen
  (List.finRange xs.length).mapM fun i => do
    let X := List.range (xs[i].canonicalLength + 1)
    let Y := projlens.map fun l => l i
    if X.length = Y.length then .ok (X.zip Y) else .error .value

end Plots
end Peyl
