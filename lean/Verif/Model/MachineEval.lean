import Verif.Model.RepBase
import Verif.Model.BraidSearch
import Verif.Model.FixedWidth
/-!
# The bulk evaluators with machine integers

`Verif/Model/RepBase.lean` and `Verif/Model/BraidSearch.lean` model the evaluators with exact integers.  Here every tensor holds
`w`-bit integers: storing a larger number raises, sums and products wrap around.  In `peyl/jonesrep.py` the images of the factors are
made by `from_matrix` without a `dtype`, so `w = 64` there; in `peyl/braidsearch.py` `w = 32` for `p > 0` and `w = 64` for `p = 0`.
-/
namespace Peyl
open Polymat

/-- `x` is a `w`-bit two's complement integer. -/
def Polymat.Fits (w : Nat) (x : ℤ) : Prop := -(2 ^ (w - 1) : ℤ) ≤ x ∧ x < 2 ^ (w - 1)
instance (w : Nat) (x : ℤ) : Decidable (Fits w x) := by unfold Fits; infer_instance

/-- peyl/polymat.py:181-185: the assignment of Python integers to the entries of a tensor of `w`-bit integers.  Numbers that are too
large raise OverflowError, reported here as ValueError. -/
def Polymat.store {I J : Nat} (w : Nat) (A : PArr Unit I J) : Except Err (PArr Unit I J) :=
  if ∀ S ∈ A, ∀ i j, Fits w (S () i j) then .ok A else .error .value

namespace RepBase
variable {d : Nat} {T : Type} (w : Nat) (rep : RepBase d) (tbl : Nat → Except Err (NFTable T))

/-- peyl/jonesrep.py:127-130 `_polymat_braid_factor` with `w`-bit integers (compare `factorImage`). -/
def factorImageW (factor : Nat) : Except Err (Img d) := do
  let t ← tbl rep.n
  let mat ← rep.evaluateArtinWord (← lookup t.artinWord factor)
  projectivise (← store w (← fromMatrix d d mat true))

/-- peyl/jonesrep.py:132-140 `_polymat_delta_power` with `w`-bit integers (compare `deltaImage`). -/
def deltaImageW (power : Nat) : Except Err (Img d) := do
  let t ← tbl rep.n
  pyAssert (power < t.tauOrder)
  let mat ← rep.evaluateArtinWord (← lookup t.artinWord t.D)
  projectivise (← store w (← fromMatrix d d (← mat.pow power) true))

/-- peyl/jonesrep.py:179-181 with `w`-bit integers (compare `evalStep`). -/
def evalStepW (L : Nat) (factors : List (List Nat)) (result : PArr (Fin L) d d) (i : Nat) : Except Err (PArr (Fin L) d d) := do
  let ms ← factors.mapM fun fs => do rep.factorImageW w tbl (← lookup fs i)
  polymatMulW w rep.p (fun i : Fin L => i) (fun i => i) result (← packN L ms)

/-- peyl/jonesrep.py:166-183 `polymat_evaluate_braids_of_same_length` with `w`-bit integers (compare `evalSame`). -/
def evalSameW (xs : List NF) : Except Err (PArr (Fin xs.length) d d) := do
  let x0 ← lookup xs 0
  let length := x0.canonicalLength
  pyAssert (xs.all fun x => x.canonicalLength == length)
  let t ← tbl rep.n
  let deltas ← xs.mapM fun x => do rep.deltaImageW w tbl (← NF.tauIndex x.power t.tauOrder)
  let result ← packN xs.length deltas
  (List.range length).foldlM (rep.evalStepW w tbl xs.length (xs.map NF.factors)) result

/-- peyl/jonesrep.py:161-163 `polymat_evaluate_braid` with `w`-bit integers (compare `evalOne`). -/
def evalOneW (x : NF) : Except Err (Img d) := do
  let A ← rep.evalSameW w tbl [x]
  .ok (imgAt A ⟨0, by simp⟩)

/-- peyl/jonesrep.py:185-212 `polymat_evaluate_braid_integers_of_same_length` with `w`-bit integers (compare `evalIntegers`). -/
def evalIntegersW (seqs : List (List Nat)) : Except Err (Σ L : Nat, PArr (Fin L) d d) := do
  let s0 ← lookup seqs 0
  let length := s0.length
  pyAssert (seqs.all fun s => s.length == length)
  let t ← tbl rep.n
  pyAssert (seqs.all fun s => s.all fun x => decide (x < t.order))
  let start ← packN 1 [← rep.factorImageW w tbl t.id]
  if length = 0 then .ok ⟨1, start⟩
  else do
    let A ← (List.range length).foldlM (rep.evalStepW w tbl seqs.length seqs) (start.map fun S _ => S 0)
    .ok ⟨seqs.length, A⟩

end RepBase

namespace BraidSearch
variable {d : Nat} (w : Nat)

/-- peyl/braidsearch.py:107-113 `JonesSummand.mul` with `w`-bit integers, without batch axes (compare `Summand.mul1`). -/
def Summand.mul1W (rep : Summand d) (A B : Img d) : Except Err (Img d) := polymatMulW w rep.p (fun u : Unit => u) (fun u => u) A B

/-- peyl/braidsearch.py:136-139 with `w`-bit integers (compare `Summand.permImage`).  The entries of the generators are 0 and ±1. -/
def Summand.permImageW (rep : Summand d) (x : List Nat) : Except Err (Img d) := do
  let word ← Perms.shortlex x
  let ms ← word.mapM (lookup rep.gens)
  projectivise (← ms.foldlM (rep.mul1W w) (eye d))

/-- peyl/braidsearch.py:131-145 `symmetric_table` with `w`-bit integers (compare `Summand.table`). -/
def Summand.tableW (rep : Summand d) : Except Err (List (List Nat × Img d)) := do
  let tab ← (Perms.elements rep.n).mapM fun x => do .ok (x, ← rep.permImageW w x)
  let x ← Dict.get tab (Perms.longestElement rep.n)
  let sq ← rep.mul1W w x x
  pyAssert (← eqAll sq (eye d))
  .ok tab

variable (tbl : Nat → Except Err (NFTable (List Nat)))

/-- peyl/braidsearch.py:148-158 `evaluate_braid_factors` with `w`-bit integers (compare `evaluateBraidFactors`). -/
def evaluateBraidFactorsW (rep : Summand d) (x : NF) : Except Err (Img d) := do
  let factors ← NF.canonicalFactors tbl x
  let tab ← rep.tableW w
  let start ← if x.power % 2 = 0 then .ok (eye d) else Dict.get tab (Perms.longestElement rep.n)
  let ms ← factors.mapM (Dict.get tab)
  projectivise (← ms.foldlM (rep.mul1W w) start)

/-- peyl/braidsearch.py:199-201 (and 176-178) with `w`-bit integers (compare `evalStep`). -/
def evalStepW (rep : Summand d) (tab : List (List Nat × Img d)) (L : Nat) (factors : List (List (List Nat)))
    (images : PArr (Fin L) d d) (l : Nat) : Except Err (PArr (Fin L) d d) := do
  let ms ← factors.mapM fun fs => do Dict.get tab (← lookup fs l)
  polymatMulW w rep.p (fun i : Fin L => i) (fun i => i) images (← packL L ms)

/-- peyl/braidsearch.py:199-201 with `w`-bit integers (compare `prefixLoop`). -/
def prefixLoopW (rep : Summand d) (tab : List (List Nat × Img d)) (L : Nat) (factors : List (List (List Nat))) :
    List Nat → PArr (Fin L) d d → Except Err (List (PArr (Fin L) d d))
  | [], A => .ok [A]
  | l :: ls, A => do
    let A' ← evalStepW w rep tab L factors A l
    let rest ← prefixLoopW rep tab L factors ls A'
    .ok (A :: rest)

/-- peyl/braidsearch.py:166-174 and 189-197 with `w`-bit integers (compare `evalStart`). -/
def evalStartW (rep : Summand d) (xs : List NF) : Except Err (Nat × List (List (List Nat)) × List (List Nat × Img d) × PArr (Fin xs.length) d d) := do
  let x0 ← lookup xs 0
  let length := x0.canonicalLength
  pyAssert (xs.all fun x => x.canonicalLength == length)
  let factors ← xs.mapM (NF.canonicalFactors tbl)
  let tab ← rep.tableW w
  let anti ← Dict.get tab (Perms.longestElement rep.n)
  let images ← packL xs.length (xs.map fun x => if x.power % 2 = 0 then eye d else anti)
  .ok (length, factors, tab, images)

/-- peyl/braidsearch.py:161-180 `evaluate_braids_of_same_length` with `w`-bit integers (compare `evalSame`). -/
def evalSameW (rep : Summand d) (xs : List NF) : Except Err (PArr (Fin xs.length) d d) := do
  let (length, factors, tab, images) ← evalStartW w tbl rep xs
  (List.range length).foldlM (evalStepW w rep tab xs.length factors) images

/-- peyl/braidsearch.py:183-203 `evaluate_prefixes_of_same_length` with `w`-bit integers (compare `evalPrefixes`). -/
def evalPrefixesW (rep : Summand d) (xs : List NF) : Except Err (List (PArr (Fin xs.length) d d)) := do
  let (length, factors, tab, images) ← evalStartW w tbl rep xs
  prefixLoopW w rep tab xs.length factors (List.range length) images

/-- peyl/braidsearch.py:206-224 `evaluate_braids` with `w`-bit integers (compare `evaluateBraids`). -/
def evaluateBraidsW (rep : Summand d) (xs : List NF) : Except Err (List (Img d)) := do
  let (byLen, loc) := groupLoop xs 0 [] []
  let images ← byLen.mapM fun li => do
    let ys ← li.2.mapM (lookup xs)
    let A ← evalSameW w tbl rep ys
    .ok (li.1, (List.finRange ys.length).map (imgAt A))
  loc.mapM fun li => do
    let l ← Dict.get images li.1
    lookup l li.2

end BraidSearch
end Peyl
