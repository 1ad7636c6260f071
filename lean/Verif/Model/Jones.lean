import Verif.Model.TL
import Verif.Model.RepBase
import Verif.Model.BraidSearch
/-!
# Model of the Jones representations: `tl_gens_invs`, `cell_matrix`, `cell_matrices`, `JonesCellRep` of `peyl/jonesrep.py`
and the identical functions and `JonesSummand.artin_gens_invs` of `peyl/braidsearch.py`
-/
namespace Peyl
namespace Jones

/-- peyl/jonesrep.py:25-37, peyl/braidsearch.py:33-40 `tl_gens_invs`. -/
def tlGensInvs (n : Nat) : Except Err (List TLMor × List TLMor) := do
  let v := LPoly.v
  let vinv ← LPoly.pow v (-1)
  let es ← (List.range (n - 1)).mapM fun i => TLMor.e i n
  let gens ← es.mapM fun e => do TLMor.smul (← TLMor.subScalar e vinv) (LPoly.neg v)
  let invs ← es.mapM fun e => do TLMor.smul (← TLMor.subScalar e v) (LPoly.neg vinv)
  pyAssert (← TL.allM (fun xy => do .ok ((← TLMor.mul xy.1 xy.2) == (← TLMor.id n))) (gens.zip invs))
  .ok (gens, invs)

/-- peyl/jonesrep.py:46-50: one column of the matrix. -/
def cellColumn (m : TLMor) (r : Nat) (basis : List TLDiag) (b : TLDiag) : Except Err (List LPoly) := do
  let prod ← TLMor.mulDiag m b
  let q ← TLMor.quotient prod (m.top - 2 * r)
  basis.mapM fun b' => TLMor.coefficient q b'

/-- `zip(*columns)`: stops at the shortest column; no columns give no rows. -/
def zipStar (columns : List (List LPoly)) : List (List Entry) :=
  match columns with
  | [] => []
  | c :: cs =>
    let len := cs.foldl (fun m c => min m c.length) c.length
    (List.range len).map fun i => (c :: cs).map fun c => Entry.lp (c.getD i (LPoly.make 0 []))

/-- peyl/jonesrep.py:39-51, peyl/braidsearch.py:43-55 `cell_matrix`. -/
def cellMatrix (m : TLMor) (r : Nat) : Except Err Matrix := do
  pyAssert (m.top == m.bot)
  let basis ← TL.cellBasis m.bot r
  let columns ← basis.mapM (cellColumn m r basis)
  Matrix.fromRows (zipStar columns)

/-- peyl/jonesrep.py:53-56, peyl/braidsearch.py:57-60 `cell_matrices`. -/
def cellMatrices (n r : Nat) : Except Err (List Matrix × List Matrix) := do
  let gi ← tlGensInvs n
  .ok (← gi.1.mapM fun g => cellMatrix g r, ← gi.2.mapM fun g => cellMatrix g r)

/-- peyl/jonesrep.py:243-249 `dimension`, peyl/braidsearch.py:86-88 `dimension`.  (`JonesSummand.dimension` raises for `r = 0`.) -/
def dimension (n r : Nat) : Nat := if r = 0 then 1 else n.choose r - n.choose (r - 1)

/-- peyl/jonesrep.py:254-276 `JonesCellRep.artin_gens_invs`. -/
def artinGensInvs (n r p : Nat) : Except Err (List Matrix × List Matrix) := do
  let gi ← cellMatrices n r
  .ok (if p ≠ 0 then (gi.1.map (Matrix.map (Entry.modp p)), gi.2.map (Matrix.map (Entry.modp p))) else gi)

/-- peyl/jonesrep.py:217-237 `JonesCellRep(n, r, p)` with what `artin_gens_invs()` returns.  (A negative `r` passes the
constructor's assertions and is rejected by `cell_basis`; the model takes natural numbers.) -/
def cellRep (n r p : Nat) : Except Err (RepBase (dimension n r)) := do
  pyAssert (1 ≤ n)
  pyAssert (2 * r ≤ n)
  let gi ← artinGensInvs n r p
  .ok ⟨n, p, gi.1, gi.2⟩

/-- peyl/braidsearch.py:95-105 `JonesSummand.artin_gens_invs`, first component: `projectivise(pack([from_matrix(x) ...]))`,
split along the batch axis. -/
def summand (n r p : Nat) : Except Err (BraidSearch.Summand (dimension n r)) := do
  pyAssert (1 ≤ n)
  pyAssert (2 * r ≤ n)
  let gi ← cellMatrices n r
  let A ← (RepBase.mk (d := dimension n r) n 0 gi.1 gi.2).polymatGens gi.1
  .ok ⟨n, p, (List.finRange gi.1.length).map fun i => imgAt A i⟩

end Jones
end Peyl
