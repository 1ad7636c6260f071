import Verif.Model.Bucketing
/-!
# Model of `RepBase` of `peyl/jonesrep.py`

A representation is given by its number of strands, its modulus and what `artin_gens_invs()` returns; `d` is `dimension()`.
The caches set up in `__init__` (58-61) and the aliasing of cached arrays are modelled in `Verif/Model/Heap.lean`; here arrays are values.  `tbl` is `cls._nf_table`.
Entries are exact integers (fixed width integers are treated in `Verif/Model/FixedWidth.lean`).
-/
namespace Peyl
open Polymat

/-- peyl/jonesrep.py:54-73 `class RepBase`. -/
structure RepBase (d : Nat) where
  n : Nat
  p : Nat
  gens : List Matrix
  invs : List Matrix

namespace RepBase
variable {d : Nat} {T : Type} (rep : RepBase d) (tbl : Nat → Except Err (NFTable T))

/-- peyl/jonesrep.py:87, one letter: `gens[i]**e if e >= 0 else invs[i]**abs(e)`. -/
def letter (ie : Nat × Int) : Except Err Matrix := do
  if ie.2 ≥ 0 then (← lookup rep.gens ie.1).pow ie.2 else (← lookup rep.invs ie.1).pow ie.2.natAbs

/-- peyl/jonesrep.py:84-91 `evaluate_artin_word`.  Letters are non-negative indices. -/
def evaluateArtinWord (word : List (Nat × Int)) : Except Err Matrix := do
  let ms ← word.mapM rep.letter
  let product ← ms.foldlM Matrix.mul (Matrix.identity d)
  .ok (if rep.p ≠ 0 then product.map (Entry.modp rep.p) else product)

/-- peyl/jonesrep.py:93-98 `evaluate` of a normal form. -/
def evaluate (x : NF) : Except Err Matrix := do rep.evaluateArtinWord (← NF.artinWord tbl x)

/-- peyl/jonesrep.py:104-110 `polymat_mul` of two tensors with the same batch axis. -/
def polymatMulL {L : Nat} (A B : PArr (Fin L) d d) : Except Err (PArr (Fin L) d d) :=
  polymatMul rep.p (fun i : Fin L => i) (fun i => i) A B

/-- peyl/jonesrep.py:127-130 `_polymat_braid_factor`. -/
def factorImage (factor : Nat) : Except Err (Img d) := do
  let t ← tbl rep.n
  let mat ← rep.evaluateArtinWord (← lookup t.artinWord factor)
  projectivise (← fromMatrix d d mat true)

/-- peyl/jonesrep.py:132-140 `_polymat_delta_power`.  The power of the matrix is not reduced mod `p`. -/
def deltaImage (power : Nat) : Except Err (Img d) := do
  let t ← tbl rep.n
  pyAssert (power < t.tauOrder)
  let mat ← rep.evaluateArtinWord (← lookup t.artinWord t.D)
  projectivise (← fromMatrix d d (← mat.pow power) true)

/-- `polymat.pack` of a list that has one entry for each of `L` braids. -/
def packN (L : Nat) (As : List (Img d)) : Except Err (PArr (Fin L) d d) :=
  if h : As.length = L then do
    let A ← pack As
    .ok (A.map fun S i => S (Fin.cast h.symm i))
  else .error .value

/-- peyl/jonesrep.py:179-181, one more factor for every braid. -/
def evalStep (L : Nat) (factors : List (List Nat)) (result : PArr (Fin L) d d) (i : Nat) : Except Err (PArr (Fin L) d d) := do
  let ms ← factors.mapM fun fs => do rep.factorImage tbl (← lookup fs i)
  rep.polymatMulL result (← packN L ms)

/-- peyl/jonesrep.py:166-183 `polymat_evaluate_braids_of_same_length` (all braids of one class). -/
def evalSame (xs : List NF) : Except Err (PArr (Fin xs.length) d d) := do
  let x0 ← lookup xs 0
  let length := x0.canonicalLength
  pyAssert (xs.all fun x => x.canonicalLength == length)
  let t ← tbl rep.n
  let deltas ← xs.mapM fun x => do rep.deltaImage tbl (← NF.tauIndex x.power t.tauOrder)
  let result ← packN xs.length deltas
  (List.range length).foldlM (rep.evalStep tbl xs.length (xs.map NF.factors)) result

/-- peyl/jonesrep.py:161-163 `polymat_evaluate_braid`. -/
def evalOne (x : NF) : Except Err (Img d) := do
  let A ← rep.evalSame tbl [x]
  .ok (imgAt A ⟨0, by simp⟩)

/-- peyl/jonesrep.py:185-212 `polymat_evaluate_braid_integers_of_same_length`: the tensor starts with a batch axis of length
one, which the first product broadcasts. -/
def evalIntegers (seqs : List (List Nat)) : Except Err (Σ L : Nat, PArr (Fin L) d d) := do
  let s0 ← lookup seqs 0
  let length := s0.length
  pyAssert (seqs.all fun s => s.length == length)
  let t ← tbl rep.n
  pyAssert (seqs.all fun s => s.all fun x => decide (x < t.order))
  let start ← packN 1 [← rep.factorImage tbl t.id]
  if length = 0 then .ok ⟨1, start⟩
  else do
    let A ← (List.range length).foldlM (rep.evalStep tbl seqs.length seqs) (start.map fun S _ => S 0)
    .ok ⟨seqs.length, A⟩

/-- peyl/jonesrep.py:112-125 `polymat_artin_gens_invs`. -/
def polymatGens (ms : List Matrix) : Except Err (PArr (Fin ms.length) d d) := do
  let ps ← ms.mapM fun m => fromMatrix d d m false
  let A ← packN ms.length ps
  projectivise (if rep.p ≠ 0 then modp rep.p A else A)

/-- peyl/jonesrep.py:147-150: multiply `k` times by one generator, reducing mod `p`. -/
def mulTimes (g : Img d) : Nat → Img d → Except Err (Img d)
  | 0, A => .ok A
  | k + 1, A => do
    let C ← mul (fun u : Unit => u) (fun u => u) A g none
    mulTimes g k (if rep.p ≠ 0 then modp rep.p C else C)

/-- peyl/jonesrep.py:142-152 `polymat_evaluate_artin_word`. -/
def polymatEvaluateArtinWord (word : List (Nat × Int)) : Except Err (Img d) := do
  let gens ← rep.polymatGens rep.gens
  let invs ← rep.polymatGens rep.invs
  let A ← word.foldlM (init := eye d) fun A ie => do
    if ie.2 ≥ 0 then
      if h : ie.1 < rep.gens.length then rep.mulTimes (imgAt gens ⟨ie.1, h⟩) ie.2.natAbs A else .error .index
    else
      if h : ie.1 < rep.invs.length then rep.mulTimes (imgAt invs ⟨ie.1, h⟩) ie.2.natAbs A else .error .index
  projectivise A

/-- The representation as `bucketing.Tracker` uses it. -/
def toRep : Bucketing.Rep d := ⟨rep.n, rep.p, rep.evalSame tbl⟩

end RepBase
end Peyl
