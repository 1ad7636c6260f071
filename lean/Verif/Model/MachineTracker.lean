import Verif.Model.MachineEval
import Verif.Model.Search
/-!
# The tracker of `braidsearch.py` and `search.py` with machine integers

The images in the buckets are tensors of `w`-bit integers (`w = 32` for `p > 0`): they are produced by the evaluators of
`Verif/Model/MachineEval.lean` and by wrapping products.  Filing a batch (`addBraidsImages`) does no arithmetic with entries.
-/
namespace Peyl
namespace BraidSearch
variable {d : Nat} {S : Type} (w : Nat) (tbl : Nat → Except Err (NFTable (List Nat)))

/-- peyl/braidsearch.py:501-506 with `w`-bit integers (compare `descendChunk`). -/
def descendChunkW (rep : Summand d) (c : Config S NF d) (t : Tag) (length : Nat) (st : State S NF d) (pairs : List (Nat × NF × NF)) :
    Except Err (State S NF d) := do
  let b ← Dict.get st.buckets t
  let lefts ← pairs.mapM fun x => lookup b.images x.1
  let left ← packL pairs.length lefts
  let rights ← evalPrefixesW w tbl rep (pairs.map fun x => x.2.2)
  (List.range length).foldlM (init := st) fun st i => do
    let right ← lookup rights (i + 1)
    let images ← Polymat.polymatMulW w rep.p (fun i : Fin pairs.length => i) (fun i => i) left (right.map fun S j => S (Fin.cast (by simp) j))
    let prods ← pairs.mapM fun x => do NF.mul tbl x.2.1 (← NF.substring tbl x.2.2 0 (i + 1))
    addBraidsImages c st { len := pairs.length, braids := fun j => prods.getD j ⟨0, 0, []⟩, images := images }

/-- peyl/braidsearch.py:498-506 `nf_descendants` with `w`-bit integers (compare `nfDescendants`). -/
def nfDescendantsW (rep : Summand d) (c : Config S NF d) (st : State S NF d) (t : Tag) (length : Nat) : Except Err (State S NF d) := do
  let b ← Dict.get st.buckets t
  let all ← (b.braids.zipIdx).mapM fun xi => do
    let ss ← NF.nfSuffixes tbl xi.1 length
    .ok (ss.map fun s => (xi.2, xi.1, s))
  let chunks ← batched all.flatten 1000
  chunks.foldlM (descendChunkW w tbl rep c t length) st

/-- peyl/braidsearch.py:485-495 `bucket_product` with `w`-bit integers (compare `bucketProduct`). -/
def bucketProductW (rep : Summand d) (c : Config S NF d) (st : State S NF d) (t u : Tag) : Except Err (State S NF d) := do
  let x ← bucketBraidsImages st t
  let y ← bucketBraidsImages st u
  let prods ← x.1.mapM fun a => y.1.mapM fun b => NF.mul tbl a b
  let w1 := (x.2.map List.length).foldl max 0
  let w2 := (y.2.map List.length).foldl max 0
  let images ← Polymat.polymatMulW w rep.p (fun g : Fin x.2.length × Fin y.2.length => g.1) (fun g => g.2) (stackImgs w1 x.2) (stackImgs w2 y.2)
  addBraidsImages c st
    { len := x.2.length * y.2.length
      braids := fun i => ((prods.getD (finProdFinEquiv.symm i).1 []).getD (finProdFinEquiv.symm i).2 ⟨0, 0, []⟩)
      images := images.map fun S i => S (finProdFinEquiv.symm i) }

/-- peyl/braidsearch.py:508-516 `substrings` with `w`-bit integers (compare `substrings`). -/
def substringsW (rep : Summand d) (c : Config S NF d) (st : State S NF d) (t : Tag) : Except Err (State S NF d) := do
  let b ← match Dict.get? st.buckets t with | some b => Except.ok b | none => .error .assertion
  let x0 ← lookup b.braids 0
  let length := x0.canonicalLength
  ((List.range (length - 1)).drop 1).foldlM (init := st) fun st i => do
    let b ← Dict.get st.buckets t
    let subs ← b.braids.mapM fun x => NF.substring tbl x i length
    let images ← evalPrefixesW w tbl rep subs
    ((List.range (length - 1)).drop (i + 2)).foldlM (init := st) fun st j => do
      let b ← Dict.get st.buckets t
      let ys ← b.braids.mapM fun x => NF.substring tbl x i j
      let A ← lookup images (j - i)
      pyAssert (ys.length == subs.length)
      addBraidsImages c st { len := subs.length, braids := fun k => ys.getD k ⟨0, 0, []⟩, images := A }

/-- peyl/braidsearch.py:518-524 `bootstrap_exhaustive` with `w`-bit integers (compare `bootstrapExhaustive`). -/
def bootstrapExhaustiveW (rep : Summand d) (c : Config S NF d) (st : State S NF d) (upto : Nat) : Except Err (State S NF d) :=
  (List.range upto).foldlM (init := st) fun st k => do
    let all ← NF.allOfLength tbl rep.n (k + 1) 0
    let chunks ← batched all 10000
    chunks.foldlM (init := st) fun st xs => do
      let images ← evalSameW w tbl rep xs
      addBraidsImages c st { len := xs.length, braids := fun i => xs[i], images := images }

end BraidSearch

namespace Search
open BraidSearch
variable {S : Type} {d : Nat} (w : Nat) (tbl : Nat → Except Err (NFTable (List Nat)))

/-- search.py:90-147 with `w`-bit integers (compare `round`). -/
def roundW (a : Args) (rep : Summand d) (c : Config S NF d) (ord : List Row → List Row) (L : Int) (st : State S NF d) :
    Except Err (Out × State S NF d) := do
  let stats := BraidSearch.stats ord st
  let found ← nearKernel tbl st stats
  let shouldHalt := a.stopAtProjlen1 && decide (1 ≤ (stats.filter fun r => decide (r.1.2 = 1)).length)
  let selLen := selectionLength stats L
  let sel := within selLen a.useBest
  let saved ← if a.database then dbRows st (within selLen a.saveBest) else .ok []
  let st1 ← (sel.map Prod.fst).foldlM (init := st) fun st t => nfDescendantsW w tbl rep c st t a.stepSize
  let st2 := ((stats.filter fun r => decide (r.1.1 ≤ L)).map Prod.fst).foldl discardBucket st1
  .ok (⟨found, sel, saved, shouldHalt⟩, st2)

/-- search.py:89-150 with `w`-bit integers (compare `loop`). -/
def loopW (a : Args) (rep : Summand d) (c : Config S NF d) (ord : Int → List Row → List Row) : List Int → State S NF d →
    Except Err (List (Int × Out) × State S NF d)
  | [], st => .ok ([], st)
  | L :: Ls, st => do
    let r ← roundW w tbl a rep c (ord L) L st
    if r.1.halt then .ok ([(L, r.1)], r.2)
    else do
      let rest ← loopW a rep c ord Ls r.2
      .ok ((L, r.1) :: rest.1, rest.2)

/-- search.py:59-150 `main` with `w`-bit integers (compare `main`). -/
def mainW (a : Args) (rep : Summand d) (size : Nat) (rank : (Fin d → Fin d → ℤ) → Nat) (g : Rng S) (seed : S) (ord : Int → List Row → List Row) :
    Except Err (List (Int × Out) × State S NF d) := do
  let c : Config S NF d :=
    { size := size, length := NF.canonicalLength, criterion := fun _ rows i => decide (1 ≤ (rows i).length), rank := rank, rand := some g }
  let st ← bootstrapExhaustiveW w tbl rep c ⟨[], [], seed⟩ a.bootstrapLength
  loopW w tbl a rep c ord (lengths a) st

end Search
end Peyl
