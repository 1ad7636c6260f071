import Verif.Model.MachineEval
import Verif.Model.Bucketing
/-!
# The tracker of `bucketing.py` with machine integers

The images come from `polymat_evaluate_braids_of_same_length`, so they are tensors of 64-bit integers.  `bootstrap_exhaustive` and
`valiate_buckets` do no arithmetic with entries beyond the evaluator: with machine integers they are `bootstrapExhaustive` and
`validateBuckets` applied to `toRepW`.
-/
namespace Peyl

/-- The representation as `bucketing.Tracker` uses it, with `w`-bit integers (compare `RepBase.toRep`). -/
def RepBase.toRepW {d : Nat} {T : Type} (w : Nat) (rep : RepBase d) (tbl : Nat → Except Err (NFTable T)) : Bucketing.Rep d := ⟨rep.n, rep.p, rep.evalSameW w tbl⟩

namespace Bucketing
variable {S T : Type} [DecidableEq T] {d : Nat} (w : Nat) (tbl : Nat → Except Err (NFTable T))

/-- peyl/bucketing.py:385-387 with `w`-bit integers (compare `productBatch`). -/
def productBatchW (p : Nat) (braids : List NF) (left : PArr (Fin braids.length) d d)
    (sufs : List NF) (rights : PArr (Fin sufs.length) d d) : Except Err (Batch NF d) := do
  let images ← Polymat.polymatMulW w p (fun g : Fin sufs.length × Fin braids.length => g.2) (fun g => g.1) left rights
  let prods ← sufs.mapM fun s => braids.mapM fun b => NF.mul tbl b s
  .ok { len := sufs.length * braids.length
        braids := fun i => ((prods.getD (finProdFinEquiv.symm i).1 []).getD (finProdFinEquiv.symm i).2 ⟨0, 0, []⟩)
        images := images.map fun S i => S (finProdFinEquiv.symm i) }

/-- peyl/bucketing.py:370-387 with `w`-bit integers (compare `descendLoop`). -/
def descendLoopW (rep : Rep d) (g : Rng S) (c : Config NF d) (W length : Nat) :
    List (List (NF × Img d)) → Tracker S T d → Except Err (Tracker S T d)
  | [], tr => .ok tr
  | grp :: rest, tr =>
    match grp with
    | [] => descendLoopW rep g c W length rest tr
    | x :: _ => do
      let r ← cachedSuffixes tbl rep tr.cache x.1 length
      let left := stackImgs W (grp.map Prod.snd)
      let batch ← productBatchW w tbl rep.p (grp.map Prod.fst)
        (left.map fun S i => S ⟨i, by have := i.2; simp only [List.length_map] at this ⊢; exact this⟩) r.1.1 r.1.2
      let st ← addBraidsImages g c (tr.buckets, tr.rng) batch
      descendLoopW rep g c W length rest { buckets := st.1, cache := r.2, rng := st.2 }

/-- peyl/bucketing.py:349-387 `nf_descendants` with `w`-bit integers (compare `nfDescendants`). -/
def nfDescendantsW (rep : Rep d) (g : Rng S) (c : Config NF d) (argsort : List Nat → List Nat)
    (tr : Tracker S T d) (tag : Tag) (length : Nat) : Except Err (Tracker S T d) := do
  let bucket ← Dict.get tr.buckets tag
  let bi := bucket.braidsImages
  let last ← bi.1.mapM lastFactor
  let sorted := (argsort last).map fun i => (bi.1.getD i ⟨0, 0, []⟩, bi.2.getD i [])
  descendLoopW w tbl rep g c bucket.width length
    (sorted.splitBy fun x y => x.1.factors.getLast? == y.1.factors.getLast?) tr

end Bucketing
end Peyl
