import Verif.Model.Bucketing
/-!
# Model of the statistics of `peyl/bucketing.py`
-/
namespace Peyl
namespace Bucketing
variable {d : Nat}

/-- A row of `bucket_stats` with the numeric statistics of `class Stats` (the column `nf` is the name of the class of the braid). -/
structure BraidRow where
  braid : NF
  length : Nat
  projlen : Int
  nzTerms : Nat

/-- peyl/bucketing.py:219-227 `braid_image_stats` with peyl/bucketing.py:42-72 `Stats`. -/
def braidImageStats (b : Batch NF d) : Except Err (List BraidRow) := do
  let pl ← Polymat.projlen b.images
  .ok (List.ofFn fun i => ⟨b.braids i, NF.canonicalLength (b.braids i), pl i, Polymat.nzTerms b.images i⟩)

/-- peyl/bucketing.py:230-234 `bucket_stats` and peyl/bucketing.py:237-238 `bucket_braids_images`.  (For a bucket without braids the images have the width of the bucket.) -/
def bucketStats (bs : Buckets NF d) (tag : Tag) : Except Err (List BraidRow) :=
  if !Dict.has bs tag then .error .value
  else do
    let bucket ← Dict.get bs tag
    let bi := bucket.braidsImages
    braidImageStats { len := bi.1.length, braids := fun i => bi.1[i], images := (List.range bucket.width).map fun k l => Polymat.slice (bi.2.getD l []) k () }

/-- A row of `Tracker.stats` (the columns of the tag are the components of the tag). -/
structure BucketRow where
  bucket : Tag
  count : Nat
  reservoirCount : Nat
  weightAvg : ℚ
  weightAvgSeen : ℚ

/-- peyl/bucketing.py:241-264 `stats`.  `weights.sum()` is the sum over all slots.  The first quotient is a numpy one (nan for size zero, here
ValueError), the second one a Python one. -/
def stats {β : Type} (bs : Buckets β d) : Except Err (List BucketRow) :=
  bs.mapM fun tb => do
    let avg ← fdiv tb.2.weights.sum tb.2.size
    let seen ← fdiv tb.2.reservoirWeight tb.2.reservoirCount
    .ok ⟨tb.2.tag, tb.2.size, tb.2.reservoirCount, avg, seen⟩

end Bucketing
end Peyl
