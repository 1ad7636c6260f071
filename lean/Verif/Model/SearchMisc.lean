import Verif.Model.BraidSearch
/-!
# Model of the sampling and scanning helpers of `peyl/braidsearch.py`, data frames and the statistics of trackers
-/
namespace Peyl
open Polymat
variable {d : Nat}

namespace NF
variable {T : Type} (tbl : Nat → Except Err (NFTable T))

/-- peyl/braid.py:783-785 `BraidGroup.all_of_garside_length`; the argument `power` is not used. -/
def allOfGarsideLength (n length : Nat) (_power : Int) : Except Err (List NF) := NF.allOfLength tbl n length 0

/-- peyl/braid.py:787-789 `BraidGroup.count_all_of_garside_length`. -/
def countAllOfGarsideLength (n length : Nat) : Except Err Nat := NF.countAllOfLength tbl n length

/-- peyl/braid.py:791-793 `BraidGroup.sample_braid_perm`. -/
def sampleBraidPerm (rand : Nat → Nat) (n length : Nat) : Except Err NF := NF.sample tbl rand n length

/-- peyl/braid.py:601-603 `GNF.garside_length`. -/
def garsideLength (x : NF) : Nat := x.canonicalLength

end NF

namespace BraidSearch
variable (tbl : Nat → Except Err (NFTable (List Nat)))

/-- Position `i` of a concatenation of arrays of the given lengths: the array it comes from and the position there. -/
def flatIndex {X : Nat → Type} : (As : List (Σ L : Nat, X L)) → Fin (As.map fun A => A.1).sum → Σ k : Fin As.length, Fin (As.get k).1
  | [], i => absurd i.2 (by simp)
  | A :: As, i =>
    if h : i.1 < A.1 then ⟨⟨0, by simp⟩, ⟨i.1, h⟩⟩
    else
      let r := flatIndex As ⟨i.1 - A.1, by
        have := i.2
        simp only [List.map_cons, List.sum_cons] at this
        omega⟩
      ⟨r.1.succ, r.2⟩

/-- Lists of braids joined, tensors joined with `polymat.concatenate` (peyl/braidsearch.py:243-245 and 293).  The tensor is
indexed by the position along its first axis. -/
def joinBatches (bs : List (Bucketing.Batch NF d)) : Except Err (Bucketing.Batch NF d) := do
  let As : List (Σ L : Nat, PArr (Fin L) d d) := bs.map fun b => ⟨b.len, b.images⟩
  let P ← concatenate As
  .ok { len := (As.map fun A => A.1).sum
        braids := fun i => (bs.flatMap fun b => List.ofFn b.braids).getD i ⟨0, 0, []⟩
        images := P.map fun S i => S (flatIndex As i) }

/-- peyl/braidsearch.py:227-233 `sample_braids_images`; `rands i` are the choices made while sampling the `i`-th braid. -/
def sampleBraidsImages (rands : Nat → Nat → Nat) (rep : Summand d) (length count : Nat) : Except Err (Bucketing.Batch NF d) := do
  let xs ← (List.range count).mapM fun i => NF.sampleBraidPerm tbl (rands i) rep.n length
  let A ← evalSame tbl rep xs
  .ok { len := xs.length, braids := fun i => xs[i], images := A }

/-- peyl/braidsearch.py:236-245 `sample_braids_images_upto_length`; `rands l i` are the choices for the `i`-th braid of length `l`. -/
def sampleBraidsImagesUpto (rands : Nat → Nat → Nat → Nat) (rep : Summand d) (fromLength uptoLength count : Nat) : Except Err (Bucketing.Batch NF d) := do
  let pairs ← (List.range' fromLength (uptoLength + 1 - fromLength)).mapM fun l => sampleBraidsImages tbl (rands l) rep l count
  joinBatches pairs

/-- peyl/braidsearch.py:285-291, one batch: `rhogap/length < 1.0` is `degmax - valmin < 2 * length`, and False for `length = 0` (the quotient
is inf or nan).  (The float quotient is below 1.0 exactly when the rational one is, as long as the numbers are below 2^53.)  `images[indices]`
selects along the first axis. -/
def belowChunk (rep : Summand d) (length : Nat) (xs : List NF) : Except Err (Bucketing.Batch NF d) := do
  let images ← evalSame tbl rep xs
  let rg ← rhogap2 images
  let indices := (List.finRange xs.length).filter fun i => decide (0 < length ∧ rg i < 2 * (length : Int))
  .ok { len := indices.length, braids := fun j => xs[indices[j]], images := images.map fun S j => S indices[j] }

/-- peyl/braidsearch.py:274-293 `all_of_length_below_1`. -/
def allOfLengthBelow1 (rep : Summand d) (length : Nat) : Except Err (Bucketing.Batch NF d) := do
  let all ← NF.allOfGarsideLength tbl rep.n length 0
  let chunks ← batched all 1000
  let goods ← chunks.mapM (belowChunk tbl rep length)
  joinBatches (goods.filter fun b => decide (0 < b.len))

/-- A row of `braids_images_to_dataframe`; `rhogap2` is twice the column `rhogap`. -/
structure FrameRow (d : Nat) where
  braid : NF
  image : Img d
  length : Nat
  nzTerms : Nat
  degmax : Int
  valmin : Nat
  rhogap2 : Int

/-- peyl/braidsearch.py:263-272: the columns computed from one braid and one image (`df[...].apply`).  The column `rhogap/length` is the
quotient of the two columns. -/
def frameRow (x : NF) (A : Img d) : Except Err (FrameRow d) := do
  let dm ← degmax A
  let vm ← valmin A
  let rg ← rhogap2 A
  .ok ⟨x, A, NF.garsideLength x, nzTerms A (), dm (), vm (), rg ()⟩

/-- peyl/braidsearch.py:247-271 `braids_images_to_dataframe` with a tensor of images. -/
def tensorToDataframe (xs : List NF) {L : Nat} (images : PArr (Fin L) d d) : Except Err (List (FrameRow d)) := do
  pyAssert (L == xs.length)
  (xs.zip ((List.finRange L).map (imgAt images))).mapM fun xA => frameRow xA.1 xA.2

/-- peyl/braidsearch.py:247-271 `braids_images_to_dataframe` with a list of images; pandas raises ValueError for columns of different lengths. -/
def listToDataframe (xs : List NF) (images : List (Img d)) : Except Err (List (FrameRow d)) := do
  if images.length ≠ xs.length then .error .value
  else (xs.zip images).mapM fun xA => frameRow xA.1 xA.2

variable {S β : Type} [DecidableEq β]

/-- peyl/braidsearch.py:369-373 `bucket_stats`: the rows of the data frame. -/
def bucketStats (c : Config S β d) (st : State S β d) (t : Tag) : Except Err (List StatRow) := do
  if Dict.has st.buckets t then
    let x ← bucketBraidsImages st t
    if h : x.1.length = x.2.length then
      let w := (x.2.map List.length).foldl max 0
      let rows ← braidImageStats c { len := x.2.length, braids := fun i => x.1[i.1]'(by have := i.2; omega), images := stackImgs w x.2 }
      .ok (List.ofFn rows)
    else .error .assertion
  else .error .value

/-- A row of `Tracker.stats`: bucket, count, and for a tracker with a random generator the reservoir count (`dict.get`, so None for a
missing key).  The column `rhogap/length` is computed from the tag. -/
structure StatsRow where
  bucket : Tag
  count : Nat
  reservoirCount : Option (Option Nat)

/-- peyl/braidsearch.py:383-394 `stats` with the reservoir column.  `self.buckets` is a Python set: `ord` is the order in which it happens to
be traversed. -/
def statsRows (ord : List StatsRow → List StatsRow) (c : Config S β d) (st : State S β d) : List StatsRow :=
  ord (st.buckets.map fun tb => ⟨tb.1, tb.2.braids.length, if c.rand.isSome then some (Dict.get? st.counts tb.1) else none⟩)

/-- peyl/braidsearch.py:396-404 `stats_reservoir`, as pairs (bucket, reservoir count). -/
def statsReservoir (st : State S β d) : List (Tag × Nat) := st.counts

/-- peyl/braidsearch.py:407-423 `valiate_buckets`.  The first bucket already raises: the attribute `p` of a tracker does not exist, and it is
evaluated before the call.  `ord` is the order of traversal of the set of buckets; the value `none` stands for "All bucket entries are sound.". -/
def valiateBuckets (ord : List Tag → List Tag) (st : State S β d) : Except Err (Option Unit) :=
  match ord (st.buckets.map Prod.fst) with
  | [] => .ok none
  | t :: _ => do
    let x ← bucketBraidsImages st t
    let _ ← lookup x.1 0
    .error .attribute

end BraidSearch
end Peyl
