import Verif.Model.Polymat
import Verif.Model.FixedWidth
import Verif.Model.Braid
import Mathlib.Logic.Equiv.Fin.Basic
import Mathlib.Data.List.Sort
import Mathlib.Algebra.Field.Rat
import Mathlib.Algebra.Order.Ring.Rat
/-!
# Model of `peyl/bucketing.py`

Weights are exact rationals (the code uses floats).  The random generator is an arbitrary state machine `Rng`.
Bucket tags are lists of statistic values.  A Python dict is an association list in insertion order.
-/
namespace Peyl

/-- A source of random numbers with state `S`: `random()` and `randrange(0, k)` (`randint(1, k)` is the latter plus one). -/
structure Rng (S : Type) where
  random : S → ℚ × S
  randrange : S → Nat → Nat × S
  randrange_lt : ∀ s k, 0 < k → (randrange s k).1 < k

/-- `random.randrange(0, k)`, which raises ValueError for an empty range. -/
def Rng.draw {S : Type} (g : Rng S) (s : S) (k : Nat) : Except Err (Nat × S) :=
  if k = 0 then .error .value else .ok (g.randrange s k)

namespace Dict
variable {κ υ : Type} [DecidableEq κ]

/-- `d.get(k)`. -/
def get? (d : List (κ × υ)) (k : κ) : Option υ := (d.find? fun kv => kv.1 = k).map Prod.snd

/-- `d[k]`. -/
def get (d : List (κ × υ)) (k : κ) : Except Err υ := match get? d k with | some v => .ok v | none => .error .key

/-- `k in d`. -/
def has (d : List (κ × υ)) (k : κ) : Bool := d.any fun kv => kv.1 = k

/-- `d[k] = v`: an existing key keeps its place, a new one goes last. -/
def set (d : List (κ × υ)) (k : κ) (v : υ) : List (κ × υ) :=
  if has d k then d.map fun kv => if kv.1 = k then (k, v) else kv else d ++ [(k, v)]

/-- `del d[k]` if present. -/
def del (d : List (κ × υ)) (k : κ) : List (κ × υ) := d.filter fun kv => !decide (kv.1 = k)

end Dict

/-- peyl/bucketing.py:75-87 and peyl/braidsearch.py:116-128, the loop of `batched`, `chunk` being the partial chunk. -/
def batchedLoop {β : Type} (k : Nat) : List β → List β → List (List β)
  | chunk, [] => if chunk.length > 0 then [chunk] else []
  | chunk, x :: xs =>
    if (chunk ++ [x]).length = k then (chunk ++ [x]) :: batchedLoop k [] xs else batchedLoop k (chunk ++ [x]) xs

/-- peyl/bucketing.py:75-87 and peyl/braidsearch.py:116-128 `batched`. -/
def batched {β : Type} (xs : List β) (chunkLength : Int) : Except Err (List (List β)) :=
  if chunkLength ≥ 1 then .ok (batchedLoop chunkLength.toNat [] xs) else .error .assertion

/-- An image: a polynomial matrix without batch axes. -/
abbrev Img (d : Nat) := PArr Unit d d

/-- `images[i]` of a tensor with one batch axis. -/
def imgAt {L d : Nat} (A : PArr (Fin L) d d) (i : Fin L) : Img d := A.map fun S _ => S i

/-- numpy's `target[index] = image` where the slots of `target` have width `W`: equal widths are copied, a width of one is
broadcast, anything else raises ValueError. -/
def assignImg {d : Nat} (W : Nat) (image : Img d) : Except Err (Img d) :=
  if image.length = W then .ok image
  else if image.length = 1 then .ok (List.replicate W (Polymat.slice image 0))
  else .error .value

/-- The tensor with one batch axis made of images stored in slots of width `W`. -/
def stackImgs {d : Nat} (W : Nat) (imgs : List (Img d)) : PArr (Fin imgs.length) d d :=
  (List.range W).map fun k l => Polymat.slice imgs[l] k ()

namespace Bucketing

/-- peyl/bucketing.py:90-107 `class Bucket`.  `width` is the last entry of the image shape. -/
structure Bucket (τ β : Type) (d : Nat) where
  tag : τ
  capacity : Nat
  width : Nat
  braids : List β
  images : List (Img d)
  weights : List ℚ
  reservoirCount : Nat
  reservoirWeight : ℚ
  heap : List (ℚ × Nat)

namespace Bucket
variable {τ β : Type} {d : Nat}

/-- peyl/bucketing.py:109-120 `create`. -/
def create (tag : τ) (capacity width : Nat) : Bucket τ β d where
  tag := tag
  capacity := capacity
  width := width
  braids := []
  images := List.replicate capacity (List.replicate width 0)
  weights := List.replicate capacity 0
  reservoirCount := 0
  reservoirWeight := 0
  heap := []

/-- peyl/bucketing.py:122-124 `size`. -/
def size (b : Bucket τ β d) : Nat := b.braids.length

/-- peyl/bucketing.py:126-127 `is_full`. -/
def isFull (b : Bucket τ β d) : Bool := b.braids.length = b.capacity

/-- peyl/bucketing.py:129-131 `braids_images`. -/
def braidsImages (b : Bucket τ β d) : List β × List (Img d) := (b.braids, b.images.take b.size)

/-- peyl/bucketing.py:133-136 `show_reservoir`. -/
def showReservoir (b : Bucket τ β d) (weight : ℚ) : Bucket τ β d :=
  { b with reservoirCount := b.reservoirCount + 1, reservoirWeight := b.reservoirWeight + weight }

/-- peyl/bucketing.py:138-148 `append_braid`; also returns the index. -/
def appendBraid (b : Bucket τ β d) (braid : β) (image : Img d) (weight : ℚ) : Except Err (Bucket τ β d × Nat) :=
  if b.size = b.capacity then .error .value
  else do
    let img ← assignImg b.width image
    .ok ({ b with braids := b.braids ++ [braid], images := b.images.set b.size img, weights := b.weights.set b.size weight },
      b.size)

/-- peyl/bucketing.py:150-157 `replace_braid`. -/
def replaceBraid (b : Bucket τ β d) (index : Int) (braid : β) (image : Img d) (weight : ℚ) : Except Err (Bucket τ β d) :=
  if 0 ≤ index ∧ index < b.size then do
    let img ← assignImg b.width image
    .ok { b with braids := b.braids.set index.toNat braid, images := b.images.set index.toNat img,
                 weights := b.weights.set index.toNat weight }
  else .error .value

end Bucket

/-- The four values of `reservoir_method`. -/
inductive Method where
  | greedyFirst | uniform | aChao | evictMin
  deriving DecidableEq

/-- Tuple comparison of heap entries. -/
def heapLE (x y : ℚ × Nat) : Bool := decide (x.1 < y.1 ∨ (x.1 = y.1 ∧ x.2 ≤ y.2))

/-- `heapq.heappush`.  The heap is kept as a sorted list: of `heapq` the code uses that `heap[0]` is a smallest entry and
that push and pop change the multiset of entries, and entries are pairwise distinct. -/
def heapPush (x : ℚ × Nat) (h : List (ℚ × Nat)) : List (ℚ × Nat) := h.orderedInsert (fun a b => heapLE a b) x

/-- `x / y` of floats, ZeroDivisionError being reported as ValueError. -/
def fdiv (x y : ℚ) : Except Err ℚ := if y = 0 then .error .value else .ok (x / y)

variable {S τ β : Type} {d : Nat}

/-- peyl/bucketing.py:314-346, one item shown to its bucket (`show_reservoir` and the `match`). -/
def offer (g : Rng S) (m : Method) (s : S) (b₀ : Bucket τ β d) (braid : β) (image : Img d) (weight : ℚ) :
    Except Err (Bucket τ β d × S) :=
  let b := b₀.showReservoir weight
  match m with
  | .greedyFirst =>
    if !b.isFull then do let r ← b.appendBraid braid image weight; .ok (r.1, s) else .ok (b, s)
  | .uniform =>
    if !b.isFull then do let r ← b.appendBraid braid image weight; .ok (r.1, s)
    else do
      let us := g.random s
      let q ← fdiv b.capacity b.reservoirCount
      if us.1 ≤ q then do
        let rs ← g.draw us.2 b.capacity
        let b' ← b.replaceBraid rs.1 braid image weight
        .ok (b', rs.2)
      else .ok (b, us.2)
  | .aChao =>
    if !b.isFull then do let r ← b.appendBraid braid image weight; .ok (r.1, s)
    else do
      let us := g.random s
      let q ← fdiv weight b.reservoirWeight
      if us.1 ≤ q then do
        let rs ← g.draw us.2 b.capacity
        let b' ← b.replaceBraid rs.1 braid image weight
        .ok (b', rs.2)
      else .ok (b, us.2)
  | .evictMin =>
    if !b.isFull then do
      let r ← b.appendBraid braid image weight
      .ok ({ r.1 with heap := heapPush (weight, r.2) r.1.heap }, s)
    else
      match b.heap with
      | [] => .error .index
      | (minWeight, minIdx) :: rest =>
        if weight > minWeight then do
          let b' ← { b with heap := heapPush (weight, minIdx) rest }.replaceBraid minIdx braid image weight
          .ok (b', s)
        else .ok (b, s)

/-- A list of braids and the tensor of their images (the assertion at line 290 makes the lengths agree). -/
structure Batch (β : Type) (d : Nat) where
  len : Nat
  braids : Fin len → β
  images : PArr (Fin len) d d

/-- A statistic (`BraidStatBase.calculate`): one value per item of a batch. -/
abbrev Stat (β : Type) (d : Nat) (υ : Type) := (b : Batch β d) → Except Err (Fin b.len → υ)

/-- peyl/bucketing.py:178-210 `__init__`, the parameters of a `Tracker`.  `length` computes the canonical length of a braid and `extra`
are the bucket statistics other than canonical length and projective length (the assertions at 192-193 demand those two); the
order of the statistics in a tag is immaterial. -/
structure Config (β : Type) (d : Nat) where
  capacity : Nat
  method : Method
  length : β → Nat
  extra : List (Stat β d Int)
  weight : Option (Stat β d ℚ)

/-- A bucket tag: canonical length, projective length, other statistics. -/
abbrev Tag := Int × Int × List Int

/-- peyl/bucketing.py:291-292 the tags of a batch. -/
def Config.tags (c : Config β d) (b : Batch β d) : Except Err (Fin b.len → Tag) := do
  let pl ← Polymat.projlen b.images
  let ex ← c.extra.mapM fun st => st b
  .ok fun i => ((c.length (b.braids i) : Int), pl i, ex.map fun f => f i)

/-- peyl/bucketing.py:293 the weights of a batch. -/
def Config.weights (c : Config β d) (b : Batch β d) : Except Err (Fin b.len → ℚ) :=
  match c.weight with
  | some st => st b
  | none => .ok fun _ => 1

abbrev Buckets (β : Type) (d : Nat) := List (Tag × Bucket Tag β d)

/-- peyl/bucketing.py:300-346, one iteration of the loop of `add_braids_images`. -/
def step (g : Rng S) (c : Config β d) (st : Buckets β d × S) (tag : Tag) (braid : β) (image : Img d) (weight : ℚ) :
    Except Err (Buckets β d × S) := do
  let bs := if !Dict.has st.1 tag then Dict.set st.1 tag (Bucket.create tag c.capacity image.length) else st.1
  let bucket ← Dict.get bs tag
  let r ← offer g c.method st.2 bucket braid image weight
  .ok (Dict.set bs tag r.1, r.2)

/-- `images[i][..., s:e]`. -/
def chop {L : Nat} (A : PArr (Fin L) d d) (i : Fin L) (s e : Nat) : Img d := ((imgAt A i).take e).drop s

/-- peyl/bucketing.py:286-346 `add_braids_images`. -/
def addBraidsImages (g : Rng S) (c : Config β d) (st : Buckets β d × S) (b : Batch β d) : Except Err (Buckets β d × S) := do
  let tags ← c.tags b
  let ws ← c.weights b
  let se ← Polymat.projStartsEnds b.images
  (List.finRange b.len).foldlM (init := st) fun st i =>
    step g c st (tags i) (b.braids i) (chop b.images i (se.1 i) (se.2 i)) (ws i)

/-- peyl/bucketing.py:213-216 `discard_bucket`. -/
def discardBucket (st : Buckets β d) (tag : Tag) : Buckets β d := if Dict.has st tag then Dict.del st tag else st

/-- What the tracker uses of a representation: `polymat_evaluate_braids_of_same_length` and the modulus of `polymat_mul`. -/
structure Rep (d : Nat) where
  n : Nat
  p : Nat
  evalSame : (bs : List NF) → Except Err (PArr (Fin bs.length) d d)

variable {T : Type} [DecidableEq T]

/-- The cache of suffixes, keyed by length and last canonical factor. -/
abbrev SuffixCache (T : Type) (d : Nat) := List ((Nat × T) × (Σ ss : List NF, PArr (Fin ss.length) d d))

/-- State of a `Tracker`. -/
structure Tracker (S T : Type) (d : Nat) where
  buckets : Buckets NF d
  cache : SuffixCache T d
  rng : S

/-- `braid.factors[-1]`. -/
def lastFactor (x : NF) : Except Err Nat := match x.factors.getLast? with | some f => .ok f | none => .error .index

/-- peyl/bucketing.py:376-383 `canonical_factor(-1)` and the cache lookup. -/
def cachedSuffixes (tbl : Nat → Except Err (NFTable T)) (rep : Rep d) (cache : SuffixCache T d) (x : NF) (length : Nat) :
    Except Err ((Σ ss : List NF, PArr (Fin ss.length) d d) × SuffixCache T d) := do
  let t ← tbl x.n
  let lf ← lookup t.divs (← lastFactor x)
  match Dict.get? cache (length, lf) with
  | some r => .ok (r, cache)
  | none => do
    let ss ← NF.nfSuffixes tbl x length
    if ss.length = 0 then .error .index
    else do
      let rights ← rep.evalSame ss
      .ok (⟨ss, rights⟩, Dict.set cache (length, lf) ⟨ss, rights⟩)

/-- peyl/bucketing.py:385-387: the batch of products.  The tensor has batch shape `(suffixes, braids)` and is flattened, the
list of braids runs through the suffixes in the outer loop. -/
def productBatch (tbl : Nat → Except Err (NFTable T)) (p : Nat) (braids : List NF) (left : PArr (Fin braids.length) d d)
    (sufs : List NF) (rights : PArr (Fin sufs.length) d d) : Except Err (Batch NF d) := do
  let images ← Polymat.polymatMul p (fun g : Fin sufs.length × Fin braids.length => g.2) (fun g => g.1) left rights
  let prods ← sufs.mapM fun s => braids.mapM fun b => NF.mul tbl b s
  .ok { len := sufs.length * braids.length
        braids := fun i => ((prods.getD (finProdFinEquiv.symm i).1 []).getD (finProdFinEquiv.symm i).2 ⟨0, 0, []⟩)
        images := images.map fun S i => S (finProdFinEquiv.symm i) }

/-- peyl/bucketing.py:370-387, the loop over the groups of braids ending in the same factor. -/
def descendLoop (tbl : Nat → Except Err (NFTable T)) (rep : Rep d) (g : Rng S) (c : Config NF d) (W length : Nat) :
    List (List (NF × Img d)) → Tracker S T d → Except Err (Tracker S T d)
  | [], tr => .ok tr
  | grp :: rest, tr =>
    match grp with
    | [] => descendLoop tbl rep g c W length rest tr
    | x :: _ => do
      let r ← cachedSuffixes tbl rep tr.cache x.1 length
      let left := stackImgs W (grp.map Prod.snd)
      let batch ← productBatch tbl rep.p (grp.map Prod.fst)
        (left.map fun S i => S ⟨i, by have := i.2; simp only [List.length_map] at this ⊢; exact this⟩) r.1.1 r.1.2
      let st ← addBraidsImages g c (tr.buckets, tr.rng) batch
      descendLoop tbl rep g c W length rest { buckets := st.1, cache := r.2, rng := st.2 }

/-- peyl/bucketing.py:349-387 `nf_descendants`.  `argsort` is numpy's (not stable) sorting permutation of the last factors. -/
def nfDescendants (tbl : Nat → Except Err (NFTable T)) (rep : Rep d) (g : Rng S) (c : Config NF d) (argsort : List Nat → List Nat)
    (tr : Tracker S T d) (tag : Tag) (length : Nat) : Except Err (Tracker S T d) := do
  let bucket ← Dict.get tr.buckets tag
  let bi := bucket.braidsImages
  let last ← bi.1.mapM lastFactor
  let sorted := (argsort last).map fun i => (bi.1.getD i ⟨0, 0, []⟩, bi.2.getD i [])
  descendLoop tbl rep g c bucket.width length
    (sorted.splitBy fun x y => x.1.factors.getLast? == y.1.factors.getLast?) tr

/-- peyl/bucketing.py:396-398, one length of `bootstrap_exhaustive`. -/
def bootstrapLength (rep : Rep d) (g : Rng S) (c : Config NF d) (st : Buckets NF d × S) (chunks : List (List NF)) :
    Except Err (Buckets NF d × S) :=
  chunks.foldlM (init := st) fun st bs => do
    let images ← rep.evalSame bs
    addBraidsImages g c st { len := bs.length, braids := fun i => bs[i], images := images }

/-- peyl/bucketing.py:391-398 `bootstrap_exhaustive`. -/
def bootstrapExhaustive (tbl : Nat → Except Err (NFTable T)) (rep : Rep d) (g : Rng S) (c : Config NF d) (upto : Nat)
    (tr : Tracker S T d) : Except Err (Tracker S T d) := do
  let st ← (List.range upto).foldlM (init := (tr.buckets, tr.rng)) fun st k => do
    let all ← NF.allOfLength tbl rep.n (k + 1) 0
    let chunks ← batched all 10000
    bootstrapLength rep g c st chunks
  .ok { tr with buckets := st.1, rng := st.2 }

/-- peyl/bucketing.py:401-414 `hash_bucket`; `hash` is any function of the stored image. -/
def hashBucket (hash : Img d → Int) (bs : Buckets β d) (tag : Tag) : Except Err (List (Int × List β)) := do
  pyAssert (Dict.has bs tag)
  let bucket ← Dict.get bs tag
  let bi := bucket.braidsImages
  .ok ((bi.1.zip bi.2).foldl (init := []) fun hs x =>
    let hs' := if !Dict.has hs (hash x.2) then Dict.set hs (hash x.2) [] else hs
    Dict.set hs' (hash x.2) (((Dict.get? hs' (hash x.2)).getD []) ++ [x.1]))

/-- `np.all(A == B)` of two tensors with the same batch axis: equal widths are compared entry by entry, a width of one is broadcast,
other widths raise ValueError (numpy 1.26 of poetry.lock). -/
def allEq {α : Type} [Fintype α] [DecidableEq α] (A B : PArr α d d) : Except Err Bool :=
  if A.length = B.length then .ok (decide (A = B))
  else if A.length = 1 then .ok (B.all fun S => decide (S = Polymat.slice A 0))
  else if B.length = 1 then .ok (A.all fun S => decide (S = Polymat.slice B 0))
  else .error .value

/-- peyl/bucketing.py:274-275, the search for the first wrong entry among the given indices. -/
def firstWrong {L : Nat} (images actual : PArr (Fin L) d d) : List (Fin L) → Except Err (Option (Fin L))
  | [] => .ok none
  | i :: is => do
    let e ← allEq (imgAt images i) (imgAt actual i)
    if !e then .ok (some i) else firstWrong images actual is

/-- peyl/bucketing.py:270-281, one bucket of `valiate_buckets`: the first wrong entry as (braid, actual image, stored image).  The
printed messages are not modelled. -/
def validateBucket (rep : Rep d) (b : Bucket Tag NF d) : Except Err (Option (NF × Img d × Img d)) := do
  let bi := b.braidsImages
  let actual ← rep.evalSame bi.1
  let images : PArr (Fin bi.1.length) d d := (List.range b.width).map fun k l => Polymat.slice (bi.2.getD l []) k ()
  let e ← allEq images actual
  if !e then do
    let w ← firstWrong images actual (List.finRange bi.1.length)
    .ok (w.map fun i => (bi.1[i], imgAt actual i, imgAt images i))
  else .ok none

/-- peyl/bucketing.py:267-283 `valiate_buckets`: `none` for "All bucket entries are sound.", else the first wrong entry. -/
def validateBuckets (rep : Rep d) : Buckets NF d → Except Err (Option (NF × Img d × Img d))
  | [] => .ok none
  | tb :: bs => do
    match ← validateBucket rep tb.2 with
    | some r => .ok (some r)
    | none => validateBuckets rep bs

end Bucketing
end Peyl
