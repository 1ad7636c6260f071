import Verif.Model.Bucketing
/-!
# Model of `peyl/braidsearch.py` (evaluators and `Tracker`)

Entries are exact integers.  The random generator is an arbitrary state machine.  A Python dict is an association list in
insertion order.  The fields `buckets`, `bucket_braids`, `bucket_images`, `bucket_braid_set` of the tracker always have the
same keys; they are one dictionary here.
-/
namespace Peyl
namespace BraidSearch
open Polymat

/-! ### evaluation -/

/-- peyl/braidsearch.py:63-105 a `JonesSummand` as the search uses it: strands, modulus and the polymats of the Artin
generators (`artin_gens_invs()[0]`).  `d` is `dimension()`. -/
structure Summand (d : Nat) where
  n : Nat
  p : Nat
  gens : List (Img d)

variable {d : Nat}

/-- peyl/braidsearch.py:107-113 `JonesSummand.mul` without batch axes. -/
def Summand.mul1 (rep : Summand d) (A B : Img d) : Except Err (Img d) := polymatMul rep.p (fun u : Unit => u) (fun u => u) A B

/-- peyl/braidsearch.py:107-113 `JonesSummand.mul` of two tensors with the same batch axis. -/
def Summand.mulL (rep : Summand d) {L : Nat} (A B : PArr (Fin L) d d) : Except Err (PArr (Fin L) d d) :=
  polymatMul rep.p (fun i : Fin L => i) (fun i => i) A B

/-- peyl/braidsearch.py:136-139: the image of one permutation. -/
def Summand.permImage (rep : Summand d) (w : List Nat) : Except Err (Img d) := do
  let word ← Perms.shortlex w
  let ms ← word.mapM (lookup rep.gens)
  projectivise (← ms.foldlM rep.mul1 (eye d))

/-- Equality of polymats after numpy's broadcasting of the last axis (`np.equal(...).all()`; other widths raise). -/
def eqAll (A B : Img d) : Except Err Bool :=
  if A.length = B.length ∨ A.length = 1 ∨ B.length = 1 then
    let D := if A.length = 1 then B.length else A.length
    .ok ((List.range D).all fun k => decide ((if A.length = 1 then slice A 0 else slice A k) = (if B.length = 1 then slice B 0 else slice B k)))
  else .error .value

/-- peyl/braidsearch.py:131-145 `symmetric_table`. -/
def Summand.table (rep : Summand d) : Except Err (List (List Nat × Img d)) := do
  let tab ← (Perms.elements rep.n).mapM fun w => do .ok (w, ← rep.permImage w)
  let x ← Dict.get tab (Perms.longestElement rep.n)
  let sq ← rep.mul1 x x
  pyAssert (← eqAll sq (eye d))
  .ok tab

variable (tbl : Nat → Except Err (NFTable (List Nat)))

/-- peyl/braidsearch.py:148-158 `evaluate_braid_factors`. -/
def evaluateBraidFactors (rep : Summand d) (x : NF) : Except Err (Img d) := do
  let factors ← NF.canonicalFactors tbl x
  let tab ← rep.table
  let start ← if x.power % 2 = 0 then .ok (eye d) else Dict.get tab (Perms.longestElement rep.n)
  let ms ← factors.mapM (Dict.get tab)
  projectivise (← ms.foldlM rep.mul1 start)

/-- `polymat.pack` of a list that has one entry for each of `L` braids. -/
def packL (L : Nat) (As : List (Img d)) : Except Err (PArr (Fin L) d d) :=
  if h : As.length = L then do
    let A ← pack As
    .ok (A.map fun S i => S (Fin.cast h.symm i))
  else .error .value

/-- peyl/braidsearch.py:199-201 (and 176-178): one more factor for every braid. -/
def evalStep (rep : Summand d) (tab : List (List Nat × Img d)) (L : Nat) (factors : List (List (List Nat)))
    (images : PArr (Fin L) d d) (l : Nat) : Except Err (PArr (Fin L) d d) := do
  let ms ← factors.mapM fun fs => do Dict.get tab (← lookup fs l)
  rep.mulL images (← packL L ms)

/-- peyl/braidsearch.py:199-201: the loop collecting all prefixes. -/
def prefixLoop (rep : Summand d) (tab : List (List Nat × Img d)) (L : Nat) (factors : List (List (List Nat))) :
    List Nat → PArr (Fin L) d d → Except Err (List (PArr (Fin L) d d))
  | [], A => .ok [A]
  | l :: ls, A => do
    let A' ← evalStep rep tab L factors A l
    let rest ← prefixLoop rep tab L factors ls A'
    .ok (A :: rest)

/-- The common beginning of both bulk evaluators: length, factors, table and the packed powers of Δ. -/
def evalStart (rep : Summand d) (xs : List NF) : Except Err (Nat × List (List (List Nat)) × List (List Nat × Img d) × PArr (Fin xs.length) d d) := do
  let x0 ← lookup xs 0
  let length := x0.canonicalLength
  pyAssert (xs.all fun x => x.canonicalLength == length)
  let factors ← xs.mapM (NF.canonicalFactors tbl)
  let tab ← rep.table
  let anti ← Dict.get tab (Perms.longestElement rep.n)
  let images ← packL xs.length (xs.map fun x => if x.power % 2 = 0 then eye d else anti)
  .ok (length, factors, tab, images)

/-- peyl/braidsearch.py:161-180 `evaluate_braids_of_same_length`. -/
def evalSame (rep : Summand d) (xs : List NF) : Except Err (PArr (Fin xs.length) d d) := do
  let (length, factors, tab, images) ← evalStart tbl rep xs
  (List.range length).foldlM (evalStep rep tab xs.length factors) images

/-- peyl/braidsearch.py:183-203 `evaluate_prefixes_of_same_length`. -/
def evalPrefixes (rep : Summand d) (xs : List NF) : Except Err (List (PArr (Fin xs.length) d d)) := do
  let (length, factors, tab, images) ← evalStart tbl rep xs
  prefixLoop rep tab xs.length factors (List.range length) images

/-- peyl/braidsearch.py:212-217, the loop of `evaluate_braids` filling the two dictionaries. -/
def groupLoop : List NF → Nat → List (Nat × List Nat) → List (Nat × Nat) → List (Nat × List Nat) × List (Nat × Nat)
  | [], _, byLen, loc => (byLen, loc)
  | x :: xs, i, byLen, loc =>
    let length := x.canonicalLength
    let idx := (Dict.get? byLen length).getD []
    groupLoop xs (i + 1) (Dict.set byLen length (idx ++ [i])) (loc ++ [(length, idx.length)])

/-- peyl/braidsearch.py:206-224 `evaluate_braids`. -/
def evaluateBraids (rep : Summand d) (xs : List NF) : Except Err (List (Img d)) := do
  let (byLen, loc) := groupLoop xs 0 [] []
  let images ← byLen.mapM fun li => do
    let ys ← li.2.mapM (lookup xs)
    let A ← evalSame tbl rep ys
    .ok (li.1, (List.finRange ys.length).map (imgAt A))
  loc.mapM fun li => do
    let l ← Dict.get images li.1
    lookup l li.2

/-! ### the tracker -/

/-- A bucket tag: (length, projlen). -/
abbrev Tag := Int × Int

/-- peyl/braidsearch.py:311-326: the data of one bucket.  `width` is the last entry of the shape of `bucket_images`. -/
structure Bucket (β : Type) (d : Nat) where
  width : Nat
  braids : List β
  braidSet : List β
  images : List (Img d)

/-- A row of `braid_image_stats`; `rhogap2` is twice the rhogap, `rank2` is numpy's numerical `projrank(·, 2)`. -/
structure StatRow where
  length : Nat
  nzTerms : Nat
  degmax : Int
  valmin : Nat
  rhogap2 : Int
  projlen : Int
  rank2 : Nat

/-- peyl/braidsearch.py:299-334 `__init__`: the parameters of a tracker.  `criterion` is any function of the statistics,
`rank` is numpy's `matrix_rank`, `rand` is the optional random generator.  (`minimise` is called, its result is not used.) -/
structure Config (S β : Type) (d : Nat) where
  size : Nat
  length : β → Nat
  criterion : (L : Nat) → (Fin L → StatRow) → Fin L → Bool
  rank : (Fin d → Fin d → ℤ) → Nat
  rand : Option (Rng S)

/-- State: buckets, `bucket_reservoir_counts` (which survive discarding), random generator. -/
structure State (S β : Type) (d : Nat) where
  buckets : List (Tag × Bucket β d)
  counts : List (Tag × Nat)
  rng : S

variable {S β : Type} [DecidableEq β]

/-- peyl/braidsearch.py:337-346 `discard_bucket`. -/
def discardBucket (st : State S β d) (t : Tag) : State S β d :=
  if Dict.has st.buckets t then { st with buckets := Dict.del st.buckets t } else st

/-- peyl/polymat.py:244-256 `projrank` with `terms = 2`. -/
def projrank2 {L : Nat} (rank : (Fin d → Fin d → ℤ) → Nat) (A : PArr (Fin L) d d) : Except Err (Fin L → Nat) := do
  pyAssert (1 ≤ A.length)
  let v ← valmin A
  pyAssert (decide (∀ i, v i = 0))
  .ok fun i => (((List.range 2).filter fun k => decide (k < A.length)).map fun k => rank (slice A k i)).sum

/-- peyl/braidsearch.py:351-366 `braid_image_stats`. -/
def braidImageStats (c : Config S β d) (b : Bucketing.Batch β d) : Except Err (Fin b.len → StatRow) := do
  let dm ← degmax b.images
  let vm ← valmin b.images
  let rg ← rhogap2 b.images
  let pl ← projlen b.images
  let rk ← projrank2 c.rank b.images
  .ok fun i => ⟨c.length (b.braids i), nzTerms b.images i, dm i, vm i, rg i, pl i, rk i⟩

/-- peyl/braidsearch.py:440-478, one iteration of the loop of `add_braids_images`. -/
def step (c : Config S β d) (st : State S β d) (tag : Tag) (braid : β) (image : Img d) : Except Err (State S β d) :=
  match Dict.get? st.buckets tag with
  | none => do
    let im ← projectivise image
    if c.size = 0 then .error .index
    else .ok { st with
      buckets := Dict.set st.buckets tag ⟨im.length, [braid], [braid], im :: List.replicate (c.size - 1) (List.replicate im.length 0)⟩
      counts := Dict.set st.counts tag 1 }
  | some b => do
    let k ← Dict.get st.counts tag
    let counts := Dict.set st.counts tag (k + 1)
    if b.braids.length = c.size then
      match c.rand with
      | none => .ok { st with counts := counts }
      | some g => do
        let js ← g.draw st.rng (k + 1)
        if js.1 + 1 ≤ c.size then do
          let im ← projectivise image
          let im ← assignImg b.width im
          .ok { buckets := Dict.set st.buckets tag { b with braids := b.braids.set js.1 braid, images := b.images.set js.1 im }
                counts := counts
                rng := js.2 }
        else .ok { st with counts := counts, rng := js.2 }
    else if b.braidSet.contains braid then .ok { st with counts := counts }
    else do
      let im ← projectivise image
      let im ← assignImg b.width im
      .ok { st with
        buckets := Dict.set st.buckets tag { b with braids := b.braids ++ [braid], braidSet := braid :: b.braidSet,
                                                    images := b.images.set b.braids.length im }
        counts := counts }

/-- peyl/braidsearch.py:426-478 `add_braids_images`. -/
def addBraidsImages (c : Config S β d) (st : State S β d) (b : Bucketing.Batch β d) : Except Err (State S β d) := do
  let stats ← braidImageStats c b
  let pl ← projlen b.images
  ((List.finRange b.len).filter (c.criterion b.len stats)).foldlM (init := st) fun st i =>
    step c st (c.length (b.braids i), pl i) (b.braids i) (imgAt b.images i)

/-- peyl/braidsearch.py:376-380 `bucket_braids_images`. -/
def bucketBraidsImages (st : State S β d) (t : Tag) : Except Err (List β × List (Img d)) :=
  match Dict.get? st.buckets t with
  | none => .error .assertion
  | some b => .ok (b.braids, b.images.take b.braids.length)

/-- peyl/braidsearch.py:383-394 `stats`, as pairs (bucket, count).  `self.buckets` is a Python set: `ord` is the order in
which it happens to be traversed. -/
def stats (ord : List (Tag × Nat) → List (Tag × Nat)) (st : State S β d) : List (Tag × Nat) :=
  ord (st.buckets.map fun tb => (tb.1, tb.2.braids.length))

/-! ### operations on braids -/

/-- peyl/braidsearch.py:501-506, one chunk of `nf_descendants`.  The images of the bucket are read from the present state. -/
def descendChunk (rep : Summand d) (c : Config S NF d) (t : Tag) (length : Nat) (st : State S NF d) (pairs : List (Nat × NF × NF)) :
    Except Err (State S NF d) := do
  let b ← Dict.get st.buckets t
  let lefts ← pairs.mapM fun x => lookup b.images x.1
  let left ← packL pairs.length lefts
  let rights ← evalPrefixes tbl rep (pairs.map fun x => x.2.2)
  (List.range length).foldlM (init := st) fun st i => do
    let right ← lookup rights (i + 1)
    let images ← rep.mulL left (right.map fun S j => S (Fin.cast (by simp) j))
    let prods ← pairs.mapM fun x => do NF.mul tbl x.2.1 (← NF.substring tbl x.2.2 0 (i + 1))
    addBraidsImages c st { len := pairs.length, braids := fun j => prods.getD j ⟨0, 0, []⟩, images := images }

/-- peyl/braidsearch.py:498-506 `nf_descendants`. -/
def nfDescendants (rep : Summand d) (c : Config S NF d) (st : State S NF d) (t : Tag) (length : Nat) : Except Err (State S NF d) := do
  let b ← Dict.get st.buckets t
  let all ← (b.braids.zipIdx).mapM fun xi => do
    let ss ← NF.nfSuffixes tbl xi.1 length
    .ok (ss.map fun s => (xi.2, xi.1, s))
  let chunks ← batched all.flatten 1000
  chunks.foldlM (descendChunk tbl rep c t length) st

/-- peyl/braidsearch.py:485-495 `bucket_product`. -/
def bucketProduct (rep : Summand d) (c : Config S NF d) (st : State S NF d) (t u : Tag) : Except Err (State S NF d) := do
  let x ← bucketBraidsImages st t
  let y ← bucketBraidsImages st u
  let prods ← x.1.mapM fun a => y.1.mapM fun b => NF.mul tbl a b
  let w1 := (x.2.map List.length).foldl max 0
  let w2 := (y.2.map List.length).foldl max 0
  let images ← polymatMul rep.p (fun g : Fin x.2.length × Fin y.2.length => g.1) (fun g => g.2) (stackImgs w1 x.2) (stackImgs w2 y.2)
  addBraidsImages c st
    { len := x.2.length * y.2.length
      braids := fun i => ((prods.getD (finProdFinEquiv.symm i).1 []).getD (finProdFinEquiv.symm i).2 ⟨0, 0, []⟩)
      images := images.map fun S i => S (finProdFinEquiv.symm i) }

/-- peyl/braidsearch.py:508-516 `substrings`. -/
def substrings (rep : Summand d) (c : Config S NF d) (st : State S NF d) (t : Tag) : Except Err (State S NF d) := do
  let b ← match Dict.get? st.buckets t with | some b => Except.ok b | none => .error .assertion
  let x0 ← lookup b.braids 0
  let length := x0.canonicalLength
  ((List.range (length - 1)).drop 1).foldlM (init := st) fun st i => do
    -- the list of braids is the live list of the bucket
    let b ← Dict.get st.buckets t
    let subs ← b.braids.mapM fun x => NF.substring tbl x i length
    let images ← evalPrefixes tbl rep subs
    ((List.range (length - 1)).drop (i + 2)).foldlM (init := st) fun st j => do
      let b ← Dict.get st.buckets t
      let ys ← b.braids.mapM fun x => NF.substring tbl x i j
      let A ← lookup images (j - i)
      pyAssert (ys.length == subs.length)
      addBraidsImages c st { len := subs.length, braids := fun k => ys.getD k ⟨0, 0, []⟩, images := A }

/-- peyl/braidsearch.py:518-524 `bootstrap_exhaustive`. -/
def bootstrapExhaustive (rep : Summand d) (c : Config S NF d) (st : State S NF d) (upto : Nat) : Except Err (State S NF d) :=
  (List.range upto).foldlM (init := st) fun st k => do
    let all ← NF.allOfLength tbl rep.n (k + 1) 0
    let chunks ← batched all 10000
    chunks.foldlM (init := st) fun st xs => do
      let images ← evalSame tbl rep xs
      addBraidsImages c st { len := xs.length, braids := fun i => xs[i], images := images }

end BraidSearch
end Peyl
