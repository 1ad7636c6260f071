import Verif.Model.BraidSearch
/-!
# Model of `search.py`

What is printed and timed is left out, except the near-kernel braids; the database is the list of rows inserted into it.
`ord` is the order in which Python happens to traverse the set of buckets.
-/
namespace Peyl
namespace Search
open BraidSearch

/-- search.py:29-46 the command line arguments that matter. -/
structure Args where
  bootstrapLength : Nat
  useBest : Int
  saveBest : Int
  stepSize : Nat
  stopAtProjlen1 : Bool
  database : Bool

/-- A row of the data frame of `track.stats()`: bucket and count. -/
abbrev Row := Tag × Nat

/-- search.py:107 `.sort_values('projlen')`. -/
def sortByProjlen (rows : List Row) : List Row := rows.insertionSort fun a b => a.1.2 ≤ b.1.2

/-- pandas' `cumsum`. -/
def cumsum : List Nat → Nat → List Nat
  | [], _ => []
  | x :: xs, acc => (acc + x) :: cumsum xs (acc + x)

/-- search.py:107 `selection_length`. -/
def selectionLength (stats : List Row) (L : Int) : List Row := sortByProjlen (stats.filter fun r => decide (r.1.1 = L))

/-- search.py:110 and 118: the rows whose cumulative count is at most the budget. -/
def within (rows : List Row) (budget : Int) : List Row :=
  ((rows.zip (cumsum (rows.map Prod.snd) 0)).filter fun rc => decide ((rc.2 : Int) ≤ budget)).map Prod.fst

/-- search.py:95-101 the near-kernel braids, in the form in which they are printed: (inf, permutation words). -/
def nearKernel {S : Type} {d : Nat} (tbl : Nat → Except Err (NFTable (List Nat))) (st : State S NF d) (stats : List Row) :
    Except Err (List (Int × List (List Nat))) := do
  let ls ← (stats.filter fun r => decide (r.1.2 = 1)).mapM fun r => do
    let b ← Dict.get st.buckets r.1
    b.braids.mapM fun x => do .ok (x.power, ← NF.canonicalFactors tbl x)
  .ok ls.flatten

/-- A row of the table `good_braids` without the constant columns `n, r, p`: length, projlen, `astuple(braid)`. -/
abbrev DbRow := Int × Int × NF

/-- search.py:123-134 the rows inserted in one transaction. -/
def dbRows {S : Type} {d : Nat} (st : State S NF d) (rows : List Row) : Except Err (List DbRow) := do
  let ls ← rows.mapM fun r => do
    let b ← Dict.get st.buckets r.1
    .ok (b.braids.map fun x => (r.1.1, r.1.2, x))
  .ok ls.flatten

/-- What one round shows: near-kernel braids, selected buckets, database rows, whether the loop is left. -/
structure Out where
  found : List (Int × List (List Nat))
  selected : List Row
  saved : List DbRow
  halt : Bool

variable {S : Type} {d : Nat} (tbl : Nat → Except Err (NFTable (List Nat)))

/-- search.py:90-147 the body of the loop for `process_length = L`. -/
def round (a : Args) (rep : Summand d) (c : Config S NF d) (ord : List Row → List Row) (L : Int) (st : State S NF d) :
    Except Err (Out × State S NF d) := do
  let stats := BraidSearch.stats ord st
  let found ← nearKernel tbl st stats
  let shouldHalt := a.stopAtProjlen1 && decide (1 ≤ (stats.filter fun r => decide (r.1.2 = 1)).length)
  let selLen := selectionLength stats L
  let sel := within selLen a.useBest
  let saved ← if a.database then dbRows st (within selLen a.saveBest) else .ok []
  let st1 ← (sel.map Prod.fst).foldlM (init := st) fun st t => nfDescendants tbl rep c st t a.stepSize
  let st2 := ((stats.filter fun r => decide (r.1.1 ≤ L)).map Prod.fst).foldl discardBucket st1
  .ok (⟨found, sel, saved, shouldHalt⟩, st2)

/-- search.py:89-150 the loop. -/
def loop (a : Args) (rep : Summand d) (c : Config S NF d) (ord : Int → List Row → List Row) : List Int → State S NF d →
    Except Err (List (Int × Out) × State S NF d)
  | [], st => .ok ([], st)
  | L :: Ls, st => do
    let r ← round tbl a rep c (ord L) L st
    if r.1.halt then .ok ([(L, r.1)], r.2)
    else do
      let rest ← loop a rep c ord Ls r.2
      .ok ((L, r.1) :: rest.1, rest.2)

/-- search.py:89 `range(bootstrap_length - step_size + 1, 500)`. -/
def lengths (a : Args) : List Int :=
  let start : Int := a.bootstrapLength - a.stepSize + 1
  (List.range (500 - start).toNat).map fun i : Nat => start + (i : Int)

/-- search.py:59-150 `main`, with the tracker configuration of lines 63-71. -/
def main (a : Args) (rep : Summand d) (size : Nat) (rank : (Fin d → Fin d → ℤ) → Nat) (g : Rng S) (seed : S) (ord : Int → List Row → List Row) :
    Except Err (List (Int × Out) × State S NF d) := do
  let c : Config S NF d :=
    { size := size, length := NF.canonicalLength, criterion := fun _ rows i => decide (1 ≤ (rows i).length), rank := rank, rand := some g }
  let st ← bootstrapExhaustive tbl rep c ⟨[], [], seed⟩ a.bootstrapLength
  loop tbl a rep c ord (lengths a) st

end Search
end Peyl
