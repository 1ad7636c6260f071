import Verif.Model.Heap
/-!
# Model of the memory behind `JonesSummand.id`, `JonesSummand.artin_gens_invs`, `symmetric_table` and the evaluators of `peyl/braidsearch.py`

See `Verif/Model/Heap.lean`.  The caches are global and keyed by the representation (a frozen dataclass); the model has the entries of one representation.  The slices
`gens[s]` of the array of the generators are modelled as arrays of their own (they do not overlap).
-/
namespace Peyl
open Polymat
namespace BraidSearch
namespace Mem

/-- All arrays and the caches of peyl/braidsearch.py:90, 95 and 131: addresses of the identity, of the generators and of the images of the permutations. -/
structure World (d : Nat) where
  heap : List (Arr d)
  id : Option Nat
  gens : Option (List Nat)
  table : Option (List (List Nat × Nat))

/-- Nothing has been computed yet. -/
def World.init (d : Nat) : World d := ⟨[], none, none, none⟩

variable {d : Nat} (rep : Summand d)

/-- A new array. -/
def alloc (A : Arr d) : Eff (World d) Nat := fun w => (.ok w.heap.length, { w with heap := w.heap ++ [A] })

/-- The content of an array without batch axis. -/
def readImg (a : Nat) : Eff (World d) (Img d) := fun w =>
  match w.heap[a]? with
  | some (.img A) => (.ok A, w)
  | _ => (.error .type, w)

/-- peyl/braidsearch.py:90-93 `JonesSummand.id`, cached. -/
def idArr : Eff (World d) Nat := fun w =>
  match w.id with
  | some a => (.ok a, w)
  | none => (.ok w.heap.length, { w with heap := w.heap ++ [.img (eye d)], id := some w.heap.length })

/-- peyl/braidsearch.py:95-105 `JonesSummand.artin_gens_invs`, cached, first component. -/
def gensArr : Eff (World d) (List Nat) := fun w =>
  match w.gens with
  | some as => (.ok as, w)
  | none =>
    let as := (List.range rep.gens.length).map fun i => w.heap.length + i
    (.ok as, { w with heap := w.heap ++ rep.gens.map .img, gens := some as })

/-- peyl/polymat.py:177-215 `projectivise` of an array without batch axis: the array itself if there is nothing to cut off. -/
def projInPlace (a : Nat) : Eff (World d) Nat := do
  let A ← readImg a
  let B ← .lift (projectivise A)
  if B.length = A.length then .lift (.ok a) else alloc (.img B)

/-- `projectivise(functools.reduce(rep.mul, [the arrays], start))`: without factors nothing is multiplied and `projectivise` gets the array `start` itself. -/
def reduceArr (start : Nat) (as : List Nat) : Eff (World d) Nat := do
  if as = [] then projInPlace start
  else do
    let ms ← as.mapM readImg
    let S ← readImg start
    let A ← .lift (ms.foldlM rep.mul1 S)
    let B ← .lift (projectivise A)
    alloc (.img B)

/-- peyl/braidsearch.py:136-139: the image of one permutation. -/
def permArr (gens : List Nat) (eye : Nat) (w : List Nat) : Eff (World d) Nat := do
  let word ← .lift (Perms.shortlex w)
  let as ← .lift (word.mapM (lookup gens))
  reduceArr rep eye as

/-- peyl/braidsearch.py:131-145 `symmetric_table`, the body. -/
def tableBody : Eff (World d) (List (List Nat × Nat)) := do
  let gens ← gensArr rep
  let eye ← idArr
  let tab ← (Perms.elements rep.n).mapM fun w => do .lift (.ok (w, ← permArr rep gens eye w))
  let x ← .lift (Dict.get tab (Perms.longestElement rep.n))
  let X ← readImg x
  let sq ← .lift (rep.mul1 X X)
  let E ← readImg eye
  let b ← .lift (eqAll sq E)
  .lift (pyAssert b)
  .lift (.ok tab)

/-- peyl/braidsearch.py:131-145 `symmetric_table`, cached. -/
def tableArr : Eff (World d) (List (List Nat × Nat)) := fun w =>
  match w.table with
  | some tab => (.ok tab, w)
  | none =>
    match tableBody rep w with
    | (.ok tab, w') => (.ok tab, { w' with table := some tab })
    | (.error e, w') => (.error e, w')

variable (tbl : Nat → Except Err (NFTable (List Nat)))

/-- peyl/braidsearch.py:148-158 `evaluate_braid_factors`. -/
def evalFactors (x : NF) : Eff (World d) Nat := do
  let factors ← .lift (NF.canonicalFactors tbl x)
  let _ ← idArr
  let tab ← tableArr rep
  let start ← if x.power % 2 = 0 then idArr else .lift (Dict.get tab (Perms.longestElement rep.n))
  let as ← .lift (factors.mapM (Dict.get tab))
  reduceArr rep start as

/-- `polymat.pack` of the arrays at the given addresses. -/
def packAt (L : Nat) (as : List Nat) : Eff (World d) (PArr (Fin L) d d) := do
  let ms ← as.mapM readImg
  .lift (packL L ms)

/-- peyl/braidsearch.py:176-178 (and 199-201): one more factor for every braid. -/
def evalStep (tab : List (List Nat × Nat)) (L : Nat) (factors : List (List (List Nat))) (images : PArr (Fin L) d d) (l : Nat) : Eff (World d) (PArr (Fin L) d d) := do
  let as ← .lift (factors.mapM fun fs => do Dict.get tab (← lookup fs l))
  let ms ← packAt L as
  .lift (rep.mulL images ms)

/-- peyl/braidsearch.py:199-201: the loop collecting all prefixes. -/
def prefixLoop (tab : List (List Nat × Nat)) (L : Nat) (factors : List (List (List Nat))) : List Nat → PArr (Fin L) d d → Eff (World d) (List (PArr (Fin L) d d))
  | [], A => .lift (.ok [A])
  | l :: ls, A => do
    let A' ← evalStep rep tab L factors A l
    let rest ← prefixLoop tab L factors ls A'
    .lift (.ok (A :: rest))

/-- peyl/braidsearch.py:166-174 and 189-197: the common beginning of both bulk evaluators. -/
def evalStart (xs : List NF) : Eff (World d) (Nat × List (List (List Nat)) × List (List Nat × Nat) × PArr (Fin xs.length) d d) := do
  let x0 ← .lift (lookup xs 0)
  .lift (pyAssert (xs.all fun x => x.canonicalLength == x0.canonicalLength))
  let factors ← .lift (xs.mapM (NF.canonicalFactors tbl))
  let tab ← tableArr rep
  let eye ← idArr
  let anti ← .lift (Dict.get tab (Perms.longestElement rep.n))
  let images ← packAt xs.length (xs.map fun x => if x.power % 2 = 0 then eye else anti)
  .lift (.ok (x0.canonicalLength, factors, tab, images))

/-- peyl/braidsearch.py:161-180 `evaluate_braids_of_same_length`, before the result gets an address. -/
def evalSameContent (xs : List NF) : Eff (World d) (PArr (Fin xs.length) d d) := do
  let s ← evalStart rep tbl xs
  (List.range s.1).foldlM (evalStep rep s.2.2.1 xs.length s.2.1) s.2.2.2

/-- peyl/braidsearch.py:183-203 `evaluate_prefixes_of_same_length`, before the results get addresses. -/
def evalPrefixesContent (xs : List NF) : Eff (World d) (List (PArr (Fin xs.length) d d)) := do
  let s ← evalStart rep tbl xs
  prefixLoop rep s.2.2.1 xs.length s.2.1 (List.range s.1) s.2.2.2

/-- peyl/braidsearch.py:206-224 `evaluate_braids`, before the results get addresses (they are disjoint slices of new arrays). -/
def evaluateBraidsContent (xs : List NF) : Eff (World d) (List (Img d)) := do
  let images ← (groupLoop xs 0 [] []).1.mapM fun li => do
    let ys ← .lift (li.2.mapM (lookup xs))
    let A ← evalSameContent rep tbl ys
    .lift (.ok (li.1, (List.finRange ys.length).map (imgAt A)))
  .lift ((groupLoop xs 0 [] []).2.mapM fun li => do
    let l ← Dict.get images li.1
    lookup l li.2)

/-- The calls that return arrays. -/
inductive Call where
  | evalFactors (x : NF)
  | evalSame (xs : List NF)
  | evalPrefixes (xs : List NF)
  | evaluateBraids (xs : List NF)
  | id
  | gens
  | table

/-- Execution of a call; the addresses of the arrays that it returns (for `symmetric_table` those of the values of the dict). -/
def Call.exec : Call → Eff (World d) (List Nat)
  | .evalFactors x => do .lift (.ok [← Mem.evalFactors rep tbl x])
  | .evalSame xs => do
    let A ← evalSameContent rep tbl xs
    [Arr.batch _ A].mapM alloc
  | .evalPrefixes xs => do
    let As ← evalPrefixesContent rep tbl xs
    (As.map fun A => Arr.batch _ A).mapM alloc
  | .evaluateBraids xs => do
    let As ← evaluateBraidsContent rep tbl xs
    (As.map Arr.img).mapM alloc
  | .id => do .lift (.ok [← idArr])
  | .gens => gensArr rep
  | .table => do
    let tab ← tableArr rep
    .lift (.ok (tab.map Prod.snd))

/-- What a program does: a call, or a write into the array number `i` that the call number `j` (both counted from 0) has returned; `A` is the content after the write. -/
inductive Event (d : Nat) where
  | call (c : Call)
  | write (j i : Nat) (A : Arr d)

/-- A program run so far: the memory, the arrays that each call has returned (none if it raised), and what the calls returned, as the caller found it. -/
structure Session (d : Nat) where
  world : World d
  given : List (List Nat)
  seen : List (Except Err (List (Arr d)))

/-- A write: it has an effect if there is such an array. -/
def Session.write (s : Session d) (j i : Nat) (A : Arr d) : Session d :=
  match s.given[j]? with
  | none => s
  | some as =>
    match as[i]? with
    | none => s
    | some a => { s with world := { s.world with heap := s.world.heap.set a A } }

/-- One event. -/
def Session.step (s : Session d) : Event d → Session d
  | .write j i A => s.write j i A
  | .call c =>
    match c.exec rep tbl s.world with
    | (.ok as, w) => ⟨w, s.given ++ [as], s.seen ++ [.ok (as.filterMap fun a => w.heap[a]?)]⟩
    | (.error e, w) => ⟨w, s.given ++ [[]], s.seen ++ [.error e]⟩

/-- The whole program. -/
def Session.run (es : List (Event d)) : Session d := es.foldl (Session.step rep tbl) ⟨World.init d, [], []⟩

end Mem
end BraidSearch
end Peyl
