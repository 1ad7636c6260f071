import Verif.Model.RepBase
import Verif.Model.BraidSearch
/-!
# Model of the memory behind the cached functions of `peyl/jonesrep.py` and `peyl/braidsearch.py`

`functools.cache` hands out the same numpy array again and again, and a numpy array is mutable.  The other modules of the model treat arrays as values; here an array is an
address in a heap, the caches hold addresses, and a caller can write into any array that it has been given.  A view of the whole or of a part of an array that nobody else reads
is modelled as an array of its own.  Intermediate arrays that are not handed out and not cached do not get an address.
-/
namespace Peyl
open Polymat

/-- A Python computation that changes a state of type `W` and returns or raises.  What it did before an exception is not undone. -/
def Eff (W α : Type) : Type := W → Except Err α × W

instance {W : Type} : Monad (Eff W) where
  pure a := fun w => (.ok a, w)
  bind m k := fun w => match m w with
    | (.ok a, w') => k a w'
    | (.error e, w') => (.error e, w')

/-- A computation that does not touch the state. -/
def Eff.lift {W α : Type} (x : Except Err α) : Eff W α := fun w => (x, w)

/-- The content of a numpy array: one polymat, or a tensor with one batch axis. -/
inductive Arr (d : Nat) where
  | img (A : Img d)
  | batch (L : Nat) (A : PArr (Fin L) d d)

/-! ### `RepBase` of `peyl/jonesrep.py` -/

namespace RepBase
namespace Mem

/-- The classes of normal forms (part of the cache keys). -/
inductive Cls where
  | gnf
  | dgnf
  deriving DecidableEq

/-- The memory: all arrays (an address is a position in `heap`) and the caches set up in peyl/jonesrep.py:63-66 `RepBase.__init__`. -/
structure World (d : Nat) where
  heap : List (Arr d)
  factor : List ((Cls × Nat) × Nat)
  delta : List ((Cls × Nat) × Nat)
  gens : Option (Nat × Nat)

/-- A newly constructed representation. -/
def World.init (d : Nat) : World d := ⟨[], [], [], none⟩

variable {d : Nat} {T : Cls → Type} (rep : RepBase d) (tbl : (c : Cls) → Nat → Except Err (NFTable (T c)))

/-- A new array. -/
def alloc (A : Arr d) : Eff (World d) Nat := fun w => (.ok w.heap.length, { w with heap := w.heap ++ [A] })

/-- The content of an array without batch axis. -/
def readImg (a : Nat) : Eff (World d) (Img d) := fun w =>
  match w.heap[a]? with
  | some (.img A) => (.ok A, w)
  | _ => (.error .type, w)

/-- The content of an array with a batch axis of length `L`. -/
def readBatch (L a : Nat) : Eff (World d) (PArr (Fin L) d d) := fun w =>
  match w.heap[a]? with
  | some (.batch L' A) => if h : L = L' then (.ok (A.map fun S i => S (Fin.cast h i)), w) else (.error .index, w)
  | _ => (.error .type, w)

/-- peyl/jonesrep.py:64 and 127-130 `_polymat_braid_factor`, cached. -/
def braidFactor (c : Cls) (k : Nat) : Eff (World d) Nat := fun w =>
  match Dict.get? w.factor (c, k) with
  | some a => (.ok a, w)
  | none =>
    match rep.factorImage (tbl c) k with
    | .ok A => (.ok w.heap.length, { w with heap := w.heap ++ [.img A], factor := Dict.set w.factor (c, k) w.heap.length })
    | .error e => (.error e, w)

/-- peyl/jonesrep.py:65 and 132-140 `_polymat_delta_power`, cached. -/
def deltaPower (c : Cls) (k : Nat) : Eff (World d) Nat := fun w =>
  match Dict.get? w.delta (c, k) with
  | some a => (.ok a, w)
  | none =>
    match rep.deltaImage (tbl c) k with
    | .ok A => (.ok w.heap.length, { w with heap := w.heap ++ [.img A], delta := Dict.set w.delta (c, k) w.heap.length })
    | .error e => (.error e, w)

/-- peyl/jonesrep.py:66 and 112-125 `polymat_artin_gens_invs`, cached: the tuple of the two arrays. -/
def artinGensInvs : Eff (World d) (Nat × Nat) := fun w =>
  match w.gens with
  | some ab => (.ok ab, w)
  | none =>
    match rep.polymatGens rep.gens with
    | .error e => (.error e, w)
    | .ok A =>
      match rep.polymatGens rep.invs with
      | .error e => (.error e, w)
      | .ok B => (.ok (w.heap.length, w.heap.length + 1), { w with heap := w.heap ++ [.batch _ A, .batch _ B], gens := some (w.heap.length, w.heap.length + 1) })

/-- `polymat.pack` of the arrays at the given addresses (peyl/polymat.py:77-100 copies them into a new one). -/
def packAt (L : Nat) (as : List Nat) : Eff (World d) (PArr (Fin L) d d) := do
  let ms ← as.mapM readImg
  .lift (packN L ms)

/-- peyl/jonesrep.py:179-181 (and 209-210), one more factor for every braid. -/
def evalStep (c : Cls) (L : Nat) (factors : List (List Nat)) (result : PArr (Fin L) d d) (i : Nat) : Eff (World d) (PArr (Fin L) d d) := do
  let as ← factors.mapM fun fs => do braidFactor rep tbl c (← .lift (lookup fs i))
  let images ← packAt L as
  .lift (rep.polymatMulL result images)

/-- peyl/jonesrep.py:166-183 `polymat_evaluate_braids_of_same_length`, before the result gets an address. -/
def evalSameContent (c : Cls) (xs : List NF) : Eff (World d) (PArr (Fin xs.length) d d) := do
  let x0 ← .lift (lookup xs 0)
  .lift (pyAssert (xs.all fun x => x.canonicalLength == x0.canonicalLength))
  let t ← .lift (tbl c rep.n)
  let as ← xs.mapM fun x => do deltaPower rep tbl c (← .lift (NF.tauIndex x.power t.tauOrder))
  let result ← packAt xs.length as
  (List.range x0.canonicalLength).foldlM (evalStep rep tbl c xs.length (xs.map NF.factors)) result

/-- peyl/jonesrep.py:166-183 `polymat_evaluate_braids_of_same_length`. -/
def evalSame (c : Cls) (xs : List NF) : Eff (World d) Nat := do
  let A ← evalSameContent rep tbl c xs
  alloc (.batch _ A)

/-- peyl/jonesrep.py:161-163 `polymat_evaluate_braid`: the slice 0 of the array that was just made. -/
def evalOne (c : Cls) (x : NF) : Eff (World d) Nat := do
  let A ← evalSameContent rep tbl c [x]
  alloc (.img (imgAt A ⟨0, by simp⟩))

/-- peyl/jonesrep.py:185-212 `polymat_evaluate_braid_integers_of_same_length`. -/
def evalIntegers (c : Cls) (seqs : List (List Nat)) : Eff (World d) Nat := do
  let s0 ← .lift (lookup seqs 0)
  .lift (pyAssert (seqs.all fun s => s.length == s0.length))
  let t ← .lift (tbl c rep.n)
  .lift (pyAssert (seqs.all fun s => s.all fun x => decide (x < t.order)))
  let a ← braidFactor rep tbl c t.id
  let start ← packAt 1 [a]
  if s0.length = 0 then alloc (.batch _ start)
  else do
    let A ← (List.range s0.length).foldlM (evalStep rep tbl c seqs.length seqs) (start.map fun S _ => S 0)
    alloc (.batch _ A)

/-- peyl/jonesrep.py:142-152 `polymat_evaluate_artin_word`: the product starts with a new identity matrix; `product %= self.p` writes into the array that `polymat.mul`
has just made. -/
def evalWord (word : List (Nat × Int)) : Eff (World d) Nat := do
  let ab ← artinGensInvs rep
  let gens ← readBatch rep.gens.length ab.1
  let invs ← readBatch rep.invs.length ab.2
  let A ← .lift (word.foldlM (init := eye d) fun A ie => do
    if ie.2 ≥ 0 then
      if h : ie.1 < rep.gens.length then rep.mulTimes (imgAt gens ⟨ie.1, h⟩) ie.2.natAbs A else .error .index
    else
      if h : ie.1 < rep.invs.length then rep.mulTimes (imgAt invs ⟨ie.1, h⟩) ie.2.natAbs A else .error .index)
  let B ← .lift (projectivise A)
  alloc (.img B)

/-- The calls of a representation that return arrays. -/
inductive Call where
  | evalSame (c : Cls) (xs : List NF)
  | evalOne (c : Cls) (x : NF)
  | evalIntegers (c : Cls) (seqs : List (List Nat))
  | evalWord (word : List (Nat × Int))
  | gensInvs
  | id

/-- Execution of a call; the addresses of the arrays that it returns. -/
def Call.exec : Call → Eff (World d) (List Nat)
  | .evalSame c xs => do .lift (.ok [← Mem.evalSame rep tbl c xs])
  | .evalOne c x => do .lift (.ok [← Mem.evalOne rep tbl c x])
  | .evalIntegers c seqs => do .lift (.ok [← Mem.evalIntegers rep tbl c seqs])
  | .evalWord word => do .lift (.ok [← Mem.evalWord rep word])
  | .gensInvs => do
    let ab ← artinGensInvs rep
    .lift (.ok [ab.1, ab.2])
  | .id => do .lift (.ok [← alloc (.img (eye d))])

/-- What a program does with a representation: a call, or a write into the array number `i` that the call number `j` (both counted from 0) has returned: `A` is the content
after the write. -/
inductive Event (d : Nat) where
  | call (c : Call)
  | write (j i : Nat) (A : Arr d)

/-- A program run so far: the memory, the arrays that each call has returned (none if it raised), and what the calls returned, as the caller found it. -/
structure Session (d : Nat) where
  world : World d
  given : List (List Nat)
  seen : List (Except Err (List (Arr d)))

/-- A write: it has an effect if there is such an array. -/
def Session.write (s : Session d) (j i : Nat) (A : Arr d) : Session d :=
  match s.given[j]? with
  | none => s
  | some as =>
    match as[i]? with
    | none => s
    | some a => { s with world := { s.world with heap := s.world.heap.set a A } }

/-- One event. -/
def Session.step (s : Session d) : Event d → Session d
  | .write j i A => s.write j i A
  | .call c =>
    match c.exec rep tbl s.world with
    | (.ok as, w) => ⟨w, s.given ++ [as], s.seen ++ [.ok (as.filterMap fun a => w.heap[a]?)]⟩
    | (.error e, w) => ⟨w, s.given ++ [[]], s.seen ++ [.error e]⟩

/-- The whole program, on a newly constructed representation. -/
def Session.run (es : List (Event d)) : Session d := es.foldl (Session.step rep tbl) ⟨World.init d, [], []⟩

end Mem
end RepBase
end Peyl
