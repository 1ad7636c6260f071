import Verif.Model.Braid
import Verif.Model.Bucketing
/-!
# Comparing, sorting and hashing braids

`GNF` and `DGNF` are dataclasses with `frozen=True, order=True`, so Python generates `__eq__`, `__hash__`, `__lt__`, `__le__`,
`__gt__` and `__ge__` from the tuple `(n, power, factors)`.
-/
namespace Peyl

/-- An object of one of the two classes of braids, peyl/braid.py:521-522 and 606-607 (`GNF`, `DGNF`). -/
inductive AnyBraid where
  | gnf (x : NF)
  | dgnf (x : NF)
deriving DecidableEq, Repr

namespace AnyBraid

/-- peyl/braid.py:521, 606: the comparison of two tuples of integers finds the first place where they differ; if there is none, the
shorter tuple is smaller. -/
def cmpInts : List Nat → List Nat → Ordering
  | [], [] => .eq
  | [], _ :: _ => .lt
  | _ :: _, [] => .gt
  | a :: l, b :: l' => if a = b then cmpInts l l' else if a < b then .lt else .gt

/-- peyl/braid.py:521, 606: the comparison of the tuples `(n, power, factors)`. -/
def cmpFields (x y : NF) : Ordering :=
  if x.n = y.n then
    if x.power = y.power then cmpInts x.factors y.factors
    else if x.power < y.power then .lt else .gt
  else if x.n < y.n then .lt else .gt

/-- peyl/braid.py:521, 606: the comparisons generated by `order=True`.  For an object of another class they return
`NotImplemented`, in both directions, so the operator raises TypeError. -/
def cmp : AnyBraid → AnyBraid → Except Err Ordering
  | gnf x, gnf y => .ok (cmpFields x y)
  | dgnf x, dgnf y => .ok (cmpFields x y)
  | gnf _, dgnf _ => .error .type
  | dgnf _, gnf _ => .error .type

/-- peyl/braid.py:521, 606: `__lt__`. -/
def lt (x y : AnyBraid) : Except Err Bool := do return (← cmp x y) == .lt

/-- peyl/braid.py:521, 606: `__le__`. -/
def le (x y : AnyBraid) : Except Err Bool := do return (← cmp x y) != .gt

/-- peyl/braid.py:521, 606: `__gt__`. -/
def gt (x y : AnyBraid) : Except Err Bool := do return (← cmp x y) == .gt

/-- peyl/braid.py:521, 606: `__ge__`. -/
def ge (x y : AnyBraid) : Except Err Bool := do return (← cmp x y) != .lt

/-- peyl/braid.py:521, 606: the generated `__eq__` compares the tuples of objects of the same class; for an object of another class
it returns `NotImplemented` in both directions, and `==` falls back to identity of objects, which is False. -/
def eq : AnyBraid → AnyBraid → Bool
  | gnf x, gnf y => x.n = y.n && x.power = y.power && x.factors = y.factors
  | dgnf x, dgnf y => x.n = y.n && x.power = y.power && x.factors = y.factors
  | _, _ => false

/-- One step of `sorted`: put `x` behind all objects which are not greater. -/
def insertSorted (x : AnyBraid) : List AnyBraid → Except Err (List AnyBraid)
  | [] => .ok [x]
  | y :: ys => do
    if ← lt x y then return x :: y :: ys
    else return y :: (← insertSorted x ys)

/-- `sorted(braids)` for the classes of peyl/braid.py:521, 606.  Python's sorting algorithm calls `__lt__` only and is stable; it is
modelled by the stable insertion sort.  (For a total order every sorting algorithm returns the same list.) -/
def sorted (l : List AnyBraid) : Except Err (List AnyBraid) := l.foldlM (fun acc x => insertSorted x acc) []

/-- A change of a dictionary whose keys are braids: `d[k] = v` or `d.pop(k, None)`. -/
inductive DictOp (υ : Type) where
  | set (k : AnyBraid) (v : υ)
  | pop (k : AnyBraid)

/-- The keys of a dictionary are compared by `__eq__` (peyl/braid.py:521, 606) if their hashes agree; the generated `__hash__` is a
function of the tuple of fields, so equal objects have the same hash, and the dictionary is the association list of
`Model/Bucketing.lean` with `eq` for the keys. -/
def getKey {υ : Type} (d : List (AnyBraid × υ)) (k : AnyBraid) : Option υ := (d.find? fun kv => eq kv.1 k).map Prod.snd

/-- `d[k] = v` with keys as above (peyl/braid.py:521, 606): an existing key keeps its place. -/
def setKey {υ : Type} (d : List (AnyBraid × υ)) (k : AnyBraid) (v : υ) : List (AnyBraid × υ) :=
  if d.any fun kv => eq kv.1 k then d.map fun kv => if eq kv.1 k then (kv.1, v) else kv else d ++ [(k, v)]

/-- `d.pop(k, None)` with keys as above (peyl/braid.py:521, 606). -/
def popKey {υ : Type} (d : List (AnyBraid × υ)) (k : AnyBraid) : List (AnyBraid × υ) := d.filter fun kv => !eq kv.1 k

/-- One change of a dictionary whose keys are braids (peyl/braid.py:521, 606). -/
def applyOp {υ : Type} (d : List (AnyBraid × υ)) : DictOp υ → List (AnyBraid × υ)
  | .set k v => setKey d k v
  | .pop k => popKey d k

/-- A history of a dictionary whose keys are braids (peyl/braid.py:521, 606). -/
def runDict {υ : Type} (ops : List (DictOp υ)) : List (AnyBraid × υ) := ops.foldl applyOp []

/-- `set(braids)` (peyl/braid.py:521, 606), up to the order of traversal: a dictionary without values. -/
def pySet (l : List AnyBraid) : List AnyBraid := (runDict (l.map fun x => .set x ())).map Prod.fst

end AnyBraid
end Peyl
