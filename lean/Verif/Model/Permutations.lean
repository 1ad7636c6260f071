import Verif.Model.Poly
import Mathlib.Data.List.Sort
/-!
# Model of `peyl/permutations.py`

A permutation in word notation is a `List Nat` (only `isPermutation`, which is a validator, takes arbitrary integers).
Python sets of generator indices are modelled as lists without repetition; nothing below depends on their order, except
through an explicitly arbitrary `pick` where the code calls `set.pop`.
`w.getD i 0` models `w[i]`; for words that are permutations (the only ones the theorems speak about) the index is always
in range.
-/
namespace Peyl

/-- `l[i]` on a Python sequence with a non-negative index: raises IndexError when out of range. -/
def lookup {α : Type} (l : List α) (i : Nat) : Except Err α :=
  match l[i]? with
  | some a => .ok a
  | none => .error .index

/-- `assert b`. -/
def pyAssert (b : Bool) : Except Err Unit := if b then .ok () else .error .assertion

namespace Perms

/-- peyl/permutations.py:25-46 `is_permutation`.  `min`/`max` of the (non-empty) word; the bit mask is a Python int;
`1 << x` is only evaluated for `x ≥ 0` because negative minima were rejected before. -/
def isPermutation (word : List Int) : Bool :=
  match word with
  | [] => true
  | x :: xs =>
    if xs.foldl min x ≠ 0 ∨ xs.foldl max x ≠ (word.length : Int) - 1 then false
    else (word.foldl (fun mask y => mask ||| (1 <<< y.toNat)) 0 : Nat) == 2 ^ word.length - 1

/-- peyl/permutations.py:48-55 `identity`, also peyl/permutations.py:345-347 `SymmetricGroup.id`. -/
def identity (n : Nat) : List Nat := List.range n

/-- peyl/permutations.py:58-59 `is_identity`. -/
def isIdentity (w : List Nat) : Bool := (List.range w.length).all fun i => w.getD i 0 == i

/-- The simultaneous assignment `l[i], l[j] = l[j], l[i]`. -/
def swap (l : List Nat) (i j : Nat) : List Nat := (l.set i (l.getD j 0)).set j (l.getD i 0)

/-- peyl/permutations.py:62-71 `transposition`. -/
def transposition (n i j : Nat) : Except Err (List Nat) :=
  if i < n ∧ j < n then .ok (swap (List.range n) i j) else .error .assertion

/-- peyl/permutations.py:74-81 `longest_element`, also peyl/permutations.py:349-351 `SymmetricGroup.longest_element`. -/
def longestElement (n : Nat) : List Nat := (List.range n).map fun i => n - i - 1

/-- peyl/permutations.py:84-85 `is_longest_element`. -/
def isLongestElement (w : List Nat) : Bool := (List.range w.length).all fun i => w.getD i 0 == w.length - i - 1

/-- peyl/permutations.py:108-113, the inner `while True` of `disjoint_cycles`: returns the cycle and the updated
`visited` list. -/
def cycleLoop (perm : List Nat) (i : Nat) : Nat → Nat → List Nat → List Bool → Except Err (List Nat × List Bool)
  | 0, _, _, _ => .error .fuel
  | fuel + 1, pos, cycle, visited =>
    let cycle := cycle ++ [pos]
    let visited := visited.set pos true
    let pos := perm.getD pos 0
    if pos = i then .ok (cycle, visited) else cycleLoop perm i fuel pos cycle visited

/-- peyl/permutations.py:88-116 `disjoint_cycles`, also peyl/permutations.py:399-400 `Permutation.disjoint_cycles`. -/
def disjointCycles (perm : List Nat) : Except Err (List (List Nat)) := do
  let r ← (List.range perm.length).foldlM (init := (([] : List (List Nat)), List.replicate perm.length false))
    fun st i => do
      if st.2.getD i false then .ok st
      else
        let c ← cycleLoop perm i perm.length i [] st.2
        .ok (st.1 ++ [c.1], c.2)
  .ok r.1

/-- peyl/permutations.py:140-145, the inner `while True` of `cycle_type`. -/
def cycleLenLoop (perm : List Nat) (i : Nat) : Nat → Nat → Nat → List Bool → Except Err (Nat × List Bool)
  | 0, _, _, _ => .error .fuel
  | fuel + 1, pos, length, visited =>
    let length := length + 1
    let visited := visited.set pos true
    let pos := perm.getD pos 0
    if pos = i then .ok (length, visited) else cycleLenLoop perm i fuel pos length visited

/-- peyl/permutations.py:120-149 `cycle_type`, also peyl/permutations.py:402-403 `Permutation.cycle_type` (`sorted(lengths, reverse=True)`; on integers any
sorting algorithm gives the same list). -/
def cycleType (perm : List Nat) : Except Err (List Nat) := do
  let r ← (List.range perm.length).foldlM (init := (([] : List Nat), List.replicate perm.length false))
    fun st i => do
      if st.2.getD i false then .ok st
      else
        let c ← cycleLenLoop perm i perm.length i 0 st.2
        .ok (st.1 ++ [c.1], c.2)
  .ok (r.1.insertionSort (· ≥ ·))

/-- peyl/permutations.py:153-169 `parity`. -/
def parity (perm : List Nat) : Except Err Nat := do
  let t ← cycleType perm
  .ok ((t.length + perm.length) % 2)

/-- peyl/permutations.py:172-185 `length`, also peyl/permutations.py:396-397 `Permutation.length`: the number of inversions: `sum(1 for i.. for j in range(i+1, n) if ..)`. -/
def length (perm : List Nat) : Nat :=
  (((List.range perm.length).flatMap fun i => (List.range' (i + 1) (perm.length - (i + 1))).map fun j => (i, j)).filter
    fun p => perm.getD p.1 0 > perm.getD p.2 0).length

/-- peyl/permutations.py:188-201 `inverse`, also peyl/permutations.py:423-424 `Permutation.inv`. -/
def inverse (perm : List Nat) : List Nat :=
  perm.zipIdx.foldl (fun inv p => inv.set p.1 p.2) (List.replicate perm.length 0)

/-- peyl/permutations.py:205-212 `compose`, also peyl/permutations.py:426-433 `Permutation.__mul__`. -/
def compose (x y : List Nat) : Except Err (List Nat) :=
  if x.length ≠ y.length then .error .value else .ok (y.map fun j => x.getD j 0)

/-- peyl/permutations.py:215-228 `right_descent_set`, also peyl/permutations.py:414-415 `Permutation.right_descent_set`. -/
def rightDescentSet (perm : List Nat) : List Nat :=
  (List.range (perm.length - 1)).filter fun i => perm.getD i 0 > perm.getD (i + 1) 0

/-- peyl/permutations.py:231-233 `is_right_descent`, also peyl/permutations.py:411-412 `Permutation.is_right_descent`. -/
def isRightDescent (perm : List Nat) (i : Int) : Except Err Bool :=
  if 0 ≤ i ∧ i < (perm.length : Int) - 1 then .ok (perm.getD i.toNat 0 > perm.getD (i.toNat + 1) 0) else .error .assertion

/-- peyl/permutations.py:236-239 `left_descent_set`, also peyl/permutations.py:420-421 `Permutation.left_descent_set`. -/
def leftDescentSet (perm : List Nat) : List Nat := rightDescentSet (inverse perm)

/-- peyl/permutations.py:242-244 `is_left_descent`, also peyl/permutations.py:417-418 `Permutation.is_left_descent` (`perm.index(k)` is the first position of `k`). -/
def isLeftDescent (perm : List Nat) (i : Int) : Except Err Bool :=
  if 0 ≤ i ∧ i < (perm.length : Int) - 1 then .ok (perm.idxOf i.toNat > perm.idxOf (i.toNat + 1)) else .error .assertion

/-- peyl/permutations.py:268-274, the `while` loop of `shortlex`. -/
def shortlexLoop : Nat → List Nat → Nat → List Nat → Except Err (List Nat × List Nat)
  | 0, _, _, _ => .error .fuel
  | fuel + 1, inv, i, word =>
    if i + 1 < inv.length then
      if inv.getD i 0 > inv.getD (i + 1) 0 then shortlexLoop fuel (swap inv i (i + 1)) (i - 1) (word ++ [i])
      else shortlexLoop fuel inv (i + 1) word
    else .ok (inv, word)

/-- peyl/permutations.py:247-280 `shortlex`, including its assertion. -/
def shortlex (perm : List Nat) : Except Err (List Nat) := do
  let (inv, word) ← shortlexLoop (2 * length perm + perm.length + 1) (inverse perm) 0 []
  pyAssert (isIdentity inv)
  .ok word

/-- peyl/permutations.py:283-290 `from_cox`. -/
def fromCox (n : Nat) (seq : List Nat) : Except Err (List Nat) :=
  if seq.all fun s => s + 1 < n then .ok (seq.foldl (fun w s => swap w s (s + 1)) (List.range n)) else .error .assertion

/-- peyl/permutations.py:293-306 `is_descending_cycles`. -/
def isDescendingCycles (perm : List Nat) : Except Err Bool := do
  let cs ← disjointCycles perm
  .ok (cs.all fun c => (List.zip (c.drop 1) (c.drop 2)).all fun p => p.1 ≥ p.2)

/-- peyl/permutations.py:330-335, the body of the double loop of `is_parallel_descending_cycles` for one sorted cycle:
`none` means the function has returned False. -/
def markCycle (cycle : List Nat) (marked : List Bool) : Option (List Bool) :=
  (List.range (cycle.length - 1)).foldlM (init := marked) fun marked i =>
    let a := cycle.getD i 0
    let b := cycle.getD (i + 1) 0
    if (List.range' (a + 1) (b - (a + 1))).any fun j => marked.getD j false then none
    else some ((marked.set a true).set b true)

/-- peyl/permutations.py:309-335 `is_parallel_descending_cycles`. -/
def isParallelDescendingCycles (perm : List Nat) : Except Err Bool := do
  if !(← isDescendingCycles perm) then .ok false
  else
    let cs ← disjointCycles perm
    .ok ((cs.foldlM (init := List.replicate perm.length false) fun marked c =>
      markCycle (c.insertionSort (· ≤ ·)) marked).isSome)

/-- peyl/permutations.py:353-355 `SymmetricGroup.cox_gens`. -/
def coxGens (n : Nat) : Except Err (List (List Nat)) :=
  (List.range (n - 1)).mapM fun i => transposition n i (i + 1)

/-- peyl/permutations.py:357-359 `SymmetricGroup.reflections`. -/
def reflections (n : Nat) : Except Err (List (List Nat)) :=
  ((List.range (n - 1)).flatMap fun i => (List.range' (i + 1) (n - (i + 1))).map fun j => (i, j)).mapM
    fun p => transposition n p.1 p.2

/-- peyl/permutations.py:365-373 `SymmetricGroup.from_cycle`; note `% self.n` on line 373, which indexes past the end of
cycles shorter than `n`.  `max` of an empty Counter raises ValueError. -/
def fromCycle (n : Nat) (cycle : List Nat) : Except Err (List Nat) :=
  if ¬ (cycle.all fun x => x < n) then .error .assertion
  else if cycle = [] then .error .value
  else if ¬ cycle.Nodup then .error .assertion
  else
    (List.range cycle.length).foldlM (init := List.range n) fun word i => do
      let src ← lookup cycle i
      let dst ← lookup cycle ((i + 1) % n)
      .ok (word.set src dst)

/-- peyl/permutations.py:376-378 `SymmetricGroup.from_cycles`.  The initial value of the `reduce` is the *method*
`self.id`, not the identity: with no cycles the method object is returned (`none` here), otherwise the first cycle is
built (and may raise) and then `method * Permutation` raises TypeError. -/
def fromCycles (n : Nat) (cycles : List (List Nat)) : Except Err (Option (List Nat)) :=
  match cycles with
  | [] => .ok none
  | c :: _ => do
    let _ ← fromCycle n c
    .error .type

/-- `itertools.permutations(l)` with the documented order (lexicographic in positions); `k` is the length of `l`. -/
def permsOf : Nat → List Nat → List (List Nat)
  | 0, _ => [[]]
  | k + 1, l => (List.range l.length).flatMap fun i => (permsOf k (l.eraseIdx i)).map fun rest => l.getD i 0 :: rest

/-- peyl/permutations.py:381-383 `SymmetricGroup.elements`. -/
def elements (n : Nat) : List (List Nat) := permsOf n (List.range n)

end Perms
end Peyl
