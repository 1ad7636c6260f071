import Verif.Model.Matrix
import Verif.Model.Permutations
import Mathlib.Data.Fintype.Sum
import Mathlib.Data.Fintype.Sigma
import Mathlib.Data.Fintype.BigOperators
/-!
# Model of `peyl/polymat.py`

A numpy tensor of shape `(α, I, J, D)` is, as the module's header says, the list `[M_0, ..., M_{D-1}]` of its degree slices.
The batch shape `α` is an arbitrary finite index type: `Unit` for no batch axis, `Fin L` for one axis, a product for more.
Entries are exact integers (numpy's fixed width integers are treated in `Verif/Model/FixedWidth.lean`).  numpy's broadcasting
of two batch shapes is a pair of index maps out of the broadcast shape.
-/
namespace Peyl

/-- One degree slice `A[..., d]`: a matrix for every batch index. -/
abbrev Slice (α : Type) (I J : Nat) := α → Fin I → Fin J → ℤ

/-- A tensor of shape `(α, I, J, D)`, `D` being the length of the list. -/
abbrev PArr (α : Type) (I J : Nat) := List (Slice α I J)

namespace Polymat
variable {α β γ : Type} [Fintype α] {I J K : Nat}

/-- `A[..., d]`, zero beyond the width. -/
def slice (A : PArr α I J) (d : Nat) : Slice α I J := A.getD d 0

/-- `np.any(S, axis=(-2, -1))` at one batch index. -/
def nzAt (S : Slice α I J) (a : α) : Bool := decide (∃ i j, S a i j ≠ 0)

/-- `np.any(S)` over the whole slice. -/
def anyNZ (S : Slice α I J) : Bool := decide (∃ a i j, S a i j ≠ 0)

/-- peyl/polymat.py:19-23 `eye`. -/
def eye (n : Nat) : PArr Unit n n := [fun _ i j => if i = j then 1 else 0]

/-- peyl/polymat.py:31-33, the loop of `trim`. -/
def trimLast (A : PArr α I J) : Nat → Nat
  | 0 => 0
  | k + 1 => if anyNZ (slice A k) then k + 1 else trimLast A k

/-- peyl/polymat.py:26-35 `trim`. -/
def trim (A : PArr α I J) : PArr α I J := A.take (trimLast A A.length)

/-- peyl/polymat.py:45-47, the loop of `trim_left`. -/
def leadZeros (A : PArr α I J) : Nat := (A.takeWhile fun S => !anyNZ S).length

/-- peyl/polymat.py:38-49 `trim_left`. -/
def trimLeft (A : PArr α I J) : Nat × PArr α I J := (leadZeros A, A.drop (leadZeros A))

/-- peyl/polymat.py:75-76: slice `d` of the product, `sum(A[..., i] @ B[..., d - i] for i in range(d + 1) if i < D and d - i < E)`
at the broadcast batch index `g`. -/
def mulSlice (pa : γ → α) (pb : γ → β) (A : PArr α I J) (B : PArr β J K) (d : Nat) : Slice γ I K := fun g i k =>
  (((List.range (d + 1)).filter fun t => decide (t < A.length ∧ d - t < B.length)).map fun t =>
    ∑ j, slice A t (pa g) i j * slice B (d - t) (pb g) j k).sum

/-- peyl/polymat.py:52-78 `mul`, for compatible inner dimensions.  A negative width makes `np.zeros` raise ValueError. -/
def mul (pa : γ → α) (pb : γ → β) (A : PArr α I J) (B : PArr β J K) (quotdeg : Option Int) : Except Err (PArr γ I K) :=
  match quotdeg with
  | some q => if q < 0 then .error .assertion else .ok ((List.range q.toNat).map (mulSlice pa pb A B))
  | none =>
    if A.length + B.length = 0 then .error .value
    else .ok ((List.range (A.length + B.length - 1)).map (mulSlice pa pb A B))

/-- peyl/polymat.py:63-66: the same with inner dimensions not known to agree; the assertion compares them. -/
def mulChecked {J' : Nat} (pa : γ → α) (pb : γ → β) (A : PArr α I J) (B : PArr β J' K) (quotdeg : Option Int) :
    Except Err (PArr γ I K) :=
  if h : J' = J then mul pa pb A (h ▸ B) quotdeg else .error .assertion

/-- peyl/polymat.py:80-101 `pack` of matrices of one shape `(I, J)` (other inputs fail its assertions): trim all, then copy into zeros. -/
def pack (As : List (PArr Unit I J)) : Except Err (PArr (Fin As.length) I J) :=
  if As.length = 0 then .error .assertion
  else
    let Ts := As.map trim
    let D := (Ts.map List.length).foldl max 0
    .ok ((List.range D).map fun d l => if d < (Ts.getD l []).length then slice (Ts.getD l []) d () else 0)

/-- peyl/polymat.py:104-109 `zeropad`. -/
def zeropad (A : PArr α I J) (D : Nat) : Except Err (PArr α I J) :=
  if A.length ≤ D then .ok ((List.range D).map fun d => if d < A.length then slice A d else 0) else .error .assertion

/-- peyl/polymat.py:112-126 `concatenate`: the batch index of the result is (which array, which entry), in lexicographic
order.  For the empty list the code returns a tensor with `I = J = 1`; here `I` and `J` are whatever the type says. -/
def concatenate (As : List (Σ L : Nat, PArr (Fin L) I J)) : Except Err (PArr (Σ k : Fin As.length, Fin (As.get k).1) I J) :=
  if As.length = 0 then .ok [0]
  else
    let D := (As.map fun A => (trim A.2).length).foldl max 0
    .ok ((List.range D).map fun d kl =>
      if d < (trim (As.get kl.1).2).length then slice (trim (As.get kl.1).2) d kl.2 else 0)

/-- peyl/polymat.py:129-145 `burau_generator_v2`: the entries as coefficient triples. -/
def burauGenerator (n s : Nat) : Except Err (PArr Unit (n - 1) (n - 1)) :=
  if ¬ 1 ≤ n then .error .assertion
  else if ¬ s < n - 1 then .error .assertion
  else
    let entry (i j : Nat) : List Int :=
      if i = s ∧ (j = s + 1 ∨ j + 1 = s) then [0, -1, 0]
      else if i = s ∧ s = j then [0, 0, -1]
      else if i = j then [1, 0, 0]
      else [0, 0, 0]
    .ok ((List.range 3).map fun d _ i j => (entry i j).getD d 0)

/-- peyl/polymat.py:148-155 `to_matrix`. -/
def toMatrix (A : PArr Unit I J) : Except Err Matrix :=
  Matrix.fromRows ((List.range I).map fun i => (List.range J).map fun j =>
    .lp (LPoly.make 0 (A.map fun S => if h : i < I ∧ j < J then S () ⟨i, h.1⟩ ⟨j, h.2⟩ else 0)))

/-- `isinstance(x, int)` and `isinstance(x, LPoly)`. -/
def isInt : Entry → Bool
  | .int _ => true
  | .lp _ => false
def isLPoly : Entry → Bool
  | .int _ => false
  | .lp _ => true

/-- The `LPoly`s among the entries of a matrix. -/
def lpolys (m : Matrix) : List LPoly := m.data.filterMap fun | .lp p => some p | .int _ => none

/-- `min(...)` / `max(...)` of a non-empty sequence. -/
def listMin (l : List Int) : Int := l.tail.foldl min (l.headD 0)
def listMax (l : List Int) : Int := l.tail.foldl max (l.headD 0)

/-- Coefficient `d` of the row assignment `A[i, j, x.val:x.val+len(x.coeffs)] = x.coeffs` into zeros. -/
def entryCoeff (x : Entry) (d : Nat) : Int :=
  match x with
  | .int _ => 0
  | .lp p => if p.val ≤ d then p.coeffs.getD (d - p.val).toNat 0 else 0

/-- peyl/polymat.py:173-187: build the tensor once no exponent is negative. -/
def fillMatrix (r c : Nat) (m : Matrix) : Except Err (PArr Unit r c) :=
  let ls := (lpolys m).filter fun p => !p.isZero
  let minval := listMin (ls.map LPoly.valuation)
  let maxdeg := listMax (ls.map LPoly.degree)
  if minval < 0 then .error .value
  else .ok ((List.range (maxdeg + 1).toNat).map fun d _ i j => entryCoeff (Matrix.at' m.data (c * i + j)) d)

/-- peyl/polymat.py:157-187 `from_matrix` of an `r × c` matrix.  When ints and `LPoly`s are mixed the code falls off the
end and returns None, reported here as TypeError (which any use of None as an array raises). -/
def fromMatrix (r c : Nat) (m : Matrix) (proj : Bool) : Except Err (PArr Unit r c) :=
  if m.data.all isInt then
    .ok [fun _ i j => match Matrix.at' m.data (c * i + j) with | .int k => k | .lp _ => 0]
  else if m.data.all isLPoly then
    if (lpolys m).all LPoly.isZero then .ok [0]
    else
      let minval := listMin (((lpolys m).filter fun p => !p.isZero).map LPoly.valuation)
      if minval < 0 then
        if proj then fillMatrix r c (m.map fun x => Entry.mul x (.lp (LPoly.make (-minval) [1])))
        else .error .value
      else fillMatrix r c m
  else .error .type

/-- `np.argmax` of a boolean vector: the first True, 0 if there is none; ValueError when empty. -/
def argmax (l : List Bool) : Except Err Nat :=
  if l.length = 0 then .error .value else .ok (match l.findIdx? id with | some i => i | none => 0)

/-- `np.argmax(v, axis=-1)` for every batch index; the width is the same for all of them. -/
def argmaxEach (D : Nat) (v : α → Nat → Bool) : Except Err (α → Nat) :=
  if D = 0 then .error .value
  else .ok fun a => match argmax ((List.range D).map (v a)) with | .ok i => i | .error _ => 0

/-- peyl/polymat.py:222-229 `degmax`. -/
def degmax (A : PArr α I J) : Except Err (α → Int) := do
  let k ← argmaxEach A.length fun a d => nzAt (slice A (A.length - 1 - d)) a
  .ok fun a => (A.length : Int) - 1 - k a

/-- peyl/polymat.py:232-235 `valmin`. -/
def valmin (A : PArr α I J) : Except Err (α → Nat) := argmaxEach A.length fun a d => nzAt (slice A d) a

/-- peyl/polymat.py:238-241 `nz_terms`. -/
def nzTerms (A : PArr α I J) (a : α) : Nat :=
  ((List.range A.length).map fun d => (Finset.univ.filter fun ij : Fin I × Fin J => slice A d a ij.1 ij.2 ≠ 0).card).sum

/-- peyl/polymat.py:258-260 `rhogap`, doubled (the code divides by 2). -/
def rhogap2 (A : PArr α I J) : Except Err (α → Int) := do
  let d ← degmax A
  let v ← valmin A
  .ok fun a => d a - v a

/-- peyl/polymat.py:262-268 `efflen`. -/
def efflen (A : PArr α I J) : Except Err (α → Int) := do
  let d ← degmax A
  let v ← valmin A
  .ok fun a => if A.all fun S => !nzAt S a then 0 else d a - v a

/-- peyl/polymat.py:293-296 (and 276-279), starts and ends of the non-zero part. -/
def startsEnds (A : PArr α I J) : Except Err ((α → Nat) × (α → Nat)) := do
  let s ← argmaxEach A.length fun a d => nzAt (slice A d) a
  let k ← argmaxEach A.length fun a d => nzAt (slice A (A.length - 1 - d)) a
  .ok (s, fun a => A.length - k a)

/-- peyl/polymat.py:270-279 `projlen`. -/
def projlen (A : PArr α I J) : Except Err (α → Int) := do
  let se ← startsEnds A
  .ok fun a => (se.2 a : Int) - se.1 a

/-- `np.any(A, axis=(-3, -2, -1))` at one batch index. -/
def nonzeroAt (A : PArr α I J) (a : α) : Bool := A.any fun S => nzAt S a

/-- peyl/polymat.py:281-296 `proj_starts_ends`. -/
def projStartsEnds (A : PArr α I J) : Except Err ((α → Nat) × (α → Nat)) :=
  if ∀ a, nonzeroAt A a = true then startsEnds A else .error .assertion

/-- peyl/polymat.py:190-215 `projectivise`.  The branch for tensors without batch axes returns the same slices as the
general one.  `np.max` over an empty batch raises ValueError. -/
def projectivise (A : PArr α I J) : Except Err (PArr α I J) :=
  if ∀ a, nonzeroAt A a = true then
    if A.length = 0 then .error .index
    else if (∀ a, nzAt (slice A 0) a = true) ∧ anyNZ (slice A (A.length - 1)) = true then .ok A
    else do
      let se ← projStartsEnds A
      if Fintype.card α = 0 then .error .value
      else
        let w := Finset.univ.sup fun a => se.2 a - se.1 a
        .ok ((List.range w).map fun d a => if d < se.2 a - se.1 a then slice A (se.1 a + d) a else 0)
  else .error .assertion

/-- `A % p` (numpy's floor-mod). -/
def modp (p : Nat) (A : PArr α I J) : PArr α I J := A.map fun S a i j => (S a i j).fmod p

end Polymat
end Peyl
