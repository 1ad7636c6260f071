import Verif.Model.Polymat
/-!
# numpy's fixed width integers

`peyl/jonesrep.py:80-82` (`polymat_dtype`) chooses int32 for `p > 0` and int64 otherwise.  Additions and multiplications of
`w`-bit two's complement integers wrap around.
-/
namespace Peyl
namespace Polymat
variable {α β γ : Type} {I J K : Nat}

/-- The `w`-bit two's complement integer congruent to `x`. -/
def wrap (w : Nat) (x : ℤ) : ℤ := x.bmod (2 ^ w)

/-- One entry of the integer matrix product `A[..., t] @ B[..., d - t]`, every operation wrapping. -/
def dotW (w : Nat) (x y : Fin J → ℤ) : ℤ :=
  (List.finRange J).foldl (fun acc j => wrap w (acc + wrap w (x j * y j))) 0

/-- peyl/polymat.py:75-76 with wrapping operations (compare `mulSlice`). -/
def mulSliceW (w : Nat) (pa : γ → α) (pb : γ → β) (A : PArr α I J) (B : PArr β J K) (d : Nat) : Slice γ I K := fun g i k =>
  ((List.range (d + 1)).filter fun t => decide (t < A.length ∧ d - t < B.length)).foldl
    (fun acc t => wrap w (acc + dotW w (fun j => slice A t (pa g) i j) (fun j => slice B (d - t) (pb g) j k))) 0

/-- peyl/polymat.py:52-78 `mul` (without `quotdeg`) with wrapping operations. -/
def mulW (w : Nat) (pa : γ → α) (pb : γ → β) (A : PArr α I J) (B : PArr β J K) : Except Err (PArr γ I K) :=
  if A.length + B.length = 0 then .error .value
  else .ok ((List.range (A.length + B.length - 1)).map (mulSliceW w pa pb A B))

/-- peyl/jonesrep.py:104-110 `polymat_mul` (and peyl/braidsearch.py:107-113 `JonesSummand.mul`), exact integers. -/
def polymatMul [Fintype γ] (p : Nat) (pa : γ → α) (pb : γ → β) (A : PArr α I J) (B : PArr β J K) : Except Err (PArr γ I K) := do
  let C ← mul pa pb A B none
  projectivise (if p ≠ 0 then modp p C else C)

/-- The same with `w`-bit integers. -/
def polymatMulW [Fintype γ] (w p : Nat) (pa : γ → α) (pb : γ → β) (A : PArr α I J) (B : PArr β J K) : Except Err (PArr γ I K) := do
  let C ← mulW w pa pb A B
  projectivise (if p ≠ 0 then modp p C else C)

end Polymat
end Peyl
