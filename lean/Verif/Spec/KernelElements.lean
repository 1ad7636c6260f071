/-!
# The elements of kernels that the repository documents

Data copied from the notebook and the README: a number of strands, a modulus, a power of the Garside element, and a list of
permutations.
-/
namespace Peyl

/-- A documented element: `Delta**-power` times the positive lifts of the permutations `seq`, on `n` strands, modulo `p`. -/
structure KernelElement where
  n : Nat
  p : Nat
  power : Nat
  seq : List (List Nat)

/-- p=5 kernel elements.ipynb:103, 264: `a_seq`, `a_true = Delta**-27*a`. -/
def elemA : KernelElement where
  n := 4
  p := 5
  power := 27
  seq :=
    [[1, 0, 3, 2], [1, 0, 3, 2], [1, 3, 0, 2], [2, 0, 3, 1], [0, 3, 1, 2], [2, 0, 3, 1], [0, 3, 1, 2], [0, 2, 1, 3], [2, 0, 3, 1],
    [3, 1, 0, 2], [2, 0, 3, 1], [3, 1, 0, 2], [2, 0, 3, 1], [1, 3, 0, 2], [0, 2, 1, 3], [2, 0, 3, 1], [0, 3, 1, 2], [2, 0, 3, 1],
    [0, 3, 1, 2], [2, 0, 3, 1], [1, 0, 3, 2], [3, 1, 2, 0], [3, 1, 0, 2], [2, 0, 3, 1], [3, 1, 0, 2], [2, 0, 3, 1], [1, 3, 0, 2],
    [2, 3, 0, 1], [2, 3, 0, 1], [0, 2, 1, 3], [2, 0, 3, 1], [0, 3, 1, 2], [2, 0, 3, 1], [0, 3, 1, 2], [2, 0, 3, 1], [3, 1, 2, 0],
    [3, 1, 0, 2], [2, 0, 3, 1], [3, 1, 0, 2], [2, 0, 3, 1], [3, 1, 2, 0], [1, 3, 0, 2], [2, 0, 3, 1], [0, 3, 1, 2], [2, 0, 3, 1],
    [0, 3, 1, 2], [0, 2, 1, 3], [2, 3, 0, 1], [2, 0, 3, 1], [1, 3, 2, 0], [2, 0, 3, 1], [1, 3, 2, 0], [2, 0, 3, 1], [3, 1, 2, 0]]

/-- p=5 kernel elements.ipynb:104, 293: `b_seq`, `b_true = Delta**-29*b`. -/
def elemB : KernelElement where
  n := 4
  p := 5
  power := 29
  seq :=
    [[2, 3, 1, 0], [2, 0, 3, 1], [1, 3, 0, 2], [0, 2, 1, 3], [2, 0, 3, 1], [1, 2, 0, 3], [2, 0, 3, 1], [1, 2, 0, 3], [2, 0, 3, 1],
    [1, 0, 3, 2], [3, 1, 2, 0], [1, 3, 2, 0], [2, 0, 3, 1], [1, 3, 2, 0], [2, 0, 3, 1], [1, 3, 0, 2], [0, 2, 1, 3], [2, 0, 3, 1],
    [1, 2, 0, 3], [2, 0, 3, 1], [1, 2, 0, 3], [0, 2, 1, 3], [2, 0, 3, 1], [1, 3, 2, 0], [2, 0, 3, 1], [1, 3, 2, 0], [2, 0, 3, 1],
    [3, 1, 2, 0], [1, 0, 3, 2], [1, 0, 3, 2], [1, 3, 0, 2], [2, 0, 3, 1], [1, 2, 0, 3], [2, 0, 3, 1], [1, 2, 0, 3], [0, 2, 1, 3],
    [2, 3, 0, 1], [2, 0, 3, 1], [3, 1, 0, 2], [2, 0, 3, 1], [3, 1, 0, 2], [2, 0, 3, 1], [3, 1, 2, 0], [1, 3, 0, 2], [2, 0, 3, 1],
    [0, 3, 1, 2], [2, 0, 3, 1], [0, 3, 1, 2], [2, 0, 3, 1], [3, 1, 2, 0], [3, 1, 0, 2], [2, 0, 3, 1], [3, 1, 0, 2], [2, 0, 3, 1],
    [1, 3, 0, 2], [2, 3, 0, 1], [0, 2, 1, 3], [2, 0, 3, 1], [1, 0, 2, 3]]

/-- p=5 kernel elements.ipynb:105, 322: `c_seq`, `c_true = Delta**-33*c`. -/
def elemC : KernelElement where
  n := 4
  p := 5
  power := 33
  seq :=
    [[1, 0, 3, 2], [1, 0, 3, 2], [1, 3, 0, 2], [2, 0, 3, 1], [0, 3, 1, 2], [2, 0, 3, 1], [0, 3, 1, 2], [2, 0, 3, 1], [3, 1, 2, 0],
    [3, 1, 0, 2], [2, 0, 3, 1], [3, 1, 0, 2], [2, 0, 3, 1], [1, 3, 0, 2], [0, 2, 1, 3], [2, 0, 3, 1], [0, 3, 1, 2], [2, 0, 3, 1],
    [0, 3, 1, 2], [2, 0, 3, 1], [3, 1, 2, 0], [3, 1, 0, 2], [2, 0, 3, 1], [3, 1, 0, 2], [2, 0, 3, 1], [1, 3, 0, 2], [0, 2, 1, 3],
    [2, 0, 3, 1], [0, 3, 1, 2], [2, 0, 3, 1], [0, 3, 1, 2], [2, 0, 3, 1], [3, 1, 2, 0], [3, 1, 0, 2], [2, 0, 3, 1], [3, 1, 0, 2],
    [2, 0, 3, 1], [1, 3, 0, 2], [0, 2, 1, 3], [2, 0, 3, 1], [0, 3, 1, 2], [2, 0, 3, 1], [0, 3, 1, 2], [2, 0, 3, 1], [3, 1, 2, 0],
    [3, 1, 0, 2], [2, 0, 3, 1], [3, 1, 0, 2], [2, 0, 3, 1], [1, 3, 0, 2], [0, 2, 1, 3], [2, 0, 3, 1], [0, 3, 1, 2], [2, 0, 3, 1],
    [0, 3, 1, 2], [2, 0, 3, 1], [3, 1, 2, 0], [3, 1, 0, 2], [2, 0, 3, 1], [3, 1, 0, 2], [2, 0, 3, 1], [1, 3, 0, 2], [2, 3, 0, 1],
    [2, 3, 0, 1], [2, 3, 0, 1]]

/-- p=5 kernel elements.ipynb:567, 657: `d_seq`, `d_true = d*Delta**-14`. -/
def elemD : KernelElement where
  n := 6
  p := 0
  power := 14
  seq :=
    [[5, 3, 4, 2, 1, 0], [5, 4, 3, 1, 0, 2], [4, 5, 2, 0, 3, 1], [3, 2, 0, 5, 4, 1], [5, 2, 4, 3, 1, 0], [0, 1, 3, 2, 4, 5],
    [3, 0, 4, 5, 1, 2], [4, 1, 0, 5, 2, 3], [4, 5, 2, 1, 3, 0], [0, 1, 3, 2, 4, 5], [3, 4, 0, 1, 5, 2], [2, 3, 0, 5, 4, 1],
    [0, 1, 4, 2, 3, 5], [3, 0, 4, 1, 5, 2], [3, 1, 2, 0, 5, 4], [3, 0, 5, 4, 1, 2], [4, 1, 0, 5, 3, 2], [5, 4, 2, 1, 3, 0],
    [1, 0, 3, 2, 4, 5], [3, 4, 1, 0, 5, 2], [3, 2, 0, 5, 4, 1], [5, 2, 4, 3, 1, 0], [4, 0, 1, 3, 2, 5], [0, 4, 1, 5, 2, 3],
    [4, 5, 0, 2, 1, 3], [2, 0, 1, 4, 3, 5], [0, 4, 1, 5, 2, 3], [4, 0, 5, 2, 1, 3]]

/-- README.md:43: the element for p = 2. -/
def elemP2 : KernelElement where
  n := 4
  p := 2
  power := 4
  seq :=
    [[1, 3, 0, 2], [2, 0, 3, 1], [1, 3, 0, 2], [2, 0, 3, 1], [1, 3, 0, 2], [2, 0, 3, 1], [1, 3, 0, 2], [2, 0, 3, 1]]

/-- README.md:89: the first element for p = 5. -/
def elemP5a : KernelElement where
  n := 4
  p := 5
  power := 33
  seq :=
    [[3, 1, 2, 0], [1, 0, 3, 2], [1, 3, 0, 2], [2, 0, 3, 1], [0, 3, 1, 2], [2, 0, 3, 1], [0, 3, 1, 2], [2, 0, 3, 1], [3, 1, 2, 0],
    [3, 1, 0, 2], [2, 0, 3, 1], [3, 1, 0, 2], [2, 0, 3, 1], [1, 3, 0, 2], [0, 2, 1, 3], [2, 0, 3, 1], [0, 3, 1, 2], [2, 0, 3, 1],
    [0, 3, 1, 2], [2, 0, 3, 1], [3, 1, 2, 0], [3, 1, 0, 2], [2, 0, 3, 1], [3, 1, 0, 2], [2, 0, 3, 1], [1, 3, 0, 2], [0, 2, 1, 3],
    [2, 0, 3, 1], [0, 3, 1, 2], [2, 0, 3, 1], [0, 3, 1, 2], [2, 0, 3, 1], [3, 1, 2, 0], [3, 1, 0, 2], [2, 0, 3, 1], [3, 1, 0, 2],
    [2, 0, 3, 1], [1, 3, 0, 2], [0, 2, 1, 3], [2, 0, 3, 1], [0, 3, 1, 2], [2, 0, 3, 1], [0, 3, 1, 2], [2, 0, 3, 1], [3, 1, 2, 0],
    [3, 1, 0, 2], [2, 0, 3, 1], [3, 1, 0, 2], [2, 0, 3, 1], [1, 3, 0, 2], [0, 2, 1, 3], [2, 0, 3, 1], [0, 3, 1, 2], [2, 0, 3, 1],
    [0, 3, 1, 2], [2, 0, 3, 1], [3, 1, 2, 0], [3, 1, 0, 2], [2, 0, 3, 1], [3, 1, 0, 2], [2, 0, 3, 1], [1, 3, 0, 2], [2, 3, 0, 1],
    [2, 3, 0, 1], [0, 2, 1, 3]]

/-- README.md:90: the second element for p = 5. -/
def elemP5b : KernelElement where
  n := 4
  p := 5
  power := 33
  seq :=
    [[1, 0, 3, 2], [1, 0, 3, 2], [1, 3, 0, 2], [2, 0, 3, 1], [1, 2, 0, 3], [2, 0, 3, 1], [1, 2, 0, 3], [2, 0, 3, 1], [3, 1, 2, 0],
    [1, 3, 2, 0], [2, 0, 3, 1], [1, 3, 2, 0], [2, 0, 3, 1], [1, 3, 0, 2], [0, 2, 1, 3], [2, 0, 3, 1], [1, 2, 0, 3], [2, 0, 3, 1],
    [1, 2, 0, 3], [2, 0, 3, 1], [3, 1, 2, 0], [1, 3, 2, 0], [2, 0, 3, 1], [1, 3, 2, 0], [2, 0, 3, 1], [1, 3, 0, 2], [0, 2, 1, 3],
    [2, 0, 3, 1], [1, 2, 0, 3], [2, 0, 3, 1], [1, 2, 0, 3], [2, 0, 3, 1], [3, 1, 2, 0], [1, 3, 2, 0], [2, 0, 3, 1], [1, 3, 2, 0],
    [2, 0, 3, 1], [1, 3, 0, 2], [0, 2, 1, 3], [2, 0, 3, 1], [1, 2, 0, 3], [2, 0, 3, 1], [1, 2, 0, 3], [2, 0, 3, 1], [3, 1, 2, 0],
    [1, 3, 2, 0], [2, 0, 3, 1], [1, 3, 2, 0], [2, 0, 3, 1], [1, 3, 0, 2], [0, 2, 1, 3], [2, 0, 3, 1], [1, 2, 0, 3], [2, 0, 3, 1],
    [1, 2, 0, 3], [2, 0, 3, 1], [3, 1, 2, 0], [1, 3, 2, 0], [2, 0, 3, 1], [1, 3, 2, 0], [2, 0, 3, 1], [1, 3, 0, 2], [2, 3, 0, 1],
    [2, 3, 0, 1], [2, 3, 0, 1]]

/-- All of them. -/
def kernelElements : List KernelElement := [elemA, elemB, elemC, elemD, elemP2, elemP5a, elemP5b]

end Peyl
