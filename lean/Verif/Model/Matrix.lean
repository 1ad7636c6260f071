import Verif.Model.LPoly
/-!
# Model of `peyl/matrix.py`

Matrix entries in the project are Python ints or `LPoly` objects, freely mixed; `Entry` keeps the two apart because
`==` and `isinstance` do.
-/
namespace Peyl

/-- A matrix entry: a Python int or an `LPoly`. -/
inductive Entry where
  | int (k : Int)
  | lp (p : LPoly)
  deriving DecidableEq, Repr

namespace Entry

/-- `x + y` as dispatched by Python: int+int, `LPoly.__add__`, `LPoly.__radd__` (peyl/lpoly.py:119-136, 158). -/
def add : Entry → Entry → Entry
  | .int a, .int b => .int (a + b)
  | .int a, .lp q => .lp (LPoly.addInt q a)
  | .lp p, .int b => .lp (LPoly.addInt p b)
  | .lp p, .lp q => .lp (LPoly.add p q)

/-- `x - y`: int-int, `LPoly.__sub__`, `LPoly.__rsub__` (peyl/lpoly.py:138-142). -/
def sub : Entry → Entry → Entry
  | .int a, .int b => .int (a - b)
  | .int a, .lp q => .lp (LPoly.rsubInt q a)
  | .lp p, .int b => .lp (LPoly.subInt p b)
  | .lp p, .lp q => .lp (LPoly.sub p q)

/-- `x * y`: int*int, `LPoly.__mul__`, `LPoly.__rmul__` (peyl/lpoly.py:147-159). -/
def mul : Entry → Entry → Entry
  | .int a, .int b => .int (a * b)
  | .int a, .lp q => .lp (LPoly.mulInt q a)
  | .lp p, .int b => .lp (LPoly.mulInt p b)
  | .lp p, .lp q => .lp (LPoly.mul p q)

/-- The lambda of peyl/jonesrep.py:91 and 262-263: ints are left alone, `LPoly` coefficients are reduced mod `p`
(Python's `%`, i.e. floor-mod). -/
def modp (p : Int) : Entry → Entry
  | .int k => .int k
  | .lp q => .lp (LPoly.map (fun n => n.fmod p) q)

instance : Inhabited Entry := ⟨.int 0⟩

end Entry

/-- peyl/matrix.py:7-48 `class Matrix` (frozen dataclass; `==` compares the three fields). -/
structure Matrix where
  nrows : Nat
  ncols : Nat
  data : List Entry
  deriving DecidableEq, Repr

namespace Matrix

/-- peyl/matrix.py:50-57 `__post_init__` (sizes are integers; negative ones are rejected). -/
def make (nrows ncols : Int) (data : List Entry) : Except Err Matrix :=
  if ¬ (0 ≤ nrows ∧ 0 ≤ ncols) then .error .value
  else if nrows * ncols ≠ data.length then .error .value
  else .ok ⟨nrows.toNat, ncols.toNat, data⟩

/-- peyl/matrix.py:62-72 `from_rows`. -/
def fromRows (rows : List (List Entry)) : Except Err Matrix :=
  match rows with
  | [] => .error .index
  | r :: _ =>
    if rows.all (fun row => row.length == r.length) then make rows.length r.length rows.flatten
    else .error .assertion

/-- The comprehension `tuple(f(i, j) for i in range(m) for j in range(n))`. -/
def tabulate (m n : Nat) (f : Nat → Nat → Entry) : List Entry :=
  (List.range m).flatMap fun i => (List.range n).map fun j => f i j

/-- peyl/matrix.py:74-80 `identity`. -/
def identity (size : Nat) : Matrix := ⟨size, size, tabulate size size fun i j => .int (if i = j then 1 else 0)⟩

/-- peyl/matrix.py:82-91 `zero`. -/
def zero (nrows ncols : Nat) : Matrix := ⟨nrows, ncols, List.replicate (nrows * ncols) (.int 0)⟩

/-- peyl/matrix.py:93-95 `row_vector`. -/
def rowVector (elems : List Entry) : Matrix := ⟨1, elems.length, elems⟩

/-- peyl/matrix.py:97-99 `col_vector`. -/
def colVector (elems : List Entry) : Matrix := ⟨elems.length, 1, elems⟩

/-- peyl/matrix.py:101-104 `col_coord_vector`. -/
def colCoordVector (n : Nat) (i : Int) : Matrix :=
  ⟨n, 1, (List.range n).map fun (j : Nat) => .int (if i = (j : Int) then 1 else 0)⟩

/-- peyl/matrix.py:106-114 `scalar`. -/
def scalar (size : Nat) (s : Int) : Matrix := ⟨size, size, tabulate size size fun i j => .int (if i = j then s else 0)⟩

/-- `self.data[k]` for an index known to be in range. -/
def at' (data : List Entry) (k : Nat) : Entry := data.getD k (.int 0)

/-- peyl/matrix.py:143-163 `_checkbounds` and `__getitem__`. -/
def get (m : Matrix) (i j : Int) : Except Err Entry :=
  if 0 ≤ i ∧ i < m.nrows ∧ 0 ≤ j ∧ j < m.ncols then .ok (at' m.data (m.ncols * i.toNat + j.toNat)) else .error .index

/-- peyl/matrix.py:116-123 `row`: the bound test compares with `ncols`. -/
def row (m : Matrix) (r : Int) : Except Err Matrix :=
  if ¬ (0 ≤ r ∧ r < m.ncols) then .error .index
  else do
    let d ← (List.range m.ncols).mapM fun (j : Nat) => m.get r j
    .ok ⟨1, m.ncols, d⟩

/-- peyl/matrix.py:125-132 `column`. -/
def column (m : Matrix) (c : Int) : Except Err Matrix :=
  if ¬ (0 ≤ c ∧ c < m.ncols) then .error .index
  else do
    let d ← (List.range m.nrows).mapM fun (j : Nat) => m.get j c
    .ok ⟨m.nrows, 1, d⟩

/-- peyl/matrix.py:134-140 `rows`. -/
def rows (m : Matrix) : List (List Entry) :=
  (List.range m.nrows).map fun i => (m.data.take (m.ncols * (i + 1))).drop (m.ncols * i)

/-- `newdata[k] += x` of peyl/matrix.py:180. -/
def addAt (l : List Entry) (k : Nat) (x : Entry) : List Entry := l.modify k (fun y => Entry.add y x)

/-- peyl/matrix.py:163-184 `__mul__` of two matrices (the triple loop with in-place accumulation). -/
def mul (a b : Matrix) : Except Err Matrix :=
  if a.ncols ≠ b.nrows then .error .value
  else
    let triples := (List.range a.nrows).flatMap fun i => (List.range b.ncols).flatMap fun j =>
      (List.range a.ncols).map fun k => (i, j, k)
    let newdata := triples.foldl
      (fun acc t => addAt acc (b.ncols * t.1 + t.2.1)
        (Entry.mul (at' a.data (a.ncols * t.1 + t.2.2)) (at' b.data (b.ncols * t.2.2 + t.2.1))))
      (List.replicate (a.nrows * b.ncols) (.int 0))
    make a.nrows b.ncols newdata

/-- peyl/matrix.py:170-171, 206-210 `__mul__`/`__rmul__` by an int. -/
def mulInt (a : Matrix) (k : Int) : Matrix := ⟨a.nrows, a.ncols, a.data.map fun x => Entry.mul x (.int k)⟩

/-- peyl/matrix.py:195-200, the `while exp:` loop of `__pow__`. -/
def powLoop (acc pow2 : Matrix) (exp : Nat) : Except Err Matrix :=
  if exp = 0 then .ok acc
  else do
    let acc ← if exp % 2 = 1 then mul acc pow2 else .ok acc
    let pow2 ← mul pow2 pow2
    powLoop acc pow2 (exp / 2)
termination_by exp

/-- peyl/matrix.py:186-202 `__pow__`. -/
def pow (a : Matrix) (exp : Int) : Except Err Matrix :=
  if a.nrows ≠ a.ncols then .error .value
  else if exp < 0 then .error .notImpl
  else powLoop (identity a.nrows) a exp.toNat

/-- peyl/matrix.py:212-216 `__sub__`. -/
def sub (a b : Matrix) : Except Err Matrix :=
  if (a.nrows, a.ncols) ≠ (b.nrows, b.ncols) then .error .value
  else .ok ⟨a.nrows, a.ncols, List.zipWith Entry.sub a.data b.data⟩

/-- peyl/matrix.py:218-228 `trace` (`sum` starts from the int 0). -/
def trace (a : Matrix) : Except Err Entry :=
  if a.nrows ≠ a.ncols then .error .value
  else .ok ((List.range a.nrows).foldl (fun acc i => Entry.add acc (at' a.data (a.ncols * i + i))) (.int 0))

/-- peyl/matrix.py:230-231 `is_square`. -/
def isSquare (a : Matrix) : Bool := a.nrows == a.ncols

/-- Python's `==` of two entries: an int never equals an `LPoly` (dataclass `__eq__` returns NotImplemented). -/
def entryEq (x y : Entry) : Bool := decide (x = y)

/-- peyl/matrix.py:233-234 `is_symmetric`: iterates `zip(range(nrows), range(ncols))`, i.e. pairs `(i, i)`. -/
def isSymmetric (a : Matrix) : Except Err Bool :=
  ((List.range a.nrows).zip (List.range a.ncols)).foldlM (init := true) fun acc ij => do
    if acc then
      let x ← a.get ij.1 ij.2
      let y ← a.get ij.2 ij.1
      .ok (entryEq x y)
    else .ok false

/-- peyl/matrix.py:287-288 `transpose`. -/
def transpose (a : Matrix) : Except Err Matrix := do
  let d ← ((List.range a.ncols).flatMap fun i => (List.range a.nrows).map fun j => (i, j)).mapM fun ij => a.get ij.2 ij.1
  make a.ncols a.nrows d

/-- peyl/matrix.py:290-291 `is_integral`. -/
def isIntegral (a : Matrix) : Bool := a.data.all fun | .int _ => true | .lp _ => false

/-- peyl/matrix.py:297-299 `map`. -/
def map (f : Entry → Entry) (a : Matrix) : Matrix := ⟨a.nrows, a.ncols, a.data.map f⟩

end Matrix
end Peyl
