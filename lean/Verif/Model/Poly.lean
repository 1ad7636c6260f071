/-!
# Model of `peyl/poly.py`

Python ints are `Int`; a `Poly` stores a tuple of coefficients (constant term first).
Exceptions are values of `Err`.
-/
namespace Peyl

/-- Exceptions raised by the modelled code.  `fuel` marks a model-only loop bound; it is proved unreachable. -/
inductive Err where
  | value      -- ValueError
  | assertion  -- AssertionError
  | index      -- IndexError
  | key        -- KeyError
  | type       -- TypeError
  | notImpl    -- NotImplementedError
  | attribute  -- AttributeError
  | fuel       -- model artefact: loop bound exhausted
  deriving DecidableEq, Repr

/-- peyl/poly.py:14-23 `class Poly` (a dataclass with one field; `==` compares `coeffs`). -/
structure Poly where
  coeffs : List Int
  deriving DecidableEq, Repr

namespace Poly

/-- peyl/poly.py:27-29, the loop `while end >= 1 and args[end - 1] == 0: end -= 1`, started at `end`. -/
def trimEnd (args : List Int) : Nat → Nat
  | 0 => 0
  | e + 1 => if args.getD e 0 = 0 then trimEnd args e else e + 1

/-- peyl/poly.py:25-31 `Poly.__init__`: trims trailing zeros. -/
def make (args : List Int) : Poly := ⟨args.take (trimEnd args args.length)⟩

/-- peyl/poly.py:33-35 `deg` (the zero polynomial has degree -1). -/
def deg (p : Poly) : Int := (p.coeffs.length : Int) - 1

/-- peyl/poly.py:37-38 `is_zero`. -/
def isZero (p : Poly) : Bool := p.coeffs.length == 0

/-- `itertools.zip_longest(a, b, fillvalue=0)` combined with `f`. -/
def zipLongest (f : Int → Int → Int) : List Int → List Int → List Int
  | [], bs => bs.map fun b => f 0 b
  | a :: as, [] => (a :: as).map fun a => f a 0
  | a :: as, b :: bs => f a b :: zipLongest f as bs

/-- peyl/poly.py:79-81 `__add__` for two `Poly`s. -/
def add (a b : Poly) : Poly := make (zipLongest (· + ·) a.coeffs b.coeffs)

/-- peyl/poly.py:79-81, 99 `__add__`/`__radd__` with an int. -/
def addInt (a : Poly) (k : Int) : Poly := make (zipLongest (· + ·) a.coeffs [k])

/-- peyl/poly.py:83-85 `__sub__`. -/
def sub (a b : Poly) : Poly := make (zipLongest (· - ·) a.coeffs b.coeffs)

/-- peyl/poly.py:83-85 `__sub__` with an int. -/
def subInt (a : Poly) (k : Int) : Poly := make (zipLongest (· - ·) a.coeffs [k])

/-- peyl/poly.py:87-88 `__neg__`. -/
def neg (a : Poly) : Poly := make (a.coeffs.map (- ·))

/-- `result[k] += x` on a list (all uses are in range, see `Lemmas`). -/
def addAt (l : List Int) (k : Nat) (x : Int) : List Int := l.modify k (· + x)

/-- `enumerate(l)` as index/value pairs. -/
def enum (l : List Int) : List (Nat × Int) := l.zipIdx.map fun p => (p.2, p.1)

/-- The convolution loop shared by peyl/poly.py:94-96 and peyl/lpoly.py:151-153:
`result = [0]*(len(a)+len(b)); for (i,c),(j,d) in product(enumerate(a), enumerate(b)): result[i+j] += c*d`. -/
def convolve (a b : List Int) : List Int :=
  (enum a).foldl (fun acc ic => (enum b).foldl (fun acc jd => addAt acc (ic.1 + jd.1) (ic.2 * jd.2)) acc)
    (List.replicate (a.length + b.length) 0)

/-- peyl/poly.py:90-97 `__mul__` for two `Poly`s. -/
def mul (a b : Poly) : Poly := make (convolve a.coeffs b.coeffs)

/-- peyl/poly.py:90-92, 100 `__mul__`/`__rmul__` with an int. -/
def mulInt (a : Poly) (k : Int) : Poly := make (a.coeffs.map (· * k))

/-- peyl/poly.py:102-111 `__pow__` for a non-negative exponent. -/
def powNat (a : Poly) (n : Nat) : Poly :=
  if n = 0 then make [1]
  else if h : n = 1 then a
  else
    let sqrt := powNat a (n / 2)
    if n % 2 = 0 then mul sqrt sqrt else mul (mul sqrt sqrt) a
termination_by n

/-- peyl/poly.py:102-111 `__pow__` (negative exponents raise ValueError). -/
def pow (a : Poly) (n : Int) : Except Err Poly :=
  if n < 0 then .error .value else .ok (powNat a n.toNat)

/-- peyl/poly.py:40-47 `evaluate` at a polynomial.  Python's `sum` starts from the int 0, which for the zero
polynomial is returned as is; the model returns the zero `Poly` there (simplification). -/
def evaluate (p x : Poly) : Poly :=
  ((enum p.coeffs).filter fun ic => ic.2 ≠ 0).foldl (fun acc ic => add (mulInt (powNat x ic.1) ic.2) acc) (make [])

/-- peyl/poly.py:128-136, the `while` loop of `__divmod__` (Python's `//`,`%` are floor division). -/
def divmodLoop (d : Poly) : Nat → Poly → Poly → Except Err (Poly × Poly)
  | 0, _, _ => .error .fuel
  | fuel + 1, q, r =>
    if d.coeffs.length ≤ r.coeffs.length then
      let rl := r.coeffs.getLastD 0
      let dl := d.coeffs.getLastD 0
      if rl.fmod dl ≠ 0 then .error .value
      else
        let t := rl.fdiv dl
        let tDeg := r.coeffs.length - d.coeffs.length
        let tt := make (List.replicate tDeg 0 ++ [t])
        divmodLoop d fuel (add q tt) (sub r (mul d tt))
    else .ok (q, r)

/-- peyl/poly.py:115-138 `__divmod__`.  The guard `r != ()` compares a Poly with a tuple and is always true. -/
def divmod (n d : Poly) : Except Err (Poly × Poly) :=
  if d.coeffs.all (· == 0) then .error .assertion
  else divmodLoop d (n.coeffs.length + 1) (make []) n

/-- peyl/poly.py:140-146 `__truediv__`. -/
def truediv (n d : Poly) : Except Err Poly := do
  let (quo, rem) ← divmod n d
  if rem.isZero then .ok quo else .error .value

/-- peyl/poly.py:148-168 `cyclotomic` for a non-negative argument; the loop runs over the proper divisors
`d in range(1, n)` of `n` in increasing order. -/
def cyclotomicNat (n : Nat) : Except Err Poly :=
  if n = 0 then .error .value
  else
    ((List.range n).filter fun d => 1 ≤ d ∧ n % d = 0).attach.foldlM (init := make ((-1) :: (List.replicate (n - 1) 0 ++ [1])))
      fun poly d => do
        let c ← cyclotomicNat d.1
        let (poly', rem) ← divmod poly c
        if rem.isZero then .ok poly' else .error .assertion
termination_by n
decreasing_by
  have := d.2
  simp at this
  exact this.1

/-- peyl/poly.py:148-168 `cyclotomic` (`n <= 0` raises ValueError). -/
def cyclotomic (n : Int) : Except Err Poly :=
  if n ≤ 0 then .error .value else cyclotomicNat n.toNat

/-- peyl/poly.py:170-188 `chebyshevT` for a non-negative argument. -/
def chebyshevNat : Nat → Poly
  | 0 => make [1]
  | 1 => make [0, 1]
  | n + 2 => sub (mul (make [0, 2]) (chebyshevNat (n + 1))) (chebyshevNat n)

/-- peyl/poly.py:170-188 `chebyshevT` (negative argument raises ValueError). -/
def chebyshevT (n : Int) : Except Err Poly :=
  if n < 0 then .error .value else .ok (chebyshevNat n.toNat)

/-- peyl/poly.py:190-211 `minpolycos` for `n ≥ 0`.  The `assert` on line 210 asserts a generator object, which is
always truthy, so it is not a check. -/
def minpolycosNat (n : Nat) : Except Err Poly := do
  let s := n / 2
  let a ← chebyshevT ((s : Int) + 1)
  let b ← chebyshevT (if n % 2 = 1 then (s : Int) else (s : Int) - 1)
  let poly ← ((List.range n).filter fun d => 1 ≤ d ∧ n % d = 0).attach.foldlM (init := mulInt (sub a b) 2)
    fun poly d => do
      let m ← minpolycosNat d.1
      truediv poly (evaluate m (make [0, 2]))
  .ok (make ((enum poly.coeffs).map fun ic => ic.2.fdiv (2 ^ ic.1)))
termination_by n
decreasing_by
  have := d.2
  simp at this
  exact this.1

end Poly
end Peyl
