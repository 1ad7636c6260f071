import Verif.Model.Poly
/-!
# Model of `peyl/lpoly.py`
-/
namespace Peyl

/-- peyl/lpoly.py:14-31 `class LPoly` (dataclass; `==` compares `val` and `coeffs`). -/
structure LPoly where
  val : Int
  coeffs : List Int
  deriving DecidableEq, Repr

namespace LPoly

/-- peyl/lpoly.py:36-38: number of leading zeros skipped by `while l < r and coeffs[l] == 0`. -/
def leadZeros : List Int → Nat
  | [] => 0
  | c :: cs => if c = 0 then leadZeros cs + 1 else 0

/-- peyl/lpoly.py:39-40: `while l < r and coeffs[r - 1] == 0: r -= 1`, started at `r`. -/
def trimRight (coeffs : List Int) (l : Nat) : Nat → Nat
  | 0 => 0
  | r + 1 => if l < r + 1 ∧ coeffs.getD r 0 = 0 then trimRight coeffs l r else r + 1

/-- peyl/lpoly.py:33-47 `__init__`: trims leading and trailing zeros, normalises zero. -/
def make (val : Int) (coeffs : List Int) : LPoly :=
  let l := leadZeros coeffs
  let r := trimRight coeffs l coeffs.length
  if l = r then ⟨0, []⟩ else ⟨val + l, (coeffs.take r).drop l⟩

/-- peyl/lpoly.py:49-50 `is_zero`. -/
def isZero (p : LPoly) : Bool := p.coeffs.length == 0

/-- peyl/lpoly.py:52-53 `is_unit`. -/
def isUnit (p : LPoly) : Bool := p.coeffs.length == 1 && (p.coeffs.getD 0 0 == 1 || p.coeffs.getD 0 0 == -1)

/-- peyl/lpoly.py:64-69 `valuation`. -/
def valuation (p : LPoly) : Int := p.val

/-- peyl/lpoly.py:71-76 `degree`. -/
def degree (p : LPoly) : Int := p.val + p.coeffs.length - 1

/-- The body of peyl/lpoly.py:129-132: `for i, c in enumerate(cs): coeffs[off + i] += c`. -/
def addShift (acc : List Int) (off : Nat) (cs : List Int) : List Int :=
  (Poly.enum cs).foldl (fun acc ic => Poly.addAt acc (off + ic.1) ic.2) acc

/-- peyl/lpoly.py:119-136 `__add__` of two `LPoly`s. -/
def add (a b : LPoly) : LPoly :=
  let minval := min a.val b.val
  let maxpow := max (a.val + a.coeffs.length) (b.val + b.coeffs.length)
  let coeffs := List.replicate (maxpow - minval).toNat 0
  let coeffs := addShift coeffs (a.val - minval).toNat a.coeffs
  let coeffs := addShift coeffs (b.val - minval).toNat b.coeffs
  make minval coeffs

/-- peyl/lpoly.py:120-121, 158 `__add__`/`__radd__` with an int. -/
def addInt (a : LPoly) (k : Int) : LPoly := add a (make 0 [k])

/-- peyl/lpoly.py:144-145 `__neg__`. -/
def neg (a : LPoly) : LPoly := make a.val (a.coeffs.map (- ·))

/-- peyl/lpoly.py:138-139 `__sub__` of two `LPoly`s. -/
def sub (a b : LPoly) : LPoly := add a (neg b)

/-- peyl/lpoly.py:138-139 `__sub__` of an int. -/
def subInt (a : LPoly) (k : Int) : LPoly := addInt a (-k)

/-- peyl/lpoly.py:141-142 `__rsub__`: `k - a`. -/
def rsubInt (a : LPoly) (k : Int) : LPoly := addInt (neg a) k

/-- peyl/lpoly.py:147-156 `__mul__` of two `LPoly`s. -/
def mul (a b : LPoly) : LPoly := make (a.val + b.val) (Poly.convolve a.coeffs b.coeffs)

/-- peyl/lpoly.py:148-149, 159 `__mul__`/`__rmul__` with an int. -/
def mulInt (a : LPoly) (k : Int) : LPoly := make a.val (a.coeffs.map (· * k))

/-- peyl/lpoly.py:166-172 `__pow__` for a non-negative exponent. -/
def powNat (a : LPoly) (n : Nat) : LPoly :=
  if n = 0 then make 0 [1]
  else if h : n = 1 then a
  else
    let sqrt := powNat a (n / 2)
    if n % 2 = 0 then mul sqrt sqrt else mul (mul sqrt sqrt) a
termination_by n

/-- peyl/lpoly.py:161-172 `__pow__`. -/
def pow (a : LPoly) (n : Int) : Except Err LPoly :=
  if n < 0 then
    if a.coeffs = [1] ∨ a.coeffs = [-1] then .ok (powNat (make (-a.val) a.coeffs) (-n).toNat) else .error .value
  else .ok (powNat a n.toNat)

/-- peyl/lpoly.py:55-62 `evaluate` at an `LPoly` point.  Python's `sum` starts from the int 0, which is returned as is
for the zero polynomial; the model returns the zero `LPoly` there (simplification). -/
def evaluate (p x : LPoly) : Except Err LPoly :=
  ((Poly.enum p.coeffs).filter fun ic => ic.2 ≠ 0).foldlM
    (fun acc ic => do .ok (add (mulInt (← pow x (ic.1 + p.val)) ic.2) acc)) (make 0 [])

/-- peyl/lpoly.py:174-175 `__truediv__` (division of the coefficient polynomials). -/
def truediv (a b : LPoly) : Except Err LPoly := do
  let q ← Poly.truediv (Poly.make a.coeffs) (Poly.make b.coeffs)
  .ok (make (a.val - b.val) q.coeffs)

/-- peyl/lpoly.py:177-182 `map`. -/
def map (f : Int → Int) (a : LPoly) : LPoly := make a.val (a.coeffs.map f)

/-- peyl/lpoly.py:192-199 `quantum_integer`. -/
def quantumInteger (n : Int) : LPoly :=
  if n.natAbs ≤ 1 then make 0 [n]
  else
    let sign : Int := if n ≥ 1 then 1 else -1
    make (-(n.natAbs : Int) + 1) ((List.range (2 * n.natAbs - 1)).map fun i => if i % 2 = 0 then sign else 0)

/-- The variable `v = LPoly(0, (0, 1))` (peyl/jonesrep.py:31). -/
def v : LPoly := make 0 [0, 1]

/-- `Q2 = LPoly(-1, (1, 0, 1))` (peyl/tl.py:328). -/
def Q2 : LPoly := make (-1) [1, 0, 1]

end LPoly
end Peyl
