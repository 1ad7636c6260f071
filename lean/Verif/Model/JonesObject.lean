import Verif.Model.Jones
import Verif.Model.Adapter
/-!
# Model of the objects `JonesCellRep(n, r, p)` and `JonesSummand(n, r, p)`: what the constructors accept, `repr`, `dimension`

`Verif.Model.Jones` takes natural numbers; here the parameters are any Python integers.
-/
namespace Peyl
namespace Jones
open Adapter

/-- The attributes of peyl/jonesrep.py:223-225 `JonesCellRep`, the fields of peyl/braidsearch.py:69-71 `JonesSummand`. -/
structure Obj where
  n : Int
  r : Int
  p : Int
  deriving DecidableEq

/-- peyl/jonesrep.py:227-236 `JonesCellRep.__init__`, peyl/braidsearch.py:73-76 `JonesSummand.__post_init__`. -/
def Obj.init (n r p : Int) : Except Err Obj := do
  pyAssert (n ≥ 1)
  pyAssert (n - 2 * r ≥ 0)
  pyAssert (p ≥ 0)
  .ok ⟨n, r, p⟩

/-- peyl/jonesrep.py:239-241, peyl/braidsearch.py:78-80 `__repr__`. -/
def Obj.repr (x : Obj) : List Char :=
  let ring : List Char := if x.p = 0 then ['ℤ'] else 'F' :: reprInt x.p
  "Two-rowed representation (".toList ++ (reprInt (x.n - x.r) ++ (", ".toList ++ (reprInt x.r ++ (") of B".toList ++ (reprInt x.n ++ (", over ".toList ++ ring))))))

/-- `math.comb`: ValueError for a negative argument. -/
def mathComb (n k : Int) : Except Err Int := if n < 0 ∨ k < 0 then .error .value else .ok (n.toNat.choose k.toNat)

/-- peyl/jonesrep.py:243-249 `JonesCellRep.dimension`. -/
def Obj.dimension (x : Obj) : Except Err Int := do
  if x.r = 0 then .ok 1 else .ok ((← mathComb x.n x.r) - (← mathComb x.n (x.r - 1)))

/-- peyl/braidsearch.py:86-88 `JonesSummand.dimension`. -/
def Obj.summandDimension (x : Obj) : Except Err Int := do
  .ok ((← mathComb x.n x.r) - (← mathComb x.n (x.r - 1)))

/-- peyl/jonesrep.py:254-276 `JonesCellRep.artin_gens_invs` of a constructed object; for a negative `r` the first call of `cell_basis`
fails (peyl/tl.py:245), if there is a generator at all. -/
def Obj.artinGensInvs (x : Obj) : Except Err (List Matrix × List Matrix) := do
  if x.r < 0 then
    let gi ← tlGensInvs x.n.toNat
    if gi.1.isEmpty then .ok ([], []) else .error .assertion
  else Jones.artinGensInvs x.n.toNat x.r.toNat x.p.toNat

end Jones
end Peyl
