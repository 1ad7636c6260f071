import Verif.Model.SearchText
/-!
# Model of `search.py` from the command line on
-/
namespace Peyl
namespace Search
open BraidSearch

/-- search.py:29-162, the whole program with the positional arguments `n r p` (any integers) and options `a`, `size`
(`--bucket-size`) and the random generator started with `--seed`; numbers of braids and lengths are taken to be non-negative.  Lines
44-46 check `n r p`; line 61 constructs `JonesSummand(n, r, p)`; line 75 counts the braids of the bootstrapping length; the first
evaluation, in line 78, takes place if there are braids to evaluate, i.e. if `--bootstrap-length` is positive, and calls
`rep.id()` and so `rep.dimension()`; the rest is `Search.main`.  The code computes the generators together with the identity, the
model at once: for accepted arguments that cannot fail. -/
def program {S : Type} (tbl : Nat → Except Err (NFTable (List Nat))) (n r p : Int) (a : Args) (size : Nat)
    (rank : ∀ d, (Fin d → Fin d → ℤ) → Nat) (g : Rng S) (seed : S) (ord : Int → List Row → List Row) : Except Err (List (Int × Out)) := do
  pyAssert (decide (3 ≤ n) && decide (n ≤ 7))
  pyAssert (decide (0 ≤ 2 * r) && decide (2 * r ≤ n))
  pyAssert (0 < p)
  let rep ← Jones.Obj.init n r p
  let _ ← NF.countAllOfGarsideLength tbl n.toNat a.bootstrapLength
  let sm ← Jones.summand n.toNat r.toNat p.toNat
  let _ ← if 1 ≤ a.bootstrapLength then rep.summandDimension else .ok 0
  let res ← main tbl a sm size (rank _) g seed ord
  .ok res.1

end Search
end Peyl
