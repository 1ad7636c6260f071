import Verif.Model.HeapSearch
/-!
# Specification vocabulary: what the calls of `peyl/braidsearch.py` return when arrays are values
-/
namespace Peyl
open Polymat
namespace BraidSearch
namespace Mem
variable {d : Nat}

/-- The arrays that a call returns, as a function of its arguments alone. -/
def Call.value (rep : Summand d) (tbl : Nat → Except Err (NFTable (List Nat))) : Call → Except Err (List (Arr d))
  | .evalFactors x => do .ok [.img (← evaluateBraidFactors tbl rep x)]
  | .evalSame xs => do .ok [.batch _ (← BraidSearch.evalSame tbl rep xs)]
  | .evalPrefixes xs => do
    let As ← BraidSearch.evalPrefixes tbl rep xs
    .ok (As.map fun A => .batch _ A)
  | .evaluateBraids xs => do
    let As ← BraidSearch.evaluateBraids tbl rep xs
    .ok (As.map .img)
  | .id => .ok [.img (eye d)]
  | .gens => .ok (rep.gens.map .img)
  | .table => do
    let tab ← rep.table
    .ok (tab.map fun wA => .img wA.2)

/-- The calls of a program, in order. -/
def callsOf (es : List (Event d)) : List Call := es.filterMap fun e => match e with | .call c => some c | .write _ _ _ => none

/-- The calls whose results belong to the caller: the bulk evaluators, and `evaluate_braid_factors` of a braid that is not a power of `Δ`. -/
def Call.OwnResult : Call → Prop
  | .evalFactors x => x.factors ≠ []
  | .evalSame _ => True
  | .evalPrefixes _ => True
  | .evaluateBraids _ => True
  | .id => False
  | .gens => False
  | .table => False

/-- The program only writes into results that belong to the caller. -/
def WritesOwn (es : List (Event d)) : Prop := ∀ j i A c, Event.write j i A ∈ es → (callsOf es)[j]? = some c → c.OwnResult

end Mem
end BraidSearch
end Peyl
