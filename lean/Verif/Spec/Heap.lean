import Verif.Model.Heap
/-!
# Specification vocabulary: what the calls of a representation return when arrays are values
-/
namespace Peyl
open Polymat
namespace RepBase
namespace Mem
variable {d : Nat} {T : Cls → Type}

/-- The arrays that a call returns, as a function of its arguments alone. -/
def Call.value (rep : RepBase d) (tbl : (c : Cls) → Nat → Except Err (NFTable (T c))) : Call → Except Err (List (Arr d))
  | .evalSame c xs => do .ok [.batch _ (← rep.evalSame (tbl c) xs)]
  | .evalOne c x => do .ok [.img (← rep.evalOne (tbl c) x)]
  | .evalIntegers c seqs => do
    let LA ← rep.evalIntegers (tbl c) seqs
    .ok [.batch LA.1 LA.2]
  | .evalWord word => do .ok [.img (← rep.polymatEvaluateArtinWord word)]
  | .gensInvs => do
    let A ← rep.polymatGens rep.gens
    let B ← rep.polymatGens rep.invs
    .ok [.batch _ A, .batch _ B]
  | .id => .ok [.img (eye d)]

/-- The calls of a program, in order. -/
def callsOf (es : List (Event d)) : List Call := es.filterMap fun e => match e with | .call c => some c | .write _ _ _ => none

/-- The program never writes into an array that it got from `polymat_artin_gens_invs()`. -/
def SparesGens (es : List (Event d)) : Prop := ∀ j i A, Event.write j i A ∈ es → (callsOf es)[j]? ≠ some .gensInvs

end Mem
end RepBase
end Peyl
