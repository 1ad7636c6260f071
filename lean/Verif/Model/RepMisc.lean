import Verif.Model.RepBase
import Verif.Model.NPar
/-!
# Model of the remaining methods of `RepBase`: evaluating permutations and noncrossing partitions, identities
-/
namespace Peyl
open Polymat

/-- peyl/permutations.py:405-409 `Permutation.artin_word` (and `Permutation.shortlex`). -/
def Perms.artinWord (w : List Nat) : Except Err (List (Nat × Int)) := do .ok ((← Perms.shortlex w).map fun i => (i, 1))

namespace RepBase
variable {d : Nat} (rep : RepBase d)

/-- peyl/jonesrep.py:93-98 `evaluate` of a `Permutation`, given by its word. -/
def evaluatePerm (w : List Nat) : Except Err Matrix := do rep.evaluateArtinWord (← Perms.artinWord w)

/-- peyl/jonesrep.py:93-98 `evaluate` of a noncrossing partition. -/
def evaluateNPar (p : NPar) : Except Err Matrix := do rep.evaluateArtinWord (← p.artinWord)

/-- peyl/jonesrep.py:154-159 `polymat_evaluate` of a normal form. -/
def polymatEvaluate {T : Type} (tbl : Nat → Except Err (NFTable T)) (x : NF) : Except Err (Img d) := do
  rep.polymatEvaluateArtinWord (← NF.artinWord tbl x)

/-- peyl/jonesrep.py:154-159 `polymat_evaluate` of a `Permutation`, given by its word. -/
def polymatEvaluatePerm (w : List Nat) : Except Err (Img d) := do rep.polymatEvaluateArtinWord (← Perms.artinWord w)

/-- peyl/jonesrep.py:154-159 `polymat_evaluate` of a noncrossing partition. -/
def polymatEvaluateNPar (p : NPar) : Except Err (Img d) := do rep.polymatEvaluateArtinWord (← p.artinWord)

/-- peyl/jonesrep.py:76-78 `id`. -/
def idMatrix (_ : RepBase d) : Matrix := Matrix.identity d

/-- peyl/jonesrep.py:100-102 `polymat_id`: one degree slice, no batch axis. -/
def polymatId (_ : RepBase d) : PArr Unit d d := [fun _ i j => if i = j then 1 else 0]

end RepBase
end Peyl
