import Verif.Model.MachineBucket
import Verif.Spec.BucketDescend
/-!
# Histories of a `bucketing.Tracker` with machine integers
-/
namespace Peyl
namespace Bucketing
variable {S T : Type} [DecidableEq T] {d : Nat}

/-- One operation with `w`-bit integers (compare `TrackerOp.exec`). -/
def TrackerOp.execW (w : Nat) (tbl : Nat → Except Err (NFTable T)) (rep : RepBase d) (g : Rng S) (c : Config NF d) (argsort : List Nat → List Nat)
    (tr : Tracker S T d) : TrackerOp d → Except Err (Tracker S T d)
  | .bootstrap upto => bootstrapExhaustive tbl (rep.toRepW w tbl) g c upto tr
  | .descend t k => nfDescendantsW w tbl (rep.toRepW w tbl) g c argsort tr t k
  | .discard t => .ok { tr with buckets := discardBucket tr.buckets t }
  | .add b => do
    let st ← addBraidsImages g c (tr.buckets, tr.rng) b
    .ok { tr with buckets := st.1, rng := st.2 }

/-- A history with `w`-bit integers (compare `history`). -/
def historyW (w : Nat) (tbl : Nat → Except Err (NFTable T)) (rep : RepBase d) (g : Rng S) (c : Config NF d) (argsort : List Nat → List Nat) (s : S)
    (ops : List (TrackerOp d)) : Except Err (Tracker S T d) :=
  ops.foldlM (TrackerOp.execW w tbl rep g c argsort) ⟨[], [], s⟩

end Bucketing
end Peyl
