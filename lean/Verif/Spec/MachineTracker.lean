import Verif.Model.MachineTracker
import Verif.Spec.TrackerHistory
/-!
# Histories of a tracker with machine integers
-/
namespace Peyl
namespace BraidSearch
variable {d : Nat} {S : Type} (w : Nat) (tbl : Nat → Except Err (NFTable (List Nat)))

/-- The operations with `w`-bit integers (compare `TrackerOp.exec`). -/
def TrackerOp.execW (rep : Summand d) (c : Config S NF d) (st : State S NF d) : TrackerOp d → Except Err (State S NF d)
  | .add b => addBraidsImages c st b
  | .bootstrap upto => bootstrapExhaustiveW w tbl rep c st upto
  | .descend t k => nfDescendantsW w tbl rep c st t k
  | .product t u => bucketProductW w tbl rep c st t u
  | .substrings t => substringsW w tbl rep c st t
  | .discard t => .ok (discardBucket st t)

/-- Operations small enough for 32-bit integers, for the representation of dimension `d` of the braid group with `n` strands modulo `p`:
images added by hand are reduced modulo `p`, `nf_descendants` does not add too many factors, and the second bucket of
`bucket_product` does not contain too wide images. -/
def TrackerOp.Small (n p : Nat) : TrackerOp d → Prop
  | .add b => ∀ S ∈ b.images, ∀ a i j, 0 ≤ S a i j ∧ S a i j < p
  | .descend _ k => d * ((k + 1) * (n * (n - 1)) + 1) * (p - 1) ^ 2 < 2 ^ 31
  | .product _ u => d * u.2.toNat * (p - 1) ^ 2 < 2 ^ 31
  | _ => True

/-- Operations small enough for 64-bit integers when there is no modulus: every product they form has at most `62 / (n (n - 1) / 2)` canonical
factors (the half twist in front of a stored braid counts as one). -/
def TrackerOp.Short (n : Nat) : TrackerOp d → Prop
  | .bootstrap upto => upto * (n * (n - 1) / 2) ≤ 62
  | .descend t k => (t.1.toNat + k) * (n * (n - 1) / 2) ≤ 62
  | .product t u => (t.1.toNat + u.1.toNat + 2) * (n * (n - 1) / 2) ≤ 62
  | .substrings t => (t.1.toNat + 1) * (n * (n - 1) / 2) ≤ 62
  | _ => True

/-- The states which a tracker with 64-bit integers can reach with short operations. -/
inductive MachineState (lim : Nat) (ω : List Nat → List Nat → Nat → Nat) (rep : Summand d) (ρ : Braid rep.n →* LMat rep.p d) (c : Config S NF d) :
    State S NF d → Prop where
  | new (s : S) : MachineState lim ω rep ρ c (State.init s)
  | step {st st' : State S NF d} (h : MachineState lim ω rep ρ c st) (op : TrackerOp d) (ha : op.Allowed lim ω rep ρ st) (hs : op.Short rep.n)
    (he : op.execW 64 (GNF.tbl lim ω) rep c st = .ok st') : MachineState lim ω rep ρ c st'

end BraidSearch
end Peyl
