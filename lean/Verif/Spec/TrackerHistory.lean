import Verif.Spec.Descend
/-!
# Specification vocabulary: everything a user can do with a `braidsearch.Tracker`
-/
namespace Peyl
namespace BraidSearch
variable {S : Type} {d : Nat}

/-- The public operations of a tracker that change it. -/
inductive TrackerOp (d : Nat) where
  | add (b : Bucketing.Batch NF d)
  | bootstrap (upto : Nat)
  | descend (t : Tag) (k : Nat)
  | product (t u : Tag)
  | substrings (t : Tag)
  | discard (t : Tag)

variable (tbl : Nat → Except Err (NFTable (List Nat)))

def TrackerOp.exec (rep : Summand d) (c : Config S NF d) (st : State S NF d) : TrackerOp d → Except Err (State S NF d)
  | .add b => addBraidsImages c st b
  | .bootstrap upto => bootstrapExhaustive tbl rep c st upto
  | .descend t k => nfDescendants tbl rep c st t k
  | .product t u => bucketProduct tbl rep c st t u
  | .substrings t => BraidSearch.substrings tbl rep c st t
  | .discard t => .ok (discardBucket st t)

/-- What the user has to respect: only true images are added by hand, and `nf_descendants` is only applied to buckets of braids
with Δ-power zero. -/
def TrackerOp.Allowed (lim : Nat) (ω : List Nat → List Nat → Nat → Nat) (rep : Summand d) (ρ : Braid rep.n →* LMat rep.p d) (st : State S NF d) :
    TrackerOp d → Prop
  | .add b => TrueBatch lim ω rep ρ b
  | .descend t _ => ∀ b, (t, b) ∈ st.buckets → ∀ x ∈ b.braids, x.power = 0
  | _ => True

/-- The states a tracker can be in. -/
inductive TrackerState (lim : Nat) (ω : List Nat → List Nat → Nat → Nat) (rep : Summand d) (ρ : Braid rep.n →* LMat rep.p d) (c : Config S NF d) :
    State S NF d → Prop where
  | new (s : S) : TrackerState lim ω rep ρ c (State.init s)
  | step {st st' : State S NF d} (h : TrackerState lim ω rep ρ c st) (op : TrackerOp d) (ha : op.Allowed lim ω rep ρ st)
    (he : op.exec (GNF.tbl lim ω) rep c st = .ok st') : TrackerState lim ω rep ρ c st'

end BraidSearch
end Peyl
