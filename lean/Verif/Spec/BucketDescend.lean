import Verif.Spec.Bucketing
import Verif.Spec.Rep
import Verif.Spec.DGNF
/-!
# Specification vocabulary: a `bucketing.Tracker` for braids of one class, with true images

`legal` says which normal forms are meant (`GNF` or `DGNF` objects with power zero), `M x` is the matrix of the braid `x`.
-/
namespace Peyl
namespace Bucketing
variable {S T : Type} [DecidableEq T] {d p : Nat}

/-- The statistics can be computed for every batch; with AChao the weights are positive. -/
structure Config.Total (c : Config NF d) : Prop where
  extra : ∀ st ∈ c.extra, ∀ b, ∃ f, st b = .ok f
  weight : ∀ st, c.weight = some st → ∀ b, ∃ f, st b = .ok f ∧ (c.method = .aChao → ∀ i, 0 < f i)

/-- A non-empty batch of legal braids whose images are right: reduced mod `p`, and equal to the matrices of the braids up to powers
of `v`. -/
structure TrueBatch (p : Nat) (legal : NF → Prop) (M : NF → LMat p d) (b : Batch NF d) : Prop where
  pos : 0 < b.len
  legal : ∀ i, legal (b.braids i)
  reduced : ReducedMod p b.images
  shift : UpToShift p b.images fun i => M (b.braids i)

/-- Every stored pair is right: a legal braid with its projectivised image, filed under its own length and projlen. -/
def Sound (p : Nat) (legal : NF → Prop) (M : NF → LMat p d) (bs : Buckets NF d) : Prop :=
  ∀ t b, (t, b) ∈ bs → ∃ l, Holds b l ∧ l ≠ [] ∧
    ∀ o ∈ l, legal o.braid ∧ IsProjImage p o.image (fun _ => M o.braid) ∧ (NF.canonicalLength o.braid : ℤ) = t.1 ∧ (o.image.length : ℤ) = t.2.1

/-- A tracker set up for a representation: its matrices are those of a representation `ρ` of the braid group in which the full twist
acts by a power of `v`, the ring is not trivial, the statistics are total and contain the canonical length, a bucket has room for
one braid. -/
structure SetUp (rep : RepBase d) (ρ : Braid rep.n →* LMat rep.p d) (c : Config NF d) : Prop where
  real : Realises rep ρ
  twist : FullTwistScalar ρ
  dim : 0 < d
  ring : rep.p ≠ 1
  total : c.Total
  length : c.length = NF.canonicalLength
  capacity : 1 ≤ c.capacity

/-- `GNF` objects on `n` strands with power zero. -/
def GLegal (lim : Nat) (ω : List Nat → List Nat → Nat → Nat) (n : Nat) (x : NF) : Prop := IsGNF lim ω n x ∧ x.power = 0

/-- `DGNF` objects on `n` strands with power zero. -/
def DLegal (lim : Nat) (ω : NPar → NPar → Nat → Nat) (n : Nat) (x : NF) : Prop := IsDGNF lim ω n x ∧ x.power = 0

/-- The matrix of a `GNF` object. -/
noncomputable def GMat {n : Nat} (ρ : Braid n →* LMat p d) (x : NF) : LMat p d := ρ (gnfBraid n x)

/-- The matrix of a `DGNF` object. -/
noncomputable def DMat {n : Nat} (ρ : Braid n →* LMat p d) (x : NF) : LMat p d := ρ (dgnfBraid n x)

/-- What a user does with a tracker. -/
inductive TrackerOp (d : Nat) where
  | bootstrap (upto : Nat)
  | descend (t : Tag) (k : Nat)
  | discard (t : Tag)
  | add (b : Batch NF d)

/-- Execute one operation. -/
def TrackerOp.exec (tbl : Nat → Except Err (NFTable T)) (rep : Rep d) (g : Rng S) (c : Config NF d) (argsort : List Nat → List Nat)
    (tr : Tracker S T d) : TrackerOp d → Except Err (Tracker S T d)
  | .bootstrap upto => bootstrapExhaustive tbl rep g c upto tr
  | .descend t k => nfDescendants tbl rep g c argsort tr t k
  | .discard t => .ok { tr with buckets := discardBucket tr.buckets t }
  | .add b => do
    let st ← addBraidsImages g c (tr.buckets, tr.rng) b
    .ok { tr with buckets := st.1, rng := st.2 }

/-- Execute a history on a new tracker. -/
def history (tbl : Nat → Except Err (NFTable T)) (rep : Rep d) (g : Rng S) (c : Config NF d) (argsort : List Nat → List Nat) (s : S)
    (ops : List (TrackerOp d)) : Except Err (Tracker S T d) :=
  ops.foldlM (TrackerOp.exec tbl rep g c argsort) ⟨[], [], s⟩

/-- The braids of a list of batches, in the order in which they are offered. -/
def braidsOf (bs : List (Batch NF d)) : List NF := bs.flatMap fun b => List.ofFn b.braids

end Bucketing
end Peyl
