import Verif.Spec.BraidSearch
import Verif.Spec.Rep
/-!
# Specification vocabulary: batches of true images, histories of a search
-/
namespace Peyl
open LaurentPolynomial in
/-- The matrix of a braid is a power of `v` times a constant matrix: what the search looks for. -/
def NearKernel {p d n : Nat} (τ : Braid n →* LMat p d) (β : Braid n) : Prop :=
  ∃ (k : ℤ) (M : _root_.Matrix (Fin d) (Fin d) (ZMod p)), τ β = (T k : (ZMod p)[T;T⁻¹]) • M.map C

namespace BraidSearch
variable {S : Type} {d : Nat}

/-- A non-empty batch of `GNF` braids whose images are right: starting in degree zero, reduced mod `p`, and equal to the matrices
of the braids up to powers of `v`. -/
structure TrueBatch (lim : Nat) (ω : List Nat → List Nat → Nat → Nat) (rep : Summand d) (ρ : Braid rep.n →* LMat rep.p d)
    (b : Bucketing.Batch NF d) : Prop where
  pos : 0 < b.len
  gnf : ∀ i, IsGNF lim ω rep.n (b.braids i)
  first : ∀ i, Polymat.slice b.images 0 i ≠ 0
  reduced : ReducedMod rep.p b.images
  shift : UpToShift rep.p b.images fun i => ρ (gnfBraid rep.n (b.braids i))

/-- A stored pair is right: a `GNF` braid with its projectivised image. -/
def TrueOffer (lim : Nat) (ω : List Nat → List Nat → Nat → Nat) (rep : Summand d) (ρ : Braid rep.n →* LMat rep.p d) (o : Offer NF d) : Prop :=
  IsGNF lim ω rep.n o.braid ∧ IsProjImage rep.p o.image fun _ => ρ (gnfBraid rep.n o.braid)

/-- Every stored pair of a tracker is right, and filed under its own length and projlen. -/
def Sound (lim : Nat) (ω : List Nat → List Nat → Nat → Nat) (rep : Summand d) (ρ : Braid rep.n →* LMat rep.p d) (st : State S NF d) : Prop :=
  ∀ t b, (t, b) ∈ st.buckets → ∃ l, Holds b l ∧ l ≠ [] ∧
    ∀ o ∈ l, TrueOffer lim ω rep ρ o ∧ (NF.canonicalLength o.braid : ℤ) = t.1 ∧ (o.image.length : ℤ) = t.2

/-- A state reached from an empty tracker by offering right images of braids satisfying `Q`, and discarding. -/
def Reach (lim : Nat) (ω : List Nat → List Nat → Nat → Nat) (rep : Summand d) (ρ : Braid rep.n →* LMat rep.p d) (c : Config S NF d)
    (Q : NF → Prop) (st : State S NF d) : Prop :=
  ∃ s ops, (∀ b, Op.add b ∈ ops → TrueBatch lim ω rep ρ b ∧ ∀ i, Q (b.braids i)) ∧ run c (State.init s) ops = .ok st

/-- What the search does with a tracker. -/
inductive SearchOp (d : Nat) where
  | bootstrap (upto : Nat)
  | descend (t : Tag) (k : Nat)
  | discard (t : Tag)
  | add (b : Bucketing.Batch NF d)

variable (tbl : Nat → Except Err (NFTable (List Nat)))

def SearchOp.exec (rep : Summand d) (c : Config S NF d) (st : State S NF d) : SearchOp d → Except Err (State S NF d)
  | .bootstrap upto => bootstrapExhaustive tbl rep c st upto
  | .descend t k => nfDescendants tbl rep c st t k
  | .discard t => .ok (discardBucket st t)
  | .add b => addBraidsImages c st b

/-- The braids of a list of batches, in the order in which they are offered. -/
def braidsOf (bs : List (Bucketing.Batch NF d)) : List NF := bs.flatMap fun b => List.ofFn b.braids

end BraidSearch
end Peyl
