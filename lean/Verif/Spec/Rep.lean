import Verif.Model.RepBase
import Verif.Model.BraidSearch
import Verif.Spec.Polymat
import Verif.Spec.BraidNF
import Verif.Lemmas.LPolyCoeff
import Mathlib.Algebra.Polynomial.Laurent
/-!
# Specification vocabulary: representations of braid groups and projective images

`ZMod p` is `ℤ` for `p = 0`, so both coefficient rings of the code are covered.
-/
namespace Peyl
open LaurentPolynomial

/-- `d × d` matrices over `(ℤ/p)[v, v⁻¹]`. -/
abbrev LMat (p d : Nat) := _root_.Matrix (Fin d) (Fin d) (ZMod p)[T;T⁻¹]

/-- The matrix over `(ℤ/p)[v, v⁻¹]` a matrix object stands for. -/
noncomputable def Matrix.denMod (p d : Nat) (m : Matrix) : LMat p d := (m.den d d).map (LPoly.red p)

/-- The matrix over `(ℤ/p)[v, v⁻¹]` a tensor stands for at batch index `a`. -/
noncomputable def Polymat.denMod (p : Nat) {α : Type} {d : Nat} (A : PArr α d d) (a : α) : LMat p d :=
  (Polymat.den A a).map fun f => LPoly.red p f.toLaurent

/-- The tensor `A` stands for the matrices `M a` up to powers of `v`. -/
def UpToShift (p : Nat) {α : Type} {d : Nat} (A : PArr α d d) (M : α → LMat p d) : Prop :=
  ∀ a, ∃ k : ℤ, Polymat.denMod p A a = (T k : (ZMod p)[T;T⁻¹]) • M a

/-- Entries in `[0, p)` (no condition for `p = 0`). -/
def ReducedMod (p : Nat) {α : Type} {d : Nat} (A : PArr α d d) : Prop :=
  p ≠ 0 → ∀ S ∈ A, ∀ a i j, 0 ≤ S a i j ∧ S a i j < p

/-- The tensor `A` is the projectivised form of the matrices `M a`: every matrix starts in degree zero, the last degree is
used, the coefficients are reduced mod `p`, and `A` is `M` up to powers of `v`. -/
structure IsProjImage (p : Nat) {α : Type} {d : Nat} (A : PArr α d d) (M : α → LMat p d) : Prop where
  first : ∀ a, Polymat.slice A 0 a ≠ 0
  last : ∃ a, Polymat.slice A (A.length - 1) a ≠ 0
  reduced : ReducedMod p A
  shift : UpToShift p A M

/-- `rep` realises the homomorphism `ρ`: its matrices are Laurent polynomial matrices of size `d × d` which modulo `p` are the
images of the Artin generators and of their inverses. -/
structure Realises {d : Nat} (rep : RepBase d) (ρ : Braid rep.n →* LMat rep.p d) : Prop where
  gens_len : rep.gens.length = rep.n - 1
  invs_len : rep.invs.length = rep.n - 1
  gens : ∀ i (h : i < rep.gens.length), rep.gens[i].Shape d d ∧ (∀ x ∈ rep.gens[i].data, ∃ q, x = .lp q) ∧
    rep.gens[i].denMod rep.p d = ρ (sigma rep.n i)
  invs : ∀ i (h : i < rep.invs.length), rep.invs[i].Shape d d ∧ (∀ x ∈ rep.invs[i].data, ∃ q, x = .lp q) ∧
    rep.invs[i].denMod rep.p d = ρ (sigma rep.n i)⁻¹

/-- The same for a `JonesSummand`, whose generators are tensors that matter up to powers of `v` only. -/
structure SummandRealises {d : Nat} (rep : BraidSearch.Summand d) (ρ : Braid rep.n →* LMat rep.p d) : Prop where
  gens_len : rep.gens.length = rep.n - 1
  gens : ∀ i (h : i < rep.gens.length), UpToShift rep.p rep.gens[i] fun _ => ρ (sigma rep.n i)

/-- The square of the half twist acts by a power of `v`. -/
def FullTwistScalar {p d n : Nat} (ρ : Braid n →* LMat p d) : Prop := ∃ k : ℤ, ρ (halfTwist n ^ 2) = (T k : (ZMod p)[T;T⁻¹]) • 1

/-- Artin's relations for the matrices of `rep`, modulo `p`: they are Laurent polynomial matrices of the right size, those of
the inverses are inverse to those of the generators, far generators commute, neighbouring ones satisfy the braid relation. -/
structure RepBase.Relations {d : Nat} (rep : RepBase d) : Prop where
  gens_len : rep.gens.length = rep.n - 1
  invs_len : rep.invs.length = rep.n - 1
  gens : ∀ m ∈ rep.gens, m.Shape d d ∧ ∀ x ∈ m.data, ∃ q, x = .lp q
  invs : ∀ m ∈ rep.invs, m.Shape d d ∧ ∀ x ∈ m.data, ∃ q, x = .lp q
  right_inv : ∀ i (h : i < rep.gens.length) (h' : i < rep.invs.length), rep.gens[i].denMod rep.p d * rep.invs[i].denMod rep.p d = 1
  left_inv : ∀ i (h : i < rep.gens.length) (h' : i < rep.invs.length), rep.invs[i].denMod rep.p d * rep.gens[i].denMod rep.p d = 1
  far : ∀ i j (h : j < rep.gens.length) (hij : i + 2 ≤ j), rep.gens[i].denMod rep.p d * rep.gens[j].denMod rep.p d =
    rep.gens[j].denMod rep.p d * rep.gens[i].denMod rep.p d
  braid : ∀ i (h : i + 1 < rep.gens.length),
    rep.gens[i].denMod rep.p d * rep.gens[i + 1].denMod rep.p d * rep.gens[i].denMod rep.p d =
    rep.gens[i + 1].denMod rep.p d * rep.gens[i].denMod rep.p d * rep.gens[i + 1].denMod rep.p d

/-- Reduction mod `p` as `evaluate` does it (nothing for `p = 0`). -/
def Matrix.reduceMod (p : Nat) (m : Matrix) : Matrix := if p ≠ 0 then m.map (Entry.modp p) else m

end Peyl
