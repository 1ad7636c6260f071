import Verif.Lemmas.BurauCell
import Mathlib.RingTheory.Coprime.Lemmas
/-!
# Elements with constant image under the Burau representation
-/
namespace Peyl
namespace Bur
open _root_.Matrix LaurentPolynomial
variable {n : Nat}

theorem strictMono_perm {w : Equiv.Perm (Fin n)} (h : StrictMono w) : w = 1 := by
  have := Subsingleton.elim (StrictMono.orderIsoOfSurjective w h w.surjective) (OrderIso.refl (Fin n))
  ext x; exact congrArg (fun e : Fin n ≃o Fin n => (e x).val) this

theorem mono_perm {w : Equiv.Perm (Fin n)} (h : ∀ j (hj : j + 2 < n), (w ⟨j, by omega⟩ < w ⟨j + 1, by omega⟩ ↔ w ⟨j + 1, by omega⟩ < w ⟨j + 2, by omega⟩)) :
    w = 1 ∨ w = w0 n := by
  match n, w, h with
  | 0, w, _ => exact .inl (Subsingleton.elim _ _)
  | 1, w, _ => exact .inl (Subsingleton.elim _ _)
  | n + 2, w, h =>
    have key : ∀ j (hj : j + 1 < n + 2), (w ⟨j, by omega⟩ < w ⟨j + 1, by omega⟩ ↔ w ⟨0, by omega⟩ < w ⟨1, by omega⟩) := by
      intro j hj
      induction j with
      | zero => rfl
      | succ j ih => rw [← ih (by omega), ← h j (by omega)]
    by_cases h0 : w ⟨0, by omega⟩ < w ⟨1, by omega⟩
    · left
      refine strictMono_perm (Fin.strictMono_iff_lt_succ.2 fun i => ?_)
      exact (key i.val (by omega)).2 h0
    · right
      have h1 : w0 (n + 2) * w = 1 := by
        refine strictMono_perm (Fin.strictMono_iff_lt_succ.2 fun i => ?_)
        have h2 : ¬ w i.castSucc < w i.succ := fun q => h0 ((key i.val (by omega)).1 q)
        have h3 : w i.castSucc ≠ w i.succ := fun q => absurd (w.injective q) (Fin.castSucc_lt_succ.ne)
        have h4 := lt_of_le_of_ne (not_lt.1 h2) (Ne.symm h3)
        simpa [w0, Equiv.Perm.mul_apply] using h4
      have h2 : w0 (n + 2) * w0 (n + 2) = 1 := by ext x; simp [w0]
      calc w = w0 (n + 2) * (w0 (n + 2) * w) := by rw [← mul_assoc, h2, one_mul]
        _ = _ := by rw [h1, mul_one]

variable {K : Type*} [CommRing K]

/-- Evaluation of Laurent polynomials at `-1`. -/
noncomputable def evm (K : Type*) [CommRing K] : K[T;T⁻¹] →+* K := eval₂ (RingHom.id K) (-1)

theorem evm_T (k : ℤ) : evm K (T k) = (((-1 : Kˣ) ^ k : Kˣ) : K) := by rw [evm, eval₂_T]
theorem evm_C (x : K) : evm K (C x) = x := by rw [evm, eval₂_C]; rfl

theorem evm_vT : Units.map ((evm K : K[T;T⁻¹] →+* K) : K[T;T⁻¹] →* K) (vT K) = -1 := by
  ext
  show evm K (T 1) = _
  rw [evm_T]; simp

theorem invert_vT : Units.map ((invert : K[T;T⁻¹] ≃ₐ[K] K[T;T⁻¹]).toRingEquiv.toRingHom : K[T;T⁻¹] →* K[T;T⁻¹]) (vT K) = (vT K)⁻¹ := by
  ext1
  show invert (T 1) = T (-1)
  rw [invert_T]

theorem J_eq (δ : K[T;T⁻¹]) (m : Nat) : J δ m = δ • (1 : _root_.Matrix (Fin m) (Fin m) K[T;T⁻¹]) + (J (0 : K) m).map C := by
  ext i j : 2
  simp only [J, _root_.Matrix.add_apply, _root_.Matrix.smul_apply, _root_.Matrix.one_apply, _root_.Matrix.map_apply, smul_eq_mul]
  split_ifs <;> simp

theorem coeff_zero_of (x y : K) (h : (T 1 + T (-1)) * C x + C y = (0 : K[T;T⁻¹])) : x = 0 := by
  have := congrArg (fun f => f.coeff 1) h
  rw [add_mul, mul_comm (T 1), mul_comm (T (-1)), ← single_eq_C_mul_T, ← single_eq_C_mul_T, ← single_eq_C] at this
  have h2 : Finsupp.single (1 : ℤ) x 1 + Finsupp.single (-1 : ℤ) x 1 + Finsupp.single (0 : ℤ) y 1 = 0 := this
  rw [Finsupp.single_apply, Finsupp.single_apply, Finsupp.single_apply] at h2
  simpa using h2

/-- An element whose image is a constant matrix up to a power of `v`. -/
def Const (b : Braid n) (k : ℤ) (M : _root_.Matrix (Fin (n - 1)) (Fin (n - 1)) K) : Prop := rep n (vT K) b = (T k : K[T;T⁻¹]) • M.map C

theorem Const.orth {b : Braid n} {k : ℤ} {M : _root_.Matrix (Fin (n - 1)) (Fin (n - 1)) K} (h : Const b k M) : Mᵀ * M = 1 := by
  have hi : rep n (vT K)⁻¹ b = (T (-k) : K[T;T⁻¹]) • M.map C := by
    rw [← invert_vT, ← rep_map, show rep n (vT K) b = _ from h]
    refine _root_.Matrix.ext fun i j => ?_
    simp only [_root_.Matrix.map_apply, _root_.Matrix.smul_apply, smul_eq_mul, map_mul]
    show invert (T k) * invert (C (M i j)) = _
    rw [invert_T, invert_C]
  have hu := unitary (vT K) b
  have hδ : ((vT K : (K[T;T⁻¹])ˣ) : K[T;T⁻¹]) + (((vT K)⁻¹ : (K[T;T⁻¹])ˣ) : K[T;T⁻¹]) = T 1 + T (-1) := rfl
  rw [hi, show rep n (vT K) b = _ from h, hδ, J_eq, transpose_smul, smul_mul_assoc, smul_mul_assoc, mul_smul_comm, smul_smul, ← T_add, neg_add_cancel, T_zero, one_smul,
    ← transpose_map, mul_add, add_mul, mul_smul_comm, mul_one, smul_mul_assoc, ← _root_.Matrix.map_mul, ← _root_.Matrix.map_mul, ← _root_.Matrix.map_mul] at hu
  ext i j
  have h1 := congrFun (congrFun hu i) j
  simp only [_root_.Matrix.add_apply, _root_.Matrix.smul_apply, smul_eq_mul] at h1
  have h2 := coeff_zero_of ((Mᵀ * M) i j - (1 : _root_.Matrix (Fin (n - 1)) (Fin (n - 1)) K) i j) ((Mᵀ * J (0 : K) (n - 1) * M : _root_.Matrix (Fin (n - 1)) (Fin (n - 1)) K) i j - J (0 : K) (n - 1) i j) (by
    have h3 : (1 : _root_.Matrix (Fin (n - 1)) (Fin (n - 1)) K[T;T⁻¹]) i j = C ((1 : _root_.Matrix (Fin (n - 1)) (Fin (n - 1)) K) i j) := by
      rw [_root_.Matrix.one_apply, _root_.Matrix.one_apply]; split_ifs <;> simp
    rw [h3] at h1
    simp only [_root_.Matrix.map_apply] at h1
    rw [map_sub, map_sub]
    linear_combination h1)
  exact sub_eq_zero.1 h2

theorem Const.perm [Nontrivial K] {b : Braid n} {k : ℤ} {M : _root_.Matrix (Fin (n - 1)) (Fin (n - 1)) K} (h : Const b k M) :
    M = (((-1 : Kˣ) ^ k : Kˣ) : K) • refl 1 ∨ M = (((-1 : Kˣ) ^ k : Kˣ) : K) • refl (w0 n) := by
  obtain ⟨w, hw⟩ := rep_neg_one (R := K) b
  have hM : (((-1 : Kˣ) ^ k : Kˣ) : K) • M = refl w := by
    have h1 : rep n (-1 : Kˣ) b = (rep n (vT K) b).map (evm K) := by rw [rep_map, evm_vT]
    rw [← hw, h1, show rep n (vT K) b = _ from h]
    ext i j
    simp only [_root_.Matrix.map_apply, _root_.Matrix.smul_apply, smul_eq_mul, map_mul, evm_T, evm_C]
  have hsq : (((-1 : Kˣ) ^ k : Kˣ) : K) * (((-1 : Kˣ) ^ k : Kˣ) : K) = 1 := by
    rw [← Units.val_mul, ← mul_zpow]; simp
  have hM' : M = (((-1 : Kˣ) ^ k : Kˣ) : K) • refl w := by rw [← hM, smul_smul, hsq, one_smul]
  have ho : (refl w : _root_.Matrix (Fin (n - 1)) (Fin (n - 1)) K)ᵀ * refl w = 1 := by
    rw [← hM, transpose_smul, smul_mul_assoc, mul_smul_comm, smul_smul, hsq, one_smul, h.orth]
  rcases mono_perm fun j hj => refl_orth w ho hj with rfl | rfl
  · exact .inl hM'
  · exact .inr hM'

end Bur
end Peyl
