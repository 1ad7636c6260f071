import Verif.Lemmas.Polymat
import Verif.Spec.Braid
import Mathlib.LinearAlgebra.Matrix.SchurComplement
/-!
# `polymat.burau_generator_v2` (C75)
-/
namespace Peyl
open Polynomial Polymat

namespace Burau
variable {m : Nat}

/-- Row `s` of `1 - M_s`. -/
noncomputable def row (s : Fin m) : Fin m → ℤ[X] := fun j =>
  if j = s then 1 + X ^ 2 else if j.val = s.val + 1 ∨ j.val + 1 = s.val then X else 0

noncomputable def U (s : Fin m) : _root_.Matrix (Fin m) (Fin m) ℤ[X] := _root_.Matrix.vecMulVec (Pi.single s 1) (row s)

theorem U_mul (s t : Fin m) : U s * U t = row s t • _root_.Matrix.vecMulVec (Pi.single s 1) (row t) := by
  rw [U, U, _root_.Matrix.vecMulVec_mul_vecMulVec]
  simp [dotProduct_single, _root_.Matrix.vecMulVec_smul]

theorem U_sq (s : Fin m) : U s * U s = (1 + X ^ 2 : ℤ[X]) • U s := by
  rw [U_mul]; simp [row, U]

theorem U_far {s t : Fin m} (h : s.val + 2 ≤ t.val ∨ t.val + 2 ≤ s.val) : U s * U t = 0 := by
  rw [U_mul, row, if_neg (by intro e; subst e; omega), if_neg (by omega), zero_smul]

theorem row_adj {s t : Fin m} (h : s.val + 1 = t.val ∨ t.val + 1 = s.val) : row s t = X := by
  rw [row, if_neg (by intro e; subst e; omega), if_pos (by omega)]

theorem U_adj {s t : Fin m} (h : s.val + 1 = t.val ∨ t.val + 1 = s.val) : U s * U t * U s = (X ^ 2 : ℤ[X]) • U s := by
  have h2 : row s t = X := row_adj h
  have h1 : row t s = X := row_adj (by omega)
  rw [U_mul, h2, U, smul_mul_assoc, _root_.Matrix.vecMulVec_mul_vecMulVec]
  simp [dotProduct_single, _root_.Matrix.vecMulVec_smul, smul_smul, h1, pow_two]

end Burau
open Burau

theorem burau_den (n s : Nat) (hs : s < n - 1) :
    ∃ M, burauGenerator n s = .ok M ∧ den M () = 1 - U ⟨s, hs⟩ := by
  refine ⟨_, by rw [burauGenerator, if_neg (by omega), if_neg (by omega)], ?_⟩
  ext i j d
  rw [coeff_den, slice_map_range]
  simp only [_root_.Matrix.sub_apply, U, _root_.Matrix.vecMulVec_apply, row, _root_.Matrix.one_apply, Pi.single_apply]
  by_cases h1 : i.val = s
  · have hi : i = ⟨s, hs⟩ := Fin.ext h1
    subst hi
    by_cases h2 : j.val = s
    · have hj : j = ⟨s, hs⟩ := Fin.ext h2
      subst hj
      rcases d with _ | _ | _ | d <;> simp [coeff_X, coeff_one, coeff_X_pow]
      rw [if_neg (by omega)]; rfl
    · have hj : j ≠ ⟨s, hs⟩ := fun e => h2 (congrArg Fin.val e)
      by_cases h3 : j.val = s + 1 ∨ j.val + 1 = s
      · rcases d with _ | _ | _ | d <;> simp [coeff_X, hj, hj.symm, if_pos h3]
        rw [if_neg (by omega)]; rfl
      · rcases d with _ | _ | _ | d <;> simp [hj, hj.symm, if_neg h3, Ne.symm h2]
        rw [if_neg (by omega)]; rfl
  · have hi : i ≠ ⟨s, hs⟩ := fun e => h1 (congrArg Fin.val e)
    by_cases h2 : i = j
    · subst h2
      rcases d with _ | _ | _ | d <;> simp [coeff_one, h1, hi]
      rw [if_neg (by omega)]; rfl
    · have : i.val ≠ j.val := fun e => h2 (Fin.ext e)
      rcases d with _ | _ | _ | d <;> simp [h1, hi, h2, this]
      rw [if_neg (by omega)]; rfl

/-- C75: the Burau generators exist exactly for `1 ≤ n` and `s < n - 1`. -/
theorem C75_defined (n s : Nat) : (∃ M, burauGenerator n s = .ok M) ↔ s < n - 1 := by
  constructor
  · rintro ⟨M, h⟩
    rw [burauGenerator] at h
    split at h
    · cases h
    · split at h
      · cases h
      · omega
  · intro h
    obtain ⟨M, h, -⟩ := burau_den n s h
    exact ⟨M, h⟩

/-- C75: braid relation for neighbouring generators. -/
theorem C75_braid (n s : Nat) (A B : PArr Unit (n - 1) (n - 1)) (hA : burauGenerator n s = .ok A)
    (hB : burauGenerator n (s + 1) = .ok B) : den A () * den B () * den A () = den B () * den A () * den B () := by
  have h := (C75_defined n (s + 1)).1 ⟨B, hB⟩
  obtain ⟨A', a1, a2⟩ := burau_den n s (by omega)
  obtain ⟨B', b1, b2⟩ := burau_den n (s + 1) h
  cases (hA.symm.trans a1); cases (hB.symm.trans b1)
  rw [a2, b2]
  set u := U (⟨s, by omega⟩ : Fin (n - 1)) with hu
  set v := U (⟨s + 1, h⟩ : Fin (n - 1)) with hv
  have e1 : u * u = (1 + X ^ 2 : ℤ[X]) • u := U_sq _
  have e2 : v * v = (1 + X ^ 2 : ℤ[X]) • v := U_sq _
  have e3 : u * v * u = (X ^ 2 : ℤ[X]) • u := U_adj (Or.inl rfl)
  have e4 : v * u * v = (X ^ 2 : ℤ[X]) • v := U_adj (Or.inr rfl)
  have l : (1 - u) * (1 - v) * (1 - u) = 1 - u - u - v + u * u + u * v + v * u - u * v * u := by noncomm_ring
  have r : (1 - v) * (1 - u) * (1 - v) = 1 - u - v - v + v * v + u * v + v * u - v * u * v := by noncomm_ring
  rw [l, r, e1, e2, e3, e4, add_smul, add_smul, one_smul, one_smul]
  abel

/-- C75: far generators commute. -/
theorem C75_commute (n s t : Nat) (hst : s + 2 ≤ t) (A B : PArr Unit (n - 1) (n - 1)) (hA : burauGenerator n s = .ok A)
    (hB : burauGenerator n t = .ok B) : den A () * den B () = den B () * den A () := by
  have h := (C75_defined n t).1 ⟨B, hB⟩
  obtain ⟨A', a1, a2⟩ := burau_den n s (by omega)
  obtain ⟨B', b1, b2⟩ := burau_den n t h
  cases (hA.symm.trans a1); cases (hB.symm.trans b1)
  have e1 : U (⟨s, by omega⟩ : Fin (n - 1)) * U ⟨t, h⟩ = 0 := U_far (Or.inl hst)
  have e2 : U (⟨t, h⟩ : Fin (n - 1)) * U ⟨s, by omega⟩ = 0 := U_far (Or.inr hst)
  rw [a2, b2, sub_mul, mul_sub, mul_sub, sub_mul, mul_sub, mul_sub, e1, e2]
  simp only [one_mul, mul_one, sub_zero]
  abel

/-- C75: each generator has determinant `-v²`. -/
theorem C75_det (n s : Nat) (A : PArr Unit (n - 1) (n - 1)) (hA : burauGenerator n s = .ok A) :
    (den A ()).det = -X ^ 2 := by
  obtain ⟨A', a1, a2⟩ := burau_den n s ((C75_defined n s).1 ⟨A, hA⟩)
  cases (hA.symm.trans a1)
  rw [a2, U, _root_.Matrix.vecMulVec_eq Unit, sub_eq_add_neg, ← _root_.Matrix.mul_neg,
    show -_root_.Matrix.replicateRow Unit (row ⟨s, _⟩) = _root_.Matrix.replicateRow Unit (-row ⟨s, (C75_defined n s).1 ⟨A, hA⟩⟩) from rfl,
    _root_.Matrix.det_one_add_replicateCol_mul_replicateRow]
  simp [row]

example : ∃ A B, burauGenerator 4 1 = .ok A ∧ burauGenerator 4 (1 + 1) = .ok B :=
  ⟨_, _, rfl, rfl⟩
example : ∃ A B, burauGenerator 4 0 = .ok A ∧ burauGenerator 4 2 = .ok B := ⟨_, _, rfl, rfl⟩

end Peyl
