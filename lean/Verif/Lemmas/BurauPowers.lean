import Verif.Lemmas.BurauDelta
import Mathlib.LinearAlgebra.Matrix.Adjugate
/-!
# The exponent sum, the determinant, and the exact image of the powers of the half twist
-/
namespace Peyl
namespace Bur
open _root_.Matrix LaurentPolynomial
variable {n : Nat}

/-! ## Exponent sum -/
theorem exists_expo (n : Nat) : ∃ φ : Braid n →* Multiplicative ℤ, ∀ i, i + 1 < n → φ (sigma n i) = Multiplicative.ofAdd 1 :=
  braid_lift (fun _ => Multiplicative.ofAdd (1 : ℤ)) (fun _ _ _ _ => rfl) (fun _ _ => rfl)

/-- The sum of the exponents of a word spelling the braid. -/
noncomputable def expo (n : Nat) (b : Braid n) : ℤ := Multiplicative.toAdd ((exists_expo n).choose b)

theorem expo_sigma {i : Nat} (h : i + 1 < n) : expo n (sigma n i) = 1 := by rw [expo, (exists_expo n).choose_spec i h]; rfl
theorem expo_mul (a b : Braid n) : expo n (a * b) = expo n a + expo n b := by rw [expo, map_mul]; rfl
theorem expo_one : expo n 1 = 0 := by rw [expo, map_one]; rfl
theorem expo_inv (a : Braid n) : expo n a⁻¹ = -expo n a := by rw [expo, map_inv]; rfl
theorem expo_zpow (a : Braid n) (k : ℤ) : expo n (a ^ k) = k * expo n a := by rw [expo, map_zpow, toAdd_zpow]; rfl

theorem expo_posWord : ∀ w : List Nat, (∀ s ∈ w, s + 1 < n) → expo n (posWord n w) = w.length
  | [], _ => by simp [posWord, expo_one]
  | s :: w, h => by
    have : posWord n (s :: w) = sigma n s * posWord n w := by simp [posWord]
    rw [this, expo_mul, expo_sigma (h s (by simp)), expo_posWord w fun s hs => h s (by simp [hs])]
    push_cast [List.length_cons]; ring

theorem expo_lift (π : Equiv.Perm (Fin n)) : expo n (lift π) = inv π := by
  obtain ⟨w, hw⟩ := exists_reduced π
  rw [lift_eq_posWord hw, expo_posWord w hw.1, hw.2.2]

theorem two_expo_half : 2 * expo n (halfTwist n) = n * (n - 1) := by
  rw [halfTwist, expo_lift, inv_w0_eq]
  have := Finset.sum_range_id_mul_two n
  cases n with
  | zero => simp
  | succ m =>
    rw [mul_comm]
    have h : ((∑ i ∈ Finset.range (m + 1), i) * 2 : ℕ) = (m + 1) * m := by simpa using this
    push_cast
    have h' : (((∑ i ∈ Finset.range (m + 1), i : ℕ) : ℤ)) * 2 = (m + 1) * m := by exact_mod_cast h
    push_cast at h'
    rw [h']; ring

/-! ## Determinant -/
section det
variable {R : Type*} [CommRing R]

theorem det_gen {m : Nat} (v : Rˣ) (i : Fin m) : (gen v i).det = -((v : R) * v) := by
  have : gen v i = (1 : _root_.Matrix (Fin m) (Fin m) R).updateRow i (gen v i i) := by
    ext a c
    rw [updateRow_apply]
    split_ifs with h
    · rw [h]
    · rw [gen, _root_.Matrix.sub_apply, _root_.Matrix.smul_apply, E_apply, if_neg h]; simp
  rw [this, ← cramer_transpose_apply, transpose_one, cramer_one]
  show gen v i i i = _
  rw [gen, _root_.Matrix.sub_apply, _root_.Matrix.smul_apply, E_apply, if_pos rfl, J, if_pos rfl, one_apply_eq, smul_eq_mul, mul_add]
  simp

theorem det_rep (v : Rˣ) (b : Braid n) : (rep n v b).det = (((-(v * v)) ^ expo n b : Rˣ) : R) := by
  induction b using braid_induction with
  | one => simp [expo_one]
  | mul i b hi ih =>
    rw [map_mul, det_mul, ih, rep_sigma _ hi, det_gen, expo_mul, expo_sigma (by omega), zpow_add, zpow_one, Units.val_mul]
    simp
  | inv i b hi ih =>
    rw [map_mul, det_mul, ih, rep_sigma_inv _ hi, det_gen, expo_mul, expo_inv, expo_sigma (by omega), zpow_add, zpow_neg, zpow_one, Units.val_mul]
    congr 1
end det

/-- A braid in the kernel has exponent sum 0. -/
theorem expo_ker {K : Type*} [CommRing K] [Nontrivial K] {b : Braid n} (h : rep n (vT K) b = 1) : expo n b = 0 := by
  have h1 := det_rep (vT K) b
  rw [h, det_one] at h1
  have h2 : (((-(vT K * vT K)) ^ expo n b : (K[T;T⁻¹])ˣ) : K[T;T⁻¹]) = (((-1 : (K[T;T⁻¹])ˣ) ^ expo n b : (K[T;T⁻¹])ˣ) : K[T;T⁻¹]) * T (2 * expo n b) := by
    have e : -(vT K * vT K) = (-1) * (vT K ^ (2 : ℤ)) := by
      rw [zpow_ofNat, pow_two, neg_mul, one_mul]
    rw [e, mul_zpow, Units.val_mul, ← zpow_mul]
    congr 1
    induction (2 * expo n b) using Int.induction_on with
    | zero => simp
    | succ k ih => rw [zpow_add_one, Units.val_mul, ih, T_add]; rfl
    | pred k ih => rw [zpow_sub_one, Units.val_mul, ih, T_sub, T]; rfl
  rw [h2] at h1
  by_contra h0
  have h3 : ((1 : K[T;T⁻¹])).coeff 0 = 1 := by rw [← T_zero, T, AddMonoidAlgebra.coeff_single, Finsupp.single_apply, if_pos rfl]
  have h4 : (((((-1 : (K[T;T⁻¹])ˣ) ^ expo n b : (K[T;T⁻¹])ˣ) : K[T;T⁻¹]) * T (2 * expo n b))).coeff 0 = 0 := by
    rcases Int.even_or_odd (expo n b) with q | q
    · rw [q.neg_one_zpow, Units.val_one, one_mul, T, AddMonoidAlgebra.coeff_single, Finsupp.single_apply, if_neg (by omega)]
    · rw [q.neg_one_zpow, Units.val_neg, Units.val_one, neg_one_mul, T]
      show -((AddMonoidAlgebra.single (2 * expo n b) (1 : K)).coeff 0) = 0
      rw [AddMonoidAlgebra.coeff_single, Finsupp.single_apply, if_neg (by omega), neg_zero]
  rw [← h1, h3] at h4
  exact one_ne_zero h4

/-! ## Powers of the half twist -/
section half
variable {K : Type*} [CommRing K]

/-- The sign of the image of the half twist. -/
theorem const_half_sign [Nontrivial K] (hn : 2 ≤ n) : Const (K := K) (halfTwist n) n ((-1 : K) ^ (n + 1) • flip (n - 1)) := by
  rcases Nat.lt_or_ge n 3 with h3 | h3
  · obtain rfl : n = 2 := by omega
    have h2 : halfTwist 2 = sigma 2 0 := by rw [halfTwist_eq (by omega)]; simp [JM.half, JM.dn]
    rw [Const, h2, rep_sigma _ (by omega)]
    refine _root_.Matrix.ext fun i j => ?_
    obtain rfl : i = 0 := Subsingleton.elim (α := Fin 1) _ _
    obtain rfl : j = 0 := Subsingleton.elim (α := Fin 1) _ _
    rw [gen, _root_.Matrix.sub_apply, _root_.Matrix.smul_apply, E_apply, _root_.Matrix.smul_apply, _root_.Matrix.map_apply, _root_.Matrix.smul_apply]
    have : (vT K : K[T;T⁻¹]) * ((vT K : K[T;T⁻¹]) + (((vT K)⁻¹ : (K[T;T⁻¹])ˣ) : K[T;T⁻¹])) = T 2 + 1 := by
      show T 1 * (T 1 + T (-1)) = _
      rw [mul_add, ← T_add, ← T_add]; simp
    simp only [J, flip]
    simp [this]
    ring
  · obtain ⟨M, -, hc, ε, -, rfl⟩ := const_half (K := K) hn
    have fl : (refl (w0 n) : _root_.Matrix (Fin (n - 1)) (Fin (n - 1)) K) = (-1 : K) • flip (n - 1) := by
      ext i j
      rw [refl_w0, _root_.Matrix.smul_apply, flip]
      by_cases q : i.val + j.val = n - 2
      · rw [if_pos q, if_pos (by omega)]; simp
      · rw [if_neg q, if_neg (by omega)]; simp
    rcases hc.perm with e | e
    · exfalso
      have h2 := congrFun (congrFun e ⟨0, by omega⟩) ⟨0, by omega⟩
      rw [refl_one, _root_.Matrix.smul_apply, _root_.Matrix.smul_apply, one_apply_eq, flip, if_neg (by simp only; omega), smul_zero, smul_eq_mul, mul_one] at h2
      exact (((-1 : Kˣ) ^ (n : ℤ) : Kˣ)).ne_zero h2.symm
    · rw [e, fl, smul_smul] at hc
      convert hc using 2
      rw [pow_succ, zpow_natCast]; simp

/-- The image of a power of the half twist, without the power of `v`. -/
def twist (K : Type*) [CommRing K] (n : Nat) (k : ℤ) : _root_.Matrix (Fin (n - 1)) (Fin (n - 1)) K := fun i j =>
  if (if k % 2 = 0 then i.val = j.val else i.val + j.val = n - 2) then (if (n + 1) * k % 2 = 0 then 1 else -1) else 0

theorem sign_flip_mul (n : Nat) (k : ℤ) (hn : 2 ≤ n) : ((-1 : K) ^ (n + 1) • flip (n - 1)) * twist K n k = twist K n (k + 1) ∧ ((-1 : K) ^ (n + 1) • flip (n - 1)) * twist K n k = twist K n (k - 1) := by
  have hs : ∀ k : ℤ, ((-1 : K) ^ (n + 1)) * (if (n + 1) * k % 2 = 0 then 1 else -1) = if (n + 1) * (k + 1) % 2 = 0 then 1 else -1 := by
    intro k
    rcases Nat.even_or_odd (n + 1) with q | q
    · have q' : ∀ k : ℤ, ((n : ℤ) + 1) * k % 2 = 0 := fun k => by
        obtain ⟨m, hm⟩ := q
        rw [show ((n : ℤ) + 1) = m + m by exact_mod_cast hm, show ((m : ℤ) + m) * k = 2 * (m * k) by ring]; omega
      rw [q.neg_one_pow, if_pos (q' _), if_pos (q' _), one_mul]
    · have q' : ∀ k : ℤ, ((n : ℤ) + 1) * k % 2 = 0 ↔ k % 2 = 0 := fun k => by
        obtain ⟨m, hm⟩ := q
        rw [show ((n : ℤ) + 1) = 2 * m + 1 by exact_mod_cast hm, show (2 * (m : ℤ) + 1) * k = 2 * (m * k) + k by ring]; omega
      rw [q.neg_one_pow]
      simp only [q']
      by_cases h : k % 2 = 0
      · rw [if_pos h, if_neg (by omega)]; ring
      · rw [if_neg h, if_pos (by omega)]; ring
  have key : ((-1 : K) ^ (n + 1) • flip (n - 1)) * twist K n k = twist K n (k + 1) := by
    ext i j
    rw [mul_apply, Finset.sum_eq_single (⟨n - 2 - i.val, by omega⟩ : Fin (n - 1))]
    · rw [_root_.Matrix.smul_apply, flip, if_pos (by simp only; omega), smul_eq_mul, mul_one]
      simp only [twist]
      rw [mul_ite, mul_zero, hs]
      refine if_congr ?_ rfl rfl
      have := i.2; have := j.2
      by_cases h : k % 2 = 0
      · rw [if_pos h, if_neg (by omega)]; omega
      · rw [if_neg h, if_pos (by omega)]; omega
    · intro b _ hb
      rw [_root_.Matrix.smul_apply, flip, if_neg, smul_zero, zero_mul]
      exact fun q => hb (Fin.ext (by simp only; omega))
    · simp
  refine ⟨key, ?_⟩
  rw [key]
  ext i j
  simp only [twist]
  have h1 : (k + 1) % 2 = 0 ↔ (k - 1) % 2 = 0 := by omega
  have h2 : ((n : ℤ) + 1) * (k + 1) % 2 = 0 ↔ ((n : ℤ) + 1) * (k - 1) % 2 = 0 := by
    rw [show ((n : ℤ) + 1) * (k + 1) = (n + 1) * (k - 1) + 2 * (n + 1) by ring]; omega
  simp only [h1, h2]

theorem twist_zero (hn : 2 ≤ n) : twist K n 0 = 1 := by
  ext i j
  rw [_root_.Matrix.one_apply]
  simp [twist, Fin.ext_iff]

theorem const_twist [Nontrivial K] (hn : 2 ≤ n) (k : ℤ) : Const (halfTwist n ^ k) (n * k) (twist K n k) := by
  have hc := const_half_sign (K := K) hn
  have hsq : ((-1 : K) ^ (n + 1) • flip (n - 1)) * ((-1 : K) ^ (n + 1) • flip (n - 1) : _root_.Matrix (Fin (n - 1)) (Fin (n - 1)) K) = 1 := by
    rw [smul_mul_assoc, mul_smul_comm, smul_smul, flip_sq, ← mul_pow]; simp
  have hi := hc.inv hsq
  induction k using Int.induction_on with
  | zero => rw [twist_zero hn]; simpa using Const.one (K := K) (n := n)
  | succ k ih =>
    have := hc.mul ih
    rw [(sign_flip_mul n k hn).1, show ((n : ℤ) + n * k) = n * (k + 1) by ring, ← zpow_one_add, add_comm] at this
    exact this
  | pred k ih =>
    have := hi.mul ih
    rw [(sign_flip_mul n _ hn).2, show (-(n : ℤ) + n * -k) = n * (-k - 1) by ring, ← zpow_neg_one, ← zpow_add, add_comm] at this
    exact this
end half

end Bur
end Peyl
