import Verif.Lemmas.BurauKernel
import Mathlib.RingTheory.AdjoinRoot
import Mathlib.Algebra.Ring.GeomSum
/-!
# The half twist in the Burau representation, and scalar images
-/
namespace Peyl
namespace Bur
open _root_.Matrix LaurentPolynomial
variable {n : Nat} {R : Type*} [CommRing R]

/-- The matrix that turns the order of the coordinates around. -/
def flip (m : Nat) : _root_.Matrix (Fin m) (Fin m) R := fun i j => if i.val + j.val + 1 = m then 1 else 0

theorem flip_sq (m : Nat) : (flip m * flip m : _root_.Matrix (Fin m) (Fin m) R) = 1 := by
  ext i j
  rw [mul_apply, _root_.Matrix.one_apply, Finset.sum_eq_single (⟨m - 1 - i.val, by omega⟩ : Fin m)]
  · simp only [flip]
    have := i.2; have := j.2
    rw [if_pos (by omega), one_mul]
    by_cases h : i = j
    · rw [if_pos h, if_pos (by subst h; omega)]
    · rw [if_neg h, if_neg]
      intro q; exact h (Fin.ext (by omega))
  · intro b _ hb
    have : ¬ (i.val + b.val + 1 = m) := fun q => hb (Fin.ext (by simp only; omega))
    simp only [flip]; rw [if_neg this, zero_mul]
  · simp

theorem halfTwist_conj (hn : 1 ≤ n) {i : Nat} (hi : i < n - 1) : halfTwist n * sigma n i = sigma n (n - 2 - i) * halfTwist n := by
  rw [halfTwist_eq hn]
  have := JM.half_conj (s := sigma n) (N := n - 1) (fun i j h hj => sigma_comm i j (by omega) h) (fun i hi => sigma_braid i (by omega)) (k := n - 1) le_rfl hi
  rw [this]; congr 2

/-- The half twist acts by a multiple of the flip. -/
theorem rep_half (hn : 2 ≤ n) (v : Rˣ) : ∃ c : R, rep n v (halfTwist n) = c • flip (n - 1) := by
  rcases Nat.lt_or_ge n 3 with h3 | h3
  · obtain rfl : n = 2 := by omega
    refine ⟨rep 2 v (halfTwist 2) 0 0, ?_⟩
    ext i j
    obtain rfl : i = 0 := Subsingleton.elim (α := Fin 1) _ _
    obtain rfl : j = 0 := Subsingleton.elim (α := Fin 1) _ _
    simp [flip]
  set X := rep n v (halfTwist n) with hX
  set δ : R := (v : R) + (v⁻¹ : Rˣ) with hδ
  have hc : ∀ (i : Nat) (hi : i < n - 1), X * E δ ⟨i, hi⟩ = E δ ⟨n - 2 - i, by omega⟩ * X := by
    intro i hi
    have h1 := congrArg (rep n v) (halfTwist_conj (n := n) (by omega) hi)
    rw [map_mul, map_mul, rep_sigma v hi, rep_sigma v (show n - 2 - i < n - 1 by omega), ← hX, gen, gen, ← hδ, mul_sub, sub_mul, mul_one, one_mul, mul_smul_comm, smul_mul_assoc] at h1
    have h2 := sub_right_injective h1
    have h3 := congrArg (fun M => ((v⁻¹ : Rˣ) : R) • M) h2
    simpa [smul_smul] using h3
  have hc' : ∀ (i : Nat) (hi : i < n - 1) (a c : Fin (n - 1)), X a ⟨i, hi⟩ * J δ (n - 1) ⟨i, hi⟩ c = if a.val = n - 2 - i then ∑ b, J δ (n - 1) ⟨n - 2 - i, by omega⟩ b * X b c else 0 := by
    intro i hi a c
    have := congrFun (congrFun (hc i hi) a) c
    simp only [mul_apply, E_apply, mul_ite, mul_zero, ite_mul, zero_mul, Finset.sum_ite_eq', Finset.mem_univ, if_true] at this
    rw [this]
    by_cases h : a.val = n - 2 - i
    · rw [if_pos h]
      refine Finset.sum_congr rfl fun b _ => ?_
      rw [if_pos (Fin.ext h)]
    · rw [if_neg h]
      refine Finset.sum_eq_zero fun b _ => ?_
      rw [if_neg fun q => h (congrArg Fin.val q)]
  have adj : ∀ (i : Nat) (hi : i < n - 1), ∃ c : Fin (n - 1), J δ (n - 1) ⟨i, hi⟩ c = 1 := by
    intro i hi
    by_cases h : i + 1 < n - 1
    · exact ⟨⟨i + 1, h⟩, J_adj δ (.inl rfl)⟩
    · exact ⟨⟨i - 1, by omega⟩, J_adj δ (.inr (by simp only; omega))⟩
  have off : ∀ (i : Nat) (hi : i < n - 1) (a : Fin (n - 1)), a.val ≠ n - 2 - i → X a ⟨i, hi⟩ = 0 := by
    intro i hi a ha
    obtain ⟨c, hc1⟩ := adj i hi
    have := hc' i hi a c
    rwa [hc1, mul_one, if_neg ha] at this
  have step : ∀ (i : Nat) (hi : i + 1 < n - 1), X ⟨n - 2 - i, by omega⟩ ⟨i, by omega⟩ = X ⟨n - 2 - (i + 1), by omega⟩ ⟨i + 1, hi⟩ := by
    intro i hi
    have := hc' i (by omega) ⟨n - 2 - i, by omega⟩ ⟨i + 1, hi⟩
    rw [J_adj δ (.inl rfl), mul_one, if_pos rfl, Finset.sum_eq_single (⟨n - 2 - (i + 1), by omega⟩ : Fin (n - 1))] at this
    · rw [this, J_adj δ (.inr (by simp only; omega)), one_mul]
    · intro b _ hb
      rw [off (i + 1) hi b fun q => hb (Fin.ext q), mul_zero]
    · simp
  have all : ∀ (i : Nat) (hi : i < n - 1), X ⟨n - 2 - i, by omega⟩ ⟨i, hi⟩ = X ⟨n - 2, by omega⟩ ⟨0, by omega⟩ := by
    intro i
    induction i with
    | zero => intro _; rfl
    | succ i ih => intro hi; rw [← step i hi, ih (by omega)]
  refine ⟨X ⟨n - 2, by omega⟩ ⟨0, by omega⟩, ?_⟩
  ext a c
  rw [_root_.Matrix.smul_apply, flip, smul_eq_mul]
  by_cases h : a.val + c.val + 1 = n - 1
  · rw [if_pos h, mul_one, ← all c.val c.2]
    congr 1; exact Fin.ext (by simp only; omega)
  · rw [if_neg h, mul_zero]
    exact off c.val c.2 a (by omega)

/-- ... by plus or minus a power of `v`, with a sign independent of the ring. -/
theorem rep_half_T (hn : 2 ≤ n) (K : Type*) [CommRing K] : ∃ ε : K, ε * ε = 1 ∧ rep n (vT K) (halfTwist n) = (T n : K[T;T⁻¹]) • (ε • flip (n - 1) : _root_.Matrix (Fin (n - 1)) (Fin (n - 1)) K).map C := by
  obtain ⟨c, hc⟩ := rep_half hn (vT ℤ)
  have h1 : c * c = T n * T n := by
    have h2 := rep_full_twist hn (vT ℤ)
    rw [map_pow, hc, pow_two, smul_mul_assoc, mul_smul_comm, smul_smul, flip_sq] at h2
    have h3 := congrFun (congrFun h2 ⟨0, by omega⟩) ⟨0, by omega⟩
    simp only [_root_.Matrix.smul_apply, _root_.Matrix.one_apply_eq, smul_eq_mul, mul_one] at h3
    rw [h3, ← T_add]
    show (T 1 : ℤ[T;T⁻¹]) ^ (2 * n) = _
    rw [T_pow]; congr 1; push_cast; ring
  let f : ℤ[T;T⁻¹] →+* K[T;T⁻¹] := eval₂ (C.comp (Int.castRingHom K)) (vT K)
  have hf : ∀ k, f (T k) = T k := by
    intro k
    show eval₂ _ _ _ = _
    rw [eval₂_T]
    induction k using Int.induction_on with
    | zero => simp
    | succ k ih => rw [zpow_add_one, Units.val_mul, ih, T_add]; rfl
    | pred k ih => rw [zpow_sub_one, Units.val_mul, ih, T_sub, T]; rfl
  have hv : Units.map (f : ℤ[T;T⁻¹] →* K[T;T⁻¹]) (vT ℤ) = vT K := by ext1; exact hf 1
  have hr : rep n (vT K) (halfTwist n) = f c • flip (n - 1) := by
    rw [← hv, ← rep_map, hc]
    refine _root_.Matrix.ext fun i j => ?_
    simp only [_root_.Matrix.map_apply, _root_.Matrix.smul_apply, smul_eq_mul, map_mul]
    congr 1
    simp only [flip]; split_ifs <;> simp
  have fl : ∀ i j, (flip (n - 1) : _root_.Matrix (Fin (n - 1)) (Fin (n - 1)) K[T;T⁻¹]) i j = C ((flip (n - 1) : _root_.Matrix (Fin (n - 1)) (Fin (n - 1)) K) i j) := by
    intro i j; simp only [flip]; split_ifs <;> simp
  rcases mul_self_eq_mul_self_iff.1 h1 with e | e
  · refine ⟨1, by ring, ?_⟩
    rw [hr, e, hf, one_smul]
    refine _root_.Matrix.ext fun i j => ?_
    simp only [_root_.Matrix.map_apply, _root_.Matrix.smul_apply, smul_eq_mul, fl]
  · refine ⟨-1, by ring, ?_⟩
    rw [hr, e, map_neg, hf]
    refine _root_.Matrix.ext fun i j => ?_
    simp only [_root_.Matrix.map_apply, _root_.Matrix.smul_apply, smul_eq_mul, fl, map_mul, map_neg, map_one]
    ring

/-! ## Scalar images -/
open Polynomial in
/-- The polynomial `1 + X² + ⋯ + X^(2n-2)`. -/
noncomputable def phi (K : Type*) [CommRing K] (n : Nat) : K[X] := ∑ i ∈ Finset.range n, X ^ (2 * i)

section phi
variable {K : Type*} [CommRing K] [Nontrivial K]
open Polynomial

theorem phi_coeff (n j : Nat) : (phi K n).coeff j = if j % 2 = 0 ∧ j < 2 * n then 1 else 0 := by
  rw [phi, finset_sum_coeff]
  simp only [coeff_X_pow]
  by_cases h : j % 2 = 0 ∧ j < 2 * n
  · rw [if_pos h, Finset.sum_eq_single (j / 2)]
    · rw [if_pos (by omega)]
    · intro b _ hb; rw [if_neg (by omega)]
    · intro q; exact absurd (Finset.mem_range.2 (by omega)) q
  · rw [if_neg h]
    refine Finset.sum_eq_zero fun b hb => ?_
    rw [if_neg]
    have := Finset.mem_range.1 hb; omega

theorem phi_natDegree (n : Nat) : (phi K (n + 1)).natDegree = 2 * n := by
  refine natDegree_eq_of_le_of_coeff_ne_zero (natDegree_le_iff_coeff_eq_zero.2 fun j hj => ?_) ?_
  · rw [phi_coeff, if_neg (by omega)]
  · rw [phi_coeff, if_pos (by omega)]; exact one_ne_zero

theorem phi_monic (n : Nat) : (phi K (n + 1)).Monic := by
  rw [Monic, leadingCoeff, phi_natDegree, phi_coeff, if_pos (by omega)]

theorem phi_dvd {n k : Nat} (hn : 3 ≤ n) (hk : k < 2 * n) (h : phi K n ∣ X ^ k - 1) : k = 0 := by
  obtain ⟨m, rfl⟩ : ∃ m, n = m + 1 := ⟨n - 1, by omega⟩
  by_contra h0
  have small : ∀ q : K[X], phi K (m + 1) ∣ q → (∀ j, 2 * m ≤ j → q.coeff j = 0) → q = 0 := by
    intro q hq hc
    by_contra hq0
    refine (phi_monic m).not_dvd_of_degree_lt hq0 ?_ hq
    refine degree_lt_degree ?_
    rw [phi_natDegree]
    refine (natDegree_lt_iff_degree_lt hq0).2 ((degree_lt_iff_coeff_zero _ _).2 hc)
  rcases Nat.lt_or_ge k (2 * m) with h1 | h1
  · have := small _ h fun j hj => by
      rw [coeff_sub, coeff_X_pow, coeff_one, if_neg (by omega), if_neg (by omega), sub_zero]
    have := congrArg (fun q => q.coeff k) this
    simp only [coeff_sub, coeff_X_pow, coeff_one, coeff_zero, if_true, if_neg h0, sub_zero] at this
    exact one_ne_zero this
  rcases Nat.lt_or_ge (2 * m) k with h2 | h2
  · obtain rfl : k = 2 * m + 1 := by omega
    have := small (X ^ (2 * m + 1) - 1 - X * phi K (m + 1)) (dvd_sub h (dvd_mul_left _ _)) fun j hj => by
      obtain ⟨j, rfl⟩ : ∃ i, j = i + 1 := ⟨j - 1, by omega⟩
      rw [coeff_sub, coeff_sub, coeff_X_mul, coeff_X_pow, coeff_one, phi_coeff, if_neg (show ¬ j + 1 = 0 by omega), sub_zero]
      by_cases q : j = 2 * m
      · rw [if_pos (by omega), if_pos (by omega), sub_self]
      · rw [if_neg (by omega), if_neg (by omega), sub_self]
    have := congrArg (fun q => q.coeff 0) this
    simp only [coeff_sub, coeff_X_pow, coeff_one, coeff_zero, if_true, mul_coeff_zero, coeff_X_zero, zero_mul, sub_zero] at this
    rw [if_neg (by omega), zero_sub] at this
    exact one_ne_zero (neg_eq_zero.1 this)
  · obtain rfl : k = 2 * m := by omega
    have := small (X ^ (2 * m) - 1 - phi K (m + 1)) (dvd_sub h (dvd_refl _)) fun j hj => by
      rw [coeff_sub, coeff_sub, coeff_X_pow, coeff_one, phi_coeff, if_neg (show ¬ j = 0 by omega), sub_zero]
      by_cases q : j = 2 * m
      · rw [if_pos (by omega), if_pos (by omega), sub_self]
      · rw [if_neg (by omega), if_neg (by omega), sub_self]
    have := congrArg (fun q => q.coeff 2) this
    rw [coeff_sub, coeff_sub, coeff_X_pow, coeff_one, coeff_zero, phi_coeff, if_neg (by omega), if_neg (by omega), if_pos (by omega), sub_zero, zero_sub] at this
    exact one_ne_zero (neg_eq_zero.1 this)

/-- The image of `X` in the quotient by `phi`. -/
noncomputable abbrev xx (K : Type*) [CommRing K] (n : Nat) : AdjoinRoot (phi K n) := AdjoinRoot.root (phi K n)

theorem geom_xx (K : Type*) [CommRing K] (n : Nat) : ∑ i ∈ Finset.range n, xx K n ^ (2 * i) = 0 := by
  have := AdjoinRoot.mk_self (f := phi K n)
  conv at this => lhs; arg 2; rw [phi]
  simpa [map_sum] using this

theorem xx_pow (K : Type*) [CommRing K] (n : Nat) : xx K n ^ (2 * n) = 1 := by
  have h := geom_sum_mul (xx K n ^ 2) n
  rw [← pow_mul] at h
  simp only [← pow_mul] at h
  rw [geom_xx, zero_mul] at h
  exact (sub_eq_zero.1 h.symm)

theorem xx_pow_eq_one {n k : Nat} (hn : 3 ≤ n) (h : xx K n ^ k = 1) : 2 * n ∣ k := by
  have h1 : xx K n ^ (k % (2 * n)) = 1 := by
    rw [← Nat.div_add_mod k (2 * n), pow_add, pow_mul, xx_pow, one_pow, one_mul] at h; exact h
  refine Nat.dvd_of_mod_eq_zero (phi_dvd (K := K) hn (Nat.mod_lt _ (by omega)) ?_)
  rw [← AdjoinRoot.mk_eq_zero, map_sub, map_pow, AdjoinRoot.mk_X, map_one, h1, sub_self]

/-- The unit `x` of the quotient. -/
noncomputable def xu (K : Type*) [CommRing K] (n : Nat) (hn : 1 ≤ n) : (AdjoinRoot (phi K n))ˣ :=
  Units.ofPowEqOne (xx K n) (2 * n) (xx_pow K n) (by omega)

theorem xu_val (K : Type*) [CommRing K] (n : Nat) (hn : 1 ≤ n) : (xu K n hn : AdjoinRoot (phi K n)) = xx K n := rfl

theorem xu_zpow {n : Nat} {k : ℤ} (hn : 3 ≤ n) (h : (xu K n (by omega)) ^ k = 1) : (2 * n : ℤ) ∣ k := by
  obtain ⟨m, rfl | rfl⟩ := k.eq_nat_or_neg
  · rw [zpow_natCast] at h
    have := xx_pow_eq_one (K := K) hn (k := m) (by rw [← xu_val K n (by omega), ← Units.val_pow_eq_pow_val, h]; rfl)
    exact_mod_cast this
  · rw [zpow_neg, inv_eq_one, zpow_natCast] at h
    have := xx_pow_eq_one (K := K) hn (k := m) (by rw [← xu_val K n (by omega), ← Units.val_pow_eq_pow_val, h]; rfl)
    rw [dvd_neg]
    exact_mod_cast this
end phi

/-- A vector killed by the form, when `1 + x² + ⋯ + x^(2n-2) = 0`. -/
def rad (x : Rˣ) (m : Nat) : Fin m → R := fun j => ((x⁻¹ : Rˣ) : R) ^ j.val * ∑ i ∈ Finset.range (j.val + 1), (x : R) ^ (2 * i)

theorem rad_J (x : Rˣ) (m : Nat) (h : ∑ i ∈ Finset.range (m + 1), (x : R) ^ (2 * i) = 0) : J (-((x : R) + (x⁻¹ : Rˣ))) m *ᵥ rad x m = 0 := by
  set G : Nat → R := fun j => ∑ i ∈ Finset.range j, (x : R) ^ (2 * i) with hG
  have g1 : ∀ j, G (j + 1) = 1 + (x : R) ^ 2 * G j := by
    intro j
    simp only [hG]
    rw [Finset.sum_range_succ', Finset.mul_sum, add_comm]
    congr 1
    · simp
    · refine Finset.sum_congr rfl fun i _ => ?_
      ring
  have hx : (x : R) * ((x⁻¹ : Rˣ) : R) = 1 := by simp
  set y : R := ((x⁻¹ : Rˣ) : R) with hy
  set z : R := (x : R) with hz
  ext i
  rw [J_mulVec, Pi.zero_apply]
  have hr : ∀ (j : Nat) (hj : j < m), rad x m ⟨j, hj⟩ = y ^ j * G (j + 1) := fun j hj => rfl
  have e1 : (if h : i.val + 1 < m then rad x m ⟨i + 1, h⟩ else 0) = y ^ (i.val + 1) * G (i.val + 2) := by
    split_ifs with q
    · exact hr _ _
    · have : i.val + 2 = m + 1 := by omega
      rw [this]; simp only [hG, h, mul_zero]
  rw [e1, hr i.val i.2]
  have g0 : G 0 = 0 := by simp [hG]
  obtain ⟨k, hk⟩ := i
  cases k with
  | zero =>
    simp only [lt_irrefl, dif_neg, not_false_eq_true]
    rw [g1 (0 + 1), g1 0, g0]
    linear_combination z * hx
  | succ k =>
    rw [dif_pos (show 0 < k + 1 by omega)]
    have e2 : rad x m ⟨(⟨k + 1, hk⟩ : Fin m).val - 1, by simp only; omega⟩ = y ^ k * G (k + 1) := hr k (by omega)
    rw [e2, g1 (k + 1 + 1), g1 (k + 1)]
    linear_combination (y ^ k * (-(1 + z ^ 2 * G (k + 1)) + (z * y + 1) * (-G (k + 1) + 1 + z ^ 2 * G (k + 1)))) * hx

/-- The radical is fixed. -/
theorem rep_rad (x : Rˣ) (hn : 1 ≤ n) (h : ∑ i ∈ Finset.range n, (x : R) ^ (2 * i) = 0) (b : Braid n) : rep n (-x) b *ᵥ rad x (n - 1) = rad x (n - 1) := by
  have h0 := rad_J x (n - 1) (by rwa [Nat.sub_add_cancel hn])
  have e1 : (((-x : Rˣ) : R) + ((-x : Rˣ)⁻¹ : Rˣ)) = -((x : R) + (x⁻¹ : Rˣ)) := by simp; ring
  have e2 : ((((-x : Rˣ)⁻¹ : Rˣ) : R) + (((-x : Rˣ)⁻¹)⁻¹ : Rˣ)) = -((x : R) + (x⁻¹ : Rˣ)) := by simp
  induction b using braid_induction with
  | one => simp
  | mul i b hi ih =>
    rw [map_mul, ← mulVec_mulVec, ih, rep_sigma _ hi, gen_mulVec, e1, h0]; simp
  | inv i b hi ih =>
    rw [map_mul, ← mulVec_mulVec, ih, rep_sigma_inv _ hi, gen_mulVec, e2, h0]; simp

/-- A scalar image is that of a power of the full twist. -/
theorem scalar_dvd {K : Type*} [CommRing K] [Nontrivial K] (hn : 3 ≤ n) {b : Braid n} {k : ℤ} (h : Const b k ((((-1 : Kˣ) ^ k : Kˣ) : K) • (1 : _root_.Matrix (Fin (n - 1)) (Fin (n - 1)) K))) :
    (2 * n : ℤ) ∣ k := by
  refine xu_zpow (K := K) hn ?_
  set x := xu K n (by omega) with hx
  let f : K[T;T⁻¹] →+* AdjoinRoot (phi K n) := eval₂ (AdjoinRoot.of (phi K n)) (-x)
  have hv : Units.map (f : K[T;T⁻¹] →* AdjoinRoot (phi K n)) (vT K) = -x := by
    ext1
    show eval₂ _ _ (T 1) = _
    rw [eval₂_T, zpow_one]
  have h1 := rep_map f (vT K) b
  rw [hv, show rep n (vT K) b = _ from h] at h1
  have h2 := rep_rad x (n := n) (by omega) (by rw [hx, xu_val]; exact geom_xx K n) b
  rw [← h1] at h2
  have h3 := congrFun h2 ⟨0, by omega⟩
  have h4 : (((T k : K[T;T⁻¹]) • ((((-1 : Kˣ) ^ k : Kˣ) : K) • (1 : _root_.Matrix (Fin (n - 1)) (Fin (n - 1)) K)).map C).map f) = ((x ^ k : (AdjoinRoot (phi K n))ˣ) : AdjoinRoot (phi K n)) • 1 := by
    have e : f (T k) * f (C (((-1 : Kˣ) ^ k : Kˣ) : K)) = ((x ^ k : (AdjoinRoot (phi K n))ˣ) : AdjoinRoot (phi K n)) := by
      show eval₂ _ _ _ * eval₂ _ _ _ = _
      rw [eval₂_T, eval₂_C]
      have : (AdjoinRoot.of (phi K n)) (((-1 : Kˣ) ^ k : Kˣ) : K) = (((-1 : (AdjoinRoot (phi K n))ˣ) ^ k : (AdjoinRoot (phi K n))ˣ) : AdjoinRoot (phi K n)) := by
        have h6 : Units.map ((AdjoinRoot.of (phi K n) : K →+* AdjoinRoot (phi K n)) : K →* AdjoinRoot (phi K n)) ((-1 : Kˣ) ^ k) = (-1) ^ k := by
          rw [map_zpow]; congr 1; ext1; simp
        exact congrArg Units.val h6
      rw [this, ← Units.val_mul, ← mul_zpow]
      congr 2; ext1; simp
    refine _root_.Matrix.ext fun i j => ?_
    simp only [_root_.Matrix.map_apply, _root_.Matrix.smul_apply, smul_eq_mul, map_mul, ← e, _root_.Matrix.one_apply]
    split_ifs <;> simp
  rw [h4, smul_mulVec, one_mulVec, Pi.smul_apply, smul_eq_mul] at h3
  have h5 : rad x (n - 1) ⟨0, by omega⟩ = 1 := by simp [rad]
  rw [h5, mul_one] at h3
  ext1; exact h3

section main
variable {K : Type*} [CommRing K]

theorem Const.mul {a b : Braid n} {k l : ℤ} {M N : _root_.Matrix (Fin (n - 1)) (Fin (n - 1)) K} (h : Const a k M) (h' : Const b l N) : Const (a * b) (k + l) (M * N) := by
  rw [Const, map_mul, show rep n (vT K) a = _ from h, show rep n (vT K) b = _ from h', smul_mul_assoc, mul_smul_comm, smul_smul, T_add, _root_.Matrix.map_mul]

theorem Const.one : Const (K := K) (1 : Braid n) 0 1 := by
  rw [Const, map_one, T_zero, one_smul]
  refine _root_.Matrix.ext fun i j => ?_
  rw [_root_.Matrix.map_apply, _root_.Matrix.one_apply, _root_.Matrix.one_apply]; split_ifs <;> simp

theorem Const.eq_one {b : Braid n} (h : Const (K := K) b 0 1) : rep n (vT K) b = 1 := by
  have := Const.one (K := K) (n := n)
  rw [Const] at h this
  rw [h, ← this, map_one]

theorem Const.inv {a : Braid n} {k : ℤ} {M N : _root_.Matrix (Fin (n - 1)) (Fin (n - 1)) K} (h : Const a k M) (hN : M * N = 1) : Const a⁻¹ (-k) N := by
  refine left_inv_eq_right_inv (a := rep n (vT K) a) (by rw [← map_mul, inv_mul_cancel, map_one]) ?_
  rw [show rep n (vT K) a = _ from h, smul_mul_assoc, mul_smul_comm, smul_smul, ← T_add, add_neg_cancel, T_zero, one_smul, ← _root_.Matrix.map_mul, hN]
  refine _root_.Matrix.ext fun i j => ?_
  rw [_root_.Matrix.map_apply, _root_.Matrix.one_apply, _root_.Matrix.one_apply]; split_ifs <;> simp

theorem const_half (hn : 2 ≤ n) : ∃ M : _root_.Matrix (Fin (n - 1)) (Fin (n - 1)) K, M * M = 1 ∧ Const (halfTwist n) n M ∧ ∃ ε : K, ε * ε = 1 ∧ M = ε • flip (n - 1) := by
  obtain ⟨ε, h1, h2⟩ := rep_half_T hn K
  refine ⟨ε • flip (n - 1), ?_, h2, ε, h1, rfl⟩
  rw [smul_mul_assoc, mul_smul_comm, smul_smul, flip_sq, h1, one_smul]

theorem const_half_zpow (hn : 2 ≤ n) (j : ℤ) : ∃ M : _root_.Matrix (Fin (n - 1)) (Fin (n - 1)) K, (2 ∣ j → M = 1) ∧ Const (halfTwist n ^ j) (n * j) M := by
  obtain ⟨M, hM, hc, -⟩ := const_half (K := K) hn
  have hp : ∀ m : Nat, Const (halfTwist n ^ m) (n * m) (M ^ m) := by
    intro m
    induction m with
    | zero => simpa using Const.one (K := K) (n := n)
    | succ m ih => rw [pow_succ, pow_succ]; have := ih.mul hc; rwa [show (n * (m + 1 : Nat) : ℤ) = n * m + n by push_cast; ring]
  have hsq : ∀ m : Nat, M ^ m * M ^ m = 1 := fun m => by rw [← (Commute.refl M).mul_pow, hM, one_pow]
  have hev : ∀ m : Nat, 2 ∣ m → M ^ m = 1 := by rintro _ ⟨m, rfl⟩; rw [pow_mul, pow_two, hM, one_pow]
  obtain ⟨m, rfl | rfl⟩ := j.eq_nat_or_neg
  · refine ⟨M ^ m, fun h => hev m (by exact_mod_cast h), ?_⟩
    rw [zpow_natCast]; exact hp m
  · refine ⟨M ^ m, fun h => hev m (by rw [dvd_neg] at h; exact_mod_cast h), ?_⟩
    rw [zpow_neg, zpow_natCast]
    have := (hp m).inv (hsq m)
    rwa [mul_neg]

theorem two_strand (b : Braid 2) : ∃ j : ℤ, halfTwist 2 ^ j * b = 1 := by
  have h2 : halfTwist 2 = sigma 2 0 := by rw [halfTwist_eq (by omega)]; simp [JM.half, JM.dn]
  have : ∃ j : ℤ, b = halfTwist 2 ^ j := by
    induction b using braid_induction with
    | one => exact ⟨0, by simp⟩
    | mul i b hi ih =>
      obtain ⟨j, rfl⟩ := ih
      obtain rfl : i = 0 := by omega
      exact ⟨1 + j, by rw [zpow_add, zpow_one, h2]⟩
    | inv i b hi ih =>
      obtain ⟨j, rfl⟩ := ih
      obtain rfl : i = 0 := by omega
      exact ⟨-1 + j, by rw [zpow_add, zpow_neg_one, h2]⟩
  obtain ⟨j, rfl⟩ := this
  exact ⟨-j, by rw [← zpow_add]; simp⟩

/-- **A braid has constant image up to a power of `v` exactly if it is in the kernel up to a power of the half twist.** -/
theorem const_iff_kernel [Nontrivial K] (hn : 2 ≤ n) (b : Braid n) : (∃ k M, Const (K := K) b k M) ↔ ∃ j : ℤ, rep n (vT K) (halfTwist n ^ j * b) = 1 := by
  constructor
  · rintro ⟨k, M, h⟩
    rcases Nat.lt_or_ge n 3 with h3 | h3
    · obtain rfl : n = 2 := by omega
      obtain ⟨j, hj⟩ := two_strand b
      exact ⟨j, by rw [hj, map_one]⟩
    have case1 : ∀ (b : Braid n) (k : ℤ), Const b k ((((-1 : Kˣ) ^ k : Kˣ) : K) • (1 : _root_.Matrix (Fin (n - 1)) (Fin (n - 1)) K)) → ∃ j : ℤ, rep n (vT K) (halfTwist n ^ j * b) = 1 := by
      intro b k h
      obtain ⟨q, rfl⟩ := scalar_dvd h3 h
      obtain ⟨N, hN, hc⟩ := const_half_zpow (K := K) hn (-(2 * q))
      obtain rfl := hN ⟨-q, by ring⟩
      refine ⟨-(2 * q), ?_⟩
      have e : (((-1 : Kˣ) ^ (2 * n * q : ℤ) : Kˣ) : K) = 1 := by
        rw [mul_assoc, zpow_mul]; simp
      rw [e, one_smul] at h
      have := hc.mul h
      rw [one_mul, show (n * -(2 * q) + 2 * n * q : ℤ) = 0 by ring] at this
      exact this.eq_one
    rcases h.perm with e | e
    · rw [refl_one] at e; rw [e] at h; exact case1 b k h
    · obtain ⟨D, -, hD, ε, hε, rfl⟩ := const_half (K := K) hn
      have h1 := hD.mul h
      have fl : (refl (w0 n) : _root_.Matrix (Fin (n - 1)) (Fin (n - 1)) K) = (-1 : K) • flip (n - 1) := by
        ext i j
        rw [refl_w0, _root_.Matrix.smul_apply, flip]
        by_cases q : i.val + j.val = n - 2
        · rw [if_pos q, if_pos (by omega)]; simp
        · rw [if_neg q, if_neg (by omega)]; simp
      rw [e, fl, smul_mul_assoc, mul_smul_comm, mul_smul_comm, flip_sq, smul_smul, smul_smul] at h1
      rcases h1.perm with e' | e'
      · rw [e', refl_one] at h1
        obtain ⟨j, hj⟩ := case1 _ _ h1
        exact ⟨j + 1, by rw [zpow_add, zpow_one, mul_assoc]; exact hj⟩
      · exfalso
        have h2 := congrFun (congrFun e' ⟨0, by omega⟩) ⟨0, by omega⟩
        rw [fl, smul_smul, _root_.Matrix.smul_apply, _root_.Matrix.smul_apply, _root_.Matrix.one_apply_eq, flip, if_neg (by simp only; omega), smul_zero, smul_eq_mul, mul_one] at h2
        have h3 : (((-1 : Kˣ) ^ k : Kˣ) : K) * (((-1 : Kˣ) ^ k : Kˣ) : K) = 1 := by
          rw [← Units.val_mul, ← mul_zpow]; simp
        exact one_ne_zero (α := K) (by linear_combination (-ε * (((-1 : Kˣ) ^ k : Kˣ) : K)) * h2 - hε * (((-1 : Kˣ) ^ k : Kˣ) : K) * (((-1 : Kˣ) ^ k : Kˣ) : K) - h3)
  · rintro ⟨j, hj⟩
    obtain ⟨M, -, hc⟩ := const_half_zpow (K := K) hn (-j)
    refine ⟨n * -j, M, ?_⟩
    have : b = halfTwist n ^ (-j) * (halfTwist n ^ j * b) := by rw [← mul_assoc, ← zpow_add]; simp
    rw [Const, this, map_mul, hj, mul_one]; exact hc
end main

end Bur
end Peyl
