import Verif.Lemmas.LKBMat
import Verif.Lemmas.CellTwist
/-!
# The full twist acts by a scalar in the Lawrence–Krammer–Bigelow representation
-/
namespace Peyl
open LaurentPolynomial
namespace LKB
section abstract
variable {R M : Type*} [CommRing R] [AddCommGroup M] [Module R M] {n : Nat} {q t : R} {x : Nat → Nat → M} {σ : Nat → Module.End R M}

theorem Acts.far_mul (H : Acts n q t x σ) (ext : ∀ f g : Module.End R M, (∀ i j, i < j → j < n → f (x i j) = g (x i j)) → f = g) :
    ∀ i j, i + 2 ≤ j → j < n - 1 → σ i * σ j = σ j * σ i :=
  fun _ _ hij hj => ext _ _ fun _ _ hab hb => H.far hij (by omega) hab hb

theorem Acts.adj_mul (H : Acts n q t x σ) (ext : ∀ f g : Module.End R M, (∀ i j, i < j → j < n → f (x i j) = g (x i j)) → f = g) :
    ∀ i, i + 1 < n - 1 → σ i * σ (i + 1) * σ i = σ (i + 1) * σ i * σ (i + 1) :=
  fun _ hi => ext _ _ fun _ _ hab hb => H.braid (by omega) hab hb

theorem Acts.jm_x (H : Acts n q t x σ) : ∀ k, k + 2 < n → JM.jm σ (k + 2) (x 0 1) = q ^ 2 • x 0 1
  | 0, hk => by
    have e1 : σ 1 (x 0 1) = (1 - q) • x 0 1 + q • x 0 2 := H.h2 1 0 (by omega) (by omega)
    have e2 : σ 0 (x 0 1) = (t * q * q) • x 0 1 := H.h1 0 (by omega)
    have e3 : σ 0 (x 0 2) = (t * q * (q - 1)) • x 0 1 + q • x 1 2 := H.h4 0 2 (by omega) (by omega)
    have e4 : σ 0 (x 1 2) = x 0 2 + (1 - q) • x 1 2 := H.h5 0 2 (by omega) (by omega)
    have e5 : σ 1 (x 0 2) = x 0 1 + (t * q ^ 2 * (q - 1)) • x 1 2 := H.h3 1 0 (by omega) (by omega)
    have e6 : σ 1 (x 1 2) = (t * q * q) • x 1 2 := H.h1 1 (by omega)
    simp only [JM.jm, mul_one, Module.End.mul_apply, e1, e2, e3, e4, e5, e6, map_add, map_smul, smul_add, smul_smul]
    module
  | k + 1, hk => by
    have e : σ (k + 2) (x 0 1) = x 0 1 := H.h6 _ _ _ (by omega) (by omega) (by omega) (by omega)
    rw [JM.jm, Module.End.mul_apply, Module.End.mul_apply, e, Acts.jm_x H k (by omega), map_smul, e]

theorem Acts.half_x (H : Acts n q t x σ) (ext : ∀ f g : Module.End R M, (∀ i j, i < j → j < n → f (x i j) = g (x i j)) → f = g) :
    ∀ k, k + 1 < n → (JM.half σ (k + 1) ^ 2) (x 0 1) = (t ^ 2 * q ^ (2 * k + 4)) • x 0 1
  | 0, hk => by
    have e2 : σ 0 (x 0 1) = (t * q * q) • x 0 1 := H.h1 0 (by omega)
    rw [JM.half_sq_succ (N := n - 1) (H.far_mul ext) (H.adj_mul ext) (by omega)]
    simp only [JM.half, JM.jm, one_pow, one_mul, mul_one, Module.End.mul_apply, e2, map_smul, smul_smul]
    ring_nf
  | k + 1, hk => by
    rw [JM.half_sq_succ (N := n - 1) (H.far_mul ext) (H.adj_mul ext) (by omega), Module.End.mul_apply, H.jm_x k (by omega), map_smul, Acts.half_x H ext k (by omega), smul_smul]
    ring_nf

/-- The full twist is multiplication by `t² q^(2n)`. -/
theorem Acts.full_twist (H : Acts n q t x σ) (ext : ∀ f g : Module.End R M, (∀ i j, i < j → j < n → f (x i j) = g (x i j)) → f = g) (hq : IsUnit q) (hn : 2 ≤ n) :
    JM.half σ (n - 1) ^ 2 = (t ^ 2 * q ^ (2 * n)) • 1 := by
  obtain ⟨m, rfl⟩ := Nat.exists_eq_add_of_le' hn
  set Z := JM.half σ (m + 2 - 1) ^ 2 with hZ
  set c := t ^ 2 * q ^ (2 * (m + 2)) with hc
  have comm : ∀ s, s + 1 < m + 2 → ∀ v, Z (σ s v) = σ s (Z v) := by
    intro s hs v
    have := JM.half_sq_comm (H.far_mul ext) (H.adj_mul ext) le_rfl (i := s) (by omega)
    exact LinearMap.congr_fun this v
  have canc : ∀ u : M, q • u = 0 → u = 0 := fun u hu => by
    obtain ⟨w, rfl⟩ := hq
    have := congrArg (fun y => (↑w⁻¹ : R) • y) hu
    simpa [smul_smul] using this
  have key : ∀ i j, i < j → j < m + 2 → Z (x i j) = c • x i j := by
    intro i
    induction i with
    | zero =>
      intro j
      induction j with
      | zero => intro h; omega
      | succ j ih =>
        intro _ hj
        rcases Nat.eq_zero_or_pos j with rfl | hj0
        · have := H.half_x ext m (by omega)
          rw [hZ, hc, show 2 * (m + 2) = 2 * m + 4 by ring]; exact this
        · have e := H.h2 j 0 (by omega) hj0
          have e' := comm j (by omega) (x 0 j)
          rw [ih hj0 (by omega), map_smul, e, map_add, map_smul, map_smul, ih hj0 (by omega)] at e'
          have : q • (Z (x 0 (j + 1)) - c • x 0 (j + 1)) = 0 := by
            rw [smul_sub]
            exact Eq.trans (by module) (sub_eq_zero.2 e')
          exact sub_eq_zero.1 (canc _ this)
    | succ i ih =>
      intro j hij hj
      have e := H.h4 i j hj hij
      have e' := comm i (by omega) (x i j)
      rw [ih j (by omega) hj, map_smul, e, map_add, map_smul, map_smul, ih (i + 1) (by omega) (by omega)] at e'
      have : q • (Z (x (i + 1) j) - c • x (i + 1) j) = 0 := by
        rw [smul_sub]
        exact Eq.trans (by module) (sub_eq_zero.2 e')
      exact sub_eq_zero.1 (canc _ this)
  exact ext _ _ fun i j hij hj => by rw [key i j hij hj]; rfl

end abstract
end LKB
end Peyl
