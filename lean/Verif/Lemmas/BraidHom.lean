import Verif.Spec.Braid
import Mathlib.Algebra.Group.Units.Hom
/-!
# Homomorphisms out of the braid group
-/
namespace Peyl

theorem exists_braidHom {M : Type*} [Monoid M] (n : Nat) (g g' : Nat → M) (h1 : ∀ i, i + 1 < n → g i * g' i = 1)
    (h2 : ∀ i, i + 1 < n → g' i * g i = 1) (hfar : ∀ i j, i + 2 ≤ j → j + 1 < n → g i * g j = g j * g i)
    (hadj : ∀ i, i + 2 < n → g i * g (i + 1) * g i = g (i + 1) * g i * g (i + 1)) :
    ∃ ρ : Braid n →* M, ∀ i, i + 1 < n → ρ (sigma n i) = g i ∧ ρ (sigma n i)⁻¹ = g' i := by
  let u : Fin (n - 1) → Mˣ := fun i => ⟨g i, g' i, h1 i (by omega), h2 i (by omega)⟩
  have hr : ∀ r ∈ artinRels n, FreeGroup.lift u r = 1 := by
    rintro r (⟨i, j, hij, rfl⟩ | ⟨i, j, hij, rfl⟩)
    · simp only [map_mul, map_inv, FreeGroup.lift_apply_of]
      rw [mul_inv_eq_one]
      ext; exact hfar i j hij (by omega)
    · simp only [map_mul, map_inv, FreeGroup.lift_apply_of]
      rw [mul_inv_eq_one]
      ext
      have := hadj i (by omega)
      rw [hij] at this
      exact this
  refine ⟨(Units.coeHom M).comp (PresentedGroup.toGroup hr), fun i hi => ?_⟩
  have hi' : i < n - 1 := by omega
  rw [sigma, dif_pos hi', MonoidHom.comp_apply, MonoidHom.comp_apply, map_inv, PresentedGroup.toGroup.of]
  exact ⟨rfl, rfl⟩

end Peyl
