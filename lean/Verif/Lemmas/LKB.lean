import Mathlib.Tactic.Module
import Mathlib.Algebra.Module.LinearMap.Basic
import Mathlib.Tactic.LinearCombination
/-!
# The Lawrence–Krammer–Bigelow relations in a module
-/
namespace Peyl
namespace LKB
variable {R M : Type*} [CommRing R] [AddCommGroup M] [Module R M]

/-- Linear maps that act on a family of vectors `x i j`, `i < j < n`, by the formulas of the code. -/
structure Acts (n : Nat) (q t : R) (x : Nat → Nat → M) (σ : Nat → M →ₗ[R] M) : Prop where
  h1 : ∀ s, s + 1 < n → σ s (x s (s + 1)) = (t * q * q) • x s (s + 1)
  h2 : ∀ s i, s + 1 < n → i < s → σ s (x i s) = (1 - q) • x i s + q • x i (s + 1)
  h3 : ∀ s i, s + 1 < n → i < s → σ s (x i (s + 1)) = x i s + (t * q ^ (s + 1 - i) * (q - 1)) • x s (s + 1)
  h4 : ∀ s j, j < n → s + 1 < j → σ s (x s j) = (t * q * (q - 1)) • x s (s + 1) + q • x (s + 1) j
  h5 : ∀ s j, j < n → s + 1 < j → σ s (x (s + 1) j) = x s j + (1 - q) • x (s + 1) j
  h6 : ∀ s i j, s + 1 < n → j < n → i < j → (j < s ∨ s + 1 < i) → σ s (x i j) = x i j
  h7 : ∀ s i j, s + 1 < n → j < n → i < s → s + 1 < j → σ s (x i j) = x i j + (t * q ^ (s - i) * (q - 1) ^ 2) • x s (s + 1)

variable {n : Nat} {q t : R} {x : Nat → Nat → M} {σ : Nat → M →ₗ[R] M}

theorem Acts.h5' (H : Acts n q t x σ) (s i j : Nat) (hj : j < n) (h : s + 1 < j) (hi : i = s + 1) : σ s (x i j) = x s j + (1 - q) • x (s + 1) j := by
  subst hi; exact H.h5 s j hj h

theorem Acts.braid (H : Acts n q t x σ) {s i j : Nat} (hs : s + 2 < n) (hij : i < j) (hj : j < n) :
    σ s (σ (s + 1) (σ s (x i j))) = σ (s + 1) (σ s (σ (s + 1) (x i j))) := by
  obtain ⟨h1, h2, h3, h4, h5, h6, h7⟩ := H
  rcases lt_trichotomy i s with hi | rfl | hi
  · obtain ⟨k, rfl⟩ := Nat.exists_eq_add_of_lt hi
    have e1 : i + k + 1 - i = k + 1 := by omega
    have e2 : i + k + 1 + 1 - i = k + 2 := by omega
    have e3 : i + k + 1 + 1 + 1 - i = k + 3 := by omega
    have e4 : i + k + 1 + 1 + 1 - (i + k + 1) = 2 := by omega
    have e5 : i + k + 1 + 1 - (i + k + 1) = 1 := by omega
    rcases lt_trichotomy j (i + k + 1) with hj' | rfl | hj'
    · simp (disch := omega) only [h1, h2, h3, h4, h5, h6, h7, map_add, map_smul]
    · simp (disch := omega) only [h1, h2, h3, h4, h5, h6, h7, map_add, map_smul, e1, e2, e3, e4, e5]
      module
    · rcases Nat.lt_or_ge (i + k + 3) j with hj2 | hj2
      · simp (disch := omega) only [h1, h2, h3, h4, h5, h6, h7, map_add, map_smul, e1, e2, e3, e4, e5]
        module
      · obtain rfl | rfl : j = i + k + 1 + 1 ∨ j = i + k + 1 + 1 + 1 := by omega
        · simp (disch := omega) only [h1, h2, h3, h4, h5, h6, h7, map_add, map_smul, e1, e2, e3, e4, e5]
          module
        · simp (disch := omega) only [h1, h2, h3, h4, h5, h6, h7, map_add, map_smul, e1, e2, e3, e4, e5]
          module
  · have e1 : i + 1 - i = 1 := by omega
    have e2 : i + 1 + 1 - i = 2 := by omega
    rcases Nat.lt_or_ge (i + 2) j with hj2 | hj2
    · simp (disch := omega) only [h1, h2, h3, h4, h5, h6, h7, map_add, map_smul, e1, e2]
      module
    · obtain rfl | rfl : j = i + 1 ∨ j = i + 1 + 1 := by omega
      · simp (disch := omega) only [h1, h2, h3, h4, h5, h6, h7, map_add, map_smul, e1, e2]
        module
      · simp (disch := omega) only [h1, h2, h3, h4, h5, h6, h7, map_add, map_smul, e1, e2]
        module
  · rcases Nat.lt_or_ge (s + 2) i with hi2 | hi2
    · simp (disch := omega) only [h1, h2, h3, h4, h5, h6, h7, map_add, map_smul]
    · have e1 : s + 1 - s = 1 := by omega
      have e2 : s + 1 + 1 - s = 2 := by omega
      obtain rfl | rfl : i = s + 1 ∨ i = s + 1 + 1 := by omega
      · rcases Nat.lt_or_ge (s + 2) j with hj2 | hj2
        · simp (disch := omega) only [h1, h2, h3, h4, h5, h6, h7, map_add, map_smul, e1, e2]
          module
        · obtain rfl : j = s + 1 + 1 := by omega
          simp (disch := omega) only [h1, h2, h3, h4, h5, h6, h7, map_add, map_smul, e1, e2]
          module
      · simp (disch := omega) only [h1, h2, h3, h4, h5, h6, h7, map_add, map_smul, e1, e2]
        module

theorem Acts.far (H : Acts n q t x σ) {s u i j : Nat} (hsu : s + 2 ≤ u) (hu : u + 1 < n) (hij : i < j) (hj : j < n) :
    σ s (σ u (x i j)) = σ u (σ s (x i j)) := by
  obtain ⟨h1, h2, h3, h4, h5, h6, h7⟩ := H
  obtain ⟨m, rfl⟩ := Nat.exists_eq_add_of_le hsu
  have e1 : s + 2 + m - s = m + 2 := by omega
  have e2 : s + 2 + m + 1 - s = m + 3 := by omega
  have e3 : s + 2 + m - (s + 1) = m + 1 := by omega
  have e4 : s + 2 + m + 1 - (s + 1) = m + 2 := by omega
  obtain hi | rfl | rfl | hi | rfl | rfl | hi : i < s ∨ s = i ∨ s + 1 = i ∨ (s + 1 < i ∧ i < s + 2 + m) ∨ s + 2 + m = i ∨ s + 2 + m + 1 = i ∨ s + 2 + m + 1 < i := by omega
  all_goals
    obtain hj' | rfl | rfl | hj' | rfl | rfl | hj' : j < s ∨ s = j ∨ s + 1 = j ∨ (s + 1 < j ∧ j < s + 2 + m) ∨ s + 2 + m = j ∨ s + 2 + m + 1 = j ∨ s + 2 + m + 1 < j := by omega
  all_goals first
    | (exfalso; omega)
    | (simp (disch := omega) only [h1, h2, h3, h4, h5, h6, h7, map_add, map_smul, e1, e2, e3, e4]; done)
    | (simp (disch := omega) only [h1, h2, h3, h4, h5, h6, h7, map_add, map_smul, e1, e2, e3, e4]; module)

/-- The eigenvalues of a generator are `1`, `-q` and `t q²`. -/
theorem Acts.cubic (H : Acts n q t x σ) {s i j : Nat} (hs : s + 1 < n) (hij : i < j) (hj : j < n) :
    σ s (σ s (σ s (x i j))) + (q - 1 - t * q ^ 2) • σ s (σ s (x i j)) + (t * q ^ 2 - q - t * q ^ 3) • σ s (x i j) + (t * q ^ 3) • x i j = 0 := by
  obtain ⟨h1, h2, h3, h4, h5, h6, h7⟩ := H
  obtain hi | rfl | rfl | hi : i < s ∨ s = i ∨ s + 1 = i ∨ s + 1 < i := by omega
  · obtain ⟨k, rfl⟩ := Nat.exists_eq_add_of_lt hi
    have e1 : i + k + 1 - i = k + 1 := by omega
    have e2 : i + k + 1 + 1 - i = k + 2 := by omega
    obtain hj' | rfl | rfl | hj' : j < i + k + 1 ∨ j = i + k + 1 ∨ j = i + k + 1 + 1 ∨ i + k + 1 + 1 < j := by omega
    all_goals
      simp (disch := omega) only [h1, h2, h3, h4, h5, h6, h7, map_add, map_smul, e1, e2]
      module
  all_goals
    obtain rfl | hj' : s + 1 = j ∨ s + 1 ≠ j := by omega
  all_goals first
    | (exfalso; omega)
    | (simp (disch := omega) only [h1, h2, h3, h4, h5, h6, h7, map_add, map_smul]; module)

end LKB
end Peyl
