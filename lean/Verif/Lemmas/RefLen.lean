import Verif.Spec.Permutations
import Mathlib.LinearAlgebra.Dimension.Finrank
import Mathlib.LinearAlgebra.FiniteDimensional.Basic
import Mathlib.LinearAlgebra.FiniteDimensional.Lemmas
import Mathlib.GroupTheory.Perm.Sign
/-!
# Reflection length

`rlen π` is the codimension of the space of functions invariant under `π`; it equals `n` minus the number of cycles and
is the length function of the dual Garside structure.
-/
namespace Peyl
open Equiv Module

variable {n : Nat}

/-- Rational functions on the points invariant under `π`. -/
def fixSpace (π : Perm (Fin n)) : Submodule ℚ (Fin n → ℚ) where
  carrier := {f | ∀ x, f (π x) = f x}
  add_mem' := by intro f g hf hg x; simp only [Pi.add_apply]; rw [hf x, hg x]
  zero_mem' := by intro x; rfl
  smul_mem' := by intro c f hf x; simp only [Pi.smul_apply]; rw [hf x]

theorem mem_fixSpace {π : Perm (Fin n)} {f : Fin n → ℚ} : f ∈ fixSpace π ↔ ∀ x, f (π x) = f x := Iff.rfl

/-- Codimension of the fixed space. -/
noncomputable def rlen (π : Perm (Fin n)) : Nat := n - finrank ℚ (fixSpace π)

theorem finrank_fix_le (π : Perm (Fin n)) : finrank ℚ (fixSpace π) ≤ n := by
  have := Submodule.finrank_le (fixSpace π)
  simpa using this

theorem rlen_add (π : Perm (Fin n)) : rlen π + finrank ℚ (fixSpace π) = n := by
  have := finrank_fix_le π; unfold rlen; omega

theorem rlen_eq_zero {π : Perm (Fin n)} : rlen π = 0 ↔ π = 1 := by
  constructor
  · intro h
    have h1 := rlen_add π
    have htop : fixSpace π = ⊤ := Submodule.eq_top_of_finrank_eq (by simp; omega)
    by_contra hne
    obtain ⟨a, ha⟩ : ∃ a, π a ≠ a := by
      by_contra hc; apply hne; ext x; simp only [not_exists, not_not] at hc; rw [hc x]; rfl
    have : (fun x => if x = a then (1 : ℚ) else 0) ∈ fixSpace π := by rw [htop]; trivial
    have := this a
    simp [ha] at this
  · rintro rfl
    have h1 := rlen_add (1 : Perm (Fin n))
    have htop : fixSpace (1 : Perm (Fin n)) = ⊤ := by
      rw [eq_top_iff]; intro f _ x; rfl
    rw [htop, finrank_top] at h1
    simp at h1; exact h1

theorem fixSpace_inv (π : Perm (Fin n)) : fixSpace π⁻¹ = fixSpace π := by
  ext f
  simp only [mem_fixSpace]
  constructor
  · intro h x; have := h (π x); simpa using this.symm
  · intro h x; have := h (π⁻¹ x); simpa using this.symm

theorem rlen_inv (π : Perm (Fin n)) : rlen π⁻¹ = rlen π := by rw [rlen, fixSpace_inv, rlen]

theorem rlen_conj (π g : Perm (Fin n)) : rlen (g⁻¹ * π * g) = rlen π := by
  have e : fixSpace (g⁻¹ * π * g) = (fixSpace π).map (LinearEquiv.funCongrLeft ℚ ℚ g).toLinearMap := by
    ext f
    rw [Submodule.mem_map_equiv, mem_fixSpace, mem_fixSpace]
    have hs : ∀ x, (LinearEquiv.funCongrLeft ℚ ℚ g).symm f x = f (g⁻¹ x) := fun x => rfl
    simp only [hs]
    constructor
    · intro h x; have := h (g⁻¹ x); simpa using this
    · intro h x; have := h (g x); simpa using this
  rw [rlen, rlen, e, LinearEquiv.finrank_map_eq]

theorem rlen_mul_le (x y : Perm (Fin n)) : rlen (x * y) ≤ rlen x + rlen y := by
  have h1 : fixSpace x ⊓ fixSpace y ≤ fixSpace (x * y) := by
    rintro f ⟨hx, hy⟩ a
    rw [Perm.mul_apply, hx (y a), hy a]
  have h2 := Submodule.finrank_mono h1
  have h3 := Submodule.finrank_sup_add_finrank_inf_eq (fixSpace x) (fixSpace y)
  have h4 : finrank ℚ ↥(fixSpace x ⊔ fixSpace y) ≤ n := by
    have := Submodule.finrank_le (fixSpace x ⊔ fixSpace y); simpa using this
  have := rlen_add x; have := rlen_add y; have := rlen_add (x * y)
  omega

theorem rlen_swap {a b : Fin n} (h : a ≠ b) : rlen (Equiv.swap a b) = 1 := by
  have h0 : rlen (Equiv.swap a b) ≠ 0 := by
    rw [Ne, rlen_eq_zero]; intro hc
    apply h; have := congrArg (fun f => f b) hc; simpa using this
  let φ : (Fin n → ℚ) →ₗ[ℚ] ℚ := (LinearMap.proj (R := ℚ) (φ := fun _ : Fin n => ℚ) a) - LinearMap.proj (R := ℚ) (φ := fun _ : Fin n => ℚ) b
  have hk : LinearMap.ker φ ≤ fixSpace (Equiv.swap a b) := by
    intro f hf x
    have hab : f a = f b := by
      rw [LinearMap.mem_ker] at hf; simp [φ] at hf; linarith
    rw [Equiv.swap_apply_def]
    split_ifs with h1 h2
    · subst h1; exact hab.symm
    · subst h2; exact hab
    · rfl
  have h1 := Submodule.finrank_mono hk
  have h2 := φ.finrank_range_add_finrank_ker
  have h3 : finrank ℚ (LinearMap.range φ) ≤ 1 := by
    have := Submodule.finrank_le (LinearMap.range φ); simpa using this
  rw [Module.finrank_fin_fun] at h2
  have := rlen_add (Equiv.swap a b)
  omega

/-- Splitting off a transposition from a non-trivial permutation. -/
theorem rlen_split (x : Perm (Fin n)) (a : Fin n) (h : x a ≠ a) : rlen (Equiv.swap a (x a) * x) + 1 = rlen x := by
  have hle : fixSpace x ≤ fixSpace (Equiv.swap a (x a) * x) := by
    intro f hf b
    rw [Perm.mul_apply, Equiv.swap_apply_def]
    split_ifs with h1 h2
    · rw [hf a, ← hf b, h1]
    · rw [x.injective h2]
    · exact hf b
  have hlt : fixSpace x < fixSpace (Equiv.swap a (x a) * x) := by
    refine lt_of_le_of_ne hle ?_
    intro he
    have : (fun y => if y = a then (1 : ℚ) else 0) ∈ fixSpace (Equiv.swap a (x a) * x) := by
      intro b
      by_cases hb : b = a
      · subst hb; simp
      · have : (Equiv.swap a (x a) * x) b ≠ a := by
          intro hc
          apply hb
          have h2 : (Equiv.swap a (x a) * x) a = a := by simp
          exact (Equiv.swap a (x a) * x).injective (hc.trans h2.symm)
        simp only [hb, this, if_false]
    rw [← he] at this
    have := this a
    simp [h] at this
  have h1 := Submodule.finrank_lt_finrank_of_lt hlt
  have h2 := rlen_mul_le (Equiv.swap a (x a)) (Equiv.swap a (x a) * x)
  rw [← mul_assoc, Equiv.swap_mul_self, one_mul, rlen_swap h.symm] at h2
  have := rlen_add x; have := rlen_add (Equiv.swap a (x a) * x)
  omega

theorem exists_rlen_split {x : Perm (Fin n)} (h : x ≠ 1) : ∃ a b : Fin n, a ≠ b ∧ rlen (Equiv.swap a b * x) + 1 = rlen x := by
  obtain ⟨a, ha⟩ : ∃ a, x a ≠ a := by
    by_contra hc; apply h; ext y; simp only [not_exists, not_not] at hc; rw [hc y]; rfl
  exact ⟨a, x a, ha.symm, rlen_split x a ha⟩

theorem sign_eq_rlen (x : Perm (Fin n)) : Perm.sign x = (-1) ^ rlen x := by
  induction hk : rlen x generalizing x with
  | zero => rw [rlen_eq_zero.1 hk]; simp
  | succ k ih =>
    obtain ⟨a, b, hab, h⟩ := exists_rlen_split (x := x) (by rintro rfl; rw [rlen_eq_zero.2 rfl] at hk; omega)
    have := ih (Equiv.swap a b * x) (by omega)
    rw [Perm.sign_mul, Perm.sign_swap hab] at this
    rw [pow_succ, ← this]; simp

/-- Multiplying by a transposition of two points of the same cycle lowers the length. -/
theorem rlen_swap_mul_of_fix (x : Perm (Fin n)) {a b : Fin n} (hab : a ≠ b) (h : ∀ f ∈ fixSpace x, f a = f b) :
    rlen (Equiv.swap a b * x) + 1 = rlen x := by
  have hle : fixSpace x ≤ fixSpace (Equiv.swap a b * x) := by
    intro f hf c
    rw [Perm.mul_apply, Equiv.swap_apply_def, ← hf c]
    split_ifs with h1 h2
    · rw [h1, h f hf]
    · rw [h2, h f hf]
    · rfl
  have h1 := Submodule.finrank_mono hle
  have h2 := rlen_mul_le (Equiv.swap a b) (Equiv.swap a b * x)
  rw [← mul_assoc, Equiv.swap_mul_self, one_mul, rlen_swap hab] at h2
  have hne : rlen (Equiv.swap a b * x) ≠ rlen x := by
    intro he
    have h3 := sign_eq_rlen (Equiv.swap a b * x)
    rw [he, ← sign_eq_rlen, Perm.sign_mul, Perm.sign_swap hab] at h3
    rcases Int.units_eq_one_or (Perm.sign x) with h4 | h4 <;> rw [h4] at h3 <;> exact absurd h3 (by decide)
  have := rlen_add x; have := rlen_add (Equiv.swap a b * x)
  omega

end Peyl
