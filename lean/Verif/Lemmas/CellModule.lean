import Verif.Lemmas.TLCell
import Verif.Lemmas.FullTwist
import Mathlib.LinearAlgebra.Matrix.Notation
import Mathlib.Tactic.NoncommRing
import Mathlib.Tactic.Module
/-!
# Cell modules over a commutative ring: Temperley–Lieb matrices, the braid matrices and the full twist
-/
namespace Peyl
namespace JM
variable {M : Type*} [Monoid M] {s : Nat → M} {N : Nat} (far : ∀ i j, i + 2 ≤ j → j < N → s i * s j = s j * s i)
  (adj : ∀ i, i + 1 < N → s i * s (i + 1) * s i = s (i + 1) * s i * s (i + 1))
include far adj

theorem half_conj {k : Nat} (hk : k ≤ N) : ∀ {i : Nat}, i < k → half s k * s i = s (k - 1 - i) * half s k := by
  induction k with
  | zero => intro i hi; omega
  | succ k ih =>
    intro i hi
    cases i with
    | succ i =>
      have := dn_shift far adj (k := k + 1) (i := i) (by omega) hk
      rw [half, mul_assoc, ← this, ← mul_assoc, ih (by omega) (by omega), mul_assoc]
      congr 2; omega
    | zero =>
      rw [half_succ far (by omega)]
      rcases Nat.eq_zero_or_pos k with rfl | hk0
      · simp [up, half]
      · have := up_shift far adj (k := k + 1) (i := k - 1) (by omega) hk
        rw [mul_assoc, ih (by omega) hk0, ← mul_assoc, show k - 1 - 0 = k - 1 by omega, ← this, mul_assoc]
        congr 2; omega

theorem half_sq_comm {k : Nat} (hk : k ≤ N) {i : Nat} (hi : i < k) : half s k ^ 2 * s i = s i * half s k ^ 2 := by
  rw [pow_two, mul_assoc, half_conj far adj hk hi, ← mul_assoc, half_conj far adj hk (by omega), mul_assoc]
  congr 2; omega

end JM

section algebra
variable {R A : Type*} [CommRing R] [Ring A] [Algebra R A] {v vi : R} {x y : A}

theorem tl_inv (hv : v * vi = 1) (hx : x * x = (v + vi) • x) : (1 - v • x) * (1 - vi • x) = 1 ∧ (1 - vi • x) * (1 - v • x) = 1 := by
  have e : v * vi * (v + vi) = v + vi := by rw [hv, one_mul]
  constructor
  · rw [sub_mul, one_mul, mul_sub, mul_one, smul_mul_smul_comm, hx, smul_smul, e]; module
  · rw [sub_mul, one_mul, mul_sub, mul_one, smul_mul_smul_comm, hx, smul_smul, mul_comm vi v, e]; module

theorem tl_braid (hv : v * vi = 1) (hx : x * x = (v + vi) • x) (hy : y * y = (v + vi) • y) (hxy : x * y * x = x) (hyx : y * x * y = y) :
    (1 - v • x) * (1 - v • y) * (1 - v • x) = (1 - v • y) * (1 - v • x) * (1 - v • y) := by
  have key : ∀ x y : A, x * x = (v + vi) • x → x * y * x = x →
      (1 - v • x) * (1 - v • y) * (1 - v • x) = 1 - v • x - v • y + (v * v) • (x * y + y * x) := by
    intro x y hx hxy
    have e : v * v * (v + vi) - v * v * v = v := by linear_combination v * hv
    have e' : (v * v * (v + vi)) • x - (v * v * v) • x = v • x := by rw [← sub_smul, e]
    have h1 : (1 - v • x) * (1 - v • y) * (1 - v • x) =
        1 - v • x - v • y - v • x + (v * v) • (x * y) + (v * v) • (y * x) + (v * v) • (x * x) - (v * v * v) • (x * y * x) := by
      simp only [sub_mul, mul_sub, one_mul, mul_one, smul_mul_assoc, mul_smul_comm, smul_smul, smul_sub]
      abel_nf
      rw [mul_assoc v v v]
    rw [h1, hx, hxy, smul_smul, smul_add]
    have := e'
    calc _ = 1 - v • x - v • y - v • x + (v * v) • (x * y) + (v * v) • (y * x) + ((v * v * (v + vi)) • x - (v * v * v) • x) := by abel
      _ = _ := by rw [e']; abel
  rw [key x y hx hxy, key y x hy hyx]
  abel_nf

end algebra

namespace TL
open _root_.Matrix

/-- `β` lists the cell diagrams. -/
structure IsBasis {ι : Type*} (n b : Nat) (β : ι → List Nat) : Prop where
  cell : ∀ a, Cell n b (β a)
  inj : Function.Injective β
  surj : ∀ D, Cell n b D → ∃ a, β a = D

variable {R : Type*} [CommRing R] {ι : Type*} [Fintype ι] [DecidableEq ι] {n b : Nat} {β : ι → List Nat}

def cvec (β : ι → List Nat) (D : List Nat) : ι → R := fun a => if β a = D then 1 else 0

def Emat (δ : R) (β : ι → List Nat) (k : Nat) : _root_.Matrix ι ι R := fun a c => if actSeq k (β c) = β a then δ ^ actLoops k (β c) else 0

theorem cvec_single (h : IsBasis n b β) (c : ι) : cvec (R := R) β (β c) = Pi.single c 1 := by
  funext a
  simp only [cvec, Pi.single_apply, h.inj.eq_iff]

theorem cvec_zero (h : IsBasis n b β) {D : List Nat} (hD : ¬ Cell n b D) : cvec (R := R) β D = 0 := by
  funext a
  simp only [cvec, Pi.zero_apply, ite_eq_right_iff]
  rintro rfl
  exact absurd (h.cell a) hD

theorem E_vec (h : IsBasis n b β) {δ : R} {D : List Nat} (hD : Crossingless D) (hl : D.length = n + b) {k : Nat} (hk : b ≤ k) (hk' : k + 1 < n + b) :
    Emat δ β k *ᵥ cvec β D = δ ^ actLoops k D • cvec β (actSeq k D) := by
  by_cases hc : Cell n b D
  · obtain ⟨c, rfl⟩ := h.surj D hc
    rw [cvec_single h, mulVec_single_one]
    funext a
    simp only [col_apply, Emat, cvec, Pi.smul_apply, smul_eq_mul, mul_ite, mul_one, mul_zero, eq_comm]
  · rw [cvec_zero h hc, cvec_zero h fun hc' => hc (Cell.of_act hD hl hk (by omega) hc'), mulVec_zero, smul_zero]

theorem mat_ext (h : IsBasis n b β) {A B : _root_.Matrix ι ι R} (hAB : ∀ D, Cell n b D → A *ᵥ cvec β D = B *ᵥ cvec β D) : A = B := by
  ext a c
  have := congrFun (hAB _ (h.cell c)) a
  rw [cvec_single h, mulVec_single_one, mulVec_single_one] at this
  exact this

variable (h : IsBasis n b β) {δ : R}
include h

theorem E_sq {k : Nat} (hk : b ≤ k) (hk' : k + 1 < n + b) : Emat δ β k * Emat δ β k = δ • Emat δ β k := by
  refine mat_ext h fun D hD => ?_
  have hl := hD.len
  obtain ⟨e1, e2⟩ := act_act hD.nc (k := k) (by omega)
  rw [← mulVec_mulVec, smul_mulVec, E_vec h hD.nc hl hk hk', mulVec_smul, E_vec h (act_nc hD.nc (by omega)) (by simpa using hl) hk hk', e1, e2]
  rw [pow_one, smul_smul, smul_smul, mul_comm]

theorem E_up {k : Nat} (hk : b ≤ k) (hk' : k + 2 < n + b) : Emat δ β k * Emat δ β (k + 1) * Emat δ β k = Emat δ β k := by
  refine mat_ext h fun D hD => ?_
  have hl := hD.len
  have n1 := act_nc hD.nc (k := k) (by omega)
  have n2 := act_nc n1 (k := k + 1) (by simp; omega)
  obtain ⟨e1, e2, e3⟩ := act_up hD.nc (k := k) (by omega)
  rw [← mulVec_mulVec, ← mulVec_mulVec, E_vec h hD.nc hl hk (by omega), mulVec_smul, E_vec h n1 (by simpa using hl) (by omega) (by omega), mulVec_smul,
    mulVec_smul, E_vec h n2 (by simpa using hl) hk (by omega), e1, e2, e3]
  simp

theorem E_down {k : Nat} (hk : b ≤ k) (hk' : k + 2 < n + b) : Emat δ β (k + 1) * Emat δ β k * Emat δ β (k + 1) = Emat δ β (k + 1) := by
  refine mat_ext h fun D hD => ?_
  have hl := hD.len
  have n1 := act_nc hD.nc (k := k + 1) (by omega)
  have n2 := act_nc n1 (k := k) (by simp; omega)
  obtain ⟨e1, e2, e3⟩ := act_down hD.nc (k := k) (by omega)
  rw [← mulVec_mulVec, ← mulVec_mulVec, E_vec h hD.nc hl (by omega) (by omega), mulVec_smul, E_vec h n1 (by simpa using hl) (by omega) (by omega), mulVec_smul,
    mulVec_smul, E_vec h n2 (by simpa using hl) (by omega) (by omega), e1, e2, e3]
  simp

theorem E_far {j k : Nat} (hj : b ≤ j) (hjk : j + 2 ≤ k) (hk' : k + 1 < n + b) : Emat δ β j * Emat δ β k = Emat δ β k * Emat δ β j := by
  refine mat_ext h fun D hD => ?_
  have hl := hD.len
  have n1 := act_nc hD.nc (k := k) (by omega)
  have n2 := act_nc hD.nc (k := j) (by omega)
  obtain ⟨e1, e2⟩ := act_far hD.nc (j := j) (k := k) hjk (by omega)
  rw [← mulVec_mulVec, ← mulVec_mulVec, E_vec h hD.nc hl (by omega) (by omega), mulVec_smul, E_vec h n1 (by simpa using hl) (by omega) (by omega),
    E_vec h hD.nc hl (by omega) (by omega), mulVec_smul, E_vec h n2 (by simpa using hl) (by omega) (by omega), e1, smul_smul, smul_smul, ← pow_add, ← pow_add, e2]

end TL
end Peyl
