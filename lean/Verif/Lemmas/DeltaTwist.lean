import Verif.Lemmas.FullTwist
import Verif.Lemmas.NParTable
import Mathlib.LinearAlgebra.Dimension.Finrank
import Mathlib.LinearAlgebra.FiniteDimensional.Lemmas
/-!
# `δⁿ = Δ²`
-/
namespace Peyl
open Equiv
namespace JM
variable {M : Type*} [Monoid M] {s : Nat → M} {N : Nat} (far : ∀ i j, i + 2 ≤ j → j < N → s i * s j = s j * s i)
  (adj : ∀ i, i + 1 < N → s i * s (i + 1) * s i = s (i + 1) * s i * s (i + 1))
include far adj

theorem dn_pow_shift {k i : Nat} (hk : k ≤ N) : ∀ j, i + j < k → s i * dn s k ^ j = dn s k ^ j * s (i + j)
  | 0, _ => by simp
  | j + 1, h => by
    rw [pow_succ, ← mul_assoc, dn_pow_shift hk j (by omega), mul_assoc, dn_shift far adj (by omega) hk, ← mul_assoc]; rfl

/-- `s_{m-j} ⋯ s_{m-1}`. -/
def win (s : Nat → M) (m : Nat) : Nat → M
  | 0 => 1
  | j + 1 => s (m - 1 - j) * win s m j

theorem dn_pow_win {m : Nat} (hm : m + 1 ≤ N) : ∀ j, j ≤ m + 1 → dn s (m + 1) ^ j = win s (m + 1) j * dn s m ^ j
  | 0, _ => by simp [win]
  | j + 1, h => by
    have h1 := dn_pow_shift far adj hm (i := m - j) j (by omega)
    rw [show m - j + j = m by omega] at h1
    calc dn s (m + 1) ^ (j + 1) = dn s (m + 1) ^ j * s m * dn s m := by rw [pow_succ, mul_assoc]; rfl
      _ = s (m - j) * (dn s (m + 1) ^ j) * dn s m := by rw [h1]
      _ = s (m - j) * (win s (m + 1) j * dn s m ^ j) * dn s m := by rw [dn_pow_win hm j (by omega)]
      _ = win s (m + 1) (j + 1) * dn s m ^ (j + 1) := by rw [win, pow_succ]; simp only [mul_assoc, Nat.add_sub_cancel]

omit far adj in
theorem win_up (m : Nat) : ∀ j, j ≤ m → up s (m - j) * win s m j = up s m
  | 0, _ => by simp [win]
  | j + 1, h => by
    rw [win, ← mul_assoc]
    have : up s (m - (j + 1)) * s (m - 1 - j) = up s (m - j) := by
      rw [show m - j = (m - 1 - j) + 1 by omega, up, show m - (j + 1) = m - 1 - j by omega]
    rw [this, win_up m j (by omega)]

/-- `δ^{m+1} = Δ²` on `m + 1` strands. -/
theorem dn_pow_eq {m : Nat} (hm : m ≤ N) : dn s m ^ (m + 1) = half s m ^ 2 := by
  induction m with
  | zero => simp [dn, half]
  | succ m ih =>
    have h1 := dn_pow_win far adj hm (m + 1) le_rfl
    have h2 := win_up (s := s) (m + 1) (m + 1) le_rfl
    rw [Nat.sub_self, up, one_mul] at h2
    rw [pow_succ', h1, h2, ← mul_assoc, ← jm_eq, ih (by omega), half_sq_succ far adj (by omega), pow_two, mul_assoc, jm_half far adj (by omega) hm, ← mul_assoc,
      ← mul_assoc (half s m), jm_half far adj (by omega) hm]
end JM

variable {n : Nat}

theorem rlen_dcyc (hn : 1 ≤ n) : rlen (dcyc n) = n - 1 := by
  have h0 := rlen_add (dcyc n)
  have h1 : Module.finrank ℚ (fixSpace (dcyc n)) ≤ 1 := by
    refine finrank_le_one ⟨fun _ => 1, fun _ => rfl⟩ fun f => ⟨f.1 ⟨0, hn⟩, ?_⟩
    have key : ∀ k (h : k < n), f.1 ⟨k, h⟩ = f.1 ⟨0, hn⟩ := by
      intro k
      induction k with
      | zero => intro _; rfl
      | succ k ih =>
        intro h
        rw [← ih (by omega), ← f.2 ⟨k + 1, h⟩]
        have e : dcyc n ⟨k + 1, h⟩ = ⟨k, by omega⟩ := Fin.ext (by rw [dcyc_val]; simp)
        rw [e]
    refine Subtype.ext (funext fun x => ?_)
    show f.1 ⟨0, hn⟩ * 1 = f.1 x
    rw [mul_one]
    exact (key x.1 x.2).symm
  have h2 : Module.finrank ℚ (fixSpace (dcyc n)) ≠ 0 := by
    intro e
    rw [Submodule.finrank_eq_zero] at e
    have : (fun _ => (1 : ℚ)) ∈ fixSpace (dcyc n) := fun _ => rfl
    rw [e, Submodule.mem_bot] at this
    have := congrFun this ⟨0, hn⟩
    simp at this
  omega

/-- The dual Garside element in the Artin generators. -/
theorem delta_eq_dn (hn : 1 ≤ n) : delta n = JM.dn (sigma n) (n - 1) := by
  obtain ⟨m, rfl⟩ : ∃ m, n = m + 1 := ⟨n - 1, by omega⟩
  set w : List (Fin (m + 1) × Fin (m + 1)) := (List.finRange m).reverse.map fun i => (i.castSucc, i.succ) with hw
  have hlt : ∀ p ∈ w, p.1 < p.2 := by
    intro p hp
    obtain ⟨i, -, rfl⟩ := List.mem_map.1 hp
    exact Fin.castSucc_lt_succ
  have hcox : (w.map tr).prod = dcyc (m + 1) := by
    have e : w.map tr = (dnW m).map (sg (m + 1)) := by
      rw [hw, dnW, ← List.map_coe_finRange_eq_range, ← List.map_reverse, List.map_map, List.map_map]
      refine List.map_congr_left fun i _ => ?_
      ext x
      simp only [Function.comp, tr]
      rw [sg_apply_val _ _ (by omega), swap_apply_def]
      split_ifs <;> simp_all [Fin.ext_iff] <;> omega
    rw [e]
    ext x
    have := coxProd_dnW (n := m + 1) (k := m) (by omega) x
    rw [coxProd] at this
    rw [this, dcyc_val]
    split_ifs <;> omega
  have hred := red_of_walk hlt (by rw [hcox, inv_mul_cancel, rlen_eq_zero.2 rfl, rlen_dcyc (by omega)]; simp [hw])
  rw [hcox] at hred
  rw [delta, dlift_eq ncp_dcyc (red_iff_min.1 hred.2)]
  have e : (w.map fun p => band (m + 1) p.1 p.2) = (dnW m).map (sigma (m + 1)) := by
    rw [hw, dnW, ← List.map_coe_finRange_eq_range, ← List.map_reverse, List.map_map, List.map_map]
    refine List.map_congr_left fun i _ => ?_
    exact band_adj (m + 1) i
  rw [e]
  have : ∀ k, ((dnW k).map (sigma (m + 1))).prod = JM.dn (sigma (m + 1)) k := by
    intro k
    induction k with
    | zero => rfl
    | succ k ih => rw [dnW_succ, List.map_cons, List.prod_cons, ih]; rfl
  exact this m

theorem delta_pow (hn : 1 ≤ n) : delta n ^ n = halfTwist n ^ 2 := by
  rw [delta_eq_dn hn, halfTwist_eq hn]
  have := JM.dn_pow_eq (s := sigma n) (N := n - 1) (fun i j h hj => sigma_comm i j (by omega) h) (fun i hi => sigma_braid i (by omega)) (m := n - 1) le_rfl
  rwa [show n - 1 + 1 = n by omega] at this

end Peyl
