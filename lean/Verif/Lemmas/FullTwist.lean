import Verif.Lemmas.PermGerm
/-!
# The full twist as a product of Jucys–Murphy elements
-/
namespace Peyl
namespace JM
variable {M : Type*} [Monoid M] (s : Nat → M)

/-- `s_{k-1} ⋯ s_0`. -/
def dn : Nat → M
  | 0 => 1
  | k + 1 => s k * dn k

/-- `s_0 ⋯ s_{k-1}`. -/
def up : Nat → M
  | 0 => 1
  | k + 1 => up k * s k

/-- The half twist on `k + 1` strands. -/
def half : Nat → M
  | 0 => 1
  | k + 1 => half k * dn s (k + 1)

/-- The Jucys–Murphy element: strand `k` runs once around the previous ones. -/
def jm : Nat → M
  | 0 => 1
  | k + 1 => s k * jm k * s k

variable {s} {N : Nat} (far : ∀ i j, i + 2 ≤ j → j < N → s i * s j = s j * s i)
  (adj : ∀ i, i + 1 < N → s i * s (i + 1) * s i = s (i + 1) * s i * s (i + 1))
include far

theorem dn_comm {k j : Nat} (h : k + 1 ≤ j) (hj : j < N) : dn s k * s j = s j * dn s k := by
  induction k with
  | zero => simp [dn]
  | succ k ih => rw [dn, mul_assoc, ih (by omega), ← mul_assoc, far k j (by omega) hj, mul_assoc]

theorem up_comm {k j : Nat} (h : k + 1 ≤ j) (hj : j < N) : up s k * s j = s j * up s k := by
  induction k with
  | zero => simp [up]
  | succ k ih => rw [up, mul_assoc, far k j (by omega) hj, ← mul_assoc, ih (by omega), mul_assoc]

theorem half_comm {k j : Nat} (h : k + 1 ≤ j) (hj : j < N) : half s k * s j = s j * half s k := by
  induction k with
  | zero => simp [half]
  | succ k ih => rw [half, mul_assoc, dn_comm far h hj, ← mul_assoc, ih (by omega), mul_assoc]

theorem jm_comm_far {k j : Nat} (h : k + 1 ≤ j) (hj : j < N) : jm s k * s j = s j * jm s k := by
  induction k with
  | zero => simp [jm]
  | succ k ih => rw [jm, mul_assoc, far k j (by omega) hj, ← mul_assoc, mul_assoc (s k), ih (by omega), ← mul_assoc, far k j (by omega) hj, mul_assoc, mul_assoc, mul_assoc]

omit far in
theorem jm_eq (k : Nat) : jm s k = dn s k * up s k := by
  induction k with
  | zero => simp [jm, dn, up]
  | succ k ih => rw [jm, ih, dn, up]; simp only [mul_assoc]

theorem half_succ {k : Nat} (hk : k < N) : half s (k + 1) = up s (k + 1) * half s k := by
  induction k with
  | zero => simp [half, up, dn]
  | succ k ih =>
    calc half s (k + 1 + 1) = half s (k + 1) * (s (k + 1) * dn s (k + 1)) := rfl
      _ = up s (k + 1) * (half s k * s (k + 1)) * dn s (k + 1) := by rw [ih (by omega)]; simp only [mul_assoc]
      _ = up s (k + 1) * s (k + 1) * (half s k * dn s (k + 1)) := by rw [half_comm far (by omega) hk]; simp only [mul_assoc]
      _ = up s (k + 1 + 1) * half s (k + 1) := rfl

include adj

theorem dn_shift {k i : Nat} (hi : i + 1 < k) (hk : k ≤ N) : s i * dn s k = dn s k * s (i + 1) := by
  induction k with
  | zero => omega
  | succ k ih =>
    rw [dn]
    rcases Nat.lt_or_ge (i + 1) k with h | h
    · rw [← mul_assoc, far i k (by omega) (by omega), mul_assoc, ih h (by omega), mul_assoc]
    · obtain rfl : k = i + 1 := by omega
      rw [dn, ← mul_assoc, ← mul_assoc, adj i (by omega), mul_assoc (s (i + 1) * s i), ← dn_comm far (by omega) (by omega)]
      simp only [mul_assoc]

theorem up_shift {k i : Nat} (hi : i + 1 < k) (hk : k ≤ N) : s (i + 1) * up s k = up s k * s i := by
  induction k with
  | zero => omega
  | succ k ih =>
    rw [up]
    rcases Nat.lt_or_ge (i + 1) k with h | h
    · rw [← mul_assoc, ih h (by omega), mul_assoc, mul_assoc, far i k (by omega) (by omega)]
    · obtain rfl : k = i + 1 := by omega
      rw [up, ← mul_assoc, ← mul_assoc, ← up_comm far (by omega) (by omega), mul_assoc, mul_assoc, ← mul_assoc (s (i + 1)), ← adj i (by omega)]
      simp only [mul_assoc]

theorem jm_comm {k i : Nat} (hi : i + 1 < k) (hk : k ≤ N) : s i * jm s k = jm s k * s i := by
  rw [jm_eq, ← mul_assoc, dn_shift far adj hi hk, mul_assoc, up_shift far adj hi hk, mul_assoc]

theorem jm_half {k j : Nat} (hj : j < k) (hk : k ≤ N) : half s j * jm s k = jm s k * half s j := by
  have hdn : ∀ j, j < k → dn s j * jm s k = jm s k * dn s j := by
    intro j hj
    induction j with
    | zero => simp [dn]
    | succ j ih => rw [dn, mul_assoc, ih (by omega), ← mul_assoc, jm_comm far adj hj hk, mul_assoc]
  induction j with
  | zero => simp [half]
  | succ j ih => rw [half, mul_assoc, hdn _ hj, ← mul_assoc, ih (by omega), mul_assoc]

/-- The full twist on one more strand. -/
theorem half_sq_succ {k : Nat} (hk : k < N) : half s (k + 1) ^ 2 = half s k ^ 2 * jm s (k + 1) := by
  calc half s (k + 1) ^ 2 = half s k * dn s (k + 1) * (up s (k + 1) * half s k) := by rw [pow_two, ← half_succ far hk]; rfl
    _ = half s k * (jm s (k + 1) * half s k) := by rw [jm_eq]; simp only [mul_assoc]
    _ = half s k ^ 2 * jm s (k + 1) := by rw [← jm_half far adj (by omega) (by omega), pow_two, mul_assoc]

end JM

open Equiv

/-! ### The half twist is `half` -/
variable {n : Nat}

/-- The word `k-1, …, 0`. -/
def dnW (k : Nat) : List Nat := (List.range k).reverse

/-- The word of the half twist on `k+1` strands. -/
def halfW : Nat → List Nat
  | 0 => []
  | k + 1 => halfW k ++ dnW (k + 1)

theorem dnW_succ (k : Nat) : dnW (k + 1) = k :: dnW k := by simp [dnW, List.range_succ]

theorem mem_halfW {k s : Nat} (h : s ∈ halfW k) : s < k := by
  induction k with
  | zero => cases h
  | succ k ih =>
    rw [halfW, List.mem_append] at h
    rcases h with h | h
    · have := ih h; omega
    · simpa [dnW] using h

theorem length_halfW (k : Nat) : (halfW k).length = ∑ i ∈ Finset.range (k + 1), i := by
  induction k with
  | zero => simp [halfW]
  | succ k ih => rw [halfW, List.length_append, ih, Finset.sum_range_succ _ (k + 1)]; simp [dnW]

theorem coxProd_dnW {k : Nat} (hk : k < n) (x : Fin n) :
    ((coxProd n (dnW k) x : Fin n) : Nat) = if x.val = 0 then k else if x.val ≤ k then x.val - 1 else x.val := by
  induction k with
  | zero => simp only [dnW, coxProd, List.range_zero, List.reverse_nil, List.map_nil, List.prod_nil, Perm.one_apply]; split_ifs <;> omega
  | succ k ih =>
    rw [dnW_succ, coxProd_cons, Perm.mul_apply, sg_apply_val _ _ hk, ih (by omega)]
    split_ifs <;> omega

theorem coxProd_halfW {k : Nat} (hk : k < n) (x : Fin n) :
    ((coxProd n (halfW k) x : Fin n) : Nat) = if x.val ≤ k then k - x.val else x.val := by
  induction k generalizing x with
  | zero => simp only [halfW, coxProd, List.map_nil, List.prod_nil, Perm.one_apply]; split_ifs <;> omega
  | succ k ih =>
    rw [halfW, coxProd_append, Perm.mul_apply, ih (by omega), coxProd_dnW hk]
    split_ifs <;> omega

theorem inv_w0_eq : inv (w0 n) = ∑ i ∈ Finset.range n, i := by
  have h : invSet (w0 n) = Finset.univ.filter fun p : Fin n × Fin n => p.1 < p.2 := by
    ext p; simp [mem_invSet, w0]
  rw [inv, h, ← Fin.sum_univ_eq_sum_range fun i => i]
  have e : (Finset.univ.filter fun p : Fin n × Fin n => p.1 < p.2) = (Finset.univ.sigma (fun b : Fin n => Finset.Iio b)).map
      ⟨fun p : (_ : Fin n) × Fin n => (p.2, p.1), fun a b e => by
        obtain ⟨a1, a2⟩ := a; obtain ⟨b1, b2⟩ := b
        simp only [Prod.mk.injEq] at e
        obtain ⟨rfl, rfl⟩ := e; rfl⟩ := by
    ext ⟨a, b⟩
    simp only [Finset.mem_filter, Finset.mem_univ, true_and, Finset.mem_map, Finset.mem_sigma, Finset.mem_Iio]
    constructor
    · exact fun h => ⟨⟨b, a⟩, h, rfl⟩
    · rintro ⟨⟨c, d⟩, h, e⟩
      have e : (d, c) = (a, b) := e
      rw [Prod.mk.injEq] at e
      obtain ⟨rfl, rfl⟩ := e
      exact h
  rw [e, Finset.card_map, Finset.card_sigma]
  exact Finset.sum_congr rfl fun b _ => by simp

theorem halfW_reduced (hn : 1 ≤ n) : IsReduced (halfW (n - 1)) (w0 n) := by
  refine ⟨fun s hs => by have := mem_halfW hs; omega, ?_, ?_⟩
  · ext x
    rw [coxProd_halfW (by omega), if_pos (by omega)]
    simp [w0, Fin.val_rev]; omega
  · rw [length_halfW, inv_w0_eq]; congr 2; omega

theorem posWord_halfW (f : Nat → Nat) (k : Nat) : posWord n ((halfW k).map f) = JM.half (fun i => sigma n (f i)) k := by
  have hdn : ∀ k, posWord n ((dnW k).map f) = JM.dn (fun i => sigma n (f i)) k := by
    intro k
    induction k with
    | zero => simp [dnW, posWord, JM.dn]
    | succ k ih =>
      rw [dnW_succ, JM.dn, ← ih]; simp [posWord]
  induction k with
  | zero => simp [halfW, posWord, JM.half]
  | succ k ih => rw [halfW, JM.half, ← ih, ← hdn]; simp [posWord]

theorem w0_conj_sg {i : Nat} (hi : i + 1 < n) : w0 n * sg n i * w0 n = sg n (n - 2 - i) := by
  ext x
  rw [Perm.mul_apply, Perm.mul_apply, sg_apply_val _ _ (by omega)]
  have : ((w0 n) (sg n i (w0 n x))).val = n - 1 - (sg n i (w0 n x)).val := by
    simp [w0, Fin.val_rev]; omega
  rw [this, sg_apply_val _ _ hi]
  have : (w0 n x).val = n - 1 - x.val := by simp [w0, Fin.val_rev]; omega
  rw [this]
  have := x.2
  split_ifs <;> omega

theorem coxProd_rev (w : List Nat) (h : ∀ s ∈ w, s + 1 < n) : coxProd n (w.map fun i => n - 2 - i) = w0 n * coxProd n w * w0 n := by
  induction w with
  | nil => simp [coxProd, w0_sq]
  | cons i w ih =>
    rw [List.map_cons, coxProd_cons, coxProd_cons, ih fun s hs => h s (List.mem_cons_of_mem _ hs), ← w0_conj_sg (h i (List.mem_cons_self ..))]
    calc w0 n * sg n i * w0 n * (w0 n * coxProd n w * w0 n) = w0 n * sg n i * (w0 n * w0 n) * coxProd n w * w0 n := by simp only [mul_assoc]
      _ = _ := by rw [w0_sq, mul_one]; simp only [mul_assoc]

/-- The half twist in terms of the generators counted from the other end. -/
theorem halfTwist_eq_rev (hn : 1 ≤ n) : halfTwist n = JM.half (fun i => sigma n (n - 2 - i)) (n - 1) := by
  have h := halfW_reduced (n := n) hn
  rw [← posWord_halfW]
  refine lift_eq_posWord ⟨fun s hs => ?_, ?_, ?_⟩
  · obtain ⟨i, hi, rfl⟩ := List.mem_map.1 hs
    have := mem_halfW hi; omega
  · rw [coxProd_rev _ h.1, h.2.1, w0_sq, one_mul]
  · rw [List.length_map, h.2.2]

theorem halfTwist_eq (hn : 1 ≤ n) : halfTwist n = JM.half (sigma n) (n - 1) := by
  have := posWord_halfW (n := n) id (n - 1)
  rw [List.map_id] at this
  rw [halfTwist, lift_eq_posWord (halfW_reduced hn), this]; rfl

end Peyl
