import Verif.Lemmas.JonesRep
import Verif.Lemmas.JonesSummand
/-!
# Degrees and coefficients of the matrices of positive braids in the Jones representations
-/
namespace Peyl
open Polynomial LaurentPolynomial Jones TL
variable {d : Nat}

/-- Entries of degree at most `2ℓ`; the sum of the absolute values of all coefficients in a column is at most `2^ℓ`. -/
def Small (ℓ : Nat) (N : _root_.Matrix (Fin d) (Fin d) ℤ[X]) : Prop :=
  ∃ G : _root_.Matrix (Fin d) (Fin d) ℤ[X], (∀ i j e, |(N i j).coeff e| ≤ (G i j).coeff e) ∧ (∀ i j, (G i j).natDegree ≤ 2 * ℓ) ∧
    ∀ j, ∑ i, (G i j).eval 1 ≤ 2 ^ ℓ

theorem small_one : Small 0 (1 : _root_.Matrix (Fin d) (Fin d) ℤ[X]) := by
  refine ⟨1, fun i j e => ?_, fun i j => ?_, fun j => ?_⟩
  · rw [_root_.Matrix.one_apply]
    split
    · rw [coeff_one]; split <;> simp
    · simp
  · rw [_root_.Matrix.one_apply]; split <;> simp
  · have : ∀ i, ((1 : _root_.Matrix (Fin d) (Fin d) ℤ[X]) i j).eval 1 = if i = j then 1 else 0 := by
      intro i; rw [_root_.Matrix.one_apply]; split <;> simp
    simp [this]

theorem nonneg_of_dom {f g : ℤ[X]} (h : ∀ e, |f.coeff e| ≤ g.coeff e) (e : Nat) : 0 ≤ g.coeff e := (abs_nonneg _).trans (h e)

theorem eval_one_nonneg {g : ℤ[X]} (h : ∀ e, 0 ≤ g.coeff e) : 0 ≤ g.eval 1 := by
  rw [eval_eq_sum_range]
  exact Finset.sum_nonneg fun e _ => by simpa using h e

theorem coeff_le_eval_one {g : ℤ[X]} (h : ∀ e, 0 ≤ g.coeff e) (e : Nat) : g.coeff e ≤ g.eval 1 := by
  by_cases he : e ≤ g.natDegree
  · rw [eval_eq_sum_range]
    have := Finset.single_le_sum (f := fun i => g.coeff i * 1 ^ i) (s := Finset.range (g.natDegree + 1)) (fun i _ => by simpa using h i) (a := e) (by simp; omega)
    simpa using this
  · rw [coeff_eq_zero_of_natDegree_lt (by omega)]; exact eval_one_nonneg h

theorem dom_mul {f g f' g' : ℤ[X]} (h : ∀ e, |f.coeff e| ≤ g.coeff e) (h' : ∀ e, |f'.coeff e| ≤ g'.coeff e) (e : Nat) : |(f * f').coeff e| ≤ (g * g').coeff e := by
  rw [coeff_mul, coeff_mul]
  refine (Finset.abs_sum_le_sum_abs _ _).trans (Finset.sum_le_sum fun x _ => ?_)
  rw [abs_mul]
  exact mul_le_mul (h _) (h' _) (abs_nonneg _) (nonneg_of_dom h _)

theorem Small.mul {ℓ m : Nat} {N N' : _root_.Matrix (Fin d) (Fin d) ℤ[X]} (h : Small ℓ N) (h' : Small m N') : Small (ℓ + m) (N * N') := by
  obtain ⟨G, g1, g2, g3⟩ := h
  obtain ⟨G', g1', g2', g3'⟩ := h'
  refine ⟨G * G', fun i j e => ?_, fun i j => ?_, fun j => ?_⟩
  · rw [_root_.Matrix.mul_apply, _root_.Matrix.mul_apply, finset_sum_coeff, finset_sum_coeff]
    exact (Finset.abs_sum_le_sum_abs _ _).trans (Finset.sum_le_sum fun k _ => dom_mul (g1 i k) (g1' k j) e)
  · rw [_root_.Matrix.mul_apply]
    refine natDegree_sum_le_of_forall_le _ _ fun k _ => ?_
    refine natDegree_mul_le.trans ?_
    have := g2 i k; have := g2' k j; omega
  · have e1 : ∀ i, ((G * G') i j).eval 1 = ∑ k, (G i k).eval 1 * (G' k j).eval 1 := by
      intro i; rw [_root_.Matrix.mul_apply, eval_finset_sum]; simp
    simp only [e1]
    rw [Finset.sum_comm]
    calc _ = ∑ k, (∑ i, (G i k).eval 1) * (G' k j).eval 1 := by simp only [Finset.sum_mul]
      _ ≤ ∑ k, 2 ^ ℓ * (G' k j).eval 1 := Finset.sum_le_sum fun k _ => mul_le_mul_of_nonneg_right (g3 k) (eval_one_nonneg (nonneg_of_dom (g1' k j)))
      _ = 2 ^ ℓ * ∑ k, (G' k j).eval 1 := by rw [Finset.mul_sum]
      _ ≤ 2 ^ ℓ * 2 ^ m := mul_le_mul_of_nonneg_left (g3' j) (by positivity)
      _ = _ := by rw [pow_add]

theorem Small.coeff_le {ℓ : Nat} {N : _root_.Matrix (Fin d) (Fin d) ℤ[X]} (h : Small ℓ N) (i j : Fin d) (e : Nat) : |(N i j).coeff e| ≤ 2 ^ ℓ := by
  obtain ⟨G, g1, g2, g3⟩ := h
  have hn := fun i => nonneg_of_dom (g1 i j)
  exact (g1 i j e).trans ((coeff_le_eval_one (hn i) e).trans
    ((Finset.single_le_sum (f := fun i => (G i j).eval 1) (fun i _ => eval_one_nonneg (hn i)) (Finset.mem_univ i)).trans (g3 j)))

theorem Small.degree_le {ℓ : Nat} {N : _root_.Matrix (Fin d) (Fin d) ℤ[X]} (h : Small ℓ N) (i j : Fin d) {e : Nat} (he : 2 * ℓ < e) : (N i j).coeff e = 0 := by
  obtain ⟨G, g1, g2, g3⟩ := h
  have h1 := g1 i j e
  rw [coeff_eq_zero_of_natDegree_lt (lt_of_le_of_lt (g2 i j) he)] at h1
  exact abs_nonpos_iff.1 h1

/-- A generator of the Temperley-Lieb algebra that closes a loop fixes the diagram. -/
theorem act_of_loop {n b : Nat} {D : List Nat} (h : Cell n b D) {k : Nat} (hk : k + 1 < n + b) (hl : at_ D k = k + 1) : actSeq k D = D := by
  refine ext_at (by simp) fun i hi => ?_
  rw [actSeq_length] at hi
  rw [at_actSeq _ _ _ hi, cupCap]
  have hlen := h.len
  have i1 := h.nc.invol k (by omega)
  have i2 := h.nc.invol i hi
  split_ifs with h1 h2 h3 h4
  · rw [h1, hl]
  · rw [h2, ← hl, i1]
  · rw [h3, hl] at i2; omega
  · rw [h4, ← hl, i1] at i2; omega
  · rfl

/-- The matrices of the generators. -/
theorem small_gen {n b : Nat} {β : Fin d → List Nat} (hβ : IsBasis n b β) {k : Nat} (hk : k + 1 < n + b) :
    ∃ N : _root_.Matrix (Fin d) (Fin d) ℤ[X], Small 1 N ∧
      N.map (fun f => f.toLaurent) = 1 - (T 1 : ℤ[T;T⁻¹]) • Emat (T 1 + T (-1)) β k := by
  refine ⟨fun a c => (if a = c then 1 else 0) - if actSeq k (β c) = β a then (if actLoops k (β c) = 1 then X ^ 2 + 1 else X) else 0,
    ⟨fun a c => if actLoops k (β c) = 1 then (if a = c then X ^ 2 else 0) else (if a = c then 1 else 0) + if actSeq k (β c) = β a then X else 0,
      fun a c e => ?_, fun a c => ?_, fun c => ?_⟩, ?_⟩
  · dsimp only
    by_cases hl : actLoops k (β c) = 1
    · have hl' : at_ (β c) k = k + 1 := by
        by_contra hne; rw [actLoops, if_neg hne] at hl; omega
      rw [act_of_loop (hβ.cell c) hk hl']
      simp only [hl, if_true]
      by_cases hac : a = c
      · rw [if_pos hac, if_pos (by rw [hac]), if_pos hac]
        rw [show (1 : ℤ[X]) - (X ^ 2 + 1) = -X ^ 2 by ring, coeff_neg, abs_neg, coeff_X_pow]
        split <;> simp
      · rw [if_neg hac, if_neg (fun h => hac (hβ.inj h).symm), if_neg hac]; simp
    · simp only [hl, if_false]
      rw [coeff_sub, coeff_add]
      refine (abs_sub _ _).trans (add_le_add ?_ ?_)
      · split
        · rw [coeff_one]; split <;> simp
        · simp
      · split
        · rw [coeff_X]; split <;> simp
        · simp
  · dsimp only
    split
    · split <;> simp
    · refine (natDegree_add_le _ _).trans (max_le ?_ ?_)
      · split <;> simp
      · split
        · rw [natDegree_X]; omega
        · simp
  · by_cases hl : actLoops k (β c) = 1
    · simp only [hl, if_true]
      have : ∀ a, (if a = c then (X ^ 2 : ℤ[X]) else 0).eval 1 = if a = c then 1 else 0 := by intro a; split <;> simp
      simp [this]
    · simp only [hl, if_false, eval_add]
      rw [Finset.sum_add_distrib]
      have e1 : ∀ a, (if a = c then (1 : ℤ[X]) else 0).eval 1 = if a = c then 1 else 0 := by intro a; split <;> simp
      have e2 : ∀ a, (if actSeq k (β c) = β a then (X : ℤ[X]) else 0).eval 1 = if actSeq k (β c) = β a then 1 else 0 := by intro a; split <;> simp
      simp only [e1, e2]
      have h2 : ∑ a, (if actSeq k (β c) = β a then (1 : ℤ) else 0) ≤ 1 := by
        rw [Finset.sum_boole]
        have : (Finset.univ.filter fun a => actSeq k (β c) = β a).card ≤ 1 := Finset.card_le_one.2 fun x hx y hy => by
          simp only [Finset.mem_filter, Finset.mem_univ, true_and] at hx hy
          exact hβ.inj (hx.symm.trans hy)
        exact_mod_cast this
      have h1 : ∑ a, (if a = c then (1 : ℤ) else 0) = 1 := by simp
      rw [h1]; linarith
  · ext1 a c
    rw [_root_.Matrix.sub_apply, _root_.Matrix.smul_apply, smul_eq_mul, Emat, _root_.Matrix.one_apply]
    show toLaurent ((if a = c then 1 else 0) - if actSeq k (β c) = β a then if actLoops k (β c) = 1 then X ^ 2 + 1 else X else 0) = _
    rw [map_sub]
    refine congrArg₂ _ ?_ ?_
    · split <;> simp
    · split
      · split
        · next hl =>
          rw [hl, pow_one, mul_add, ← T_add, ← T_add, map_add, toLaurent_X_pow, map_one]; simp
        · next hl =>
          have : actLoops k (β c) = 0 := by
            by_contra hne
            refine hl ?_
            rw [actLoops] at hne ⊢
            split
            · rfl
            · next h => rw [if_neg h] at hne; exact absurd rfl hne
          rw [this, pow_zero, mul_one, toLaurent_X]
      · simp

/-- The matrix of a positive word in a Jones representation. -/
theorem jones_small {n r p : Nat} (hn : 1 ≤ n) (h : 2 * r ≤ n) {G I : List Matrix} (hrep : cellRep n r p = .ok ⟨n, p, G, I⟩)
    {ρ : Braid n →* LMat p (dimension n r)} (H : Realises (⟨n, p, G, I⟩ : RepBase (dimension n r)) ρ) (u : List Nat) (hu : ∀ s ∈ u, s + 1 < n) :
    ∃ N : _root_.Matrix (Fin (dimension n r)) (Fin (dimension n r)) ℤ[X], Small u.length N ∧ ρ (posWord n u) = N.map fun f => LPoly.red p f.toLaurent := by
  obtain ⟨β, A, A', h1, h2, h3⟩ := cellRep_spec (n := n) (r := r) (p := p) hn h
  rw [hrep] at h2
  obtain ⟨rfl, rfl⟩ : G = (List.range (n - 1)).map A ∧ I = (List.range (n - 1)).map A' := by
    injection h2 with h2; injection h2 with _ _ a b; exact ⟨a, b⟩
  induction u with
  | nil =>
    refine ⟨1, small_one, ?_⟩
    rw [posWord, List.map_nil, List.prod_nil, map_one]
    ext1 i j
    rw [_root_.Matrix.map_apply, _root_.Matrix.one_apply, _root_.Matrix.one_apply]
    split <;> simp
  | cons s u ih =>
    obtain ⟨N, n1, n2⟩ := ih fun x hx => hu x (by simp [hx])
    have hs : s + 1 < n := hu s (by simp)
    obtain ⟨M, m1, m2⟩ := small_gen h1 (k := n - 2 * r + (n - 2 - s)) (by omega)
    refine ⟨M * N, ?_, ?_⟩
    · have := m1.mul n1
      rwa [List.length_cons, Nat.add_comm]
    · have hg := (H.gens s (by simp; omega)).2.2
      simp only [List.getElem_map, List.getElem_range] at hg
      have e : posWord n (s :: u) = sigma n s * posWord n u := by simp [posWord]
      rw [e, map_mul, n2, ← hg, (h3 s hs).1.2.2, ← Emat_red, ← m2]
      ext1 i j
      simp only [_root_.Matrix.mul_apply, _root_.Matrix.map_apply, map_sum, map_mul]

end Peyl
