import Verif.Lemmas.BurauCell
import Verif.Lemmas.BurauKernel
/-!
# The basis of the cell module with one cup, in order
-/
namespace Peyl
namespace Bur
open _root_.Matrix TL Jones LaurentPolynomial

/-- The further the cup is from the end, the later the diagram is in the basis. -/
theorem cup_lex {b k l : Nat} (hk : b ≤ k) (hkl : k < l) (hl : l ≤ 2 * b) : List.Lex (· < ·) (cup b l) (cup b k) := by
  refine List.lt_iff_exists.2 (Or.inr ⟨2 * b - l, by rw [cup_length]; omega, by rw [cup_length]; omega, fun j hj => ?_, ?_⟩)
  · simp only [cup, List.getElem_map, List.getElem_range]
    split_ifs <;> omega
  · simp only [cup, List.getElem_map, List.getElem_range]
    split_ifs <;> omega

theorem order_cast {b d : Nat} {β : Fin d → List Nat} (hd : d = b + 1) (hs : ∀ a c, a < c → ¬ List.Lex (· < ·) (β c) (β a)) {e : Fin d ≃ Fin (b + 1)}
    (he : ∀ a, β a = cup b (b + (b - (e a).val))) (a : Fin d) : (e a).val = a.val := by
  subst hd
  have : StrictMono e := by
    intro a c hac
    refine lt_of_le_of_ne (not_lt.1 fun q => hs a c hac ?_) fun q => hac.ne (e.injective q)
    rw [he a, he c]
    have h1 := (e a).2
    have h2 : (e c).val < (e a).val := q
    exact cup_lex (by omega) (by omega) (by omega)
  rw [strictMono_perm this]
  rfl

/-- The matrices of `cell_matrices(n, 1)`, entry by entry. -/
theorem cellMatrices_one {n : Nat} (hn : 2 ≤ n) : ∃ A A' : Nat → Matrix, cellMatrices n 1 = .ok ((List.range (n - 1)).map A, (List.range (n - 1)).map A') ∧
    ∀ i, i < n - 1 → ((A i).Shape (n - 1) (n - 1) ∧ (∀ x ∈ (A i).data, ∃ q, x = .lp q) ∧
        ∀ a c : Fin (n - 1), (A i).den (n - 1) (n - 1) a c = if a.val = i then (if c.val = i then -T 2 else if i + 1 = c.val ∨ c.val + 1 = i then -T 1 else 0) else if a = c then 1 else 0) ∧
      ((A' i).Shape (n - 1) (n - 1) ∧ (∀ x ∈ (A' i).data, ∃ q, x = .lp q) ∧
        ∀ a c : Fin (n - 1), (A' i).den (n - 1) (n - 1) a c = if a.val = i then (if c.val = i then -T (-2) else if i + 1 = c.val ∨ c.val + 1 = i then -T (-1) else 0) else if a = c then 1 else 0) := by
  obtain ⟨b, rfl⟩ : ∃ b, n = b + 2 := ⟨n - 2, by omega⟩
  obtain ⟨β, A, A', h0, h1, h2, -, h3⟩ := cellMatrices_sorted (n := b + 2) (r := 1) (by omega)
  rw [show b + 2 - 2 * 1 = b by omega] at h1 h3
  have hd := dimension_one (b + 2) (by omega)
  obtain ⟨e, he⟩ := exists_equiv (isBasis_congr (Nat.add_comm b 2) h1) hd
  have hc := order_cast hd h0 he
  rw [show b + 2 - 1 = b + 1 by omega] at hd
  have key : ∀ (x : ℤ) (i : Nat) (hi : i < b + 1), (x = 1 ∨ x = -1) → ∀ a c : Fin (dimension (b + 2) 1), (1 - (T x : ℤ[T;T⁻¹]) • Emat (T 1 + T (-1)) β (b + (b - i)) : _root_.Matrix (Fin (dimension (b + 2) 1)) (Fin (dimension (b + 2) 1)) ℤ[T;T⁻¹]) a c =
      if a.val = i then (if c.val = i then -T (2 * x) else if i + 1 = c.val ∨ c.val + 1 = i then -T x else 0) else if a = c then 1 else 0 := by
    intro x i hi hx a c
    have hE := Emat_eq (isBasis_congr (Nat.add_comm b 2) h1) e he (T 1 + T (-1) : ℤ[T;T⁻¹]) ⟨i, hi⟩
    dsimp only at hE
    rw [hE]
    simp only [_root_.Matrix.sub_apply, _root_.Matrix.smul_apply, submatrix_apply, E_apply, J, Fin.ext_iff, hc, smul_eq_mul, _root_.Matrix.one_apply]
    by_cases h1 : a.val = i
    · by_cases h2 : c.val = i
      · rw [if_pos (by omega), if_pos h1, if_pos h2.symm, if_pos h1, if_pos h2]
        rcases hx with rfl | rfl
        · rw [mul_add, ← T_add, ← T_add]; simp
        · rw [mul_add, ← T_add, ← T_add]; simp
      · rw [if_neg (by omega), if_pos h1, if_neg (Ne.symm h2), if_pos h1, if_neg h2]
        by_cases h3 : i + 1 = c.val ∨ c.val + 1 = i
        · rw [if_pos h3, if_pos h3]; simp
        · rw [if_neg h3, if_neg h3]; simp
    · rw [if_neg h1, if_neg h1]; simp
  refine ⟨A, A', h2, fun i hi => ?_⟩
  have hi' : i < b + 1 := by omega
  obtain ⟨⟨a1, a2, a3⟩, ⟨b1, b2, b3⟩⟩ := h3 i (by omega)
  have k1 := key 1 i hi' (Or.inl rfl)
  have k2 := key (-1) i hi' (Or.inr rfl)
  simp only [← a3] at k1
  simp only [← b3] at k2
  revert a1 a3 b1 b3 k1 k2
  rw [show b + 2 - 1 = b + 1 by omega]
  clear key hc he e h1 h0 h2 h3
  revert β
  rw [hd]
  intro β a1 a3 b1 b3 k1 k2
  exact ⟨⟨a1, a2, k1⟩, b1, b2, k2⟩
end Bur
end Peyl
