import Verif.Lemmas.TLMarkov2
/-!
# The trace and one more strand

Closing `d` with one more strand at its right through `e` at the last two strands gives as many loops as closing `d`.
-/
namespace Peyl
open LaurentPolynomial

namespace TL

theorem Fits_e (k : Nat) (σ τ : Nat → Bool) : Fits (eSeq k (k + 2)) (k + 2) σ τ ↔ (∀ i, i < k → σ i = τ i) ∧ τ k = τ (k + 1) ∧ σ k = σ (k + 1) := by
  have hl : (eSeq k (k + 2)).length = 2 * (k + 2) := eSeq_length ..
  constructor
  · intro h
    refine ⟨fun i hi => ?_, ?_, ?_⟩
    · have := h i (by omega)
      rw [hl, at_eSeq (by omega) _ (by omega), if_neg (by omega), if_neg (by omega), if_neg (by omega), if_neg (by omega), col, col, if_neg (by omega), if_pos (by omega)] at this
      rwa [show 2 * (k + 2) - 1 - (2 * (k + 2) - 1 - i) = i by omega] at this
    · have := h k (by omega)
      rw [hl, at_eSeq (by omega) _ (by omega), if_pos rfl, col, col, if_pos (by omega), if_pos (by omega)] at this
      exact this.symm
    · have := h (k + 2) (by omega)
      rw [hl, at_eSeq (by omega) _ (by omega), if_neg (by omega), if_neg (by omega), if_neg (by omega), if_pos (by omega), col, col, if_neg (by omega), if_neg (by omega)] at this
      rwa [show 2 * (k + 2) - 1 - (2 * (k + 2) - 1 - k) = k by omega, show 2 * (k + 2) - 1 - (k + 2) = k + 1 by omega] at this
  · rintro ⟨h1, h2, h3⟩ i hi
    rw [hl] at hi ⊢
    rw [at_eSeq (by omega) _ hi]
    by_cases c1 : i = k
    · subst c1
      rw [if_pos rfl, col, col, if_pos (by omega), if_pos (by omega), h2]
    rw [if_neg c1]
    by_cases c2 : i = k + 1
    · subst c2
      rw [if_pos rfl, col, col, if_pos (by omega), if_pos (by omega), h2]
    rw [if_neg c2]
    by_cases c3 : i = 2 * (k + 2) - 1 - k
    · rw [if_pos c3, col, col, if_neg (by omega), if_neg (by omega), show 2 * (k + 2) - 1 - (2 * (k + 2) - 2 - k) = k + 1 by omega, c3,
        show 2 * (k + 2) - 1 - (2 * (k + 2) - 1 - k) = k by omega, h3]
    rw [if_neg c3]
    by_cases c4 : i = 2 * (k + 2) - 2 - k
    · rw [if_pos c4, col, col, if_neg (by omega), if_neg (by omega), show 2 * (k + 2) - 1 - (2 * (k + 2) - 1 - k) = k by omega, c4,
        show 2 * (k + 2) - 1 - (2 * (k + 2) - 2 - k) = k + 1 by omega, h3]
    rw [if_neg c4, col, col]
    by_cases c5 : i < k
    · rw [if_neg (by omega), if_pos (by omega), show 2 * (k + 2) - 1 - (2 * (k + 2) - 1 - i) = i by omega, h1 i c5]
    · rw [if_pos (by omega), if_neg (by omega), h1 _ (by omega)]

end TL

namespace TLDiag
open TL Kronecker

theorem ext_append {a b : Nat} (f : Fin a → Bool) (g : Fin b → Bool) (v : Nat) : ext (Fin.append f g) v = if v < a then ext f v else ext g (v - a) := by
  by_cases c1 : v < a
  · rw [if_pos c1, ext_lt _ c1, ext_lt _ (by omega)]
    exact Fin.append_left f g ⟨v, c1⟩
  · rw [if_neg c1]
    by_cases c2 : v < a + b
    · rw [ext_lt _ c2, ext_lt _ (by omega)]
      have := Fin.append_right f g ⟨v - a, by omega⟩
      rw [← this]
      congr 1
      exact Fin.ext (by simp; omega)
    · rw [TL.ext, TL.ext, dif_neg c2, dif_neg (by omega)]

/-- The last `e`. -/
def lastE (k : Nat) : TLDiag := ⟨k + 2, k + 2, eSeq k (k + 2)⟩

theorem lastE_ok (k : Nat) : (lastE k).Ok := ⟨by simp [lastE, eSeq_length]; omega, eSeq_nc (by omega)⟩

theorem trace_stab {d : TLDiag} {k : Nat} (hd : d.Ok) (h1 : d.top = k + 1) (h2 : d.bot = k + 1) :
    prodL (beside d (idD 1)) (lastE k) + (prodD (beside d (idD 1)) (lastE k)).trc = d.trc := by
  classical
  have hb := beside_ok hd (idD_ok 1)
  have t1 : (beside d (idD 1)).top = k + 2 := by show d.top + 1 = _; omega
  have t2 : (beside d (idD 1)).bot = k + 2 := by show d.bot + 1 = _; omega
  obtain ⟨-, -, r1, r2, ro⟩ := mul_ok hb (lastE_ok k) (by rw [t2]; rfl)
  apply Nat.pow_right_injective (le_refl 2)
  dsimp only
  rw [pow_add, (trc_spec (n := k + 2) ro (by rw [r1, t1]) r2).2, ← smul_eq_mul, ← Matrix.trace_smul,
    ← mat_prod (t := k + 2) (m := k + 2) (b := k + 2) hb (lastE_ok k) t1 t2 rfl rfl, (trc_spec (n := k + 1) hd h1 h2).2]
  have hm := mat_beside (n1 := k + 1) (m1 := k + 1) (n2 := 1) (m2 := 1) hd (idD_ok 1) h1 h2 rfl rfl
  have hid : mat 1 1 (idD 1) = 1 := W_id 1
  rw [hid] at hm
  have hA : ∀ x y : (Fin (k + 1) → Bool) × (Fin 1 → Bool), mat (k + 2) (k + 2) (beside d (idD 1)) (Fin.appendEquiv (k + 1) 1 x) (Fin.appendEquiv (k + 1) 1 y) =
      mat (k + 1) (k + 1) d x.1 y.1 * if x.2 = y.2 then 1 else 0 := fun x y => by
    have := congrFun (congrFun hm x) y
    rw [Matrix.submatrix_apply, Matrix.kroneckerMap_apply, Matrix.one_apply] at this
    exact this
  have hE : ∀ x y : (Fin (k + 1) → Bool) × (Fin 1 → Bool), x.2 = y.2 → mat (k + 2) (k + 2) (lastE k) (Fin.appendEquiv (k + 1) 1 x) (Fin.appendEquiv (k + 1) 1 y) =
      if x = y ∧ x.2 = fun _ => x.1 (Fin.last k) then 1 else 0 := fun x y hxy => by
    show (if Fits (eSeq k (k + 2)) (k + 2) (ext (Fin.append x.1 x.2)) (ext (Fin.append y.1 y.2)) then 1 else 0) = _
    have e0 : ∀ z : (Fin (k + 1) → Bool) × (Fin 1 → Bool), ext (Fin.append z.1 z.2) (k + 1) = z.2 0 := fun z => by
      rw [ext_append, if_neg (by omega), ext_lt _ (by omega)]; exact congrArg z.2 (Subsingleton.elim _ _)
    have e1 : ∀ (z : (Fin (k + 1) → Bool) × (Fin 1 → Bool)) i (hi : i < k + 1), ext (Fin.append z.1 z.2) i = z.1 ⟨i, hi⟩ := fun z i hi => by
      rw [ext_append, if_pos hi, ext_lt _ hi]
    refine if_congr ?_ rfl rfl
    rw [Fits_e, e0, e0, e1 y k (by omega), e1 x k (by omega)]
    constructor
    · rintro ⟨a1, a2, a3⟩
      refine ⟨Prod.ext (funext fun i => ?_) hxy, funext fun i => ?_⟩
      · rcases Nat.lt_or_ge i.1 k with c | c
        · have := a1 i.1 c
          rwa [e1 x _ i.2, e1 y _ i.2] at this
        · have : i = ⟨k, by omega⟩ := Fin.ext (by have := i.2; simp only; omega)
          rw [this, a3, hxy, a2]
      · rw [Fin.fin_one_eq_zero i]; exact a3.symm
    · rintro ⟨rfl, a2⟩
      have := congrFun a2 0
      exact ⟨fun i _ => rfl, this.symm, this.symm⟩
  simp only [_root_.Matrix.trace]
  rw [← Equiv.sum_comp (Fin.appendEquiv (k + 1) 1)]
  have key : ∀ x : (Fin (k + 1) → Bool) × (Fin 1 → Bool), Matrix.diag (mat (k + 2) (k + 2) (beside d (idD 1)) * mat (k + 2) (k + 2) (lastE k)) (Fin.appendEquiv (k + 1) 1 x) =
      if x.2 = fun _ => x.1 (Fin.last k) then mat (k + 1) (k + 1) d x.1 x.1 else 0 := fun x => by
    rw [Matrix.diag_apply, Matrix.mul_apply, ← Equiv.sum_comp (Fin.appendEquiv (k + 1) 1), Finset.sum_eq_single x]
    · rw [hA, hE x x rfl]; simp
    · intro y _ hyx
      rw [hA]
      by_cases c : x.2 = y.2
      · rw [hE y x c.symm, if_neg (show ¬ (y = x ∧ _) from fun h => hyx h.1), mul_zero]
      · rw [if_neg c, mul_zero, zero_mul]
    · intro h; exact absurd (Finset.mem_univ _) h
  rw [Finset.sum_congr rfl fun x _ => key x, Fintype.sum_prod_type]
  simp

end TLDiag
end Peyl
