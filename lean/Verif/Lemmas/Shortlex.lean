import Verif.Lemmas.PermWord
/-!
# `shortlex` and `from_cox`
-/
namespace Peyl
open Equiv Perms

variable {n : Nat}

/-- `w` is obtained by always removing the smallest descent of `ρ`. -/
inductive MinWord : Perm (Fin n) → List Nat → Prop
  | nil : MinWord 1 []
  | cons {ρ : Perm (Fin n)} {i : Nat} {w : List Nat} (h : i + 1 < n) (hd : ρ ⟨i + 1, h⟩ < ρ ⟨i, by omega⟩)
      (hmin : ∀ k (hk : k + 1 < n), k < i → ρ ⟨k, by omega⟩ < ρ ⟨k + 1, hk⟩) (hw : MinWord (ρ * sg n i) w) : MinWord ρ (i :: w)

theorem shortlexLoop_spec (fuel : Nat) (ρ : Perm (Fin n)) (i : Nat) (word : List Nat)
    (hmin : ∀ k (hk : k + 1 < n), k < i → ρ ⟨k, by omega⟩ < ρ ⟨k + 1, hk⟩) (hi : i ≤ n) (hf : 2 * inv ρ + (n - i) < fuel) :
    ∃ w, MinWord ρ w ∧ shortlexLoop fuel (wordOf ρ) i word = .ok (wordOf (1 : Perm (Fin n)), word ++ w) := by
  induction fuel generalizing ρ i word with
  | zero => omega
  | succ fuel ih =>
    unfold shortlexLoop
    rw [length_wordOf]
    by_cases h : i + 1 < n
    · rw [if_pos h, wordOf_getD _ _ (by omega), wordOf_getD _ _ h]
      by_cases hd : ρ ⟨i + 1, h⟩ < ρ ⟨i, by omega⟩
      · rw [if_pos (by simpa using hd), swap_adj ρ i h]
        have hinv := inv_mul_sg_down ρ h hd
        obtain ⟨w, h1, h2⟩ := ih (ρ * sg n i) (i - 1) (word ++ [i]) (by
          intro k hk hki
          have := hmin k hk (by omega)
          rw [Perm.mul_apply, Perm.mul_apply, sg_apply_ne i ⟨k, _⟩ (by simp; omega) (by simp; omega),
            sg_apply_ne i ⟨k + 1, _⟩ (by simp; omega) (by simp; omega)]
          exact this) (by omega) (by omega)
        exact ⟨i :: w, .cons h hd hmin h1, by rw [h2]; simp⟩
      · rw [if_neg (by simpa using hd)]
        apply ih ρ (i + 1) word _ (by omega) (by omega)
        intro k hk hki
        rcases Nat.lt_succ_iff_lt_or_eq.1 hki with h1 | h1
        · exact hmin k hk h1
        · subst h1
          exact lt_of_le_of_ne (not_lt.1 hd) (by simp)
    · rw [if_neg h]
      have : ρ = 1 := eq_one_of_no_descent ρ fun k hk => hmin k hk (by omega)
      subst this
      exact ⟨[], .nil, by simp⟩

/-- `shortlex` succeeds and returns the word of smallest descents of the inverse. -/
theorem shortlex_spec (π : Perm (Fin n)) : ∃ w, MinWord π⁻¹ w ∧ shortlex (wordOf π) = .ok w := by
  obtain ⟨w, h1, h2⟩ := shortlexLoop_spec (2 * inv π + n + 1) π⁻¹ 0 [] (by intro k _ h; omega) (by omega) (by rw [inv_inv]; omega)
  refine ⟨w, h1, ?_⟩
  rw [shortlex, length_eq, length_wordOf, inverse_eq, h2]
  have : isIdentity (wordOf (1 : Perm (Fin n))) = true := (isIdentity_iff _).2 rfl
  simp [bind, Except.bind, pyAssert, this]

theorem MinWord.prod {ρ : Perm (Fin n)} {w : List Nat} (h : MinWord ρ w) :
    coxProd n w = ρ⁻¹ ∧ w.length = inv ρ ∧ ∀ s ∈ w, s + 1 < n := by
  induction h with
  | nil => simp [coxProd, inv_one]
  | cons h hd hmin hw ih =>
    obtain ⟨h1, h2, h3⟩ := ih
    refine ⟨?_, ?_, ?_⟩
    · rw [coxProd, List.map_cons, List.prod_cons, ← coxProd, h1, mul_inv_rev, ← mul_assoc, sg_inv, sg_sq, one_mul]
    · rw [List.length_cons, h2]; exact inv_mul_sg_down _ h hd
    · intro s hs; rcases List.mem_cons.1 hs with rfl | hs
      · exact h
      · exact h3 s hs

theorem coxProd_cons (i : Nat) (w : List Nat) : coxProd n (i :: w) = sg n i * coxProd n w := by simp [coxProd]
theorem coxProd_nil : coxProd n [] = 1 := rfl
theorem coxProd_append (u w : List Nat) : coxProd n (u ++ w) = coxProd n u * coxProd n w := by simp [coxProd]

theorem inv_coxProd_le (w : List Nat) : inv (coxProd n w) ≤ w.length := by
  induction w with
  | nil => simp [coxProd, inv_one]
  | cons i w ih =>
    rw [coxProd_cons, List.length_cons]
    have := inv_mul_le (sg n i) (coxProd n w)
    have h1 : inv (sg n i) ≤ 1 := by
      by_cases h : i + 1 < n
      · rw [inv_sg h]
      · rw [sg, dif_neg h, inv_one]; omega
    omega

theorem MinWord.least {ρ : Perm (Fin n)} {w : List Nat} (h : MinWord ρ w) :
    ∀ u : List Nat, coxProd n u = ρ⁻¹ → u.length = inv ρ → w = u ∨ w < u := by
  induction h with
  | nil =>
    intro u _ hl
    rw [inv_one, List.length_eq_zero_iff] at hl; exact Or.inl hl.symm
  | @cons ρ i w h hd hmin hw ih =>
    intro u hu hl
    have hinv := inv_mul_sg_down ρ h hd
    cases u with
    | nil => simp at hl; omega
    | cons j u =>
      rw [coxProd_cons] at hu
      rw [List.length_cons] at hl
      have hj : j + 1 < n := by
        by_contra hc
        rw [sg, dif_neg hc, one_mul] at hu
        have := inv_coxProd_le (n := n) u
        rw [hu, inv_inv] at this; omega
      have hju : coxProd n u = (ρ * sg n j)⁻¹ := by
        rw [mul_inv_rev, ← hu, ← mul_assoc, sg_inv, sg_sq, one_mul]
      have hlt : inv (ρ * sg n j) < inv ρ := by
        have := inv_coxProd_le (n := n) u
        rw [hju, inv_inv] at this; omega
      have hdj : ρ ⟨j + 1, hj⟩ < ρ ⟨j, by omega⟩ := by
        by_contra hc
        have := inv_mul_sg_up ρ hj (lt_of_le_of_ne (not_lt.1 hc) (by simp))
        omega
      rcases lt_trichotomy i j with hij | hij | hij
      · right; exact List.Lex.rel hij
      · subst hij
        rcases ih u hju (by omega) with h1 | h1
        · left; rw [h1]
        · right; exact List.Lex.cons h1
      · exact absurd (hmin j hj hij) (not_lt.2 hdj.le)

theorem fromCox_eq (w : List Nat) (h : ∀ s ∈ w, s + 1 < n) : fromCox n w = .ok (wordOf (coxProd n w)) := by
  rw [fromCox, if_pos (by simpa using h)]
  congr 1
  have key : ∀ (l : List Nat) (π : Perm (Fin n)), (∀ s ∈ l, s + 1 < n) →
      l.foldl (fun w s => Perms.swap w s (s + 1)) (wordOf π) = wordOf (π * coxProd n l) := by
    intro l
    induction l with
    | nil => intro π _; simp [coxProd]
    | cons s l ih =>
      intro π hl
      rw [List.foldl_cons, swap_adj π s (hl s (by simp)), ih _ (fun t ht => hl t (by simp [ht])), coxProd_cons, mul_assoc]
  have := key w 1 h
  rw [one_mul, ← identity_eq] at this
  exact this

end Peyl
