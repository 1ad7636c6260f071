import Verif.Lemmas.Poly
/-!
# Lemmas about polynomial division
-/
namespace Peyl
open Polynomial
namespace Poly

theorem getLastD_eq_leadingCoeff {p : Poly} (hp : p.Trimmed) : p.coeffs.getLastD 0 = p.den.leadingCoeff := by
  rw [leadingCoeff, natDegree_den hp, Poly.den, coeff_listPoly]
  rw [List.getLastD_eq_getLast?, List.getLast?_eq_getElem?]; simp

theorem den_monomial (k : Nat) (t : Int) : (make (List.replicate k 0 ++ [t])).den = C t * X ^ k := by
  rw [den_make, listPoly_append, listPoly_replicate]
  simp only [List.length_replicate, listPoly_cons, listPoly_nil, mul_zero, add_zero, zero_add]; ring

/-- `(q, r)` is an integer division of `n` by `d`. -/
def IsDiv (n d q r : ℤ[X]) : Prop := n = d * q + r ∧ r.degree < d.degree

theorem fdiv_mul {a b : Int} (h : a.fmod b = 0) : b * a.fdiv b = a := by
  have := Int.mul_fdiv_add_fmod a b; rw [h] at this; simpa using this

theorem divmodLoop_spec {d : Poly} (hd : d.Trimmed) (hd0 : d.coeffs ≠ []) (fuel : Nat) :
    ∀ (q r : Poly), q.Trimmed → r.Trimmed → r.coeffs.length < fuel →
    (∃ q' r' : Poly, divmodLoop d fuel q r = .ok (q', r') ∧ q'.Trimmed ∧ r'.Trimmed ∧
        r'.den.degree < d.den.degree ∧ d.den * q.den + r.den = d.den * q'.den + r'.den) ∨
    (divmodLoop d fuel q r = .error .value ∧ ¬ ∃ Q R, IsDiv r.den d.den Q R) := by
  have hdlen : 0 < d.coeffs.length := List.length_pos_iff.2 hd0
  have hdne : d.den ≠ 0 := by rwa [Ne, den_eq_zero_iff hd]
  have hddeg := degree_den hd hd0
  induction fuel with
  | zero => intro q r _ _ h; omega
  | succ fuel ih =>
    intro q r hq hr hf
    rw [divmodLoop]
    by_cases hle : d.coeffs.length ≤ r.coeffs.length
    · rw [if_pos hle]
      have hr0 : r.coeffs ≠ [] := by intro h; simp [h] at hle; exact hd0 hle
      have hrne : r.den ≠ 0 := by rwa [Ne, den_eq_zero_iff hr]
      have hrdeg := degree_den hr hr0
      simp only
      by_cases hmod : (r.coeffs.getLastD 0).fmod (d.coeffs.getLastD 0) = 0
      · rw [if_neg (by simpa using hmod)]
        have hmul := fdiv_mul hmod
        set t := (r.coeffs.getLastD 0).fdiv (d.coeffs.getLastD 0) with ht
        set k := r.coeffs.length - d.coeffs.length with hk
        rw [getLastD_eq_leadingCoeff hr, getLastD_eq_leadingCoeff hd] at hmul
        have hmon := den_monomial k t
        set tt := make (List.replicate k 0 ++ [t]) with htt
        have ht0 : t ≠ 0 := by
          rintro h0; rw [h0, mul_zero] at hmul
          exact hrne (leadingCoeff_eq_zero.1 hmul.symm)
        -- degree drops
        have hsub : (sub r (mul d tt)).den = r.den - d.den * tt.den := by rw [den_sub, den_mul]
        have hlead : (d.den * tt.den).leadingCoeff = r.den.leadingCoeff := by
          rw [leadingCoeff_mul, hmon, leadingCoeff_mul, leadingCoeff_C, leadingCoeff_X_pow, mul_one, hmul]
        have hdegEq : r.den.degree = (d.den * tt.den).degree := by
          rw [degree_mul, hmon, degree_C_mul_X_pow _ ht0, hrdeg, hddeg]
          rw [← Nat.cast_add]; congr 1; omega
        have hdrop : (sub r (mul d tt)).den.degree < r.den.degree := by
          rw [hsub]; exact degree_sub_lt hdegEq hrne hlead.symm
        have hlen : (sub r (mul d tt)).coeffs.length < r.coeffs.length := by
          have := length_le_of_degree (p := sub r (mul d tt)) (trimmed_make _) (by rw [hrdeg] at hdrop; exact hdrop)
          have : 0 < r.coeffs.length := by omega
          omega
        rcases ih (add q tt) (sub r (mul d tt)) (trimmed_make _) (trimmed_make _) (by omega) with
          ⟨q', r', h1, h2, h3, h4, h5⟩ | ⟨h1, h2⟩
        · left
          refine ⟨q', r', h1, h2, h3, h4, ?_⟩
          rw [← h5, hsub, den_add]; ring
        · right
          refine ⟨h1, fun ⟨Q, R, h3, h4⟩ => h2 ⟨Q - tt.den, R, ?_, h4⟩⟩
          rw [hsub, h3]; ring
      · rw [if_pos (by simpa using hmod)]
        right
        refine ⟨rfl, ?_⟩
        rintro ⟨Q, R, h1, h2⟩
        apply hmod
        rw [getLastD_eq_leadingCoeff hr, getLastD_eq_leadingCoeff hd, h1]
        have hQ : Q ≠ 0 := by
          rintro rfl
          rw [mul_zero, zero_add] at h1
          rw [← h1, hrdeg, hddeg] at h2
          have : r.coeffs.length - 1 < d.coeffs.length - 1 := by exact_mod_cast h2
          omega
        have : R.degree < (d.den * Q).degree := lt_of_lt_of_le h2 (degree_le_mul_left _ hQ)
        rw [leadingCoeff_add_of_degree_lt' this, leadingCoeff_mul]
        exact Int.mul_fmod_right _ _
    · rw [if_neg hle]
      left
      refine ⟨q, r, rfl, hq, hr, ?_, rfl⟩
      rw [hddeg]
      refine lt_of_lt_of_le (degree_den_lt r) ?_
      exact_mod_cast (by omega : r.coeffs.length ≤ d.coeffs.length - 1)

theorem all_zero_iff {d : Poly} (hd : d.Trimmed) : d.coeffs.all (· == 0) = true ↔ d.den = 0 := by
  constructor
  · intro h
    ext k
    rw [Poly.den, coeff_listPoly, coeff_zero]
    by_cases hk : k < d.coeffs.length
    · rw [List.all_eq_true] at h
      have := h _ (List.getElem_mem hk)
      simp [List.getD_eq_getElem?_getD, List.getElem?_eq_getElem hk]
      simpa using this
    · rw [List.getD_eq_getElem?_getD, List.getElem?_eq_none (by omega)]; rfl
  · intro h; rw [den_eq_zero_iff hd] at h; simp [h]

/-- Complete description of `divmod` on trimmed polynomials. -/
theorem divmod_spec {n d : Poly} (hn : n.Trimmed) (hd : d.Trimmed) (hd0 : d.den ≠ 0) :
    (∃ q r : Poly, divmod n d = .ok (q, r) ∧ q.Trimmed ∧ r.Trimmed ∧ IsDiv n.den d.den q.den r.den) ∨
    (divmod n d = .error .value ∧ ¬ ∃ Q R, IsDiv n.den d.den Q R) := by
  have hc : d.coeffs ≠ [] := by rwa [Ne, ← den_eq_zero_iff hd]
  unfold divmod
  rw [if_neg (by rwa [all_zero_iff hd])]
  rcases divmodLoop_spec hd hc (n.coeffs.length + 1) (make []) n (trimmed_make _) hn (by omega) with
    ⟨q', r', h1, h2, h3, h4, h5⟩ | ⟨h1, h2⟩
  · left; exact ⟨q', r', h1, h2, h3, by simpa using h5, h4⟩
  · right; exact ⟨h1, h2⟩

theorem IsDiv.unique {n d q r q' r' : ℤ[X]} (h : IsDiv n d q r) (h' : IsDiv n d q' r') : q = q' ∧ r = r' := by
  obtain ⟨h1, h2⟩ := h
  obtain ⟨h1', h2'⟩ := h'
  have e : d * (q - q') = r' - r := by rw [h1] at h1'; linear_combination h1'
  have hq : q - q' = 0 := by
    by_contra hne
    have h3 : (r' - r).degree < d.degree := lt_of_le_of_lt (degree_sub_le _ _) (max_lt h2' h2)
    rw [← e] at h3
    exact absurd (degree_le_mul_left d hne) (not_le.2 h3)
  rw [hq, mul_zero] at e
  exact ⟨sub_eq_zero.1 hq, (sub_eq_zero.1 e.symm).symm⟩

theorem divmod_zero {n d : Poly} (hd : d.Trimmed) (h : d.den = 0) : divmod n d = .error .assertion := by
  unfold divmod; rw [if_pos ((all_zero_iff hd).2 h)]

theorem isZero_iff {p : Poly} (hp : p.Trimmed) : p.isZero = true ↔ p.den = 0 := by
  rw [den_eq_zero_iff hp]; simp [isZero]

theorem divmod_exact {n d : Poly} (hn : n.Trimmed) (hd : d.Trimmed) (hd0 : d.den ≠ 0) (Q : ℤ[X])
    (h : n.den = d.den * Q) : ∃ q r : Poly, divmod n d = .ok (q, r) ∧ q.Trimmed ∧ q.den = Q ∧ r.isZero = true := by
  have hI : IsDiv n.den d.den Q 0 := ⟨by rw [h, add_zero], by rw [degree_zero]; exact bot_lt_iff_ne_bot.2 (by rwa [Ne, degree_eq_bot])⟩
  rcases divmod_spec hn hd hd0 with ⟨q, r, h1, h2, h3, h4⟩ | ⟨_, h2⟩
  · obtain ⟨e1, e2⟩ := h4.unique hI
    exact ⟨q, r, h1, h2, e1, (isZero_iff h3).2 e2⟩
  · exact absurd ⟨_, _, hI⟩ h2

theorem truediv_exact {n d : Poly} (hn : n.Trimmed) (hd : d.Trimmed) (hd0 : d.den ≠ 0) (Q : ℤ[X])
    (h : n.den = d.den * Q) : ∃ q : Poly, truediv n d = .ok q ∧ q.Trimmed ∧ q.den = Q := by
  obtain ⟨q, r, h1, h2, h3, h4⟩ := divmod_exact hn hd hd0 Q h
  refine ⟨q, ?_, h2, h3⟩
  simp [truediv, h1, h4, bind, Except.bind]

theorem truediv_error {n d : Poly} (hn : n.Trimmed) (hd : d.Trimmed) (hd0 : d.den ≠ 0)
    (h : ¬ ∃ Q, n.den = d.den * Q) : truediv n d = .error .value := by
  rcases divmod_spec hn hd hd0 with ⟨q, r, h1, h2, h3, h4⟩ | ⟨h1, h2⟩
  · have hr : r.isZero = false := by
      by_contra hc
      rw [Bool.not_eq_false, isZero_iff h3] at hc
      exact h ⟨q.den, by rw [h4.1, hc, add_zero]⟩
    simp [truediv, h1, hr, bind, Except.bind]
  · simp [truediv, h1, bind, Except.bind]

end Poly
end Peyl
