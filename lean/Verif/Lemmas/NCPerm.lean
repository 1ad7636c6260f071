import Verif.Lemmas.RefLen
import Verif.Spec.BKL
import Verif.Lemmas.Germ
/-!
# Noncrossing permutations

A permutation `x` is drawn as the arcs joining `2i` to `2 x(i) + 1`.  The permutations whose arcs do not cross are exactly
those below the descending `n`-cycle in the reflection-length order.
-/
namespace Peyl
open Equiv
variable {n : Nat}

/-- The arcs `{2i, 2 x(i) + 1}` do not cross. -/
def NCP (x : Perm (Fin n)) : Prop := ∀ i j : Fin n, ¬
  (min (2 * (i : Nat)) (2 * (x i : Nat) + 1) < min (2 * (j : Nat)) (2 * (x j : Nat) + 1) ∧
  min (2 * (j : Nat)) (2 * (x j : Nat) + 1) < max (2 * (i : Nat)) (2 * (x i : Nat) + 1) ∧
  max (2 * (i : Nat)) (2 * (x i : Nat) + 1) < max (2 * (j : Nat)) (2 * (x j : Nat) + 1))

theorem dcyc_inv_val (i : Fin n) : (((dcyc n)⁻¹ i : Fin n) : Nat) = if (i : Nat) + 1 = n then 0 else (i : Nat) + 1 := by
  obtain ⟨m, rfl⟩ : ∃ m, n = m + 1 := ⟨n - 1, by have := i.2; omega⟩
  rw [dcyc, _root_.inv_inv, finRotate_succ_apply, Fin.val_add_one]
  by_cases h : i = Fin.last m
  · rw [if_pos h, if_pos (by rw [h]; rfl)]
  · rw [if_neg h, if_neg]; intro h2; apply h; apply Fin.ext; simp only [Fin.val_last]; omega

theorem dcyc_val (i : Fin n) : ((dcyc n i : Fin n) : Nat) = if (i : Nat) = 0 then n - 1 else (i : Nat) - 1 := by
  have h := dcyc_inv_val (dcyc n i)
  rw [show (dcyc n)⁻¹ (dcyc n i) = i from Equiv.symm_apply_apply _ _] at h
  have := (dcyc n i).2
  split_ifs at h ⊢ <;> omega

theorem ncp_one : NCP (1 : Perm (Fin n)) := by
  rintro i j ⟨h1, h2, h3⟩; simp only [Perm.one_apply] at *; omega

theorem ncp_dcyc : NCP (dcyc n) := by
  rintro i j ⟨h1, h2, h3⟩
  have := dcyc_val i; have := dcyc_val j; have := i.2; have := j.2
  split_ifs at * <;> omega

/-! ### Cycles of noncrossing permutations descend -/

theorem NCP.img_lt {x : Perm (Fin n)} (h : NCP x) {i j : Fin n} (h1 : i ≤ x i) (h2 : i < j) (h3 : j ≤ x i) : i ≤ x j ∧ x j < x i := by
  have a := h i j; have b := h j i
  have c : x j ≠ x i := fun e => h2.ne' (x.injective e)
  simp only [Fin.le_def, Fin.lt_def, Ne, Fin.ext_iff] at *
  omega

/-- If `i ≤ x i`, the interval `[i, x i]` is mapped to itself. -/
theorem NCP.interval {x : Perm (Fin n)} (h : NCP x) {i j : Fin n} (h1 : i ≤ x i) (h2 : i ≤ j) (h3 : j ≤ x i) : i ≤ x j ∧ x j ≤ x i := by
  rcases eq_or_lt_of_le h2 with rfl | h2
  · exact ⟨h1, le_rfl⟩
  · exact ⟨(h.img_lt h1 h2 h3).1, (h.img_lt h1 h2 h3).2.le⟩

/-- If `x i < i`, the open interval `(x i, i)` is mapped to itself. -/
theorem NCP.gap {x : Perm (Fin n)} (h : NCP x) {i j : Fin n} (h2 : x i < j) (h3 : j < i) : x i < x j ∧ x j < i := by
  have a := h i j; have b := h j i
  have c : x j ≠ x i := fun e => h3.ne (x.injective e)
  simp only [Fin.le_def, Fin.lt_def, Ne, Fin.ext_iff] at *
  omega

/-- A set mapped into itself contains whole cycles. -/
theorem sameCycle_mem {x : Perm (Fin n)} {p : Fin n → Prop} (hp : ∀ i, p i → p (x i)) {a b : Fin n} (h : x.SameCycle a b) (ha : p a) : p b := by
  obtain ⟨k, -, rfl⟩ := h.exists_pow_eq' 
  induction k with
  | zero => simpa using ha
  | succ k ih => rw [pow_succ', Perm.mul_apply]; exact hp _ (ih ⟨k, by simp⟩)

theorem NCP.descend {x : Perm (Fin n)} (h : NCP x) {a b : Fin n} (hs : x.SameCycle b a) (hab : a < b) : a ≤ x b ∧ x b < b := by
  constructor
  · by_contra hc
    rw [not_le] at hc
    have := sameCycle_mem (p := fun j => x b < j ∧ j < b) (fun j hj => h.gap hj.1 hj.2) hs.symm ⟨hc, hab⟩
    exact lt_irrefl _ this.2
  · by_contra hc
    rw [not_lt] at hc
    have := sameCycle_mem (p := fun j => b ≤ j ∧ j ≤ x b) (fun j hj => h.interval hc hj.1 hj.2) hs ⟨le_rfl, hc⟩
    exact absurd hab (not_lt.2 this.1)

/-- Walking down a cycle from `b` to `a`. -/
theorem NCP.walk {α : Type} {x : Perm (Fin n)} (h : NCP x) {a b : Fin n} (hs : x.SameCycle b a) (hab : a ≤ b) (f : Fin n → α)
    (hf : ∀ i, i ≤ b → a ≤ x i → x i < i → f (x i) = f i) : f b = f a := by
  induction hb : (b : Nat) using Nat.strong_induction_on generalizing b with
  | _ m ih =>
    rcases eq_or_lt_of_le hab with rfl | hlt
    · rfl
    · obtain ⟨h1, h2⟩ := h.descend hs hlt
      rw [← hf b le_rfl h1 h2]
      refine ih (x b) (by rw [← hb]; exact h2) ?_ h1 (fun i hi => hf i (hi.trans h2.le)) rfl
      exact (Perm.sameCycle_apply_left).2 hs

/-! ### Fixed functions and cycles -/

theorem fix_iff_sameCycle (x : Perm (Fin n)) (a b : Fin n) : (∀ f ∈ fixSpace x, f a = f b) ↔ x.SameCycle a b := by
  classical
  constructor
  · intro h
    have := h (fun i => if x.SameCycle a i then 1 else 0) (fun i => by simp)
    by_contra hc
    simp [hc, Perm.SameCycle.refl] at this
  · intro h f hf
    exact sameCycle_mem (p := fun i => f a = f i) (fun i hi => by rw [hi, hf i]) h rfl

/-- The exchange identity. -/
theorem fix_or (c : Perm (Fin n)) {a b : Fin n} {f h : Fin n → ℚ} (hf : f ∈ fixSpace c)
    (hh : h ∈ fixSpace (swap a b * c)) : f a = f b ∨ h a = h b := by
  by_cases hab : a = b
  · exact Or.inl (by rw [hab])
  have e1 : ∑ i, f (c i) * (h (c i) - h (swap a b (c i))) = 0 := by
    have : ∀ i, f (c i) * (h (c i) - h (swap a b (c i))) = f (c i) * h (c i) - f i * h i := fun i => by
      have := hh i; rw [Perm.mul_apply] at this; rw [this, hf i]; ring
    rw [Finset.sum_congr rfl (fun i _ => this i), Finset.sum_sub_distrib, Equiv.sum_comp c (fun i => f i * h i), sub_self]
  rw [Equiv.sum_comp c (fun i => f i * (h i - h (swap a b i)))] at e1
  have e2 : ∑ i, f i * (h i - h (swap a b i)) = f a * (h a - h b) + f b * (h b - h a) := by
    rw [← Finset.sum_subset (Finset.subset_univ {a, b})]
    · rw [Finset.sum_pair hab, swap_apply_left, swap_apply_right]
    · intro i _ hi
      simp only [Finset.mem_insert, Finset.mem_singleton, not_or] at hi
      rw [swap_apply_of_ne_of_ne hi.1 hi.2]; ring
  rw [e2] at e1
  have : (f a - f b) * (h a - h b) = 0 := by linear_combination e1
  rcases mul_eq_zero.1 this with h1 | h1
  · exact Or.inl (sub_eq_zero.1 h1)
  · exact Or.inr (sub_eq_zero.1 h1)

/-- A transposition lowers the reflection length exactly when its points are in one cycle. -/
theorem rlen_swap_lt_iff (c : Perm (Fin n)) {a b : Fin n} (hab : a ≠ b) : rlen (swap a b * c) + 1 = rlen c ↔ c.SameCycle a b := by
  rw [← fix_iff_sameCycle]
  refine ⟨fun hl f hf => ?_, rlen_swap_mul_of_fix c hab⟩
  by_contra hc
  have := rlen_swap_mul_of_fix (swap a b * c) hab (fun h hh => (fix_or c hf hh).resolve_left hc)
  rw [← mul_assoc, swap_mul_self, one_mul] at this
  omega

theorem rlen_swap_cases (c : Perm (Fin n)) {a b : Fin n} (hab : a ≠ b) :
    rlen (swap a b * c) + 1 = rlen c ∨ rlen (swap a b * c) = rlen c + 1 := by
  by_cases h : ∀ f ∈ fixSpace c, f a = f b
  · exact Or.inl (rlen_swap_mul_of_fix c hab h)
  · push Not at h
    obtain ⟨f, hf, hc⟩ := h
    have := rlen_swap_mul_of_fix (swap a b * c) hab (fun h hh => (fix_or c hf hh).resolve_left hc)
    rw [← mul_assoc, swap_mul_self, one_mul] at this
    exact Or.inr this.symm

/-! ### Below the descending cycle -/

theorem conj_swap (D : Perm (Fin n)) (a b : Fin n) : D⁻¹ * swap a b * D = swap (D⁻¹ a) (D⁻¹ b) := by
  have := Equiv.swap_apply_apply D⁻¹ a b
  rw [this]; simp

/-- The length of the right complement after splitting off `(a b)`. -/
theorem rlen_comp_swap (c : Perm (Fin n)) {a b : Fin n} (hab : a ≠ b) : rlen (c * swap a b) + 1 = rlen c ↔ c.SameCycle a b := by
  rw [← rlen_inv, mul_inv_rev, swap_inv, ← rlen_inv c, rlen_swap_lt_iff _ hab, Perm.sameCycle_inv]

theorem compl_swap (y : Perm (Fin n)) (a b : Fin n) :
    (swap a b * y)⁻¹ * dcyc n = (y⁻¹ * dcyc n) * swap ((dcyc n)⁻¹ a) ((dcyc n)⁻¹ b) := by
  rw [← conj_swap, mul_inv_rev, swap_inv]; group

/-- A noncrossing permutation that is not the identity has a descent `x b = a < b` with nothing but fixed points between. -/
theorem NCP.exists_inner {x : Perm (Fin n)} (h : NCP x) (h1 : x ≠ 1) :
    ∃ b, x b < b ∧ ∀ j, x b < j → j < b → x j = j := by
  classical
  obtain ⟨e, he⟩ : ∃ e, x e < e := by
    by_contra hc
    push Not at hc
    apply h1
    ext i
    have key : ∀ m (i : Fin n), (i : Nat) = m → x i = i := by
      intro m
      induction m using Nat.strong_induction_on with
      | _ m ih =>
        intro i hi
        by_contra hne
        have h2 : i < x i := lt_of_le_of_ne (hc i) (Ne.symm hne)
        have h3 := h.img_lt h2.le h2 le_rfl
        exact absurd h3.2 (not_lt.2 (hc _))
    rw [key _ i rfl]; rfl
  obtain ⟨b, hb, hmin⟩ := (Finset.univ.filter fun b : Fin n => x b < b).exists_min_image (fun b => (b : Nat) - (x b : Nat))
    ⟨e, by simpa using he⟩
  simp only [Finset.mem_filter, Finset.mem_univ, true_and] at hb hmin
  refine ⟨b, hb, fun j h2 h3 => ?_⟩
  -- a moved point in the gap would give a shorter descent
  by_contra hne
  have hsh : ∀ k, x b < k → k < b → ¬ x k < k := by
    intro k k1 k2 k3
    have := hmin k k3
    have g := h.gap k1 k2
    simp only [Fin.lt_def] at *; omega
  have g := h.gap h2 h3
  have h4 : j < x j := lt_of_le_of_ne (not_lt.1 (hsh j h2 h3)) (Ne.symm hne)
  have h5 := h.img_lt h4.le h4 le_rfl
  exact hsh (x j) g.1 g.2 h5.2

theorem swap_val (a b i : Fin n) : ((swap a b i : Fin n) : Nat) = if (i : Nat) = a then (b : Nat) else if (i : Nat) = b then (a : Nat) else i := by
  rw [swap_apply_def]; simp only [Fin.ext_iff]; split_ifs <;> rfl

theorem dcyc_apply_inv (i : Fin n) : dcyc n ((dcyc n)⁻¹ i) = i := Equiv.apply_symm_apply _ _

theorem NCP.below {x : Perm (Fin n)} (h : NCP x) : rlen x + rlen (x⁻¹ * dcyc n) = rlen (dcyc n) := by
  induction hm : rlen x using Nat.strong_induction_on generalizing x with
  | _ m ih =>
    by_cases h1 : x = 1
    · subst h1; rw [← hm, rlen_eq_zero.2 rfl]; simp
    · obtain ⟨b, hb, hfix⟩ := h.exists_inner h1
      have hne : b ≠ x b := hb.ne'
      set y := swap b (x b) * x with hy
      have hxy : x = swap b (x b) * y := by rw [hy, ← mul_assoc, swap_mul_self, one_mul]
      have hl := rlen_split x b hb.ne
      rw [← hy] at hl
      have yv : ∀ i, y i = swap b (x b) (x i) := fun i => rfl
      have hy2 : NCP y := by
        intro i j
        have h1 := h i j; have h2 := h b i; have h3 := h b j; have h4 := h i b; have h5 := h j b
        have ei := swap_val b (x b) (x i)
        have ej := swap_val b (x b) (x j)
        rw [← yv] at ei ej
        have f1 := hfix i; have f2 := hfix j
        have g1 : x i = x b → i = b := fun e => x.injective e
        have g2 : x j = x b → j = b := fun e => x.injective e
        have g3 : i = b → x i = x b := fun e => by rw [e]
        have g4 : j = b → x j = x b := fun e => by rw [e]
        rw [ei, ej]
        simp only [Fin.ext_iff, Fin.lt_def] at *
        split_ifs <;> omega
      have r := ih (rlen y) (by omega) hy2 rfl
      have hc : (y⁻¹ * dcyc n).SameCycle ((dcyc n)⁻¹ b) ((dcyc n)⁻¹ (x b)) := by
        have key : ∀ k (j : Fin n), x b ≤ j → j ≤ b → (b : Nat) - j = k → (y⁻¹ * dcyc n).SameCycle ((dcyc n)⁻¹ b) ((dcyc n)⁻¹ j) := by
          intro k
          induction k with
          | zero => intro j h1 h2 h3; rw [show j = b by simp only [Fin.le_def, Fin.ext_iff] at *; omega]
          | succ k ih2 =>
            intro j h1 h2 h3
            have hj : (j : Nat) + 1 < n := by have := b.2; omega
            have e1 := ih2 ⟨j + 1, hj⟩ (by simp only [Fin.le_def] at *; omega) (by simp only [Fin.le_def] at *; omega) (by simp only; omega)
            refine e1.trans ?_
            have e2 : y ⟨j + 1, hj⟩ = ⟨j + 1, hj⟩ := by
              rw [yv]
              by_cases hjb : (⟨j + 1, hj⟩ : Fin n) = b
              · rw [hjb, swap_apply_right]
              · rw [hfix ⟨j + 1, hj⟩ (by simp only [Fin.le_def, Fin.lt_def] at *; omega) (by simp only [Fin.ext_iff, Fin.lt_def] at *; omega)]
                exact swap_apply_of_ne_of_ne hjb (by simp only [Fin.le_def, Ne, Fin.ext_iff] at *; omega)
            have e3 : (y⁻¹ * dcyc n) ((dcyc n)⁻¹ ⟨j + 1, hj⟩) = ⟨j + 1, hj⟩ := by
              rw [Perm.mul_apply, dcyc_apply_inv, Perm.inv_eq_iff_eq, e2]
            have e4 : (dcyc n)⁻¹ j = ⟨j + 1, hj⟩ := by
              apply Fin.ext; rw [dcyc_inv_val, if_neg (by omega)]
            rw [e4, ← e3, Perm.sameCycle_apply_right, e3]
        exact key _ (x b) le_rfl hb.le rfl
      have := (rlen_comp_swap (y⁻¹ * dcyc n) (a := (dcyc n)⁻¹ b) (b := (dcyc n)⁻¹ (x b)) (fun e => hne ((dcyc n)⁻¹.injective e))).2 hc
      rw [← compl_swap, ← hxy] at this
      omega

/-- Two points in one cycle of the complement are on the same side of every arc. -/
theorem NCP.sides {y : Perm (Fin n)} (h : NCP y) {a b : Fin n} (hc : (y⁻¹ * dcyc n).SameCycle ((dcyc n)⁻¹ a) ((dcyc n)⁻¹ b))
    (k : Fin n) : (min (2 * (k : Nat)) (2 * (y k : Nat) + 1) ≤ 2 * (a : Nat) + 1 ∧ 2 * (a : Nat) + 1 < max (2 * (k : Nat)) (2 * (y k : Nat) + 1)) ↔
    (min (2 * (k : Nat)) (2 * (y k : Nat) + 1) ≤ 2 * (b : Nat) + 1 ∧ 2 * (b : Nat) + 1 < max (2 * (k : Nat)) (2 * (y k : Nat) + 1)) := by
  have key : ∀ a b : Fin n, (y⁻¹ * dcyc n).SameCycle ((dcyc n)⁻¹ a) ((dcyc n)⁻¹ b) →
      (min (2 * (k : Nat)) (2 * (y k : Nat) + 1) ≤ 2 * (a : Nat) + 1 ∧ 2 * (a : Nat) + 1 < max (2 * (k : Nat)) (2 * (y k : Nat) + 1)) →
      (min (2 * (k : Nat)) (2 * (y k : Nat) + 1) ≤ 2 * (b : Nat) + 1 ∧ 2 * (b : Nat) + 1 < max (2 * (k : Nat)) (2 * (y k : Nat) + 1)) := by
    intro a b hc ha
    have := sameCycle_mem (x := y⁻¹ * dcyc n) (p := fun i => min (2 * (k : Nat)) (2 * (y k : Nat) + 1) ≤ 2 * (dcyc n i : Nat) + 1 ∧
      2 * (dcyc n i : Nat) + 1 < max (2 * (k : Nat)) (2 * (y k : Nat) + 1)) ?_ hc (by simpa only [dcyc_apply_inv] using ha)
    · simpa only [dcyc_apply_inv] using this
    · intro i hi
      rw [Perm.mul_apply]
      obtain ⟨m, hm⟩ : ∃ m, y m = dcyc n i := ⟨y⁻¹ (dcyc n i), Equiv.apply_symm_apply _ _⟩
      rw [← hm] at hi ⊢
      rw [show y⁻¹ (y m) = m from Equiv.symm_apply_apply _ _, dcyc_val]
      have h1 := h k m; have h2 := h m k
      have g1 : y m = y k → m = k := fun e => y.injective e
      have g2 : m = k → y m = y k := fun e => by rw [e]
      have := m.2; have := k.2; have := (y k).2; have := (y m).2
      simp only [Fin.ext_iff] at *
      split_ifs <;> omega
  exact ⟨key a b hc, key b a hc.symm⟩

theorem NCP.swap_mul {y : Perm (Fin n)} (h : NCP y) {a b : Fin n} (hc : (y⁻¹ * dcyc n).SameCycle ((dcyc n)⁻¹ a) ((dcyc n)⁻¹ b)) :
    NCP (swap a b * y) := by
  intro i j
  rw [Perm.mul_apply, Perm.mul_apply, swap_val, swap_val]
  have s1 := h.sides hc i; have s2 := h.sides hc j
  have h1 := h i j; have h2 := h j i
  have g1 : y i = y j → i = j := fun e => y.injective e
  have g2 : i = j → y i = y j := fun e => by rw [e]
  have := i.2; have := j.2; have := (y i).2; have := (y j).2
  simp only [Fin.ext_iff] at *
  split_ifs <;> omega

/-- Permutations below the descending cycle are noncrossing. -/
theorem ncp_of_below {x : Perm (Fin n)} (h : rlen x + rlen (x⁻¹ * dcyc n) = rlen (dcyc n)) : NCP x := by
  induction hm : rlen x using Nat.strong_induction_on generalizing x with
  | _ m ih =>
    by_cases h1 : x = 1
    · subst h1; exact ncp_one
    · obtain ⟨a, b, hab, hl⟩ := exists_rlen_split h1
      set y := swap a b * x with hy
      have hxy : x = swap a b * y := by rw [hy, ← mul_assoc, swap_mul_self, one_mul]
      have hle := rlen_mul_le y (y⁻¹ * dcyc n)
      rw [mul_inv_cancel_left] at hle
      have e : x⁻¹ * dcyc n = (y⁻¹ * dcyc n) * swap ((dcyc n)⁻¹ a) ((dcyc n)⁻¹ b) := by rw [hxy, compl_swap]
      have hne : (dcyc n)⁻¹ a ≠ (dcyc n)⁻¹ b := fun e => hab ((dcyc n)⁻¹.injective e)
      have hle2 := rlen_mul_le (x⁻¹ * dcyc n) (swap ((dcyc n)⁻¹ a) ((dcyc n)⁻¹ b))
      rw [rlen_swap hne, e, mul_assoc, swap_mul_self, mul_one, ← e] at hle2
      have hs := (rlen_comp_swap (y⁻¹ * dcyc n) hne).1 (by rw [← e]; omega)
      rw [hxy]
      exact (ih (rlen y) (by omega) (by omega) rfl).swap_mul hs

theorem below_iff (x : Perm (Fin n)) : rlen x + rlen (x⁻¹ * dcyc n) = rlen (dcyc n) ↔ NCP x := ⟨ncp_of_below, NCP.below⟩

end Peyl
