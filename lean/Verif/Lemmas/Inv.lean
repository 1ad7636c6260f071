import Verif.Spec.Permutations
/-!
# Inversion numbers
-/
namespace Peyl
open Equiv

variable {n : Nat}

theorem sg_eq {i : Nat} (h : i + 1 < n) : sg n i = Equiv.swap ⟨i, by omega⟩ ⟨i + 1, h⟩ := by rw [sg, dif_pos h]

@[simp] theorem sg_sq (i : Nat) : sg n i * sg n i = 1 := by
  unfold sg; split <;> simp

@[simp] theorem sg_inv (i : Nat) : (sg n i)⁻¹ = sg n i := by
  unfold sg; split <;> simp

theorem sg_apply_left {i : Nat} (h : i + 1 < n) : sg n i ⟨i, by omega⟩ = ⟨i + 1, h⟩ := by rw [sg_eq h]; simp
theorem sg_apply_right {i : Nat} (h : i + 1 < n) : sg n i ⟨i + 1, h⟩ = ⟨i, by omega⟩ := by rw [sg_eq h]; simp

theorem sg_apply_val (i : Nat) (a : Fin n) (h : i + 1 < n) :
    ((sg n i a : Fin n) : Nat) = if a.val = i then i + 1 else if a.val = i + 1 then i else a.val := by
  rw [sg_eq h, Equiv.swap_apply_def]
  simp only [Fin.ext_iff]
  split_ifs <;> simp_all

theorem sg_apply_ne (i : Nat) (a : Fin n) (h1 : a.val ≠ i) (h2 : a.val ≠ i + 1) : sg n i a = a := by
  by_cases h : i + 1 < n
  · apply Fin.ext; rw [sg_apply_val i a h, if_neg h1, if_neg h2]
  · rw [sg, dif_neg h]; rfl

theorem sg_sg_apply (i : Nat) (a : Fin n) : sg n i (sg n i a) = a := by
  rw [← Equiv.Perm.mul_apply, sg_sq]; rfl

theorem sg_lt {i : Nat} (h : i + 1 < n) {a b : Fin n} (hab : a < b) (hne : ¬ (a.val = i ∧ b.val = i + 1)) :
    sg n i a < sg n i b := by
  rw [Fin.lt_def, sg_apply_val i a h, sg_apply_val i b h]
  rw [Fin.lt_def] at hab
  split_ifs <;> omega

theorem mem_invSet {π : Perm (Fin n)} {p : Fin n × Fin n} : p ∈ invSet π ↔ p.1 < p.2 ∧ π p.2 < π p.1 := by
  simp [invSet]

theorem inv_mul_sg_up (π : Perm (Fin n)) {i : Nat} (h : i + 1 < n) (hlt : π ⟨i, by omega⟩ < π ⟨i + 1, h⟩) :
    inv (π * sg n i) = inv π + 1 := by
  have key : invSet (π * sg n i) = insert (⟨i, by omega⟩, ⟨i + 1, h⟩)
      ((invSet π).map ((Equiv.prodCongr (sg n i) (sg n i)).toEmbedding)) := by
    ext ⟨a, b⟩
    rw [mem_invSet, Finset.mem_insert, Finset.mem_map_equiv, mem_invSet]
    simp only [Perm.mul_apply, Prod.mk.injEq]
    have e : (Equiv.prodCongr (sg n i) (sg n i)).symm (a, b) = (sg n i a, sg n i b) := by
      rw [Equiv.symm_apply_eq]; simp [sg_sg_apply]
    rw [e]
    constructor
    · rintro ⟨h1, h2⟩
      by_cases hne : a.val = i ∧ b.val = i + 1
      · left; exact ⟨Fin.ext hne.1, Fin.ext hne.2⟩
      · right; exact ⟨sg_lt h h1 hne, h2⟩
    · rintro (⟨rfl, rfl⟩ | ⟨h1, h2⟩)
      · rw [sg_apply_left h, sg_apply_right h]
        exact ⟨by simp [Fin.lt_def], hlt⟩
      · refine ⟨?_, h2⟩
        have := sg_lt h h1 (by
          rintro ⟨ha, hb⟩
          rw [show sg n i a = ⟨i, by omega⟩ from Fin.ext ha, show sg n i b = ⟨i + 1, h⟩ from Fin.ext hb] at h2
          exact absurd h2 (by simpa using hlt.le))
        rwa [sg_sg_apply, sg_sg_apply] at this
  rw [inv, key, Finset.card_insert_of_notMem, Finset.card_map, inv]
  rw [Finset.mem_map_equiv, mem_invSet]
  have e : (Equiv.prodCongr (sg n i) (sg n i)).symm ((⟨i, by omega⟩, ⟨i + 1, h⟩) : Fin n × Fin n) = (⟨i + 1, h⟩, ⟨i, by omega⟩) := by
    rw [Equiv.symm_apply_eq]; simp [sg_apply_left h, sg_apply_right h]
  rw [e]
  rintro ⟨h1, _⟩
  have : i + 1 < i := h1
  omega

theorem inv_mul_sg_down (π : Perm (Fin n)) {i : Nat} (h : i + 1 < n) (hlt : π ⟨i + 1, h⟩ < π ⟨i, by omega⟩) :
    inv (π * sg n i) + 1 = inv π := by
  have := inv_mul_sg_up (π * sg n i) h (by simpa [sg_apply_left h, sg_apply_right h] using hlt)
  rw [mul_assoc, sg_sq, mul_one] at this
  exact this.symm

theorem inv_one : inv (1 : Perm (Fin n)) = 0 := by
  rw [inv, Finset.card_eq_zero, Finset.eq_empty_iff_forall_notMem]
  intro p hp
  rw [mem_invSet] at hp
  simp only [Perm.one_apply] at hp
  exact absurd hp.1 (not_lt.2 hp.2.le)

theorem inv_inv (π : Perm (Fin n)) : inv π⁻¹ = inv π := by
  apply Finset.card_bij (fun p _ => (π⁻¹ p.2, π⁻¹ p.1))
  · intro p hp; rw [mem_invSet] at hp ⊢; simpa using ⟨hp.2, hp.1⟩
  · intro p _ q _ h; simp at h; exact Prod.ext h.2 h.1
  · intro p hp
    rw [mem_invSet] at hp
    exact ⟨(π p.2, π p.1), by rw [mem_invSet]; simpa using ⟨hp.2, hp.1⟩, by simp⟩

/-- A permutation with no descent is the identity. -/
theorem eq_one_of_no_descent (π : Perm (Fin n)) (h : ∀ i (hi : i + 1 < n), π ⟨i, by omega⟩ < π ⟨i + 1, hi⟩) : π = 1 := by
  have hmono : StrictMono π := by
    cases n with
    | zero => intro a; exact a.elim0
    | succ m =>
      apply Fin.strictMono_iff_lt_succ.2
      intro i
      exact h i.val (by omega)
  ext a
  have : π = 1 := by
    have e : (hmono.orderIsoOfSurjective π π.surjective) = OrderIso.refl _ := Subsingleton.elim _ _
    ext x
    have := congrArg (fun f => (f x)) e
    simp at this
    simp [this]
  rw [this]

theorem exists_descent {π : Perm (Fin n)} (h : π ≠ 1) : ∃ i, ∃ hi : i + 1 < n, π ⟨i + 1, hi⟩ < π ⟨i, by omega⟩ := by
  by_contra hc
  apply h
  apply eq_one_of_no_descent
  intro i hi
  by_contra hlt
  exact hc ⟨i, hi, lt_of_le_of_ne (not_lt.1 hlt) (by simp)⟩

theorem inv_eq_zero {π : Perm (Fin n)} : inv π = 0 ↔ π = 1 := by
  constructor
  · intro h
    by_contra hne
    obtain ⟨i, hi, hd⟩ := exists_descent hne
    have := inv_mul_sg_down π hi hd
    omega
  · rintro rfl; exact inv_one

/-- Every permutation is reached from the identity by multiplying with ascents on the right. -/
theorem perm_induction {P : Perm (Fin n) → Prop} (h1 : P 1)
    (hs : ∀ π i (h : i + 1 < n), π ⟨i, by omega⟩ < π ⟨i + 1, h⟩ → P π → P (π * sg n i)) (π : Perm (Fin n)) : P π := by
  induction hk : inv π generalizing π with
  | zero => rw [inv_eq_zero.1 hk]; exact h1
  | succ k ih =>
    obtain ⟨i, hi, hd⟩ := exists_descent (π := π) (by rintro rfl; rw [inv_one] at hk; omega)
    have h2 := inv_mul_sg_down π hi hd
    have := hs (π * sg n i) i hi (by simpa [sg_apply_left hi, sg_apply_right hi] using hd) (ih _ (by omega))
    rwa [mul_assoc, sg_sq, mul_one] at this

theorem inv_sg {i : Nat} (h : i + 1 < n) : inv (sg n i) = 1 := by
  have := inv_mul_sg_up (1 : Perm (Fin n)) h (by simp [Fin.lt_def])
  rwa [one_mul, inv_one] at this

theorem inv_mul_sg_le (π : Perm (Fin n)) {i : Nat} (h : i + 1 < n) : inv (π * sg n i) ≤ inv π + 1 := by
  rcases lt_or_gt_of_ne (show π ⟨i, by omega⟩ ≠ π ⟨i + 1, h⟩ by simp) with hlt | hlt
  · rw [inv_mul_sg_up π h hlt]
  · have := inv_mul_sg_down π h hlt; omega

theorem inv_mul_le (x y : Perm (Fin n)) : inv (x * y) ≤ inv x + inv y := by
  induction y using perm_induction with
  | h1 => simp [inv_one]
  | hs π i h hlt ih =>
    rw [inv_mul_sg_up π h hlt, ← mul_assoc]
    have := inv_mul_sg_le (x * π) h
    omega

theorem inv_sg_mul_up (π : Perm (Fin n)) {i : Nat} (h : i + 1 < n) (hlt : π⁻¹ ⟨i, by omega⟩ < π⁻¹ ⟨i + 1, h⟩) :
    inv (sg n i * π) = inv π + 1 := by
  rw [← inv_inv, mul_inv_rev, sg_inv, inv_mul_sg_up _ h hlt, inv_inv]

theorem inv_sg_mul_down (π : Perm (Fin n)) {i : Nat} (h : i + 1 < n) (hlt : π⁻¹ ⟨i + 1, h⟩ < π⁻¹ ⟨i, by omega⟩) :
    inv (sg n i * π) + 1 = inv π := by
  rw [← inv_inv, mul_inv_rev, sg_inv, inv_mul_sg_down _ h hlt, inv_inv]

theorem w0_sq : w0 n * w0 n = 1 := by ext; simp [w0]
theorem w0_inv : (w0 n)⁻¹ = w0 n := by rw [inv_eq_iff_mul_eq_one, w0_sq]

/-- Conjugation by the longest element preserves the number of inversions. -/
theorem inv_conj_w0 (π : Perm (Fin n)) : inv (w0 n * π * w0 n) = inv π := by
  apply Finset.card_bij (fun p _ => (w0 n p.2, w0 n p.1))
  · intro p hp; rw [mem_invSet] at hp ⊢; simpa [w0, Fin.rev_lt_rev] using hp
  · intro p _ q _ h; simp at h; exact Prod.ext h.2 h.1
  · intro p hp
    rw [mem_invSet] at hp
    exact ⟨(w0 n p.2, w0 n p.1), by rw [mem_invSet]; simpa [w0, Fin.rev_lt_rev] using hp, by simp [w0]⟩

/-- Inversions of `π` and of `π w0` are complementary. -/
theorem inv_add_inv_w0 (π : Perm (Fin n)) : inv π + inv (π * w0 n) = inv (w0 n) := by
  have h1 : invSet (w0 n) = Finset.univ.filter fun p : Fin n × Fin n => p.1 < p.2 := by
    ext p; rw [mem_invSet]; simp [w0]
  have h2 : (invSet (π * w0 n)).card = (Finset.univ.filter fun p : Fin n × Fin n => p.1 < p.2 ∧ ¬ π p.2 < π p.1).card := by
    apply Finset.card_bij (fun p _ => (w0 n p.2, w0 n p.1))
    · intro p hp
      rw [mem_invSet] at hp
      simp only [Finset.mem_filter, Finset.mem_univ, true_and]
      simp only [Perm.mul_apply] at hp
      exact ⟨by simpa [w0] using hp.1, not_lt.2 hp.2.le⟩
    · intro p _ q _ h; simp at h; exact Prod.ext h.2 h.1
    · intro p hp
      simp only [Finset.mem_filter, Finset.mem_univ, true_and] at hp
      refine ⟨(w0 n p.2, w0 n p.1), ?_, by simp [w0]⟩
      rw [mem_invSet]
      refine ⟨by simpa [w0] using hp.1, ?_⟩
      simp only [w0, Perm.mul_apply, Fin.revPerm_apply, Fin.rev_rev]
      exact lt_of_le_of_ne (not_lt.1 hp.2) (by simpa using hp.1.ne)
  rw [inv, inv, inv, h2, h1, ← Finset.card_filter_add_card_filter_not (s := Finset.univ.filter fun p : Fin n × Fin n => p.1 < p.2)
    (fun p => π p.2 < π p.1), Finset.filter_filter, Finset.filter_filter]
  rfl

end Peyl
