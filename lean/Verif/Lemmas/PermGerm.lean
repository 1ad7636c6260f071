import Verif.Lemmas.Matsumoto
import Verif.Lemmas.Shortlex
import Verif.Spec.Braid
/-!
# The germ of permutation braids
-/
namespace Peyl
open Equiv
variable {n : Nat}


/-- Left divisibility by an atom. -/
theorem sg_le_iff (x : Perm (Fin n)) {i : Nat} (h : i + 1 < n) :
    inv (sg n i) + inv ((sg n i)⁻¹ * x) = inv x ↔ x⁻¹ ⟨i + 1, h⟩ < x⁻¹ ⟨i, by omega⟩ := by
  rw [sg_inv, inv_sg h]
  constructor
  · intro e
    by_contra hc
    have hne : x⁻¹ ⟨i, by omega⟩ ≠ x⁻¹ ⟨i + 1, h⟩ := by
      intro e2; have := x⁻¹.injective e2; simp at this
    have := inv_sg_mul_up x h (lt_of_le_of_ne (not_lt.1 hc) hne)
    omega
  · intro e; have := inv_sg_mul_down x h e; omega

theorem down2 (y : Perm (Fin n)) {i k : Nat} (hi : i + 1 < n) (hk : k + 1 < n) (hik : i + 2 ≤ k ∨ k + 2 ≤ i)
    (h1 : y⁻¹ ⟨i + 1, hi⟩ < y⁻¹ ⟨i, by omega⟩) (h2 : y⁻¹ ⟨k + 1, hk⟩ < y⁻¹ ⟨k, by omega⟩) :
    inv (sg n k * (sg n i * y)) + 2 = inv y := by
  have a := inv_sg_mul_down y hi h1
  have b := inv_sg_mul_down (sg n i * y) hk (by
    rw [mul_inv_rev, sg_inv, Perm.mul_apply, Perm.mul_apply, sg_apply_ne i ⟨k + 1, hk⟩ (by simp; omega) (by simp; omega),
      sg_apply_ne i ⟨k, by omega⟩ (by simp; omega) (by simp; omega)]
    exact h2)
  omega

theorem down3 (y : Perm (Fin n)) {i : Nat} (h : i + 1 + 1 < n)
    (h1 : y⁻¹ ⟨i + 1, by omega⟩ < y⁻¹ ⟨i, by omega⟩) (h2 : y⁻¹ ⟨i + 1 + 1, h⟩ < y⁻¹ ⟨i + 1, by omega⟩) :
    inv (sg n i * (sg n (i + 1) * (sg n i * y))) + 3 = inv y ∧ inv (sg n (i + 1) * (sg n i * (sg n (i + 1) * y))) + 3 = inv y := by
  have hi : i + 1 < n := by omega
  have f2 : sg n i ⟨i + 1 + 1, h⟩ = ⟨i + 1 + 1, h⟩ := sg_apply_ne i _ (by simp; omega) (by simp)
  have f0 : sg n (i + 1) ⟨i, by omega⟩ = ⟨i, by omega⟩ := sg_apply_ne (i + 1) _ (by simp) (by simp; omega)
  have a := inv_sg_mul_down y hi h1
  have b := inv_sg_mul_down (sg n i * y) h (by
    rw [mul_inv_rev, sg_inv, Perm.mul_apply, Perm.mul_apply, f2, sg_apply_right hi]; exact h2.trans h1)
  have c := inv_sg_mul_down (sg n (i + 1) * (sg n i * y)) hi (by
    rw [mul_inv_rev, mul_inv_rev, sg_inv, sg_inv, Perm.mul_apply, Perm.mul_apply, Perm.mul_apply, Perm.mul_apply,
      sg_apply_left h, f2, f0, sg_apply_left hi]; exact h2)
  have a' := inv_sg_mul_down y h h2
  have b' := inv_sg_mul_down (sg n (i + 1) * y) hi (by
    rw [mul_inv_rev, sg_inv, Perm.mul_apply, Perm.mul_apply, f0, sg_apply_left h]; exact h2.trans h1)
  have c' := inv_sg_mul_down (sg n i * (sg n (i + 1) * y)) h (by
    rw [mul_inv_rev, mul_inv_rev, sg_inv, sg_inv, Perm.mul_apply, Perm.mul_apply, Perm.mul_apply, Perm.mul_apply,
      f2, sg_apply_right h, sg_apply_right hi, f0]; exact h1)
  constructor <;> omega

theorem sg_comm {i k : Nat} (hi : i + 1 < n) (hk : k + 1 < n) (hik : i + 2 ≤ k ∨ k + 2 ≤ i) : sg n i * sg n k = sg n k * sg n i := by
  ext a
  simp only [Perm.mul_apply, sg_apply_val _ _ hi, sg_apply_val _ _ hk]
  split_ifs <;> omega

theorem sg_braid {i : Nat} (h : i + 1 + 1 < n) : sg n i * sg n (i + 1) * sg n i = sg n (i + 1) * sg n i * sg n (i + 1) := by
  have hi : i + 1 < n := by omega
  ext a
  simp only [Perm.mul_apply, sg_apply_val _ _ hi, sg_apply_val _ _ h]
  split_ifs <;> omega

theorem inv_comm2 {i k : Nat} (hi : i + 1 < n) (hk : k + 1 < n) (hik : i + 2 ≤ k ∨ k + 2 ≤ i) : inv (sg n i * sg n k) = 2 := by
  have := down2 (sg n i * sg n k) hi hk hik (by
      rw [mul_inv_rev, sg_inv, sg_inv, Perm.mul_apply, Perm.mul_apply, sg_apply_left hi, sg_apply_right hi,
        sg_apply_ne k ⟨i, by omega⟩ (by simp; omega) (by simp; omega), sg_apply_ne k ⟨i + 1, by omega⟩ (by simp; omega) (by simp; omega)]
      simp)
    (by
      rw [mul_inv_rev, sg_inv, sg_inv, Perm.mul_apply, Perm.mul_apply, 
        sg_apply_ne i ⟨k, by omega⟩ (by simp; omega) (by simp; omega), sg_apply_ne i ⟨k + 1, by omega⟩ (by simp; omega) (by simp; omega),
        sg_apply_left hk, sg_apply_right hk]
      simp)
  rw [← mul_assoc (sg n i), sg_sq, one_mul, sg_sq, inv_one] at this
  omega

theorem inv_braid3 {i : Nat} (h : i + 1 + 1 < n) : inv (sg n i * (sg n (i + 1) * sg n i)) = 3 := by
  have hi : i + 1 < n := by omega
  have f2 : sg n i ⟨i + 1 + 1, h⟩ = ⟨i + 1 + 1, h⟩ := sg_apply_ne i _ (by simp; omega) (by simp)
  have f0 : sg n (i + 1) ⟨i, by omega⟩ = ⟨i, by omega⟩ := sg_apply_ne (i + 1) _ (by simp) (by simp; omega)
  have hinv : (sg n i * (sg n (i + 1) * sg n i))⁻¹ = sg n i * (sg n (i + 1) * sg n i) := by
    simp only [mul_inv_rev, sg_inv, mul_assoc]
  have v0 : (sg n i * (sg n (i + 1) * sg n i)) ⟨i, by omega⟩ = ⟨i + 1 + 1, h⟩ := by
    rw [Perm.mul_apply, Perm.mul_apply, sg_apply_left hi, sg_apply_left h, f2]
  have v1 : (sg n i * (sg n (i + 1) * sg n i)) ⟨i + 1, by omega⟩ = ⟨i + 1, by omega⟩ := by
    rw [Perm.mul_apply, Perm.mul_apply, sg_apply_right hi, f0, sg_apply_left hi]
  have v2 : (sg n i * (sg n (i + 1) * sg n i)) ⟨i + 1 + 1, h⟩ = ⟨i, by omega⟩ := by
    rw [Perm.mul_apply, Perm.mul_apply, f2, sg_apply_right h, sg_apply_right hi]
  have := (down3 (sg n i * (sg n (i + 1) * sg n i)) h (by rw [hinv, v0, v1]; simp) (by rw [hinv, v1, v2]; simp)).1
  have e : sg n i * (sg n (i + 1) * (sg n i * (sg n i * (sg n (i + 1) * sg n i)))) = 1 := by
    rw [← mul_assoc (sg n i) (sg n i), sg_sq, one_mul, ← mul_assoc (sg n (i + 1)) (sg n (i + 1)), sg_sq, one_mul, sg_sq]
  rw [e, inv_one] at this
  omega

/-- What two atoms below `x` have as join: an element with reduced words starting with either atom. -/
theorem sg_join {i k : Nat} (hi : i + 1 < n) (hk : k + 1 < n) : ∃ u u' : List Nat, (∀ s ∈ i :: u, s + 1 < n) ∧ (∀ s ∈ k :: u', s + 1 < n) ∧
    coxProd n (i :: u) = coxProd n (k :: u') ∧ (i :: u).length = inv (coxProd n (i :: u)) ∧
    (k :: u').length = inv (coxProd n (i :: u)) ∧
    (∀ y : Perm (Fin n), y⁻¹ ⟨i + 1, hi⟩ < y⁻¹ ⟨i, by omega⟩ → y⁻¹ ⟨k + 1, hk⟩ < y⁻¹ ⟨k, by omega⟩ →
      inv (coxProd n (i :: u)) + inv ((coxProd n (i :: u))⁻¹ * y) = inv y) ∧
    ∀ (H : Type) [Group H] (f : Nat → H), (∀ i j, j + 1 < n → i + 2 ≤ j → f i * f j = f j * f i) →
      (∀ i, i + 1 + 1 < n → f i * f (i + 1) * f i = f (i + 1) * f i * f (i + 1)) →
      ((i :: u).map f).prod = ((k :: u').map f).prod := by
  rcases Nat.lt_trichotomy i k with hlt | rfl | hlt
  · rcases Nat.lt_or_ge (i + 1) k with h2 | h2
    · refine ⟨[k], [i], by simp [hi, hk], by simp [hi, hk], ?_, ?_, ?_, ?_, ?_⟩
      · simp [coxProd, sg_comm hi hk (Or.inl h2)]
      · simp [coxProd, inv_comm2 hi hk (Or.inl h2)]
      · simp [coxProd, inv_comm2 hi hk (Or.inl h2)]
      · intro y h3 h4
        have := down2 y hi hk (Or.inl h2) h3 h4
        simp only [coxProd, List.map_cons, List.map_nil, List.prod_cons, List.prod_nil, mul_one, mul_inv_rev, sg_inv, mul_assoc,
          inv_comm2 hi hk (Or.inl h2)]
        omega
      · intro H _ f hf _; simpa using hf i k hk h2
    · obtain rfl : k = i + 1 := by omega
      refine ⟨[i + 1, i], [i, i + 1], by simp [hi, hk], by simp [hi, hk], ?_, ?_, ?_, ?_, ?_⟩
      · simpa [coxProd, mul_assoc] using sg_braid hk
      · simp [coxProd, inv_braid3 hk]
      · simp [coxProd, inv_braid3 hk]
      · intro y h3 h4
        have := (down3 y hk h3 h4).1
        simp only [coxProd, List.map_cons, List.map_nil, List.prod_cons, List.prod_nil, mul_one, mul_inv_rev, sg_inv, mul_assoc,
          inv_braid3 hk]
        omega
      · intro H _ f _ hf; simpa [mul_assoc] using hf i hk
  · refine ⟨[], [], by simp [hi], by simp [hi], rfl, by simp [coxProd, inv_sg hi], by simp [coxProd, inv_sg hi], ?_, fun _ _ _ _ _ => rfl⟩
    intro y h3 _
    simpa [coxProd] using (sg_le_iff y hi).2 h3
  · rcases Nat.lt_or_ge (k + 1) i with h2 | h2
    · refine ⟨[k], [i], by simp [hi, hk], by simp [hi, hk], ?_, ?_, ?_, ?_, ?_⟩
      · simp [coxProd, sg_comm hi hk (Or.inr h2)]
      · simp [coxProd, inv_comm2 hi hk (Or.inr h2)]
      · simp [coxProd, inv_comm2 hi hk (Or.inr h2)]
      · intro y h3 h4
        have := down2 y hi hk (Or.inr h2) h3 h4
        simp only [coxProd, List.map_cons, List.map_nil, List.prod_cons, List.prod_nil, mul_one, mul_inv_rev, sg_inv, mul_assoc,
          inv_comm2 hi hk (Or.inr h2)]
        omega
      · intro H _ f hf _; simpa using (hf k i hi h2).symm
    · obtain rfl : i = k + 1 := by omega
      have e : inv (sg n (k + 1) * (sg n k * sg n (k + 1))) = 3 := by
        have := sg_braid hi; rw [← mul_assoc, ← this, mul_assoc]; exact inv_braid3 hi
      refine ⟨[k, k + 1], [k + 1, k], by simp [hi, hk], by simp [hi, hk], ?_, ?_, ?_, ?_, ?_⟩
      · simpa [coxProd, mul_assoc] using (sg_braid hi).symm
      · simp [coxProd, e]
      · simp [coxProd, e]
      · intro y h3 h4
        have := (down3 y hi h4 h3).2
        simp only [coxProd, List.map_cons, List.map_nil, List.prod_cons, List.prod_nil, mul_one, mul_inv_rev, sg_inv, mul_assoc, e]
        omega
      · intro H _ f _ hf; simpa [mul_assoc] using (hf k hi).symm

/-- Permutations with the inversion number form a Garside germ. -/
def permGerm (n : Nat) : Germ (Perm (Fin n)) where
  len := inv
  D := w0 n
  atom s := ∃ i, i + 1 < n ∧ s = sg n i
  len_eq_zero := inv_eq_zero
  len_mul_le := inv_mul_le
  len_inv := inv_inv
  len_conj x := by rw [w0_inv]; exact inv_conj_w0 x
  atom_len := by rintro s ⟨i, hi, rfl⟩; exact inv_sg hi
  exists_atom := by
    intro x hx _
    obtain ⟨i, hi, h⟩ := exists_descent (π := x⁻¹) (by simpa using hx)
    exact ⟨sg n i, ⟨i, hi, rfl⟩, (sg_le_iff x hi).2 h⟩
  join := by
    rintro s t x ⟨i, hi, rfl⟩ ⟨k, hk, rfl⟩ _ hs ht
    rw [sg_le_iff x hi] at hs; rw [sg_le_iff x hk] at ht
    obtain ⟨u, u', h1, h2, h3, h4, h5, h6, -⟩ := sg_join hi hk
    refine ⟨coxProd n (i :: u), ?_, ?_, ?_⟩
    · have a := inv_coxProd_le (n := n) u
      have b := inv_mul_le (sg n i) ((sg n i)⁻¹ * coxProd n (i :: u))
      rw [coxProd_cons] at h4 b ⊢
      rw [inv_mul_cancel_left] at b ⊢
      rw [inv_sg hi] at b ⊢
      simp only [List.length_cons] at h4; omega
    · have a := inv_coxProd_le (n := n) u'
      have b := inv_mul_le (sg n k) ((sg n k)⁻¹ * coxProd n (i :: u))
      rw [h3, coxProd_cons] at h5 b ⊢
      rw [inv_mul_cancel_left] at b ⊢
      rw [inv_sg hk] at b ⊢
      simp only [List.length_cons] at h5; omega
    · intro y _ hs' ht'
      exact h6 y ((sg_le_iff y hi).1 hs') ((sg_le_iff y hk).1 ht')

theorem permGerm_P (x : Perm (Fin n)) : (permGerm n).P x := by
  show inv x + inv (x⁻¹ * w0 n) = inv (w0 n)
  have := inv_add_inv_w0 x⁻¹
  rwa [inv_inv] at this

theorem permGerm_atom {i : Nat} (h : i + 1 < n) : (permGerm n).atom (sg n i) := ⟨i, h, rfl⟩

theorem permGerm_le {i : Nat} (h : i + 1 < n) {x : Perm (Fin n)} : (permGerm n).le (sg n i) x ↔ x⁻¹ ⟨i + 1, h⟩ < x⁻¹ ⟨i, by omega⟩ :=
  sg_le_iff x h

theorem red_iff {w : List Nat} {π : Perm (Fin n)} : Germ.Red (permGerm n) (fun i => i + 1 < n) (sg n) w π ↔ IsReduced w π := Iff.rfl

/-! ### The braid group realises the germ -/

theorem sigma_eq {i : Nat} (h : i < n - 1) : sigma n i = PresentedGroup.of ⟨i, h⟩ := by rw [sigma, dif_pos h]

theorem sigma_comm (i j : Nat) (hj : j + 1 < n) (h : i + 2 ≤ j) : sigma n i * sigma n j = sigma n j * sigma n i := by
  rw [sigma_eq (by omega : i < n - 1), sigma_eq (by omega : j < n - 1)]
  have : (QuotientGroup.mk (FreeGroup.of (⟨i, by omega⟩ : Fin (n - 1)) * FreeGroup.of ⟨j, by omega⟩ * (FreeGroup.of ⟨j, by omega⟩ * FreeGroup.of ⟨i, by omega⟩)⁻¹) : Braid n) = 1 := by
    apply PresentedGroup.one_of_mem
    exact Or.inl ⟨_, _, h, rfl⟩
  exact mul_inv_eq_one.1 this

theorem sigma_braid (i : Nat) (h : i + 1 + 1 < n) :
    sigma n i * sigma n (i + 1) * sigma n i = sigma n (i + 1) * sigma n i * sigma n (i + 1) := by
  rw [sigma_eq (by omega : i < n - 1), sigma_eq (by omega : i + 1 < n - 1)]
  have : (QuotientGroup.mk (FreeGroup.of (⟨i, by omega⟩ : Fin (n - 1)) * FreeGroup.of ⟨i + 1, by omega⟩ * FreeGroup.of ⟨i, by omega⟩ * (FreeGroup.of ⟨i + 1, by omega⟩ * FreeGroup.of ⟨i, by omega⟩ * FreeGroup.of ⟨i + 1, by omega⟩)⁻¹) : Braid n) = 1 := by
    apply PresentedGroup.one_of_mem
    exact Or.inr ⟨_, _, rfl, rfl⟩
  exact mul_inv_eq_one.1 this

theorem joinCond {H : Type} [Group H] (f : Nat → H) (h1 : ∀ i j, j + 1 < n → i + 2 ≤ j → f i * f j = f j * f i)
    (h2 : ∀ i, i + 1 + 1 < n → f i * f (i + 1) * f i = f (i + 1) * f i * f (i + 1)) :
    Germ.JoinCond (permGerm n) (fun i => i + 1 < n) (sg n) f := by
  intro i j x hi hj _ li lj
  obtain ⟨u, u', a1, a2, a3, a4, a5, a6, a7⟩ := sg_join hi hj
  exact ⟨coxProd n (i :: u), u, u', a6 x ((sg_le_iff x hi).1 li) ((sg_le_iff x hj).1 lj), ⟨a1, rfl, a4⟩, ⟨a2, a3.symm, a5⟩, a7 H f h1 h2⟩

theorem perm_atoms : (∀ i, i + 1 < n → (permGerm n).atom (sg n i)) ∧ ∀ s, (permGerm n).atom s → ∃ i, i + 1 < n ∧ sg n i = s :=
  ⟨fun _ h => permGerm_atom h, fun _ ⟨i, hi, e⟩ => ⟨i, hi, e.symm⟩⟩

/-- Every permutation has a reduced word. -/
theorem exists_reduced (π : Perm (Fin n)) : ∃ w, IsReduced w π :=
  Germ.exists_red perm_atoms.1 perm_atoms.2 (permGerm_P π)

/-- **Matsumoto**: all reduced words of a permutation spell the same braid. -/
theorem lift_eq_posWord {π : Perm (Fin n)} {w : List Nat} (h : IsReduced w π) : lift π = posWord n w := by
  have hex : ∃ w, IsReduced w π := ⟨w, h⟩
  rw [lift, dif_pos hex]
  exact Germ.matsumoto perm_atoms.1 perm_atoms.2 (joinCond (sigma n) sigma_comm sigma_braid) (permGerm_P π) hex.choose_spec h

theorem lift_hom : (permGerm n).GermHom (lift (n := n)) :=
  Germ.germHom_of_matsumoto perm_atoms.1 perm_atoms.2 (joinCond (sigma n) sigma_comm sigma_braid) fun _ _ _ h => lift_eq_posWord h

theorem lift_sg {i : Nat} (h : i + 1 < n) : lift (sg n i) = sigma n i := by
  rw [lift_eq_posWord (w := [i]) ⟨by simpa using h, by simp [coxProd], by simp [inv_sg h]⟩]; simp [posWord]

/-- A function on generators satisfying the braid relations extends to the braid group. -/
theorem braid_lift {H : Type} [Group H] (f : Nat → H) (h1 : ∀ i j, j + 1 < n → i + 2 ≤ j → f i * f j = f j * f i)
    (h2 : ∀ i, i + 1 + 1 < n → f i * f (i + 1) * f i = f (i + 1) * f i * f (i + 1)) :
    ∃ φ : Braid n →* H, ∀ i, i + 1 < n → φ (sigma n i) = f i := by
  have hr : ∀ r ∈ artinRels n, FreeGroup.lift (fun i : Fin (n - 1) => f i) r = 1 := by
    rintro r (⟨i, j, hij, rfl⟩ | ⟨i, j, hij, rfl⟩)
    · simp only [map_mul, map_inv, FreeGroup.lift_apply_of]
      rw [mul_inv_eq_one]; exact h1 i j (by omega) hij
    · simp only [map_mul, map_inv, FreeGroup.lift_apply_of]
      rw [mul_inv_eq_one, ← hij]; exact h2 i (by omega)
  refine ⟨PresentedGroup.toGroup hr, fun i hi => ?_⟩
  rw [sigma_eq (by omega : i < n - 1), PresentedGroup.toGroup.of]

theorem perm_D_ne (h : 2 ≤ n) : (permGerm n).D ≠ 1 := by
  intro e
  have : w0 n ⟨0, by omega⟩ = ⟨0, by omega⟩ := by
    have : w0 n = 1 := e
    rw [this]; rfl
  simp [w0, Fin.ext_iff, Fin.rev] at this
  omega

theorem perm_faithful (hD : (permGerm n).D ≠ 1) :
    ∃ φ : Braid n →* (Equiv.Perm (permGerm n).X)ᵐᵒᵖ, ∀ x, (permGerm n).P x → φ (lift x) = Germ.act hD x := by
  have hom := Germ.act_germHom hD
  -- reduced words are sent to the product of the images of their letters
  have key : ∀ (w : List Nat) (π : Perm (Fin n)), IsReduced w π → Germ.act hD π = (w.map fun i => Germ.act hD (sg n i)).prod := by
    intro w
    induction w with
    | nil =>
      rintro π ⟨-, h, -⟩
      rw [← h, coxProd_nil]; simpa using hom.one
    | cons i w ih =>
      intro π h
      have hi := h.1 i (by simp)
      have c := Germ.Red.cons (g := permGerm n) (ok := fun i => i + 1 < n) perm_atoms.1 h
      rw [List.map_cons, List.prod_cons, ← ih _ c.2]
      exact (hom.div c.1 (permGerm_P π)).symm
  obtain ⟨φ, hφ⟩ := braid_lift (n := n) (fun i => Germ.act hD (sg n i))
    (by
      intro i j hj h
      have r1 : IsReduced [i, j] (sg n i * sg n j) := ⟨by simp; omega, by simp [coxProd], by rw [inv_comm2 (by omega) hj (Or.inl h)]; rfl⟩
      have r2 : IsReduced [j, i] (sg n i * sg n j) := ⟨by simp; omega, by simp [coxProd, sg_comm (by omega : i + 1 < n) hj (Or.inl h)], by rw [inv_comm2 (by omega) hj (Or.inl h)]; rfl⟩
      simpa using (key _ _ r1).symm.trans (key _ _ r2))
    (by
      intro i h
      have r1 : IsReduced [i, i + 1, i] (sg n i * (sg n (i + 1) * sg n i)) := ⟨by simp; omega, by simp [coxProd], by rw [inv_braid3 h]; rfl⟩
      have r2 : IsReduced [i + 1, i, i + 1] (sg n i * (sg n (i + 1) * sg n i)) := ⟨by simp; omega, by simpa [coxProd, mul_assoc] using (sg_braid h).symm, by rw [inv_braid3 h]; rfl⟩
      simpa [mul_assoc] using (key _ _ r1).symm.trans (key _ _ r2))
  refine ⟨φ, fun x _ => ?_⟩
  obtain ⟨w, hw⟩ := exists_reduced x
  rw [lift_eq_posWord hw, key w x hw, posWord, map_list_prod, List.map_map]
  congr 1
  apply List.map_congr_left
  intro i hi
  exact hφ i (hw.1 i hi)

end Peyl
