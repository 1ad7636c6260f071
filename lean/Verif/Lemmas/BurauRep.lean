import Verif.Lemmas.CellModule
import Verif.Lemmas.BraidHom
import Verif.Lemmas.PermGerm
import Mathlib.Algebra.Polynomial.Laurent
/-!
# The reduced Burau representation over a commutative ring
-/
namespace Peyl
namespace Bur
open _root_.Matrix
variable {R S : Type*} [CommRing R] [CommRing S] {m n : Nat}

/-- The form: `δ` on the diagonal, `1` beside it. -/
def J (δ : R) (m : Nat) : _root_.Matrix (Fin m) (Fin m) R := fun i j => if i = j then δ else if i.val + 1 = j.val ∨ j.val + 1 = i.val then 1 else 0

/-- The Temperley–Lieb generator `e_i`. -/
def E (δ : R) (i : Fin m) : _root_.Matrix (Fin m) (Fin m) R := vecMulVec (Pi.single i 1) (J δ m i)

theorem E_apply (δ : R) (i a c : Fin m) : E δ i a c = if a = i then J δ m i c else 0 := by
  simp only [E, vecMulVec_apply, Pi.single_apply, ite_mul, one_mul, zero_mul]

theorem J_symm (δ : R) (i j : Fin m) : J δ m i j = J δ m j i := by
  simp only [J, eq_comm (a := i) (b := j), or_comm (a := i.val + 1 = j.val)]

theorem J_self (δ : R) (i : Fin m) : J δ m i i = δ := by simp [J]

theorem J_adj (δ : R) {i j : Fin m} (h : i.val + 1 = j.val ∨ j.val + 1 = i.val) : J δ m i j = 1 := by
  rw [J, if_neg (by rintro rfl; omega), if_pos h]

theorem J_far (δ : R) {i j : Fin m} (h : i.val + 2 ≤ j.val ∨ j.val + 2 ≤ i.val) : J δ m i j = 0 := by
  rw [J, if_neg (by rintro rfl; omega), if_neg (by omega)]

theorem E_mul (δ : R) (i j : Fin m) : E δ i * E δ j = J δ m i j • vecMulVec (Pi.single i 1) (J δ m j) := by
  rw [E, E, vecMulVec_mul_vecMulVec]
  simp [dotProduct_single, vecMulVec_smul]

theorem E_sq (δ : R) (i : Fin m) : E δ i * E δ i = δ • E δ i := by rw [E_mul, J_self]; rfl

theorem E_far (δ : R) {i j : Fin m} (h : i.val + 2 ≤ j.val ∨ j.val + 2 ≤ i.val) : E δ i * E δ j = 0 := by rw [E_mul, J_far δ h, zero_smul]

theorem E_adj (δ : R) {i j : Fin m} (h : i.val + 1 = j.val ∨ j.val + 1 = i.val) : E δ i * E δ j * E δ i = E δ i := by
  rw [E_mul, J_adj δ h, one_smul, E, vecMulVec_mul_vecMulVec]
  simp [dotProduct_single, vecMulVec_smul, J_adj δ h.symm]

/-- The matrix of `σ_i`. -/
def gen (v : Rˣ) (i : Fin m) : _root_.Matrix (Fin m) (Fin m) R := 1 - (v : R) • E ((v : R) + (v⁻¹ : Rˣ)) i

theorem gen_inv (v : Rˣ) (i : Fin m) : gen v i * gen v⁻¹ i = 1 := by
  have := (tl_inv (v := (v : R)) (vi := ((v⁻¹ : Rˣ) : R)) (by simp) (E_sq ((v : R) + (v⁻¹ : Rˣ)) i)).1
  rw [gen, gen, _root_.inv_inv, add_comm (((v⁻¹ : Rˣ) : R)) (v : R)]; exact this

theorem exists_hom (n : Nat) (v : Rˣ) : ∃ ρ : Braid n →* _root_.Matrix (Fin (n - 1)) (Fin (n - 1)) R,
    ∀ i (h : i < n - 1), ρ (sigma n i) = gen v ⟨i, h⟩ ∧ ρ (sigma n i)⁻¹ = gen v⁻¹ ⟨i, h⟩ := by
  obtain ⟨ρ, hρ⟩ := exists_braidHom (M := _root_.Matrix (Fin (n - 1)) (Fin (n - 1)) R) n
    (fun i => if h : i < n - 1 then gen v ⟨i, h⟩ else 1) (fun i => if h : i < n - 1 then gen v⁻¹ ⟨i, h⟩ else 1)
    (fun i hi => by rw [dif_pos (by omega), dif_pos (by omega), gen_inv])
    (fun i hi => by
      rw [dif_pos (by omega), dif_pos (by omega)]
      have := gen_inv v⁻¹ (⟨i, by omega⟩ : Fin (n - 1))
      rwa [_root_.inv_inv] at this)
    (fun i j hij hj => by
      rw [dif_pos (by omega), dif_pos (by omega)]
      have h1 := E_far ((v : R) + (v⁻¹ : Rˣ)) (i := (⟨i, by omega⟩ : Fin (n - 1))) (j := ⟨j, by omega⟩) (Or.inl hij)
      have h2 := E_far ((v : R) + (v⁻¹ : Rˣ)) (i := (⟨j, by omega⟩ : Fin (n - 1))) (j := ⟨i, by omega⟩) (Or.inr hij)
      simp only [gen, sub_mul, mul_sub, one_mul, mul_one, smul_mul_smul_comm, h1, h2]
      abel)
    (fun i hi => by
      rw [dif_pos (by omega), dif_pos (by omega)]
      exact tl_braid (by simp) (E_sq _ _) (E_sq _ _) (E_adj _ (Or.inl rfl)) (E_adj _ (Or.inr rfl)))
  exact ⟨ρ, fun i h => by have := hρ i (by omega); rwa [dif_pos h, dif_pos h] at this⟩

/-- The reduced Burau representation. -/
noncomputable def rep (n : Nat) (v : Rˣ) : Braid n →* _root_.Matrix (Fin (n - 1)) (Fin (n - 1)) R := (exists_hom n v).choose

theorem rep_sigma (v : Rˣ) {i : Nat} (h : i < n - 1) : rep n v (sigma n i) = gen v ⟨i, h⟩ := ((exists_hom n v).choose_spec i h).1
theorem rep_sigma_inv (v : Rˣ) {i : Nat} (h : i < n - 1) : rep n v (sigma n i)⁻¹ = gen v⁻¹ ⟨i, h⟩ := ((exists_hom n v).choose_spec i h).2

/-- Induction over braids. -/
theorem braid_induction {P : Braid n → Prop} (one : P 1) (mul : ∀ i b, i < n - 1 → P b → P (sigma n i * b)) (inv : ∀ i b, i < n - 1 → P b → P ((sigma n i)⁻¹ * b))
    (b : Braid n) : P b := by
  have hb : b ∈ Subgroup.closure (Set.range (PresentedGroup.of (rels := artinRels n))) := by
    rw [PresentedGroup.closure_range_of]; trivial
  refine Subgroup.closure_induction_left (p := fun b _ => P b) one (fun x hx y _ hy => ?_) (fun x hx y _ hy => ?_) hb
  · obtain ⟨i, rfl⟩ := hx
    rw [← sigma_eq i.2]; exact mul i y i.2 hy
  · obtain ⟨i, rfl⟩ := hx
    rw [← sigma_eq i.2]; exact inv i y i.2 hy

theorem hom_ext {M : Type*} [Monoid M] {f g : Braid n →* M} (h : ∀ i, i < n - 1 → f (sigma n i) = g (sigma n i)) (b : Braid n) : f b = g b := by
  have hi : ∀ i, i < n - 1 → f (sigma n i)⁻¹ = g (sigma n i)⁻¹ := fun i hi =>
    left_inv_eq_right_inv (a := f (sigma n i)) (by rw [← map_mul, inv_mul_cancel, map_one]) (by rw [h i hi, ← map_mul, mul_inv_cancel, map_one])
  induction b using braid_induction with
  | one => simp
  | mul i b hb ih => rw [map_mul, map_mul, ih, h i hb]
  | inv i b hb ih => rw [map_mul, map_mul, ih, hi i hb]

theorem J_map (f : R →+* S) (δ : R) (i j : Fin m) : f (J δ m i j) = J (f δ) m i j := by
  simp only [J]; split_ifs <;> simp

theorem gen_map (f : R →+* S) (v : Rˣ) (i : Fin m) : (gen v i).map f = gen (Units.map f v) i := by
  ext a c
  simp only [gen, _root_.Matrix.map_apply, _root_.Matrix.sub_apply, _root_.Matrix.smul_apply, smul_eq_mul, E_apply, _root_.Matrix.one_apply, map_sub, map_mul]
  congr 1
  · split_ifs <;> simp
  · congr 1
    split_ifs
    · rw [J_map, map_add]; rfl
    · simp

/-- Change of rings. -/
theorem rep_map (f : R →+* S) (v : Rˣ) (b : Braid n) : (rep n v b).map f = rep n (Units.map f v) b := by
  induction b using braid_induction with
  | one => simp
  | mul i b hi ih => rw [map_mul, map_mul, _root_.Matrix.map_mul, ih, rep_sigma _ hi, rep_sigma _ hi, gen_map]
  | inv i b hi ih => rw [map_mul, map_mul, _root_.Matrix.map_mul, ih, rep_sigma_inv _ hi, rep_sigma_inv _ hi, gen_map, map_inv]

/-- Unitarity. -/
theorem unitary (v : Rˣ) (b : Braid n) : (rep n v⁻¹ b)ᵀ * J ((v : R) + (v⁻¹ : Rˣ)) (n - 1) * rep n v b = J ((v : R) + (v⁻¹ : Rˣ)) (n - 1) := by
  set δ : R := (v : R) + (v⁻¹ : Rˣ) with hδ
  have hE : ∀ i : Fin (n - 1), (E δ i)ᵀ * J δ (n - 1) = J δ (n - 1) * E δ i := by
    intro i
    ext a c
    simp only [mul_apply, transpose_apply, E_apply, ite_mul, zero_mul, mul_ite, mul_zero, Finset.sum_ite_eq', Finset.mem_univ, if_true]
    rw [J_symm δ a i]
  have key : ∀ (w : Rˣ) (i : Fin (n - 1)), (w : R) + (w⁻¹ : Rˣ) = δ → (gen w⁻¹ i)ᵀ * J δ (n - 1) * gen w i = J δ (n - 1) := by
    intro w i hw
    have e : gen w⁻¹ i = 1 - ((w⁻¹ : Rˣ) : R) • E δ i := by rw [gen, _root_.inv_inv, add_comm, hw]
    rw [e, gen, hw, transpose_sub, transpose_one, transpose_smul, sub_mul, one_mul, smul_mul_assoc, hE]
    have h1 := (tl_inv (v := (w : R)) (vi := ((w⁻¹ : Rˣ) : R)) (by simp) (by rw [hw]; exact E_sq δ i)).2
    rw [← mul_smul_comm, ← mul_one (J δ (n - 1)), mul_assoc, one_mul, ← mul_sub, mul_assoc, h1]
  induction b using braid_induction with
  | one => simp
  | mul i b hi ih =>
    rw [map_mul, map_mul, rep_sigma _ hi, rep_sigma _ hi, transpose_mul, ← mul_assoc, mul_assoc _ _ (J δ (n - 1)), mul_assoc _ (_ * _) (gen _ _), key v ⟨i, hi⟩ rfl, ih]
  | inv i b hi ih =>
    have := key v⁻¹ ⟨i, hi⟩ (by rw [_root_.inv_inv, add_comm])
    rw [map_mul, map_mul, rep_sigma_inv _ hi, rep_sigma_inv _ hi, transpose_mul, ← mul_assoc, mul_assoc _ _ (J δ (n - 1)), mul_assoc _ (_ * _) (gen _ _), this, ih]

/-- `1` for `x ≤ a`. -/
def ind (x : Fin n) (a : Nat) : R := if x.val ≤ a then 1 else 0

/-- The matrix of a permutation on the simple roots. -/
def refl (w : Equiv.Perm (Fin n)) : _root_.Matrix (Fin (n - 1)) (Fin (n - 1)) R := fun i j =>
  ind (w ⟨j, by omega⟩) i - ind (w ⟨j + 1, by omega⟩) i

theorem J_mulVec (δ : R) (x : Fin m → R) (i : Fin m) : (J δ m *ᵥ x) i = δ * x i + (if h : i.val + 1 < m then x ⟨i + 1, h⟩ else 0) +
    (if h : 0 < i.val then x ⟨i - 1, by omega⟩ else 0) := by
  have e : ∀ j, J δ m i j * x j = (if j = i then δ * x i else 0) + (if j.val = i.val + 1 then x j else 0) + (if j.val + 1 = i.val then x j else 0) := by
    intro j
    rw [J]
    by_cases h1 : i = j
    · subst h1; simp
    · have : j.val ≠ i.val := fun e => h1 (Fin.ext e.symm)
      rw [if_neg h1, if_neg (c := j = i) (fun e => h1 e.symm)]
      by_cases h2 : j.val = i.val + 1
      · rw [if_pos (Or.inl h2.symm), if_pos h2, if_neg (by omega)]; ring
      · by_cases h3 : j.val + 1 = i.val
        · rw [if_pos (Or.inr h3), if_neg h2, if_pos h3]; ring
        · rw [if_neg (by omega), if_neg h2, if_neg h3]; ring
  rw [mulVec, dotProduct, Finset.sum_congr rfl fun j _ => e j, Finset.sum_add_distrib, Finset.sum_add_distrib]
  congr 1
  · congr 1
    · simp
    · split_ifs with h
      · rw [Finset.sum_eq_single ⟨i + 1, h⟩]
        · simp
        · intro j _ hj; rw [if_neg fun e => hj (Fin.ext e)]
        · simp
      · exact Finset.sum_eq_zero fun j _ => by rw [if_neg (by omega)]
  · split_ifs with h
    · rw [Finset.sum_eq_single ⟨i - 1, by omega⟩]
      · rw [if_pos (by simp; omega)]
      · intro j _ hj; rw [if_neg fun e => hj (Fin.ext (by simp; omega))]
      · simp
    · exact Finset.sum_eq_zero fun j _ => by rw [if_neg (by omega)]

theorem E_mulVec (δ : R) (i : Fin m) (x : Fin m → R) : E δ i *ᵥ x = Pi.single i ((J δ m *ᵥ x) i) := by
  funext a
  simp only [mulVec, dotProduct, E_apply, Pi.single_apply, ite_mul, zero_mul]
  split_ifs <;> simp

theorem gen_mulVec (v : Rˣ) (i : Fin m) (x : Fin m → R) : gen v i *ᵥ x = x - (v : R) • Pi.single i ((J ((v : R) + (v⁻¹ : Rˣ)) m *ᵥ x) i) := by
  rw [gen, sub_mulVec, one_mulVec, smul_mulVec, E_mulVec]

theorem sg_ind (x : Fin n) {i a : Nat} (h : i < n - 1) : (ind (sg n i x) a : R) = if a = i then
    ind x (a + 1) + (if 0 < a then ind x (a - 1) else 0) - ind x a else ind x a := by
  have hs : (sg n i x).val = if x.val = i then i + 1 else if x.val = i + 1 then i else x.val := by
    rw [sg, dif_pos (by omega), Equiv.swap_apply_def]
    simp only [Fin.ext_iff]
    split_ifs <;> rfl
  simp only [ind]
  rw [hs]
  split_ifs <;> first | (exfalso; omega) | ring

theorem ind_last (x : Fin n) {a : Nat} (h : n ≤ a + 1) : (ind x a : R) = 1 := by rw [ind, if_pos (by omega)]

theorem gen_neg_one_refl (w : Equiv.Perm (Fin n)) {i : Nat} (h : i < n - 1) : (gen (-1 : Rˣ) ⟨i, h⟩ * refl w : _root_.Matrix (Fin (n - 1)) (Fin (n - 1)) R) = refl (sg n i * w) := by
  ext a c
  have h1 : (gen (-1 : Rˣ) (⟨i, h⟩ : Fin (n - 1)) * refl w : _root_.Matrix (Fin (n - 1)) (Fin (n - 1)) R) a c = (gen (-1 : Rˣ) (⟨i, h⟩ : Fin (n - 1)) *ᵥ fun j => refl w j c) a := rfl
  rw [h1, gen_mulVec, Pi.sub_apply, Pi.smul_apply, J_mulVec]
  simp only [Pi.single_apply, refl, Equiv.Perm.mul_apply]
  rw [sg_ind _ h, sg_ind _ h]
  generalize w ⟨c, _⟩ = x
  generalize w ⟨c + 1, _⟩ = y
  by_cases ha : a = ⟨i, h⟩
  · subst ha
    simp only [if_true, Units.val_neg, Units.val_one, inv_neg, _root_.inv_one, smul_eq_mul]
    by_cases h2 : i + 1 < n - 1
    · rw [dif_pos h2]
      split_ifs <;> ring
    · rw [dif_neg h2, ind_last x (a := i + 1) (by omega), ind_last y (a := i + 1) (by omega)]
      split_ifs <;> ring
  · have : a.val ≠ i := fun e => ha (Fin.ext e)
    rw [if_neg ha, if_neg this, if_neg this]; simp

theorem refl_one : (refl (1 : Equiv.Perm (Fin n)) : _root_.Matrix (Fin (n - 1)) (Fin (n - 1)) R) = 1 := by
  ext a c
  rw [_root_.Matrix.one_apply]
  show ((if c.val ≤ a.val then 1 else 0) - (if c.val + 1 ≤ a.val then 1 else 0) : R) = _
  rcases lt_trichotomy a.val c.val with h | h | h
  · rw [if_neg (by omega), if_neg (by omega), if_neg (by rintro rfl; omega), sub_zero]
  · rw [if_pos (by omega), if_neg (by omega), if_pos (Fin.ext h), sub_zero]
  · rw [if_pos (by omega), if_pos (by omega), if_neg (by rintro rfl; omega), sub_self]

theorem refl_w0 (i j : Fin (n - 1)) : (refl (w0 n) : _root_.Matrix (Fin (n - 1)) (Fin (n - 1)) R) i j = if i.val + j.val = n - 2 then -1 else 0 := by
  simp only [refl, ind, w0, Fin.revPerm_apply, Fin.val_rev]
  split_ifs <;> first | (exfalso; omega) | ring

/-- At `v = -1` the representation is that of the symmetric group on the simple roots. -/
theorem rep_neg_one (b : Braid n) : ∃ w : Equiv.Perm (Fin n), (rep n (-1 : Rˣ) b : _root_.Matrix (Fin (n - 1)) (Fin (n - 1)) R) = refl w := by
  induction b using braid_induction with
  | one => exact ⟨1, by rw [map_one, refl_one]⟩
  | mul i b hi ih =>
    obtain ⟨w, hw⟩ := ih
    exact ⟨sg n i * w, by rw [map_mul, hw, rep_sigma _ hi, gen_neg_one_refl]⟩
  | inv i b hi ih =>
    obtain ⟨w, hw⟩ := ih
    refine ⟨sg n i * w, by rw [map_mul, hw, rep_sigma_inv _ hi, ← gen_neg_one_refl w hi, inv_neg, _root_.inv_one]⟩

/-- A permutation whose matrix on the simple roots is orthogonal is monotone. -/
theorem refl_orth [Nontrivial R] (w : Equiv.Perm (Fin n)) (h : (refl w : _root_.Matrix (Fin (n - 1)) (Fin (n - 1)) R)ᵀ * refl w = 1) {j : Nat} (hj : j + 2 < n) :
    (w ⟨j, by omega⟩ < w ⟨j + 1, by omega⟩ ↔ w ⟨j + 1, by omega⟩ < w ⟨j + 2, by omega⟩) := by
  have hne1 : w ⟨j, by omega⟩ ≠ w ⟨j + 1, by omega⟩ := by rw [Ne, w.injective.eq_iff, Fin.mk.injEq]; omega
  have hne2 : w ⟨j + 1, by omega⟩ ≠ w ⟨j + 2, by omega⟩ := by rw [Ne, w.injective.eq_iff, Fin.mk.injEq]; omega
  have e11 := congrFun (congrFun h ⟨j, by omega⟩) ⟨j, by omega⟩
  have e22 := congrFun (congrFun h ⟨j + 1, by omega⟩) ⟨j + 1, by omega⟩
  have e12 := congrFun (congrFun h ⟨j, by omega⟩) ⟨j + 1, by omega⟩
  rw [mul_apply, one_apply_eq] at e11 e22
  rw [mul_apply, one_apply_ne (by simp)] at e12
  simp only [transpose_apply, refl, ind] at e11 e22 e12
  generalize w ⟨j, by omega⟩ = x at *
  generalize w ⟨j + 1, by omega⟩ = y at *
  generalize w ⟨j + 2, by omega⟩ = z at *
  by_contra hc
  have hlt : (x < y ∧ z < y) ∨ (y < x ∧ y < z) := by
    rcases lt_or_gt_of_ne hne1 with q | q <;> rcases lt_or_gt_of_ne hne2 with q' | q' <;> simp_all [not_lt_of_gt]
  have key : ∀ (f g : Fin (n - 1) → R), (∑ i, f i * f i = 1) → (∑ i, g i * g i = 1) → (∑ i, f i * g i = 0) → 
      ((∀ i, f i * g i = - (f i * f i)) ∨ (∀ i, f i * g i = - (g i * g i))) → False := by
    intro f g h1 h2 h3 h4
    rcases h4 with h4 | h4 <;> rw [Finset.sum_congr rfl fun i _ => h4 i, Finset.sum_neg_distrib] at h3 <;> simp_all
  refine key _ _ e11 e22 e12 ?_
  rcases le_total x z with hz | hz <;> rcases hlt with ⟨q1, q2⟩ | ⟨q1, q2⟩
  · right; intro i; simp only [Fin.lt_def, Fin.le_def] at *; split_ifs <;> first | (exfalso; omega) | ring
  · left; intro i; simp only [Fin.lt_def, Fin.le_def] at *; split_ifs <;> first | (exfalso; omega) | ring
  · left; intro i; simp only [Fin.lt_def, Fin.le_def] at *; split_ifs <;> first | (exfalso; omega) | ring
  · right; intro i; simp only [Fin.lt_def, Fin.le_def] at *; split_ifs <;> first | (exfalso; omega) | ring

end Bur
end Peyl
