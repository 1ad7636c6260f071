import Verif.Lemmas.BurauCell
import Verif.Lemmas.KernelWords
/-!
# Cell representations at `v = 1`, and the representation (4, 2)
-/
namespace Peyl
namespace CellNear
open _root_.Matrix TL Jones LaurentPolynomial Bur

theorem realises_cell {n r p : Nat} (hn : 1 ≤ n) (hr : 2 * r ≤ n) {G I : List Matrix} (hrep : cellRep n r p = .ok ⟨n, p, G, I⟩) {ρ : Braid n →* LMat p (dimension n r)}
    (H : Realises (⟨n, p, G, I⟩ : RepBase (dimension n r)) ρ) :
    ∃ β : Fin (dimension n r) → List Nat, IsBasis n (n - 2 * r) β ∧ ∀ i, i + 1 < n →
      ρ (sigma n i) = 1 - (T 1 : (ZMod p)[T;T⁻¹]) • Emat (T 1 + T (-1)) β (n - 2 * r + (n - 2 - i)) ∧
      ρ (sigma n i)⁻¹ = 1 - (T (-1) : (ZMod p)[T;T⁻¹]) • Emat (T 1 + T (-1)) β (n - 2 * r + (n - 2 - i)) := by
  obtain ⟨β, A, A', h1, h2, h3⟩ := cellRep_spec (n := n) (r := r) (p := p) hn hr
  rw [hrep] at h2
  obtain ⟨rfl, rfl⟩ : G = (List.range (n - 1)).map A ∧ I = (List.range (n - 1)).map A' := by
    injection h2 with h2; injection h2 with _ _ a b; exact ⟨a, b⟩
  refine ⟨β, h1, fun i hi => ⟨?_, ?_⟩⟩
  · have := (H.gens i (by simp; omega)).2.2
    simp only [List.getElem_map, List.getElem_range] at this
    rw [← this, (h3 i (by omega)).1.2.2]
  · have := (H.invs i (by simp; omega)).2.2
    simp only [List.getElem_map, List.getElem_range] at this
    rw [← this, (h3 i (by omega)).2.2.2]

/-- Setting `v = 1`. -/
noncomputable def ev1 (K : Type*) [CommRing K] : K[T;T⁻¹] →+* K := eval₂ (RingHom.id K) 1

theorem ev1_T {K : Type*} [CommRing K] (k : ℤ) : ev1 K (T k) = 1 := by rw [ev1, eval₂_T, one_zpow, Units.val_one]

theorem ev1_C {K : Type*} [CommRing K] (a : K) : ev1 K (C a) = a := by rw [ev1, eval₂_C]; rfl

/-- The permutation of a braid. -/
theorem exists_perm (n : Nat) : ∃ φ : Braid n →* Equiv.Perm (Fin n), ∀ i, i + 1 < n → φ (sigma n i) = sg n i :=
  braid_lift (sg n) (fun i j hj h => sg_comm (by omega) hj (.inl h)) fun i h => sg_braid h

/-- A homomorphism that kills the squares of the generators depends only on the permutation of the braid. -/
theorem hom_perm {n : Nat} {M : Type*} [Monoid M] (f : Braid n →* M) (hf : ∀ i, i + 1 < n → f (sigma n i) * f (sigma n i) = 1) {φ : Braid n →* Equiv.Perm (Fin n)}
    (hφ : ∀ i, i + 1 < n → φ (sigma n i) = sg n i) (b : Braid n) : f b = f (lift (φ b)) := by
  have key : ∀ i (π : Equiv.Perm (Fin n)), i + 1 < n → f (sigma n i) * f (lift π) = f (lift (sg n i * π)) := by
    intro i π hi
    have up : ∀ σ : Equiv.Perm (Fin n), σ⁻¹ ⟨i, by omega⟩ < σ⁻¹ ⟨i + 1, hi⟩ → lift (sg n i * σ) = sigma n i * lift σ := by
      intro σ h
      have hlen := inv_sg_mul_up σ hi h
      obtain ⟨w, w1, w2, w3⟩ := exists_reduced σ
      rw [lift_eq_posWord (w := w) ⟨w1, w2, w3⟩, lift_eq_posWord (w := i :: w) ⟨by simpa using ⟨hi, w1⟩, by
        rw [← w2, coxProd, coxProd, List.map_cons, List.prod_cons], by rw [List.length_cons]; omega⟩]
      simp [posWord]
    have hss : sg n i * (sg n i * π) = π := by
      rw [← mul_assoc, show sg n i * sg n i = 1 by rw [mul_eq_one_iff_eq_inv, sg_inv], one_mul]
    rcases lt_trichotomy (π⁻¹ ⟨i, by omega⟩) (π⁻¹ ⟨i + 1, hi⟩) with h | h | h
    · rw [up π h, map_mul]
    · have := π⁻¹.injective h
      simp at this
    · have := up (sg n i * π) (by
        rw [_root_.mul_inv_rev, sg_inv, Equiv.Perm.mul_apply, Equiv.Perm.mul_apply, sg_apply_left hi, sg_apply_right hi]; exact h)
      rw [hss] at this
      rw [this, map_mul, ← mul_assoc, hf i hi, one_mul]
  have hinv : ∀ i, i + 1 < n → f (sigma n i)⁻¹ = f (sigma n i) := fun i hi =>
    left_inv_eq_right_inv (a := f (sigma n i)) (by rw [← map_mul, inv_mul_cancel, map_one]) (hf i hi)
  induction b using braid_induction with
  | one =>
    rw [map_one, map_one, lift_eq_posWord (w := []) ⟨by simp, by simp [coxProd], ?_⟩]
    · simp [posWord]
    · exact (inv_eq_zero.2 rfl).symm
  | mul i b hi ih => rw [map_mul, ih, key i _ (by omega), map_mul, hφ i (by omega)]
  | inv i b hi ih => rw [map_mul, ih, hinv i (by omega), key i _ (by omega), map_mul, map_inv, hφ i (by omega), sg_inv]

/-- At `v = 1` the representation factors through the symmetric group. -/
theorem at_one {n r p : Nat} (hn : 1 ≤ n) (hr : 2 * r ≤ n) {G I : List Matrix} (hrep : cellRep n r p = .ok ⟨n, p, G, I⟩) {ρ : Braid n →* LMat p (dimension n r)}
    (H : Realises (⟨n, p, G, I⟩ : RepBase (dimension n r)) ρ) {φ : Braid n →* Equiv.Perm (Fin n)} (hφ : ∀ i, i + 1 < n → φ (sigma n i) = sg n i)
    {b : Braid n} (hb : φ b = 1) : (ρ b).map (ev1 (ZMod p)) = 1 := by
  obtain ⟨β, -, h2⟩ := realises_cell hn hr hrep H
  let f : Braid n →* _root_.Matrix (Fin (dimension n r)) (Fin (dimension n r)) (ZMod p) := ((ev1 (ZMod p)).mapMatrix.toMonoidHom).comp ρ
  have hf : ∀ b, f b = (ρ b).map (ev1 (ZMod p)) := fun b => rfl
  have hinv : ∀ i, i + 1 < n → f (sigma n i)⁻¹ = f (sigma n i) := by
    intro i hi
    rw [hf, hf, (h2 i hi).1, (h2 i hi).2]
    ext x y
    simp only [_root_.Matrix.map_apply, _root_.Matrix.sub_apply, _root_.Matrix.smul_apply, smul_eq_mul, map_sub, map_mul, ev1_T]
  have hsq : ∀ i, i + 1 < n → f (sigma n i) * f (sigma n i) = 1 := fun i hi => by
    have : f (sigma n i)⁻¹ * f (sigma n i) = 1 := by rw [← map_mul, inv_mul_cancel, map_one]
    rwa [hinv i hi] at this
  rw [← hf, hom_perm f hsq hφ b, hb, ← map_one φ, ← hom_perm f hsq hφ 1, map_one]

/-- The trivial representation. -/
theorem trivial {n p : Nat} (hn : 1 ≤ n) {G I : List Matrix} (hrep : cellRep n 0 p = .ok ⟨n, p, G, I⟩) {ρ : Braid n →* LMat p (dimension n 0)}
    (H : Realises (⟨n, p, G, I⟩ : RepBase (dimension n 0)) ρ) (b : Braid n) : ρ b = 1 := by
  obtain ⟨β, h1, h2⟩ := realises_cell hn (by omega) hrep H
  rw [show n - 2 * 0 = n by omega] at h1 h2
  refine hom_ext (f := ρ) (g := 1) (fun i hi => ?_) b
  rw [(h2 i (by omega)).1]
  have : Emat (T 1 + T (-1) : (ZMod p)[T;T⁻¹]) β (n + (n - 2 - i)) = 0 := by
    refine _root_.Matrix.ext fun a c => ?_
    rw [Emat, if_neg]
    · rfl
    intro e
    have hc := h1.cell a
    have hlen := (h1.cell c).len
    have hk : at_ (β a) (n + (n - 2 - i)) = n + (n - 2 - i) + 1 := by
      rw [← e, at_actSeq _ _ _ (by rw [hlen]; omega), cupCap, if_pos rfl]
    have hlt : ∀ x : Fin n, at_ (β a) x - n < n := fun x => by
      have := hc.nc.lt x (by rw [hc.len]; omega)
      rw [hc.len] at this
      have := hc.up x x.2
      omega
    have inj : Function.Injective fun x : Fin n => (⟨at_ (β a) x - n, hlt x⟩ : Fin n) := by
      intro x y hxy
      have hx := hc.up x x.2
      have hy := hc.up y y.2
      have e1 : at_ (β a) x = at_ (β a) y := by have := Fin.mk.inj hxy; omega
      have h3 := hc.nc.invol x (by rw [hc.len]; omega)
      have h4 := hc.nc.invol y (by rw [hc.len]; omega)
      rw [e1, h4] at h3
      exact Fin.ext h3.symm
    obtain ⟨x, hx⟩ := (Finite.injective_iff_surjective.1 inj) ⟨n - 2 - i, by omega⟩
    have hx' := Fin.mk.inj hx
    have h3 := hc.nc.invol x (by rw [hc.len]; omega)
    have := hc.up x x.2
    rw [show at_ (β a) x = n + (n - 2 - i) by omega, hk] at h3
    omega
  rw [this, smul_zero, sub_zero]; rfl

def c0 : List Nat := [1, 0, 3, 2]
def c1 : List Nat := [3, 2, 1, 0]

theorem cell_c0 : Cell 4 0 c0 := by
  have h : ∀ x : Fin 4, at_ c0 x < 4 ∧ at_ c0 x ≠ x ∧ at_ c0 (at_ c0 x) = x := by decide
  have h' : ∀ a b : Fin 4, a.1 < b.1 → b.1 < at_ c0 a → at_ c0 a < at_ c0 b → False := by decide
  exact ⟨⟨fun i hi => (h ⟨i, hi⟩).1, fun i hi => (h ⟨i, hi⟩).2.1, fun i hi => (h ⟨i, hi⟩).2.2, fun a b ha hb => h' ⟨a, ha⟩ ⟨b, hb⟩⟩, rfl, fun i hi => by omega⟩

theorem cell_c1 : Cell 4 0 c1 := by
  have h : ∀ x : Fin 4, at_ c1 x < 4 ∧ at_ c1 x ≠ x ∧ at_ c1 (at_ c1 x) = x := by decide
  have h' : ∀ a b : Fin 4, a.1 < b.1 → b.1 < at_ c1 a → at_ c1 a < at_ c1 b → False := by decide
  exact ⟨⟨fun i hi => (h ⟨i, hi⟩).1, fun i hi => (h ⟨i, hi⟩).2.1, fun i hi => (h ⟨i, hi⟩).2.2, fun a b ha hb => h' ⟨a, ha⟩ ⟨b, hb⟩⟩, rfl, fun i hi => by omega⟩

/-- The matrices of the generators in (4, 2). -/
theorem four_two {R : Type*} [CommRing R] {v vi : R} (hv : v * vi = 1) {β : Fin 2 → List Nat} (h : IsBasis 4 0 β) :
    (1 - v • Emat (v + vi) β 0 : _root_.Matrix (Fin 2) (Fin 2) R) = 1 - v • Emat (v + vi) β 2 ∧
    (1 - v • Emat (v + vi) β 2 : _root_.Matrix (Fin 2) (Fin 2) R) * (1 - v • Emat (v + vi) β 1) * (1 - v • Emat (v + vi) β 2) = v ^ 3 • !![0, 1; 1, 0] := by
  have hβ : (β 0 = c0 ∧ β 1 = c1) ∨ (β 0 = c1 ∧ β 1 = c0) := by
    obtain ⟨a, ha⟩ := h.surj _ cell_c0
    obtain ⟨b, hb⟩ := h.surj _ cell_c1
    have hne : a ≠ b := by rintro rfl; rw [ha] at hb; exact absurd hb (by decide)
    fin_cases a <;> fin_cases b
    · exact absurd rfl hne
    · exact .inl ⟨ha, hb⟩
    · exact .inr ⟨hb, ha⟩
    · exact absurd rfl hne
  have e0 : actSeq 0 c0 = c0 ∧ actSeq 0 c1 = c0 ∧ actSeq 1 c0 = c1 ∧ actSeq 1 c1 = c1 ∧ actSeq 2 c0 = c0 ∧ actSeq 2 c1 = c0 := by decide
  have l0 : actLoops 0 c0 = 1 ∧ actLoops 0 c1 = 0 ∧ actLoops 1 c0 = 0 ∧ actLoops 1 c1 = 1 ∧ actLoops 2 c0 = 1 ∧ actLoops 2 c1 = 0 := by decide
  have n0 : c0 ≠ c1 := by decide
  have hvv : ∀ x : R, v * (vi * x) = x := fun x => by rw [← mul_assoc, hv, one_mul]
  rcases hβ with ⟨b0, b1⟩ | ⟨b0, b1⟩
  · have E0 : Emat (v + vi) β 0 = !![v + vi, 1; 0, 0] := by
      ext i j; fin_cases i <;> fin_cases j <;> simp [Emat, b0, b1, e0, l0, n0, n0.symm]
    have E1 : Emat (v + vi) β 1 = !![0, 0; 1, v + vi] := by
      ext i j; fin_cases i <;> fin_cases j <;> simp [Emat, b0, b1, e0, l0, n0, n0.symm]
    have E2 : Emat (v + vi) β 2 = !![v + vi, 1; 0, 0] := by
      ext i j; fin_cases i <;> fin_cases j <;> simp [Emat, b0, b1, e0, l0, n0, n0.symm]
    refine ⟨by rw [E0, E2], ?_⟩
    have A : (1 - v • Emat (v + vi) β 2 : _root_.Matrix (Fin 2) (Fin 2) R) = !![-v ^ 2, -v; 0, 1] := by
      rw [E2]; ext i j; fin_cases i <;> fin_cases j <;> simp <;> linear_combination -hv
    have B : (1 - v • Emat (v + vi) β 1 : _root_.Matrix (Fin 2) (Fin 2) R) = !![1, 0; -v, -v ^ 2] := by
      rw [E1]; ext i j; fin_cases i <;> fin_cases j <;> simp <;> linear_combination -hv
    rw [A, B]
    ext i j; fin_cases i <;> fin_cases j <;> simp [_root_.Matrix.mul_apply, Fin.sum_univ_two] <;> ring
  · have E0 : Emat (v + vi) β 0 = !![0, 0; 1, v + vi] := by
      ext i j; fin_cases i <;> fin_cases j <;> simp [Emat, b0, b1, e0, l0, n0, n0.symm]
    have E1 : Emat (v + vi) β 1 = !![v + vi, 1; 0, 0] := by
      ext i j; fin_cases i <;> fin_cases j <;> simp [Emat, b0, b1, e0, l0, n0, n0.symm]
    have E2 : Emat (v + vi) β 2 = !![0, 0; 1, v + vi] := by
      ext i j; fin_cases i <;> fin_cases j <;> simp [Emat, b0, b1, e0, l0, n0, n0.symm]
    refine ⟨by rw [E0, E2], ?_⟩
    have B : (1 - v • Emat (v + vi) β 1 : _root_.Matrix (Fin 2) (Fin 2) R) = !![-v ^ 2, -v; 0, 1] := by
      rw [E1]; ext i j; fin_cases i <;> fin_cases j <;> simp <;> linear_combination -hv
    have A : (1 - v • Emat (v + vi) β 2 : _root_.Matrix (Fin 2) (Fin 2) R) = !![1, 0; -v, -v ^ 2] := by
      rw [E2]; ext i j; fin_cases i <;> fin_cases j <;> simp <;> linear_combination -hv
    rw [A, B]
    ext i j; fin_cases i <;> fin_cases j <;> simp [_root_.Matrix.mul_apply, Fin.sum_univ_two] <;> ring

end CellNear
end Peyl
