import Verif.Spec.Rep
import Verif.Lemmas.Polymat
import Verif.Lemmas.Matrix
/-!
# Projective images
-/
namespace Peyl
open LaurentPolynomial Polymat
variable {p d : Nat} {α β γ : Type}

theorem coeff_toLaurent_int' (f : Polynomial ℤ) (k : ℤ) : (f.toLaurent).coeff k = if 0 ≤ k then f.coeff k.toNat else 0 := coeff_toLaurent_int f k

theorem denMod_apply (A : PArr α d d) (a : α) (i j : Fin d) : Polymat.denMod p A a i j = LPoly.red p (den A a i j).toLaurent := rfl

theorem coeff_denMod (A : PArr α d d) (a : α) (i j : Fin d) (k : ℤ) :
    (Polymat.denMod p A a i j).coeff k = if 0 ≤ k then ((slice A k.toNat a i j : ℤ) : ZMod p) else 0 := by
  rw [denMod_apply, LPoly.coeff_red, coeff_toLaurent_int']
  split
  · rw [coeff_den]
  · simp

theorem denMod_congr {A : PArr α d d} {B : PArr β d d} {a : α} {b : β}
    (h : ∀ e i j, ((slice A e a i j : ℤ) : ZMod p) = (slice B e b i j : ZMod p)) : Polymat.denMod p A a = Polymat.denMod p B b := by
  funext i j
  apply LaurentPolynomial.ext
  intro k
  rw [coeff_denMod, coeff_denMod, h]

theorem denMod_of_den {A : PArr α d d} {B : PArr β d d} {a : α} {b : β} (h : den A a = den B b) :
    Polymat.denMod p A a = Polymat.denMod p B b := by rw [Polymat.denMod, h]; rfl

theorem red_T (k : ℤ) : LPoly.red p (T k) = T k := by
  apply LaurentPolynomial.ext
  intro m
  rw [LPoly.coeff_red, T, T, AddMonoidAlgebra.coeff_single, AddMonoidAlgebra.coeff_single, Finsupp.single_apply, Finsupp.single_apply]
  split <;> simp

theorem denMod_X_pow {A : PArr α d d} {P : PArr β d d} {a : α} {b : β} {k : Nat} (h : den A a = (Polynomial.X ^ k : Polynomial ℤ) • den P b) :
    Polymat.denMod p A a = (T (k : ℤ) : (ZMod p)[T;T⁻¹]) • Polymat.denMod p P b := by
  funext i j
  rw [denMod_apply, h, _root_.Matrix.smul_apply, _root_.Matrix.smul_apply, smul_eq_mul, smul_eq_mul, map_mul, map_mul, denMod_apply,
    Polynomial.toLaurent_X_pow, red_T]

theorem T_smul_smul (k l : ℤ) (M : LMat p d) : (T k : (ZMod p)[T;T⁻¹]) • (T l : (ZMod p)[T;T⁻¹]) • M = (T (k + l) : (ZMod p)[T;T⁻¹]) • M := by
  rw [smul_smul, ← T_add]

theorem T_smul_inj {k : ℤ} {M N : LMat p d} (h : (T k : (ZMod p)[T;T⁻¹]) • M = (T k : (ZMod p)[T;T⁻¹]) • N) : M = N := by
  have := congrArg (fun X : LMat p d => (T (-k) : (ZMod p)[T;T⁻¹]) • X) h
  simpa only [T_smul_smul, neg_add_cancel, T_zero, one_smul] using this

theorem T_smul_eq_iff {k : ℤ} {M N : LMat p d} : (T k : (ZMod p)[T;T⁻¹]) • M = N ↔ M = (T (-k) : (ZMod p)[T;T⁻¹]) • N := by
  constructor
  · rintro rfl; rw [T_smul_smul, neg_add_cancel, T_zero, one_smul]
  · rintro rfl; rw [T_smul_smul, add_neg_cancel, T_zero, one_smul]

theorem UpToShift.congr {A : PArr α d d} {M N : α → LMat p d} (h : UpToShift p A M)
    (hMN : ∀ a, ∃ k : ℤ, M a = (T k : (ZMod p)[T;T⁻¹]) • N a) : UpToShift p A N := by
  intro a
  obtain ⟨k, hk⟩ := h a
  obtain ⟨l, hl⟩ := hMN a
  exact ⟨k + l, by rw [hk, hl, T_smul_smul]⟩

theorem IsProjImage.congr {A : PArr α d d} {M N : α → LMat p d} (h : IsProjImage p A M)
    (hMN : ∀ a, ∃ k : ℤ, M a = (T k : (ZMod p)[T;T⁻¹]) • N a) : IsProjImage p A N :=
  ⟨h.first, h.last, h.reduced, h.shift.congr hMN⟩

theorem IsProjImage.canon [Fintype α] {A : PArr α d d} {M : α → LMat p d} (h : IsProjImage p A M) : Canon A := ⟨h.first, h.last⟩

/-- Two projectivised images of the same matrices are equal. -/
theorem IsProjImage.unique {A B : PArr α d d} {M : α → LMat p d} (hA : IsProjImage p A M) (hB : IsProjImage p B M) : A = B := by
  have red : ∀ {C : PArr α d d}, ReducedMod p C → p ≠ 0 → ∀ e a i j, 0 ≤ slice C e a i j ∧ slice C e a i j < p := by
    intro C hC hp e a i j
    by_cases he : e < C.length
    · rw [slice_lt C he]; exact hC hp _ (List.getElem_mem he) a i j
    · rw [slice_ge C (by omega)]; exact ⟨le_rfl, by show (0 : ℤ) < p; omega⟩
  have inj : ∀ e e' a i j, ((slice A e a i j : ℤ) : ZMod p) = (slice B e' a i j : ZMod p) → slice A e a i j = slice B e' a i j := by
    intro e e' a i j h
    by_cases hp : p = 0
    · subst hp; exact h
    · rw [ZMod.intCast_eq_intCast_iff, Int.ModEq] at h
      have h1 := red hA.reduced hp e a i j
      have h2 := red hB.reduced hp e' a i j
      rwa [Int.emod_eq_of_lt h1.1 h1.2, Int.emod_eq_of_lt h2.1 h2.2] at h
  -- the two shifts agree
  have nz : ∀ {C : PArr α d d}, IsProjImage p C M → ∀ a, ∃ i j, ((slice C 0 a i j : ℤ) : ZMod p) ≠ 0 := by
    intro C hC a
    by_contra hc
    push Not at hc
    apply hC.first a
    funext i j
    have := hc i j
    by_cases hp : p = 0
    · subst hp; exact this
    · rw [ZMod.intCast_zmod_eq_zero_iff_dvd _ p] at this
      have h1 := red hC.reduced hp 0 a i j
      exact Int.eq_zero_of_dvd_of_nonneg_of_lt h1.1 h1.2 this
  have key : ∀ e a, slice A e a = slice B e a := by
    intro e a
    obtain ⟨k, hk⟩ := hA.shift a
    obtain ⟨l, hl⟩ := hB.shift a
    have h : Polymat.denMod p A a = (T (k - l) : (ZMod p)[T;T⁻¹]) • Polymat.denMod p B a := by
      rw [hl, hk, T_smul_smul, sub_add_cancel]
    have hc : ∀ (m : ℤ) i j, (Polymat.denMod p A a i j).coeff m = (Polymat.denMod p B a i j).coeff (m - (k - l)) := by
      intro m i j
      rw [h, _root_.Matrix.smul_apply, smul_eq_mul, T, AddMonoidAlgebra.coeff_single_mul_apply, one_mul, neg_add_eq_sub]
    simp only [coeff_denMod] at hc
    have hkl : k - l = 0 := by
      obtain ⟨i, j, hij⟩ := nz hA a
      obtain ⟨i', j', hij'⟩ := nz hB a
      have e1 := hc 0 i j
      have e2 := hc (k - l) i' j'
      rw [if_pos le_rfl] at e1
      rw [sub_self, if_pos le_rfl] at e2
      by_contra hne
      rcases lt_or_gt_of_ne hne with hlt | hlt
      · rw [if_neg (by omega)] at e2; exact hij' e2.symm
      · rw [if_neg (by omega)] at e1; exact hij e1
    funext i j
    apply inj
    have := hc e i j
    rw [hkl, sub_zero, if_pos (by omega), if_pos (by omega)] at this
    simpa using this
  obtain ⟨a, ha⟩ := hA.last
  obtain ⟨b, hb⟩ := hB.last
  have l1 := lt_of_nz ha
  have l2 := lt_of_nz hb
  rw [key] at ha
  rw [← key] at hb
  have l3 := lt_of_nz ha
  have l4 := lt_of_nz hb
  exact ext' (by omega) fun e _ a => key e a

/-- Conversely the image determines the matrices up to powers of `v`. -/
theorem IsProjImage.shift_unique {A : PArr α d d} {M N : α → LMat p d} (hA : IsProjImage p A M) (hB : IsProjImage p A N) (a : α) :
    ∃ k : ℤ, M a = (T k : (ZMod p)[T;T⁻¹]) • N a := by
  obtain ⟨k, hk⟩ := hA.shift a
  obtain ⟨l, hl⟩ := hB.shift a
  exact ⟨-k + l, by rw [← T_smul_smul, ← hl, hk, T_smul_smul, neg_add_cancel, T_zero, one_smul]⟩

theorem UpToShift.den_ne {A : PArr α d d} {M : α → LMat p d} (h : UpToShift p A M) (hM : ∀ a, M a ≠ 0) (a : α) : den A a ≠ 0 := by
  intro e
  obtain ⟨k, hk⟩ := h a
  have : Polymat.denMod p A a = 0 := by
    rw [Polymat.denMod, e]
    funext i j
    simp
  rw [this, eq_comm, T_smul_eq_iff, smul_zero] at hk
  exact hM a hk

theorem project_spec [Fintype α] [Nonempty α] {C : PArr α d d} {M : α → LMat p d} (h : UpToShift p C M) (hr : ReducedMod p C) (hM : ∀ a, M a ≠ 0) :
    ∃ P, projectivise C = .ok P ∧ IsProjImage p P M := by
  obtain ⟨P, h1, h2, h3⟩ := projectivise_spec C (h.den_ne hM)
  refine ⟨P, h1, h2.1, h2.2, ?_, ?_⟩
  · intro hp S hS a i j
    obtain ⟨e, he, rfl⟩ := List.getElem_of_mem hS
    obtain ⟨k, hk⟩ := h3 a
    rw [X_pow_mul_den] at hk
    have := hk.2 e
    rw [slice_lt P he] at this
    rw [← this]
    by_cases hek : e + k < C.length
    · rw [slice_lt C hek]; exact hr hp _ (List.getElem_mem hek) a i j
    · rw [slice_ge C (by omega)]; exact ⟨le_rfl, by show (0 : ℤ) < p; omega⟩
  · intro a
    obtain ⟨k, hk⟩ := h a
    obtain ⟨l, hl⟩ := h3 a
    rw [denMod_X_pow hl, T_smul_eq_iff, T_smul_smul] at hk
    exact ⟨_, hk⟩

theorem slice_modp (C : PArr α d d) (e : Nat) (a : α) (i j : Fin d) : slice (modp p C) e a i j = (slice C e a i j).fmod p := by
  by_cases he : e < C.length
  · have he' : e < (modp p C).length := by simpa [modp] using he
    have h : (modp p C)[e] = fun a i j => (C[e] a i j).fmod p := List.getElem_map _
    rw [slice_lt C he, slice_lt _ he', h]
  · rw [slice_ge C (by omega), slice_ge _ (by simpa [modp] using he)]; simp

theorem denMod_modp (C : PArr α d d) (a : α) : Polymat.denMod p (modp p C) a = Polymat.denMod p C a := by
  apply denMod_congr
  intro e i j
  rw [slice_modp, ZMod.intCast_eq_intCast_iff, Int.ModEq, Int.fmod_eq_emod_of_nonneg _ (by omega)]
  simp

/-- Reduction mod `p` (if `p ≠ 0`). -/
abbrev redp (p : Nat) (C : PArr α d d) : PArr α d d := if p ≠ 0 then modp p C else C

theorem reduced_redp (C : PArr α d d) : ReducedMod p (redp p C) := by
  intro hp S hS a i j
  rw [redp, if_pos hp] at hS
  obtain ⟨S', -, rfl⟩ := List.mem_map.1 hS
  dsimp only
  rw [Int.fmod_eq_emod_of_nonneg _ (by omega)]
  exact ⟨Int.emod_nonneg _ (by omega), Int.emod_lt_of_pos _ (by omega)⟩

theorem denMod_redp (C : PArr α d d) (a : α) : Polymat.denMod p (redp p C) a = Polymat.denMod p C a := by
  rw [redp]; split
  · exact denMod_modp C a
  · rfl

theorem denMod_mul {A : PArr α d d} {B : PArr β d d} {C : PArr γ d d} {a : α} {b : β} {g : γ} (h : den C g = den A a * den B b) :
    Polymat.denMod p C g = Polymat.denMod p A a * Polymat.denMod p B b := by
  funext i j
  rw [denMod_apply, h, _root_.Matrix.mul_apply, _root_.Matrix.mul_apply, map_sum, map_sum]
  simp only [map_mul, denMod_apply]

theorem polymatMul_spec [Fintype α] [Fintype γ] [Nonempty γ] (pa : γ → α) (pb : γ → β) {A : PArr α d d} {B : PArr β d d} {M : α → LMat p d} {N : β → LMat p d}
    (hA : UpToShift p A M) (hB : UpToShift p B N) (hne : ∀ g, M (pa g) * N (pb g) ≠ 0) :
    ∃ C, polymatMul p pa pb A B = .ok C ∧ IsProjImage p C fun g => M (pa g) * N (pb g) := by
  obtain ⟨g0⟩ : Nonempty γ := inferInstance
  have hA0 : A ≠ [] := by
    rintro rfl
    obtain ⟨k, hk⟩ := hA (pa g0)
    have : Polymat.denMod p ([] : PArr α d d) (pa g0) = 0 := by
      funext i j; rw [denMod_apply]; simp [den]
    rw [this, eq_comm, T_smul_eq_iff, smul_zero] at hk
    exact hne g0 (by rw [hk, zero_mul])
  obtain ⟨C, h1, h2⟩ := Polymat.mul_spec pa pb A B (.inl hA0)
  have hs : UpToShift p (redp p C) fun g => M (pa g) * N (pb g) := by
    intro g
    obtain ⟨k, hk⟩ := hA (pa g)
    obtain ⟨l, hl⟩ := hB (pb g)
    refine ⟨k + l, ?_⟩
    rw [denMod_redp, denMod_mul (h2 g), hk, hl, smul_mul_assoc, mul_smul_comm, T_smul_smul]
  obtain ⟨P, h3, h4⟩ := project_spec hs (reduced_redp C) hne
  exact ⟨P, by rw [polymatMul, h1, bind_ok]; exact h3, h4⟩

theorem denMod_eye : Polymat.denMod p (eye d) () = 1 := by
  funext i j
  rw [denMod_apply, _root_.Matrix.one_apply]
  simp only [den, eye, List.map_cons, List.map_nil, listPoly]
  split <;> simp_all

end Peyl
