import Verif.Spec.Polymat
import Verif.Lemmas.Matrix
import Verif.Lemmas.Poly
import Verif.Lemmas.Table
import Verif.Lemmas.MatrixMod
import Verif.Lemmas.LPolyCoeff
import Mathlib.Algebra.Polynomial.Coeff
import Mathlib.Order.Bounds.Basic
import Mathlib.Data.Finset.NatAntidiagonal
import Mathlib.LinearAlgebra.Matrix.Defs
namespace Peyl
namespace Polymat
open Polynomial
variable {α β γ : Type} {I J K : Nat}

theorem slice_ge (A : PArr α I J) {d : Nat} (h : A.length ≤ d) : slice A d = 0 := by
  simp [slice, h]

theorem slice_lt (A : PArr α I J) {d : Nat} (h : d < A.length) : slice A d = A[d] := by
  simp [slice, h]

@[simp] theorem coeff_den (A : PArr α I J) (a : α) (i : Fin I) (j : Fin J) (d : Nat) :
    (den A a i j).coeff d = slice A d a i j := by
  rw [den, coeff_listPoly]
  by_cases h : d < A.length
  · rw [slice_lt A h]; simp [h]
  · rw [slice_ge A (by omega)]; simp [h]

theorem slice_map_range (n : Nat) (f : Nat → Slice α I J) (d : Nat) :
    slice ((List.range n).map f) d = if d < n then f d else 0 := by
  split
  · next h => rw [slice_lt _ (by simpa using h)]; simp
  · next h => rw [slice_ge _ (by simpa using h)]

theorem ext' {A B : PArr α I J} (h : A.length = B.length) (h' : ∀ d < A.length, ∀ a, slice A d a = slice B d a) : A = B := by
  apply List.ext_getElem h
  intro d h1 h2
  have := fun a => h' d h1 a
  rw [slice_lt A h1, slice_lt B h2] at this
  exact funext this

theorem den_eq_iff {A : PArr α I J} {B : PArr β I J} {a : α} {b : β} : den A a = den B b ↔ ∀ d, slice A d a = slice B d b := by
  constructor
  · intro h d
    funext i j
    rw [← coeff_den, h, coeff_den]
  · intro h
    funext i j
    ext d
    rw [coeff_den, coeff_den, h]

theorem den_eq_zero {A : PArr α I J} {a : α} : den A a = 0 ↔ ∀ d, slice A d a = 0 := by
  constructor
  · intro h d
    funext i j
    rw [← coeff_den, h]; rfl
  · intro h
    funext i j
    ext d
    rw [coeff_den, h]; rfl

theorem nzAt_iff {S : Slice α I J} {a : α} : nzAt S a = true ↔ S a ≠ 0 := by
  rw [nzAt, decide_eq_true_iff]
  constructor
  · rintro ⟨i, j, h⟩ e; rw [e] at h; exact h rfl
  · intro h
    by_contra hc
    push Not at hc
    exact h (funext fun i => funext fun j => hc i j)

theorem nz_degSet {A : PArr α I J} {a : α} {d : Nat} : slice A d a ≠ 0 ↔ d ∈ degSet (den A a) := by
  rw [← nzAt_iff, nzAt, decide_eq_true_iff]
  simp [degSet]

theorem nonzeroAt_iff {A : PArr α I J} {a : α} : nonzeroAt A a = true ↔ den A a ≠ 0 := by
  rw [nonzeroAt, List.any_eq_true, Ne, den_eq_zero]
  push Not
  constructor
  · rintro ⟨S, hS, h⟩
    obtain ⟨d, hd, rfl⟩ := List.getElem_of_mem hS
    exact ⟨d, by rw [slice_lt A hd]; exact nzAt_iff.1 h⟩
  · rintro ⟨d, h⟩
    have hd : d < A.length := by by_contra hc; exact h (by rw [slice_ge A (by omega)]; rfl)
    exact ⟨A[d], List.getElem_mem hd, nzAt_iff.2 (by rw [← slice_lt A hd]; exact h)⟩

theorem lt_of_nz {A : PArr α I J} {a : α} {d : Nat} (h : slice A d a ≠ 0) : d < A.length := by
  by_contra hc; exact h (by rw [slice_ge A (by omega)]; rfl)

variable [Fintype α]

theorem anyNZ_iff {S : Slice α I J} : anyNZ S = true ↔ ∃ a, S a ≠ 0 := by
  rw [anyNZ, decide_eq_true_iff]
  refine exists_congr fun a => ?_
  rw [← nzAt_iff, nzAt, decide_eq_true_iff]

theorem argmaxEach_spec (D : Nat) (hD : D ≠ 0) (v : α → Nat → Bool) :
    ∃ f, argmaxEach D v = .ok f ∧ ∀ a,
      ((∃ d < D, v a d = true) → f a < D ∧ v a (f a) = true ∧ ∀ d < f a, v a d = false) ∧
      ((∀ d < D, v a d = false) → f a = 0) := by
  refine ⟨_, by rw [argmaxEach, if_neg hD], fun a => ?_⟩
  have hl : ((List.range D).map (v a)).length ≠ 0 := by simpa using hD
  have : argmax ((List.range D).map (v a)) = .ok (match ((List.range D).map (v a)).findIdx? id with | some i => i | none => 0) := by
    rw [argmax, if_neg hl]; rfl
  rw [this]
  dsimp only
  cases h : ((List.range D).map (v a)).findIdx? id with
  | none =>
    rw [List.findIdx?_eq_none_iff] at h
    constructor
    · rintro ⟨d, hd, hv⟩
      have := h (v a d) (List.mem_map.2 ⟨d, by simpa using hd, rfl⟩)
      simp [hv] at this
    · intro _; rfl
  | some i =>
    rw [List.findIdx?_eq_some_iff_getElem] at h
    obtain ⟨h1, h2, h3⟩ := h
    simp only [List.length_map, List.length_range] at h1
    simp only [List.getElem_map, List.getElem_range, id_eq] at h2 h3
    dsimp only
    constructor
    · intro _
      exact ⟨h1, h2, fun d hd => by simpa using h3 d hd⟩
    · intro h; rw [h i h1] at h2; cases h2

/-- Start and end of the non-zero part. -/
theorem startsEnds_spec (A : PArr α I J) (hD : A.length ≠ 0) :
    ∃ s e, startsEnds A = .ok (s, e) ∧ ∀ a,
      (den A a ≠ 0 → IsLeast (degSet (den A a)) (s a) ∧ IsGreatest (degSet (den A a)) (e a - 1) ∧ s a < e a ∧ e a ≤ A.length) ∧
      (den A a = 0 → s a = 0 ∧ e a = A.length) := by
  obtain ⟨s, h1, h2⟩ := argmaxEach_spec A.length hD fun (a : α) d => nzAt (slice A d) a
  obtain ⟨k, h3, h4⟩ := argmaxEach_spec A.length hD fun (a : α) d => nzAt (slice A (A.length - 1 - d)) a
  refine ⟨s, fun a => A.length - k a, by rw [startsEnds, h1, bind_ok, h3]; rfl, fun a => ⟨fun h => ?_, fun h => ?_⟩⟩
  · rw [Ne, den_eq_zero] at h
    push Not at h
    obtain ⟨d, hd⟩ := h
    have hdl := lt_of_nz hd
    obtain ⟨p1, p2, p3⟩ := (h2 a).1 ⟨d, hdl, nzAt_iff.2 hd⟩
    obtain ⟨q1, q2, q3⟩ := (h4 a).1 ⟨A.length - 1 - d, by omega, nzAt_iff.2 (by
      rw [show A.length - 1 - (A.length - 1 - d) = d by omega]; exact hd)⟩
    rw [nzAt_iff, nz_degSet] at p2 q2
    have least : IsLeast (degSet (den A a)) (s a) := by
      refine ⟨p2, fun c hc => ?_⟩
      by_contra hlt
      have := p3 c (by omega)
      rw [← nz_degSet, ← nzAt_iff] at hc
      rw [hc] at this; cases this
    have great : IsGreatest (degSet (den A a)) (A.length - k a - 1) := by
      rw [show A.length - k a - 1 = A.length - 1 - k a by omega]
      refine ⟨q2, fun c hc => ?_⟩
      have hcl := lt_of_nz (nz_degSet.2 hc)
      by_contra hlt
      have := q3 (A.length - 1 - c) (by omega)
      rw [← nz_degSet, ← nzAt_iff] at hc
      rw [show A.length - 1 - (A.length - 1 - c) = c by omega, hc] at this; cases this
    refine ⟨least, great, ?_, by dsimp only; omega⟩
    have := least.2 great.1
    dsimp only
    omega
  · have hz : ∀ d < A.length, nzAt (slice A d) a = false := fun d _ => by
      rw [← Bool.not_eq_true, nzAt_iff, den_eq_zero.1 h d]; simp
    have e1 := (h2 a).2 hz
    have e2 := (h4 a).2 (fun d hd => hz _ (by omega))
    exact ⟨e1, by dsimp only; omega⟩

/-- A projectivised tensor: a constant term everywhere, and no superfluous last slice. -/
def Canon (P : PArr α I J) : Prop :=
  (∀ a, slice P 0 a ≠ 0) ∧ ∃ a, slice P (P.length - 1) a ≠ 0

theorem X_pow_mul_den {A : PArr α I J} {P : PArr β I J} {a : α} {b : β} {k : Nat} :
    den A a = (X ^ k : ℤ[X]) • den P b ↔ (∀ d < k, slice A d a = 0) ∧ ∀ d, slice A (d + k) a = slice P d b := by
  have key : (den A a = (X ^ k : ℤ[X]) • den P b) ↔ ∀ i j d, slice A d a i j = if k ≤ d then slice P (d - k) b i j else 0 := by
    constructor
    · intro h i j d
      rw [← coeff_den, h, _root_.Matrix.smul_apply, smul_eq_mul, coeff_X_pow_mul', coeff_den]
    · intro h
      funext i j
      ext d
      rw [coeff_den, h, _root_.Matrix.smul_apply, smul_eq_mul, coeff_X_pow_mul', coeff_den]
  rw [key]
  constructor
  · intro h
    constructor
    · intro d hd; funext i j; rw [h, if_neg (by omega)]; rfl
    · intro d; funext i j; rw [h, if_pos (by omega), Nat.add_sub_cancel]
  · rintro ⟨h1, h2⟩ i j d
    split
    · next h => rw [← h2 (d - k), Nat.sub_add_cancel h]
    · next h => rw [h1 d (by omega)]; rfl

theorem canon_unique {A : PArr α I J} {P Q : PArr α I J} (hP : Canon P) (hQ : Canon Q)
    (h1 : ∀ a, ∃ k, den A a = (X ^ k : ℤ[X]) • den P a) (h2 : ∀ a, ∃ k, den A a = (X ^ k : ℤ[X]) • den Q a) : P = Q := by
  have hs : ∀ d a, slice P d a = slice Q d a := by
    intro d a
    obtain ⟨k, hk⟩ := h1 a
    obtain ⟨l, hl⟩ := h2 a
    rw [X_pow_mul_den] at hk hl
    have hkl : k = l := by
      rcases Nat.lt_trichotomy k l with h | h | h
      · exact absurd (by rw [← hk.2 0, Nat.zero_add, hl.1 k h]) (hP.1 a)
      · exact h
      · exact absurd (by rw [← hl.2 0, Nat.zero_add, hk.1 l h]) (hQ.1 a)
    subst hkl
    rw [← hk.2, hl.2]
  obtain ⟨a, ha⟩ := hP.2
  obtain ⟨b, hb⟩ := hQ.2
  have e1 : P.length - 1 < Q.length := lt_of_nz (a := a) (by rw [← hs]; exact ha)
  have e2 : Q.length - 1 < P.length := lt_of_nz (a := b) (by rw [hs]; exact hb)
  exact ext' (by omega) fun d _ a => hs d a

theorem projectivise_canon {P : PArr α I J} (hP : Canon P) : projectivise P = .ok P := by
  have h1 : ∀ a, nonzeroAt P a = true := fun a => by
    rw [nonzeroAt_iff, Ne, den_eq_zero]; exact fun h => hP.1 a (h 0)
  obtain ⟨a, ha⟩ := hP.2
  have := lt_of_nz ha
  rw [projectivise, if_pos h1, if_neg (by omega), if_pos]
  exact ⟨fun a => nzAt_iff.2 (hP.1 a), anyNZ_iff.2 ⟨a, ha⟩⟩

theorem projectivise_spec [Nonempty α] (A : PArr α I J) (h : ∀ a, den A a ≠ 0) :
    ∃ P, projectivise A = .ok P ∧ Canon P ∧ ∀ a, ∃ k, den A a = (X ^ k : ℤ[X]) • den P a := by
  have h1 : ∀ a, nonzeroAt A a = true := fun a => nonzeroAt_iff.2 (h a)
  obtain ⟨a0⟩ : Nonempty α := inferInstance
  have hD : A.length ≠ 0 := by
    have := h a0
    rw [Ne, den_eq_zero] at this
    push Not at this
    obtain ⟨d, hd⟩ := this
    have := lt_of_nz hd
    omega
  rw [projectivise, if_pos h1, if_neg hD]
  split
  · next hf =>
    refine ⟨A, rfl, ⟨fun a => nzAt_iff.1 (hf.1 a), anyNZ_iff.1 hf.2⟩, fun a => ⟨0, by simp⟩⟩
  · obtain ⟨s, e, hse, hs⟩ := startsEnds_spec A hD
    have hc : Fintype.card α ≠ 0 := Fintype.card_ne_zero
    refine ⟨_, by rw [projStartsEnds, if_pos h1, hse, bind_ok, if_neg hc], ?_, ?_⟩
    · have hsup : ∀ a, e a - s a ≤ Finset.univ.sup fun a => e a - s a := fun a => Finset.le_sup (f := fun a => e a - s a) (Finset.mem_univ a)
      constructor
      · intro a
        obtain ⟨p1, p2, p3, p4⟩ := (hs a).1 (h a)
        rw [slice_map_range, if_pos (by have := hsup a; dsimp only at *; omega)]
        dsimp only
        rw [if_pos (by omega), Nat.add_zero]
        exact nz_degSet.2 p1.1
      · obtain ⟨a, -, ha⟩ := Finset.exists_mem_eq_sup (Finset.univ : Finset α) Finset.univ_nonempty fun a => e a - s a
        obtain ⟨p1, p2, p3, p4⟩ := (hs a).1 (h a)
        refine ⟨a, ?_⟩
        rw [List.length_map, List.length_range, slice_map_range]
        dsimp only
        rw [ha, if_pos (by omega), if_pos (by omega), show s a + (e a - s a - 1) = e a - 1 by omega]
        exact nz_degSet.2 p2.1
    · intro a
      obtain ⟨p1, p2, p3, p4⟩ := (hs a).1 (h a)
      refine ⟨s a, X_pow_mul_den.2 ⟨fun d hd => ?_, fun d => ?_⟩⟩
      · by_contra hc
        have := p1.2 (nz_degSet.1 hc)
        omega
      · have hsup : e a - s a ≤ Finset.univ.sup fun a => e a - s a := Finset.le_sup (f := fun a => e a - s a) (Finset.mem_univ a)
        have hz : ¬ d < e a - s a → slice A (d + s a) a = 0 := by
          intro hd
          by_contra hc
          have := p2.2 (nz_degSet.1 hc)
          omega
        rw [slice_map_range]
        split
        · dsimp only
          split
          · rw [Nat.add_comm]
          · next hd => exact hz hd
        · next hd => exact hz (by dsimp only at hd; omega)

theorem projectivise_iff [Nonempty α] {A P : PArr α I J} :
    projectivise A = .ok P ↔ Canon P ∧ ∀ a, ∃ k, den A a = (X ^ k : ℤ[X]) • den P a := by
  constructor
  · intro h
    have h1 : ∀ a, den A a ≠ 0 := by
      intro a
      rw [projectivise] at h
      split at h
      · next h1 => exact nonzeroAt_iff.1 (h1 a)
      · cases h
    obtain ⟨P', e, h2⟩ := projectivise_spec A h1
    rw [e] at h; cases h; exact h2
  · rintro ⟨h1, h2⟩
    have : ∀ a, den A a ≠ 0 := by
      intro a e
      obtain ⟨k, hk⟩ := h2 a
      rw [X_pow_mul_den] at hk
      exact h1.1 a (by rw [← hk.2 0, den_eq_zero.1 e])
    obtain ⟨P', e, h3, h4⟩ := projectivise_spec A this
    rw [e, canon_unique h3 h1 h4 h2]

theorem projectivise_error {A : PArr α I J} (a : α) (h : den A a = 0) : projectivise A = .error .assertion := by
  rw [projectivise, if_neg]
  intro h1
  exact nonzeroAt_iff.1 (h1 a) h

/-! ### products -/

theorem mulSlice_eq (pa : γ → α) (pb : γ → β) (A : PArr α I J) (B : PArr β J K) (d : Nat) (g : γ) (i : Fin I) (k : Fin K) :
    mulSlice pa pb A B d g i k = ((den A (pa g) * den B (pb g)) i k).coeff d := by
  rw [_root_.Matrix.mul_apply, finset_sum_coeff]
  simp only [coeff_mul, coeff_den]
  rw [Finset.sum_comm, Finset.Nat.sum_antidiagonal_eq_sum_range_succ_mk]
  dsimp only
  rw [mulSlice]
  have : ∀ (l : List Nat) (f : Nat → ℤ) (p : Nat → Bool), (∀ t, p t = false → f t = 0) → ((l.filter p).map f).sum = (l.map f).sum := by
    intro l f p hp
    induction l with
    | nil => rfl
    | cons x l ih =>
      rw [List.filter_cons]
      split
      · simp [ih]
      · next h => simp only [List.map_cons, List.sum_cons, ih, hp x (by simpa using h), zero_add]
  rw [this _ (fun t => ∑ j, slice A t (pa g) i j * slice B (d - t) (pb g) j k)]
  · rfl
  · intro t ht
    rw [decide_eq_false_iff_not, not_and_or] at ht
    rcases ht with h | h
    · rw [slice_ge A (by omega)]; simp
    · rw [slice_ge B (by omega)]; simp

theorem den_range_mulSlice (pa : γ → α) (pb : γ → β) (A : PArr α I J) (B : PArr β J K) (n : Nat) (g : γ) (i : Fin I) (k : Fin K) (d : Nat) :
    (den ((List.range n).map (mulSlice pa pb A B)) g i k).coeff d = if d < n then ((den A (pa g) * den B (pb g)) i k).coeff d else 0 := by
  rw [coeff_den, slice_map_range]
  split
  · rw [mulSlice_eq]
  · rfl

theorem coeff_mul_ge (A : PArr α I J) (B : PArr β J K) (a : α) (b : β) (i : Fin I) (k : Fin K) (d : Nat)
    (h : A.length + B.length - 1 ≤ d) : ((den A a * den B b) i k).coeff d = 0 := by
  rw [_root_.Matrix.mul_apply, finset_sum_coeff]
  refine Finset.sum_eq_zero fun j _ => ?_
  rw [coeff_mul]
  refine Finset.sum_eq_zero fun p hp => ?_
  rw [Finset.mem_antidiagonal] at hp
  rw [coeff_den, coeff_den]
  by_cases h1 : A.length ≤ p.1
  · rw [slice_ge A h1]; simp
  · rw [slice_ge B (by omega)]; simp

theorem mul_spec (pa : γ → α) (pb : γ → β) (A : PArr α I J) (B : PArr β J K) (h : A ≠ [] ∨ B ≠ []) :
    ∃ C, mul pa pb A B none = .ok C ∧ ∀ g, den C g = den A (pa g) * den B (pb g) := by
  have h0 : A.length + B.length ≠ 0 := by
    rcases h with h | h <;> have := List.length_pos_iff.2 h <;> omega
  refine ⟨_, by rw [mul, if_neg h0], fun g => ?_⟩
  funext i k
  ext d
  rw [den_range_mulSlice]
  split
  · rfl
  · rw [coeff_mul_ge _ _ _ _ _ _ _ (by omega)]

/-! ### trimming and packing -/

theorem trimLast_spec (A : PArr α I J) : ∀ n, trimLast A n ≤ n ∧ (∀ d, trimLast A n ≤ d → d < n → slice A d = 0) ∧
    (trimLast A n ≠ 0 → slice A (trimLast A n - 1) ≠ 0)
  | 0 => ⟨le_rfl, fun d _ h => absurd h (by omega), fun h => absurd rfl h⟩
  | n + 1 => by
    obtain ⟨h1, h2, h3⟩ := trimLast_spec A n
    rw [trimLast]
    split
    · next h =>
      refine ⟨le_rfl, fun d h h' => absurd h (by omega), fun _ e => ?_⟩
      obtain ⟨a, ha⟩ := anyNZ_iff.1 h
      rw [Nat.add_sub_cancel] at e
      rw [e] at ha; exact ha rfl
    · next h =>
      refine ⟨by omega, fun d hd hd' => ?_, h3⟩
      by_cases hdn : d = n
      · subst hdn
        rw [anyNZ_iff] at h
        push Not at h
        exact funext h
      · exact h2 d hd (by omega)

theorem trim_length (A : PArr α I J) : (trim A).length = trimLast A A.length := by
  have := (trimLast_spec A A.length).1
  rw [trim, List.length_take]; omega

theorem slice_trim (A : PArr α I J) (d : Nat) : slice (trim A) d = slice A d := by
  obtain ⟨h1, h2, h3⟩ := trimLast_spec A A.length
  by_cases hd : d < trimLast A A.length
  · rw [slice_lt A (by omega), slice_lt _ (by rw [trim_length]; exact hd)]
    simp [trim]
  · rw [slice_ge _ (by rw [trim_length]; omega)]
    by_cases hd' : d < A.length
    · rw [h2 d (by omega) hd']
    · rw [slice_ge A (by omega)]

theorem trim_least (A : PArr α I J) : IsLeast {K | ∀ d, K ≤ d → slice A d = 0} (trim A).length := by
  constructor
  · intro d hd
    rw [← slice_trim, slice_ge _ hd]
  · intro K hK
    by_contra hlt
    obtain ⟨h1, h2, h3⟩ := trimLast_spec A A.length
    rw [trim_length] at hlt
    exact h3 (by omega) (hK _ (by omega))

theorem den_trim (A : PArr α I J) (a : α) : den (trim A) a = den A a := by
  rw [den_eq_iff]; intro d; rw [slice_trim]

theorem leadZeros_spec (A : PArr α I J) : leadZeros A ≤ A.length ∧ (∀ d < leadZeros A, slice A d = 0) ∧
    (leadZeros A < A.length → slice A (leadZeros A) ≠ 0) := by
  induction A with
  | nil => exact ⟨le_rfl, fun d h => absurd h (by simp [leadZeros]), fun h => absurd h (by simp)⟩
  | cons S A ih =>
    have hcons : leadZeros (S :: A) = if anyNZ S then 0 else leadZeros A + 1 := by
      rw [leadZeros, List.takeWhile_cons]
      cases anyNZ S <;> simp [leadZeros]
    rw [hcons]
    cases h : anyNZ S with
    | true =>
      refine ⟨by simp, fun d h => absurd h (by simp), fun _ e => ?_⟩
      obtain ⟨a, ha⟩ := anyNZ_iff.1 h
      have : S = 0 := by simpa [slice] using e
      rw [this] at ha; exact ha rfl
    | false =>
      have hS : S = 0 := by
        rw [← Bool.not_eq_true, anyNZ_iff] at h
        push Not at h
        exact funext h
      refine ⟨by simpa using ih.1, fun d hd => ?_, fun hd => ?_⟩
      · cases d with
        | zero => simpa [slice] using hS
        | succ d => simpa [slice] using ih.2.1 d (by simpa using hd)
      · simpa [slice] using ih.2.2 (by simpa using hd)

theorem slice_drop (A : PArr α I J) (k d : Nat) : slice (A.drop k) d = slice A (d + k) := by
  simp only [slice, List.getD_eq_getElem?_getD, List.getElem?_drop, Nat.add_comm]

theorem foldl_max_le (l : List Nat) : ∀ (b m : Nat), l.foldl max b ≤ m ↔ b ≤ m ∧ ∀ x ∈ l, x ≤ m := by
  induction l with
  | nil => intro b m; simp
  | cons x l ih =>
    intro b m
    rw [List.foldl_cons, ih]
    constructor
    · rintro ⟨h1, h2⟩
      exact ⟨by omega, fun y hy => by rcases List.mem_cons.1 hy with rfl | hy; · omega
                                      · exact h2 y hy⟩
    · rintro ⟨h1, h2⟩
      exact ⟨by have := h2 x (by simp); omega, fun y hy => h2 y (by simp [hy])⟩

theorem le_foldl_max (l : List Nat) {x : Nat} (hx : x ∈ l) (b : Nat) : x ≤ l.foldl max b :=
  ((foldl_max_le l b _).1 le_rfl).2 x hx

theorem pack_spec (As : List (PArr Unit I J)) (h : As ≠ []) :
    ∃ P, pack As = .ok P ∧ (∀ l, den P l = den (As.get l) ()) ∧
      P.length = (As.map fun A => (trim A).length).foldl max 0 := by
  have h0 : As.length ≠ 0 := by have := List.length_pos_iff.2 h; omega
  refine ⟨_, by rw [pack, if_neg h0], fun l => ?_, by simp [Function.comp_def]⟩
  rw [den_eq_iff]
  intro d
  rw [slice_map_range]
  have hg : (As.map trim).getD l.1 [] = trim (As.get l) := by simp
  have hle : (trim (As.get l)).length ≤ ((As.map trim).map List.length).foldl max 0 := by
    apply le_foldl_max
    simp only [List.map_map, List.mem_map]
    exact ⟨As.get l, List.get_mem _ _, rfl⟩
  rw [← slice_trim (As.get l)]
  split
  · dsimp only
    rw [hg]
    split
    · rfl
    · next h => rw [slice_ge _ (by omega)]; rfl
  · rw [slice_ge (trim (As.get l)) (by omega)]; rfl

omit [Fintype α] in
theorem zeropad_spec (A : PArr α I J) {D : Nat} (h : A.length ≤ D) :
    ∃ P, zeropad A D = .ok P ∧ P.length = D ∧ ∀ a, den P a = den A a := by
  refine ⟨_, by rw [zeropad, if_pos h], by simp, fun a => ?_⟩
  rw [den_eq_iff]
  intro d
  rw [slice_map_range]
  split
  · split
    · rfl
    · rw [slice_ge A (by omega)]
  · rw [slice_ge A (by omega)]

theorem concatenate_spec (As : List (Σ L : Nat, PArr (Fin L) I J)) :
    ∃ P, concatenate As = .ok P ∧ ∀ kl, den P kl = den (As.get kl.1).2 kl.2 := by
  by_cases h : As.length = 0
  · refine ⟨_, by rw [concatenate, if_pos h], fun kl => absurd kl.1.2 (by omega)⟩
  · refine ⟨_, by rw [concatenate, if_neg h], fun kl => ?_⟩
    rw [den_eq_iff]
    intro d
    rw [slice_map_range]
    have hle : (trim (As.get kl.1).2).length ≤ (As.map fun A => (trim A.2).length).foldl max 0 :=
      le_foldl_max (As.map fun A => (trim A.2).length) (List.mem_map.2 ⟨As.get kl.1, List.get_mem _ _, rfl⟩) 0
    rw [← slice_trim (As.get kl.1).2]
    split
    · dsimp only
      split
      · rfl
      · rw [slice_ge _ (by omega)]; rfl
    · rw [slice_ge (trim (As.get kl.1).2) (by omega)]; rfl

/-! ### conversion to and from Laurent matrices -/

theorem toMatrix_spec (A : PArr Unit I J) (hI : 0 < I) :
    ∃ m, toMatrix A = .ok m ∧ m.Shape I J ∧ (∀ x ∈ m.data, ∃ p, x = .lp p) ∧
      m.den I J = (den A ()).map (fun f => toLaurent f) := by
  set f : Nat → Nat → Entry := fun i j =>
    .lp (LPoly.make 0 (A.map fun S => if h : i < I ∧ j < J then S () ⟨i, h.1⟩ ⟨j, h.2⟩ else 0)) with hf
  have hsh : Matrix.Shape ⟨I, J, Matrix.tabulate I J f⟩ I J :=
    Matrix.shape_tabulate I J f fun i j => LPoly.trimmed_make _ _
  refine ⟨⟨I, J, Matrix.tabulate I J f⟩, ?_, hsh, ?_, ?_⟩
  · rw [toMatrix, Matrix.fromRows.eq_def]
    obtain ⟨I, rfl⟩ : ∃ k, I = k + 1 := ⟨I - 1, by omega⟩
    have hne : (List.range (I + 1)).map (fun i => (List.range J).map fun j => f i j) =
        ((List.range J).map fun j => f 0 j) :: ((List.range I).map Nat.succ).map (fun i => (List.range J).map fun j => f i j) := by
      rw [List.range_succ_eq_map, List.map_cons]
    show (match (List.range (I + 1)).map (fun i => (List.range J).map fun j => f i j) with
      | [] => Except.error Err.index
      | r :: tail => if (List.range (I + 1)).map (fun i => (List.range J).map fun j => f i j) |>.all (fun row => row.length == r.length)
        then Matrix.make _ _ _ else .error .assertion) = _
    rw [hne]
    dsimp only
    rw [if_pos (by simp), ← hne]
    have hlen : ((List.range (I + 1)).map (fun i => (List.range J).map fun j => f i j)).flatten = Matrix.tabulate (I + 1) J f := by
      rw [Matrix.tabulate, List.flatMap_def]
    rw [hlen]
    have := (Matrix.make_shape (r := I + 1) (c := J) hsh.length hsh.ok).1
    simpa using this
  · intro x hx
    simp only [Matrix.tabulate, List.mem_flatMap, List.mem_map] at hx
    obtain ⟨i, -, j, -, rfl⟩ := hx
    exact ⟨_, rfl⟩
  · funext i j
    rw [Matrix.den_apply hsh, Matrix.at_tabulate _ _ _ _ _ i.2 j.2, _root_.Matrix.map_apply]
    simp only [hf, Entry.den, LPoly.den_make, den, LaurentPolynomial.T_zero, one_mul]
    simp

theorem foldl_min_spec (l : List Int) : ∀ b, l.foldl min b ≤ b ∧ (∀ x ∈ l, l.foldl min b ≤ x) ∧ (l.foldl min b = b ∨ l.foldl min b ∈ l) := by
  induction l with
  | nil => intro b; simp
  | cons x l ih =>
    intro b
    obtain ⟨h1, h2, h3⟩ := ih (min b x)
    rw [List.foldl_cons]
    refine ⟨by omega, fun y hy => ?_, ?_⟩
    · rcases List.mem_cons.1 hy with rfl | hy
      · omega
      · exact h2 y hy
    · rcases h3 with h3 | h3
      · rcases min_choice b x with h | h
        · left; rw [h3, h]
        · right; rw [h3, h]; simp
      · right; simp [h3]

theorem foldl_max_spec (l : List Int) : ∀ b, b ≤ l.foldl max b ∧ (∀ x ∈ l, x ≤ l.foldl max b) := by
  induction l with
  | nil => intro b; simp
  | cons x l ih =>
    intro b
    obtain ⟨h1, h2⟩ := ih (max b x)
    rw [List.foldl_cons]
    refine ⟨by omega, fun y hy => ?_⟩
    rcases List.mem_cons.1 hy with rfl | hy
    · omega
    · exact h2 y hy

theorem listMin_le {l : List Int} {x : Int} (h : x ∈ l) : listMin l ≤ x := by
  cases l with
  | nil => cases h
  | cons y l =>
    obtain ⟨h1, h2, -⟩ := foldl_min_spec l y
    rcases List.mem_cons.1 h with rfl | h
    · exact h1
    · exact h2 x h

theorem listMin_mem {l : List Int} (h : l ≠ []) : listMin l ∈ l := by
  cases l with
  | nil => exact absurd rfl h
  | cons y l =>
    obtain ⟨-, -, h3⟩ := foldl_min_spec l y
    rcases h3 with h3 | h3
    · show l.foldl min y ∈ _; rw [h3]; simp
    · exact List.mem_cons_of_mem _ h3

theorem le_listMax {l : List Int} {x : Int} (h : x ∈ l) : x ≤ listMax l := by
  cases l with
  | nil => cases h
  | cons y l =>
    obtain ⟨h1, h2⟩ := foldl_max_spec l y
    rcases List.mem_cons.1 h with rfl | h
    · exact h1
    · exact h2 x h

theorem mem_lpolys {m : Matrix} {p : LPoly} : p ∈ lpolys m ↔ Entry.lp p ∈ m.data := by
  rw [lpolys, List.mem_filterMap]
  constructor
  · rintro ⟨x, hx, e⟩
    cases x with
    | int k => cases e
    | lp q => cases e; exact hx
  · intro h; exact ⟨_, h, rfl⟩

theorem entryCoeff_lp (p : LPoly) (d : Nat) : entryCoeff (.lp p) d = p.den.coeff d := by
  rw [LPoly.coeff_den, LPoly.coeffAt]; rfl

/-- Every entry is an `LPoly` all of whose exponents are at least `k`. -/
def ValGE (m : Matrix) (k : Int) : Prop := ∀ p, Entry.lp p ∈ m.data → p.coeffs ≠ [] → k ≤ p.val

theorem laurent_ext {f g : LaurentPolynomial ℤ} (h : ∀ k, f.coeff k = g.coeff k) : f = g := by
  apply AddMonoidAlgebra.coeff_injective
  exact Finsupp.ext h

theorem at_mem {m : Matrix} {r c : Nat} (h : m.Shape r c) (i : Fin r) (j : Fin c) : Matrix.at' m.data (c * i + j) ∈ m.data := by
  have := Matrix.idx_lt i.2 j.2
  rw [← h.length] at this
  rw [Matrix.at', List.getD_eq_getElem?_getD, List.getElem?_eq_getElem this]
  exact List.getElem_mem _

theorem isZero_iff (p : LPoly) : p.isZero = true ↔ p.coeffs = [] := by
  simp [LPoly.isZero]

theorem fillMatrix_spec {m : Matrix} {r c : Nat} (h : m.Shape r c) (hl : ∀ x ∈ m.data, ∃ p, x = .lp p)
    (hne : ∃ p, Entry.lp p ∈ m.data ∧ p.coeffs ≠ []) (hv : ValGE m 0) :
    ∃ A, fillMatrix r c m = .ok A ∧ (den A ()).map (fun f => toLaurent f) = m.den r c := by
  have hls : ∀ p, p ∈ (lpolys m).filter (fun p => !p.isZero) ↔ Entry.lp p ∈ m.data ∧ p.coeffs ≠ [] := by
    intro p
    rw [List.mem_filter, mem_lpolys]
    simp [LPoly.isZero]
  have hmin : ¬ listMin (((lpolys m).filter fun p => !p.isZero).map LPoly.valuation) < 0 := by
    obtain ⟨p, hp⟩ := hne
    have := listMin_mem (l := ((lpolys m).filter fun p => !p.isZero).map LPoly.valuation) (by
      intro e
      rw [List.map_eq_nil_iff] at e
      have := (hls p).2 hp
      rw [e] at this; cases this)
    obtain ⟨q, hq, e⟩ := List.mem_map.1 this
    rw [hls] at hq
    have := hv q hq.1 hq.2
    rw [← e, LPoly.valuation]; omega
  refine ⟨_, by rw [fillMatrix, if_neg hmin], ?_⟩
  funext i j
  rw [_root_.Matrix.map_apply, Matrix.den_apply h]
  have hmem := at_mem h i j
  obtain ⟨p, hp⟩ := hl _ hmem
  rw [hp] at hmem ⊢
  apply laurent_ext
  intro k
  rw [coeff_toLaurent_int, coeff_den, slice_map_range, Entry.den]
  by_cases hp0 : p.coeffs = []
  · have : p.den = 0 := (LPoly.den_eq_zero_iff (h.ok _ hmem)).2 hp0
    simp only [this, AddMonoidAlgebra.coeff_zero, Finsupp.coe_zero, Pi.zero_apply]
    split
    · split
      · dsimp only; rw [hp, entryCoeff_lp, this]; simp
      · rfl
    · rfl
  · have h0 := hv p hmem hp0
    split
    · next hk =>
      split
      · dsimp only; rw [hp, entryCoeff_lp, Int.toNat_of_nonneg hk]
      · next hk' =>
        have : p.degree ≤ listMax (((lpolys m).filter fun p => !p.isZero).map LPoly.degree) :=
          le_listMax (List.mem_map.2 ⟨p, (hls p).2 ⟨hmem, hp0⟩, rfl⟩)
        rw [LPoly.coeff_above p k (by omega)]; rfl
    · next hk => rw [LPoly.coeff_below p k (by rw [LPoly.valuation]; omega)]

theorem all_lp_iff {m : Matrix} : m.data.all isLPoly = true ↔ ∀ x ∈ m.data, ∃ p, x = .lp p := by
  rw [List.all_eq_true]
  refine forall₂_congr fun x _ => ?_
  cases x <;> simp [isInt, isLPoly]

theorem all_int_iff {m : Matrix} : m.data.all isInt = true ↔ ∀ x ∈ m.data, ∃ p, x = .int p := by
  rw [List.all_eq_true]
  refine forall₂_congr fun x _ => ?_
  cases x <;> simp [isInt, isLPoly]

theorem fromMatrix_int {m : Matrix} {r c : Nat} (h : m.Shape r c) (hi : ∀ x ∈ m.data, ∃ k, x = .int k) (proj : Bool) :
    ∃ A, fromMatrix r c m proj = .ok A ∧ (den A ()).map (fun f => toLaurent f) = m.den r c := by
  refine ⟨_, by rw [fromMatrix, if_pos (all_int_iff.2 hi)], ?_⟩
  funext i j
  rw [_root_.Matrix.map_apply, Matrix.den_apply h]
  obtain ⟨k, hk⟩ := hi _ (at_mem h i j)
  simp [den, hk, Entry.den]

theorem zero_lt_data {m : Matrix} {r c : Nat} (h : m.Shape r c) (h0 : ¬ ∀ x ∈ m.data, ∃ k, x = .int k) : m.data ≠ [] := by
  intro e; rw [e] at h0; simp at h0

theorem fromMatrix_lp {m : Matrix} {r c : Nat} (h : m.Shape r c) (hl : ∀ x ∈ m.data, ∃ p, x = .lp p) (proj : Bool) :
    (ValGE m 0 → ∃ A, fromMatrix r c m proj = .ok A ∧ (den A ()).map (fun f => toLaurent f) = m.den r c) ∧
    (¬ ValGE m 0 → proj = false → fromMatrix r c m proj = .error .value) ∧
    (¬ ValGE m 0 → proj = true → ∃ A k, fromMatrix r c m proj = .ok A ∧
      (den A ()).map (fun f => toLaurent f) = (LaurentPolynomial.T k : LaurentPolynomial ℤ) • m.den r c) := by
  by_cases hi : ∀ x ∈ m.data, ∃ k, x = .int k
  · have hnil : m.data = [] := by
      cases hd : m.data with
      | nil => rfl
      | cons x l =>
        obtain ⟨k, hk⟩ := hi x (by simp [hd])
        obtain ⟨p, hp⟩ := hl x (by simp [hd])
        rw [hk] at hp; cases hp
    refine ⟨fun _ => fromMatrix_int h hi proj, fun hv => ?_, fun hv => ?_⟩ <;>
    · exact absurd (fun p hp => by rw [hnil] at hp; cases hp) hv
  · have h1 : ¬ m.data.all isInt = true := fun e => hi (all_int_iff.1 e)
    have h2 := all_lp_iff.2 hl
    by_cases hz : ∀ p, Entry.lp p ∈ m.data → p.coeffs = []
    · have h3 : (lpolys m).all LPoly.isZero = true := by
        rw [List.all_eq_true]; intro p hp; exact (isZero_iff p).2 (hz p (mem_lpolys.1 hp))
      have hv : ValGE m 0 := fun p hp hn => absurd (hz p hp) hn
      refine ⟨fun _ => ⟨[0], by rw [fromMatrix, if_neg h1, if_pos h2, if_pos h3], ?_⟩, fun hn => absurd hv hn, fun hn => absurd hv hn⟩
      funext i j
      rw [_root_.Matrix.map_apply, Matrix.den_apply h]
      obtain ⟨p, hp⟩ := hl _ (at_mem h i j)
      have hp' := hz p (hp ▸ at_mem h i j)
      have hok : p.Trimmed := h.ok (.lp p) (hp ▸ at_mem h i j)
      rw [hp, Entry.den, (LPoly.den_eq_zero_iff hok).2 hp']
      simp [den]
    · have h3 : ¬ (lpolys m).all LPoly.isZero = true := by
        rw [List.all_eq_true]
        exact fun e => hz fun p hp => (isZero_iff p).1 (e p (mem_lpolys.2 hp))
      push Not at hz
      have hls : ∀ p, p ∈ (lpolys m).filter (fun p => !p.isZero) ↔ Entry.lp p ∈ m.data ∧ p.coeffs ≠ [] := by
        intro p
        rw [List.mem_filter, mem_lpolys]
        simp [LPoly.isZero]
      set mn := listMin (((lpolys m).filter fun p => !p.isZero).map LPoly.valuation) with hmn
      have hmem : mn ∈ ((lpolys m).filter fun p => !p.isZero).map LPoly.valuation := by
        apply listMin_mem
        intro e
        rw [List.map_eq_nil_iff] at e
        obtain ⟨p, hp⟩ := hz
        have := (hls p).2 hp
        rw [e] at this; cases this
      have hle : ∀ p, Entry.lp p ∈ m.data → p.coeffs ≠ [] → mn ≤ p.val := fun p hp hn =>
        listMin_le (List.mem_map.2 ⟨p, (hls p).2 ⟨hp, hn⟩, rfl⟩)
      have hiff : mn < 0 ↔ ¬ ValGE m 0 := by
        constructor
        · intro hlt hv
          obtain ⟨p, hp, e⟩ := List.mem_map.1 hmem
          have := hv p ((hls p).1 hp).1 ((hls p).1 hp).2
          rw [LPoly.valuation] at e; omega
        · intro hn; by_contra hc; exact hn fun p hp hq => by have := hle p hp hq; omega
      have hunf : fromMatrix r c m proj = if mn < 0 then
          if proj then fillMatrix r c (m.map fun x => Entry.mul x (.lp (LPoly.make (-mn) [1]))) else .error .value
          else fillMatrix r c m := by
        rw [fromMatrix, if_neg h1, if_pos h2, if_neg h3]
      refine ⟨fun hv => ?_, fun hv hp => ?_, fun hv hp => ?_⟩
      · rw [hunf, if_neg (fun e => hiff.1 e hv)]
        exact fillMatrix_spec h hl hz hv
      · rw [hunf, if_pos (hiff.2 hv), hp]; rfl
      · rw [hunf, if_pos (hiff.2 hv), hp, if_pos rfl]
        set g : Entry → Entry := fun x => Entry.mul x (.lp (LPoly.make (-mn) [1])) with hg
        have hgok : ∀ x, (g x).Ok := fun x => Entry.ok_mul _ _
        have hsh := Matrix.shape_map h g hgok
        have hT : (LPoly.make (-mn) [1]).den = LaurentPolynomial.T (-mn) := by rw [LPoly.den_make]; simp
        have hl' : ∀ x ∈ (m.map g).data, ∃ p, x = .lp p := by
          intro x hx
          obtain ⟨y, hy, rfl⟩ := List.mem_map.1 hx
          obtain ⟨p, rfl⟩ := hl y hy
          exact ⟨_, rfl⟩
        have hval : ∀ p : LPoly, p.Trimmed → p.coeffs ≠ [] → LPoly.mul p (LPoly.make (-mn) [1]) = ⟨p.val - mn, p.coeffs⟩ := by
          intro p hp hn
          refine LPoly.Trimmed.den_inj (p := LPoly.mul p _) (LPoly.trimmed_make _ _) ⟨fun e => absurd e hn, hp.2.1, hp.2.2⟩ ?_
          rw [LPoly.den_mul, hT]
          simp only [LPoly.den]
          rw [mul_right_comm, ← LaurentPolynomial.T_add]; rfl
        obtain ⟨A, a1, a2⟩ := fillMatrix_spec hsh hl' (by
            obtain ⟨p, hp, hn⟩ := hz
            refine ⟨_, List.mem_map.2 ⟨_, hp, rfl⟩, ?_⟩
            rw [hval p (h.ok _ hp) hn]; exact hn) (by
          intro q hq hn
          obtain ⟨y, hy, e⟩ := List.mem_map.1 hq
          obtain ⟨p, rfl⟩ := hl y hy
          have e : LPoly.mul p (LPoly.make (-mn) [1]) = q := by simpa [hg, Entry.mul] using e
          by_cases hpn : p.coeffs = []
          · have : LPoly.mul p (LPoly.make (-mn) [1]) = ⟨0, []⟩ := by
              refine LPoly.Trimmed.den_inj (p := LPoly.mul p _) (LPoly.trimmed_make _ _) ⟨fun _ => rfl, by simp, by simp⟩ ?_
              have hok : p.Trimmed := h.ok (.lp p) hy
              rw [LPoly.den_mul, (LPoly.den_eq_zero_iff hok).2 hpn, zero_mul]; simp [LPoly.den]
            rw [this] at e; rw [← e] at hn; exact absurd rfl hn
          · rw [hval p (h.ok _ hy) hpn] at e
            rw [← e]
            have := hle p hy hpn
            show 0 ≤ p.val - mn
            omega)
        refine ⟨A, -mn, a1, ?_⟩
        rw [a2]
        funext i j
        rw [_root_.Matrix.smul_apply, Matrix.den_map h g hgok, Entry.den_mul, Matrix.den_apply h, Entry.den, hT, smul_eq_mul, mul_comm]

end Polymat
end Peyl
