import Verif.Model.MachineEval
import Verif.Props.Polymat
import Verif.Lemmas.RepEval
/-!
# When the machine product is the exact product
-/
namespace Peyl
open Polymat
variable {α β γ : Type} {I J K : Nat}

/-- All entries are at most `b` in absolute value. -/
def Bd (b : Nat) (A : PArr α I J) : Prop := ∀ S ∈ A, ∀ a i j, |S a i j| ≤ (b : ℤ)

theorem Bd.slice {b : Nat} {A : PArr α I J} (h : Bd b A) (e : Nat) (a : α) (i : Fin I) (j : Fin J) : |Polymat.slice A e a i j| ≤ (b : ℤ) := by
  by_cases he : e < A.length
  · rw [slice_lt A he]; exact h _ (List.getElem_mem he) a i j
  · rw [slice_ge A (by omega)]; simp

theorem bd_of_slice {b : Nat} {A : PArr α I J} (h : ∀ e a i j, e < A.length → |Polymat.slice A e a i j| ≤ (b : ℤ)) : Bd b A := by
  intro S hS a i j
  obtain ⟨e, he, rfl⟩ := List.getElem_of_mem hS
  rw [← slice_lt A he]; exact h e a i j he

theorem Bd.mono {b c : Nat} {A : PArr α I J} (h : Bd b A) (hbc : b ≤ c) : Bd c A := fun S hS a i j => (h S hS a i j).trans (by exact_mod_cast hbc)

theorem fits_of_abs {w : Nat} {x : ℤ} {b : Nat} (h : |x| ≤ (b : ℤ)) (hb : b < 2 ^ (w - 1)) : Fits w x := by
  have hb' : (b : ℤ) < 2 ^ (w - 1) := by exact_mod_cast hb
  rw [abs_le] at h
  constructor <;> omega

variable [Fintype α]

/-- The machine product is the exact one when the exact sums can be represented. -/
theorem mulW_of_fits [Fintype γ] {w : Nat} (hw : 1 ≤ w) (p : Nat) {pa : γ → α} {pb : γ → β} {A : PArr α I J} {B : PArr β J K}
    (h : ∀ d g i k, Fits w (mulSlice pa pb A B d g i k)) :
    mulW w pa pb A B = mul pa pb A B none ∧ polymatMulW w p pa pb A B = polymatMul p pa pb A B := by
  have key : mulSliceW w pa pb A B = mulSlice pa pb A B := by
    funext d g i k
    rw [mulSliceW_eq]
    exact wrap_eq hw (h d g i k).1 (h d g i k).2
  have hmul : mulW w pa pb A B = mul pa pb A B none := by rw [mulW, mul, key]
  exact ⟨hmul, by rw [polymatMulW, polymatMul, hmul]⟩

theorem mulW_of_bd [Fintype γ] {w b : Nat} (hw : 1 ≤ w) (hb : b < 2 ^ (w - 1)) (p : Nat) {pa : γ → α} {pb : γ → β} {A : PArr α I J} {B : PArr β J K} {C : PArr γ I K}
    (h : mul pa pb A B none = .ok C) (hC : Bd b C) : polymatMulW w p pa pb A B = polymatMul p pa pb A B := by
  have hmul : mulW w pa pb A B = mul pa pb A B none := by
    rw [h]
    rw [mul] at h
    rw [mulW]
    split at h
    · cases h
    · next hne =>
      rw [if_neg hne]
      cases h
      congr 1
      refine List.map_congr_left fun e he => ?_
      funext g i k
      rw [mulSliceW_eq]
      have := fits_of_abs (hC _ (List.mem_map.2 ⟨e, he, rfl⟩) g i k) hb
      exact wrap_eq hw this.1 this.2
  rw [polymatMulW, polymatMul, hmul]

theorem mulSlice_abs {pa : γ → α} {pb : γ → β} {A : PArr α I J} {B : PArr β J K} {a b : Nat} (hA : Bd a A) (hB : Bd b B) (d : Nat) (g : γ) (i : Fin I) (k : Fin K) :
    |mulSlice pa pb A B d g i k| ≤ ((J * B.length * a * b : ℕ) : ℤ) := by
  have hbound : ∀ (l : List ℕ) (f : ℕ → ℤ) (c : ℤ), (∀ t, |f t| ≤ c) → |(l.map f).sum| ≤ l.length * c := by
    intro l f c hf
    induction l with
    | nil => simp
    | cons x l ih =>
      simp only [List.map_cons, List.sum_cons, List.length_cons]
      push_cast
      refine (abs_add_le _ _).trans ?_
      have := hf x
      linarith
  have hdot : ∀ t, |∑ j, slice A t (pa g) i j * slice B (d - t) (pb g) j k| ≤ ((J * a * b : ℕ) : ℤ) := by
    intro t
    calc _ ≤ ∑ j : Fin J, |slice A t (pa g) i j * slice B (d - t) (pb g) j k| := Finset.abs_sum_le_sum_abs _ _
      _ ≤ ∑ j : Fin J, ((a : ℤ) * b) := by
          refine Finset.sum_le_sum fun j _ => ?_
          rw [abs_mul]
          exact mul_le_mul (hA.slice _ _ _ _) (hB.slice _ _ _ _) (abs_nonneg _) (by positivity)
      _ = _ := by simp [mul_assoc]
  have hlen : ((List.range (d + 1)).filter fun t => decide (t < A.length ∧ d - t < B.length)).length ≤ B.length := by
    have hnd : ((List.range (d + 1)).filter fun t => decide (t < A.length ∧ d - t < B.length)).Nodup := List.nodup_range.filter _
    rw [← List.toFinset_card_of_nodup hnd]
    calc _ ≤ ((Finset.range B.length).image fun t => d - t).card := Finset.card_le_card fun t ht => by
            simp only [List.mem_toFinset, List.mem_filter, List.mem_range, decide_eq_true_eq] at ht
            exact Finset.mem_image.2 ⟨d - t, Finset.mem_range.2 ht.2.2, by omega⟩
      _ ≤ (Finset.range B.length).card := Finset.card_image_le
      _ = _ := Finset.card_range _
  calc _ ≤ _ := hbound ((List.range (d + 1)).filter fun t => decide (t < A.length ∧ d - t < B.length)) _ _ hdot
    _ ≤ ((B.length : ℕ) : ℤ) * ((J * a * b : ℕ) : ℤ) := mul_le_mul_of_nonneg_right (by exact_mod_cast hlen) (by positivity)
    _ = _ := by push_cast; ring

/-- Projectivising moves entries. -/
theorem projectivise_entries [Nonempty α] {A P : PArr α I J} (h : projectivise A = .ok P) :
    (∀ e a i j, ∃ e', slice P e a i j = slice A e' a i j) ∧ (∀ e a i j, slice A e a i j = 0 ∨ ∃ e', slice A e a i j = slice P e' a i j) := by
  obtain ⟨-, h2⟩ := projectivise_iff.1 h
  have key : ∀ a, ∃ k, ∀ e i j, slice A e a i j = if k ≤ e then slice P (e - k) a i j else 0 := by
    intro a
    obtain ⟨k, hk⟩ := h2 a
    refine ⟨k, fun e i j => ?_⟩
    have := congrArg (fun f => Polynomial.coeff f e) (congrFun (congrFun hk i) j)
    simp only [_root_.Matrix.smul_apply, smul_eq_mul, Polynomial.coeff_X_pow_mul', coeff_den] at this
    exact this
  constructor
  · intro e a i j
    obtain ⟨k, hk⟩ := key a
    exact ⟨e + k, by rw [hk, if_pos (by omega)]; simp⟩
  · intro e a i j
    obtain ⟨k, hk⟩ := key a
    rw [hk]
    split
    · exact .inr ⟨_, rfl⟩
    · exact .inl rfl

theorem projectivise_bd [Nonempty α] {A P : PArr α I J} (h : projectivise A = .ok P) {b : Nat} : Bd b A ↔ Bd b P := by
  obtain ⟨h1, h2⟩ := projectivise_entries h
  constructor
  · intro hA
    refine bd_of_slice fun e a i j _ => ?_
    obtain ⟨e', he⟩ := h1 e a i j
    rw [he]; exact hA.slice _ _ _ _
  · intro hP
    refine bd_of_slice fun e a i j _ => ?_
    rcases h2 e a i j with h | ⟨e', he⟩
    · rw [h]; simp
    · rw [he]; exact hP.slice _ _ _ _

theorem modp_bd {p : Nat} (hp : p ≠ 0) (A : PArr α I J) : Bd (p - 1) (modp p A) := by
  intro S hS a i j
  obtain ⟨S', -, rfl⟩ := List.mem_map.1 hS
  have h1 : 0 ≤ (S' a i j).fmod p := Int.fmod_nonneg_of_pos _ (by omega)
  have h2 : (S' a i j).fmod p < p := Int.fmod_lt_of_pos _ (by omega)
  show |(S' a i j).fmod p| ≤ _
  rw [abs_of_nonneg h1]; omega

theorem bd_of_reduced {p : Nat} (hp : p ≠ 0) {d : Nat} {A : PArr α d d} (h : ReducedMod p A) : Bd (p - 1) A := by
  intro S hS a i j
  obtain ⟨h1, h2⟩ := h hp S hS a i j
  rw [abs_of_nonneg h1]; omega

/-- One step of the evaluation mod `p`: the product of the current result with a narrow tensor. -/
theorem polymatMulW_mod [Fintype γ] [Nonempty γ] {w p M W : Nat} (hw : 1 ≤ w) (hp : p ≠ 0) {pa : γ → α} {pb : γ → β} {A : PArr α I J} {B : PArr β J K} {b : Nat}
    (hA : Bd M A) (hB : Bd b B) (hW : B.length ≤ W) (hb : J * W * M * b < 2 ^ (w - 1)) :
    polymatMulW w p pa pb A B = polymatMul p pa pb A B ∧ ∀ C, polymatMul p pa pb A B = .ok C → Bd (p - 1) C := by
  refine ⟨(mulW_of_fits hw p fun d g i k => fits_of_abs (mulSlice_abs hA hB d g i k) ?_).2, ?_⟩
  · refine lt_of_le_of_lt ?_ hb
    gcongr
  · intro C hC
    rw [polymatMul] at hC
    cases h : mul pa pb A B none with
    | error e => rw [h] at hC; cases hC
    | ok D =>
      rw [h, bind_ok, if_pos hp] at hC
      exact (projectivise_bd hC).1 (modp_bd hp D)

theorem store_bd {w b : Nat} {A : PArr Unit I J} (h : Bd b A) (hb : b < 2 ^ (w - 1)) : store w A = .ok A := by
  rw [store, if_pos]
  exact fun S hS i j => fits_of_abs (h S hS () i j) hb

/-- The two folds agree when the steps agree on the states that are reached. -/
theorem foldlM_congr {σ δ : Type} (f g : σ → δ → Except Err σ) (P : σ → Prop) (l : List δ)
    (h : ∀ s, P s → ∀ x ∈ l, f s x = g s x ∧ ∀ s', g s x = .ok s' → P s') : ∀ s, P s → l.foldlM f s = l.foldlM g s := by
  induction l with
  | nil => intro s _; rfl
  | cons x l ih =>
    intro s hs
    obtain ⟨h1, h2⟩ := h s hs x (by simp)
    rw [List.foldlM_cons, List.foldlM_cons, h1]
    cases hg : g s x with
    | error e => rfl
    | ok s' =>
      rw [bind_ok, bind_ok]
      exact ih (fun s hs x hx => h s hs x (by simp [hx])) s' (h2 s' hg)

end Peyl
