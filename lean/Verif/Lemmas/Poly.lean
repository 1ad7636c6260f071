import Verif.Spec.Poly
import Mathlib.Tactic
/-!
# Lemmas about the `Poly` model
-/
namespace Peyl
open Polynomial

@[simp] theorem listPoly_nil : listPoly [] = 0 := rfl
@[simp] theorem listPoly_cons (c : Int) (cs : List Int) : listPoly (c :: cs) = C c + X * listPoly cs := rfl

theorem coeff_listPoly (l : List Int) (k : Nat) : (listPoly l).coeff k = l.getD k 0 := by
  induction l generalizing k with
  | nil => simp
  | cons c cs ih =>
    cases k with
    | zero => simp
    | succ k => rw [listPoly_cons, coeff_add, coeff_X_mul, coeff_C_succ, ih]; simp

theorem listPoly_append (a b : List Int) : listPoly (a ++ b) = listPoly a + X ^ a.length * listPoly b := by
  induction a with
  | nil => simp
  | cons c cs ih => simp [ih, pow_succ]; ring

theorem listPoly_replicate (n : Nat) : listPoly (List.replicate n 0) = 0 := by
  ext k; simp [coeff_listPoly, List.getElem?_replicate]; split <;> simp

theorem listPoly_map_mul (l : List Int) (k : Int) : listPoly (l.map (· * k)) = listPoly l * C k := by
  induction l with
  | nil => simp
  | cons c cs ih => simp [ih, add_mul, mul_assoc]

theorem listPoly_map_neg (l : List Int) : listPoly (l.map (- ·)) = - listPoly l := by
  induction l with
  | nil => simp
  | cons c cs ih => simp only [List.map_cons, listPoly_cons, ih, C_neg]; ring

theorem listPoly_zipLongest_add (a b : List Int) :
    listPoly (Poly.zipLongest (· + ·) a b) = listPoly a + listPoly b := by
  fun_induction Poly.zipLongest (fun x y : Int => x + y) a b <;> simp_all <;> ring

theorem listPoly_zipLongest_sub (a b : List Int) :
    listPoly (Poly.zipLongest (· - ·) a b) = listPoly a - listPoly b := by
  fun_induction Poly.zipLongest (fun x y : Int => x - y) a b
  · simpa using listPoly_map_neg _
  · simp_all
  · simp_all; ring

theorem listPoly_addAt (l : List Int) (k : Nat) (x : Int) (h : k < l.length) :
    listPoly (Poly.addAt l k x) = listPoly l + C x * X ^ k := by
  induction l generalizing k with
  | nil => simp at h
  | cons c cs ih =>
    cases k with
    | zero => simp [Poly.addAt]; ring
    | succ k =>
      simp only [List.length_cons, Nat.add_lt_add_iff_right] at h
      have := ih k h
      simp only [Poly.addAt] at this
      simp [Poly.addAt, this, pow_succ]; ring

@[simp] theorem length_addAt (l : List Int) (k : Nat) (x : Int) : (Poly.addAt l k x).length = l.length := by
  simp [Poly.addAt]

theorem enum_eq_map (l : List Int) : Poly.enum l = (List.range l.length).map fun i => (i, l.getD i 0) := by
  apply List.ext_getElem
  · simp [Poly.enum]
  · intro i h1 h2
    simp [Poly.enum] at h1 ⊢
    simp [h1]

theorem enum_cons (c : Int) (l : List Int) :
    Poly.enum (c :: l) = (0, c) :: (Poly.enum l).map fun p => (p.1 + 1, p.2) := by
  simp [enum_eq_map, List.range_succ_eq_map]

theorem enum_lt {l : List Int} {p : Nat × Int} (h : p ∈ Poly.enum l) : p.1 < l.length := by
  simp [enum_eq_map] at h; obtain ⟨a, h, rfl⟩ := h; exact h

theorem sum_enum (l : List Int) : ((Poly.enum l).map fun p => C p.2 * X ^ p.1).sum = listPoly l := by
  induction l with
  | nil => simp [Poly.enum]
  | cons c cs ih =>
    rw [enum_cons]
    simp only [List.map_cons, List.map_map, List.sum_cons, listPoly_cons, pow_zero, mul_one, ← ih]
    congr 1
    rw [← List.sum_map_mul_left]
    congr 1
    apply List.map_congr_left
    intro p _; simp [pow_succ]; ring

theorem listPoly_foldl_addAt {α : Type} (ps : List α) (f : α → Nat) (g : α → Int) (acc : List Int)
    (h : ∀ p ∈ ps, f p < acc.length) :
    (ps.foldl (fun acc p => Poly.addAt acc (f p) (g p)) acc).length = acc.length ∧
    listPoly (ps.foldl (fun acc p => Poly.addAt acc (f p) (g p)) acc) =
      listPoly acc + (ps.map fun p => C (g p) * X ^ (f p)).sum := by
  induction ps generalizing acc with
  | nil => simp
  | cons p ps ih =>
    have h1 := h p (by simp)
    obtain ⟨h2, h3⟩ := ih (Poly.addAt acc (f p) (g p)) (by intro q hq; simpa using h q (by simp [hq]))
    simp only [List.foldl_cons, List.map_cons, List.sum_cons]
    refine ⟨by simpa using h2, ?_⟩
    rw [h3, listPoly_addAt _ _ _ h1]; ring

theorem listPoly_convolve (a b : List Int) : listPoly (Poly.convolve a b) = listPoly a * listPoly b := by
  have key : ∀ (ps : List (Nat × Int)) (acc : List Int), (∀ p ∈ ps, p.1 < a.length) →
      acc.length = a.length + b.length →
      listPoly (ps.foldl (fun acc ic => (Poly.enum b).foldl
        (fun acc jd => Poly.addAt acc (ic.1 + jd.1) (ic.2 * jd.2)) acc) acc) =
      listPoly acc + (ps.map fun p => C p.2 * X ^ p.1).sum * listPoly b := by
    intro ps
    induction ps with
    | nil => intro acc; simp
    | cons p ps ih =>
      intro acc h hl
      have hp := h p (by simp)
      obtain ⟨h2, h3⟩ := listPoly_foldl_addAt (Poly.enum b) (fun jd => p.1 + jd.1) (fun jd => p.2 * jd.2) acc
        (by intro q hq; have := enum_lt hq; omega)
      rw [List.foldl_cons, ih _ (fun q hq => h q (by simp [hq])) (by rw [h2]; exact hl), h3]
      simp only [List.map_cons, List.sum_cons, add_mul, ← sum_enum b]
      rw [← List.sum_map_mul_left (r := C p.2 * X ^ p.1)]
      have : (List.map (fun p_1 => C (p.2 * p_1.2) * X ^ (p.1 + p_1.1)) (Poly.enum b)) =
          (List.map (fun i => C p.2 * X ^ p.1 * (C i.2 * X ^ i.1)) (Poly.enum b)) := by
        apply List.map_congr_left; intro q _; simp [pow_add]; ring
      rw [this]; ring
  rw [Poly.convolve, key _ _ (fun p hp => enum_lt hp) (by simp), listPoly_replicate, sum_enum, zero_add]

namespace Poly

theorem trimEnd_le (l : List Int) (e : Nat) : trimEnd l e ≤ e := by
  induction e with
  | zero => simp [trimEnd]
  | succ e ih => unfold trimEnd; split <;> omega

theorem trimEnd_zero (l : List Int) (e k : Nat) (h1 : trimEnd l e ≤ k) (h2 : k < e) : l.getD k 0 = 0 := by
  induction e with
  | zero => omega
  | succ e ih =>
    unfold trimEnd at h1
    split at h1
    · rename_i h
      by_cases hk : k = e
      · rw [hk]; exact h
      · exact ih h1 (by omega)
    · omega

theorem trimEnd_last (l : List Int) (e k : Nat) (h : trimEnd l e = k + 1) : l.getD k 0 ≠ 0 := by
  induction e with
  | zero => simp [trimEnd] at h
  | succ e ih =>
    unfold trimEnd at h
    split at h
    · exact ih h
    · rename_i h'; have : k = e := by omega
      rw [this]; exact h'

theorem make_getD (l : List Int) (k : Nat) : (make l).coeffs.getD k 0 = l.getD k 0 := by
  have hle := trimEnd_le l l.length
  simp only [make]
  by_cases h : k < trimEnd l l.length
  · have h2 : k < l.length := by omega
    simp [List.getElem?_take, h, h2]
  · have : l.getD k 0 = 0 := by
      by_cases h2 : k < l.length
      · exact trimEnd_zero l _ k (by omega) h2
      · simp [List.getD_eq_getElem?_getD, List.getElem?_eq_none (by omega : l.length ≤ k)]
    rw [this]
    simp [List.getElem?_take, h]

@[simp] theorem den_make (l : List Int) : (make l).den = listPoly l := by
  ext k; rw [Poly.den, coeff_listPoly, coeff_listPoly, make_getD]

theorem trimmed_iff (p : Poly) : p.Trimmed ↔ ∀ k, p.coeffs.length = k + 1 → p.coeffs.getD k 0 ≠ 0 := by
  unfold Trimmed
  rw [List.getLast?_eq_getElem?]
  constructor
  · intro h k hk h2
    apply h
    rw [hk]
    simp only [Nat.add_sub_cancel]
    rw [List.getD_eq_getElem?_getD, List.getElem?_eq_getElem (by omega)] at h2
    rw [List.getElem?_eq_getElem (by omega)]
    simpa using h2
  · intro h h2
    have hl : 0 < p.coeffs.length := by
      by_contra hc
      have : p.coeffs = [] := by simpa using hc
      simp [this] at h2
    refine h (p.coeffs.length - 1) (by omega) ?_
    simp [h2]

theorem trimmed_make (l : List Int) : (make l).Trimmed := by
  rw [trimmed_iff]
  intro k hk
  rw [make_getD]
  have hle := trimEnd_le l l.length
  simp only [make, List.length_take] at hk
  exact trimEnd_last l l.length k (by omega)

theorem Trimmed.den_inj {p q : Poly} (hp : p.Trimmed) (hq : q.Trimmed) (h : p.den = q.den) : p = q := by
  have hc : ∀ k, p.coeffs.getD k 0 = q.coeffs.getD k 0 := by
    intro k; rw [← coeff_listPoly, ← coeff_listPoly]; exact congrArg (·.coeff k) h
  rw [trimmed_iff] at hp hq
  have hlen : p.coeffs.length = q.coeffs.length := by
    rcases lt_trichotomy p.coeffs.length q.coeffs.length with hl | hl | hl
    · obtain ⟨k, hk⟩ : ∃ k, q.coeffs.length = k + 1 := ⟨q.coeffs.length - 1, by omega⟩
      exfalso; apply hq k hk; rw [← hc]
      simp [List.getD_eq_getElem?_getD, List.getElem?_eq_none (by omega : p.coeffs.length ≤ k)]
    · exact hl
    · obtain ⟨k, hk⟩ : ∃ k, p.coeffs.length = k + 1 := ⟨p.coeffs.length - 1, by omega⟩
      exfalso; apply hp k hk; rw [hc]
      simp [List.getD_eq_getElem?_getD, List.getElem?_eq_none (by omega : q.coeffs.length ≤ k)]
  cases p; cases q
  simp only [mk.injEq]
  apply List.ext_getElem hlen
  intro i h1 h2
  have := hc i
  simpa [List.getD_eq_getElem?_getD, List.getElem?_eq_getElem h1, List.getElem?_eq_getElem h2] using this

theorem den_add (a b : Poly) : (add a b).den = a.den + b.den := by
  rw [add, den_make, listPoly_zipLongest_add]; rfl
theorem den_sub (a b : Poly) : (sub a b).den = a.den - b.den := by
  rw [sub, den_make, listPoly_zipLongest_sub]; rfl
theorem den_addInt (a : Poly) (k : Int) : (addInt a k).den = a.den + C k := by
  rw [addInt, den_make, listPoly_zipLongest_add]; simp [Poly.den]
theorem den_subInt (a : Poly) (k : Int) : (subInt a k).den = a.den - C k := by
  rw [subInt, den_make, listPoly_zipLongest_sub]; simp [Poly.den]
theorem den_neg (a : Poly) : (neg a).den = - a.den := by
  rw [neg, den_make, listPoly_map_neg]; rfl
theorem den_mul (a b : Poly) : (mul a b).den = a.den * b.den := by
  rw [mul, den_make, listPoly_convolve]; rfl
theorem den_mulInt (a : Poly) (k : Int) : (mulInt a k).den = a.den * C k := by
  rw [mulInt, den_make, listPoly_map_mul]; rfl

theorem den_powNat (a : Poly) (n : Nat) : (powNat a n).den = a.den ^ n := by
  induction n using Nat.strong_induction_on with
  | _ n ih =>
    unfold powNat
    split
    · simp_all
    · split
      · simp_all
      · have h := ih (n / 2) (by omega)
        simp only
        split
        · rw [den_mul, h, ← pow_add]; congr 1; omega
        · rw [den_mul, den_mul, h, ← pow_add, ← pow_succ]; congr 1; omega

theorem trimmed_powNat (a : Poly) (ha : a.Trimmed) (n : Nat) : (powNat a n).Trimmed := by
  unfold powNat
  split
  · exact trimmed_make _
  · split
    · exact ha
    · simp only; split <;> exact trimmed_make _

theorem den_eq_zero_iff {p : Poly} (hp : p.Trimmed) : p.den = 0 ↔ p.coeffs = [] := by
  constructor
  · intro h
    have : p = make [] := hp.den_inj (trimmed_make _) (by simp [h])
    rw [this]; rfl
  · intro h; simp [Poly.den, h]

theorem natDegree_den {p : Poly} (hp : p.Trimmed) : p.den.natDegree = p.coeffs.length - 1 := by
  by_cases h : p.coeffs = []
  · simp [Poly.den, h]
  · have hl : 0 < p.coeffs.length := List.length_pos_iff.2 h
    apply natDegree_eq_of_le_of_coeff_ne_zero
    · rw [natDegree_le_iff_coeff_eq_zero]
      intro N hN
      rw [Poly.den, coeff_listPoly, List.getD_eq_getElem?_getD, List.getElem?_eq_none (by omega)]; rfl
    · rw [Poly.den, coeff_listPoly]
      exact (trimmed_iff p).1 hp _ (by omega)

theorem degree_den {p : Poly} (hp : p.Trimmed) (h : p.coeffs ≠ []) : p.den.degree = ((p.coeffs.length - 1 : ℕ) : WithBot ℕ) := by
  rw [degree_eq_natDegree (by rwa [Ne, den_eq_zero_iff hp]), natDegree_den hp]

theorem degree_den_lt (p : Poly) : p.den.degree < (p.coeffs.length : WithBot ℕ) := by
  rw [degree_lt_iff_coeff_zero]
  intro m hm
  rw [Poly.den, coeff_listPoly, List.getD_eq_getElem?_getD, List.getElem?_eq_none (by omega)]; rfl

theorem length_le_of_degree {p : Poly} (hp : p.Trimmed) {m : ℕ} (h : p.den.degree < (m : WithBot ℕ)) :
    p.coeffs.length ≤ m := by
  by_contra hc
  have hne : p.coeffs ≠ [] := by intro h0; simp [h0] at hc
  rw [degree_den hp hne] at h
  have : p.coeffs.length - 1 < m := by exact_mod_cast h
  omega

theorem den_evaluate (p x : Poly) : (evaluate p x).den = p.den.comp x.den := by
  have key : ∀ (ps : List (Nat × Int)) (acc : Poly),
      ((ps.filter fun ic => ic.2 ≠ 0).foldl (fun acc ic => add (mulInt (powNat x ic.1) ic.2) acc) acc).den
        = acc.den + (ps.map fun p => C p.2 * x.den ^ p.1).sum := by
    intro ps
    induction ps with
    | nil => simp
    | cons q qs ih =>
      intro acc
      by_cases hq : q.2 = 0
      · simp only [ne_eq, hq, not_true_eq_false, decide_false, List.filter_cons, Bool.false_eq_true, ↓reduceIte,
          List.map_cons, C_0, zero_mul, List.sum_cons, zero_add]
        exact ih acc
      · simp only [List.filter_cons, ne_eq, hq, not_false_eq_true, decide_true, ↓reduceIte, List.foldl_cons,
          List.map_cons, List.sum_cons]
        have := ih (add (mulInt (powNat x q.1) q.2) acc)
        simp only [ne_eq] at this
        rw [this, den_add, den_mulInt, den_powNat]; ring
  rw [evaluate, key]
  simp only [den_make, listPoly_nil, zero_add]
  rw [show p.den = listPoly p.coeffs from rfl, ← sum_enum p.coeffs]
  generalize enum p.coeffs = ps
  induction ps with
  | nil => simp
  | cons q qs ih => rw [List.map_cons, List.sum_cons, ih, List.map_cons, List.sum_cons, add_comp]; simp

theorem trimmed_evaluate (p x : Poly) : (evaluate p x).Trimmed := by
  have : ∀ (ps : List (Nat × Int)) (acc : Poly), acc.Trimmed →
      (ps.foldl (fun acc ic => add (mulInt (powNat x ic.1) ic.2) acc) acc).Trimmed := by
    intro ps
    induction ps with
    | nil => intro acc h; exact h
    | cons q qs ih => intro acc _; exact ih _ (trimmed_make _)
  exact this _ _ (trimmed_make _)

theorem X_pow_mul_inj {A B : ℤ[X]} (hA : A.coeff 0 ≠ 0) (hB : B.coeff 0 ≠ 0) {a b : Nat}
    (h : X ^ a * A = X ^ b * B) : a = b ∧ A = B := by
  have key : ∀ {A B : ℤ[X]} (_ : A.coeff 0 ≠ 0) (_ : B.coeff 0 ≠ 0) {a b : Nat}
    (_ : X ^ a * A = X ^ b * B) (_ : a ≤ b), a = b ∧ A = B := by
    intro A B hA hB a b h hab
    obtain ⟨c, rfl⟩ := Nat.exists_eq_add_of_le hab
    rw [pow_add, mul_assoc] at h
    have h' := mul_left_cancel₀ (pow_ne_zero a X_ne_zero) h
    cases c with
    | zero => simpa using h'
    | succ c => exfalso; apply hA; rw [h', pow_succ]; simp
  rcases le_total a b with hab | hab
  · exact key hA hB h hab
  · obtain ⟨h1, h2⟩ := key hB hA h.symm hab; exact ⟨h1.symm, h2.symm⟩

end Poly
end Peyl
