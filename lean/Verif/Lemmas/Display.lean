import Verif.Model.Display
import Verif.Spec.Display
import Verif.Spec.Poly
import Verif.Lemmas.Adapter
/-!
# Reading back what `LPoly.fmt` and `Poly.__repr__` print
-/
namespace Peyl.Display
open LaurentPolynomial Adapter

theorem words_plain {a : List Char} (h : ' ' ∉ a) : words a = [a] := by
  induction a with
  | nil => rfl
  | cons c a ih =>
    rw [List.mem_cons, not_or] at h
    rw [words, if_neg (Ne.symm h.1), ih h.2]

theorem words_cons {a : List Char} (h : ' ' ∉ a) (s : List Char) : words (a ++ ' ' :: s) = a :: words s := by
  induction a with
  | nil => simp [words]
  | cons c a ih =>
    rw [List.mem_cons, not_or] at h
    rw [List.cons_append, words, if_neg (Ne.symm h.1), ih h.2]

/-- The loops of `LPoly.fmt` and `Poly.__repr__`, for a given text of the unsigned terms. -/
def gLoop (B : Int → Int → List Char) : List (Int × Int) → List (List Char) → List (List Char)
  | [], parts => parts
  | (i, c) :: l, parts => if c = 0 then gLoop B l parts else gLoop B l (parts ++ [signText parts.isEmpty c ++ B i c])

/-- What is needed of the text `B i c`, which should stand for `V i c`. -/
structure Good (B : Int → Int → List Char) (V : Int → Int → ℤ[T;T⁻¹]) : Prop where
  space : ∀ i c, ' ' ∉ B i c
  minus : ∀ i c, c ≠ 0 → ∃ a s, B i c = a :: s ∧ a ≠ '-'
  val : ∀ i c, c ≠ 0 → termVal (B i c) = V i c

/-- A signed term. -/
noncomputable def sgn (V : Int → Int → ℤ[T;T⁻¹]) (ic : Int × Int) : ℤ[T;T⁻¹] :=
  if ic.2 = 0 then 0 else if ic.2 < 0 then - V ic.1 ic.2 else V ic.1 ic.2

variable {B : Int → Int → List Char} {V : Int → Int → ℤ[T;T⁻¹]}

theorem gLoop_tail (G : Good B V) (l : List (Int × Int)) (parts : List (List Char)) (hne : parts ≠ []) :
    ∃ s, (gLoop B l parts).flatten = parts.flatten ++ s ∧
      ∀ a, ' ' ∉ a → ∃ ws, words (a ++ s) = a :: ws ∧ tailVal ws = (l.map (sgn V)).sum := by
  induction l generalizing parts with
  | nil => exact ⟨[], by simp [gLoop], fun a ha => ⟨[], by simp [words_plain ha], by simp [tailVal]⟩⟩
  | cons ic l ih =>
    obtain ⟨i, c⟩ := ic
    by_cases hc : c = 0
    · obtain ⟨s, s1, s2⟩ := ih parts hne
      refine ⟨s, by rw [gLoop, if_pos hc, s1], fun a ha => ?_⟩
      obtain ⟨ws, w1, w2⟩ := s2 a ha
      exact ⟨ws, w1, by rw [w2]; simp [sgn, hc]⟩
    · obtain ⟨s, s1, s2⟩ := ih (parts ++ [signText parts.isEmpty c ++ B i c]) (by simp)
      have he : parts.isEmpty = false := by cases parts with
        | nil => exact absurd rfl hne
        | cons => rfl
      refine ⟨signText false c ++ B i c ++ s, by rw [gLoop, if_neg hc, s1, he]; simp, fun a ha => ?_⟩
      obtain ⟨ws, w1, w2⟩ := s2 (B i c) (G.space i c)
      rcases lt_or_gt_of_ne hc with h | h
      · refine ⟨['-'] :: B i c :: ws, ?_, ?_⟩
        · simp only [signText, h, not_lt_of_gt h, gt_iff_lt, false_and, if_false, List.append_assoc]
          simp only [Bool.false_eq_true, not_false_eq_true, and_self, if_true, List.cons_append, List.nil_append]
          rw [words_cons ha, show ('-' :: ' ' :: (B i c ++ s)) = ['-'] ++ ' ' :: (B i c ++ s) from rfl, words_cons (by decide), w1]
        · rw [tailVal, if_pos rfl, w2, List.map_cons, List.sum_cons, G.val i c hc]
          simp [sgn, hc, h]
      · refine ⟨['+'] :: B i c :: ws, ?_, ?_⟩
        · simp only [signText, h, gt_iff_lt, List.append_assoc]
          simp only [Bool.false_eq_true, not_false_eq_true, and_self, if_true, List.cons_append, List.nil_append]
          rw [words_cons ha, show ('+' :: ' ' :: (B i c ++ s)) = ['+'] ++ ' ' :: (B i c ++ s) from rfl, words_cons (by decide), w1]
        · rw [tailVal, if_neg (by decide), w2, List.map_cons, List.sum_cons, G.val i c hc]
          simp [sgn, hc, not_lt_of_gt h]

theorem gLoop_read (G : Good B V) (l : List (Int × Int)) (h : ∃ ic ∈ l, ic.2 ≠ 0) :
    ∃ w ws, words (gLoop B l []).flatten = w :: ws ∧ headVal w + tailVal ws = (l.map (sgn V)).sum := by
  induction l with
  | nil => simp at h
  | cons ic l ih =>
    obtain ⟨i, c⟩ := ic
    by_cases hc : c = 0
    · obtain ⟨w, ws, h1, h2⟩ := ih (by
        obtain ⟨ic, h1, h2⟩ := h
        rcases List.mem_cons.1 h1 with rfl | h1
        · exact absurd hc h2
        · exact ⟨ic, h1, h2⟩)
      exact ⟨w, ws, by rw [gLoop, if_pos hc, h1], by rw [h2]; simp [sgn, hc]⟩
    · obtain ⟨s, s1, s2⟩ := gLoop_tail G l [signText true c ++ B i c] (by simp)
      have hv := G.val i c hc
      rcases lt_or_gt_of_ne hc with h | h
      · have hs : signText true c = ['-'] := by simp [signText, h, not_lt_of_gt h]
        obtain ⟨ws, w1, w2⟩ := s2 ('-' :: B i c) (by simpa using G.space i c)
        refine ⟨_, ws, by rw [gLoop, if_neg hc, List.nil_append, List.isEmpty_nil, s1, hs]; simpa using w1, ?_⟩
        rw [headVal, hv, w2]; simp [sgn, hc, h]
      · have hs : signText true c = [] := by simp [signText, h]
        obtain ⟨ws, w1, w2⟩ := s2 (B i c) (G.space i c)
        refine ⟨_, ws, by rw [gLoop, if_neg hc, List.nil_append, List.isEmpty_nil, s1, hs]; simpa using w1, ?_⟩
        obtain ⟨a, s, e, ha⟩ := G.minus i c hc
        have : headVal (B i c) = termVal (B i c) := by
          rw [e]; unfold headVal
          split
          · rename_i e'; exact absurd (List.cons.inj e').1 ha
          · rfl
        rw [this, hv, w2]; simp [sgn, hc, not_lt_of_gt h]

/-! Terms. -/

theorem isDig_iff (c : Char) : isDig c = c.isDigit := by
  unfold isDig Char.isDigit
  rw [Bool.eq_iff_iff]
  simp only [Bool.and_eq_true, decide_eq_true_eq, ge_iff_le]
  rw [UInt32.le_iff_toNat_le, UInt32.le_iff_toNat_le]
  rfl

theorem digitsVal_repr (k : Nat) : digitsVal (reprNat k) = k := reprNat_val k

theorem intVal_repr (z : Int) : intVal (reprInt z) = z := by
  cases z with
  | ofNat k =>
    rw [reprInt]
    obtain ⟨c, l, h, hc⟩ := reprNat_cons k
    have : c ≠ '-' := (isDig_ne hc).2.2.2.2.1
    have h2 := digitsVal_repr k
    rw [h] at h2 ⊢
    unfold intVal
    split
    · rename_i e; exact absurd (List.cons.inj e).1 this
    · rw [h2]; rfl
  | negSucc k => rw [reprInt, intVal, digitsVal_repr]; rfl

theorem digit_take (k : Nat) (r : List Char) (hr : r.head?.all (fun c => !c.isDigit) = true) :
    (reprNat k ++ r).takeWhile Char.isDigit = reprNat k ∧ (reprNat k ++ r).dropWhile Char.isDigit = r := by
  have h : ∀ c ∈ reprNat k, c.isDigit = true := fun c hc => by rw [← isDig_iff]; exact reprNat_digits k c hc
  rw [List.takeWhile_append_of_pos h, List.dropWhile_append_of_pos h]
  cases r with
  | nil => simp
  | cons c r =>
    have : c.isDigit = false := by simpa using hr
    simp [List.takeWhile_cons, List.dropWhile_cons, this]

theorem repr_noSpace (k : Nat) : ' ' ∉ reprNat k := fun h => (isDig_ne (reprNat_digits k _ h)).1 rfl

theorem reprInt_noSpace (z : Int) : ' ' ∉ reprInt z := by
  cases z with
  | ofNat k => exact repr_noSpace k
  | negSucc k => simpa [reprInt] using repr_noSpace (k + 1)

/-- The exponent part of a term. -/
def expText (x : Char) (i : Int) : List Char := if i = 0 then [] else if i = 1 then [x] else [x, '^'] ++ reprInt i

theorem exp_val (x : Char) (i : Int) : expVal (expText x i) = i := by
  unfold expText
  by_cases h0 : i = 0
  · rw [if_pos h0, h0]; rfl
  · rw [if_neg h0]
    by_cases h1 : i = 1
    · rw [if_pos h1, h1]; rfl
    · rw [if_neg h1]; exact intVal_repr i

theorem termVal_text (x : Char) (hx : x.isDigit = false) (cs : List Char) (k : Nat) (i : Int) (h : cs = reprNat k ∨ (cs = [] ∧ k = 1)) :
    termVal (cs ++ expText x i) = C (k : ℤ) * T i := by
  have hh : (expText x i).head?.all (fun c => !c.isDigit) = true := by
    unfold expText; split
    · rfl
    · split <;> simp [hx]
  unfold termVal
  rcases h with rfl | ⟨rfl, rfl⟩
  · obtain ⟨h1, h2⟩ := digit_take k _ hh
    simp only [h1, h2, if_neg (reprNat_ne_nil k), digitsVal_repr]
    rw [exp_val]
  · have h1 : (expText x i).takeWhile Char.isDigit = [] ∧ (expText x i).dropWhile Char.isDigit = expText x i := by
      cases he : expText x i with
      | nil => simp
      | cons c r =>
        have : c.isDigit = false := by rw [he] at hh; simpa using hh
        simp [List.takeWhile_cons, List.dropWhile_cons, this]
    simp only [List.nil_append, h1.1, h1.2, if_true]
    rw [exp_val]; simp

end Peyl.Display
