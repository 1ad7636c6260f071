import Verif.Lemmas.Display
import Verif.Props.Poly
/-!
# Printing (C92, C93)
-/
namespace Peyl
open LaurentPolynomial Adapter Display

theorem enumFrom_sum (v : Int) (cs : List Int) :
    ((enumFrom v cs).map fun ic => (C ic.2 * T ic.1 : ℤ[T;T⁻¹])).sum = T v * Polynomial.toLaurent (listPoly cs) := by
  induction cs generalizing v with
  | nil => simp [enumFrom, listPoly]
  | cons c cs ih =>
    rw [enumFrom, List.map_cons, List.sum_cons, ih, listPoly_cons]
    simp only [map_add, map_mul, Polynomial.toLaurent_C, Polynomial.toLaurent_X, mul_add, T_add]
    ring

namespace LPoly

theorem good : Good (fun i c => fmtCoeff i c ++ fmtTerm false i) (fun i c => C (c.natAbs : ℤ) * T i) := by
  have ht : ∀ i, fmtTerm false i = expText 'v' i := fun i => by simp [fmtTerm, expText]
  refine ⟨fun i c => ?_, fun i c hc => ?_, fun i c hc => ?_⟩
  · rw [ht]
    unfold fmtCoeff expText
    have h1 := repr_noSpace c.natAbs
    have h2 := reprInt_noSpace i
    split_ifs <;> simp_all
  · rw [ht]
    unfold fmtCoeff expText
    obtain ⟨a, l, h, ha⟩ := reprNat_cons c.natAbs
    have := (isDig_ne ha).2.2.2.2.1
    split_ifs <;> simp_all
  · rw [ht]
    refine termVal_text 'v' (by decide) _ _ _ ?_
    unfold fmtCoeff
    split
    · exact .inl rfl
    · split
      · right; constructor
        · rfl
        · assumption
      · exact .inl rfl

theorem fmtLoop_eq (l : List (Int × Int)) (parts : List (List Char)) : fmtLoop false l parts = gLoop (fun i c => fmtCoeff i c ++ fmtTerm false i) l parts := by
  induction l generalizing parts with
  | nil => rfl
  | cons ic l ih => rw [fmtLoop, gLoop]; split <;> rw [ih]; simp [List.append_assoc]

/-- The reader ignores braces. -/
def brace (c : Char) : Bool := c != '{' && c != '}'

theorem brace_repr (k : Nat) : (reprNat k).filter brace = reprNat k :=
  List.filter_eq_self.2 fun c hc => by
    have := reprNat_digits k c hc
    revert this
    unfold brace
    by_cases h1 : c = '{'
    · subst h1; decide
    · by_cases h2 : c = '}'
      · subst h2; decide
      · simp [h1, h2]

theorem brace_reprInt (z : Int) : (reprInt z).filter brace = reprInt z := by
  cases z with
  | ofNat k => exact brace_repr k
  | negSucc k => rw [reprInt, List.filter_cons_of_pos (by decide), brace_repr]

theorem brace_term (latex : Bool) (i : Int) : (fmtTerm latex i).filter brace = fmtTerm false i := by
  unfold fmtTerm
  split
  · rfl
  · split
    · rfl
    · cases latex
      · simp only [Bool.false_eq_true, if_false, List.filter_append, brace_reprInt]; rfl
      · simp only [if_true, Bool.false_eq_true, if_false, List.filter_append, brace_reprInt]
        show ['v', '^'] ++ reprInt i ++ [] = _
        simp

theorem brace_coeff (i c : Int) : (fmtCoeff i c).filter brace = fmtCoeff i c := by
  unfold fmtCoeff; split
  · exact brace_repr _
  · split
    · rfl
    · exact brace_repr _

theorem brace_sign (b : Bool) (c : Int) : (signText b c).filter brace = signText b c := by
  unfold signText; split
  · rfl
  · split
    · rfl
    · split <;> rfl

theorem brace_loop (latex : Bool) (l : List (Int × Int)) (parts : List (List Char)) :
    (fmtLoop latex l parts).map (List.filter brace) = fmtLoop false l (parts.map (List.filter brace)) := by
  induction l generalizing parts with
  | nil => rfl
  | cons ic l ih =>
    rw [fmtLoop, fmtLoop]
    split
    · rw [ih]
    · rw [ih]
      simp [List.filter_append, brace_sign, brace_coeff, brace_term]

theorem brace_fmt (latex : Bool) (p : LPoly) : (fmt latex p).filter brace = fmt false p := by
  unfold fmt
  split
  · rfl
  · rw [List.filter_flatten, brace_loop]; rfl

theorem read_fmt (latex : Bool) (p : LPoly) (hp : p.Trimmed) : Display.read (fmt latex p) = p.den := by
  unfold Display.read
  rw [show (fun c => c != '{' && c != '}') = brace from rfl, brace_fmt]
  unfold fmt
  by_cases h0 : p.coeffs.length = 0
  · rw [if_pos h0]
    have hc : p.coeffs = [] := List.length_eq_zero_iff.1 h0
    have : words ['0'] = [['0']] := by decide
    rw [this]
    simp only [LPoly.den, hc]
    have ht : termVal ['0'] = 0 := by
      have : (['0'] : List Char).takeWhile Char.isDigit = ['0'] := by decide
      simp [termVal, this, digitsVal]
    show headVal ['0'] + tailVal [] = _
    rw [show headVal ['0'] = termVal ['0'] from rfl, ht]
    simp [tailVal, listPoly]
  · rw [if_neg h0, fmtLoop_eq]
    obtain ⟨w, ws, h1, h2⟩ := gLoop_read good (enumFrom p.val p.coeffs).reverse (by
      have hne : p.coeffs ≠ [] := fun h => h0 (by rw [h]; rfl)
      obtain ⟨c, cs, hc⟩ := List.exists_cons_of_ne_nil hne
      refine ⟨(p.val, c), by rw [List.mem_reverse, hc, enumFrom]; simp, ?_⟩
      have := hp.2.1; rw [hc] at this; simpa using this)
    rw [h1]
    simp only [h2]
    rw [List.map_reverse, List.sum_reverse, LPoly.den, ← enumFrom_sum]
    congr 1
    refine List.map_congr_left fun ic _ => ?_
    obtain ⟨i, c⟩ := ic
    simp only [sgn]
    split
    · simp_all
    · split
      · rename_i h; rw [← neg_mul, ← map_neg]; congr 2; omega
      · congr 2; omega

end LPoly

/-! ## C92 -/

/-- C92: the printed form of a Laurent polynomial (in both modes) reads back as that polynomial. -/
theorem C92_read (latex : Bool) (p : LPoly) (hp : p.Trimmed) : Display.read (p.fmt latex) = p.den := p.read_fmt latex hp

/-- C92: so objects print alike only if they are equal. -/
theorem C92_injective (p q : LPoly) (hp : p.Trimmed) (hq : q.Trimmed) : (∀ latex, p.fmt latex = q.fmt latex ↔ p = q) ∧ (p.repr = q.repr ↔ p = q) := by
  have key : ∀ latex, p.fmt latex = q.fmt latex → p = q := fun latex h =>
    (C31_lpoly_canonical p q hp hq).1.2 (by rw [← C92_read latex p hp, ← C92_read latex q hq, h])
  refine ⟨fun latex => ⟨key latex, fun h => by rw [h]⟩, fun h => ?_, fun h => by rw [h]⟩
  exact key false (List.append_cancel_left (List.append_cancel_right h))

/-- The two printed forms of a concrete Laurent polynomial. -/
example : (LPoly.fmt false ⟨-1, [1, 0, -2, 0, 1]⟩) = "v^3 - 2v + v^-1".toList ∧ (LPoly.fmt true ⟨-2, [-1, 0, 12]⟩) = "12 - v^{-2}".toList ∧
    (⟨-2, [-1, 0, 12]⟩ : LPoly).Trimmed := by decide

/-! ## C93 -/

namespace Poly

theorem good : Good (fun i c => fmtCoeff i c ++ fmtTerm i) (fun i c => C ((if i = 0 then 1 else c.natAbs : ℕ) : ℤ) * T i) := by
  have ht : ∀ i, fmtTerm i = expText 'x' i := fun i => by simp [fmtTerm, expText]
  refine ⟨fun i c => ?_, fun i c hc => ?_, fun i c hc => ?_⟩
  · rw [ht]
    unfold fmtCoeff expText
    have h1 := repr_noSpace c.natAbs
    have h2 := reprInt_noSpace i
    split_ifs <;> simp_all
  · rw [ht]
    unfold fmtCoeff expText
    obtain ⟨a, l, h, ha⟩ := reprNat_cons c.natAbs
    have := (isDig_ne ha).2.2.2.2.1
    split_ifs <;> simp_all
  · rw [ht]
    refine termVal_text 'x' (by decide) _ _ _ ?_
    unfold fmtCoeff
    split_ifs with h1 h2
    · left; simp [reprNat]; decide
    · right; exact ⟨rfl, h2⟩
    · exact .inl rfl

theorem fmtLoop_eq (l : List (Int × Int)) (parts : List (List Char)) : fmtLoop l parts = gLoop (fun i c => fmtCoeff i c ++ fmtTerm i) l parts := by
  induction l generalizing parts with
  | nil => rfl
  | cons ic l ih => rw [fmtLoop, gLoop]; split <;> rw [ih]; simp [List.append_assoc]

theorem brace_loop (l : List (Int × Int)) (parts : List (List Char)) (h : parts.map (List.filter LPoly.brace) = parts) :
    (fmtLoop l parts).map (List.filter LPoly.brace) = fmtLoop l parts := by
  induction l generalizing parts with
  | nil => exact h
  | cons ic l ih =>
    rw [fmtLoop]
    split
    · exact ih _ h
    · refine ih _ ?_
      have h1 : ∀ i, (fmtTerm i).filter LPoly.brace = fmtTerm i := by
        intro i; unfold fmtTerm; split_ifs
        · rfl
        · rfl
        · rw [List.filter_append, LPoly.brace_reprInt]; rfl
      have h2 : ∀ i c, (fmtCoeff i c).filter LPoly.brace = fmtCoeff i c := by
        intro i c; unfold fmtCoeff; split_ifs
        · rfl
        · rfl
        · exact LPoly.brace_repr _
      simp [List.filter_append, LPoly.brace_sign, h1, h2, h]

theorem read_body (p : Poly) (hp : p.Trimmed) :
    Display.read (body p) = Polynomial.toLaurent (p.den - Polynomial.C (p.den.coeff 0) + Polynomial.C (p.den.coeff 0).sign) := by
  have hb : (body p).filter LPoly.brace = body p := by
    unfold body; split
    · rfl
    · rw [List.filter_flatten, brace_loop _ [] rfl]
  unfold Display.read
  rw [show (fun c => c != '{' && c != '}') = LPoly.brace from rfl, hb]
  unfold body
  by_cases h0 : p.coeffs.length = 0
  · rw [if_pos h0]
    have hc : p.coeffs = [] := List.length_eq_zero_iff.1 h0
    have : words ['0'] = [['0']] := by decide
    rw [this]
    simp only [Poly.den, hc]
    have ht : termVal ['0'] = 0 := by
      have : (['0'] : List Char).takeWhile Char.isDigit = ['0'] := by decide
      simp [termVal, this, digitsVal]
    show headVal ['0'] + tailVal [] = _
    rw [show headVal ['0'] = termVal ['0'] from rfl, ht]
    simp [tailVal, listPoly]
  · rw [if_neg h0, fmtLoop_eq]
    have hne : p.coeffs ≠ [] := fun h => h0 (by rw [h]; rfl)
    obtain ⟨w, ws, h1, h2⟩ := gLoop_read good (enumFrom 0 p.coeffs).reverse (by
      have hm : ∀ (v : Int) (cs : List Int) (h : cs ≠ []), ∃ i, (i, cs.getLast h) ∈ enumFrom v cs := by
        intro v cs
        induction cs generalizing v with
        | nil => intro h; exact absurd rfl h
        | cons c cs ih =>
          intro _
          by_cases hcs : cs = []
          · subst hcs; exact ⟨v, by simp [enumFrom]⟩
          · obtain ⟨i, hi⟩ := ih (v + 1) hcs
            exact ⟨i, by rw [List.getLast_cons hcs, enumFrom]; exact List.mem_cons_of_mem _ hi⟩
      obtain ⟨i, hi⟩ := hm 0 p.coeffs hne
      refine ⟨_, List.mem_reverse.2 hi, ?_⟩
      have := hp
      rw [Poly.Trimmed, List.getLast?_eq_some_getLast hne] at this
      simpa using this)
    rw [h1]
    simp only [h2]
    rw [List.map_reverse, List.sum_reverse]
    obtain ⟨c, cs, hc⟩ := List.exists_cons_of_ne_nil hne
    have hcs : ∀ (v : Int), 0 < v → ((enumFrom v cs).map (sgn fun i c => C ((if i = 0 then 1 else c.natAbs : ℕ) : ℤ) * T i)).sum =
        T v * Polynomial.toLaurent (listPoly cs) := by
      intro v hv
      rw [← enumFrom_sum]
      congr 1
      have hpos : ∀ ic ∈ enumFrom v cs, 0 < ic.1 := by
        clear hc
        induction cs generalizing v with
        | nil => simp [enumFrom]
        | cons c cs ih =>
          intro ic hic
          rcases List.mem_cons.1 hic with rfl | hic
          · exact hv
          · exact ih (v + 1) (by omega) ic hic
      refine List.map_congr_left fun ic hic => ?_
      have := hpos ic hic
      obtain ⟨i, c⟩ := ic
      have hi0 : ¬ i = 0 := this.ne'
      simp only [sgn, if_neg hi0]
      by_cases hc0 : c = 0
      · simp [hc0]
      · rw [if_neg hc0]
        split
        · rename_i h; rw [← neg_mul, ← map_neg]; congr 2; omega
        · congr 2; omega
    rw [hc, enumFrom, List.map_cons, List.sum_cons, zero_add, hcs 1 (by norm_num), Poly.den, hc]
    simp only [listPoly_cons, map_add, map_mul, map_sub, Polynomial.toLaurent_C, Polynomial.toLaurent_X, Polynomial.coeff_add, Polynomial.coeff_C_zero,
      Polynomial.mul_coeff_zero, Polynomial.coeff_X_zero, zero_mul, add_zero, sgn, if_true]
    rcases lt_trichotomy c 0 with h | h | h
    · rw [if_neg h.ne, if_pos h, Int.sign_eq_neg_one_of_neg h]; simp; ring
    · subst h; simp
    · rw [if_neg h.ne', if_neg (not_lt_of_gt h), Int.sign_eq_one_of_pos h]; simp; ring

end Poly

/-- C93: `repr` prints every coefficient except the constant one, of which it prints only the sign.  Missing for the full statement:
the constant coefficient (`C93_refuted`). -/
theorem C93_read_partial (p : Poly) (hp : p.Trimmed) :
    p.repr = ['P', 'o', 'l', 'y', '(', '\''] ++ p.body ++ ['\'', ')'] ∧
    Display.read p.body = Polynomial.toLaurent (p.den - Polynomial.C (p.den.coeff 0) + Polynomial.C (p.den.coeff 0).sign) :=
  ⟨rfl, p.read_body hp⟩

/-- C93: so if the constant coefficients are among -1, 0 and 1 the printed form determines the polynomial. -/
theorem C93_injective_partial (p q : Poly) (hp : p.Trimmed) (hq : q.Trimmed) (h0 : |p.den.coeff 0| ≤ 1) (h1 : |q.den.coeff 0| ≤ 1) :
    p.repr = q.repr ↔ p = q := by
  refine ⟨fun h => ?_, fun h => by rw [h]⟩
  have hs : ∀ z : ℤ, |z| ≤ 1 → z.sign = z := by
    intro z hz
    have : z = -1 ∨ z = 0 ∨ z = 1 := by rw [abs_le] at hz; omega
    rcases this with rfl | rfl | rfl <;> rfl
  have e : Display.read p.body = Display.read q.body := by rw [List.append_cancel_left (List.append_cancel_right h)]
  rw [p.read_body hp, q.read_body hq, hs _ h0, hs _ h1, sub_add_cancel, sub_add_cancel] at e
  exact hp.den_inj hq (Polynomial.toLaurent_injective e)

/-- C93 fails: different constants print alike. -/
theorem C93_refuted : (Poly.make [2]).repr = (Poly.make [1]).repr ∧ Poly.make [2] ≠ Poly.make [1] := by decide

example : (Poly.make [-1, 0, 2]).repr = "Poly('2x^2 - 1')".toList ∧ (Poly.make [-1, 0, 2]).Trimmed := by decide

end Peyl
