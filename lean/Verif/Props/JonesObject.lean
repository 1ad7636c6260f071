import Verif.Model.JonesObject
import Verif.Lemmas.Adapter
import Verif.Lemmas.JonesRep
import Mathlib.Data.Nat.Choose.Basic
import Mathlib.Tactic.Linarith
/-!
# Constructing, printing and measuring representations (C125)
-/
namespace Peyl
namespace Jones
open Adapter

/-- C125: the constructors accept exactly `n ≥ 1`, `2r ≤ n`, `p ≥ 0`, keep the three parameters, and otherwise raise AssertionError. -/
theorem C125_init (n r p : ℤ) :
    (1 ≤ n ∧ 2 * r ≤ n ∧ 0 ≤ p → Obj.init n r p = .ok ⟨n, r, p⟩) ∧ (¬ (1 ≤ n ∧ 2 * r ≤ n ∧ 0 ≤ p) → Obj.init n r p = .error .assertion) := by
  constructor
  · rintro ⟨h1, h2, h3⟩
    simp only [Obj.init, pyAssert, bind_ok, decide_eq_true (show n ≥ 1 from h1), decide_eq_true (show n - 2 * r ≥ 0 by omega), decide_eq_true (show p ≥ 0 from h3), if_true]
  · intro h
    by_cases h1 : n ≥ 1
    · by_cases h2 : n - 2 * r ≥ 0
      · have h3 : ¬ p ≥ 0 := fun h3 => h ⟨h1, by omega, h3⟩
        simp only [Obj.init, pyAssert, bind_ok, decide_eq_true h1, decide_eq_true h2, decide_eq_false h3, if_true, Bool.false_eq_true, if_false]
        rfl
      · simp only [Obj.init, pyAssert, bind_ok, decide_eq_true h1, decide_eq_false h2, if_true, Bool.false_eq_true, if_false]
        rfl
    · simp only [Obj.init, pyAssert, decide_eq_false h1, Bool.false_eq_true, if_false]
      rfl

/-- Two printed integers followed by something that does not begin with a digit. -/
private theorem reprInt_append {a b : ℤ} {s t : List Char} (hs : NoDig s) (ht : NoDig t) (h : reprInt a ++ s = reprInt b ++ t) : a = b ∧ s = t := by
  have key : ∀ (k : ℕ) (l : List Char), reprNat k ++ s ≠ '-' :: l := by
    intro k l e
    obtain ⟨c, l', hc, hd⟩ := reprNat_cons k
    rw [hc, List.cons_append] at e
    rw [(List.cons.inj e).1] at hd
    exact absurd hd (by decide)
  have key' : ∀ (k : ℕ) (l : List Char), '-' :: l ≠ reprNat k ++ t := by
    intro k l e
    obtain ⟨c, l', hc, hd⟩ := reprNat_cons k
    rw [hc, List.cons_append] at e
    rw [← (List.cons.inj e).1] at hd
    exact absurd hd (by decide)
  cases a with
  | ofNat i =>
    cases b with
    | ofNat j =>
      have h1 := parseNum_repr i s hs
      have h2 := parseNum_repr j t ht
      simp only [reprInt] at h
      rw [h, h2] at h1
      simp only [Option.some.injEq, Prod.mk.injEq] at h1
      exact ⟨h1.1.symm, h1.2.symm⟩
    | negSucc j => exact absurd h (key i _)
  | negSucc i =>
    cases b with
    | ofNat j => exact absurd h (key' j _)
    | negSucc j =>
      simp only [reprInt, List.cons_append] at h
      have h := (List.cons.inj h).2
      have h1 := parseNum_repr (i + 1) s hs
      have h2 := parseNum_repr (j + 1) t ht
      rw [h, h2] at h1
      simp only [Option.some.injEq, Prod.mk.injEq] at h1
      refine ⟨?_, h1.2.symm⟩
      have := h1.1
      congr 1
      omega

private theorem noDig_append {s : List Char} {c : Char} (hs : s.head? = some c) (hc : isDig c = false) (l : List Char) : NoDig (s ++ l) := by
  intro c' h'
  cases s with
  | nil => cases hs
  | cons a s => cases hs; cases h'; exact hc

private theorem repr_aux {s0 s1 s2 s3 : List Char} (d1 : ∀ l, NoDig (s1 ++ l)) (d2 : ∀ l, NoDig (s2 ++ l)) (d3 : ∀ l, NoDig (s3 ++ l))
    {a b c a' b' c' : ℤ} {l l' : List Char}
    (h : s0 ++ (reprInt a ++ (s1 ++ (reprInt b ++ (s2 ++ (reprInt c ++ (s3 ++ l)))))) = s0 ++ (reprInt a' ++ (s1 ++ (reprInt b' ++ (s2 ++ (reprInt c' ++ (s3 ++ l'))))))) :
    b = b' ∧ c = c' ∧ l = l' := by
  obtain ⟨-, h⟩ := reprInt_append (d1 _) (d1 _) (List.append_cancel_left h)
  obtain ⟨hr, h⟩ := reprInt_append (d2 _) (d2 _) (List.append_cancel_left h)
  obtain ⟨hn, h⟩ := reprInt_append (d3 _) (d3 _) (List.append_cancel_left h)
  exact ⟨hr, hn, List.append_cancel_left h⟩

private theorem ring_aux {p p' : ℤ} (h : (if p = 0 then ['ℤ'] else 'F' :: reprInt p) = if p' = 0 then ['ℤ'] else 'F' :: reprInt p') : p = p' := by
  by_cases h0 : p = 0 <;> by_cases h0' : p' = 0
  · rw [h0, h0']
  · rw [if_pos h0, if_neg h0'] at h
    exact absurd (List.cons.inj h).1 (by decide)
  · rw [if_neg h0, if_pos h0'] at h
    exact absurd (List.cons.inj h).1 (by decide)
  · rw [if_neg h0, if_neg h0'] at h
    have h := (List.cons.inj h).2
    have e : NoDig [] := fun c hc => by cases hc
    exact (reprInt_append e e (by simpa using h)).1

/-- C125: the printed form determines the representation. -/
theorem C125_repr (x y : Obj) (h : x.repr = y.repr) : x = y := by
  obtain ⟨n, r, p⟩ := x
  obtain ⟨n', r', p'⟩ := y
  unfold Obj.repr at h
  obtain ⟨hr, hn, h⟩ := repr_aux (noDig_append (c := ',') (by decide +kernel) (by decide)) (noDig_append (c := ')') (by decide +kernel) (by decide))
    (noDig_append (c := ',') (by decide +kernel) (by decide)) h
  have hp := ring_aux h
  dsimp only at hr hn hp
  rw [hr, hn, hp]

/-- What is printed for `JonesCellRep(4, 1, 3)` and `JonesCellRep(5, 2)`. -/
example : (Obj.mk 4 1 3).repr = "Two-rowed representation (3, 1) of B4, over F3".toList ∧
    (Obj.mk 5 2 0).repr = "Two-rowed representation (3, 2) of B5, over ℤ".toList := by decide +kernel

/-- C125: for `r ≥ 0` the dimension of an accepted `JonesCellRep` is returned and positive: `C(n, r) - C(n, r-1)`. -/
theorem C125_dimension_partial (n r p : ℤ) (x : Obj) (h : Obj.init n r p = .ok x) (hr : 0 ≤ r) :
    x.dimension = .ok (Jones.dimension n.toNat r.toNat) ∧ 0 < Jones.dimension n.toNat r.toNat := by
  have hc : 1 ≤ n ∧ 2 * r ≤ n ∧ 0 ≤ p := by
    by_contra hc
    rw [(C125_init n r p).2 hc] at h
    cases h
  rw [(C125_init n r p).1 hc] at h
  cases h
  obtain ⟨h1, h2, -⟩ := hc
  rcases eq_or_lt_of_le hr with e | hpos
  · subst e
    exact ⟨by rfl, by simp [Jones.dimension]⟩
  · obtain ⟨N, rfl⟩ := Int.eq_ofNat_of_zero_le (by omega : 0 ≤ n)
    obtain ⟨R, hR⟩ := Int.eq_ofNat_of_zero_le (by omega : 0 ≤ r - 1)
    obtain rfl : r = (R + 1 : ℕ) := by push_cast; omega
    have hlt : N.choose R < N.choose (R + 1) := by
      have := Nat.choose_succ_right_eq N R
      have h3 : R + 1 < N - R + 1 := by omega
      have hp : 0 < N.choose R := Nat.choose_pos (by omega)
      have hp' : 0 < N.choose (R + 1) := Nat.choose_pos (by omega)
      by_contra hle
      push Not at hle
      have : N.choose R * (N - R) ≤ N.choose R * (R + 1) := by rw [← this]; exact Nat.mul_le_mul_right _ hle
      have := Nat.le_of_mul_le_mul_left this hp
      omega
    have e1 : ((R + 1 : ℕ) : ℤ) - 1 = (R : ℕ) := by push_cast; omega
    have hd : Jones.dimension N (R + 1) = N.choose (R + 1) - N.choose R := by simp [Jones.dimension]
    constructor
    · simp only [Obj.dimension, e1, mathComb]
      rw [if_neg (by omega), if_neg (by omega), bind_ok, if_neg (by omega), bind_ok]
      simp only [Int.toNat_natCast, hd]
      rw [Nat.cast_sub hlt.le]
    · simp only [Int.toNat_natCast, hd]; omega

/-- C125 fails for negative `r`: the constructors accept it (for every `n ≥ 1` and every `r < 0`), and then `dimension()` raises ValueError. -/
theorem C125_negative_r_refuted (n r p : ℤ) (hn : 1 ≤ n) (hr : r < 0) (hp : 0 ≤ p) :
    ∃ x, Obj.init n r p = .ok x ∧ x.dimension = .error .value ∧ x.summandDimension = .error .value := by
  refine ⟨⟨n, r, p⟩, (C125_init n r p).1 ⟨hn, by omega, hp⟩, ?_, ?_⟩
  · simp only [Obj.dimension]
    rw [if_neg (by omega), mathComb, if_pos (.inr hr)]; rfl
  · simp only [Obj.summandDimension]
    rw [mathComb, if_pos (.inr hr)]; rfl

example := C125_negative_r_refuted 4 (-1) 5 (by decide) (by decide) (by decide)

/-- C125 fails for negative `r`: nor can its matrices be computed. -/
theorem C125_negative_r_matrices_refuted (n r p : ℤ) (hn : 2 ≤ n) (hr : r < 0) (hp : 0 ≤ p) :
    ∃ x, Obj.init n r p = .ok x ∧ x.artinGensInvs = .error .assertion := by
  refine ⟨⟨n, r, p⟩, (C125_init n r p).1 ⟨by omega, by omega, hp⟩, ?_⟩
  obtain ⟨g, g', h, -⟩ := tlGensInvs_spec n.toNat
  rw [Obj.artinGensInvs, if_pos hr]
  dsimp only
  rw [h, bind_ok, if_neg]
  intro e
  have := List.isEmpty_iff.1 e
  rw [List.map_eq_nil_iff, List.range_eq_nil] at this
  omega

example := C125_negative_r_matrices_refuted 4 (-1) 5 (by decide) (by decide) (by decide)

/-- C125 fails for the trivial representation of `braidsearch.JonesSummand`: it is accepted, and `dimension()` raises ValueError; `JonesCellRep.dimension` gives 1. -/
theorem C125_summand_trivial_refuted (n p : ℤ) (hn : 1 ≤ n) (hp : 0 ≤ p) :
    ∃ x, Obj.init n 0 p = .ok x ∧ x.dimension = .ok 1 ∧ x.summandDimension = .error .value := by
  refine ⟨⟨n, 0, p⟩, (C125_init n 0 p).1 ⟨hn, by omega, hp⟩, rfl, ?_⟩
  simp only [Obj.summandDimension, mathComb]
  rw [if_neg (by omega), bind_ok, if_pos (.inr (by omega))]; rfl

example := C125_summand_trivial_refuted 4 5 (by decide) (by decide)

/-- C125: for `r ≥ 1` both classes agree on the dimension. -/
theorem C125_dimensions_agree (x : Obj) (hr : 1 ≤ x.r) : x.summandDimension = x.dimension := by
  simp only [Obj.summandDimension, Obj.dimension]
  rw [if_neg (by omega)]

end Jones
end Peyl
