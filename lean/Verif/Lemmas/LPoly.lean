import Verif.Lemmas.PolyDiv
/-!
# Lemmas about the `LPoly` model
-/
namespace Peyl
open Polynomial LaurentPolynomial
namespace LPoly

theorem leadZeros_le (l : List Int) : leadZeros l ≤ l.length := by
  induction l with
  | nil => simp [leadZeros]
  | cons c cs ih => unfold leadZeros; split <;> simp <;> omega

theorem leadZeros_zero (l : List Int) (k : Nat) (h : k < leadZeros l) : l.getD k 0 = 0 := by
  induction l generalizing k with
  | nil => simp
  | cons c cs ih =>
    unfold leadZeros at h
    split at h
    · rename_i hc
      cases k with
      | zero => simpa using hc
      | succ k => simpa using ih k (by omega)
    · omega

theorem leadZeros_ne (l : List Int) (h : leadZeros l < l.length) : l.getD (leadZeros l) 0 ≠ 0 := by
  induction l with
  | nil => simp at h
  | cons c cs ih =>
    unfold leadZeros at h ⊢
    split
    · rename_i hc
      rw [if_pos hc] at h
      simpa using ih (by simpa using h)
    · simpa

theorem trimRight_le (c : List Int) (l r : Nat) : trimRight c l r ≤ r := by
  induction r with
  | zero => simp [trimRight]
  | succ r ih => unfold trimRight; split <;> omega

theorem trimRight_ge (c : List Int) (l r : Nat) (h : l ≤ r) : l ≤ trimRight c l r := by
  induction r with
  | zero => simp [trimRight]; omega
  | succ r ih => unfold trimRight; split <;> omega

theorem trimRight_zero (c : List Int) (l r k : Nat) (h1 : trimRight c l r ≤ k) (h2 : k < r) : c.getD k 0 = 0 := by
  induction r with
  | zero => omega
  | succ r ih =>
    unfold trimRight at h1
    split at h1
    · rename_i h
      by_cases hk : k = r
      · rw [hk]; exact h.2
      · exact ih h1 (by omega)
    · omega

theorem trimRight_last (c : List Int) (l r k : Nat) (h : trimRight c l r = k + 1) (hl : l ≤ k) : c.getD k 0 ≠ 0 := by
  induction r with
  | zero => simp [trimRight] at h
  | succ r ih =>
    unfold trimRight at h
    split at h
    · exact ih h
    · rename_i h'
      have : k = r := by omega
      subst this
      intro h0; exact h' ⟨by omega, h0⟩

theorem listPoly_trim (c : List Int) (l r : Nat) (hr : r ≤ c.length) (h0 : ∀ k, k < l → c.getD k 0 = 0)
    (h1 : ∀ k, r ≤ k → k < c.length → c.getD k 0 = 0) :
    listPoly c = X ^ l * listPoly ((c.take r).drop l) := by
  ext k
  rw [coeff_X_pow_mul', coeff_listPoly]
  split
  · rename_i hk
    rw [coeff_listPoly]
    simp only [List.getD_eq_getElem?_getD, List.getElem?_drop, List.getElem?_take]
    rw [show l + (k - l) = k by omega]
    split
    · rfl
    · rename_i hkr
      by_cases hkc : k < c.length
      · simpa using h1 k (by omega) hkc
      · rw [List.getElem?_eq_none (by omega)]
  · exact h0 k (by omega)

theorem den_make (val : Int) (c : List Int) : (make val c).den = T val * toLaurent (listPoly c) := by
  unfold make
  simp only
  have hle := leadZeros_le c
  have hle2 := trimRight_le c (leadZeros c) c.length
  split
  · rename_i h
    have : listPoly c = 0 := by
      ext k
      rw [coeff_listPoly, coeff_zero]
      by_cases hk : k < leadZeros c
      · exact leadZeros_zero c k hk
      · by_cases hk2 : k < c.length
        · exact trimRight_zero c (leadZeros c) _ k (by omega) hk2
        · rw [List.getD_eq_getElem?_getD, List.getElem?_eq_none (by omega)]; rfl
    rw [this]; simp [den]
  · rw [listPoly_trim c (leadZeros c) _ hle2 (leadZeros_zero c) (fun k h1 h2 => trimRight_zero c _ _ k h1 h2)]
    simp only [den, map_mul, toLaurent_X_pow, T_add, mul_assoc]

theorem head?_eq_getD (c : List Int) : c.head? = some 0 ↔ c ≠ [] ∧ c.getD 0 0 = 0 := by
  cases c <;> simp

theorem getLast?_eq_getD (c : List Int) : c.getLast? = some 0 ↔ c ≠ [] ∧ c.getD (c.length - 1) 0 = 0 := by
  rw [List.getLast?_eq_getElem?]
  cases c with
  | nil => simp
  | cons a l => simp [List.getElem?_eq_getElem]

theorem trimmed_make (val : Int) (c : List Int) : (make val c).Trimmed := by
  unfold make Trimmed
  simp only
  have hle := leadZeros_le c
  have hle2 := trimRight_le c (leadZeros c) c.length
  have hge := trimRight_ge c (leadZeros c) c.length hle
  split
  · simp
  · rename_i h
    have hlt : leadZeros c < trimRight c (leadZeros c) c.length := by omega
    have hlen : ((c.take (trimRight c (leadZeros c) c.length)).drop (leadZeros c)).length =
        trimRight c (leadZeros c) c.length - leadZeros c := by
      simp; omega
    have hne : (c.take (trimRight c (leadZeros c) c.length)).drop (leadZeros c) ≠ [] := by
      rw [← List.length_pos_iff]; omega
    refine ⟨fun h => absurd h hne, ?_, ?_⟩
    · rw [Ne, head?_eq_getD]
      rintro ⟨_, h0⟩
      rw [List.getD_eq_getElem?_getD, List.getElem?_drop, List.getElem?_take, if_pos (by omega), add_zero] at h0
      exact leadZeros_ne c (by omega) (by simpa using h0)
    · rw [Ne, getLast?_eq_getD]
      rintro ⟨_, h0⟩
      rw [hlen] at h0
      rw [List.getD_eq_getElem?_getD, List.getElem?_drop, List.getElem?_take, if_pos (by omega)] at h0
      refine trimRight_last c (leadZeros c) c.length (trimRight c (leadZeros c) c.length - 1) (by omega) (by omega) ?_
      rw [show leadZeros c + (trimRight c (leadZeros c) c.length - leadZeros c - 1) =
        trimRight c (leadZeros c) c.length - 1 by omega] at h0
      simpa using h0

theorem Trimmed.coeff_zero {p : LPoly} (hp : p.Trimmed) (h : p.coeffs ≠ []) : (listPoly p.coeffs).coeff 0 ≠ 0 := by
  rw [coeff_listPoly]
  intro h0
  exact hp.2.1 ((head?_eq_getD _).2 ⟨h, h0⟩)

theorem Trimmed.poly {p : LPoly} (hp : p.Trimmed) : (Poly.mk p.coeffs).Trimmed := hp.2.2

theorem Trimmed.poly_make {p : LPoly} (hp : p.Trimmed) : Poly.make p.coeffs = ⟨p.coeffs⟩ :=
  (Poly.trimmed_make _).den_inj hp.poly (by rw [Poly.den_make]; rfl)

theorem T_mul_inj {A B : ℤ[X]} (hA : A.coeff 0 ≠ 0) (hB : B.coeff 0 ≠ 0) {a b : ℤ}
    (h : T a * toLaurent A = T b * toLaurent B) : a = b ∧ A = B := by
  have h2 : X ^ (a - min a b).toNat * A = X ^ (b - min a b).toNat * B := by
    rw [← toLaurent_inj, map_mul, map_mul, toLaurent_X_pow, toLaurent_X_pow,
      Int.toNat_of_nonneg (by omega), Int.toNat_of_nonneg (by omega), T_sub, T_sub, mul_right_comm, h, mul_right_comm]
  obtain ⟨h3, h4⟩ := Poly.X_pow_mul_inj hA hB h2
  exact ⟨by omega, h4⟩

theorem T_ne_zero (k : ℤ) : (T k : ℤ[T;T⁻¹]) ≠ 0 := (isUnit_T k).ne_zero

theorem den_eq_zero_iff {p : LPoly} (hp : p.Trimmed) : p.den = 0 ↔ p.coeffs = [] := by
  constructor
  · intro h
    by_contra hne
    rw [den, mul_eq_zero] at h
    rcases h with h | h
    · exact T_ne_zero _ h
    · rw [toLaurent_eq_zero] at h
      exact hp.coeff_zero hne (by rw [h]; simp)
  · intro h; simp [den, h]

theorem Trimmed.den_inj {p q : LPoly} (hp : p.Trimmed) (hq : q.Trimmed) (h : p.den = q.den) : p = q := by
  by_cases h0 : p.coeffs = []
  · have h1 : q.coeffs = [] := by rw [← den_eq_zero_iff hq, ← h, den_eq_zero_iff hp]; exact h0
    have e1 := hp.1 h0
    have e2 := hq.1 h1
    cases p; cases q; simp_all
  · have h1 : q.coeffs ≠ [] := by rwa [Ne, ← den_eq_zero_iff hq, ← h, den_eq_zero_iff hp]
    obtain ⟨e1, e2⟩ := T_mul_inj (hp.coeff_zero h0) (hq.coeff_zero h1) h
    have e3 := hp.poly.den_inj hq.poly e2
    cases p; cases q; simp_all

/-- Every Laurent polynomial is denoted by a trimmed `LPoly`. -/
theorem exists_den (f : ℤ[T;T⁻¹]) : ∃ p : LPoly, p.Trimmed ∧ p.den = f := by
  obtain ⟨n, g, hg⟩ := exists_T_pow f
  refine ⟨make (-n) ((List.range (g.natDegree + 1)).map g.coeff), trimmed_make _ _, ?_⟩
  have : listPoly ((List.range (g.natDegree + 1)).map g.coeff) = g := by
    ext k
    rw [coeff_listPoly, List.getD_eq_getElem?_getD, List.getElem?_map]
    by_cases hk : k < g.natDegree + 1
    · rw [List.getElem?_range hk]; rfl
    · rw [List.getElem?_eq_none (by simpa using hk)]
      simp [coeff_eq_zero_of_natDegree_lt (by omega : g.natDegree < k)]
  rw [den_make, this, hg, mul_comm, mul_T_assoc]; simp

theorem listPoly_addShift (acc : List Int) (off : Nat) (cs : List Int) (h : off + cs.length ≤ acc.length) :
    (addShift acc off cs).length = acc.length ∧ listPoly (addShift acc off cs) = listPoly acc + X ^ off * listPoly cs := by
  obtain ⟨h1, h2⟩ := listPoly_foldl_addAt (Poly.enum cs) (fun ic => off + ic.1) (fun ic => ic.2) acc
    (by intro p hp; have := enum_lt hp; omega)
  refine ⟨h1, ?_⟩
  rw [addShift, h2, ← sum_enum cs, ← List.sum_map_mul_left]
  congr 2
  apply List.map_congr_left
  intro p _; rw [pow_add]; ring

theorem den_add (a b : LPoly) : (add a b).den = a.den + b.den := by
  unfold add
  simp only
  rw [den_make]
  set m := min a.val b.val with hm
  set M := max (a.val + a.coeffs.length) (b.val + b.coeffs.length) with hM
  obtain ⟨l1, p1⟩ := listPoly_addShift (List.replicate (M - m).toNat 0) (a.val - m).toNat a.coeffs (by simp; omega)
  obtain ⟨l2, p2⟩ := listPoly_addShift (addShift (List.replicate (M - m).toNat 0) (a.val - m).toNat a.coeffs)
    (b.val - m).toNat b.coeffs (by rw [l1]; simp; omega)
  rw [p2, p1, listPoly_replicate, zero_add, map_add, map_mul, map_mul, toLaurent_X_pow, toLaurent_X_pow,
    Int.toNat_of_nonneg (by omega), Int.toNat_of_nonneg (by omega), mul_add, ← mul_assoc, ← mul_assoc,
    ← T_add, ← T_add, den, den]
  congr 3 <;> congr 1 <;> omega

theorem den_int (k : Int) : (make 0 [k]).den = LaurentPolynomial.C k := by
  rw [den_make]; simp

theorem den_addInt (a : LPoly) (k : Int) : (addInt a k).den = a.den + LaurentPolynomial.C k := by
  rw [addInt, den_add, den_int]

theorem den_neg (a : LPoly) : (neg a).den = - a.den := by
  rw [neg, den_make, listPoly_map_neg]; simp [den]

theorem den_sub (a b : LPoly) : (sub a b).den = a.den - b.den := by
  rw [sub, den_add, den_neg]; ring

theorem den_subInt (a : LPoly) (k : Int) : (subInt a k).den = a.den - LaurentPolynomial.C k := by
  rw [subInt, den_addInt, map_neg]; ring

theorem den_rsubInt (a : LPoly) (k : Int) : (rsubInt a k).den = LaurentPolynomial.C k - a.den := by
  rw [rsubInt, den_addInt, den_neg]; ring

theorem den_mul (a b : LPoly) : (mul a b).den = a.den * b.den := by
  rw [mul, den_make, listPoly_convolve, map_mul, T_add, den, den]; ring

theorem den_mulInt (a : LPoly) (k : Int) : (mulInt a k).den = a.den * LaurentPolynomial.C k := by
  rw [mulInt, den_make, listPoly_map_mul, map_mul, toLaurent_C, den]; ring

theorem den_powNat (a : LPoly) (n : Nat) : (powNat a n).den = a.den ^ n := by
  induction n using Nat.strong_induction_on with
  | _ n ih =>
    unfold powNat
    split
    · simp_all [den_int]
    · split
      · simp_all
      · have h := ih (n / 2) (by omega)
        simp only
        split
        · rw [den_mul, h, ← pow_add]; congr 1; omega
        · rw [den_mul, den_mul, h, ← pow_add, ← pow_succ]; congr 1; omega

theorem trimmed_powNat (a : LPoly) (ha : a.Trimmed) (n : Nat) : (powNat a n).Trimmed := by
  unfold powNat
  split
  · exact trimmed_make _ _
  · split
    · exact ha
    · simp only; split <;> exact trimmed_make _ _

/-- Units of `ℤ[v,v⁻¹]` are the stored objects `±v^k`. -/
theorem isUnit_den_iff {p : LPoly} (hp : p.Trimmed) : IsUnit p.den ↔ (p.coeffs = [1] ∨ p.coeffs = [-1]) := by
  constructor
  · rintro ⟨u, hu⟩
    obtain ⟨q, hq, hqd⟩ := exists_den ((u⁻¹ : (ℤ[T;T⁻¹])ˣ) : ℤ[T;T⁻¹])
    have hmul : p.den * q.den = 1 := by rw [← hu, hqd]; simp
    have hp0 : p.coeffs ≠ [] := by
      intro h; rw [(den_eq_zero_iff hp).2 h, zero_mul] at hmul; exact zero_ne_one hmul
    have hq0 : q.coeffs ≠ [] := by
      intro h; rw [(den_eq_zero_iff hq).2 h, mul_zero] at hmul; exact zero_ne_one hmul
    have e : T (p.val + q.val) * toLaurent (listPoly p.coeffs * listPoly q.coeffs) = T 0 * toLaurent (1 : ℤ[X]) := by
      rw [map_mul, T_add, T_zero, map_one, mul_one, ← hmul, den, den]; ring
    obtain ⟨_, e2⟩ := T_mul_inj (by rw [mul_coeff_zero]; exact mul_ne_zero (hp.coeff_zero hp0) (hq.coeff_zero hq0))
      (by simp) e
    have hu2 : IsUnit (listPoly p.coeffs) := IsUnit.of_mul_eq_one _ e2
    obtain ⟨r, hr, hr2⟩ := Polynomial.isUnit_iff.1 hu2
    have h3 : (⟨p.coeffs⟩ : Poly) = Poly.make [r] := hp.poly.den_inj (Poly.trimmed_make _) (by
      rw [Poly.den_make]; simp only [Poly.den, ← hr2]; simp)
    have h4 : p.coeffs = (Poly.make [r]).coeffs := congrArg Poly.coeffs h3
    rcases Int.isUnit_iff.1 hr with h | h
    · left; rw [h4, h]; rfl
    · right; rw [h4, h]; rfl
  · rintro (h | h)
    · rw [den, h]; simpa using isUnit_T p.val
    · rw [den, h]; simpa using isUnit_T p.val

theorem inv_den {p : LPoly} (h : p.coeffs = [1] ∨ p.coeffs = [-1]) : p.den * (make (-p.val) p.coeffs).den = 1 := by
  rw [den_make, den]
  have e : (T p.val : ℤ[T;T⁻¹]) * T (-p.val) = 1 := by rw [← T_add]; simp
  rcases h with h | h <;> rw [h] <;> simp [e]

theorem pow_nonneg (a : LPoly) (n : Int) (h : 0 ≤ n) : pow a n = .ok (powNat a n.toNat) := by
  rw [pow, if_neg (by omega)]

/-- Result of `**` when it succeeds. -/
theorem den_pow_unit {a : LPoly} (ha : a.Trimmed) (u : (ℤ[T;T⁻¹])ˣ) (hu : (u : ℤ[T;T⁻¹]) = a.den) (n : Int) :
    ∃ r : LPoly, pow a n = .ok r ∧ r.Trimmed ∧ r.den = ((u ^ n : (ℤ[T;T⁻¹])ˣ) : ℤ[T;T⁻¹]) := by
  have hunit : a.coeffs = [1] ∨ a.coeffs = [-1] := (isUnit_den_iff ha).1 (hu ▸ u.isUnit)
  rcases lt_or_ge n 0 with hn | hn
  · refine ⟨powNat (make (-a.val) a.coeffs) (-n).toNat, by rw [pow, if_pos hn, if_pos hunit], trimmed_powNat _ (trimmed_make _ _) _, ?_⟩
    rw [den_powNat]
    have hinv : (make (-a.val) a.coeffs).den = ((u⁻¹ : (ℤ[T;T⁻¹])ˣ) : ℤ[T;T⁻¹]) := by
      have := inv_den hunit
      rw [← hu] at this
      rw [← mul_one (u⁻¹ : (ℤ[T;T⁻¹])ˣ).val, ← this, ← mul_assoc]; simp
    rw [hinv, ← Units.val_pow_eq_pow_val]
    congr 1
    rw [inv_pow, ← zpow_natCast, Int.toNat_of_nonneg (by omega), zpow_neg, inv_inv]
  · refine ⟨powNat a n.toNat, pow_nonneg a n hn, trimmed_powNat a ha _, ?_⟩
    rw [den_powNat, ← hu, ← Units.val_pow_eq_pow_val]
    congr 1
    rw [← zpow_natCast, Int.toNat_of_nonneg hn]

theorem pow_neg_error {a : LPoly} (ha : a.Trimmed) (h : ¬ IsUnit a.den) {n : Int} (hn : n < 0) :
    pow a n = .error .value := by
  rw [isUnit_den_iff ha] at h
  rw [pow, if_pos hn, if_neg h]

/-- The fold of `evaluate`, given successful powers. -/
theorem evaluate_fold (x : LPoly) (val : Int) (f : Int → ℤ[T;T⁻¹]) (ps : List (Nat × Int))
    (hpow : ∀ ic ∈ ps, ∃ r : LPoly, pow x (ic.1 + val) = .ok r ∧ r.den = f (ic.1 + val)) :
    ∀ acc : LPoly, acc.Trimmed → ∃ r : LPoly, (ps.filter fun ic => ic.2 ≠ 0).foldlM
      (fun acc ic => do .ok (add (mulInt (← pow x (ic.1 + val)) ic.2) acc)) acc = Except.ok (ε := Err) r ∧ r.Trimmed ∧
      r.den = acc.den + (ps.map fun ic => LaurentPolynomial.C ic.2 * f (ic.1 + val)).sum := by
  induction ps with
  | nil => intro acc h; exact ⟨acc, rfl, h, by simp⟩
  | cons q qs ih =>
    intro acc hacc
    have ih := ih (fun ic h => hpow ic (by simp [h]))
    by_cases hq : q.2 = 0
    · obtain ⟨r, h1, h2, h3⟩ := ih acc hacc
      refine ⟨r, ?_, h2, ?_⟩
      · rw [List.filter_cons_of_neg (by simpa using hq)]; exact h1
      · rw [h3]; simp [hq]
    · obtain ⟨w, hw, hwd⟩ := hpow q (by simp)
      obtain ⟨r, h1, h2, h3⟩ := ih (add (mulInt w q.2) acc) (trimmed_make _ _)
      refine ⟨r, ?_, h2, ?_⟩
      · rw [List.filter_cons_of_pos (by simpa using hq), List.foldlM_cons, hw]
        exact h1
      · rw [h3, den_add, den_mulInt, hwd, List.map_cons, List.sum_cons]; ring

theorem evaluate_unit (p : LPoly) {x : LPoly} (hx : x.Trimmed) (u : (ℤ[T;T⁻¹])ˣ) (hu : (u : ℤ[T;T⁻¹]) = x.den) :
    ∃ r : LPoly, evaluate p x = .ok r ∧ r.Trimmed ∧ r.den = eval₂ LaurentPolynomial.C u p.den := by
  obtain ⟨r, h1, h2, h3⟩ := evaluate_fold x p.val (fun n => ((u ^ n : (ℤ[T;T⁻¹])ˣ) : ℤ[T;T⁻¹])) (Poly.enum p.coeffs)
    (by intro ic _; obtain ⟨r, e1, _, e3⟩ := den_pow_unit hx u hu (ic.1 + p.val); exact ⟨r, e1, e3⟩) (make 0 []) (trimmed_make _ _)
  refine ⟨r, h1, h2, ?_⟩
  rw [h3, den_make, den, ← sum_enum p.coeffs]
  simp only [listPoly_nil, map_zero, mul_zero, zero_add, map_mul, eval₂_T, eval₂_toLaurent]
  generalize Poly.enum p.coeffs = ps
  induction ps with
  | nil => simp
  | cons q qs ih =>
    simp only [List.map_cons, List.sum_cons, Polynomial.eval₂_add, mul_add, ih]
    congr 1
    simp only [Polynomial.eval₂_mul, Polynomial.eval₂_C, Polynomial.eval₂_X_pow]
    rw [add_comm, zpow_add]
    push_cast
    simp; ring

theorem evaluate_nonneg (p : LPoly) {x : LPoly} (hx : x.Trimmed) (hv : 0 ≤ p.val) :
    ∃ r : LPoly, evaluate p x = .ok r ∧ r.Trimmed ∧
      r.den = aeval x.den (X ^ p.val.toNat * listPoly p.coeffs) := by
  obtain ⟨r, h1, h2, h3⟩ := evaluate_fold x p.val (fun n => x.den ^ n.toNat) (Poly.enum p.coeffs)
    (by intro ic _; exact ⟨_, pow_nonneg x _ (by omega), den_powNat _ _⟩) (make 0 []) (trimmed_make _ _)
  refine ⟨r, h1, h2, ?_⟩
  rw [h3, den_make, ← sum_enum p.coeffs]
  simp only [listPoly_nil, map_zero, mul_zero, zero_add, map_mul, map_pow, aeval_X]
  generalize Poly.enum p.coeffs = ps
  induction ps with
  | nil => simp
  | cons q qs ih =>
    simp only [List.map_cons, List.sum_cons, map_add, mul_add, ih]
    congr 1
    have : ((q.1 : ℤ) + p.val).toNat = p.val.toNat + q.1 := by omega
    rw [this, pow_add, map_mul, map_pow, aeval_X, aeval_C, LaurentPolynomial.C_eq_algebraMap]
    ring

theorem evaluate_error {p x : LPoly} (hp : p.Trimmed) (hx : x.Trimmed) (hv : p.val < 0) (hu : ¬ IsUnit x.den) :
    evaluate p x = .error .value := by
  have hne : p.coeffs ≠ [] := fun h => by have := hp.1 h; omega
  obtain ⟨c, cs, hc⟩ := List.exists_cons_of_ne_nil hne
  have hc0 : c ≠ 0 := by
    intro h; have := hp.2.1; rw [hc] at this; simp [h] at this
  rw [evaluate, hc, enum_cons, List.filter_cons_of_pos (by simpa using hc0), List.foldlM_cons]
  simp only [CharP.cast_eq_zero, zero_add, pow_neg_error hx hu hv]
  rfl

theorem truediv_exact {a b : LPoly} (ha : a.Trimmed) (hb : b.Trimmed) (hb0 : b.den ≠ 0) (c : ℤ[T;T⁻¹])
    (h : c * b.den = a.den) : ∃ r : LPoly, truediv a b = .ok r ∧ r.Trimmed ∧ r.den = c := by
  obtain ⟨q, hq, hqd⟩ := exists_den c
  have hb1 : b.coeffs ≠ [] := by rwa [Ne, ← den_eq_zero_iff hb]
  have hex : ∃ Q, listPoly a.coeffs = listPoly b.coeffs * Q := by
    by_cases h0 : a.coeffs = []
    · exact ⟨0, by simp [h0]⟩
    · have hq0 : q.coeffs ≠ [] := by
        rw [Ne, ← den_eq_zero_iff hq, hqd]; rintro rfl
        rw [zero_mul] at h
        exact h0 ((den_eq_zero_iff ha).1 h.symm)
      have e : T a.val * toLaurent (listPoly a.coeffs) = T (q.val + b.val) * toLaurent (listPoly q.coeffs * listPoly b.coeffs) := by
        rw [map_mul, T_add]
        have : a.den = q.den * b.den := by rw [hqd, h]
        rw [den, den, den] at this
        rw [this]; ring
      obtain ⟨_, e2⟩ := T_mul_inj (ha.coeff_zero h0)
        (by rw [mul_coeff_zero]; exact mul_ne_zero (hq.coeff_zero hq0) (hb.coeff_zero hb1)) e
      exact ⟨_, by rw [e2, mul_comm]⟩
  obtain ⟨Q, hQ⟩ := hex
  obtain ⟨q', h1, h2, h3⟩ := Poly.truediv_exact (n := ⟨a.coeffs⟩) (d := ⟨b.coeffs⟩) ha.poly hb.poly
    (by rwa [Ne, Poly.den_eq_zero_iff hb.poly]) Q hQ
  refine ⟨make (a.val - b.val) q'.coeffs, ?_, trimmed_make _ _, ?_⟩
  · rw [truediv, ha.poly_make, hb.poly_make, h1]; rfl
  · apply mul_right_cancel₀ hb0
    rw [h, den_make, den, den, hQ, T_sub, show listPoly q'.coeffs = Q from h3]
    have : (T (-b.val) : ℤ[T;T⁻¹]) * T b.val = 1 := by rw [← T_add]; simp
    calc _ = T a.val * toLaurent Q * toLaurent (listPoly b.coeffs) * (T (-b.val) * T b.val) := by ring
      _ = _ := by rw [this, map_mul]; ring

theorem truediv_error {a b : LPoly} (ha : a.Trimmed) (hb : b.Trimmed) (hb0 : b.den ≠ 0)
    (h : ¬ ∃ c, c * b.den = a.den) : truediv a b = .error .value := by
  have hne : ¬ ∃ Q, (Poly.mk a.coeffs).den = (Poly.mk b.coeffs).den * Q := by
    rintro ⟨Q, hQ⟩
    apply h
    refine ⟨T (a.val - b.val) * toLaurent Q, ?_⟩
    have hQ' : listPoly a.coeffs = listPoly b.coeffs * Q := hQ
    have : (T (-b.val) : ℤ[T;T⁻¹]) * T b.val = 1 := by rw [← T_add]; simp
    rw [den, den, hQ', T_sub]
    calc _ = T a.val * toLaurent Q * toLaurent (listPoly b.coeffs) * (T (-b.val) * T b.val) := by ring
      _ = _ := by rw [this, map_mul]; ring
  rw [truediv, ha.poly_make, hb.poly_make, Poly.truediv_error ha.poly hb.poly
    (by rw [Ne, Poly.den_eq_zero_iff hb.poly, ← den_eq_zero_iff hb]; exact hb0) hne]
  rfl

theorem truediv_zero {a b : LPoly} (hb : b.Trimmed) (hb0 : b.den = 0) : truediv a b = .error .assertion := by
  rw [truediv, hb.poly_make, Poly.truediv, Poly.divmod_zero hb.poly]
  · rfl
  · rw [Poly.den_eq_zero_iff hb.poly, ← den_eq_zero_iff hb]; exact hb0

theorem quantum_pos (m : Nat) (s : Int) :
    (make (-(m : Int) + 1) ((List.range (2 * m - 1)).map fun i => if i % 2 = 0 then s else 0)).den * (T 1 - T (-1)) =
      LaurentPolynomial.C s * (T m - T (-m)) := by
  rw [den_make]
  cases m with
  | zero => simp
  | succ m =>
    have key : listPoly ((List.range (2 * (m + 1) - 1)).map fun i => if i % 2 = 0 then s else 0) * (X ^ 2 - 1) =
        Polynomial.C s * (X ^ (2 * m + 2) - 1) := by
      induction m with
      | zero => simp
      | succ m ih =>
        rw [show 2 * (m + 1 + 1) - 1 = 2 * (m + 1) - 1 + 1 + 1 by omega, List.range_succ, List.range_succ]
        simp only [List.map_append, List.map_cons, List.map_nil, listPoly_append, add_mul, ih]
        rw [if_neg (by omega), if_pos (by omega)]
        simp only [List.length_append, List.length_map, List.length_range, List.length_cons, List.length_nil, listPoly_cons, listPoly_nil]
        rw [show 2 * (m + 1) - 1 + (0 + 1) = 2 * m + 2 by omega, show 2 * (m + 1) + 2 = 2 * m + 2 + 2 by omega]
        simp only [map_zero, mul_zero, add_zero]
        ring
    have k2 := congrArg toLaurent key
    simp only [map_mul, map_sub, map_one, toLaurent_X_pow, toLaurent_C] at k2
    have e1 : (T 1 - T (-1) : ℤ[T;T⁻¹]) = T (-1) * (T (2 : ℕ) - 1) := by
      rw [mul_sub, ← T_add]; norm_num
    rw [e1]
    calc _ = T (-((m + 1 : ℕ) : ℤ) + 1) * T (-1) * (toLaurent (listPoly ((List.range (2 * (m + 1) - 1)).map fun i => if i % 2 = 0 then s else 0)) * (T (2 : ℕ) - 1)) := by ring
      _ = LaurentPolynomial.C s * (T (-((m + 1 : ℕ) : ℤ) + 1) * T (-1) * (T (2 * m + 2 : ℕ) - 1)) := by rw [k2]; ring
      _ = _ := by
        rw [mul_sub, ← T_add, ← T_add, mul_one]
        congr 2
        · congr 1; push_cast; ring
        · congr 1; push_cast; ring

theorem quantum_spec (n : Int) : (quantumInteger n).den * (T 1 - T (-1)) = T n - T (-n) := by
  unfold quantumInteger
  split
  · rename_i h
    have : n = 0 ∨ n = 1 ∨ n = -1 := by omega
    rcases this with rfl | rfl | rfl <;> rw [den_make] <;> simp
  · simp only
    rw [quantum_pos]
    split
    · rw [show ((n.natAbs : ℕ) : ℤ) = n by omega]; simp
    · rw [show ((n.natAbs : ℕ) : ℤ) = -n by omega]; simp

end LPoly
end Peyl
