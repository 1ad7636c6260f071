import Verif.Lemmas.Polymat
import Verif.Model.FixedWidth
import Mathlib.LinearAlgebra.Matrix.Determinant.Basic
/-!
# Properties of `peyl/polymat.py` (C57-C62)

`Polymat.den A a` is the polynomial matrix a tensor stands for at batch index `a` (Verif/Spec/Polymat.lean).
-/
namespace Peyl
open Polynomial Polymat
variable {α β γ : Type} [Fintype α] {I J K : Nat}

/-! ## C57 -/

/-- C57: `mul(A, B)` represents the product, for every broadcast batch index. -/
theorem C57_mul (pa : γ → α) (pb : γ → β) (A : PArr α I J) (B : PArr β J K) (h : A ≠ [] ∨ B ≠ []) :
    ∃ C, mulChecked pa pb A B none = .ok C ∧ C.length = A.length + B.length - 1 ∧ ∀ g, den C g = den A (pa g) * den B (pb g) := by
  obtain ⟨C, h1, h2⟩ := mul_spec pa pb A B h
  refine ⟨C, by rw [mulChecked, dif_pos rfl]; exact h1, ?_, h2⟩
  rw [mul] at h1
  split at h1
  · cases h1
  · cases h1; simp

/-- C57: with `quotdeg = q` the result is the product truncated below degree `q`. -/
theorem C57_mul_quotdeg (pa : γ → α) (pb : γ → β) (A : PArr α I J) (B : PArr β J K) (q : ℕ) :
    ∃ C, mulChecked pa pb A B (some q) = .ok C ∧ C.length = q ∧
      ∀ g i k d, (den C g i k).coeff d = if d < q then ((den A (pa g) * den B (pb g)) i k).coeff d else 0 := by
  refine ⟨(List.range q).map (mulSlice pa pb A B), ?_, by simp, fun g i k d => den_range_mulSlice _ _ _ _ _ _ _ _ _⟩
  rw [mulChecked, dif_pos rfl]
  have : ¬ ((q : ℕ) : ℤ) < 0 := by omega
  simp [mul, this]

/-- C57: incompatible inner dimensions, or a negative `quotdeg`, fail an assertion. -/
theorem C57_mul_error {J' : Nat} (pa : γ → α) (pb : γ → β) (A : PArr α I J) (B : PArr β J' K) (q : Option ℤ)
    (h : J' ≠ J ∨ ∃ k, q = some k ∧ k < 0) : mulChecked pa pb A B q = .error .assertion := by
  rw [mulChecked]
  by_cases hJ : J' = J
  · rcases h with h | ⟨k, rfl, hk⟩
    · exact absurd hJ h
    · rw [dif_pos hJ, mul]; exact if_pos hk
  · rw [dif_neg hJ]

example : mulChecked (I := 1) (J := 1) (K := 1) (J' := 1) (fun _ : Unit => ()) (fun _ => ())
    [fun _ _ _ => 1, fun _ _ _ => 2] [fun _ _ _ => 3, fun _ _ _ => -1] none =
    .ok [fun _ _ _ => 3, fun _ _ _ => 5, fun _ _ _ => -2] := by decide +kernel

/-! ## C58 -/

/-- C58: for a non-empty batch, `projectivise(A)` returns `P` iff `P` has a non-zero constant term at every batch index and
a non-zero last slice, and each matrix of `A` is a power of `v` times the corresponding matrix of `P`.  In particular it
fails exactly when some matrix is zero. -/
theorem C58_projectivise [Nonempty α] (A P : PArr α I J) :
    projectivise A = .ok P ↔
      ((∀ a, 0 ∈ degSet (den P a)) ∧ (∃ a, P.length - 1 ∈ degSet (den P a))) ∧
      ∀ a, ∃ k, den A a = (X ^ k : ℤ[X]) • den P a := by
  rw [projectivise_iff, Canon]
  simp only [nz_degSet]

/-- C58: `projectivise` succeeds on tensors of non-zero matrices and raises AssertionError if one of them is zero. -/
theorem C58_projectivise_total [Nonempty α] (A : PArr α I J) :
    ((∀ a, den A a ≠ 0) → ∃ P, projectivise A = .ok P) ∧ ((∃ a, den A a = 0) → projectivise A = .error .assertion) :=
  ⟨fun h => let ⟨P, h1, _⟩ := projectivise_spec A h; ⟨P, h1⟩, fun ⟨a, h⟩ => projectivise_error a h⟩

/-- C58: idempotent. -/
theorem C58_idempotent [Nonempty α] (A P : PArr α I J) (h : projectivise A = .ok P) : projectivise P = .ok P :=
  projectivise_canon (projectivise_iff.1 h).1

/-- C58: two tensors of non-zero matrices have the same projectivisation iff corresponding matrices differ by powers of `v`. -/
theorem C58_canonical [Nonempty α] (A B : PArr α I J) (hA : ∀ a, den A a ≠ 0) :
    projectivise A = projectivise B ↔ ∀ a, ∃ k l : ℕ, (X ^ k : ℤ[X]) • den A a = (X ^ l : ℤ[X]) • den B a := by
  obtain ⟨P, p1, p2, p3⟩ := projectivise_spec A hA
  constructor
  · intro h a
    rw [p1] at h
    obtain ⟨-, q3⟩ := projectivise_iff.1 h.symm
    obtain ⟨k, hk⟩ := p3 a
    obtain ⟨l, hl⟩ := q3 a
    exact ⟨l, k, by rw [hk, hl, smul_smul, smul_smul, mul_comm]⟩
  · intro h
    have hB : ∀ a, den B a ≠ 0 := by
      intro a hb
      obtain ⟨k, l, e⟩ := h a
      rw [hb, smul_zero] at e
      refine hA a ?_
      funext i j
      have := congrFun (congrFun e i) j
      simpa using this
    obtain ⟨Q, q1, q2, q3⟩ := projectivise_spec B hB
    rw [p1, q1]
    congr 1
    refine canon_unique (A := P) p2 q2 (fun a => ⟨0, by simp⟩) fun a => ?_
    obtain ⟨k, hk⟩ := p3 a
    obtain ⟨l, hl⟩ := q3 a
    obtain ⟨m, n, e⟩ := h a
    rw [hk, hl, smul_smul, smul_smul, ← pow_add, ← pow_add] at e
    -- both P and Q have a constant term, so the exponents agree
    have hex : m + k = n + l := by
      have c1 := nz_degSet.1 (p2.1 a)
      have c2 := nz_degSet.1 (q2.1 a)
      obtain ⟨i, j, hij⟩ := c1
      obtain ⟨i', j', hij'⟩ := c2
      rcases Nat.lt_trichotomy (m + k) (n + l) with hlt | heq | hlt
      · have := congrArg (fun f => f.coeff (m + k)) (congrFun (congrFun e i) j)
        simp only [_root_.Matrix.smul_apply, smul_eq_mul, coeff_X_pow_mul', le_refl, if_true, Nat.sub_self,
          if_neg (Nat.not_le.2 hlt)] at this
        exact absurd this hij
      · exact heq
      · have := congrArg (fun f => f.coeff (n + l)) (congrFun (congrFun e i') j')
        simp only [_root_.Matrix.smul_apply, smul_eq_mul, coeff_X_pow_mul', le_refl, if_true, Nat.sub_self,
          if_neg (Nat.not_le.2 hlt)] at this
        exact absurd this.symm hij'
    rw [hex] at e
    refine ⟨0, ?_⟩
    rw [pow_zero, one_smul]
    funext i j
    have := congrFun (congrFun e i) j
    simp only [_root_.Matrix.smul_apply, smul_eq_mul] at this
    exact mul_left_cancel₀ (pow_ne_zero _ X_ne_zero) this

example : (projectivise (α := Fin 2) (I := 1) (J := 1) [0, fun a _ _ => if a = 0 then 5 else 0, fun _ _ _ => 7, 0]).map
      (fun P => P.map fun s => [s 0 0 0, s 1 0 0]) = .ok [[5, 7], [7, 0]] := by decide +kernel

/-! ## C59 -/

/-- C59 (partial: the claim "projlen is zero for A == 0" is false of the code, see `C59_projlen_zero_refuted`): for every
non-zero matrix of the batch, `valmin` and `degmax` are the least and the greatest degree with a non-zero
entry, `projlen` is `degmax - valmin + 1`, `efflen` is `degmax - valmin` and `rhogap` half of that. -/
theorem C59_degrees_partial (A : PArr α I J) (hD : A ≠ []) :
    ∃ v d p e r, valmin A = .ok v ∧ degmax A = .ok d ∧ projlen A = .ok p ∧ efflen A = .ok e ∧ rhogap2 A = .ok r ∧
      ∀ a, (den A a ≠ 0 → IsLeast (degSet (den A a)) (v a) ∧ (∃ n : ℕ, d a = n ∧ IsGreatest (degSet (den A a)) n) ∧
          p a = d a - v a + 1 ∧ e a = d a - v a ∧ r a = d a - v a) ∧
        (den A a = 0 → e a = 0 ∧ p a = A.length) := by
  have hD' : A.length ≠ 0 := by have := List.length_pos_iff.2 hD; omega
  obtain ⟨s, t, h1, h2⟩ := startsEnds_spec A hD'
  have h1' := h1
  rw [startsEnds] at h1'
  obtain ⟨s', e1, -⟩ := argmaxEach_spec A.length hD' fun (a : α) d => nzAt (slice A d) a
  obtain ⟨k, e2, hk⟩ := argmaxEach_spec A.length hD' fun (a : α) d => nzAt (slice A (A.length - 1 - d)) a
  rw [e1, bind_ok, e2, bind_ok] at h1'
  have hs : s' = s ∧ (fun a => A.length - k a) = t := by
    have := Except.ok.inj h1'
    exact Prod.ext_iff.1 this
  obtain ⟨rfl, rfl⟩ := hs
  have hkl : ∀ a, k a < A.length := by
    intro a
    by_cases h : ∃ d < A.length, nzAt (slice A (A.length - 1 - d)) a = true
    · exact ((hk a).1 h).1
    · push Not at h
      rw [(hk a).2 (fun d hd => by simpa using h d hd)]; omega
  refine ⟨_, _, _, _, _, e1, by rw [degmax, e2]; rfl, by rw [projlen, h1]; rfl, by rw [efflen, valmin, degmax, e1, e2]; rfl,
    by rw [rhogap2, valmin, degmax, e1, e2]; rfl, fun a => ⟨fun h => ?_, fun h => ?_⟩⟩
  · obtain ⟨p1, p2, p3, p4⟩ := (h2 a).1 h
    have := hkl a
    have hall : ¬ (A.all fun S => !nzAt S a) = true := by
      have := nonzeroAt_iff.2 h
      rw [nonzeroAt, List.any_eq_true] at this
      obtain ⟨S, hS, hn⟩ := this
      rw [List.all_eq_true]
      intro hc
      have := hc S hS
      rw [hn] at this; cases this
    dsimp only at p2 p3 p4 ⊢
    refine ⟨p1, ⟨A.length - k a - 1, by omega, p2⟩, by omega, ?_, rfl⟩
    rw [if_neg hall]
  · obtain ⟨p1, p2⟩ := (h2 a).2 h
    have hall : (A.all fun S => !nzAt S a) = true := by
      rw [List.all_eq_true]
      intro S hS
      by_contra hc
      refine nonzeroAt_iff.1 ?_ h
      rw [nonzeroAt, List.any_eq_true]
      exact ⟨S, hS, by simpa using hc⟩
    dsimp only at p1 p2 ⊢
    exact ⟨if_pos hall, by omega⟩

/-- C59: multiplying a matrix by a power of `v` (prepending `k` zero slices) changes neither `projlen` nor `efflen`. -/
theorem C59_shift_invariant (A : PArr α I J) (hD : A ≠ []) (k : ℕ) (hA : ∀ a, den A a ≠ 0) :
    (∀ a, den (List.replicate k 0 ++ A) a = (X ^ k : ℤ[X]) • den A a) ∧
    projlen (List.replicate k 0 ++ A) = projlen A ∧ efflen (List.replicate k 0 ++ A) = efflen A := by
  have hden : ∀ a, den (List.replicate k 0 ++ A) a = (X ^ k : ℤ[X]) • den A a := by
    intro a
    rw [X_pow_mul_den]
    refine ⟨fun d hd => ?_, fun d => ?_⟩
    · rw [slice, List.getD_eq_getElem?_getD, List.getElem?_append_left (by simpa using hd)]
      simp [List.getElem?_replicate, hd]
    · rw [slice, List.getD_eq_getElem?_getD, List.getElem?_append_right (by simp)]
      simp [slice]
  have hset : ∀ a c, c ∈ degSet (den (List.replicate k 0 ++ A) a) ↔ k ≤ c ∧ c - k ∈ degSet (den A a) := by
    intro a c
    rw [hden]
    simp only [degSet, Set.mem_setOf_eq, _root_.Matrix.smul_apply, smul_eq_mul, coeff_X_pow_mul']
    by_cases h : k ≤ c
    · simp [h]
    · simp [h]
  have hnz : ∀ a, den (List.replicate k 0 ++ A) a ≠ 0 := by
    intro a e
    obtain ⟨v, d, p, e', r, -, -, -, -, -, h⟩ := C59_degrees_partial A hD
    have := ((h a).1 (hA a)).1.1
    have h2 := (hset a (v a + k)).2 ⟨by omega, by rwa [Nat.add_sub_cancel]⟩
    rw [e] at h2
    obtain ⟨i, j, hij⟩ := h2
    exact hij (by simp)
  refine ⟨hden, ?_⟩
  obtain ⟨v, d, p, e, r, h1, h2, h3, h4, h5, h6⟩ := C59_degrees_partial A hD
  obtain ⟨v', d', p', e', r', k1, k2, k3, k4, k5, k6⟩ := C59_degrees_partial (List.replicate k 0 ++ A) (by simp [hD])
  rw [h3, h4, k3, k4]
  have key : ∀ a, d' a - v' a = d a - v a := by
    intro a
    obtain ⟨a1, ⟨n, a2, a3⟩, -⟩ := (h6 a).1 (hA a)
    obtain ⟨b1, ⟨m, b2, b3⟩, -⟩ := (k6 a).1 (hnz a)
    have e1 : v' a = v a + k := by
      have t1 := b1.2 ((hset a (v a + k)).2 ⟨by omega, by rw [Nat.add_sub_cancel]; exact a1.1⟩)
      have t2 := (hset a _).1 b1.1
      have t3 := a1.2 t2.2
      omega
    have e2 : m = n + k := by
      have t1 := b3.2 ((hset a (n + k)).2 ⟨by omega, by rw [Nat.add_sub_cancel]; exact a3.1⟩)
      have t2 := (hset a _).1 b3.1
      have t3 := a3.2 t2.2
      omega
    omega
  constructor
  · congr 1; funext a
    have := ((h6 a).1 (hA a)).2.2.1
    have := ((k6 a).1 (hnz a)).2.2.1
    have := key a
    omega
  · congr 1; funext a
    have := ((h6 a).1 (hA a)).2.2.2.1
    have := ((k6 a).1 (hnz a)).2.2.2.1
    have := key a
    omega

/-- C59: `nz_terms` is the number of monomials with non-zero coefficient in all entries. -/
theorem C59_nz_terms (A : PArr α I J) (a : α) : nzTerms A a = ∑ i, ∑ j, (den A a i j).support.card := by
  have hsup : ∀ i j, (den A a i j).support = (Finset.range A.length).filter fun d => slice A d a i j ≠ 0 := by
    intro i j
    ext d
    rw [mem_support_iff, coeff_den, Finset.mem_filter, Finset.mem_range]
    constructor
    · intro h
      exact ⟨lt_of_nz (a := a) fun e => h (by rw [e]; rfl), h⟩
    · exact fun h => h.2
  rw [nzTerms]
  have : ((List.range A.length).map fun d => (Finset.univ.filter fun ij : Fin I × Fin J => slice A d a ij.1 ij.2 ≠ 0).card).sum
      = ∑ d ∈ Finset.range A.length, (Finset.univ.filter fun ij : Fin I × Fin J => slice A d a ij.1 ij.2 ≠ 0).card := rfl
  rw [this]
  simp only [hsup, Finset.card_filter]
  rw [Finset.sum_congr rfl (fun d _ => Fintype.sum_prod_type _), Finset.sum_comm]
  refine Finset.sum_congr rfl fun i _ => ?_
  rw [Finset.sum_comm]

/-- C59: `eye(n)` is the identity matrix of size `n`, a single slice of degree zero. -/
theorem C59_eye (n : ℕ) : den (eye n) () = (1 : _root_.Matrix (Fin n) (Fin n) ℤ[X]) ∧ (eye n).length = 1 := by
  refine ⟨_root_.Matrix.ext fun i j => Polynomial.ext fun d => ?_, rfl⟩
  rw [coeff_den, _root_.Matrix.one_apply]
  rcases d with _ | d
  · simp only [slice, eye]
    by_cases h : i = j <;> simp [h]
  · simp only [slice, eye]
    by_cases h : i = j <;> simp [h, Polynomial.coeff_one]

/-- C59 fails for the zero matrix: the documented value of `projlen` is 0, the returned one is the width of the tensor. -/
theorem C59_projlen_zero_refuted : ∃ A : PArr Unit 1 1, den A () = 0 ∧ projlen A = .ok fun _ => 3 := by
  refine ⟨[0, 0, 0], ?_, by decide +kernel⟩
  rw [den_eq_zero]
  intro d
  rcases d with _ | _ | _ | d <;> rfl

/-! ## C60 -/

/-- C60: `trim` keeps the represented matrices and has the least possible width. -/
theorem C60_trim (A : PArr α I J) : (∀ a, den (trim A) a = den A a) ∧
    IsLeast {K | ∀ a i j d, K ≤ d → (den A a i j).coeff d = 0} (trim A).length := by
  refine ⟨den_trim A, ?_⟩
  have := trim_least A
  convert this using 1
  ext K
  simp only [coeff_den, Set.mem_setOf_eq]
  constructor
  · intro h d hd; funext a i j; exact h a i j d hd
  · intro h a i j d hd; rw [h d hd]; rfl

/-- C60: `trim_left` returns `(k, B)` with `A = v^k B`; `k` is as large as possible (the whole width for the zero tensor). -/
theorem C60_trim_left (A : PArr α I J) :
    (∀ a, den A a = (X ^ (trimLeft A).1 : ℤ[X]) • den (trimLeft A).2 a) ∧
    ((∃ a, den A a ≠ 0) → ∃ a i j, (den (trimLeft A).2 a i j).coeff 0 ≠ 0) ∧
    ((∀ a, den A a = 0) → trimLeft A = (A.length, [])) := by
  obtain ⟨h1, h2, h3⟩ := leadZeros_spec A
  refine ⟨fun a => X_pow_mul_den.2 ⟨fun d hd => by rw [h2 d hd]; rfl, fun d => ?_⟩, ?_, ?_⟩
  · rw [trimLeft, slice_drop]
  · rintro ⟨a, ha⟩
    rw [Ne, den_eq_zero] at ha
    push Not at ha
    obtain ⟨d, hd⟩ := ha
    have hlt : leadZeros A < A.length := by
      have := lt_of_nz hd
      by_contra hc
      exact hd (by rw [h2 d (by omega)]; rfl)
    have hne := h3 hlt
    by_contra hc
    push Not at hc
    refine hne ?_
    funext a i j
    have := hc a i j
    rw [coeff_den, trimLeft, slice_drop, Nat.zero_add] at this
    exact this
  · intro h
    have : leadZeros A = A.length := by
      by_contra hc
      exact h3 (by omega) (funext fun a => den_eq_zero.1 (h a) _)
    rw [trimLeft, this, List.drop_length]

/-- C60: the `l`-th matrix of `pack(As)` is `As[l]`, and the width is the least one possible; the empty list is refused. -/
theorem C60_pack (As : List (PArr Unit I J)) :
    (As ≠ [] → ∃ P, pack As = .ok P ∧ (∀ l, den P l = den (As.get l) ()) ∧
      IsLeast {K | ∀ A ∈ As, ∀ i j d, K ≤ d → (den A () i j).coeff d = 0} P.length) ∧
    (As = [] → pack As = .error .assertion) := by
  refine ⟨fun h => ?_, fun h => by subst h; rfl⟩
  obtain ⟨P, h1, h2, h3⟩ := pack_spec As h
  refine ⟨P, h1, h2, ?_⟩
  rw [h3]
  constructor
  · intro A hA i j d hd
    have := le_foldl_max (As.map fun A => (trim A).length) (List.mem_map.2 ⟨A, hA, rfl⟩) 0
    exact (C60_trim A).2.1 () i j d (le_trans this hd)
  · intro K hK
    rw [foldl_max_le]
    refine ⟨Nat.zero_le _, fun x hx => ?_⟩
    obtain ⟨A, hA, rfl⟩ := List.mem_map.1 hx
    exact (C60_trim A).2.2 fun _ i j d hd => hK A hA i j d hd

omit [Fintype α] in
/-- C60: `zeropad(A, D)`. -/
theorem C60_zeropad (A : PArr α I J) (D : ℕ) :
    (A.length ≤ D → ∃ P, zeropad A D = .ok P ∧ P.length = D ∧ ∀ a, den P a = den A a) ∧
    (D < A.length → zeropad A D = .error .assertion) :=
  ⟨zeropad_spec A, fun h => by rw [zeropad, if_neg (by omega)]⟩

/-- C60: `concatenate`: entry `l` of the `k`-th block is entry `l` of `As[k]`. -/
theorem C60_concatenate (As : List (Σ L : Nat, PArr (Fin L) I J)) :
    ∃ P, concatenate As = .ok P ∧ ∀ kl, den P kl = den (As.get kl.1).2 kl.2 := concatenate_spec As

/-! ## C61 -/

/-- C61: `to_matrix(A)` stands for the matrix `A` stands for. -/
theorem C61_to_matrix (A : PArr Unit I J) (hI : 0 < I) :
    ∃ m, toMatrix A = .ok m ∧ m.Shape I J ∧ m.den I J = (den A ()).map (fun f => toLaurent f) := by
  obtain ⟨m, h1, h2, -, h3⟩ := toMatrix_spec A hI
  exact ⟨m, h1, h2, h3⟩

/-- C61: `from_matrix` on a matrix of ints, or of Laurent polynomials without negative powers, is exact. -/
theorem C61_from_matrix {m : Matrix} {r c : Nat} (h : m.Shape r c) (proj : Bool)
    (hc : (∀ x ∈ m.data, ∃ k, x = .int k) ∨ ((∀ x ∈ m.data, ∃ p, x = .lp p) ∧ ∀ i j k, k < 0 → (m.den r c i j).coeff k = 0)) :
    ∃ A, fromMatrix r c m proj = .ok A ∧ (den A ()).map (fun f => toLaurent f) = m.den r c := by
  rcases hc with hi | ⟨hl, hn⟩
  · exact fromMatrix_int h hi proj
  · refine (fromMatrix_lp h hl proj).1 fun p hp hne => ?_
    by_contra hlt
    obtain ⟨k, hk, e⟩ := List.getElem_of_mem hp
    have hk' : k < r * c := by rwa [← h.length]
    have hc0 : 0 < c := by rcases Nat.eq_zero_or_pos c with rfl | h; · simp at hk'
                           · exact h
    have hr : k / c < r := Nat.div_lt_of_lt_mul (by rwa [Nat.mul_comm] at hk')
    have := hn ⟨k / c, hr⟩ ⟨k % c, Nat.mod_lt _ hc0⟩ p.val (by omega)
    rw [Matrix.den_apply h] at this
    have hidx : c * (k / c) + k % c = k := Nat.div_add_mod k c
    dsimp only at this
    rw [hidx, Matrix.at', List.getD_eq_getElem?_getD, List.getElem?_eq_getElem hk, Option.getD_some, e] at this
    exact LPoly.head_ne (h.ok _ hp) hne this

/-- C61: a matrix of Laurent polynomials with a negative power: ValueError, or with `proj` a power of `v` times the input. -/
theorem C61_from_matrix_negative {m : Matrix} {r c : Nat} (h : m.Shape r c) (hl : ∀ x ∈ m.data, ∃ p, x = .lp p)
    (hn : ∃ i j k, k < 0 ∧ (m.den r c i j).coeff k ≠ 0) :
    fromMatrix r c m false = .error .value ∧
    ∃ A k, fromMatrix r c m true = .ok A ∧ (den A ()).map (fun f => toLaurent f) = (LaurentPolynomial.T k : LaurentPolynomial ℤ) • m.den r c := by
  have hv : ¬ ValGE m 0 := by
    intro hv
    obtain ⟨i, j, k, hk, hne⟩ := hn
    rw [Matrix.den_apply h] at hne
    have hmem := at_mem h i j
    obtain ⟨p, hp⟩ := hl _ hmem
    rw [hp] at hne hmem
    have hp0 : p.coeffs ≠ [] := by
      intro e
      have hok : p.Trimmed := h.ok (.lp p) hmem
      rw [Entry.den, (LPoly.den_eq_zero_iff hok).2 e] at hne
      exact hne (by simp)
    have := hv p hmem hp0
    exact hne (LPoly.coeff_below p k (by rw [LPoly.valuation]; omega))
  exact ⟨(fromMatrix_lp h hl false).2.1 hv rfl, (fromMatrix_lp h hl true).2.2 hv rfl⟩

/-- C61: `from_matrix(to_matrix(A))` represents `A`. -/
theorem C61_roundtrip (A : PArr Unit I J) (hI : 0 < I) (proj : Bool) :
    ∃ m B, toMatrix A = .ok m ∧ fromMatrix I J m proj = .ok B ∧ den B () = den A () := by
  obtain ⟨m, h1, h2, h3, h4⟩ := toMatrix_spec A hI
  obtain ⟨B, b1, b2⟩ := C61_from_matrix h2 proj (.inr ⟨h3, fun i j k hk => by
    rw [h4, _root_.Matrix.map_apply, coeff_toLaurent_int, if_neg (by omega)]⟩)
  refine ⟨m, B, h1, b1, ?_⟩
  funext i j
  have := congrFun (congrFun (b2.trans h4) i) j
  exact toLaurent_injective this

example : (fromMatrix 1 1 ⟨1, 1, [.lp ⟨-2, [3, 0, 1]⟩]⟩ true |>.map
    (fun P => P.map fun s => s () 0 0)) = .ok [3, 0, 1] := by decide +kernel
/-- C61: a matrix mixing ints and Laurent polynomials is not converted. -/
example : fromMatrix 1 2 ⟨1, 2, [.lp ⟨0, [3]⟩, .int 0]⟩ false = .error .type := by decide +kernel

/-! ## C62 -/

theorem wrap_emod (w : Nat) (x : ℤ) : wrap w x ≡ x [ZMOD (2 ^ w : ℕ)] := Int.bmod_emod

theorem wrap_eq {w : Nat} {x : ℤ} (hw : 1 ≤ w) (h0 : -(2 ^ (w - 1)) ≤ x) (h1 : x < 2 ^ (w - 1)) : wrap w x = x := by
  have h2 : (2 : ℤ) ^ w = 2 * 2 ^ (w - 1) := by
    obtain ⟨k, rfl⟩ : ∃ k, w = k + 1 := ⟨w - 1, by omega⟩
    rw [Nat.add_sub_cancel, pow_succ, mul_comm]
  have h2' : ((2 ^ w : ℕ) : ℤ) = 2 * 2 ^ (w - 1) := by push_cast; exact h2
  rw [wrap, Int.bmod_eq_of_le] <;> omega

theorem foldl_wrap_emod {δ : Type} (w : Nat) (l : List δ) (f g : δ → ℤ) (h : ∀ x ∈ l, f x ≡ g x [ZMOD (2 ^ w : ℕ)]) :
    ∀ a b, a ≡ b [ZMOD (2 ^ w : ℕ)] → l.foldl (fun acc x => wrap w (acc + f x)) a ≡ b + (l.map g).sum [ZMOD (2 ^ w : ℕ)] := by
  induction l with
  | nil => intro a b h; simpa using h
  | cons x l ih =>
    intro a b hab
    rw [List.foldl_cons, List.map_cons, List.sum_cons, ← add_assoc]
    refine ih (fun y hy => h y (List.mem_cons_of_mem _ hy)) _ _ ?_
    exact (wrap_emod w _).trans (hab.add (h x (by simp)))

theorem foldl_wrap_range {δ : Type} (w : Nat) (l : List δ) (f : δ → ℤ) : ∀ a, wrap w a = a →
    wrap w (l.foldl (fun acc x => wrap w (acc + f x)) a) = l.foldl (fun acc x => wrap w (acc + f x)) a := by
  induction l with
  | nil => intro a h; exact h
  | cons x l ih => intro a _; rw [List.foldl_cons]; exact ih _ Int.bmod_bmod

theorem wrap_zero (w : Nat) : wrap w 0 = 0 := by simp [wrap]

theorem wrap_congr {w : Nat} {x y : ℤ} (h : x ≡ y [ZMOD (2 ^ w : ℕ)]) : wrap w x = wrap w y := by
  rw [wrap, wrap, ← Int.emod_bmod, h, Int.emod_bmod]

/-- The wrapped slice is the exact one, wrapped. -/
theorem mulSliceW_eq (w : Nat) (pa : γ → α) (pb : γ → β) (A : PArr α I J) (B : PArr β J K) (d : Nat) (g : γ) (i : Fin I) (k : Fin K) :
    mulSliceW w pa pb A B d g i k = wrap w (mulSlice pa pb A B d g i k) := by
  rw [mulSliceW, ← foldl_wrap_range w _ _ 0 (wrap_zero w)]
  apply wrap_congr
  rw [mulSlice]
  have := foldl_wrap_emod w ((List.range (d + 1)).filter fun t => decide (t < A.length ∧ d - t < B.length))
    (fun t => dotW w (fun j => slice A t (pa g) i j) (fun j => slice B (d - t) (pb g) j k))
    (fun t => ∑ j, slice A t (pa g) i j * slice B (d - t) (pb g) j k) (fun t _ => by
      have := foldl_wrap_emod w (List.finRange J) (fun j => wrap w (slice A t (pa g) i j * slice B (d - t) (pb g) j k))
        (fun j => slice A t (pa g) i j * slice B (d - t) (pb g) j k) (fun j _ => wrap_emod w _) 0 0 rfl
      rw [zero_add] at this
      rw [dotW, Fin.sum_univ_def]
      exact this) 0 0 rfl
  rw [zero_add] at this
  exact this

/-- C62: if the entries lie in `[0, p)` and `J * min(D, E) * (p-1)²` is below `2^(w-1)`, multiplying with `w`-bit integers and
reducing mod `p` gives the same tensor as multiplying exactly and reducing. -/
theorem C62_fixed_width [Fintype γ] (w p : ℕ) (hw : 1 ≤ w) (pa : γ → α) (pb : γ → β) (A : PArr α I J) (B : PArr β J K)
    (hA : ∀ S ∈ A, ∀ a i j, 0 ≤ S a i j ∧ S a i j < p) (hB : ∀ S ∈ B, ∀ b j k, 0 ≤ S b j k ∧ S b j k < p)
    (hb : J * min A.length B.length * (p - 1) ^ 2 < 2 ^ (w - 1)) :
    mulW w pa pb A B = mul pa pb A B none ∧ polymatMulW w p pa pb A B = polymatMul p pa pb A B := by
  have hsA : ∀ d a i j, 0 ≤ slice A d a i j ∧ slice A d a i j ≤ ((p - 1 : ℕ) : ℤ) := by
    intro d a i j
    by_cases h : d < A.length
    · rw [slice_lt A h]
      have := hA _ (List.getElem_mem h) a i j
      omega
    · rw [slice_ge A (by omega)]
      simp
  have hsB : ∀ d b j k, 0 ≤ slice B d b j k ∧ slice B d b j k ≤ ((p - 1 : ℕ) : ℤ) := by
    intro d b j k
    by_cases h : d < B.length
    · rw [slice_lt B h]
      have := hB _ (List.getElem_mem h) b j k
      omega
    · rw [slice_ge B (by omega)]
      simp
  have key : ∀ d, mulSliceW w pa pb A B d = mulSlice pa pb A B d := by
    intro d
    funext g i k
    rw [mulSliceW_eq]
    have hbound : ∀ (l : List ℕ) (f : ℕ → ℤ) (c : ℤ), (∀ t, 0 ≤ f t ∧ f t ≤ c) → 0 ≤ (l.map f).sum ∧ (l.map f).sum ≤ l.length * c := by
      intro l f c hf
      induction l with
      | nil => simp
      | cons x l ih =>
        have := hf x
        simp only [List.map_cons, List.sum_cons, List.length_cons]
        push_cast
        constructor
        · omega
        · nlinarith [ih.2]
    have hdot : ∀ t, 0 ≤ ∑ j, slice A t (pa g) i j * slice B (d - t) (pb g) j k ∧
        ∑ j, slice A t (pa g) i j * slice B (d - t) (pb g) j k ≤ ((J * (p - 1) ^ 2 : ℕ) : ℤ) := by
      intro t
      constructor
      · exact Finset.sum_nonneg fun j _ => mul_nonneg (hsA _ _ _ _).1 (hsB _ _ _ _).1
      · calc _ ≤ ∑ j : Fin J, (((p - 1) ^ 2 : ℕ) : ℤ) := by
              refine Finset.sum_le_sum fun j _ => ?_
              push_cast
              rw [sq]
              exact mul_le_mul (by exact_mod_cast (hsA _ _ _ _).2) (by exact_mod_cast (hsB _ _ _ _).2) (hsB _ _ _ _).1 (by positivity)
          _ = _ := by simp
    have hlen : ((List.range (d + 1)).filter fun t => decide (t < A.length ∧ d - t < B.length)).length ≤ min A.length B.length := by
      have hnd : ((List.range (d + 1)).filter fun t => decide (t < A.length ∧ d - t < B.length)).Nodup := List.nodup_range.filter _
      rw [← List.toFinset_card_of_nodup hnd]
      apply le_min
      · calc _ ≤ (Finset.range A.length).card := Finset.card_le_card fun t ht => by
              simp only [List.mem_toFinset, List.mem_filter, decide_eq_true_eq] at ht
              exact Finset.mem_range.2 ht.2.1
          _ = _ := Finset.card_range _
      · calc _ ≤ ((Finset.range B.length).image fun t => d - t).card := Finset.card_le_card fun t ht => by
              simp only [List.mem_toFinset, List.mem_filter, List.mem_range, decide_eq_true_eq] at ht
              exact Finset.mem_image.2 ⟨d - t, Finset.mem_range.2 ht.2.2, by omega⟩
          _ ≤ (Finset.range B.length).card := Finset.card_image_le
          _ = _ := Finset.card_range _
    obtain ⟨s1, s2⟩ := hbound ((List.range (d + 1)).filter fun t => decide (t < A.length ∧ d - t < B.length)) _ _ hdot
    have hlt : mulSlice pa pb A B d g i k < 2 ^ (w - 1) := by
      calc _ ≤ _ := s2
        _ ≤ ((min A.length B.length : ℕ) : ℤ) * ((J * (p - 1) ^ 2 : ℕ) : ℤ) :=
            mul_le_mul_of_nonneg_right (by exact_mod_cast hlen) (by positivity)
        _ = ((J * min A.length B.length * (p - 1) ^ 2 : ℕ) : ℤ) := by push_cast; ring
        _ < 2 ^ (w - 1) := by exact_mod_cast hb
    exact wrap_eq hw (le_trans (by simp) s1) hlt
  have hmul : mulW w pa pb A B = mul pa pb A B none := by
    rw [mulW, mul]
    have : mulSliceW w pa pb A B = mulSlice pa pb A B := funext key
    rw [this]
  exact ⟨hmul, by rw [polymatMulW, polymatMul, hmul]⟩

/-- The bound is met by the search's defaults: 32 bit integers, `p = 5`, 4-dimensional representation, width 1000. -/
example : 4 * min 1000 1000 * (5 - 1) ^ 2 < 2 ^ (32 - 1) := by norm_num
/-- Beyond the bound results do change: 8 bit integers and entries 12 modulo 13 (exact product 1, wrapped product 5). -/
example :
    ((polymatMulW (I := 1) (J := 1) (K := 1) 8 13 (fun _ : Unit => ()) (fun _ : Unit => ()) [fun _ _ _ => 12]
        [fun _ _ _ => 12]).map fun (P : PArr Unit 1 1) => P.map fun s => s () 0 0) = .ok [5] := by decide +kernel
example :
    ((polymatMul (I := 1) (J := 1) (K := 1) 13 (fun _ : Unit => ()) (fun _ : Unit => ()) [fun _ _ _ => 12]
        [fun _ _ _ => 12]).map fun (P : PArr Unit 1 1) => P.map fun s => s () 0 0) = .ok [1] := by decide +kernel

end Peyl
