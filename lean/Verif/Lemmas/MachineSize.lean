import Verif.Lemmas.MachineReal
/-!
# Degrees and coefficients of the images of braids, and machine integers in the evaluators of `RepBase`

As `SmallB`, with separate bounds for the degrees and the coefficients.
-/
namespace Peyl
open Polymat Polynomial LaurentPolynomial
variable {d : Nat}

/-- Entries of degree at most `D`; the sum of the absolute values of all coefficients in a column is at most `C`. -/
def Size (D C : Nat) (N : _root_.Matrix (Fin d) (Fin d) ℤ[X]) : Prop :=
  ∃ G : _root_.Matrix (Fin d) (Fin d) ℤ[X], (∀ i j e, |(N i j).coeff e| ≤ (G i j).coeff e) ∧ (∀ i j, (G i j).natDegree ≤ D) ∧
    ∀ j, ∑ i, (G i j).eval 1 ≤ C

theorem size_one : Size 0 1 (1 : _root_.Matrix (Fin d) (Fin d) ℤ[X]) := by
  obtain ⟨G, g1, g2, g3⟩ := small_one (d := d)
  exact ⟨G, g1, g2, by simpa using g3⟩

theorem Size.mono {D C D' C' : Nat} {N : _root_.Matrix (Fin d) (Fin d) ℤ[X]} (h : Size D C N) (hD : D ≤ D') (hC : C ≤ C') : Size D' C' N := by
  obtain ⟨G, g1, g2, g3⟩ := h
  exact ⟨G, g1, fun i j => (g2 i j).trans hD, fun j => (g3 j).trans (by exact_mod_cast hC)⟩

theorem Size.mul {D C D' C' : Nat} {N N' : _root_.Matrix (Fin d) (Fin d) ℤ[X]} (h : Size D C N) (h' : Size D' C' N') : Size (D + D') (C * C') (N * N') := by
  obtain ⟨G, g1, g2, g3⟩ := h
  obtain ⟨G', g1', g2', g3'⟩ := h'
  refine ⟨G * G', fun i j e => ?_, fun i j => ?_, fun j => ?_⟩
  · rw [_root_.Matrix.mul_apply, _root_.Matrix.mul_apply, finset_sum_coeff, finset_sum_coeff]
    exact (Finset.abs_sum_le_sum_abs _ _).trans (Finset.sum_le_sum fun k _ => dom_mul (g1 i k) (g1' k j) e)
  · rw [_root_.Matrix.mul_apply]
    refine natDegree_sum_le_of_forall_le _ _ fun k _ => ?_
    refine natDegree_mul_le.trans ?_
    have := g2 i k; have := g2' k j; omega
  · have e1 : ∀ i, ((G * G') i j).eval 1 = ∑ k, (G i k).eval 1 * (G' k j).eval 1 := by
      intro i; rw [_root_.Matrix.mul_apply, eval_finset_sum]; simp
    simp only [e1]
    rw [Finset.sum_comm]
    calc _ = ∑ k, (∑ i, (G i k).eval 1) * (G' k j).eval 1 := by simp only [Finset.sum_mul]
      _ ≤ ∑ k, (C : ℤ) * (G' k j).eval 1 := Finset.sum_le_sum fun k _ => mul_le_mul_of_nonneg_right (g3 k) (eval_one_nonneg (nonneg_of_dom (g1' k j)))
      _ = C * ∑ k, (G' k j).eval 1 := by rw [Finset.mul_sum]
      _ ≤ C * C' := mul_le_mul_of_nonneg_left (g3' j) (by positivity)
      _ = _ := by push_cast; rfl

theorem Size.coeff_le {D C : Nat} {N : _root_.Matrix (Fin d) (Fin d) ℤ[X]} (h : Size D C N) (i j : Fin d) (e : Nat) : |(N i j).coeff e| ≤ C := by
  obtain ⟨G, g1, g2, g3⟩ := h
  have hn := fun i => nonneg_of_dom (g1 i j)
  exact (g1 i j e).trans ((coeff_le_eval_one (hn i) e).trans
    ((Finset.single_le_sum (f := fun i => (G i j).eval 1) (fun i _ => eval_one_nonneg (hn i)) (Finset.mem_univ i)).trans (g3 j)))

theorem Size.degree_le {D C : Nat} {N : _root_.Matrix (Fin d) (Fin d) ℤ[X]} (h : Size D C N) (i j : Fin d) {e : Nat} (he : D < e) : (N i j).coeff e = 0 := by
  obtain ⟨G, g1, g2, g3⟩ := h
  have h1 := g1 i j e
  rw [coeff_eq_zero_of_natDegree_lt (lt_of_le_of_lt (g2 i j) he)] at h1
  exact abs_nonpos_iff.1 h1

/-- Up to a power of `v`, the matrix of the braid is `Size D C`. -/
def SizeB {n p d : Nat} (ρ : Braid n →* LMat p d) (D C : Nat) (b : Braid n) : Prop :=
  ∃ (N : _root_.Matrix (Fin d) (Fin d) ℤ[X]) (k : ℤ), Size D C N ∧ ρ b = (T k : (ZMod p)[T;T⁻¹]) • N.map fun f => LPoly.red p f.toLaurent

section
variable {n p : Nat} {ρ : Braid n →* LMat p d}

theorem SizeB.mono {D C D' C' : Nat} {b : Braid n} (h : SizeB ρ D C b) (hD : D ≤ D') (hC : C ≤ C') : SizeB ρ D' C' b := by
  obtain ⟨N, k, h1, h2⟩ := h
  exact ⟨N, k, h1.mono hD hC, h2⟩

theorem SizeB.one : SizeB ρ 0 1 (1 : Braid n) := by
  refine ⟨1, 0, size_one, ?_⟩
  rw [map_one, T_zero, one_smul]
  ext1 i j
  rw [_root_.Matrix.map_apply, _root_.Matrix.one_apply, _root_.Matrix.one_apply]
  split <;> simp

theorem SizeB.mul {D C D' C' : Nat} {a b : Braid n} (ha : SizeB ρ D C a) (hb : SizeB ρ D' C' b) : SizeB ρ (D + D') (C * C') (a * b) := by
  obtain ⟨N, k, h1, h2⟩ := ha
  obtain ⟨N', k', h1', h2'⟩ := hb
  refine ⟨N * N', k + k', h1.mul h1', ?_⟩
  rw [map_mul, h2, h2', T_add, smul_mul_assoc, mul_smul_comm, smul_smul]
  congr 1
  ext1 i j
  simp only [_root_.Matrix.mul_apply, _root_.Matrix.map_apply, map_sum, map_mul]

/-- Positive words. -/
theorem SizeB.word {D C : Nat} (h : ∀ s, s + 1 < n → SizeB ρ D C (sigma n s)) : ∀ u : List Nat, (∀ s ∈ u, s + 1 < n) → SizeB ρ (u.length * D) (C ^ u.length) (posWord n u)
  | [], _ => by simpa [posWord] using SizeB.one
  | s :: u, hu => by
    have := (h s (hu s (by simp))).mul (SizeB.word h u fun s hs => hu s (by simp [hs]))
    have e : posWord n (s :: u) = sigma n s * posWord n u := by simp [posWord]
    rw [e, List.length_cons]
    exact this.mono (by rw [Nat.succ_mul]; omega) (by rw [pow_succ, mul_comm])

/-- The width of a batch of images. -/
theorem width_le_size {α : Type} {D C : Nat} {P : PArr α d d} {b : α → Braid n} (hb : ∀ a, SizeB ρ D C (b a)) (hP : IsProjImage p P fun a => ρ (b a)) : P.length ≤ D + 1 := by
  obtain ⟨a, hlast⟩ := hP.last
  obtain ⟨k', hk'⟩ := hP.shift a
  obtain ⟨N, k0, n1, n2⟩ := hb a
  have hk : Polymat.denMod p P a = (T (k' + k0) : (ZMod p)[T;T⁻¹]) • N.map fun f => LPoly.red p f.toLaurent := by
    rw [hk']; dsimp only; rw [n2, smul_smul, ← T_add]
  have key : ∀ e, slice P e a ≠ 0 → 0 ≤ (e : ℤ) - (k' + k0) ∧ (e : ℤ) - (k' + k0) ≤ D := by
    intro e he
    obtain ⟨i, hi⟩ := Function.ne_iff.1 he
    obtain ⟨j, hj⟩ := Function.ne_iff.1 hi
    have h1 := shift_coeff hk e i j
    have hne : ((slice P e a i j : ℤ) : ZMod p) ≠ 0 := fun h0 => hj (castZ (fun hp => by
      by_cases hl : e < P.length
      · rw [slice_lt P hl]; exact hP.reduced hp _ (List.getElem_mem hl) a i j
      · rw [slice_ge P (by omega)]; exact ⟨le_rfl, by show (0 : ℤ) < p; omega⟩) h0)
    rw [h1] at hne
    split at hne
    · next h0 =>
      refine ⟨h0, ?_⟩
      by_contra hgt
      rw [n1.degree_le i j (by omega)] at hne
      simp at hne
    · exact absurd rfl hne
  have a1 := key 0 (hP.first a)
  have a2 := key _ hlast
  omega
end

theorem bd_size {n : Nat} {α : Type} {D C : Nat} {ρ : Braid n →* LMat 0 d} {A : PArr α d d} {b : α → Braid n} (hA : UpToShift 0 A fun a => ρ (b a)) (hb : ∀ a, SizeB ρ D C (b a)) : Bd C A := by
  refine bd_of_slice fun e a i j _ => ?_
  obtain ⟨N, k0, n1, n2⟩ := hb a
  obtain ⟨k', hk'⟩ := hA a
  have hk : Polymat.denMod 0 A a = (T (k' + k0) : (ZMod 0)[T;T⁻¹]) • N.map fun f => LPoly.red 0 f.toLaurent := by
    rw [hk']; dsimp only; rw [n2, smul_smul, ← T_add]
  have h1 := shift_coeff hk e i j
  have cast0 : ∀ x y : ℤ, (Int.cast x : ZMod 0) = (Int.cast y : ZMod 0) → x = y := fun x y h => by
    have h' : x ≡ y [ZMOD ((0 : ℕ) : ℤ)] := (ZMod.intCast_eq_intCast_iff x y 0).1 h
    simpa [Int.ModEq] using h'
  split at h1
  · rw [cast0 _ _ h1]; exact n1.coeff_le i j _
  · have := cast0 _ 0 (by simpa using h1)
    rw [this]; simp

section
variable {lim : Nat} {ω : List Nat → List Nat → Nat → Nat} {n p w : Nat} {G I : List Matrix} {ρ : Braid n →* LMat p d}

/-- Modulo `p` the evaluators with machine integers do what they do with exact ones on GNFs, if the images of the generators have degrees at most `D`. -/
theorem gnf_mod {D C : Nat} (hn : 2 ≤ n) (hl : n < lim) (hp : 2 ≤ p) (H : Realises (⟨n, p, G, I⟩ : RepBase d) ρ) (hd : 0 < d) (hw : 1 ≤ w)
    (hS : ∀ s, s + 1 < n → SizeB ρ D C (sigma n s)) (hb : d * (n * (n - 1) / 2 * D + 1) * (p - 1) ^ 2 < 2 ^ (w - 1)) :
    (∀ xs : List NF, (∀ x ∈ xs, IsGNF lim ω n x) → (⟨n, p, G, I⟩ : RepBase d).evalSameW w (GNF.tbl lim ω) xs =
      (⟨n, p, G, I⟩ : RepBase d).evalSame (GNF.tbl lim ω) xs) ∧
    (∀ seqs : List (List Nat), (⟨n, p, G, I⟩ : RepBase d).evalIntegersW w (GNF.tbl lim ω) seqs =
      (⟨n, p, G, I⟩ : RepBase d).evalIntegers (GNF.tbl lim ω) seqs) := by
  obtain ⟨t, R⟩ := exists_greal lim ω hn hl
  obtain ⟨a1, a2⟩ := mod_arith hd (by omega) hp hb
  have key : ∀ f, f < t.order → ∃ P, (⟨n, p, G, I⟩ : RepBase d).factorImage (GNF.tbl lim ω) f = .ok P ∧ Bd (p - 1) P ∧ P.length ≤ n * (n - 1) / 2 * D + 1 := by
    intro f hf
    obtain ⟨P, p1, p2⟩ := RepBase.factorImage_spec (rep := (⟨n, p, G, I⟩ : RepBase d)) R.1 H hd (show p ≠ 1 by omega) hf
    obtain ⟨u, u1, u2, u3, u4⟩ := lift_word (permAt n f)
    have hs : SizeB ρ (n * (n - 1) / 2 * D) (C ^ u.length) (lift (permAt n f)) := by
      rw [u3]; exact (SizeB.word hS u u1).mono (Nat.mul_le_mul_right _ u4) le_rfl
    exact ⟨P, p1, bd_of_reduced (show p ≠ 0 by omega) p2.reduced, width_le_size (b := fun _ => lift (permAt n f)) (fun _ => hs) p2⟩
  have hF : ∀ f, f < t.order → (⟨n, p, G, I⟩ : RepBase d).factorImageW w (GNF.tbl lim ω) f = (⟨n, p, G, I⟩ : RepBase d).factorImage (GNF.tbl lim ω) f := by
    intro f hf
    obtain ⟨P, p1, p2, -⟩ := key f hf
    rw [RepBase.factorImageW_eq p1 p2 a1, p1]
  have hB : ∀ f, f < t.order → ∀ A, (⟨n, p, G, I⟩ : RepBase d).factorImage (GNF.tbl lim ω) f = .ok A → Bd (p - 1) A ∧ A.length ≤ n * (n - 1) / 2 * D + 1 := by
    intro f hf A hA
    obtain ⟨P, p1, p2, p3⟩ := key f hf
    rw [p1] at hA; cases hA
    exact ⟨p2, p3⟩
  constructor
  · intro xs hx
    refine RepBase.evalSameW_mod_of (Q := fun f => f < t.order) (QD := fun k => k < t.tauOrder ∧ k ≤ 1) (M := p - 1) (W := n * (n - 1) / 2 * D + 1) hw (show p ≠ 0 by omega)
      hF hB (fun k hk => ?_) (fun k hk A hA => ?_) le_rfl a2 xs (fun x hxm => (R.isGNF_iff.1 (hx x hxm)).inR) (fun x hxm t' k ht' hk => ?_)
    · obtain ⟨P, p1, -, -, p4⟩ := RepBase.deltaImage_spec (rep := (⟨n, p, G, I⟩ : RepBase d)) R.1 H hd (show p ≠ 1 by omega) hk.1
      rw [RepBase.deltaImageW_eq p1 (bd_of_reduced (show p ≠ 0 by omega) (p4 hk.2)) a1, p1]
    · obtain ⟨P, p1, -, -, p4⟩ := RepBase.deltaImage_spec (rep := (⟨n, p, G, I⟩ : RepBase d)) R.1 H hd (show p ≠ 1 by omega) hk.1
      rw [p1] at hA; cases hA
      exact bd_of_reduced (show p ≠ 0 by omega) (p4 hk.2)
    · obtain rfl : t = t' := by have := R.1.ok; rw [show GNF.tbl lim ω n = .ok t' from ht'] at this; injection this with this; exact this.symm
      obtain ⟨e1, e2⟩ := R.1.tauIndex_ok x.power
      rw [e1] at hk; cases hk
      have := R.tauOrder
      exact ⟨e2, by omega⟩
  · intro seqs
    refine RepBase.evalIntegersW_mod (Q := fun f => f < t.order) (W := n * (n - 1) / 2 * D + 1) hw (show p ≠ 0 by omega) hF hB a2 seqs fun t' ht' => ?_
    obtain rfl : t = t' := by have := R.1.ok; rw [show GNF.tbl lim ω n = .ok t' from ht'] at this; injection this with this; exact this.symm
    exact ⟨R.1.spec.id_lt, fun f hf => hf⟩
end
end Peyl
