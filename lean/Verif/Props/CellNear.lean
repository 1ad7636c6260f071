import Verif.Lemmas.CellNear
import Verif.Props.BurauKernel
import Verif.Props.GnfPair
/-!
# Projlen 1 in the other cell representations (C126)
-/
namespace Peyl
open BraidSearch Search LaurentPolynomial Jones Polymat _root_.Matrix Bur CellNear
variable {lim : Nat} {ω : List Nat → List Nat → Nat → Nat}

private theorem zpow_scalar {n p d : Nat} {ρ : Braid n →* LMat p d} {b : Braid n} {c : ℤ} (h : ρ b = (T c : (ZMod p)[T;T⁻¹]) • 1) (k : ℤ) :
    ρ (b ^ k) = (T (c * k) : (ZMod p)[T;T⁻¹]) • 1 := by
  have nat : ∀ m : ℕ, ρ (b ^ m) = (T (c * m) : (ZMod p)[T;T⁻¹]) • 1 := by
    intro m
    rw [map_pow, h, smul_pow, one_pow, T_pow, mul_comm]
  cases k with
  | ofNat m => rw [Int.ofNat_eq_natCast, zpow_natCast]; exact nat m
  | negSucc m =>
    have h1 : ρ (b ^ (m + 1)) * ρ (b ^ Int.negSucc m) = 1 := by rw [← map_mul, zpow_negSucc, mul_inv_cancel, map_one]
    rw [nat, smul_mul_assoc, one_mul, T_smul_eq_iff] at h1
    rw [h1]
    congr 2
    push_cast
    rw [Int.negSucc_eq]; ring

/-- C126: `JonesCellRep(n, 0, p)` is the trivial representation: every braid evaluates to the identity matrix. -/
theorem C126_trivial (n p : Nat) (hn : 2 ≤ n) (hl : n < lim) (hp : p ≠ 1) : ∃ rep : RepBase (dimension n 0), cellRep n 0 p = .ok rep ∧
    ∀ x, IsGNF lim ω n x → ∃ m, rep.evaluate (GNF.tbl lim ω) x = .ok m ∧ m.den (dimension n 0) (dimension n 0) = 1 := by
  obtain ⟨ρ, G, I, gs, g1, g2, -, -, hF, hd⟩ := C54_hypotheses n 0 p hn (by omega)
  exact ⟨_, g1, fun x hx => (evaluate_one hn hl hp hd g2 hx).2 (trivial (by omega) g1 g2 _)⟩

example := C126_trivial (lim := 7) (ω := pop0) 4 5 (by decide) (by decide) (by decide)

/-- C126: if the image of a braid is a power of `v` times a constant matrix, and `e` is a multiple of the order of the permutation of the braid, then the image
of the `e`-th power of the braid is a power of `v` times the identity. -/
theorem C126_scalar (n r p : Nat) (hn : 2 ≤ n) (hr : 2 * r ≤ n) : ∃ (ρ : Braid n →* LMat p (dimension n r)) (G I : List Matrix),
    cellRep n r p = .ok ⟨n, p, G, I⟩ ∧ Realises (⟨n, p, G, I⟩ : RepBase (dimension n r)) ρ ∧
    ∀ φ : Braid n →* Equiv.Perm (Fin n), (∀ i, i + 1 < n → φ (sigma n i) = sg n i) →
    ∀ b e, NearKernel ρ b → φ b ^ e = 1 → ∃ j : ℤ, ρ (b ^ e) = (T j : (ZMod p)[T;T⁻¹]) • 1 := by
  obtain ⟨ρ, G, I, gs, g1, g2, -, -, hF, hd⟩ := C54_hypotheses n r p hn hr
  refine ⟨ρ, G, I, g1, g2, fun φ hφ b e ⟨k, M, hM⟩ he => ⟨k * e, ?_⟩⟩
  have h1 := at_one (by omega) hr g1 g2 hφ (b := b ^ e) (by rw [map_pow, he])
  have h2 : ρ (b ^ e) = (T (k * e) : (ZMod p)[T;T⁻¹]) • (M ^ e).map C := by
    rw [map_pow, hM, smul_pow, T_pow, mul_comm]
    congr 1
    exact (map_pow (C (R := ZMod p)).mapMatrix M e).symm
  rw [h2] at h1 ⊢
  congr 1
  have h3 : M ^ e = 1 := by
    rw [← h1]
    ext x y
    simp only [_root_.Matrix.map_apply, _root_.Matrix.smul_apply, smul_eq_mul, map_mul, ev1_T, ev1_C, one_mul]
  rw [h3]
  refine _root_.Matrix.ext fun x y => ?_
  rw [_root_.Matrix.map_apply, _root_.Matrix.one_apply, _root_.Matrix.one_apply]
  split_ifs <;> simp

/-- C126: whatever `n`, `r` and `p`: if the image of a braid has projlen 1, then some power of the braid times a power of the Garside element is in the kernel. -/
theorem C126_power (n r p : Nat) (hn : 2 ≤ n) (hr : 2 * r ≤ n) (hl : n < lim) (hp : p ≠ 1) : ∃ rep : RepBase (dimension n r), cellRep n r p = .ok rep ∧
    ∀ x, IsGNF lim ω n x → ∃ A pl, rep.evalOne (GNF.tbl lim ω) x = .ok A ∧ projlen A = .ok pl ∧
      (pl () = 1 → ∃ (e : ℕ) (k : ℤ) (y : NF) (m : Matrix), 1 ≤ e ∧ IsGNF lim ω n y ∧ gnfBraid n y = halfTwist n ^ k * gnfBraid n x ^ e ∧
        rep.evaluate (GNF.tbl lim ω) y = .ok m ∧ m.den (dimension n r) (dimension n r) = 1) := by
  obtain ⟨ρ, G, I, g1, g2, hs⟩ := C126_scalar n r p hn hr
  obtain ⟨ρ', G', I', gs, g1', g2', -, -, hF', hd⟩ := C54_hypotheses n r p hn hr
  rw [g1] at g1'
  obtain ⟨rfl, rfl⟩ : G = G' ∧ I = I' := by injection g1' with h2; injection h2 with _ _ a b; exact ⟨a, b⟩
  obtain ⟨β, b1, b2⟩ := realises_cell (by omega) hr g1 g2
  have hT := fullTwist_of_gens (by omega) hr b1 ρ fun i hi => (b2 i hi).1
  have hF : FullTwistScalar ρ := ⟨_, hT⟩
  refine ⟨_, g1, fun x hx => ?_⟩
  obtain ⟨A, a1, a2⟩ := C55_single hn hl g2 hF hd hp x hx
  obtain ⟨pl, p1, p2⟩ := projlen_image (τ := ρ) a2
  refine ⟨A, pl, a1, p1, fun h => ?_⟩
  suffices ∃ (e : ℕ) (k : ℤ), 1 ≤ e ∧ ρ (halfTwist n ^ k * gnfBraid n x ^ e) = 1 by
    obtain ⟨e, k, he, h1⟩ := this
    obtain ⟨y, y1, y2⟩ := C15_surjective (ω := ω) hn hl (halfTwist n ^ k * gnfBraid n x ^ e)
    rw [← y2] at h1
    obtain ⟨m, m1, m2⟩ := (evaluate_one hn hl hp hd g2 y1).2 h1
    exact ⟨e, k, y, m, he, y1, y2, m1, m2⟩
  rcases Nat.eq_zero_or_pos r with rfl | hr0
  · exact ⟨1, 0, le_rfl, trivial (by omega) g1 g2 _⟩
  · obtain ⟨φ, hφ⟩ := exists_perm n
    obtain ⟨j, hj⟩ := hs φ hφ (gnfBraid n x) (orderOf (φ (gnfBraid n x))) (nearKernel_of_width a2 (by omega)) (pow_orderOf_eq_one _)
    have hc : 0 < 2 * r * (n - r + 1) := by positivity
    refine ⟨orderOf (φ (gnfBraid n x)) * (2 * r * (n - r + 1)), 2 * (-j), Nat.mul_pos (orderOf_pos _) hc, ?_⟩
    have h2 := zpow_scalar hj ((2 * r * (n - r + 1) : ℕ) : ℤ)
    have h3 := zpow_scalar hT (-j)
    rw [map_mul, zpow_mul, pow_mul, ← zpow_natCast (_ ^ _) (2 * r * (n - r + 1)), h2]
    have h4 : halfTwist n ^ (2 : ℤ) = halfTwist n ^ 2 := by norm_cast
    rw [h4, h3, smul_mul_smul_comm, one_mul, ← T_add,
      show ((2 * r * (n - r + 1) : ℕ) : ℤ) * -j + j * ((2 * r * (n - r + 1) : ℕ) : ℤ) = 0 by ring, T_zero, one_smul]

/-- The image of `σ₁σ₂σ₁` and of the Garside element in (4, 2). -/
private theorem four_two_images (p : Nat) {G I : List Matrix} (hrep : cellRep 4 2 p = .ok ⟨4, p, G, I⟩) {ρ : Braid 4 →* LMat p (dimension 4 2)}
    (H : Realises (⟨4, p, G, I⟩ : RepBase (dimension 4 2)) ρ) :
    ρ (posWord 4 [0, 1, 0]) = (T 3 : (ZMod p)[T;T⁻¹]) • (!![0, 1; 1, 0] : _root_.Matrix (Fin 2) (Fin 2) (ZMod p)[T;T⁻¹]) ∧
    ρ (halfTwist 4) = (T 6 : (ZMod p)[T;T⁻¹]) • 1 := by
  obtain ⟨β, b1, b2⟩ := realises_cell (by omega) (by omega) hrep H
  have hv : (T 1 : (ZMod p)[T;T⁻¹]) * T (-1) = 1 := by rw [← T_add]; exact T_zero
  obtain ⟨q1, q2⟩ := four_two (R := (ZMod p)[T;T⁻¹]) hv (β := β) b1
  have s0 : ρ (sigma 4 0) = _ := (b2 0 (by omega)).1
  have s1 : ρ (sigma 4 1) = _ := (b2 1 (by omega)).1
  have s2 : ρ (sigma 4 2) = ρ (sigma 4 0) := by rw [s0, (b2 2 (by omega)).1]; exact q1
  have hw : ρ (posWord 4 [0, 1, 0]) = (T 3 : (ZMod p)[T;T⁻¹]) • (!![0, 1; 1, 0] : _root_.Matrix (Fin 2) (Fin 2) (ZMod p)[T;T⁻¹]) := by
    have e : posWord 4 [0, 1, 0] = sigma 4 0 * sigma 4 1 * sigma 4 0 := by simp [posWord, mul_assoc]
    rw [e, map_mul, map_mul, s0, s1]
    rw [T_pow] at q2
    exact q2
  refine ⟨hw, ?_⟩
  have e : halfTwist 4 = posWord 4 [0, 1, 0] * (sigma 4 2 * sigma 4 1 * sigma 4 0) := by
    rw [halfTwist_word (by omega), show halfW (4 - 1) = [0, 1, 0, 2, 1, 0] by decide]
    simp [posWord, mul_assoc]
  have e2 : ρ (sigma 4 2 * sigma 4 1 * sigma 4 0) = ρ (posWord 4 [0, 1, 0]) := by
    rw [show posWord 4 [0, 1, 0] = sigma 4 0 * sigma 4 1 * sigma 4 0 by simp [posWord, mul_assoc], map_mul, map_mul, s2, map_mul, map_mul]
  rw [e, map_mul, e2, hw]
  have : (!![0, 1; 1, 0] : _root_.Matrix (Fin 2) (Fin 2) (ZMod p)[T;T⁻¹]) * !![0, 1; 1, 0] = 1 := by
    refine _root_.Matrix.ext fun i j => ?_
    fin_cases i <;> fin_cases j <;> simp [_root_.Matrix.mul_apply, Fin.sum_univ_two]
  have h6 : ((T 3 : (ZMod p)[T;T⁻¹]) • (!![0, 1; 1, 0] : _root_.Matrix (Fin 2) (Fin 2) (ZMod p)[T;T⁻¹])) * ((T 3 : (ZMod p)[T;T⁻¹]) • !![0, 1; 1, 0]) = (T 6 : (ZMod p)[T;T⁻¹]) • 1 := by
    rw [smul_mul_smul_comm, this, ← T_add]; rfl
  exact h6

private theorem swap_scalar {R : Type*} [CommRing R] {s t : R} (h : s • (!![0, 1; 1, 0] : _root_.Matrix (Fin 2) (Fin 2) R) = t • 1) : t = 0 := by
  have := congrFun (congrFun h 0) 0
  simpa using this.symm

private theorem near_not_kernel (hl : 4 < lim) (p : Nat) (hp : p ≠ 1) {G I : List Matrix} (hrep : cellRep 4 2 p = .ok ⟨4, p, G, I⟩) {ρ : Braid 4 →* LMat p (dimension 4 2)}
    (H : Realises (⟨4, p, G, I⟩ : RepBase (dimension 4 2)) ρ) : ∃ x, IsGNF lim ω 4 x ∧ x.power = 0 ∧ x.factors.length = 1 ∧ printed 4 x = (0, [[2, 1, 0, 3]]) ∧
      NearKernel ρ (gnfBraid 4 x) ∧ ∀ k : ℤ, ρ (gnfBraid 4 ⟨4, k, x.factors⟩) ≠ 1 := by
  obtain ⟨h1, h2⟩ := four_two_images p hrep H
  have hred : IsReduced [0, 1, 0] (coxProd 4 [0, 1, 0]) := ⟨by decide, rfl, by decide +kernel⟩
  obtain ⟨x, x1, x2, x3⟩ := C19_from_gnf_pair (lim := lim) (ω := ω) (n := 4) (by omega) hl 0 [coxProd 4 [0, 1, 0]]
  obtain ⟨x', y1, y2, y3, y4, y5⟩ := C19_from_gnf_pair_normal (lim := lim) (ω := ω) (n := 4) (by omega) hl 0 [coxProd 4 [0, 1, 0]]
    (by intro π hπ; rw [List.mem_singleton] at hπ; subst hπ; decide +kernel) (List.isChain_singleton _)
  rw [x1] at y1; cases y1
  have hb : gnfBraid 4 x = posWord 4 [0, 1, 0] := by
    rw [x3, zpow_zero, one_mul]
    simp [lift_eq_posWord hred]
  refine ⟨x, x2, y3, y5, ?_, ?_, ?_⟩
  · rw [canonicalFactors_spec (by omega) hl x2] at y4
    rw [printed, show x.power = 0 from y3, Except.ok.inj y4]
    decide +kernel
  · refine ⟨3, !![0, 1; 1, 0], ?_⟩
    rw [hb, h1]
    congr 1
    refine _root_.Matrix.ext fun i j => ?_
    change (!![0, 1; 1, 0] : _root_.Matrix (Fin 2) (Fin 2) (ZMod p)[T;T⁻¹]) i j = C ((!![0, 1; 1, 0] : _root_.Matrix (Fin 2) (Fin 2) (ZMod p)) i j)
    fin_cases i <;> fin_cases j <;> simp
  · intro k hk
    rw [gnfBraid_power, map_mul, zpow_scalar h2, hb, smul_mul_assoc, one_mul, T_smul_eq_iff, h1] at hk
    haveI : Nontrivial (ZMod p) := ZMod.nontrivial_iff.2 hp
    have : (0 : (ZMod p)[T;T⁻¹]) = T (-(6 * (k - x.power))) := (swap_scalar hk).symm
    have h0 : (T (6 * (k - x.power)) : (ZMod p)[T;T⁻¹]) * T (-(6 * (k - x.power))) = 1 := by rw [← T_add, add_neg_cancel, T_zero]
    rw [← this, mul_zero] at h0
    exact zero_ne_one h0

/-- C126: the sentence "projlen 1 means in the kernel up to a power of the Garside element" is false for `JonesCellRep(4, 2, p)`, for every modulus: the
positive braid `σ₁σ₂σ₁` has projlen 1, and no power of the Garside element takes it into the kernel. -/
theorem C126_four_two_refuted (p : Nat) (hl : 4 < lim) (hp : p ≠ 1) : ∃ (rep : RepBase (dimension 4 2)) (x : NF), cellRep 4 2 p = .ok rep ∧ IsGNF lim ω 4 x ∧
    printed 4 x = (0, [[2, 1, 0, 3]]) ∧ (∃ A pl, rep.evalOne (GNF.tbl lim ω) x = .ok A ∧ projlen A = .ok pl ∧ pl () = 1) ∧
    ∀ (k : ℤ) (m : Matrix), rep.evaluate (GNF.tbl lim ω) ⟨4, k, x.factors⟩ = .ok m → m.den (dimension 4 2) (dimension 4 2) ≠ 1 := by
  obtain ⟨ρ, G, I, gs, g1, g2, -, -, hF, hd⟩ := C54_hypotheses 4 2 p (by omega) (by omega)
  obtain ⟨x, x1, x2, x3, x4, x5, x6⟩ := near_not_kernel (ω := ω) hl p hp g1 g2
  refine ⟨_, x, g1, x1, x4, ?_, fun k m hm h1 => x6 k ((evaluate_one (by omega) hl hp hd g2 (isGNF_power x1 k)).1 ⟨m, hm, h1⟩)⟩
  obtain ⟨A, a1, a2⟩ := C55_single (rep := ⟨4, p, G, I⟩) (by show 2 ≤ 4; omega) hl g2 hF hd hp x x1
  obtain ⟨pl, p1, p2⟩ := projlen_image (τ := ρ) a2
  exact ⟨A, pl, a1, p1, by rw [p2, width_one x5 a2]; rfl⟩

/-- C126: consequently `search.py 4 2 p` does announce elements that are in no kernel, for every modulus: with buckets that are large enough the first round reports
the braid `(0, [(2, 1, 0, 3)])`, and no power of the Garside element takes it into the kernel. -/
theorem C126_search_refuted {S : Type} (p : Nat) (hl : 4 < lim) (hp : p ≠ 1) (rank : (Fin (dimension 4 2) → Fin (dimension 4 2) → ℤ) → Nat) (g : Rng S) (seed : S)
    (ord : ℤ → List Row → List Row) (ho : ∀ L l, (ord L l).Perm l) :
    ∃ (rep : RepBase (dimension 4 2)) (sm : Summand (dimension 4 2)) (K : ℕ), cellRep 4 2 p = .ok rep ∧ summand 4 2 p = .ok sm ∧
      ∀ (size : ℕ) (a : Args), K < size → (K : ℤ) ≤ a.useBest → a.bootstrapLength = 1 → 1 ≤ a.stepSize →
      ∃ outs st', Search.main (GNF.tbl lim ω) a sm size rank g seed ord = .ok (outs, st') ∧
        (∃ o, outs.head? = some o ∧ ((0, [[2, 1, 0, 3]]) : ℤ × List (List ℕ)) ∈ o.2.found) ∧
        ∀ x, IsGNF lim ω 4 x → printed 4 x = (0, [[2, 1, 0, 3]]) → ∀ (k : ℤ) (m : Matrix), rep.evaluate (GNF.tbl lim ω) ⟨4, k, x.factors⟩ = .ok m → m.den (dimension 4 2) (dimension 4 2) ≠ 1 := by
  obtain ⟨ρ, G, I, gs, g1, g2, g3, g4, hF, hd⟩ := C54_hypotheses 4 2 p (by omega) (by omega)
  obtain ⟨x, x1, x2, x3, x4, x5, x6⟩ := near_not_kernel (ω := ω) hl p hp g1 g2
  obtain ⟨xs, -, -, -, hK⟩ := C16_all_of_length (ω := ω) (n := 4) (by omega) hl 1 0
  refine ⟨_, _, xs.length, g1, g3, fun size a h1 h2 h3 h4 => ?_⟩
  obtain ⟨outs, st', f1, -, f3, -, f5, -, -, -⟩ := C72_main (sm := ⟨4, p, gs⟩) (by show 2 ≤ 4; omega) hl g4 hF hd hp a size (by omega) rank g seed ord ho
  refine ⟨outs, st', f1, ?_, fun z z1 z2 k m hm e => ?_⟩
  · have hc := (C82_complete (sm := ⟨4, p, gs⟩) (by show 2 ≤ 4; omega) hl g4 hF hd hp a (by omega) h4 size rank g seed ord ho 1
      (fun m m1 m2 => ⟨xs.length, by obtain rfl : m = 1 := by omega
                                     exact hK, h1, h2⟩) outs st' f1 x x1 x2 (by omega) (by omega) x5).2 (by omega)
    have hne : outs ≠ [] := by
      rintro rfl
      rcases f5 with f5 | ⟨o, f5, -⟩
      · have : (Search.lengths a).length = 0 := by rw [← f5]; rfl
        simp only [Search.lengths, List.length_map, List.length_range] at this
        omega
      · cases f5
    obtain ⟨o, os, rfl⟩ := List.exists_cons_of_ne_nil hne
    have := hc o rfl
    rw [show printed (Summand.mk (d := dimension 4 2) 4 p gs).n x = _ from x4] at this
    exact ⟨o, rfl, this⟩
  · obtain rfl := printed_inj (by omega) hl z1 x1 (z2.trans x4.symm)
    exact x6 k ((evaluate_one (by omega) hl hp hd g2 (isGNF_power x1 k)).1 ⟨m, hm, e⟩)

/-- `wordOf (σ₁σ₂σ₁)`. -/
example : wordOf (coxProd 4 [0, 1, 0]) = [2, 1, 0, 3] := by decide +kernel

end Peyl
