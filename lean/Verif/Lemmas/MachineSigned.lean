import Verif.Lemmas.MachineGens
import Verif.Lemmas.NParTable
import Verif.Lemmas.DeltaTwist
/-!
# Images of signed words and of dual simple elements have small entries
-/
namespace Peyl
open Polymat Polynomial LaurentPolynomial Jones TL

/-- Up to a power of `v`, the matrix of the braid is `Small ℓ`. -/
def SmallB {n p d : Nat} (ρ : Braid n →* LMat p d) (ℓ : Nat) (b : Braid n) : Prop :=
  ∃ (N : _root_.Matrix (Fin d) (Fin d) ℤ[X]) (k : ℤ), Small ℓ N ∧ ρ b = (T k : (ZMod p)[T;T⁻¹]) • N.map fun f => LPoly.red p f.toLaurent

variable {n p d : Nat} {ρ : Braid n →* LMat p d}

theorem SmallB.mono {ℓ m : Nat} {b : Braid n} (h : SmallB ρ ℓ b) (hm : ℓ ≤ m) : SmallB ρ m b := by
  obtain ⟨N, k, h1, h2⟩ := h
  exact ⟨N, k, small_mono h1 hm, h2⟩

theorem SmallB.one : SmallB ρ 0 (1 : Braid n) := by
  refine ⟨1, 0, small_one, ?_⟩
  rw [map_one, T_zero, one_smul]
  ext1 i j
  rw [_root_.Matrix.map_apply, _root_.Matrix.one_apply, _root_.Matrix.one_apply]
  split <;> simp

theorem SmallB.mul {ℓ m : Nat} {a b : Braid n} (ha : SmallB ρ ℓ a) (hb : SmallB ρ m b) : SmallB ρ (ℓ + m) (a * b) := by
  obtain ⟨N, k, h1, h2⟩ := ha
  obtain ⟨N', k', h1', h2'⟩ := hb
  refine ⟨N * N', k + k', h1.mul h1', ?_⟩
  rw [map_mul, h2, h2', T_add, smul_mul_assoc, mul_smul_comm, smul_smul]
  congr 1
  ext1 i j
  simp only [_root_.Matrix.mul_apply, _root_.Matrix.map_apply, map_sum, map_mul]

theorem SmallB.prod {ℓ : Nat} : ∀ bs : List (Braid n), (∀ b ∈ bs, SmallB ρ ℓ b) → SmallB ρ (bs.length * ℓ) bs.prod
  | [], _ => by simpa using SmallB.one
  | b :: bs, h => by
    have := (h b (by simp)).mul (SmallB.prod bs fun b' hb' => h b' (by simp [hb']))
    rw [List.prod_cons, List.length_cons]
    exact this.mono (by rw [Nat.succ_mul]; omega)

theorem SmallB.pow {ℓ : Nat} {b : Braid n} (h : SmallB ρ ℓ b) : ∀ k : Nat, SmallB ρ (k * ℓ) (b ^ k)
  | 0 => by simpa using SmallB.one
  | k + 1 => by
    rw [pow_succ]
    exact ((SmallB.pow h k).mul h).mono (by rw [Nat.succ_mul])

/-- The matrices of the inverses of the generators. -/
theorem small_gen_inv {n b : Nat} {β : Fin d → List Nat} (hβ : IsBasis n b β) {k : Nat} (hk : k + 1 < n + b) :
    ∃ N : _root_.Matrix (Fin d) (Fin d) ℤ[X], Small 1 N ∧
      N.map (fun f => f.toLaurent) = (T 2 : ℤ[T;T⁻¹]) • (1 - (T (-1) : ℤ[T;T⁻¹]) • Emat (T 1 + T (-1)) β k) := by
  refine ⟨fun a c => (if a = c then X ^ 2 else 0) - if actSeq k (β c) = β a then (if actLoops k (β c) = 1 then X ^ 2 + 1 else X) else 0,
    ⟨fun a c => if actLoops k (β c) = 1 then (if a = c then 1 else 0) else (if a = c then X ^ 2 else 0) + if actSeq k (β c) = β a then X else 0,
      fun a c e => ?_, fun a c => ?_, fun c => ?_⟩, ?_⟩
  · dsimp only
    by_cases hl : actLoops k (β c) = 1
    · have hl' : at_ (β c) k = k + 1 := by
        by_contra hne; rw [actLoops, if_neg hne] at hl; omega
      rw [act_of_loop (hβ.cell c) hk hl']
      simp only [hl, if_true]
      by_cases hac : a = c
      · rw [if_pos hac, if_pos (by rw [hac]), if_pos hac]
        rw [show (X ^ 2 : ℤ[X]) - (X ^ 2 + 1) = -1 by ring, coeff_neg, abs_neg, coeff_one]
        split <;> simp
      · rw [if_neg hac, if_neg (fun h => hac (hβ.inj h).symm), if_neg hac]; simp
    · simp only [hl, if_false]
      rw [coeff_sub, coeff_add]
      refine (abs_sub _ _).trans (add_le_add ?_ ?_)
      · split
        · rw [coeff_X_pow]; split <;> simp
        · simp
      · split
        · rw [coeff_X]; split <;> simp
        · simp
  · dsimp only
    split
    · split <;> simp
    · refine (natDegree_add_le _ _).trans (max_le ?_ ?_)
      · split <;> simp
      · split
        · rw [natDegree_X]; omega
        · simp
  · by_cases hl : actLoops k (β c) = 1
    · simp only [hl, if_true]
      have : ∀ a, (if a = c then (1 : ℤ[X]) else 0).eval 1 = if a = c then 1 else 0 := by intro a; split <;> simp
      simp [this]
    · simp only [hl, if_false, eval_add]
      rw [Finset.sum_add_distrib]
      have e1 : ∀ a, (if a = c then (X ^ 2 : ℤ[X]) else 0).eval 1 = if a = c then 1 else 0 := by intro a; split <;> simp
      have e2 : ∀ a, (if actSeq k (β c) = β a then (X : ℤ[X]) else 0).eval 1 = if actSeq k (β c) = β a then 1 else 0 := by intro a; split <;> simp
      simp only [e1, e2]
      have h2 : ∑ a, (if actSeq k (β c) = β a then (1 : ℤ) else 0) ≤ 1 := by
        rw [Finset.sum_boole]
        have : (Finset.univ.filter fun a => actSeq k (β c) = β a).card ≤ 1 := Finset.card_le_one.2 fun x hx y hy => by
          simp only [Finset.mem_filter, Finset.mem_univ, true_and] at hx hy
          exact hβ.inj (hx.symm.trans hy)
        exact_mod_cast this
      have h1 : ∑ a, (if a = c then (1 : ℤ) else 0) = 1 := by simp
      rw [h1]; linarith
  · ext1 a c
    rw [_root_.Matrix.smul_apply, _root_.Matrix.sub_apply, _root_.Matrix.smul_apply, smul_eq_mul, smul_eq_mul, Emat, _root_.Matrix.one_apply]
    show toLaurent ((if a = c then X ^ 2 else 0) - if actSeq k (β c) = β a then if actLoops k (β c) = 1 then X ^ 2 + 1 else X else 0) = _
    rw [map_sub, mul_sub]
    refine congrArg₂ _ ?_ ?_
    · split
      · rw [toLaurent_X_pow, mul_one]; rfl
      · simp
    · split
      · split
        · next hl =>
          rw [hl, pow_one, mul_add, ← T_add, ← T_add, mul_add, ← T_add, ← T_add, map_add, toLaurent_X_pow, map_one]; simp
        · next hl =>
          have : actLoops k (β c) = 0 := by
            by_contra hne
            refine hl ?_
            rw [actLoops] at hne ⊢
            split
            · rfl
            · next h => rw [if_neg h] at hne; exact absurd rfl hne
          rw [this, pow_zero, mul_one, toLaurent_X, ← T_add]; rfl
      · simp

section jones
variable {r : Nat} {G I : List Matrix} {ρ : Braid n →* LMat p (dimension n r)}

theorem smallB_sigma (hn : 1 ≤ n) (h : 2 * r ≤ n) (hrep : cellRep n r p = .ok ⟨n, p, G, I⟩) (H : Realises (⟨n, p, G, I⟩ : RepBase (dimension n r)) ρ)
    {s : Nat} (hs : s + 1 < n) : SmallB ρ 1 (sigma n s) ∧ SmallB ρ 1 (sigma n s)⁻¹ := by
  constructor
  · obtain ⟨N, n1, n2⟩ := jones_small hn h hrep H [s] (by simpa using hs)
    refine ⟨N, 0, n1, ?_⟩
    rw [T_zero, one_smul, ← n2]; simp [posWord]
  · obtain ⟨β, A, A', h1, h2, h3⟩ := cellRep_spec (n := n) (r := r) (p := p) hn h
    rw [hrep] at h2
    obtain ⟨rfl, rfl⟩ : G = (List.range (n - 1)).map A ∧ I = (List.range (n - 1)).map A' := by
      injection h2 with h2; injection h2 with _ _ a b; exact ⟨a, b⟩
    obtain ⟨M, m1, m2⟩ := small_gen_inv h1 (k := n - 2 * r + (n - 2 - s)) (by omega)
    have hg := (H.invs s (by simp; omega)).2.2
    simp only [List.getElem_map, List.getElem_range] at hg
    refine ⟨M, -2, m1, ?_⟩
    have e : (M.map fun f => LPoly.red p f.toLaurent) = (M.map fun f => f.toLaurent).map (LPoly.red p) := by ext1 i j; rfl
    rw [← hg, (h3 s hs).2.2.2, e, m2, ← Emat_red]
    ext1 i j
    simp only [_root_.Matrix.map_apply, _root_.Matrix.smul_apply, smul_eq_mul, map_mul, red_T]
    rw [← mul_assoc, ← T_add]
    simp

theorem smallB_bandUp (hn : 1 ≤ n) (h : 2 * r ≤ n) (hrep : cellRep n r p = .ok ⟨n, p, G, I⟩) (H : Realises (⟨n, p, G, I⟩ : RepBase (dimension n r)) ρ)
    (a : Nat) : ∀ k, a + k + 1 < n → SmallB ρ (2 * k + 1) (bandUp n a k)
  | 0, hk => by rw [bandUp]; exact (smallB_sigma hn h hrep H hk).1
  | k + 1, hk => by
    rw [bandUp]
    obtain ⟨s1, s2⟩ := smallB_sigma hn h hrep H (s := a + k + 1) (by omega)
    exact ((s1.mul (smallB_bandUp hn h hrep H a k (by omega))).mul s2).mono (by omega)

/-- A dual simple element is the product of at most `n - 1` band generators, each of which is a signed word of at most `2 n - 3` letters. -/
theorem smallB_dlift (hn : 1 ≤ n) (h : 2 * r ≤ n) (hrep : cellRep n r p = .ok ⟨n, p, G, I⟩) (H : Realises (⟨n, p, G, I⟩ : RepBase (dimension n r)) ρ)
    {π : Equiv.Perm (Fin n)} (hπ : (nparGerm n).P π) : SmallB ρ ((n - 1) * (2 * n - 3)) (dlift π) := by
  obtain ⟨w, hw⟩ := Germ.exists_red (g := nparGerm n) npar_atoms.1 npar_atoms.2 hπ
  rw [dlift_eq (nparGerm_P.1 hπ) (red_iff_min.1 hw)]
  have hl : w.length ≤ n - 1 := by
    rw [← rlen_dcyc hn, hw.2.2]
    have : rlen π + rlen (π⁻¹ * dcyc n) = rlen (dcyc n) := hπ
    show rlen π ≤ _
    omega
  refine (SmallB.prod (ℓ := 2 * n - 3) _ fun b hb => ?_).mono (Nat.mul_le_mul_right _ (by simpa using hl))
  obtain ⟨q, hq, rfl⟩ := List.mem_map.1 hb
  have h12 : (q.1 : Nat) < q.2 := hw.1 q hq
  have := q.2.2
  rw [band, if_neg (by omega), min_eq_left h12.le, max_eq_right h12.le]
  exact (smallB_bandUp hn h hrep H q.1 _ (by omega)).mono (by omega)

end jones

/-- The width of a batch of images. -/
theorem width_le_smallB {α : Type} {ℓ : Nat} {P : PArr α d d} {b : α → Braid n} (hb : ∀ a, SmallB ρ ℓ (b a)) (hP : IsProjImage p P fun a => ρ (b a)) : P.length ≤ 2 * ℓ + 1 := by
  choose N k n1 n2 using hb
  refine width_le_batch n1 ⟨hP.first, hP.last, hP.reduced, fun a => ?_⟩
  obtain ⟨k', hk'⟩ := hP.shift a
  refine ⟨k' + k a, ?_⟩
  rw [hk']; dsimp only; rw [n2, smul_smul, ← T_add]

theorem bd_smallB {α : Type} {ℓ : Nat} {ρ : Braid n →* LMat 0 d} {A : PArr α d d} {b : α → Braid n} (hA : UpToShift 0 A fun a => ρ (b a)) (hb : ∀ a, SmallB ρ ℓ (b a)) : Bd (2 ^ ℓ) A := by
  refine bd_of_small fun a => ?_
  obtain ⟨N, k, n1, n2⟩ := hb a
  obtain ⟨k', hk'⟩ := hA a
  refine ⟨N, n1, k' + k, ?_⟩
  rw [hk']; dsimp only; rw [n2, smul_smul, ← T_add]

end Peyl
