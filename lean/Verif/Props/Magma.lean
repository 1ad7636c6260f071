import Verif.Spec.Magma
import Verif.Props.BurauMatrices
import Verif.Props.WordForm
import Verif.Props.Unfaithful
import Verif.Lemmas.EvalEntries
/-!
# The cross-check in Magma (C128)
-/
namespace Peyl
open LaurentPolynomial Jones Polymat Bur BraidSearch Perms
variable {lim : Nat} {ω : List Nat → List Nat → Nat → Nat}

namespace Bur
/-- The matrix of a letter. -/
theorem letter_rep (p : Nat) {n : Nat} {k : ℤ} (hk : k ≠ 0) (h : k.natAbs < n) : burauLetter p (n - 1) k = rep n (vT (ZMod p)) (sigma n (k.natAbs - 1) ^ k.sign) := by
  have hi : k.natAbs - 1 < n - 1 := by omega
  have key : ∀ (x : ℤ) (v : ((ZMod p)[T;T⁻¹])ˣ), ((v : (ZMod p)[T;T⁻¹]) = T x) → (((v⁻¹ : ((ZMod p)[T;T⁻¹])ˣ) : (ZMod p)[T;T⁻¹]) = T (-x)) →
      (fun i j => LPoly.red p (burauEntry 0 x (k.natAbs - 1) i.val j.val).den : LMat p (n - 1)) = gen v ⟨k.natAbs - 1, hi⟩ := by
    intro x v h1 h2
    refine _root_.Matrix.ext fun i j => ?_
    rw [burauEntry_den, gen, h1, h2]
    simp only [_root_.Matrix.sub_apply, _root_.Matrix.smul_apply, E_apply, J, Fin.ext_iff, smul_eq_mul, _root_.Matrix.one_apply]
    by_cases h1 : i.val = k.natAbs - 1
    · by_cases h2 : j.val = k.natAbs - 1
      · rw [if_pos h1, if_pos h2, if_pos (by omega), if_pos h1, if_pos h2.symm, mul_add, ← T_add, ← T_add, map_neg, red_T]
        simp [two_mul]
      · have hij : ¬ i.val = j.val := by omega
        rw [if_pos h1, if_neg h2, if_neg hij, if_pos h1, if_neg (Ne.symm h2)]
        by_cases h3 : k.natAbs - 1 + 1 = j.val ∨ j.val + 1 = k.natAbs - 1
        · rw [if_pos h3, if_pos h3, map_neg, red_T]; simp
        · rw [if_neg h3, if_neg h3]; simp
    · rw [if_neg h1, if_neg h1]
      split_ifs <;> simp
  rcases lt_trichotomy k 0 with h1 | h1 | h1
  · have hs : k.sign = -1 := Int.sign_eq_neg_one_of_neg h1
    rw [hs, zpow_neg, zpow_one, rep_sigma_inv _ hi]
    unfold burauLetter
    rw [hs]
    exact key (-1) _ (by simp [vT]) (by simp [vT])
  · exact absurd h1 hk
  · have hs : k.sign = 1 := Int.sign_eq_one_of_pos h1
    rw [hs, zpow_one, rep_sigma _ hi]
    unfold burauLetter
    rw [hs]
    exact key 1 _ (by simp [vT]) (by simp [vT])

theorem letters_rep (p : Nat) {n : Nat} : ∀ w : List ℤ, (∀ k ∈ w, k ≠ 0 ∧ k.natAbs < n) → (w.map (burauLetter p (n - 1))).prod = rep n (vT (ZMod p)) (wordBraid n (w.map fun k => (k.natAbs - 1, k.sign)))
  | [], _ => by simp [wordBraid]
  | k :: w, h => by
    have h1 := h k (by simp)
    rw [List.map_cons, List.prod_cons, letter_rep p h1.1 h1.2, letters_rep p w fun k hk => h k (by simp [hk]), ← map_mul]
    congr 1

theorem evaluate_rep {n p : Nat} (hn : 2 ≤ n) (hl : n < lim) (hp : p ≠ 1) {d : Nat} (hd : d = n - 1) (rep' : RepBase d) (e1 : rep'.n = n) (e2 : rep'.p = p) (l1 : rep'.gens.length = n - 1) (l2 : rep'.invs.length = n - 1)
    (h : ∀ s, s < n - 1 → ∃ A B, rep'.gens[s]? = some A ∧ rep'.invs[s]? = some B ∧ A.nrows = n - 1 ∧ A.ncols = n - 1 ∧ A.data.length = (n - 1) * (n - 1) ∧ B.nrows = n - 1 ∧ B.ncols = n - 1 ∧
      B.data.length = (n - 1) * (n - 1) ∧ ∀ i j : Nat, i < n - 1 → j < n - 1 → A.get i j = .ok (.lp (burauEntry p 1 s i j)) ∧ B.get i j = .ok (.lp (burauEntry p (-1) s i j)))
    (x : NF) (hx : IsGNF lim ω n x) : ∃ m, rep'.evaluate (GNF.tbl lim ω) x = .ok m ∧ m.Shape (n - 1) (n - 1) ∧ m.denMod p (n - 1) = rep n (vT (ZMod p)) (gnfBraid n x) ∧
      Matrix.CoeffRed p (n - 1) m ∧ (x ≠ ⟨n, 0, []⟩ → ∀ y ∈ m.data, ∃ q, y = .lp q) := by
  subst hd
  obtain ⟨n', p', G, I⟩ := rep'
  dsimp only at e1 e2 l1 l2 h
  subst e1 e2
  have entry : ∀ (x : ℤ) (s : Nat) (A : Matrix), (x = 1 ∨ x = -1) → s < n' - 1 → A.nrows = n' - 1 → A.ncols = n' - 1 → A.data.length = (n' - 1) * (n' - 1) →
      (∀ i j : Nat, i < n' - 1 → j < n' - 1 → A.get i j = .ok (.lp (burauEntry p' x s i j))) → A.Shape (n' - 1) (n' - 1) ∧ (∀ y ∈ A.data, ∃ q, y = .lp q) ∧
        A.denMod p' (n' - 1) = burauLetter p' (n' - 1) (x * (s + 1)) := by
    intro x s A hx hs a1 a2 a3 a4
    have mem : ∀ y ∈ A.data, ∃ i j : Nat, i < n' - 1 ∧ j < n' - 1 ∧ y = .lp (burauEntry p' x s i j) := by
      intro y hy
      obtain ⟨k, hk, rfl⟩ := List.getElem_of_mem hy
      have hk' : k < (n' - 1) * (n' - 1) := by rw [← a3]; exact hk
      have hpos : 0 < n' - 1 := Nat.pos_of_ne_zero fun h => by simp [h] at hk'
      have hi : k / (n' - 1) < n' - 1 := Nat.div_lt_of_lt_mul hk'
      have hj : k % (n' - 1) < n' - 1 := Nat.mod_lt _ hpos
      refine ⟨_, _, hi, hj, ?_⟩
      have b := a4 _ _ hi hj
      rw [Matrix.get, a1, a2, if_pos ⟨Int.natCast_nonneg _, Int.ofNat_lt.2 hi, Int.natCast_nonneg _, Int.ofNat_lt.2 hj⟩] at b
      injection b with b
      simpa only [Int.toNat_natCast, Nat.div_add_mod, Matrix.at', List.getD_eq_getElem?_getD, List.getElem?_eq_getElem hk, Option.getD_some] using b
    refine ⟨⟨a1, a2, a3, fun y hy => ?_⟩, fun y hy => ?_, ?_⟩
    · obtain ⟨i, j, -, -, rfl⟩ := mem y hy
      show (burauEntry p' x s i j).Trimmed
      rw [burauEntry]
      split_ifs <;> simp [LPoly.Trimmed, minusOne]
      all_goals split <;> omega
    · obtain ⟨i, j, -, -, rfl⟩ := mem y hy
      exact ⟨_, rfl⟩
    · refine _root_.Matrix.ext fun i j => ?_
      have hsg : (x * (s + 1)).sign = x ∧ (x * (s + 1)).natAbs - 1 = s := by
        rcases hx with rfl | rfl
        · exact ⟨by rw [one_mul]; exact Int.sign_eq_one_of_pos (by omega), by omega⟩
        · exact ⟨Int.sign_eq_neg_one_of_neg (by omega), by omega⟩
      rw [Matrix.denMod, _root_.Matrix.map_apply, Matrix.den, a4 i j i.2 j.2]
      show LPoly.red p' (burauEntry p' x s i j).den = LPoly.red p' (burauEntry 0 (x * (s + 1)).sign ((x * (s + 1)).natAbs - 1) i j).den
      rw [hsg.1, hsg.2]
      by_cases h0 : p' = 0
      · rw [h0]
      · rw [← burauEntry_mod h0 hp, LPoly.red_map]
  have H : Realises (⟨n', p', G, I⟩ : RepBase (n' - 1)) (rep n' (vT (ZMod p'))) := by
    refine ⟨l1, l2, fun i hi => ?_, fun i hi => ?_⟩
    · obtain ⟨A, B, a1, -, a2, a3, a4, -, -, -, a5⟩ := h i (by rw [← l1]; exact hi)
      have hA : G[i] = A := by rw [List.getElem?_eq_getElem hi] at a1; injection a1
      obtain ⟨b1, b2, b3⟩ := entry 1 i A (Or.inl rfl) (by rw [← l1]; exact hi) a2 a3 a4 fun i j hi hj => (a5 i j hi hj).1
      refine ⟨by rw [hA]; exact b1, by rw [hA]; exact b2, ?_⟩
      have hi' : i < n' - 1 := by rw [← l1]; exact hi
      show Matrix.denMod p' (n' - 1) G[i] = _
      rw [hA, b3, letter_rep p' (by omega) (by omega), one_mul, show ((i : ℤ) + 1).sign = 1 from Int.sign_eq_one_of_pos (by omega), zpow_one, show ((i : ℤ) + 1).natAbs - 1 = i by omega]
    · obtain ⟨A, B, -, a1, -, -, -, a2, a3, a4, a5⟩ := h i (by rw [← l2]; exact hi)
      have hA : I[i] = B := by rw [List.getElem?_eq_getElem hi] at a1; injection a1
      obtain ⟨b1, b2, b3⟩ := entry (-1) i B (Or.inr rfl) (by rw [← l2]; exact hi) a2 a3 a4 fun i j hi hj => (a5 i j hi hj).2
      refine ⟨by rw [hA]; exact b1, by rw [hA]; exact b2, ?_⟩
      have hi' : i < n' - 1 := by rw [← l2]; exact hi
      show Matrix.denMod p' (n' - 1) I[i] = _
      rw [hA, b3, letter_rep p' (by omega) (by omega), show (-1 * ((i : ℤ) + 1)).sign = -1 from Int.sign_eq_neg_one_of_neg (by omega), zpow_neg, zpow_one, show (-1 * ((i : ℤ) + 1)).natAbs - 1 = i by omega]
  obtain ⟨t, R⟩ := exists_greal lim ω hn hl
  obtain ⟨w, w1, w2, w3⟩ := R.1.artinWord_spec (R.isGNF_iff.1 hx)
  obtain ⟨m, h1, h2, -, h4, h5⟩ := RepBase.evaluate_spec H (by omega) hp w fun se hse => (w2 se hse).2
  refine ⟨m, by rw [RepBase.evaluate, w1, bind_ok, h1], h2, by rw [h5, w3, R.den_eq], h4, fun h0 => ?_⟩
  refine RepBase.evaluate_lp H (by omega) (fun se hse => ⟨(w2 se hse).2, by rcases (w2 se hse).1 with q | q <;> omega⟩) ?_ h1
  rintro rfl
  obtain ⟨z, -, z2, rfl, -⟩ := R.1.identity_spec
  refine h0 ((C15_unique hn hl _ _ hx (R.isGNF_iff.2 z2)).2 ?_)
  rw [← R.den_eq, ← w3]
  simp [wordBraid, gnfBraid]
end Bur

/-- C128: multiplying the Burau matrices along `x.magma_artin_word()` gives the matrix `JonesCellRep(n, 1, p).evaluate(x)`, for every
braid `x`: same entries in the same places. -/
theorem C128_product (n p : Nat) (hn : 2 ≤ n) (hl : n < lim) (hp : p ≠ 1) : ∃ rep : RepBase (dimension n 1), cellRep n 1 p = .ok rep ∧
    ∀ x, IsGNF lim ω n x → ∃ w m, NF.magmaArtinWord (GNF.tbl lim ω) x = .ok w ∧ rep.evaluate (GNF.tbl lim ω) x = .ok m ∧ m.Shape (n - 1) (n - 1) ∧
      m.denMod p (n - 1) = (w.map (burauLetter p (n - 1))).prod := by
  obtain ⟨rep', h1, e1, e2, l1, l2, h⟩ := C127_matrices n p hn hp
  refine ⟨rep', h1, fun x hx => ?_⟩
  obtain ⟨m, m1, m2, m3, -⟩ := evaluate_rep hn hl hp (dimension_one n hn) rep' e1 e2 l1 l2 h x hx
  obtain ⟨w, w1, w2, w3⟩ := C14_magma hn hl x hx
  exact ⟨w, m, w1, m1, m2, by rw [m3, letters_rep p w w2, w3]⟩

example := C128_product (lim := 7) (ω := pop0) 4 5 (by decide) (by decide) (by decide)

namespace Bur
theorem red_congr (p : Nat) {a b : LPoly} (h : a.map (fun k => k.fmod p) = b.map (fun k => k.fmod p)) : LPoly.red p a.den = LPoly.red p b.den := by
  rw [← LPoly.red_map, h, LPoly.red_map]

/-- The entries of a table of matrices against those of the Burau matrices. -/
def magmaOk (M : MagmaMats) : Bool := (List.range (M.n - 1)).all fun s => (List.range (M.n - 1)).all fun i => (List.range (M.n - 1)).all fun j =>
  (((M.gens.getD s []).getD ((M.n - 1) * i + j) ⟨0, []⟩).map (fun k => k.fmod M.p) == (burauEntry 0 1 s i j).map fun k => k.fmod M.p) &&
  (((LPoly.make (-2) [1]).mul ((M.invs.getD s []).getD ((M.n - 1) * i + j) ⟨0, []⟩)).map (fun k => k.fmod M.p) == (burauEntry 0 (-1) s i j).map fun k => k.fmod M.p)

theorem magmaOk_spec {M : MagmaMats} (h : magmaOk M = true) {k : ℤ} (hk : k ≠ 0) (hn : k.natAbs < M.n) : M.mat k = burauLetter M.p (M.n - 1) k := by
  simp only [magmaOk, List.all_eq_true, List.mem_range, Bool.and_eq_true, beq_iff_eq] at h
  refine _root_.Matrix.ext fun i j => ?_
  obtain ⟨h1, h2⟩ := h (k.natAbs - 1) (by omega) i i.2 j j.2
  unfold MagmaMats.mat burauLetter
  split
  next hp =>
    rw [Int.sign_eq_one_of_pos hp]
    exact red_congr _ h1
  next hp =>
    rw [Int.sign_eq_neg_one_of_neg (by omega), ← red_congr _ h2, LPoly.den_mul, map_mul]
    congr 1
    rw [show (LPoly.make (-2) [1]).den = T (-2) by simp [LPoly.make, LPoly.leadZeros, LPoly.trimRight, LPoly.den, listPoly], red_T]

theorem letters_of_mats {M : MagmaMats} (h : magmaOk M = true) : ∀ w : List ℤ, (∀ k ∈ w, k ≠ 0 ∧ k.natAbs < M.n) → w.map M.mat = w.map (burauLetter M.p (M.n - 1)) := fun w hw =>
  List.map_congr_left fun k hk => magmaOk_spec h (hw k hk).1 (hw k hk).2

/-- The word of a documented element. -/
def magmaWordOf (x : KernelElement) : Option (List ℤ) := match shortlex (List.range x.n).reverse, x.seq.mapM shortlex with
  | .ok ds, .ok us => some ((List.replicate x.power (ds.reverse.map fun s : Nat => -((s : ℤ) + 1))).flatten ++ us.flatten.map fun s : Nat => (s : ℤ) + 1)
  | _, _ => none

theorem magma_ok4 : magmaOk magma4 = true := by decide +kernel
theorem magma_ok6 : magmaOk magma6 = true := by decide +kernel
theorem word_A : magmaWordOf elemA = some magmaWordA := by decide +kernel
theorem word_B : magmaWordOf elemB = some magmaWordB := by decide +kernel
theorem word_C : magmaWordOf elemC = some magmaWordC := by decide +kernel
theorem word_D : magmaWordOf elemD = some magmaWordD := by decide +kernel

theorem magma_word {x : KernelElement} {w : List ℤ} (hn : 2 ≤ x.n) (hl : x.n < lim) (h0 : 0 < x.power) (hw : magmaWordOf x = some w) {y : NF} (hy : IsGNF lim ω x.n y) (hi : NF.inf y = -x.power)
    (hf : NF.canonicalFactors (GNF.tbl lim ω) y = .ok x.seq) : NF.magmaArtinWord (GNF.tbl lim ω) y = .ok w := by
  obtain ⟨ds, fs, us, d1, f1, u1, w1⟩ := C14_magma_form hn hl y hy
  rw [hf] at f1; cases f1
  rw [magmaWordOf, d1, u1] at hw
  injection hw with hw
  rw [w1, hi, ← hw, if_pos (by omega), Int.natAbs_neg, Int.natAbs_natCast]
end Bur

/-- C128: the matrices entered in `MagmaCheck.m` are the generators of `JonesCellRep(4, 1, 5)` and `JonesCellRep(6, 1, 0)` and their inverses:
they are the Burau matrices, `mats[-k]` is inverse to `mats[k]`, and Artin's relations hold. -/
theorem C128_matrices (M : MagmaMats) (hM : M = magma4 ∨ M = magma6) : 
    (∀ k : ℤ, k ≠ 0 → k.natAbs < M.n → M.mat k = burauLetter M.p (M.n - 1) k ∧ M.mat k * M.mat (-k) = 1) ∧
    (∀ k : Nat, 1 ≤ k → k + 1 < M.n → M.mat k * M.mat (k + 1 : Nat) * M.mat k = M.mat (k + 1 : Nat) * M.mat k * M.mat (k + 1 : Nat)) ∧
    ∀ k l : Nat, 1 ≤ k → k + 2 ≤ l → l < M.n → M.mat k * M.mat l = M.mat l * M.mat k := by
  have hok : magmaOk M = true := by rcases hM with rfl | rfl; exacts [magma_ok4, magma_ok6]
  have e : ∀ {k : ℤ}, k ≠ 0 → k.natAbs < M.n → M.mat k = rep M.n (vT (ZMod M.p)) (sigma M.n (k.natAbs - 1) ^ k.sign) := fun h1 h2 => by
    rw [magmaOk_spec hok h1 h2, letter_rep _ h1 h2]
  have e' : ∀ {k : Nat}, 1 ≤ k → k < M.n → M.mat k = rep M.n (vT (ZMod M.p)) (sigma M.n (k - 1)) := fun h1 h2 => by
    rw [e (by omega) (by omega), Int.sign_eq_one_of_pos (by omega), zpow_one, Int.natAbs_natCast]
  refine ⟨fun k h1 h2 => ⟨magmaOk_spec hok h1 h2, ?_⟩, fun k h1 h2 => ?_, fun k l h1 h2 h3 => ?_⟩
  · rw [e h1 h2, e (by omega) (by omega), ← map_mul, Int.natAbs_neg, Int.sign_neg, zpow_neg, mul_inv_cancel, map_one]
  · rw [e' h1 (by omega), e' (by omega) h2, ← map_mul, ← map_mul, ← map_mul, ← map_mul]
    obtain ⟨j, rfl⟩ : ∃ j, k = j + 1 := ⟨k - 1, by omega⟩
    rw [show j + 1 - 1 = j by omega, show j + 1 + 1 - 1 = j + 1 by omega, sigma_braid j (by omega)]
  · rw [e' h1 (by omega), e' (by omega) h3, ← map_mul, ← map_mul, sigma_comm (k - 1) (l - 1) (by omega) (by omega)]

/-- C128: the words entered in `MagmaCheck.m` are what `magma_artin_word` returns for the elements of the notebook; the braids they spell are
not trivial; and multiplying the matrices along them gives the identity, which is what the script prints. -/
theorem C128_words (x : KernelElement) (w : List ℤ) (hx : (x, w) ∈ magmaWords) (hl : x.n < lim) : 
    (∃ y, BraidGroup.fromGnfPair lim ω x.n (-x.power) x.seq = .ok y ∧ IsGNF lim ω x.n y ∧ NF.magmaArtinWord (GNF.tbl lim ω) y = .ok w) ∧
    wordBraid x.n (w.map fun k => (k.natAbs - 1, k.sign)) ≠ 1 ∧
    ∃ M, (M = magma4 ∨ M = magma6) ∧ M.n = x.n ∧ M.p = x.p ∧ (w.map M.mat).prod = 1 := by
  have main : x ∈ kernelElements → 2 ≤ x.n → 0 < x.power → x.p ≠ 1 → (∀ w ∈ x.seq, IsPermWord w ∧ w.length = x.n) → normalW x.n x.seq = true → magmaWordOf x = some w →
      (∃ M, (M = magma4 ∨ M = magma6) ∧ magmaOk M = true ∧ M.n = x.n ∧ M.p = x.p) → 
      (∃ y, BraidGroup.fromGnfPair lim ω x.n (-x.power) x.seq = .ok y ∧ IsGNF lim ω x.n y ∧ NF.magmaArtinWord (GNF.tbl lim ω) y = .ok w) ∧
      wordBraid x.n (w.map fun k => (k.natAbs - 1, k.sign)) ≠ 1 ∧
      ∃ M, (M = magma4 ∨ M = magma6) ∧ M.n = x.n ∧ M.p = x.p ∧ (w.map M.mat).prod = 1 := by
    intro hk hn h0 hp hs hN hw hM
    obtain ⟨rep', r1, -, y, m, y1, y2, y3, y4, y5, y6⟩ := C123_documented (ω := ω) x hk hl
    obtain ⟨πs, hπ⟩ := exists_perms x.seq hs
    have hN' := hN
    rw [hπ] at hN'
    obtain ⟨c1, c2⟩ := normalW_spec πs hN'
    obtain ⟨z, z1, z2, z3, z4, z5⟩ := C19_from_gnf_pair_normal (ω := ω) hn hl (-x.power) πs c1 c2
    rw [← hπ, y1] at z1; cases z1
    have hmw := magma_word hn hl h0 hw y2 z3 y3
    obtain ⟨w', w1, w2, w3⟩ := C14_magma hn hl y y2
    rw [hmw] at w1; cases w1
    refine ⟨⟨y, y1, y2, hmw⟩, by rw [w3]; exact y4, ?_⟩
    obtain ⟨M, M1, M2, M3, M4⟩ := hM
    refine ⟨M, M1, M3, M4, ?_⟩
    obtain ⟨rep'', q1, q2⟩ := C128_product (lim := lim) (ω := ω) x.n x.p hn hl hp
    rw [r1] at q1; cases q1
    obtain ⟨w', m', a1, a2, a3, a4⟩ := q2 y y2
    rw [hmw] at a1; cases a1
    rw [y5] at a2; cases a2
    rw [letters_of_mats M2 w (by rw [M3]; exact w2)]
    have hone : m.denMod x.p (x.n - 1) = 1 := by
      have hd := dimension_one x.n hn
      rw [Matrix.denMod]
      have : ∀ d, d = x.n - 1 → m.den d d = 1 → m.den (x.n - 1) (x.n - 1) = 1 := by rintro d rfl h; exact h
      rw [this _ hd y6, _root_.Matrix.map_one _ (map_zero _) (map_one _)]
    rw [hone] at a4
    obtain ⟨xn, xp, xk, xs⟩ := x
    dsimp only at M3 M4 a4 ⊢
    subst M3 M4
    exact a4.symm
  simp only [magmaWords, List.mem_cons, Prod.mk.injEq, List.not_mem_nil, or_false] at hx
  rcases hx with ⟨rfl, rfl⟩ | ⟨rfl, rfl⟩ | ⟨rfl, rfl⟩ | ⟨rfl, rfl⟩
  · exact main (by simp [kernelElements]) (by decide) (by decide) (by decide) (by decide +kernel) (by decide +kernel) word_A ⟨magma4, .inl rfl, magma_ok4, rfl, rfl⟩
  · exact main (by simp [kernelElements]) (by decide) (by decide) (by decide) (by decide +kernel) (by decide +kernel) word_B ⟨magma4, .inl rfl, magma_ok4, rfl, rfl⟩
  · exact main (by simp [kernelElements]) (by decide) (by decide) (by decide) (by decide +kernel) (by decide +kernel) word_C ⟨magma4, .inl rfl, magma_ok4, rfl, rfl⟩
  · exact main (by simp [kernelElements]) (by decide) (by decide) (by decide) (by decide +kernel) (by decide +kernel) word_D ⟨magma6, .inr rfl, magma_ok6, rfl, rfl⟩

/-- The hypotheses are met by four words; the first begins with 27 inverse half twists. -/
example : (elemA, magmaWordA) ∈ magmaWords ∧ magmaWordA.length = 324 ∧ magmaWordA.take 6 = [-1, -2, -3, -1, -2, -1] ∧ magmaWordD.length = 420 := by
  refine ⟨by simp [magmaWords], by decide +kernel, by decide +kernel, by decide +kernel⟩

end Peyl
