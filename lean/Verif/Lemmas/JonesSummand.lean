import Verif.Lemmas.JonesRep
import Verif.Lemmas.RepEval
import Verif.Lemmas.BraidHom
import Verif.Lemmas.Bucketing
/-!
# `JonesSummand` of `braidsearch.py`
-/
namespace Peyl
open LaurentPolynomial
namespace Jones
open TL Polymat

theorem valGE_of_poly {m : Matrix} {d : Nat} (h : m.Shape d d) (hp : ∀ i j, ∃ f : Polynomial ℤ, m.den d d i j = f.toLaurent) : ValGE m 0 := by
  intro q hq hne
  obtain ⟨k, hk, e⟩ := List.getElem_of_mem hq
  have hl : k < d * d := by rw [← h.length]; exact hk
  have hd : 0 < d := Nat.pos_of_ne_zero (by rintro rfl; simp at hl)
  obtain ⟨f, hf⟩ := hp ⟨k / d, Nat.div_lt_of_lt_mul hl⟩ ⟨k % d, Nat.mod_lt _ hd⟩
  rw [Matrix.den_apply h] at hf
  have e' : Matrix.at' m.data (d * (k / d) + k % d) = Entry.lp q := by
    rw [Nat.div_add_mod, Matrix.at', List.getD_eq_getElem?_getD, List.getElem?_eq_getElem hk, Option.getD_some, e]
  rw [show ((⟨k / d, Nat.div_lt_of_lt_mul hl⟩ : Fin d) : Nat) = k / d from rfl, show ((⟨k % d, Nat.mod_lt _ hd⟩ : Fin d) : Nat) = k % d from rfl, e'] at hf
  have htr : q.Trimmed := h.ok _ hq
  have := LPoly.head_ne htr hne
  by_contra hlt
  rw [show q.den = f.toLaurent from hf, coeff_toLaurent_int', if_neg (by show ¬ (0 : ℤ) ≤ q.val; omega)] at this
  exact this rfl

theorem gen_entry_poly {d : Nat} (β : Fin d → List Nat) (k : Nat) (i j : Fin d) :
    ∃ f : Polynomial ℤ, ((1 - (T 1 : ℤ[T;T⁻¹]) • Emat (T 1 + T (-1)) β k : _root_.Matrix (Fin d) (Fin d) ℤ[T;T⁻¹])) i j = f.toLaurent := by
  have h1 : ∃ f : Polynomial ℤ, (T 1 : ℤ[T;T⁻¹]) * Emat (T 1 + T (-1)) β k i j = f.toLaurent := by
    rw [Emat]
    split
    · rw [actLoops]
      split
      · refine ⟨Polynomial.X ^ 2 + 1, ?_⟩
        rw [pow_one, mul_add, ← T_add, ← T_add, map_add, Polynomial.toLaurent_X_pow, map_one]; simp
      · exact ⟨Polynomial.X, by rw [pow_zero, mul_one, Polynomial.toLaurent_X]⟩
    · exact ⟨0, by simp⟩
  obtain ⟨f, hf⟩ := h1
  rw [_root_.Matrix.sub_apply, _root_.Matrix.smul_apply, smul_eq_mul, hf, _root_.Matrix.one_apply]
  split
  · exact ⟨1 - f, by rw [map_sub, map_one]⟩
  · exact ⟨-f, by rw [map_neg, zero_sub]⟩

theorem sub_ne {d : Nat} (hd : 0 < d) {M N : _root_.Matrix (Fin d) (Fin d) ℤ[T;T⁻¹]} (h : M * N = 1) : M ≠ 0 := by
  rintro rfl
  rw [zero_mul] at h
  have := congrFun (congrFun h ⟨0, hd⟩) ⟨0, hd⟩
  simp at this

/-- Everything about the Jones representation for `n ≥ 1`, `2r ≤ n` in one place. -/
theorem jones_main (n r p : Nat) (hn : 1 ≤ n) (h : 2 * r ≤ n) : ∃ (ρ : Braid n →* LMat p (dimension n r)) (G I : List Matrix),
    cellRep n r p = .ok ⟨n, p, G, I⟩ ∧ Realises (⟨n, p, G, I⟩ : RepBase (dimension n r)) ρ ∧ 0 < dimension n r ∧
    ρ (halfTwist n ^ 2) = (T (2 * r * (n - r + 1) : Nat) : (ZMod p)[T;T⁻¹]) • 1 ∧
    (2 ≤ n → ∃ gs, summand n r p = .ok ⟨n, p, gs⟩ ∧ SummandRealises (⟨n, p, gs⟩ : BraidSearch.Summand (dimension n r)) ρ) := by
  obtain ⟨β, A, A', h1, h2, hdim, h3⟩ := cellMatrices_spec h
  have e : cellRep n r p = (do let gi ← artinGensInvs n r p; .ok ⟨n, p, gi.1, gi.2⟩) := by
    rw [cellRep, pyAssert, if_pos (by simpa using hn), bind_ok, pyAssert, if_pos (by simpa using h), bind_ok]
  have lp : ∀ M : Matrix, (∀ x ∈ M.data, ∃ q, x = Entry.lp q) → ∀ x ∈ (M.map (Entry.modp p)).data, ∃ q, x = Entry.lp q := by
    intro M hM x hx
    simp only [Matrix.map, List.mem_map] at hx
    obtain ⟨y, hy, rfl⟩ := hx
    obtain ⟨q, rfl⟩ := hM y hy
    exact ⟨_, rfl⟩
  -- the homomorphism
  have hS : ∀ i, i + 1 < n → (A i).denMod p (dimension n r) = 1 - (T 1 : (ZMod p)[T;T⁻¹]) • Emat (T 1 + T (-1)) β (n - 2 * r + (n - 2 - i)) := fun i hi => by
    rw [Matrix.denMod, (h3 i hi).1.2.2, Emat_red]
  have hS' : ∀ i, i + 1 < n → (A' i).denMod p (dimension n r) = 1 - (T (-1) : (ZMod p)[T;T⁻¹]) • Emat (T 1 + T (-1)) β (n - 2 * r + (n - 2 - i)) := fun i hi => by
    rw [Matrix.denMod, (h3 i hi).2.2.2, Emat_red]
  have hb : 2 * r + (n - 2 * r) = n := by omega
  have hB : IsBasis (2 * r + (n - 2 * r)) (n - 2 * r) β := by rw [hb]; exact h1
  obtain ⟨ρ, hρ⟩ := exists_braidHom (M := LMat p (dimension n r)) n (fun i => (A i).denMod p (dimension n r)) (fun i => (A' i).denMod p (dimension n r))
    (fun i hi => by rw [hS i (by omega), hS' i (by omega)]; exact (S_inv hB (TT p) (i := n - 2 - i) (by omega)).1)
    (fun i hi => by rw [hS i (by omega), hS' i (by omega)]; exact (S_inv hB (TT p) (i := n - 2 - i) (by omega)).2)
    (fun i j hij hj => by
      rw [hS i (by omega), hS j (by omega)]
      exact (S_far hB (TT p) (i := n - 2 - j) (j := n - 2 - i) (by omega) (by omega)).symm)
    (fun i hi => by
      rw [hS i (by omega), hS (i + 1) (by omega), show n - 2 - i = n - 2 - (i + 1) + 1 by omega]
      exact (S_braid hB (TT p) (i := n - 2 - (i + 1)) (by omega)).symm)
  have hrange : ∀ {i}, i < n - 1 → i + 1 < n := fun h => by omega
  refine ⟨ρ, ((List.range (n - 1)).map A).map (Matrix.reduceMod p), ((List.range (n - 1)).map A').map (Matrix.reduceMod p), ?_,
    ⟨by simp, by simp, fun i hi => ?_, fun i hi => ?_⟩, hdim, ?_, fun hn2 => ?_⟩
  · rw [e, artinGensInvs, h2, bind_ok]
    by_cases hp : p = 0
    · rw [if_neg (by simpa using hp), bind_ok]
      have : (Matrix.reduceMod p) = fun m => m := by funext m; rw [Matrix.reduceMod, if_neg (by simpa using hp)]
      rw [this]; simp
    · rw [if_pos hp, bind_ok]
      have : (Matrix.reduceMod p) = fun m => m.map (Entry.modp p) := by funext m; rw [Matrix.reduceMod, if_pos hp]
      rw [this]
  · have hi' : i < n - 1 := by simpa using hi
    simp only [List.getElem_map, List.getElem_range]
    obtain ⟨a1, a2, -⟩ := (h3 i (hrange hi')).1
    rw [(hρ i (by omega)).1]
    rw [Matrix.reduceMod]
    split
    · exact ⟨Matrix.shape_map a1 _ (Entry.ok_modp p), lp _ a2, Matrix.red_map_modp a1 p⟩
    · exact ⟨a1, a2, rfl⟩
  · have hi' : i < n - 1 := by simpa using hi
    simp only [List.getElem_map, List.getElem_range]
    obtain ⟨a1, a2, -⟩ := (h3 i (hrange hi')).2
    rw [(hρ i (by omega)).2]
    rw [Matrix.reduceMod]
    split
    · exact ⟨Matrix.shape_map a1 _ (Entry.ok_modp p), lp _ a2, Matrix.red_map_modp a1 p⟩
    · exact ⟨a1, a2, rfl⟩
  · exact fullTwist_of_gens hn h h1 ρ fun i hi => by rw [(hρ i (by omega)).1, hS i hi]
  · -- tensors
    have hf : ∀ m ∈ (List.range (n - 1)).map A, ∃ P : Img (dimension n r), fromMatrix (dimension n r) (dimension n r) m false = .ok P ∧
        (den P ()).map (fun f => f.toLaurent) = m.den (dimension n r) (dimension n r) := by
      intro m hm
      obtain ⟨i, hi, rfl⟩ := List.mem_map.1 hm
      obtain ⟨a1, a2, a3⟩ := (h3 i (hrange (List.mem_range.1 hi))).1
      exact (fromMatrix_lp a1 a2 false).1 (valGE_of_poly a1 fun x y => by rw [a3]; exact gen_entry_poly _ _ _ _)
    obtain ⟨P, P1, P2, P3⟩ := mapM_spec (fun m => fromMatrix (dimension n r) (dimension n r) m false)
      (fun m P => (den P ()).map (fun f => f.toLaurent) = m.den (dimension n r) (dimension n r)) ((List.range (n - 1)).map A) hf
    have hL : 0 < ((List.range (n - 1)).map A).length := by simp; omega
    obtain ⟨Q, Q1, Q2, -⟩ := RepBase.packN_spec hL P P2
    haveI : Nonempty (Fin ((List.range (n - 1)).map A).length) := ⟨⟨0, hL⟩⟩
    have hQ : ∀ i : Fin ((List.range (n - 1)).map A).length, (den Q i).map (fun f => f.toLaurent) = (A i.1).den (dimension n r) (dimension n r) := by
      intro i
      have := P3 i.1 i.2
      rw [Q2 i, this]; simp
    have hQ0 : ∀ i, den Q i ≠ 0 := by
      intro i hz
      have hi : i.1 < n - 1 := by simpa using i.2
      have e1 := hQ i
      rw [hz, (h3 i.1 (hrange hi)).1.2.2] at e1
      have hv : (T 1 : ℤ[T;T⁻¹]) * T (-1) = 1 := by rw [← T_add]; simp
      have := (S_inv hB hv (i := n - 2 - i.1) (by omega)).1
      refine sub_ne hdim this ?_
      rw [Smat, ← e1]
      ext a c; simp
    obtain ⟨Z, Z1, -, Z2⟩ := projectivise_spec Q hQ0
    refine ⟨(List.finRange ((List.range (n - 1)).map A).length).map fun i => imgAt Z i, ?_, ⟨by simp, fun i hi => ?_⟩⟩
    · rw [summand, pyAssert, if_pos (by simpa using hn), bind_ok, pyAssert, if_pos (by simpa using h), bind_ok, h2, bind_ok]
      simp only [RepBase.polymatGens]
      rw [P1, bind_ok, Q1, bind_ok, if_neg (by simp), Z1, bind_ok]
    · have hi' : i < n - 1 := by simpa using hi
      simp only [List.getElem_map, List.getElem_finRange]
      rintro ⟨⟩
      set j : Fin ((List.range (n - 1)).map A).length := Fin.cast (by simp) (⟨i, hi⟩ : Fin _) with hj
      obtain ⟨k, hk⟩ := Z2 j
      refine ⟨-(k : ℤ), ?_⟩
      show Polymat.denMod p (imgAt Z j) () = (T (-(k : ℤ)) : (ZMod p)[T;T⁻¹]) • ρ (sigma n i)
      rw [denMod_of_den (Bucketing.den_imgAt Z j), ← T_smul_eq_iff, ← denMod_X_pow hk, (hρ i (by omega)).1, Matrix.denMod, show A i = A j.1 from rfl, ← hQ j]
      rfl

end Jones
end Peyl
