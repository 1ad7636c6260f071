import Verif.Model.Plots
import Verif.Lemmas.JonesSummand
import Verif.Lemmas.MachineMain
import Verif.Props.NFMisc
import Verif.Props.BurauKernel
/-!
# Lemmas for the plots of projlens (C143)
-/
namespace Peyl
namespace Plots
open LaurentPolynomial Polymat Jones TL Matrix
variable {d p n : Nat}

/-- Matrices of polynomials: no negative powers of `v`. -/
def PolyM (M : LMat p d) : Prop := ∀ i j, ∃ f : Polynomial ℤ, M i j = LPoly.red p f.toLaurent

theorem polyM_one : PolyM (1 : LMat p d) := by
  intro i j
  rw [_root_.Matrix.one_apply]
  split
  · exact ⟨1, by rw [map_one, map_one]⟩
  · exact ⟨0, by rw [map_zero, map_zero]⟩

theorem PolyM.mul {M N : LMat p d} (hM : PolyM M) (hN : PolyM N) : PolyM (M * N) := by
  intro i j
  choose f hf using hM
  choose g hg using hN
  refine ⟨∑ k, f i k * g k j, ?_⟩
  rw [_root_.Matrix.mul_apply, map_sum, map_sum]
  exact Finset.sum_congr rfl fun k _ => by rw [map_mul, map_mul, hf, hg]

theorem polyM_list {ι : Type} (l : List ι) (f : ι → LMat p d) (h : ∀ x ∈ l, PolyM (f x)) : PolyM (l.map f).prod := by
  induction l with
  | nil => exact polyM_one
  | cons a l ih =>
    rw [List.map_cons, List.prod_cons]
    exact (h a (by simp)).mul (ih fun x hx => h x (by simp [hx]))

theorem PolyM.coeff {M : LMat p d} (h : PolyM M) (i j : Fin d) {k : ℤ} (hk : k < 0) : (M i j).coeff k = 0 := by
  obtain ⟨f, hf⟩ := h i j
  rw [hf, LPoly.coeff_red, coeff_toLaurent_int', if_neg (by omega), Int.cast_zero]

/-- The images of the Artin generators in a Jones representation have no negative powers of `v`. -/
theorem polyM_sigma {r : Nat} (hn : 1 ≤ n) (h : 2 * r ≤ n) {G I : List Matrix} (hrep : cellRep n r p = .ok ⟨n, p, G, I⟩)
    {ρ : Braid n →* LMat p (dimension n r)} (H : Realises (⟨n, p, G, I⟩ : RepBase (dimension n r)) ρ) {i : Nat} (hi : i + 1 < n) :
    PolyM (ρ (sigma n i)) := by
  obtain ⟨β, A, A', h1, h2, hdim, h3⟩ := cellMatrices_spec h
  have e : cellRep n r p = (do let gi ← artinGensInvs n r p; .ok ⟨n, p, gi.1, gi.2⟩) := by
    rw [cellRep, pyAssert, if_pos (by simpa using hn), bind_ok, pyAssert, if_pos (by simpa using h), bind_ok]
  have hG : G = ((List.range (n - 1)).map A).map (Matrix.reduceMod p) := by
    rw [e, artinGensInvs, h2, bind_ok] at hrep
    by_cases hp : p = 0
    · rw [if_neg (by simpa using hp), bind_ok] at hrep
      have : (Matrix.reduceMod p) = fun m => m := by funext m; rw [Matrix.reduceMod, if_neg (by simpa using hp)]
      rw [this]; cases hrep; simp
    · rw [if_pos hp, bind_ok] at hrep
      have : (Matrix.reduceMod p) = fun m => m.map (Entry.modp p) := by funext m; rw [Matrix.reduceMod, if_pos hp]
      rw [this]; cases hrep; rfl
  subst hG
  have hlen : i < (((List.range (n - 1)).map A).map (Matrix.reduceMod p)).length := by simp; omega
  obtain ⟨-, -, h6⟩ := H.gens i hlen
  obtain ⟨a1, a2, a3⟩ := (h3 i hi).1
  have h7 : ((A i).reduceMod p).denMod p (dimension n r) = (A i).denMod p (dimension n r) := by
    rw [Matrix.reduceMod]
    split
    · exact Matrix.red_map_modp a1 p
    · rfl
  have h8 : ρ (sigma n i) = (A i).denMod p (dimension n r) := by
    rw [← h7, ← h6]; simp
  rw [h8]
  intro x y
  obtain ⟨f, hf⟩ := gen_entry_poly β (n - 2 * r + (n - 2 - i)) x y
  exact ⟨f, by rw [Matrix.denMod, _root_.Matrix.map_apply, a3, hf]⟩

theorem polyM_posWord {ρ : Braid n →* LMat p d} (h : ∀ i, i + 1 < n → PolyM (ρ (sigma n i))) {w : List Nat} (hw : ∀ s ∈ w, s + 1 < n) :
    PolyM (ρ (posWord n w)) := by
  rw [posWord, map_list_prod, List.map_map]
  exact polyM_list w _ fun s hs => h s (hw s hs)

theorem polyM_prefix {ρ : Braid n →* LMat p d} (h : ∀ i, i + 1 < n → PolyM (ρ (sigma n i))) (fs : List Nat) :
    PolyM (ρ (gnfBraid n ⟨n, 0, fs⟩)) := by
  rw [gnfBraid, zpow_zero, one_mul, map_list_prod, List.map_map]
  refine polyM_list fs _ fun f _ => ?_
  obtain ⟨u, u1, -, u3, -⟩ := lift_word (permAt n f)
  show PolyM (ρ (lift (permAt n f)))
  rw [u3]
  exact polyM_posWord h u1

/-- A matrix with reduced coefficients and no negative powers of `v` modulo `p` has no negative powers of `v`. -/
theorem coeff_neg {m : Matrix} (hr : CoeffRed p d m) (hP : PolyM (m.denMod p d)) (i j : Fin d) {k : ℤ} (hk : k < 0) : (m.den d d i j).coeff k = 0 := by
  have h := hP.coeff i j hk
  rw [Matrix.denMod, _root_.Matrix.map_apply, LPoly.coeff_red] at h
  by_cases hp : p = 0
  · subst hp; exact h
  · obtain ⟨h1, h2⟩ := hr hp i j k
    rw [ZMod.intCast_zmod_eq_zero_iff_dvd] at h
    exact Int.eq_zero_of_dvd_of_nonneg_of_lt h1 h2 h

/-- `from_matrix` without `proj` accepts it. -/
theorem fromMatrix_pos {m : Matrix} (hm : m.Shape d d) (hk : Kind d m) (hr : CoeffRed p d m) (hP : PolyM (m.denMod p d)) :
    ∃ A, fromMatrix d d m false = .ok A ∧ (den A ()).map (fun f => f.toLaurent) = m.den d d := by
  rcases hk with hk | ⟨hk, -⟩
  · refine (fromMatrix_lp hm hk false).1 ?_
    intro q hq hne
    obtain ⟨k, hk, e⟩ := List.getElem_of_mem hq
    have hl : k < d * d := by rw [← hm.length]; exact hk
    have hd : 0 < d := Nat.pos_of_ne_zero (by rintro rfl; simp at hl)
    by_contra hlt
    have h0 := coeff_neg hr hP ⟨k / d, Nat.div_lt_of_lt_mul hl⟩ ⟨k % d, Nat.mod_lt _ hd⟩ (k := q.val) (by omega)
    have e' : Matrix.at' m.data (d * (k / d) + k % d) = Entry.lp q := by
      rw [Nat.div_add_mod, Matrix.at', List.getD_eq_getElem?_getD, List.getElem?_eq_getElem hk, Option.getD_some, e]
    rw [Matrix.den_apply hm, show ((⟨k / d, Nat.div_lt_of_lt_mul hl⟩ : Fin d) : Nat) = k / d from rfl, show ((⟨k % d, Nat.mod_lt _ hd⟩ : Fin d) : Nat) = k % d from rfl, e'] at h0
    have htr : q.Trimmed := hm.ok _ hq
    exact LPoly.head_ne htr hne h0
  · exact fromMatrix_int hm hk false

end Plots
end Peyl
