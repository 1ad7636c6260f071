import Verif.Lemmas.RepBase
import Verif.Lemmas.PosWords
/-!
# The entries of the matrices `evaluate` returns
-/
namespace Peyl
open LaurentPolynomial
namespace Matrix
theorem powLoop_lp {d : Nat} (hd : 0 < d) (exp : Nat) : ∀ {acc pow2 : Matrix}, acc.Shape d d → pow2.Shape d d → Kind d acc → (∀ y ∈ pow2.data, IsLP y) →
    (exp ≠ 0 ∨ ∀ y ∈ acc.data, IsLP y) → ∀ x, powLoop acc pow2 exp = .ok x → ∀ y ∈ x.data, IsLP y := by
  induction exp using Nat.strong_induction_on with
  | _ exp ih =>
    intro acc pow2 ha hp ka kp hne x h
    rw [powLoop] at h
    split at h
    · next h0 => cases h; exact hne.resolve_left (by simpa using h0)
    · next hne' =>
      obtain ⟨q, q1, q2, q3, -, q5⟩ := mul_good hd hp hp (.inl kp) (.inl kp)
      obtain ⟨r, r1, r2, r3, -, r5⟩ := mul_good hd ha hp ka (.inl kp)
      split at h
      · rw [r1] at h; simp only [bind_ok, q1] at h
        exact ih (exp / 2) (by omega) r2 q2 r3 (q5 kp) (.inr (r5 kp)) x h
      · simp only [bind_ok, q1] at h
        exact ih (exp / 2) (by omega) ha q2 ka (q5 kp) (.inl (by omega)) x h

theorem pow_lp {a : Matrix} {d : Nat} (hd : 0 < d) (ha : a.Shape d d) (ka : ∀ y ∈ a.data, IsLP y) {e : Nat} (he : e ≠ 0) {x : Matrix} (h : pow a e = .ok x) : ∀ y ∈ x.data, IsLP y := by
  rw [pow, ha.nrows, ha.ncols, if_neg (by simp), if_neg (by omega)] at h
  exact powLoop_lp hd _ (shape_identity d) ha (kind_identity d) ka (.inl (by simpa using he)) x h

theorem foldl_lp {d : Nat} (hd : 0 < d) : ∀ (ms : List Matrix) (acc : Matrix), acc.Shape d d → Kind d acc → (∀ m ∈ ms, m.Shape d d ∧ ∀ y ∈ m.data, IsLP y) → (ms ≠ [] ∨ ∀ y ∈ acc.data, IsLP y) →
    ∀ x, ms.foldlM Matrix.mul acc = .ok x → ∀ y ∈ x.data, IsLP y
  | [], acc, _, _, _, h, x, hx => by cases hx; exact h.resolve_left (by simp)
  | m :: ms, acc, h1, h2, h, _, x, hx => by
    obtain ⟨m1, m2⟩ := h m (by simp)
    obtain ⟨r, x1, x2, x3, -, x5⟩ := mul_good hd h1 m1 h2 (.inl m2)
    rw [List.foldlM_cons, x1, bind_ok] at hx
    exact foldl_lp hd ms r x2 x3 (fun m' hm => h m' (by simp [hm])) (.inr (x5 m2)) x hx

/-- Entries are determined by their values modulo `p`. -/
theorem get_of_red {m : Matrix} {N p : Nat} (hs : m.Shape N N) (hl : ∀ y ∈ m.data, IsLP y) (hr : CoeffRed p N m) (f : Nat → Nat → LPoly) (hf : ∀ i j, (f i j).Trimmed)
    (hfr : p ≠ 0 → ∀ i j k, 0 ≤ (f i j).den.coeff k ∧ (f i j).den.coeff k < p) (hden : ∀ i j : Fin N, m.denMod p N i j = LPoly.red p (f i j).den) {i j : Nat} (hi : i < N) (hj : j < N) :
    m.get i j = .ok (.lp (f i j)) := by
  have h4 : m.den N N ⟨i, hi⟩ ⟨j, hj⟩ = (f i j).den := by
    apply LaurentPolynomial.ext
    intro k
    have e := congrArg (fun P : (ZMod p)[T;T⁻¹] => P.coeff k) (hden ⟨i, hi⟩ ⟨j, hj⟩)
    simp only [denMod, _root_.Matrix.map_apply, LPoly.coeff_red] at e
    by_cases hp0 : p = 0
    · subst hp0; exact_mod_cast e
    · obtain ⟨a1, a2⟩ := hr hp0 ⟨i, hi⟩ ⟨j, hj⟩ k
      obtain ⟨b1, b2⟩ := hfr hp0 i j k
      rw [ZMod.intCast_eq_intCast_iff, Int.ModEq, Int.emod_eq_of_lt a1 a2, Int.emod_eq_of_lt b1 b2] at e
      exact e
  rw [Matrix.den_apply hs] at h4
  rw [Matrix.get_eq hs hi hj]
  obtain ⟨q, hq⟩ := hl _ (Polymat.at_mem hs ⟨i, hi⟩ ⟨j, hj⟩)
  have hok := Matrix.at_ok hs (N * i + j)
  dsimp only at hq h4
  rw [hq] at h4 hok ⊢
  rw [LPoly.Trimmed.den_inj hok (hf i j) h4]
end Matrix

namespace RepBase
open Matrix
variable {d : Nat} {rep : RepBase d} {ρ : Braid rep.n →* LMat rep.p d}

theorem letter_lp (H : Realises rep ρ) (hd : 0 < d) {ie : Nat × ℤ} (h : ie.1 + 1 < rep.n) (h0 : ie.2 ≠ 0) {m : Matrix} (hm : rep.letter ie = .ok m) : ∀ y ∈ m.data, IsLP y := by
  obtain ⟨i, e⟩ := ie
  simp only at h h0
  by_cases he : e ≥ 0
  · have hi : i < rep.gens.length := by have := H.gens_len; omega
    obtain ⟨g1, g2, g3⟩ := H.gens i hi
    simp only [letter, if_pos he, lookup_lt hi, bind_ok] at hm
    rw [← Int.toNat_of_nonneg he] at hm
    exact pow_lp hd g1 g2 (by omega) hm
  · have hi : i < rep.invs.length := by have := H.invs_len; omega
    obtain ⟨g1, g2, g3⟩ := H.invs i hi
    simp only [letter, if_neg he, lookup_lt hi, bind_ok] at hm
    exact pow_lp hd g1 g2 (by omega) hm

theorem evaluate_lp (H : Realises rep ρ) (hd : 0 < d) {w : List (Nat × ℤ)} (hw : ∀ se ∈ w, se.1 + 1 < rep.n ∧ se.2 ≠ 0) (hne : w ≠ []) {m : Matrix} (hm : rep.evaluateArtinWord w = .ok m) :
    ∀ y ∈ m.data, IsLP y := by
  rw [evaluateArtinWord, bind_eq_ok] at hm
  obtain ⟨ms, h1, hm⟩ := hm
  rw [bind_eq_ok] at hm
  obtain ⟨x, h2, hm⟩ := hm
  have hms : ∀ m ∈ ms, m.Shape d d ∧ ∀ y ∈ m.data, IsLP y := by
    intro m hm
    obtain ⟨a, ha, hl⟩ := mem_mapM_ok h1 m hm
    obtain ⟨m', q1, q2, -⟩ := letter_spec H hd (hw a ha).1
    rw [hl] at q1; cases q1
    exact ⟨q2, letter_lp H hd (hw a ha).1 (hw a ha).2 hl⟩
  have hne' : ms ≠ [] := by
    rintro rfl
    cases w with
    | nil => exact hne rfl
    | cons a w =>
      rw [List.mapM_cons, bind_eq_ok] at h1
      obtain ⟨_, -, h1⟩ := h1
      rw [bind_eq_ok] at h1
      obtain ⟨_, -, h1⟩ := h1
      cases h1
  have hx := foldl_lp hd ms _ (shape_identity d) (kind_identity d) hms (.inl hne') x h2
  injection hm with hm
  rw [← hm]
  split
  · intro y hy
    obtain ⟨z, hz, rfl⟩ := List.mem_map.1 hy
    obtain ⟨q, rfl⟩ := hx z hz
    exact ⟨_, rfl⟩
  · exact hx
end RepBase
end Peyl
