import Verif.Lemmas.BurauBasis
import Verif.Spec.Burau
import Verif.Props.Burau
/-!
# The matrices of `JonesCellRep(n, 1, p)`, entry by entry (C127)
-/
namespace Peyl
open LaurentPolynomial Jones Polymat Bur

namespace Bur
theorem burauEntry_trimmed (x : ℤ) (s i j : Nat) : (burauEntry 0 x s i j).Trimmed := by
  rw [burauEntry]
  split_ifs <;> simp [LPoly.Trimmed, minusOne]

theorem burauEntry_den (x : ℤ) (s i j : Nat) : (burauEntry 0 x s i j).den =
    if i = s then (if j = s then -T (2 * x) else if s + 1 = j ∨ j + 1 = s then -T x else 0) else if i = j then 1 else 0 := by
  rw [burauEntry]
  by_cases h1 : i = s
  · by_cases h2 : j = s
    · rw [if_pos h1, if_pos h2, if_pos h1, if_pos h2]; simp [LPoly.den, minusOne, listPoly]
    · by_cases h3 : s + 1 = j ∨ j + 1 = s
      · rw [if_pos h1, if_neg h2, if_pos (by omega), if_pos h1, if_neg h2, if_pos h3]; simp [LPoly.den, minusOne, listPoly]
      · rw [if_pos h1, if_neg h2, if_neg (by omega), if_pos h1, if_neg h2, if_neg h3]; simp [LPoly.den, listPoly]
  · rw [if_neg h1, if_neg h1]
    split_ifs <;> simp [LPoly.den, listPoly]

theorem burauEntry_mod {p : Nat} (hp : p ≠ 0) (h1 : p ≠ 1) (x : ℤ) (s i j : Nat) : (burauEntry 0 x s i j).map (fun k => k.fmod p) = burauEntry p x s i j := by
  have e1 : (-1 : ℤ).fmod p = p - 1 := by rw [Int.fmod_eq_emod_of_nonneg _ (by omega), Int.neg_emod_eq_sub_emod, Int.emod_eq_of_lt (by omega) (by omega)]
  have e2 : (1 : ℤ).fmod p = 1 := by rw [Int.fmod_eq_emod_of_nonneg _ (by omega), Int.emod_eq_of_lt (by omega) (by omega)]
  have e3 : ∀ (v c : ℤ), c ≠ 0 → LPoly.make v [c] = ⟨v, [c]⟩ := by
    intro v c hc
    simp [LPoly.make, LPoly.leadZeros, LPoly.trimRight, hc]
  simp only [burauEntry]
  split_ifs
  · simp only [LPoly.map, minusOne, if_neg hp, List.map_cons, List.map_nil, if_true, e1]; exact e3 _ _ (by omega)
  · simp only [LPoly.map, minusOne, if_neg hp, List.map_cons, List.map_nil, if_true, e1]; exact e3 _ _ (by omega)
  · rfl
  · simp only [LPoly.map, List.map_cons, List.map_nil, e2]; exact e3 _ _ (by omega)
  · rfl

/-- What the matrix of `σ_s` is to look like. -/
structure Printed (A : Matrix) (n p : Nat) (x : ℤ) (s : Nat) : Prop where
  nrows : A.nrows = n - 1
  ncols : A.ncols = n - 1
  length : A.data.length = (n - 1) * (n - 1)
  get : ∀ i j : Nat, i < n - 1 → j < n - 1 → A.get i j = .ok (.lp (burauEntry p x s i j))

theorem printed_of {A : Matrix} {n : Nat} {x : ℤ} {s : Nat} (h1 : A.Shape (n - 1) (n - 1)) (h2 : ∀ y ∈ A.data, ∃ q, y = .lp q)
    (h3 : ∀ a c : Fin (n - 1), A.den (n - 1) (n - 1) a c = if a.val = s then (if c.val = s then -T (2 * x) else if s + 1 = c.val ∨ c.val + 1 = s then -T x else 0) else if a = c then 1 else 0) :
    Printed A n 0 x s := by
  refine ⟨h1.nrows, h1.ncols, h1.length, fun i j hi hj => ?_⟩
  have h4 := h3 ⟨i, hi⟩ ⟨j, hj⟩
  rw [Matrix.den_apply h1] at h4
  rw [Matrix.get_eq h1 hi hj]
  obtain ⟨q, hq⟩ := h2 _ (at_mem h1 ⟨i, hi⟩ ⟨j, hj⟩)
  have hok := Matrix.at_ok h1 ((n - 1) * i + j)
  dsimp only at hq h4
  rw [hq] at h4 hok ⊢
  have : q.den = (burauEntry 0 x s i j).den := by
    rw [burauEntry_den]
    simp only [Fin.ext_iff] at h4
    exact h4
  rw [LPoly.Trimmed.den_inj hok (burauEntry_trimmed x s i j) this]

theorem Printed.mod {A : Matrix} {n p : Nat} {x : ℤ} {s : Nat} (hp : p ≠ 0) (h1 : p ≠ 1) (h : Printed A n 0 x s) : Printed (A.map (Entry.modp p)) n p x s := by
  refine ⟨h.nrows, h.ncols, by rw [Matrix.map, List.length_map, h.length], fun i j hi hj => ?_⟩
  have h2 := h.get i j hi hj
  rw [Matrix.get, h.nrows, h.ncols, if_pos (by omega)] at h2
  rw [Matrix.get, show (A.map (Entry.modp p)).nrows = n - 1 from h.nrows, show (A.map (Entry.modp p)).ncols = n - 1 from h.ncols, if_pos (by omega)]
  injection h2 with h2
  have hlt : (n - 1) * (i : ℤ).toNat + (j : ℤ).toNat < A.data.length := by
    rw [h.length]
    exact Matrix.idx_lt (by simpa using hi) (by simpa using hj)
  rw [Matrix.at', List.getD_eq_getElem?_getD, List.getElem?_eq_getElem hlt] at h2
  rw [Matrix.at', Matrix.map, List.getD_eq_getElem?_getD, List.getElem?_map, List.getElem?_eq_getElem hlt]
  simp only [Option.getD_some, Option.map_some] at h2 ⊢
  rw [h2, Entry.modp, burauEntry_mod hp h1]

theorem Printed.unique {A B : Matrix} {n p : Nat} {x : ℤ} {s : Nat} (hA : Printed A n p x s) (hB : Printed B n p x s) : A = B := by
  have e : A.data = B.data := by
    refine List.ext_getElem (hA.length.trans hB.length.symm) fun k h1 h2 => ?_
    have hk : k < (n - 1) * (n - 1) := by rw [← hA.length]; exact h1
    have hpos : 0 < n - 1 := Nat.pos_of_ne_zero fun h => by simp [h] at hk
    have hi : k / (n - 1) < n - 1 := Nat.div_lt_of_lt_mul hk
    have hj : k % (n - 1) < n - 1 := Nat.mod_lt _ hpos
    have a := hA.get _ _ hi hj
    have b := hB.get _ _ hi hj
    rw [Matrix.get, hA.nrows, hA.ncols, if_pos ⟨Int.natCast_nonneg _, Int.ofNat_lt.2 hi, Int.natCast_nonneg _, Int.ofNat_lt.2 hj⟩] at a
    rw [Matrix.get, hB.nrows, hB.ncols, if_pos ⟨Int.natCast_nonneg _, Int.ofNat_lt.2 hi, Int.natCast_nonneg _, Int.ofNat_lt.2 hj⟩] at b
    have := a.trans b.symm
    injection this with this
    simp only [Int.toNat_natCast, Nat.div_add_mod, Matrix.at', List.getD_eq_getElem?_getD, List.getElem?_eq_getElem h1, List.getElem?_eq_getElem h2, Option.getD_some] at this
    exact this
  cases A; cases B
  have := hA.nrows.trans hB.nrows.symm
  have := hA.ncols.trans hB.ncols.symm
  simp_all
end Bur

/-- C127: `JonesCellRep(n, 1, p)` is the reduced Burau representation, in its usual form: there are `n - 1` generators, all matrices are
`(n-1) × (n-1)`, and the entries of the matrix of `σ_s` and of its inverse are those of `burauEntry`, with the coefficients in Python's range
of remainders. -/
theorem C127_matrices (n p : Nat) (hn : 2 ≤ n) (hp : p ≠ 1) : ∃ rep : RepBase (dimension n 1), cellRep n 1 p = .ok rep ∧ rep.n = n ∧ rep.p = p ∧ rep.gens.length = n - 1 ∧ rep.invs.length = n - 1 ∧
    ∀ s, s < n - 1 → ∃ A B, rep.gens[s]? = some A ∧ rep.invs[s]? = some B ∧ A.nrows = n - 1 ∧ A.ncols = n - 1 ∧ A.data.length = (n - 1) * (n - 1) ∧ B.nrows = n - 1 ∧ B.ncols = n - 1 ∧
      B.data.length = (n - 1) * (n - 1) ∧ ∀ i j : Nat, i < n - 1 → j < n - 1 → A.get i j = .ok (.lp (burauEntry p 1 s i j)) ∧ B.get i j = .ok (.lp (burauEntry p (-1) s i j)) := by
  obtain ⟨A, A', h1, h2⟩ := cellMatrices_one hn
  have e : cellRep n 1 p = (do let gi ← artinGensInvs n 1 p; .ok ⟨n, p, gi.1, gi.2⟩) := by
    rw [cellRep, pyAssert, if_pos (by simpa using by omega), bind_ok, pyAssert, if_pos (by simpa using hn), bind_ok]
  have hP : ∀ s, s < n - 1 → Printed (A s) n 0 1 s ∧ Printed (A' s) n 0 (-1) s := fun s hs =>
    ⟨printed_of (h2 s hs).1.1 (h2 s hs).1.2.1 (h2 s hs).1.2.2, printed_of (h2 s hs).2.1 (h2 s hs).2.2.1 (h2 s hs).2.2.2⟩
  rw [e, artinGensInvs, h1, bind_ok]
  by_cases h0 : p = 0
  · subst h0
    rw [if_neg (by simp), bind_ok]
    refine ⟨_, rfl, rfl, rfl, by simp, by simp, fun s hs => ⟨A s, A' s, ?_, ?_, ?_⟩⟩
    · simp [hs]
    · simp [hs]
    · obtain ⟨a, b⟩ := hP s hs
      exact ⟨a.nrows, a.ncols, a.length, b.nrows, b.ncols, b.length, fun i j hi hj => ⟨a.get i j hi hj, b.get i j hi hj⟩⟩
  · rw [if_pos h0, bind_ok]
    refine ⟨_, rfl, rfl, rfl, by simp, by simp, fun s hs => ⟨(A s).map (Entry.modp p), (A' s).map (Entry.modp p), ?_, ?_, ?_⟩⟩
    · simp [hs]
    · simp [hs]
    · obtain ⟨a, b⟩ := hP s hs
      have a := a.mod h0 hp
      have b := b.mod h0 hp
      exact ⟨a.nrows, a.ncols, a.length, b.nrows, b.ncols, b.length, fun i j hi hj => ⟨a.get i j hi hj, b.get i j hi hj⟩⟩

/-- C127: the two implementations agree: `polymat.burau_generator_v2(n, s)`, converted to a `Matrix`, is the generator `s` of
`JonesCellRep(n, 1)`. -/
theorem C127_burau_generator (n s : Nat) (hn : 2 ≤ n) (hs : s < n - 1) : ∃ (rep : RepBase (dimension n 1)) (M : PArr Unit (n - 1) (n - 1)) (A : Matrix),
    cellRep n 1 0 = .ok rep ∧ burauGenerator n s = .ok M ∧ toMatrix M = .ok A ∧ rep.gens[s]? = some A := by
  obtain ⟨rep, h1, -, -, -, -, h2⟩ := C127_matrices n 0 hn (by omega)
  obtain ⟨A, B, a1, -, a2, a3, a4, -, -, -, a5⟩ := h2 s hs
  obtain ⟨M, m1, m2⟩ := burau_den n s hs
  obtain ⟨A', b1, b2, b3, b4⟩ := toMatrix_spec M (by omega)
  have : A = A' := by
    refine Printed.unique (n := n) (p := 0) (x := 1) (s := s) ⟨a2, a3, a4, fun i j hi hj => (a5 i j hi hj).1⟩ (printed_of b2 b3 fun a c => ?_)
    rw [b4, _root_.Matrix.map_apply, m2]
    simp only [_root_.Matrix.sub_apply, Burau.U, _root_.Matrix.vecMulVec_apply, Burau.row, _root_.Matrix.one_apply, Pi.single_apply, Fin.ext_iff]
    by_cases h1 : a.val = s
    · by_cases h2 : c.val = s
      · rw [if_pos (by omega), if_pos h1, if_pos h2, if_pos h1, if_pos h2]
        simp
      · rw [if_neg (by omega), if_pos h1, if_neg h2, if_pos h1, if_neg h2]
        by_cases h3 : s + 1 = c.val ∨ c.val + 1 = s
        · rw [if_pos (by omega), if_pos h3]; simp
        · rw [if_neg (by omega), if_neg h3]; simp
    · rw [if_neg h1, if_neg h1]
      split_ifs <;> simp
  exact ⟨rep, M, A, h1, m1, by rw [b1, this], a1⟩

example : burauEntry 5 1 1 1 2 = ⟨1, [4]⟩ ∧ burauEntry 0 (-1) 2 2 2 = ⟨-2, [-1]⟩ := by decide

end Peyl
