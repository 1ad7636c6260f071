import Verif.Lemmas.LKBMat
/-!
# The Lawrence–Krammer–Bigelow representation (C56)
-/
namespace Peyl
open LaurentPolynomial LKB

/-- C56, what holds: `LKBRep(n, p, q, t).artin_gens_invs()` succeeds for units `q`, `t`; the `n-1` generator matrices are of size
`C(n,2)`, satisfy the braid relations and are invertible.  Missing: the second component, which should hold the inverses but repeats
the generators (`C56_inverses_refuted`). -/
theorem C56_relations_partial {n : Nat} {q t : LPoly} (hq : q.Trimmed) (ht : t.Trimmed) (hqu : q.isUnit = true) (htu : t.isUnit = true) (hn : 1 ≤ n) :
    ∃ gens invs, artinGensInvs n q t = .ok (gens, invs) ∧ gens.length = n - 1 ∧
      (∀ m ∈ gens, m.Shape (n.choose 2) (n.choose 2) ∧ IsUnit (m.den (n.choose 2) (n.choose 2))) ∧
      (∀ i j (h : j < gens.length) (hij : i + 2 ≤ j), gens[i].den (n.choose 2) (n.choose 2) * gens[j].den (n.choose 2) (n.choose 2) =
        gens[j].den (n.choose 2) (n.choose 2) * gens[i].den (n.choose 2) (n.choose 2)) ∧
      ∀ i (h : i + 1 < gens.length), gens[i].den (n.choose 2) (n.choose 2) * gens[i + 1].den (n.choose 2) (n.choose 2) * gens[i].den (n.choose 2) (n.choose 2) =
        gens[i + 1].den (n.choose 2) (n.choose 2) * gens[i].den (n.choose 2) (n.choose 2) * gens[i + 1].den (n.choose 2) (n.choose 2) := by
  obtain ⟨G, h1, h2, h3⟩ := LKB.main hq ht hqu htu hn
  rw [← length_pairs]
  have unit : ∀ x : LPoly, x.Trimmed → x.isUnit = true → IsUnit x.den := by
    intro x hx hu
    rw [LPoly.isUnit_den_iff hx]
    simp only [LPoly.isUnit, Bool.and_eq_true, Bool.or_eq_true, beq_iff_eq] at hu
    obtain ⟨e, hu⟩ := hu
    obtain ⟨c, hc⟩ := List.length_eq_one_iff.1 e
    rw [hc] at hu ⊢
    simpa using hu
  refine ⟨_, _, h1, by simp, fun m hm => ?_, fun i j hj hij => ?_, fun i hi => ?_⟩
  · obtain ⟨s, hs, rfl⟩ := List.mem_map.1 hm
    have hs : s + 1 < n := by have := List.mem_range.1 hs; omega
    refine ⟨h2 s hs, ?_⟩
    set A := (G s).den (pairs n).length (pairs n).length with hA
    have hc : A * A * A + (q.den - 1 - t.den * q.den ^ 2) • (A * A) + (t.den * q.den ^ 2 - q.den - t.den * q.den ^ 3) • A + (t.den * q.den ^ 3) • 1 = 0 := by
      refine ext_xvec fun i j hij hj => ?_
      have := h3.cubic (s := s) hs hij hj
      rw [← hA] at this
      simp only [map_add, map_smul, LinearMap.add_apply, LinearMap.smul_apply, _root_.Matrix.toLin'_mul, LinearMap.comp_apply, _root_.Matrix.toLin'_one, LinearMap.id_apply, map_zero, LinearMap.zero_apply]
      exact this
    obtain ⟨c, hcu⟩ : IsUnit (t.den * q.den ^ 3) := (unit t ht htu).mul ((unit q hq hqu).pow 3)
    rw [_root_.Matrix.isUnit_iff_isUnit_det]
    set N := A * A + (q.den - 1 - t.den * q.den ^ 2) • A + (t.den * q.den ^ 2 - q.den - t.den * q.den ^ 3) • 1
    have : A * (-((c⁻¹ : (ℤ[T;T⁻¹])ˣ) : ℤ[T;T⁻¹]) • N) = 1 := by
      have e : A * N = -((t.den * q.den ^ 3) • 1) := by
        rw [eq_neg_iff_add_eq_zero, ← hc]
        simp only [N, mul_add, mul_smul_comm, mul_one, mul_assoc]
      rw [mul_smul_comm, e, ← hcu, smul_neg, neg_smul, neg_neg, smul_smul, Units.inv_mul, one_smul]
    exact IsUnit.of_mul_eq_one _ (by rw [← _root_.Matrix.det_mul, this, _root_.Matrix.det_one])
  · simp only [List.length_map, List.length_range] at hj
    simp only [List.getElem_map, List.getElem_range]
    refine ext_xvec fun a b hab hb => ?_
    simp only [_root_.Matrix.toLin'_mul, LinearMap.comp_apply]
    exact h3.far hij (by omega) hab hb
  · simp only [List.length_map, List.length_range] at hi
    simp only [List.getElem_map, List.getElem_range]
    refine ext_xvec fun a b hab hb => ?_
    simp only [_root_.Matrix.toLin'_mul, LinearMap.comp_apply]
    exact h3.braid (by omega) hab hb

/-- C56 is false for the inverses: the matrices returned as inverses are the generators again, and unless `(t q²)² = 1` none of
them is the inverse. -/
theorem C56_inverses_refuted {n : Nat} {q t : LPoly} (hq : q.Trimmed) (ht : t.Trimmed) (hqu : q.isUnit = true) (htu : t.isUnit = true) (hn : 2 ≤ n)
    (hne : (t.den * q.den ^ 2) ^ 2 ≠ 1) :
    ∃ gens invs, artinGensInvs n q t = .ok (gens, invs) ∧ gens.length = n - 1 ∧ invs = gens ∧
      ∀ i (h : i < gens.length) (h' : i < invs.length), gens[i].den (n.choose 2) (n.choose 2) * invs[i].den (n.choose 2) (n.choose 2) ≠ 1 := by
  obtain ⟨G, h1, h2, h3⟩ := LKB.main hq ht hqu htu (by omega : 1 ≤ n)
  rw [← length_pairs]
  refine ⟨_, _, h1, by simp, rfl, fun i hi _ h => hne ?_⟩
  simp only [List.length_map, List.length_range] at hi
  simp only [List.getElem_map, List.getElem_range] at h
  have h4 := h3.h1 i (by omega)
  have h5 := congrArg (fun A => _root_.Matrix.toLin' A (xvec n i (i + 1))) h
  rw [_root_.Matrix.toLin'_mul, LinearMap.comp_apply, h4, map_smul, h4, _root_.Matrix.toLin'_one, LinearMap.id_apply] at h5
  obtain ⟨b, hb, e⟩ := List.getElem_of_mem ((mem_pairs (n := n) (p := (i, i + 1))).2 ⟨by simp, by dsimp only; omega⟩)
  have h6 := congrFun h5 ⟨b, hb⟩
  simp only [xvec, Pi.smul_apply, smul_eq_mul] at h6
  rw [show (pairs n)[(⟨b, hb⟩ : Fin (pairs n).length)] = (i, i + 1) from e, if_pos rfl] at h6
  linear_combination h6

/-- The representation of the test suite, `LKBRep(4, 0, v^7, v^5)`, meets the hypotheses of both theorems. -/
example : ∃ q t : LPoly, q = LPoly.make 7 [1] ∧ t = LPoly.make 5 [1] ∧ q.Trimmed ∧ t.Trimmed ∧ q.isUnit = true ∧ t.isUnit = true ∧ (t.den * q.den ^ 2) ^ 2 ≠ 1 := by
  refine ⟨_, _, rfl, rfl, LPoly.trimmed_make _ _, LPoly.trimmed_make _ _, by decide +kernel, by decide +kernel, ?_⟩
  have e : ∀ k : ℤ, (LPoly.make k [1]).den = T k := fun k => by rw [LPoly.den_make]; simp [listPoly]
  rw [e, e, T_pow, ← T_add, T_pow]
  intro h
  rw [← T_zero] at h
  have h2 := congrArg LaurentPolynomial.degree h
  rw [degree_T, degree_T] at h2
  exact absurd h2 (by decide)

example : (artinGensInvs 3 (LPoly.make 1 [1]) (LPoly.make 2 [1])).map (fun x => x.1.length) = .ok 2 := by decide +kernel

end Peyl
