import Verif.Props.Jones
import Verif.Props.DGNF
import Verif.Props.Braid
import Verif.Model.RepMisc
import Verif.Lemmas.DeltaTwist
/-!
# Evaluation of dual normal forms, permutations and noncrossing partitions (C90, C91)
-/
namespace Peyl
open LaurentPolynomial Polymat BraidSearch Bucketing Perms Equiv
variable {d lim limG : Nat} {ω : NPar → NPar → Nat → Nat} {ωG : List Nat → List Nat → Nat → Nat} {rep : RepBase d} {ρ : Braid rep.n →* LMat rep.p d}

/-! ## C91: the fundamental elements of the two Garside structures -/

/-- C91: `DGNF(n, k*n, ())` is the full twist to the power `k`: converting it gives `GNF(n, 2*k, ())`, and back. -/
theorem C91_delta_power (n : Nat) (hn : 2 ≤ n) (hG : n < limG) (hD : NPar.catalanNum n < lim) (k : ℤ) :
    DGNF.toGNF limG ωG lim ω ⟨n, k * n, []⟩ = .ok ⟨n, 2 * k, []⟩ ∧ GNF.toDGNF limG ωG lim ω ⟨n, 2 * k, []⟩ = .ok ⟨n, k * n, []⟩ := by
  have hx : IsDGNF lim ω n ⟨n, k * n, []⟩ := by
    obtain ⟨l, t, R⟩ := dgnf_real lim ω hn hD
    exact R.isDGNF_iff.2 (R.real.valid_iff.2 ⟨rfl, by simp [TableSpec.InR], List.isChain_nil, by simp⟩)
  obtain ⟨t, R⟩ := exists_greal limG ωG hn hG
  have hy : NFReal.Valid t n ⟨n, 2 * k, []⟩ := R.1.valid_iff.2 ⟨rfl, by simp [TableSpec.InR], List.isChain_nil, by simp⟩
  obtain ⟨z, z1, z2, z3, z4⟩ := C29_to_GNF (ωG := ωG) hn hG hD _ hx
  have : z = ⟨n, 2 * k, []⟩ := R.1.den_inj (R.isGNF_iff.1 z2) hy (by
    rw [R.den_eq, R.den_eq, z3]
    simp only [dgnfBraid, gnfBraid, List.map_nil, List.prod_nil, mul_one]
    rw [mul_comm k, zpow_mul, zpow_natCast, delta_pow (by omega), zpow_mul]; rfl)
  subst this
  exact ⟨z1, z4⟩

example := C91_delta_power (limG := 7) (ωG := pop0) (lim := 100) (ω := dpop0) 4 (by decide) (by decide) (by decide +kernel) (-3)

/-- C91: hence `DGNF(n, 1, ())**n` converts to `GNF(n, 1, ())**2`, and both commute with every braid of their kind. -/
theorem C91_full_twist (n : Nat) (hn : 2 ≤ n) (hG : n < limG) (hD : NPar.catalanNum n < lim) :
    ∃ x y, NF.pow (DGNF.tbl lim ω) ⟨n, 1, []⟩ n = .ok x ∧ NF.pow (GNF.tbl limG ωG) ⟨n, 1, []⟩ 2 = .ok y ∧ DGNF.toGNF limG ωG lim ω x = .ok y ∧
      ∀ z, IsDGNF lim ω n z → ∃ u, NF.mul (DGNF.tbl lim ω) x z = .ok u ∧ NF.mul (DGNF.tbl lim ω) z x = .ok u := by
  obtain ⟨l, t, R⟩ := dgnf_real lim ω hn hD
  obtain ⟨tG, RG⟩ := exists_greal limG ωG hn hG
  have hx : NFReal.Valid t.toNFTable n ⟨n, 1, []⟩ := R.real.valid_iff.2 ⟨rfl, by simp [TableSpec.InR], List.isChain_nil, by simp⟩
  have hx' : NFReal.Valid t.toNFTable n ⟨n, (1 : ℤ) * n, []⟩ := R.real.valid_iff.2 ⟨rfl, by simp [TableSpec.InR], List.isChain_nil, by simp⟩
  have hy : NFReal.Valid tG n ⟨n, 1, []⟩ := RG.1.valid_iff.2 ⟨rfl, by simp [TableSpec.InR], List.isChain_nil, by simp⟩
  have hy' : NFReal.Valid tG n ⟨n, (2 : ℤ) * 1, []⟩ := RG.1.valid_iff.2 ⟨rfl, by simp [TableSpec.InR], List.isChain_nil, by simp⟩
  obtain ⟨x, x1, x2, x3⟩ := C28_pow hn hD _ (R.isDGNF_iff.2 hx) n
  obtain ⟨y, y1, y2, y3⟩ := RG.1.pow_spec hy 2
  have ex : x = ⟨n, (1 : ℤ) * n, []⟩ := (C29_unique hn hD _ _ x2 (R.isDGNF_iff.2 hx')).2 (by rw [x3]; simp [dgnfBraid])
  have ey : y = ⟨n, (2 : ℤ) * 1, []⟩ := RG.1.den_inj y2 hy' (by
    rw [y3, RG.den_eq, RG.den_eq]; simp [gnfBraid])
  have hc : ∀ z, IsDGNF lim ω n z → dgnfBraid n z * halfTwist n ^ 2 = halfTwist n ^ 2 * dgnfBraid n z := by
    intro z hz
    obtain ⟨g, -, g2, g3, -⟩ := C29_to_GNF (ωG := ωG) hn hG hD z hz
    obtain ⟨fs, -, -, -, -, c1, c2⟩ := C23_conjugation hn hG g g2
    have h2 : NFReal.Valid tG n ⟨n, 2, []⟩ := hy'
    obtain ⟨a, a1, -, a3⟩ := RG.1.mul_spec (RG.isGNF_iff.1 g2) h2
    obtain ⟨b, b1, -, b3⟩ := RG.1.mul_spec h2 (RG.isGNF_iff.1 g2)
    rw [c1] at a1; rw [c2] at b1; cases a1; cases b1
    rw [a3] at b3
    simp only [RG.den_eq] at b3
    rw [← g3]
    simpa [gnfBraid] using b3
  refine ⟨x, y, x1, y1, by rw [ex, ey]; exact (C91_delta_power n hn hG hD 1).1, fun z hz => ?_⟩
  obtain ⟨u, u1, u2, u3⟩ := C28_mul hn hD x z x2 hz
  obtain ⟨w, w1, w2, w3⟩ := C28_mul hn hD z x hz x2
  have : w = u := (C29_unique hn hD _ _ w2 u2).2 (by
    rw [w3, u3, x3]
    simp only [dgnfBraid, List.map_nil, List.prod_nil, mul_one, zpow_one]
    rw [zpow_natCast, delta_pow (by omega)]
    exact hc z hz)
  exact ⟨u, u1, by rw [w1, this]⟩

example := C91_full_twist (limG := 7) (ωG := pop0) (lim := 100) (ω := dpop0) 4 (by decide) (by decide) (by decide +kernel)

/-! ## C90: evaluating dual normal forms -/

/-- C90: `evaluate` of a DGNF is the matrix of its braid, reduced mod `p`. -/
theorem C90_evaluate (hn : 2 ≤ rep.n) (hl : NPar.catalanNum rep.n < lim) (H : Realises rep ρ) (hd : 0 < d) (hp : rep.p ≠ 1) (x : NF) (hx : IsDGNF lim ω rep.n x) :
    ∃ m, rep.evaluate (DGNF.tbl lim ω) x = .ok m ∧ m.Shape d d ∧ m.denMod rep.p d = ρ (dgnfBraid rep.n x) ∧
      (rep.p ≠ 0 → ∀ i j k, 0 ≤ (m.den d d i j).coeff k ∧ (m.den d d i j).coeff k < rep.p) := by
  obtain ⟨w, w1, w2, w3, -⟩ := C28_artin_word hn hl x hx
  obtain ⟨m, h1, h2, h3, h4⟩ := C53_word H hd hp w fun se hse => (w2 se hse).2
  exact ⟨m, by rw [RepBase.evaluate, w1, bind_ok, h1], h2, by rw [h3, w3], h4⟩

example := C90_evaluate (by decide) (by decide +kernel) real315 (by decide) (by decide) _ dgnfA

/-- C90: a DGNF and the GNF it converts to evaluate to the same matrix of Laurent polynomials. -/
theorem C90_conversion (hn : 2 ≤ rep.n) (hG : rep.n < limG) (hl : NPar.catalanNum rep.n < lim) (H : Realises rep ρ) (hd : 0 < d) (hp : rep.p ≠ 1)
    (x : NF) (hx : IsDGNF lim ω rep.n x) :
    ∃ y A B, DGNF.toGNF limG ωG lim ω x = .ok y ∧ rep.evaluate (DGNF.tbl lim ω) x = .ok A ∧ rep.evaluate (GNF.tbl limG ωG) y = .ok B ∧
      A.den d d = B.den d d := by
  obtain ⟨y, y1, y2, y3, -⟩ := C29_to_GNF (ωG := ωG) hn hG hl x hx
  obtain ⟨w, w1, w2, w3, -⟩ := C28_artin_word hn hl x hx
  obtain ⟨t, R⟩ := exists_greal limG ωG hn hG
  obtain ⟨u, u1, u2, u3⟩ := R.1.artinWord_spec (R.isGNF_iff.1 y2)
  obtain ⟨A, B, a1, b1, e⟩ := C53_well_defined H hd hp w u (fun se hse => (w2 se hse).2) (fun se hse => (u2 se hse).2)
    (by rw [w3, u3, R.den_eq, y3])
  exact ⟨y, A, B, y1, by rw [RepBase.evaluate, w1, bind_ok, a1], by rw [RepBase.evaluate, u1, bind_ok, b1], e⟩

/-- C90: `polymat_evaluate_braids_of_same_length` of DGNFs of one canonical length `len`: one matrix per braid, all starting in
degree zero, equal mod `p` to the matrices of the braids up to powers of `v`.  The coefficients are in `[0, p)` if `len > 0` or all
powers are zero; missing: coefficients in `[0, p)` for pure powers of `δ`, where it fails (`C90_refuted`). -/
theorem C90_same_length_partial (hn : 2 ≤ rep.n) (hl : NPar.catalanNum rep.n < lim) (H : Realises rep ρ) (hF : FullTwistScalar ρ) (hd : 0 < d) (hp : rep.p ≠ 1)
    (xs : List NF) (hne : xs ≠ []) (len : Nat) (hx : ∀ x ∈ xs, IsDGNF lim ω rep.n x ∧ NF.canonicalLength x = len) :
    ∃ A, rep.evalSame (DGNF.tbl lim ω) xs = .ok A ∧ (∀ i, slice A 0 i ≠ 0) ∧ UpToShift rep.p A (fun i => ρ (dgnfBraid rep.n xs[i])) ∧
      ((0 < len ∨ ∀ x ∈ xs, x.power = 0) → IsProjImage rep.p A (fun i => ρ (dgnfBraid rep.n xs[i]))) := by
  obtain ⟨l, t, R⟩ := dgnf_real lim ω hn hl
  obtain ⟨A, a1, a2, a3, a4⟩ := RepBase.evalSame_spec R.real H hd hp (by
    obtain ⟨k, hk⟩ := hF
    exact ⟨k, by rw [← hk, ← delta_pow (by omega), R.data.tauOrder]; rfl⟩) xs hne len (fun x h => ⟨R.isDGNF_iff.1 (hx x h).1, (hx x h).2⟩)
  have a3' : UpToShift rep.p A (fun i => ρ (dgnfBraid rep.n xs[i])) := by simpa only [R.den_eq] using a3
  exact ⟨A, a1, a2.first, a3', fun h => ⟨a2.first, a2.last, a4 (h.elim .inl fun h => .inr (.inr h)), a3'⟩⟩

/-- C90: so a DGNF of positive length and its GNF have the same image under the bulk evaluator, provided both have positive length. -/
theorem C90_bulk_conversion (hn : 2 ≤ rep.n) (hG : rep.n < limG) (hl : NPar.catalanNum rep.n < lim) (H : Realises rep ρ) (hF : FullTwistScalar ρ) (hd : 0 < d) (hp : rep.p ≠ 1)
    (x : NF) (hx : IsDGNF lim ω rep.n x) (h0 : x.factors ≠ [] ∨ x.power = 0) :
    ∃ y A, DGNF.toGNF limG ωG lim ω x = .ok y ∧ rep.evalOne (DGNF.tbl lim ω) x = .ok A ∧ rep.evalOne (GNF.tbl limG ωG) y = .ok A := by
  obtain ⟨y, y1, y2, y3, -⟩ := C29_to_GNF (ωG := ωG) hn hG hl x hx
  obtain ⟨B, b1, b2⟩ := C55_single hn hG H hF hd hp y y2
  obtain ⟨A, a1, -, -, a4⟩ := C90_same_length_partial hn hl H hF hd hp [x] (by simp) (NF.canonicalLength x) (by simpa using hx)
  have a5 := a4 (h0.imp (fun h => List.length_pos_iff.2 h) (fun h => by simpa using h))
  have a6 : IsProjImage rep.p (imgAt A ⟨0, by simp⟩) fun _ => ρ (gnfBraid rep.n y) := by
    refine ⟨?_, ?_, ?_, ?_⟩
    · rintro ⟨⟩; rw [slice_imgAt]; exact a5.first _
    · obtain ⟨i, hi⟩ := a5.last
      have : i = ⟨0, by simp⟩ := by ext; have := i.2; simp only [List.length_singleton] at this; simp only [Fin.val_mk]; omega
      subst this
      exact ⟨(), by rw [slice_imgAt]; simpa [imgAt] using hi⟩
    · intro hp0 S hS a i j
      obtain ⟨S', hS', rfl⟩ := List.mem_map.1 hS
      exact a5.reduced hp0 S' hS' _ i j
    · rintro ⟨⟩
      obtain ⟨k, hk⟩ := a5.shift ⟨0, by simp⟩
      exact ⟨k, by rw [denMod_of_den (den_imgAt A ⟨0, by simp⟩), hk, y3]; rfl⟩
  exact ⟨y, B, y1, by rw [RepBase.evalOne, a1, bind_ok, a6.unique b2], b1⟩

/-! Permutations and noncrossing partitions. -/

/-- C90: `evaluate` of a permutation is the matrix of its positive lift. -/
theorem C90_permutation (H : Realises rep ρ) (hd : 0 < d) (hp : rep.p ≠ 1) (π : Perm (Fin rep.n)) :
    ∃ m, rep.evaluatePerm (wordOf π) = .ok m ∧ m.Shape d d ∧ m.denMod rep.p d = ρ (lift π) := by
  obtain ⟨w, w1, w2⟩ := shortlex_spec π
  have hp' := w1.prod
  obtain ⟨m, h1, h2, h3, -⟩ := C53_word H hd hp (w.map fun s => (s, 1)) (by
    intro se hse; obtain ⟨s, hs, rfl⟩ := List.mem_map.1 hse; exact hp'.2.2 s hs)
  refine ⟨m, by rw [RepBase.evaluatePerm, Perms.artinWord, w2]; simpa [bind_ok] using h1, h2, ?_⟩
  rw [h3, lift_eq_posWord (w := w) ⟨hp'.2.2, by rw [hp'.1, _root_.inv_inv], by rw [hp'.2.1, inv_inv]⟩]
  simp [wordBraid, posWord, Function.comp_def]

/-- C90: `evaluate` of a noncrossing partition is the matrix of its dual lift. -/
theorem C90_npar (H : Realises rep ρ) (hd : 0 < d) (hp : rep.p ≠ 1) (q : NPar) (hq : q.Ok) (hqn : q.n = rep.n) :
    ∃ (π : Perm (Fin rep.n)) (m : Matrix), q.toPermutation = .ok (wordOf π) ∧ rep.evaluateNPar q = .ok m ∧ m.Shape d d ∧ m.denMod rep.p d = ρ (dlift π) := by
  have key : ∀ n (w : List (Nat × ℤ)) (q : NPar), q.Ok → q.n = n → ∃ (π : Perm (Fin n)) (w : List (Nat × ℤ)), q.toPermutation = .ok (wordOf π) ∧ q.artinWord = .ok w ∧
      (∀ se ∈ w, se.1 + 1 < n) ∧ wordBraid n w = dlift π := by
    rintro _ - q hq rfl
    obtain ⟨x, hx, e⟩ := exists_nparOf hq
    obtain ⟨w, w1, w2, w3⟩ := npar_artinWord hx
    have h1 : ∀ r : NPar, r = nparOf x → r.toPermutation = .ok (wordOf x) ∧ r.artinWord = .ok w := by rintro r rfl; exact ⟨toPermutation_eq x, w1⟩
    exact ⟨x, w, (h1 q e).1, (h1 q e).2, fun se hse => (w2 se hse).2, w3⟩
  obtain ⟨π, w, k1, k2, k3, k4⟩ := key rep.n [] q hq hqn
  obtain ⟨m, h1, h2, h3, -⟩ := C53_word H hd hp w k3
  exact ⟨π, m, k1, by rw [RepBase.evaluateNPar, k2, bind_ok, h1], h2, by rw [h3, k4]⟩

/-- C90: `polymat_evaluate_braid_integers_of_same_length(DGNF, ...)`. -/
theorem C90_integers (hn : 2 ≤ rep.n) (hl : NPar.catalanNum rep.n < lim) (H : Realises rep ρ) (hd : 0 < d) (hp : rep.p ≠ 1)
    (seqs : List (List Nat)) (hne : seqs ≠ []) (len : Nat) (h0 : 0 < len) (hs : ∀ s ∈ seqs, s.length = len ∧ ∀ f ∈ s, f < NPar.catalanNum rep.n) :
    ∃ A, rep.evalIntegers (DGNF.tbl lim ω) seqs = .ok ⟨seqs.length, A⟩ ∧
      IsProjImage rep.p A fun i => ρ ((seqs[i].map fun f => dlift (nparAt rep.n f)).prod) := by
  obtain ⟨l, t, R⟩ := dgnf_real lim ω hn hl
  exact (RepBase.evalIntegers_spec R.real H hd hp seqs hne len (fun s h => ⟨(hs s h).1, fun f hf => by rw [R.data.order]; exact (hs s h).2 f hf⟩)).1 h0

/-- C90: the image of a pure power of `δ` is not reduced mod `p`: over `F2` the image of `δ²` in `B_3` has the coefficient 2, so it
differs from the image of the same braid given as a GNF. -/
theorem C90_refuted : ∃ (rep : RepBase (Jones.dimension 3 1)) (A : _) (B : _), Jones.cellRep 3 1 2 = .ok rep ∧ IsDGNF 100 (fun _ _ _ => 0) 3 ⟨3, 2, []⟩ ∧
    rep.evalSame (DGNF.tbl 100 fun _ _ _ => 0) [⟨3, 2, []⟩] = .ok A ∧ ¬ ReducedMod 2 A ∧
    ∃ y, DGNF.toGNF 7 (fun _ _ _ => 0) 100 (fun _ _ _ => 0) ⟨3, 2, []⟩ = .ok y ∧ rep.evalSame (GNF.tbl 7 fun _ _ _ => 0) [y] = .ok B ∧ A ≠ B := by
  have h : (match Jones.cellRep 3 1 2 with
    | .ok rep => (match rep.evalSame (DGNF.tbl 100 fun _ _ _ => 0) [⟨3, 2, []⟩], DGNF.toGNF 7 (fun _ _ _ => 0) 100 (fun _ _ _ => 0) ⟨3, 2, []⟩ with
      | .ok A, .ok y => (match rep.evalSame (GNF.tbl 7 fun _ _ _ => 0) [y] with
        | .ok B => A.any (fun S => S ⟨0, by simp⟩ ⟨0, by decide⟩ ⟨0, by decide⟩ == 2) && B.all (fun S => S ⟨0, by simp⟩ ⟨0, by decide⟩ ⟨0, by decide⟩ != 2)
        | .error _ => false)
      | _, _ => false)
    | .error _ => false) = true := by decide_cbv
  have hx : IsDGNF 100 (fun _ _ _ => 0) 3 ⟨3, 2, []⟩ := by decide +kernel
  split at h
  · rename_i rep e
    split at h
    · rename_i A y e1 e2
      split at h
      · rename_i B e3
        rw [Bool.and_eq_true] at h
        obtain ⟨S, hS, hS2⟩ := List.any_eq_true.1 h.1
        refine ⟨rep, A, B, e, hx, e1, fun hr => ?_, y, e2, e3, fun hAB => ?_⟩
        · have := (hr (by norm_num) S hS ⟨0, by simp⟩ ⟨0, by decide⟩ ⟨0, by decide⟩).2
          rw [beq_iff_eq] at hS2
          rw [hS2] at this; norm_num at this
        · have := List.all_eq_true.1 h.2 S (hAB ▸ hS)
          simp_all
      · cases h
    · cases h
  · cases h

/-- The hypotheses are met by all Jones representations: the image of a DGNF in `B_4` that is not a power of `δ`. -/
example : ∃ rep : RepBase (Jones.dimension 4 2), Jones.cellRep 4 2 5 = .ok rep ∧ IsDGNF 100 (fun _ _ _ => 0) 4 ⟨4, -1, [1]⟩ ∧
    ∃ y A, DGNF.toGNF 7 (fun _ _ _ => 0) 100 (fun _ _ _ => 0) ⟨4, -1, [1]⟩ = .ok y ∧ rep.evalOne (DGNF.tbl 100 (fun _ _ _ => 0)) ⟨4, -1, [1]⟩ = .ok A ∧
      rep.evalOne (GNF.tbl 7 (fun _ _ _ => 0)) y = .ok A := by
  obtain ⟨ρ, G, I, gs, g1, g2, -, -, hF, hd⟩ := C54_hypotheses 4 2 5 (by norm_num) (by norm_num)
  have hx : IsDGNF 100 (fun _ _ _ => 0) 4 ⟨4, -1, [1]⟩ := by decide +kernel
  exact ⟨_, g1, hx, C90_bulk_conversion (rep := ⟨4, 5, G, I⟩) (by norm_num) (by norm_num) (by show NPar.catalanNum 4 < 100; decide) g2 hF hd (by norm_num) _ hx (.inl (by simp))⟩

end Peyl
