import Verif.Props.DualEval
import Verif.Lemmas.PolymatWord
import Mathlib.RingTheory.Polynomial.Basic
/-!
# `polymat_evaluate_artin_word` and `polymat_evaluate` (C104)
-/
namespace Peyl
open LaurentPolynomial Polymat BraidSearch Bucketing Perms Equiv Jones
variable {d lim limG : Nat} {ω : NPar → NPar → Nat → Nat} {ωG : List Nat → List Nat → Nat → Nat} {rep : RepBase d} {ρ : Braid rep.n →* LMat rep.p d}

/-- All entries of the matrix are polynomials: no negative powers of `v`. -/
def Matrix.IsPolynomial (d : Nat) (m : Matrix) : Prop := ∀ i j : Fin d, ∃ f : Polynomial ℤ, m.den d d i j = f.toLaurent

theorem Matrix.isPolynomial_iff {m : Matrix} (h : m.Shape d d) (hl : ∀ x ∈ m.data, ∃ q, x = Entry.lp q) : m.IsPolynomial d ↔ ValGE m 0 := by
  refine ⟨valGE_of_poly h, fun hv i j => ?_⟩
  obtain ⟨A, -, e⟩ := (fromMatrix_lp h hl false).1 hv
  exact ⟨Polymat.den A () i j, by rw [← e]; rfl⟩

/-- C104, what holds: if the matrices of the generators and of their inverses have no negative powers of `v`,
`polymat_evaluate_artin_word` returns the projectivised matrix of the braid the word spells.  Missing: matrices with negative powers,
for which it raises ValueError (`C104_negative_refuted`, `C104_jones_refuted`) although the projectivised matrix exists. -/
theorem C104_word_partial (hn : 2 ≤ rep.n) (H : Realises rep ρ) (hd : 0 < d) (hp : rep.p ≠ 1) (hpoly : ∀ m ∈ rep.gens ++ rep.invs, m.IsPolynomial d)
    (w : List (Nat × ℤ)) (hw : ∀ se ∈ w, se.1 + 1 < rep.n) :
    ∃ A, rep.polymatEvaluateArtinWord w = .ok A ∧ IsProjImage rep.p A fun _ => ρ (wordBraid rep.n w) := by
  have hgl := H.gens_len
  have hil := H.invs_len
  have hg : ∀ m ∈ rep.gens, m.Shape d d ∧ ∀ x ∈ m.data, ∃ q, x = Entry.lp q := fun m hm => by
    obtain ⟨i, hi, rfl⟩ := List.getElem_of_mem hm; exact ⟨(H.gens i hi).1, (H.gens i hi).2.1⟩
  have hi : ∀ m ∈ rep.invs, m.Shape d d ∧ ∀ x ∈ m.data, ∃ q, x = Entry.lp q := fun m hm => by
    obtain ⟨i, hi, rfl⟩ := List.getElem_of_mem hm; exact ⟨(H.invs i hi).1, (H.invs i hi).2.1⟩
  refine RepBase.polymatWord_spec hd hp ρ (fun e => by rw [e] at hgl; simp at hgl; omega) (fun e => by rw [e] at hil; simp at hil; omega) hg hi
    (fun m hm => (Matrix.isPolynomial_iff (hg m hm).1 (hg m hm).2).1 (hpoly m (by simp [hm])))
    (fun m hm => (Matrix.isPolynomial_iff (hi m hm).1 (hi m hm).2).1 (hpoly m (by simp [hm])))
    (fun m hm => ?_) (fun m hm => ?_) w fun ie hie => ?_
  · obtain ⟨i, hi, rfl⟩ := List.getElem_of_mem hm
    rw [(H.gens i hi).2.2]; exact RepBase.rho_ne ρ hd hp _
  · obtain ⟨i, hi, rfl⟩ := List.getElem_of_mem hm
    rw [(H.invs i hi).2.2]; exact RepBase.rho_ne ρ hd hp _
  · have := hw ie hie
    split
    · exact ⟨by omega, (H.gens _ _).2.2⟩
    · exact ⟨by omega, (H.invs _ _).2.2⟩

/-- C104, what holds, for normal forms, permutations and noncrossing partitions. -/
theorem C104_evaluate_partial (hn : 2 ≤ rep.n) (H : Realises rep ρ) (hd : 0 < d) (hp : rep.p ≠ 1) (hpoly : ∀ m ∈ rep.gens ++ rep.invs, m.IsPolynomial d) :
    (rep.n < limG → ∀ x, IsGNF limG ωG rep.n x → ∃ A, rep.polymatEvaluate (GNF.tbl limG ωG) x = .ok A ∧ IsProjImage rep.p A fun _ => ρ (gnfBraid rep.n x)) ∧
    (NPar.catalanNum rep.n < lim → ∀ x, IsDGNF lim ω rep.n x → ∃ A, rep.polymatEvaluate (DGNF.tbl lim ω) x = .ok A ∧ IsProjImage rep.p A fun _ => ρ (dgnfBraid rep.n x)) ∧
    (∀ π : Perm (Fin rep.n), ∃ A, rep.polymatEvaluatePerm (wordOf π) = .ok A ∧ IsProjImage rep.p A fun _ => ρ (lift π)) := by
  refine ⟨fun hl x hx => ?_, fun hl x hx => ?_, fun π => ?_⟩
  · obtain ⟨t, R⟩ := exists_greal limG ωG hn hl
    obtain ⟨w, w1, w2, w3⟩ := R.1.artinWord_spec (R.isGNF_iff.1 hx)
    obtain ⟨A, h1, h2⟩ := C104_word_partial hn H hd hp hpoly w fun se hse => (w2 se hse).2
    exact ⟨A, by rw [RepBase.polymatEvaluate, w1, bind_ok, h1], by simpa only [w3, R.den_eq] using h2⟩
  · obtain ⟨l, t, R⟩ := dgnf_real lim ω hn hl
    obtain ⟨w, w1, w2, w3⟩ := R.real.artinWord_spec (R.isDGNF_iff.1 hx)
    obtain ⟨A, h1, h2⟩ := C104_word_partial hn H hd hp hpoly w fun se hse => (w2 se hse).2
    refine ⟨A, by rw [RepBase.polymatEvaluate, w1, bind_ok, h1], ?_⟩
    simpa only [w3, R.den_eq] using h2
  · obtain ⟨w, w1, w2⟩ := shortlex_spec π
    have hp' := w1.prod
    obtain ⟨A, h1, h2⟩ := C104_word_partial hn H hd hp hpoly (w.map fun s => (s, 1)) (by
      intro se hse; obtain ⟨s, hs, rfl⟩ := List.mem_map.1 hse; exact hp'.2.2 s hs)
    refine ⟨A, by rw [RepBase.polymatEvaluatePerm, Perms.artinWord, w2]; simpa [bind_ok] using h1, ?_⟩
    have : wordBraid rep.n (w.map fun s => (s, 1)) = lift π := by
      rw [lift_eq_posWord (w := w) ⟨hp'.2.2, by rw [hp'.1, _root_.inv_inv], by rw [hp'.2.1, inv_inv]⟩]
      simp [wordBraid, posWord, Function.comp_def]
    simpa only [this] using h2

/-- C104 is false otherwise: one negative power of `v` in a generator or an inverse and `polymat_evaluate_artin_word` raises ValueError
for every word, even the empty one. -/
theorem C104_negative_refuted (hn : 2 ≤ rep.n) (H : Realises rep ρ) (hd : 0 < d) (hp : rep.p ≠ 1) (hneg : ¬ ∀ m ∈ rep.gens ++ rep.invs, m.IsPolynomial d)
    (w : List (Nat × ℤ)) : rep.polymatEvaluateArtinWord w = .error .value := by
  have hgl := H.gens_len
  have hg : ∀ m ∈ rep.gens, m.Shape d d ∧ ∀ x ∈ m.data, ∃ q, x = Entry.lp q := fun m hm => by
    obtain ⟨i, hi, rfl⟩ := List.getElem_of_mem hm; exact ⟨(H.gens i hi).1, (H.gens i hi).2.1⟩
  have hi : ∀ m ∈ rep.invs, m.Shape d d ∧ ∀ x ∈ m.data, ∃ q, x = Entry.lp q := fun m hm => by
    obtain ⟨i, hi, rfl⟩ := List.getElem_of_mem hm; exact ⟨(H.invs i hi).1, (H.invs i hi).2.1⟩
  refine RepBase.polymatWord_error (fun e => by rw [e] at hgl; simp at hgl; omega) hg hi (fun m hm => ?_) (fun hv => hneg fun m hm => ?_) w
  · obtain ⟨i, hi, rfl⟩ := List.getElem_of_mem hm
    rw [(H.gens i hi).2.2]; exact RepBase.rho_ne ρ hd hp _
  · refine (Matrix.isPolynomial_iff ?_ ?_).2 (hv m hm)
    · rcases List.mem_append.1 hm with h | h
      · exact (hg m h).1
      · exact (hi m h).1
    · rcases List.mem_append.1 hm with h | h
      · exact (hg m h).2
      · exact (hi m h).2

/-- Products of polynomial matrices are polynomial, so the full twist, if its inverse is polynomial, is not a positive power of `v`. -/
theorem not_polynomial_of_twist {n p : Nat} (ρ : Braid n →* LMat p d) (hd : 0 < d) (hp : p ≠ 1) (hn : 1 ≤ n) {k : Nat} (hk : 0 < k)
    (hT : ρ (halfTwist n ^ 2) = (T k : (ZMod p)[T;T⁻¹]) • 1)
    (h : ∀ i, i + 1 < n → ρ (sigma n i)⁻¹ ∈ MonoidHom.mrange ((Polynomial.toLaurent (R := ZMod p)).mapMatrix (m := Fin d) : _root_.Matrix (Fin d) (Fin d) (Polynomial (ZMod p)) →* LMat p d)) : False := by
  haveI : Nontrivial (ZMod p) := by
    rcases Nat.eq_zero_or_pos p with rfl | hp0
    · exact inferInstanceAs (Nontrivial ℤ)
    · haveI : Fact (1 < p) := ⟨by omega⟩; infer_instance
  set S := MonoidHom.mrange ((Polynomial.toLaurent (R := ZMod p)).mapMatrix (m := Fin d) : _root_.Matrix (Fin d) (Fin d) (Polynomial (ZMod p)) →* LMat p d) with hS
  have hd' : ∀ j, j < n → ρ (JM.dn (sigma n) j)⁻¹ ∈ S := by
    intro j
    induction j with
    | zero => intro _; simp only [JM.dn, _root_.inv_one, map_one]; exact S.one_mem
    | succ j ih =>
      intro hj
      simp only [JM.dn, mul_inv_rev, map_mul]
      first
        | exact S.mul_mem (ih (by omega)) (h j (by omega))
        | exact S.mul_mem (h j (by omega)) (ih (by omega))
  have hh : ∀ j, j < n → ρ (JM.half (sigma n) j)⁻¹ ∈ S := by
    intro j
    induction j with
    | zero => intro _; simp only [JM.half, _root_.inv_one, map_one]; exact S.one_mem
    | succ j ih =>
      intro hj
      simp only [JM.half, mul_inv_rev, map_mul]
      exact S.mul_mem (hd' _ hj) (ih (by omega))
  have h2 := hh (n - 1) (by omega)
  rw [← halfTwist_eq hn] at h2
  have h3 : ρ (halfTwist n ^ 2)⁻¹ ∈ S := by rw [← inv_pow, map_pow]; exact S.pow_mem h2 2
  obtain ⟨M, hM⟩ := h3
  have h4 : ρ (halfTwist n ^ 2) * ρ (halfTwist n ^ 2)⁻¹ = 1 := by rw [← map_mul, mul_inv_cancel, map_one]
  rw [hT, ← hM, smul_mul_assoc, one_mul] at h4
  have h5 := congrFun (congrFun h4 ⟨0, hd⟩) ⟨0, hd⟩
  simp only [MonoidHom.coe_coe, RingHom.mapMatrix_apply, _root_.Matrix.smul_apply, _root_.Matrix.map_apply, _root_.Matrix.one_apply_eq, smul_eq_mul] at h5
  rw [← Polynomial.toLaurent_X_pow, ← map_mul, ← map_one Polynomial.toLaurent] at h5
  have h6 := congrArg (fun f => Polynomial.coeff f 0) (Polynomial.toLaurent_injective h5)
  simp only [Polynomial.mul_coeff_zero, Polynomial.coeff_X_pow, Polynomial.coeff_one] at h6
  rw [if_neg (by omega)] at h6
  simp at h6

/-- C104 is false for the Jones representations: for `r ≥ 1` the inverses have negative powers of `v`, so
`JonesCellRep(n, r, p).polymat_evaluate_artin_word(w)` raises ValueError for every word `w`, and so does `polymat_evaluate` of
every normal form and permutation. -/
theorem C104_jones_refuted (n r p : Nat) (hn : 2 ≤ n) (h1 : 1 ≤ r) (h : 2 * r ≤ n) (hp : p ≠ 1) :
    ∃ rep : RepBase (dimension n r), cellRep n r p = .ok rep ∧ (∀ w, rep.polymatEvaluateArtinWord w = .error .value) ∧
      (n < limG → ∀ x, IsGNF limG ωG n x → rep.polymatEvaluate (GNF.tbl limG ωG) x = .error .value) ∧
      (∀ π : Perm (Fin n), rep.polymatEvaluatePerm (wordOf π) = .error .value) := by
  obtain ⟨ρ, G, I, e1, H, hd, hT, -⟩ := jones_main n r p (by omega) h
  have key : ∀ w, (⟨n, p, G, I⟩ : RepBase (dimension n r)).polymatEvaluateArtinWord w = .error .value := by
    refine C104_negative_refuted hn H hd hp fun hpoly => ?_
    refine not_polynomial_of_twist ρ hd hp (by omega) (k := 2 * r * (n - r + 1)) (Nat.mul_pos (by omega) (by omega)) hT fun i hi => ?_
    have hil : I.length = n - 1 := H.invs_len
    have hi' : i < I.length := by omega
    have e := (H.invs i hi').2.2
    have hP := hpoly I[i] (by simp)
    choose f hf using hP
    refine ⟨fun a b => (f a b).map (Int.castRingHom (ZMod p)), ?_⟩
    rw [← e]
    funext a b
    show Polynomial.toLaurent _ = LPoly.red p (I[i].den _ _ a b)
    rw [hf]
    have : (LPoly.red p).comp (Polynomial.toLaurent (R := ℤ)) = (Polynomial.toLaurent (R := ZMod p)).comp (Polynomial.mapRingHom (Int.castRingHom (ZMod p))) := by
      apply Polynomial.ringHom_ext
      · intro a; simp
      · simp [red_T]
    exact (RingHom.congr_fun this (f a b)).symm
  refine ⟨_, e1, key, fun hl x hx => ?_, fun π => ?_⟩
  · obtain ⟨t, R⟩ := exists_greal limG ωG hn hl
    obtain ⟨w, w1, w2, w3⟩ := R.1.artinWord_spec (R.isGNF_iff.1 hx)
    rw [RepBase.polymatEvaluate, w1, bind_ok, key]
  · obtain ⟨w, w1, w2⟩ := shortlex_spec π
    rw [RepBase.polymatEvaluatePerm, Perms.artinWord, w2]
    exact key _

/-- The trivial representation (`JonesCellRep(4, 0)`) satisfies the hypotheses of `C104_word_partial`. -/
example : ∃ (rep : RepBase 1) (ρ : Braid rep.n →* LMat rep.p 1), rep.n = 4 ∧ Realises rep ρ ∧ ∀ m ∈ rep.gens ++ rep.invs, m.IsPolynomial 1 := by
  obtain ⟨m, hm⟩ : ∃ m, m = (⟨1, 1, [Entry.lp (LPoly.make 0 [1])]⟩ : Matrix) := ⟨_, rfl⟩
  have hs : m.Shape 1 1 := by
    subst hm
    exact ⟨rfl, rfl, rfl, fun x hx => by rw [List.mem_singleton.1 hx]; exact LPoly.trimmed_make _ _⟩
  have hlp : ∀ x ∈ m.data, ∃ q, x = Entry.lp q := fun x hx => by rw [hm] at hx; exact ⟨_, List.mem_singleton.1 hx⟩
  have hd : m.den 1 1 = 1 := by
    funext i j
    rw [Matrix.den_apply hs, Subsingleton.elim i 0, Subsingleton.elim j 0, _root_.Matrix.one_apply_eq]
    subst hm
    show (LPoly.make 0 [1]).den = 1
    rw [LPoly.den_int]; simp
  have hg : ∀ g ∈ List.replicate 3 m, g = m := fun g hg => (List.mem_replicate.1 hg).2
  refine ⟨⟨4, 0, List.replicate 3 m, List.replicate 3 m⟩, 1, rfl, ⟨rfl, rfl, fun i hi => ?_, fun i hi => ?_⟩, fun g h => ?_⟩
  · rw [hg _ (List.getElem_mem hi)]; exact ⟨hs, hlp, Matrix.denMod_one hd⟩
  · rw [hg _ (List.getElem_mem hi)]; exact ⟨hs, hlp, Matrix.denMod_one hd⟩
  · have : g = m := by rcases List.mem_append.1 h with h | h <;> exact hg g h
    subst this
    intro i j
    exact ⟨1, by rw [hd, Subsingleton.elim i j]; simp⟩

end Peyl
