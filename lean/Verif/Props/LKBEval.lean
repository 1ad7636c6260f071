import Verif.Lemmas.LKBRep
import Verif.Lemmas.PosWords
import Verif.Lemmas.PolymatWord
import Verif.Props.PolymatWord
/-!
# Evaluation in the Lawrence–Krammer–Bigelow representation (C105, C106)

`LKBRep` hands the generators over as their own inverses (C56).  What does not read inverses is right: the bulk evaluators on
GNFs, and words without negative letters.
-/
namespace Peyl
open LaurentPolynomial Polymat Equiv Perms
variable {lim : Nat} {ω : List Nat → List Nat → Nat → Nat} {n p : Nat} {q t : LPoly}

/-- `rep` is `LKBRep(n, p, q, t)`, and `ρ` is the representation of the braid group with its generator matrices. -/
structure IsLKB (n p : Nat) (q t : LPoly) (rep : RepBase (LKB.dimension n)) (ρ : Braid n →* LMat p (LKB.dimension n)) : Prop where
  ok : LKB.rep n p q t = .ok rep
  n_eq : rep.n = n
  p_eq : rep.p = p
  len : rep.gens.length = n - 1
  gens : ∀ i (h : i < rep.gens.length), rep.gens[i].denMod p (LKB.dimension n) = ρ (sigma n i)

theorem braidHom_ext {M : Type*} [Monoid M] {f g : Braid n →* M} (h : ∀ i, i + 1 < n → f (sigma n i) = g (sigma n i)) : f = g := by
  have : f.toHomUnits = g.toHomUnits := by
    refine PresentedGroup.ext fun i => Units.ext ?_
    have := h i.1 (by omega)
    rw [sigma_eq (by omega : i.1 < n - 1)] at this
    exact this
  ext x
  exact congrArg (fun φ : Braid n →* Mˣ => ((φ x : Mˣ) : M)) this

theorem dimension_pos (hn : 2 ≤ n) : 0 < LKB.dimension n := Nat.choose_pos hn

/-- All there is to know about `LKBRep`, in terms of a second list of matrices `I` which are really the inverses. -/
theorem IsLKB.main {rep : RepBase (LKB.dimension n)} {ρ : Braid n →* LMat p (LKB.dimension n)} (hq : q.Trimmed) (ht : t.Trimmed)
    (hqu : q.isUnit = true) (htu : t.isUnit = true) (hn : 2 ≤ n) (h : IsLKB n p q t rep ρ) :
    ∃ G I, rep = ⟨n, p, G, G⟩ ∧ Realises (⟨n, p, G, I⟩ : RepBase (LKB.dimension n)) ρ ∧
      ρ (halfTwist n ^ 2) = LPoly.red p (t.den ^ 2 * q.den ^ (2 * n)) • 1 ∧ FullTwistScalar ρ ∧
      (∀ s, s + 1 < n → ∃ v : Fin (LKB.dimension n) → (ZMod p)[T;T⁻¹], (∃ a, v a = 1) ∧ (ρ (sigma n s)).mulVec v = LPoly.red p (t.den * q.den ^ 2) • v) := by
  obtain ⟨G, I, ρ', h1, h2, h3, h4⟩ := LKB.realises hq ht hqu htu hn p
  obtain ⟨k1, k2, k3, k4, k5⟩ := h
  rw [h1, Except.ok.injEq] at k1
  subst k1
  have : ρ = ρ' := by
    have e : ∀ i, i + 1 < n → ρ (sigma n i) = ρ' (sigma n i) := fun i hi => by
      have hl : G.length = n - 1 := h2.gens_len
      rw [← k5 i (by show i < G.length; omega), ← (h2.gens i (by show i < G.length; omega)).2.2]
    exact braidHom_ext e
  subst this
  refine ⟨G, I, rfl, h2, h3, ⟨2 * t.val + 2 * q.val * n, ?_⟩, h4⟩
  rw [h3, pow_mul, LKB.unit_sq ht htu, LKB.unit_sq hq hqu, T_pow, ← T_add, red_T]
  congr 2
  ring

/-- C105, C106: `LKBRep(n, p, q, t)` for units `q`, `t` defines a representation of the braid group. -/
theorem C105_exists (hq : q.Trimmed) (ht : t.Trimmed) (hqu : q.isUnit = true) (htu : t.isUnit = true) (hn : 2 ≤ n) (p : Nat) :
    ∃ rep ρ, IsLKB n p q t rep ρ := by
  obtain ⟨G, I, ρ, h1, h2, -⟩ := LKB.realises hq ht hqu htu hn p
  exact ⟨_, ρ, h1, rfl, rfl, h2.gens_len, fun i h => (h2.gens i h).2.2⟩

variable {rep : RepBase (LKB.dimension n)} {ρ : Braid n →* LMat p (LKB.dimension n)}

/-- C105: the full twist acts by the scalar `t² q^(2n)`, a power of `v`. -/
theorem C105_full_twist (hq : q.Trimmed) (ht : t.Trimmed) (hqu : q.isUnit = true) (htu : t.isUnit = true) (hn : 2 ≤ n) (H : IsLKB n p q t rep ρ) :
    ρ (halfTwist n ^ 2) = LPoly.red p (t.den ^ 2 * q.den ^ (2 * n)) • 1 ∧ FullTwistScalar ρ := by
  obtain ⟨G, I, -, -, h3, h4, -⟩ := H.main hq ht hqu htu hn
  exact ⟨h3, h4⟩

/-- C105: `polymat_evaluate_braids_of_same_length` of GNFs in `LKBRep` returns their projectivised matrices. -/
theorem C105_same_length (hq : q.Trimmed) (ht : t.Trimmed) (hqu : q.isUnit = true) (htu : t.isUnit = true) (hn : 2 ≤ n) (hl : n < lim) (hp : p ≠ 1)
    (H : IsLKB n p q t rep ρ) (xs : List NF) (hne : xs ≠ []) (len : Nat) (hx : ∀ x ∈ xs, IsGNF lim ω n x ∧ NF.canonicalLength x = len) :
    ∃ A, rep.evalSame (GNF.tbl lim ω) xs = .ok A ∧ IsProjImage p A fun i => ρ (gnfBraid n xs[i]) := by
  obtain ⟨G, I, rfl, h2, -, h4, -⟩ := H.main hq ht hqu htu hn
  obtain ⟨tb, R⟩ := exists_greal lim ω hn hl
  obtain ⟨A, a1, a2, -⟩ := C55_same_length hn hl h2 h4 (dimension_pos hn) hp xs hne len hx
  exact ⟨A, by rw [RepBase.evalSame_pos (I := I) R.1.ok (fun w hw ie hie => by rw [gnf_words R.1.ok w hw ie hie]; omega)]; exact a1, a2⟩

/-- C105: `polymat_evaluate_braid`. -/
theorem C105_single (hq : q.Trimmed) (ht : t.Trimmed) (hqu : q.isUnit = true) (htu : t.isUnit = true) (hn : 2 ≤ n) (hl : n < lim) (hp : p ≠ 1)
    (H : IsLKB n p q t rep ρ) (x : NF) (hx : IsGNF lim ω n x) :
    ∃ A, rep.evalOne (GNF.tbl lim ω) x = .ok A ∧ IsProjImage p A fun _ => ρ (gnfBraid n x) := by
  obtain ⟨G, I, rfl, h2, -, h4, -⟩ := H.main hq ht hqu htu hn
  obtain ⟨tb, R⟩ := exists_greal lim ω hn hl
  obtain ⟨A, a1, a2⟩ := C55_single hn hl h2 h4 (dimension_pos hn) hp x hx
  refine ⟨A, ?_, a2⟩
  rw [RepBase.evalOne, RepBase.evalSame_pos (I := I) R.1.ok (fun w hw ie hie => by rw [gnf_words R.1.ok w hw ie hie]; omega)]
  exact a1

/-- C105: `polymat_evaluate_braid_integers_of_same_length(GNF, ...)`. -/
theorem C105_integers (hq : q.Trimmed) (ht : t.Trimmed) (hqu : q.isUnit = true) (htu : t.isUnit = true) (hn : 2 ≤ n) (hl : n < lim) (hp : p ≠ 1)
    (H : IsLKB n p q t rep ρ) (seqs : List (List Nat)) (hne : seqs ≠ []) (len : Nat) (h0 : 0 < len) (hs : ∀ s ∈ seqs, s.length = len ∧ ∀ f ∈ s, f < n.factorial) :
    ∃ A, rep.evalIntegers (GNF.tbl lim ω) seqs = .ok ⟨seqs.length, A⟩ ∧ IsProjImage p A fun i => ρ ((seqs[i].map fun f => lift (permAt n f)).prod) := by
  obtain ⟨G, I, rfl, h2, -, h4, -⟩ := H.main hq ht hqu htu hn
  obtain ⟨tb, R⟩ := exists_greal lim ω hn hl
  obtain ⟨A, a1, a2⟩ := (C55_integers (rep := ⟨n, p, G, I⟩) hn hl h2 (dimension_pos hn) hp seqs hne len hs).1 h0
  refine ⟨A, ?_, a2⟩
  rw [RepBase.evalIntegers_pos (I := I) R.1.ok (fun w hw ie hie => by rw [gnf_words R.1.ok w hw ie hie]; omega)]
  exact a1

/-! ### C106 -/

/-- C106, what happens: `evaluate_artin_word` ignores the signs of the exponents. -/
theorem C106_word_unsigned (hq : q.Trimmed) (ht : t.Trimmed) (hqu : q.isUnit = true) (htu : t.isUnit = true) (hn : 2 ≤ n) (hp : p ≠ 1)
    (H : IsLKB n p q t rep ρ) (w : List (Nat × ℤ)) (hw : ∀ se ∈ w, se.1 + 1 < n) :
    ∃ m, rep.evaluateArtinWord w = .ok m ∧ m.Shape (LKB.dimension n) (LKB.dimension n) ∧
      m.denMod p (LKB.dimension n) = ρ (wordBraid n (w.map fun se => (se.1, |se.2|))) := by
  obtain ⟨G, I, rfl, h2, -, h4, -⟩ := H.main hq ht hqu htu hn
  obtain ⟨m, m1, m2, m3, -⟩ := C53_word h2 (dimension_pos hn) hp (w.map fun se => (se.1, (se.2.natAbs : ℤ))) (by
    intro se hse
    obtain ⟨x, hx, rfl⟩ := List.mem_map.1 hse
    exact hw x hx)
  refine ⟨m, by rw [RepBase.evaluate_abs (I := I)]; exact m1, m2, ?_⟩
  rw [m3]
  simp only [Int.natCast_natAbs]

/-- C106, what holds: a word without negative exponents evaluates to the matrix of its braid.  Missing: words with negative exponents
(`C106_word_refuted`). -/
theorem C106_word_partial (hq : q.Trimmed) (ht : t.Trimmed) (hqu : q.isUnit = true) (htu : t.isUnit = true) (hn : 2 ≤ n) (hp : p ≠ 1)
    (H : IsLKB n p q t rep ρ) (w : List (Nat × ℤ)) (hw : ∀ se ∈ w, se.1 + 1 < n ∧ 0 ≤ se.2) :
    ∃ m, rep.evaluateArtinWord w = .ok m ∧ m.Shape (LKB.dimension n) (LKB.dimension n) ∧ m.denMod p (LKB.dimension n) = ρ (wordBraid n w) := by
  obtain ⟨m, m1, m2, m3⟩ := C106_word_unsigned hq ht hqu htu hn hp H w fun se h => (hw se h).1
  refine ⟨m, m1, m2, m3.trans ?_⟩
  congr 2
  conv_rhs => rw [← List.map_id w]
  exact List.map_congr_left fun se hse => by rw [abs_of_nonneg (hw se hse).2]; rfl

/-- C106, what holds: `evaluate` of a permutation is the matrix of its positive lift. -/
theorem C106_permutation (hq : q.Trimmed) (ht : t.Trimmed) (hqu : q.isUnit = true) (htu : t.isUnit = true) (hn : 2 ≤ n) (hp : p ≠ 1)
    (H : IsLKB n p q t rep ρ) (π : Perm (Fin n)) :
    ∃ m, rep.evaluatePerm (wordOf π) = .ok m ∧ m.Shape (LKB.dimension n) (LKB.dimension n) ∧ m.denMod p (LKB.dimension n) = ρ (lift π) := by
  obtain ⟨w, w1, w2⟩ := shortlex_spec π
  have hp' := w1.prod
  obtain ⟨m, h1, h2, h3⟩ := C106_word_partial hq ht hqu htu hn hp H (w.map fun s => (s, 1)) (by
    intro se hse; obtain ⟨s, hs, rfl⟩ := List.mem_map.1 hse; exact ⟨hp'.2.2 s hs, by simp⟩)
  refine ⟨m, by rw [RepBase.evaluatePerm, Perms.artinWord, w2]; simpa [bind_ok] using h1, h2, ?_⟩
  rw [h3, lift_eq_posWord (w := w) ⟨hp'.2.2, by rw [hp'.1, _root_.inv_inv], by rw [hp'.2.1, inv_inv]⟩]
  simp [wordBraid, posWord, Function.comp_def]

theorem wordBraid_ones (w : List (Nat × ℤ)) (h : ∀ se ∈ w, se.2 = 1) : wordBraid n w = posWord n (w.map (·.1)) := by
  rw [wordBraid, posWord, List.map_map]
  congr 1
  exact List.map_congr_left fun se hse => by rw [h se hse]; simp

/-- C106, what holds for GNFs: `evaluate` is the matrix of the braid times `(t² q^(2n))^k`, where `k` is the number of inverse half twists:
right if the power of `Δ` is not negative (`C106_evaluate_partial`), right up to a power of `v` always. -/
theorem C106_evaluate_scalar (hq : q.Trimmed) (ht : t.Trimmed) (hqu : q.isUnit = true) (htu : t.isUnit = true) (hn : 2 ≤ n) (hl : n < lim) (hp : p ≠ 1)
    (H : IsLKB n p q t rep ρ) (x : NF) (hx : IsGNF lim ω n x) :
    ∃ m, rep.evaluate (GNF.tbl lim ω) x = .ok m ∧ m.Shape (LKB.dimension n) (LKB.dimension n) ∧
      m.denMod p (LKB.dimension n) = LPoly.red p ((t.den ^ 2 * q.den ^ (2 * n)) ^ (-x.power).toNat) • ρ (gnfBraid n x) := by
  obtain ⟨tb, R⟩ := exists_greal lim ω hn hl
  have hv := R.isGNF_iff.1 hx
  have hones := gnf_words R.1.ok
  obtain ⟨d, d1, d2, d3⟩ := R.1.words tb.D R.1.spec.D_lt
  rw [R.1.spec.v_D] at d3
  have hd1 := hones d (RepBase.lookup_mem d1)
  obtain ⟨ws, w1, w2, w3⟩ := R.1.words_list hv.inR
  have hws : ∀ se ∈ ws.flatten, se.2 = 1 := by
    intro se hse
    obtain ⟨l, hl, hse⟩ := List.mem_flatten.1 hse
    obtain ⟨f, -, e⟩ := mem_mapM_ok w1 l hl
    exact hones l (RepBase.lookup_mem e) se hse
  obtain ⟨w, hw⟩ : ∃ w, NF.artinWord (GNF.tbl lim ω) x = .ok w := (R.1.artinWord_spec hv).imp fun _ h => h.1
  have hw' := hw
  simp only [NF.artinWord, hv.n_eq, R.1.ok, bind_ok, d1, w1, Except.ok.injEq] at hw'
  obtain ⟨u, u1, u2, u3⟩ := R.1.artinWord_spec hv
  rw [hw, Except.ok.injEq] at u1
  obtain ⟨m, m1, m2, m3⟩ := C106_word_unsigned hq ht hqu htu hn hp H w fun se h => (u2 se (u1 ▸ h)).2
  refine ⟨m, by rw [RepBase.evaluate, hw, bind_ok, m1], m2, ?_⟩
  rw [m3]
  obtain ⟨e3, -⟩ := C105_full_twist hq ht hqu htu hn H
  have hrest : wordBraid n ((ws.flatten).map fun se => (se.1, |se.2|)) = ((x.factors.map (permAt n)).map lift).prod := by
    rw [← w3]
    congr 1
    conv_rhs => rw [← List.map_id ws.flatten]
    exact List.map_congr_left fun se hse => by rw [hws se hse]; rw [abs_one]; exact Prod.ext rfl (hws se hse).symm
  have hD : lift (permGerm n).D = halfTwist n := rfl
  have habs : ∀ l : List (Nat × ℤ), (∀ se ∈ l, se.2 = 1) → l.map (fun se => (se.1, |se.2|)) = l := fun l hl => by
    conv_rhs => rw [← List.map_id l]
    exact List.map_congr_left fun se hse => by rw [hl se hse, abs_one]; exact Prod.ext rfl (hl se hse).symm
  have hdelta : wordBraid n (((if x.power < 0 then d.reverse.map fun se => (se.1, -se.2) else d)).map fun se => (se.1, |se.2|)) = halfTwist n := by
    split
    · rw [List.map_map]
      have : ((fun se : Nat × ℤ => (se.1, |se.2|)) ∘ fun se : Nat × ℤ => (se.1, -se.2)) = fun se : Nat × ℤ => (se.1, |se.2|) := by
        funext se; simp
      rw [this, habs _ (fun se hse => hd1 se (List.mem_reverse.1 hse)), wordBraid_ones _ (fun se hse => hd1 se (List.mem_reverse.1 hse)), List.map_reverse]
      refine posWord_reverse_half (by omega) _ (fun s hs => ?_) ?_
      · obtain ⟨se, hse, rfl⟩ := List.mem_map.1 hs
        exact (d2 se hse).2
      · rw [← wordBraid_ones d hd1, d3, hD]
    · rw [habs d hd1, d3, hD]
  rw [← hw', List.map_append, NFReal.wordBraid_append, hrest, List.map_flatten, List.map_replicate, NFReal.wordBraid_rep, hdelta, gnfBraid, List.map_map]
  rw [show (lift ∘ permAt n) = fun f => lift (permAt n f) from rfl]
  by_cases hx0 : 0 ≤ x.power
  · rw [show (-x.power).toNat = 0 by omega, pow_zero, map_one, one_smul, ← zpow_natCast, Int.natAbs_of_nonneg hx0]
  · obtain ⟨k, hk⟩ : ∃ k : Nat, x.power = -(k : ℤ) := ⟨x.power.natAbs, by omega⟩
    rw [hk, show (-(-(k : ℤ))).toNat = k by omega, show (-(k : ℤ)).natAbs = k by omega]
    have : halfTwist n ^ k = (halfTwist n ^ 2) ^ k * halfTwist n ^ (-(k : ℤ)) := by
      rw [← pow_mul, ← zpow_natCast, ← zpow_natCast, ← zpow_add]; congr 1; push_cast; ring
    rw [this, mul_assoc, map_mul, map_pow, e3, smul_pow, one_pow, smul_mul_assoc, one_mul, map_pow]

/-- C106, what holds: `evaluate` of a GNF with a non-negative power of `Δ` is its matrix.  Missing: negative powers (`C106_evaluate_refuted`). -/
theorem C106_evaluate_partial (hq : q.Trimmed) (ht : t.Trimmed) (hqu : q.isUnit = true) (htu : t.isUnit = true) (hn : 2 ≤ n) (hl : n < lim) (hp : p ≠ 1)
    (H : IsLKB n p q t rep ρ) (x : NF) (hx : IsGNF lim ω n x) (hx0 : 0 ≤ x.power) :
    ∃ m, rep.evaluate (GNF.tbl lim ω) x = .ok m ∧ m.Shape (LKB.dimension n) (LKB.dimension n) ∧ m.denMod p (LKB.dimension n) = ρ (gnfBraid n x) := by
  obtain ⟨m, m1, m2, m3⟩ := C106_evaluate_scalar hq ht hqu htu hn hl hp H x hx
  refine ⟨m, m1, m2, ?_⟩
  rw [m3, show (-x.power).toNat = 0 by omega, pow_zero, map_one, one_smul]

/-- C106 is false for negative powers of `Δ`: unless `t² q^(2n)` has the right order, `evaluate(x)` is not the matrix of `x`. -/
theorem C106_evaluate_refuted (hq : q.Trimmed) (ht : t.Trimmed) (hqu : q.isUnit = true) (htu : t.isUnit = true) (hn : 2 ≤ n) (hl : n < lim) (hp : p ≠ 1)
    (H : IsLKB n p q t rep ρ) (x : NF) (hx : IsGNF lim ω n x) (hne : LPoly.red p ((t.den ^ 2 * q.den ^ (2 * n)) ^ (-x.power).toNat) ≠ 1) :
    ∃ m, rep.evaluate (GNF.tbl lim ω) x = .ok m ∧ m.denMod p (LKB.dimension n) ≠ ρ (gnfBraid n x) := by
  obtain ⟨m, m1, m2, m3⟩ := C106_evaluate_scalar hq ht hqu htu hn hl hp H x hx
  refine ⟨m, m1, fun h => hne ?_⟩
  rw [m3] at h
  have h2 := congrArg (· * ρ (gnfBraid n x)⁻¹) h
  simp only [smul_mul_assoc, ← map_mul, mul_inv_cancel, map_one] at h2
  have h3 := congrFun (congrFun h2 ⟨0, dimension_pos hn⟩) ⟨0, dimension_pos hn⟩
  simpa using h3

/-- C106 is false for words with a negative letter: `[(s, -1)]` does not evaluate to the inverse of the generator unless `(t q²)² = 1`. -/
theorem C106_word_refuted (hq : q.Trimmed) (ht : t.Trimmed) (hqu : q.isUnit = true) (htu : t.isUnit = true) (hn : 2 ≤ n) (hp : p ≠ 1)
    (H : IsLKB n p q t rep ρ) (hne : LPoly.red p ((t.den * q.den ^ 2) ^ 2) ≠ 1) (s : Nat) (hs : s + 1 < n) :
    ∃ m, rep.evaluateArtinWord [(s, -1)] = .ok m ∧ m.denMod p (LKB.dimension n) ≠ ρ (sigma n s)⁻¹ := by
  obtain ⟨m, m1, m2, m3⟩ := C106_word_unsigned hq ht hqu htu hn hp H [(s, -1)] (by simpa using hs)
  obtain ⟨G, I, rfl, h2, -, h4, h5⟩ := H.main hq ht hqu htu hn
  refine ⟨m, m1, fun h => hne ?_⟩
  rw [m3] at h
  simp only [wordBraid, List.map_cons, List.map_nil, List.prod_cons, List.prod_nil, mul_one, abs_neg, abs_one, zpow_one] at h
  obtain ⟨v, ⟨a, ha⟩, hv⟩ := h5 s hs
  have h6 := congrArg (fun M => (ρ (sigma n s) * M).mulVec v) h
  simp only [← map_mul, mul_inv_cancel, map_one, _root_.Matrix.one_mulVec] at h6
  rw [map_mul, ← _root_.Matrix.mulVec_mulVec, hv, _root_.Matrix.mulVec_smul, hv, smul_smul] at h6
  have h7 := congrFun h6 a
  simp only [Pi.smul_apply, ha, smul_eq_mul, mul_one] at h7
  rw [map_pow, pow_two]; exact h7

/-- C106 is false for noncrossing partitions: `a_{02}` in `B_3` is spelled with an inverse letter, so `LKBRep(3, p, q, t).evaluate` of it is
not the matrix of the band generator unless `(t q²)² = 1`. -/
theorem C106_dual_refuted (hq : q.Trimmed) (ht : t.Trimmed) (hqu : q.isUnit = true) (htu : t.isUnit = true) (hp : p ≠ 1)
    {rep : RepBase (LKB.dimension 3)} {ρ : Braid 3 →* LMat p (LKB.dimension 3)}
    (H : IsLKB 3 p q t rep ρ) (hne : LPoly.red p ((t.den * q.den ^ 2) ^ 2) ≠ 1) :
    ∃ m x, NPar.fromComponents 3 [[0, 2], [1]] = .ok x ∧ rep.evaluateNPar x = .ok m ∧ m.denMod p (LKB.dimension 3) ≠ ρ (band 3 0 2) := by
  obtain ⟨m, m1, m2, m3⟩ := C106_word_unsigned hq ht hqu htu (by omega : 2 ≤ 3) hp H [(1, 1), (0, 1), (1, -1)] (by simp)
  obtain ⟨G, I, rfl, h2, -, h4, h5⟩ := H.main hq ht hqu htu (by omega)
  have hx : NPar.fromComponents 3 [[0, 2], [1]] = .ok ⟨3, [5, 4, 3, 2, 1, 0]⟩ := by decide +kernel
  have hw : (⟨3, [5, 4, 3, 2, 1, 0]⟩ : NPar).artinWord = .ok [(1, 1), (0, 1), (1, -1)] := by decide +kernel
  refine ⟨m, _, hx, by rw [RepBase.evaluateNPar, hw, bind_ok, m1], fun h => hne ?_⟩
  have e : band 3 0 2 = sigma 3 1 * sigma 3 0 * (sigma 3 1)⁻¹ := rfl
  rw [m3, e] at h
  simp only [wordBraid, List.map_cons, List.map_nil, List.prod_cons, List.prod_nil, mul_one, abs_neg, abs_one, zpow_one] at h
  obtain ⟨v, ⟨a, ha⟩, hv⟩ := h5 1 (by omega)
  have h6 := congrArg (fun M => (ρ (sigma 3 1) * (ρ (sigma 3 1 * sigma 3 0)⁻¹ * M)).mulVec v) h
  simp only [← map_mul] at h6
  rw [show sigma 3 1 * ((sigma 3 1 * sigma 3 0)⁻¹ * (sigma 3 1 * (sigma 3 0 * sigma 3 1))) = sigma 3 1 * sigma 3 1 by group,
    show sigma 3 1 * ((sigma 3 1 * sigma 3 0)⁻¹ * (sigma 3 1 * sigma 3 0 * (sigma 3 1)⁻¹)) = 1 by group, map_one, _root_.Matrix.one_mulVec] at h6
  rw [map_mul, ← _root_.Matrix.mulVec_mulVec, hv, _root_.Matrix.mulVec_smul, hv, smul_smul] at h6
  have h7 := congrFun h6 a
  simp only [Pi.smul_apply, ha, smul_eq_mul, mul_one] at h7
  rw [map_pow, pow_two]; exact h7

/-- The hypotheses are met by `LKBRep(4, 0, v^7, v^5)` and every GNF with a negative power of `Δ`. -/
example : ∃ q t : LPoly, ∃ rep ρ, q = LPoly.make 7 [1] ∧ t = LPoly.make 5 [1] ∧ q.Trimmed ∧ t.Trimmed ∧ q.isUnit = true ∧ t.isUnit = true ∧ IsLKB 4 0 q t rep ρ ∧
    (∀ k, 0 < k → LPoly.red 0 ((t.den ^ 2 * q.den ^ (2 * 4)) ^ k) ≠ 1) ∧ LPoly.red 0 ((t.den * q.den ^ 2) ^ 2) ≠ 1 := by
  have e : ∀ k : ℤ, (LPoly.make k [1]).den = T k := fun k => by rw [LPoly.den_make]; simp [listPoly]
  have hT : ∀ k : ℤ, k ≠ 0 → LPoly.red 0 (T k) ≠ 1 := fun k hk h => by
    rw [red_T, ← T_zero] at h
    have h2 := congrArg LaurentPolynomial.degree h
    have : Nontrivial (ZMod 0) := inferInstanceAs (Nontrivial ℤ)
    rw [degree_T, degree_T] at h2
    exact hk (by exact_mod_cast h2)
  obtain ⟨rep, ρ, H⟩ := C105_exists (LPoly.trimmed_make 7 [1]) (LPoly.trimmed_make 5 [1]) (by decide +kernel) (by decide +kernel) (by omega : 2 ≤ 4) 0
  refine ⟨_, _, rep, ρ, rfl, rfl, LPoly.trimmed_make _ _, LPoly.trimmed_make _ _, by decide +kernel, by decide +kernel, H, fun k hk => ?_, ?_⟩
  · rw [e, e, T_pow, T_pow, ← T_add, T_pow]
    exact hT _ (by simp; omega)
  · rw [e, e, T_pow, ← T_add, T_pow]
    exact hT _ (by norm_num)

end Peyl
