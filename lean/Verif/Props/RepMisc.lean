import Verif.Props.PolymatWord
import Verif.Props.TLAlgebra
/-!
# Identity matrices, `polymat_evaluate` of a noncrossing partition (C53, C55, C104), and `TLCell.project_vector` (C121)
-/
namespace Peyl
open LaurentPolynomial Polymat BraidSearch Bucketing Perms Equiv
variable {d : Nat} {rep : RepBase d} {ρ : Braid rep.n →* LMat rep.p d}

/-- C53: `id()` is the identity matrix of the size of the representation: the image of the trivial braid. -/
theorem C53_id (rep : RepBase d) (ρ : Braid rep.n →* LMat rep.p d) : rep.idMatrix.Shape d d ∧ rep.idMatrix.den d d = 1 ∧
    rep.idMatrix.denMod rep.p d = ρ 1 := by
  have h : rep.idMatrix.den d d = 1 := Matrix.den_identity d
  refine ⟨Matrix.shape_identity d, h, ?_⟩
  rw [map_one, Matrix.denMod, h]
  simp

/-- C55: `polymat_id()` is the projectivised matrix of the trivial braid, in the single degree 0. -/
theorem C55_id (rep : RepBase d) (ρ : Braid rep.n →* LMat rep.p d) (hd : 0 < d) (hp : rep.p ≠ 1) : rep.polymatId.length = 1 ∧ IsProjImage rep.p rep.polymatId fun _ => ρ 1 := by
  have hs : ∀ a, slice rep.polymatId 0 a ≠ 0 := by
    intro a e
    have := congrFun (congrFun e ⟨0, hd⟩) ⟨0, hd⟩
    simp [slice, RepBase.polymatId] at this
  refine ⟨rfl, hs, ⟨(), hs ()⟩, RepBase.reduced_eye hp, fun a => ⟨0, ?_⟩⟩
  rw [map_one, T_zero, one_smul]
  exact denMod_eye

/-- C104, what holds, for noncrossing partitions: the image of the simple dual braid. -/
theorem C104_npar_partial (hn : 2 ≤ rep.n) (H : Realises rep ρ) (hd : 0 < d) (hp : rep.p ≠ 1) (hpoly : ∀ m ∈ rep.gens ++ rep.invs, m.IsPolynomial d)
    (q : NPar) (hq : q.Ok) (hqn : q.n = rep.n) :
    ∃ (π : Perm (Fin rep.n)) (A : Img d), q.toPermutation = .ok (wordOf π) ∧ rep.polymatEvaluateNPar q = .ok A ∧ IsProjImage rep.p A fun _ => ρ (dlift π) := by
  have key : ∀ n (w : List (Nat × ℤ)) (q : NPar), q.Ok → q.n = n → ∃ (π : Perm (Fin n)) (w : List (Nat × ℤ)), q.toPermutation = .ok (wordOf π) ∧ q.artinWord = .ok w ∧
      (∀ se ∈ w, se.1 + 1 < n) ∧ wordBraid n w = dlift π := by
    rintro _ - q hq rfl
    obtain ⟨x, hx, e⟩ := exists_nparOf hq
    obtain ⟨w, w1, w2, w3⟩ := npar_artinWord hx
    have h1 : ∀ r : NPar, r = nparOf x → r.toPermutation = .ok (wordOf x) ∧ r.artinWord = .ok w := by rintro r rfl; exact ⟨toPermutation_eq x, w1⟩
    exact ⟨x, w, (h1 q e).1, (h1 q e).2, fun se hse => (w2 se hse).2, w3⟩
  obtain ⟨π, w, k1, k2, k3, k4⟩ := key rep.n [] q hq hqn
  obtain ⟨A, h1, h2⟩ := C104_word_partial hn H hd hp hpoly w k3
  exact ⟨π, A, k1, by rw [RepBase.polymatEvaluateNPar, k2, bind_ok, h1], by simpa only [k4] using h2⟩

/-! ## C121: `TLCell.project_vector` -/

/-- C121 is refuted: for `r ≥ 1` a vector of `TL(n, n - 2r)`, in which the cell module lies, is always refused, because the number of its lower
points is compared with the number of upper points of the cell. -/
theorem C121_refuted (n r : Nat) (h1 : 1 ≤ r) (h : 2 * r ≤ n) (m : TLMor) (_ht : m.top = n) (hb : m.bot = n - 2 * r) :
    ∃ c, TLCell.make n r = .ok c ∧ c.projectVector m = .error .assertion := by
  refine ⟨⟨n, r⟩, by rw [TLCell.make, pyAssert, if_pos (by simp; omega)]; rfl, ?_⟩
  have : ¬ ((m.bot : Int) == (n : Int)) = true := by simp; omega
  rw [TLCell.projectVector, pyAssert, if_neg this]
  rfl

/-- C121, what holds: for `r = 0` the projection of a morphism onto the cell module is returned: its coefficients at the diagrams of the basis are kept, the
others are dropped. -/
theorem C121_trivial_partial (n : Nat) (m : TLMor) (hm : m.WF) (ht : m.top = n) (hb : m.bot = n) :
    ∃ c B q, TLCell.make n 0 = .ok c ∧ c.basisDiagrams = .ok B ∧ c.projectVector m = .ok q ∧ q.WF ∧ q.top = n ∧ q.bot = n ∧
      ∀ d, q.coef d = if d ∈ B then m.coef d else 0 := by
  obtain ⟨B, b1, -, -, b4, -, -⟩ := C51_cell_basis n 0 (by omega)
  obtain ⟨q, q1, q2, q3, q4, q5⟩ := TLMor.quotient_spec hm n
  refine ⟨⟨n, 0⟩, B, q, by rw [TLCell.make, pyAssert, if_pos (by simp)]; rfl, by simpa [TLCell.basisDiagrams] using b1, ?_, q2, by rw [q3, ht], by rw [q4, hb], fun d => ?_⟩
  · have : ((m.bot : Int) == (n : Int)) = true := by simp [hb]
    rw [TLCell.projectVector, pyAssert, if_pos this]
    simpa [bind_ok] using q1
  · rw [q5]
    by_cases h0 : m.coef d = 0
    · simp [h0]
    · obtain ⟨t1, t2, t3⟩ := TLMor.coef_ne_zero_type hm h0
      have hle : d.through ≤ n := by
        rw [← hb, ← t2]
        exact (Finset.card_filter_le _ _).trans (by simp)
      have : n ≤ d.through ↔ d ∈ B := by
        rw [b4]
        constructor
        · intro hd
          exact ⟨by omega, by omega, t3, by omega⟩
        · rintro ⟨-, -, -, e⟩; omega
      simp only [this]

/-- C121, what `project_vector` does to a morphism with `n` lower points: the terms with fewer than `n - 2r` through strands are dropped. Other morphisms are
refused. -/
theorem C121_terms_partial (n r : Nat) (h : 2 * r ≤ n) (m : TLMor) (hm : m.WF) :
    ∃ c, TLCell.make n r = .ok c ∧ (m.bot ≠ n → c.projectVector m = .error .assertion) ∧
      (m.bot = n → ∃ q, c.projectVector m = .ok q ∧ q.WF ∧ q.top = m.top ∧ q.bot = n ∧ ∀ d, q.coef d = if n - 2 * r ≤ d.through then m.coef d else 0) := by
  refine ⟨⟨n, r⟩, by rw [TLCell.make, pyAssert, if_pos (by simp; omega)]; rfl, fun hb => ?_, fun hb => ?_⟩
  · have : ¬ ((m.bot : Int) == (n : Int)) = true := by simpa using hb
    rw [TLCell.projectVector, pyAssert, if_neg this]
    rfl
  · obtain ⟨q, q1, q2, q3, q4, q5⟩ := TLMor.quotient_spec hm (n - 2 * r)
    refine ⟨q, ?_, q2, q3, by rw [q4, hb], q5⟩
    have : ((m.bot : Int) == (n : Int)) = true := by simp [hb]
    rw [TLCell.projectVector, pyAssert, if_pos this]
    have e : ((n : Int) - 2 * (r : Int)).toNat = n - 2 * r := by omega
    show TLMor.quotient m ((n : Int) - 2 * (r : Int)).toNat = _
    rw [e, q1]

/-- C121, the projection itself: `quotient(n - 2r)` of a vector of `TL(n, n - 2r)` keeps its coefficients at the diagrams of the basis and drops
the others. -/
theorem C121_quotient_partial (n r : Nat) (h : 2 * r ≤ n) (m : TLMor) (hm : m.WF) (ht : m.top = n) (hb : m.bot = n - 2 * r) :
    ∃ c B q, TLCell.make n r = .ok c ∧ c.basisDiagrams = .ok B ∧ TLMor.quotient m (n - 2 * r) = .ok q ∧ q.WF ∧ q.top = n ∧ q.bot = n - 2 * r ∧
      ∀ d, q.coef d = if d ∈ B then m.coef d else 0 := by
  obtain ⟨B, b1, -, -, b4, -, -⟩ := C51_cell_basis n r h
  obtain ⟨q, q1, q2, q3, q4, q5⟩ := TLMor.quotient_spec hm (n - 2 * r)
  refine ⟨⟨n, r⟩, B, q, by rw [TLCell.make, pyAssert, if_pos (by simp; omega)]; rfl, by simpa [TLCell.basisDiagrams] using b1, q1, q2, by rw [q3, ht], by rw [q4, hb], fun d => ?_⟩
  rw [q5]
  by_cases h0 : m.coef d = 0
  · simp [h0]
  · obtain ⟨t1, t2, t3⟩ := TLMor.coef_ne_zero_type hm h0
    have hle : d.through ≤ n - 2 * r := by
      rw [← hb, ← t2]
      exact (Finset.card_filter_le _ _).trans (by simp)
    have : n - 2 * r ≤ d.through ↔ d ∈ B := by
      rw [b4]
      constructor
      · intro hd
        exact ⟨by omega, by omega, t3, by omega⟩
      · rintro ⟨-, -, -, e⟩; omega
    simp only [this]

/-- A vector of the cell `(3, 1)` is refused. -/
example : (do
    let v ← TLMor.make 3 1 [(⟨3, 1, [1, 0, 3, 2]⟩, ⟨0, [1]⟩)]
    let c ← TLCell.make 3 1
    c.projectVector v) = .error .assertion := by decide +kernel

/-- An endomorphism of three strands loses its identity term or not. -/
example : (do
    let e ← TLMor.e 0 3
    let c ← TLCell.make 3 0
    c.projectVector e) = .ok ⟨3, 3, []⟩ := by decide +kernel

end Peyl
