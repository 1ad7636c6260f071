import Verif.Lemmas.JonesSummand
import Verif.Props.Rep
/-!
# The Jones cell representations (C52, C54)
-/
namespace Peyl
open LaurentPolynomial TL Jones BraidSearch

/-! ### C52 -/

/-- C52: `JonesCellRep(n, r, p).artin_gens_invs()` succeeds (so the assertion in `tl_gens_invs` does not fire) and its matrices
satisfy Artin's relations and are inverse to each other, modulo `p` (over ℤ for `p = 0`). -/
theorem C52_relations (n r p : Nat) (hn : 1 ≤ n) (h : 2 * r ≤ n) : ∃ rep, cellRep n r p = .ok rep ∧ rep.n = n ∧ rep.p = p ∧ rep.Relations :=
  cellRep_relations hn h

/-- C52: the constructor rejects other parameters. -/
theorem C52_rejects (n r p : Nat) (h : n = 0 ∨ n < 2 * r) : cellRep n r p = .error .assertion := by
  rw [cellRep]
  rcases h with rfl | h
  · rfl
  · by_cases hn : 1 ≤ n
    · rw [pyAssert, if_pos (by simpa using hn), bind_ok, pyAssert, if_neg (by simpa using h)]; rfl
    · rw [pyAssert, if_neg (by simpa using hn)]; rfl

/-- C52: `tl_gens_invs(n)` returns `1 - v e_i` and `1 - v^-1 e_i`, and these are inverse to each other in `TL(n, n)`. -/
theorem C52_tl_gens_invs (n : Nat) : ∃ gens invs, tlGensInvs n = .ok (gens, invs) ∧ gens.length = n - 1 ∧ invs.length = n - 1 ∧
    ∀ i (h : i < gens.length) (h' : i < invs.length), gens[i].WF ∧ invs[i].WF ∧ TLMor.mul gens[i] invs[i] = TLMor.id n ∧
      ∀ e u : TLMor, TLMor.e i n = .ok e → TLMor.id n = .ok u → ∀ d, gens[i].coef d = u.coef d - T 1 * e.coef d ∧ invs[i].coef d = u.coef d - T (-1) * e.coef d := by
  obtain ⟨g, g', h1, h2⟩ := tlGensInvs_spec n
  refine ⟨_, _, h1, by simp, by simp, fun i hi hi' => ?_⟩
  simp only [List.length_map, List.length_range] at hi
  simp only [List.getElem_map, List.getElem_range]
  obtain ⟨a, b⟩ := h2 i (by omega)
  have hTT : (T 1 : ℤ[T;T⁻¹]) * T (-1) = 1 := by rw [← T_add]; simp
  refine ⟨a.wf, b.wf, ?_, fun e u he hu d => ?_⟩
  · exact TLMor.gen_mul_inv (i := i) (n := n) (by omega) (x := -T 1) (y := -T (-1)) (by rw [neg_mul_neg, hTT]) (by ring) a.wf b.wf ⟨a.top, a.bot⟩ ⟨b.top, b.bot⟩ a.coef b.coef
  · obtain ⟨e', e1, -, -, -, e5⟩ := TLMor.e_spec (i := i) (n := n) (by omega)
    obtain ⟨u', u1, -, -, -, u5⟩ := TLMor.id_spec n
    rw [he] at e1; cases e1
    rw [hu] at u1; cases u1
    rw [a.coef, b.coef, e5, u5]
    simp only [List.map_cons, List.map_nil, List.sum_cons, List.sum_nil, add_zero]
    constructor <;> (split_ifs <;> simp <;> ring)

/-- C52: `cell_matrix` is the matrix of the action on the span of the cell diagrams modulo diagrams with fewer through strands:
its entry `(i, j)` is the coefficient of the `i`-th basis diagram in the product of the morphism with the `j`-th one. -/
theorem C52_cell_matrix {m : TLMor} (hm : m.WF) {n r : Nat} (ht : m.top = n) (hb : m.bot = n) (h : 2 * r ≤ n) :
    ∃ B M, cellBasis n r = .ok B ∧ cellMatrix m r = .ok M ∧ M.Shape B.length B.length ∧
      ∀ i j : Fin B.length, ∃ x, TLMor.mulDiag m B[j] = .ok x ∧ M.den B.length B.length i j = x.coef B[i] := by
  obtain ⟨B, b1, b2, b3, b4, b5⟩ := cellBasis_spec n r h
  obtain ⟨M, m1, m2, m3, m4⟩ := cellMatrix_spec hm ht hb b1 (fun d hd => (b4 d).1 hd) (dimension_pos h b4)
  refine ⟨B, M, b1, m1, m2, fun i j => ?_⟩
  obtain ⟨h1, h2, h3⟩ := (b4 B[j]).1 (List.getElem_mem _)
  have hok : B[j].Ok := ⟨by rw [h3.len, h1, h2], h3.nc⟩
  obtain ⟨s, s1, s2, s3, s4, s5⟩ := TLMor.fromDiag_spec hok
  obtain ⟨x, x1, x2, x3, x4, x5⟩ := TLMor.mul_coef hm s2 (by rw [s3, hb, h1])
  refine ⟨x, by rw [TLMor.mulDiag, s1, bind_ok, x1], ?_⟩
  rw [m4, x5, coeffOn]
  congr 1
  funext y
  rw [TLMor.ev_single s5]

/-- C52 with C53: in `JonesCellRep(n, r, p)` words of the same braid evaluate to the same matrix, and products and inverses of braids
go to products and inverses of matrices. -/
theorem C52_evaluate (n r p : Nat) (hn : 1 ≤ n) (h : 2 * r ≤ n) (hp : p ≠ 1) :
    ∃ (rep : RepBase (dimension n r)) (ρ : Braid n →* LMat p (dimension n r)), cellRep n r p = .ok rep ∧ 0 < dimension n r ∧
      ∀ w : List (Nat × ℤ), (∀ se ∈ w, se.1 + 1 < n) → ∃ m, rep.evaluateArtinWord w = .ok m ∧ m.Shape (dimension n r) (dimension n r) ∧
        m.denMod p (dimension n r) = ρ (wordBraid n w) := by
  obtain ⟨ρ, G, I, h1, h2, h3, h4, h5⟩ := jones_main n r p hn h
  refine ⟨_, ρ, h1, h3, fun w hw => ?_⟩
  obtain ⟨m, m1, m2, m3, -⟩ := C53_word h2 h3 hp w hw
  exact ⟨m, m1, m2, m3⟩

/-- Non-trivial: the Burau representation of `B_3` (`r = 1`) has dimension 2, the 4-strand `r = 2` one as well. -/
example : dimension 3 1 = 2 ∧ dimension 4 2 = 2 ∧ dimension 6 3 = 5 := by decide

/-! ### C54 -/

/-- C54: in the cell representation `(n - r, r)` the full twist is the scalar `v^(2r(n-r+1))`. -/
theorem C54_full_twist (n r p : Nat) (hn : 1 ≤ n) (h : 2 * r ≤ n) (hp : p ≠ 1) :
    ∃ rep : RepBase (dimension n r), cellRep n r p = .ok rep ∧ ∀ w : List (Nat × ℤ), (∀ se ∈ w, se.1 + 1 < n) → wordBraid n w = halfTwist n ^ 2 →
      ∃ m, rep.evaluateArtinWord w = .ok m ∧ m.denMod p (dimension n r) = (T (2 * r * (n - r + 1) : Nat) : (ZMod p)[T;T⁻¹]) • 1 := by
  obtain ⟨ρ, G, I, h1, h2, h3, h4, h5⟩ := jones_main n r p hn h
  refine ⟨_, h1, fun w hw e => ?_⟩
  obtain ⟨m, m1, m2, m3, -⟩ := C53_word h2 h3 hp w hw
  exact ⟨m, m1, by rw [m3, e]; exact h4⟩

example := C54_full_twist 6 2 5 (by decide) (by decide) (by decide)

/-- C54: hence the hypotheses of the evaluation theorems C53 and C55 and of the search theorems C69-C72 hold for every Jones
representation: `JonesCellRep(n, r, p)` and `JonesSummand(n, r, p)` realise the same representation of the braid group, and the
full twist acts by a power of `v`. -/
theorem C54_hypotheses (n r p : Nat) (hn : 2 ≤ n) (h : 2 * r ≤ n) : ∃ (ρ : Braid n →* LMat p (dimension n r)) (G I : List Matrix) (gs : List (Img (dimension n r))),
    cellRep n r p = .ok ⟨n, p, G, I⟩ ∧ Realises (⟨n, p, G, I⟩ : RepBase (dimension n r)) ρ ∧
    summand n r p = .ok ⟨n, p, gs⟩ ∧ SummandRealises (⟨n, p, gs⟩ : BraidSearch.Summand (dimension n r)) ρ ∧
    FullTwistScalar ρ ∧ 0 < dimension n r := by
  obtain ⟨ρ, G, I, h1, h2, h3, h4, h5⟩ := jones_main n r p (by omega) h
  obtain ⟨gs, g1, g2⟩ := h5 hn
  exact ⟨ρ, G, I, gs, h1, h2, g1, g2, ⟨_, h4⟩, h3⟩

/-- C54: `symmetric_table` of a `JonesSummand` never fails: its assertion that `Δ²` is projectively the identity holds. -/
theorem C54_symmetric_table (n r p : Nat) (hn : 2 ≤ n) (h : 2 * r ≤ n) (hp : p ≠ 1) :
    ∃ (sm : BraidSearch.Summand (dimension n r)) (ρ : Braid n →* LMat p (dimension n r)) (tab : _), summand n r p = .ok sm ∧ sm.table = .ok tab ∧
      ∀ π : Equiv.Perm (Fin n), ∃ A, Dict.get tab (wordOf π) = .ok A ∧ IsProjImage p A fun _ => ρ (lift π) := by
  obtain ⟨ρ, G, I, gs, -, -, g1, g2, hF, hd⟩ := C54_hypotheses n r p hn h
  obtain ⟨tab, t1, t2⟩ := C55_symmetric_table g2 hF hd hp
  exact ⟨_, ρ, tab, g1, t1, t2⟩

example := C54_symmetric_table 6 2 5 (by decide) (by decide) (by decide)

/-- C54: the bulk evaluators agree with `evaluate` on the Jones representations. -/
theorem C54_same_length {lim : Nat} {ω : List Nat → List Nat → Nat → Nat} (n r p : Nat) (hn : 2 ≤ n) (hl : n < lim) (h : 2 * r ≤ n) (hp : p ≠ 1)
    (xs : List NF) (hne : xs ≠ []) (len : Nat) (hx : ∀ x ∈ xs, IsGNF lim ω n x ∧ NF.canonicalLength x = len) :
    ∃ (rep : RepBase (dimension n r)) (A : _) (ρ : Braid n →* LMat p (dimension n r)), cellRep n r p = .ok rep ∧ rep.evalSame (GNF.tbl lim ω) xs = .ok A ∧
      IsProjImage p A (fun i => ρ (gnfBraid n xs[i])) ∧
      ∀ i : Fin xs.length, ∃ m, rep.evaluate (GNF.tbl lim ω) xs[i] = .ok m ∧ m.denMod p (dimension n r) = ρ (gnfBraid n xs[i]) := by
  obtain ⟨ρ, G, I, gs, g1, g2, -, -, hF, hd⟩ := C54_hypotheses n r p hn h
  obtain ⟨A, a1, a2, -⟩ := C55_same_length hn hl g2 hF hd hp xs hne len hx
  refine ⟨_, A, ρ, g1, a1, a2, fun i => ?_⟩
  obtain ⟨m, m1, -, m3⟩ := C53_evaluate hn hl g2 hd hp xs[i] (hx _ (List.getElem_mem _)).1
  exact ⟨m, m1, m3⟩

example := C54_same_length 3 1 5 (by decide) (by decide) (by decide) (by decide) _ (by decide) 3 gnfAB

end Peyl
