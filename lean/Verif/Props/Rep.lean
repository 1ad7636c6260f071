import Verif.Lemmas.SummandEval
import Verif.Lemmas.BraidHom
import Verif.Lemmas.JonesSummand
import Verif.Props.Braid
/-!
# Evaluation of braids in a representation (C53, C55)

The theorems hold for every representation whose generator matrices satisfy Artin's relations (`RepBase.Relations`); a
homomorphism `ρ` it realises then exists (`C53_realises`).  `Props/Jones.lean` supplies the relations for the Jones cell
representations.
-/
namespace Peyl
open LaurentPolynomial Polymat BraidSearch Bucketing
variable {d lim : Nat} {ω : List Nat → List Nat → Nat → Nat} {rep : RepBase d} {ρ : Braid rep.n →* LMat rep.p d}

/-! A concrete representation, used beside the theorems to show that their hypotheses are met: `JonesCellRep(3, 1, 5)`, the reduced Burau
representation of `B_3` mod 5, with `JonesSummand(3, 1, 5)`. -/

theorem jones315_exists : ∃ w : (Braid 3 →* LMat 5 (Jones.dimension 3 1)) × List Matrix × List Matrix × List (Img (Jones.dimension 3 1)),
    Jones.cellRep 3 1 5 = .ok ⟨3, 5, w.2.1, w.2.2.1⟩ ∧ Realises (⟨3, 5, w.2.1, w.2.2.1⟩ : RepBase (Jones.dimension 3 1)) w.1 ∧
    Jones.summand 3 1 5 = .ok ⟨3, 5, w.2.2.2⟩ ∧ SummandRealises (⟨3, 5, w.2.2.2⟩ : Summand (Jones.dimension 3 1)) w.1 ∧ FullTwistScalar w.1 := by
  obtain ⟨ρ, G, I, h1, h2, h3, h4, h5⟩ := Jones.jones_main 3 1 5 (by decide) (by decide)
  obtain ⟨gs, g1, g2⟩ := h5 (by decide)
  exact ⟨⟨ρ, G, I, gs⟩, h1, h2, g1, g2, ⟨_, h4⟩⟩

/-- `JonesCellRep(3, 1, 5)`. -/
noncomputable abbrev rep315 : RepBase (Jones.dimension 3 1) := ⟨3, 5, jones315_exists.choose.2.1, jones315_exists.choose.2.2.1⟩

/-- `JonesSummand(3, 1, 5)`. -/
noncomputable abbrev sm315 : Summand (Jones.dimension 3 1) := ⟨3, 5, jones315_exists.choose.2.2.2⟩

/-- The representation of `B_3` they realise. -/
noncomputable abbrev rho315 : Braid 3 →* LMat 5 (Jones.dimension 3 1) := jones315_exists.choose.1

theorem real315 : Realises rep315 rho315 := jones315_exists.choose_spec.2.1
theorem sreal315 : SummandRealises sm315 rho315 := jones315_exists.choose_spec.2.2.2.1
theorem twist315 : FullTwistScalar rho315 := jones315_exists.choose_spec.2.2.2.2
theorem gnfAB : ∀ x ∈ ([⟨3, -2, [3, 4, 2]⟩, ⟨3, 1, [4, 2, 2]⟩] : List NF), IsGNF 7 pop0 3 x ∧ NF.canonicalLength x = 3 := by decide +kernel

/-! ## C53 -/

/-- C53: matrices satisfying Artin's relations mod `p` define a representation of the braid group. -/
theorem C53_realises (rep : RepBase d) (H : rep.Relations) : ∃ ρ : Braid rep.n →* LMat rep.p d, Realises rep ρ := by
  have hl := H.gens_len
  have hl' := H.invs_len
  have hg : ∀ i (hi : i < rep.gens.length), (rep.gens.getD i ⟨0, 0, []⟩) = rep.gens[i] := fun i hi => by simp [hi]
  have hi' : ∀ i (hi : i < rep.invs.length), (rep.invs.getD i ⟨0, 0, []⟩) = rep.invs[i] := fun i hi => by simp [hi]
  obtain ⟨ρ, hρ⟩ := exists_braidHom (M := LMat rep.p d) rep.n (fun i => (rep.gens.getD i ⟨0, 0, []⟩).denMod rep.p d)
    (fun i => (rep.invs.getD i ⟨0, 0, []⟩).denMod rep.p d)
    (fun i hi => by rw [hg i (by omega), hi' i (by omega)]; exact H.right_inv i _ _)
    (fun i hi => by rw [hg i (by omega), hi' i (by omega)]; exact H.left_inv i (by omega) _)
    (fun i j hij hj => by rw [hg i (by omega), hg j (by omega)]; exact H.far i j _ hij)
    (fun i hi => by rw [hg i (by omega), hg (i + 1) (by omega)]; exact H.braid i _)
  refine ⟨ρ, hl, hl', fun i hi => ?_, fun i hi => ?_⟩
  · obtain ⟨h1, h2⟩ := H.gens _ (List.getElem_mem hi)
    exact ⟨h1, h2, by rw [(hρ i (by omega)).1, hg i hi]⟩
  · obtain ⟨h1, h2⟩ := H.invs _ (List.getElem_mem hi)
    exact ⟨h1, h2, by rw [(hρ i (by omega)).2, hi' i hi]⟩

/-- For example the Burau matrices of `B_6` mod 5. -/
example := Jones.cellRep_relations (n := 6) (r := 1) (p := 5) (by decide) (by decide)

theorem Matrix.denMod_reduceMod {p : Nat} {m : Matrix} (h : m.Shape d d) : (m.reduceMod p).denMod p d = m.denMod p d := by
  rw [Matrix.reduceMod]
  split
  · exact Matrix.red_map_modp h p
  · rfl

theorem den_eq_of_mod {p : Nat} {A B : Matrix} (hA : Matrix.CoeffRed p d A) (hB : Matrix.CoeffRed p d B) (h : A.denMod p d = B.denMod p d) :
    A.den d d = B.den d d := by
  funext i j
  apply LaurentPolynomial.ext
  intro k
  have e := congrArg (fun M : LMat p d => (M i j).coeff k) h
  simp only [Matrix.denMod, _root_.Matrix.map_apply, LPoly.coeff_red] at e
  by_cases hp : p = 0
  · subst hp; exact e
  · obtain ⟨a1, a2⟩ := hA hp i j k
    obtain ⟨b1, b2⟩ := hB hp i j k
    rw [ZMod.intCast_eq_intCast_iff, Int.ModEq, Int.emod_eq_of_lt a1 a2, Int.emod_eq_of_lt b1 b2] at e
    exact e

/-- C53: `evaluate_artin_word` of every legal word returns the matrix of the braid the word spells, with coefficients in `[0, p)`
if `p > 0`. -/
theorem C53_word (H : Realises rep ρ) (hd : 0 < d) (hp : rep.p ≠ 1) (w : List (Nat × ℤ)) (hw : ∀ se ∈ w, se.1 + 1 < rep.n) :
    ∃ m, rep.evaluateArtinWord w = .ok m ∧ m.Shape d d ∧ m.denMod rep.p d = ρ (wordBraid rep.n w) ∧
      (rep.p ≠ 0 → ∀ i j k, 0 ≤ (m.den d d i j).coeff k ∧ (m.den d d i j).coeff k < rep.p) := by
  obtain ⟨m, h1, h2, -, h4, h5⟩ := RepBase.evaluate_spec H hd hp w hw
  exact ⟨m, h1, h2, h5, h4⟩

example := C53_word real315 (by decide) (by decide) [(0, -2), (1, 3)] (by decide)

/-- C53: words of the same braid evaluate to the same matrix of Laurent polynomials. -/
theorem C53_well_defined (H : Realises rep ρ) (hd : 0 < d) (hp : rep.p ≠ 1) (u w : List (Nat × ℤ))
    (hu : ∀ se ∈ u, se.1 + 1 < rep.n) (hw : ∀ se ∈ w, se.1 + 1 < rep.n) (huw : wordBraid rep.n u = wordBraid rep.n w) :
    ∃ A B, rep.evaluateArtinWord u = .ok A ∧ rep.evaluateArtinWord w = .ok B ∧ A.den d d = B.den d d := by
  obtain ⟨A, a1, -, -, a4, a5⟩ := RepBase.evaluate_spec H hd hp u hu
  obtain ⟨B, b1, -, -, b4, b5⟩ := RepBase.evaluate_spec H hd hp w hw
  exact ⟨A, B, a1, b1, den_eq_of_mod a4 b4 (by rw [a5, b5, huw])⟩

/-- `σ₀σ₁σ₀ = σ₁σ₀σ₁`. -/
example := C53_well_defined real315 (by decide) (by decide) [(0, 1), (1, 1), (0, 1)] [(1, 1), (0, 1), (1, 1)] (by decide) (by decide)
  (by simpa [wordBraid, mul_assoc] using sigma_braid (n := 3) 0 (by decide))

/-- C53: `evaluate` of a normal form is the matrix of the braid it denotes. -/
theorem C53_evaluate (hn : 2 ≤ rep.n) (hl : rep.n < lim) (H : Realises rep ρ) (hd : 0 < d) (hp : rep.p ≠ 1) (x : NF) (hx : IsGNF lim ω rep.n x) :
    ∃ m, rep.evaluate (GNF.tbl lim ω) x = .ok m ∧ m.Shape d d ∧ m.denMod rep.p d = ρ (gnfBraid rep.n x) := by
  obtain ⟨t, R⟩ := exists_greal lim ω hn hl
  obtain ⟨w, w1, w2, w3⟩ := R.1.artinWord_spec (R.isGNF_iff.1 hx)
  obtain ⟨m, h1, h2, -, -, h5⟩ := RepBase.evaluate_spec H hd hp w fun se hse => (w2 se hse).2
  exact ⟨m, by rw [RepBase.evaluate, w1, bind_ok, h1], h2, by rw [h5, w3, R.den_eq]⟩

example := C53_evaluate (by decide) (by decide) real315 (by decide) (by decide) _ gnfA

/-- C53: `evaluate(x*y)` is `evaluate(x)*evaluate(y)` reduced mod `p`. -/
theorem C53_multiplicative (hn : 2 ≤ rep.n) (hl : rep.n < lim) (H : Realises rep ρ) (hd : 0 < d) (hp : rep.p ≠ 1) (x y : NF)
    (hx : IsGNF lim ω rep.n x) (hy : IsGNF lim ω rep.n y) :
    ∃ z A B C P, NF.mul (GNF.tbl lim ω) x y = .ok z ∧ rep.evaluate (GNF.tbl lim ω) x = .ok A ∧ rep.evaluate (GNF.tbl lim ω) y = .ok B ∧
      rep.evaluate (GNF.tbl lim ω) z = .ok C ∧ Matrix.mul A B = .ok P ∧ C.den d d = (P.reduceMod rep.p).den d d := by
  obtain ⟨t, R⟩ := exists_greal lim ω hn hl
  obtain ⟨z, z1, z2, z3⟩ := R.1.mul_spec (R.isGNF_iff.1 hx) (R.isGNF_iff.1 hy)
  have key : ∀ x, NFReal.Valid t rep.n x → ∃ m, rep.evaluate (GNF.tbl lim ω) x = .ok m ∧ m.Shape d d ∧ Matrix.Kind d m ∧ Matrix.CoeffRed rep.p d m ∧
      m.denMod rep.p d = ρ (gnfBraid rep.n x) := by
    intro x hx
    obtain ⟨w, w1, w2, w3⟩ := R.1.artinWord_spec hx
    obtain ⟨m, h1, h2, h3, h4, h5⟩ := RepBase.evaluate_spec H hd hp w fun se hse => (w2 se hse).2
    exact ⟨m, by rw [RepBase.evaluate, w1, bind_ok, h1], h2, h3, h4, by rw [h5, w3, R.den_eq]⟩
  obtain ⟨A, a1, a2, a3, a4, a5⟩ := key x (R.isGNF_iff.1 hx)
  obtain ⟨B, b1, b2, b3, b4, b5⟩ := key y (R.isGNF_iff.1 hy)
  obtain ⟨C, c1, c2, c3, c4, c5⟩ := key z z2
  obtain ⟨P, p1, p2, p3, p4, -⟩ := Matrix.mul_good hd a2 b2 a3 b3
  obtain ⟨q1, q2⟩ := RepBase.coeffRed_modp (p := rep.p) p2 hp p3
  refine ⟨z, A, B, C, P, z1, a1, b1, c1, p1, den_eq_of_mod c4 q1 ?_⟩
  rw [Matrix.denMod_reduceMod p2, Matrix.denMod_mul p4, a5, b5, c5, ← map_mul]
  congr 1
  rw [← R.den_eq, z3, R.den_eq, R.den_eq]

example := C53_multiplicative (by decide) (by decide) real315 (by decide) (by decide) _ _ gnfA gnfB

/-! ## C55 -/

/-- C55: a projectivised image is determined by the matrices it stands for, and determines them up to powers of `v`. -/
theorem C55_image_unique {p : Nat} {α : Type} (A B : PArr α d d) (M N : α → LMat p d) (hA : IsProjImage p A M) :
    (IsProjImage p B M → A = B) ∧ (IsProjImage p A N → ∀ a, ∃ k : ℤ, M a = (T k : (ZMod p)[T;T⁻¹]) • N a) :=
  ⟨fun hB => hA.unique hB, fun hB a => hA.shift_unique hB a⟩

/-- C55: `polymat_evaluate_braids_of_same_length` of GNFs of one canonical length returns, for each braid, the projectivised
matrix of the braid (equivalently of `evaluate(braid)`). -/
theorem C55_same_length (hn : 2 ≤ rep.n) (hl : rep.n < lim) (H : Realises rep ρ) (hF : FullTwistScalar ρ) (hd : 0 < d) (hp : rep.p ≠ 1)
    (xs : List NF) (hne : xs ≠ []) (len : Nat) (hx : ∀ x ∈ xs, IsGNF lim ω rep.n x ∧ NF.canonicalLength x = len) :
    ∃ A, rep.evalSame (GNF.tbl lim ω) xs = .ok A ∧ IsProjImage rep.p A (fun i => ρ (gnfBraid rep.n xs[i])) ∧
      ∀ i, ∃ m, rep.evaluate (GNF.tbl lim ω) xs[i] = .ok m ∧ IsProjImage rep.p A (fun j => if j = i then m.denMod rep.p d else ρ (gnfBraid rep.n xs[j])) := by
  obtain ⟨t, R⟩ := exists_greal lim ω hn hl
  obtain ⟨A, a1, a2, a3, a4⟩ := RepBase.evalSame_spec R.1 H hd hp (by
    obtain ⟨k, hk⟩ := hF
    exact ⟨k, by rw [R.tauOrder]; exact hk⟩) xs hne len (fun x h => ⟨R.isGNF_iff.1 (hx x h).1, (hx x h).2⟩)
  have hA : IsProjImage rep.p A (fun i => ρ (gnfBraid rep.n xs[i])) :=
    ⟨a2.first, a2.last, a4 (.inr (.inl (by rw [R.tauOrder]))), by simpa only [R.den_eq] using a3⟩
  refine ⟨A, a1, hA, fun i => ?_⟩
  obtain ⟨m, m1, -, m3⟩ := C53_evaluate hn hl H hd hp xs[i] (hx _ (List.getElem_mem _)).1
  refine ⟨m, m1, hA.congr fun j => ⟨0, ?_⟩⟩
  rw [T_zero, one_smul]
  split
  · rename_i e; rw [m3, e]
  · rfl

example := C55_same_length (by decide) (by decide) real315 twist315 (by decide) (by decide) _ (by decide) 3 gnfAB

/-- C55: `polymat_evaluate_braid`. -/
theorem C55_single (hn : 2 ≤ rep.n) (hl : rep.n < lim) (H : Realises rep ρ) (hF : FullTwistScalar ρ) (hd : 0 < d) (hp : rep.p ≠ 1)
    (x : NF) (hx : IsGNF lim ω rep.n x) :
    ∃ A, rep.evalOne (GNF.tbl lim ω) x = .ok A ∧ IsProjImage rep.p A fun _ => ρ (gnfBraid rep.n x) := by
  obtain ⟨A, a1, a2, -⟩ := C55_same_length hn hl H hF hd hp [x] (by simp) (NF.canonicalLength x) (by simpa using hx)
  refine ⟨_, by rw [RepBase.evalOne, a1, bind_ok], ?_, ?_, ?_, ?_⟩
  · rintro ⟨⟩; rw [slice_imgAt]; exact a2.first _
  · obtain ⟨i, hi⟩ := a2.last
    have : i = ⟨0, by simp⟩ := by ext; have := i.2; simp only [List.length_singleton] at this; simp only [Fin.val_mk]; omega
    subst this
    exact ⟨(), by rw [slice_imgAt]; simpa [imgAt] using hi⟩
  · intro hp0 S hS a i j
    obtain ⟨S', hS', rfl⟩ := List.mem_map.1 hS
    exact a2.reduced hp0 S' hS' _ i j
  · rintro ⟨⟩
    obtain ⟨k, hk⟩ := a2.shift ⟨0, by simp⟩
    exact ⟨k, by rw [denMod_of_den (den_imgAt A ⟨0, by simp⟩), hk]; rfl⟩

example := C55_single (by decide) (by decide) real315 twist315 (by decide) (by decide) _ gnfA

/-- C55: `polymat_evaluate_braid_integers_of_same_length` evaluates the products of positive permutation braids; with no factors
it returns a single identity matrix, whatever the number of sequences. -/
theorem C55_integers (hn : 2 ≤ rep.n) (hl : rep.n < lim) (H : Realises rep ρ) (hd : 0 < d) (hp : rep.p ≠ 1)
    (seqs : List (List Nat)) (hne : seqs ≠ []) (len : Nat) (hs : ∀ s ∈ seqs, s.length = len ∧ ∀ f ∈ s, f < rep.n.factorial) :
    (0 < len → ∃ A, rep.evalIntegers (GNF.tbl lim ω) seqs = .ok ⟨seqs.length, A⟩ ∧
      IsProjImage rep.p A fun i => ρ ((seqs[i].map fun f => lift (permAt rep.n f)).prod)) ∧
    (len = 0 → ∃ A, rep.evalIntegers (GNF.tbl lim ω) seqs = .ok ⟨1, A⟩ ∧ IsProjImage rep.p A fun _ => 1) := by
  obtain ⟨t, R⟩ := exists_greal lim ω hn hl
  exact RepBase.evalIntegers_spec R.1 H hd hp seqs hne len (fun s h => ⟨(hs s h).1, fun f hf => by rw [R.2.1]; exact (hs s h).2 f hf⟩)

example := C55_integers (lim := 7) (ω := pop0) (by decide) (by decide) real315 (by decide) (by decide) [[3, 4], [5, 0]] (by decide) 2 (by decide)

/-! The evaluators of `braidsearch.py`. -/
variable {sm : Summand d} {τ : Braid sm.n →* LMat sm.p d}

/-- C55: `symmetric_table`: its assertion that the square of the image of `Δ` is the identity holds, and the entry of every
permutation is the projectivised image of its positive lift. -/
theorem C55_symmetric_table (H : SummandRealises sm τ) (hF : FullTwistScalar τ) (hd : 0 < d) (hp : sm.p ≠ 1) :
    ∃ tab, sm.table = .ok tab ∧ ∀ π : Equiv.Perm (Fin sm.n), ∃ A, Dict.get tab (wordOf π) = .ok A ∧ IsProjImage sm.p A fun _ => τ (lift π) :=
  table_spec H hd hp hF

example := C55_symmetric_table sreal315 twist315 (by decide) (by decide)

/-- C55: `evaluate_braid_factors`. -/
theorem C55_braid_factors (hn : 2 ≤ sm.n) (hl : sm.n < lim) (H : SummandRealises sm τ) (hF : FullTwistScalar τ) (hd : 0 < d) (hp : sm.p ≠ 1)
    (x : NF) (hx : IsGNF lim ω sm.n x) :
    ∃ A, evaluateBraidFactors (GNF.tbl lim ω) sm x = .ok A ∧ IsProjImage sm.p A fun _ => τ (gnfBraid sm.n x) :=
  evaluateBraidFactors_spec hn hl H hd hp hF x hx

example := C55_braid_factors (by decide) (by decide) sreal315 twist315 (by decide) (by decide) _ gnfA

/-- C55: `evaluate_braids_of_same_length`. -/
theorem C55_search_same_length (hn : 2 ≤ sm.n) (hl : sm.n < lim) (H : SummandRealises sm τ) (hF : FullTwistScalar τ) (hd : 0 < d) (hp : sm.p ≠ 1)
    (xs : List NF) (hne : xs ≠ []) (len : Nat) (hx : ∀ x ∈ xs, IsGNF lim ω sm.n x ∧ NF.canonicalLength x = len) :
    ∃ A, BraidSearch.evalSame (GNF.tbl lim ω) sm xs = .ok A ∧ IsProjImage sm.p A fun i => τ (gnfBraid sm.n xs[i]) :=
  evalSame_spec hn hl H hd hp hF xs hne len hx

example := C55_search_same_length (by decide) (by decide) sreal315 twist315 (by decide) (by decide) _ (by decide) 3 gnfAB

/-- C55: `evaluate_prefixes_of_same_length`: entry `k` holds the images of the products of `Δ^inf` with the first `k` factors. -/
theorem C55_search_prefixes (hn : 2 ≤ sm.n) (hl : sm.n < lim) (H : SummandRealises sm τ) (hF : FullTwistScalar τ) (hd : 0 < d) (hp : sm.p ≠ 1)
    (xs : List NF) (hne : xs ≠ []) (len : Nat) (hx : ∀ x ∈ xs, IsGNF lim ω sm.n x ∧ NF.canonicalLength x = len) :
    ∃ As, evalPrefixes (GNF.tbl lim ω) sm xs = .ok As ∧ As.length = len + 1 ∧ ∀ k (hk : k < As.length),
      IsProjImage sm.p As[k] fun i => τ (halfTwist sm.n ^ xs[i].power * ((xs[i].factors.take k).map fun f => lift (permAt sm.n f)).prod) :=
  evalPrefixes_spec hn hl H hd hp hF xs hne len hx

example := C55_search_prefixes (by decide) (by decide) sreal315 twist315 (by decide) (by decide) _ (by decide) 3 gnfAB

/-- C55: `evaluate_braids` accepts braids of different lengths and returns one image per braid, in the order of the input:
reduced mod `p`, starting in degree zero (trailing zero coefficients are possible: images of one length share a width), and equal
to the matrix of that braid up to a power of `v`. -/
theorem C55_search_evaluate_braids (hn : 2 ≤ sm.n) (hl : sm.n < lim) (H : SummandRealises sm τ) (hF : FullTwistScalar τ) (hd : 0 < d) (hp : sm.p ≠ 1)
    (xs : List NF) (hx : ∀ x ∈ xs, IsGNF lim ω sm.n x) :
    ∃ As, evaluateBraids (GNF.tbl lim ω) sm xs = .ok As ∧ ∃ h : As.length = xs.length, ∀ i (hi : i < xs.length),
      UpToShift sm.p (As[i]'(h ▸ hi)) (fun _ => τ (gnfBraid sm.n xs[i])) ∧ ReducedMod sm.p (As[i]'(h ▸ hi)) ∧ slice (As[i]'(h ▸ hi)) 0 () ≠ 0 :=
  evaluateBraids_spec hn hl H hd hp hF xs hx

example := C55_search_evaluate_braids (by decide) (by decide) sreal315 twist315 (by decide) (by decide) _ fun x h => (gnfAB x h).1

end Peyl
