import Verif.Lemmas.MarkovWord
/-!
# C107: the Jones polynomial of the closure of a braid

The traces of what `evaluate_artin_word` of the Jones cell representations returns, weighted with quantum integers, add up to the
Markov trace; multiplied with a power of `v` they do not depend on the braid word but only on the link it closes to.
-/
namespace Peyl
namespace Markov
open LaurentPolynomial Jones TL TLDiag TLMor

/-! ### Specification -/

/-- `M r` is what `JonesCellRep(n, r, p).evaluate_artin_word(w)` returns, for every cell `r`. -/
def Evaluates (n p : Nat) (w : List (Nat × ℤ)) (M : Nat → Matrix) : Prop :=
  ∀ r, 2 * r ≤ n → ∃ rep : RepBase (dimension n r), cellRep n r p = .ok rep ∧ rep.evaluateArtinWord w = .ok (M r)

/-- The quantum integer `v^(k-1) + v^(k-3) + ... + v^(1-k)`. -/
noncomputable def quantumInt (p k : Nat) : (ZMod p)[T;T⁻¹] := ∑ j ∈ Finset.range k, T ((k : ℤ) - 1 - 2 * j)

/-- The weighted sum of the traces of the matrices `M r`. -/
noncomputable def weightedTrace (n p : Nat) (M : Nat → Matrix) : (ZMod p)[T;T⁻¹] :=
  ∑ r ∈ Finset.range (n / 2 + 1), quantumInt p (n - 2 * r + 1) * ((M r).denMod p (dimension n r)).trace

/-- The sum of the exponents. -/
def exponentSum (w : List (Nat × ℤ)) : ℤ := (w.map (·.2)).sum

/-- All letters are generators of the braid group on `n` strands. -/
def Letters (n : Nat) (w : List (Nat × ℤ)) : Prop := ∀ se ∈ w, se.1 + 1 < n

/-- A word of a braid, with its number of strands. -/
abbrev Closed : Type := Nat × List (Nat × ℤ)

/-- The moves of Markov's theorem: another word of the same braid, conjugation, and adding a strand with one crossing. -/
inductive Move : Closed → Closed → Prop
  | same {n : Nat} {w w' : List (Nat × ℤ)} : 1 ≤ n → Letters n w → Letters n w' → wordBraid n w = wordBraid n w' → Move (n, w) (n, w')
  | conj {n : Nat} {w u : List (Nat × ℤ)} : 1 ≤ n → Letters n w → Letters n u → Move (n, w ++ u) (n, u ++ w)
  | stab {n : Nat} {w : List (Nat × ℤ)} (e : ℤ) : 1 ≤ n → Letters n w → (e = 1 ∨ e = -1) → Move (n, w) (n + 1, w ++ [(n - 1, e)])

/-- A user's program: multiply the elements returned by `tl_gens_invs(n)` along a word. -/
def tlProduct (n : Nat) (w : List (Nat × ℤ)) : Except Err TLMor := do
  let gi ← tlGensInvs n
  w.foldlM (fun acc se => do
    let x ← match (if 0 ≤ se.2 then gi.1 else gi.2)[se.1]? with | some x => .ok x | none => .error .index
    mul acc (← pow x se.2.natAbs)) (← TLMor.id n)

/-! ### Proofs -/

theorem redT (p : Nat) (k : ℤ) : LPoly.red p (T k) = T k := by
  apply LaurentPolynomial.ext
  intro m
  rw [LPoly.coeff_red, T, T, AddMonoidAlgebra.coeff_single, AddMonoidAlgebra.coeff_single, Finsupp.single_apply, Finsupp.single_apply]
  split <;> simp

theorem quantumInt_eq (p k : Nat) : quantumInt p k = LPoly.red p (qint k) := by
  have h : qint k = ∑ j ∈ Finset.range k, T ((k : ℤ) - 1 - 2 * j) := by
    refine mul_right_cancel₀ T_sub_ne_zero ?_
    have h1 : qint k * (T 1 - T (-1)) = T (k : ℤ) - T (-k) := LPoly.quantum_spec k
    rw [h1, Finset.sum_mul]
    have : ∀ m, m ≤ k → ∑ j ∈ Finset.range m, T ((k : ℤ) - 1 - 2 * j) * (T 1 - T (-1) : ℤ[T;T⁻¹]) = T (k : ℤ) - T (k - 2 * m) := by
      intro m
      induction m with
      | zero => intro _; simp
      | succ m ih =>
        intro hm
        rw [Finset.sum_range_succ, ih (by omega), mul_sub, ← T_add, ← T_add]
        rw [show (k : ℤ) - 1 - 2 * m + 1 = k - 2 * m by ring, show (k : ℤ) - 1 - 2 * m + -1 = k - 2 * (m + 1 : Nat) by push_cast; ring]
        ring
    rw [this k le_rfl, show (k : ℤ) - 2 * k = -k by ring]
  rw [h, map_sum, quantumInt]
  exact Finset.sum_congr rfl fun j _ => (redT p _).symm

theorem exists_cells (n : Nat) : ∃ Φ : ∀ r, Sq n →* _root_.Matrix (Fin (dimension n r)) (Fin (dimension n r)) ℤ[T;T⁻¹], ∀ r, 2 * r ≤ n → ∀ m : Sq n,
    (∃ M, cellMatrix m.1 r = .ok M ∧ M.Shape (dimension n r) (dimension n r) ∧ M.den (dimension n r) (dimension n r) = Φ r m) ∧
    (Φ r m).trace = m.1.ev fun d => (act (n - 2 * r) n n d).trace := by
  classical
  have : ∀ r, ∃ Φ : Sq n →* _root_.Matrix (Fin (dimension n r)) (Fin (dimension n r)) ℤ[T;T⁻¹], 2 * r ≤ n → ∀ m : Sq n,
    (∃ M, cellMatrix m.1 r = .ok M ∧ M.Shape (dimension n r) (dimension n r) ∧ M.den (dimension n r) (dimension n r) = Φ m) ∧
    (Φ m).trace = m.1.ev fun d => (act (n - 2 * r) n n d).trace := fun r => by
    by_cases h : 2 * r ≤ n
    · obtain ⟨Φ, hΦ⟩ := exists_cellHom h
      exact ⟨Φ, fun _ => hΦ⟩
    · exact ⟨1, fun c => absurd c h⟩
  exact ⟨fun r => (this r).choose, fun r => (this r).choose_spec⟩

/-- The value in terms of the Temperley–Lieb algebra. -/
theorem weighted_tl {n p : Nat} (hn : 1 ≤ n) (hp : p ≠ 1) {g g' : Nat → Sq n} (hg : TLGens n g g') {w : List (Nat × ℤ)} (hw : Letters n w) {M : Nat → Matrix}
    (hM : Evaluates n p w M) : weightedTrace n p M = LPoly.red p ((tlWord g g' w).1.ev fun d => dl ^ d.trc) := by
  obtain ⟨Φ, hΦ⟩ := exists_cells n
  rw [← trace_cells Φ (fun r hr m => (hΦ r hr m).2), map_sum, weightedTrace]
  refine Finset.sum_congr rfl fun r hr => ?_
  have hr : 2 * r ≤ n := by have := Finset.mem_range.1 hr; omega
  obtain ⟨rep, r1, r2⟩ := hM r hr
  obtain ⟨ρ, m, m1, m2, m3, m4⟩ := evaluate_tlWord hn hr hp hg (fun m => (hΦ r hr m).1) r1 w hw
  rw [m1] at r2; cases r2
  rw [m4, map_mul, quantumInt_eq]
  congr 1
  simp only [_root_.Matrix.trace, map_sum]
  rfl

theorem evaluates_exists {n p : Nat} (hn : 1 ≤ n) (hp : p ≠ 1) {w : List (Nat × ℤ)} (hw : Letters n w) : ∃ M, Evaluates n p w M := by
  have : ∀ r, ∃ m, 2 * r ≤ n → ∃ rep : RepBase (dimension n r), cellRep n r p = .ok rep ∧ rep.evaluateArtinWord w = .ok m := fun r => by
    by_cases h : 2 * r ≤ n
    · obtain ⟨ρ, G, I, h1, h2, h3, -⟩ := jones_main n r p hn h
      obtain ⟨m, m1, -⟩ := C53_word h2 h3 hp w hw
      exact ⟨m, fun _ => ⟨_, h1, m1⟩⟩
    · exact ⟨⟨0, 0, []⟩, fun c => absurd c h⟩
  choose M hM using this
  exact ⟨M, hM⟩

theorem tlWord_append {n : Nat} (g g' : Nat → Sq n) (u w : List (Nat × ℤ)) : tlWord g g' (u ++ w) = tlWord g g' u * tlWord g g' w := by
  rw [tlWord, List.map_append, List.prod_append]; rfl

theorem tlProduct_eq {n : Nat} {g g' : Nat → Sq n} (hg : TLGens n g g') {w : List (Nat × ℤ)} (hw : Letters n w) : tlProduct n w = .ok (tlWord g g' w).1 := by
  have key : ∀ (w : List (Nat × ℤ)) (acc : Sq n), Letters n w → w.foldlM (fun acc se => do
      let x ← match (if 0 ≤ se.2 then (List.range (n - 1)).map fun i => (g i).1 else (List.range (n - 1)).map fun i => (g' i).1)[se.1]? with
        | some x => .ok x
        | none => .error .index
      mul acc (← pow x se.2.natAbs)) acc.1 = Except.ok (ε := Err) (acc * tlWord g g' w).1 := by
    intro w
    induction w with
    | nil => intro acc _; rw [show tlWord g g' ([] : List (Nat × ℤ)) = 1 from rfl, mul_one]; rfl
    | cons se w ih =>
      intro acc hw
      have hs : se.1 < n - 1 := by have := hw se (by simp); omega
      rw [List.foldlM_cons]
      have e : (if 0 ≤ se.2 then (List.range (n - 1)).map fun i => (g i).1 else (List.range (n - 1)).map fun i => (g' i).1)[se.1]? = some (if 0 ≤ se.2 then g se.1 else g' se.1).1 := by
        split
        · rw [List.getElem?_map, List.getElem?_range hs]; rfl
        · rw [List.getElem?_map, List.getElem?_range hs]; rfl
      rw [e]
      dsimp only
      rw [bind_ok, pow_sq, bind_ok, sq_mul_eq, bind_ok, ih _ (fun x hx => hw x (by simp [hx])), mul_assoc]
      rfl
  rw [tlProduct, hg.ok, bind_ok, sq_one_eq, bind_ok]
  have := key w 1 hw
  rw [one_mul] at this
  exact this

/-! ### Theorems -/

/-- C107: the evaluations exist: every word of generators is evaluated by every cell representation. -/
theorem C107_exists {n p : Nat} (hn : 1 ≤ n) (hp : p ≠ 1) {w : List (Nat × ℤ)} (hw : Letters n w) : ∃ M, Evaluates n p w M :=
  evaluates_exists hn hp hw

example := C107_exists (n := 3) (p := 5) (by decide) (by decide) (w := [(0, -2), (1, 3)]) (by simp [Letters])

/-- C107: the weighted sum of the traces is `TLMor.trace` of the product of the `tl_gens_invs`, reduced mod `p`. -/
theorem C107_trace {n p : Nat} (hn : 1 ≤ n) (hp : p ≠ 1) {w : List (Nat × ℤ)} (hw : Letters n w) {M : Nat → Matrix} (hM : Evaluates n p w M) :
    ∃ x q, tlProduct n w = .ok x ∧ TLMor.trace x = .ok q ∧ weightedTrace n p M = LPoly.red p q.den := by
  obtain ⟨g, g', hg⟩ := exists_tlGens n
  obtain ⟨q, q1, -, q3⟩ := TLMor.trace_spec (tlWord g g' w).2.1 (by rw [(tlWord g g' w).2.2.1, (tlWord g g' w).2.2.2])
  exact ⟨_, q, tlProduct_eq hg hw, q1, by rw [weighted_tl hn hp hg hw hM, q3]⟩

/-- C107: conjugate braids (in particular two words of the same braid) have the same weighted trace. -/
theorem C107_conj {n p : Nat} (hn : 1 ≤ n) (hp : p ≠ 1) {w w' : List (Nat × ℤ)} (hw : Letters n w) (hw' : Letters n w') (h : IsConj (wordBraid n w) (wordBraid n w'))
    {M M' : Nat → Matrix} (hM : Evaluates n p w M) (hM' : Evaluates n p w' M') : weightedTrace n p M = weightedTrace n p M' := by
  refine Finset.sum_congr rfl fun r hr => ?_
  have hr : 2 * r ≤ n := by have := Finset.mem_range.1 hr; omega
  obtain ⟨ρ, G, I, h1, h2, h3, -⟩ := jones_main n r p hn hr
  have val : ∀ {w : List (Nat × ℤ)} {M : Nat → Matrix}, Letters n w → Evaluates n p w M → (M r).denMod p (dimension n r) = ρ (wordBraid n w) := by
    intro w M hw hM
    obtain ⟨rep, r1, r2⟩ := hM r hr
    rw [h1] at r1; cases r1
    obtain ⟨m, m1, m2, m3, -⟩ := C53_word h2 h3 hp w hw
    rw [m1] at r2; cases r2
    exact m3
  rw [val hw hM, val hw' hM']
  obtain ⟨c, hc⟩ := isConj_iff.1 h
  rw [← hc, map_mul, _root_.Matrix.trace_mul_comm, ← map_mul]
  congr 3
  group

/-- C107: a strand with no crossings multiplies the weighted trace with `v + v^-1`. -/
theorem C107_free {n p : Nat} (hn : 1 ≤ n) (hp : p ≠ 1) {w : List (Nat × ℤ)} (hw : Letters n w) {M M' : Nat → Matrix} (hM : Evaluates n p w M)
    (hM' : Evaluates (n + 1) p w M') : weightedTrace (n + 1) p M' = (T 1 + T (-1)) * weightedTrace n p M := by
  obtain ⟨g, g', hg⟩ := exists_tlGens n
  obtain ⟨f, f', hf⟩ := exists_tlGens (n + 1)
  have hw' : Letters (n + 1) w := fun x hx => by have := hw x hx; omega
  rw [weighted_tl hn hp hg hw hM, weighted_tl (by omega) hp hf hw' hM', (Ext.word hg hf w hw).trace_free, map_mul]
  congr 1
  simp [dl, redT]

/-- C107: one more strand with one crossing multiplies the weighted trace with `v^-1` or `v`. -/
theorem C107_stab {n p : Nat} (hn : 1 ≤ n) (hp : p ≠ 1) {w : List (Nat × ℤ)} (hw : Letters n w) {e : ℤ} (he : e = 1 ∨ e = -1) {M M' : Nat → Matrix}
    (hM : Evaluates n p w M) (hM' : Evaluates (n + 1) p (w ++ [(n - 1, e)]) M') : weightedTrace (n + 1) p M' = T (-e) * weightedTrace n p M := by
  obtain ⟨g, g', hg⟩ := exists_tlGens n
  obtain ⟨f, f', hf⟩ := exists_tlGens (n + 1)
  have hw' : Letters (n + 1) (w ++ [(n - 1, e)]) := fun x hx => by
    rcases List.mem_append.1 hx with hx | hx
    · have := hw x hx; omega
    · rw [List.mem_singleton.1 hx]; dsimp only; omega
  rw [weighted_tl hn hp hg hw hM, weighted_tl (by omega) hp hf hw' hM', tlWord_append]
  rcases he with rfl | rfl
  · rw [show tlWord f f' [(n - 1, (1 : ℤ))] = f (n - 1) by simp [tlWord, tlLetter], (Ext.word hg hf w hw).trace_stab hn (hf.gen _ (by omega)), map_mul]
    congr 1
    simp [dl, redT]
  · rw [show tlWord f f' [(n - 1, (-1 : ℤ))] = f' (n - 1) by simp [tlWord, tlLetter], (Ext.word hg hf w hw).trace_stab hn (hf.inv _ (by omega)), map_mul]
    congr 1
    simp [dl, redT]

/-- C107, the skein relation: changing one crossing, or smoothing it. -/
theorem C107_skein {n p : Nat} (hn : 1 ≤ n) (hp : p ≠ 1) {u w : List (Nat × ℤ)} (hu : Letters n u) (hw : Letters n w) {s : Nat} (hs : s + 1 < n) {Mp Mm M0 : Nat → Matrix}
    (hMp : Evaluates n p (u ++ (s, 1) :: w) Mp) (hMm : Evaluates n p (u ++ (s, -1) :: w) Mm) (hM0 : Evaluates n p (u ++ w) M0) :
    T (-1) * weightedTrace n p Mp - T 1 * weightedTrace n p Mm = (T (-1) - T 1) * weightedTrace n p M0 := by
  obtain ⟨g, g', hg⟩ := exists_tlGens n
  have hl : ∀ e : ℤ, Letters n (u ++ (s, e) :: w) := fun e x hx => by
    rcases List.mem_append.1 hx with hx | hx
    · exact hu x hx
    · rcases List.mem_cons.1 hx with rfl | hx
      · exact hs
      · exact hw x hx
  have h0 : Letters n (u ++ w) := fun x hx => (List.mem_append.1 hx).elim (hu x) (hw x)
  rw [weighted_tl hn hp hg (hl 1) hMp, weighted_tl hn hp hg (hl (-1)) hMm, weighted_tl hn hp hg h0 hM0, tlWord_append, tlWord_append, tlWord_append]
  rw [show tlWord g g' ((s, (1 : ℤ)) :: w) = g s * tlWord g g' w by simp [tlWord, tlLetter], show tlWord g g' ((s, (-1 : ℤ)) :: w) = g' s * tlWord g g' w by simp [tlWord, tlLetter]]
  generalize tlWord g g' u = a
  generalize tlWord g g' w = b
  have key : ∃ A B : ℤ[T;T⁻¹], (∀ x (c : Sq n), GenOf n s x c.1 → ((a * (c * b)).1.ev fun d => dl ^ d.trc) = x * A + B) ∧ ((a * b).1.ev fun d => dl ^ d.trc) = B := by
    let K : TLDiag → TLDiag → ℤ[T;T⁻¹] := fun z x => b.1.ev fun y => dl ^ prodL x y * (dl ^ prodL z (prodD x y) * dl ^ (prodD z (prodD x y)).trc)
    refine ⟨a.1.ev fun z => K z ⟨n, n, eSeq s n⟩, a.1.ev fun z => K z (idD n), fun x c hc => ?_, ?_⟩
    rotate_left
    · rw [← one_mul b, ev_mul]
      simp only [ev_mul 1 b, ev_one]
      rfl
    · rw [ev_mul]
      simp only [ev_mul c b, gen_ev hc.coef]
      rw [ev_add_fun, ev_mul_fun]
      rfl
  obtain ⟨A, B, k1, k2⟩ := key
  rw [k1 _ _ (hg.gen s hs), k1 _ _ (hg.inv s hs), k2]
  simp only [map_add, map_mul, map_neg, redT]
  have e1 : (T (-1) * T 1 : (ZMod p)[T;T⁻¹]) = 1 := by rw [← T_add]; simp
  linear_combination (-(LPoly.red p A) + LPoly.red p A) * e1

/-- C107, one strand: the closure is an unknot, with the value `v + v^-1`. -/
theorem C107_unknot {p : Nat} (hp : p ≠ 1) {M : Nat → Matrix} (hM : Evaluates 1 p [] M) : weightedTrace 1 p M = T 1 + T (-1) := by
  obtain ⟨g, g', hg⟩ := exists_tlGens 1
  rw [weighted_tl le_rfl hp hg (fun _ h => absurd h (by simp)) hM, show tlWord g g' ([] : List (Nat × ℤ)) = 1 from rfl, ev_one]
  have : (idD 1).trc = 1 := TLDiag.trc_id 1
  rw [this, pow_one]
  simp [dl, redT]

theorem exponentSum_braid {n : Nat} {w w' : List (Nat × ℤ)} (hw : Letters n w) (hw' : Letters n w') (h : wordBraid n w = wordBraid n w') :
    exponentSum w = exponentSum w' := by
  obtain ⟨ρ, hρ⟩ := exists_braidHom (M := Multiplicative ℤ) n (fun _ => Multiplicative.ofAdd 1) (fun _ => Multiplicative.ofAdd (-1))
    (fun _ _ => rfl) (fun _ _ => rfl) (fun _ _ _ _ => rfl) (fun _ _ => rfl)
  have key : ∀ w : List (Nat × ℤ), Letters n w → ρ (wordBraid n w) = Multiplicative.ofAdd (exponentSum w) := by
    intro w
    induction w with
    | nil => intro _; rw [wordBraid, List.map_nil, List.prod_nil, map_one]; rfl
    | cons se w ih =>
      intro hw
      rw [wordBraid, List.map_cons, List.prod_cons, map_mul, map_zpow, (hρ se.1 (hw se (by simp))).1]
      have := ih fun x hx => hw x (by simp [hx])
      rw [wordBraid] at this
      rw [this, show exponentSum (se :: w) = se.2 + exponentSum w by simp [exponentSum], ofAdd_add, ← ofAdd_zsmul, smul_eq_mul, mul_one]
  have := key w hw
  rw [h, key w' hw'] at this
  exact (Multiplicative.ofAdd.injective this).symm

/-- What C107 is about: `v^(exponent sum)` times the weighted trace of the word on its number of strands. -/
noncomputable def Value (p : Nat) (c : Closed) (x : (ZMod p)[T;T⁻¹]) : Prop :=
  ∃ M, Evaluates c.1 p c.2 M ∧ x = T (exponentSum c.2) * weightedTrace c.1 p M

/-- C107, the value is determined by the word. -/
theorem C107_value {p : Nat} (hp : p ≠ 1) {n : Nat} (hn : 1 ≤ n) {w : List (Nat × ℤ)} (hw : Letters n w) : ∃! x, Value p (n, w) x := by
  obtain ⟨M, hM⟩ := evaluates_exists hn hp hw
  refine ⟨_, ⟨M, hM, rfl⟩, ?_⟩
  rintro y ⟨M', hM', rfl⟩
  rw [C107_conj hn hp hw hw (IsConj.refl _) hM' hM]

/-- C107: `v^(exponent sum)` times the weighted trace is the same for any two words that are joined by a chain of Markov moves in both
directions: it is an invariant of the link that the braid closes to. -/
theorem C107_invariant {p : Nat} (hp : p ≠ 1) {c c' : Closed} (h : Relation.EqvGen Move c c') (x : (ZMod p)[T;T⁻¹]) : Value p c x ↔ Value p c' x := by
  induction h with
  | refl c => rfl
  | symm _ _ _ ih => exact ih.symm
  | trans _ _ _ _ _ ih1 ih2 => exact ih1.trans ih2
  | rel c c' h =>
    have both : ∀ {n n' : Nat} {w w' : List (Nat × ℤ)}, 1 ≤ n → 1 ≤ n' → Letters n w → Letters n' w' →
        (∀ M M', Evaluates n p w M → Evaluates n' p w' M' → T (exponentSum w) * weightedTrace n p M = T (exponentSum w') * weightedTrace n' p M') →
        (Value p (n, w) x ↔ Value p (n', w') x) := by
      intro n n' w w' hn hn' hw hw' h
      obtain ⟨M, hM⟩ := evaluates_exists hn hp hw
      obtain ⟨M', hM'⟩ := evaluates_exists hn' hp hw'
      constructor
      · rintro ⟨N, hN, rfl⟩
        exact ⟨M', hM', h N M' hN hM'⟩
      · rintro ⟨N, hN, rfl⟩
        exact ⟨M, hM, (h M N hM hN).symm⟩
    cases h with
    | @same n w w' hn hw hw' h =>
      refine both hn hn hw hw' fun M M' hM hM' => ?_
      rw [exponentSum_braid hw hw' h, C107_conj hn hp hw hw' (by rw [h]) hM hM']
    | @conj n w u hn hw hu =>
      have h1 : Letters n (w ++ u) := fun x hx => (List.mem_append.1 hx).elim (hw x) (hu x)
      have h2 : Letters n (u ++ w) := fun x hx => (List.mem_append.1 hx).elim (hu x) (hw x)
      refine both hn hn h1 h2 fun M M' hM hM' => ?_
      have he : exponentSum (w ++ u) = exponentSum (u ++ w) := by simp [exponentSum, add_comm]
      rw [he, C107_conj hn hp h1 h2 _ hM hM']
      refine isConj_iff.2 ⟨wordBraid n u, ?_⟩
      simp only [wordBraid, List.map_append, List.prod_append]
      group
    | @stab n w e hn hw he =>
      have h1 : Letters (n + 1) (w ++ [(n - 1, e)]) := fun x hx => by
        rcases List.mem_append.1 hx with hx | hx
        · have := hw x hx; omega
        · rw [List.mem_singleton.1 hx]; dsimp only; omega
      refine both hn (by omega) hw h1 fun M M' hM hM' => ?_
      rw [C107_stab hn hp hw he hM hM', ← mul_assoc, ← T_add]
      congr 2
      simp [exponentSum]

/-- Not vacuous: the closure of `σ_0 σ_0 σ_0` on two strands is joined with that of `σ_0^3 σ_1` on three strands, their common value exists. -/
example : ∃ x, Value 0 (2, [(0, 3)]) x ∧ Value 0 (3, [(0, 3), (1, 1)]) x := by
  have hw : Letters 2 [(0, 3)] := by intro x hx; rw [List.mem_singleton.1 hx]; decide
  obtain ⟨x, hx, -⟩ := C107_value (p := 0) (by decide) (n := 2) (by decide) hw
  exact ⟨x, hx, (C107_invariant (by decide) (.rel _ _ (.stab 1 (by decide) hw (.inl rfl))) x).1 hx⟩

/-- The unknot on two strands: `σ_0` has the value of the word without letters on one strand, `v + v^-1`. -/
example : Value 0 (2, [(0, 1)]) (T 1 + T (-1)) := by
  refine (C107_invariant (by decide) (.rel _ _ (.stab (n := 1) (w := []) 1 le_rfl (fun _ h => absurd h (by simp)) (.inl rfl))) _).1 ?_
  obtain ⟨M, hM⟩ := C107_exists (n := 1) (p := 0) (w := []) le_rfl (by decide) (fun _ h => absurd h (by simp))
  exact ⟨M, hM, by rw [C107_unknot (by decide) hM]; simp [exponentSum]⟩

/-- C107 on the trefoil: the closure of `σ_0 σ_0 σ_0` has the value `v + v^3 + v^5 - v^9`, for every modulus. -/
theorem C107_trefoil {p : Nat} (hp : p ≠ 1) : Value p (2, [(0, 1), (0, 1), (0, 1)]) (T 1 + T 3 + T 5 - T 9) := by
  have hl : ∀ l : List ℤ, Letters 2 (l.map fun e => (0, e)) := fun l x hx => by
    obtain ⟨e, -, rfl⟩ := List.mem_map.1 hx
    exact Nat.lt_succ_self 1
  have ev : ∀ l : List ℤ, ∃ M, Evaluates 2 p (l.map fun e => (0, e)) M := fun l => C107_exists (by decide) hp (hl l)
  obtain ⟨N, hN⟩ := C107_exists (n := 1) (p := p) (w := []) le_rfl hp (fun _ h => absurd h (by simp))
  obtain ⟨Mi, hMi⟩ := ev [1, -1]
  obtain ⟨M0, hM0⟩ := ev []
  obtain ⟨M1, hM1⟩ := ev [1]
  obtain ⟨M2, hM2⟩ := ev [1, 1]
  obtain ⟨M12, hM12⟩ := ev [1, 1, -1]
  obtain ⟨M3, hM3⟩ := ev [1, 1, 1]
  have wN := C107_unknot hp hN
  have w0 : weightedTrace 2 p M0 = (T 1 + T (-1)) * (T 1 + T (-1)) := (C107_free le_rfl hp (fun _ h => absurd h (by simp)) hN hM0).trans (by rw [wN])
  have w1 : weightedTrace 2 p M1 = T (-1) * (T 1 + T (-1)) := by rw [← wN]; exact C107_stab le_rfl hp (fun _ h => absurd h (by simp)) (.inl rfl) hN hM1
  have wi : weightedTrace 2 p Mi = weightedTrace 2 p M0 := C107_conj (by decide) hp (hl [1, -1]) (hl []) (by simp [wordBraid]) hMi hM0
  have w12 : weightedTrace 2 p M12 = weightedTrace 2 p M1 := C107_conj (by decide) hp (hl [1, 1, -1]) (hl [1]) (isConj_iff.2 ⟨1, by simp [wordBraid]⟩) hM12 hM1
  have s2 := C107_skein (u := [(0, 1)]) (w := []) (s := 0) (by decide) hp (hl [1]) (hl []) (by decide) hM2 hMi hM1
  have s3 := C107_skein (u := [(0, 1), (0, 1)]) (w := []) (s := 0) (by decide) hp (hl [1, 1]) (hl []) (by decide) hM3 hM12 hM2
  have tt : ∀ x y : (ZMod p)[T;T⁻¹], T (-1) * x = y → x = T 1 * y := by
    rintro x _ rfl
    rw [← mul_assoc, ← T_add]; simp
  rw [wi, w0, w1, sub_eq_iff_eq_add] at s2
  have e2 : weightedTrace 2 p M2 = T 4 + T 2 + 1 + T (-2) := by
    rw [tt _ _ s2]
    simp only [mul_add, add_mul, sub_mul, mul_sub, ← T_add]
    norm_num
    abel
  rw [w12, w1, e2, sub_eq_iff_eq_add] at s3
  refine ⟨M3, hM3, ?_⟩
  rw [tt _ _ s3, ← T_zero]
  show _ = T 3 * _
  simp only [mul_add, add_mul, sub_mul, mul_sub, ← T_add]
  norm_num
  abel

end Markov
end Peyl
