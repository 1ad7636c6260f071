import Verif.Lemmas.MachineWrap
import Verif.Lemmas.MachineSearchInt
import Verif.Lemmas.KernelWords
import Verif.Lemmas.BurauThree
import Verif.Props.BurauKernel
/-!
# The bulk evaluators with machine integers (C135)

The evaluators of `peyl/jonesrep.py` multiply numpy tensors of 64-bit integers, those of `peyl/braidsearch.py` tensors of 32-bit
integers (`p > 0`) or 64-bit integers (`p = 0`): sums and products wrap around silently.  `evalSameW w` and its relatives
(`Verif/Model/MachineEval.lean`) are the evaluators with `w`-bit integers, `evalSame` and its relatives those with exact integers.
-/
namespace Peyl
open Polymat LaurentPolynomial Jones BraidSearch
variable {lim : Nat} {ω : List Nat → List Nat → Nat → Nat}

/-! ## Modulo `p` -/

/-- C135: modulo `p`, as long as `dim * (n (n - 1) + 1) * (p - 1)^2 < 2^63`, the evaluators of `JonesCellRep(n, r, p)` never overflow, however
long the braids are: they return the projectivised matrices of the braids, the ones `evaluate` returns, and nothing differs from exact integers. -/
theorem C135_mod_p (n r p : Nat) (hn : 2 ≤ n) (hl : n < lim) (h : 2 * r ≤ n) (hp : 2 ≤ p) (hb : dimension n r * (n * (n - 1) + 1) * (p - 1) ^ 2 < 2 ^ 63) :
    ∃ (rep : RepBase (dimension n r)) (ρ : Braid n →* LMat p (dimension n r)), cellRep n r p = .ok rep ∧
      (∀ (xs : List NF) (len : Nat), xs ≠ [] → (∀ x ∈ xs, IsGNF lim ω n x ∧ NF.canonicalLength x = len) →
        ∃ A, rep.evalSameW 64 (GNF.tbl lim ω) xs = .ok A ∧ IsProjImage p A (fun i => ρ (gnfBraid n xs[i])) ∧
          ∀ i : Fin xs.length, ∃ m, rep.evaluate (GNF.tbl lim ω) xs[i] = .ok m ∧ m.denMod p (dimension n r) = ρ (gnfBraid n xs[i])) ∧
      (∀ xs : List NF, (∀ x ∈ xs, IsGNF lim ω n x) → rep.evalSameW 64 (GNF.tbl lim ω) xs = rep.evalSame (GNF.tbl lim ω) xs) ∧
      (∀ x : NF, IsGNF lim ω n x → rep.evalOneW 64 (GNF.tbl lim ω) x = rep.evalOne (GNF.tbl lim ω) x) ∧
      (∀ seqs : List (List Nat), rep.evalIntegersW 64 (GNF.tbl lim ω) seqs = rep.evalIntegers (GNF.tbl lim ω) seqs) := by
  obtain ⟨ρ, G, I, gs, g1, g2, -, -, hF, hd⟩ := C54_hypotheses n r p hn h
  obtain ⟨c1, c2⟩ := cell_mod (ω := ω) hn hl h hp g1 g2 hd (w := 64) (by norm_num) hb
  refine ⟨_, ρ, g1, fun xs len hne hx => ?_, c1, fun x hx => RepBase.evalOneW_eq (c1 [x] (by simpa using hx)), c2⟩
  obtain ⟨A, a1, a2, -⟩ := C55_same_length hn hl g2 hF hd (show p ≠ 1 by omega) xs hne len hx
  refine ⟨A, by rw [c1 xs fun x hm => (hx x hm).1]; exact a1, a2, fun i => ?_⟩
  obtain ⟨m, m1, -, m3⟩ := C53_evaluate hn hl g2 hd (show p ≠ 1 by omega) xs[i] (hx _ (List.getElem_mem _)).1
  exact ⟨m, m1, m3⟩

/-- For eight strands and `r = 3` all primes up to 30000 are fine. -/
example : dimension 8 3 = 28 ∧ dimension 8 3 * (8 * 7 + 1) * (30000 - 1) ^ 2 < 2 ^ 63 := by decide +kernel
example := (C135_mod_p (ω := pop0) (lim := 7) 3 1 5 (by decide) (by decide) (by decide) (by decide) (by decide +kernel)).choose_spec.choose_spec.2.1 _ 3 (by decide) gnfAB

/-- C135: modulo `p`, as long as `dim * (n (n - 1) + 1) * (p - 1)^2 < 2^31`, the evaluators of `JonesSummand(n, r, p)` (32-bit integers) never
overflow, however long the braids are: the table and all results are those of exact integers, for which C54 and C55 say what they are. -/
theorem C135_search_mod_p (n r p : Nat) (hn : 2 ≤ n) (h : 2 * r ≤ n) (hp : 2 ≤ p) (hb : dimension n r * (n * (n - 1) + 1) * (p - 1) ^ 2 < 2 ^ 31) :
    ∃ sm : Summand (dimension n r), summand n r p = .ok sm ∧ sm.tableW 32 = sm.table ∧
      (∀ xs, BraidSearch.evalSameW 32 (GNF.tbl lim ω) sm xs = BraidSearch.evalSame (GNF.tbl lim ω) sm xs) ∧
      (∀ xs, evalPrefixesW 32 (GNF.tbl lim ω) sm xs = evalPrefixes (GNF.tbl lim ω) sm xs) ∧
      (∀ xs, evaluateBraidsW 32 (GNF.tbl lim ω) sm xs = evaluateBraids (GNF.tbl lim ω) sm xs) ∧
      (∀ x, evaluateBraidFactorsW 32 (GNF.tbl lim ω) sm x = evaluateBraidFactors (GNF.tbl lim ω) sm x) := by
  obtain ⟨ρ, G, I, gs, -, -, g1, g2, hF, hd⟩ := C54_hypotheses n r p hn h
  obtain ⟨a1, a2⟩ := summand_mod (w := 32) hn h hp (by norm_num) hb g1
  have hb' : dimension n r * (n * (n - 1) + 1) * (p - 1) * (p - 1) < 2 ^ (32 - 1) := by rw [mul_assoc _ (p - 1), ← pow_two]; exact hb
  have hW : 1 ≤ n * (n - 1) + 1 := by omega
  exact ⟨_, g1, a1, fun xs => evalSameW_eq (by norm_num) hp hb' a1 a2 hW xs, fun xs => evalPrefixesW_eq (by norm_num) hp hb' a1 a2 hW xs,
    fun xs => evaluateBraidsW_eq (by norm_num) hp hb' a1 a2 hW xs, fun x => evaluateBraidFactorsW_eq (by norm_num) hp hb' a1 a2 hW x⟩

/-- The searches for kernel elements of the Burau representation of `B_4` are safe for all `p` up to 7420. -/
example : dimension 4 1 * (4 * 3 + 1) * (7420 - 1) ^ 2 < 2 ^ 31 ∧ ¬ dimension 4 1 * (4 * 3 + 1) * (7422 - 1) ^ 2 < 2 ^ 31 := by decide +kernel
example := C135_search_mod_p (lim := 7) (ω := pop0) 4 1 7420 (by decide) (by decide) (by decide) (by decide +kernel)

/-- C135: for larger `p` the 32-bit integers of the search do overflow: `symmetric_table` of `JonesSummand(2, 1, 65537)` raises, because
`65536^2` wraps around to 0, whereas with exact integers it succeeds. -/
theorem C135_search_refuted : ∃ (sm : Summand (dimension 2 1)) (tab : _) (e : Err), summand 2 1 65537 = .ok sm ∧ sm.table = .ok tab ∧ sm.tableW 32 = .error e := by
  obtain ⟨sm, ρ, tab, s1, s2, -⟩ := C54_symmetric_table 2 1 65537 (by decide) (by decide) (by decide)
  have h : (summand 2 1 65537 >>= fun sm => sm.tableW 32).isOk = false := by decide_cbv
  rw [s1, bind_ok] at h
  cases hT : sm.tableW 32 with
  | ok t => rw [hT] at h; cases h
  | error e => exact ⟨sm, tab, e, s1, s2, hT⟩

/-! ## Over the integers -/

/-- C135: over the integers (`p = 0`) the evaluators of `JonesCellRep` do not overflow on braids whose normal form has at most 62
crossings (the half twist counts once if its exponent is odd). -/
theorem C135_integers (n r : Nat) (hn : 2 ≤ n) (hl : n < lim) (h : 2 * r ≤ n) :
    ∃ (rep : RepBase (dimension n r)) (ρ : Braid n →* LMat 0 (dimension n r)), cellRep n r 0 = .ok rep ∧
      (∀ (xs : List NF) (len : Nat), xs ≠ [] → (∀ x ∈ xs, IsGNF lim ω n x ∧ NF.canonicalLength x = len ∧
          (x.power % 2).toNat * (n * (n - 1) / 2) + (x.factors.map fun f => inv (permAt n f)).sum ≤ 62) →
        ∃ A, rep.evalSameW 64 (GNF.tbl lim ω) xs = .ok A ∧ rep.evalSame (GNF.tbl lim ω) xs = .ok A ∧ IsProjImage 0 A (fun i => ρ (gnfBraid n xs[i])) ∧
          ∀ i : Fin xs.length, ∃ m, rep.evaluate (GNF.tbl lim ω) xs[i] = .ok m ∧ m.denMod 0 (dimension n r) = ρ (gnfBraid n xs[i])) ∧
      (∀ seqs : List (List Nat), (∀ fs ∈ seqs, (fs.map fun f => inv (permAt n f)).sum ≤ 62) →
        rep.evalIntegersW 64 (GNF.tbl lim ω) seqs = rep.evalIntegers (GNF.tbl lim ω) seqs) := by
  obtain ⟨ρ, G, I, gs, g1, g2, -, -, hF, hd⟩ := C54_hypotheses n r 0 hn h
  refine ⟨_, ρ, g1, fun xs len hne hx => ?_, fun seqs hs => cell_int_integers hn hl h g1 g2 hd (w := 64) (m := 62) (by norm_num) (by norm_num) seqs hs⟩
  obtain ⟨A, a1, a2, -⟩ := C55_same_length hn hl g2 hF hd (by show (0 : Nat) ≠ 1; decide) xs hne len fun x hm => ⟨(hx x hm).1, (hx x hm).2.1⟩
  have e := cell_int_same (ω := ω) hn hl h g1 g2 hd (w := 64) (m := 62) (by norm_num) (by norm_num) xs fun x hm => ⟨(hx x hm).1, (hx x hm).2.2⟩
  refine ⟨A, e.trans a1, a1, a2, fun i => ?_⟩
  obtain ⟨m, m1, -, m3⟩ := C53_evaluate hn hl g2 hd (by show (0 : Nat) ≠ 1; decide) xs[i] (hx _ (List.getElem_mem _)).1
  exact ⟨m, m1, m3⟩

theorem shortBraids : ∀ x ∈ ([⟨3, -2, [3, 4, 2]⟩, ⟨3, 1, [4, 2, 2]⟩] : List NF), IsGNF 7 pop0 3 x ∧ NF.canonicalLength x = 3 ∧
    (x.power % 2).toNat * (3 * (3 - 1) / 2) + (x.factors.map fun f => inv (permAt 3 f)).sum ≤ 62 := by
  intro x hx
  obtain ⟨h1, h2⟩ := gnfAB x hx
  have hinv : ∀ f, inv (permAt 3 f) ≤ 3 := fun f => by
    obtain ⟨u, -, u2, -, u4⟩ := lift_word (permAt 3 f)
    omega
  refine ⟨h1, h2, ?_⟩
  rw [NF.canonicalLength] at h2
  have h3 : (x.factors.map fun f => inv (permAt 3 f)).sum ≤ (x.factors.map fun f => inv (permAt 3 f)).length * 3 :=
    List.sum_le_card_nsmul _ 3 fun y hy => by obtain ⟨f, -, rfl⟩ := List.mem_map.1 hy; exact hinv f
  rw [List.length_map, h2] at h3
  have : (x.power % 2).toNat ≤ 1 := by omega
  omega

example := (C135_integers (lim := 7) (ω := pop0) 3 1 (by decide) (by decide) (by decide)).choose_spec.choose_spec.2.1 _ 3 (by decide) shortBraids

/-- C135: the same for the evaluators of `JonesSummand` over the integers, for up to eleven strands. -/
theorem C135_search_integers (n r : Nat) (hn : 2 ≤ n) (hn' : n ≤ 11) (hl : n < lim) (h : 2 * r ≤ n) :
    ∃ sm : Summand (dimension n r), summand n r 0 = .ok sm ∧ sm.tableW 64 = sm.table ∧
      ∀ xs : List NF, (∀ x ∈ xs, IsGNF lim ω n x ∧ (x.power % 2).toNat * (n * (n - 1) / 2) + (x.factors.map fun f => inv (permAt n f)).sum ≤ 62) →
        BraidSearch.evalSameW 64 (GNF.tbl lim ω) sm xs = BraidSearch.evalSame (GNF.tbl lim ω) sm xs ∧
        evalPrefixesW 64 (GNF.tbl lim ω) sm xs = evalPrefixes (GNF.tbl lim ω) sm xs ∧
        evaluateBraidsW 64 (GNF.tbl lim ω) sm xs = evaluateBraids (GNF.tbl lim ω) sm xs ∧
        ∀ x ∈ xs, evaluateBraidFactorsW 64 (GNF.tbl lim ω) sm x = evaluateBraidFactors (GNF.tbl lim ω) sm x := by
  obtain ⟨ρ, G, I, gs, g1, g2, g3, g4, hF, hd⟩ := C54_hypotheses n r 0 hn h
  have S : IntSetup n r 62 64 G I gs ρ := ⟨hn, h, g1, g2, g4, hF, hd, by norm_num, by norm_num⟩
  have hm : n * (n - 1) / 2 ≤ 62 := by interval_cases n <;> simp
  exact ⟨_, g3, tableW_int S hm, fun xs hx => ⟨(evals_int S hm hl xs hx).1, (evals_int S hm hl xs hx).2, evaluateBraids_int S hm hl xs hx,
    fun x hm' => evaluateBraidFactors_int S hm hl x (hx x hm').1 (hx x hm').2⟩⟩

example := (C135_search_integers (lim := 7) (ω := pop0) 3 1 (by decide) (by decide) (by decide) (by decide)).choose_spec.2.2 _ fun x h => ⟨(shortBraids x h).1, (shortBraids x h).2.2⟩

/-- C135: over the integers, for up to eleven strands, the evaluators of `JonesCellRep` always succeed, however long the braids are, and
what they return is right modulo `2^64`: reduced modulo `2^64` it is the result of `JonesCellRep(n, r, 2^64)` with exact integers. -/
theorem C135_wraps (n r : Nat) (hn : 2 ≤ n) (hn' : n ≤ 11) (hl : n < lim) (h : 2 * r ≤ n) (xs : List NF) (hne : xs ≠ []) (len : Nat)
    (hx : ∀ x ∈ xs, IsGNF lim ω n x ∧ NF.canonicalLength x = len) :
    ∃ (rep rep' : RepBase (dimension n r)) (A A' : _), cellRep n r 0 = .ok rep ∧ cellRep n r (2 ^ 64) = .ok rep' ∧
      rep.evalSameW 64 (GNF.tbl lim ω) xs = .ok A ∧ rep'.evalSame (GNF.tbl lim ω) xs = .ok A' ∧ modp (2 ^ 64) A = A' ∧
      ∀ S ∈ A, ∀ a i j, -(2 ^ 63 : ℤ) ≤ S a i j ∧ S a i j < 2 ^ 63 := by
  obtain ⟨ρ, G, I, gs, g1, g2, -, -, hF, hd⟩ := C54_hypotheses n r 0 hn h
  have hm : n * (n - 1) / 2 < 64 - 1 := by interval_cases n <;> simp
  obtain ⟨A, a1, a2, a3⟩ := cell_wrap (w := 64) hn hl h g1 g2 hF hd hm xs hne len hx
  obtain ⟨G', I', k1, k2, k3⟩ := cell_homMod (q := 2 ^ 64) hn h g1 g2 hF
  obtain ⟨A', b1, b2, -⟩ := C55_same_length hn hl k2 k3 hd (by show (2 ^ 64 : Nat) ≠ 1; norm_num) xs hne len hx
  exact ⟨_, _, A, A', g1, k1, a1, b1, a3.unique b2, a2⟩

example := C135_wraps (lim := 7) (ω := pop0) 3 1 (by decide) (by decide) (by decide) (by decide) _ (by decide) 3 gnfAB

namespace Bur
theorem coeff_const (K : Type*) [CommRing K] (c : K) (k : ℤ) : (C c : K[T;T⁻¹]).coeff k = if 0 = k then c else 0 := by
  have h : (C c : K[T;T⁻¹]) = AddMonoidAlgebra.single 0 c := rfl
  rw [h, AddMonoidAlgebra.coeff_single, Finsupp.single_apply]

theorem coeff_pden_neg (K : Type*) [CommRing K] (f : List ℤ) (k : ℤ) (hk : k < 0) : (pden K f).coeff k = 0 := by
  induction f generalizing k with
  | nil => rw [pden]; rfl
  | cons c f ih =>
    rw [pden, show (T 1 * pden K f : K[T;T⁻¹]) = T 1 * pden K f from rfl]
    have h1 : (C (c : K) + T 1 * pden K f : K[T;T⁻¹]).coeff k = (C (c : K) : K[T;T⁻¹]).coeff k + (T 1 * pden K f : K[T;T⁻¹]).coeff k := rfl
    rw [h1, coeff_T_mul, ih (k - 1) (by omega), add_zero, coeff_const, if_neg (by omega)]

theorem coeff_pden (K : Type*) [CommRing K] (f : List ℤ) (k : Nat) : (pden K f).coeff (k : ℤ) = ((f.getD k 0 : ℤ) : K) := by
  induction f generalizing k with
  | nil => rw [pden]; simp
  | cons c f ih =>
    rw [pden]
    have h1 : (C (c : K) + T 1 * pden K f : K[T;T⁻¹]).coeff (k : ℤ) = (C (c : K) : K[T;T⁻¹]).coeff (k : ℤ) + (T 1 * pden K f : K[T;T⁻¹]).coeff (k : ℤ) := rfl
    rw [h1, coeff_T_mul, coeff_const]
    cases k with
    | zero => rw [coeff_pden_neg K f _ (by omega)]; simp
    | succ k => rw [show ((k + 1 : Nat) : ℤ) - 1 = (k : ℤ) by push_cast; ring, ih k, if_neg (by omega)]; simp

end Bur

/-- The word `(σ₁ σ₂⁻¹)^49`. -/
def longWord : List (Nat × Bool) := (List.replicate 49 [(0, true), (1, false)]).flatten

theorem long_coeff : ((Bur.prun 0 longWord (Bur.unit 98 2 0)).map fun xs => ((xs.getD 0 []).getD 100 0)) = some (-13186681001379939167) := by decide +kernel

/-- C135: over the integers the claim fails for longer braids: for the three-strand braid `(σ₁ σ₂⁻¹)^49` the evaluator of `JonesCellRep(3, 1, 0)`
returns, without an error, an image that is not the image computed with exact integers (which has a coefficient -13186681001379939167). -/
theorem C135_refuted (hl : 3 < lim) : ∃ (x : NF) (rep : RepBase (dimension 3 1)) (A B : _), IsGNF lim ω 3 x ∧
    gnfBraid 3 x = (sigma 3 0 * (sigma 3 1)⁻¹) ^ 49 ∧ cellRep 3 1 0 = .ok rep ∧
    rep.evalSameW 64 (GNF.tbl lim ω) [x] = .ok A ∧ rep.evalSame (GNF.tbl lim ω) [x] = .ok B ∧ A ≠ B := by
  obtain ⟨x, hx, hb⟩ := C15_surjective (ω := ω) (by norm_num) hl (Bur.sword 3 longWord)
  obtain ⟨ρ, G, I, gs, g1, g2, -, -, hF, hd⟩ := C54_hypotheses 3 1 0 (by norm_num) (by norm_num)
  have hx' : ∀ y ∈ [x], IsGNF lim ω 3 y ∧ NF.canonicalLength y = x.factors.length := by simpa using ⟨hx, rfl⟩
  obtain ⟨A, a1, a2, -⟩ := cell_wrap (w := 64) (by norm_num) hl (by norm_num) g1 g2 hF hd (by norm_num) [x] (by simp) _ hx'
  obtain ⟨B, b1, b2, -⟩ := C55_same_length (by norm_num) hl g2 hF hd (by show (0 : Nat) ≠ 1; decide) [x] (by simp) _ hx'
  have hw : Bur.sword 3 longWord = (sigma 3 0 * (sigma 3 1)⁻¹) ^ 49 := by
    have : ∀ k, Bur.sword 3 (List.replicate k [(0, true), (1, false)]).flatten = (sigma 3 0 * (sigma 3 1)⁻¹) ^ k := by
      intro k
      induction k with
      | zero => simp [Bur.sword]
      | succ k ih => rw [List.replicate_succ, List.flatten_cons, Bur.sword_append, ih, pow_succ']; simp [Bur.sword]
    exact this 49
  refine ⟨x, _, A, B, hx, hb.trans hw, g1, a1, b1, ?_⟩
  rintro rfl
  obtain ⟨e, he⟩ := Bur.realises_burau (by norm_num) g1 g2
  -- the entry of the matrix
  obtain ⟨ys, y1, y2⟩ : ∃ ys, Bur.prun 0 longWord (Bur.unit 98 2 0) = some ys ∧ (ys.getD 0 []).getD 100 0 = -13186681001379939167 := by
    have h := long_coeff
    cases hr : Bur.prun 0 longWord (Bur.unit 98 2 0) with
    | none => rw [hr] at h; cases h
    | some ys => rw [hr] at h; exact ⟨ys, rfl, by simpa using h⟩
  have v1 := (Bur.prun_vec (ZMod 0) (by decide +kernel) y1).1
  rw [Bur.unit_vec (ZMod 0) 98 2 0 (by norm_num), map_smul] at v1
  have v2 := Bur.ext_word (n := 3) (Bur.vT (ZMod 0)) longWord (by decide +kernel) (Pi.single 0 1)
  have e0 : (Bur.ext (n := 3) (Pi.single 0 1 : Fin (3 - 1) → (ZMod 0)[T;T⁻¹])) = Pi.single 0 1 := by
    funext j
    rcases j with _ | _ | j <;> simp [Bur.ext, Pi.single_apply]
  rw [e0] at v2
  rw [← v2] at v1
  have v3 := congrFun v1 0
  have v4 : Bur.pden (ZMod 0) (ys.getD 0 []) = (T 98 : (ZMod 0)[T;T⁻¹]) * Bur.rep 3 (Bur.vT (ZMod 0)) (Bur.sword 3 longWord) 0 0 := by
    have : Bur.vec (ZMod 0) ys 0 = Bur.pden (ZMod 0) (ys.getD 0 []) := rfl
    rw [← this, v3, Pi.smul_apply, smul_eq_mul]
    simp [Bur.ext]
  have v5 : (Bur.pden (ZMod 0) (ys.getD 0 [])).coeff ((100 : Nat) : ℤ) = _ := congrArg (fun f : (ZMod 0)[T;T⁻¹] => f.coeff ((100 : Nat) : ℤ)) v4
  rw [Bur.coeff_pden, y2, Bur.coeff_T_mul] at v5
  -- the entry of the image
  obtain ⟨k, hk⟩ := b2.shift ⟨0, by simp⟩
  have hk' : Polymat.denMod 0 A ⟨0, by simp⟩ = (T k : (ZMod 0)[T;T⁻¹]) • ρ (Bur.sword 3 longWord) := by rw [← hb]; exact hk
  have h1 : Polymat.denMod 0 A ⟨0, by simp⟩ (e.symm 0) (e.symm 0) = T k * ρ (Bur.sword 3 longWord) (e.symm 0) (e.symm 0) := by
    rw [hk', _root_.Matrix.smul_apply, smul_eq_mul]
  have h2 : (Polymat.denMod 0 A ⟨0, by simp⟩ (e.symm 0) (e.symm 0)).coeff (k + 2) = (T k * ρ (Bur.sword 3 longWord) (e.symm 0) (e.symm 0) : (ZMod 0)[T;T⁻¹]).coeff (k + 2) := by rw [h1]
  rw [Bur.coeff_T_mul, he, _root_.Matrix.submatrix_apply, Equiv.apply_symm_apply, show k + 2 - k = ((100 : Nat) : ℤ) - 98 by push_cast; ring, ← v5] at h2
  rw [coeff_denMod] at h2
  split at h2
  · have f := a2.slice (k + 2).toNat ⟨0, by simp⟩ (e.symm 0) (e.symm 0)
    have h3 : slice A (k + 2).toNat ⟨0, by simp⟩ (e.symm 0) (e.symm 0) = -13186681001379939167 := by exact_mod_cast h2
    rw [h3] at f
    exact absurd f (by decide +kernel)
  · exact absurd h2 (by decide +kernel)

example := C135_refuted (lim := 7) (ω := pop0) (by decide)

end Peyl
