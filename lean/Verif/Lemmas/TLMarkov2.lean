import Verif.Lemmas.TLMarkov
import Mathlib.Algebra.BigOperators.Ring.Finset
/-!
# Dimension count and the formula for the Markov trace
-/
namespace Peyl
open LaurentPolynomial
namespace TL
open TLDiag

theorem Crossingless.even {D : List Nat} (hD : Crossingless D) : D.length % 2 = 0 := by
  have : ∑ i ∈ Finset.range D.length, (1 : ZMod 2) = 0 := by
    refine Finset.sum_involution (fun i _ => at_ D i) ?_ ?_ ?_ ?_
    · intro i _; decide
    · intro i hi _; exact hD.nofix i (Finset.mem_range.1 hi)
    · intro i hi; exact Finset.mem_range.2 (hD.lt i (Finset.mem_range.1 hi))
    · intro i hi; exact hD.invol i (Finset.mem_range.1 hi)
  rw [Finset.sum_const, Finset.card_range, nsmul_eq_mul, mul_one, ZMod.natCast_eq_zero_iff] at this
  omega

theorem Cell.le {n t : Nat} {D : List Nat} (h : Cell n t D) : t ≤ n ∧ (n + t) % 2 = 0 := by
  have hl := h.len
  refine ⟨?_, by rw [← hl]; exact h.nc.even⟩
  have : Function.Injective (fun i : Fin t => (⟨at_ D i - t, by have := h.nc.lt i (by omega); have := h.up i i.2; omega⟩ : Fin n)) := by
    intro i j e
    have e := congrArg Fin.val e
    dsimp only at e
    have h1 := h.up i i.2
    have h2 := h.up j j.2
    have : at_ D i = at_ D j := by omega
    ext
    rw [← h.nc.invol i (by omega), this, h.nc.invol j (by omega)]
  simpa using Fintype.card_le_of_injective _ this

/-- The number of cell diagrams. -/
noncomputable def cellCount (n t : Nat) : ℤ := Fintype.card (CellD n t)

theorem cellCount_zero {n t : Nat} (h : n < t ∨ (n + t) % 2 = 1) : cellCount n t = 0 := by
  have : IsEmpty (CellD n t) := ⟨fun d => by have := d.2.2.2.le; omega⟩
  rw [cellCount, Fintype.card_eq_zero]; rfl

/-- The basis as a list of cell diagrams. -/
noncomputable def basisEquiv {n r : Nat} {B : List TLDiag} (b2 : B.Nodup) (b4 : ∀ d, d ∈ B ↔ d.top = n ∧ d.bot = n - 2 * r ∧ Cell n (n - 2 * r) d.seq) :
    Fin B.length ≃ CellD n (n - 2 * r) :=
  Equiv.ofBijective (fun i => ⟨B[i], (b4 _).1 (List.getElem_mem _)⟩) ⟨fun i j e => by
    have := congrArg Subtype.val e
    exact Fin.ext ((List.Nodup.getElem_inj_iff b2).1 this), fun d => by
    obtain ⟨i, hi, e⟩ := List.getElem_of_mem ((b4 d.1).2 d.2)
    exact ⟨⟨i, hi⟩, Subtype.ext e⟩⟩

theorem cellCount_eq {n r : Nat} (h : 2 * r ≤ n) : cellCount n (n - 2 * r) = cellDim n r := by
  obtain ⟨B, b1, b2, b3, b4, b5⟩ := cellBasis_spec n r h
  rw [cellCount, ← Fintype.card_congr (basisEquiv b2 b4), Fintype.card_fin, b5]

theorem cellCount_succ (n t : Nat) : cellCount (n + 1) (t + 1) = cellCount n t + cellCount n (t + 2) := by
  by_cases h : n < t ∨ (n + t) % 2 = 1
  · rw [cellCount_zero (n := n + 1) (t := t + 1) (by omega), cellCount_zero h, cellCount_zero (n := n) (t := t + 2) (by omega)]; rfl
  · obtain ⟨r, hr⟩ : ∃ r, n = t + 2 * r := ⟨(n - t) / 2, by omega⟩
    have e1 : cellCount (n + 1) (t + 1) = cellDim (n + 1) r := by
      rw [← cellCount_eq (by omega)]; congr 1; omega
    have e2 : cellCount n t = cellDim n r := by
      rw [← cellCount_eq (by omega)]; congr 1; omega
    rw [e1, e2]
    cases r with
    | zero => rw [cellDim_zero, cellDim_zero, cellCount_zero (by omega)]; rfl
    | succ r =>
      have e3 : cellCount n (t + 2) = cellDim n r := by
        rw [← cellCount_eq (by omega)]; congr 1; omega
      rw [e3, cellDim_succ]

theorem cellCount_succ_zero (n : Nat) : cellCount (n + 1) 0 = cellCount n 1 := by
  by_cases h : n % 2 = 0
  · rw [cellCount_zero (n := n + 1) (t := 0) (by omega), cellCount_zero (by omega)]
  · obtain ⟨r, rfl⟩ : ∃ r, n = 2 * r + 1 := ⟨n / 2, by omega⟩
    have e1 : cellCount (2 * r + 1 + 1) 0 = cellDim (2 * r + 1 + 1) (r + 1) := by
      rw [← cellCount_eq (by omega)]; congr 1; omega
    have e2 : cellCount (2 * r + 1) 1 = cellDim (2 * r + 1) r := by
      rw [← cellCount_eq (by omega)]; congr 1; omega
    rw [e1, e2, cellDim_succ, cellDim_mid, zero_add]

/-- Quantum integers. -/
noncomputable def qint (t : Nat) : ℤ[T;T⁻¹] := (LPoly.quantumInteger t).den

theorem T_sub_ne_zero : (T 1 - T (-1) : ℤ[T;T⁻¹]) ≠ 0 := by
  intro h
  have := congrArg (fun f => f.coeff 1) h
  simp at this

theorem qint_zero : qint 0 = 0 := by
  have := LPoly.quantum_spec 0
  rw [neg_zero, sub_self] at this
  exact (mul_eq_zero.1 this).resolve_right T_sub_ne_zero

theorem qint_rec (t : Nat) : dl * qint (t + 1) = qint (t + 2) + qint t := by
  have h := fun t : Nat => LPoly.quantum_spec t
  apply mul_right_cancel₀ T_sub_ne_zero
  unfold qint
  rw [mul_assoc, h (t + 1), add_mul _ _ (T 1 - T (-1)), h (t + 2), h t, dl]
  simp only [mul_sub, add_mul, ← T_add]
  push_cast
  ring_nf

/-- `δ^n = Σ_t [t+1] dim(t)`. -/
theorem dim_formula (n : Nat) : ∑ t ∈ Finset.range (n + 1), (cellCount n t : ℤ[T;T⁻¹]) * qint (t + 1) = dl ^ n := by
  induction n with
  | zero =>
    have : cellCount 0 0 = 1 := by
      have := cellCount_eq (n := 0) (r := 0) (by omega)
      rw [cellDim_zero] at this
      exact this
    rw [Finset.sum_range_one, this, pow_zero, Int.cast_one, one_mul]
    apply mul_right_cancel₀ T_sub_ne_zero
    unfold qint
    rw [LPoly.quantum_spec]; simp
  | succ n ih =>
    rw [pow_succ', ← ih, Finset.sum_range_succ', Finset.mul_sum]
    have e1 : ∀ t, dl * ((cellCount n t : ℤ[T;T⁻¹]) * qint (t + 1)) = (cellCount n t : ℤ[T;T⁻¹]) * qint (t + 2) + (cellCount n t : ℤ[T;T⁻¹]) * qint t := by
      intro t; rw [mul_left_comm, qint_rec, mul_add]
    simp only [e1, cellCount_succ, cellCount_succ_zero, Int.cast_add, add_mul, Finset.sum_add_distrib]
    rw [add_assoc]
    congr 1
    have e2 : ∑ t ∈ Finset.range (n + 1), (cellCount n t : ℤ[T;T⁻¹]) * qint t = ∑ t ∈ Finset.range (n + 1 + 1 + 1), (cellCount n t : ℤ[T;T⁻¹]) * qint t := by
      rw [Finset.sum_range_succ _ (n + 1 + 1), Finset.sum_range_succ _ (n + 1), cellCount_zero (n := n) (t := n + 1) (by omega),
        cellCount_zero (n := n) (t := n + 1 + 1) (by omega)]
      simp
    rw [e2, Finset.sum_range_succ' _ (n + 1 + 1), Finset.sum_range_succ' _ (n + 1), qint_zero, mul_zero, add_zero]

/-- The weighted sum of the traces on the cell modules. -/
noncomputable def cellTrace (n : Nat) (d : TLDiag) : ℤ[T;T⁻¹] := ∑ t ∈ Finset.range (n + 1), qint (t + 1) * (act t n n d).trace

theorem act_trace_zero {n t : Nat} (h : n < t ∨ (n + t) % 2 = 1) (d : TLDiag) : (act t n n d).trace = 0 := by
  have : IsEmpty (CellD n t) := ⟨fun d => by have := d.2.2.2.le; omega⟩
  rw [_root_.Matrix.trace, Finset.univ_eq_empty, Finset.sum_empty]

theorem cellTrace_extend {n N : Nat} (h : n + 1 ≤ N) (d : TLDiag) : cellTrace n d = ∑ t ∈ Finset.range N, qint (t + 1) * (act t n n d).trace := by
  rw [cellTrace]
  refine Finset.sum_subset (Finset.range_mono h) fun t _ ht => ?_
  rw [act_trace_zero (by rw [Finset.mem_range] at ht; omega), mul_zero]

theorem cellTrace_tracial : Tracial cellTrace := by
  intro n m x y hx hy h1 h2 h3 h4
  rw [cellTrace_extend (N := n + m + 1) (by omega), cellTrace_extend (N := n + m + 1) (by omega), Finset.mul_sum, Finset.mul_sum]
  refine Finset.sum_congr rfl fun t _ => ?_
  rw [mul_left_comm, act_trace_cyclic hx hy h1 h2 h3 h4, mul_left_comm]

theorem cellTrace_id (n : Nat) : cellTrace n (idD n) = dl ^ n := by
  rw [← dim_formula, cellTrace]
  refine Finset.sum_congr rfl fun t _ => ?_
  rw [idD, act_id, Matrix.trace_one, cellCount, mul_comm]
  simp

theorem loops_tracial : Tracial fun _ d => dl ^ d.trc := by
  intro n m x y hx hy h1 h2 h3 h4
  dsimp only
  rw [← pow_add, ← pow_add, trc_cyclic hx hy (by omega) (by omega)]

/-- Closing a diagram up counts loops; the count is a weighted sum of traces on the cell modules. -/
theorem loops_eq_cellTrace {n : Nat} {d : TLDiag} (hd : d.Ok) (h1 : d.top = n) (h2 : d.bot = n) : dl ^ d.trc = cellTrace n d :=
  tracial_unique (f := fun _ d => dl ^ d.trc) loops_tracial cellTrace_tracial (fun n => by
    rw [cellTrace_id]
    congr 1
    exact trc_id n) n d hd h1 h2

/-- The same, over the indices `r` of the cell modules. -/
theorem cellTrace_r (n : Nat) (d : TLDiag) : cellTrace n d = ∑ r ∈ Finset.range (n / 2 + 1), qint (n - 2 * r + 1) * (act (n - 2 * r) n n d).trace := by
  have hinj : Set.InjOn (fun r => n - 2 * r) (Finset.range (n / 2 + 1) : Set Nat) := by
    intro a ha b hb e
    simp only [Finset.coe_range, Set.mem_Iio] at ha hb
    dsimp only at e
    omega
  rw [cellTrace, ← Finset.sum_image (f := fun t => qint (t + 1) * (act t n n d).trace) (g := fun r => n - 2 * r) hinj]
  symm
  refine Finset.sum_subset (fun t ht => ?_) fun t ht hnot => ?_
  · obtain ⟨r, hr, rfl⟩ := Finset.mem_image.1 ht
    exact Finset.mem_range.2 (by omega)
  · rw [act_trace_zero, mul_zero]
    by_contra hc
    apply hnot
    have := Finset.mem_range.1 ht
    exact Finset.mem_image.2 ⟨(n - t) / 2, Finset.mem_range.2 (by omega), by omega⟩

end TL

namespace TLMor
variable {m : TLMor}

theorem ev_finset_sum {α : Type*} (s : Finset α) (G : α → TLDiag → ℤ[T;T⁻¹]) : m.ev (fun d => ∑ x ∈ s, G x d) = ∑ x ∈ s, m.ev (G x) := by
  classical
  induction s using Finset.induction with
  | empty => simp [ev]
  | insert a s ha ih => simp only [Finset.sum_insert ha, ev_add_fun, ih]

end TLMor

namespace Jones
open TL TLDiag

/-- The matrix of `m` on a cell module, indexed by cell diagrams. -/
theorem coeffOn_act {m : TLMor} {n t : Nat} (b b' : CellD n t) : coeffOn m b.1 b'.1 = m.ev fun x => act t n n x b' b := by
  classical
  rw [coeffOn]
  refine TLMor.ev_congr_fun fun s _ => ?_
  rw [act]

theorem cellMatrix_trace {m : TLMor} (hm : m.WF) {n r : Nat} (ht : m.top = n) (hb : m.bot = n) (h : 2 * r ≤ n) {B : List TLDiag} {M : Matrix}
    (hB : cellBasis n r = .ok B) (hM : cellMatrix m r = .ok M) :
    (M.den B.length B.length).trace = m.ev fun d => (act (n - 2 * r) n n d).trace := by
  obtain ⟨B', b1, b2, b3, b4, b5⟩ := cellBasis_spec n r h
  rw [hB] at b1; cases b1
  obtain ⟨M', m1, m2, m3, m4⟩ := cellMatrix_spec hm ht hb hB (fun d hd => (b4 d).1 hd) (dimension_pos h b4)
  rw [hM] at m1; cases m1
  simp only [_root_.Matrix.trace, _root_.Matrix.diag]
  rw [TLMor.ev_finset_sum, ← Equiv.sum_comp (basisEquiv b2 b4)]
  refine Finset.sum_congr rfl fun i _ => ?_
  rw [m4, ← coeffOn_act]
  rfl

theorem cellMatrix_mul {a b c : TLMor} (ha : a.WF) (hb : b.WF) {n r : Nat} (a1 : a.top = n) (a2 : a.bot = n) (b1 : b.top = n) (b2 : b.bot = n) (h : 2 * r ≤ n)
    (hc : TLMor.mul a b = .ok c) : ∃ B A' B' C', cellBasis n r = .ok B ∧ cellMatrix a r = .ok A' ∧ cellMatrix b r = .ok B' ∧ cellMatrix c r = .ok C' ∧
      A'.Shape B.length B.length ∧ B'.Shape B.length B.length ∧ C'.Shape B.length B.length ∧
      C'.den B.length B.length = A'.den B.length B.length * B'.den B.length B.length := by
  classical
  obtain ⟨B, B1, B2, B3, B4, B5⟩ := cellBasis_spec n r h
  obtain ⟨c', c1, c2, c3, c4, c5⟩ := TLMor.mul_coef ha hb (by omega)
  rw [hc] at c1; cases c1
  have hB := fun d hd => (B4 d).1 hd
  have hne := dimension_pos h B4
  obtain ⟨A', A1, A2, A3, A4⟩ := cellMatrix_spec ha a1 a2 B1 hB hne
  obtain ⟨B', C1, C2, C3, C4⟩ := cellMatrix_spec hb b1 b2 B1 hB hne
  obtain ⟨C', D1, D2, D3, D4⟩ := cellMatrix_spec c2 (by omega) (by omega) B1 hB hne
  refine ⟨B, A', B', C', B1, A1, C1, D1, A2, C2, D2, ?_⟩
  have key : ∀ (m : TLMor) (i j : Fin B.length), coeffOn m B[j] B[i] = m.ev fun x => act (n - 2 * r) n n x (basisEquiv B2 B4 i) (basisEquiv B2 B4 j) :=
    fun m i j => coeffOn_act (basisEquiv B2 B4 j) (basisEquiv B2 B4 i)
  refine Matrix.ext fun i j => ?_
  rw [Matrix.mul_apply]
  simp only [A4, C4, D4, key]
  rw [TLMor.mul_ev ha hb (by omega) hc]
  have e : ∀ k, (a.ev fun x => act (n - 2 * r) n n x (basisEquiv B2 B4 i) (basisEquiv B2 B4 k)) * (b.ev fun x => act (n - 2 * r) n n x (basisEquiv B2 B4 k) (basisEquiv B2 B4 j)) =
      a.ev fun x => b.ev fun y => act (n - 2 * r) n n x (basisEquiv B2 B4 i) (basisEquiv B2 B4 k) * act (n - 2 * r) n n y (basisEquiv B2 B4 k) (basisEquiv B2 B4 j) := by
    intro k
    rw [mul_comm, ← TLMor.ev_mul_fun]
    refine TLMor.ev_congr_fun fun t _ => ?_
    rw [mul_comm, ← TLMor.ev_mul_fun]
  simp only [e]
  rw [← TLMor.ev_finset_sum]
  refine TLMor.ev_congr_fun fun t ht => ?_
  rw [← TLMor.ev_finset_sum]
  refine TLMor.ev_congr_fun fun s hs => ?_
  have := congrFun (congrFun (act_mul (t := n - 2 * r) (n := n) (m := n) (k := n) (ha.good t ht) (hb.good s hs) (by rw [(ha.type t ht).1, a1]) (by rw [(ha.type t ht).2, a2])
    (by rw [(hb.type s hs).1, b1]) (by rw [(hb.type s hs).2, b2])) (basisEquiv B2 B4 i)) (basisEquiv B2 B4 j)
  rw [Matrix.mul_apply, Matrix.smul_apply, smul_eq_mul] at this
  rw [← this]
  exact (Equiv.sum_comp (basisEquiv B2 B4) fun k => act (n - 2 * r) n n t.1 (basisEquiv B2 B4 i) k * act (n - 2 * r) n n s.1 k (basisEquiv B2 B4 j)).symm

/-- The Markov trace as a weighted sum of matrix traces. -/
theorem trace_formula {m : TLMor} (hm : m.WF) {n : Nat} (ht : m.top = n) (hb : m.bot = n) {p : LPoly} (hp : TLMor.trace m = .ok p) :
    p.den = ∑ r ∈ Finset.range (n / 2 + 1), qint (n - 2 * r + 1) * m.ev fun d => (act (n - 2 * r) n n d).trace := by
  obtain ⟨p', p1, p2, p3⟩ := TLMor.trace_spec hm (by omega)
  rw [hp] at p1; cases p1
  rw [p3]
  have : (fun d : TLDiag => (T 1 + T (-1) : ℤ[T;T⁻¹]) ^ d.trc) = fun d => dl ^ d.trc := rfl
  rw [this]
  calc m.ev (fun d => dl ^ d.trc) = m.ev fun d => ∑ r ∈ Finset.range (n / 2 + 1), qint (n - 2 * r + 1) * (act (n - 2 * r) n n d).trace := by
        refine TLMor.ev_congr_fun fun t hs => ?_
        rw [loops_eq_cellTrace (n := n) (hm.good t hs) (by rw [(hm.type t hs).1, ht]) (by rw [(hm.type t hs).2, hb]), cellTrace_r]
    _ = _ := by
        rw [TLMor.ev_finset_sum]
        exact Finset.sum_congr rfl fun r _ => TLMor.ev_mul_fun _ _

end Jones
end Peyl
