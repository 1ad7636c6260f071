import Verif.Model.Jones
import Verif.Lemmas.TLEv
import Verif.Lemmas.TLCellBasis
import Verif.Lemmas.CellTwist
import Verif.Lemmas.Matrix
/-!
# The matrices computed by `cell_matrix`, and those of the generators
-/
namespace Peyl
open LaurentPolynomial
namespace TLMor
variable {m a b c : TLMor}

theorem coefficient_spec (hm : m.WF) {d : TLDiag} (h1 : m.top = d.top) (h2 : m.bot = d.bot) :
    ∃ q, coefficient m d = .ok q ∧ q.Trimmed ∧ q.den = m.coef d := by
  rw [coefficient, if_neg (by simp [h1, h2]), get?]
  refine ⟨_, rfl, ?_⟩
  cases hf : m.terms.find? fun t => t.1 == d with
  | none =>
    rw [Option.map_none, Option.getD_none]
    refine ⟨LPoly.trimmed_make _ _, ?_⟩
    rw [coef, coefIn_not_mem]
    · rw [LPoly.den_make]; simp [listPoly]
    · intro hd
      obtain ⟨t, ht, e⟩ := List.mem_map.1 hd
      have := List.find?_eq_none.1 hf t ht
      simp [e] at this
  | some t =>
    have ht := List.mem_of_find?_eq_some hf
    have e : t.1 = d := by have := List.find?_some hf; simpa using this
    refine ⟨(hm.coeff t ht).1, ?_⟩
    rw [← e, coef, coefIn_mem hm.nodup ht]; rfl

theorem coefIn_filter (p : TLDiag → Bool) (ts : List (TLDiag × LPoly)) (d : TLDiag) :
    coefIn (ts.filter fun t => p t.1) d = if p d = true then coefIn ts d else 0 := by
  induction ts with
  | nil => simp [coefIn]
  | cons t ts ih =>
    rw [List.filter_cons, coefIn_cons]
    by_cases hp : p t.1 = true
    · rw [if_pos hp, coefIn_cons, ih]
      by_cases hd : t.1 = d
      · subst hd; simp [hp]
      · rw [if_neg hd, zero_add, zero_add]
    · rw [if_neg hp, ih]
      by_cases hd : t.1 = d
      · subst hd; simp [hp]
      · rw [if_neg hd, zero_add]

theorem quotient_spec (hm : m.WF) (k : Nat) : ∃ q, quotient m k = .ok q ∧ q.WF ∧ q.top = m.top ∧ q.bot = m.bot ∧
    ∀ d, q.coef d = if k ≤ d.through then m.coef d else 0 := by
  obtain ⟨q, h1, h2, h3, h4, h5⟩ := make_spec (top := m.top) (bot := m.bot) (ts := m.terms.filter fun t => TL.throughStrands t.1 ≥ k)
    (hm.nodup.sublist (List.filter_sublist.map _))
    (fun t ht => by
      have := (List.mem_filter.1 ht).1
      exact ⟨(hm.type t this).1, (hm.type t this).2, hm.good t this, (hm.coeff t this).1⟩)
  refine ⟨q, h1, h2, h3, h4, fun d => ?_⟩
  rw [h5, coefIn_filter fun d => TL.throughStrands d ≥ k, TL.through_eq]
  simp only [ge_iff_le, decide_eq_true_eq]
  rfl

/-- `smul (subScalar (e i) c) (-c')` for inverse scalars `c`, `c'`. -/
theorem gen_spec {i n : Nat} (hi : i + 1 < n) {c c' : LPoly} (hc : c.den * c'.den = 1) {e : TLMor} (he : TLMor.e i n = .ok e) :
    ∃ g, (do smul (← subScalar e c) (LPoly.neg c')) = .ok g ∧ g.WF ∧ g.top = n ∧ g.bot = n ∧
      ∀ d, g.coef d = (([(⟨n, n, TL.eSeq i n⟩, -c'.den), (⟨n, n, TL.idSeq n⟩, 1)] : List (TLDiag × ℤ[T;T⁻¹])).map fun t => if t.1 = d then t.2 else 0).sum := by
  obtain ⟨e', e1, e2, e3, e4, e5⟩ := e_spec hi
  rw [he] at e1; cases e1
  obtain ⟨x, x1, x2, x3, x4, x5⟩ := addScalar_spec e2 (by rw [e3, e4]) (LPoly.neg c)
  obtain ⟨g, g1, g2, g3, g4, g5⟩ := smul_spec x2 (LPoly.neg c')
  refine ⟨g, by rw [subScalar, x1, bind_ok, g1], g2, by rw [g3, x3, e3], by rw [g4, x4, e4], fun d => ?_⟩
  rw [g5, x5, e5, e3, LPoly.den_neg, LPoly.den_neg]
  simp only [List.map_cons, List.map_nil, List.sum_cons, List.sum_nil, add_zero]
  split_ifs
  · linear_combination hc
  · ring
  · linear_combination hc
  · ring

theorem gen_ev {i n : Nat} {x : ℤ[T;T⁻¹]} {g : TLMor}
    (hg : ∀ d, g.coef d = (([(⟨n, n, TL.eSeq i n⟩, x), (⟨n, n, TL.idSeq n⟩, 1)] : List (TLDiag × ℤ[T;T⁻¹])).map fun t => if t.1 = d then t.2 else 0).sum)
    (G : TLDiag → ℤ[T;T⁻¹]) : g.ev G = x * G ⟨n, n, TL.eSeq i n⟩ + G ⟨n, n, TL.idSeq n⟩ := by
  rw [ev_of_coef _ hg]; simp

/-- The assertion of `tl_gens_invs`. -/
theorem gen_mul_inv {i n : Nat} (hi : i + 1 < n) {x y : ℤ[T;T⁻¹]} (hxy : x * y = 1) (hsum : x + y = -(T 1 + T (-1))) {g g' : TLMor} (h : g.WF) (h' : g'.WF)
    (ht : g.top = n ∧ g.bot = n) (ht' : g'.top = n ∧ g'.bot = n)
    (hg : ∀ d, g.coef d = (([(⟨n, n, TL.eSeq i n⟩, x), (⟨n, n, TL.idSeq n⟩, 1)] : List (TLDiag × ℤ[T;T⁻¹])).map fun t => if t.1 = d then t.2 else 0).sum)
    (hg' : ∀ d, g'.coef d = (([(⟨n, n, TL.eSeq i n⟩, y), (⟨n, n, TL.idSeq n⟩, 1)] : List (TLDiag × ℤ[T;T⁻¹])).map fun t => if t.1 = d then t.2 else 0).sum) :
    mul g g' = TLMor.id n := by
  obtain ⟨c, c1, c2, c3, c4, c5⟩ := mul_coef h h' (by rw [ht.2, ht'.1])
  obtain ⟨u, u1, u2, u3, u4, u5⟩ := id_spec n
  rw [c1, u1]
  refine congrArg Except.ok (WF.ext c2 u2 (by rw [c3, u3, ht.1]) (by rw [c4, u4, ht'.2]) fun d => ?_)
  have okE : (⟨n, n, TL.eSeq i n⟩ : TLDiag).Ok := ⟨by rw [TL.eSeq_length]; dsimp only; omega, TL.eSeq_nc hi⟩
  have okI : (⟨n, n, TL.idSeq n⟩ : TLDiag).Ok := ⟨by simp; omega, TL.idSeq_nc n⟩
  obtain ⟨p1, p2⟩ := prod_e_right hi okE rfl
  obtain ⟨p3, p4⟩ := prod_id_left okE rfl
  obtain ⟨p5, p6⟩ := prod_id_right okE rfl
  obtain ⟨p7, p8⟩ := prod_id_right okI rfl
  obtain ⟨q1, q2⟩ := TL.act_act (TL.idSeq_nc n) (k := i) (by simp; omega)
  rw [← TL.eSeq_eq hi] at q1 q2
  dsimp only at p1 p2
  rw [q1] at p1; rw [q2] at p2
  rw [c5, u5, gen_ev hg, gen_ev hg', gen_ev hg', p1, p2, p3, p4, p5, p6, p7, p8]
  simp only [pow_zero, pow_one]
  split_ifs
  · linear_combination (T 1 + T (-1)) * hxy + hsum
  · linear_combination (T 1 + T (-1)) * hxy + hsum
  · ring
  · ring

end TLMor

namespace Jones
open TL

/-- The matrix coefficients of the action of `m` on diagrams. -/
noncomputable def coeffOn (m : TLMor) (b b' : TLDiag) : ℤ[T;T⁻¹] :=
  m.ev fun x => if TLDiag.prodD x b = b' then (T 1 + T (-1)) ^ TLDiag.prodL x b else 0

theorem cellColumn_spec {m : TLMor} (hm : m.WF) {n r : Nat} (ht : m.top = n) (hb : m.bot = n) {B : List TLDiag}
    (hB : ∀ d ∈ B, d.top = n ∧ d.bot = n - 2 * r ∧ Cell n (n - 2 * r) d.seq) {b : TLDiag} (hbB : b ∈ B) :
    ∃ f : TLDiag → LPoly, cellColumn m r B b = .ok (B.map f) ∧ ∀ b' ∈ B, (f b').Trimmed ∧ (f b').den = coeffOn m b b' := by
  obtain ⟨b1, b2, b3⟩ := hB b hbB
  have hok : ∀ d ∈ B, d.Ok := fun d hd => ⟨by rw [(hB d hd).1, (hB d hd).2.1, (hB d hd).2.2.len], (hB d hd).2.2.nc⟩
  obtain ⟨s, s1, s2, s3, s4, s5⟩ := TLMor.fromDiag_spec (hok b hbB)
  obtain ⟨c, c1, c2, c3, c4, c5⟩ := TLMor.mul_coef hm s2 (by rw [hb, s3, b1])
  obtain ⟨q, q1, q2, q3, q4, q5⟩ := TLMor.quotient_spec c2 (m.top - 2 * r)
  have hco : ∀ b', ∃ p, b' ∈ B → TLMor.coefficient q b' = .ok p ∧ p.Trimmed ∧ p.den = coeffOn m b b' := by
    intro b'
    by_cases hb' : b' ∈ B
    · obtain ⟨t1, t2, t3⟩ := hB b' hb'
      obtain ⟨p, p1, p2, p3⟩ := TLMor.coefficient_spec (d := b') q2 (by rw [q3, c3, ht, t1]) (by rw [q4, c4, s4, b2, t2])
      refine ⟨p, fun _ => ⟨p1, p2, ?_⟩⟩
      have hth : b'.through = b'.bot := (cell_iff b' (hok b' hb')).1 (by rw [t1, t2]; exact t3)
      rw [p3, q5, if_pos (by rw [hth, t2, ht]), c5, coeffOn]
      congr 1
      funext x
      rw [TLMor.ev_single s5]
    · exact ⟨LPoly.make 0 [], fun h => absurd h hb'⟩
  choose f hf using hco
  refine ⟨f, ?_, fun b' hb' => (hf b' hb').2⟩
  rw [cellColumn, TLMor.mulDiag, s1, bind_ok, c1, bind_ok, q1, bind_ok]
  exact mapM_ok _ _ _ fun b' hb' => (hf b' hb').1

theorem foldl_min (l : List (List LPoly)) (k : Nat) (h : ∀ c ∈ l, c.length = k) : l.foldl (fun m c => min m c.length) k = k := by
  induction l with
  | nil => rfl
  | cons c l ih => rw [List.foldl_cons, h c (List.mem_cons_self ..), min_self, ih fun x hx => h x (List.mem_cons_of_mem _ hx)]

theorem zipStar_eq (cols : List (List LPoly)) (d : Nat) (hne : cols ≠ []) (h : ∀ c ∈ cols, c.length = d) :
    zipStar cols = (List.range d).map fun i => cols.map fun c => Entry.lp (c.getD i (LPoly.make 0 [])) := by
  cases cols with
  | nil => exact absurd rfl hne
  | cons c cs =>
    rw [zipStar, h c (List.mem_cons_self ..), foldl_min cs d fun x hx => h x (List.mem_cons_of_mem _ hx)]

/-- `cell_matrix` returns the matrix of the action on the span of the cell diagrams. -/
theorem cellMatrix_spec {m : TLMor} (hm : m.WF) {n r : Nat} (ht : m.top = n) (hb : m.bot = n) {B : List TLDiag} (hBr : cellBasis n r = .ok B)
    (hB : ∀ d ∈ B, d.top = n ∧ d.bot = n - 2 * r ∧ Cell n (n - 2 * r) d.seq) (hne : B ≠ []) :
    ∃ M, cellMatrix m r = .ok M ∧ M.Shape B.length B.length ∧ (∀ x ∈ M.data, ∃ q, x = .lp q) ∧
      ∀ i j, M.den B.length B.length i j = coeffOn m B[j] B[i] := by
  have hcol : ∀ b, ∃ f : TLDiag → LPoly, b ∈ B → cellColumn m r B b = .ok (B.map f) ∧ ∀ b' ∈ B, (f b').Trimmed ∧ (f b').den = coeffOn m b b' := by
    intro b
    by_cases hbB : b ∈ B
    · obtain ⟨f, hf⟩ := cellColumn_spec hm ht hb hB hbB
      exact ⟨f, fun _ => hf⟩
    · exact ⟨fun _ => LPoly.make 0 [], fun h => absurd h hbB⟩
  choose Q hQ using hcol
  have hpos : 0 < B.length := List.length_pos_iff.2 hne
  obtain ⟨d0, hd0⟩ := List.exists_mem_of_ne_nil B hne
  set F : Nat → Nat → Entry := fun i j => Entry.lp (Q (B.getD j d0) (B.getD i d0)) with hF
  have hget : ∀ i, B.getD i d0 ∈ B := by
    intro i
    by_cases hi : i < B.length
    · rw [List.getD_eq_getElem?_getD, List.getElem?_eq_getElem hi, Option.getD_some]; exact List.getElem_mem _
    · rw [List.getD_eq_getElem?_getD, List.getElem?_eq_none (by omega), Option.getD_none]; exact hd0
  have hrows : zipStar (B.map fun b => B.map (Q b)) = (List.range B.length).map fun i => (List.range B.length).map fun j => F i j := by
    rw [zipStar_eq _ B.length (by simpa using hne) (by simp)]
    refine List.map_congr_left fun i hi => ?_
    have hi := List.mem_range.1 hi
    rw [List.map_map]
    apply List.ext_getElem (by simp)
    intro j h1 h2
    have hj : j < B.length := by simpa using h1
    simp only [List.getElem_map, Function.comp_apply, List.getElem_range, hF]
    simp [hi, hj]
  have hF' : ∀ i j, (F i j).Ok := fun i j => ((hQ _ (hget j)).2 _ (hget i)).1
  have hsh := Matrix.shape_tabulate B.length B.length F hF'
  refine ⟨⟨B.length, B.length, Matrix.tabulate B.length B.length F⟩, ?_, hsh, ?_, fun i j => ?_⟩
  · rw [cellMatrix, pyAssert, if_pos (by simp [ht, hb]), bind_ok, hb, hBr, bind_ok, mapM_ok _ (fun b => B.map (Q b)) _ (fun b hb => (hQ b hb).1), bind_ok, hrows]
    obtain ⟨k, hk⟩ : ∃ k, B.length = k + 1 := ⟨B.length - 1, by omega⟩
    rw [Matrix.fromRows.eq_def]
    split
    · next h => simp [hk] at h
    · next r rs h =>
      have hr : r.length = B.length := by
        have : r ∈ ((List.range B.length).map fun i => (List.range B.length).map fun j => F i j) := by rw [h]; exact List.mem_cons_self ..
        obtain ⟨i, -, rfl⟩ := List.mem_map.1 this
        simp
      rw [if_pos, hr]
      · have := (Matrix.make_shape (r := B.length) (c := B.length) (d := Matrix.tabulate B.length B.length F) (Matrix.length_tabulate _ _ _) hsh.ok).1
        rw [← this, List.length_map, List.length_range]
        rw [Matrix.tabulate, List.flatMap_def]
      · rw [hr, List.all_eq_true]
        intro x hx
        obtain ⟨i, -, rfl⟩ := List.mem_map.1 hx
        simp
  · intro x hx
    simp only [Matrix.tabulate, List.mem_flatMap, List.mem_map] at hx
    obtain ⟨i, -, j, -, rfl⟩ := hx
    exact ⟨_, rfl⟩
  · rw [Matrix.den_apply hsh, Matrix.at_tabulate _ _ _ _ _ i.2 j.2]
    have := ((hQ _ (hget j)).2 _ (hget i)).2
    simp only [hF, Entry.den]
    rw [this]
    simp
end Jones
end Peyl
