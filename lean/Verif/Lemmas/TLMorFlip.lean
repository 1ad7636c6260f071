import Verif.Lemmas.TLMorAlg
import Verif.Lemmas.TLMarkov2
import Verif.Model.TLCell
/-!
# Flips of products, matrices of left multiplication
-/
namespace Peyl
open LaurentPolynomial

namespace TLMor
variable {a b m : TLMor}

/-- Functionals of a flipped morphism. -/
theorem flip_ev (hm : m.WF) {f : Bool} {x : TLMor} (hx : flip m f = .ok x) (G : TLDiag → ℤ[T;T⁻¹]) :
    x.ev G = (m.terms.map fun t => invert t.2.den * G t.1.upsideDown).sum := by
  obtain ⟨x', x1, x2, x3, x4, x5⟩ := flip_spec hm f
  rw [hx] at x1; cases x1
  rw [ev_of_coef (m := x) (m.terms.map fun t => (t.1.upsideDown, invert t.2.den)), List.map_map]
  · rfl
  · intro d
    by_cases hd : d.Ok
    · rw [x5 d hd, coef, coefIn, List.map_map, map_list_sum, List.map_map]
      refine congrArg List.sum (List.map_congr_left fun t ht => ?_)
      simp only [Function.comp_apply]
      by_cases e : t.1 = d.upsideDown
      · rw [if_pos e, if_pos (by rw [e, TLDiag.upsideDown_upsideDown hd])]
      · rw [if_neg e, if_neg (fun h => e (by rw [← h, TLDiag.upsideDown_upsideDown (hm.good t ht)])), map_zero]
    · have h1 : x.coef d = 0 := by by_contra h; exact hd (coef_ne_zero_type x2 h).2.2
      rw [h1, List.map_map]
      symm
      apply List.sum_eq_zero
      intro y hy
      obtain ⟨t, ht, rfl⟩ := List.mem_map.1 hy
      simp only [Function.comp_apply]
      rw [if_neg]
      rintro rfl
      exact hd (TLDiag.upsideDown_ok (hm.good t ht))

theorem invert_dl : invert (T 1 + T (-1) : ℤ[T;T⁻¹]) = T 1 + T (-1) := by
  rw [map_add, invert_T, invert_T, neg_neg, add_comm]

theorem invert_ev (m : TLMor) (G : TLDiag → ℤ[T;T⁻¹]) : invert (m.ev G) = (m.terms.map fun t => invert t.2.den * invert (G t.1)).sum := by
  rw [ev, map_list_sum, List.map_map]
  congr 2
  funext t
  simp

theorem flip_mul (ha : a.WF) (hb : b.WF) (h : a.bot = b.top) (f : Bool) : ∃ ab fa fb x, mul a b = .ok ab ∧ flip a f = .ok fa ∧ flip b f = .ok fb ∧
    flip ab f = .ok x ∧ mul fb fa = .ok x := by
  obtain ⟨ab, ab1, ab2, ab3, ab4, ab5⟩ := mul_coef ha hb h
  obtain ⟨fa, fa1, fa2, fa3, fa4, fa5⟩ := flip_spec ha f
  obtain ⟨fb, fb1, fb2, fb3, fb4, fb5⟩ := flip_spec hb f
  obtain ⟨x, x1, x2, x3, x4, x5⟩ := flip_spec ab2 f
  obtain ⟨y, y1, y2, y3, y4, y5⟩ := mul_coef fb2 fa2 (by omega)
  refine ⟨ab, fa, fb, x, ab1, fa1, fb1, x1, ?_⟩
  rw [y1]
  refine congrArg Except.ok (WF.ext y2 x2 (by omega) (by omega) fun d => ?_)
  by_cases hd : d.Ok
  · rw [x5 d hd, ab5, invert_ev, y5, flip_ev hb fb1]
    -- exchange the two sums
    have e1 : ∀ s : TLDiag × LPoly, s ∈ b.terms → (fa.ev fun y => if TLDiag.prodD s.1.upsideDown y = d then (T 1 + T (-1)) ^ TLDiag.prodL s.1.upsideDown y else 0) =
        (a.terms.map fun t => invert t.2.den * (if TLDiag.prodD t.1 s.1 = d.upsideDown then (T 1 + T (-1)) ^ TLDiag.prodL t.1 s.1 else 0)).sum := by
      intro s hs
      rw [flip_ev ha fa1]
      refine congrArg List.sum (List.map_congr_left fun t ht => ?_)
      obtain ⟨p1, p2⟩ := TLDiag.prod_upsideDown (ha.good t ht) (hb.good s hs) (by rw [(ha.type t ht).2, (hb.type s hs).1, h])
      rw [← p1, ← p2]
      have ho := (TLDiag.mul_ok (ha.good t ht) (hb.good s hs) (by rw [(ha.type t ht).2, (hb.type s hs).1, h])).2.2.2.2
      congr 1
      refine if_congr ⟨fun e => ?_, fun e => ?_⟩ rfl rfl
      · rw [← e, TLDiag.upsideDown_upsideDown ho]
      · rw [e, TLDiag.upsideDown_upsideDown hd]
    have e2 : (b.terms.map fun s => invert s.2.den * (fa.ev fun y => if TLDiag.prodD s.1.upsideDown y = d then (T 1 + T (-1)) ^ TLDiag.prodL s.1.upsideDown y else 0)).sum =
        (b.terms.map fun s => (a.terms.map fun t => invert t.2.den * invert s.2.den * (if TLDiag.prodD t.1 s.1 = d.upsideDown then (T 1 + T (-1)) ^ TLDiag.prodL t.1 s.1 else 0)).sum).sum := by
      refine congrArg List.sum (List.map_congr_left fun s hs => ?_)
      rw [e1 s hs, ← List.sum_map_mul_left]
      congr 2
      funext t
      ring
    have e3 : (a.terms.map fun t => invert t.2.den * invert (b.ev fun y => if TLDiag.prodD t.1 y = d.upsideDown then (T 1 + T (-1)) ^ TLDiag.prodL t.1 y else 0)).sum =
        (a.terms.map fun t => (b.terms.map fun s => invert t.2.den * invert s.2.den * (if TLDiag.prodD t.1 s.1 = d.upsideDown then (T 1 + T (-1)) ^ TLDiag.prodL t.1 s.1 else 0)).sum).sum := by
      refine congrArg List.sum (List.map_congr_left fun t ht => ?_)
      rw [invert_ev, ← List.sum_map_mul_left]
      congr 2
      funext s
      rw [← mul_assoc]
      congr 1
      split
      · rw [map_pow, invert_dl]
      · rw [map_zero]
    rw [e2, e3]
    have comm : ∀ (l1 : List (TLDiag × LPoly)) (l2 : List (TLDiag × LPoly)) (F : TLDiag × LPoly → TLDiag × LPoly → ℤ[T;T⁻¹]),
        (l2.map fun s => (l1.map fun t => F t s).sum).sum = (l1.map fun t => (l2.map fun s => F t s).sum).sum := by
      intro l1 l2 F
      induction l1 with
      | nil => simp
      | cons t l1 ih => simp only [List.map_cons, List.sum_cons, List.sum_map_add, ih]
    exact comm _ _ _
  · have h1 : y.coef d = 0 := by by_contra h; exact hd (coef_ne_zero_type y2 h).2.2
    have h2 : x.coef d = 0 := by by_contra h; exact hd (coef_ne_zero_type x2 h).2.2
    rw [h1, h2]

theorem flip_trace (hm : m.WF) (h : m.top = m.bot) (f : Bool) : ∃ x p q, flip m f = .ok x ∧ trace m = .ok p ∧ trace x = .ok q ∧ q.den = invert p.den := by
  obtain ⟨x, x1, x2, x3, x4, x5⟩ := flip_spec hm f
  obtain ⟨p, p1, p2, p3⟩ := trace_spec hm h
  obtain ⟨q, q1, q2, q3⟩ := trace_spec x2 (by omega)
  refine ⟨x, p, q, x1, p1, q1, ?_⟩
  rw [q3, p3, flip_ev hm x1, invert_ev]
  refine congrArg List.sum (List.map_congr_left fun t ht => ?_)
  rw [TLDiag.trc_upsideDown (hm.good t ht) (by rw [(hm.type t ht).1, (hm.type t ht).2, h]), map_pow, invert_dl]

end TLMor

namespace TLCell
open TL Jones

/-- `project_leftmult_matrix` computes the matrix of `cell_matrix`. -/
theorem project_eq {m : TLMor} (hm : m.WF) {n r : Nat} (ht : m.top = n) (hb : m.bot = n) (h : 2 * r ≤ n) :
    projectLeftmultMatrix ⟨n, r⟩ m = cellMatrix m r := by
  obtain ⟨B, b1, b2, b3, b4, b5⟩ := cellBasis_spec n r h
  have hB := fun d hd => (b4 d).1 hd
  have hcol : ∀ b, ∃ f : TLDiag → LPoly, b ∈ B → cellColumn m r B b = .ok (B.map f) ∧ column ⟨n, r⟩ m B b = .ok (B.map f) := by
    intro b
    by_cases hbB : b ∈ B
    swap
    · exact ⟨fun _ => LPoly.make 0 [], fun h => absurd h hbB⟩
    obtain ⟨f, f1, -⟩ := cellColumn_spec hm ht hb hB hbB
    refine ⟨f, fun _ => ⟨f1, ?_⟩⟩
    obtain ⟨t1, t2, t3⟩ := hB b hbB
    obtain ⟨s, s1, s2, s3, s4, s5⟩ := TLMor.fromDiag_spec (d := b) ⟨by rw [t1, t2, t3.len], t3.nc⟩
    obtain ⟨c, c1, c2, c3, c4, c5⟩ := TLMor.mul_coef hm s2 (by rw [hb, s3, t1])
    obtain ⟨q, q1, q2, q3, q4, q5⟩ := TLMor.quotient_spec c2 (m.top - 2 * r)
    have hq : B.mapM (fun b' => TLMor.coefficient q b') = .ok (B.map fun b' => (TLMor.get? q.terms b').getD (LPoly.make 0 [])) := by
      apply mapM_ok
      intro b' hb'
      rw [TLMor.coefficient, if_neg]
      rw [q3, q4, c3, c4, s4, (hB b' hb').1, (hB b' hb').2.1, t2, ht]
      simp
    rw [cellColumn, TLMor.mulDiag, s1, bind_ok, c1, bind_ok, q1, bind_ok, hq] at f1
    have e : ((n : Int) - 2 * (r : Int)).toNat = m.top - 2 * r := by omega
    rw [column]
    dsimp only
    rw [TLMor.mulDiag, s1, bind_ok, c1, bind_ok, e, q1, bind_ok]
    exact f1
  choose Q hQ using hcol
  have hdim : dim ⟨n, r⟩ = .ok (B.length : Int) := by
    rw [dim, Int.toNat_natCast, Int.toNat_natCast, cellDimension, pyAssert, if_pos (by simpa using h), bind_ok, b5]; rfl
  rw [projectLeftmultMatrix, hdim, bind_ok, basisDiagrams]
  dsimp only
  rw [Int.toNat_natCast, Int.toNat_natCast, b1, bind_ok, mapM_ok _ (fun b => B.map (Q b)) _ fun b hb => (hQ b hb).2, bind_ok,
    cellMatrix, pyAssert, if_pos (by simp [ht, hb]), bind_ok, hb, b1, bind_ok, mapM_ok _ (fun b => B.map (Q b)) _ fun b hb => (hQ b hb).1, bind_ok,
    zipStar_eq _ B.length (by simpa using dimension_pos h b4) (by simp), Int.toNat_natCast]

end TLCell
end Peyl
