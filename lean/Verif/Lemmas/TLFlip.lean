import Verif.Lemmas.TLEv
import Verif.Lemmas.TLCellBasis
/-!
# Upside-down diagrams
-/
namespace Peyl
open LaurentPolynomial
namespace TLDiag

/-- The picture of `d` turned upside down: the point `i` is matched to `j` iff `N-1-i` was matched to `N-1-j`. -/
def upsideDown (d : TLDiag) : TLDiag := ⟨d.bot, d.top, d.seq.reverse.map fun i => d.top + d.bot - 1 - i⟩

theorem upsideDown_length (d : TLDiag) : d.upsideDown.seq.length = d.seq.length := by simp [upsideDown]

theorem at_upsideDown {d : TLDiag} (hd : d.Ok) {i : Nat} (hi : i < d.seq.length) :
    TL.at_ d.upsideDown.seq i = d.seq.length - 1 - TL.at_ d.seq (d.seq.length - 1 - i) := by
  have h1 := hd.1
  have : i < d.upsideDown.seq.length := by rw [upsideDown_length]; exact hi
  rw [TL.at_lt _ _ this, TL.at_lt _ _ (by omega : d.seq.length - 1 - i < d.seq.length)]
  simp only [upsideDown, List.getElem_map, List.getElem_reverse]
  omega

theorem upsideDown_ok {d : TLDiag} (hd : d.Ok) : d.upsideDown.Ok := by
  have h1 := hd.1
  have hl := upsideDown_length d
  refine ⟨by rw [hl]; simp only [upsideDown]; omega, fun i hi => ?_, fun i hi => ?_, fun i hi => ?_, fun a b ha hb h1 h2 h3 => ?_⟩
  · rw [hl] at hi ⊢; rw [at_upsideDown hd hi]; omega
  · rw [hl] at hi
    rw [at_upsideDown hd hi]
    have := hd.2.nofix (d.seq.length - 1 - i) (by omega)
    have := hd.2.lt (d.seq.length - 1 - i) (by omega)
    omega
  · rw [hl] at hi
    have h3 := hd.2.lt (d.seq.length - 1 - i) (by omega)
    rw [at_upsideDown hd hi, at_upsideDown hd (by omega), show d.seq.length - 1 - (d.seq.length - 1 - TL.at_ d.seq (d.seq.length - 1 - i))
      = TL.at_ d.seq (d.seq.length - 1 - i) by omega, hd.2.invol _ (by omega)]
    omega
  · rw [hl] at ha hb
    rw [at_upsideDown hd ha] at h2 h3
    rw [at_upsideDown hd hb] at h3
    have l1 := hd.2.lt (d.seq.length - 1 - a) (by omega)
    have l2 := hd.2.lt (d.seq.length - 1 - b) (by omega)
    have i1 := hd.2.invol (d.seq.length - 1 - a) (by omega)
    have i2 := hd.2.invol (d.seq.length - 1 - b) (by omega)
    refine hd.2.noncross (TL.at_ d.seq (d.seq.length - 1 - b)) (TL.at_ d.seq (d.seq.length - 1 - a)) l2 l1 (by omega) ?_ ?_ <;> omega

theorem flip_ok {d : TLDiag} (hd : d.Ok) : d.flip = .ok d.upsideDown := by
  have := upsideDown_ok hd
  exact make_ok (top := d.bot) (bot := d.top) (seq := d.upsideDown.seq) this.1 this.2

theorem upsideDown_upsideDown {d : TLDiag} (hd : d.Ok) : d.upsideDown.upsideDown = d := by
  refine ext' rfl rfl (TL.ext_at (by rw [upsideDown_length, upsideDown_length]) fun i hi => ?_)
  rw [upsideDown_length, upsideDown_length] at hi
  have l := hd.2.lt i hi
  rw [at_upsideDown (upsideDown_ok hd) (by rw [upsideDown_length]; exact hi), upsideDown_length, at_upsideDown hd (by omega),
    show d.seq.length - 1 - (d.seq.length - 1 - i) = i by omega]
  omega

end TLDiag

namespace TLMor
variable {m : TLMor}

theorem evaluate_vinv (q : LPoly) : ∃ r, q.evaluate (LPoly.make (-1) [1]) = .ok r ∧ r.Trimmed ∧ r.den = invert q.den := by
  have hx : (LPoly.make (-1) [1]).den = T (-1) := by
    rw [LPoly.den_make]; simp [listPoly]
  have hu : IsUnit (T (-1) : ℤ[T;T⁻¹]) := isUnit_T _
  obtain ⟨r, r1, r2, r3⟩ := LPoly.evaluate_unit q (x := LPoly.make (-1) [1]) (LPoly.trimmed_make _ _) hu.unit (by rw [hx]; rfl)
  refine ⟨r, r1, r2, r3.trans ?_⟩
  generalize q.den = f
  induction f using LaurentPolynomial.induction_on' with
  | add p q hp hq => rw [map_add, map_add, hp, hq]
  | C_mul_T k a =>
    rw [map_mul, map_mul, invert_C, invert_T, LaurentPolynomial.eval₂_C, LaurentPolynomial.eval₂_T]
    congr 1
    have : hu.unit = (isUnit_T (R := ℤ) (-1)).unit := rfl
    have key : ∀ (u : (ℤ[T;T⁻¹])ˣ), (u : ℤ[T;T⁻¹]) = T (-1) → ∀ k : ℤ, ((u ^ k : (ℤ[T;T⁻¹])ˣ) : ℤ[T;T⁻¹]) = T (-k) := by
      intro u hu k
      have hv : ((u⁻¹ : (ℤ[T;T⁻¹])ˣ) : ℤ[T;T⁻¹]) = T 1 := by
        rw [Units.inv_eq_of_mul_eq_one_right]; rw [hu, ← T_add]; simp
      induction k using Int.induction_on with
      | zero => simp
      | succ i ih => rw [zpow_add_one, Units.val_mul, ih, hu, ← T_add]; congr 1; omega
      | pred i ih => rw [zpow_sub_one, Units.val_mul, ih, hv, ← T_add]; congr 1; omega
    exact key _ rfl k

theorem invert_eq_zero {f : ℤ[T;T⁻¹]} : invert f = 0 ↔ f = 0 := by
  constructor
  · intro h; exact invert.injective (by rw [h, map_zero])
  · rintro rfl; exact map_zero _

/-- `flip`, whatever the flag. -/
theorem flip_spec (hm : m.WF) (b : Bool) : ∃ x, flip m b = .ok x ∧ x.WF ∧ x.top = m.bot ∧ x.bot = m.top ∧
    ∀ d : TLDiag, d.Ok → x.coef d = invert (m.coef d.upsideDown) := by
  choose ev e1 e2 e3 using evaluate_vinv
  have hmap : (m.terms.mapM fun t => do Except.ok (ε := Err) (← t.1.flip, ← t.2.evaluate (LPoly.make (-1) [1]))) =
      .ok (m.terms.map fun t => (t.1.upsideDown, ev t.2)) := by
    apply TL.mapM_ok
    intro t ht
    rw [TLDiag.flip_ok (hm.good t ht), bind_ok, e1, bind_ok]
  have hk : ((m.terms.map fun t => (t.1.upsideDown, ev t.2)).map (·.1)).Nodup := by
    rw [List.map_map]
    have := hm.nodup
    rw [List.nodup_map_iff_inj_on (List.Nodup.of_map _ this)] at this
    rw [List.nodup_map_iff_inj_on (List.Nodup.of_map _ hm.nodup)]
    intro t ht s hs e
    apply this t ht s hs
    have := congrArg TLDiag.upsideDown e
    simpa only [Function.comp_apply, TLDiag.upsideDown_upsideDown (hm.good t ht), TLDiag.upsideDown_upsideDown (hm.good s hs)] using this
  obtain ⟨x, x1, x2, x3, x4, x5⟩ := make_spec (top := m.bot) (bot := m.top) hk (by
    intro t ht
    obtain ⟨s, hs, rfl⟩ := List.mem_map.1 ht
    have h1 := hm.type s hs
    exact ⟨h1.2, h1.1, TLDiag.upsideDown_ok (hm.good s hs), e2 _⟩)
  refine ⟨x, ?_, x2, x3, x4, fun d hd => ?_⟩
  · rw [flip, hmap, bind_ok, x1]
  · rw [x5, coef, coefIn, coefIn, map_list_sum, List.map_map, List.map_map]
    refine congrArg List.sum (List.map_congr_left fun t ht => ?_)
    simp only [Function.comp_apply]
    have : t.1.upsideDown = d ↔ t.1 = d.upsideDown := by
      constructor
      · rintro rfl; rw [TLDiag.upsideDown_upsideDown (hm.good t ht)]
      · intro e; rw [e, TLDiag.upsideDown_upsideDown hd]
    by_cases h : t.1.upsideDown = d
    · rw [if_pos h, if_pos (this.1 h), e3]
    · rw [if_neg h, if_neg (fun e => h (this.2 e)), map_zero]

/-- Products of single diagrams. -/
theorem mul_single {a b : TLMor} (ha : a.WF) (hb : b.WF) (h : a.bot = b.top) {x y z : TLDiag} {k : Nat} (hx : ∀ d, a.coef d = if x = d then 1 else 0)
    (hy : ∀ d, b.coef d = if y = d then 1 else 0) (hz : TLDiag.prodD x y = z) (hk : TLDiag.prodL x y = k) :
    ∃ c, mul a b = .ok c ∧ c.WF ∧ c.top = a.top ∧ c.bot = b.bot ∧ ∀ d, c.coef d = if z = d then (T 1 + T (-1)) ^ k else 0 := by
  obtain ⟨c, c1, c2, c3, c4, c5⟩ := mul_coef ha hb h
  refine ⟨c, c1, c2, c3, c4, fun d => ?_⟩
  rw [c5, ev_single hx, ev_single hy, hz, hk]

end TLMor
end Peyl
