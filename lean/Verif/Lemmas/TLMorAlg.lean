import Verif.Lemmas.TLAlg
/-!
# The category algebra: morphisms
-/
namespace Peyl
open LaurentPolynomial
namespace TLMor
variable {a b c m : TLMor}

theorem ev_congr_fun {G H : TLDiag → ℤ[T;T⁻¹]} (h : ∀ t ∈ m.terms, G t.1 = H t.1) : m.ev G = m.ev H := by
  rw [ev, ev]
  exact congrArg List.sum (List.map_congr_left fun t ht => by rw [h t ht])

/-- Functionals of a sum. -/
theorem add_ev (h : ∀ d, c.coef d = a.coef d + b.coef d) (G : TLDiag → ℤ[T;T⁻¹]) : c.ev G = a.ev G + b.ev G := by
  rw [ev_of_coef (m := c) ((a.terms.map fun t => (t.1, t.2.den)) ++ (b.terms.map fun t => (t.1, t.2.den))) (fun d => by
    rw [h, List.map_append, List.sum_append, coef_eq, coef_eq]), List.map_append, List.sum_append, ← ev_eq, ← ev_eq]

theorem smul_ev {q : ℤ[T;T⁻¹]} (h : ∀ d, c.coef d = a.coef d * q) (G : TLDiag → ℤ[T;T⁻¹]) : c.ev G = a.ev G * q := by
  rw [ev_of_coef (m := c) (a.terms.map fun t => (t.1, t.2.den * q)) (fun d => by
    rw [h, coef_eq, List.map_map, List.map_map, ← List.sum_map_mul_right]
    congr 2
    funext t
    simp only [Function.comp_apply]
    split <;> simp), ev, List.map_map, ← List.sum_map_mul_right]
  congr 2
  funext t
  simp only [Function.comp_apply]
  ring

theorem mul_assoc' (ha : a.WF) (hb : b.WF) (hc : c.WF) (h1 : a.bot = b.top) (h2 : b.bot = c.top) :
    ∃ ab bc x, mul a b = .ok ab ∧ mul b c = .ok bc ∧ mul ab c = .ok x ∧ mul a bc = .ok x := by
  obtain ⟨ab, ab1, ab2, ab3, ab4, ab5⟩ := mul_coef ha hb h1
  obtain ⟨bc, bc1, bc2, bc3, bc4, bc5⟩ := mul_coef hb hc h2
  obtain ⟨x, x1, x2, x3, x4, x5⟩ := mul_coef ab2 hc (by omega)
  obtain ⟨y, y1, y2, y3, y4, y5⟩ := mul_coef ha bc2 (by omega)
  refine ⟨ab, bc, x, ab1, bc1, x1, ?_⟩
  rw [y1]
  refine congrArg Except.ok (WF.ext y2 x2 (by omega) (by omega) fun d => ?_)
  rw [x5, y5, mul_ev ha hb h1 ab1]
  refine ev_congr_fun fun t ht => ?_
  rw [mul_ev hb hc h2 bc1]
  refine ev_congr_fun fun s hs => ?_
  rw [← ev_mul_fun]
  refine ev_congr_fun fun r hr => ?_
  obtain ⟨e1, e2⟩ := TLDiag.prod_assoc (ha.good t ht) (hb.good s hs) (hc.good r hr)
    (by rw [(ha.type t ht).2, (hb.type s hs).1, h1]) (by rw [(hb.type s hs).2, (hc.type r hr).1, h2])
  rw [e1]
  split
  · rw [← pow_add, ← pow_add, e2]
  · rw [mul_zero, mul_zero]

/-- The product distributes over sums, on both sides. -/
theorem add_mul' (ha : a.WF) (hb : b.WF) (hc : c.WF) (h1 : a.top = b.top) (h2 : a.bot = b.bot) (h3 : a.bot = c.top) :
    ∃ s x y z, add a b = .ok s ∧ mul s c = .ok z ∧ mul a c = .ok x ∧ mul b c = .ok y ∧ add x y = .ok z := by
  obtain ⟨s, s1, s2, s3, s4, s5⟩ := add_spec ha hb h1 h2
  obtain ⟨z, z1, z2, z3, z4, z5⟩ := mul_coef s2 hc (by omega)
  obtain ⟨x, x1, x2, x3, x4, x5⟩ := mul_coef ha hc h3
  obtain ⟨y, y1, y2, y3, y4, y5⟩ := mul_coef hb hc (by omega)
  obtain ⟨w, w1, w2, w3, w4, w5⟩ := add_spec x2 y2 (by omega) (by omega)
  refine ⟨s, x, y, z, s1, z1, x1, y1, ?_⟩
  rw [w1]
  refine congrArg Except.ok (WF.ext w2 z2 (by omega) (by omega) fun d => ?_)
  rw [w5, z5, x5, y5, add_ev s5]

theorem mul_add' (ha : a.WF) (hb : b.WF) (hc : c.WF) (h1 : b.top = c.top) (h2 : b.bot = c.bot) (h3 : a.bot = b.top) :
    ∃ s x y z, add b c = .ok s ∧ mul a s = .ok z ∧ mul a b = .ok x ∧ mul a c = .ok y ∧ add x y = .ok z := by
  obtain ⟨s, s1, s2, s3, s4, s5⟩ := add_spec hb hc h1 h2
  obtain ⟨z, z1, z2, z3, z4, z5⟩ := mul_coef ha s2 (by omega)
  obtain ⟨x, x1, x2, x3, x4, x5⟩ := mul_coef ha hb h3
  obtain ⟨y, y1, y2, y3, y4, y5⟩ := mul_coef ha hc (by omega)
  obtain ⟨w, w1, w2, w3, w4, w5⟩ := add_spec x2 y2 (by omega) (by omega)
  refine ⟨s, x, y, z, s1, z1, x1, y1, ?_⟩
  rw [w1]
  refine congrArg Except.ok (WF.ext w2 z2 (by omega) (by omega) fun d => ?_)
  rw [w5, z5, x5, y5, ← ev_add_fun]
  exact ev_congr_fun fun t _ => (add_ev s5 _).symm

theorem smul_mul' (ha : a.WF) (hb : b.WF) (h : a.bot = b.top) (q : LPoly) :
    ∃ x y ab z, smul a q = .ok x ∧ smul b q = .ok y ∧ mul a b = .ok ab ∧ smul ab q = .ok z ∧ mul x b = .ok z ∧ mul a y = .ok z := by
  obtain ⟨x, x1, x2, x3, x4, x5⟩ := smul_spec ha q
  obtain ⟨y, y1, y2, y3, y4, y5⟩ := smul_spec hb q
  obtain ⟨ab, ab1, ab2, ab3, ab4, ab5⟩ := mul_coef ha hb h
  obtain ⟨z, z1, z2, z3, z4, z5⟩ := smul_spec ab2 q
  obtain ⟨w, w1, w2, w3, w4, w5⟩ := mul_coef x2 hb (by omega)
  obtain ⟨u, u1, u2, u3, u4, u5⟩ := mul_coef ha y2 (by omega)
  refine ⟨x, y, ab, z, x1, y1, ab1, z1, ?_, ?_⟩
  · rw [w1]
    refine congrArg Except.ok (WF.ext w2 z2 (by omega) (by omega) fun d => ?_)
    rw [w5, z5, ab5, smul_ev x5]
  · rw [u1]
    refine congrArg Except.ok (WF.ext u2 z2 (by omega) (by omega) fun d => ?_)
    rw [u5, z5, ab5, mul_comm, ← ev_mul_fun]
    refine ev_congr_fun fun t _ => ?_
    rw [smul_ev y5, mul_comm]

/-! ### Powers -/

/-- Well-formed morphisms of the type `(n, n)`. -/
def Sq (n : Nat) : Type := {m : TLMor // m.WF ∧ m.top = n ∧ m.bot = n}

theorem sq_mul {n : Nat} (a b : Sq n) : ∃ c : Sq n, mul a.1 b.1 = .ok c.1 := by
  obtain ⟨c, c1, c2, c3, c4, -⟩ := mul_coef a.2.1 b.2.1 (by rw [a.2.2.2, b.2.2.1])
  exact ⟨⟨c, c2, by rw [c3, a.2.2.1], by rw [c4, b.2.2.2]⟩, c1⟩

theorem sq_id (n : Nat) : ∃ c : Sq n, TLMor.id n = .ok c.1 := by
  obtain ⟨c, c1, c2, c3, c4, -⟩ := id_spec n
  exact ⟨⟨c, c2, c3, c4⟩, c1⟩

theorem id_mul' (hm : m.WF) {i : TLMor} (hi : TLMor.id m.top = .ok i) : mul i m = .ok m := by
  obtain ⟨i', i1, i2, i3, i4, i5⟩ := TLMor.id_spec m.top
  rw [hi] at i1; cases i1
  obtain ⟨c, c1, c2, c3, c4, c5⟩ := TLMor.mul_coef i2 hm i4
  rw [c1]
  refine congrArg Except.ok (TLMor.WF.ext c2 hm (by rw [c3, i3]) c4 fun d => ?_)
  rw [c5, TLMor.ev_single i5, TLMor.coef_ev]
  refine ev_congr_fun fun t ht => ?_
  obtain ⟨e1, e2⟩ := TLMor.prod_id_left (hm.good t ht) (hm.type t ht).1
  rw [e1, e2, pow_zero]

theorem mul_id' (hm : m.WF) {j : TLMor} (hj : TLMor.id m.bot = .ok j) : mul m j = .ok m := by
  obtain ⟨j', j1, j2, j3, j4, j5⟩ := TLMor.id_spec m.bot
  rw [hj] at j1; cases j1
  obtain ⟨c, c1, c2, c3, c4, c5⟩ := TLMor.mul_coef hm j2 j3.symm
  rw [c1]
  refine congrArg Except.ok (TLMor.WF.ext c2 hm c3 (by rw [c4, j4]) fun d => ?_)
  rw [c5, TLMor.coef_ev]
  refine ev_congr_fun fun t ht => ?_
  rw [TLMor.ev_single j5]
  obtain ⟨e1, e2⟩ := TLMor.prod_id_right (hm.good t ht) (hm.type t ht).2
  rw [e1, e2, pow_zero]

noncomputable instance (n : Nat) : Mul (Sq n) := ⟨fun a b => (sq_mul a b).choose⟩
noncomputable instance (n : Nat) : One (Sq n) := ⟨(sq_id n).choose⟩

theorem sq_mul_eq {n : Nat} (a b : Sq n) : mul a.1 b.1 = .ok (a * b).1 := (sq_mul a b).choose_spec
theorem sq_one_eq (n : Nat) : TLMor.id n = .ok (1 : Sq n).1 := (sq_id n).choose_spec

noncomputable instance (n : Nat) : Monoid (Sq n) where
  mul_assoc a b c := by
    apply Subtype.ext
    obtain ⟨ab, bc, x, e1, e2, e3, e4⟩ := mul_assoc' a.2.1 b.2.1 c.2.1 (by rw [a.2.2.2, b.2.2.1]) (by rw [b.2.2.2, c.2.2.1])
    rw [sq_mul_eq] at e1 e2
    cases e1; cases e2
    rw [sq_mul_eq] at e3 e4
    injection e3 with e3
    injection e4 with e4
    exact e3.trans e4.symm
  one_mul a := by
    apply Subtype.ext
    have h := id_mul' a.2.1 (i := (1 : Sq n).1) (by rw [a.2.2.1]; exact sq_one_eq n)
    rw [sq_mul_eq] at h
    injection h
  mul_one a := by
    apply Subtype.ext
    have h := mul_id' a.2.1 (j := (1 : Sq n).1) (by rw [a.2.2.2]; exact sq_one_eq n)
    rw [sq_mul_eq] at h
    injection h

theorem powLoop_sq {n : Nat} (e : Nat) (acc x : Sq n) : powLoop acc.1 x.1 e = .ok (acc * x ^ e).1 := by
  induction e using Nat.strong_induction_on generalizing acc x with
  | _ e ih =>
    rw [powLoop.eq_def]
    split
    · next h => rw [h, pow_zero, mul_one]
    · next h =>
      have key : ∀ acc' : Sq n, (do let pow2 ← mul x.1 x.1; powLoop acc'.1 pow2 (e / 2)) = .ok (acc' * (x * x) ^ (e / 2)).1 := by
        intro acc'
        rw [sq_mul_eq, bind_ok, ih (e / 2) (by omega)]
      split
      · next h1 =>
        have e1 := sq_mul_eq acc x
        dsimp only
        rw [e1, bind_ok, key]
        congr 2
        rw [mul_assoc, ← pow_two, ← pow_mul, ← pow_succ']
        congr 2; omega
      · next h1 =>
        refine (key acc).trans ?_
        congr 2
        rw [← pow_two, ← pow_mul]
        congr 2; omega

theorem pow_sq {n : Nat} (x : Sq n) (e : Nat) : pow x.1 e = .ok (x ^ e).1 := by
  rw [pow, if_neg (by rw [x.2.2.1, x.2.2.2]; simp), if_neg (by omega), x.2.2.1, sq_one_eq, bind_ok, Int.toNat_natCast, powLoop_sq, one_mul]

/-! ### Trace -/

theorem trace_spec (hm : m.WF) (h : m.top = m.bot) : ∃ p, trace m = .ok p ∧ p.Trimmed ∧ p.den = m.ev fun d => (T 1 + T (-1)) ^ d.trc := by
  have key : ∀ (ts : List (TLDiag × LPoly)) (acc : LPoly), acc.Trimmed → (∀ t ∈ ts, t ∈ m.terms) →
      ∃ p, ts.foldlM (fun acc t => do
        .ok (LPoly.add acc (LPoly.mul t.2 (LPoly.powNat LPoly.Q2 (← TL.traceCount t.1.seq))))) acc = Except.ok (ε := Err) p ∧ p.Trimmed ∧
        p.den = acc.den + (ts.map fun t => t.2.den * (T 1 + T (-1)) ^ t.1.trc).sum := by
    intro ts
    induction ts with
    | nil => intro acc hacc _; exact ⟨acc, rfl, hacc, by simp⟩
    | cons t ts ih =>
      intro acc hacc hts
      have ht := hts t (List.mem_cons_self ..)
      have hty := hm.type t ht
      have := (TLDiag.trc_spec (n := m.top) (hm.good t ht) hty.1 (by rw [hty.2, h])).1
      obtain ⟨p, p1, p2, p3⟩ := ih (LPoly.add acc (LPoly.mul t.2 (LPoly.powNat LPoly.Q2 t.1.trc))) (trimmed_add _ _) fun s hs => hts s (List.mem_cons_of_mem _ hs)
      refine ⟨p, ?_, p2, ?_⟩
      · rw [List.foldlM_cons, this, bind_ok, bind_ok, p1]
      · rw [p3, LPoly.den_add, LPoly.den_mul, LPoly.den_powNat, den_Q2, List.map_cons, List.sum_cons]; ring
  obtain ⟨p, p1, p2, p3⟩ := key m.terms (LPoly.make 0 []) (LPoly.trimmed_make _ _) fun t ht => ht
  refine ⟨p, p1, p2, ?_⟩
  rw [p3, ev, LPoly.den_make]
  simp [listPoly]

end TLMor
end Peyl
