import Verif.Lemmas.Table
/-!
# Normal form objects denote braids

Everything here is generic in the table: it is instantiated for `GNF` (permutations) and `DGNF` (noncrossing partitions).
-/
namespace Peyl
open Relation
variable {W : Type} [Group W] {T : Type}

/-- The table for `n` strands implements a germ realised faithfully in the braid group. -/
structure NFReal (tbl : Nat → Except Err (NFTable T)) (n : Nat) (t : NFTable T) (g : Germ W) (v : Nat → W)
    (β : W → Braid n) : Prop where
  ok : tbl n = .ok t
  spec : TableSpec t g v
  hom : g.GermHom β
  faithful : ∃ φ : Braid n →* (Equiv.Perm g.X)ᵐᵒᵖ, ∀ x, g.P x → φ (β x) = Germ.act spec.D_ne x
  gens_len : t.artinGens.length = n - 1
  gens : ∀ i, i + 1 < n → ∃ j, j < t.order ∧ lookup t.artinGens i = .ok j ∧ β (v j) = sigma n i
  words : ∀ i, i < t.order → ∃ w, lookup t.artinWord i = .ok w ∧ (∀ se ∈ w, (se.2 = 1 ∨ se.2 = -1) ∧ se.1 + 1 < n) ∧
    wordBraid n w = β (v i)
  atom_sq : ∀ s, g.atom s → s * s = 1

namespace NFReal
variable {tbl : Nat → Except Err (NFTable T)} {n : Nat} {t : NFTable T} {g : Germ W} {v : Nat → W} {β : W → Braid n}
variable (R : NFReal tbl n t g v β)
open TableSpec
include R

/-- The stored data of a legal object. -/
structure Valid (t : NFTable T) (n : Nat) (x : NF) : Prop where
  n_eq : x.n = n
  inR : InR t x.factors
  norm : t.isFactorsNormalised x.factors = .ok true

omit R in
/-- The element of the germ realisation denoted by an object. -/
def den (g : Germ W) (v : Nat → W) (β : W → Braid n) (x : NF) : Braid n := g.val β (x.power, x.factors.map v)

theorem canon {x : NF} (h : Valid t n x) : g.Canon (x.power, x.factors.map v) := by
  obtain ⟨b, hb, hb'⟩ := R.spec.isFactorsNormalised_spec x.power h.inR
  rw [h.norm] at hb; cases hb; exact hb'.1 rfl

theorem canon0 {x : NF} (h : Valid t n x) : g.Canon (0, x.factors.map v) :=
  ⟨(R.canon h).allP, (R.canon h).nrm, (R.canon h).head, (R.canon h).last⟩

theorem make_ok {d : ℤ} {fs : List Nat} (h : InR t fs) (hc : g.Canon (d, fs.map v)) :
    NF.make tbl n d fs = .ok ⟨n, d, fs⟩ ∧ Valid t n ⟨n, d, fs⟩ := by
  obtain ⟨b, hb, hb'⟩ := R.spec.isFactorsNormalised_spec d h
  have : b = true := hb'.2 hc
  subst this
  refine ⟨?_, rfl, h, hb⟩
  simp only [NF.make, R.ok, bind_ok, hb, pyAssert]; rfl

/-- Storing a canonical form. -/
theorem make_C {d e : ℤ} {l : List W} {fs : List Nat} (h : InR t fs) (hl : g.AllP l) (hC : g.C (d, l) = (e, fs.map v)) :
    NF.make tbl n e fs = .ok ⟨n, e, fs⟩ ∧ Valid t n ⟨n, e, fs⟩ ∧ den g v β ⟨n, e, fs⟩ = g.val β (d, l) := by
  have hc : g.Canon (e, fs.map v) := hC ▸ (Germ.C_spec R.spec.D_ne d hl).1
  refine ⟨(R.make_ok h hc).1, (R.make_ok h hc).2, ?_⟩
  show g.val β (e, fs.map v) = _
  rw [← hC, Germ.C_val R.spec.D_ne R.hom d hl]

/-- Equal braids have equal canonical forms. -/
theorem C_inj {d e : ℤ} {l m : List W} (hl : g.AllP l) (hm : g.AllP m) (h : g.val β (d, l) = g.val β (e, m)) :
    g.C (d, l) = g.C (e, m) := by
  obtain ⟨φ, hφ⟩ := R.faithful
  exact Germ.C_eq_of_val R.spec.D_ne φ hφ hl hm h

theorem den_inj {x y : NF} (hx : Valid t n x) (hy : Valid t n y) (h : den g v β x = den g v β y) : x = y := by
  have := R.C_inj (R.canon hx).allP (R.canon hy).allP h
  rw [Germ.C_canon_eq R.spec.D_ne (R.canon hx), Germ.C_canon_eq R.spec.D_ne (R.canon hy)] at this
  simp only [Prod.mk.injEq] at this
  have h2 := R.spec.map_inj hx.inR hy.inR this.2
  cases x; cases y; have a := hx.n_eq; have b := hy.n_eq; simp_all

/-! ### Conjugation by powers of `D` -/

theorem conj_iter (k : ℕ) {x : W} (hx : g.P x) : β g.D ^ k * β (g.tau^[k] x) = β x * β g.D ^ k ∧ g.P (g.tau^[k] x) := by
  induction k with
  | zero => simpa using hx
  | succ k ih =>
    rw [Function.iterate_succ_apply']
    refine ⟨?_, g.P_tau.2 ih.2⟩
    rw [pow_succ, mul_assoc, R.hom.D_tau ih.2, ← mul_assoc, ih.1, mul_assoc]

theorem conj_order (j : ℤ) {x : W} (hx : g.P x) : β g.D ^ (t.tauOrder * j) * β x = β x * β g.D ^ (t.tauOrder * j) := by
  have h : Commute (β g.D ^ t.tauOrder) (β x) := by
    have := (R.conj_iter t.tauOrder hx).1
    rw [R.spec.tau_order] at this; exact this
  rw [zpow_mul, zpow_natCast]
  exact (h.zpow_left j)

/-- `β(x) D^p = D^p β(τ^(p mod order) x)`. -/
theorem conj_zpow (p : ℤ) {x : W} (hx : g.P x) :
    β x * β g.D ^ p = β g.D ^ p * β (g.tau^[(p % (t.tauOrder : ℤ)).toNat] x) := by
  have hpos : (0 : ℤ) < t.tauOrder := by exact_mod_cast R.spec.tauOrder_pos
  set k := (p % (t.tauOrder : ℤ)).toNat with hk
  have hk' : ((k : ℕ) : ℤ) = p % t.tauOrder := Int.toNat_of_nonneg (Int.emod_nonneg _ hpos.ne')
  have hp : p = t.tauOrder * (p / t.tauOrder) + k := by rw [hk']; exact (Int.mul_ediv_add_emod p _).symm
  have h1 := (R.conj_iter k hx).1
  conv_lhs => rw [hp]
  conv_rhs => rw [hp]
  rw [zpow_add, zpow_natCast, ← mul_assoc, ← R.conj_order _ hx, mul_assoc, ← h1, mul_assoc]

theorem tauIndex_ok (p : ℤ) : NF.tauIndex p t.tauOrder = .ok (p % (t.tauOrder : ℤ)).toNat ∧ (p % (t.tauOrder : ℤ)).toNat < t.tauOrder := by
  have hpos : (0 : ℤ) < t.tauOrder := by exact_mod_cast R.spec.tauOrder_pos
  constructor
  · rw [NF.tauIndex, if_neg R.spec.tauOrder_pos.ne']
  · have := Int.emod_lt_of_pos p hpos; have := Int.emod_nonneg p hpos.ne'; omega

/-- Conjugating a list of factors through the table. -/
theorem conj_list {k : Nat} (hk : k < t.tauOrder) {fs : List Nat} (h : InR t fs) :
    ∃ fs', fs.mapM (lookup2 t.tauRight k) = .ok fs' ∧ InR t fs' ∧ fs'.map v = (fs.map v).map g.tau^[k] := by
  induction fs with
  | nil => exact ⟨[], rfl, by simp, rfl⟩
  | cons x l ih =>
    simp only [InR_cons] at h
    obtain ⟨y, hy, h1, h2⟩ := R.spec.tauRight k x hk h.1
    obtain ⟨l', h3, h4, h5⟩ := ih h.2
    refine ⟨y :: l', ?_, by simp [hy, h4], by simp [h2, h5]⟩
    rw [List.mapM_cons, h1, bind_ok, h3]; rfl

theorem conj_prod (p : ℤ) (l : List W) (hl : g.AllP l) :
    (l.map β).prod * β g.D ^ p = β g.D ^ p * ((l.map g.tau^[(p % (t.tauOrder : ℤ)).toNat]).map β).prod := by
  induction l with
  | nil => simp
  | cons x l ih =>
    simp only [Germ.AllP_cons] at hl
    simp only [List.map_cons, List.prod_cons]
    rw [mul_assoc, ih hl.2, ← mul_assoc, R.conj_zpow p hl.1, mul_assoc]

omit R in
theorem canon_tau {d : ℤ} {l : List W} (h : g.Canon (d, l)) : g.Canon (d, l.map g.tau) := by
  refine ⟨Germ.allP_tau h.allP, h.nrm.tau h.allP, ?_, ?_⟩
  · intro hh
    rw [List.head?_map] at hh
    obtain ⟨z, hz, hz'⟩ := Option.map_eq_some_iff.1 hh
    rw [← g.tau_D] at hz'
    exact h.head (by rw [hz, g.tau_injective hz'])
  · intro hh
    rw [List.getLast?_map] at hh
    obtain ⟨z, hz, hz'⟩ := Option.map_eq_some_iff.1 hh
    rw [← g.tau_one] at hz'
    exact h.last (by rw [hz, g.tau_injective hz'])

omit R in
theorem canon_tau_iter {d : ℤ} {l : List W} (k : ℕ) (h : g.Canon (d, l)) : g.Canon (d, l.map g.tau^[k]) := by
  induction k generalizing l with
  | zero => simpa using h
  | succ k ih =>
    rw [Function.iterate_succ]
    have := ih (canon_tau h)
    rwa [List.map_map] at this

/-! ### Multiplication -/

theorem mul_spec {x y : NF} (hx : Valid t n x) (hy : Valid t n y) :
    ∃ z, NF.mul tbl x y = .ok z ∧ Valid t n z ∧ den g v β z = den g v β x * den g v β y := by
  have hxn := hx.n_eq
  have hyn := hy.n_eq
  have cx := R.canon hx
  have cy := R.canon hy
  unfold NF.mul
  rw [if_neg (by rw [hxn, hyn]; simp), hxn, R.ok, bind_ok]
  obtain ⟨k1, k2⟩ := R.tauIndex_ok y.power
  set k := (y.power % (t.tauOrder : ℤ)).toNat with hk
  obtain ⟨cs, s1, s2, s3⟩ := R.conj_list k2 hx.inR
  obtain ⟨q, q1, q2, q3⟩ := R.spec.product_spec (x.power + y.power) s2 hy.inR
    (by rw [s3]; exact canon_tau_iter k (R.canon0 hx)) (R.canon0 hy)
  have hal : g.AllP ((cs ++ y.factors).map v) := R.spec.allP (by simp [s2, hy.inR])
  obtain ⟨m1, m2, m3⟩ := R.make_C q2 hal q3
  have hval : g.val β (x.power + y.power, (cs ++ y.factors).map v) = den g v β x * den g v β y := by
    unfold den Germ.val
    simp only [List.map_append, List.prod_append, s3]
    have := R.conj_prod y.power (x.factors.map v) cx.allP
    rw [zpow_add]
    calc β g.D ^ x.power * β g.D ^ y.power * ((((x.factors.map v).map g.tau^[k]).map β).prod * ((y.factors.map v).map β).prod)
        = β g.D ^ x.power * (β g.D ^ y.power * (((x.factors.map v).map g.tau^[k]).map β).prod) * ((y.factors.map v).map β).prod := by
          simp only [mul_assoc]
      _ = _ := by rw [hk, ← this]; simp only [mul_assoc]
  -- the fast path
  have fastcase : y.power = 0 → g.Nrm ((x.factors ++ y.factors).map v) →
      ∃ z, NF.make tbl n x.power (x.factors ++ y.factors) = .ok z ∧ Valid t n z ∧
        den g v β z = den g v β x * den g v β y := by
    intro hp hN
    have hin : InR t (x.factors ++ y.factors) := by simp [hx.inR, hy.inR]
    have hc : g.Canon (x.power, (x.factors ++ y.factors).map v) := by
      refine ⟨R.spec.allP hin, hN, ?_, ?_⟩
      · have h1 := cx.head; have h2 := cy.head
        cases hf : x.factors with
        | nil => simpa [hf] using h2
        | cons a l => rw [hf] at h1; simpa using h1
      · have h1 := cx.last; have h2 := cy.last
        cases hf : y.factors using List.reverseRecOn with
        | nil => simpa [hf] using h1
        | append_singleton l a => rw [hf] at h2; simpa using h2
    refine ⟨_, (R.make_ok hin hc).1, (R.make_ok hin hc).2, ?_⟩
    unfold den Germ.val
    simp [hp, mul_assoc]
  obtain ⟨b, hb, hb'⟩ := R.spec.canConcatenate_spec hx.inR hy.inR cx.nrm cy.nrm
  by_cases hp : y.power = 0
  · rw [if_pos hp, hb, bind_ok]
    cases b with
    | true => exact fastcase hp (hb'.1 rfl)
    | false =>
      simp only [Bool.false_eq_true, if_false, k1, bind_ok]
      rw [s1, bind_ok, q1, bind_ok]
      exact ⟨_, m1, m2, by rw [m3, hval]⟩
  · rw [if_neg hp, bind_ok]
    simp only [Bool.false_eq_true, if_false, k1, bind_ok]
    rw [s1, bind_ok, q1, bind_ok]
    exact ⟨_, m1, m2, by rw [m3, hval]⟩

/-! ### The backward sweep -/

theorem sweep_spec (start : ℤ) (items : List (Nat × ℤ)) (h : ∀ p ∈ items, p.1 < t.order) :
    ∃ fs d, NF.sweep t start items = .ok (fs, d) ∧ InR t fs ∧ d = start + (items.map (·.2)).sum ∧ fs.length = items.length ∧
      g.val β (d, fs.map v) = (items.map fun p => β g.D ^ p.2 * β (v p.1)).prod * β g.D ^ start := by
  induction items with
  | nil => exact ⟨[], start, rfl, by simp, by simp, rfl, by simp [Germ.val]⟩
  | cons p l ih =>
    obtain ⟨f, e⟩ := p
    obtain ⟨fs, d, h1, h2, h3, h4, h5⟩ := ih (fun q hq => h q (by simp [hq]))
    have hf := h (f, e) (by simp)
    obtain ⟨k1, k2⟩ := R.tauIndex_ok d
    obtain ⟨f', hf', l1, l2⟩ := R.spec.tauRight _ f k2 hf
    refine ⟨f' :: fs, d + e, ?_, by simp [hf', h2], by simp [h3]; ring, by simp [h4], ?_⟩
    · simp only [NF.sweep, h1, bind_ok, k1, l1]
    · have := R.conj_zpow d (R.spec.simple f hf)
      simp only [List.map_cons, List.prod_cons]
      rw [mul_assoc, ← h5]
      unfold Germ.val
      simp only [List.map_cons, List.prod_cons, l2]
      rw [add_comm, zpow_add]
      calc β g.D ^ e * β g.D ^ d * (β (g.tau^[(d % (t.tauOrder : ℤ)).toNat] (v f)) * ((fs.map v).map β).prod)
          = β g.D ^ e * (β g.D ^ d * β (g.tau^[(d % (t.tauOrder : ℤ)).toNat] (v f))) * ((fs.map v).map β).prod := by
            simp only [mul_assoc]
        _ = _ := by rw [← this]; simp only [mul_assoc]

theorem leftComp_list {fs : List Nat} (h : InR t fs) : ∃ fs', fs.mapM (lookup t.leftComp) = .ok fs' ∧ InR t fs' ∧
    fs'.length = fs.length ∧
    ((fs'.map fun f => (f, (-1 : ℤ))).map fun p : Nat × ℤ => β g.D ^ p.2 * β (v p.1)).prod = (fs.map fun f => (β (v f))⁻¹).prod := by
  induction fs with
  | nil => exact ⟨[], rfl, by simp, rfl, rfl⟩
  | cons x l ih =>
    simp only [InR_cons] at h
    obtain ⟨y, hy, h1, h2⟩ := R.spec.leftComp x h.1
    obtain ⟨l', h3, h4, h4', h5⟩ := ih h.2
    refine ⟨y :: l', ?_, by simp [hy, h4], by simp [h4'], ?_⟩
    · rw [List.mapM_cons, h1, bind_ok, h3]; rfl
    · simp only [List.map_cons, List.prod_cons] at h5 ⊢
      rw [h5]; congr 1
      have hx := R.spec.simple x h.1
      have := R.hom (g.D * (v x)⁻¹) (v x) (g.P_lc hx) (by rw [inv_mul_cancel_right]; exact g.P_D)
        (by rw [inv_mul_cancel_right]; exact g.P_lc hx)
      rw [inv_mul_cancel_right] at this
      rw [h2, this]; group

theorem inv_spec {x : NF} (hx : Valid t n x) :
    ∃ z, NF.invert tbl x = .ok z ∧ Valid t n z ∧ den g v β z = (den g v β x)⁻¹ := by
  have hR : InR t x.factors.reverse := fun f hf => hx.inR f (List.mem_reverse.1 hf)
  obtain ⟨cs, c1, c2, c3, c4⟩ := R.leftComp_list hR
  obtain ⟨fs, d, s1, s2, s3, s4, s5⟩ := R.sweep_spec (-x.power) (cs.map fun f => (f, -1)) (by
    intro p hp; obtain ⟨f, hf, rfl⟩ := List.mem_map.1 hp; exact c2 f hf)
  obtain ⟨r, r1, r2, r3⟩ := R.spec.normaliseFactors_spec s2 d
  obtain ⟨m1, m2, m3⟩ := R.make_C r2 (R.spec.allP s2) r3
  refine ⟨_, ?_, m2, ?_⟩
  · simp only [NF.invert, hx.n_eq, R.ok, bind_ok, c1, s1, r1]; exact m1
  · rw [m3, s5, c4]
    unfold den Germ.val
    rw [mul_inv_rev, zpow_neg, List.prod_inv_reverse, List.map_reverse, List.map_map, List.map_map]; rfl

/-! ### Powers -/

theorem identity_spec : ∃ e, NF.identity tbl n = .ok e ∧ Valid t n e ∧ e = ⟨n, 0, []⟩ ∧ den g v β e = 1 := by
  have h := R.make_ok (d := 0) (fs := []) (by simp) (by simpa using Germ.canon_nil 0)
  exact ⟨_, h.1, h.2, rfl, by simp [den, Germ.val]⟩

theorem powLoop_spec (fuel : Nat) {a b : NF} (ha : Valid t n a) (hb : Valid t n b) (e : Nat) (hf : e < fuel) :
    ∃ z, NF.powLoop tbl fuel a b e = .ok z ∧ Valid t n z ∧ den g v β z = den g v β a * den g v β b ^ e := by
  induction fuel generalizing a b e with
  | zero => omega
  | succ fuel ih =>
    unfold NF.powLoop
    by_cases he : e = 0
    · rw [if_pos he]; exact ⟨a, rfl, ha, by simp [he]⟩
    rw [if_neg he]
    obtain ⟨bb, b1, b2, b3⟩ := R.mul_spec hb hb
    have hodd := Nat.div_add_mod e 2
    by_cases h2 : e % 2 = 1
    · obtain ⟨ab, a1, a2, a3⟩ := R.mul_spec ha hb
      obtain ⟨z, z1, z2, z3⟩ := ih a2 b2 (e / 2) (by omega)
      simp only [if_pos h2, a1, b1, bind_ok]
      refine ⟨z, z1, z2, ?_⟩
      rw [z3, a3, b3, ← pow_two, ← pow_mul, mul_assoc, ← pow_succ']
      congr 2; omega
    · obtain ⟨z, z1, z2, z3⟩ := ih ha b2 (e / 2) (by omega)
      simp only [if_neg h2, b1, bind_ok]
      refine ⟨z, z1, z2, ?_⟩
      rw [z3, b3, ← pow_two, ← pow_mul]
      congr 2; omega

theorem pow_spec {x : NF} (hx : Valid t n x) (e : ℤ) :
    ∃ z, NF.pow tbl x e = .ok z ∧ Valid t n z ∧ den g v β z = den g v β x ^ e := by
  obtain ⟨i, i1, i2, -, i4⟩ := R.identity_spec
  unfold NF.pow
  rw [hx.n_eq, i1, bind_ok]
  by_cases he : e = 0
  · rw [if_pos he]; exact ⟨i, rfl, i2, by rw [i4, he, zpow_zero]⟩
  rw [if_neg he]
  by_cases hpos : e > 0
  · rw [if_pos hpos, bind_ok]
    obtain ⟨z, z1, z2, z3⟩ := R.powLoop_spec (e.natAbs + 1) i2 hx e.natAbs (by omega)
    refine ⟨z, z1, z2, ?_⟩
    rw [z3, i4, one_mul, ← zpow_natCast, Int.natAbs_of_nonneg hpos.le]
  · rw [if_neg hpos]
    obtain ⟨y, y1, y2, y3⟩ := R.inv_spec hx
    rw [y1, bind_ok]
    obtain ⟨z, z1, z2, z3⟩ := R.powLoop_spec (e.natAbs + 1) i2 y2 e.natAbs (by omega)
    refine ⟨z, z1, z2, ?_⟩
    rw [z3, i4, one_mul, y3, ← zpow_natCast, inv_zpow', Int.ofNat_natAbs_of_nonpos (by omega), neg_neg]

/-! ### Artin words -/

omit R in
theorem wordBraid_append (u w : List (Nat × ℤ)) : wordBraid n (u ++ w) = wordBraid n u * wordBraid n w := by
  simp [wordBraid]
omit R in
theorem wordBraid_inv (w : List (Nat × ℤ)) : wordBraid n (w.reverse.map fun se => (se.1, -se.2)) = (wordBraid n w)⁻¹ := by
  unfold wordBraid
  rw [List.prod_inv_reverse, List.map_map, List.map_reverse, List.map_map]
  congr 2
  apply List.map_congr_left
  intro se _; simp
omit R in
theorem wordBraid_rep (k : Nat) (w : List (Nat × ℤ)) : wordBraid n (List.replicate k w).flatten = wordBraid n w ^ k := by
  induction k with
  | zero => simp [wordBraid]
  | succ k ih => rw [List.replicate_succ, List.flatten_cons, wordBraid_append, ih, pow_succ']

theorem words_list {fs : List Nat} (h : InR t fs) : ∃ ws, fs.mapM (lookup t.artinWord) = .ok ws ∧
    (∀ se ∈ ws.flatten, (se.2 = 1 ∨ se.2 = -1) ∧ se.1 + 1 < n) ∧ wordBraid n ws.flatten = ((fs.map v).map β).prod := by
  induction fs with
  | nil => exact ⟨[], rfl, by simp, by simp [wordBraid]⟩
  | cons x l ih =>
    simp only [InR_cons] at h
    obtain ⟨w, w1, w2, w3⟩ := R.words x h.1
    obtain ⟨ws, h3, h4, h5⟩ := ih h.2
    refine ⟨w :: ws, ?_, ?_, ?_⟩
    · rw [List.mapM_cons, w1, bind_ok, h3]; rfl
    · intro se hse; rw [List.flatten_cons, List.mem_append] at hse; exact hse.elim (w2 se) (h4 se)
    · rw [List.flatten_cons, wordBraid_append, w3, h5]; rfl

theorem artinWord_spec {x : NF} (hx : Valid t n x) :
    ∃ w, NF.artinWord tbl x = .ok w ∧ (∀ se ∈ w, (se.2 = 1 ∨ se.2 = -1) ∧ se.1 + 1 < n) ∧ wordBraid n w = den g v β x := by
  obtain ⟨d, d1, d2, d3⟩ := R.words t.D R.spec.D_lt
  obtain ⟨ws, w1, w2, w3⟩ := R.words_list hx.inR
  refine ⟨_, by simp only [NF.artinWord, hx.n_eq, R.ok, bind_ok, d1, w1]; rfl, ?_, ?_⟩
  · intro se hse
    rw [List.mem_append] at hse
    rcases hse with hse | hse
    · obtain ⟨l, hl, hse⟩ := List.mem_flatten.1 hse
      rw [List.eq_of_mem_replicate hl] at hse
      split at hse
      · obtain ⟨p, hp, rfl⟩ := List.mem_map.1 hse
        have := d2 p (List.mem_reverse.1 hp)
        exact ⟨this.1.elim (fun h => Or.inr (by simp [h])) (fun h => Or.inl (by simp [h])), this.2⟩
      · exact d2 se hse
    · exact w2 se hse
  · rw [wordBraid_append, wordBraid_rep, w3]
    unfold den Germ.val
    congr 1
    rw [R.spec.v_D] at d3
    split
    · rename_i h
      rw [wordBraid_inv, d3, ← zpow_natCast, inv_zpow', Int.ofNat_natAbs_of_nonpos (by omega), neg_neg]
    · rename_i h
      rw [d3, ← zpow_natCast, Int.natAbs_of_nonneg (by omega)]

theorem fromArtinWord_spec (w : List (Nat × ℤ)) (hw : ∀ se ∈ w, se.1 + 1 < n) :
    ∃ z, NF.fromArtinWord tbl n w = .ok z ∧ Valid t n z ∧ den g v β z = wordBraid n w := by
  have items : ∃ its, w.mapM (fun ie : Nat × ℤ =>
      if ie.2 ≥ 0 then do
        let f ← lookup t.artinGens ie.1
        .ok (List.replicate ie.2.natAbs (f, (0 : ℤ)))
      else do
        let f ← lookup t.artinGens ie.1
        let f ← lookup t.leftComp f
        .ok (List.replicate ie.2.natAbs (f, (-1 : ℤ)))) = Except.ok its ∧ (∀ p ∈ its.flatten, p.1 < t.order) ∧
      (its.flatten.map fun p : Nat × ℤ => β g.D ^ p.2 * β (v p.1)).prod = wordBraid n w := by
    induction w with
    | nil => exact ⟨[], rfl, by simp, by simp [wordBraid]⟩
    | cons ie w ih =>
      obtain ⟨its, h1, h2, h3⟩ := ih (fun se hse => hw se (by simp [hse]))
      obtain ⟨j, j1, j2, j3⟩ := R.gens ie.1 (hw ie (by simp))
      by_cases he : ie.2 ≥ 0
      · refine ⟨List.replicate ie.2.natAbs (j, (0 : ℤ)) :: its, ?_, ?_, ?_⟩
        · rw [List.mapM_cons, if_pos he, j2, bind_ok, bind_ok, h1]; rfl
        · intro p hp; rw [List.flatten_cons, List.mem_append] at hp
          rcases hp with hp | hp
          · rw [List.eq_of_mem_replicate hp]; exact j1
          · exact h2 p hp
        · rw [List.flatten_cons, List.map_append, List.prod_append, h3]
          simp only [List.map_replicate, List.prod_replicate, zpow_zero, one_mul, j3]
          simp only [wordBraid, List.map_cons, List.prod_cons]
          congr 1
          rw [← zpow_natCast, Int.natAbs_of_nonneg he]
      · obtain ⟨k, k1, k2, k3⟩ := R.spec.leftComp j j1
        refine ⟨List.replicate ie.2.natAbs (k, (-1 : ℤ)) :: its, ?_, ?_, ?_⟩
        · rw [List.mapM_cons, if_neg he, j2, bind_ok, k2, bind_ok, bind_ok, h1]; rfl
        · intro p hp; rw [List.flatten_cons, List.mem_append] at hp
          rcases hp with hp | hp
          · rw [List.eq_of_mem_replicate hp]; exact k1
          · exact h2 p hp
        · rw [List.flatten_cons, List.map_append, List.prod_append, h3]
          have hj := R.spec.simple j j1
          have := R.hom (g.D * (v j)⁻¹) (v j) (g.P_lc hj) (by rw [inv_mul_cancel_right]; exact g.P_D)
            (by rw [inv_mul_cancel_right]; exact g.P_lc hj)
          rw [inv_mul_cancel_right, j3] at this
          have e : β g.D ^ (-1 : ℤ) * β (v k) = (sigma n ie.1)⁻¹ := by rw [k3, this]; group
          simp only [List.map_replicate, List.prod_replicate, e]
          simp only [wordBraid, List.map_cons, List.prod_cons]
          congr 1
          rw [← zpow_natCast, inv_zpow', Int.ofNat_natAbs_of_nonpos (by omega), neg_neg]
  obtain ⟨its, i1, i2, i3⟩ := items
  obtain ⟨fs, d, s1, s2, -, -, s5⟩ := R.sweep_spec 0 its.flatten i2
  obtain ⟨r, r1, r2, r3⟩ := R.spec.normaliseFactors_spec s2 d
  obtain ⟨m1, m2, m3⟩ := R.make_C r2 (R.spec.allP s2) r3
  refine ⟨_, ?_, m2, by rw [m3, s5, i3]; simp⟩
  unfold NF.fromArtinWord
  rw [R.ok, bind_ok, i1, bind_ok, s1, bind_ok]
  simp only [r1, bind_ok]
  exact m1

theorem fromIndices_spec {idx : List Nat} (h : InR t idx) :
    ∃ z, NF.fromIndices tbl n t idx = .ok z ∧ Valid t n z ∧ den g v β z = ((idx.map v).map β).prod := by
  obtain ⟨r, r1, r2, r3⟩ := R.spec.normaliseFactors_spec h 0
  obtain ⟨m1, m2, m3⟩ := R.make_C r2 (R.spec.allP h) r3
  rw [zero_add] at m1 m2 m3
  exact ⟨_, by simp only [NF.fromIndices, r1, bind_ok]; exact m1, m2, by rw [m3]; simp [Germ.val]⟩

end NFReal
end Peyl
