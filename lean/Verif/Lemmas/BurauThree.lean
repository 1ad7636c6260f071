import Verif.Props.BurauKernel
import Verif.Lemmas.BurauCompute
import Mathlib.Data.Fintype.Perm
import Mathlib.Data.Fintype.Inv
/-!
# Three strands: the spread of degrees is determined by the canonical length
-/
namespace Peyl
namespace Bur
open _root_.Matrix LaurentPolynomial Polymat Search
variable {K : Type*} [CommRing K]

abbrev M2 (K : Type*) [CommRing K] := _root_.Matrix (Fin (3 - 1)) (Fin (3 - 1)) K[T;T⁻¹]

theorem coeff_T_mul (k m : ℤ) (f : K[T;T⁻¹]) : (T k * f).coeff m = f.coeff (m - k) := by
  rw [T, AddMonoidAlgebra.coeff_single_mul_apply, one_mul]; congr 1; ring

theorem mul_gen (M : M2 K) {e o : Fin (3 - 1)} (h : e ≠ o) (a : Fin (3 - 1)) : (M * gen (vT K) e) a e = -(T 2 * M a e) ∧ (M * gen (vT K) e) a o = M a o - T 1 * M a e := by
  have key : ∀ c, (M * gen (vT K) e) a c = M a c - T 1 * (M a e * J (T 1 + T (-1)) (3 - 1) e c) := by
    intro c
    rw [gen, mul_sub, mul_one, _root_.Matrix.sub_apply]
    congr 1
    rw [mul_smul_comm, _root_.Matrix.smul_apply, smul_eq_mul]
    show T 1 * _ = _
    congr 1
    rw [_root_.Matrix.mul_apply, Finset.sum_eq_single e]
    · rw [E_apply, if_pos rfl]; rfl
    · intro b _ hb; rw [E_apply, if_neg hb, mul_zero]
    · simp
  refine ⟨?_, ?_⟩
  · rw [key, J_self]
    have h1 := T1Tm K
    have h2 : (T 2 : K[T;T⁻¹]) = T 1 * T 1 := by rw [← T_add]; norm_num
    rw [h2]
    linear_combination (-(M a e)) * h1
  · rw [key, J_adj, mul_one]
    have he := e.2; have ho := o.2
    have : e.val ≠ o.val := fun q => h (Fin.ext q)
    omega

/-- All degrees are between `V` and `D`; the largest one occurs in column `e`, the smallest one in the other column. -/
structure Spread (M : M2 K) (e : Fin (3 - 1)) (V D : ℤ) : Prop where
  lo : ∀ a c k, k < V → (M a c).coeff k = 0
  hi : ∀ a c k, D < k → (M a c).coeff k = 0
  top : ∃ a, IsUnit ((M a e).coeff D)
  bot : ∃ a o, o ≠ e ∧ IsUnit ((M a o).coeff V)

theorem Spread.single {M : M2 K} {e : Fin (3 - 1)} {V D : ℤ} (h : Spread M e V D) (hVD : V ≤ D) : Spread (M * gen (vT K) e) e V (D + 2) := by
  have two : ∀ o, o ≠ e → ∀ c, c = e ∨ c = o := by
    intro o ho c
    have h1 : o.val ≠ e.val := fun q => ho (Fin.ext q)
    rcases (by omega : c.val = e.val ∨ c.val = o.val) with q | q
    · exact Or.inl (Fin.ext q)
    · exact Or.inr (Fin.ext q)
  obtain ⟨a0, o, ho, hb⟩ := h.bot
  have g := fun a => mul_gen M (Ne.symm ho) a
  have ce : ∀ a k, ((M * gen (vT K) e) a e).coeff k = -(M a e).coeff (k - 2) := fun a k => by rw [(g a).1, AddMonoidAlgebra.coeff_neg, Finsupp.neg_apply, coeff_T_mul]
  have co : ∀ a k, ((M * gen (vT K) e) a o).coeff k = (M a o).coeff k - (M a e).coeff (k - 1) := fun a k => by
    rw [(g a).2, AddMonoidAlgebra.coeff_sub, Finsupp.sub_apply, coeff_T_mul]
  refine ⟨?_, ?_, ?_, ?_⟩
  · intro a c k hk
    rcases two o ho c with rfl | rfl
    · rw [ce, h.lo _ _ _ (by omega), neg_zero]
    · rw [co, h.lo _ _ _ hk, h.lo _ _ _ (by omega), sub_zero]
  · intro a c k hk
    rcases two o ho c with rfl | rfl
    · rw [ce, h.hi _ _ _ (by omega), neg_zero]
    · rw [co, h.hi _ _ _ (by omega), h.hi _ _ _ (by omega), sub_zero]
  · obtain ⟨a, ha⟩ := h.top
    refine ⟨a, ?_⟩
    rw [ce, show D + 2 - 2 = D by ring]; exact ha.neg
  · refine ⟨a0, o, ho, ?_⟩
    rw [co, h.lo _ _ (V - 1) (by omega), sub_zero]; exact hb

theorem Spread.double {M : M2 K} {e o : Fin (3 - 1)} {V D : ℤ} (h : Spread M e V D) (hVD : V ≤ D) (heo : o ≠ e) : Spread (M * (gen (vT K) e * gen (vT K) o)) o (V + 1) (D + 3) := by
  have two : ∀ c, c = e ∨ c = o := by
    intro c
    have h1 : o.val ≠ e.val := fun q => heo (Fin.ext q)
    rcases (by omega : c.val = e.val ∨ c.val = o.val) with q | q
    · exact Or.inl (Fin.ext q)
    · exact Or.inr (Fin.ext q)
  have g := fun a => mul_gen M (Ne.symm heo) a
  have g' := fun a => mul_gen (M * gen (vT K) e) heo a
  rw [← mul_assoc]
  have ce : ∀ a k, ((M * gen (vT K) e * gen (vT K) o) a e).coeff k = -(M a o).coeff (k - 1) := fun a k => by
    rw [(g' a).2, (g a).1, (g a).2, AddMonoidAlgebra.coeff_sub, Finsupp.sub_apply, coeff_T_mul, AddMonoidAlgebra.coeff_neg, Finsupp.neg_apply, coeff_T_mul,
      AddMonoidAlgebra.coeff_sub, Finsupp.sub_apply, coeff_T_mul, show k - 1 - 1 = k - 2 by ring]
    ring
  have co : ∀ a k, ((M * gen (vT K) e * gen (vT K) o) a o).coeff k = (M a e).coeff (k - 3) - (M a o).coeff (k - 2) := fun a k => by
    rw [(g' a).1, (g a).2, AddMonoidAlgebra.coeff_neg, Finsupp.neg_apply, coeff_T_mul, AddMonoidAlgebra.coeff_sub, Finsupp.sub_apply, coeff_T_mul, show k - 2 - 1 = k - 3 by ring]
    ring
  refine ⟨?_, ?_, ?_, ?_⟩
  · intro a c k hk
    rcases two c with rfl | rfl
    · rw [ce, h.lo _ _ _ (by omega), neg_zero]
    · rw [co, h.lo _ _ _ (by omega), h.lo _ _ _ (by omega), sub_zero]
  · intro a c k hk
    rcases two c with rfl | rfl
    · rw [ce, h.hi _ _ _ (by omega), neg_zero]
    · rw [co, h.hi _ _ _ (by omega), h.hi _ _ _ (by omega), sub_zero]
  · obtain ⟨a, ha⟩ := h.top
    refine ⟨a, ?_⟩
    rw [co, show D + 3 - 3 = D by ring, h.hi _ _ (D + 3 - 2) (by omega), sub_zero]; exact ha
  · obtain ⟨a, c, hc, hb⟩ := h.bot
    refine ⟨a, e, heo.symm, ?_⟩
    have : c = o := (two c).resolve_left hc
    subst this
    rw [ce, show V + 1 - 1 = V by ring]; exact hb.neg

theorem Spread.one (e : Fin (3 - 1)) : Spread (1 : M2 K) e 0 0 := by
  have h1 : ∀ a c k, k ≠ 0 → ((1 : M2 K) a c).coeff k = 0 := by
    intro a c k hk
    rw [_root_.Matrix.one_apply]
    split_ifs
    · rw [← T_zero, T, AddMonoidAlgebra.coeff_single, Finsupp.single_apply, if_neg (Ne.symm hk)]
    · rfl
  have h2 : ∀ a, ((1 : M2 K) a a).coeff 0 = 1 := by
    intro a
    rw [_root_.Matrix.one_apply_eq, ← T_zero, T, AddMonoidAlgebra.coeff_single, Finsupp.single_apply, if_pos rfl]
  refine ⟨fun a c k hk => h1 a c k (by omega), fun a c k hk => h1 a c k (by omega), ⟨e, by rw [h2]; exact isUnit_one⟩, ?_⟩
  refine ⟨1 - e, 1 - e, ?_, by rw [h2]; exact isUnit_one⟩
  revert e; decide

set_option synthInstance.maxHeartbeats 400000 in
set_option synthInstance.maxSize 2000 in
/-- The proper permutations of three letters: the first letter of the reduced word is given by the descent of the inverse, the last
one by the descent. -/
theorem proper_three : ∀ π : Equiv.Perm (Fin 3), π ≠ 1 → π ≠ w0 3 → (∃ e : Fin (3 - 1), π⁻¹ e.succ < π⁻¹ e.castSucc) ∧ ∀ e : Fin (3 - 1), π⁻¹ e.succ < π⁻¹ e.castSucc →
    ((coxProd 3 [e.val] = π ∧ inv π = 1 ∧ ∀ c : Fin (3 - 1), π c.succ < π c.castSucc → c = e) ∨
     (coxProd 3 [e.val, (1 - e).val] = π ∧ inv π = 2 ∧ ∀ c : Fin (3 - 1), π c.succ < π c.castSucc → c = 1 - e)) := by
  decide +kernel

theorem spread_chain (πs : List (Equiv.Perm (Fin 3))) (hp : ∀ π ∈ πs, π ≠ 1 ∧ π ≠ w0 3) (hc : πs.IsChain LeftWeighted) (M : M2 K) (e : Fin (3 - 1)) (V D : ℤ) (hVD : V ≤ D) (hM : Spread M e V D)
    (he : ∀ π ∈ πs.head?, π⁻¹ e.succ < π⁻¹ e.castSucc) :
    ∃ e' V' D', Spread (M * rep 3 (vT K) (πs.map lift).prod) e' V' D' ∧ D' - V' = D - V + 2 * πs.length := by
  induction πs generalizing M e V D with
  | nil => exact ⟨e, V, D, by simpa using hM, by simp⟩
  | cons π πs ih =>
    obtain ⟨h1, h2⟩ := hp π (by simp)
    obtain ⟨-, h3⟩ := proper_three π h1 h2
    have h4 := h3 e (he π (by simp))
    have h5 : ∀ c : Fin (3 - 1), (∀ d : Fin (3 - 1), π d.succ < π d.castSucc → d = c) → (∀ N : M2 K, ∀ V D : ℤ, V ≤ D → Spread N c V D →
        ∃ e' V' D', Spread (N * rep 3 (vT K) (πs.map lift).prod) e' V' D' ∧ D' - V' = D - V + 2 * πs.length) := by
      intro c hcd N V D hVD hN
      refine ih (fun ρ hρ => hp ρ (by simp [hρ])) ?_ N c V D hVD hN ?_
      · cases πs with
        | nil => simp
        | cons ρ πs => exact (List.isChain_cons_cons.1 hc).2
      · intro ρ hρ
        cases πs with
        | nil => simp at hρ
        | cons ρ' πs =>
          simp only [List.head?_cons, Option.mem_some_iff] at hρ
          subst hρ
          obtain ⟨q1, q2⟩ := hp ρ' (by simp)
          obtain ⟨⟨d, hd⟩, -⟩ := proper_three ρ' q1 q2
          have hw := (List.isChain_cons_cons.1 hc).1 d.val (by omega) hd
          have : d = c := hcd d hw
          rw [← this]; exact hd
    rcases h4 with ⟨g1, g2, g3⟩ | ⟨g1, g2, g3⟩
    · have hl : lift π = posWord 3 [e.val] := lift_eq_posWord ⟨by intro s hs; simp at hs; omega, g1, by rw [g2]; rfl⟩
      obtain ⟨e', V', D', k1, k2⟩ := h5 e g3 _ _ _ (by omega) (hM.single hVD)
      refine ⟨e', V', D', ?_, by rw [k2, List.length_cons]; push_cast; ring⟩
      rw [List.map_cons, List.prod_cons, map_mul, ← mul_assoc, hl]
      have : rep 3 (vT K) (posWord 3 [e.val]) = gen (vT K) e := by simp [posWord, rep_sigma (vT K) e.2]
      rw [this]; exact k1
    · have hne : (1 - e : Fin (3 - 1)) ≠ e := (by decide : ∀ e : Fin (3 - 1), 1 - e ≠ e) e
      have hl : lift π = posWord 3 [e.val, (1 - e).val] := lift_eq_posWord ⟨by intro s hs; simp only [List.mem_cons, List.not_mem_nil, or_false] at hs; omega, g1, by rw [g2]; rfl⟩
      obtain ⟨e', V', D', k1, k2⟩ := h5 (1 - e) g3 _ _ _ (by omega) (hM.double hVD hne)
      refine ⟨e', V', D', ?_, by rw [k2, List.length_cons]; push_cast; ring⟩
      rw [List.map_cons, List.prod_cons, map_mul, ← mul_assoc, hl]
      have : rep 3 (vT K) (posWord 3 [e.val, (1 - e).val]) = gen (vT K) e * gen (vT K) (1 - e) := by
        simp [posWord, rep_sigma (vT K) e.2, rep_sigma (vT K) (1 - e).2]
      rw [this]; exact k1

/-- The number of degrees of a projective image. -/
theorem width_spread {p n d : Nat} {τ : Braid n →* LMat p d} {β : Braid n} {V D : ℤ} (lo : ∀ a c k, k < V → (τ β a c).coeff k = 0) (hi : ∀ a c k, D < k → (τ β a c).coeff k = 0)
    (top : ∃ a c, (τ β a c).coeff D ≠ 0) (bot : ∃ a c, (τ β a c).coeff V ≠ 0) {A : Img d} (hA : IsProjImage p A fun _ => τ β) : (A.length : ℤ) = D - V + 1 := by
  obtain ⟨l, hl⟩ := hA.shift ()
  have hc : ∀ (m : ℤ) i j, (if 0 ≤ m then ((slice A m.toNat () i j : ℤ) : ZMod p) else 0) = (τ β i j).coeff (m - l) := by
    intro m i j
    rw [← coeff_denMod, hl, _root_.Matrix.smul_apply, smul_eq_mul, coeff_T_mul]
  have key : ∀ e : Nat, slice A e () ≠ 0 → V ≤ (e : ℤ) - l ∧ (e : ℤ) - l ≤ D := by
    intro e he
    obtain ⟨i, j, hij⟩ := reduced_ne hA.reduced he
    have := hc e i j
    rw [if_pos (by omega)] at this
    constructor
    · by_contra hlt
      rw [lo _ _ _ (by omega)] at this
      exact hij (by simpa using this)
    · by_contra hlt
      rw [hi _ _ _ (by omega)] at this
      exact hij (by simpa using this)
  have hit : ∀ k i j, (τ β i j).coeff k ≠ 0 → 0 ≤ k + l ∧ slice A (k + l).toNat () ≠ 0 := by
    intro k i j hk
    have := hc (k + l) i j
    rw [show k + l - l = k by ring] at this
    split_ifs at this with h0
    · refine ⟨h0, fun hz => hk ?_⟩
      rw [← this, hz]; simp
    · exact absurd this.symm hk
  have h0 := key 0 (hA.first ())
  obtain ⟨a, ha⟩ := hA.last
  have h1 := key (A.length - 1) ha
  have h2 := lt_of_nz (hA.first ())
  obtain ⟨a1, c1, t1⟩ := top
  obtain ⟨a2, c2, t2⟩ := bot
  obtain ⟨u1, u2⟩ := hit _ _ _ t1
  obtain ⟨u3, u4⟩ := hit _ _ _ t2
  have u5 := lt_of_nz u2
  omega

end Bur
end Peyl
