import Verif.Lemmas.BurauThree
import Verif.Props.Unfaithful
/-!
# Two and three strands (C124)
-/
namespace Peyl
open BraidSearch Search LaurentPolynomial Jones Polymat _root_.Matrix Perms
variable {lim : Nat} {ω : List Nat → List Nat → Nat → Nat}

namespace Bur
section
variable {K : Type*} [CommRing K]

theorem half_three (k : ℤ) : ∃ (u : K) (s : Bool), IsUnit u ∧ ∀ a c : Fin (3 - 1), rep 3 (vT K) (halfTwist 3 ^ k) a c = if decide (a = c) = s then C u * T (3 * k) else 0 := by
  obtain ⟨ε, e1, e2⟩ := rep_half_T (n := 3) (by omega) K
  have hε : IsUnit ε := IsUnit.of_mul_eq_one _ e1
  have hC : (C ε * C ε : K[T;T⁻¹]) = 1 := by rw [← map_mul, e1, map_one]
  have hT : ∀ m : ℤ, (T m * T (-m) : K[T;T⁻¹]) = 1 := fun m => by rw [← T_add]; simp
  let F : ℤ → M2 K := fun m => fun a c => if a = c then 0 else C ε * T m
  have hF : rep 3 (vT K) (halfTwist 3) = F 3 := by
    rw [e2]
    refine _root_.Matrix.ext fun a c => ?_
    rw [_root_.Matrix.smul_apply, _root_.Matrix.map_apply, _root_.Matrix.smul_apply, smul_eq_mul, smul_eq_mul, flip]
    show _ = if a = c then 0 else C ε * T 3
    have : (a.val + c.val + 1 = 3 - 1) ↔ ¬ a = c := by
      revert a c; decide
    by_cases h : a = c
    · rw [if_pos h, if_neg (fun q => (this.1 q) h)]; simp
    · rw [if_neg h, if_pos (this.2 h), mul_one, mul_comm]; rfl
  have mulF : ∀ (M : M2 K) (m : ℤ) (a c : Fin (3 - 1)), (M * F m) a c = M a (1 - c) * (C ε * T m) := by
    intro M m a c
    rw [_root_.Matrix.mul_apply, Finset.sum_eq_single (1 - c)]
    · show M a (1 - c) * (if 1 - c = c then _ else _) = _
      rw [if_neg]; revert c; decide
    · intro b _ hb
      show M a b * (if b = c then _ else _) = _
      rw [if_pos ((by decide : ∀ b c : Fin (3 - 1), b ≠ 1 - c → b = c) b c hb), mul_zero]
    · simp
  have hFi : rep 3 (vT K) (halfTwist 3)⁻¹ = F (-3) := by
    have h1 : F 3 * F (-3) = 1 := by
      refine _root_.Matrix.ext fun a c => ?_
      rw [mulF]
      show (if a = 1 - c then 0 else C ε * T 3) * _ = _
      rw [_root_.Matrix.one_apply]
      by_cases h : a = c
      · rw [if_pos h, if_neg (by subst h; exact (by decide : ∀ a : Fin (3 - 1), a ≠ 1 - a) a)]
        linear_combination (T 3 * T (-3)) * hC + hT 3
      · rw [if_neg h, if_pos ((by decide : ∀ b c : Fin (3 - 1), b ≠ c → b = 1 - c) a c h), zero_mul]
    have h2 : rep 3 (vT K) (halfTwist 3)⁻¹ * rep 3 (vT K) (halfTwist 3) = 1 := by rw [← map_mul, inv_mul_cancel, map_one]
    rw [hF] at h2
    calc rep 3 (vT K) (halfTwist 3)⁻¹ = rep 3 (vT K) (halfTwist 3)⁻¹ * (F 3 * F (-3)) := by rw [h1, mul_one]
      _ = F (-3) := by rw [← mul_assoc, h2, one_mul]
  have sw : ∀ (s : Bool) (a c : Fin (3 - 1)), (decide (a = 1 - c) = s) ↔ (decide (a = c) = !s) := by decide
  induction k using Int.induction_on with
  | zero => exact ⟨1, true, isUnit_one, fun a c => by simp [_root_.Matrix.one_apply]⟩
  | succ k ih =>
    obtain ⟨u, s, h1, h2⟩ := ih
    refine ⟨u * ε, !s, h1.mul hε, fun a c => ?_⟩
    rw [zpow_add_one, map_mul, hF, mulF, h2]
    simp only [sw]
    split_ifs
    · rw [map_mul, show (3 * ((k : ℤ) + 1)) = 3 * k + 3 by ring, T_add]; ring
    · rw [zero_mul]
  | pred k ih =>
    obtain ⟨u, s, h1, h2⟩ := ih
    refine ⟨u * ε, !s, h1.mul hε, fun a c => ?_⟩
    rw [zpow_sub_one, map_mul, hFi, mulF, h2]
    simp only [sw]
    split_ifs
    · rw [map_mul, show (3 * (-(k : ℤ) - 1)) = 3 * -k + -3 by ring, T_add]; ring
    · rw [zero_mul]

theorem spread_half (k : ℤ) (e : Fin (3 - 1)) : Spread (rep 3 (vT K) (halfTwist 3 ^ k)) e (3 * k) (3 * k) := by
  obtain ⟨u, s, h1, h2⟩ := half_three (K := K) k
  have cf : ∀ a c m, (rep 3 (vT K) (halfTwist 3 ^ k) a c).coeff m = if decide (a = c) = s ∧ 3 * k = m then u else 0 := by
    intro a c m
    rw [h2]
    by_cases h : decide (a = c) = s
    · rw [if_pos h, ← LaurentPolynomial.single_eq_C_mul_T, AddMonoidAlgebra.coeff_single, Finsupp.single_apply]; simp [h]
    · rw [if_neg h, if_neg (fun q => h q.1)]; rfl
  have ex : ∀ c : Fin (3 - 1), ∃ a : Fin (3 - 1), decide (a = c) = s := (by decide : ∀ (s : Bool) (c : Fin (3 - 1)), ∃ a : Fin (3 - 1), decide (a = c) = s) s
  refine ⟨fun a c m hm => ?_, fun a c m hm => ?_, ?_, ?_⟩
  · rw [cf, if_neg (by omega)]
  · rw [cf, if_neg (by omega)]
  · obtain ⟨a, ha⟩ := ex e
    exact ⟨a, by rw [cf, if_pos ⟨ha, rfl⟩]; exact h1⟩
  · obtain ⟨a, ha⟩ := ex (1 - e)
    exact ⟨a, 1 - e, (by decide : ∀ e : Fin (3 - 1), 1 - e ≠ e) e, by rw [cf, if_pos ⟨ha, rfl⟩]; exact h1⟩
end

theorem gnf_spread {K : Type*} [CommRing K] (hl : 3 < lim) {x : NF} (hx : IsGNF lim ω 3 x) :
    ∃ e V D, Spread (rep 3 (vT K) (gnfBraid 3 x)) e V D ∧ D - V = 2 * (NF.canonicalLength x : ℤ) := by
  have h1 := C21_constructor (ω := ω) (n := 3) (by omega) hl x.power x.factors hx.1
  rw [hx.2] at h1
  split_ifs at h1 with h2
  have hp : ∀ π ∈ x.factors.map (permAt 3), π ≠ 1 ∧ π ≠ w0 3 := by
    intro π hπ
    obtain ⟨f, hf, rfl⟩ := List.mem_map.1 hπ
    exact h2.1 f hf
  have he : ∃ e : Fin (3 - 1), ∀ π ∈ (x.factors.map (permAt 3)).head?, π⁻¹ e.succ < π⁻¹ e.castSucc := by
    cases hh : (x.factors.map (permAt 3)).head? with
    | none => exact ⟨0, by simp⟩
    | some π =>
      have hm : π ∈ x.factors.map (permAt 3) := List.mem_of_mem_head? (by rw [hh]; rfl)
      obtain ⟨⟨e, he⟩, -⟩ := proper_three π (hp π hm).1 (hp π hm).2
      exact ⟨e, by simpa using he⟩
  obtain ⟨e, he⟩ := he
  obtain ⟨e', V, D, k1, k2⟩ := spread_chain (K := K) _ hp h2.2 _ e _ _ le_rfl (spread_half x.power e) he
  refine ⟨e', V, D, ?_, ?_⟩
  · rw [gnfBraid, map_mul]
    rw [List.map_map] at k1
    exact k1
  · rw [k2, NF.canonicalLength]; simp
end Bur
open Bur

/-- C124: on three strands `projlen` is exactly twice the canonical length plus one, for every modulus. -/
theorem C124_projlen (p : Nat) (hl : 3 < lim) (hp : p ≠ 1) : ∃ rep : RepBase (dimension 3 1), cellRep 3 1 p = .ok rep ∧
    ∀ x, IsGNF lim ω 3 x → ∃ A, rep.evalOne (GNF.tbl lim ω) x = .ok A ∧ projlen A = .ok fun _ => 2 * (NF.canonicalLength x : ℤ) + 1 := by
  obtain ⟨ρ, G, I, gs, g1, g2, -, -, hF, hd⟩ := C54_hypotheses 3 1 p (by omega) (by omega)
  refine ⟨_, g1, fun x hx => ?_⟩
  obtain ⟨A, a1, a2⟩ := C55_single (show 2 ≤ 3 by omega) hl g2 hF hd hp x hx
  obtain ⟨pl, p1, p2⟩ := projlen_image (τ := ρ) a2
  refine ⟨A, a1, ?_⟩
  rw [p1]
  congr 1
  funext u
  obtain ⟨e, he⟩ := realises_burau (by omega) g1 g2
  have : Nontrivial (ZMod p) := ZMod.nontrivial_iff.2 hp
  obtain ⟨c, V, D, k1, k2⟩ := gnf_spread (K := ZMod p) hl hx
  have hw := width_spread (τ := ρ) (β := gnfBraid 3 x) (V := V) (D := D) (fun a c k hk => by rw [he]; exact k1.lo _ _ _ hk) (fun a c k hk => by rw [he]; exact k1.hi _ _ _ hk)
    (by obtain ⟨a, ha⟩ := k1.top; exact ⟨e.symm a, e.symm c, by rw [he]; simpa using ha.ne_zero⟩)
    (by obtain ⟨a, o, -, ha⟩ := k1.bot; exact ⟨e.symm a, e.symm o, by rw [he]; simpa using ha.ne_zero⟩) a2
  have : pl u = A.length := by cases u; exact p2
  rw [this, hw, k2]

/-- C124: on two and three strands the representation is faithful, for every modulus: different normal forms evaluate to different matrices. -/
theorem C124_faithful (n p : Nat) (hn : n = 2 ∨ n = 3) (hl : n < lim) (hp : p ≠ 1) : ∃ rep : RepBase (dimension n 1), cellRep n 1 p = .ok rep ∧
    ∀ x y, IsGNF lim ω n x → IsGNF lim ω n y → ∃ a b, rep.evaluate (GNF.tbl lim ω) x = .ok a ∧ rep.evaluate (GNF.tbl lim ω) y = .ok b ∧
      (a.den (dimension n 1) (dimension n 1) = b.den (dimension n 1) (dimension n 1) ↔ x = y) := by
  have hn2 : 2 ≤ n := by omega
  obtain ⟨ρ, G, I, gs, g1, g2, -, -, hF, hd⟩ := C54_hypotheses n 1 p hn2 (by omega)
  have : Nontrivial (ZMod p) := ZMod.nontrivial_iff.2 hp
  obtain ⟨e, he⟩ := realises_burau hn2 g1 g2
  have hker : ∀ b : Braid n, rep n (vT (ZMod p)) b = 1 → b = 1 := by
    intro b hb
    obtain ⟨x, hx, rfl⟩ := C15_surjective (ω := ω) hn2 hl b
    have hf : x.factors = [] := by
      rcases hn with rfl | rfl
      · have h1 := C21_constructor (ω := ω) (n := 2) (by omega) hl x.power x.factors hx.1
        rw [hx.2] at h1
        split_ifs at h1 with h2
        cases hx' : x.factors with
        | nil => rfl
        | cons f fs =>
          have := h2.1 f (by rw [hx']; simp)
          exact absurd ((by decide +kernel : ∀ π : Equiv.Perm (Fin 2), π = 1 ∨ π = w0 2) (permAt 2 f)) (by tauto)
      · obtain ⟨c, V, D, k1, k2⟩ := gnf_spread (K := ZMod p) hl hx
        rw [hb] at k1
        have cf : ∀ a c k, k ≠ 0 → ((1 : M2 (ZMod p)) a c).coeff k = 0 := by
          intro a c k hk
          rw [_root_.Matrix.one_apply]
          split_ifs
          · rw [← T_zero, T, AddMonoidAlgebra.coeff_single, Finsupp.single_apply, if_neg (Ne.symm hk)]
          · rfl
        obtain ⟨a, ha⟩ := k1.top
        obtain ⟨a', o, -, ha'⟩ := k1.bot
        have hD : D = 0 := by by_contra q; exact ha.ne_zero (cf _ _ _ q)
        have hV : V = 0 := by by_contra q; exact ha'.ne_zero (cf _ _ _ q)
        rw [hD, hV, NF.canonicalLength] at k2
        exact List.eq_nil_of_length_eq_zero (by omega)
    rw [gnfBraid, hf] at hb ⊢
    simp only [List.map_nil, List.prod_nil, mul_one] at hb ⊢
    rw [half_pow_ker hn2 hp hb, zpow_zero]
  refine ⟨_, g1, fun x y hx hy => ?_⟩
  obtain ⟨t, R⟩ := exists_greal lim ω hn2 hl
  have ev : ∀ x, IsGNF lim ω n x → ∃ a, (⟨n, p, G, I⟩ : RepBase (dimension n 1)).evaluate (GNF.tbl lim ω) x = .ok a ∧ a.denMod p (dimension n 1) = ρ (gnfBraid n x) := by
    intro x hx
    obtain ⟨w, w1, w2, w3⟩ := R.1.artinWord_spec (R.isGNF_iff.1 hx)
    obtain ⟨m, h1, h2, -, h4, h5⟩ := RepBase.evaluate_spec g2 hd hp w fun se hse => (w2 se hse).2
    exact ⟨m, by rw [RepBase.evaluate, w1, bind_ok, h1], by rw [h5, w3, R.den_eq]⟩
  obtain ⟨a, a1, a2⟩ := ev x hx
  obtain ⟨b, b1, b2⟩ := ev y hy
  refine ⟨a, b, a1, b1, fun h => ?_, ?_⟩
  · have h1 : ρ (gnfBraid n x) = ρ (gnfBraid n y) := by rw [← a2, ← b2, Matrix.denMod, Matrix.denMod, h]
    rw [he, he] at h1
    have h2 : rep n (vT (ZMod p)) (gnfBraid n x) = rep n (vT (ZMod p)) (gnfBraid n y) := by
      have := congrArg (fun M => M.submatrix e.symm e.symm) h1
      simpa using this
    have h3 : rep n (vT (ZMod p)) (gnfBraid n x * (gnfBraid n y)⁻¹) = 1 := by rw [map_mul, h2, ← map_mul, mul_inv_cancel, map_one]
    exact (C15_unique hn2 hl _ _ hx hy).2 (mul_inv_eq_one.1 (hker _ h3))
  · rintro rfl
    rw [a1] at b1; cases b1; rfl

/-- C124: so `search.py 3 1 p` reports no braid with canonical factors, for any modulus, command line, seed and bucket size. -/
theorem C124_search {S : Type} (p : Nat) (hl : 3 < lim) (hp : p ≠ 1) (a : Args) (size : Nat) (hsz : 1 ≤ size)
    (rank : (Fin (dimension 3 1) → Fin (dimension 3 1) → ℤ) → Nat) (g : Rng S) (seed : S) (ord : ℤ → List Row → List Row) (ho : ∀ L l, (ord L l).Perm l) :
    ∃ (sm : Summand (dimension 3 1)) (outs : List (ℤ × Out)) (st' : _), summand 3 1 p = .ok sm ∧
      Search.main (GNF.tbl lim ω) a sm size rank g seed ord = .ok (outs, st') ∧
      ∀ o ∈ outs, ∀ y ∈ o.2.found, ∃ x, IsGNF lim ω 3 x ∧ y = printed 3 x ∧ NF.canonicalLength x = 0 := by
  obtain ⟨rep', sm, outs, st', h1, h2, h3, h4⟩ := C122_search (ω := ω) 3 p (by omega) hl hp a size hsz rank g seed ord ho
  refine ⟨sm, outs, st', h2, h3, fun o ho y hy => ?_⟩
  obtain ⟨x, x1, x2, x3⟩ := h4 o ho y hy
  refine ⟨x, x1, x2, ?_⟩
  obtain ⟨r1, e1, e2⟩ := C124_projlen (ω := ω) p hl hp
  obtain ⟨r2, f1, f2⟩ := C122_projlen (ω := ω) 3 p (by omega) hl hp
  rw [h1] at e1 f1; cases e1; cases f1
  obtain ⟨A, A1, A2⟩ := e2 x x1
  obtain ⟨B, pl, B1, B2, B3⟩ := f2 x x1
  rw [A1] at B1; cases B1
  rw [A2] at B2; cases B2
  obtain ⟨k, m, q1, q2⟩ := x3
  have : 2 * (NF.canonicalLength x : ℤ) + 1 = 1 := B3.2 ⟨k, m, isGNF_power x1 k, q1, q2⟩
  omega

/-- Normal forms on three strands with several factors exist. -/
example : IsGNF 7 (fun _ _ _ => 0) 3 ⟨3, -2, [3, 4, 2]⟩ := by decide +kernel

end Peyl
