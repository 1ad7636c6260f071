import Verif.Lemmas.KernelWords
import Verif.Props.BurauKernel
import Verif.Props.GnfPair
/-!
# Unfaithful representations and the documented elements (C123)
-/
namespace Peyl
open BraidSearch Search LaurentPolynomial Jones Polymat _root_.Matrix Perms
variable {lim : Nat} {ω : List Nat → List Nat → Nat → Nat}

namespace Bur
theorem evaluate_of_ker {n p : Nat} (hn : 2 ≤ n) (hl : n < lim) (hp : p ≠ 1) {rep' : RepBase (dimension n 1)} (hrep : cellRep n 1 p = .ok rep') {x : NF} (hx : IsGNF lim ω n x)
    (hk : rep n (vT (ZMod p)) (gnfBraid n x) = 1) : ∃ m, rep'.evaluate (GNF.tbl lim ω) x = .ok m ∧ m.den (dimension n 1) (dimension n 1) = 1 := by
  obtain ⟨ρ, G, I, gs, g1, g2, -, -, hF, hd⟩ := C54_hypotheses n 1 p hn (by omega)
  rw [hrep] at g1; cases g1
  obtain ⟨e, he⟩ := realises_burau hn hrep g2
  exact (evaluate_one hn hl hp hd g2 hx).2 (by rw [he, hk]; simp)

theorem half_pow_ker {n p : Nat} (hn : 2 ≤ n) (hp : p ≠ 1) {k : ℤ} (h : rep n (vT (ZMod p)) (halfTwist n ^ k) = 1) : k = 0 := by
  have : Nontrivial (ZMod p) := ZMod.nontrivial_iff.2 hp
  obtain ⟨M, -, hM⟩ := const_half_zpow (K := ZMod p) hn k
  rw [Const, h] at hM
  have h1 := congrArg (fun X : _root_.Matrix (Fin (n - 1)) (Fin (n - 1)) (ZMod p)[T;T⁻¹] => (X ⟨0, by omega⟩ ⟨0, by omega⟩).coeff 0) hM
  simp only [_root_.Matrix.one_apply_eq, _root_.Matrix.smul_apply, _root_.Matrix.map_apply, smul_eq_mul] at h1
  rw [mul_comm, ← LaurentPolynomial.single_eq_C_mul_T, AddMonoidAlgebra.coeff_single, Finsupp.single_apply] at h1
  by_contra hk
  rw [if_neg (mul_ne_zero (by exact_mod_cast (by omega : n ≠ 0)) hk), ← T_zero, T, AddMonoidAlgebra.coeff_single, Finsupp.single_apply, if_pos rfl] at h1
  exact one_ne_zero h1

theorem unfaithful_of {n p : Nat} (hn : 2 ≤ n) (hl : n < lim) (hp : p ≠ 1) (h : ∃ b : Braid n, b ≠ 1 ∧ rep n (vT (ZMod p)) b = 1) :
    ∃ rep' : RepBase (dimension n 1), cellRep n 1 p = .ok rep' ∧ ∃ x m, IsGNF lim ω n x ∧ gnfBraid n x ≠ 1 ∧ rep'.evaluate (GNF.tbl lim ω) x = .ok m ∧ m.den (dimension n 1) (dimension n 1) = 1 ∧
      NF.canonicalLength x ≠ 0 ∧ ∃ A, rep'.evalOne (GNF.tbl lim ω) x = .ok A ∧ projlen A = .ok fun _ => 1 := by
  obtain ⟨b, hb, hk⟩ := h
  obtain ⟨x, hx, rfl⟩ := C15_surjective (ω := ω) hn hl b
  obtain ⟨rep', h1, h2⟩ := C122_projlen (ω := ω) n p hn hl hp
  obtain ⟨m, m1, m2⟩ := evaluate_of_ker hn hl hp h1 hx hk
  obtain ⟨A, pl, a1, a2, a3⟩ := h2 x hx
  have hpw : x = ⟨n, x.power, x.factors⟩ := by
    obtain ⟨t, R⟩ := exists_greal lim ω hn hl
    have := (R.isGNF_iff.1 hx).n_eq
    cases x; simp_all
  refine ⟨rep', h1, x, m, hx, hb, m1, m2, ?_, A, a1, ?_⟩
  · intro h0
    have hf : x.factors = [] := by simpa [NF.canonicalLength] using h0
    rw [gnfBraid, hf] at hk hb
    simp only [List.map_nil, List.prod_nil, mul_one] at hk hb
    rw [half_pow_ker hn hp hk] at hb
    simp at hb
  · rw [a2]
    congr 1
    funext _
    exact a3.2 ⟨x.power, m, by rw [← hpw]; exact hx, by rw [← hpw]; exact m1, m2⟩

/-- Moduli with no prime factor above 5. -/
theorem dvd_thirty_pow {p : Nat} (hp0 : p ≠ 0) (hp : ∀ q, q.Prime → q ∣ p → q ≤ 5) : ∃ m, p ∣ 30 ^ m := by
  induction p using Nat.strong_induction_on with
  | _ p ih =>
    by_cases h1 : p = 1
    · exact ⟨0, by simp [h1]⟩
    · have hq := Nat.minFac_prime h1
      obtain ⟨r, hr⟩ := Nat.minFac_dvd p
      have h5 := hp _ hq (Nat.minFac_dvd p)
      have hr0 : r ≠ 0 := by rintro rfl; omega
      have hlt : r < p := by
        have := hq.two_le
        nlinarith [Nat.pos_of_ne_zero hr0]
      obtain ⟨m, hm⟩ := ih r hlt hr0 fun q hq hqr => hp q hq (by rw [hr]; exact dvd_mul_of_dvd_right hqr _)
      refine ⟨m + 1, ?_⟩
      rw [hr, pow_succ, mul_comm]
      refine mul_dvd_mul hm ?_
      have : p.minFac = 2 ∨ p.minFac = 3 ∨ p.minFac = 5 := by
        have h2 := hq.two_le
        interval_cases h : p.minFac
        · simp
        · simp
        · exact absurd hq (by norm_num)
        · simp
      rcases this with h | h | h <;> rw [h] <;> decide
end Bur
open Bur

/-- C123: on five or more strands the reduced Burau representation is not faithful, for no modulus and also not over the integers: some
braid other than the identity evaluates to the identity matrix; and there is a braid for `search.py n 1 p` to find: one with canonical
factors and projlen 1. -/
theorem C123_five_strands (n p : Nat) (hn : 5 ≤ n) (hl : n < lim) (hp : p ≠ 1) :
    ∃ rep : RepBase (dimension n 1), cellRep n 1 p = .ok rep ∧ ∃ x m, IsGNF lim ω n x ∧ gnfBraid n x ≠ 1 ∧ rep.evaluate (GNF.tbl lim ω) x = .ok m ∧ m.den (dimension n 1) (dimension n 1) = 1 ∧
      NF.canonicalLength x ≠ 0 ∧ ∃ A, rep.evalOne (GNF.tbl lim ω) x = .ok A ∧ projlen A = .ok fun _ => 1 := by
  obtain ⟨b, h1, h2⟩ := five hn
  exact unfaithful_of (by omega) hl hp ⟨b, h1, h2 p⟩

/-- C123: on four or more strands it is not faithful modulo any `p` without prime factors above 5. -/
theorem C123_four_strands (n p : Nat) (hn : 4 ≤ n) (hl : n < lim) (hp : p ≠ 1) (hp0 : p ≠ 0) (hq : ∀ q, q.Prime → q ∣ p → q ≤ 5) :
    ∃ rep : RepBase (dimension n 1), cellRep n 1 p = .ok rep ∧ ∃ x m, IsGNF lim ω n x ∧ gnfBraid n x ≠ 1 ∧ rep.evaluate (GNF.tbl lim ω) x = .ok m ∧ m.den (dimension n 1) (dimension n 1) = 1 ∧
      NF.canonicalLength x ≠ 0 ∧ ∃ A, rep.evalOne (GNF.tbl lim ω) x = .ok A ∧ projlen A = .ok fun _ => 1 := by
  obtain ⟨m, hm⟩ := dvd_thirty_pow hp0 hq
  obtain ⟨b, h1, h2⟩ := four hn m
  exact unfaithful_of (by omega) hl hp ⟨b, h1, ker_dvd hm h2⟩

namespace Bur
theorem shortlex_reduced {n : Nat} (π : Equiv.Perm (Fin n)) : ∃ w, shortlex (wordOf π) = .ok w ∧ lift π = posWord n w := by
  obtain ⟨w, h1, h2⟩ := shortlex_spec π
  obtain ⟨h3, h4, h5⟩ := h1.prod
  refine ⟨w, h2, lift_eq_posWord ⟨h5, by rw [h3, _root_.inv_inv], by rw [h4, inv_inv]⟩⟩

theorem seqWord_spec {n : Nat} (πs : List (Equiv.Perm (Fin n))) : ∃ w, seqWord (πs.map wordOf) = some w ∧ (πs.map lift).prod = posWord n w := by
  have : ∃ us, (πs.map wordOf).mapM shortlex = .ok us ∧ (πs.map lift).prod = posWord n us.flatten := by
    induction πs with
    | nil => exact ⟨[], rfl, by simp [posWord]⟩
    | cons π πs ih =>
      obtain ⟨us, u1, u2⟩ := ih
      obtain ⟨w, w1, w2⟩ := shortlex_reduced π
      refine ⟨w :: us, ?_, ?_⟩
      · rw [List.map_cons, List.mapM_cons, w1, bind_ok, u1, bind_ok]; rfl
      · rw [List.map_cons, List.prod_cons, u2, w2]; simp [posWord]
  obtain ⟨us, h1, h2⟩ := this
  exact ⟨us.flatten, by rw [seqWord, h1], h2⟩

theorem exists_perms {n : Nat} : ∀ ws : List (List Nat), (∀ w ∈ ws, IsPermWord w ∧ w.length = n) → ∃ πs : List (Equiv.Perm (Fin n)), ws = πs.map wordOf
  | [], _ => ⟨[], rfl⟩
  | w :: ws, h => by
    obtain ⟨πs, rfl⟩ := exists_perms ws fun w hw => h w (by simp [hw])
    obtain ⟨π, rfl⟩ := exists_wordOf (h w (by simp)).1 (h w (by simp)).2
    exact ⟨π :: πs, rfl⟩

/-- The checks of a documented element. -/
theorem element_spec (x : KernelElement) (hn : 2 ≤ x.n) (hl : x.n < lim) (hp : x.p ≠ 1) (hw : ∀ w ∈ x.seq, IsPermWord w ∧ w.length = x.n) (hne : x.seq ≠ []) (hN : normalW x.n x.seq = true)
    (hc : checkElement x = true) : ∃ rep : RepBase (dimension x.n 1), cellRep x.n 1 x.p = .ok rep ∧
      (∃ y A, BraidGroup.fromGnfPair lim ω x.n 0 x.seq = .ok y ∧ IsGNF lim ω x.n y ∧ NF.inf y = 0 ∧ NF.canonicalFactors (GNF.tbl lim ω) y = .ok x.seq ∧ NF.canonicalLength y = x.seq.length ∧ rep.evalOne (GNF.tbl lim ω) y = .ok A ∧ projlen A = .ok fun _ => 1) ∧
      ∃ y m, BraidGroup.fromGnfPair lim ω x.n (-x.power) x.seq = .ok y ∧ IsGNF lim ω x.n y ∧ NF.canonicalFactors (GNF.tbl lim ω) y = .ok x.seq ∧ gnfBraid x.n y ≠ 1 ∧
        rep.evaluate (GNF.tbl lim ω) y = .ok m ∧ m.den (dimension x.n 1) (dimension x.n 1) = 1 := by
  obtain ⟨n, p, k, ws⟩ := x
  dsimp only at *
  obtain ⟨πs, rfl⟩ := exists_perms ws hw
  obtain ⟨w, w1, w2⟩ := same_of_check hc
  dsimp only at w1 w2
  obtain ⟨w', w3, w4⟩ := seqWord_spec πs
  rw [w1] at w3; cases w3
  obtain ⟨c1, c2⟩ := normalW_spec πs hN
  obtain ⟨rep', h1, h2⟩ := C122_projlen (ω := ω) n p hn hl hp
  obtain ⟨y, y1, y2, y3, y4, y5⟩ := C19_from_gnf_pair_normal (ω := ω) hn hl (-k) πs c1 c2
  obtain ⟨z, z1, z2, z3, z4, z5⟩ := C19_from_gnf_pair_normal (ω := ω) hn hl 0 πs c1 c2
  have hb : gnfBraid n y = halfTwist n ^ (-(k : ℤ)) * (πs.map lift).prod := by
    obtain ⟨y', q1, q2, q3⟩ := C19_from_gnf_pair (ω := ω) hn hl (-k) πs
    rw [y1] at q1; cases q1; exact q3
  have hbz : gnfBraid n z = halfTwist n ^ (0 : ℤ) * (πs.map lift).prod := by
    obtain ⟨y', q1, q2, q3⟩ := C19_from_gnf_pair (ω := ω) hn hl 0 πs
    rw [z1] at q1; cases q1; exact q3
  have hker : rep n (vT (ZMod p)) (gnfBraid n y) = 1 := by
    have h3 := rep_eq_of_psame (ZMod p) w2 (n := n) (by omega)
    rw [sword_pos, sword_pos, posWord_rept, ← halfTwist_word (by omega)] at h3
    rw [hb, map_mul, w4, h3, ← map_mul, zpow_neg, zpow_natCast, inv_mul_cancel, map_one]
  obtain ⟨m, m1, m2⟩ := evaluate_of_ker hn hl hp h1 y2 hker
  have hne' : gnfBraid n y ≠ 1 := by
    intro h0
    have hid : IsGNF lim ω n ⟨n, 0, []⟩ := by
      obtain ⟨t, R⟩ := exists_greal lim ω hn hl
      obtain ⟨z, -, z2, rfl, -⟩ := R.1.identity_spec
      exact R.isGNF_iff.2 z2
    have := (C15_unique hn hl _ _ y2 hid).2 (by rw [h0]; simp [gnfBraid])
    rw [this] at y5
    simp [NF.canonicalLength] at y5
    exact hne (by rw [List.eq_nil_of_length_eq_zero y5.symm]; rfl)
  refine ⟨rep', h1, ?_, y, m, y1, y2, y4, hne', m1, m2⟩
  obtain ⟨A, pl, a1, a2, a3⟩ := h2 z z2
  refine ⟨z, A, z1, z2, z3, z4, by rw [z5, List.length_map], a1, ?_⟩
  rw [a2]
  congr 1
  funext _
  refine a3.2 ?_
  have hzy : (⟨n, -(k : ℤ), z.factors⟩ : NF) = y := by
    refine (C15_unique hn hl _ _ (isGNF_power z2 _) y2).2 ?_
    rw [gnfBraid_power, hb, hbz]
    have : z.power = 0 := z3
    rw [this]; simp
  exact ⟨-k, m, isGNF_power z2 _, by rw [hzy]; exact m1, m2⟩
end Bur

/-- C123: every element documented in the notebook and the README is what is said about it: with power 0 it is in normal form with the listed canonical factors and its projlen is 1; with the given
power it is a braid in normal form with the listed canonical factors, it is not the identity, and it evaluates to the identity matrix. -/
theorem C123_documented (x : KernelElement) (hx : x ∈ kernelElements) (hl : x.n < lim) : ∃ rep : RepBase (dimension x.n 1), cellRep x.n 1 x.p = .ok rep ∧
    (∃ y A, BraidGroup.fromGnfPair lim ω x.n 0 x.seq = .ok y ∧ IsGNF lim ω x.n y ∧ NF.inf y = 0 ∧ NF.canonicalFactors (GNF.tbl lim ω) y = .ok x.seq ∧ NF.canonicalLength y = x.seq.length ∧ rep.evalOne (GNF.tbl lim ω) y = .ok A ∧ projlen A = .ok fun _ => 1) ∧
    ∃ y m, BraidGroup.fromGnfPair lim ω x.n (-x.power) x.seq = .ok y ∧ IsGNF lim ω x.n y ∧ NF.canonicalFactors (GNF.tbl lim ω) y = .ok x.seq ∧ gnfBraid x.n y ≠ 1 ∧
      rep.evaluate (GNF.tbl lim ω) y = .ok m ∧ m.den (dimension x.n 1) (dimension x.n 1) = 1 := by
  simp only [kernelElements, List.mem_cons, List.not_mem_nil, or_false] at hx
  rcases hx with rfl | rfl | rfl | rfl | rfl | rfl | rfl
  · exact element_spec _ (by decide) hl (by decide) (by decide +kernel) (by decide) (by decide +kernel) check_A
  · exact element_spec _ (by decide) hl (by decide) (by decide +kernel) (by decide) (by decide +kernel) check_B
  · exact element_spec _ (by decide) hl (by decide) (by decide +kernel) (by decide) (by decide +kernel) check_C
  · exact element_spec _ (by decide) hl (by decide) (by decide +kernel) (by decide) (by decide +kernel) check_D
  · exact element_spec _ (by decide) hl (by decide) (by decide +kernel) (by decide) (by decide +kernel) check_P2
  · exact element_spec _ (by decide) hl (by decide) (by decide +kernel) (by decide) (by decide +kernel) check_P5a
  · exact element_spec _ (by decide) hl (by decide) (by decide +kernel) (by decide) (by decide +kernel) check_P5b

/-- The hypotheses of the C122 and C123 theorems are met: the README's example. -/
example : ∃ (rep : RepBase (dimension 4 1)) (x : NF) (A : Img (dimension 4 1)), cellRep 4 1 2 = .ok rep ∧ IsGNF 1000 (fun _ _ _ => 0) 4 x ∧ x.factors ≠ [] ∧
    rep.evalOne (GNF.tbl 1000 fun _ _ _ => 0) x = .ok A ∧ projlen A = .ok fun _ => 1 := by
  obtain ⟨rep, h1, ⟨y, A, -, h2, -, -, h3, h4, h5⟩, -⟩ := C123_documented (lim := 1000) (ω := fun _ _ _ => 0) elemP2 (by simp [kernelElements]) (by decide)
  refine ⟨rep, y, A, h1, h2, ?_, h4, h5⟩
  rintro h
  rw [NF.canonicalLength, h] at h3
  exact absurd h3 (by decide)

example : (4 : Nat) ≤ 4 ∧ (60 : Nat) ≠ 1 ∧ (60 : Nat) ≠ 0 ∧ ∀ q : Nat, q.Prime → q ∣ 60 → q ≤ 5 := by
  refine ⟨by decide, by decide, by decide, fun q hq hd => ?_⟩
  have : q ∣ 2 ^ 2 * (3 * 5) := by simpa using hd
  rcases (Nat.Prime.dvd_mul hq).1 this with h | h
  · have := (Nat.prime_dvd_prime_iff_eq hq Nat.prime_two).1 (hq.dvd_of_dvd_pow h); omega
  · rcases (Nat.Prime.dvd_mul hq).1 h with h | h
    · have := (Nat.prime_dvd_prime_iff_eq hq Nat.prime_three).1 h; omega
    · have := (Nat.prime_dvd_prime_iff_eq hq Nat.prime_five).1 h; omega

end Peyl
