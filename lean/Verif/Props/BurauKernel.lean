import Verif.Lemmas.BurauDelta
import Verif.Lemmas.SearchMisc
import Verif.Props.SearchComplete
import Verif.Props.Braid
/-!
# What a braid of projlen 1 is (C122)

For `JonesCellRep(n, 1, p)` (the reduced Burau representation modulo `p`) and any braid: the image has projlen 1 exactly if the
braid times some power of the Garside element is in the kernel.
-/
namespace Peyl
open BraidSearch Search LaurentPolynomial Jones Polymat _root_.Matrix
variable {lim : Nat} {ω : List Nat → List Nat → Nat → Nat}

namespace Bur
theorem nearKernel_of_width {p n d : Nat} {τ : Braid n →* LMat p d} {β : Braid n} {A : Img d} (hA : IsProjImage p A fun _ => τ β) (hlen : A.length = 1) : NearKernel τ β := by
  obtain ⟨k, hk⟩ := hA.shift ()
  refine ⟨-k, _root_.Matrix.of fun i j => ((Polymat.slice A 0 () i j : ℤ) : ZMod p), ?_⟩
  rw [eq_comm, T_smul_eq_iff, neg_neg, ← hk]
  funext i j
  apply LaurentPolynomial.ext
  intro m
  rw [coeff_denMod]
  show (C ((Polymat.slice A 0 () i j : ℤ) : ZMod p)).coeff m = _
  rw [← LaurentPolynomial.single_eq_C, AddMonoidAlgebra.coeff_single, Finsupp.single_apply]
  by_cases hm : (0 : ℤ) = m
  · subst hm; simp
  · rw [if_neg hm]
    split
    · rw [Polymat.slice_ge _ (by omega)]; simp
    · rfl

theorem projlen_image {p n d : Nat} {τ : Braid n →* LMat p d} {β : Braid n} {A : Img d} (hA : IsProjImage p A fun _ => τ β) :
    ∃ pl, projlen A = .ok pl ∧ pl () = A.length := by
  obtain ⟨v, dm, pl, rg, -, -, h3, -, h5⟩ := stats_first hA.first
  refine ⟨pl, h3, ?_⟩
  obtain ⟨-, -, h6, m, h7, h8, h9⟩ := h5 ()
  obtain ⟨a, ha⟩ := hA.last
  have h10 := h9 _ ha
  have h11 := lt_of_nz h8
  omega

theorem isGNF_power {n : Nat} {x : NF} (hx : IsGNF lim ω n x) (k : ℤ) : IsGNF lim ω n ⟨n, k, x.factors⟩ := by
  refine ⟨hx.1, ?_⟩
  have h := hx.2
  rw [NF.make] at h
  show NF.make (GNF.tbl lim ω) n k x.factors = _
  rw [NF.make]
  cases ht : GNF.tbl lim ω n with
  | error e => rw [ht] at h; cases h
  | ok t =>
    rw [ht, bind_ok] at h
    rw [bind_ok]
    cases hc : t.isFactorsNormalised x.factors with
    | error e => rw [hc] at h; cases h
    | ok b =>
      rw [hc, bind_ok] at h
      rw [bind_ok]
      cases b with
      | false => cases h
      | true => rfl

theorem nearKernel_iff {n p : Nat} (hn : 2 ≤ n) (hp : p ≠ 1) {G I : List Matrix} (hrep : cellRep n 1 p = .ok ⟨n, p, G, I⟩) {ρ : Braid n →* LMat p (dimension n 1)}
    (H : Realises (⟨n, p, G, I⟩ : RepBase (dimension n 1)) ρ) (b : Braid n) : NearKernel ρ b ↔ ∃ k : ℤ, ρ (halfTwist n ^ k * b) = 1 := by
  obtain ⟨e, he⟩ := realises_burau hn hrep H
  have : Nontrivial (ZMod p) := ZMod.nontrivial_iff.2 hp
  have h1 : ∀ b, ρ b = 1 ↔ rep n (vT (ZMod p)) b = 1 := by
    intro b
    rw [he]
    constructor
    · intro h
      have := congrArg (fun M => M.submatrix e.symm e.symm) h
      simpa using this
    · intro h; rw [h]; simp
  simp only [h1]
  rw [← const_iff_kernel hn]
  constructor
  · rintro ⟨k, M, h⟩
    refine ⟨k, M.submatrix e.symm e.symm, ?_⟩
    rw [he] at h
    have := congrArg (fun M => M.submatrix e.symm e.symm) h
    rw [submatrix_submatrix, Equiv.self_comp_symm, _root_.Matrix.submatrix_id_id] at this
    exact this
  · rintro ⟨k, M, h⟩
    refine ⟨k, M.submatrix e e, ?_⟩
    rw [he, show rep n (vT (ZMod p)) b = _ from h]
    rfl
end Bur
open Bur

/-- C122: up to powers of the Garside element, the braids whose image is a power of `v` times a constant matrix are the kernel. -/
theorem C122_near_kernel (n p : Nat) (hn : 2 ≤ n) (hp : p ≠ 1) : ∃ (ρ : Braid n →* LMat p (dimension n 1)) (G I : List Matrix),
    cellRep n 1 p = .ok ⟨n, p, G, I⟩ ∧ Realises (⟨n, p, G, I⟩ : RepBase (dimension n 1)) ρ ∧
    ∀ b, NearKernel ρ b ↔ ∃ k : ℤ, ρ (halfTwist n ^ k * b) = 1 := by
  obtain ⟨ρ, G, I, gs, g1, g2, -, -, hF, hd⟩ := C54_hypotheses n 1 p hn (by omega)
  exact ⟨ρ, G, I, g1, g2, nearKernel_iff hn hp g1 g2⟩

example := C122_near_kernel 4 5 (by decide) (by decide)

namespace Bur
theorem evaluate_one {n p : Nat} (hn : 2 ≤ n) (hl : n < lim) (hp : p ≠ 1) {G I : List Matrix} {r : Nat} (hd : 0 < dimension n r) {ρ : Braid n →* LMat p (dimension n r)}
    (H : Realises (⟨n, p, G, I⟩ : RepBase (dimension n r)) ρ) {y : NF} (hy : IsGNF lim ω n y) :
    (∃ m, (⟨n, p, G, I⟩ : RepBase (dimension n r)).evaluate (GNF.tbl lim ω) y = .ok m ∧ m.den (dimension n r) (dimension n r) = 1) ↔ ρ (gnfBraid n y) = 1 := by
  obtain ⟨t, R⟩ := exists_greal lim ω hn hl
  obtain ⟨w, w1, w2, w3⟩ := R.1.artinWord_spec (R.isGNF_iff.1 hy)
  obtain ⟨m, h1, h2, -, h4, h5⟩ := RepBase.evaluate_spec H hd hp w fun se hse => (w2 se hse).2
  have h6 : (⟨n, p, G, I⟩ : RepBase (dimension n r)).evaluate (GNF.tbl lim ω) y = .ok m := by rw [RepBase.evaluate, w1, bind_ok, h1]
  have h7 : m.denMod p (dimension n r) = ρ (gnfBraid n y) := by rw [h5, w3, R.den_eq]
  constructor
  · rintro ⟨m', e1, e2⟩
    rw [h6] at e1; cases e1
    rw [← h7, Matrix.denMod, e2]
    ext i j : 2
    rw [_root_.Matrix.map_apply, _root_.Matrix.one_apply, _root_.Matrix.one_apply]; split_ifs <;> simp
  · intro h
    refine ⟨m, h6, ?_⟩
    rw [h] at h7
    funext i j
    apply LaurentPolynomial.ext
    intro k
    have e := congrArg (fun M : LMat p (dimension n r) => (M i j).coeff k) h7
    simp only [Matrix.denMod, _root_.Matrix.map_apply, LPoly.coeff_red] at e
    have e1 : ∀ (R : Type) [CommRing R], ((1 : _root_.Matrix (Fin (dimension n r)) (Fin (dimension n r)) R[T;T⁻¹]) i j).coeff k = if i = j ∧ k = 0 then 1 else 0 := by
      intro R _
      rw [_root_.Matrix.one_apply]
      by_cases hij : i = j
      · rw [if_pos hij, ← T_zero, T, AddMonoidAlgebra.coeff_single, Finsupp.single_apply]
        by_cases hk : k = 0
        · rw [if_pos hk.symm, if_pos ⟨hij, hk⟩]
        · rw [if_neg (fun q => hk q.symm), if_neg (fun q => hk q.2)]
      · rw [if_neg hij, if_neg (fun q => hij q.1)]; rfl
    rw [e1] at e ⊢
    have e2 : (((m.den (dimension n r) (dimension n r) i j).coeff k : ℤ) : ZMod p) = ((if i = j ∧ k = 0 then 1 else 0 : ℤ) : ZMod p) := by
      rw [e]; split_ifs <;> simp
    by_cases hp0 : p = 0
    · subst hp0; exact_mod_cast e2
    · obtain ⟨a1, a2⟩ := h4 hp0 i j k
      rw [ZMod.intCast_eq_intCast_iff, Int.ModEq, Int.emod_eq_of_lt a1 a2, Int.emod_eq_of_lt (by split_ifs <;> simp) (by split_ifs <;> simp <;> omega)] at e2
      exact e2

theorem gnfBraid_power {n : Nat} (x : NF) (k : ℤ) : gnfBraid n ⟨n, k, x.factors⟩ = halfTwist n ^ (k - x.power) * gnfBraid n x := by
  rw [gnfBraid, gnfBraid, ← mul_assoc, ← zpow_add]; simp

theorem power_kernel {n p : Nat} (hn : 2 ≤ n) (hl : n < lim) (hp : p ≠ 1) {G I : List Matrix} (hrep : cellRep n 1 p = .ok ⟨n, p, G, I⟩) (hd : 0 < dimension n 1)
    {ρ : Braid n →* LMat p (dimension n 1)} (H : Realises (⟨n, p, G, I⟩ : RepBase (dimension n 1)) ρ) {x : NF} (hx : IsGNF lim ω n x) :
    NearKernel ρ (gnfBraid n x) ↔ ∃ (k : ℤ) (m : Matrix), (⟨n, p, G, I⟩ : RepBase (dimension n 1)).evaluate (GNF.tbl lim ω) ⟨n, k, x.factors⟩ = .ok m ∧ m.den (dimension n 1) (dimension n 1) = 1 := by
  rw [nearKernel_iff hn hp hrep H]
  constructor
  · rintro ⟨j, hj⟩
    refine ⟨j + x.power, (evaluate_one hn hl hp hd H (isGNF_power hx _)).2 ?_⟩
    rw [gnfBraid_power, show j + x.power - x.power = j by ring, hj]
  · rintro ⟨k, hk⟩
    have := (evaluate_one hn hl hp hd H (isGNF_power hx _)).1 hk
    rw [gnfBraid_power] at this
    exact ⟨_, this⟩
end Bur

/-- C122: for every `n ≥ 2`, every modulus and every `GNF`: `projlen` of the evaluated braid is 1 exactly if for some power of the
Garside element the braid with the same canonical factors evaluates to the identity matrix. -/
theorem C122_projlen (n p : Nat) (hn : 2 ≤ n) (hl : n < lim) (hp : p ≠ 1) : ∃ rep : RepBase (dimension n 1), cellRep n 1 p = .ok rep ∧
    ∀ x, IsGNF lim ω n x → ∃ A pl, rep.evalOne (GNF.tbl lim ω) x = .ok A ∧ projlen A = .ok pl ∧
      (pl () = 1 ↔ ∃ (k : ℤ) (m : Matrix), IsGNF lim ω n ⟨n, k, x.factors⟩ ∧ rep.evaluate (GNF.tbl lim ω) ⟨n, k, x.factors⟩ = .ok m ∧ m.den (dimension n 1) (dimension n 1) = 1) := by
  obtain ⟨ρ, G, I, gs, g1, g2, -, -, hF, hd⟩ := C54_hypotheses n 1 p hn (by omega)
  refine ⟨_, g1, fun x hx => ?_⟩
  obtain ⟨A, a1, a2⟩ := C55_single hn hl g2 hF hd hp x hx
  obtain ⟨pl, p1, p2⟩ := projlen_image (τ := ρ) a2
  refine ⟨A, pl, a1, p1, ?_⟩
  have h1 : pl () = 1 ↔ NearKernel ρ (gnfBraid n x) := by
    rw [p2]
    exact ⟨fun h => nearKernel_of_width a2 (by omega), fun h => by rw [width_one h a2]; rfl⟩
  rw [h1, power_kernel hn hl hp g1 hd g2 hx]
  exact ⟨fun ⟨k, m, h⟩ => ⟨k, m, isGNF_power hx k, h⟩, fun ⟨k, m, _, h⟩ => ⟨k, m, h⟩⟩

example := C122_projlen (lim := 7) (ω := pop0) 4 5 (by decide) (by decide) (by decide)

/-- C122: everything `search.py n 1 p` reports is, up to a power of the Garside element, in the kernel. -/
theorem C122_search {S : Type} (n p : Nat) (hn : 2 ≤ n) (hl : n < lim) (hp : p ≠ 1) (a : Args) (size : Nat) (hsz : 1 ≤ size)
    (rank : (Fin (dimension n 1) → Fin (dimension n 1) → ℤ) → Nat) (g : Rng S) (seed : S) (ord : ℤ → List Row → List Row) (ho : ∀ L l, (ord L l).Perm l) :
    ∃ (rep : RepBase (dimension n 1)) (sm : Summand (dimension n 1)) (outs : List (ℤ × Out)) (st' : _), cellRep n 1 p = .ok rep ∧ summand n 1 p = .ok sm ∧
      Search.main (GNF.tbl lim ω) a sm size rank g seed ord = .ok (outs, st') ∧
      ∀ o ∈ outs, ∀ y ∈ o.2.found, ∃ x, IsGNF lim ω n x ∧ y = printed n x ∧
        ∃ (k : ℤ) (m : Matrix), rep.evaluate (GNF.tbl lim ω) ⟨n, k, x.factors⟩ = .ok m ∧ m.den (dimension n 1) (dimension n 1) = 1 := by
  obtain ⟨ρ, G, I, gs, g1, g2, g3, g4, hF, hd⟩ := C54_hypotheses n 1 p hn (by omega)
  obtain ⟨outs, st', f1, -, -, -, -, -, f7, -⟩ := C72_main (sm := ⟨n, p, gs⟩) hn hl g4 hF hd hp a size hsz rank g seed ord ho
  refine ⟨_, _, outs, st', g1, g3, f1, fun o ho y hy => ?_⟩
  obtain ⟨x, x1, x2, x3⟩ := f7 o ho y hy
  exact ⟨x, x1, x2, (power_kernel hn hl hp g1 hd g2 x1).1 x3⟩

example (g : Rng Unit) := C122_search (lim := 7) (ω := pop0) 4 5 (by decide) (by decide) (by decide) ⟨4, 30, 10, 2, true, true⟩ 50 (by decide) (fun _ => 0) g () (fun _ l => l) (fun _ _ => .refl _)

/-- C122: one braid of projlen 1 with at least one canonical factor shows that the representation is not faithful: two different
braids evaluate to the same matrix. -/
theorem C122_unfaithful (n p : Nat) (hn : 2 ≤ n) (hl : n < lim) (hp : p ≠ 1) (rep : RepBase (dimension n 1)) (hrep : cellRep n 1 p = .ok rep) (x : NF) (hx : IsGNF lim ω n x)
    (hf : x.factors ≠ []) (A : Img (dimension n 1)) (hA : rep.evalOne (GNF.tbl lim ω) x = .ok A) (hpl : projlen A = .ok fun _ => 1) :
    ∃ y m, IsGNF lim ω n y ∧ gnfBraid n y ≠ 1 ∧ rep.evaluate (GNF.tbl lim ω) y = .ok m ∧ m.den (dimension n 1) (dimension n 1) = 1 := by
  obtain ⟨rep', h1, h2⟩ := C122_projlen (ω := ω) n p hn hl hp
  rw [hrep] at h1; cases h1
  obtain ⟨A', pl, a1, a2, a3⟩ := h2 x hx
  rw [hA] at a1; cases a1
  rw [hpl] at a2; cases a2
  obtain ⟨k, m, q1, q2, q3⟩ := a3.1 rfl
  refine ⟨_, m, q1, fun h => ?_, q2, q3⟩
  have hid : IsGNF lim ω n ⟨n, 0, []⟩ := by
    obtain ⟨t, R⟩ := exists_greal lim ω hn hl
    obtain ⟨z, -, z2, rfl, -⟩ := R.1.identity_spec
    exact R.isGNF_iff.2 z2
  have := (C15_unique hn hl _ _ q1 hid).2 (by rw [h]; simp [gnfBraid])
  exact hf (congrArg NF.factors this)

end Peyl
