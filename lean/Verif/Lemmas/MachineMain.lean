import Verif.Lemmas.MachineJones
import Verif.Props.Jones
/-!
# Machine integers in `JonesCellRep`: what the evaluators need
-/
namespace Peyl
open Polymat Polynomial LaurentPolynomial Jones

variable {lim : Nat} {ω : List Nat → List Nat → Nat → Nat} {n r p w : Nat} {G I : List Matrix} {ρ : Braid n →* LMat p (dimension n r)}

theorem halfTwist_word (n : Nat) : ∃ u : List Nat, (∀ s ∈ u, s + 1 < n) ∧ u.length = n * (n - 1) / 2 ∧ halfTwist n = posWord n u := by
  obtain ⟨u, u1, u2, u3, -⟩ := lift_word (w0 n)
  refine ⟨u, u1, ?_, by rw [← u3]; rfl⟩
  rw [u2, inv_w0_eq, Finset.sum_range_id]

/-- The image of a factor: reduced and of bounded width. -/
theorem factor_facts {t : NFTable (List Nat)} (R : GReal lim ω n t) (hn : 2 ≤ n) (h : 2 * r ≤ n) (hp : p ≠ 1) (hrep : cellRep n r p = .ok ⟨n, p, G, I⟩)
    (H : Realises (⟨n, p, G, I⟩ : RepBase (dimension n r)) ρ) (hd : 0 < dimension n r) {f : Nat} (hf : f < t.order) :
    ∃ P, (⟨n, p, G, I⟩ : RepBase (dimension n r)).factorImage (GNF.tbl lim ω) f = .ok P ∧
      IsProjImage p P (fun _ => ρ (lift (permAt n f))) ∧ P.length ≤ n * (n - 1) + 1 := by
  obtain ⟨P, p1, p2⟩ := RepBase.factorImage_spec (rep := (⟨n, p, G, I⟩ : RepBase (dimension n r))) R.1 H hd hp hf
  obtain ⟨u, u1, u2, u3, u4⟩ := lift_word (permAt n f)
  refine ⟨P, p1, p2, ?_⟩
  obtain ⟨N, n1, n2⟩ := jones_small (by omega) h hrep H u u1
  have p3 : IsProjImage p P fun _ => ρ (lift (permAt n f)) := p2
  rw [u3, n2] at p3
  have := width_le n1 p3
  omega

theorem deltaImageW_all {t : NFTable (List Nat)} (R : GReal lim ω n t) (hp : p ≠ 1)
    (H : Realises (⟨n, p, G, I⟩ : RepBase (dimension n r)) ρ) (hd : 0 < dimension n r) {b : Nat} (hb : b < 2 ^ (w - 1))
    (hB : ∀ k, k ≤ 1 → ∀ P : Img (dimension n r), (⟨n, p, G, I⟩ : RepBase (dimension n r)).deltaImage (GNF.tbl lim ω) k = .ok P →
      UpToShift p P (fun _ => ρ (halfTwist n ^ k)) → ReducedMod p P → Bd b P) (k : Nat) :
    (⟨n, p, G, I⟩ : RepBase (dimension n r)).deltaImageW w (GNF.tbl lim ω) k = (⟨n, p, G, I⟩ : RepBase (dimension n r)).deltaImage (GNF.tbl lim ω) k ∧
    ∀ P, (⟨n, p, G, I⟩ : RepBase (dimension n r)).deltaImage (GNF.tbl lim ω) k = .ok P → Bd b P := by
  by_cases hk : k < t.tauOrder
  · obtain ⟨P, p1, p2, p3, p4⟩ := RepBase.deltaImage_spec (rep := (⟨n, p, G, I⟩ : RepBase (dimension n r))) R.1 H hd hp hk
    have hk1 : k ≤ 1 := by have := R.tauOrder; omega
    have hb' := hB k hk1 P p1 p3 (p4 hk1)
    rw [RepBase.deltaImageW_eq p1 hb' hb, p1]
    refine ⟨rfl, fun Q e => ?_⟩
    cases e; exact hb'
  · have e : pyAssert (decide (k < t.tauOrder)) = .error .assertion := by simp [pyAssert, hk]
    have h1 : (⟨n, p, G, I⟩ : RepBase (dimension n r)).deltaImage (GNF.tbl lim ω) k = .error .assertion := by
      simp only [RepBase.deltaImage, R.1.ok, bind_ok, e]; rfl
    have h2 : (⟨n, p, G, I⟩ : RepBase (dimension n r)).deltaImageW w (GNF.tbl lim ω) k = .error .assertion := by
      simp only [RepBase.deltaImageW, R.1.ok, bind_ok, e]; rfl
    rw [h1, h2]
    exact ⟨rfl, fun P e => by cases e⟩

theorem mod_arith {d W p w : Nat} (hd : 0 < d) (hW : 0 < W) (hp : 2 ≤ p) (hb : d * W * (p - 1) ^ 2 < 2 ^ (w - 1)) :
    p - 1 < 2 ^ (w - 1) ∧ d * W * (p - 1) * (p - 1) < 2 ^ (w - 1) := by
  have e : d * W * (p - 1) * (p - 1) = d * W * (p - 1) ^ 2 := by ring
  refine ⟨lt_of_le_of_lt ?_ hb, by rw [e]; exact hb⟩
  have h1 : 1 ≤ d * W := Nat.mul_pos hd hW
  have h2 : p - 1 ≤ (p - 1) ^ 2 := Nat.le_self_pow (by norm_num) _
  nlinarith

/-- Modulo `p` the evaluators of `JonesCellRep` with machine integers do what they do with exact ones. -/
theorem cell_mod (hn : 2 ≤ n) (hl : n < lim) (h : 2 * r ≤ n) (hp : 2 ≤ p) (hrep : cellRep n r p = .ok ⟨n, p, G, I⟩)
    (H : Realises (⟨n, p, G, I⟩ : RepBase (dimension n r)) ρ) (hd : 0 < dimension n r) (hw : 1 ≤ w)
    (hb : dimension n r * (n * (n - 1) + 1) * (p - 1) ^ 2 < 2 ^ (w - 1)) :
    (∀ xs : List NF, (∀ x ∈ xs, IsGNF lim ω n x) → (⟨n, p, G, I⟩ : RepBase (dimension n r)).evalSameW w (GNF.tbl lim ω) xs =
      (⟨n, p, G, I⟩ : RepBase (dimension n r)).evalSame (GNF.tbl lim ω) xs) ∧
    (∀ seqs : List (List Nat), (⟨n, p, G, I⟩ : RepBase (dimension n r)).evalIntegersW w (GNF.tbl lim ω) seqs =
      (⟨n, p, G, I⟩ : RepBase (dimension n r)).evalIntegers (GNF.tbl lim ω) seqs) := by
  obtain ⟨t, R⟩ := exists_greal lim ω hn hl
  obtain ⟨a1, a2⟩ := mod_arith hd (by omega) hp hb
  have hF : ∀ f, f < t.order → (⟨n, p, G, I⟩ : RepBase (dimension n r)).factorImageW w (GNF.tbl lim ω) f = (⟨n, p, G, I⟩ : RepBase (dimension n r)).factorImage (GNF.tbl lim ω) f := by
    intro f hf
    obtain ⟨P, p1, p2, -⟩ := factor_facts R hn h (by omega) hrep H hd hf
    rw [RepBase.factorImageW_eq p1 (bd_of_reduced (by omega) p2.reduced) a1, p1]
  have hB : ∀ f, f < t.order → ∀ A, (⟨n, p, G, I⟩ : RepBase (dimension n r)).factorImage (GNF.tbl lim ω) f = .ok A → Bd (p - 1) A ∧ A.length ≤ n * (n - 1) + 1 := by
    intro f hf A hA
    obtain ⟨P, p1, p2, p3⟩ := factor_facts R hn h (by omega) hrep H hd hf
    rw [p1] at hA; cases hA
    exact ⟨bd_of_reduced (by omega) p2.reduced, p3⟩
  have hD := deltaImageW_all (lim := lim) (ω := ω) (w := w) R (by omega) H hd a1 fun k _ P _ _ hr => bd_of_reduced (by omega) hr
  constructor
  · intro xs hx
    refine RepBase.evalSameW_mod (Q := fun f => f < t.order) (M := p - 1) (W := n * (n - 1) + 1) hw (show p ≠ 0 by omega) hF hB (fun k => (hD k).1)
      (fun k => (hD k).2) le_rfl a2 xs fun x hxm => (R.isGNF_iff.1 (hx x hxm)).inR
  · intro seqs
    refine RepBase.evalIntegersW_mod (Q := fun f => f < t.order) (W := n * (n - 1) + 1) hw (show p ≠ 0 by omega) hF hB a2 seqs fun t' ht' => ?_
    obtain rfl : t = t' := by have := R.1.ok; rw [show GNF.tbl lim ω n = .ok t' from ht'] at this; injection this with this; exact this.symm
    exact ⟨R.1.spec.id_lt, fun f hf => hf⟩

end Peyl
