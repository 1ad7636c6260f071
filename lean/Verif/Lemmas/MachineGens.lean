import Verif.Lemmas.MachineInt
import Verif.Lemmas.PolymatWord
/-!
# The generators of a `JonesSummand` have small entries
-/
namespace Peyl
open Polymat Polynomial LaurentPolynomial Jones

/-- The width of a batch of images. -/
theorem width_le_batch {α : Type} {p d ℓ : Nat} {P : PArr α d d} {N : α → _root_.Matrix (Fin d) (Fin d) ℤ[X]} (hN : ∀ a, Small ℓ (N a))
    (hP : IsProjImage p P fun a => (N a).map fun f => LPoly.red p f.toLaurent) : P.length ≤ 2 * ℓ + 1 := by
  obtain ⟨a, hlast⟩ := hP.last
  obtain ⟨k, hk⟩ := hP.shift a
  have key : ∀ e, slice P e a ≠ 0 → 0 ≤ (e : ℤ) - k ∧ (e : ℤ) - k ≤ 2 * ℓ := by
    intro e he
    obtain ⟨i, hi⟩ := Function.ne_iff.1 he
    obtain ⟨j, hj⟩ := Function.ne_iff.1 hi
    have h1 := shift_coeff hk e i j
    have hne : ((slice P e a i j : ℤ) : ZMod p) ≠ 0 := fun h0 => hj (castZ (fun hp => by
      by_cases hl : e < P.length
      · rw [slice_lt P hl]; exact hP.reduced hp _ (List.getElem_mem hl) a i j
      · rw [slice_ge P (by omega)]; exact ⟨le_rfl, by show (0 : ℤ) < p; omega⟩) h0)
    rw [h1] at hne
    split at hne
    · next h0 =>
      refine ⟨h0, ?_⟩
      by_contra hgt
      rw [(hN a).degree_le i j (by omega)] at hne
      simp at hne
    · exact absurd rfl hne
  have a1 := key 0 (hP.first a)
  have a2 := key _ hlast
  omega

theorem summand_gens {n r p : Nat} (hn : 2 ≤ n) (h : 2 * r ≤ n) {gs : List (Img (dimension n r))} (hs : summand n r p = .ok ⟨n, p, gs⟩) :
    ∀ g ∈ gs, Bd 2 g ∧ g.length ≤ 3 := by
  obtain ⟨ρ, G, I, gs0, g1, g2, -, -, -, hd⟩ := C54_hypotheses n r 0 hn h
  have hcm : cellMatrices n r = .ok (G, I) := by
    rw [cellRep, pyAssert, if_pos (by simp; omega), bind_ok, pyAssert, if_pos (by simpa using h), bind_ok, artinGensInvs] at g1
    cases hc : cellMatrices n r with
    | error e => rw [hc] at g1; cases g1
    | ok gi =>
      rw [hc, bind_ok, if_neg (by simp), bind_ok] at g1
      injection g1 with g1; injection g1 with _ _ a b
      rw [← a, ← b]
  obtain ⟨β, A, A', h1, h2, -, h3⟩ := cellMatrices_spec h
  have hG : G = (List.range (n - 1)).map A := by rw [hcm] at h2; injection h2 with h2; exact congrArg Prod.fst h2
  have hlen : G.length = n - 1 := g2.gens_len
  have hden : ∀ i (hi : i < G.length), G[i].denMod 0 (dimension n r) = ρ (sigma n i) := fun i hi => (g2.gens i hi).2.2
  have hval : ∀ i (hi : i < G.length), ValGE G[i] 0 := by
    intro i hi
    have hin : i + 1 < n := by omega
    have e : G[i] = A i := by simp [hG]
    rw [e]
    refine valGE_of_poly (h3 i hin).1.1 fun x y => ?_
    rw [(h3 i hin).1.2.2]
    exact gen_entry_poly _ _ _ _
  obtain ⟨P, p1, p2⟩ := RepBase.polymatGens_ok (rep := (⟨n, 0, G, I⟩ : RepBase (dimension n r))) (ms := G) (by intro e; rw [e] at hlen; simp at hlen; omega)
    (fun m hm => by
      obtain ⟨i, hi, rfl⟩ := List.getElem_of_mem hm
      exact ⟨(g2.gens i hi).1, (g2.gens i hi).2.1⟩)
    (fun m hm => by
      obtain ⟨i, hi, rfl⟩ := List.getElem_of_mem hm
      exact hval i hi)
    (fun m hm => by
      obtain ⟨i, hi, rfl⟩ := List.getElem_of_mem hm
      show G[i].denMod 0 (dimension n r) ≠ 0
      rw [hden i hi]; exact RepBase.rho_ne ρ hd (by norm_num) _)
  have hsm : ∀ i : Fin G.length, ∃ N : _root_.Matrix (Fin (dimension n r)) (Fin (dimension n r)) ℤ[X], Small 1 N ∧
      G[i].denMod 0 (dimension n r) = N.map fun f => LPoly.red 0 f.toLaurent := by
    intro i
    obtain ⟨N, n1, n2⟩ := jones_small (by omega) h g1 g2 [i.1] (by simp; omega)
    refine ⟨N, n1, ?_⟩
    rw [← n2]
    simpa [posWord] using hden i.1 i.2
  choose N n1 n2 using hsm
  have p2' : IsProjImage 0 P fun i => (N i).map fun f => LPoly.red 0 f.toLaurent := by
    have := p2; simpa only [n2] using this
  have hw := width_le_batch n1 p2'
  have hb : Bd (2 ^ 1) P := bd_of_small fun a => ⟨N a, n1 a, p2'.shift a⟩
  rw [summand, pyAssert, if_pos (by simp; omega), bind_ok, pyAssert, if_pos (by simpa using h), bind_ok, hcm, bind_ok] at hs
  dsimp only at hs
  rw [p1, bind_ok] at hs
  injection hs with hs; injection hs with _ _ hs
  intro g hg
  rw [← hs] at hg
  obtain ⟨i, -, rfl⟩ := List.mem_map.1 hg
  refine ⟨fun S hS a x y => ?_, by simpa [imgAt] using hw⟩
  obtain ⟨S', hS', rfl⟩ := List.mem_map.1 hS
  exact hb S' hS' i x y

end Peyl
