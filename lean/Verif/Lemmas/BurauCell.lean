import Verif.Lemmas.BurauRep
import Verif.Lemmas.JonesRep
import Verif.Spec.Rep
/-!
# The cell representation with one cup is the reduced Burau representation
-/
namespace Peyl
namespace Bur
open _root_.Matrix TL Jones LaurentPolynomial

/-- One cup at `k`, `k + 1` and `b` through strands. -/
def cup (b k : Nat) : List Nat := (List.range (2 + b + b)).map fun x =>
  if x = k then k + 1 else if x = k + 1 then k else if x < b then (if k + x < 2 * b then 2 * b + 1 - x else 2 * b - 1 - x)
  else if x < k then 2 * b - 1 - x else 2 * b + 1 - x

theorem cup_length (b k : Nat) : (cup b k).length = 2 + b + b := by simp [cup]

/-- The arcs, as a disjunction. -/
theorem cup_arc (b k x : Nat) (hk : b ≤ k) (h : x < 2 + b + b) :
    (x = k ∧ at_ (cup b k) x = k + 1) ∨ (x = k + 1 ∧ at_ (cup b k) x = k) ∨ (x < b ∧ k + x < 2 * b ∧ at_ (cup b k) x = 2 * b + 1 - x) ∨
    (x < b ∧ 2 * b ≤ k + x ∧ at_ (cup b k) x = 2 * b - 1 - x) ∨ (b ≤ x ∧ x < k ∧ at_ (cup b k) x = 2 * b - 1 - x) ∨
    (k + 1 < x ∧ at_ (cup b k) x = 2 * b + 1 - x) := by
  rw [cup, at_range _ _ _ h]
  split_ifs <;> omega

theorem cup_cell (b k : Nat) (hk : b ≤ k) (hk' : k ≤ 2 * b) : Cell (2 + b) b (cup b k) := by
  have arc := fun x hx => cup_arc b k x hk hx
  refine ⟨⟨fun x hx => ?_, fun x hx => ?_, fun x hx => ?_, fun x y hx hy h1 h2 h3 => ?_⟩, cup_length b k, fun i hi => ?_⟩
  · rw [cup_length] at hx ⊢
    have := arc x hx; omega
  · rw [cup_length] at hx
    have := arc x hx; omega
  · rw [cup_length] at hx
    have h1 := arc x hx
    have := arc (at_ (cup b k) x) (by omega); omega
  · rw [cup_length] at hx hy
    have := arc x hx; have := arc y hy; omega
  · have := arc i (by omega); omega

theorem cup_inj {b k l : Nat} (hk : b ≤ k) (hk' : k ≤ 2 * b) (hl : b ≤ l) (h : cup b k = cup b l) : k = l := by
  have h1 := cup_arc b k k hk (by omega)
  have h2 := cup_arc b l k hl (by omega)
  rw [h] at h1
  omega

theorem act_self (b k : Nat) (hk : b ≤ k) (hk' : k ≤ 2 * b) : actSeq k (cup b k) = cup b k ∧ actLoops k (cup b k) = 1 := by
  have arc := fun x hx => cup_arc b k x hk hx
  refine ⟨ext_at (by simp) fun i hi => ?_, ?_⟩
  · rw [actSeq_length, cup_length] at hi
    rw [at_actSeq _ _ _ (by rw [cup_length]; omega), cupCap]
    have h1 := arc i hi; have h2 := arc k (by omega); have h3 := arc (k + 1) (by omega)
    split_ifs <;> omega
  · have := arc k (by omega)
    rw [actLoops, if_pos (by omega)]

theorem act_adj (b k l : Nat) (hk : b ≤ k) (hk' : k ≤ 2 * b) (hl : b ≤ l) (hl' : l ≤ 2 * b) (h : k + 1 = l ∨ l + 1 = k) :
    actSeq k (cup b l) = cup b k ∧ actLoops k (cup b l) = 0 := by
  refine ⟨ext_at (by simp [cup_length]) fun i hi => ?_, ?_⟩
  · rw [actSeq_length, cup_length] at hi
    rw [at_actSeq _ _ _ (by rw [cup_length]; omega), cupCap]
    have h1 := cup_arc b k i hk hi; have h2 := cup_arc b l i hl hi; have h3 := cup_arc b l k hl (by omega); have h4 := cup_arc b l (k + 1) hl (by omega)
    split_ifs <;> omega
  · have := cup_arc b l k hl (by omega)
    rw [actLoops, if_neg (by omega)]

theorem act_far (b k l : Nat) (hk : b ≤ k) (hk' : k ≤ 2 * b) (hl : b ≤ l) (hl' : l ≤ 2 * b) (h : k + 2 ≤ l ∨ l + 2 ≤ k) :
    ¬ Cell (2 + b) b (actSeq k (cup b l)) := by
  intro hc
  have h3 := cup_arc b l k hl (by omega); have h4 := cup_arc b l (k + 1) hl (by omega)
  have := hc.up (at_ (cup b l) k) (by omega)
  have h5 := cup_arc b l (at_ (cup b l) k) hl (by omega)
  rw [at_actSeq _ _ _ (by rw [cup_length]; omega), cupCap] at this
  split_ifs at this <;> omega

theorem dimension_one (n : Nat) (hn : 2 ≤ n) : dimension n 1 = n - 1 := by simp [dimension]

/-- The basis of the cell module is indexed by the generators. -/
theorem exists_equiv {b d : Nat} {β : Fin d → List Nat} (h : IsBasis (2 + b) b β) (hd : d = b + 1) :
    ∃ e : Fin d ≃ Fin (b + 1), ∀ a, β a = cup b (b + (b - (e a).val)) := by
  have hc : ∀ i : Fin (b + 1), ∃ a, β a = cup b (b + (b - i.val)) := fun i => h.surj _ (cup_cell b _ (by omega) (by omega))
  choose f hf using hc
  have inj : Function.Injective f := fun i j e => by
    have := hf i
    rw [e, hf j] at this
    have := cup_inj (by omega) (by omega) (by omega) this
    ext; omega
  have bij : Function.Bijective f := (Fintype.bijective_iff_injective_and_card f).2 ⟨inj, by simp [hd]⟩
  refine ⟨(Equiv.ofBijective f bij).symm, fun a => ?_⟩
  conv_lhs => rw [← (Equiv.ofBijective f bij).apply_symm_apply a]
  exact hf _

theorem Emat_eq {R : Type*} [CommRing R] {b d : Nat} {β : Fin d → List Nat} (h : IsBasis (2 + b) b β) (e : Fin d ≃ Fin (b + 1)) (he : ∀ a, β a = cup b (b + (b - (e a).val)))
    (δ : R) (i : Fin (b + 1)) : Emat δ β (b + (b - i.val)) = (E δ i).submatrix e e := by
  ext a c
  rw [submatrix_apply, E_apply, Emat, he c, he a]
  have ha := (e a).2; have hc := (e c).2; have hi := i.2
  have inj : ∀ {x y : Fin (b + 1)}, cup b (b + (b - x.val)) = cup b (b + (b - y.val)) → x = y := fun {x y} q => by
    have := cup_inj (by omega) (by omega) (by omega) q
    ext; omega
  by_cases h1 : i = e c
  · rw [h1, (act_self b _ (by omega) (by omega)).1, (act_self b _ (by omega) (by omega)).2, J_self]
    by_cases h2 : e a = e c
    · rw [if_pos h2, h2]; simp
    · rw [if_neg h2, if_neg fun q => h2 (inj q.symm)]
  · by_cases h2 : i.val + 1 = (e c).val ∨ (e c).val + 1 = i.val
    · obtain ⟨q1, q2⟩ := act_adj b (b + (b - i.val)) (b + (b - (e c).val)) (by omega) (by omega) (by omega) (by omega) (by omega)
      rw [q1, q2, J_adj δ h2]
      by_cases h3 : e a = i
      · rw [if_pos h3, h3]; simp
      · rw [if_neg h3, if_neg fun q => h3 (inj q.symm)]
    · have hne : i.val ≠ (e c).val := fun q => h1 (Fin.ext q)
      rw [J_far δ (by omega)]
      have := act_far b (b + (b - i.val)) (b + (b - (e c).val)) (by omega) (by omega) (by omega) (by omega) (by omega)
      have hq : actSeq (b + (b - i.val)) (cup b (b + (b - (e c).val))) ≠ cup b (b + (b - (e a).val)) := fun q => this (by rw [q]; exact cup_cell b _ (by omega) (by omega))
      rw [if_neg hq]
      simp

theorem isBasis_congr {ι : Type*} {n n' b : Nat} {β : ι → List Nat} (e : n = n') (h : IsBasis n b β) : IsBasis n' b β := e ▸ h

/-- The unit `v` of the ring of Laurent polynomials. -/
noncomputable def vT (K : Type*) [CommRing K] : (K[T;T⁻¹])ˣ := ⟨T 1, T (-1), by rw [← T_add]; simp, by rw [← T_add]; simp⟩

/-- `JonesCellRep(n, 1, p)` realises the reduced Burau representation, up to the order of the basis. -/
theorem realises_burau {n p : Nat} (hn : 2 ≤ n) {G I : List Matrix} (hrep : cellRep n 1 p = .ok ⟨n, p, G, I⟩) {ρ : Braid n →* LMat p (dimension n 1)}
    (H : Realises (⟨n, p, G, I⟩ : RepBase (dimension n 1)) ρ) :
    ∃ e : Fin (dimension n 1) ≃ Fin (n - 1), ∀ b, ρ b = (rep n (vT (ZMod p)) b).submatrix e e := by
  obtain ⟨β, A, A', h1, h2, h3⟩ := cellRep_spec (n := n) (r := 1) (p := p) (by omega) (by omega)
  rw [hrep] at h2
  obtain ⟨rfl, rfl⟩ : G = (List.range (n - 1)).map A ∧ I = (List.range (n - 1)).map A' := by
    injection h2 with h2; injection h2 with _ _ a b; exact ⟨a, b⟩
  obtain ⟨b, rfl⟩ : ∃ b, n = b + 2 := ⟨n - 2, by omega⟩
  rw [show b + 2 - 2 * 1 = b by omega] at h1 h3
  obtain ⟨e, he⟩ := exists_equiv (isBasis_congr (Nat.add_comm b 2) h1) (dimension_one (b + 2) (by omega))
  refine ⟨e, fun x => ?_⟩
  have key : ∀ i, i < b + 2 - 1 → ρ (sigma (b + 2) i) = (rep (b + 2) (vT (ZMod p)) (sigma (b + 2) i)).submatrix e e := by
    intro i hi
    have := (H.gens i (by simpa using hi)).2.2
    simp only [List.getElem_map, List.getElem_range] at this
    rw [← this, (h3 i (by omega)).1.2.2, rep_sigma _ hi, gen]
    have hE := Emat_eq (isBasis_congr (Nat.add_comm b 2) h1) e he (T 1 + T (-1) : (ZMod p)[T;T⁻¹]) ⟨i, by omega⟩
    dsimp only at hE
    rw [hE]
    ext x y : 2
    simp only [_root_.Matrix.sub_apply, _root_.Matrix.smul_apply, submatrix_apply, _root_.Matrix.one_apply, e.injective.eq_iff]
    rfl
  let f : Braid (b + 2) →* LMat p (dimension (b + 2) 1) :=
    { toFun := fun x => (rep (b + 2) (vT (ZMod p)) x).submatrix e e
      map_one' := by rw [map_one, submatrix_one_equiv]
      map_mul' := fun x y => by rw [map_mul, submatrix_mul_equiv] }
  exact hom_ext (f := ρ) (g := f) key x

/-- The full twist. -/
theorem rep_full_twist {R : Type*} [CommRing R] {n : Nat} (hn : 2 ≤ n) (v : Rˣ) : rep n v (halfTwist n ^ 2) = ((v : R) ^ (2 * n)) • 1 := by
  obtain ⟨β, A, A', h1, -, -⟩ := cellRep_spec (n := n) (r := 1) (p := 0) (by omega) (by omega)
  obtain ⟨b, rfl⟩ : ∃ b, n = b + 2 := ⟨n - 2, by omega⟩
  rw [show b + 2 - 2 * 1 = b by omega] at h1
  have h1' : IsBasis (2 * 1 + b) b β := isBasis_congr (by omega) h1
  obtain ⟨e, he⟩ := exists_equiv h1' (dimension_one (b + 2) (by omega))
  have ft := full_twist h1' (v := (v : R)) (vi := ((v⁻¹ : Rˣ) : R)) (by simp) (by omega)
  have hs : ∀ i, i < b + 2 - 1 → Smat (v : R) ((v⁻¹ : Rˣ) : R) β b i = (rep (b + 2) v (sigma (b + 2) (b + 2 - 2 - i))).submatrix e e := by
    intro i hi
    rw [rep_sigma _ (by omega), gen, Smat]
    have hE := Emat_eq h1' e he ((v : R) + ((v⁻¹ : Rˣ) : R)) ⟨b + 2 - 2 - i, by omega⟩
    dsimp only at hE
    rw [show b + (b - (b + 2 - 2 - i)) = b + i by omega] at hE
    rw [hE]
    ext x y : 2
    simp only [_root_.Matrix.sub_apply, _root_.Matrix.smul_apply, submatrix_apply, _root_.Matrix.one_apply, e.injective.eq_iff]
  let f : Braid (b + 2) →* _root_.Matrix (Fin (dimension (b + 2) 1)) (Fin (dimension (b + 2) 1)) R :=
    { toFun := fun x => (rep (b + 2) v x).submatrix e e
      map_one' := by rw [map_one, submatrix_one_equiv]
      map_mul' := fun x y => by rw [map_mul, submatrix_mul_equiv] }
  rw [show 2 * 1 + b - 1 = b + 2 - 1 by omega, half_congr (t := fun i => f (sigma (b + 2) (b + 2 - 2 - i))) (fun i hi => hs i hi),
    ← half_map f, ← halfTwist_eq_rev (by omega), ← map_pow] at ft
  have ft' : (rep (b + 2) v (halfTwist (b + 2) ^ 2)).submatrix e e = (v : R) ^ (2 * 1 * (1 + b + 1)) • 1 := ft
  ext x y : 2
  have := congrFun (congrFun ft' (e.symm x)) (e.symm y)
  simp only [submatrix_apply, Equiv.apply_symm_apply, _root_.Matrix.smul_apply, _root_.Matrix.one_apply, e.symm.injective.eq_iff] at this
  rw [this, show 2 * 1 * (1 + b + 1) = 2 * (b + 2) by ring]
  simp only [_root_.Matrix.smul_apply, _root_.Matrix.one_apply]

end Bur
end Peyl
