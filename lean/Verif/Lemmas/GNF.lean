import Verif.Lemmas.PermTable
/-!
# `GNF` objects: from the generic theory to the public vocabulary
-/
namespace Peyl
open Equiv Perms NFReal
variable {n lim : Nat} {ω : List Nat → List Nat → Nat → Nat}

/-- The realisation together with the order and divisors of its table. -/
def GReal (lim : Nat) (ω : List Nat → List Nat → Nat → Nat) (n : Nat) (t : NFTable (List Nat)) : Prop :=
  NFReal (GNF.tbl lim ω) n t (permGerm n) (permAt n) lift ∧ t.order = n.factorial ∧ t.divs = elements n ∧
  ∀ i, i + 1 < n → ∃ j, j < n.factorial ∧ lookup t.artinGens i = .ok j ∧ permAt n j = sg n i

theorem GReal.isGNF_iff {t : NFTable (List Nat)} (R : GReal lim ω n t) {x : NF} : IsGNF lim ω n x ↔ Valid t n x := by
  obtain ⟨R, ho, -⟩ := R
  constructor
  · rintro ⟨h1, h2⟩
    have hin : TableSpec.InR t x.factors := fun f hf => by rw [ho]; exact h1 f hf
    obtain ⟨b, hb, hb'⟩ := R.spec.isFactorsNormalised_spec x.power hin
    simp only [NF.make, R.ok, bind_ok, hb] at h2
    cases b with
    | false => simp [pyAssert] at h2
    | true =>
      simp only [pyAssert, if_true, bind_ok, Except.ok.injEq] at h2
      exact ⟨by rw [← h2], hin, hb⟩
  · intro h
    refine ⟨fun f hf => by rw [← ho]; exact h.inR f hf, ?_⟩
    rw [(R.make_ok h.inR (R.canon h)).1]
    have := h.n_eq; cases x; simp_all

theorem GReal.den_eq {t : NFTable (List Nat)} (_ : GReal lim ω n t) (x : NF) : den (permGerm n) (permAt n) lift x = gnfBraid n x := by
  unfold den Germ.val gnfBraid halfTwist
  rw [List.map_map]; rfl

theorem posWord_append (u w : List Nat) : posWord n (u ++ w) = posWord n u * posWord n w := by simp [posWord]

/-- Positive braids are the products of positive permutation braids. -/
theorem gpos_iff {b : Braid n} : GPos (permGerm n) lift b ↔ IsPositive b := by
  constructor
  · rintro ⟨l, -, rfl⟩
    induction l with
    | nil => exact ⟨[], rfl⟩
    | cons x l ih =>
      obtain ⟨u, hu⟩ := ih
      obtain ⟨w, hw⟩ := exists_reduced x
      exact ⟨w ++ u, by rw [posWord_append, ← lift_eq_posWord hw, ← hu]; rfl⟩
  · rintro ⟨w, rfl⟩
    refine ⟨w.map (sg n), fun x _ => permGerm_P x, ?_⟩
    rw [posWord, List.map_map]
    congr 1
    apply List.map_congr_left
    intro s _
    by_cases hs : s + 1 < n
    · rw [Function.comp, lift_sg hs]
    · have h1 : sigma n s = 1 := by rw [sigma, dif_neg (by omega)]
      have h2 : sg n s = 1 := by rw [sg, dif_neg (by omega)]
      rw [Function.comp, h1, h2, lift_hom.one]

theorem sg_ne_w0 (hn : 3 ≤ n) {i : Nat} (hi : i + 1 < n) : sg n i ≠ w0 n := by
  intro e'
  have h2 : inv (sg n i) = 1 := inv_sg hi
  rw [e'] at h2
  have h3 := inv_add_inv_w0 (sg n 0 * (sg n (0 + 1) * sg n 0))
  rw [inv_braid3 (by omega)] at h3
  omega

theorem sg_ne_one {i : Nat} (hi : i + 1 < n) : sg n i ≠ 1 := by
  intro e; have := inv_sg hi; rw [e, inv_one] at this; omega

theorem exists_greal (lim : Nat) (ω : List Nat → List Nat → Nat → Nat) (hn : 2 ≤ n) (hl : n < lim) : ∃ t, GReal lim ω n t :=
  gnf_real lim ω hn hl

theorem GReal.tauOrder {t : NFTable (List Nat)} (R : GReal lim ω n t) : t.tauOrder = 2 := by
  have h := R.1.ok
  change PermTable.create lim ω n = _ at h
  unfold PermTable.create at h
  split at h
  · cases h
  · simp only [PermTable.build, bind, Except.bind] at h
    repeat' split at h
    all_goals first | (cases h; done) | (cases h; rfl)

theorem GReal.nrm_pair {x y : Perm (Fin n)} : (permGerm n).PairN x y ↔ LeftWeighted x y := pairN_perm x y

/-- Looking up permutation words. -/
theorem mapM_index (ps : List (Perm (Fin n))) : ∃ idx, (ps.map wordOf).mapM (dictIndex (elements n)) = .ok idx ∧
    (∀ i ∈ idx, i < n.factorial) ∧ idx.map (permAt n) = ps := by
  induction ps with
  | nil => exact ⟨[], rfl, by simp, rfl⟩
  | cons π ps ih =>
    obtain ⟨idx, h1, h2, h3⟩ := ih
    obtain ⟨i, i1, i2, i3⟩ := perm_index π
    refine ⟨i :: idx, ?_, by simpa [i1] using h2, by simp [i3, h3]⟩
    rw [List.map_cons, List.mapM_cons, i2, bind_ok, h1]; rfl

theorem exists_perms {n : Nat} (ws : List (List Nat)) (h : ∀ w ∈ ws, IsPermWord w ∧ w.length = n) :
    ∃ ps : List (Perm (Fin n)), ws = ps.map wordOf := by
  induction ws with
  | nil => exact ⟨[], rfl⟩
  | cons w ws ih =>
    obtain ⟨ps, rfl⟩ := ih (fun u hu => h u (by simp [hu]))
    obtain ⟨π, rfl⟩ := exists_wordOf (h w (by simp)).1 (h w (by simp)).2
    exact ⟨π :: ps, rfl⟩

theorem fromPermSeq_spec (hn : 2 ≤ n) (hl : n < lim) (ps : List (Perm (Fin n))) :
    ∃ x, GNF.fromPermSeq lim ω n (ps.map wordOf) = .ok x ∧ IsGNF lim ω n x ∧ gnfBraid n x = (ps.map lift).prod := by
  obtain ⟨t, R⟩ := exists_greal lim ω hn hl
  obtain ⟨idx, h1, h2, h3⟩ := mapM_index ps
  obtain ⟨z, z1, z2, z3⟩ := R.1.fromIndices_spec (idx := idx) (fun i hi => by rw [R.2.1]; exact h2 i hi)
  refine ⟨z, ?_, R.isGNF_iff.2 z2, ?_⟩
  · unfold GNF.fromPermSeq
    have : (ps.map wordOf).all (fun p => p.length == n) = true := by simp [length_wordOf]
    rw [this, R.1.ok]
    simp only [pyAssert, if_true, bind_ok, R.2.2.1]
    rw [h1]; exact z1
  · rw [← R.den_eq, z3, h3]

theorem positiveLift_spec (hn : 2 ≤ n) (hl : n < lim) (π : Perm (Fin n)) :
    ∃ x, BraidGroup.positiveLift lim ω n (wordOf π) = .ok x ∧ IsGNF lim ω n x ∧ gnfBraid n x = lift π := by
  obtain ⟨t, R⟩ := exists_greal lim ω hn hl
  have hone : lift (1 : Perm (Fin n)) = 1 := lift_hom.one
  unfold BraidGroup.positiveLift
  rw [if_neg (by simp [length_wordOf])]
  by_cases h1 : π = 1
  · rw [if_pos ((isIdentity_iff π).2 h1)]
    have h := R.1.make_ok (d := 0) (fs := []) (by simp) (by simpa using Germ.canon_nil 0)
    exact ⟨_, h.1, R.isGNF_iff.2 h.2, by simp [gnfBraid, h1, hone]⟩
  rw [if_neg (by rw [isIdentity_iff]; exact h1)]
  by_cases h2 : π = w0 n
  · rw [if_pos ((isLongestElement_iff π).2 h2)]
    have h := R.1.make_ok (d := 1) (fs := []) (by simp) (by simpa using Germ.canon_nil 1)
    exact ⟨_, h.1, R.isGNF_iff.2 h.2, by simp [gnfBraid, h2, halfTwist]⟩
  rw [if_neg (by rw [isLongestElement_iff]; exact h2), R.1.ok, bind_ok, R.2.2.1]
  obtain ⟨i, i1, i2, i3⟩ := perm_index π
  have h := R.1.make_ok (d := 0) (fs := [i]) (by simpa [TableSpec.InR, R.2.1] using i1) (by
    apply Germ.canon_of_proper
    · intro x _; exact permGerm_P x
    · simp [Germ.Nrm]
    · simp only [List.map_cons, List.map_nil, List.mem_singleton, forall_eq, i3]; exact ⟨h2, h1⟩)
  exact ⟨_, by rw [i2, bind_ok]; exact h.1, R.isGNF_iff.2 h.2, by simp [gnfBraid, i3]⟩

end Peyl
