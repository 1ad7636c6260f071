import Verif.Props.Braid
/-!
# `from_gnf_pair` on arbitrary lists of permutations (C19)
-/
namespace Peyl
open Equiv Perms
variable {n lim : Nat} {ω : List Nat → List Nat → Nat → Nat}

/-- C19: `from_gnf_pair((k, words))` is `Δ^k` times the positive lifts of the permutations, for any list of permutations. -/
theorem C19_from_gnf_pair (hn : 2 ≤ n) (hl : n < lim) (k : ℤ) (πs : List (Perm (Fin n))) :
    ∃ x, BraidGroup.fromGnfPair lim ω n k (πs.map wordOf) = .ok x ∧ IsGNF lim ω n x ∧ gnfBraid n x = halfTwist n ^ k * (πs.map lift).prod := by
  obtain ⟨t, R⟩ := exists_greal lim ω hn hl
  have fold : ∀ (πs : List (Perm (Fin n))) (acc : NF), IsGNF lim ω n acc → ∃ r,
      (πs.map wordOf).foldlM (init := acc) (fun acc w => do
        let x ← BraidGroup.positiveLift lim ω n w
        NF.mul (GNF.tbl lim ω) acc x) = .ok r ∧ IsGNF lim ω n r ∧
        gnfBraid n r = gnfBraid n acc * (πs.map lift).prod := by
    intro πs
    induction πs with
    | nil => intro acc h; exact ⟨acc, rfl, h, by simp⟩
    | cons π πs ih =>
      intro acc h
      obtain ⟨p, p1, p2, p3⟩ := positiveLift_spec (ω := ω) hn hl π
      obtain ⟨q, q1, q2, q3⟩ := C11_mul hn hl acc p h p2
      obtain ⟨r, r1, r2, r3⟩ := ih q q2
      refine ⟨r, ?_, r2, ?_⟩
      · rw [List.map_cons, List.foldlM_cons, p1, bind_ok, q1, bind_ok]; exact r1
      · rw [r3, q3, p3, List.map_cons, List.prod_cons, mul_assoc]
  have he := R.1.make_ok (d := 0) (fs := []) (by simp) (by simpa using Germ.canon_nil 0)
  have hd := R.1.make_ok (d := k) (fs := []) (by simp) (by simpa using Germ.canon_nil _)
  obtain ⟨r, r1, r2, r3⟩ := fold πs ⟨n, 0, []⟩ (R.isGNF_iff.2 he.2)
  obtain ⟨q, q1, q2, q3⟩ := C11_mul hn hl _ r (R.isGNF_iff.2 hd.2) r2
  refine ⟨q, ?_, q2, by rw [q3, r3]; simp [gnfBraid]⟩
  unfold BraidGroup.fromGnfPair BraidGroup.id
  rw [hd.1, bind_ok]
  simp only [pyAssert, decide_eq_true (by omega : 1 ≤ n), if_true, bind_ok]
  rw [he.1, bind_ok, r1, bind_ok, q1]

/-- C19: if the permutations are proper and left-weighted, they are the canonical factors of the result, and `k` is its power. -/
theorem C19_from_gnf_pair_normal (hn : 2 ≤ n) (hl : n < lim) (k : ℤ) (πs : List (Perm (Fin n))) (h1 : ∀ π ∈ πs, π ≠ 1 ∧ π ≠ w0 n) (h2 : πs.IsChain LeftWeighted) :
    ∃ x, BraidGroup.fromGnfPair lim ω n k (πs.map wordOf) = .ok x ∧ IsGNF lim ω n x ∧ NF.inf x = k ∧ NF.canonicalFactors (GNF.tbl lim ω) x = .ok (πs.map wordOf) ∧
      NF.canonicalLength x = πs.length := by
  obtain ⟨t, R⟩ := exists_greal lim ω hn hl
  have hidx : ∀ π : Perm (Fin n), ∃ f, f < n.factorial ∧ permAt n f = π := by
    intro π
    obtain ⟨i, h1, -, h2⟩ := perm_index π
    exact ⟨i, h1, h2⟩
  choose f f1 f2 using hidx
  have hmk := C21_constructor (ω := ω) hn hl k (πs.map f) (by intro g hg; obtain ⟨π, -, rfl⟩ := List.mem_map.1 hg; exact f1 π)
  have e : (πs.map f).map (permAt n) = πs := by
    rw [List.map_map]; conv_rhs => rw [← List.map_id πs]
    exact List.map_congr_left fun π _ => f2 π
  rw [if_pos ⟨by intro g hg; obtain ⟨π, hπ, rfl⟩ := List.mem_map.1 hg; rw [f2]; exact h1 π hπ, by rw [e]; exact h2⟩] at hmk
  have hx : IsGNF lim ω n ⟨n, k, πs.map f⟩ := ⟨by intro g hg; obtain ⟨π, -, rfl⟩ := List.mem_map.1 hg; exact f1 π, hmk⟩
  obtain ⟨ws, w1, w2, w3⟩ := C19_roundtrip hn hl _ hx
  obtain ⟨y, y1, y2, y3⟩ := C19_from_gnf_pair (ω := ω) hn hl k πs
  have hy : y = ⟨n, k, πs.map f⟩ := by
    refine (C15_unique hn hl _ _ y2 hx).2 ?_
    rw [y3, gnfBraid]
    simp only [List.map_map, Function.comp_def, f2]
  subst hy
  refine ⟨_, y1, y2, rfl, ?_, by simp [NF.canonicalLength]⟩
  rw [w1]
  congr 1
  have hx' := R.isGNF_iff.1 hx
  have hcf : ∀ fs : List Nat, TableSpec.InR t fs → fs.mapM (lookup t.divs) = .ok (fs.map fun f => wordOf (permAt n f)) := by
    intro fs
    induction fs with
    | nil => intro _; rfl
    | cons f fs ih =>
      intro h
      simp only [TableSpec.InR_cons, R.2.1] at h
      rw [← elements_length] at h
      rw [List.mapM_cons, ih h.2, R.2.2.1, lookup_lt h.1, bind_ok, permAt_spec h.1]; rfl
  have := hcf _ hx'.inR
  unfold NF.canonicalFactors at w1
  rw [R.1.ok, bind_ok, this] at w1
  cases w1
  rw [List.map_map]
  exact List.map_congr_left fun π _ => by simp [f2]

/-- Left-weightedness on words. -/
def leftWeightedW (n : Nat) (u v : List Nat) : Bool :=
  (List.range (n - 1)).all fun i => !decide ((inverse v).getD (i + 1) 0 < (inverse v).getD i 0) || decide (u.getD (i + 1) 0 < u.getD i 0)

theorem leftWeightedW_iff (ρ π : Perm (Fin n)) : leftWeightedW n (wordOf ρ) (wordOf π) = true ↔ LeftWeighted ρ π := by
  simp only [leftWeightedW, List.all_eq_true, List.mem_range, Bool.or_eq_true, Bool.not_eq_true', decide_eq_false_iff_not, decide_eq_true_eq, inverse_eq]
  constructor
  · intro h i hi
    have := h i (by omega)
    rw [wordOf_getD _ _ hi, wordOf_getD _ _ (by omega : i < n), wordOf_getD _ _ hi, wordOf_getD _ _ (by omega : i < n)] at this
    intro hlt
    exact this.resolve_left fun q => q (by exact_mod_cast hlt)
  · intro h i hi
    have hi' : i + 1 < n := by omega
    rw [wordOf_getD _ _ hi', wordOf_getD _ _ (by omega : i < n), wordOf_getD _ _ hi', wordOf_getD _ _ (by omega : i < n)]
    by_cases q : π⁻¹ ⟨i + 1, hi'⟩ < π⁻¹ ⟨i, by omega⟩
    · exact Or.inr (by exact_mod_cast h i hi' q)
    · exact Or.inl (by exact_mod_cast q)

/-- The same for a list of words, with no trivial factor. -/
def normalW (n : Nat) : List (List Nat) → Bool
  | [] => true
  | [u] => !isIdentity u && !isLongestElement u
  | u :: v :: ws => !isIdentity u && !isLongestElement u && leftWeightedW n u v && normalW n (v :: ws)

theorem normalW_spec (πs : List (Perm (Fin n))) (h : normalW n (πs.map wordOf) = true) : (∀ π ∈ πs, π ≠ 1 ∧ π ≠ w0 n) ∧ πs.IsChain LeftWeighted := by
  have one : ∀ π : Perm (Fin n), isIdentity (wordOf π) = false → isLongestElement (wordOf π) = false → π ≠ 1 ∧ π ≠ w0 n := by
    intro π h1 h2
    constructor
    · rintro rfl; rw [(isIdentity_iff _).2 rfl] at h1; cases h1
    · rintro rfl; rw [(isLongestElement_iff _).2 rfl] at h2; cases h2
  induction πs with
  | nil => simp
  | cons π πs ih =>
    cases πs with
    | nil =>
      simp only [List.map_cons, List.map_nil, normalW, Bool.and_eq_true, Bool.not_eq_true'] at h
      exact ⟨by simpa using one π h.1 h.2, by simp⟩
    | cons ρ πs =>
      simp only [List.map_cons, normalW, Bool.and_eq_true, Bool.not_eq_true'] at h
      obtain ⟨⟨⟨h1, h2⟩, h3⟩, h4⟩ := h
      obtain ⟨i1, i2⟩ := ih h4
      refine ⟨?_, List.isChain_cons_cons.2 ⟨(leftWeightedW_iff _ _).1 h3, i2⟩⟩
      intro σ hσ
      rcases List.mem_cons.1 hσ with rfl | hσ
      · exact one _ h1 h2
      · exact i1 σ hσ

/-- The hypotheses of `C19_from_gnf_pair_normal` hold for the README's element. -/
example : normalW 4 [[1, 3, 0, 2], [2, 0, 3, 1], [1, 3, 0, 2], [2, 0, 3, 1]] = true := by decide

end Peyl
