import Verif.Props.DGNF
import Verif.Props.Braid
import Verif.Lemmas.BucketProduct
/-!
# C10, C18, C22, C80: the remaining constructors of normal forms

`artin_gens`, `from_perm` and `substring`.
-/
namespace Peyl
open Equiv Perms NFReal
variable {n lim : Nat}

/-- The list of one-factor objects made from a list of indices. -/
theorem gens_of_lookup {T : Type} {tbl : Nat → Except Err (NFTable T)} (l : List Nat) (m : Nat) (hm : l.length = m) (Q : Nat → NF → Prop)
    (h : ∀ i, i < m → ∃ j x, lookup l i = .ok j ∧ NF.make tbl n 0 [j] = .ok x ∧ Q i x) :
    ∃ gs, l.mapM (fun f => NF.make tbl n 0 [f]) = .ok gs ∧ gs.length = m ∧ ∀ i (hi : i < gs.length), Q i gs[i] := by
  have hj : ∀ i (hi : i < l.length), ∃ x, NF.make tbl n 0 [l[i]] = .ok x ∧ Q i x := by
    intro i hi
    obtain ⟨j, x, h1, h2⟩ := h i (by omega)
    rw [lookup_lt hi, Except.ok.injEq] at h1
    exact ⟨x, by rw [h1]; exact h2⟩
  obtain ⟨gs, g1, g2, g3⟩ := mapM_ok (fun f => NF.make tbl n 0 [f]) l (by
    intro f hf
    obtain ⟨i, hi, rfl⟩ := List.getElem_of_mem hf
    obtain ⟨x, hx, -⟩ := hj i hi
    exact ⟨x, hx⟩)
  refine ⟨gs, g1, by omega, fun i hi => ?_⟩
  obtain ⟨x, x1, x2⟩ := hj i (by omega)
  have e := g3 i (by omega) hi
  rw [x1, Except.ok.injEq] at e
  rw [← e]; exact x2

/-- A part of the factors of a legal object is one again. -/
theorem substring_valid {W : Type} [Group W] {T : Type} {tbl : Nat → Except Err (NFTable T)} {t : NFTable T} {g : Germ W} {v : Nat → W} {β : W → Braid n}
    (R : NFReal tbl n t g v β) {x : NF} (hx : Valid t n x) (i j : Nat) :
    (i ≤ j ∧ j ≤ x.factors.length → NF.substring tbl x i j = .ok ⟨n, x.power, (x.factors.take j).drop i⟩ ∧ Valid t n ⟨n, x.power, (x.factors.take j).drop i⟩) ∧
    (¬ (i ≤ j ∧ j ≤ x.factors.length) → NF.substring tbl x i j = .error .assertion) := by
  constructor
  · rintro ⟨h1, h2⟩
    have hn := hx.n_eq
    rw [R.valid_iff] at hx
    have hsub : ∀ f ∈ (x.factors.take j).drop i, f ∈ x.factors := fun f hf => List.mem_of_mem_take (List.mem_of_mem_drop hf)
    have hv : Valid t n ⟨n, x.power, (x.factors.take j).drop i⟩ := by
      rw [R.valid_iff]
      refine ⟨rfl, fun f hf => hx.2.1 f (hsub f hf), ?_, fun f hf => hx.2.2.2 f (hsub f hf)⟩
      have h := hx.2.2.1
      show List.IsChain _ (((x.factors.take j).drop i).map _)
      rw [← List.take_append_drop j x.factors, List.map_append] at h
      have h := List.IsChain.left_of_append h
      rw [← List.take_append_drop i (x.factors.take j), List.map_append] at h
      exact List.IsChain.right_of_append h
    refine ⟨?_, hv⟩
    rw [NF.substring, hn, pyAssert, if_pos (by simp [h1, h2]), bind_ok]
    exact (R.make_ok hv.inR (R.canon hv)).1
  · intro h
    rw [NF.substring, pyAssert, if_neg (by simpa using h)]; rfl

section
variable {ω : List Nat → List Nat → Nat → Nat}

/-- C10: `GNF.from_perm(w)` is the positive lift of `w`. -/
theorem C10_from_perm (hn : 2 ≤ n) (hl : n < lim) (π : Perm (Fin n)) :
    ∃ x, GNF.fromPerm lim ω (wordOf π) = .ok x ∧ IsGNF lim ω n x ∧ gnfBraid n x = lift π := by
  obtain ⟨x, x1, x2, x3⟩ := fromPermSeq_spec (ω := ω) hn hl [π]
  exact ⟨x, by rw [GNF.fromPerm, length_wordOf]; exact x1, x2, by simpa using x3⟩

example := C10_from_perm (n := 4) (lim := 7) (ω := pop0) (by decide) (by decide) (sg 4 1)
example : GNF.fromPerm 7 pop0 [1, 2, 0] = .ok ⟨3, 0, [3]⟩ ∧ GNF.fromPerm 7 pop0 [2, 1, 0] = .ok ⟨3, 1, []⟩ := by decide +kernel

/-- C22: `GNF.artin_gens(n)` for `n ≥ 3`: the `n - 1` Artin generators in order, the same objects as `BraidGroup(n).gens()`. -/
theorem C22_artin_gens (hn : 3 ≤ n) (hl : n < lim) :
    ∃ gs, NF.artinGens (GNF.tbl lim ω) n = .ok gs ∧ BraidGroup.gens lim ω n = .ok gs ∧ gs.length = n - 1 ∧
      ∀ i (h : i < gs.length), IsGNF lim ω n gs[i] ∧ gnfBraid n gs[i] = sigma n i := by
  obtain ⟨gs, -, g1, -, g2, -, g3, -⟩ := C22_gens (ω := ω) hn hl
  obtain ⟨t, R⟩ := exists_greal lim ω (by omega : 2 ≤ n) hl
  obtain ⟨hs, h1, h2, h3⟩ := gens_of_lookup (n := n) (tbl := GNF.tbl lim ω) t.artinGens (n - 1) R.1.gens_len
      (fun i x => IsGNF lim ω n x ∧ gnfBraid n x = sigma n i) (by
    intro i hi
    obtain ⟨j, j1, j2, j3⟩ := R.2.2.2 i (by omega)
    have h := R.1.make_ok (d := 0) (fs := [j]) (by simpa [TableSpec.InR, R.2.1] using j1) (by
      apply Germ.canon_of_proper
      · intro x _; exact permGerm_P x
      · simp [Germ.Nrm]
      · simp only [List.map_cons, List.map_nil, List.mem_singleton, forall_eq, j3]; exact ⟨sg_ne_w0 hn (by omega), sg_ne_one (by omega)⟩)
    exact ⟨j, _, j2, h.1, R.isGNF_iff.2 h.2, by simp [gnfBraid, j3, lift_sg (show i + 1 < n by omega)]⟩)
  have e : hs = gs := by
    apply List.ext_getElem (by omega)
    intro i hi hi'
    exact (C15_unique (by omega) hl _ _ (h3 i hi).1 (g3 i hi').1).2 (by rw [(h3 i hi).2, (g3 i hi').2])
  subst e
  exact ⟨hs, by rw [NF.artinGens, R.1.ok, bind_ok]; exact h1, g1, g2, g3⟩

example := C22_artin_gens (n := 5) (lim := 7) (ω := pop0) (by decide) (by decide)

/-- C18: `x.substring(i, j)` for `0 ≤ i ≤ j ≤ len(x.factors)` is a legal object with the power of `x` and the factors `i, ..., j - 1` of `x`;
other bounds raise AssertionError. -/
theorem C18_substring (hn : 2 ≤ n) (hl : n < lim) (x : NF) (hx : IsGNF lim ω n x) (i j : Nat) :
    (i ≤ j ∧ j ≤ x.factors.length → ∃ y, NF.substring (GNF.tbl lim ω) x i j = .ok y ∧ IsGNF lim ω n y ∧ y.power = x.power ∧
      y.factors.length = j - i ∧ ∀ k, k < j - i → y.factors[k]? = x.factors[i + k]?) ∧
    (¬ (i ≤ j ∧ j ≤ x.factors.length) → NF.substring (GNF.tbl lim ω) x i j = .error .assertion) := by
  obtain ⟨t, R⟩ := exists_greal lim ω hn hl
  obtain ⟨h1, h2⟩ := substring_valid R.1 (R.isGNF_iff.1 hx) i j
  refine ⟨fun h => ⟨_, (h1 h).1, R.isGNF_iff.2 (h1 h).2, rfl, ?_, fun k hk => ?_⟩, h2⟩
  · simp only [List.length_drop, List.length_take]; omega
  · simp only [List.getElem?_drop, List.getElem?_take]
    rw [if_pos (by omega)]

example := C18_substring (by decide) (by decide) _ gnfA 0 1

/-- C18: cutting a braid at any place gives the braid back. -/
theorem C18_cut (hn : 2 ≤ n) (hl : n < lim) (x : NF) (hx : IsGNF lim ω n x) (i : Nat) (hi : i ≤ x.factors.length) :
    ∃ y z, NF.substring (GNF.tbl lim ω) x 0 i = .ok y ∧ NF.substring (GNF.tbl lim ω) x i x.factors.length = .ok z ∧
      gnfBraid n x = gnfBraid n y * (halfTwist n ^ (-x.power) * gnfBraid n z) := by
  obtain ⟨t, R⟩ := exists_greal lim ω hn hl
  refine ⟨_, _, ((substring_valid R.1 (R.isGNF_iff.1 hx) 0 i).1 ⟨by omega, hi⟩).1, ((substring_valid R.1 (R.isGNF_iff.1 hx) i _).1 ⟨hi, le_refl _⟩).1, ?_⟩
  simp only [gnfBraid, List.drop_zero, List.take_length]
  have e : (x.factors.map fun f => lift (permAt n f)).prod =
      ((x.factors.take i).map fun f => lift (permAt n f)).prod * ((x.factors.drop i).map fun f => lift (permAt n f)).prod := by
    rw [← List.prod_append, ← List.map_append, List.take_append_drop]
  rw [e]
  group

example := C18_cut (by decide) (by decide) _ gnfA 1

end

section
variable {ω : NPar → NPar → Nat → Nat}

/-- C80: `DGNF.artin_gens(n)` for `n ≥ 3`: the `n - 1` Artin generators in order. -/
theorem C80_artin_gens (hn : 3 ≤ n) (hl : NPar.catalanNum n < lim) :
    ∃ gs, NF.artinGens (DGNF.tbl lim ω) n = .ok gs ∧ gs.length = n - 1 ∧
      ∀ i (h : i < gs.length), IsDGNF lim ω n gs[i] ∧ dgnfBraid n gs[i] = sigma n i := by
  obtain ⟨l, t, R⟩ := dgnf_real lim ω (by omega : 2 ≤ n) hl
  obtain ⟨hs, h1, h2, h3⟩ := gens_of_lookup (n := n) (tbl := DGNF.tbl lim ω) t.artinGens (n - 1) R.data.gens_len
      (fun i x => IsDGNF lim ω n x ∧ dgnfBraid n x = sigma n i) (by
    intro i hi
    obtain ⟨j, j1, j2, j3⟩ := R.data.gens i (by omega)
    have hp : ((⟨i, by omega⟩ : Fin n), (⟨i + 1, by omega⟩ : Fin n)).1 < ((⟨i, by omega⟩ : Fin n), (⟨i + 1, by omega⟩ : Fin n)).2 := by
      simp [Fin.lt_def]
    have h := R.real.make_ok (d := 0) (fs := [j]) (by simpa [TableSpec.InR] using j1) (by
      apply Germ.canon_of_proper
      · simpa [nparGerm_P, j3] using ncp_tr hp
      · simp [Germ.Nrm]
      · simp only [List.map_cons, List.map_nil, List.mem_singleton, forall_eq, j3]; exact ⟨tr_ne_D hn hp, tr_ne_one hp⟩)
    refine ⟨j, _, j2, h.1, R.isDGNF_iff.2 h.2, ?_⟩
    simp only [dgnfBraid, zpow_zero, one_mul, List.map_cons, List.map_nil, List.prod_cons, List.prod_nil, mul_one, j3]
    rw [dlift_tr hp]; exact band_adj n i)
  exact ⟨hs, by rw [NF.artinGens, R.real.ok, bind_ok]; exact h1, h2, h3⟩

example := C80_artin_gens (n := 5) (lim := 5000) (ω := dpop0) (by decide) (by decide)

/-- C78: `x.substring(i, j)` of a dual normal form. -/
theorem C78_substring (hn : 2 ≤ n) (hl : NPar.catalanNum n < lim) (x : NF) (hx : IsDGNF lim ω n x) (i j : Nat) :
    (i ≤ j ∧ j ≤ x.factors.length → ∃ y, NF.substring (DGNF.tbl lim ω) x i j = .ok y ∧ IsDGNF lim ω n y ∧ y.power = x.power ∧
      y.factors.length = j - i ∧ ∀ k, k < j - i → y.factors[k]? = x.factors[i + k]?) ∧
    (¬ (i ≤ j ∧ j ≤ x.factors.length) → NF.substring (DGNF.tbl lim ω) x i j = .error .assertion) := by
  obtain ⟨l, t, R⟩ := dgnf_real lim ω hn hl
  obtain ⟨h1, h2⟩ := substring_valid R.real (R.isDGNF_iff.1 hx) i j
  refine ⟨fun h => ⟨_, (h1 h).1, R.isDGNF_iff.2 (h1 h).2, rfl, ?_, fun k hk => ?_⟩, h2⟩
  · simp only [List.length_drop, List.length_take]; omega
  · simp only [List.getElem?_drop, List.getElem?_take]
    rw [if_pos (by omega)]

example := C78_substring (by decide) (by decide) _ dgnfA 1 3

end

end Peyl
