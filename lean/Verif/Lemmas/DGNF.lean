import Verif.Lemmas.NParTable
import Verif.Lemmas.GNF
/-!
# `DGNF` objects: from the generic theory to the public vocabulary
-/
namespace Peyl
open Equiv Perms NFReal
variable {n lim : Nat} {ω : NPar → NPar → Nat → Nat} {l : List NPar} {t : NParTable}

/-- Objects accepted by the constructor with indices in range. -/
theorem NFReal.accept_iff {W : Type} [Group W] {T : Type} {tbl : Nat → Except Err (NFTable T)} {t : NFTable T} {g : Germ W} {v : Nat → W}
    {β : W → Braid n} (R : NFReal tbl n t g v β) {x : NF} :
    ((∀ f ∈ x.factors, f < t.order) ∧ NF.make tbl n x.power x.factors = .ok x) ↔ Valid t n x := by
  constructor
  · rintro ⟨h1, h2⟩
    have hin : TableSpec.InR t x.factors := fun f hf => h1 f hf
    obtain ⟨b, hb, hb'⟩ := R.spec.isFactorsNormalised_spec x.power hin
    simp only [NF.make, R.ok, bind_ok, hb] at h2
    cases b with
    | false => simp [pyAssert] at h2
    | true =>
      simp only [pyAssert, if_true, bind_ok, Except.ok.injEq] at h2
      exact ⟨by rw [← h2], hin, hb⟩
  · intro h
    refine ⟨fun f hf => h.inR f hf, ?_⟩
    rw [(R.make_ok h.inR (R.canon h)).1]
    have := h.n_eq; cases x; simp_all

theorem DReal.isDGNF_iff (R : DReal lim ω n l t) {x : NF} : IsDGNF lim ω n x ↔ Valid t.toNFTable n x := by
  rw [← R.real.accept_iff, R.data.order]; rfl

theorem DReal.den_eq (_ : DReal lim ω n l t) (x : NF) : den (nparGerm n) (nparAt n) dlift x = dgnfBraid n x := by
  unfold den Germ.val dgnfBraid delta
  rw [List.map_map]; rfl

theorem tr_ne_one {p : Fin n × Fin n} (h : p.1 < p.2) : tr p ≠ 1 := Germ.atom_ne_one (npar_atoms.1 p h)

theorem tr_ne_D (hn : 3 ≤ n) {p : Fin n × Fin n} (h : p.1 < p.2) : tr p ≠ dcyc n := by
  intro e
  have : ∀ a b : Fin n, (tr p).SameCycle a b := fun a b => e ▸ sameCycle_dcyc a b
  obtain ⟨a, b⟩ := p
  obtain ⟨c, h1, h2⟩ : ∃ c : Fin n, c ≠ a ∧ c ≠ b := by
    by_cases h0 : (⟨0, by omega⟩ : Fin n) ≠ a ∧ (⟨0, by omega⟩ : Fin n) ≠ b
    · exact ⟨_, h0⟩
    by_cases h1 : (⟨1, by omega⟩ : Fin n) ≠ a ∧ (⟨1, by omega⟩ : Fin n) ≠ b
    · exact ⟨_, h1⟩
    refine ⟨⟨2, by omega⟩, ?_⟩
    simp only [Ne, Fin.ext_iff, not_and_or, not_not, Fin.lt_def] at *
    omega
  rcases sameCycle_tr (this c a) with h | h | h
  · exact h1 h
  · exact h1 h.1
  · exact h2 h.1

theorem tr_two (p : Fin 2 × Fin 2) (h : p.1 < p.2) : tr p = dcyc 2 := by
  revert p; unfold tr dcyc; decide

/-- Products of band generators are the products of dual simple elements. -/
theorem gpos_dual_iff {b : Braid n} : GPos (nparGerm n) dlift b ↔ IsBandPositive b := by
  constructor
  · rintro ⟨l, hl, rfl⟩
    induction l with
    | nil => exact ⟨[], by simp, rfl⟩
    | cons x l ih =>
      simp only [Germ.AllP_cons] at hl
      obtain ⟨u, hu, hu'⟩ := ih hl.2
      obtain ⟨w, hw⟩ := exists_transWord x
      refine ⟨w.map (fun p => ((p.1 : Nat), (p.2 : Nat))) ++ u, ?_, ?_⟩
      · intro p hp
        rw [List.mem_append] at hp
        rcases hp with hp | hp
        · obtain ⟨q, -, rfl⟩ := List.mem_map.1 hp; exact ⟨q.1.2, q.2.2⟩
        · exact hu p hp
      · rw [List.map_cons, List.prod_cons, hu', dlift_eq (nparGerm_P.1 hl.1) (red_iff_min.1 hw), List.map_append, List.prod_append, List.map_map]; rfl
  · rintro ⟨w, hw, rfl⟩
    induction w with
    | nil => exact gpos_one
    | cons p w ih =>
      rw [List.map_cons, List.prod_cons]
      refine GPos.mul ?_ (ih fun q hq => hw q (by simp [hq]))
      obtain ⟨h1, h2⟩ := hw p (by simp)
      have key : ∀ a b (ha : a < n) (hb : b < n), a < b → GPos (nparGerm n) dlift (band n a b) := by
        intro a b ha hb hab
        rw [show band n a b = dlift (tr ((⟨a, ha⟩ : Fin n), (⟨b, hb⟩ : Fin n))) from (dlift_tr (p := ((⟨a, ha⟩ : Fin n), (⟨b, hb⟩ : Fin n))) hab).symm]
        exact gpos_beta (nparGerm_P.2 (ncp_tr (p := ((⟨a, ha⟩ : Fin n), (⟨b, hb⟩ : Fin n))) hab))
      rcases lt_trichotomy p.1 p.2 with h | h | h
      · exact key _ _ h1 h2 h
      · rw [h, band, if_pos rfl]; exact gpos_one
      · have : band n p.1 p.2 = band n p.2 p.1 := by
          unfold band; rw [if_neg h.ne', if_neg h.ne, min_comm, max_comm]
        rw [this]; exact key _ _ h2 h1 h

theorem npar_mapM_index (L : NL n l) (ps : List (Perm (Fin n))) (h : ∀ x ∈ ps, NCP x) : ∃ idx, (ps.map nparOf).mapM (dictIndex l) = .ok idx ∧
    (∀ i ∈ idx, i < NPar.catalanNum n) ∧ idx.map (nparAt n) = ps := by
  induction ps with
  | nil => exact ⟨[], rfl, by simp, rfl⟩
  | cons π ps ih =>
    obtain ⟨idx, h1, h2, h3⟩ := ih fun x hx => h x (by simp [hx])
    obtain ⟨i, i1, i2, i3⟩ := L.index (h π (by simp))
    refine ⟨i :: idx, ?_, by simpa [i1] using h2, by simp [i3, h3]⟩
    rw [List.map_cons, List.mapM_cons, i2, bind_ok, h1]; rfl

theorem fromNparSeq_spec (hn : 2 ≤ n) (hl : NPar.catalanNum n < lim) (ps : List (Perm (Fin n))) (h : ∀ x ∈ ps, NCP x) :
    ∃ x, DGNF.fromNparSeq lim ω n (ps.map nparOf) = .ok x ∧ IsDGNF lim ω n x ∧ dgnfBraid n x = (ps.map dlift).prod := by
  obtain ⟨l, t, R⟩ := dgnf_real lim ω hn hl
  obtain ⟨idx, h1, h2, h3⟩ := npar_mapM_index R.nl ps h
  obtain ⟨z, z1, z2, z3⟩ := R.real.fromIndices_spec (idx := idx) (fun i hi => by rw [R.data.order]; exact h2 i hi)
  refine ⟨z, ?_, R.isDGNF_iff.2 z2, ?_⟩
  · unfold DGNF.fromNparSeq
    have : (ps.map nparOf).all (fun p => p.n == n) = true := by simp [nparOf]
    rw [this, R.real.ok]
    simp only [pyAssert, if_true, bind_ok, R.data.divs]
    rw [h1]; exact z1
  · rw [← R.den_eq, z3, h3]

/-- Multiplying a list of images. -/
theorem reduceMul_spec {W : Type} [Group W] {T : Type} {tbl : Nat → Except Err (NFTable T)} {t : NFTable T} {g : Germ W} {v : Nat → W}
    {β : W → Braid n} (R : NFReal tbl n t g v β) {images : List NF} {m : Nat} (b : Nat → Braid n)
    (hi : ∀ i, i < m → ∃ z, lookup images i = .ok z ∧ Valid t n z ∧ den g v β z = b i)
    (fs : List Nat) (hfs : ∀ f ∈ fs, f < m) (e : NF) (he : Valid t n e) :
    ∃ z, reduceMul tbl images fs e = .ok z ∧ Valid t n z ∧ den g v β z = den g v β e * (fs.map b).prod := by
  have h1 : ∀ fs : List Nat, (∀ f ∈ fs, f < m) → ∃ xs, fs.mapM (lookup images) = .ok xs ∧ (∀ x ∈ xs, Valid t n x) ∧
      (xs.map (den g v β)).prod = (fs.map b).prod := by
    intro fs
    induction fs with
    | nil => intro _; exact ⟨[], rfl, by simp, rfl⟩
    | cons f fs ih =>
      intro h
      obtain ⟨z, z1, z2, z3⟩ := hi f (h f (by simp))
      obtain ⟨xs, x1, x2, x3⟩ := ih fun f' hf' => h f' (by simp [hf'])
      refine ⟨z :: xs, by rw [List.mapM_cons, z1, bind_ok, x1]; rfl, ?_, by simp [z3, x3]⟩
      intro x hx; rcases List.mem_cons.1 hx with rfl | hx
      · exact z2
      · exact x2 x hx
  obtain ⟨xs, x1, x2, x3⟩ := h1 fs hfs
  rw [← x3]
  have h2 : ∀ (xs : List NF) (e : NF), (∀ x ∈ xs, Valid t n x) → Valid t n e →
      ∃ z, xs.foldlM (NF.mul tbl) e = .ok z ∧ Valid t n z ∧ den g v β z = den g v β e * (xs.map (den g v β)).prod := by
    intro xs
    induction xs with
    | nil => intro e _ he; exact ⟨e, rfl, he, by simp⟩
    | cons x xs ih =>
      intro e h he
      obtain ⟨y, y1, y2, y3⟩ := R.mul_spec he (h x (by simp))
      obtain ⟨z, z1, z2, z3⟩ := ih y (fun x' hx' => h x' (by simp [hx'])) y2
      exact ⟨z, by rw [List.foldlM_cons, y1, bind_ok]; exact z1, z2, by rw [z3, y3, List.map_cons, List.prod_cons, mul_assoc]⟩
  obtain ⟨z, z1, z2, z3⟩ := h2 xs e x2 he
  exact ⟨z, by rw [reduceMul, x1, bind_ok]; exact z1, z2, z3⟩

section
variable {limG limD : Nat} {ωG : List Nat → List Nat → Nat → Nat} {ωD : NPar → NPar → Nat → Nat}

theorem toGNF_spec (hn : 2 ≤ n) (hG : n < limG) (hD : NPar.catalanNum n < limD) {x : NF} (hx : IsDGNF limD ωD n x) :
    ∃ z, DGNF.toGNF limG ωG limD ωD x = .ok z ∧ IsGNF limG ωG n z ∧ gnfBraid n z = dgnfBraid n x := by
  obtain ⟨l, t, R⟩ := dgnf_real limD ωD hn hD
  obtain ⟨tG, RG⟩ := exists_greal limG ωG hn hG
  have hx' := R.isDGNF_iff.1 hx
  have one : ∀ π : Perm (Fin n), NCP π → ∃ z, (do
      let x ← DGNF.fromNpar limD ωD (nparOf π)
      let w ← NF.artinWord (DGNF.tbl limD ωD) x
      NF.fromArtinWord (GNF.tbl limG ωG) n w) = Except.ok z ∧ Valid tG n z ∧ den (permGerm n) (permAt n) lift z = dlift π := by
    intro π hπ
    obtain ⟨y, y1, y2, y3⟩ := fromNparSeq_spec (ω := ωD) hn hD [π] (by simpa using hπ)
    obtain ⟨w, w1, w2, w3⟩ := R.real.artinWord_spec (R.isDGNF_iff.1 y2)
    obtain ⟨z, z1, z2, z3⟩ := RG.1.fromArtinWord_spec w fun se hse => (w2 se hse).2
    refine ⟨z, ?_, z2, by rw [z3, w3, R.den_eq, y3]; simp⟩
    have : DGNF.fromNpar limD ωD (nparOf π) = .ok y := y1
    rw [this, bind_ok, w1, bind_ok, z1]
  obtain ⟨im, m1, m2, m3⟩ := mapM_ok (fun p => do
      let x ← DGNF.fromNpar limD ωD p
      let w ← NF.artinWord (DGNF.tbl limD ωD) x
      NF.fromArtinWord (GNF.tbl limG ωG) n w) l (by
    intro p hp; obtain ⟨π, hπ, rfl⟩ := (R.nl.mem p).1 hp
    obtain ⟨z, h, -⟩ := one π hπ; exact ⟨z, h⟩)
  have him : ∀ i, i < NPar.catalanNum n → ∃ z, lookup im i = .ok z ∧ Valid tG n z ∧ den (permGerm n) (permAt n) lift z = dlift (nparAt n i) := by
    intro i hi
    rw [← R.nl.length] at hi
    have h := m3 i hi (by omega)
    obtain ⟨e, hN⟩ := R.nl.at hi
    obtain ⟨z, z1, z2, z3⟩ := one _ hN
    rw [e, z1, Except.ok.injEq] at h
    exact ⟨z, by rw [lookup_lt (by omega), h], z2, z3⟩
  have hfac : DGNF.factorsToGNF limG ωG limD ωD n = .ok im := by
    rw [DGNF.factorsToGNF, R.real.ok, bind_ok, R.data.divs]; exact m1
  obtain ⟨e, e1, e2, -, e4⟩ := RG.1.identity_spec
  obtain ⟨r, r1, r2, r3⟩ := reduceMul_spec RG.1 _ him x.factors (fun f hf => by rw [← R.data.order]; exact hx'.inR f hf) e e2
  unfold DGNF.toGNF
  simp only [hx'.n_eq, R.real.ok, bind_ok, hfac, e1, r1]
  have hxb : dgnfBraid n x = dlift (dcyc n) ^ x.power * den (permGerm n) (permAt n) lift r := by
    rw [r3, e4, one_mul]; rfl
  by_cases h0 : x.power = 0
  · rw [if_neg (by simpa using h0)]
    exact ⟨r, rfl, RG.isGNF_iff.2 r2, by rw [← RG.den_eq, hxb, h0, zpow_zero, one_mul]⟩
  · rw [if_pos h0]
    obtain ⟨d, d1, d2, d3⟩ := him t.D (by rw [← R.data.order]; exact R.real.spec.D_lt)
    rw [R.real.spec.v_D] at d3
    obtain ⟨dp, p1, p2, p3⟩ := RG.1.pow_spec d2 x.power
    obtain ⟨z, z1, z2, z3⟩ := RG.1.mul_spec p2 r2
    refine ⟨z, ?_, RG.isGNF_iff.2 z2, by rw [← RG.den_eq, z3, p3, d3, hxb]; rfl⟩
    rw [d1, bind_ok, p1, bind_ok]; exact z1

theorem toDGNF_spec (hn : 2 ≤ n) (hG : n < limG) (hD : NPar.catalanNum n < limD) {x : NF} (hx : IsGNF limG ωG n x) :
    ∃ z, GNF.toDGNF limG ωG limD ωD x = .ok z ∧ IsDGNF limD ωD n z ∧ dgnfBraid n z = gnfBraid n x := by
  obtain ⟨l, t, R⟩ := dgnf_real limD ωD hn hD
  obtain ⟨tG, RG⟩ := exists_greal limG ωG hn hG
  have hx' := RG.isGNF_iff.1 hx
  have one : ∀ π : Perm (Fin n), ∃ z, (do
      let x ← GNF.fromPerm limG ωG (wordOf π)
      let w ← NF.artinWord (GNF.tbl limG ωG) x
      NF.fromArtinWord (DGNF.tbl limD ωD) n w) = Except.ok z ∧ Valid t.toNFTable n z ∧ den (nparGerm n) (nparAt n) dlift z = lift π := by
    intro π
    obtain ⟨y, y1, y2, y3⟩ := fromPermSeq_spec (ω := ωG) hn hG [π]
    obtain ⟨w, w1, w2, w3⟩ := RG.1.artinWord_spec (RG.isGNF_iff.1 y2)
    obtain ⟨z, z1, z2, z3⟩ := R.real.fromArtinWord_spec w fun se hse => (w2 se hse).2
    refine ⟨z, ?_, z2, by rw [z3, w3, RG.den_eq, y3]; simp⟩
    have : GNF.fromPerm limG ωG (wordOf π) = .ok y := by
      rw [GNF.fromPerm, length_wordOf]; exact y1
    rw [this, bind_ok, w1, bind_ok, z1]
  obtain ⟨im, m1, m2, m3⟩ := mapM_ok (fun p => do
      let x ← GNF.fromPerm limG ωG p
      let w ← NF.artinWord (GNF.tbl limG ωG) x
      NF.fromArtinWord (DGNF.tbl limD ωD) n w) (elements n) (by
    intro p hp; obtain ⟨π, rfl⟩ := (elements_mem p).1 hp
    obtain ⟨z, h, -⟩ := one π; exact ⟨z, h⟩)
  have him : ∀ i, i < n.factorial → ∃ z, lookup im i = .ok z ∧ Valid t.toNFTable n z ∧ den (nparGerm n) (nparAt n) dlift z = lift (permAt n i) := by
    intro i hi
    rw [← elements_length] at hi
    have h := m3 i hi (by omega)
    obtain ⟨z, z1, z2, z3⟩ := one (permAt n i)
    rw [permAt_spec hi, z1, Except.ok.injEq] at h
    exact ⟨z, by rw [lookup_lt (by omega), h], z2, z3⟩
  have hfac : GNF.factorsToDGNF limG ωG limD ωD n = .ok im := by
    rw [GNF.factorsToDGNF, RG.1.ok, bind_ok, RG.2.2.1]; exact m1
  obtain ⟨e, e1, e2, -, e4⟩ := R.real.identity_spec
  obtain ⟨r, r1, r2, r3⟩ := reduceMul_spec R.real _ him x.factors (fun f hf => by rw [← RG.2.1]; exact hx'.inR f hf) e e2
  unfold GNF.toDGNF
  simp only [hx'.n_eq, RG.1.ok, bind_ok, hfac, e1, r1]
  have hxb : gnfBraid n x = lift (w0 n) ^ x.power * den (nparGerm n) (nparAt n) dlift r := by
    rw [r3, e4, one_mul]; rfl
  by_cases h0 : x.power = 0
  · rw [if_neg (by simpa using h0)]
    exact ⟨r, rfl, R.isDGNF_iff.2 r2, by rw [← R.den_eq, hxb, h0, zpow_zero, one_mul]⟩
  · rw [if_pos h0]
    obtain ⟨d, d1, d2, d3⟩ := him tG.D (by rw [← RG.2.1]; exact RG.1.spec.D_lt)
    rw [RG.1.spec.v_D] at d3
    obtain ⟨dp, p1, p2, p3⟩ := R.real.pow_spec d2 x.power
    obtain ⟨z, z1, z2, z3⟩ := R.real.mul_spec p2 r2
    refine ⟨z, ?_, R.isDGNF_iff.2 z2, by rw [← R.den_eq, z3, p3, d3, hxb]; rfl⟩
    rw [d1, bind_ok, p1, bind_ok]; exact z1

end
end Peyl
