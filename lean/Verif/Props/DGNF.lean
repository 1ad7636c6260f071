import Verif.Lemmas.DGNF
/-!
# Properties C28, C29 and the dual versions of the properties of normal forms (C76–C81)

Vocabulary (Spec/BKL.lean, Spec/NPar.lean, Spec/DGNF.lean): `dgnfBraid n x` is the braid `δ^power · f₁ ⋯ f_k` denoted by an
object, `IsDGNF lim ω n x` says that `x` is a legal object (the constructor accepts it).  `lim` is the size guard of
`NParTable.create` (5000 in the code), `ω` the arbitrary behaviour of `set.pop`.
-/
namespace Peyl
open Equiv Perms NFReal
variable {n lim : Nat} {ω : NPar → NPar → Nat → Nat}

/-! Legal objects on three strands and a partition, used beside the theorems to show that their hypotheses are met. -/

/-- A choice for `set.pop`. -/
abbrev dpop0 : NPar → NPar → Nat → Nat := fun _ _ _ => 0

theorem dgnfA : IsDGNF 5000 dpop0 3 ⟨3, -2, [1, 1, 1]⟩ := by decide +kernel

theorem dgnfB : IsDGNF 5000 dpop0 3 ⟨3, 0, [2]⟩ := by decide +kernel

/-- The partition `{0, 2}, {1}, {3}`. -/
theorem nparA : (NPar.mk 4 [5, 4, 3, 2, 1, 0, 7, 6]).Ok :=
  open Classical in ⟨rfl, of_decide_eq_true (Except.ok.inj ((TL.isCM_spec _).symm.trans (by decide +kernel)))⟩

/-! ## C28 -/

/-- C28: normalising any sequence of noncrossing partitions yields a legal object denoting the product of their lifts. -/
theorem C28_from_npar_seq (hn : 2 ≤ n) (hl : NPar.catalanNum n < lim) (ps : List NPar) (h : ∀ p ∈ ps, p.n = n ∧ p.Ok) :
    ∃ (xs : List (Perm (Fin n))) (x : NF), ps.map NPar.toPermutation = xs.map (fun x => .ok (wordOf x)) ∧
      DGNF.fromNparSeq lim ω n ps = .ok x ∧ IsDGNF lim ω n x ∧ dgnfBraid n x = (xs.map dlift).prod := by
  have : ∃ xs : List (Perm (Fin n)), ps = xs.map nparOf ∧ ∀ x ∈ xs, NCP x := by
    induction ps with
    | nil => exact ⟨[], rfl, by simp⟩
    | cons p ps ih =>
      obtain ⟨xs, x1, x2⟩ := ih fun q hq => h q (by simp [hq])
      obtain ⟨hp, hp'⟩ := h p (by simp)
      subst hp
      obtain ⟨x, hx, e⟩ := exists_nparOf hp'
      exact ⟨x :: xs, by rw [List.map_cons, ← e, ← x1], by simpa [hx] using x2⟩
  obtain ⟨xs, rfl, hxs⟩ := this
  obtain ⟨x, x1, x2, x3⟩ := fromNparSeq_spec (ω := ω) hn hl xs hxs
  refine ⟨xs, x, ?_, x1, x2, x3⟩
  rw [List.map_map]
  exact List.map_congr_left fun y _ => toPermutation_eq y

example := C28_from_npar_seq (n := 4) (lim := 5000) (ω := dpop0) (by decide) (by decide) [⟨4, [5, 4, 3, 2, 1, 0, 7, 6]⟩, ⟨4, [5, 4, 3, 2, 1, 0, 7, 6]⟩] (by simpa using nparA)

/-- C28: the lift of a permutation is the braid spelled by any shortest factorisation into transpositions. -/
theorem C28_lift_spec (p : NPar) (h : p.Ok) : ∃ x : Perm (Fin p.n), p.toPermutation = .ok (wordOf x) ∧ (∃ w, IsMinTransWord w x) ∧
    ∀ w, IsMinTransWord w x → dlift x = (w.map fun q => band p.n q.1 q.2).prod := by
  obtain ⟨x, hx, hp⟩ := exists_nparOf h
  refine ⟨x, ?_, ?_, fun w hw => dlift_eq hx hw⟩
  · have key : ∀ q : NPar, q = nparOf x → q.toPermutation = .ok (wordOf x) := by rintro q rfl; exact toPermutation_eq x
    exact key p hp
  · obtain ⟨w, hw⟩ := exists_transWord x; exact ⟨w, red_iff_min.1 hw⟩

example := C28_lift_spec _ nparA

/-- C28: `x * y` succeeds and denotes the product in the braid group. -/
theorem C28_mul (hn : 2 ≤ n) (hl : NPar.catalanNum n < lim) (x y : NF) (hx : IsDGNF lim ω n x) (hy : IsDGNF lim ω n y) :
    ∃ z, NF.mul (DGNF.tbl lim ω) x y = .ok z ∧ IsDGNF lim ω n z ∧ dgnfBraid n z = dgnfBraid n x * dgnfBraid n y := by
  obtain ⟨l, t, R⟩ := dgnf_real lim ω hn hl
  obtain ⟨z, z1, z2, z3⟩ := R.real.mul_spec (R.isDGNF_iff.1 hx) (R.isDGNF_iff.1 hy)
  exact ⟨z, z1, R.isDGNF_iff.2 z2, by simpa only [R.den_eq] using z3⟩

example := C28_mul (by decide) (by decide) _ _ dgnfA dgnfB

/-- C28: different numbers of strands raise ValueError. -/
theorem C28_mul_error (x y : NF) (h : x.n ≠ y.n) : NF.mul (DGNF.tbl lim ω) x y = .error .value := by
  rw [NF.mul, if_pos h]

example := C28_mul_error (lim := 5000) (ω := dpop0) ⟨3, -2, [1]⟩ ⟨4, 0, [1]⟩ (by decide)

/-- C28: inversion. -/
theorem C28_inv (hn : 2 ≤ n) (hl : NPar.catalanNum n < lim) (x : NF) (hx : IsDGNF lim ω n x) :
    ∃ z e, NF.invert (DGNF.tbl lim ω) x = .ok z ∧ IsDGNF lim ω n z ∧ dgnfBraid n z = (dgnfBraid n x)⁻¹ ∧
      NF.identity (DGNF.tbl lim ω) n = .ok e ∧ dgnfBraid n e = 1 ∧
      NF.mul (DGNF.tbl lim ω) x z = .ok e ∧ NF.mul (DGNF.tbl lim ω) z x = .ok e := by
  obtain ⟨l, t, R⟩ := dgnf_real lim ω hn hl
  have hx' := R.isDGNF_iff.1 hx
  obtain ⟨z, z1, z2, z3⟩ := R.real.inv_spec hx'
  obtain ⟨e, e1, e2, -, e4⟩ := R.real.identity_spec
  obtain ⟨p, p1, p2, p3⟩ := R.real.mul_spec hx' z2
  obtain ⟨q, q1, q2, q3⟩ := R.real.mul_spec z2 hx'
  have hp : p = e := R.real.den_inj p2 e2 (by rw [p3, z3, e4, mul_inv_cancel])
  have hq : q = e := R.real.den_inj q2 e2 (by rw [q3, z3, e4, inv_mul_cancel])
  exact ⟨z, e, z1, R.isDGNF_iff.2 z2, by simpa only [R.den_eq] using z3, e1, by rw [← R.den_eq, e4], hp ▸ p1, hq ▸ q1⟩

example := C28_inv (by decide) (by decide) _ dgnfA

/-- C28: powers, for every integer exponent. -/
theorem C28_pow (hn : 2 ≤ n) (hl : NPar.catalanNum n < lim) (x : NF) (hx : IsDGNF lim ω n x) (k : ℤ) :
    ∃ z, NF.pow (DGNF.tbl lim ω) x k = .ok z ∧ IsDGNF lim ω n z ∧ dgnfBraid n z = dgnfBraid n x ^ k := by
  obtain ⟨l, t, R⟩ := dgnf_real lim ω hn hl
  obtain ⟨z, z1, z2, z3⟩ := R.real.pow_spec (R.isDGNF_iff.1 hx) k
  exact ⟨z, z1, R.isDGNF_iff.2 z2, by simpa only [R.den_eq] using z3⟩

example := C28_pow (by decide) (by decide) _ dgnfA (-5)

/-- C28: `from_artin_word` of any word with legal letters and arbitrary integer exponents. -/
theorem C28_from_artin_word (hn : 2 ≤ n) (hl : NPar.catalanNum n < lim) (w : List (Nat × ℤ)) (hw : ∀ se ∈ w, se.1 + 1 < n) :
    ∃ z, NF.fromArtinWord (DGNF.tbl lim ω) n w = .ok z ∧ IsDGNF lim ω n z ∧ dgnfBraid n z = wordBraid n w := by
  obtain ⟨l, t, R⟩ := dgnf_real lim ω hn hl
  obtain ⟨z, z1, z2, z3⟩ := R.real.fromArtinWord_spec w hw
  exact ⟨z, z1, R.isDGNF_iff.2 z2, by simpa only [R.den_eq] using z3⟩

example := C28_from_artin_word (n := 5) (lim := 5000) (ω := dpop0) (by decide) (by decide) [(0, -2), (3, 3)] (by decide)

/-- C28: `x.artin_word()` is a word in legal generators with exponents ±1 which spells the braid of `x`. -/
theorem C28_artin_word (hn : 2 ≤ n) (hl : NPar.catalanNum n < lim) (x : NF) (hx : IsDGNF lim ω n x) :
    ∃ w, NF.artinWord (DGNF.tbl lim ω) x = .ok w ∧ (∀ se ∈ w, (se.2 = 1 ∨ se.2 = -1) ∧ se.1 + 1 < n) ∧
      wordBraid n w = dgnfBraid n x ∧ NF.fromArtinWord (DGNF.tbl lim ω) n w = .ok x := by
  obtain ⟨l, t, R⟩ := dgnf_real lim ω hn hl
  have hx' := R.isDGNF_iff.1 hx
  obtain ⟨w, w1, w2, w3⟩ := R.real.artinWord_spec hx'
  obtain ⟨z, z1, z2, z3⟩ := R.real.fromArtinWord_spec w (fun se hse => (w2 se hse).2)
  refine ⟨w, w1, w2, by rw [w3, R.den_eq], ?_⟩
  rw [z1, R.real.den_inj z2 hx' (by rw [z3, w3])]

example := C28_artin_word (by decide) (by decide) _ dgnfA

/-! ## C29 -/

/-- C29: equal braids are equal objects. -/
theorem C29_unique (hn : 2 ≤ n) (hl : NPar.catalanNum n < lim) (x y : NF) (hx : IsDGNF lim ω n x) (hy : IsDGNF lim ω n y) :
    x = y ↔ dgnfBraid n x = dgnfBraid n y := by
  obtain ⟨l, t, R⟩ := dgnf_real lim ω hn hl
  refine ⟨fun h => by rw [h], fun h => R.real.den_inj (R.isDGNF_iff.1 hx) (R.isDGNF_iff.1 hy) ?_⟩
  rw [R.den_eq, R.den_eq]; exact h

example := C29_unique (by decide) (by decide) _ _ dgnfA dgnfB

/-- C29: dual normal forms decide the word problem. -/
theorem C29_word_problem (hn : 2 ≤ n) (hl : NPar.catalanNum n < lim) (u w : List (Nat × ℤ)) (hu : ∀ se ∈ u, se.1 + 1 < n) (hw : ∀ se ∈ w, se.1 + 1 < n) :
    ∃ x y, NF.fromArtinWord (DGNF.tbl lim ω) n u = .ok x ∧ NF.fromArtinWord (DGNF.tbl lim ω) n w = .ok y ∧
      (x = y ↔ wordBraid n u = wordBraid n w) := by
  obtain ⟨x, x1, x2, x3⟩ := C28_from_artin_word (ω := ω) hn hl u hu
  obtain ⟨y, y1, y2, y3⟩ := C28_from_artin_word (ω := ω) hn hl w hw
  exact ⟨x, y, x1, y1, by rw [C29_unique hn hl x y x2 y2, x3, y3]⟩

example := C29_word_problem (n := 4) (lim := 5000) (ω := dpop0) (by decide) (by decide) [(0, 1), (2, -1)] [(2, -1), (0, 1)] (by decide) (by decide)

section
variable {limG limD : Nat} {ωG : List Nat → List Nat → Nat → Nat} {ωD : NPar → NPar → Nat → Nat}

/-- C29: `to_GNF` preserves the braid, and `to_DGNF` takes its result back. -/
theorem C29_to_GNF (hn : 2 ≤ n) (hG : n < limG) (hD : NPar.catalanNum n < limD) (x : NF) (hx : IsDGNF limD ωD n x) :
    ∃ z, DGNF.toGNF limG ωG limD ωD x = .ok z ∧ IsGNF limG ωG n z ∧ gnfBraid n z = dgnfBraid n x ∧ GNF.toDGNF limG ωG limD ωD z = .ok x := by
  obtain ⟨z, z1, z2, z3⟩ := toGNF_spec (ωG := ωG) hn hG hD hx
  obtain ⟨y, y1, y2, y3⟩ := toDGNF_spec (ωD := ωD) hn hG hD z2
  exact ⟨z, z1, z2, z3, by rw [y1, (C29_unique hn hD y x y2 hx).2 (y3.trans z3)]⟩

example := C29_to_GNF (limG := 7) (ωG := fun _ _ _ => 0) (by decide) (by decide) (by decide) _ dgnfA

/-- C29: `to_DGNF` preserves the braid, and `to_GNF` takes its result back. -/
theorem C29_to_DGNF (hn : 2 ≤ n) (hG : n < limG) (hD : NPar.catalanNum n < limD) (x : NF) (hx : IsGNF limG ωG n x) :
    ∃ z, GNF.toDGNF limG ωG limD ωD x = .ok z ∧ IsDGNF limD ωD n z ∧ dgnfBraid n z = gnfBraid n x ∧ DGNF.toGNF limG ωG limD ωD z = .ok x := by
  obtain ⟨z, z1, z2, z3⟩ := toDGNF_spec (ωD := ωD) hn hG hD hx
  obtain ⟨y, y1, y2, y3⟩ := toGNF_spec (ωG := ωG) hn hG hD z2
  obtain ⟨t, R⟩ := exists_greal limG ωG hn hG
  have : y = x := R.1.den_inj (R.isGNF_iff.1 y2) (R.isGNF_iff.1 hx) (by rw [R.den_eq, R.den_eq, y3, z3])
  exact ⟨z, z1, z2, z3, by rw [y1, this]⟩

example := C29_to_DGNF (n := 3) (limG := 7) (ωG := fun _ _ _ => 0) (limD := 5000) (ωD := dpop0) (by decide) (by decide) (by decide) ⟨3, -2, [3, 4, 2]⟩ (by decide +kernel)

end

/-! ## C76: the table -/

/-- C76: the table of noncrossing partitions is the same whatever `set.pop` returns; it can be built for every `n ≥ 2`. -/
theorem C76_pop_independent (hn : 2 ≤ n) (ω ω' : NPar → NPar → Nat → Nat) : NParTable.build ω n = NParTable.build ω' n := by
  obtain ⟨l, L⟩ := exists_nl n
  have hrow : ∀ x ∈ l, ∀ y ∈ l, NParTable.renormEntry n l (ω x y) x y = NParTable.renormEntry n l (ω' x y) x y := by
    intro x hx y hy
    obtain ⟨π, hπ, rfl⟩ := (L.mem x).1 hx
    obtain ⟨ρ, hρ, rfl⟩ := (L.mem y).1 hy
    obtain ⟨a, b, bb, h1, h2, h3, h4, h5, h6⟩ := npar_renormEntry L (ω (nparOf π) (nparOf ρ)) hπ hρ
    obtain ⟨a', b', bb', k1, k2, k3, k4, k5, k6⟩ := npar_renormEntry L (ω' (nparOf π) (nparOf ρ)) hπ hρ
    have hP : (nparGerm n).AllP [π, ρ] := by simp [nparGerm_P, hπ, hρ]
    have e1 := Germ.nf_eq hP h4 (by simpa [Germ.Nrm] using h5)
    have e2 := Germ.nf_eq hP k4 (by simpa [Germ.Nrm] using k5)
    rw [e1] at e2
    simp only [List.cons.injEq, and_true] at e2
    rw [h1, k1, L.inj h2 k2 e2.1, L.inj h3 k3 e2.2]
    have : bb = bb' := by rw [Bool.eq_iff_iff, h6, k6]
    rw [this]
  have hmapM : ∀ {α γ : Type} (f g : α → Except Err γ) (l : List α), (∀ x ∈ l, f x = g x) → l.mapM f = l.mapM g := by
    intro α γ f g l h
    induction l with
    | nil => rfl
    | cons x l ih => rw [List.mapM_cons, List.mapM_cons, h x (by simp), ih (fun y hy => h y (by simp [hy]))]
  have hall : (l.mapM fun x => l.mapM fun y => NParTable.renormEntry n l (ω x y) x y) =
      l.mapM fun x => l.mapM fun y => NParTable.renormEntry n l (ω' x y) x y :=
    hmapM _ _ _ fun x hx => hmapM _ _ _ fun y hy => hrow x hx y hy
  unfold NParTable.build
  simp only [L.ok, bind_ok]
  rw [hall]

/-- C76: the entry for a pair of noncrossing partitions: the loop terminates and returns the left-weighted pair with the same
braid product, and the flag says whether the pair was left-weighted already. -/
theorem C76_renorm_entry (n : Nat) (hn : 2 ≤ n) (ω : NPar → NPar → Nat → Nat) (i j : Nat) (hi : i < NPar.catalanNum n) (hj : j < NPar.catalanNum n) :
    ∃ t a b bb, NParTable.build ω n = .ok t ∧ lookup2 t.renorm i j = .ok (a, b) ∧ lookup2 t.isNormalised i j = .ok bb ∧
      a < NPar.catalanNum n ∧ b < NPar.catalanNum n ∧ DualLeftWeighted (nparAt n a) (nparAt n b) ∧
      dlift (nparAt n i) * dlift (nparAt n j) = dlift (nparAt n a) * dlift (nparAt n b) ∧
      (bb = true ↔ DualLeftWeighted (nparAt n i) (nparAt n j)) := by
  obtain ⟨l, L⟩ := exists_nl n
  obtain ⟨t, t1, t2, t3⟩ := npar_build_spec ω hn L
  rw [← t3.order] at hi hj ⊢
  obtain ⟨a, b, a1, b1, h1, h2, h3⟩ := t2.renorm i j hi hj
  obtain ⟨bb, h4, h5⟩ := t2.isNormalised i j hi hj
  refine ⟨t, a, b, bb, t1, h1, h4, a1, b1, (pairN_npar _ _).1 h3, ?_, h5.trans (pairN_npar _ _)⟩
  have := h2.val dlift_hom (by simp [t2.simple i hi, t2.simple j hj])
  simpa using this.symm

example := C76_renorm_entry 4 (by decide) dpop0 3 11 (by decide) (by decide)

/-- C76: on fewer than two strands the table cannot be built: IndexError. -/
theorem C76_small (ω : NPar → NPar → Nat → Nat) (h : n < 2) : NParTable.build ω n = .error .index := by
  obtain rfl | rfl : n = 0 ∨ n = 1 := by omega
  · have e : NParTable.build ω 0 = NParTable.build (fun _ _ _ => 0) 0 := by
      simp only [NParTable.build, show (0 : Nat) < 2 by omega, if_true]
    have h : (NParTable.build (fun _ _ _ => 0) 0).map (fun _ => ()) = .error .index := by decide +kernel
    rw [e]
    revert h
    cases NParTable.build (fun _ _ _ => 0) 0 with
    | error e => intro h; simpa [Except.map] using h
    | ok t => intro h; simp [Except.map] at h
  · have e : NParTable.build ω 1 = NParTable.build (fun _ _ _ => 0) 1 := by
      simp only [NParTable.build, show (1 : Nat) < 2 by omega, if_true]
    have h : (NParTable.build (fun _ _ _ => 0) 1).map (fun _ => ()) = .error .index := by decide +kernel
    rw [e]
    revert h
    cases NParTable.build (fun _ _ _ => 0) 1 with
    | error e => intro h; simpa [Except.map] using h
    | ok t => intro h; simp [Except.map] at h

/-- C76: the size guard. -/
theorem C76_size_guard (h : lim ≤ NPar.catalanNum n) (d : ℤ) (fs : List Nat) : NF.make (DGNF.tbl lim ω) n d fs = .error .value := by
  have : DGNF.tbl lim ω n = .error .value := by rw [DGNF.tbl, NParTable.create, if_pos h]; rfl
  rw [NF.make, this]; rfl

example := C76_size_guard (n := 9) (lim := 4862) (ω := dpop0) (by decide) 0 [3]

/-! ## C77: the constructor -/

/-- C77: the constructor accepts a list of indices in range iff every factor is proper and adjacent pairs are left-weighted;
otherwise it raises AssertionError. -/
theorem C77_constructor (hn : 2 ≤ n) (hl : NPar.catalanNum n < lim) (d : ℤ) (fs : List Nat) (h : ∀ f ∈ fs, f < NPar.catalanNum n) :
    NF.make (DGNF.tbl lim ω) n d fs =
      open Classical in
      if (∀ f ∈ fs, nparAt n f ≠ 1 ∧ nparAt n f ≠ dcyc n) ∧ (fs.map (nparAt n)).IsChain DualLeftWeighted
      then .ok ⟨n, d, fs⟩ else .error .assertion := by
  obtain ⟨l, t, R⟩ := dgnf_real lim ω hn hl
  have hin : TableSpec.InR t.toNFTable fs := fun f hf => by rw [R.data.order]; exact h f hf
  obtain ⟨b, hb, hb'⟩ := R.real.spec.isFactorsNormalised_spec d hin
  have hc : (nparGerm n).Canon (d, fs.map (nparAt n)) ↔
      ((∀ f ∈ fs, nparAt n f ≠ 1 ∧ nparAt n f ≠ dcyc n) ∧ (fs.map (nparAt n)).IsChain DualLeftWeighted) := by
    have hch : (nparGerm n).Nrm (fs.map (nparAt n)) ↔ (fs.map (nparAt n)).IsChain DualLeftWeighted := by
      unfold Germ.Nrm
      have : (nparGerm n).PairN = DualLeftWeighted := by funext x y; exact propext (pairN_npar x y)
      rw [this]
    constructor
    · intro c
      refine ⟨fun f hf => ?_, hch.1 c.nrm⟩
      have := c.proper _ (List.mem_map_of_mem hf); exact ⟨this.2, this.1⟩
    · rintro ⟨h1, h2⟩
      refine Germ.canon_of_proper (R.real.spec.allP hin) (hch.2 h2) ?_
      intro x hx; obtain ⟨f, hf, rfl⟩ := List.mem_map.1 hx
      exact ⟨(h1 f hf).2, (h1 f hf).1⟩
  simp only [NF.make, R.real.ok, bind_ok, hb]
  cases b with
  | true => rw [if_pos (hc.1 (hb'.1 rfl))]; rfl
  | false => rw [if_neg (fun hh => by simpa using hb'.2 (hc.2 hh))]; rfl

example := C77_constructor (n := 4) (lim := 5000) (ω := dpop0) (by decide) (by decide) (-1) [1, 13] (by decide)

/-! ## C78: enumeration -/

/-- C78: `all_of_length` lists every dual normal form with `k` factors and the given power exactly once, and
`count_all_of_length` is their number. -/
theorem C78_all_of_length (hn : 2 ≤ n) (hl : NPar.catalanNum n < lim) (k : Nat) (d : ℤ) :
    ∃ xs, NF.allOfLength (DGNF.tbl lim ω) n k d = .ok xs ∧ xs.Nodup ∧
      (∀ x, x ∈ xs ↔ IsDGNF lim ω n x ∧ x.power = d ∧ x.factors.length = k) ∧
      NF.countAllOfLength (DGNF.tbl lim ω) n k = .ok xs.length := by
  obtain ⟨l, t, R⟩ := dgnf_real lim ω hn hl
  obtain ⟨xs, x1, x2, x3, x4⟩ := R.real.allOfLength_spec k d
  exact ⟨xs, x1, x2, fun x => by rw [x3, R.isDGNF_iff], x4⟩

example := C78_all_of_length (n := 5) (lim := 5000) (ω := dpop0) (by decide) (by decide) 3 (-1)

/-- C78: whatever the random choices, `sample` returns a dual normal form of the requested length; and every such normal form is
the outcome of some choices. -/
theorem C78_sample (hn : 3 ≤ n) (hl : NPar.catalanNum n < lim) (k : Nat) :
    (∀ rand : Nat → Nat, ∃ x, NF.sample (DGNF.tbl lim ω) rand n k = .ok x ∧ IsDGNF lim ω n x ∧ x.power = 0 ∧ x.factors.length = k) ∧
    ∀ x, IsDGNF lim ω n x → x.power = 0 → x.factors.length = k → ∃ rand, NF.sample (DGNF.tbl lim ω) rand n k = .ok x := by
  obtain ⟨l, t, R⟩ := dgnf_real lim ω (by omega : 2 ≤ n) hl
  have hD : ∀ s, (nparGerm n).atom s → s ≠ (nparGerm n).D := by
    rintro s ⟨p, hp, rfl⟩ e
    exact tr_ne_D hn hp e
  have h01 : ((⟨0, by omega⟩ : Fin n), (⟨1, by omega⟩ : Fin n)).1 < ((⟨0, by omega⟩ : Fin n), (⟨1, by omega⟩ : Fin n)).2 := by simp [Fin.lt_def]
  have := R.real.sample_spec hD ⟨tr _, npar_atoms.1 _ h01, nparGerm_P.2 (ncp_tr h01)⟩ k
  constructor
  · intro rand
    obtain ⟨x, x1, x2, x3, x4⟩ := this.1 rand
    exact ⟨x, x1, R.isDGNF_iff.2 x2, x3, x4⟩
  · intro x hx h1 h2
    exact this.2 x (R.isDGNF_iff.1 hx) h1 h2

example := C78_sample (n := 5) (lim := 5000) (ω := dpop0) (by decide) (by decide) 10

/-- C78: `nf_descendants` yields exactly the one-factor extensions, each once. -/
theorem C78_descendants (hn : 2 ≤ n) (hl : NPar.catalanNum n < lim) (x : NF) (hx : IsDGNF lim ω n x) :
    ∃ xs, NF.nfDescendants (DGNF.tbl lim ω) x = .ok xs ∧ xs.Nodup ∧
      ∀ y, y ∈ xs ↔ IsDGNF lim ω n y ∧ y.power = x.power ∧ ∃ f, y.factors = x.factors ++ [f] := by
  obtain ⟨l, t, R⟩ := dgnf_real lim ω hn hl
  obtain ⟨xs, x1, x2, x3⟩ := R.real.nfDescendants_spec (R.isDGNF_iff.1 hx)
  exact ⟨xs, x1, x2, fun y => by rw [x3, R.isDGNF_iff]⟩

example := C78_descendants (by decide) (by decide) _ dgnfA

/-- C78: for `x` with δ-power 0, `nf_suffixes(k)` yields exactly the `y` with `k` factors and δ-power 0 for which the factors
of `x * y` are those of `x` followed by those of `y`. -/
theorem C78_suffixes (hn : 2 ≤ n) (hl : NPar.catalanNum n < lim) (x : NF) (hx : IsDGNF lim ω n x) (hp : x.power = 0) (k : Nat) :
    ∃ ys, NF.nfSuffixes (DGNF.tbl lim ω) x k = .ok ys ∧ ys.Nodup ∧
      ∀ y, y ∈ ys ↔ IsDGNF lim ω n y ∧ y.power = 0 ∧ y.factors.length = k ∧
        ∃ z, NF.mul (DGNF.tbl lim ω) x y = .ok z ∧ z.power = 0 ∧ z.factors = x.factors ++ y.factors := by
  obtain ⟨l, t, R⟩ := dgnf_real lim ω hn hl
  have hx' := R.isDGNF_iff.1 hx
  obtain ⟨ys, y1, y2, y3⟩ := R.real.nfSuffixes_spec hx' k
  refine ⟨ys, y1, y2, fun y => ?_⟩
  rw [y3, R.isDGNF_iff, hp]
  constructor
  · rintro ⟨h1, h2, h3, h4⟩
    refine ⟨h1, h2, h3, _, (R.real.mul_concat_iff hx' h1 h2).2 (by rw [hp]; exact h4), hp, rfl⟩
  · rintro ⟨h1, h2, h3, z, z1, z2, z3⟩
    refine ⟨h1, h2, h3, ?_⟩
    obtain ⟨z', w1, w2, -⟩ := R.real.mul_spec hx' h1
    rw [z1] at w1; simp only [Except.ok.injEq] at w1; subst w1
    have hz : (⟨n, 0, x.factors ++ y.factors⟩ : NF) = z := by
      have := w2.n_eq; cases z; simp_all
    rw [hz]; exact w2

example := C78_suffixes (by decide) (by decide) _ dgnfB rfl 3

/-! ## C79: infimum and supremum -/

/-- C79: `inf` is the largest `k` for which `δ^-k x` is a product of band generators, `sup` the smallest `k` for which
`x⁻¹ δ^k` is one, and the canonical length is their difference; inversion exchanges them. -/
theorem C79_inf_sup (hn : 2 ≤ n) (hl : NPar.catalanNum n < lim) (x : NF) (hx : IsDGNF lim ω n x) :
    (∀ k : ℤ, IsBandPositive (delta n ^ (-k) * dgnfBraid n x) ↔ k ≤ NF.inf x) ∧
    (∀ k : ℤ, IsBandPositive ((dgnfBraid n x)⁻¹ * delta n ^ k) ↔ NF.sup x ≤ k) ∧
    (NF.canonicalLength x : ℤ) = NF.sup x - NF.inf x ∧
    ∃ z, NF.invert (DGNF.tbl lim ω) x = .ok z ∧ NF.inf z = - NF.sup x ∧ NF.canonicalLength z = NF.canonicalLength x := by
  obtain ⟨l, t, R⟩ := dgnf_real lim ω hn hl
  have hx' := R.isDGNF_iff.1 hx
  have h1 := R.real.inf_spec hx'
  have h2 := R.real.sup_spec hx'
  simp only [R.den_eq, gpos_dual_iff] at h1 h2
  obtain ⟨z, z1, z2, z3⟩ := R.real.inv_spec hx'
  exact ⟨h1, h2, by simp [NF.canonicalLength, NF.sup, NF.inf], z, z1, R.real.inv_data hx' z2 z3⟩

example := C79_inf_sup (by decide) (by decide) _ dgnfA

/-! ## C80: generators and lifts -/

theorem lookup_map_self {α β : Type} [BEq α] [LawfulBEq α] (l : List α) (f : α → β) (k : α) (h : k ∈ l) : (l.map fun e => (e, f e)).lookup k = some (f k) := by
  induction l with
  | nil => simp at h
  | cons x l ih =>
    rw [List.map_cons, List.lookup_cons]
    by_cases hk : k = x
    · subst hk; simp
    · rw [show (k == x) = false by simpa using hk]
      rcases List.mem_cons.1 h with h | h
      · exact absurd h hk
      · exact ih h

/-- The band generator with a single factor. -/
theorem band_object {l : List NPar} {t : NParTable} (R : DReal lim ω n l t) (hn : 3 ≤ n) {K : Nat × Nat → Nat}
    (hK : ∀ a b (ha : a < n) (hb : b < n), a < b → K (a, b) < t.order ∧ nparAt n (K (a, b)) = tr (⟨a, ha⟩, ⟨b, hb⟩))
    {a b : Nat} (ha : a < n) (hb : b < n) (hab : a < b) :
    NF.make (DGNF.tbl lim ω) n 0 [K (a, b)] = .ok ⟨n, 0, [K (a, b)]⟩ ∧ IsDGNF lim ω n ⟨n, 0, [K (a, b)]⟩ ∧
      dgnfBraid n ⟨n, 0, [K (a, b)]⟩ = band n a b := by
  obtain ⟨k1, k2⟩ := hK a b ha hb hab
  have hp : ((⟨a, ha⟩ : Fin n), (⟨b, hb⟩ : Fin n)).1 < ((⟨a, ha⟩ : Fin n), (⟨b, hb⟩ : Fin n)).2 := hab
  have h := R.real.make_ok (d := 0) (fs := [K (a, b)]) (by simpa [TableSpec.InR] using k1) (by
    apply Germ.canon_of_proper
    · simpa [nparGerm_P, k2] using ncp_tr hp
    · simp [Germ.Nrm]
    · simp only [List.map_cons, List.map_nil, List.mem_singleton, forall_eq, k2]; exact ⟨tr_ne_D hn hp, tr_ne_one hp⟩)
  refine ⟨h.1, R.isDGNF_iff.2 h.2, ?_⟩
  simp only [dgnfBraid, zpow_zero, one_mul, List.map_cons, List.map_nil, List.prod_cons, List.prod_nil, mul_one, k2]
  exact dlift_tr hp

theorem band_symm (n a b : Nat) : band n a b = band n b a := by
  unfold band
  by_cases h : a = b
  · rw [h]
  · rw [if_neg h, if_neg (Ne.symm h), min_comm, max_comm]

/-- C80: `DGNF.bkl_gens(n)` for `n ≥ 3` is a dictionary with the keys `(i, j)`, `0 ≤ i, j < n`, and `bkl_gens(n)[i, j]` denotes the
band generator. -/
theorem C80_bkl_gens (hn : 3 ≤ n) (hl : NPar.catalanNum n < lim) :
    ∃ d, DGNF.bklGens lim ω n = .ok d ∧ (d.map (·.1)).Nodup ∧ (∀ k, k ∈ d.map (·.1) ↔ k.1 < n ∧ k.2 < n) ∧
      ∀ i j, i < n → j < n → ∃ x, d.lookup (i, j) = some x ∧ IsDGNF lim ω n x ∧ dgnfBraid n x = band n i j := by
  obtain ⟨l, t, R⟩ := dgnf_real lim ω (by omega : 2 ≤ n) hl
  obtain ⟨K, hK, hK'⟩ := R.data.bkl
  obtain ⟨e, e1, e2, -, e4⟩ := R.real.identity_spec
  set keys : List (Nat × Nat) := (List.range n).flatMap fun i => (List.range n).map fun j => (i, j) with hkeys
  have hmem : ∀ k, k ∈ keys ↔ k.1 < n ∧ k.2 < n := by
    rintro ⟨a, b⟩
    simp [hkeys]
  have hnd : keys.Nodup := by
    rw [hkeys, List.nodup_flatMap]
    refine ⟨fun i _ => List.nodup_range.map (fun a b h => by simpa using h), ?_⟩
    refine List.Pairwise.imp (fun {a b} hab => ?_) List.nodup_range
    intro k h1 h2
    obtain ⟨c, -, rfl⟩ := List.mem_map.1 h1
    obtain ⟨c', -, h⟩ := List.mem_map.1 h2
    simp only [Prod.mk.injEq] at h
    exact hab h.1.symm
  let f : Nat × Nat → NF := fun ij => if ij.1 = ij.2 then e else ⟨n, 0, [K (min ij.1 ij.2, max ij.1 ij.2)]⟩
  have hmm : ∀ ij : Nat × Nat, ij.1 < n → ij.2 < n → ij.1 ≠ ij.2 → min ij.1 ij.2 < n ∧ max ij.1 ij.2 < n ∧ min ij.1 ij.2 < max ij.1 ij.2 := by
    intro ij h1 h2 h3; omega
  have hd : DGNF.bklGens lim ω n = .ok (keys.map fun ij => (ij, f ij)) := by
    unfold DGNF.bklGens
    rw [e1, bind_ok, R.create, bind_ok]
    apply TL.mapM_ok
    intro ij hij
    obtain ⟨h1, h2⟩ := (hmem ij).1 hij
    by_cases h : ij.1 = ij.2
    · simp only [f, h, if_true]
    · obtain ⟨m1, m2, m3⟩ := hmm ij h1 h2 h
      simp only [f, if_neg h]
      have hp : (min ij.1 ij.2, max ij.1 ij.2) ∈ NPar.pairs2 (List.range n) :=
        (mem_pairs2 List.pairwise_lt_range).2 ⟨List.mem_range.2 m1, List.mem_range.2 m2, m3⟩
      rw [DGNF.dictGet, hK, lookup_map_self _ _ _ hp]
      simp only [bind_ok]
      rw [(band_object R hn hK' m1 m2 m3).1]; rfl
  have hk : (keys.map fun ij => (ij, f ij)).map (·.1) = keys := by simp [Function.comp_def]
  refine ⟨_, hd, by rw [hk]; exact hnd, by rw [hk]; exact hmem, fun i j hi hj => ?_⟩
  refine ⟨f (i, j), lookup_map_self _ _ _ ((hmem (i, j)).2 ⟨hi, hj⟩), ?_⟩
  by_cases h : i = j
  · subst h
    simp only [f, if_true]
    exact ⟨R.isDGNF_iff.2 e2, by rw [← R.den_eq, e4, band, if_pos rfl]⟩
  · obtain ⟨m1, m2, m3⟩ := hmm (i, j) hi hj h
    have := band_object R hn hK' m1 m2 m3
    simp only [f, if_neg h]
    refine ⟨this.2.1, this.2.2.trans ?_⟩
    rcases le_total i j with h' | h'
    · rw [min_eq_left h', max_eq_right h']
    · rw [min_eq_right h', max_eq_left h', band_symm]

example := C80_bkl_gens (n := 5) (lim := 5000) (ω := dpop0) (by decide) (by decide)

theorem lookup_dictUpdate (d e : List ((Nat × Nat) × NF)) (k : Nat × Nat) :
    (BraidGroup.dictUpdate d e).lookup k = match e.reverse.lookup k with | some v => some v | none => d.lookup k := by
  have step : ∀ (d : List ((Nat × Nat) × NF)) (kv : (Nat × Nat) × NF),
      (if d.any (·.1 == kv.1) then d.map (fun x => if x.1 == kv.1 then kv else x) else d ++ [kv]).lookup k =
      if k = kv.1 then some kv.2 else d.lookup k := by
    intro d kv
    split
    · rename_i h
      induction d with
      | nil => simp at h
      | cons x d ih =>
        by_cases hx : x.1 = kv.1
        · have hb : (x.1 == kv.1) = true := by simpa using hx
          rw [List.map_cons, if_pos hb]
          by_cases hk : k = kv.1
          · rw [if_pos hk, hk, List.lookup_cons, beq_self_eq_true]
          · rw [if_neg hk, List.lookup_cons, show (k == kv.1) = false by simpa using hk]
            have hkx : (k == x.1) = false := by rw [hx]; simpa using hk
            rw [show (x :: d).lookup k = d.lookup k by rw [List.lookup_cons, hkx]]
            simp only
            clear ih h
            induction d with
            | nil => rfl
            | cons y d ih =>
              rw [List.map_cons, List.lookup_cons, List.lookup_cons, ih]
              by_cases hy : y.1 = kv.1
              · rw [if_pos (by simpa using hy), show (k == kv.1) = false by simpa using hk, show (k == y.1) = false by rw [hy]; simpa using hk]
              · rw [if_neg (by simpa using hy)]
        · have hb : ¬ (x.1 == kv.1) = true := by simpa using hx
          rw [List.map_cons, if_neg hb, List.lookup_cons, List.lookup_cons]
          have h' : (d.any (·.1 == kv.1)) = true := by
            rw [List.any_cons] at h; simpa [hx] using h
          by_cases hkx : k = x.1
          · rw [show (k == x.1) = true by simpa using hkx, if_neg (by rw [hkx]; exact hx)]
          · rw [show (k == x.1) = false by simpa using hkx]
            exact ih h'
    · rename_i h
      rw [List.lookup_append]
      by_cases hk : k = kv.1
      · rw [if_pos hk]
        have : d.lookup k = none := by
          rw [List.lookup_eq_none_iff]
          intro p hp
          have := h
          simp only [List.any_eq_true, not_exists, not_and] at this
          have h2 := this p hp
          rw [hk]; simp only [bne_iff_ne, ne_eq, beq_iff_eq] at h2 ⊢
          exact fun e => h2 e.symm
        have hs : List.lookup kv.1 [kv] = some kv.2 := by rw [List.lookup_cons, beq_self_eq_true]
        rw [this, hk, hs]; rfl
      · rw [if_neg hk]
        have : List.lookup k [kv] = none := by rw [List.lookup_cons, show (k == kv.1) = false by simpa using hk]; rfl
        rw [this]; simp
  unfold BraidGroup.dictUpdate
  induction e generalizing d with
  | nil => rfl
  | cons kv e ih =>
    rw [List.foldl_cons, ih, step, List.reverse_cons, List.lookup_append]
    cases h : e.reverse.lookup k with
    | some v => simp
    | none =>
      by_cases hk : k = kv.1
      · have hs : List.lookup kv.1 [kv] = some kv.2 := by rw [List.lookup_cons, beq_self_eq_true]
        rw [if_pos hk, hk, hs]; rfl
      · rw [if_neg hk]
        have : List.lookup k [kv] = none := by rw [List.lookup_cons, show (k == kv.1) = false by simpa using hk]; rfl
        simp [this]

/-- C80: `BraidGroup(n).bkl_gens()` for `n ≥ 3`: `[i, j]` is the same object as `DGNF.bkl_gens(n)[i, j]`. -/
theorem C80_group_bkl_gens (hn : 3 ≤ n) (hl : NPar.catalanNum n < lim) :
    ∃ d d', BraidGroup.bklGens lim ω n = .ok d ∧ DGNF.bklGens lim ω n = .ok d' ∧ ∀ k, d.lookup k = d'.lookup k := by
  obtain ⟨l, t, R⟩ := dgnf_real lim ω (by omega : 2 ≤ n) hl
  obtain ⟨K, hK, hK'⟩ := R.data.bkl
  obtain ⟨e, e1, e2, -, e4⟩ := R.real.identity_spec
  obtain ⟨d', d1, -, d3, d4⟩ := C80_bkl_gens (ω := ω) hn hl
  set P := NPar.pairs2 (List.range n) with hP
  have hPm : ∀ a b, (a, b) ∈ P ↔ a < n ∧ b < n ∧ a < b := fun a b => by
    rw [hP, mem_pairs2 List.pairwise_lt_range]; simp
  let A := P.map fun p => (p, (⟨n, 0, [K p]⟩ : NF))
  let B := P.map fun p => ((p.2, p.1), (⟨n, 0, [K p]⟩ : NF))
  let C := (List.range n).map fun i => ((i, i), e)
  have hd : BraidGroup.bklGens lim ω n = .ok (BraidGroup.dictUpdate (BraidGroup.dictUpdate (BraidGroup.dictUpdate [] A) B) C) := by
    unfold BraidGroup.bklGens
    simp only [pyAssert, decide_eq_true (by omega : 1 ≤ n), if_true, bind_ok, R.create]
    have h1 : t.bklGens.mapM (fun gi => do
        let x ← NF.make (DGNF.tbl lim ω) n 0 [gi.2]
        .ok (gi.1, x)) = Except.ok A := by
      rw [hK]
      have := TL.mapM_ok (fun gi : (Nat × Nat) × Nat => (do
        let x ← NF.make (DGNF.tbl lim ω) n 0 [gi.2]
        Except.ok (gi.1, x) : Except Err _)) (fun gi => (gi.1, (⟨n, 0, [gi.2]⟩ : NF))) (P.map fun p => (p, K p)) (by
          intro gi hgi
          obtain ⟨p, hp, rfl⟩ := List.mem_map.1 hgi
          obtain ⟨p1, p2, p3⟩ := (hPm p.1 p.2).1 hp
          rw [(band_object R hn hK' p1 p2 p3).1]; rfl)
      rw [this, List.map_map]; rfl
    have h2 : t.bklGens.mapM (fun gi => do
        let x ← NF.make (DGNF.tbl lim ω) n 0 [gi.2]
        .ok ((gi.1.2, gi.1.1), x)) = Except.ok B := by
      rw [hK]
      have := TL.mapM_ok (fun gi : (Nat × Nat) × Nat => (do
        let x ← NF.make (DGNF.tbl lim ω) n 0 [gi.2]
        Except.ok ((gi.1.2, gi.1.1), x) : Except Err _)) (fun gi => ((gi.1.2, gi.1.1), (⟨n, 0, [gi.2]⟩ : NF))) (P.map fun p => (p, K p)) (by
          intro gi hgi
          obtain ⟨p, hp, rfl⟩ := List.mem_map.1 hgi
          obtain ⟨p1, p2, p3⟩ := (hPm p.1 p.2).1 hp
          rw [(band_object R hn hK' p1 p2 p3).1]; rfl)
      rw [this, List.map_map]; rfl
    have h3 : (List.range n).mapM (fun i => do
        let x ← NF.identity (DGNF.tbl lim ω) n
        Except.ok ((i, i), x)) = Except.ok C := by
      apply TL.mapM_ok; intro i _; rw [e1, bind_ok]
    rw [h1, bind_ok, h2, bind_ok, h3, bind_ok]
  refine ⟨_, d', hd, d1, fun k => ?_⟩
  -- two objects denoting the same braid are equal
  have same : ∀ {x y : NF}, IsDGNF lim ω n x → IsDGNF lim ω n y → dgnfBraid n x = dgnfBraid n y → x = y :=
    fun hx hy h => (C29_unique (by omega) hl _ _ hx hy).2 h
  have hmemr : ∀ {m : List ((Nat × Nat) × NF)} {k v}, m.reverse.lookup k = some v → (k, v) ∈ m := by
    intro m k v h
    rw [List.lookup_eq_some_iff] at h
    obtain ⟨l1, l2, h, -⟩ := h
    rw [← List.mem_reverse, h]; simp
  have hnone : ∀ {m : List ((Nat × Nat) × NF)} {k}, m.reverse.lookup k = none → ∀ v, (k, v) ∉ m := by
    intro m k h v hv
    rw [List.lookup_eq_none_iff] at h
    have := h (k, v) (List.mem_reverse.2 hv)
    simp at this
  have hgood : ∀ k v, (k, v) ∈ A ∨ (k, v) ∈ B ∨ (k, v) ∈ C → d'.lookup k = some v := by
    rintro ⟨i, j⟩ v h
    have fin : i < n → j < n → IsDGNF lim ω n v → dgnfBraid n v = band n i j → d'.lookup (i, j) = some v := by
      intro hi hj h1 h2
      obtain ⟨x, x1, x2, x3⟩ := d4 i j hi hj
      rw [x1, same x2 h1 (x3.trans h2.symm)]
    rcases h with h | h | h
    · obtain ⟨p, hp, hp'⟩ := List.mem_map.1 h
      simp only [Prod.mk.injEq] at hp'
      obtain ⟨rfl, rfl⟩ := hp'
      obtain ⟨p1, p2, p3⟩ := (hPm i j).1 hp
      have := band_object R hn hK' p1 p2 p3
      exact fin p1 p2 this.2.1 this.2.2
    · obtain ⟨p, hp, hp'⟩ := List.mem_map.1 h
      simp only [Prod.mk.injEq] at hp'
      obtain ⟨⟨rfl, rfl⟩, rfl⟩ := hp'
      obtain ⟨p1, p2, p3⟩ := (hPm p.1 p.2).1 hp
      have := band_object R hn hK' p1 p2 p3
      exact fin p2 p1 this.2.1 (this.2.2.trans (band_symm n _ _))
    · obtain ⟨p, hp, hp'⟩ := List.mem_map.1 h
      simp only [Prod.mk.injEq] at hp'
      obtain ⟨⟨rfl, rfl⟩, rfl⟩ := hp'
      have hp := List.mem_range.1 hp
      exact fin hp hp (R.isDGNF_iff.2 e2) (by rw [← R.den_eq, e4, band, if_pos rfl])
  rw [lookup_dictUpdate, lookup_dictUpdate, lookup_dictUpdate]
  cases hC : C.reverse.lookup k with
  | some v => exact (hgood k v (Or.inr (Or.inr (hmemr hC)))).symm
  | none =>
    cases hB : B.reverse.lookup k with
    | some v => exact (hgood k v (Or.inr (Or.inl (hmemr hB)))).symm
    | none =>
      cases hA : A.reverse.lookup k with
      | some v => exact (hgood k v (Or.inl (hmemr hA))).symm
      | none =>
        simp only [List.lookup_nil]
        symm
        rw [List.lookup_eq_none_iff]
        rintro ⟨⟨i, j⟩, v⟩ hv
        simp only [bne_iff_ne, ne_eq]
        rintro rfl
        obtain ⟨hi, hj⟩ := (d3 (i, j)).1 (List.mem_map.2 ⟨_, hv, rfl⟩)
        simp only at hi hj
        rcases lt_trichotomy i j with h | h | h
        · exact hnone hA _ (List.mem_map.2 ⟨(i, j), (hPm i j).2 ⟨hi, hj, h⟩, rfl⟩)
        · subst h; exact hnone hC _ (List.mem_map.2 ⟨i, List.mem_range.2 hi, rfl⟩)
        · exact hnone hB _ (List.mem_map.2 ⟨(j, i), (hPm j i).2 ⟨hj, hi, h⟩, rfl⟩)

example := C80_group_bkl_gens (n := 5) (lim := 5000) (ω := dpop0) (by decide) (by decide)

/-- C80: on two strands the only band generator is `δ`, whose index the constructor rejects: `bkl_gens` raises AssertionError. -/
theorem C80_two_strands (hl : 2 < lim) : DGNF.bklGens lim ω 2 = .error .assertion ∧ BraidGroup.bklGens lim ω 2 = .error .assertion := by
  obtain ⟨l, t, R⟩ := dgnf_real (n := 2) lim ω le_rfl (by rw [show NPar.catalanNum 2 = 2 by decide]; exact hl)
  obtain ⟨K, hK, hK'⟩ := R.data.bkl
  obtain ⟨e, e1, -⟩ := R.real.identity_spec
  obtain ⟨k1, k2⟩ := hK' 0 1 (by omega) (by omega) (by omega)
  have hmk : NF.make (DGNF.tbl lim ω) 2 0 [K (0, 1)] = .error .assertion := by
    rw [C77_constructor le_rfl (by rw [show NPar.catalanNum 2 = 2 by decide]; exact hl) 0 [K (0, 1)] (by rw [← R.data.order]; simpa using k1)]
    rw [if_neg fun h => (h.1 _ (List.mem_singleton.2 rfl)).2 (k2.trans (tr_two _ (by simp [Fin.lt_def])))]
  have hp : NPar.pairs2 (List.range 2) = [(0, 1)] := by decide
  rw [hp] at hK
  constructor
  · unfold DGNF.bklGens
    rw [e1, bind_ok, R.create, bind_ok]
    rw [show ((List.range 2).flatMap fun i => (List.range 2).map fun j => (i, j)) = [(0, 0), (0, 1), (1, 0), (1, 1)] by decide]
    rw [List.mapM_cons, List.mapM_cons]
    simp only [if_true, bind_ok]
    rw [if_neg (by decide)]
    have hg : DGNF.dictGet t.bklGens (min (0, 1).1 (0, 1).2, max (0, 1).1 (0, 1).2) = .ok (K (0, 1)) := by
      rw [hK, DGNF.dictGet, lookup_map_self _ _ _ (by simp)]; rfl
    rw [hg, bind_ok, hmk]; rfl
  · unfold BraidGroup.bklGens
    simp only [pyAssert, R.create, bind_ok, hK, List.map_cons, List.map_nil, List.mapM_cons, hmk]; rfl

/-- C80: `BraidGroup(n).from_npar(p)` denotes the lift of the partition; a partition of another size raises ValueError. -/
theorem C80_from_npar (hn : 2 ≤ n) (hl : NPar.catalanNum n < lim) (p : NPar) (hp : p.Ok) :
    (p.n = n → ∃ (π : Perm (Fin n)) (x : NF), p.toPermutation = .ok (wordOf π) ∧ BraidGroup.fromNpar lim ω n p = .ok x ∧
      IsDGNF lim ω n x ∧ dgnfBraid n x = dlift π ∧ DGNF.fromNpar lim ω p = .ok x) ∧
    (p.n ≠ n → BraidGroup.fromNpar lim ω n p = .error .value) := by
  constructor
  · rintro rfl
    obtain ⟨l, t, R⟩ := dgnf_real lim ω hn hl
    obtain ⟨x, hx, e⟩ := exists_nparOf hp
    obtain ⟨m, hm⟩ : ∃ m, p.n = m := ⟨_, rfl⟩
    have key : ∀ q : NPar, q = nparOf x → ∃ (π : Perm (Fin p.n)) (y : NF), q.toPermutation = .ok (wordOf π) ∧
        BraidGroup.fromNpar lim ω p.n q = .ok y ∧ IsDGNF lim ω p.n y ∧ dgnfBraid p.n y = dlift π ∧ DGNF.fromNpar lim ω q = .ok y := by
      rintro q rfl
      obtain ⟨i, i1, i2, i3⟩ := R.nl.index hx
      obtain ⟨z, z1, z2, z3⟩ := fromNparSeq_spec (ω := ω) hn hl [x] (by simpa using hx)
      have hz : ∀ y, IsDGNF lim ω p.n y → dgnfBraid p.n y = dlift x → DGNF.fromNpar lim ω (nparOf x) = .ok y := by
        intro y y1 y2
        have : y = z := (C29_unique hn hl y z y1 z2).2 (by rw [y2, z3]; simp)
        rw [this]; exact z1
      have hS := R.real.spec
      have step : ∀ (d : ℤ) (fs : List Nat), TableSpec.InR t.toNFTable fs → (nparGerm p.n).Canon (d, fs.map (nparAt p.n)) →
          dgnfBraid p.n ⟨p.n, d, fs⟩ = dlift x → ∃ y, NF.make (DGNF.tbl lim ω) p.n d fs = .ok y ∧
          IsDGNF lim ω p.n y ∧ dgnfBraid p.n y = dlift x ∧ DGNF.fromNpar lim ω (nparOf x) = .ok y := by
        intro d fs h1 h2 h3
        have h := R.real.make_ok h1 h2
        exact ⟨_, h.1, R.isDGNF_iff.2 h.2, h3, hz _ (R.isDGNF_iff.2 h.2) h3⟩
      have hit : i < t.order := by rw [R.data.order]; exact i1
      have goal : ∃ y, BraidGroup.fromNpar lim ω p.n (nparOf x) = .ok y ∧ IsDGNF lim ω p.n y ∧ dgnfBraid p.n y = dlift x ∧
          DGNF.fromNpar lim ω (nparOf x) = .ok y := by
        unfold BraidGroup.fromNpar
        simp only [pyAssert, decide_eq_true (by omega : 1 ≤ p.n), if_true, bind_ok, R.create, R.data.divs, i2]
        rw [if_neg (by simp [nparOf])]
        by_cases h1 : i = t.id
        · rw [if_pos h1]
          have hx1 : x = 1 := by rw [← i3, h1, hS.v_id]
          exact step 0 [] (by simp) (by simpa using Germ.canon_nil 0) (by rw [hx1]; simp [dgnfBraid, dlift_hom.one])
        rw [if_neg h1]
        by_cases h2 : i = t.D
        · rw [if_pos h2]
          have hx1 : x = dcyc p.n := by rw [← i3, h2, hS.v_D]; rfl
          exact step 1 [] (by simp) (by simpa using Germ.canon_nil 1) (by rw [hx1]; simp [dgnfBraid, delta])
        rw [if_neg h2]
        refine step 0 [i] (by simpa [TableSpec.InR] using hit) ?_ (by simp [dgnfBraid, i3])
        apply Germ.canon_of_proper
        · simpa [i3, nparGerm_P] using hx
        · simp [Germ.Nrm]
        · simp only [List.map_cons, List.map_nil, List.mem_singleton, forall_eq]
          exact ⟨fun h => h2 ((hS.D_eq hit).2 h), fun h => h1 ((hS.id_eq hit).2 h)⟩
      obtain ⟨y, y1, y2, y3, y4⟩ := goal
      exact ⟨x, y, toPermutation_eq x, y1, y2, y3, y4⟩
    exact key p e
  · intro h
    unfold BraidGroup.fromNpar
    simp only [pyAssert, decide_eq_true (by omega : 1 ≤ n), if_true, bind_ok]
    rw [if_pos h]

example := C80_from_npar (n := 4) (lim := 5000) (ω := dpop0) (by decide) (by decide) _ nparA

/-! ## C81: conjugation by the Garside element -/

/-- C81: `x * δ = δ * τ(x)`, where `τ` conjugates every factor by the descending cycle (a rotation of the partition), and
`δ^n` is central. -/
theorem C81_conjugation (hn : 2 ≤ n) (hl : NPar.catalanNum n < lim) (x : NF) (hx : IsDGNF lim ω n x) :
    ∃ fs, IsDGNF lim ω n ⟨n, x.power, fs⟩ ∧ fs.map (nparAt n) = x.factors.map (fun f => (dcyc n)⁻¹ * nparAt n f * dcyc n) ∧
      NF.mul (DGNF.tbl lim ω) x ⟨n, 1, []⟩ = .ok ⟨n, x.power + 1, fs⟩ ∧
      NF.mul (DGNF.tbl lim ω) ⟨n, 1, []⟩ ⟨n, x.power, fs⟩ = .ok ⟨n, x.power + 1, fs⟩ ∧
      NF.mul (DGNF.tbl lim ω) x ⟨n, n, []⟩ = .ok ⟨n, x.power + n, x.factors⟩ ∧
      NF.mul (DGNF.tbl lim ω) ⟨n, n, []⟩ x = .ok ⟨n, x.power + n, x.factors⟩ := by
  obtain ⟨l, t, R⟩ := dgnf_real lim ω hn hl
  have hx' := R.isDGNF_iff.1 hx
  have h2 := R.data.tauOrder
  obtain ⟨fs, f1, f2, f3⟩ := R.real.conj_list (k := 1) (by omega) hx'.inR
  have cx := R.real.canon hx'
  have ctau : (nparGerm n).Canon (x.power, fs.map (nparAt n)) := by rw [f3]; exact canon_tau_iter 1 cx
  have hv := R.real.make_ok f2 ctau
  have ctau1 : (nparGerm n).Canon (x.power + 1, fs.map (nparAt n)) := ⟨ctau.allP, ctau.nrm, ctau.head, ctau.last⟩
  have hv1 := R.real.make_ok f2 ctau1
  have cx2 : (nparGerm n).Canon (x.power + n, x.factors.map (nparAt n)) := ⟨cx.allP, cx.nrm, cx.head, cx.last⟩
  have hv2 := R.real.make_ok hx'.inR cx2
  have hd1 := R.real.make_ok (d := 1) (fs := []) (by simp) (by simpa using Germ.canon_nil 1)
  have hd2 := R.real.make_ok (d := n) (fs := []) (by simp) (by simpa using Germ.canon_nil _)
  have conj := R.real.conj_prod 1 (x.factors.map (nparAt n)) cx.allP
  rw [h2] at conj
  have e1 : ((1 : ℤ) % (n : ℤ)).toNat = 1 := by rw [Int.emod_eq_of_lt (by omega) (by omega)]; rfl
  rw [e1, ← f3] at conj
  have conj2 := R.real.conj_prod n (x.factors.map (nparAt n)) cx.allP
  rw [h2] at conj2
  have e2 : ((n : ℤ) % (n : ℤ)).toNat = 0 := by rw [Int.emod_self]; rfl
  rw [e2] at conj2
  simp only [Function.iterate_zero, List.map_id] at conj2
  have hmul : ∀ {a b c : NF}, Valid t.toNFTable n a → Valid t.toNFTable n b → Valid t.toNFTable n c →
      den (nparGerm n) (nparAt n) dlift c = den (nparGerm n) (nparAt n) dlift a * den (nparGerm n) (nparAt n) dlift b →
      NF.mul (DGNF.tbl lim ω) a b = .ok c := by
    intro a b c ha hb hc h
    obtain ⟨z, z1, z2, z3⟩ := R.real.mul_spec ha hb
    rw [z1, R.real.den_inj z2 hc (by rw [z3, h])]
  refine ⟨fs, R.isDGNF_iff.2 hv.2, ?_, hmul hx' hd1.2 hv1.2 ?_, hmul hd1.2 hv.2 hv1.2 ?_, hmul hx' hd2.2 hv2.2 ?_, hmul hd2.2 hx' hv2.2 ?_⟩
  · rw [f3, List.map_map]; rfl
  · unfold den Germ.val
    simp only [List.map_nil, List.prod_nil, mul_one]
    rw [mul_assoc, conj, zpow_add, mul_assoc]
  · unfold den Germ.val
    simp only [List.map_nil, List.prod_nil, mul_one]
    rw [← mul_assoc, ← zpow_add, add_comm]
  · unfold den Germ.val
    simp only [List.map_nil, List.prod_nil, mul_one]
    rw [mul_assoc, conj2, zpow_add, mul_assoc]
  · unfold den Germ.val
    simp only [List.map_nil, List.prod_nil, mul_one]
    rw [← mul_assoc, ← zpow_add, add_comm]

example := C81_conjugation (by decide) (by decide) _ dgnfA

/-! ## Concrete instances -/

/-- `(σ_0 σ_1 σ_0)` and its conversions on three strands, as computed by the model: one `δ` and one further factor. -/
example : (NF.fromArtinWord (DGNF.tbl 5000 fun _ _ _ => 0) 3 [(0, 1), (1, 1), (0, 1)]).map (fun x => (x.power, x.factors.length)) = .ok (1, 1) := by
  decide +kernel

/-- `Δ` in dual form and back. -/
example : (do
    let x ← NF.fromArtinWord (DGNF.tbl 5000 fun _ _ _ => 0) 3 [(0, 1), (1, 1), (0, 1)]
    DGNF.toGNF 10 (fun _ _ _ => 0) 5000 (fun _ _ _ => 0) x) = .ok ⟨3, 1, []⟩ := by decide +kernel

end Peyl
