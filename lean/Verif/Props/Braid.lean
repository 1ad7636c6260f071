import Verif.Lemmas.GNF
/-!
# Properties C09–C23: braids in Garside normal form

Vocabulary (Spec/Braid.lean, Spec/BraidNF.lean): `Braid n` is Artin's braid group (generators and relations), `gnfBraid n x` the
braid `Δ^power · f₁ ⋯ f_k` denoted by an object, `IsGNF lim ω n x` says that `x` is a legal object (the constructor accepts
it).  `lim` is the size guard of `PermTable.create` (7 in the code), `ω` the arbitrary behaviour of `set.pop`.
-/
namespace Peyl
open Equiv Perms NFReal
variable {n lim : Nat} {ω : List Nat → List Nat → Nat → Nat}

/-! Two legal objects on three strands, used beside the theorems to show that their hypotheses are met. -/

/-- A choice for `set.pop`. -/
abbrev pop0 : List Nat → List Nat → Nat → Nat := fun _ _ _ => 0

theorem gnfA : IsGNF 7 pop0 3 ⟨3, -2, [3, 4, 2]⟩ := by decide +kernel

theorem gnfB : IsGNF 7 pop0 3 ⟨3, 1, [4, 2, 2]⟩ := by decide +kernel

theorem gnfC : IsGNF 7 pop0 3 ⟨3, 0, [4, 2]⟩ := by decide +kernel

/-! ## C09 -/

/-- C09: the table is the same whatever `set.pop` returns, and building it never fails. -/
theorem C09_pop_independent (n : Nat) (ω ω' : List Nat → List Nat → Nat → Nat) :
    PermTable.build ω n = PermTable.build ω' n := by
  have hrow : ∀ x ∈ elements n, ∀ y ∈ elements n,
      PermTable.renormEntry (elements n) ((List.range (n - 1)).map fun i => wordOf (sg n i)) (ω x y) x y =
      PermTable.renormEntry (elements n) ((List.range (n - 1)).map fun i => wordOf (sg n i)) (ω' x y) x y := by
    intro x hx y hy
    obtain ⟨π, rfl⟩ := (elements_mem x).1 hx
    obtain ⟨ρ, rfl⟩ := (elements_mem y).1 hy
    obtain ⟨a, b, bb, h1, h2, h3, h4, h5, h6⟩ := renormEntry_spec (ω (wordOf π) (wordOf ρ)) π ρ
    obtain ⟨a', b', bb', k1, k2, k3, k4, k5, k6⟩ := renormEntry_spec (ω' (wordOf π) (wordOf ρ)) π ρ
    have hP : (permGerm n).AllP [π, ρ] := fun x _ => permGerm_P x
    have e1 := Germ.nf_eq hP h4 (by simpa [Germ.Nrm] using h5)
    have e2 := Germ.nf_eq hP k4 (by simpa [Germ.Nrm] using k5)
    rw [e1] at e2
    simp only [List.cons.injEq, and_true] at e2
    rw [h1, k1, permAt_inj h2 k2 e2.1, permAt_inj h3 k3 e2.2]
    have : bb = bb' := by rw [Bool.eq_iff_iff, h6, k6]
    rw [this]
  have hmapM : ∀ {α γ : Type} (f g : α → Except Err γ) (l : List α), (∀ x ∈ l, f x = g x) → l.mapM f = l.mapM g := by
    intro α γ f g l h
    induction l with
    | nil => rfl
    | cons x l ih => rw [List.mapM_cons, List.mapM_cons, h x (by simp), ih (fun y hy => h y (by simp [hy]))]
  have hall : ∀ gens, coxGens n = .ok gens → ((elements n).mapM fun x => (elements n).mapM fun y => PermTable.renormEntry (elements n) gens (ω x y) x y) =
      (elements n).mapM fun x => (elements n).mapM fun y => PermTable.renormEntry (elements n) gens (ω' x y) x y := by
    intro gens hg
    rw [coxGens_ok] at hg; simp only [Except.ok.injEq] at hg; subst hg
    exact hmapM _ _ _ fun x hx => hmapM _ _ _ fun y hy => hrow x hx y hy
  unfold PermTable.build
  simp only [coxGens_ok, bind_ok]
  rw [hall _ (coxGens_ok n)]

/-- C09: the entry for a pair of permutations `x, y`: the loop terminates and returns the left-weighted pair with the same
braid product, and the flag says whether the pair was left-weighted already. -/
theorem C09_renorm_entry (n : Nat) (hn : 2 ≤ n) (ω : List Nat → List Nat → Nat → Nat) (i j : Nat) (hi : i < n.factorial) (hj : j < n.factorial) :
    ∃ t a b bb, PermTable.build ω n = .ok t ∧ lookup2 t.renorm i j = .ok (a, b) ∧ lookup2 t.isNormalised i j = .ok bb ∧
      a < n.factorial ∧ b < n.factorial ∧ LeftWeighted (permAt n a) (permAt n b) ∧
      lift (permAt n i) * lift (permAt n j) = lift (permAt n a) * lift (permAt n b) ∧
      (bb = true ↔ LeftWeighted (permAt n i) (permAt n j)) := by
  obtain ⟨t, t1, t2, t3, -⟩ := build_spec (n := n) ω hn
  rw [← t3] at hi hj ⊢
  obtain ⟨a, b, a1, b1, h1, h2, h3⟩ := t2.renorm i j hi hj
  obtain ⟨bb, h4, h5⟩ := t2.isNormalised i j hi hj
  refine ⟨t, a, b, bb, t1, h1, h4, a1, b1, (pairN_perm _ _).1 h3, ?_, h5.trans (pairN_perm _ _)⟩
  have := h2.val lift_hom (fun x _ => permGerm_P x)
  simpa using this.symm

example := C09_renorm_entry 4 (by decide) pop0 7 19 (by decide) (by decide)

/-! ## C10 -/

/-- C10: normalising any sequence of permutations yields a legal object denoting the product of their positive lifts. -/
theorem C10_from_perm_seq (hn : 2 ≤ n) (hl : n < lim) (ws : List (List Nat)) (h : ∀ w ∈ ws, IsPermWord w ∧ w.length = n) :
    ∃ (ps : List (Perm (Fin n))) (x : NF), ws = ps.map wordOf ∧ GNF.fromPermSeq lim ω n ws = .ok x ∧ IsGNF lim ω n x ∧
      gnfBraid n x = (ps.map lift).prod := by
  obtain ⟨ps, rfl⟩ := exists_perms ws h
  obtain ⟨x, x1, x2, x3⟩ := fromPermSeq_spec (ω := ω) hn hl ps
  exact ⟨ps, x, rfl, x1, x2, x3⟩

example := C10_from_perm_seq (n := 3) (lim := 7) (ω := pop0) (by decide) (by decide) [[1, 2, 0], [2, 1, 0], [0, 2, 1]] (by decide)

/-- C10: the positive lift is the braid spelled by any reduced word. -/
theorem C10_lift_spec (n : Nat) (π : Perm (Fin n)) : (∃ w, IsReduced w π) ∧ ∀ w, IsReduced w π → lift π = posWord n w :=
  ⟨exists_reduced π, fun _ h => lift_eq_posWord h⟩

/-! ## C11 -/

/-- C11: `x * y` succeeds and denotes the product in the braid group. -/
theorem C11_mul (hn : 2 ≤ n) (hl : n < lim) (x y : NF) (hx : IsGNF lim ω n x) (hy : IsGNF lim ω n y) :
    ∃ z, NF.mul (GNF.tbl lim ω) x y = .ok z ∧ IsGNF lim ω n z ∧ gnfBraid n z = gnfBraid n x * gnfBraid n y := by
  obtain ⟨t, R⟩ := exists_greal lim ω hn hl
  obtain ⟨z, z1, z2, z3⟩ := R.1.mul_spec (R.isGNF_iff.1 hx) (R.isGNF_iff.1 hy)
  exact ⟨z, z1, R.isGNF_iff.2 z2, by simpa only [R.den_eq] using z3⟩

example := C11_mul (by decide) (by decide) _ _ gnfA gnfB

/-- C11: different numbers of strands raise ValueError. -/
theorem C11_mul_error (x y : NF) (h : x.n ≠ y.n) : NF.mul (GNF.tbl lim ω) x y = .error .value := by
  rw [NF.mul, if_pos h]

example := C11_mul_error (lim := 7) (ω := pop0) ⟨3, -2, [3, 4, 2]⟩ ⟨4, 0, [1]⟩ (by decide)

/-! ## C12 -/

/-- C12: inversion. -/
theorem C12_inv (hn : 2 ≤ n) (hl : n < lim) (x : NF) (hx : IsGNF lim ω n x) :
    ∃ z e, NF.invert (GNF.tbl lim ω) x = .ok z ∧ IsGNF lim ω n z ∧ gnfBraid n z = (gnfBraid n x)⁻¹ ∧
      NF.identity (GNF.tbl lim ω) n = .ok e ∧ NF.mul (GNF.tbl lim ω) x z = .ok e ∧ NF.mul (GNF.tbl lim ω) z x = .ok e := by
  obtain ⟨t, R⟩ := exists_greal lim ω hn hl
  have hx' := R.isGNF_iff.1 hx
  obtain ⟨z, z1, z2, z3⟩ := R.1.inv_spec hx'
  obtain ⟨e, e1, e2, -, e4⟩ := R.1.identity_spec
  obtain ⟨p, p1, p2, p3⟩ := R.1.mul_spec hx' z2
  obtain ⟨q, q1, q2, q3⟩ := R.1.mul_spec z2 hx'
  have hp : p = e := R.1.den_inj p2 e2 (by rw [p3, z3, e4, mul_inv_cancel])
  have hq : q = e := R.1.den_inj q2 e2 (by rw [q3, z3, e4, inv_mul_cancel])
  exact ⟨z, e, z1, R.isGNF_iff.2 z2, by simpa only [R.den_eq] using z3, e1, hp ▸ p1, hq ▸ q1⟩

example := C12_inv (by decide) (by decide) _ gnfA

/-! ## C13 -/

/-- C13: powers, for every integer exponent. -/
theorem C13_pow (hn : 2 ≤ n) (hl : n < lim) (x : NF) (hx : IsGNF lim ω n x) (k : ℤ) :
    ∃ z, NF.pow (GNF.tbl lim ω) x k = .ok z ∧ IsGNF lim ω n z ∧ gnfBraid n z = gnfBraid n x ^ k := by
  obtain ⟨t, R⟩ := exists_greal lim ω hn hl
  obtain ⟨z, z1, z2, z3⟩ := R.1.pow_spec (R.isGNF_iff.1 hx) k
  exact ⟨z, z1, R.isGNF_iff.2 z2, by simpa only [R.den_eq] using z3⟩

example := C13_pow (by decide) (by decide) _ gnfA (-5)

/-- C13: `x ** (k+1) == (x ** k) * x`, `x ** 0 == 1`, `x ** -k == x.inv() ** k`, as objects. -/
theorem C13_pow_recurrence (hn : 2 ≤ n) (hl : n < lim) (x : NF) (hx : IsGNF lim ω n x) (k : ℤ) :
    NF.pow (GNF.tbl lim ω) x 0 = NF.identity (GNF.tbl lim ω) n ∧
    (NF.pow (GNF.tbl lim ω) x (k + 1) = do NF.mul (GNF.tbl lim ω) (← NF.pow (GNF.tbl lim ω) x k) x) ∧
    (NF.pow (GNF.tbl lim ω) x (-k) = do NF.pow (GNF.tbl lim ω) (← NF.invert (GNF.tbl lim ω) x) k) := by
  obtain ⟨t, R⟩ := exists_greal lim ω hn hl
  have hx' := R.isGNF_iff.1 hx
  obtain ⟨e, e1, e2, -, e4⟩ := R.1.identity_spec
  obtain ⟨z, z1, z2, z3⟩ := R.1.pow_spec hx' 0
  obtain ⟨a, a1, a2, a3⟩ := R.1.pow_spec hx' k
  obtain ⟨b, b1, b2, b3⟩ := R.1.pow_spec hx' (k + 1)
  obtain ⟨c, c1, c2, c3⟩ := R.1.mul_spec a2 hx'
  obtain ⟨i, i1, i2, i3⟩ := R.1.inv_spec hx'
  obtain ⟨p, p1, p2, p3⟩ := R.1.pow_spec hx' (-k)
  obtain ⟨q, q1, q2, q3⟩ := R.1.pow_spec i2 k
  refine ⟨?_, ?_, ?_⟩
  · rw [z1, e1, R.1.den_inj z2 e2 (by rw [z3, e4, zpow_zero])]
  · rw [a1, bind_ok, b1, c1, R.1.den_inj b2 c2 (by rw [b3, c3, a3, zpow_add_one])]
  · rw [i1, bind_ok, p1, q1, R.1.den_inj p2 q2 (by rw [p3, q3, i3, zpow_neg, inv_zpow])]

example := C13_pow_recurrence (by decide) (by decide) _ gnfA (-5)

/-! ## C14 -/

/-- C14: `x.artin_word()` is a word in legal generators with exponents ±1 which spells the braid of `x`. -/
theorem C14_artin_word (hn : 2 ≤ n) (hl : n < lim) (x : NF) (hx : IsGNF lim ω n x) :
    ∃ w, NF.artinWord (GNF.tbl lim ω) x = .ok w ∧ (∀ se ∈ w, (se.2 = 1 ∨ se.2 = -1) ∧ se.1 + 1 < n) ∧
      wordBraid n w = gnfBraid n x ∧ NF.fromArtinWord (GNF.tbl lim ω) n w = .ok x := by
  obtain ⟨t, R⟩ := exists_greal lim ω hn hl
  have hx' := R.isGNF_iff.1 hx
  obtain ⟨w, w1, w2, w3⟩ := R.1.artinWord_spec hx'
  obtain ⟨z, z1, z2, z3⟩ := R.1.fromArtinWord_spec w (fun se hse => (w2 se hse).2)
  refine ⟨w, w1, w2, by rw [w3, R.den_eq], ?_⟩
  rw [z1, R.1.den_inj z2 hx' (by rw [z3, w3])]

example := C14_artin_word (by decide) (by decide) _ gnfA

/-- C14: `from_artin_word` of any word with legal letters and arbitrary integer exponents. -/
theorem C14_from_artin_word (hn : 2 ≤ n) (hl : n < lim) (w : List (Nat × ℤ)) (hw : ∀ se ∈ w, se.1 + 1 < n) :
    ∃ z, NF.fromArtinWord (GNF.tbl lim ω) n w = .ok z ∧ IsGNF lim ω n z ∧ gnfBraid n z = wordBraid n w := by
  obtain ⟨t, R⟩ := exists_greal lim ω hn hl
  obtain ⟨z, z1, z2, z3⟩ := R.1.fromArtinWord_spec w hw
  exact ⟨z, z1, R.isGNF_iff.2 z2, by simpa only [R.den_eq] using z3⟩

example := C14_from_artin_word (n := 3) (lim := 7) (ω := pop0) (by decide) (by decide) [(0, -2), (1, 3)] (by decide)

/-- C14: `magma_artin_word` is the same word, letters counted from 1 and signed. -/
theorem C14_magma (hn : 2 ≤ n) (hl : n < lim) (x : NF) (hx : IsGNF lim ω n x) :
    ∃ m, NF.magmaArtinWord (GNF.tbl lim ω) x = .ok m ∧ (∀ k ∈ m, k ≠ 0 ∧ k.natAbs < n) ∧
      wordBraid n (m.map fun k => (k.natAbs - 1, k.sign)) = gnfBraid n x := by
  obtain ⟨w, w1, w2, w3, -⟩ := C14_artin_word (ω := ω) hn hl x hx
  have hall : w.all (fun se => se.2.natAbs == 1) = true := by
    rw [List.all_eq_true]; intro se hse
    rcases (w2 se hse).1 with h | h <;> simp [h]
  refine ⟨w.map fun se => ((se.1 : Int) + 1) * se.2, ?_, ?_, ?_⟩
  · simp only [NF.magmaArtinWord, w1, bind_ok, hall, pyAssert]; rfl
  · intro k hk
    obtain ⟨se, hse, rfl⟩ := List.mem_map.1 hk
    obtain ⟨h1, h2⟩ := w2 se hse
    rcases h1 with h | h <;> rw [h] <;> omega
  · rw [List.map_map]
    have : w.map ((fun k : ℤ => (k.natAbs - 1, k.sign)) ∘ fun se : Nat × ℤ => ((se.1 : Int) + 1) * se.2) = w := by
      conv_rhs => rw [← List.map_id w]
      apply List.map_congr_left
      intro se hse
      obtain ⟨h1, h2⟩ := w2 se hse
      obtain ⟨s, e⟩ := se
      simp only [Function.comp, id] at h1 ⊢
      rcases h1 with rfl | rfl
      · rw [mul_one, Int.sign_eq_one_of_pos (by omega)]; simp; omega
      · rw [Int.sign_eq_neg_one_of_neg (by omega)]; simp; omega
    rw [this, w3]

example := C14_magma (by decide) (by decide) _ gnfA

/-! ## C15 -/

/-- C15: equal braids are equal objects. -/
theorem C15_unique (hn : 2 ≤ n) (hl : n < lim) (x y : NF) (hx : IsGNF lim ω n x) (hy : IsGNF lim ω n y) :
    x = y ↔ gnfBraid n x = gnfBraid n y := by
  obtain ⟨t, R⟩ := exists_greal lim ω hn hl
  refine ⟨fun h => by rw [h], fun h => R.1.den_inj (R.isGNF_iff.1 hx) (R.isGNF_iff.1 hy) ?_⟩
  rw [R.den_eq, R.den_eq]; exact h

example := C15_unique (by decide) (by decide) _ _ gnfA gnfB

/-- C15: normal forms decide the word problem. -/
theorem C15_word_problem (hn : 2 ≤ n) (hl : n < lim) (u w : List (Nat × ℤ)) (hu : ∀ se ∈ u, se.1 + 1 < n) (hw : ∀ se ∈ w, se.1 + 1 < n) :
    ∃ x y, NF.fromArtinWord (GNF.tbl lim ω) n u = .ok x ∧ NF.fromArtinWord (GNF.tbl lim ω) n w = .ok y ∧
      (x = y ↔ wordBraid n u = wordBraid n w) := by
  obtain ⟨x, x1, x2, x3⟩ := C14_from_artin_word (ω := ω) hn hl u hu
  obtain ⟨y, y1, y2, y3⟩ := C14_from_artin_word (ω := ω) hn hl w hw
  exact ⟨x, y, x1, y1, by rw [C15_unique hn hl x y x2 y2, x3, y3]⟩

example := C15_word_problem (n := 4) (lim := 7) (ω := pop0) (by decide) (by decide) [(0, 1), (2, -1)] [(2, -1), (0, 1)] (by decide) (by decide)

/-- C15: every braid has a normal form. -/
theorem C15_surjective (hn : 2 ≤ n) (hl : n < lim) (b : Braid n) : ∃ x, IsGNF lim ω n x ∧ gnfBraid n x = b := by
  suffices ∃ w : List (Nat × ℤ), (∀ se ∈ w, se.1 + 1 < n) ∧ wordBraid n w = b by
    obtain ⟨w, hw, rfl⟩ := this
    obtain ⟨x, -, x2, x3⟩ := C14_from_artin_word (ω := ω) hn hl w hw
    exact ⟨x, x2, x3⟩
  obtain ⟨z, rfl⟩ := QuotientGroup.mk_surjective b
  induction z using FreeGroup.induction_on with
  | C1 => exact ⟨[], by simp, rfl⟩
  | of i =>
    refine ⟨[(i.1, 1)], by simp; omega, ?_⟩
    simp only [wordBraid, List.map_cons, List.map_nil, List.prod_cons, List.prod_nil, mul_one, zpow_one, sigma_eq i.2]; rfl
  | inv_of i _ =>
    refine ⟨[(i.1, -1)], by simp; omega, ?_⟩
    simp only [wordBraid, List.map_cons, List.map_nil, List.prod_cons, List.prod_nil, mul_one, sigma_eq i.2, zpow_neg, zpow_one]; rfl
  | mul x y hx hy =>
    obtain ⟨u, u1, u2⟩ := hx
    obtain ⟨w, w1, w2⟩ := hy
    refine ⟨u ++ w, ?_, ?_⟩
    · intro se hse; exact (List.mem_append.1 hse).elim (u1 se) (w1 se)
    · rw [wordBraid_append, u2, w2]; rfl

example := C15_surjective (n := 5) (lim := 7) (ω := pop0) (by decide) (by decide) (sigma 5 3 * (sigma 5 0)⁻¹)

/-! ## C16 -/

/-- C16: `all_of_length` lists every normal form with `k` factors and the given power exactly once, and
`count_all_of_length` is their number. -/
theorem C16_all_of_length (hn : 2 ≤ n) (hl : n < lim) (k : Nat) (d : ℤ) :
    ∃ xs, NF.allOfLength (GNF.tbl lim ω) n k d = .ok xs ∧ xs.Nodup ∧
      (∀ x, x ∈ xs ↔ IsGNF lim ω n x ∧ x.power = d ∧ x.factors.length = k) ∧
      NF.countAllOfLength (GNF.tbl lim ω) n k = .ok xs.length := by
  obtain ⟨t, R⟩ := exists_greal lim ω hn hl
  obtain ⟨xs, x1, x2, x3, x4⟩ := R.1.allOfLength_spec k d
  exact ⟨xs, x1, x2, fun x => by rw [x3, R.isGNF_iff], x4⟩

example := C16_all_of_length (n := 4) (lim := 7) (ω := pop0) (by decide) (by decide) 3 (-1)

/-- C16: the same after a given factor: the table's `normal_forms(k, following=last factor of x)` lists exactly the ways
to extend `x` by `k` factors, and `count_normal_forms` counts them. -/
theorem C16_following (hn : 2 ≤ n) (hl : n < lim) (k : Nat) (x : NF) (hx : IsGNF lim ω n x) :
    ∃ t ws, GNF.tbl lim ω n = .ok t ∧ t.normalForms k x.factors.getLast? = .ok ws ∧ ws.Nodup ∧
      t.countNormalForms k x.factors.getLast? = .ok ws.length ∧
      ∀ w, w ∈ ws ↔ w.length = k ∧ IsGNF lim ω n ⟨n, x.power, x.factors ++ w⟩ := by
  obtain ⟨t, R⟩ := exists_greal lim ω hn hl
  obtain ⟨ws, w1, w2, w3, w4⟩ := R.1.suffix_spec (R.isGNF_iff.1 hx) k
  exact ⟨t, ws, R.1.ok, w1, w2, w3, fun w => by rw [w4, R.isGNF_iff]⟩

example := C16_following (by decide) (by decide) 2 _ gnfA

/-! ## C17 -/

/-- C17: whatever the random choices, `sample` returns a normal form of the requested length; and every such normal form
is the outcome of some choices. -/
theorem C17_sample (hn : 3 ≤ n) (hl : n < lim) (k : Nat) :
    (∀ rand : Nat → Nat, ∃ x, NF.sample (GNF.tbl lim ω) rand n k = .ok x ∧ IsGNF lim ω n x ∧ x.power = 0 ∧ x.factors.length = k) ∧
    ∀ x, IsGNF lim ω n x → x.power = 0 → x.factors.length = k → ∃ rand, NF.sample (GNF.tbl lim ω) rand n k = .ok x := by
  obtain ⟨t, R⟩ := exists_greal lim ω (by omega : 2 ≤ n) hl
  have hD : ∀ s, (permGerm n).atom s → s ≠ (permGerm n).D := by
    rintro s ⟨i, hi, rfl⟩ e
    exact sg_ne_w0 hn hi e
  have := R.1.sample_spec hD ⟨sg n 0, permGerm_atom (by omega), permGerm_P _⟩ k
  constructor
  · intro rand
    obtain ⟨x, x1, x2, x3, x4⟩ := this.1 rand
    exact ⟨x, x1, R.isGNF_iff.2 x2, x3, x4⟩
  · intro x hx h1 h2
    exact this.2 x (R.isGNF_iff.1 hx) h1 h2

example := C17_sample (n := 4) (lim := 7) (ω := pop0) (by decide) (by decide) 10

/-! ## C18 -/

/-- C18: `nf_descendants` yields exactly the one-factor extensions, each once. -/
theorem C18_descendants (hn : 2 ≤ n) (hl : n < lim) (x : NF) (hx : IsGNF lim ω n x) :
    ∃ xs, NF.nfDescendants (GNF.tbl lim ω) x = .ok xs ∧ xs.Nodup ∧
      ∀ y, y ∈ xs ↔ IsGNF lim ω n y ∧ y.power = x.power ∧ ∃ f, y.factors = x.factors ++ [f] := by
  obtain ⟨t, R⟩ := exists_greal lim ω hn hl
  obtain ⟨xs, x1, x2, x3⟩ := R.1.nfDescendants_spec (R.isGNF_iff.1 hx)
  exact ⟨xs, x1, x2, fun y => by rw [x3, R.isGNF_iff]⟩

example := C18_descendants (by decide) (by decide) _ gnfA

/-- C18: for `x` with Δ-power 0, `nf_suffixes(k)` yields exactly the `y` with `k` factors and Δ-power 0 for which the factors
of `x * y` are those of `x` followed by those of `y`. -/
theorem C18_suffixes (hn : 2 ≤ n) (hl : n < lim) (x : NF) (hx : IsGNF lim ω n x) (hp : x.power = 0) (k : Nat) :
    ∃ ys, NF.nfSuffixes (GNF.tbl lim ω) x k = .ok ys ∧ ys.Nodup ∧
      ∀ y, y ∈ ys ↔ IsGNF lim ω n y ∧ y.power = 0 ∧ y.factors.length = k ∧
        ∃ z, NF.mul (GNF.tbl lim ω) x y = .ok z ∧ z.power = 0 ∧ z.factors = x.factors ++ y.factors := by
  obtain ⟨t, R⟩ := exists_greal lim ω hn hl
  have hx' := R.isGNF_iff.1 hx
  obtain ⟨ys, y1, y2, y3⟩ := R.1.nfSuffixes_spec hx' k
  refine ⟨ys, y1, y2, fun y => ?_⟩
  rw [y3, R.isGNF_iff, hp]
  constructor
  · rintro ⟨h1, h2, h3, h4⟩
    refine ⟨h1, h2, h3, _, (R.1.mul_concat_iff hx' h1 h2).2 (by rw [hp]; exact h4), hp, rfl⟩
  · rintro ⟨h1, h2, h3, z, z1, z2, z3⟩
    refine ⟨h1, h2, h3, ?_⟩
    obtain ⟨z', w1, w2, -⟩ := R.1.mul_spec hx' h1
    rw [z1] at w1; simp only [Except.ok.injEq] at w1; subst w1
    have hz : (⟨n, 0, x.factors ++ y.factors⟩ : NF) = z := by
      have := w2.n_eq; cases z; simp_all
    rw [hz]; exact w2

example := C18_suffixes (by decide) (by decide) _ gnfC rfl 3

/-! ## C19 -/

/-- C19: `positive_lift` of any permutation. -/
theorem C19_positive_lift (hn : 2 ≤ n) (hl : n < lim) (w : List Nat) (hw : IsPermWord w) (hlen : w.length = n) :
    ∃ (π : Perm (Fin n)) (x : NF), w = wordOf π ∧ BraidGroup.positiveLift lim ω n w = .ok x ∧ IsGNF lim ω n x ∧
      gnfBraid n x = lift π := by
  obtain ⟨π, rfl⟩ := exists_wordOf hw hlen
  obtain ⟨x, h1, h2, h3⟩ := positiveLift_spec (ω := ω) hn hl π
  exact ⟨π, x, rfl, h1, h2, h3⟩

example := C19_positive_lift (n := 4) (lim := 7) (ω := pop0) (by decide) (by decide) [2, 0, 3, 1] (by decide) rfl

/-- C19: rebuilding a braid from its infimum and the words of its canonical factors gives the braid back. -/
theorem C19_roundtrip (hn : 2 ≤ n) (hl : n < lim) (x : NF) (hx : IsGNF lim ω n x) :
    ∃ ws, NF.canonicalFactors (GNF.tbl lim ω) x = .ok ws ∧ (∀ w ∈ ws, IsPermWord w ∧ w.length = n) ∧
      BraidGroup.fromGnfPair lim ω n (NF.inf x) ws = .ok x := by
  obtain ⟨t, R⟩ := exists_greal lim ω hn hl
  have hx' := R.isGNF_iff.1 hx
  have h1 := hx'.inR
  have hcf : ∀ fs : List Nat, TableSpec.InR t fs → fs.mapM (lookup t.divs) = .ok (fs.map fun f => wordOf (permAt n f)) := by
    intro fs
    induction fs with
    | nil => intro _; rfl
    | cons f fs ih =>
      intro h
      simp only [TableSpec.InR_cons, R.2.1] at h
      rw [← elements_length] at h
      rw [List.mapM_cons, ih h.2, R.2.2.1, lookup_lt h.1, bind_ok, permAt_spec h.1]; rfl
  refine ⟨x.factors.map fun f => wordOf (permAt n f), ?_, ?_, ?_⟩
  · unfold NF.canonicalFactors
    rw [hx'.n_eq, R.1.ok, bind_ok]; exact hcf _ h1
  · intro w hw; obtain ⟨f, -, rfl⟩ := List.mem_map.1 hw
    exact ⟨isPermWord_wordOf _, length_wordOf _⟩
  · have fold : ∀ (fs : List Nat) (acc : NF), IsGNF lim ω n acc → ∃ r,
        (fs.map fun f => wordOf (permAt n f)).foldlM (init := acc) (fun acc w => do
          let x ← BraidGroup.positiveLift lim ω n w
          NF.mul (GNF.tbl lim ω) acc x) = .ok r ∧ IsGNF lim ω n r ∧
          gnfBraid n r = gnfBraid n acc * (fs.map fun f => lift (permAt n f)).prod := by
      intro fs
      induction fs with
      | nil => intro acc h; exact ⟨acc, rfl, h, by simp⟩
      | cons f fs ih =>
        intro acc h
        obtain ⟨p, p1, p2, p3⟩ := positiveLift_spec (ω := ω) hn hl (permAt n f)
        obtain ⟨q, q1, q2, q3⟩ := C11_mul hn hl acc p h p2
        obtain ⟨r, r1, r2, r3⟩ := ih q q2
        refine ⟨r, ?_, r2, ?_⟩
        · rw [List.map_cons, List.foldlM_cons, p1, bind_ok, q1, bind_ok]; exact r1
        · rw [r3, q3, p3, List.map_cons, List.prod_cons, mul_assoc]
    have he := R.1.make_ok (d := 0) (fs := []) (by simp) (by simpa using Germ.canon_nil 0)
    have hd := R.1.make_ok (d := NF.inf x) (fs := []) (by simp) (by simpa using Germ.canon_nil _)
    obtain ⟨r, r1, r2, r3⟩ := fold x.factors ⟨n, 0, []⟩ (R.isGNF_iff.2 he.2)
    obtain ⟨q, q1, q2, q3⟩ := C11_mul hn hl _ r (R.isGNF_iff.2 hd.2) r2
    have : q = x := by
      rw [C15_unique hn hl q x q2 hx, q3, r3]
      simp [gnfBraid, NF.inf]
    unfold BraidGroup.fromGnfPair BraidGroup.id
    rw [hd.1, bind_ok]
    simp only [pyAssert, decide_eq_true (by omega : 1 ≤ n), if_true, bind_ok]
    rw [he.1, bind_ok, r1, bind_ok, q1, this]

example := C19_roundtrip (by decide) (by decide) _ gnfA

/-! ## C20 -/

/-- C20: `inf` is the largest `k` with `Δ^-k x` positive, `sup` the smallest `k` with `x⁻¹ Δ^k` positive, and the canonical
length is their difference. -/
theorem C20_inf_sup (hn : 2 ≤ n) (hl : n < lim) (x : NF) (hx : IsGNF lim ω n x) :
    (∀ k : ℤ, IsPositive (halfTwist n ^ (-k) * gnfBraid n x) ↔ k ≤ NF.inf x) ∧
    (∀ k : ℤ, IsPositive ((gnfBraid n x)⁻¹ * halfTwist n ^ k) ↔ NF.sup x ≤ k) ∧
    (NF.canonicalLength x : ℤ) = NF.sup x - NF.inf x := by
  obtain ⟨t, R⟩ := exists_greal lim ω hn hl
  have hx' := R.isGNF_iff.1 hx
  have h1 := R.1.inf_spec hx'
  have h2 := R.1.sup_spec hx'
  simp only [R.den_eq, gpos_iff] at h1 h2
  exact ⟨h1, h2, by simp [NF.canonicalLength, NF.sup, NF.inf]⟩

example := C20_inf_sup (by decide) (by decide) _ gnfA

/-- C20: inversion exchanges infimum and supremum. -/
theorem C20_inv (hn : 2 ≤ n) (hl : n < lim) (x : NF) (hx : IsGNF lim ω n x) :
    ∃ z, NF.invert (GNF.tbl lim ω) x = .ok z ∧ NF.inf z = - NF.sup x ∧ NF.canonicalLength z = NF.canonicalLength x := by
  obtain ⟨t, R⟩ := exists_greal lim ω hn hl
  have hx' := R.isGNF_iff.1 hx
  obtain ⟨z, z1, z2, z3⟩ := R.1.inv_spec hx'
  exact ⟨z, z1, R.1.inv_data hx' z2 z3⟩

example := C20_inv (by decide) (by decide) _ gnfA

/-! ## C21 -/

/-- C21: the constructor accepts a list of indices in range iff every factor is proper and adjacent pairs are
left-weighted; otherwise it raises AssertionError. -/
theorem C21_constructor (hn : 2 ≤ n) (hl : n < lim) (d : ℤ) (fs : List Nat) (h : ∀ f ∈ fs, f < n.factorial) :
    NF.make (GNF.tbl lim ω) n d fs =
      open Classical in
      if (∀ f ∈ fs, permAt n f ≠ 1 ∧ permAt n f ≠ w0 n) ∧ (fs.map (permAt n)).IsChain LeftWeighted
      then .ok ⟨n, d, fs⟩ else .error .assertion := by
  obtain ⟨t, R⟩ := exists_greal lim ω hn hl
  have hin : TableSpec.InR t fs := fun f hf => by rw [R.2.1]; exact h f hf
  obtain ⟨b, hb, hb'⟩ := R.1.spec.isFactorsNormalised_spec d hin
  have hc : (permGerm n).Canon (d, fs.map (permAt n)) ↔
      ((∀ f ∈ fs, permAt n f ≠ 1 ∧ permAt n f ≠ w0 n) ∧ (fs.map (permAt n)).IsChain LeftWeighted) := by
    have hch : (permGerm n).Nrm (fs.map (permAt n)) ↔ (fs.map (permAt n)).IsChain LeftWeighted := by
      unfold Germ.Nrm
      have : (permGerm n).PairN = LeftWeighted := by funext x y; exact propext (pairN_perm x y)
      rw [this]
    constructor
    · intro c
      refine ⟨fun f hf => ?_, hch.1 c.nrm⟩
      have := c.proper _ (List.mem_map_of_mem hf); exact ⟨this.2, this.1⟩
    · rintro ⟨h1, h2⟩
      refine Germ.canon_of_proper (fun x _ => permGerm_P x) (hch.2 h2) ?_
      intro x hx; obtain ⟨f, hf, rfl⟩ := List.mem_map.1 hx
      exact ⟨(h1 f hf).2, (h1 f hf).1⟩
  simp only [NF.make, R.1.ok, bind_ok, hb]
  cases b with
  | true => rw [if_pos (hc.1 (hb'.1 rfl))]; rfl
  | false => rw [if_neg (fun hh => by simpa using hb'.2 (hc.2 hh))]; rfl

example := C21_constructor (n := 3) (lim := 7) (ω := pop0) (by decide) (by decide) 2 [1, 2, 5] (by decide)

/-- C21: the constructor does not check the range of a single factor: `GNF(n, d, (f,))` is accepted for every index
`f ≥ n!`, although it denotes no permutation. -/
theorem C21_out_of_range_accepted (hn : 2 ≤ n) (hl : n < lim) (d : ℤ) (f : Nat) (hf : n.factorial ≤ f) :
    NF.make (GNF.tbl lim ω) n d [f] = .ok ⟨n, d, [f]⟩ := by
  obtain ⟨t, R⟩ := exists_greal lim ω hn hl
  have h1 := R.1.spec.D_lt
  have h2 := R.1.spec.id_lt
  rw [R.2.1] at h1 h2
  have : t.isFactorsNormalised [f] = .ok true := by
    simp only [NFTable.isFactorsNormalised, NFTable.pairsNormalised, bind_ok, if_true]
    have e1 : f ≠ t.D := by omega
    have e2 : f ≠ t.id := by omega
    simp [e1, e2]
  simp only [NF.make, R.1.ok, bind_ok, this, pyAssert]; rfl

example := C21_out_of_range_accepted (n := 3) (lim := 7) (ω := pop0) (by decide) (by decide) 2 9 (by decide)

/-- C21: the size guard. -/
theorem C21_size_guard (h : lim ≤ n) (d : ℤ) (fs : List Nat) : NF.make (GNF.tbl lim ω) n d fs = .error .value := by
  have : GNF.tbl lim ω n = .error .value := by show PermTable.create lim ω n = _; rw [PermTable.create, if_pos h]
  rw [NF.make, this]; rfl

example := C21_size_guard (n := 8) (lim := 7) (ω := pop0) (by decide) 0 [3]

/-! ## C22 -/

/-- C22: `BraidGroup(n).gens()` for `n ≥ 3`: `n - 1` objects denoting the Artin generators, which satisfy the braid relations
as objects; `BraidGroup(n).invs()` are their inverses. -/
theorem C22_gens (hn : 3 ≤ n) (hl : n < lim) :
    ∃ gs is, BraidGroup.gens lim ω n = .ok gs ∧ BraidGroup.invs lim ω n = .ok is ∧ gs.length = n - 1 ∧ is.length = n - 1 ∧
      (∀ i (h : i < gs.length), IsGNF lim ω n gs[i] ∧ gnfBraid n gs[i] = sigma n i) ∧
      (∀ i (h : i < is.length), IsGNF lim ω n is[i] ∧ gnfBraid n is[i] = (sigma n i)⁻¹) ∧
      (∀ i j (hi : i < gs.length) (hj : j < gs.length), i + 2 ≤ j →
        NF.mul (GNF.tbl lim ω) gs[i] gs[j] = NF.mul (GNF.tbl lim ω) gs[j] gs[i]) ∧
      (∀ i (hi : i + 1 < gs.length),
        (do NF.mul (GNF.tbl lim ω) (← NF.mul (GNF.tbl lim ω) gs[i] gs[i + 1]) gs[i]) =
        (do NF.mul (GNF.tbl lim ω) (← NF.mul (GNF.tbl lim ω) gs[i + 1] gs[i]) gs[i + 1])) := by
  have hn2 : 2 ≤ n := by omega
  obtain ⟨t, R⟩ := exists_greal lim ω hn2 hl
  have gen : ∀ i, i + 1 < n → ∃ x, (do
      let f ← lookup t.artinGens i
      NF.make (GNF.tbl lim ω) n 0 [f]) = .ok x ∧ IsGNF lim ω n x ∧ gnfBraid n x = sigma n i := by
    intro i hi
    obtain ⟨j, j1, j2, j3⟩ := R.2.2.2 i hi
    have h := R.1.make_ok (d := 0) (fs := [j]) (by simpa [TableSpec.InR, R.2.1] using j1) (by
      apply Germ.canon_of_proper
      · intro x _; exact permGerm_P x
      · simp [Germ.Nrm]
      · simp only [List.map_cons, List.map_nil, List.mem_singleton, forall_eq, j3]; exact ⟨sg_ne_w0 hn hi, sg_ne_one hi⟩)
    exact ⟨_, by rw [j2, bind_ok]; exact h.1, R.isGNF_iff.2 h.2, by simp [gnfBraid, j3, lift_sg hi]⟩
  obtain ⟨gs, g1, g2, g3⟩ := mapM_ok (fun i => (do
      let f ← lookup t.artinGens i
      NF.make (GNF.tbl lim ω) n 0 [f])) (List.range (n - 1)) (by
    intro i hi; obtain ⟨x, hx, -⟩ := gen i (by have := List.mem_range.1 hi; omega); exact ⟨x, hx⟩)
  rw [List.length_range] at g2
  have hg : ∀ i (h : i < gs.length), IsGNF lim ω n gs[i] ∧ gnfBraid n gs[i] = sigma n i := by
    intro i h
    have e := g3 i (by simpa [← g2] using h) h
    obtain ⟨x, x1, x2, x3⟩ := gen i (by omega)
    rw [List.getElem_range, x1, Except.ok.injEq] at e
    rw [← e]; exact ⟨x2, x3⟩
  obtain ⟨is, i1, i2, i3⟩ := mapM_ok (NF.invert (GNF.tbl lim ω)) gs (by
    intro x hx; obtain ⟨i, hi, rfl⟩ := List.getElem_of_mem hx
    obtain ⟨z, -, hz, -⟩ := C12_inv hn2 hl gs[i] (hg i hi).1; exact ⟨z, hz⟩)
  have hgens : BraidGroup.gens lim ω n = .ok gs := by
    unfold BraidGroup.gens
    simp only [pyAssert, decide_eq_true (by omega : 1 ≤ n), if_true, bind_ok, R.1.ok]; exact g1
  refine ⟨gs, is, hgens, ?_, g2, by omega, hg, ?_, ?_, ?_⟩
  · unfold BraidGroup.invs; rw [hgens, bind_ok]; exact i1
  · intro i h
    have e := i3 i (by omega) h
    obtain ⟨z, -, z1, z2, z3, -⟩ := C12_inv hn2 hl gs[i] (hg i (by omega)).1
    rw [z1, Except.ok.injEq] at e
    rw [← e]; exact ⟨z2, by rw [z3, (hg i (by omega)).2]⟩
  · intro i j hi hj hij
    obtain ⟨x, x1, x2, x3⟩ := C11_mul hn2 hl _ _ (hg i hi).1 (hg j hj).1
    obtain ⟨y, y1, y2, y3⟩ := C11_mul hn2 hl _ _ (hg j hj).1 (hg i hi).1
    rw [x1, y1, (C15_unique hn2 hl x y x2 y2).2]
    rw [x3, y3, (hg i hi).2, (hg j hj).2, sigma_comm i j (by omega) hij]
  · intro i hi
    have hi' : i < gs.length := by omega
    obtain ⟨x, x1, x2, x3⟩ := C11_mul hn2 hl _ _ (hg i hi').1 (hg (i + 1) hi).1
    obtain ⟨y, y1, y2, y3⟩ := C11_mul hn2 hl _ _ x2 (hg i hi').1
    obtain ⟨z, z1, z2, z3⟩ := C11_mul hn2 hl _ _ (hg (i + 1) hi).1 (hg i hi').1
    obtain ⟨w, w1, w2, w3⟩ := C11_mul hn2 hl _ _ z2 (hg (i + 1) hi).1
    rw [x1, z1, bind_ok, bind_ok, y1, w1, (C15_unique hn2 hl y w y2 w2).2]
    rw [y3, w3, x3, z3, (hg i hi').2, (hg (i + 1) hi).2, sigma_braid i (by omega)]

example := C22_gens (n := 5) (lim := 7) (ω := pop0) (by decide) (by decide)

/-- C22: on two strands `σ_0 = Δ`, whose index the constructor rejects: `BraidGroup(2).gens()` raises AssertionError.  (On one
strand there are no generators.) -/
theorem C22_gens_two_strands (hl : 2 < lim) : BraidGroup.gens lim ω 2 = .error .assertion ∧ BraidGroup.gens lim ω 1 = .ok [] := by
  constructor
  · obtain ⟨t, R⟩ := exists_greal (n := 2) lim ω le_rfl hl
    obtain ⟨j, j1, j2, j3⟩ := R.2.2.2 0 (by decide)
    have hD : sg 2 0 = w0 2 := by decide
    have := C21_constructor (ω := ω) (n := 2) le_rfl hl 0 [j] (by simpa using j1)
    rw [if_neg (fun h => (h.1 j (by simp)).2 (j3.trans hD))] at this
    unfold BraidGroup.gens
    simp only [pyAssert, R.1.ok, bind_ok]
    rw [show List.range (2 - 1) = [0] from rfl, List.mapM_cons, j2, bind_ok, this]; rfl
  · have hb : ∃ t, PermTable.build ω 1 = .ok t := by
      rw [C09_pop_independent 1 ω (fun _ _ _ => 0)]
      exact ⟨_, rfl⟩
    obtain ⟨t, ht⟩ := hb
    have : GNF.tbl lim ω 1 = .ok t := by
      show PermTable.create lim ω 1 = _
      rw [PermTable.create, if_neg (by omega), ht]
    unfold BraidGroup.gens
    rw [this]; rfl

/-! ## C23 -/

/-- C23: `x * Δ = Δ * τ(x)`, where `τ` conjugates every factor by the longest element, and `Δ²` is central. -/
theorem C23_conjugation (hn : 2 ≤ n) (hl : n < lim) (x : NF) (hx : IsGNF lim ω n x) :
    ∃ fs, IsGNF lim ω n ⟨n, x.power, fs⟩ ∧ fs.map (permAt n) = x.factors.map (fun f => w0 n * permAt n f * w0 n) ∧
      NF.mul (GNF.tbl lim ω) x ⟨n, 1, []⟩ = .ok ⟨n, x.power + 1, fs⟩ ∧
      NF.mul (GNF.tbl lim ω) ⟨n, 1, []⟩ ⟨n, x.power, fs⟩ = .ok ⟨n, x.power + 1, fs⟩ ∧
      NF.mul (GNF.tbl lim ω) x ⟨n, 2, []⟩ = .ok ⟨n, x.power + 2, x.factors⟩ ∧
      NF.mul (GNF.tbl lim ω) ⟨n, 2, []⟩ x = .ok ⟨n, x.power + 2, x.factors⟩ := by
  obtain ⟨t, R⟩ := exists_greal lim ω hn hl
  have hx' := R.isGNF_iff.1 hx
  have h2 : t.tauOrder = 2 := by
    have := R.1.ok
    have hb : PermTable.build ω n = .ok t := by
      rw [← this]; show _ = PermTable.create lim ω n; rw [PermTable.create, if_neg (by omega)]
    unfold PermTable.build at hb
    simp only [bind, Except.bind] at hb
    repeat' split at hb
    all_goals first | (simp only [Except.ok.injEq] at hb; rw [← hb]) | simp at hb
  obtain ⟨fs, f1, f2, f3⟩ := R.1.conj_list (k := 1) (by omega) hx'.inR
  have cx := R.1.canon hx'
  have ctau : (permGerm n).Canon (x.power, fs.map (permAt n)) := by rw [f3]; exact canon_tau_iter 1 cx
  have hv := R.1.make_ok f2 ctau
  have ctau1 : (permGerm n).Canon (x.power + 1, fs.map (permAt n)) := ⟨ctau.allP, ctau.nrm, ctau.head, ctau.last⟩
  have hv1 := R.1.make_ok f2 ctau1
  have cx2 : (permGerm n).Canon (x.power + 2, x.factors.map (permAt n)) := ⟨cx.allP, cx.nrm, cx.head, cx.last⟩
  have hv2 := R.1.make_ok hx'.inR cx2
  have hd1 := R.1.make_ok (d := 1) (fs := []) (by simp) (by simpa using Germ.canon_nil 1)
  have hd2 := R.1.make_ok (d := 2) (fs := []) (by simp) (by simpa using Germ.canon_nil 2)
  have conj := R.1.conj_prod 1 (x.factors.map (permAt n)) cx.allP
  rw [h2] at conj
  have e1 : ((1 : ℤ) % ((2 : ℕ) : ℤ)).toNat = 1 := by decide
  rw [e1, ← f3] at conj
  have conj2 := R.1.conj_prod 2 (x.factors.map (permAt n)) cx.allP
  rw [h2] at conj2
  have e2 : ((2 : ℤ) % ((2 : ℕ) : ℤ)).toNat = 0 := by decide
  rw [e2] at conj2
  simp only [Function.iterate_zero, List.map_id] at conj2
  have hmul : ∀ {a b c : NF}, Valid t n a → Valid t n b → Valid t n c →
      den (permGerm n) (permAt n) lift c = den (permGerm n) (permAt n) lift a * den (permGerm n) (permAt n) lift b →
      NF.mul (GNF.tbl lim ω) a b = .ok c := by
    intro a b c ha hb hc h
    obtain ⟨z, z1, z2, z3⟩ := R.1.mul_spec ha hb
    rw [z1, R.1.den_inj z2 hc (by rw [z3, h])]
  refine ⟨fs, R.isGNF_iff.2 hv.2, ?_, hmul hx' hd1.2 hv1.2 ?_, hmul hd1.2 hv.2 hv1.2 ?_, hmul hx' hd2.2 hv2.2 ?_, hmul hd2.2 hx' hv2.2 ?_⟩
  · rw [f3, List.map_map]
    apply List.map_congr_left
    intro f _
    show (w0 n)⁻¹ * _ * w0 n = _
    rw [w0_inv]
  · unfold den Germ.val
    simp only [List.map_nil, List.prod_nil, mul_one]
    rw [mul_assoc, conj, zpow_add, mul_assoc]
  · unfold den Germ.val
    simp only [List.map_nil, List.prod_nil, mul_one]
    rw [← mul_assoc, ← zpow_add, add_comm]
  · unfold den Germ.val
    simp only [List.map_nil, List.prod_nil, mul_one]
    rw [mul_assoc, conj2, zpow_add, mul_assoc]
  · unfold den Germ.val
    simp only [List.map_nil, List.prod_nil, mul_one]
    rw [← mul_assoc, ← zpow_add, add_comm]

example := C23_conjugation (by decide) (by decide) _ gnfA

/-! ## Concrete instances -/

/-- A product with cancellation (two powers of `Δ` are extracted), an inverse, a power, a word and a count. -/
example : NF.mul (GNF.tbl 7 (fun _ _ _ => 0)) ⟨3, -2, [3, 4, 2]⟩ ⟨3, 1, [3, 1]⟩ = .ok ⟨3, 1, [4]⟩ ∧
    NF.invert (GNF.tbl 7 (fun _ _ _ => 0)) ⟨3, 1, [4]⟩ = .ok ⟨3, -2, [1]⟩ ∧
    NF.pow (GNF.tbl 7 (fun _ _ _ => 0)) ⟨3, 1, [4]⟩ (-2) = .ok ⟨3, -4, [1, 1]⟩ ∧
    NF.artinWord (GNF.tbl 7 (fun _ _ _ => 0)) ⟨3, -1, [4]⟩ = .ok [(0, -1), (1, -1), (0, -1), (1, 1), (0, 1)] ∧
    NF.fromArtinWord (GNF.tbl 7 (fun _ _ _ => 0)) 3 [(0, -2), (1, 3)] = .ok ⟨3, -2, [4, 3, 1, 1, 1]⟩ ∧
    NF.countAllOfLength (GNF.tbl 7 (fun _ _ _ => 0)) 3 3 = .ok 16 := by decide +kernel

end Peyl
