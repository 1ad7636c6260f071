import Verif.Lemmas.CountGrowth
import Verif.Props.DGNF
import Verif.Props.BucketStats
/-!
# How many braids of each canonical length there are (C144)
-/
namespace Peyl
open TableSpec
variable {lim lim' : Nat}

section gnf
variable {n : Nat} {ω ω' : List Nat → List Nat → Nat → Nat}

theorem gnf_count {t : NFTable (List Nat)} (R : GReal lim ω n t) (k : Nat) : NF.countAllOfLength (GNF.tbl lim ω) n k = .ok (cnt t k t.D) := by
  rw [NF.countAllOfLength, R.1.ok, bind_ok, R.1.spec.count_eq]

/-- C144: the count depends on nothing but the number of strands and the length (not on the table limit, nor on the order in which
sets are traversed while the table is built). -/
theorem C144_independent (hn : 2 ≤ n) (hl : n < lim) (hl' : n < lim') (k : Nat) :
    NF.countAllOfLength (GNF.tbl lim ω) n k = NF.countAllOfLength (GNF.tbl lim' ω') n k := by
  obtain ⟨t, R⟩ := exists_greal lim ω hn hl
  obtain ⟨t', R'⟩ := exists_greal lim' ω' hn hl'
  have ho : t.order = t'.order := R.2.1.trans R'.2.1.symm
  rw [gnf_count R, gnf_count R', cnt_congr R.1.spec R'.1.spec ho k _ R.1.spec.D_lt, D_congr R.1.spec R'.1.spec ho]

example := C144_independent (n := 4) (lim := 5) (lim' := 7) (ω := pop0) (ω' := fun _ _ _ => 1) (by decide) (by decide) (by decide) 9

/-- C144: there is one braid of canonical length 0 (up to powers of `Δ`), there are `n! - 2` of length 1, and at most as many braids
of length `j + k` as there are pairs of braids of the lengths `j` and `k`. -/
theorem C144_growth (hn : 2 ≤ n) (hl : n < lim) : ∃ c : Nat → Nat, (∀ k, NF.countAllOfLength (GNF.tbl lim ω) n k = .ok (c k)) ∧
    c 0 = 1 ∧ c 1 = n.factorial - 2 ∧ ∀ j k, c (j + k) ≤ c j * c k := by
  obtain ⟨t, R⟩ := exists_greal lim ω hn hl
  exact ⟨fun k => cnt t k t.D, gnf_count R, cnt_zero _ _, by rw [← R.2.1]; exact R.1.spec.cnt_one, fun j k => R.1.spec.cnt_add_le j k _ R.1.spec.D_lt⟩

example := C144_growth (n := 5) (lim := 7) (ω := pop0) (by decide) (by decide)

/-- C144: from three strands on, the count at least doubles with every factor. -/
theorem C144_doubles (hn : 3 ≤ n) (hl : n < lim) : ∃ c : Nat → Nat, (∀ k, NF.countAllOfLength (GNF.tbl lim ω) n k = .ok (c k)) ∧
    (∀ k, 2 * c k ≤ c (k + 1)) ∧ ∀ k, 2 ^ k ≤ c k := by
  obtain ⟨t, R⟩ := exists_greal lim ω (by omega : 2 ≤ n) hl
  have S := R.1.spec
  have hne : t.D ≠ t.id := fun e => S.D_ne (by rw [← S.v_D, e, S.v_id])
  have h2 : ∀ k, 2 * cnt t k t.D ≤ cnt t (k + 1) t.D := fun k => S.cnt_double (fun f hf hfid => by
    obtain ⟨y, z, hyz, ⟨y1, y2, y3⟩, z1, z2, z3⟩ := two_followers hn (x := permAt n f) fun e => hfid ((S.id_eq hf).2 e)
    obtain ⟨i, hi, rfl⟩ := S.surj y (permGerm_P y)
    obtain ⟨j, hj, rfl⟩ := S.surj z (permGerm_P z)
    exact ⟨i, j, hi, hj, fun e => hyz (by rw [e]), ⟨GReal.nrm_pair.2 y1, fun e => y2 ((S.id_eq hi).1 e), fun e => y3 ((S.D_eq hi).1 e)⟩,
      GReal.nrm_pair.2 z1, fun e => z2 ((S.id_eq hj).1 e), fun e => z3 ((S.D_eq hj).1 e)⟩) k t.D S.D_lt hne
  refine ⟨fun k => cnt t k t.D, gnf_count R, h2, fun k => ?_⟩
  induction k with
  | zero => exact (cnt_zero t _).ge
  | succ k ih => have := h2 k; rw [pow_succ]; dsimp only at *; omega

example := C144_doubles (n := 5) (lim := 7) (ω := pop0) (by decide) (by decide)

/-- The braids on `n` strands between `Δ^d` and `Δ^(d+k)`, and not between powers closer to each other. -/
def garsideShell (n : Nat) (d : ℤ) (k : Nat) : Set (Braid n) := {b | (IsPositive (halfTwist n ^ (-d) * b) ∧ ¬ IsPositive (halfTwist n ^ (-(d + 1)) * b)) ∧
  IsPositive (b⁻¹ * halfTwist n ^ (d + k)) ∧ ¬ IsPositive (b⁻¹ * halfTwist n ^ (d + k - 1))}

/-- C144: the count is the number of elements of the braid group with infimum `d` and supremum `d + k`, for every `d`. -/
theorem C144_braids (hn : 2 ≤ n) (hl : n < lim) (d : ℤ) (k : Nat) : (garsideShell n d k).Finite ∧
    NF.countAllOfLength (GNF.tbl lim ω) n k = .ok (garsideShell n d k).ncard := by
  classical
  obtain ⟨xs, -, x2, x3, x4⟩ := C16_all_of_length (ω := ω) hn hl k d
  have e : garsideShell n d k = ((xs.map (gnfBraid n)).toFinset : Finset (Braid n)) := by
    ext b
    simp only [garsideShell, Set.mem_setOf_eq, List.coe_toFinset, List.mem_map]
    obtain ⟨x, hx, rfl⟩ := C15_surjective (ω := ω) hn hl b
    obtain ⟨i1, i2, -⟩ := C20_inf_sup hn hl x hx
    rw [i1, i1, i2, i2, NF.inf, NF.sup]
    constructor
    · rintro ⟨h1, h2⟩
      exact ⟨x, (x3 x).2 ⟨hx, by omega, by omega⟩, rfl⟩
    · rintro ⟨y, hy, h⟩
      obtain ⟨y1, y2, y3⟩ := (x3 y).1 hy
      obtain rfl := (C15_unique hn hl y x y1 hx).2 h
      omega
  have hnd : (xs.map (gnfBraid n)).Nodup := x2.map_on fun x hx y hy h => (C15_unique hn hl x y ((x3 x).1 hx).1 ((x3 y).1 hy).1).2 h
  rw [e]
  refine ⟨Finset.finite_toSet _, ?_⟩
  rw [x4, Set.ncard_coe_finset, List.toFinset_card_of_nodup hnd, List.length_map]

example := C144_braids (n := 4) (lim := 7) (ω := pop0) (by decide) (by decide) (-3) 54

/-- A check of a recurrence at the start, for all proper factors of the table with limit `n + 1` in which sets are traversed in order. -/
def recCheck (n : Nat) (a b : List (Nat × Nat)) : Prop := match GNF.tbl (n + 1) (fun _ _ _ => 0) n with
  | .ok t => ∀ f, f < t.order → f ≠ t.id → f ≠ t.D → (a.map fun ci => ci.1 * cnt t ci.2 f).sum = (b.map fun ci => ci.1 * cnt t ci.2 f).sum
  | .error _ => False

noncomputable instance (n : Nat) (a b : List (Nat × Nat)) : Decidable (recCheck n a b) := by
  unfold recCheck
  split <;> infer_instance

theorem gnf_rec (hn : 2 ≤ n) (hl : n < lim) {a b : List (Nat × Nat)} (h : recCheck n a b) : ∃ c : Nat → Nat,
    (∀ k, NF.countAllOfLength (GNF.tbl lim ω) n k = .ok (c k)) ∧ ∀ k, (a.map fun ci => ci.1 * c (k + 1 + ci.2)).sum = (b.map fun ci => ci.1 * c (k + 1 + ci.2)).sum := by
  obtain ⟨t, R⟩ := exists_greal (n + 1) (fun _ _ _ => 0) hn (Nat.lt_succ_self n)
  refine ⟨fun k => cnt t k t.D, fun k => (C144_independent hn hl (Nat.lt_succ_self n) k).trans (gnf_count R k), fun k => ?_⟩
  rw [recCheck, R.1.ok] at h
  exact (R.1.spec.cnt_rec a b h k).2

theorem rec_three : recCheck 3 [(1, 1)] [(2, 0)] := by decide +kernel
theorem rec_four : recCheck 4 [(1, 3), (15, 1)] [(8, 2), (6, 0)] := by decide +kernel
attribute [irreducible] recCheck

/-- C144: on two strands every braid is a power of `Δ`. -/
theorem C144_two (hl : 2 < lim) (k : Nat) : NF.countAllOfLength (GNF.tbl lim ω) 2 (k + 1) = .ok 0 := by
  obtain ⟨c, c1, -, c3, c4⟩ := C144_growth (ω := ω) le_rfl hl
  have := c4 1 k
  rw [c3, show Nat.factorial 2 - 2 = 0 from rfl, Nat.zero_mul, Nat.add_comm] at this
  rw [c1, Nat.le_zero.1 this]

example := C144_two (lim := 7) (ω := pop0) (by decide) 5

/-- C144: on three strands there are `2^(k+1)` braids of canonical length `k ≥ 1`. -/
theorem C144_three (hl : 3 < lim) (k : Nat) : NF.countAllOfLength (GNF.tbl lim ω) 3 (k + 1) = .ok (2 ^ (k + 2)) := by
  obtain ⟨c, c1, c2⟩ := gnf_rec (ω := ω) (n := 3) (by decide) hl rec_three
  obtain ⟨c', d1, -, d3, -⟩ := C144_growth (ω := ω) (n := 3) (by decide) hl
  have h1 : c 1 = 4 := by
    have := (c1 1).symm.trans (d1 1)
    rw [d3] at this
    injection this
  rw [c1]
  congr 1
  induction k with
  | zero => exact h1
  | succ k ih =>
    have := c2 k
    simp at this
    rw [this, ih]; ring

example := C144_three (lim := 7) (ω := pop0) (by decide) 5

/-- C144: on four strands the counts are 22, 164, 982 and then follow the recurrence `c(k+3) = 8 c(k+2) - 15 c(k+1) + 6 c(k)`. -/
theorem C144_four (hl : 4 < lim) : ∃ c : Nat → Nat, (∀ k, NF.countAllOfLength (GNF.tbl lim ω) 4 k = .ok (c k)) ∧
    c 1 = 22 ∧ c 2 = 164 ∧ c 3 = 982 ∧ ∀ k, 1 ≤ k → c (k + 3) + 15 * c (k + 1) = 8 * c (k + 2) + 6 * c k := by
  obtain ⟨c, c1, c2⟩ := gnf_rec (ω := ω) (n := 4) (by decide) hl rec_four
  have val : ∀ k m, NF.countAllOfLength (GNF.tbl 5 fun _ _ _ => 0) 4 k = .ok m → c k = m := fun k m h => by
    have := (c1 k).symm.trans ((C144_independent (by decide) hl (by decide) k).trans h)
    injection this
  refine ⟨c, c1, val 1 _ (by decide +kernel), val 2 _ (by decide +kernel), val 3 _ (by decide +kernel), fun k hk => ?_⟩
  obtain ⟨k, rfl⟩ : ∃ j, k = j + 1 := ⟨k - 1, by omega⟩
  simpa using c2 k

/-- Three successive counts on four strands. -/
def fourNext (s : Nat × Nat × Nat) : Nat × Nat × Nat := (s.2.1, s.2.2, 8 * s.2.2 + 6 * s.1 - 15 * s.2.1)

/-- C144: the number in the notebook: `BraidGroup(4).count_all_of_garside_length(54)` is a number which, rounded to six significant
digits, is the printed `3.7011e+40`. -/
theorem C144_documented (hl : 4 < lim) : ∃ N : Nat, NF.countAllOfGarsideLength (GNF.tbl lim ω) 4 54 = .ok N ∧
    N = 37011024955230382208733860497458609193580 ∧ 2 * ((N : ℤ) - 370110 * 10 ^ 35).natAbs < 10 ^ 35 := by
  obtain ⟨c, c1, h1, h2, h3, h4⟩ := C144_four (ω := ω) hl
  have it : ∀ k, (c (k + 1), c (k + 2), c (k + 3)) = fourNext^[k] (22, 164, 982) := by
    intro k
    induction k with
    | zero => rw [Function.iterate_zero, id, h1, h2, h3]
    | succ k ih =>
      rw [Function.iterate_succ_apply', ← ih, fourNext]
      have := h4 (k + 1) (by omega)
      have e : c (k + 1 + 3) = 8 * c (k + 3) + 6 * c (k + 1) - 15 * c (k + 2) := by
        rw [show k + 1 + 1 = k + 2 from rfl, show k + 1 + 2 = k + 3 from rfl] at this; omega
      rw [← e]
  have h54 : c 54 = 37011024955230382208733860497458609193580 := by
    have := congrArg Prod.fst (it 53)
    exact this.trans (by decide +kernel)
  exact ⟨_, c1 54, h54, by rw [h54]; decide +kernel⟩

example := C144_documented (lim := 7) (ω := pop0) (by decide)

end gnf

section dual
variable {n : Nat} {ω ω' : NPar → NPar → Nat → Nat}

theorem dgnf_count {l : List NPar} {t : NParTable} (R : DReal lim ω n l t) (k : Nat) : NF.countAllOfLength (DGNF.tbl lim ω) n k = .ok (cnt t.toNFTable k t.D) := by
  rw [NF.countAllOfLength, R.real.ok, bind_ok, R.real.spec.count_eq]

/-- C144: the same for the dual normal form: the count depends on nothing but the number of strands and the length. -/
theorem C144_dual_independent (hn : 2 ≤ n) (hl : NPar.catalanNum n < lim) (hl' : NPar.catalanNum n < lim') (k : Nat) :
    NF.countAllOfLength (DGNF.tbl lim ω) n k = NF.countAllOfLength (DGNF.tbl lim' ω') n k := by
  obtain ⟨l, t, R⟩ := dgnf_real lim ω hn hl
  obtain ⟨l', t', R'⟩ := dgnf_real lim' ω' hn hl'
  have ho : t.toNFTable.order = t'.toNFTable.order := R.data.order.trans R'.data.order.symm
  rw [dgnf_count R, dgnf_count R', cnt_congr R.real.spec R'.real.spec ho k _ R.real.spec.D_lt, D_congr R.real.spec R'.real.spec ho]

example := C144_dual_independent (n := 4) (lim := 5000) (lim' := 15) (ω := dpop0) (ω' := fun _ _ _ => 1) (by decide) (by decide) (by decide) 9

/-- C144: dual normal forms: one of length 0 (up to powers of `δ`), two fewer than the Catalan number of length 1, and at most as many of
length `j + k` as there are pairs. -/
theorem C144_dual_growth (hn : 2 ≤ n) (hl : NPar.catalanNum n < lim) : ∃ c : Nat → Nat, (∀ k, NF.countAllOfLength (DGNF.tbl lim ω) n k = .ok (c k)) ∧
    c 0 = 1 ∧ c 1 = catalan n - 2 ∧ ∀ j k, c (j + k) ≤ c j * c k := by
  obtain ⟨l, t, R⟩ := dgnf_real lim ω hn hl
  exact ⟨fun k => cnt t.toNFTable k t.D, dgnf_count R, cnt_zero _ _, by rw [← catalanNum_eq, ← R.data.order]; exact R.real.spec.cnt_one,
    fun j k => R.real.spec.cnt_add_le j k _ R.real.spec.D_lt⟩

example := C144_dual_growth (n := 5) (lim := 5000) (ω := dpop0) (by decide) (by decide)

/-- The braids on `n` strands between `δ^d` and `δ^(d+k)`, and not between powers closer to each other. -/
def dualShell (n : Nat) (d : ℤ) (k : Nat) : Set (Braid n) := {b | (IsBandPositive (delta n ^ (-d) * b) ∧ ¬ IsBandPositive (delta n ^ (-(d + 1)) * b)) ∧
  IsBandPositive (b⁻¹ * delta n ^ (d + k)) ∧ ¬ IsBandPositive (b⁻¹ * delta n ^ (d + k - 1))}

theorem dual_surjective (hn : 2 ≤ n) (hl : NPar.catalanNum n < lim) (b : Braid n) : ∃ x, IsDGNF lim ω n x ∧ dgnfBraid n x = b := by
  obtain ⟨y, hy, rfl⟩ := C15_surjective (lim := n + 1) (ω := pop0) hn (Nat.lt_succ_self n) b
  obtain ⟨z, -, h1, h2⟩ := toDGNF_spec (ωD := ω) hn (Nat.lt_succ_self n) hl hy
  exact ⟨z, h1, h2⟩

/-- C144: the count of dual normal forms is the number of elements of the braid group with infimum `d` and supremum `d + k`, for every `d`. -/
theorem C144_dual_braids (hn : 2 ≤ n) (hl : NPar.catalanNum n < lim) (d : ℤ) (k : Nat) : (dualShell n d k).Finite ∧
    NF.countAllOfLength (DGNF.tbl lim ω) n k = .ok (dualShell n d k).ncard := by
  classical
  obtain ⟨xs, -, x2, x3, x4⟩ := C78_all_of_length (ω := ω) hn hl k d
  have e : dualShell n d k = ((xs.map (dgnfBraid n)).toFinset : Finset (Braid n)) := by
    ext b
    simp only [dualShell, Set.mem_setOf_eq, List.coe_toFinset, List.mem_map]
    obtain ⟨x, hx, rfl⟩ := dual_surjective (ω := ω) hn hl b
    obtain ⟨i1, i2, -⟩ := C79_inf_sup hn hl x hx
    rw [i1, i1, i2, i2, NF.inf, NF.sup]
    constructor
    · rintro ⟨h1, h2⟩
      exact ⟨x, (x3 x).2 ⟨hx, by omega, by omega⟩, rfl⟩
    · rintro ⟨y, hy, h⟩
      obtain ⟨y1, y2, y3⟩ := (x3 y).1 hy
      obtain rfl := (C29_unique hn hl y x y1 hx).2 h
      omega
  have hnd : (xs.map (dgnfBraid n)).Nodup := x2.map_on fun x hx y hy h => (C29_unique hn hl x y ((x3 x).1 hx).1 ((x3 y).1 hy).1).2 h
  rw [e]
  refine ⟨Finset.finite_toSet _, ?_⟩
  rw [x4, Set.ncard_coe_finset, List.toFinset_card_of_nodup hnd, List.length_map]

example := C144_dual_braids (n := 4) (lim := 5000) (ω := dpop0) (by decide) (by decide) (-3) 54

/-- As `recCheck`, for the dual table. -/
def dualCheck (n : Nat) (a b : List (Nat × Nat)) : Prop := match DGNF.tbl 43 (fun _ _ _ => 0) n with
  | .ok t => ∀ f, f < t.order → f ≠ t.id → f ≠ t.D → (a.map fun ci => ci.1 * cnt t ci.2 f).sum = (b.map fun ci => ci.1 * cnt t ci.2 f).sum
  | .error _ => False

noncomputable instance (n : Nat) (a b : List (Nat × Nat)) : Decidable (dualCheck n a b) := by
  unfold dualCheck
  split <;> infer_instance

theorem dgnf_rec (hn : 2 ≤ n) (hl : NPar.catalanNum n < lim) (hs : NPar.catalanNum n < 43) {a b : List (Nat × Nat)} (h : dualCheck n a b) : ∃ c : Nat → Nat,
    (∀ k, NF.countAllOfLength (DGNF.tbl lim ω) n k = .ok (c k)) ∧ ∀ k, (a.map fun ci => ci.1 * c (k + 1 + ci.2)).sum = (b.map fun ci => ci.1 * c (k + 1 + ci.2)).sum := by
  obtain ⟨l, t, R⟩ := dgnf_real 43 (fun _ _ _ => 0) hn hs
  refine ⟨fun k => cnt t.toNFTable k t.D, fun k => (C144_dual_independent hn hl hs k).trans (dgnf_count R k), fun k => ?_⟩
  rw [dualCheck, R.real.ok] at h
  exact (R.real.spec.cnt_rec a b h k).2

theorem dual_three : dualCheck 3 [(1, 1)] [(2, 0)] := by decide +kernel
theorem dual_four : dualCheck 4 [(1, 4), (19, 2), (10, 0)] [(8, 3), (20, 1)] := by decide +kernel
attribute [irreducible] dualCheck

/-- C144: on three strands there are `3 * 2^(k-1)` dual normal forms of length `k ≥ 1`. -/
theorem C144_dual_three (hl : 5 < lim) (k : Nat) : NF.countAllOfLength (DGNF.tbl lim ω) 3 (k + 1) = .ok (3 * 2 ^ k) := by
  have e3 : NPar.catalanNum 3 = 5 := by decide
  obtain ⟨c, c1, c2⟩ := dgnf_rec (ω := ω) (n := 3) (by decide) (by rwa [e3]) (by rw [e3]; decide) dual_three
  have h1 : c 1 = 3 := by
    have := (c1 1).symm.trans ((C144_dual_independent (by decide) (by rwa [e3]) (by decide) 1).trans
      (show NF.countAllOfLength (DGNF.tbl 43 fun _ _ _ => 0) 3 1 = .ok 3 by decide +kernel))
    injection this
  rw [c1]
  congr 1
  induction k with
  | zero => exact h1
  | succ k ih =>
    have := c2 k
    simp at this
    rw [this, ih]; ring

example := C144_dual_three (lim := 5000) (ω := dpop0) (by decide) 5

/-- C144: on four strands the counts of dual normal forms are 12, 72, 372, 1840 and then follow the recurrence
`c(k+4) = 8 c(k+3) - 19 c(k+2) + 20 c(k+1) - 10 c(k)`. -/
theorem C144_dual_four (hl : 14 < lim) : ∃ c : Nat → Nat, (∀ k, NF.countAllOfLength (DGNF.tbl lim ω) 4 k = .ok (c k)) ∧
    c 1 = 12 ∧ c 2 = 72 ∧ c 3 = 372 ∧ c 4 = 1840 ∧ ∀ k, 1 ≤ k → c (k + 4) + 19 * c (k + 2) + 10 * c k = 8 * c (k + 3) + 20 * c (k + 1) := by
  have e4 : NPar.catalanNum 4 = 14 := by decide
  obtain ⟨c, c1, c2⟩ := dgnf_rec (ω := ω) (n := 4) (by decide) (by rwa [e4]) (by rw [e4]; decide) dual_four
  have val : ∀ k m, NF.countAllOfLength (DGNF.tbl 43 fun _ _ _ => 0) 4 k = .ok m → c k = m := fun k m h => by
    have := (c1 k).symm.trans ((C144_dual_independent (by decide) (by rwa [e4]) (by decide) k).trans h)
    injection this
  refine ⟨c, c1, val 1 _ (by decide +kernel), val 2 _ (by decide +kernel), val 3 _ (by decide +kernel), val 4 _ (by decide +kernel), fun k hk => ?_⟩
  obtain ⟨k, rfl⟩ : ∃ j, k = j + 1 := ⟨k - 1, by omega⟩
  have := c2 k
  simp at this
  omega

example := C144_dual_four (lim := 5000) (ω := dpop0) (by decide)

end dual

end Peyl
