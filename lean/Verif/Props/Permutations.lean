import Verif.Lemmas.Shortlex
import Verif.Lemmas.Cycles
import Verif.Lemmas.PermEnum
/-!
# Properties C01–C08: permutations

`IsPermWord w` (Spec): `w` lists every integer of `[0, len(w))` exactly once.
-/
namespace Peyl
open Equiv Perms

/-! ## C01 -/

/-- C01: on permutation words of a common size `n`, `*` succeeds, `(x*y)[i] = x[y[i]]` (first `y`, then `x`), and the
result is a permutation word of that size. -/
theorem C01_mul (n : Nat) (x y : List Nat) (hx : IsPermWord x) (hy : IsPermWord y) (lx : x.length = n) (ly : y.length = n) :
    ∃ z, compose x y = .ok z ∧ IsPermWord z ∧ z.length = n ∧ ∀ i, i < n → z.getD i 0 = x.getD (y.getD i 0) 0 := by
  obtain ⟨p, rfl⟩ := exists_wordOf hx lx
  obtain ⟨q, rfl⟩ := exists_wordOf hy ly
  refine ⟨_, compose_eq p q, isPermWord_wordOf _, length_wordOf _, fun i hi => ?_⟩
  rw [wordOf_getD _ _ hi, wordOf_getD _ _ hi, wordOf_getD _ _ (by simp)]; simp

/-- C01: associativity, unit, inverses. -/
theorem C01_group_laws (n : Nat) (x y z : List Nat) (hx : IsPermWord x) (hy : IsPermWord y) (hz : IsPermWord z)
    (lx : x.length = n) (ly : y.length = n) (lz : z.length = n) :
    (do compose (← compose x y) z) = (do compose x (← compose y z)) ∧
    compose x (identity n) = .ok x ∧ compose (identity n) x = .ok x ∧
    IsPermWord (inverse x) ∧ compose x (inverse x) = .ok (identity n) ∧ compose (inverse x) x = .ok (identity n) ∧
    IsPermWord (identity n) := by
  obtain ⟨p, rfl⟩ := exists_wordOf hx lx
  obtain ⟨q, rfl⟩ := exists_wordOf hy ly
  obtain ⟨r, rfl⟩ := exists_wordOf hz lz
  rw [identity_eq, inverse_eq]
  simp only [compose_eq, bind, Except.bind]
  refine ⟨by rw [mul_assoc], by rw [mul_one], by rw [one_mul], isPermWord_wordOf _, by rw [mul_inv_cancel], by rw [inv_mul_cancel],
    isPermWord_wordOf _⟩

/-- C01: sizes must agree. -/
theorem C01_mul_error (x y : List Nat) (h : x.length ≠ y.length) : compose x y = .error .value := by
  rw [compose, if_pos h]

example : IsPermWord [2, 0, 1, 3] ∧ compose [2, 0, 1, 3] [1, 0, 3, 2] = .ok [0, 2, 3, 1] ∧ inverse [2, 0, 1, 3] = [1, 2, 0, 3] := by decide

/-! ## C02 -/

/-- C02: `is_permutation` decides exactly the permutations of `[0, len)`, for all integer words. -/
theorem C02_is_permutation (word : List Int) :
    isPermutation word = true ↔ (∀ k : Int, 0 ≤ k → k < word.length → word.count k = 1) ∧ ∀ y ∈ word, 0 ≤ y ∧ y < word.length := by
  rw [isPermutation_iff]
  constructor
  · rintro ⟨h1, h2⟩
    refine ⟨fun k hk0 hk1 => List.count_eq_one_of_mem h1 ?_, h2⟩
    have hsub : word.map Int.toNat ⊆ List.range word.length := by
      intro k hk; rw [List.mem_map] at hk; obtain ⟨y, hy, rfl⟩ := hk
      have := h2 y hy; rw [List.mem_range]; omega
    have hnd : (word.map Int.toNat).Nodup := by
      refine List.Nodup.map_on ?_ h1
      intro a ha b hb hab
      have := h2 a ha; have := h2 b hb; omega
    have := (hnd.subperm hsub).perm_of_length_le (by simp)
    have hmem := this.mem_iff.2 (List.mem_range.2 (show k.toNat < word.length by omega))
    obtain ⟨y, hy, hyk⟩ := List.mem_map.1 hmem
    have := h2 y hy
    have : y = k := by omega
    subst this; exact hy
  · rintro ⟨h1, h2⟩
    refine ⟨?_, h2⟩
    rw [List.nodup_iff_count_le_one]
    intro k
    by_cases hk : k ∈ word
    · exact (h1 k (h2 k hk).1 (h2 k hk).2).le
    · rw [List.count_eq_zero_of_not_mem hk]; omega

example : isPermutation [2, 0, 1] = true ∧ isPermutation [0, 0, 2] = false ∧ isPermutation [-1, 0, 1] = false ∧
    isPermutation [0, 1, 3] = false ∧ isPermutation [] = true := by decide

/-! ## C03 -/

/-- C03: `shortlex` succeeds on every permutation; its letters are legal, spell the permutation, and are as many as
there are inversions, which is the least possible number. -/
theorem C03_shortlex (w : List Nat) (hw : IsPermWord w) :
    ∃ u, shortlex w = .ok u ∧ fromCox w.length u = .ok w ∧ u.length = Perms.length w ∧
      ∀ u', fromCox w.length u' = .ok w → Perms.length w ≤ u'.length := by
  obtain ⟨p, hp⟩ := exists_wordOf hw rfl
  obtain ⟨u, h1, h2⟩ := shortlex_spec p
  obtain ⟨h3, h4, h5⟩ := h1.prod
  rw [inv_inv] at h4
  rw [_root_.inv_inv] at h3
  rw [← hp, length_eq]
  simp only [length_wordOf]
  refine ⟨u, h2, by rw [fromCox_eq u h5, h3], h4, ?_⟩
  intro u' hu'
  by_cases hl : ∀ s ∈ u', s + 1 < w.length
  · rw [fromCox_eq u' hl] at hu'
    have := wordOf_injective (Except.ok.inj hu')
    rw [← this]; exact inv_coxProd_le u'
  · rw [fromCox, if_neg (by simpa using hl)] at hu'; cases hu'

/-- C03: the length is the number of pairs of positions in the wrong order. -/
theorem C03_length (w : List Nat) :
    Perms.length w = ((Finset.range w.length ×ˢ Finset.range w.length).filter fun p => p.1 < p.2 ∧ w.getD p.2 0 < w.getD p.1 0).card := by
  rw [Perms.length]
  set L := (List.range w.length).flatMap fun i => (List.range' (i + 1) (w.length - (i + 1))).map fun j => (i, j) with hL
  have hmem : ∀ p : Nat × Nat, p ∈ L ↔ p.1 < p.2 ∧ p.2 < w.length := by
    rintro ⟨a, b⟩
    simp only [hL, List.mem_flatMap, List.mem_range, List.mem_map, Prod.mk.injEq, List.mem_range'_1]
    constructor
    · rintro ⟨i, h1, j, h2, rfl, rfl⟩; omega
    · intro h; exact ⟨a, by omega, b, by omega, rfl, rfl⟩
  have hnd : L.Nodup := by
    rw [hL, List.nodup_flatMap]
    refine ⟨fun i _ => (List.nodup_range' (step := 1)).map (fun a b h => by simpa using h), ?_⟩
    rw [List.pairwise_iff_getElem]
    intro i j hi hj hij
    rw [Function.onFun, List.disjoint_left]
    rintro ⟨a, b⟩ h1 h2
    simp only [List.getElem_range, List.mem_map, Prod.mk.injEq] at h1 h2
    obtain ⟨_, _, h1, _⟩ := h1
    obtain ⟨_, _, h2, _⟩ := h2
    omega
  rw [← List.toFinset_card_of_nodup (hnd.filter _)]
  congr 1
  ext p
  rw [List.mem_toFinset, List.mem_filter, hmem, Finset.mem_filter, Finset.mem_product, Finset.mem_range, Finset.mem_range]
  simp only [gt_iff_lt, decide_eq_true_eq]
  constructor
  · rintro ⟨⟨h1, h2⟩, h3⟩; exact ⟨⟨by omega, h2⟩, h1, h3⟩
  · rintro ⟨⟨h1, h2⟩, h3, h4⟩; exact ⟨⟨h3, h2⟩, h4⟩

example : shortlex [3, 2, 1, 0] = .ok [0, 1, 0, 2, 1, 0] ∧ fromCox 4 [0, 1, 0, 2, 1, 0] = .ok [3, 2, 1, 0] := by decide

/-! ## C04 -/

/-- C04: every other word of minimal length spelling the permutation is lexicographically larger. -/
theorem C04_shortlex_least (w : List Nat) (hw : IsPermWord w) :
    ∃ u, shortlex w = .ok u ∧ ∀ u', fromCox w.length u' = .ok w → u'.length = Perms.length w → u = u' ∨ u < u' := by
  obtain ⟨p, hp⟩ := exists_wordOf hw rfl
  obtain ⟨u, h1, h2⟩ := shortlex_spec p
  rw [← hp]
  refine ⟨u, h2, ?_⟩
  intro u' hu' hl
  simp only [length_wordOf] at hu'
  rw [length_eq] at hl
  by_cases hleg : ∀ s ∈ u', s + 1 < w.length
  · rw [fromCox_eq u' hleg] at hu'
    have := wordOf_injective (Except.ok.inj hu')
    exact h1.least u' (by rw [this, _root_.inv_inv]) (by rw [hl, inv_inv])
  · rw [fromCox, if_neg (by simpa using hleg)] at hu'; cases hu'

/-! ## C05 -/

/-- C05: descents are exactly the generators lowering the length, on either side. -/
theorem C05_descents (w : List Nat) (hw : IsPermWord w) (i : Nat) :
    (i ∈ rightDescentSet w ↔ i + 1 < w.length ∧
      ∃ s x, transposition w.length i (i + 1) = .ok s ∧ compose w s = .ok x ∧ Perms.length x < Perms.length w) ∧
    (i ∈ leftDescentSet w ↔ i + 1 < w.length ∧
      ∃ s x, transposition w.length i (i + 1) = .ok s ∧ compose s w = .ok x ∧ Perms.length x < Perms.length w) := by
  obtain ⟨p, hp⟩ := exists_wordOf hw rfl
  rw [← hp, rightDescentSet_mem, leftDescentSet_mem]
  simp only [length_wordOf]
  constructor
  · constructor
    · rintro ⟨h, hd⟩
      refine ⟨h, _, _, transposition_ok i (i + 1) (by omega) h, compose_eq _ _, ?_⟩
      rw [length_eq, length_eq, ← sg_eq h]
      have := inv_mul_sg_down p h hd; omega
    · rintro ⟨h, s, x, h1, h2, h3⟩
      refine ⟨h, ?_⟩
      rw [transposition_ok i (i + 1) (by omega) h] at h1
      cases h1
      rw [compose_eq] at h2
      have h2 := Except.ok.inj h2
      rw [← h2, length_eq, length_eq, ← sg_eq h] at h3
      by_contra hc
      have := inv_mul_sg_up p h (lt_of_le_of_ne (not_lt.1 hc) (by simp)); omega
  · constructor
    · rintro ⟨h, hd⟩
      refine ⟨h, _, _, transposition_ok i (i + 1) (by omega) h, compose_eq _ _, ?_⟩
      rw [length_eq, length_eq, ← sg_eq h]
      have := inv_sg_mul_down p h hd; omega
    · rintro ⟨h, s, x, h1, h2, h3⟩
      refine ⟨h, ?_⟩
      rw [transposition_ok i (i + 1) (by omega) h] at h1
      cases h1
      rw [compose_eq] at h2
      have h2 := Except.ok.inj h2
      rw [← h2, length_eq, length_eq, ← sg_eq h] at h3
      by_contra hc
      have := inv_sg_mul_up p h (lt_of_le_of_ne (not_lt.1 hc) (by simp)); omega

theorem idxOf_eq {n : Nat} (p : Perm (Fin n)) (i : Nat) (h : i < n) : (wordOf p).idxOf i = (p⁻¹ ⟨i, h⟩ : Nat) := by
  have hlt : ((p⁻¹ ⟨i, h⟩ : Fin n) : Nat) < (wordOf p).length := by simp
  have := List.Nodup.idxOf_getElem (isPermWord_wordOf p).1 ((p⁻¹ ⟨i, h⟩ : Fin n) : Nat) hlt
  rw [wordOf_getElem] at this
  simpa using this

/-- C05: the single-generator tests agree with the sets; illegal indices fail the assertion. -/
theorem C05_descent_tests (w : List Nat) (hw : IsPermWord w) (i : Int) :
    ((0 ≤ i ∧ i + 1 < w.length) → isRightDescent w i = .ok (decide (i.toNat ∈ rightDescentSet w)) ∧
      isLeftDescent w i = .ok (decide (i.toNat ∈ leftDescentSet w))) ∧
    (¬ (0 ≤ i ∧ i + 1 < w.length) → isRightDescent w i = .error .assertion ∧ isLeftDescent w i = .error .assertion) := by
  constructor
  · rintro ⟨h1, h2⟩
    obtain ⟨p, hp⟩ := exists_wordOf hw rfl
    have hlt : i.toNat + 1 < w.length := by omega
    rw [← hp, isRightDescent, isLeftDescent]
    simp only [length_wordOf]
    rw [if_pos (by omega), if_pos (by omega), wordOf_getD _ _ (by omega), wordOf_getD _ _ hlt, idxOf_eq _ _ (by omega), idxOf_eq _ _ hlt]
    constructor <;> congr 1 <;> rw [decide_eq_decide]
    · rw [rightDescentSet_mem]; exact ⟨fun h => ⟨hlt, h⟩, fun ⟨_, h⟩ => h⟩
    · rw [leftDescentSet_mem]; exact ⟨fun h => ⟨hlt, h⟩, fun ⟨_, h⟩ => h⟩
  · intro h
    rw [isRightDescent, isLeftDescent, if_neg (by omega), if_neg (by omega)]; exact ⟨rfl, rfl⟩

example : rightDescentSet [2, 0, 3, 1] = [0, 2] ∧ leftDescentSet [2, 0, 3, 1] = [1] := by decide

/-! ## C06 -/

/-- C06: `disjoint_cycles` terminates with the ordered decomposition into orbits (see `IsCycleDecomp` in Spec). -/
theorem C06_disjoint_cycles (w : List Nat) (hw : IsPermWord w) :
    ∃ cs, disjointCycles w = .ok cs ∧ IsCycleDecomp w cs := by
  obtain ⟨p, hp⟩ := exists_wordOf hw rfl
  obtain ⟨cs, h1, h2, _⟩ := cycles_spec p
  rw [← hp]; exact ⟨cs, h1, h2⟩

/-- The decomposition is unique, so `IsCycleDecomp` pins the result down. -/
theorem C06_decomp_unique (w : List Nat) (hw : IsPermWord w) (cs : List (List Nat)) (h : IsCycleDecomp w cs) :
    ∀ cs', disjointCycles w = .ok cs' → cs'.length = cs.length ∧ ∀ x y, (∃ c ∈ cs, x ∈ c ∧ y ∈ c) ↔ (∃ c ∈ cs', x ∈ c ∧ y ∈ c) := by
  intro cs' h'
  obtain ⟨p, hp⟩ := exists_wordOf hw rfl
  obtain ⟨cs0, h1, h2, _⟩ := cycles_spec p
  rw [hp] at h1 h2
  rw [h1] at h'; cases h'
  have key : ∀ {ds : List (List Nat)}, IsCycleDecomp w ds → ∀ x y, (∃ c ∈ ds, x ∈ c ∧ y ∈ c) ↔
      ∃ (hx : x < w.length) (hy : y < w.length), ∀ f ∈ fixSpace p, f ⟨x, hx⟩ = f ⟨y, hy⟩ := by
    intro ds hds x y
    have hlt : ∀ c ∈ ds, ∀ k ∈ c, k < w.length := by
      intro c hc k hk
      have := hds.cover.mem_iff.1 (List.mem_flatten.2 ⟨c, hc, hk⟩)
      simpa using this
    rw [← hp] at hds
    constructor
    · rintro ⟨c, hc, hx, hy⟩
      exact ⟨hlt c hc x hx, hlt c hc y hy, fun f hf => (hds.cycle c hc).fix_const hf (hlt c hc) hx hy⟩
    · rintro ⟨hx, hy, hf⟩
      have hxm := hds.cover.mem_iff.2 (show x ∈ List.range (wordOf p).length by simpa using hx)
      obtain ⟨c, hc, hxc⟩ := List.mem_flatten.1 hxm
      refine ⟨c, hc, hxc, ?_⟩
      have := hf (fun z => if (z : Nat) ∈ c then 1 else 0) (by
        intro z
        have hiff : ((p z : Fin _) : Nat) ∈ c ↔ (z : Nat) ∈ c := by
          constructor
          · intro hpz
            have hzm := hds.cover.mem_iff.2 (show (z : Nat) ∈ List.range (wordOf p).length by simp)
            obtain ⟨d, hd, hzd⟩ := List.mem_flatten.1 hzm
            have hpzd := (hds.cycle d hd).closed hzd
            obtain ⟨i, hi, rfl⟩ := List.mem_iff_getElem.1 hc
            obtain ⟨j, hj, rfl⟩ := List.mem_iff_getElem.1 hd
            have := decomp_index hds hi hj hpz hpzd
            subst this; exact hzd
          · exact (hds.cycle c hc).closed
        simp only [hiff])
      by_contra hyc
      simp [hxc, hyc] at this
  refine ⟨?_, fun x y => by rw [key h, key h2]⟩
  rw [← decomp_finrank (π := p) (by rw [hp]; exact h2), ← decomp_finrank (π := p) (by rw [hp]; exact h)]

/-- C06: `cycle_type` is the decreasing list of cycle lengths, with sum `n`. -/
theorem C06_cycle_type (w : List Nat) (hw : IsPermWord w) :
    ∃ cs t, disjointCycles w = .ok cs ∧ cycleType w = .ok t ∧ t.Perm (cs.map List.length) ∧ t.Pairwise (· ≥ ·) ∧ t.sum = w.length := by
  obtain ⟨p, hp⟩ := exists_wordOf hw rfl
  obtain ⟨cs, h1, h2, h3⟩ := cycles_spec p
  rw [hp] at h1 h2 h3
  refine ⟨cs, _, h1, h3, List.perm_insertionSort _ _, List.pairwise_insertionSort (· ≥ ·) _, ?_⟩
  rw [(List.perm_insertionSort _ _).sum_eq, ← List.length_flatten, h2.cover.length_eq, List.length_range]

example : disjointCycles [2, 1, 0, 3, 4, 6, 5] = .ok [[0, 2], [1], [3], [4], [5, 6]] ∧ disjointCycles [2, 3, 1, 0] = .ok [[0, 2, 1, 3]] := by decide

/-! ## C07 -/

/-- C07: parity is the parity of the number of inversions. -/
theorem C07_parity (w : List Nat) (hw : IsPermWord w) : parity w = .ok (Perms.length w % 2) := by
  obtain ⟨p, hp⟩ := exists_wordOf hw rfl
  rw [← hp, length_eq]; exact parity_spec p

/-- C07: and additive. -/
theorem C07_parity_mul (x y : List Nat) (hx : IsPermWord x) (hy : IsPermWord y) (hl : x.length = y.length) :
    ∃ z a b, compose x y = .ok z ∧ parity x = .ok a ∧ parity y = .ok b ∧ parity z = .ok ((a + b) % 2) := by
  obtain ⟨n, hn⟩ : ∃ n, y.length = n := ⟨_, rfl⟩
  obtain ⟨p, rfl⟩ := exists_wordOf hx (hl.trans hn)
  obtain ⟨q, rfl⟩ := exists_wordOf hy hn
  have hq : ∀ m (q : Perm (Fin m)) (p : Perm (Fin m)), ∃ z a b, compose (wordOf p) (wordOf q) = .ok z ∧ parity (wordOf p) = .ok a ∧
      parity (wordOf q) = .ok b ∧ parity z = .ok ((a + b) % 2) := by
    intro m q p
    refine ⟨_, _, _, compose_eq p q, parity_spec p, parity_spec q, ?_⟩
    rw [parity_spec]
    congr 1
    have := units_pow_inj (a := inv (p * q)) (b := inv p + inv q) (by
      rw [← sign_eq_inv, Perm.sign_mul, sign_eq_inv, sign_eq_inv, pow_add])
    omega
  exact hq _ q p

example : parity [2, 0, 1, 4, 3] = .ok 1 ∧ Perms.length [2, 0, 1, 4, 3] = 3 := by decide

/-! ## C08: the code violates the property; what holds of it -/

/-- C08 (proved part): for a cycle through *all* `n` points `from_cycle` is right.  Missing: shorter cycles (refuted
below: they raise IndexError), and `from_cycles` (refuted below: TypeError). -/
theorem C08_from_cycle_partial (n : Nat) (c : List Nat) (hc : IsPermWord c) (hn : c.length = n) (h0 : 0 < n) :
    ∃ w, fromCycle n c = .ok w ∧ IsPermWord w ∧ w.length = n ∧
      ∀ i, i < n → w.getD (c.getD i 0) 0 = c.getD ((i + 1) % n) 0 := by
  subst hn
  have key : ∀ m, m ≤ c.length → ∃ w, (List.range m).foldlM (init := List.range c.length) (fun word i => (do
      let src ← lookup c i
      let dst ← lookup c ((i + 1) % c.length)
      .ok (word.set src dst) : Except Err _)) = .ok w ∧ w.length = c.length ∧
      (∀ i, i < m → w.getD (c.getD i 0) 0 = c.getD ((i + 1) % c.length) 0) := by
    intro m
    induction m with
    | zero => intro _; exact ⟨_, rfl, by simp, by intro i hi; omega⟩
    | succ m ih =>
      intro hm
      obtain ⟨w, h1, h2, h3⟩ := ih (by omega)
      have hl : ∀ i, i < c.length → lookup c i = .ok (c.getD i 0) := by
        intro i hi; simp [lookup, hi]
      refine ⟨w.set (c.getD m 0) (c.getD ((m + 1) % c.length) 0), ?_, by simpa using h2, ?_⟩
      · rw [List.range_succ, List.foldlM_append, h1]
        simp only [bind, Except.bind, List.foldlM_cons, List.foldlM_nil, hl m (by omega), hl _ (Nat.mod_lt (m + 1) h0), pure, Except.pure]
      · intro i hi
        have hcm : c.getD m 0 < w.length := by
          rw [h2]; apply hc.2
          rw [List.getD_eq_getElem?_getD, List.getElem?_eq_getElem (by omega)]; exact List.getElem_mem _
        rcases Nat.lt_succ_iff_lt_or_eq.1 hi with h4 | h4
        · have hne : c.getD m 0 ≠ c.getD i 0 := by
            rw [List.getD_eq_getElem?_getD, List.getD_eq_getElem?_getD, List.getElem?_eq_getElem (show i < c.length by omega),
              List.getElem?_eq_getElem (show m < c.length by omega)]
            simp only [Option.getD_some]
            intro hc'
            have := (List.Nodup.getElem_inj_iff hc.1).1 hc'
            omega
          rw [← h3 i h4, List.getD_eq_getElem?_getD, List.getElem?_set_ne hne, ← List.getD_eq_getElem?_getD]
        · subst h4
          rw [List.getD_eq_getElem?_getD, List.getElem?_set_self hcm]; rfl
  obtain ⟨w, h1, h2, h3⟩ := key c.length (le_refl _)
  obtain ⟨p, hp⟩ := exists_wordOf hc rfl
  -- the word is that of the conjugated rotation
  have hrot : w = wordOf (p * (finRotate c.length) * p⁻¹) := by
    apply word_ext h2
    intro i hi
    have hcg : ∀ i (h : i < c.length), c.getD i 0 = (p ⟨i, h⟩ : Nat) := by
      intro i h; have := wordOf_getD p i h; rwa [hp] at this
    have h4 := h3 (p⁻¹ ⟨i, hi⟩ : Fin _) (by simp)
    rw [hcg _ (by simp), hcg _ (Nat.mod_lt _ h0)] at h4
    rw [show p (p⁻¹ ⟨i, hi⟩) = ⟨i, hi⟩ by simp] at h4
    rw [h4]
    simp only [Perm.mul_apply]
    congr 2
    apply Fin.ext
    simp only
    obtain ⟨m, hm⟩ : ∃ m, c.length = m + 1 := ⟨c.length - 1, by omega⟩
    have : ∀ (N : Nat) (hN : N = m + 1) (j : Fin N), (j.val + 1) % N = (finRotate N j).val := by
      intro N hN j; subst hN
      rw [finRotate_succ_apply, Fin.val_add]; simp
    exact this _ hm _
  refine ⟨w, ?_, by rw [hrot]; exact isPermWord_wordOf _, h2, h3⟩
  rw [fromCycle, if_neg (by simpa using hc.2), if_neg (by rintro rfl; simp at h0), if_neg (by simpa using hc.1)]
  exact h1

/-- C08 refutation: every non-empty cycle shorter than `n` raises IndexError. -/
theorem C08_from_cycle_short (n : Nat) (c : List Nat) (hlt : ∀ x ∈ c, x < n) (hnd : c.Nodup) (hne : c ≠ []) (hs : c.length < n) :
    fromCycle n c = .error .index := by
  rw [fromCycle, if_neg (by simpa using hlt), if_neg hne, if_neg (by simpa using hnd)]
  obtain ⟨m, hm⟩ : ∃ m, c.length = m + 1 := ⟨c.length - 1, by have := List.length_pos_iff.2 hne; omega⟩
  rw [hm, List.range_succ, List.foldlM_append]
  have : ∀ (l : List Nat) (w : List Nat), (∀ i ∈ l, i + 1 < c.length) → ∃ w', l.foldlM (init := w) (fun word i => (do
      let src ← lookup c i
      let dst ← lookup c ((i + 1) % n)
      .ok (word.set src dst) : Except Err _)) = .ok w' := by
    intro l
    induction l with
    | nil => intro w _; exact ⟨w, rfl⟩
    | cons i l ih =>
      intro w hl
      have h1 := hl i (by simp)
      rw [List.foldlM_cons]
      simp only [lookup, List.getElem?_eq_getElem (show i < c.length by omega), bind, Except.bind,
        Nat.mod_eq_of_lt (show i + 1 < n by omega), List.getElem?_eq_getElem h1]
      exact ih _ (fun j hj => hl j (by simp [hj]))
  obtain ⟨w', hw'⟩ := this (List.range m) (List.range n) (by intro i hi; rw [List.mem_range] at hi; omega)
  rw [hw']
  simp only [bind, Except.bind, List.foldlM_cons, List.foldlM_nil, lookup, List.getElem?_eq_getElem (show m < c.length by omega),
    Nat.mod_eq_of_lt (show m + 1 < n by omega), List.getElem?_eq_none (show c.length ≤ m + 1 by omega)]

/-- C08 refutation: `from_cycles` never returns a permutation. -/
theorem C08_from_cycles_never (n : Nat) (cs : List (List Nat)) : ∀ w, fromCycles n cs ≠ .ok (some w) := by
  intro w
  cases cs with
  | nil => simp [fromCycles]
  | cons c cs =>
    simp only [fromCycles, bind, Except.bind]
    cases fromCycle n c <;> simp

example : fromCycle 4 [1, 2] = .error .index ∧ fromCycle 3 [0, 2, 1] = .ok [2, 0, 1] ∧ fromCycles 3 [[0, 1, 2]] = .error .type := by decide

end Peyl
