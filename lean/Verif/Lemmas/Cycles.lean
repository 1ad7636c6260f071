import Verif.Lemmas.PermWord
import Verif.Lemmas.RefLen
import Mathlib.Dynamics.PeriodicPts.Lemmas
/-!
# `disjoint_cycles`, `cycle_type`, `parity`
-/
namespace Peyl
open Equiv Perms

variable {n : Nat}

/-- The length of the orbit of `a`. -/
noncomputable def period (π : Perm (Fin n)) (a : Fin n) : Nat := Function.minimalPeriod π a

/-- The orbit of `a` in traversal order. -/
noncomputable def orbitList (π : Perm (Fin n)) (a : Fin n) (m : Nat) : List Nat :=
  (List.range m).map fun j => ((π ^ j) a : Nat)

theorem period_pos (π : Perm (Fin n)) (a : Fin n) : 0 < period π a := by
  apply Function.minimalPeriod_pos_of_mem_periodicPts
  exact Function.Injective.mem_periodicPts π.injective a

theorem pow_apply_iter (π : Perm (Fin n)) (j : Nat) (a : Fin n) : (π ^ j) a = π^[j] a := by
  rw [Perm.iterate_eq_pow]

theorem pow_period (π : Perm (Fin n)) (a : Fin n) : (π ^ period π a) a = a := by
  rw [pow_apply_iter]; exact Function.iterate_minimalPeriod

theorem pow_inj (π : Perm (Fin n)) (a : Fin n) {i j : Nat} (hi : i < period π a) (hj : j < period π a)
    (h : (π ^ i) a = (π ^ j) a) : i = j := by
  rw [pow_apply_iter, pow_apply_iter] at h
  exact Function.iterate_injOn_Iio_minimalPeriod hi hj h

theorem period_le (π : Perm (Fin n)) (a : Fin n) : period π a ≤ n := by
  have : Function.Injective (fun j : Fin (period π a) => (π ^ (j : Nat)) a) := by
    intro i j h; exact Fin.ext (pow_inj π a i.isLt j.isLt h)
  simpa using Fintype.card_le_of_injective _ this

theorem getD_set_true (l : List Bool) (p k : Nat) (hp : p < l.length) :
    (l.set p true).getD k false = true ↔ (k = p ∨ l.getD k false = true) := by
  simp only [List.getD_eq_getElem?_getD, List.getElem?_set]
  by_cases h : p = k
  · subst h; simp [hp]
  · simp [h, Ne.symm h]

theorem cycleLoop_spec (π : Perm (Fin n)) (a : Fin n) (fuel m : Nat) (vis : List Bool) (hm : m < period π a)
    (hf : period π a - m ≤ fuel) (hv : vis.length = n) :
    ∃ vis', cycleLoop (wordOf π) a fuel ((π ^ m) a : Nat) (orbitList π a m) vis = .ok (orbitList π a (period π a), vis') ∧
      vis'.length = n ∧ ∀ k, vis'.getD k false = true ↔
        (vis.getD k false = true ∨ ∃ j, m ≤ j ∧ j < period π a ∧ k = ((π ^ j) a : Nat)) := by
  induction fuel generalizing m vis with
  | zero => omega
  | succ fuel ih =>
    unfold cycleLoop
    have hpos : (wordOf π).getD ((π ^ m) a : Nat) 0 = ((π ^ (m + 1)) a : Nat) := by
      rw [wordOf_getD _ _ (by simp), pow_succ']; simp
    have happ : orbitList π a m ++ [((π ^ m) a : Nat)] = orbitList π a (m + 1) := by
      simp [orbitList, List.range_succ]
    have hset : ∀ k, (vis.set ((π ^ m) a : Nat) true).getD k false = true ↔ (k = ((π ^ m) a : Nat) ∨ vis.getD k false = true) :=
      fun k => getD_set_true vis _ k (by rw [hv]; simp)
    simp only [hpos, happ]
    by_cases hend : m + 1 = period π a
    · rw [hend, pow_period, if_pos rfl]
      refine ⟨_, rfl, by simpa using hv, ?_⟩
      intro k
      rw [hset]
      constructor
      · rintro (h | h)
        · right; exact ⟨m, le_refl _, hm, h⟩
        · left; exact h
      · rintro (h | ⟨j, h1, h2, h3⟩)
        · right; exact h
        · left; have : j = m := by omega
          rw [h3, this]
    · rw [if_neg (by
        intro hc
        have h0 := pow_inj π a (i := m + 1) (j := 0) (by omega) (by omega) (by simpa using Fin.ext hc)
        omega)]
      obtain ⟨vis', h1, h2, h3⟩ := ih (m + 1) (vis.set ((π ^ m) a : Nat) true) (by omega) (by omega) (by simpa using hv)
      refine ⟨vis', h1, h2, ?_⟩
      intro k
      rw [h3, hset]
      constructor
      · rintro ((h | h) | ⟨j, h4, h5, h6⟩)
        · right; exact ⟨m, le_refl _, hm, h⟩
        · left; exact h
        · right; exact ⟨j, by omega, h5, h6⟩
      · rintro (h | ⟨j, h4, h5, h6⟩)
        · left; right; exact h
        · by_cases hj : j = m
          · left; left; rw [h6, hj]
          · right; exact ⟨j, by omega, h5, h6⟩

theorem cycleLenLoop_spec (π : Perm (Fin n)) (a : Fin n) (fuel pos : Nat) (cyc : List Nat) (vis : List Bool) :
    cycleLenLoop (wordOf π) a fuel pos cyc.length vis =
      (cycleLoop (wordOf π) a fuel pos cyc vis).map fun r => (r.1.length, r.2) := by
  induction fuel generalizing pos cyc vis with
  | zero => rfl
  | succ fuel ih =>
    unfold cycleLenLoop cycleLoop
    simp only
    split_ifs with h
    · simp [Except.map]
    · have := ih ((wordOf π).getD pos 0) (cyc ++ [pos]) (vis.set pos true)
      rw [← this]; simp

theorem mem_orbitList {π : Perm (Fin n)} {a : Fin n} {m k : Nat} : k ∈ orbitList π a m ↔ ∃ j, j < m ∧ k = ((π ^ j) a : Nat) := by
  simp only [orbitList, List.mem_map, List.mem_range]
  constructor
  · rintro ⟨j, h1, h2⟩; exact ⟨j, h1, h2.symm⟩
  · rintro ⟨j, h1, h2⟩; exact ⟨j, h1, h2.symm⟩

theorem orbitList_getD (π : Perm (Fin n)) (a : Fin n) {m i : Nat} (h : i < m) : (orbitList π a m).getD i 0 = ((π ^ i) a : Nat) := by
  simp [orbitList, h]

theorem length_orbitList (π : Perm (Fin n)) (a : Fin n) (m : Nat) : (orbitList π a m).length = m := by simp [orbitList]

theorem isCycleOf_orbitList (π : Perm (Fin n)) (a : Fin n) (hmin : ∀ j, j < period π a → a ≤ (π ^ j) a) :
    IsCycleOf (wordOf π) (orbitList π a (period π a)) := by
  have hp := period_pos π a
  refine ⟨?_, ?_, ?_⟩
  · intro h; have := length_orbitList π a (period π a); rw [h] at this; simp at this; omega
  · intro i hi
    rw [length_orbitList] at hi ⊢
    rw [orbitList_getD _ _ hi, wordOf_getD _ _ (by simp), orbitList_getD _ _ (Nat.mod_lt _ hp)]
    by_cases h : i + 1 = period π a
    · rw [h, Nat.mod_self]
      have := pow_period π a
      rw [← h, pow_succ'] at this
      simp only [Perm.mul_apply] at this
      simp [this]
    · rw [Nat.mod_eq_of_lt (by omega), pow_succ']; simp
  · intro x hx
    obtain ⟨j, hj, rfl⟩ := mem_orbitList.1 hx
    rw [orbitList_getD _ _ hp]
    simpa using hmin j hj

/-- Orbits are closed under the permutation. -/
theorem IsCycleOf.closed {π : Perm (Fin n)} {c : List Nat} (h : IsCycleOf (wordOf π) c) {x : Fin n} (hx : (x : Nat) ∈ c) :
    ((π x : Fin n) : Nat) ∈ c := by
  obtain ⟨i, hi, he⟩ := List.mem_iff_getElem.1 hx
  have h2 := h.2.1 i hi
  have hg : c.getD i 0 = x := by rw [List.getD_eq_getElem?_getD, List.getElem?_eq_getElem hi]; exact he
  rw [hg, wordOf_getD _ _ x.isLt] at h2
  have hlt : (i + 1) % c.length < c.length := Nat.mod_lt _ (by omega)
  rw [List.getD_eq_getElem?_getD, List.getElem?_eq_getElem hlt] at h2
  simp only [Fin.eta, Option.getD_some] at h2
  rw [h2]; exact List.getElem_mem _

theorem closed_pow {π : Perm (Fin n)} {c : List Nat} (h : IsCycleOf (wordOf π) c) {x : Fin n} (hx : (x : Nat) ∈ c) (j : Nat) :
    (((π ^ j) x : Fin n) : Nat) ∈ c := by
  induction j with
  | zero => simpa using hx
  | succ j ih => rw [pow_succ']; exact h.closed ih

/-- The state of the outer loop after the points `< i`. -/
structure CycInv (π : Perm (Fin n)) (i : Nat) (cs : List (List Nat)) (vis : List Bool) : Prop where
  len : vis.length = n
  vis : ∀ k, vis.getD k false = true ↔ k ∈ cs.flatten
  all : ∀ k, k < i → k ∈ cs.flatten
  lt : ∀ k ∈ cs.flatten, k < n
  cycle : ∀ c ∈ cs, IsCycleOf (wordOf π) c
  nodup : cs.flatten.Nodup
  heads : ∀ c ∈ cs, c.getD 0 0 < i
  sorted : (cs.map fun c => c.getD 0 0).Pairwise (· < ·)

theorem cycInv_step {π : Perm (Fin n)} {i : Nat} (hi : i < n) {cs : List (List Nat)} {vis : List Bool} (h : CycInv π i cs vis) :
    ∃ cs' vis', (if vis.getD i false then (Except.ok (cs, vis) : Except Err _) else do
        let c ← cycleLoop (wordOf π) i (wordOf π).length i [] vis
        .ok (cs ++ [c.1], c.2)) = .ok (cs', vis') ∧
      (if vis.getD i false then (Except.ok (cs.map List.length, vis) : Except Err _) else do
        let c ← cycleLenLoop (wordOf π) i (wordOf π).length i 0 vis
        .ok (cs.map List.length ++ [c.1], c.2)) = .ok (cs'.map List.length, vis') ∧ CycInv π (i + 1) cs' vis' := by
  by_cases hvis : vis.getD i false = true
  · refine ⟨cs, vis, by rw [if_pos hvis], by rw [if_pos hvis], ?_⟩
    refine ⟨h.len, h.vis, ?_, h.lt, h.cycle, h.nodup, fun c hc => by have := h.heads c hc; omega, h.sorted⟩
    intro k hk
    rcases Nat.lt_succ_iff_lt_or_eq.1 hk with h1 | h1
    · exact h.all k h1
    · subst h1; exact (h.vis _).1 hvis
  · set a : Fin n := ⟨i, hi⟩ with ha
    have hni : i ∉ cs.flatten := fun hc => hvis ((h.vis i).2 hc)
    obtain ⟨vis', h1, h2, h3⟩ := cycleLoop_spec π a n 0 vis (period_pos π a) (by have := period_le π a; omega) h.len
    have h1' : cycleLoop (wordOf π) i (wordOf π).length i [] vis = .ok (orbitList π a (period π a), vis') := by
      rw [length_wordOf]; exact h1
    have hnot : ∀ j, (((π ^ j) a : Fin n) : Nat) ∉ cs.flatten := by
      intro j hc
      rw [List.mem_flatten] at hc
      obtain ⟨c, hc1, hc2⟩ := hc
      apply hni
      rw [List.mem_flatten]
      refine ⟨c, hc1, ?_⟩
      -- push forward until the period
      have hc' := h.cycle c hc1
      have hp := period_pos π a
      have : ((π ^ (period π a * j - j)) ((π ^ j) a)) = a := by
        rw [← Perm.mul_apply, ← pow_add, Nat.sub_add_cancel (Nat.le_mul_of_pos_left j hp), pow_mul]
        have hfix := pow_period π a
        induction j with
        | zero => rfl
        | succ j ih =>
          rw [pow_succ', Perm.mul_apply]
          have : ∀ j, ((π ^ period π a) ^ j) a = a := by
            intro j
            induction j with
            | zero => rfl
            | succ j ih => rw [pow_succ', Perm.mul_apply, ih, hfix]
          rw [this j, hfix]
      have hmem := closed_pow hc' hc2 (period π a * j - j)
      rw [this] at hmem
      exact hmem
    have hmin : ∀ j, j < period π a → a ≤ (π ^ j) a := by
      intro j _
      by_contra hc
      exact hnot j (h.all _ (by rw [not_le, Fin.lt_def] at hc; exact hc))
    refine ⟨cs ++ [orbitList π a (period π a)], vis', ?_, ?_, ?_⟩
    · rw [if_neg hvis, h1']; rfl
    · have := cycleLenLoop_spec π a (wordOf π).length i [] vis
      rw [if_neg hvis]
      simp only [List.length_nil] at this
      rw [show (a : Nat) = i from rfl] at this
      rw [this, h1']
      simp [Except.map, bind, Except.bind]
    · have hc := isCycleOf_orbitList π a hmin
      have hfl : (cs ++ [orbitList π a (period π a)]).flatten = cs.flatten ++ orbitList π a (period π a) := by simp
      refine ⟨h2, ?_, ?_, ?_, ?_, ?_, ?_, ?_⟩
      · intro k
        rw [h3, hfl, List.mem_append, mem_orbitList, h.vis]
        constructor
        · rintro (h | ⟨j, _, h5, h6⟩)
          · left; exact h
          · right; exact ⟨j, h5, h6⟩
        · rintro (h | ⟨j, h5, h6⟩)
          · left; exact h
          · right; exact ⟨j, by omega, h5, h6⟩
      · intro k hk
        rw [hfl, List.mem_append]
        rcases Nat.lt_succ_iff_lt_or_eq.1 hk with h1 | h1
        · left; exact h.all k h1
        · right; subst h1; exact mem_orbitList.2 ⟨0, period_pos π a, by simp [ha]⟩
      · intro k hk
        rw [hfl, List.mem_append] at hk
        rcases hk with hk | hk
        · exact h.lt k hk
        · obtain ⟨j, _, rfl⟩ := mem_orbitList.1 hk; simp
      · intro c hc'
        rw [List.mem_append, List.mem_singleton] at hc'
        rcases hc' with hc' | rfl
        · exact h.cycle c hc'
        · exact hc
      · rw [hfl, List.nodup_append]
        refine ⟨h.nodup, ?_, ?_⟩
        · apply List.Nodup.map_on _ List.nodup_range
          intro x hx y hy hxy
          exact pow_inj π a (List.mem_range.1 hx) (List.mem_range.1 hy) (Fin.ext hxy)
        · rintro x hx y hy rfl
          obtain ⟨j, _, rfl⟩ := mem_orbitList.1 hy
          exact hnot j hx
      · intro c hc'
        rw [List.mem_append, List.mem_singleton] at hc'
        rcases hc' with hc' | rfl
        · have := h.heads c hc'; omega
        · rw [orbitList_getD _ _ (period_pos π a)]; simp [ha]
      · rw [List.map_append, List.pairwise_append]
        refine ⟨h.sorted, by simp, ?_⟩
        intro x hx y hy
        simp only [List.map_cons, List.map_nil, List.mem_singleton] at hy
        obtain ⟨c, hc1, rfl⟩ := List.mem_map.1 hx
        subst hy
        rw [orbitList_getD _ _ (period_pos π a)]
        simpa [ha] using h.heads c hc1

/-- Both cycle functions succeed, and agree. -/
theorem cycles_spec (π : Perm (Fin n)) :
    ∃ cs, disjointCycles (wordOf π) = .ok cs ∧ IsCycleDecomp (wordOf π) cs ∧
      cycleType (wordOf π) = .ok ((cs.map List.length).insertionSort (· ≥ ·)) := by
  have key : ∀ i, i ≤ n → ∃ cs vis,
      (List.range i).foldlM (init := (([] : List (List Nat)), List.replicate n false)) (fun st i => (do
        if st.2.getD i false then .ok st
        else
          let c ← cycleLoop (wordOf π) i (wordOf π).length i [] st.2
          .ok (st.1 ++ [c.1], c.2) : Except Err _)) = .ok (cs, vis) ∧
      (List.range i).foldlM (init := (([] : List Nat), List.replicate n false)) (fun st i => (do
        if st.2.getD i false then .ok st
        else
          let c ← cycleLenLoop (wordOf π) i (wordOf π).length i 0 st.2
          .ok (st.1 ++ [c.1], c.2) : Except Err _)) = .ok (cs.map List.length, vis) ∧ CycInv π i cs vis := by
    intro i
    induction i with
    | zero =>
      intro _
      refine ⟨[], List.replicate n false, rfl, rfl, ⟨by simp, ?_, by intro k hk; omega, by simp, by simp, by simp, by simp, by simp⟩⟩
      intro k
      simp only [List.getD_eq_getElem?_getD, List.getElem?_replicate]
      split_ifs <;> simp
    | succ i ih =>
      intro hi
      obtain ⟨cs, vis, h1, h2, h3⟩ := ih (by omega)
      obtain ⟨cs', vis', h4, h5, h6⟩ := cycInv_step (by omega) h3
      refine ⟨cs', vis', ?_, ?_, h6⟩
      · rw [List.range_succ, List.foldlM_append, h1]
        simp only [bind, Except.bind, List.foldlM_cons, List.foldlM_nil, pure, Except.pure] at h4 ⊢
        rw [h4]
      · rw [List.range_succ, List.foldlM_append, h2]
        simp only [bind, Except.bind, List.foldlM_cons, List.foldlM_nil, pure, Except.pure] at h5 ⊢
        rw [h5]
  obtain ⟨cs, vis, h1, h2, h3⟩ := key n (le_refl n)
  refine ⟨cs, ?_, ⟨h3.cycle, ?_, h3.sorted⟩, ?_⟩
  · rw [disjointCycles, length_wordOf]
    have h1' := h1
    rw [length_wordOf] at h1'
    rw [h1']; rfl
  · rw [length_wordOf, List.perm_ext_iff_of_nodup h3.nodup List.nodup_range]
    intro k; rw [List.mem_range]
    exact ⟨h3.lt k, h3.all k⟩
  · rw [cycleType, length_wordOf]
    have h2' := h2
    rw [length_wordOf] at h2'
    rw [h2']; rfl

theorem decomp_index {w : List Nat} {cs : List (List Nat)} (h : IsCycleDecomp w cs) {i j : Nat} (hi : i < cs.length) (hj : j < cs.length)
    {x : Nat} (h1 : x ∈ cs[i]) (h2 : x ∈ cs[j]) : i = j := by
  have hnd : cs.flatten.Nodup := h.cover.nodup_iff.2 List.nodup_range
  rw [List.nodup_flatten] at hnd
  by_contra hne
  rcases lt_or_gt_of_ne hne with hlt | hlt
  · have := (List.pairwise_iff_getElem.1 hnd.2) i j hi hj hlt
    exact this h1 h2
  · have := (List.pairwise_iff_getElem.1 hnd.2) j i hj hi hlt
    exact this h2 h1

theorem IsCycleOf.fix_const {π : Perm (Fin n)} {c : List Nat} (h : IsCycleOf (wordOf π) c) {f : Fin n → ℚ} (hf : f ∈ fixSpace π)
    (hlt : ∀ k ∈ c, k < n) {x y : Fin n} (hx : (x : Nat) ∈ c) (hy : (y : Nat) ∈ c) : f x = f y := by
  have key : ∀ i (hi : i < c.length), f ⟨c[i], hlt _ (List.getElem_mem _)⟩ =
      f ⟨c[0]'(List.length_pos_iff.2 h.1), hlt _ (List.getElem_mem _)⟩ := by
    intro i
    induction i with
    | zero => intro _; rfl
    | succ i ih =>
      intro hi
      have h2 := h.2.1 i (by omega)
      rw [Nat.mod_eq_of_lt hi, List.getD_eq_getElem?_getD, List.getD_eq_getElem?_getD, List.getD_eq_getElem?_getD,
        List.getElem?_eq_getElem hi, List.getElem?_eq_getElem (l := c) (i := i) (by omega)] at h2
      simp only [Option.getD_some] at h2
      have hlt' := hlt _ (List.getElem_mem (l := c) (n := i) (by omega))
      rw [List.getElem?_eq_getElem (by simpa using hlt'), wordOf_getElem] at h2
      simp only [Option.getD_some] at h2
      rw [← ih (by omega), ← hf ⟨c[i], hlt'⟩]
      congr 1
      exact Fin.ext h2.symm
  obtain ⟨i, hi, he⟩ := List.mem_iff_getElem.1 hx
  obtain ⟨j, hj, he'⟩ := List.mem_iff_getElem.1 hy
  have h1 := key i hi
  have h2 := key j hj
  rw [show x = ⟨c[i], hlt _ (List.getElem_mem _)⟩ from Fin.ext he.symm, show y = ⟨c[j], hlt _ (List.getElem_mem _)⟩ from Fin.ext he'.symm,
    h1, h2]

/-- The number of cycles is the dimension of the fixed space. -/
theorem decomp_finrank {π : Perm (Fin n)} {cs : List (List Nat)} (h : IsCycleDecomp (wordOf π) cs) :
    Module.finrank ℚ (fixSpace π) = cs.length := by
  have hlt : ∀ c ∈ cs, ∀ k ∈ c, k < n := by
    intro c hc k hk
    have := h.cover.mem_iff.1 (List.mem_flatten.2 ⟨c, hc, hk⟩)
    simpa using this
  have hex : ∀ x : Fin n, ∃ i : Fin cs.length, (x : Nat) ∈ cs[i] := by
    intro x
    have := h.cover.mem_iff.2 (show (x : Nat) ∈ List.range (wordOf π).length by simp)
    obtain ⟨c, hc, hx⟩ := List.mem_flatten.1 this
    obtain ⟨i, hi, rfl⟩ := List.mem_iff_getElem.1 hc
    exact ⟨⟨i, hi⟩, hx⟩
  choose idx hidx using hex
  have hidx_pi : ∀ x, idx (π x) = idx x := by
    intro x
    apply Fin.ext
    apply decomp_index h (idx (π x)).isLt (idx x).isLt (hidx (π x))
    exact (h.cycle _ (List.getElem_mem _)).closed (hidx x)
  have hne : ∀ i : Fin cs.length, cs[i] ≠ [] := fun i => (h.cycle _ (List.getElem_mem _)).1
  have hpt : ∀ i : Fin cs.length, ∃ y : Fin n, (y : Nat) ∈ cs[i] := by
    intro i
    obtain ⟨x, hx⟩ := List.exists_mem_of_ne_nil _ (hne i)
    exact ⟨⟨x, hlt _ (List.getElem_mem _) x hx⟩, hx⟩
  choose pt hptm using hpt
  have hip : ∀ i, idx (pt i) = i := fun i => Fin.ext (decomp_index h (idx (pt i)).isLt i.isLt (hidx (pt i)) (hptm i))
  let e : fixSpace π ≃ₗ[ℚ] (Fin cs.length → ℚ) :=
    { toFun := fun f i => f.1 (pt i)
      invFun := fun g => ⟨fun x => g (idx x), fun x => by simp only [hidx_pi]⟩
      map_add' := fun f g => rfl
      map_smul' := fun c f => rfl
      left_inv := by
        rintro ⟨f, hf⟩
        apply Subtype.ext
        funext x
        exact (h.cycle _ (List.getElem_mem (idx x).isLt)).fix_const hf (hlt _ (List.getElem_mem _)) (hptm (idx x)) (hidx x)
      right_inv := by intro g; funext i; simp only; rw [hip] }
  rw [e.finrank_eq, Module.finrank_fin_fun]

theorem sign_eq_inv (π : Perm (Fin n)) : Perm.sign π = (-1) ^ inv π := by
  induction π using perm_induction with
  | h1 => simp [inv_one]
  | hs π i h hlt ih =>
    rw [inv_mul_sg_up π h hlt, Perm.sign_mul, ih, sg_eq h, Perm.sign_swap (by simp), pow_succ]

theorem units_pow_inj {a b : Nat} (h : ((-1 : ℤˣ)) ^ a = (-1) ^ b) : a % 2 = b % 2 := by
  rcases Nat.even_or_odd a with ha | ha <;> rcases Nat.even_or_odd b with hb | hb
  · rw [Nat.even_iff.1 ha, Nat.even_iff.1 hb]
  · rw [ha.neg_one_pow, hb.neg_one_pow] at h; exact absurd h (by decide)
  · rw [ha.neg_one_pow, hb.neg_one_pow] at h; exact absurd h (by decide)
  · rw [Nat.odd_iff.1 ha, Nat.odd_iff.1 hb]

theorem parity_spec (π : Perm (Fin n)) : parity (wordOf π) = .ok (inv π % 2) := by
  obtain ⟨cs, h1, h2, h3⟩ := cycles_spec π
  rw [parity, h3]
  simp only [bind, Except.bind, List.length_insertionSort, List.length_map, length_wordOf]
  have h4 := rlen_add π
  rw [decomp_finrank h2] at h4
  have h5 : rlen π % 2 = inv π % 2 := units_pow_inj (by rw [← sign_eq_rlen, sign_eq_inv])
  congr 1
  omega

end Peyl
