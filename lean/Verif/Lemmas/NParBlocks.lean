import Verif.Lemmas.NPar
/-!
# Noncrossing permutations are the parallel descending ones; blocks
-/
namespace Peyl
open Equiv Perms TL
variable {n : Nat}

theorem Descending.min_max {x : Perm (Fin n)} (h : Descending x) {m : Fin n} (hm : ∀ a, x.SameCycle a m → m ≤ a) {a : Fin n}
    (ha : x.SameCycle a m) : a ≤ x m := by
  have key : ∀ M : Fin n, x.SameCycle M m → (∀ b, x.SameCycle b m → b ≤ M) → M = x m := by
    intro M h1 h2
    by_contra hc
    set k := x⁻¹ M with hk
    have hxk : x k = M := inv_apply x M
    have hkm : k ≠ m := fun e => hc (by rw [← hxk, e])
    have hs : x.SameCycle k m := by rw [← Perm.sameCycle_apply_left, hxk]; exact h1
    have := h m k hs.symm (lt_of_le_of_ne (hm k hs) (Ne.symm hkm))
    rw [hxk] at this
    exact absurd (h2 k hs) (not_le.2 this.2)
  obtain ⟨M, h1, h2⟩ := Finset.exists_max_image (Finset.univ.filter fun b => x.SameCycle b m) id ⟨m, by simp [Perm.SameCycle.refl]⟩
  simp only [Finset.mem_filter, Finset.mem_univ, true_and, id] at h1 h2
  rw [← key M h1 h2]; exact h2 a ha

theorem Descending.lt_or_min {x : Perm (Fin n)} (h : Descending x) (b : Fin n) :
    (x b < b ∧ ∀ a, x.SameCycle a b → a < b → a ≤ x b) ∨ (∀ a, x.SameCycle a b → b ≤ a ∧ a ≤ x b) := by
  by_cases hm : ∃ a, x.SameCycle a b ∧ a < b
  · obtain ⟨a, h1, h2⟩ := hm
    exact Or.inl ⟨(h a b h1 h2).2, fun c h3 h4 => (h c b h3 h4).1⟩
  · push Not at hm
    exact Or.inr fun a ha => ⟨hm a ha, h.min_max (fun a ha => hm a ha) ha⟩

theorem Descending.unique {x y : Perm (Fin n)} (hx : Descending x) (hy : Descending y) (h : ∀ a b, x.SameCycle a b ↔ y.SameCycle a b) : x = y := by
  ext b
  have sx : x.SameCycle (x b) b := Perm.sameCycle_apply_left.2 (.refl _ _)
  have sy : y.SameCycle (y b) b := Perm.sameCycle_apply_left.2 (.refl _ _)
  rcases hx.lt_or_min b with ⟨h1, h2⟩ | h1 <;> rcases hy.lt_or_min b with ⟨h3, h4⟩ | h3
  · exact congrArg _ (le_antisymm (h4 _ ((h _ _).1 sx) h1) (h2 _ ((h _ _).2 sy) h3))
  · exact absurd (h3 _ ((h _ _).1 sx)).1 (not_le.2 h1)
  · exact absurd (h1 _ ((h _ _).2 sy)).1 (not_le.2 h3)
  · exact congrArg _ (le_antisymm (h3 _ ((h _ _).1 sx)).2 (h1 _ ((h _ _).2 sy)).2)

theorem NCP.parallel {x : Perm (Fin n)} (h : NCP x) : ParallelDescending x :=
  ⟨fun _ _ h1 h2 => h.descend h1.symm h2, fun _ _ _ _ h1 h2 h3 h4 h5 => h.cross h1 h2 h3 h4 h5⟩

theorem ncp_of_parallel {x : Perm (Fin n)} (h : ParallelDescending x) : NCP x := by
  obtain ⟨hd, hc⟩ := h
  intro i j hij
  have si : x.SameCycle (x i) i := Perm.sameCycle_apply_left.2 (.refl _ _)
  have sj : x.SameCycle (x j) j := Perm.sameCycle_apply_left.2 (.refl _ _)
  have cross : ∀ a b c d : Fin n, a < b → b < c → c < d → x.SameCycle a c → x.SameCycle b d → x.SameCycle a b := hc
  by_cases hs : x.SameCycle i j
  · rcases hd.lt_or_min i with ⟨h1, h2⟩ | h1 <;> rcases hd.lt_or_min j with ⟨h3, h4⟩ | h3
    · have a1 := h2 j hs.symm
      have a2 := h2 (x j) (sj.trans hs.symm)
      have a3 := h4 i hs
      have a4 := h4 (x i) (si.trans hs)
      rw [Fin.lt_def] at *; simp only [Fin.le_def] at *
      by_cases a5 : (j : Nat) < i
      · have := a1 a5; omega
      · by_cases a6 : (i : Nat) < j
        · have := a3 a6; omega
        · omega
    · have a1 := (h3 i hs).1
      have a2 := (h3 (x i) (si.trans hs)).1
      simp only [Fin.lt_def, Fin.le_def] at *; omega
    · have a1 := (h1 j hs.symm).2
      have a2 := (h1 (x j) (sj.trans hs.symm)).2
      simp only [Fin.lt_def, Fin.le_def] at *; omega
    · have a1 := h1 j hs.symm
      have a2 := h3 i hs
      simp only [Fin.lt_def, Fin.le_def] at *; omega
  · have ne : ∀ a b, x.SameCycle a i → x.SameCycle b j → (a : Nat) ≠ b := fun a b h1 h2 e => hs (h1.symm.trans ((Fin.ext e : a = b) ▸ h2))
    have n1 := ne i j (.refl _ _) (.refl _ _)
    have n2 := ne (x i) j si (.refl _ _)
    have n3 := ne i (x j) (.refl _ _) sj
    have n4 := ne (x i) (x j) si sj
    have num : (x i < x j ∧ x j < i ∧ i < j) ∨ (x i < j ∧ j < i ∧ i < x j) ∨ (i < x j ∧ x j < x i ∧ x i < j) ∨ (i < j ∧ j < x i ∧ x i < x j) := by
      simp only [Fin.lt_def]
      clear cross hc hd ne hs si sj
      omega
    rcases num with ⟨h1, h2, h3⟩ | ⟨h1, h2, h3⟩ | ⟨h1, h2, h3⟩ | ⟨h1, h2, h3⟩
    · exact hs (si.symm.trans ((cross (x i) (x j) i j h1 h2 h3 si sj).trans sj))
    · exact hs (si.symm.trans (cross (x i) j i (x j) h1 h2 h3 si sj.symm))
    · exact hs ((cross i (x j) (x i) j h1 h2 h3 si.symm sj).trans sj)
    · exact hs (cross i j (x i) (x j) h1 h2 h3 si.symm sj.symm)

theorem ncp_iff {x : Perm (Fin n)} : NCP x ↔ ParallelDescending x := ⟨NCP.parallel, ncp_of_parallel⟩

/-- The blocks of `nparOf x` are the cycles of `x`. -/
theorem nparOf_blocks (x : Perm (Fin n)) (a b : Fin n) : (nparOf x).blocks a b ↔ x.SameCycle a b := by
  have step : ∀ a b : Fin n, at_ (nparOf x).inv (2 * a + 1) = 2 * b ↔ x⁻¹ a = b := fun a b => by
    rw [nparOf_odd, Fin.ext_iff]; omega
  constructor
  · intro h
    induction h with
    | rel a b h => rw [← (step a b).1 h]; exact Perm.sameCycle_symm_apply_right.2 (.refl _ _)
    | refl a => exact .refl _ _
    | symm a b _ ih => exact ih.symm
    | trans a b c _ _ h1 h2 => exact h1.trans h2
  · intro h
    refine sameCycle_mem (p := fun j => (nparOf x).blocks a j) (fun i hi => ?_) h (Setoid.refl' _ a)
    exact (nparOf x).blocks.trans' hi (Relation.EqvGen.symm _ _ (Relation.EqvGen.rel _ _ ((step _ _).2 (apply_inv x i))))

/-! ### Components -/

theorem groupLoop_eq (x : Perm (Fin n)) (i fuel j : Nat) (g : List Nat) (seen : List Bool) (hj : j < n) (hs : seen.length = n) :
    NPar.groupLoop (nparOf x).inv i fuel j g seen = cycleLoop (wordOf x⁻¹) i fuel j g seen := by
  induction fuel generalizing j g seen with
  | zero => rfl
  | succ fuel ih =>
    unfold NPar.groupLoop cycleLoop
    rw [lookup_lt (by omega), bind_ok, lookup_at _ _ (by rw [nparOf_length]; omega), bind_ok, nparOf_odd x ⟨j, hj⟩, wordOf_getD _ _ hj]
    have e : 2 * ((x⁻¹ ⟨j, hj⟩ : Fin n) : Nat) / 2 = (x⁻¹ ⟨j, hj⟩ : Fin n) := by omega
    simp only [e]
    rw [ih _ _ _ (x⁻¹ ⟨j, hj⟩).2 (by simpa using hs)]
    by_cases h : i = ((x⁻¹ ⟨j, hj⟩ : Fin n) : Nat)
    · rw [if_pos h, if_pos h.symm]
    · rw [if_neg h, if_neg (Ne.symm h)]

theorem components_eq (x : Perm (Fin n)) : (nparOf x).components = disjointCycles (wordOf x⁻¹) := by
  have key : ∀ (l : List Nat), (∀ i ∈ l, i < n) → ∀ st : List (List Nat) × List Bool, st.2.length = n →
      l.foldlM (init := st) (fun st i => (do
        if st.2.getD i false then .ok st
        else do
          let c ← NPar.groupLoop (nparOf x).inv i n i [] st.2
          .ok (st.1 ++ [c.1], c.2) : Except Err _)) =
      l.foldlM (init := st) (fun st i => (do
        if st.2.getD i false then .ok st
        else
          let c ← cycleLoop (wordOf x⁻¹) i (wordOf x⁻¹).length i [] st.2
          .ok (st.1 ++ [c.1], c.2) : Except Err _)) := by
    intro l
    induction l with
    | nil => intros; rfl
    | cons i l ih =>
      intro hl st hst
      have hi := hl i (by simp)
      rw [List.foldlM_cons, List.foldlM_cons]
      by_cases hv : st.2.getD i false = true
      · simp only [hv, if_true, bind_ok]; exact ih (fun j hj => hl j (by simp [hj])) st hst
      · simp only [hv]
        rw [groupLoop_eq x i n i [] st.2 hi hst, length_wordOf]
        obtain ⟨vis', h1, h2, -⟩ := cycleLoop_spec x⁻¹ ⟨i, hi⟩ n 0 st.2 (period_pos _ _) (by have := period_le x⁻¹ ⟨i, hi⟩; omega) hst
        have h1' : cycleLoop (wordOf x⁻¹) i n i [] st.2 = .ok (orbitList x⁻¹ ⟨i, hi⟩ (period x⁻¹ ⟨i, hi⟩), vis') := h1
        rw [h1']
        simp only [bind_ok, Bool.false_eq_true, if_false]
        have := ih (fun j hj => hl j (by simp [hj])) (st.1 ++ [orbitList x⁻¹ ⟨i, hi⟩ (period x⁻¹ ⟨i, hi⟩)], vis') h2
        simp only [length_wordOf] at this
        exact this
  unfold NPar.components disjointCycles
  have := key (List.range n) (fun i hi => List.mem_range.1 hi) ([], List.replicate n false) (by simp)
  simp only [length_wordOf] at this ⊢
  show (List.foldlM _ _ (List.range n) >>= _) = _
  rw [show (nparOf x).n = n from rfl, this]

theorem decomp_lt {π : Perm (Fin n)} {cs : List (List Nat)} (h : IsCycleDecomp (wordOf π) cs) {c : List Nat} (hc : c ∈ cs) {k : Nat} (hk : k ∈ c) : k < n := by
  have := h.cover.mem_iff.1 (List.mem_flatten.2 ⟨c, hc, hk⟩)
  simpa using this

theorem decomp_nodup {π : Perm (Fin n)} {cs : List (List Nat)} (h : IsCycleDecomp (wordOf π) cs) : cs.flatten.Nodup :=
  h.cover.nodup_iff.2 List.nodup_range

/-- The lists of a cycle decomposition are the cycles. -/
theorem decomp_block {π : Perm (Fin n)} {cs : List (List Nat)} (h : IsCycleDecomp (wordOf π) cs) (a b : Fin n) :
    π.SameCycle a b ↔ ∃ c ∈ cs, (a : Nat) ∈ c ∧ (b : Nat) ∈ c := by
  constructor
  · intro hs
    obtain ⟨c, hc, ha⟩ := List.mem_flatten.1 (h.cover.mem_iff.2 (show (a : Nat) ∈ List.range (wordOf π).length by simp))
    exact ⟨c, hc, ha, sameCycle_mem (p := fun j => (j : Nat) ∈ c) (fun i hi => (h.cycle c hc).closed hi) hs ha⟩
  · rintro ⟨c, hc, ha, hb⟩
    rw [← fix_iff_sameCycle]
    exact fun f hf => (h.cycle c hc).fix_const hf (fun k hk => decomp_lt h hc hk) ha hb

/-- One step along a listed cycle. -/
theorem cycle_step {π : Perm (Fin n)} {c : List Nat} (h : IsCycleOf (wordOf π) c) (hlt : ∀ k ∈ c, k < n) {i : Nat} (hi : i + 1 < c.length) :
    ((π ⟨c[i], hlt _ (List.getElem_mem _)⟩ : Fin n) : Nat) = c[i + 1] := by
  have h2 := h.2.1 i (by omega)
  rw [Nat.mod_eq_of_lt hi, List.getD_eq_getElem?_getD, List.getD_eq_getElem?_getD, List.getD_eq_getElem?_getD, List.getElem?_eq_getElem hi,
    List.getElem?_eq_getElem (l := c) (i := i) (by omega)] at h2
  simp only [Option.getD_some] at h2
  have hl := hlt c[i] (List.getElem_mem _)
  rw [List.getElem?_eq_getElem (by simpa using hl), wordOf_getElem] at h2
  simpa using h2

theorem cycle_last {π : Perm (Fin n)} {c : List Nat} (h : IsCycleOf (wordOf π) c) (hlt : ∀ k ∈ c, k < n) {i : Nat} (hi : i + 1 = c.length) :
    ((π ⟨c[i], hlt _ (List.getElem_mem _)⟩ : Fin n) : Nat) = c[0] := by
  have h2 := h.2.1 i (by omega)
  rw [hi, Nat.mod_self, List.getD_eq_getElem?_getD, List.getD_eq_getElem?_getD, List.getD_eq_getElem?_getD, List.getElem?_eq_getElem (l := c) (i := 0) (by omega),
    List.getElem?_eq_getElem (l := c) (i := i) (by omega)] at h2
  simp only [Option.getD_some] at h2
  have hl := hlt c[i] (List.getElem_mem _)
  rw [List.getElem?_eq_getElem (by simpa using hl), wordOf_getElem] at h2
  simpa using h2

theorem components_spec {x : Perm (Fin n)} (hx : NCP x) : ∃ cs, (nparOf x).components = .ok cs ∧ IsCycleDecomp (wordOf x⁻¹) cs ∧
    IsBlockList (Perm.SameCycle.setoid x) cs := by
  obtain ⟨cs, h1, h2, -⟩ := cycles_spec x⁻¹
  refine ⟨cs, by rw [components_eq, h1], h2, ⟨fun c hc => (h2.cycle c hc).1, fun c hc => ?_, h2.sorted, by simpa using h2.cover, fun a b => ?_⟩⟩
  · have hcyc := h2.cycle c hc
    have hlt : ∀ k ∈ c, k < n := fun k hk => decomp_lt h2 hc hk
    have hnd : c.Nodup := (List.nodup_flatten.1 (decomp_nodup h2)).1 c hc
    have hpos : 0 < c.length := List.length_pos_iff.2 hcyc.1
    have hmin : ∀ k ∈ c, c[0] ≤ k := fun k hk => by
      have := hcyc.2.2 k hk
      rwa [List.getD_eq_getElem?_getD, List.getElem?_eq_getElem hpos] at this
    have hasc : ∀ i (hi : i + 1 < c.length), c[i] < c[i + 1] := by
      intro i hi
      have st := cycle_step hcyc hlt hi
      set a : Fin n := ⟨c[i], hlt _ (List.getElem_mem _)⟩ with ha
      set b : Fin n := ⟨c[i + 1], hlt _ (List.getElem_mem _)⟩ with hb
      have e : x⁻¹ a = b := Fin.ext st
      have e' : x b = a := by rw [← e, inv_apply]
      set m : Fin n := ⟨c[0], hlt _ (List.getElem_mem _)⟩ with hm
      have hs : x.SameCycle b m := by
        rw [← Perm.sameCycle_inv]
        exact (decomp_block h2 b m).2 ⟨c, hc, List.getElem_mem _, List.getElem_mem _⟩
      have hne : c[0] ≠ c[i + 1] := fun e => by have := (hnd.getElem_inj_iff).1 e; omega
      have := hx.descend hs (lt_of_le_of_ne (hmin _ (List.getElem_mem _)) hne : c[0] < c[i + 1])
      rw [e'] at this
      exact this.2
    rw [List.pairwise_iff_getElem]
    intro i j hi hj hij
    induction j, hij using Nat.le_induction with
    | base => exact hasc i hj
    | succ j hij ih => exact (ih (by omega)).trans (hasc j hj)
  · show x.SameCycle a b ↔ _
    rw [← decomp_block h2, Perm.sameCycle_inv]

theorem mem_pairs2 {l : List Nat} (hl : l.Pairwise (· < ·)) {e : Nat × Nat} : e ∈ NPar.pairs2 l ↔ e.1 ∈ l ∧ e.2 ∈ l ∧ e.1 < e.2 := by
  obtain ⟨a, b⟩ := e
  induction l with
  | nil => simp [NPar.pairs2]
  | cons x l ih =>
    rw [List.pairwise_cons] at hl
    simp only [NPar.pairs2, List.mem_append, List.mem_map, Prod.mk.injEq, ih hl.2, List.mem_cons]
    constructor
    · rintro (⟨y, h1, rfl, rfl⟩ | ⟨h1, h2, h3⟩)
      · exact ⟨Or.inl rfl, Or.inr h1, hl.1 _ h1⟩
      · exact ⟨Or.inr h1, Or.inr h2, h3⟩
    · rintro ⟨h1 | h1, h2 | h2, h3⟩
      · simp only at *; omega
      · exact Or.inl ⟨b, h2, h1.symm, rfl⟩
      · have := hl.1 _ h1; simp only at *; omega
      · exact Or.inr ⟨h1, h2, h3⟩

theorem edges_spec {x : Perm (Fin n)} (hx : NCP x) : ∃ es, (nparOf x).edges = .ok es ∧
    ∀ a b : Nat, (a, b) ∈ es ↔ ∃ (ha : a < n) (hb : b < n), a < b ∧ x.SameCycle ⟨a, ha⟩ ⟨b, hb⟩ := by
  obtain ⟨cs, h1, h2, h3⟩ := components_spec hx
  refine ⟨cs.flatMap NPar.pairs2, by rw [NPar.edges, h1, bind_ok], fun a b => ?_⟩
  rw [List.mem_flatMap]
  constructor
  · rintro ⟨c, hc, h⟩
    obtain ⟨k1, k2, k3⟩ := (mem_pairs2 (h3.ascending c hc)).1 h
    exact ⟨decomp_lt h2 hc k1, decomp_lt h2 hc k2, k3, (h3.block _ _).2 ⟨c, hc, k1, k2⟩⟩
  · rintro ⟨ha, hb, h, hs⟩
    obtain ⟨c, hc, k1, k2⟩ := (h3.block ⟨a, ha⟩ ⟨b, hb⟩).1 hs
    exact ⟨c, hc, (mem_pairs2 (h3.ascending c hc)).2 ⟨k1, k2, h⟩⟩

end Peyl
