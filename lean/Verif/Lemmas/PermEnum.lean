import Verif.Lemmas.PermWord
/-!
# `is_permutation`, enumeration of the symmetric group
-/
namespace Peyl
open Equiv Perms

variable {n : Nat}

theorem foldl_min_spec (l : List Int) (x : Int) : l.foldl min x ≤ x ∧ (∀ y ∈ l, l.foldl min x ≤ y) ∧ (l.foldl min x = x ∨ l.foldl min x ∈ l) := by
  induction l generalizing x with
  | nil => simp
  | cons a l ih =>
    obtain ⟨h1, h2, h3⟩ := ih (min x a)
    rw [List.foldl_cons]
    refine ⟨by omega, ?_, ?_⟩
    · intro y hy
      rcases List.mem_cons.1 hy with rfl | hy
      · omega
      · exact h2 y hy
    · rcases h3 with h3 | h3
      · rcases min_choice x a with h4 | h4
        · left; omega
        · right; rw [h3, h4]; simp
      · right; simp [h3]

theorem foldl_max_spec (l : List Int) (x : Int) : x ≤ l.foldl max x ∧ (∀ y ∈ l, y ≤ l.foldl max x) ∧ (l.foldl max x = x ∨ l.foldl max x ∈ l) := by
  induction l generalizing x with
  | nil => simp
  | cons a l ih =>
    obtain ⟨h1, h2, h3⟩ := ih (max x a)
    rw [List.foldl_cons]
    refine ⟨by omega, ?_, ?_⟩
    · intro y hy
      rcases List.mem_cons.1 hy with rfl | hy
      · omega
      · exact h2 y hy
    · rcases h3 with h3 | h3
      · rcases max_choice x a with h4 | h4
        · left; omega
        · right; rw [h3, h4]; simp
      · right; simp [h3]

theorem mask_testBit (l : List Int) (acc k : Nat) :
    (l.foldl (fun mask y => mask ||| (1 <<< y.toNat)) acc).testBit k = (acc.testBit k || l.any fun y => y.toNat == k) := by
  induction l generalizing acc with
  | nil => simp
  | cons a l ih =>
    rw [List.foldl_cons, ih, Nat.testBit_or, List.any_cons, Nat.one_shiftLeft, Nat.testBit_two_pow]
    by_cases h : a.toNat = k
    · simp [h]
    · have hb : (a.toNat == k) = false := by simpa using h
      rw [hb]; simp [h]

theorem mask_iff (l : List Int) : (l.foldl (fun mask y => mask ||| (1 <<< y.toNat)) 0 : Nat) = 2 ^ l.length - 1 ↔
    ∀ k, (∃ y ∈ l, y.toNat = k) ↔ k < l.length := by
  constructor
  · intro h k
    have := congrArg (fun m => m.testBit k) h
    simp only [mask_testBit, Nat.zero_testBit, Bool.false_or, Nat.testBit_two_pow_sub_one] at this
    rw [Bool.eq_iff_iff] at this
    simpa using this
  · intro h
    apply Nat.eq_of_testBit_eq
    intro k
    rw [mask_testBit, Nat.zero_testBit, Bool.false_or, Nat.testBit_two_pow_sub_one, Bool.eq_iff_iff]
    simpa using h k

theorem isPermutation_iff (l : List Int) : isPermutation l = true ↔ l.Nodup ∧ ∀ y ∈ l, 0 ≤ y ∧ y < l.length := by
  cases l with
  | nil => simp [isPermutation]
  | cons x xs =>
    set l := x :: xs with hl
    obtain ⟨m1, m2, m3⟩ := foldl_min_spec xs x
    obtain ⟨M1, M2, M3⟩ := foldl_max_spec xs x
    have hmin : ∀ y ∈ l, xs.foldl min x ≤ y := by
      intro y hy; rcases List.mem_cons.1 hy with rfl | hy
      · exact m1
      · exact m2 y hy
    have hmax : ∀ y ∈ l, y ≤ xs.foldl max x := by
      intro y hy; rcases List.mem_cons.1 hy with rfl | hy
      · exact M1
      · exact M2 y hy
    have hpos : 0 < l.length := by simp [hl]
    have key : isPermutation l = if xs.foldl min x ≠ 0 ∨ xs.foldl max x ≠ (l.length : Int) - 1 then false
      else (l.foldl (fun mask y => mask ||| (1 <<< y.toNat)) 0 : Nat) == 2 ^ l.length - 1 := rfl
    rw [key]
    -- surjectivity onto `[0, len)` is injectivity
    have hcard : (∀ y ∈ l, 0 ≤ y ∧ y < l.length) → ((∀ k, (∃ y ∈ l, y.toNat = k) ↔ k < l.length) ↔ l.Nodup) := by
      intro hr
      have hmem : ∀ k, k ∈ l.map Int.toNat ↔ ∃ y ∈ l, y.toNat = k := by intro k; simp
      have hnd : (l.map Int.toNat).Nodup ↔ l.Nodup := by
        constructor
        · exact List.Nodup.of_map _
        · intro h
          refine List.Nodup.map_on ?_ h
          intro a ha b hb hab
          have := hr a ha; have := hr b hb; omega
      rw [← hnd]
      constructor
      · intro h
        have hsub : List.range l.length ⊆ l.map Int.toNat := by
          intro k hk; rw [hmem, h]; simpa using hk
        have hsp := (List.nodup_range (n := l.length)).subperm hsub
        have := hsp.perm_of_length_le (by simp)
        exact this.nodup_iff.1 List.nodup_range
      · intro h k
        constructor
        · rintro ⟨y, hy, rfl⟩; have := hr y hy; omega
        · intro hk
          rw [← hmem]
          have hsub : l.map Int.toNat ⊆ List.range l.length := by
            intro k hk; rw [hmem] at hk; obtain ⟨y, hy, rfl⟩ := hk; have := hr y hy; rw [List.mem_range]; omega
          have := (h.subperm hsub).perm_of_length_le (by simp)
          rw [this.mem_iff]; simpa using hk
    by_cases h : xs.foldl min x ≠ 0 ∨ xs.foldl max x ≠ (l.length : Int) - 1
    · rw [if_pos h]
      constructor
      · intro hc; cases hc
      · rintro ⟨h1, h2⟩
        exfalso
        have h3 := (hcard h2).2 h1
        rcases h with h | h
        · obtain ⟨y, hy, hy0⟩ := (h3 0).2 hpos
          have := h2 y hy
          have := hmin y hy
          have : xs.foldl min x ∈ l := by rcases m3 with m3 | m3 <;> simp [hl, m3]
          have := h2 _ this
          omega
        · obtain ⟨y, hy, hy0⟩ := (h3 (l.length - 1)).2 (by omega)
          have := h2 y hy
          have := hmax y hy
          have : xs.foldl max x ∈ l := by rcases M3 with M3 | M3 <;> simp [hl, M3]
          have := h2 _ this
          omega
    · rw [if_neg h]
      push_neg at h
      have hr : ∀ y ∈ l, 0 ≤ y ∧ y < l.length := by
        intro y hy; have := hmin y hy; have := hmax y hy; omega
      rw [beq_iff_eq, mask_iff, hcard hr]
      exact ⟨fun h => ⟨h, hr⟩, fun h => h.1⟩

theorem permsOf_mem (k : Nat) (l w : List Nat) (hk : l.length = k) : w ∈ permsOf k l ↔ w.Perm l := by
  induction k generalizing l w with
  | zero =>
    rw [List.length_eq_zero_iff] at hk; subst hk
    simp [permsOf]
  | succ k ih =>
    simp only [permsOf, List.mem_flatMap, List.mem_range, List.mem_map]
    constructor
    · rintro ⟨i, hi, r, hr, rfl⟩
      rw [ih _ _ (by rw [List.length_eraseIdx_of_lt hi]; omega)] at hr
      have e : l.getD i 0 = l[i] := by rw [List.getD_eq_getElem?_getD, List.getElem?_eq_getElem hi]; rfl
      rw [e]
      exact (hr.cons _).trans (List.getElem_cons_eraseIdx_perm hi)
    · intro h
      cases w with
      | nil => have := h.length_eq; simp at this; omega
      | cons x r =>
        have hx : x ∈ l := h.subset (by simp)
        obtain ⟨i, hi, rfl⟩ := List.mem_iff_getElem.1 hx
        refine ⟨i, hi, r, ?_, ?_⟩
        · rw [ih _ _ (by rw [List.length_eraseIdx_of_lt hi]; omega)]
          exact (List.perm_cons l[i]).1 (h.trans (List.getElem_cons_eraseIdx_perm hi).symm)
        · rw [List.getD_eq_getElem?_getD, List.getElem?_eq_getElem hi]; rfl

theorem permsOf_nodup (k : Nat) (l : List Nat) (hk : l.length = k) (hl : l.Nodup) : (permsOf k l).Nodup := by
  induction k generalizing l with
  | zero => simp [permsOf]
  | succ k ih =>
    rw [permsOf, List.nodup_flatMap]
    constructor
    · intro i hi
      rw [List.mem_range] at hi
      refine List.Nodup.map ?_ (ih _ (by rw [List.length_eraseIdx_of_lt hi]; omega) (hl.sublist (List.eraseIdx_sublist _ _)))
      intro a b h; simpa using h
    · rw [List.pairwise_iff_getElem]
      intro i j hi hj hij
      rw [Function.onFun, List.disjoint_left]
      intro w h1 h2
      simp only [List.length_range] at hi hj
      simp only [List.getElem_range, List.mem_map] at h1 h2
      obtain ⟨_, _, rfl⟩ := h1
      obtain ⟨_, _, h2⟩ := h2
      rw [List.cons.injEq, List.getD_eq_getElem?_getD, List.getD_eq_getElem?_getD, List.getElem?_eq_getElem hi, List.getElem?_eq_getElem hj] at h2
      have := (List.Nodup.getElem_inj_iff hl).1 h2.1
      omega

theorem elements_mem (w : List Nat) : w ∈ elements n ↔ ∃ π : Perm (Fin n), w = wordOf π := by
  rw [elements, permsOf_mem _ _ _ (by simp)]
  constructor
  · intro h
    have hl := h.length_eq
    rw [List.length_range] at hl
    have hw : IsPermWord w := ⟨h.nodup_iff.2 List.nodup_range, fun k hk => by rw [hl]; exact List.mem_range.1 (h.mem_iff.1 hk)⟩
    obtain ⟨π, h⟩ := exists_wordOf hw hl
    exact ⟨π, h.symm⟩
  · rintro ⟨π, rfl⟩
    have h1 := isPermWord_wordOf π
    apply ((h1.1.subperm _).perm_of_length_le _)
    · intro k hk; have := h1.2 k hk; simpa using this
    · simp

theorem elements_nodup (n : Nat) : (elements n).Nodup := permsOf_nodup _ _ (by simp) List.nodup_range

theorem elements_length (n : Nat) : (elements n).length = n.factorial := by
  have h : (elements n).toFinset = Finset.univ.map ⟨wordOf (n := n), wordOf_injective⟩ := by
    ext w; simp [elements_mem, eq_comm]
  rw [← List.toFinset_card_of_nodup (elements_nodup n), h, Finset.card_map, Finset.card_univ, Fintype.card_perm, Fintype.card_fin]

end Peyl
