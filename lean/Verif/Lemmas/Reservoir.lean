import Verif.Lemmas.BraidSearch
import Mathlib.Tactic.Ring
/-! # Reservoir sampling is uniform -/
namespace Peyl
namespace BraidSearch
variable {β : Type} [DecidableEq β]

/-- Contents of a reservoir of size `K` after the first `N` items of `xs`, the draws being read from `w`. -/
def contents (K : Nat) (xs : Nat → β) (w : List Nat) : Nat → List β
  | 0 => []
  | N + 1 =>
    if N < K then contents K xs w N ++ [xs N]
    else if w.getD (N - K) 0 < K then (contents K xs w N).set (w.getD (N - K) 0) (xs N) else contents K xs w N

theorem contents_length (K : Nat) (xs : Nat → β) (w : List Nat) : ∀ N, (contents K xs w N).length = min N K
  | 0 => by simp [contents]
  | N + 1 => by
    rw [contents]
    split
    · simp [contents_length K xs w N]; omega
    · split
      · simp [contents_length K xs w N]; omega
      · rw [contents_length K xs w N]; omega

theorem contents_mem (K : Nat) (xs : Nat → β) (w : List Nat) : ∀ N, ∀ x ∈ contents K xs w N, ∃ i < N, x = xs i
  | 0 => by simp [contents]
  | N + 1 => by
    intro x hx
    rw [contents] at hx
    have hlift : x ∈ contents K xs w N → ∃ i < N + 1, x = xs i := fun h => by
      obtain ⟨i, hi, e⟩ := contents_mem K xs w N x h
      exact ⟨i, by omega, e⟩
    split at hx
    · rcases List.mem_append.1 hx with h | h
      · exact hlift h
      · simp at h; exact ⟨N, by omega, h⟩
    · split at hx
      · rcases List.mem_or_eq_of_mem_set hx with h | h
        · exact hlift h
        · exact ⟨N, by omega, h⟩
      · exact hlift hx

theorem nodup_set {α : Type} {l : List α} {x : α} (h : l.Nodup) (hx : x ∉ l) (j : Nat) : (l.set j x).Nodup := by
  by_cases hj : j < l.length
  · have := Bucketing.set_perm_cons l j x hj
    have h2 : (l ++ [x]).Nodup := by
      rw [List.nodup_append]
      exact ⟨h, by simp, fun a ha b hb => by simp at hb; subst hb; rintro rfl; exact hx ha⟩
    exact ((this.nodup_iff).2 h2).sublist (List.sublist_append_left _ _)
  · rw [List.set_eq_of_length_le (by omega)]; exact h

theorem contents_nodup (K : Nat) (xs : Nat → β) (w : List Nat) : ∀ N, (∀ i < N, ∀ j < N, xs i = xs j → i = j) → (contents K xs w N).Nodup
  | 0, _ => by simp [contents]
  | N + 1, h => by
    have ih := contents_nodup K xs w N fun i hi j hj e => h i (by omega) j (by omega) e
    have hn : xs N ∉ contents K xs w N := fun hm => by
      obtain ⟨i, hi, e⟩ := contents_mem K xs w N _ hm
      have := h N (by omega) i (by omega) e
      omega
    rw [contents]
    split
    · rw [List.nodup_append]
      exact ⟨ih, by simp, fun a ha b hb => by simp at hb; subst hb; rintro rfl; exact hn ha⟩
    · split
      · exact nodup_set ih hn _
      · exact ih

theorem contents_congr (K : Nat) (xs : Nat → β) (w w' : List Nat) : ∀ N, (∀ i < N - K, w.getD i 0 = w'.getD i 0) →
    contents K xs w N = contents K xs w' N
  | 0, _ => rfl
  | N + 1, h => by
    rw [contents, contents]
    have ih := contents_congr K xs w w' N fun i hi => h i (by omega)
    split
    · rw [ih]
    · next hN => rw [ih, h (N - K) (by omega)]

theorem tapes_length {K : Nat} : ∀ N, ∀ w ∈ tapes K N, w.length = N - K
  | 0, w, h => by simp [tapes] at h; subst h; simp
  | N + 1, w, h => by
    rw [tapes] at h
    split at h
    · obtain ⟨w', hw', hj⟩ := List.mem_flatMap.1 h
      obtain ⟨j, -, rfl⟩ := List.mem_map.1 hj
      rw [List.length_append, tapes_length N w' hw', List.length_singleton]; omega
    · simp at h; subst h; simp; omega

theorem tapes_lt {K : Nat} : ∀ N, ∀ w ∈ tapes K N, ∀ i (h : i < w.length), w[i] < i + K + 1
  | 0, w, h => by simp [tapes] at h; subst h; simp
  | N + 1, w, h => by
    rw [tapes] at h
    split at h
    · obtain ⟨w', hw', hj⟩ := List.mem_flatMap.1 h
      obtain ⟨j, hj, rfl⟩ := List.mem_map.1 hj
      have hlen := tapes_length N w' hw'
      intro i hi
      rw [List.getElem_append]
      split
      · next hi' => exact tapes_lt N w' hw' i hi'
      · next hi' =>
        simp at hi hj ⊢; omega
    · simp at h; subst h; simp

theorem tapes_count {K : Nat} : ∀ N, K ≤ N → (tapes K N).length * K.factorial = N.factorial
  | 0, h => by
    have : K = 0 := by omega
    subst this; simp [tapes]
  | N + 1, h => by
    rw [tapes]
    split
    · next hK =>
      rw [List.length_flatMap]
      simp only [List.length_map, List.length_range, List.map_const', List.sum_replicate, smul_eq_mul]
      rw [Nat.factorial_succ, ← tapes_count N hK]; ring
    · have : K = N + 1 := by omega
      subst this; simp

theorem countP_range_ne (n s : Nat) (hs : s < n) : (List.range n).countP (fun j => decide (j ≠ s)) = n - 1 := by
  have h := List.length_eq_countP_add_countP (fun j => decide (j ≠ s)) (l := List.range n)
  have h2 : (List.range n).countP (fun j => decide ¬(decide (j ≠ s) = true)) = (List.range n).count s := by
    rw [List.count]
    refine List.countP_congr fun j _ => ?_
    simp
  rw [h2, List.count_eq_one_of_mem List.nodup_range (by simpa using hs), List.length_range] at h
  omega

theorem countP_range_lt : ∀ n k, k ≤ n → (List.range n).countP (fun j => decide (j < k)) = k
  | 0, k, h => by have : k = 0 := by omega
                  subst this; rfl
  | n + 1, k, h => by
    rw [List.range_succ, List.countP_append]
    by_cases hk : k ≤ n
    · rw [countP_range_lt n k hk]; simp; omega
    · have : k = n + 1 := by omega
      subst this
      have : (List.range n).countP (fun j => decide (j < n + 1)) = n := by
        conv_rhs => rw [← List.length_range (n := n)]
        rw [List.countP_eq_length]
        intro a ha; simp at ha ⊢; omega
      rw [this]; simp

open Classical in
/-- The count for one more draw. -/
theorem count_step {K N : Nat} (hK : K ≤ N) (xs : Nat → β) (hd : ∀ i < N + 1, ∀ j < N + 1, xs i = xs j → i = j) (m : Nat) (hm : m < N + 1)
    (w : List Nat) (hw : w.length = N - K) :
    ((List.range (N + 1)).map fun j => w ++ [j]).countP (fun w' => decide (xs m ∈ contents K xs w' (N + 1))) =
      if m = N then K else if xs m ∈ contents K xs w N then N else 0 := by
  rw [List.countP_map]
  have hc : ∀ j, contents K xs (w ++ [j]) (N + 1) = if j < K then (contents K xs w N).set j (xs N) else contents K xs w N := by
    intro j
    have e : contents K xs (w ++ [j]) N = contents K xs w N := contents_congr K xs _ _ N fun i hi => by
      rw [List.getD_eq_getElem?_getD, List.getElem?_append_left (by omega), ← List.getD_eq_getElem?_getD]
    have e2 : (w ++ [j]).getD (N - K) 0 = j := by simp [← hw]
    rw [contents, if_neg (by omega), e2, e]
  have hlen : (contents K xs w N).length = K := by rw [contents_length]; omega
  have hnd := contents_nodup K xs w N fun i hi j hj e => hd i (by omega) j (by omega) e
  split
  · next e =>
    subst e
    have hn : xs m ∉ contents K xs w m := fun h => by
      obtain ⟨i, hi, e⟩ := contents_mem K xs w m _ h
      have := hd m (by omega) i (by omega) e
      omega
    refine Eq.trans ?_ (countP_range_lt (m + 1) K (by omega))
    refine List.countP_congr fun j _ => ?_
    simp only [Function.comp, hc, decide_eq_true_eq]
    split
    · next hj => simp only [hj, iff_true]; exact List.mem_set (by omega) _
    · next hj => simp only [hj, iff_false]; exact hn
  · next hne =>
    split
    · next hmem =>
      obtain ⟨s, hs, e⟩ := List.getElem_of_mem hmem
      refine Eq.trans ?_ ((countP_range_ne (N + 1) s (by omega)).trans (Nat.add_sub_cancel (n := N) (m := 1)))
      refine List.countP_congr fun j _ => ?_
      simp only [Function.comp, hc, decide_eq_true_eq]
      split
      · next hj =>
        constructor
        · rintro h rfl
          obtain ⟨k, hk, ek⟩ := List.getElem_of_mem h
          rw [List.getElem_set] at ek
          split at ek
          · have := hd N (by omega) m (by omega) ek; omega
          · next hjk =>
            rw [← e] at ek
            have := (List.Nodup.getElem_inj_iff hnd).1 ek
            omega
        · intro hjs
          refine List.mem_iff_getElem.2 ⟨s, by simpa using hs, ?_⟩
          rw [List.getElem_set, if_neg hjs, e]
      · next hj =>
        have : j ≠ s := by omega
        simp [hmem, this]
    · next hmem =>
      rw [List.countP_eq_zero]
      intro j _
      simp only [Function.comp, hc, decide_eq_true_eq]
      split
      · intro h
        rcases List.mem_or_eq_of_mem_set h with h | h
        · exact hmem h
        · have := hd m (by omega) N (by omega) h; omega
      · exact hmem

open Classical in
theorem contents_full (K : Nat) (xs : Nat → β) (w : List Nat) : ∀ N ≤ K, contents K xs w N = (List.range N).map xs
  | 0, _ => rfl
  | N + 1, h => by rw [contents, if_pos (by omega), contents_full K xs w N (by omega), List.range_succ, List.map_append]; rfl

open Classical in
/-- Every item is retained in exactly the fraction `K / N` of all outcomes. -/
theorem reservoir_uniform {K : Nat} (xs : Nat → β) (m : Nat) : ∀ N, K ≤ N → m < N → (∀ i < N, ∀ j < N, xs i = xs j → i = j) →
    (tapes K N).countP (fun w => decide (xs m ∈ contents K xs w N)) * N = K * (tapes K N).length
  | 0, _, hm, _ => absurd hm (by omega)
  | N + 1, hK, hm, hd => by
    rw [tapes]
    split
    · next hKN =>
      have hlen : ((tapes K N).flatMap fun w => (List.range (N + 1)).map fun j => w ++ [j]).length = (tapes K N).length * (N + 1) := by
        rw [List.length_flatMap]
        simp
      have hcount : ((tapes K N).flatMap fun w => (List.range (N + 1)).map fun j => w ++ [j]).countP
            (fun w => decide (xs m ∈ contents K xs w (N + 1))) =
          ((tapes K N).map fun w => if m = N then K else if xs m ∈ contents K xs w N then N else 0).sum := by
        rw [List.countP_flatMap]
        congr 1
        refine List.map_congr_left fun w hw => ?_
        exact count_step hKN xs hd m hm w (tapes_length N w hw)
      rw [hlen, hcount]
      by_cases e : m = N
      · subst e
        simp only [if_true, List.map_const', List.sum_replicate, smul_eq_mul]
        ring
      · simp only [if_neg e]
        have ih := reservoir_uniform xs m N hKN (by omega) fun i hi j hj e => hd i (by omega) j (by omega) e
        have hs : ((tapes K N).map fun w => if xs m ∈ contents K xs w N then N else 0).sum =
            (tapes K N).countP (fun w => decide (xs m ∈ contents K xs w N)) * N := by
          induction tapes K N with
          | nil => simp
          | cons w ws ih' =>
            rw [List.map_cons, List.sum_cons, ih', List.countP_cons]
            by_cases h : xs m ∈ contents K xs w N <;> simp [h] <;> ring
        rw [hs, ih]; ring
    · next hKN =>
      have hK' : K = N + 1 := by omega
      subst hK'
      have hmem : xs m ∈ contents (N + 1) xs [] (N + 1) := by
        rw [contents_full _ _ _ _ le_rfl]; exact List.mem_map.2 ⟨m, by simpa using hm, rfl⟩
      simp [List.countP_cons, hmem]

end BraidSearch
end Peyl
