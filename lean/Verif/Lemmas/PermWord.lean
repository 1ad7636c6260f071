import Verif.Model.Permutations
import Verif.Lemmas.Inv
/-!
# Words of permutations
-/
namespace Peyl
open Equiv Perms

variable {n : Nat}

@[simp] theorem length_wordOf (π : Perm (Fin n)) : (wordOf π).length = n := by simp [wordOf]

theorem wordOf_getD (π : Perm (Fin n)) (i : Nat) (h : i < n) : (wordOf π).getD i 0 = (π ⟨i, h⟩ : Nat) := by
  simp [wordOf, List.getD_eq_getElem?_getD, List.getElem?_ofFn, h]

theorem wordOf_getElem (π : Perm (Fin n)) (i : Nat) (h : i < (wordOf π).length) :
    (wordOf π)[i] = (π ⟨i, by simpa using h⟩ : Nat) := by simp [wordOf]

theorem wordOf_injective : Function.Injective (wordOf (n := n)) := by
  intro x y h
  ext i
  have := congrArg (fun l => l.getD i.val 0) h
  simp only [wordOf_getD _ _ i.isLt] at this
  exact this

theorem isPermWord_wordOf (π : Perm (Fin n)) : IsPermWord (wordOf π) := by
  constructor
  · rw [wordOf, List.nodup_ofFn]
    intro a b h; exact π.injective (Fin.ext h)
  · intro k hk
    simp only [wordOf, List.mem_ofFn] at hk
    obtain ⟨i, rfl⟩ := hk
    simp

theorem exists_wordOf {w : List Nat} (h : IsPermWord w) (hn : w.length = n) : ∃ π : Perm (Fin n), wordOf π = w := by
  subst hn
  let f : Fin w.length → Fin w.length := fun i => ⟨w[i], h.2 _ (List.getElem_mem _)⟩
  have hf : Function.Injective f := by
    intro a b hab
    have : w[a] = w[b] := by simpa [f] using hab
    exact Fin.ext ((List.Nodup.getElem_inj_iff h.1).1 this)
  refine ⟨Equiv.ofBijective f (Finite.injective_iff_bijective.1 hf), ?_⟩
  apply List.ext_getElem (by simp)
  intro i h1 h2
  rw [wordOf_getElem]; rfl

/-- Extensionality for words. -/
theorem word_ext {w : List Nat} {π : Perm (Fin n)} (hl : w.length = n) (h : ∀ i (hi : i < n), w.getD i 0 = (π ⟨i, hi⟩ : Nat)) :
    w = wordOf π := by
  apply List.ext_getElem (by simp [hl])
  intro i h1 h2
  have := h i (by omega)
  rw [wordOf_getElem, ← this, List.getD_eq_getElem?_getD, List.getElem?_eq_getElem h1]; rfl

theorem identity_eq : identity n = wordOf (1 : Perm (Fin n)) :=
  word_ext (by simp [identity]) fun i hi => by simp [identity, hi]

theorem longestElement_eq : longestElement n = wordOf (w0 n) :=
  word_ext (by simp [longestElement]) fun i hi => by simp [longestElement, hi, w0, Fin.rev]; omega

theorem swap_eq (π : Perm (Fin n)) (i j : Nat) (hi : i < n) (hj : j < n) :
    Perms.swap (wordOf π) i j = wordOf (π * Equiv.swap ⟨i, hi⟩ ⟨j, hj⟩) := by
  apply word_ext (by simp [Perms.swap])
  intro k hk
  rw [Perms.swap, wordOf_getD _ _ hi, wordOf_getD _ _ hj, Perm.mul_apply, Equiv.swap_apply_def]
  simp only [List.getD_eq_getElem?_getD, List.getElem?_set, List.length_set, length_wordOf, Fin.ext_iff]
  by_cases h1 : j = k
  · subst h1
    by_cases h2 : j = i
    · subst h2; simp [hj]
    · simp [hj, h2]
  · by_cases h2 : i = k
    · subst h2; simp [h1, hi]
    · simp [h1, h2, Ne.symm h1, Ne.symm h2]
      have := wordOf_getD π k hk
      rw [List.getD_eq_getElem?_getD] at this
      rw [this]

theorem swap_adj (π : Perm (Fin n)) (i : Nat) (h : i + 1 < n) : Perms.swap (wordOf π) i (i + 1) = wordOf (π * sg n i) := by
  rw [swap_eq π i (i + 1) (by omega) h, sg_eq h]

theorem transposition_ok (i j : Nat) (hi : i < n) (hj : j < n) :
    transposition n i j = .ok (wordOf (Equiv.swap (⟨i, hi⟩ : Fin n) ⟨j, hj⟩)) := by
  rw [transposition, if_pos ⟨hi, hj⟩]
  have := swap_eq (1 : Perm (Fin n)) i j hi hj
  rw [one_mul, ← identity_eq, identity] at this
  rw [this]

theorem compose_eq (x y : Perm (Fin n)) : compose (wordOf x) (wordOf y) = .ok (wordOf (x * y)) := by
  rw [compose, if_neg (by simp)]
  congr 1
  apply word_ext (by simp)
  intro i hi
  rw [List.getD_eq_getElem?_getD, List.getElem?_map]
  have h1 : (wordOf y)[i]? = some (y ⟨i, hi⟩ : Nat) := by
    rw [List.getElem?_eq_getElem (by simpa using hi), wordOf_getElem]
  rw [h1]
  simp only [Option.map_some, Option.getD_some]
  rw [wordOf_getD _ _ (by simp)]
  simp

/-- The loop of `inverse` after the first `k` entries. -/
theorem inverse_eq (π : Perm (Fin n)) : inverse (wordOf π) = wordOf π⁻¹ := by
  have key : ∀ (l : List (Nat × Nat)) (acc : List Nat), (l.map Prod.fst).Nodup → (∀ p ∈ l, p.1 < acc.length) →
      (l.foldl (fun inv p => inv.set p.1 p.2) acc).length = acc.length ∧
      ∀ k, k < acc.length → (l.foldl (fun inv p => inv.set p.1 p.2) acc).getD k 0 =
        (match l.find? (fun p => p.1 == k) with | some p => p.2 | none => acc.getD k 0) := by
    intro l
    induction l with
    | nil => intro acc _ _; exact ⟨rfl, fun k _ => rfl⟩
    | cons p l ih =>
      intro acc hnd hlt
      rw [List.map_cons, List.nodup_cons] at hnd
      obtain ⟨h1, h2⟩ := ih (acc.set p.1 p.2) hnd.2 (by intro q hq; simpa using hlt q (by simp [hq]))
      rw [List.foldl_cons]
      refine ⟨by simpa using h1, ?_⟩
      intro k hk
      rw [h2 k (by simpa using hk), List.find?_cons]
      by_cases hpk : p.1 = k
      · subst hpk
        have hnone : l.find? (fun q => q.1 == p.1) = none := by
          rw [List.find?_eq_none]
          intro q hq hc
          exact hnd.1 (List.mem_map.2 ⟨q, hq, by simpa using hc⟩)
        simp [hnone, List.getD_eq_getElem?_getD, List.getElem?_set, hk]
      · have hb : (p.1 == k) = false := by simpa using hpk
        rw [hb]
        simp [hpk, List.getD_eq_getElem?_getD, List.getElem?_set]
  have hnd : ((wordOf π).zipIdx.map Prod.fst).Nodup := by
    rw [List.zipIdx_map_fst]; exact (isPermWord_wordOf π).1
  have hlt : ∀ p ∈ (wordOf π).zipIdx, p.1 < (List.replicate n 0).length := by
    rintro ⟨a, b⟩ hp
    have := (isPermWord_wordOf π).2 a (List.fst_mem_of_mem_zipIdx hp)
    simpa using this
  rw [inverse, length_wordOf]
  obtain ⟨h1, h2⟩ := key _ _ hnd hlt
  apply word_ext (by simpa using h1)
  intro i hi
  rw [h2 i (by simpa using hi)]
  have hmem : (i, ((π⁻¹ ⟨i, hi⟩ : Fin n) : Nat)) ∈ (wordOf π).zipIdx := by
    rw [List.mk_mem_zipIdx_iff_getElem?, List.getElem?_eq_getElem (by simp), wordOf_getElem]
    simp
  cases hf : (wordOf π).zipIdx.find? (fun p => p.1 == i) with
  | none =>
    rw [List.find?_eq_none] at hf
    exact absurd (hf _ hmem) (by simp)
  | some p =>
    have hp1 := List.mem_of_find?_eq_some hf
    have hp2 : p.1 = i := by simpa using List.find?_some hf
    obtain ⟨a, b⟩ := p
    simp only at hp2; subst hp2
    have := List.mk_mem_zipIdx_iff_getElem?.1 hp1
    have hb : b < n := by
      by_contra hc
      rw [List.getElem?_eq_none (by simpa using hc)] at this
      cases this
    rw [List.getElem?_eq_getElem (by simpa using hb), wordOf_getElem, Option.some_inj] at this
    have e : π⁻¹ ⟨a, hi⟩ = ⟨b, hb⟩ := by
      rw [Perm.inv_eq_iff_eq]; exact Fin.ext this.symm
    simp [e]

theorem rightDescentSet_mem (π : Perm (Fin n)) (i : Nat) :
    i ∈ rightDescentSet (wordOf π) ↔ ∃ h : i + 1 < n, π ⟨i + 1, h⟩ < π ⟨i, by omega⟩ := by
  rw [rightDescentSet, List.mem_filter, List.mem_range, length_wordOf]
  constructor
  · rintro ⟨h1, h2⟩
    refine ⟨by omega, ?_⟩
    rw [wordOf_getD _ _ (by omega), wordOf_getD _ _ (by omega)] at h2
    simpa using h2
  · rintro ⟨h1, h2⟩
    refine ⟨by omega, ?_⟩
    rw [wordOf_getD _ _ (by omega), wordOf_getD _ _ (by omega)]
    simpa using h2

theorem leftDescentSet_mem (π : Perm (Fin n)) (i : Nat) :
    i ∈ leftDescentSet (wordOf π) ↔ ∃ h : i + 1 < n, π⁻¹ ⟨i + 1, h⟩ < π⁻¹ ⟨i, by omega⟩ := by
  rw [leftDescentSet, inverse_eq, rightDescentSet_mem]

theorem length_eq (π : Perm (Fin n)) : Perms.length (wordOf π) = inv π := by
  rw [Perms.length, length_wordOf]
  set L := (List.range n).flatMap fun i => (List.range' (i + 1) (n - (i + 1))).map fun j => (i, j) with hL
  have hmem : ∀ p : Nat × Nat, p ∈ L ↔ p.1 < p.2 ∧ p.2 < n := by
    rintro ⟨a, b⟩
    simp only [hL, List.mem_flatMap, List.mem_range, List.mem_map, Prod.mk.injEq, List.mem_range'_1]
    constructor
    · rintro ⟨i, h1, j, h2, rfl, rfl⟩; omega
    · intro h; exact ⟨a, by omega, b, by omega, rfl, rfl⟩
  have hnd : L.Nodup := by
    rw [hL, List.nodup_flatMap]
    refine ⟨fun i _ => (List.nodup_range' (step := 1)).map (fun a b h => by simpa using h), ?_⟩
    rw [List.pairwise_iff_getElem]
    intro i j hi hj hij
    rw [Function.onFun, List.disjoint_left]
    rintro ⟨a, b⟩ h1 h2
    simp only [List.getElem_range, List.mem_map, Prod.mk.injEq] at h1 h2
    obtain ⟨_, _, h1, _⟩ := h1
    obtain ⟨_, _, h2, _⟩ := h2
    omega
  rw [← List.toFinset_card_of_nodup (hnd.filter _), inv]
  symm
  apply Finset.card_bij (fun p _ => (p.1.val, p.2.val))
  · intro p hp
    rw [mem_invSet] at hp
    rw [List.mem_toFinset, List.mem_filter, hmem]
    refine ⟨⟨hp.1, p.2.isLt⟩, ?_⟩
    simp only
    rw [wordOf_getD _ _ p.1.isLt, wordOf_getD _ _ p.2.isLt]
    simpa using hp.2
  · intro p _ q _ h
    simp only [Prod.mk.injEq] at h
    exact Prod.ext (Fin.ext h.1) (Fin.ext h.2)
  · rintro ⟨a, b⟩ h
    rw [List.mem_toFinset, List.mem_filter, hmem] at h
    obtain ⟨⟨h1, h2⟩, h3⟩ := h
    simp only at h1 h2 h3
    rw [wordOf_getD _ _ (by omega), wordOf_getD _ _ (by omega)] at h3
    exact ⟨(⟨a, by omega⟩, ⟨b, h2⟩), by rw [mem_invSet]; exact ⟨h1, by simpa using h3⟩, rfl⟩

theorem isIdentity_iff (π : Perm (Fin n)) : isIdentity (wordOf π) = true ↔ π = 1 := by
  rw [isIdentity, length_wordOf, List.all_eq_true]
  constructor
  · intro h
    ext i
    have := h i.val (by simp)
    rw [wordOf_getD _ _ i.isLt] at this
    simpa using this
  · rintro rfl i hi
    rw [List.mem_range] at hi
    rw [wordOf_getD _ _ hi]; simp

theorem isLongestElement_iff (π : Perm (Fin n)) : isLongestElement (wordOf π) = true ↔ π = w0 n := by
  rw [isLongestElement, length_wordOf, List.all_eq_true]
  constructor
  · intro h
    ext i
    have := h i.val (by simp)
    rw [wordOf_getD _ _ i.isLt] at this
    simp only [beq_iff_eq, Fin.eta] at this
    rw [this]; simp [w0, Fin.rev]; omega
  · rintro rfl i hi
    rw [List.mem_range] at hi
    rw [wordOf_getD _ _ hi]; simp [w0, Fin.rev]; omega

end Peyl
