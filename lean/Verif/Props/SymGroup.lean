import Verif.Lemmas.PermTable
import Verif.Props.Permutations
import Mathlib.GroupTheory.Perm.Support
/-!
# C133: the lists of a symmetric group: elements, generators, reflections
-/
namespace Peyl
open Equiv Perms

/-- C133: `SymmetricGroup(n).elements()` yields every permutation of `0, ..., n-1` once; `id` fixes every point and `longest_element` reverses their order. -/
theorem C133_elements (n : Nat) : (elements n).Nodup ∧ (elements n).length = n.factorial ∧ (∀ w, w ∈ elements n ↔ ∃ π : Perm (Fin n), w = wordOf π) ∧
    identity n = wordOf (1 : Perm (Fin n)) ∧ longestElement n = wordOf (Fin.revPerm : Perm (Fin n)) :=
  ⟨elements_nodup n, elements_length n, elements_mem, identity_eq, longestElement_eq⟩

/-- C133: `cox_gens()` are the transpositions of neighbours, in order; `from_cox` multiplies them; every permutation is such a product; a letter without a generator raises. -/
theorem C133_generators (n : Nat) : ∃ gs, coxGens n = .ok gs ∧ gs.length = n - 1 ∧
    (∀ i (h : i + 1 < n), gs[i]? = some (wordOf (Equiv.swap (⟨i, by omega⟩ : Fin n) ⟨i + 1, h⟩))) ∧
    (∀ (u : List Nat) (s : Nat → Perm (Fin n)), (∀ i ∈ u, i + 1 < n ∧ gs[i]? = some (wordOf (s i))) → fromCox n u = .ok (wordOf (u.map s).prod)) ∧
    (∀ u : List Nat, (∃ i ∈ u, n ≤ i + 1) → fromCox n u = .error .assertion) ∧
    ∀ π : Perm (Fin n), ∃ u, fromCox n u = .ok (wordOf π) := by
  have hg : ∀ i (h : i + 1 < n), ((List.range (n - 1)).map fun i => wordOf (sg n i))[i]? = some (wordOf (Equiv.swap (⟨i, by omega⟩ : Fin n) ⟨i + 1, h⟩)) := by
    intro i h
    rw [List.getElem?_map, List.getElem?_range (by omega), Option.map_some, sg_eq h]
  refine ⟨_, coxGens_ok n, by simp, hg, fun u s hu => ?_, ?_, fun π => ?_⟩
  · rw [fromCox_eq u fun i hi => (hu i hi).1, coxProd]
    have : u.map (sg n) = u.map s := by
     refine List.map_congr_left fun i hi => ?_
     obtain ⟨h1, h2⟩ := hu i hi
     rw [hg i h1] at h2
     rw [sg_eq h1]
     exact wordOf_injective (Option.some.inj h2)
    rw [this]
  · rintro u ⟨i, hi, hn⟩
    rw [fromCox, if_neg]
    intro h
    have := List.all_eq_true.1 h i hi
    simp at this; omega
  · obtain ⟨u, -, h, -⟩ := C03_shortlex (wordOf π) (isPermWord_wordOf π)
    exact ⟨u, by simpa using h⟩

theorem mapM_pairs {n : Nat} (l : List (Nat × Nat)) (h : ∀ p ∈ l, p.1 < p.2 ∧ p.2 < n) : l.mapM (fun p => transposition n p.1 p.2) =
    .ok (l.map fun p => if h : p.1 < n ∧ p.2 < n then wordOf (Equiv.swap (⟨p.1, h.1⟩ : Fin n) ⟨p.2, h.2⟩) else []) := by
  induction l with
  | nil => rfl
  | cons p l ih =>
    have hp := h p (by simp)
    rw [List.mapM_cons, transposition_ok p.1 p.2 (by omega) hp.2, bind_ok, ih (fun q hq => h q (by simp [hq])), List.map_cons,
      dif_pos ⟨by omega, hp.2⟩]
    rfl

/-- C133: `reflections()` lists every transposition once: `n(n-1)/2` of them, and they are the conjugates of the generators. -/
theorem C133_reflections (n : Nat) : ∃ rs, reflections n = .ok rs ∧ rs.Nodup ∧ rs.length = n.choose 2 ∧
    (∀ w, w ∈ rs ↔ ∃ π : Perm (Fin n), π.IsSwap ∧ w = wordOf π) ∧
    ∀ w, w ∈ rs ↔ ∃ (g : Perm (Fin n)) (i : Nat) (h : i + 1 < n), w = wordOf (g * Equiv.swap ⟨i, by omega⟩ ⟨i + 1, h⟩ * g⁻¹) := by
  set ps : List (Nat × Nat) := (List.range (n - 1)).flatMap fun i => (List.range' (i + 1) (n - (i + 1))).map fun j => (i, j) with hps
  have hmem : ∀ p : Nat × Nat, p ∈ ps ↔ p.1 < p.2 ∧ p.2 < n := by
    rintro ⟨i, j⟩
    simp only [hps, List.mem_flatMap, List.mem_range, List.mem_map, List.mem_range'_1, Prod.mk.injEq]
    constructor
    · rintro ⟨a, ha, b, hb, rfl, rfl⟩; omega
    · rintro ⟨h1, h2⟩; exact ⟨i, by omega, j, by omega, rfl, rfl⟩
  have hnd : ps.Nodup := by
    rw [hps, List.nodup_flatMap]
    refine ⟨fun i _ => (List.nodup_range' (n := n - (i + 1))).map fun a b h => by simpa using h, ?_⟩
    refine List.nodup_range.imp fun {a b} hab => ?_
    intro p h1 h2
    obtain ⟨_, _, rfl⟩ := List.mem_map.1 h1
    obtain ⟨_, _, h⟩ := List.mem_map.1 h2
    exact hab (by simpa using (congrArg Prod.fst h).symm)
  have hrun := mapM_pairs ps fun p hp => (hmem p).1 hp
  have hsw : ∀ w, w ∈ ps.map (fun p => if h : p.1 < n ∧ p.2 < n then wordOf (Equiv.swap (⟨p.1, h.1⟩ : Fin n) ⟨p.2, h.2⟩) else []) ↔
      ∃ π : Perm (Fin n), π.IsSwap ∧ w = wordOf π := by
    intro w
    rw [List.mem_map]
    constructor
    · rintro ⟨p, hp, rfl⟩
      have h := (hmem p).1 hp
      refine ⟨_, ⟨⟨p.1, by omega⟩, ⟨p.2, h.2⟩, ?_, rfl⟩, by rw [dif_pos ⟨by omega, h.2⟩]⟩
      intro e
      have := congrArg Fin.val e
      dsimp only at this; omega
    · rintro ⟨_, ⟨a, b, hab, rfl⟩, rfl⟩
      rcases lt_or_gt_of_ne hab with h | h
      · exact ⟨(a, b), (hmem _).2 ⟨h, b.2⟩, by rw [dif_pos ⟨a.2, b.2⟩]⟩
      · exact ⟨(b, a), (hmem _).2 ⟨h, a.2⟩, by rw [dif_pos ⟨b.2, a.2⟩, Equiv.swap_comm]⟩
  refine ⟨_, hrun, ?_, ?_, hsw, fun w => ?_⟩
  · refine hnd.map_on fun p hp q hq h => ?_
    have hp := (hmem p).1 hp
    have hq := (hmem q).1 hq
    rw [dif_pos ⟨by omega, hp.2⟩, dif_pos ⟨by omega, hq.2⟩] at h
    have h := wordOf_injective h
    have h1 := congrArg (fun e : Perm (Fin n) => (e ⟨p.1, by omega⟩ : Nat)) h
    have h2 := congrArg (fun e : Perm (Fin n) => (e ⟨q.1, by omega⟩ : Nat)) h
    simp only [Equiv.swap_apply_left, Equiv.swap_apply_def, Fin.mk.injEq] at h1 h2
    refine Prod.ext ?_ ?_
    · split_ifs at h1 h2 <;> simp at h1 h2 <;> omega
    · split_ifs at h1 h2 <;> simp at h1 h2 <;> omega
  · rw [List.length_map, hps, List.length_flatMap]
    have : ((List.range (n - 1)).map fun i => ((List.range' (i + 1) (n - (i + 1))).map fun j => (i, j)).length) = (List.range (n - 1)).map fun i => (n - 1) - i := by
      refine List.map_congr_left fun i hi => ?_
      rw [List.length_map, List.length_range']
      omega
    rw [this, Nat.choose_two_right]
    have key : ∀ m : Nat, ((List.range m).map fun i => m - i).sum = (m + 1) * m / 2 := by
      intro m
      induction m with
      | zero => rfl
      | succ m ih =>
        rw [List.range_succ_eq_map, List.map_cons, List.sum_cons, List.map_map]
        have : ((fun i => m + 1 - i) ∘ Nat.succ) = fun i => m - i := by funext i; simp
        rw [this, ih]
        have h1 : (m + 1 + 1) * (m + 1) = (m + 1) * m + 2 * (m + 1) := by ring
        rw [h1]; omega
    rw [key]
    cases n with
    | zero => rfl
    | succ n => rfl
  · rw [hsw]
    constructor
    · rintro ⟨_, ⟨a, b, hab, rfl⟩, rfl⟩
      have hn : 1 < n := by
        have := a.2; have := b.2
        have : (a : Nat) ≠ b := fun e => hab (Fin.ext e)
        omega
      obtain ⟨g, hg⟩ := isConj_iff.1 (Equiv.Perm.isConj_swap (w := (⟨0, by omega⟩ : Fin n)) (x := ⟨1, hn⟩) (by simp) hab)
      exact ⟨g, 0, hn, by rw [← hg]⟩
    · rintro ⟨g, i, h, rfl⟩
      refine ⟨_, ⟨g ⟨i, by omega⟩, g ⟨i + 1, h⟩, ?_, rfl⟩, ?_⟩
      · intro e; have := g.injective e; simp at this
      · rw [Equiv.swap_apply_apply]

example : reflections 3 = .ok [[1, 0, 2], [2, 1, 0], [0, 2, 1]] ∧ (coxGens 3) = .ok [[1, 0, 2], [0, 2, 1]] ∧ reflections 0 = .ok [] := by decide
example : fromCox 3 [0, 2] = .error .assertion := (C133_generators 3).choose_spec.2.2.2.2.1 [0, 2] ⟨2, by simp, by norm_num⟩

end Peyl
