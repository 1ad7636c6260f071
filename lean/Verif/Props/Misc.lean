import Verif.Model.Misc
import Verif.Props.Permutations
import Verif.Props.Matrix
import Verif.Props.Jones
import Verif.Props.TL
/-!
# Small methods: `from_cox` (C03), `indices` and `entries` (C42), `tl_basis` (C52)
-/
namespace Peyl
open Perms

/-- C03: `from_cox` gives the product of the adjacent transpositions in the order of the word, in the symmetric group of the asked size, for words with
legal letters; other words are refused. -/
theorem C03_from_cox (n : Nat) (seq : List Nat) :
    ((∀ s ∈ seq, s + 1 < n) → ∃ w, groupFromCox n seq = .ok w ∧ w = wordOf (coxProd n seq) ∧ Perms.group w = n) ∧
    ((∃ s ∈ seq, n ≤ s + 1) → groupFromCox n seq = .error .assertion) := by
  constructor
  · intro h
    exact ⟨_, fromCox_eq seq h, rfl, length_wordOf _⟩
  · rintro ⟨s, hs, hn⟩
    rw [groupFromCox, fromCox, if_neg]
    simp only [List.all_eq_true, decide_eq_true_eq, not_forall]
    exact ⟨s, hs, by omega⟩

example : groupFromCox 4 [0, 1, 2] = .ok [1, 2, 3, 0] ∧ groupFromCox 3 [2] = .error .assertion := by decide

/-- C42: `indices()` and `entries()` run through the matrix in the same order: together they list every place once, with the entry there. -/
theorem C42_indices_entries (m : Matrix) {r c : Nat} (h : m.Shape r c) :
    m.indices.Nodup ∧ (∀ i j, (i, j) ∈ m.indices ↔ i < r ∧ j < c) ∧ m.indices.length = m.entries.length ∧
      ∀ k (hk : k < m.indices.length) (hk' : k < m.entries.length), m.get m.indices[k].1 m.indices[k].2 = .ok m.entries[k] := by
  have hind : m.indices = (List.range r).flatMap fun i => (List.range c).map fun j => (i, j) := by rw [Matrix.indices, h.nrows, h.ncols]
  have hlen : ∀ a, ((List.range a).flatMap fun i => (List.range c).map fun j => (i, j)).length = a * c := by
    intro a; simp [List.length_flatMap]
  have hmem : ∀ i j, (i, j) ∈ m.indices ↔ i < r ∧ j < c := by
    intro i j
    rw [hind]
    simp only [List.mem_flatMap, List.mem_range, List.mem_map, Prod.mk.injEq]
    constructor
    · rintro ⟨a, ha, b, hb, rfl, rfl⟩; exact ⟨ha, hb⟩
    · rintro ⟨ha, hb⟩; exact ⟨i, ha, j, hb, rfl, rfl⟩
  have hat : ∀ (a k : Nat) (hk : k < ((List.range a).flatMap fun i => (List.range c).map fun j => (i, j)).length),
      ((List.range a).flatMap fun i => (List.range c).map fun j => (i, j))[k] = (k / c, k % c) := by
    intro a
    induction a with
    | zero => intro k hk; simp at hk
    | succ a ih =>
      intro k hk
      have hk2 := hk
      rw [hlen] at hk2
      simp only [List.range_succ, List.flatMap_append, List.flatMap_singleton]
      by_cases hlt : k < a * c
      · rw [List.getElem_append_left (by rw [hlen]; exact hlt), ih]
      · have hc : 0 < c := by
          rcases Nat.eq_zero_or_pos c with rfl | h
          · simp at hk2
          · exact h
        rw [List.getElem_append_right (by rw [hlen]; omega)]
        simp only [hlen, List.getElem_map, List.getElem_range]
        have e : k = a * c + (k - a * c) := by omega
        have hlt' : k - a * c < c := by
          have : (a + 1) * c = a * c + c := by ring
          omega
        have h1 : k / c = a := by
          rw [e, Nat.mul_comm a c, Nat.mul_add_div hc, Nat.div_eq_of_lt (by rwa [Nat.mul_comm c a]), Nat.add_zero]
        have h2 : k % c = k - a * c := by
          conv_lhs => rw [e]
          rw [Nat.mul_comm a c, Nat.mul_add_mod, Nat.mod_eq_of_lt (by rwa [Nat.mul_comm c a])]
        rw [h1, h2]
  refine ⟨?_, hmem, ?_, fun k hk hk' => ?_⟩
  · rw [hind, List.nodup_flatMap]
    refine ⟨fun i _ => List.Nodup.map (fun a b e => (Prod.mk.inj e).2) List.nodup_range, ?_⟩
    refine List.nodup_range.imp fun {a b} hab => ?_
    simp only [Function.onFun]
    intro x hx hy
    obtain ⟨j, -, rfl⟩ := List.mem_map.1 hx
    obtain ⟨j', -, e⟩ := List.mem_map.1 hy
    exact hab (Prod.mk.inj e).1.symm
  · rw [hind, hlen, Matrix.entries, h.length]
  · have hk2 : k < r * c := by rw [hind, hlen] at hk; exact hk
    have hc : 0 < c := by
      rcases Nat.eq_zero_or_pos c with rfl | h
      · simp at hk2
      · exact h
    have e : m.indices[k] = (k / c, k % c) := by
      have := hat r k (by rw [hlen]; exact hk2)
      rw [← this]
      exact getElem_congr_coll hind
    rw [e]
    simp only
    rw [Matrix.get_eq h (Nat.div_lt_of_lt_mul (by rwa [Nat.mul_comm c r])) (Nat.mod_lt _ hc), Nat.div_add_mod]
    rw [Matrix.at', List.getD_eq_getElem?_getD, show m.data[k]? = some m.entries[k] from List.getElem?_eq_getElem hk']
    rfl

example : (⟨2, 3, [.int 1, .int 2, .int 3, .int 4, .int 5, .int 6]⟩ : Matrix).indices = [(0, 0), (0, 1), (0, 2), (1, 0), (1, 1), (1, 2)] := by decide

/-- C52: `tl_basis()` lists as many diagrams as the dimension of the representation says, each of them once. -/
theorem C52_tl_basis (n r : Nat) (h : 2 * r ≤ n) : ∃ B, Jones.tlBasis n r = .ok B ∧ B.Nodup ∧ B.length = Jones.dimension n r := by
  obtain ⟨B, b1, b2, -, -, b5, -⟩ := C51_cell_basis n r h
  refine ⟨B, b1, b2, ?_⟩
  rw [Jones.dimension]
  split
  · rename_i h0; subst h0; simp at b5; omega
  · rename_i h0
    rw [if_neg h0] at b5
    omega

example : ∃ B, Jones.tlBasis 5 2 = .ok B ∧ B.length = 5 := by
  obtain ⟨B, h1, -, h3⟩ := C52_tl_basis 5 2 (by decide)
  exact ⟨B, h1, by rw [h3]; decide⟩

end Peyl
