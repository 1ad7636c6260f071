import Verif.Spec.NPar
import Verif.Lemmas.NParGerm
import Verif.Lemmas.TLEnum
import Verif.Lemmas.TLMatch
import Verif.Lemmas.Cycles
import Verif.Lemmas.PermTable
import Verif.Lemmas.TLCellBasis
/-!
# Noncrossing partitions, noncrossing permutations and matchings
-/
namespace Peyl
open Equiv Perms TL
variable {n : Nat}

/-- The arcs of a permutation: `2i` is joined to `2 x(i) + 1`. -/
def arcOf (x : Perm (Fin n)) (k : Nat) : Nat :=
  if h : k / 2 < n then if k % 2 = 0 then 2 * (x ⟨k / 2, h⟩ : Nat) + 1 else 2 * (x⁻¹ ⟨k / 2, h⟩ : Nat) else 0

/-- The `NPar` with the arcs of a permutation. -/
def nparOf (x : Perm (Fin n)) : NPar := ⟨n, (List.range (2 * n)).map (arcOf x)⟩

theorem arcOf_even (x : Perm (Fin n)) (i : Fin n) : arcOf x (2 * i) = 2 * (x i : Nat) + 1 := by
  have h : 2 * (i : Nat) / 2 = i := by omega
  have := i.2
  rw [arcOf, dif_pos (by omega), if_pos (by omega)]; simp only [h]

theorem arcOf_odd (x : Perm (Fin n)) (i : Fin n) : arcOf x (2 * i + 1) = 2 * (x⁻¹ i : Nat) := by
  have h : (2 * (i : Nat) + 1) / 2 = i := by omega
  have := i.2
  rw [arcOf, dif_pos (by omega), if_neg (by omega)]; simp only [h]

theorem nparOf_at (x : Perm (Fin n)) {k : Nat} (h : k < 2 * n) : at_ (nparOf x).inv k = arcOf x k := by
  rw [at_lt _ _ (by simpa [nparOf] using h)]; simp [nparOf]

theorem nparOf_even (x : Perm (Fin n)) (i : Fin n) : at_ (nparOf x).inv (2 * i) = 2 * (x i : Nat) + 1 := by
  rw [nparOf_at _ (by omega), arcOf_even]

theorem nparOf_odd (x : Perm (Fin n)) (i : Fin n) : at_ (nparOf x).inv (2 * i + 1) = 2 * (x⁻¹ i : Nat) := by
  rw [nparOf_at _ (by omega), arcOf_odd]

theorem nparOf_length (x : Perm (Fin n)) : (nparOf x).inv.length = 2 * n := by simp [nparOf]

/-- Every point of the line is an end of the arc of some `i`. -/
theorem arc_ends (x : Perm (Fin n)) {k : Nat} (h : k < 2 * n) : ∃ i : Fin n, (k = 2 * i ∧ arcOf x k = 2 * (x i : Nat) + 1) ∨
    (k = 2 * (x i : Nat) + 1 ∧ arcOf x k = 2 * i) := by
  have h2 : k / 2 < n := by omega
  by_cases he : k % 2 = 0
  · refine ⟨⟨k / 2, h2⟩, Or.inl ⟨by simp only; omega, ?_⟩⟩
    rw [arcOf, dif_pos h2, if_pos he]
  · refine ⟨x⁻¹ ⟨k / 2, h2⟩, Or.inr ⟨?_, ?_⟩⟩
    · rw [show x (x⁻¹ ⟨k / 2, h2⟩) = ⟨k / 2, h2⟩ from Equiv.apply_symm_apply _ _]; simp only; omega
    · rw [arcOf, dif_pos h2, if_neg he]

theorem arcOf_matching {x : Perm (Fin n)} : NCMatching (2 * n) (arcOf x) ↔ NCP x := by
  constructor
  · intro h i j ⟨h1, h2, h3⟩
    have e1 := arcOf_even x i; have e2 := arcOf_even x j
    have o1 := arcOf_odd x (x i); have o2 := arcOf_odd x (x j)
    rw [show x⁻¹ (x i) = i from Equiv.symm_apply_apply _ _] at o1
    rw [show x⁻¹ (x j) = j from Equiv.symm_apply_apply _ _] at o2
    have k1 := i.2; have k2 := j.2; have k3 := (x i).2; have k4 := (x j).2
    rcases le_total (2 * (i : Nat)) (2 * (x i : Nat) + 1) with a | a <;> rcases le_total (2 * (j : Nat)) (2 * (x j : Nat) + 1) with b | b
    · exact h.noncross (2 * i) (2 * j) (by omega) (by omega) (by omega) (by omega) (by omega)
    · exact h.noncross (2 * i) (2 * (x j : Nat) + 1) (by omega) (by omega) (by omega) (by omega) (by omega)
    · exact h.noncross (2 * (x i : Nat) + 1) (2 * j) (by omega) (by omega) (by omega) (by omega) (by omega)
    · exact h.noncross (2 * (x i : Nat) + 1) (2 * (x j : Nat) + 1) (by omega) (by omega) (by omega) (by omega) (by omega)
  · intro h
    refine ⟨fun k hk => ?_, fun k hk => ?_, fun k hk => ?_, fun a b ha hb h1 h2 h3 => ?_⟩
    · obtain ⟨i, hi⟩ := arc_ends x hk
      have := i.2; have := (x i).2; omega
    · obtain ⟨i, hi⟩ := arc_ends x hk
      omega
    · obtain ⟨i, ⟨rfl, e⟩ | ⟨rfl, e⟩⟩ := arc_ends x hk
      · rw [e, arcOf_odd, show x⁻¹ (x i) = i from Equiv.symm_apply_apply _ _]
      · rw [e, arcOf_even]
    · obtain ⟨i, hi⟩ := arc_ends x ha
      obtain ⟨j, hj⟩ := arc_ends x hb
      exact h i j (by omega)

theorem NCMatching.congr {N : Nat} {f g : Nat → Nat} (h : NCMatching N f) (e : ∀ k, k < N → f k = g k) : NCMatching N g := by
  refine ⟨fun k hk => e k hk ▸ h.lt k hk, fun k hk => e k hk ▸ h.nofix k hk, fun k hk => ?_, fun a b ha hb h1 h2 h3 => ?_⟩
  · rw [← e k hk, ← e _ (h.lt k hk)]; exact h.invol k hk
  · rw [← e a ha] at h2 h3; rw [← e b hb] at h3; exact h.noncross a b ha hb h1 h2 h3

theorem nparOf_ok {x : Perm (Fin n)} : (nparOf x).Ok ↔ NCP x := by
  rw [← arcOf_matching]
  constructor
  · rintro ⟨-, h⟩
    unfold Crossingless at h
    rw [nparOf_length] at h
    exact NCMatching.congr h fun k hk => nparOf_at x hk
  · intro h
    refine ⟨nparOf_length x, ?_⟩
    unfold Crossingless
    rw [nparOf_length]
    exact NCMatching.congr h fun k hk => (nparOf_at x hk).symm

theorem nparOf_injective : Function.Injective (nparOf (n := n)) := by
  intro x y h
  ext i
  have := nparOf_even x i
  rw [h, nparOf_even] at this
  omega

/-- A matching joins points of different parity. -/
theorem NCMatching.parity {N : Nat} {f : Nat → Nat} (h : NCMatching N f) {a : Nat} (ha : a < N) : (f a + a) % 2 = 1 := by
  have key : ∀ a, a < N → a < f a → (f a + a) % 2 = 1 := by
    intro a ha hlt
    have hfa := h.lt a ha
    have inn : ∀ x, a + 1 ≤ x → x < f a → a + 1 ≤ f x ∧ f x < f a := by
      intro x h1 h2
      have hx : x < N := by omega
      have hfx := h.lt x hx
      have h3 := h.invol x hx
      have h4 := h.invol a ha
      have h5 : f x ≠ a := fun e => by rw [e] at h3; omega
      have h6 : f x ≠ f a := fun e => by rw [e] at h3; omega
      have h7 := h.noncross a x ha hx (by omega) h2
      have h8 := h.noncross (f x) a hfx ha
      rw [h3] at h8
      have h9 := h.nofix x hx
      refine ⟨?_, ?_⟩
      · by_contra hc; exact h8 (by omega) (by omega) h2
      · by_contra hc; exact h7 (by omega)
    have := even_of_matching f (a + 1) (f a) inn (fun x h1 h2 => h.nofix x (by omega)) (fun x h1 h2 => h.invol x (by omega))
    omega
  have h1 := h.nofix a ha
  rcases lt_or_gt_of_ne h1 with h2 | h2
  · have := key (f a) (h.lt a ha)
    rw [h.invol a ha] at this
    have := this h2; omega
  · exact key a ha h2

theorem exists_nparOf {p : NPar} (h : p.Ok) : ∃ x : Perm (Fin p.n), NCP x ∧ p = nparOf x := by
  obtain ⟨hl, hc⟩ := h
  have hm : NCMatching (2 * p.n) (at_ p.inv) := by rw [← hl]; exact hc
  have pe : ∀ i : Fin p.n, at_ p.inv (2 * i) = 2 * (at_ p.inv (2 * i) / 2) + 1 := fun i => by
    have := NCMatching.parity hm (a := 2 * i) (by omega); omega
  have po : ∀ i : Fin p.n, at_ p.inv (2 * i + 1) = 2 * (at_ p.inv (2 * i + 1) / 2) := fun i => by
    have := NCMatching.parity hm (a := 2 * i + 1) (by omega); omega
  have le : ∀ i : Fin p.n, at_ p.inv (2 * i) / 2 < p.n := fun i => by have := hm.lt (2 * i) (by omega); omega
  have lo : ∀ i : Fin p.n, at_ p.inv (2 * i + 1) / 2 < p.n := fun i => by have := hm.lt (2 * i + 1) (by omega); omega
  let x : Perm (Fin p.n) :=
    { toFun := fun i => ⟨at_ p.inv (2 * i) / 2, le i⟩
      invFun := fun i => ⟨at_ p.inv (2 * i + 1) / 2, lo i⟩
      left_inv := fun i => by
        apply Fin.ext
        show at_ p.inv (2 * (at_ p.inv (2 * i) / 2) + 1) / 2 = i
        rw [← pe, hm.invol _ (by omega)]; omega
      right_inv := fun i => by
        apply Fin.ext
        show at_ p.inv (2 * (at_ p.inv (2 * i + 1) / 2)) / 2 = i
        rw [← po, hm.invol _ (by omega)]; omega }
  have hx : p = nparOf x := by
    have : p.inv = (nparOf x).inv := by
      refine list_ext_at hl (nparOf_length x) fun k hk => ?_
      rw [nparOf_at x hk]
      obtain ⟨i, hi⟩ : ∃ i : Fin p.n, k = 2 * i ∨ k = 2 * i + 1 := ⟨⟨k / 2, by omega⟩, by simp only; omega⟩
      rcases hi with rfl | rfl
      · rw [arcOf_even]; exact pe i
      · rw [arcOf_odd]; exact po i
    show p = ⟨p.n, (nparOf x).inv⟩
    rw [← this]
  exact ⟨x, nparOf_ok.1 (hx ▸ ⟨hl, hc⟩), hx⟩

/-! ### Permutations and complements -/

theorem toPermutation_eq (x : Perm (Fin n)) : (nparOf x).toPermutation = .ok (wordOf x) := by
  unfold NPar.toPermutation
  rw [TL.mapM_ok (g := fun i => (wordOf x).getD i 0)]
  · congr 1
    apply List.ext_getElem (by simp [nparOf])
    intro i h1 h2
    simp only [List.getElem_map, List.getElem_range]
    simp [List.getD_eq_getElem?_getD, List.getElem?_eq_getElem h2]
  · intro i hi
    have hi : i < n := List.mem_range.1 hi
    rw [lookup_at _ _ (by rw [nparOf_length]; omega), bind_ok, nparOf_even x ⟨i, hi⟩, wordOf_getD _ _ hi]
    congr 1; omega

theorem inv_apply (x : Perm (Fin n)) (i : Fin n) : x (x⁻¹ i) = i := Equiv.apply_symm_apply _ _
theorem apply_inv (x : Perm (Fin n)) (i : Fin n) : x⁻¹ (x i) = i := Equiv.symm_apply_apply _ _

theorem leftComplement_eq (x : Perm (Fin n)) : (nparOf x).leftComplement = .ok (nparOf (dcyc n * x⁻¹)) := by
  unfold NPar.leftComplement
  rw [TL.mapM_ok (g := arcOf (dcyc n * x⁻¹))]
  · rfl
  · intro k hk
    have hk : k < 2 * n := List.mem_range.1 hk
    show ((lookup (nparOf x).inv ((k + 1) % (2 * n))).bind fun v => .ok ((v + 2 * n - 1) % (2 * n))) = _
    obtain ⟨i, hi⟩ : ∃ i : Fin n, k = 2 * i ∨ k = 2 * i + 1 := ⟨⟨k / 2, by omega⟩, by simp only; omega⟩
    have hi' := i.2
    rw [lookup_at _ _ (by rw [nparOf_length]; exact Nat.mod_lt _ (by omega))]
    show Except.ok ((at_ (nparOf x).inv ((k + 1) % (2 * n)) + 2 * n - 1) % (2 * n)) = _
    congr 1
    rcases hi with rfl | rfl
    · rw [Nat.mod_eq_of_lt (by omega : 2 * (i : Nat) + 1 < 2 * n), nparOf_odd, arcOf_even, Perm.mul_apply, dcyc_val]
      have := (x⁻¹ i).2
      split_ifs with h
      · rw [h, Nat.mod_eq_of_lt (by omega)]; omega
      · rw [show 2 * ((x⁻¹ i : Fin n) : Nat) + 2 * n - 1 = (2 * ((x⁻¹ i : Fin n) : Nat) - 1) + 2 * n by omega, Nat.add_mod_right,
          Nat.mod_eq_of_lt (by omega)]; omega
    · have e : (2 * (i : Nat) + 1 + 1) % (2 * n) = 2 * ((dcyc n)⁻¹ i : Fin n) := by
        rw [dcyc_inv_val]
        split_ifs with h
        · rw [show 2 * (i : Nat) + 1 + 1 = 2 * n by omega, Nat.mod_self]
        · rw [Nat.mod_eq_of_lt (by omega)]; omega
      rw [e, nparOf_even, arcOf_odd, mul_inv_rev, _root_.inv_inv, Perm.mul_apply]
      have := (x ((dcyc n)⁻¹ i)).2
      rw [show 2 * ((x ((dcyc n)⁻¹ i) : Fin n) : Nat) + 1 + 2 * n - 1 = 2 * ((x ((dcyc n)⁻¹ i) : Fin n) : Nat) + 2 * n by omega, Nat.add_mod_right,
          Nat.mod_eq_of_lt (by omega)]

theorem rightComplement_eq (x : Perm (Fin n)) : (nparOf x).rightComplement = .ok (nparOf (x⁻¹ * dcyc n)) := by
  unfold NPar.rightComplement
  rw [TL.mapM_ok (g := arcOf (x⁻¹ * dcyc n))]
  · rfl
  · intro k hk
    have hk : k < 2 * n := List.mem_range.1 hk
    show ((lookup (nparOf x).inv ((k + 2 * n - 1) % (2 * n))).bind fun v => .ok ((v + 1) % (2 * n))) = _
    obtain ⟨i, hi⟩ : ∃ i : Fin n, k = 2 * i ∨ k = 2 * i + 1 := ⟨⟨k / 2, by omega⟩, by simp only; omega⟩
    have hi' := i.2
    rw [lookup_at _ _ (by rw [nparOf_length]; exact Nat.mod_lt _ (by omega))]
    show Except.ok ((at_ (nparOf x).inv ((k + 2 * n - 1) % (2 * n)) + 1) % (2 * n)) = _
    congr 1
    rcases hi with rfl | rfl
    · have e : (2 * (i : Nat) + 2 * n - 1) % (2 * n) = 2 * (dcyc n i : Fin n) + 1 := by
        rw [dcyc_val]
        split_ifs with h
        · rw [h, Nat.mod_eq_of_lt (by omega)]; omega
        · rw [show 2 * (i : Nat) + 2 * n - 1 = (2 * (i : Nat) - 1) + 2 * n by omega, Nat.add_mod_right, Nat.mod_eq_of_lt (by omega)]; omega
      rw [e, nparOf_odd, arcOf_even, Perm.mul_apply]
      have := (x⁻¹ (dcyc n i)).2
      rw [Nat.mod_eq_of_lt (by omega)]
    · rw [show 2 * (i : Nat) + 1 + 2 * n - 1 = 2 * (i : Nat) + 2 * n by omega, Nat.add_mod_right, Nat.mod_eq_of_lt (by omega : 2 * (i : Nat) < 2 * n), nparOf_even,
        arcOf_odd, mul_inv_rev, _root_.inv_inv, Perm.mul_apply, dcyc_inv_val]
      have := (x i).2
      split_ifs with h
      · rw [show 2 * ((x i : Fin n) : Nat) + 1 + 1 = 2 * n by omega, Nat.mod_self]
      · rw [Nat.mod_eq_of_lt (by omega)]; omega

theorem finest_eq (n : Nat) : NPar.finest n = nparOf (1 : Perm (Fin n)) := by
  unfold NPar.finest nparOf
  congr 1
  refine List.map_congr_left fun k hk => ?_
  have hk : k < 2 * n := List.mem_range.1 hk
  rw [arcOf, dif_pos (by omega)]
  simp only [Perm.coe_one, _root_.inv_one, id_eq]
  split_ifs <;> omega

theorem coarsest_eq (n : Nat) : NPar.coarsest n = nparOf (dcyc n) := by
  have h : (nparOf (1 : Perm (Fin n))).leftComplement = .ok (NPar.coarsest n) := by
    rw [← finest_eq]
    unfold NPar.leftComplement
    rw [TL.mapM_ok (g := fun i => if i % 2 = 1 then (i + 1) % (2 * n) else (i + 2 * n - 1) % (2 * n))]
    · rfl
    · intro k hk
      have hk : k < 2 * n := List.mem_range.1 hk
      have hl : (k + 1) % (2 * n) < (NPar.finest n).inv.length := by simpa [NPar.finest] using Nat.mod_lt _ (by omega : 2 * n > 0)
      show ((lookup (NPar.finest n).inv ((k + 1) % (2 * n))).bind fun v => .ok ((v + 2 * n - 1) % (2 * n))) = _
      rw [lookup_at _ _ hl, at_lt _ _ hl]
      simp only [NPar.finest, List.getElem_map, List.getElem_range]
      show Except.ok _ = _
      congr 1
      by_cases h1 : k % 2 = 1
      · have h2 : (k + 1) % (2 * n) % 2 = 0 := by rw [Nat.mod_mul_right_mod]; omega
        rw [if_pos h1, if_pos h2]
        rw [show (k + 1) % (2 * n) + 1 + 2 * n - 1 = (k + 1) % (2 * n) + 2 * n by omega, Nat.add_mod_right, Nat.mod_mod]
      · have h2 : (k + 1) % (2 * n) = k + 1 := Nat.mod_eq_of_lt (by omega)
        rw [if_neg h1, if_neg (by omega), h2]
        congr 1
  rw [leftComplement_eq, _root_.inv_one, mul_one] at h
  simpa using h.symm

end Peyl
