import Verif.Lemmas.MachineRep
import Verif.Lemmas.SmallMatrix
import Verif.Lemmas.GNF
import Verif.Lemmas.FullTwist
/-!
# Machine integers in the Jones representations
-/
namespace Peyl
open Polymat Polynomial LaurentPolynomial Jones

theorem castZ {p : Nat} {x : ℤ} (h : p ≠ 0 → 0 ≤ x ∧ x < p) (h0 : ((x : ℤ) : ZMod p) = 0) : x = 0 := by
  rw [ZMod.intCast_zmod_eq_zero_iff_dvd] at h0
  by_cases hp : p = 0
  · subst hp; simpa using h0
  · exact Int.eq_zero_of_dvd_of_nonneg_of_lt (h hp).1 (h hp).2 h0

/-- The coefficients of a tensor that stands for a polynomial matrix up to a power of `v`. -/
theorem shift_coeff {p d : Nat} {α : Type} {A : PArr α d d} {N : _root_.Matrix (Fin d) (Fin d) ℤ[X]} {k : ℤ} {a : α}
    (h : Polymat.denMod p A a = (T k : (ZMod p)[T;T⁻¹]) • N.map fun f => LPoly.red p f.toLaurent) (e : Nat) (i j : Fin d) :
    ((slice A e a i j : ℤ) : ZMod p) = if 0 ≤ (e : ℤ) - k then (((N i j).coeff ((e : ℤ) - k).toNat : ℤ) : ZMod p) else 0 := by
  have := congrArg (fun f => f.coeff (e : ℤ)) (congrFun (congrFun h i) j)
  simp only [denMod_apply, _root_.Matrix.map_apply, _root_.Matrix.smul_apply, smul_eq_mul, LPoly.coeff_red] at this
  rw [coeff_toLaurent_int', if_pos (by omega), Int.toNat_natCast, coeff_den, T, AddMonoidAlgebra.coeff_single_mul_apply, one_mul, LPoly.coeff_red, coeff_toLaurent_int'] at this
  rw [this, show -k + (e : ℤ) = e - k by ring]
  split <;> simp

/-- The width of an image. -/
theorem width_le {p d ℓ : Nat} {P : PArr Unit d d} {N : _root_.Matrix (Fin d) (Fin d) ℤ[X]} (hN : Small ℓ N)
    (hP : IsProjImage p P fun _ => N.map fun f => LPoly.red p f.toLaurent) : P.length ≤ 2 * ℓ + 1 := by
  obtain ⟨k, hk⟩ := hP.shift ()
  have key : ∀ e, slice P e () ≠ 0 → 0 ≤ (e : ℤ) - k ∧ (e : ℤ) - k ≤ 2 * ℓ := by
    intro e he
    obtain ⟨i, hi⟩ := Function.ne_iff.1 he
    obtain ⟨j, hj⟩ := Function.ne_iff.1 hi
    have h1 := shift_coeff hk e i j
    have hne : ((slice P e () i j : ℤ) : ZMod p) ≠ 0 := fun h0 => hj (castZ (fun hp => by
      by_cases hl : e < P.length
      · rw [slice_lt P hl]; exact hP.reduced hp _ (List.getElem_mem hl) () i j
      · rw [slice_ge P (by omega)]; exact ⟨le_rfl, by show (0 : ℤ) < p; omega⟩) h0)
    rw [h1] at hne
    split at hne
    · next h0 =>
      refine ⟨h0, ?_⟩
      by_contra hgt
      rw [hN.degree_le i j (by omega)] at hne
      simp at hne
    · exact absurd rfl hne
  obtain ⟨⟨⟩, hlast⟩ := hP.last
  have a1 := key 0 (hP.first ())
  have a2 := key _ hlast
  omega

/-- The coefficients of an image over the integers. -/
theorem bd_of_small {d ℓ : Nat} {α : Type} {A : PArr α d d} (h : ∀ a, ∃ N : _root_.Matrix (Fin d) (Fin d) ℤ[X], Small ℓ N ∧
      ∃ k : ℤ, Polymat.denMod 0 A a = (T k : (ZMod 0)[T;T⁻¹]) • N.map fun f => LPoly.red 0 f.toLaurent) : Bd (2 ^ ℓ) A := by
  refine bd_of_slice fun e a i j _ => ?_
  obtain ⟨N, n1, k, hk⟩ := h a
  have h1 := shift_coeff hk e i j
  have cast0 : ∀ x y : ℤ, (Int.cast x : ZMod 0) = (Int.cast y : ZMod 0) → x = y := fun x y h => by
    have h' : x ≡ y [ZMOD ((0 : ℕ) : ℤ)] := (ZMod.intCast_eq_intCast_iff x y 0).1 h
    simpa [Int.ModEq] using h'
  split at h1
  · rw [cast0 _ _ h1]; push_cast; exact n1.coeff_le i j _
  · have := cast0 _ 0 (by simpa using h1)
    rw [this]; simp

namespace RepBase
variable {d : Nat} {T' : Type} {rep : RepBase d} {tbl : Nat → Except Err (NFTable T')} {w b : Nat}

theorem factorImageW_eq {f : Nat} {P : Img d} (h : rep.factorImage tbl f = .ok P) (hP : Bd b P) (hb : b < 2 ^ (w - 1)) : rep.factorImageW w tbl f = .ok P := by
  rw [factorImage] at h
  obtain ⟨t, h1, h⟩ := bind_eq_ok h
  obtain ⟨l, h2, h⟩ := bind_eq_ok h
  obtain ⟨m, h3, h⟩ := bind_eq_ok h
  obtain ⟨A, h4, h⟩ := bind_eq_ok h
  rw [factorImageW, h1, bind_ok, h2, bind_ok, h3, bind_ok, h4, bind_ok, store_bd ((projectivise_bd h).2 hP) hb, bind_ok, h]

theorem deltaImageW_eq {f : Nat} {P : Img d} (h : rep.deltaImage tbl f = .ok P) (hP : Bd b P) (hb : b < 2 ^ (w - 1)) : rep.deltaImageW w tbl f = .ok P := by
  rw [deltaImage] at h
  obtain ⟨t, h1, h⟩ := bind_eq_ok h
  obtain ⟨⟨⟩, h1', h⟩ := bind_eq_ok h
  obtain ⟨l, h2, h⟩ := bind_eq_ok h
  obtain ⟨m, h3, h⟩ := bind_eq_ok h
  obtain ⟨m', h3', h⟩ := bind_eq_ok h
  obtain ⟨A, h4, h⟩ := bind_eq_ok h
  rw [deltaImageW, h1, bind_ok, h1', bind_ok, h2, bind_ok, h3, bind_ok, h3', bind_ok, h4, bind_ok, store_bd ((projectivise_bd h).2 hP) hb, bind_ok, h]
end RepBase

/-- A permutation braid is a positive word with as many letters as there are inversions. -/
theorem lift_word {n : Nat} (π : Equiv.Perm (Fin n)) : ∃ u : List Nat, (∀ s ∈ u, s + 1 < n) ∧ u.length = inv π ∧ lift π = posWord n u ∧ u.length ≤ n * (n - 1) / 2 := by
  obtain ⟨u, hu⟩ := exists_reduced π
  refine ⟨u, hu.1, hu.2.2, lift_eq_posWord hu, ?_⟩
  have h1 := inv_add_inv_w0 π
  rw [inv_w0_eq, Finset.sum_range_id] at h1
  have := hu.2.2
  omega

theorem small_mono {d ℓ m : Nat} {N : _root_.Matrix (Fin d) (Fin d) ℤ[X]} (h : Small ℓ N) (hm : ℓ ≤ m) : Small m N := by
  obtain ⟨G, g1, g2, g3⟩ := h
  exact ⟨G, g1, fun i j => (g2 i j).trans (by omega), fun j => (g3 j).trans (pow_le_pow_right₀ (by norm_num) hm)⟩

end Peyl
