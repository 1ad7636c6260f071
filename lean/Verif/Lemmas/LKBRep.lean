import Verif.Lemmas.LKBTwist
import Verif.Lemmas.JonesRep
import Verif.Props.Rep
import Verif.Props.LKB
/-!
# `LKBRep` as a representation: what does not use the second component of `artin_gens_invs`
-/
namespace Peyl
open LaurentPolynomial Polymat

namespace LKB
variable {n p : Nat} {q t : LPoly}

theorem gen_lp {s : Nat} {M : Matrix} (h : gen n q t s = .ok M) : ∀ x ∈ M.data, ∃ l, x = Entry.lp l := by
  rw [gen] at h
  cases hc : (pairs n).mapM (fun ij => column q t s ij.1 ij.2) with
  | error e => rw [hc] at h; cases h
  | ok cols =>
    rw [hc, bind_ok, Matrix.fromRows.eq_def] at h
    split at h
    · cases h
    · next r rs e =>
      split at h
      · rw [Matrix.make] at h
        split at h
        · cases h
        · split at h
          · cases h
          · cases h
            intro x hx
            dsimp only at hx
            rw [List.mem_flatten] at hx
            obtain ⟨l, hl, hx⟩ := hx
            obtain ⟨a, -, rfl⟩ := List.mem_map.1 hl
            obtain ⟨b, -, rfl⟩ := List.mem_map.1 hx
            exact ⟨_, rfl⟩
      · cases h

theorem unit_den {x : LPoly} (hx : x.Trimmed) (hu : x.isUnit = true) : IsUnit x.den := by
  rw [LPoly.isUnit_den_iff hx]
  simp only [LPoly.isUnit, Bool.and_eq_true, Bool.or_eq_true, beq_iff_eq] at hu
  obtain ⟨e, hu⟩ := hu
  obtain ⟨c, hc⟩ := List.length_eq_one_iff.1 e
  rw [hc] at hu ⊢
  simpa using hu

theorem unit_sq {x : LPoly} (hx : x.Trimmed) (hu : x.isUnit = true) : x.den ^ 2 = T (2 * x.val) := by
  have h := (LPoly.isUnit_den_iff hx).1 (unit_den hx hu)
  rw [two_mul, T_add]
  rcases h with h | h <;> rw [LPoly.den, h] <;> simp [listPoly, pow_two]

/-- A matrix object for any matrix of Laurent polynomials. -/
theorem exists_matrix (d : Nat) (A : _root_.Matrix (Fin d) (Fin d) ℤ[T;T⁻¹]) : ∃ m : Matrix, m.Shape d d ∧ (∀ x ∈ m.data, ∃ l, x = Entry.lp l) ∧ m.den d d = A := by
  have : ∀ i j : Nat, ∃ l : LPoly, l.Trimmed ∧ ∀ (hi : i < d) (hj : j < d), l.den = A ⟨i, hi⟩ ⟨j, hj⟩ := fun i j => by
    by_cases h : i < d ∧ j < d
    · obtain ⟨l, l1, l2⟩ := LPoly.exists_den (A ⟨i, h.1⟩ ⟨j, h.2⟩)
      exact ⟨l, l1, fun _ _ => l2⟩
    · exact ⟨LPoly.make 0 [], LPoly.trimmed_make _ _, fun hi hj => absurd ⟨hi, hj⟩ h⟩
  choose F hF1 hF2 using this
  have hs := Matrix.shape_tabulate d d (fun i j => Entry.lp (F i j)) (fun i j => hF1 i j)
  refine ⟨_, hs, fun x hx => ?_, ?_⟩
  · simp only [Matrix.tabulate, List.mem_flatMap, List.mem_map] at hx
    obtain ⟨i, -, j, -, rfl⟩ := hx
    exact ⟨_, rfl⟩
  · funext i j
    rw [Matrix.den_apply hs, Matrix.at_tabulate _ _ _ _ _ i.2 j.2]
    exact hF2 i j i.2 j.2

/-- `LKBRep` has the generators of a representation `ρ` of the braid group in which the full twist is `t² q^(2n)`; with the right
inverses `I` it would realise `ρ`. -/
theorem realises (hq : q.Trimmed) (ht : t.Trimmed) (hqu : q.isUnit = true) (htu : t.isUnit = true) (hn : 2 ≤ n) (p : Nat) :
    ∃ (G I : List Matrix) (ρ : Braid n →* LMat p (dimension n)), rep n p q t = .ok ⟨n, p, G, G⟩ ∧
      Realises (⟨n, p, G, I⟩ : RepBase (dimension n)) ρ ∧
      ρ (halfTwist n ^ 2) = LPoly.red p (t.den ^ 2 * q.den ^ (2 * n)) • 1 ∧
      (∀ s, s + 1 < n → ∃ v : Fin (dimension n) → (ZMod p)[T;T⁻¹], (∃ a, v a = 1) ∧ (ρ (sigma n s)).mulVec v = LPoly.red p (t.den * q.den ^ 2) • v) := by
  obtain ⟨gens, invs, r1, r2, r3, r4, r5⟩ := C56_relations_partial hq ht hqu htu (by omega : 1 ≤ n)
  obtain ⟨G, m1, m2, m3⟩ := LKB.main hq ht hqu htu (by omega : 1 ≤ n)
  rw [r1] at m1
  simp only [Except.ok.injEq, Prod.mk.injEq] at m1
  obtain ⟨e1, e2⟩ := m1
  have hgs : gens.length = n - 1 := r2
  have hgen : ∀ s (hs : s < gens.length), gen n q t s = .ok gens[s] := by
    have hr1 := r1
    rw [artinGensInvs, pyAssert, if_pos (by simp; omega), bind_ok, pyAssert, if_pos hqu, bind_ok, pyAssert, if_pos htu, bind_ok] at hr1
    cases hm : (List.range (n - 1)).mapM (fun s => gen n q t s) with
    | error e => rw [hm] at hr1; cases hr1
    | ok gs =>
      rw [hm, bind_ok] at hr1
      simp only [Except.ok.injEq, Prod.mk.injEq] at hr1
      intro s hs
      obtain ⟨M, h1, -⟩ := gen_spec hq ht (n := n) (s := s) (by omega)
      have hx : ∀ s, ∃ M, s ∈ List.range (n - 1) → gen n q t s = .ok M := fun s => by
        by_cases hs : s + 1 < n
        · obtain ⟨M, h1, -⟩ := gen_spec hq ht (n := n) (s := s) hs
          exact ⟨M, fun _ => h1⟩
        · exact ⟨⟨0, 0, []⟩, fun h => absurd (List.mem_range.1 h) (by omega)⟩
      choose F hF using hx
      rw [TL.mapM_ok _ F _ hF] at hm
      cases hm
      obtain ⟨rfl, -⟩ := hr1
      rw [hF s (List.mem_range.2 (by omega))]
      simp
  have hlp : ∀ m ∈ gens, ∀ x ∈ m.data, ∃ l, x = Entry.lp l := fun m hm => by
    obtain ⟨s, hs, rfl⟩ := List.getElem_of_mem hm
    exact gen_lp (hgen s hs)
  -- the inverses
  have hinv : ∀ m ∈ gens, ∃ i : Matrix, i.Shape (dimension n) (dimension n) ∧ (∀ x ∈ i.data, ∃ l, x = Entry.lp l) ∧
      m.den (dimension n) (dimension n) * i.den (dimension n) (dimension n) = 1 ∧ i.den (dimension n) (dimension n) * m.den (dimension n) (dimension n) = 1 := fun m hm => by
    obtain ⟨u, hu⟩ := (r3 m hm).2
    obtain ⟨i, i1, i2, i3⟩ := exists_matrix (dimension n) ((u⁻¹ : (_root_.Matrix (Fin (dimension n)) (Fin (dimension n)) ℤ[T;T⁻¹])ˣ) : _root_.Matrix _ _ _)
    refine ⟨i, i1, i2, ?_, ?_⟩
    · rw [i3]; exact (congrArg (· * _) hu.symm).trans u.mul_inv
    · rw [i3]; exact (congrArg (_ * ·) hu.symm).trans u.inv_mul
  have hinv' : ∀ m, ∃ i : Matrix, m ∈ gens → i.Shape (dimension n) (dimension n) ∧ (∀ x ∈ i.data, ∃ l, x = Entry.lp l) ∧
      m.den (dimension n) (dimension n) * i.den (dimension n) (dimension n) = 1 ∧ i.den (dimension n) (dimension n) * m.den (dimension n) (dimension n) = 1 := fun m => by
    by_cases hm : m ∈ gens
    · obtain ⟨i, hi⟩ := hinv m hm; exact ⟨i, fun _ => hi⟩
    · exact ⟨m, fun h => absurd h hm⟩
  choose J hJ using hinv'
  have rel : (⟨n, p, gens, gens.map J⟩ : RepBase (dimension n)).Relations := by
    refine ⟨hgs, by simp [hgs], fun m hm => ⟨(r3 m hm).1, hlp m hm⟩, fun m hm => ?_, fun i h h' => ?_, fun i h h' => ?_, fun i j h hij => ?_, fun i h => ?_⟩
    · obtain ⟨g, hg, rfl⟩ := List.mem_map.1 hm
      exact ⟨(hJ g hg).1, (hJ g hg).2.1⟩
    · dsimp only at h ⊢
      rw [List.getElem_map, ← Matrix.denMod_mul (x := Matrix.identity _) (by rw [(hJ _ (List.getElem_mem h)).2.2.1, Matrix.den_identity]), Matrix.denMod_one (Matrix.den_identity _)]
    · dsimp only at h ⊢
      rw [List.getElem_map, ← Matrix.denMod_mul (x := Matrix.identity _) (by rw [(hJ _ (List.getElem_mem h)).2.2.2, Matrix.den_identity]), Matrix.denMod_one (Matrix.den_identity _)]
    · have := congrArg (fun A => A.map (LPoly.red p)) (r4 i j h hij)
      rw [_root_.Matrix.map_mul, _root_.Matrix.map_mul] at this; exact this
    · have := congrArg (fun A => A.map (LPoly.red p)) (r5 i h)
      rw [_root_.Matrix.map_mul, _root_.Matrix.map_mul, _root_.Matrix.map_mul, _root_.Matrix.map_mul] at this; exact this
  obtain ⟨ρ, H⟩ := C53_realises _ rel
  have hinvs : invs = gens := by rw [e1, e2]
  have hG : ∀ s, s + 1 < n → ρ (sigma n s) = ((G s).den (dimension n) (dimension n)).map (LPoly.red p) := fun s hs => by
    have hs' : s < gens.length := by omega
    rw [← (H.gens s hs').2.2]
    show (gens[s].den _ _).map _ = _
    subst e1
    simp
  refine ⟨gens, gens.map J, ρ, by rw [rep, r1, bind_ok, hinvs], H, ?_, fun s hs => ?_⟩
  · -- the full twist
    have hext : ∀ f g : Module.End ℤ[T;T⁻¹] (Fin (pairs n).length → ℤ[T;T⁻¹]), (∀ i j, i < j → j < n → f (xvec n i j) = g (xvec n i j)) → f = g := by
      intro f g h
      have := ext_xvec (A := LinearMap.toMatrix' f) (B := LinearMap.toMatrix' g) (fun i j hij hj => by
        rw [_root_.Matrix.toLin'_toMatrix', _root_.Matrix.toLin'_toMatrix']; exact h i j hij hj)
      exact LinearMap.toMatrix'.injective this
    have tw := m3.full_twist hext (unit_den hq hqu) hn
    have tw2 : JM.half (fun s => (G s).den (pairs n).length (pairs n).length) (n - 1) ^ 2 = (t.den ^ 2 * q.den ^ (2 * n)) • 1 := by
      let f : Module.End ℤ[T;T⁻¹] (Fin (pairs n).length → ℤ[T;T⁻¹]) →* _root_.Matrix (Fin (pairs n).length) (Fin (pairs n).length) ℤ[T;T⁻¹] :=
        (LinearMap.toMatrixAlgEquiv' : _ ≃ₐ[ℤ[T;T⁻¹]] _).toRingEquiv.toRingHom.toMonoidHom
      have hf : ∀ A, f (_root_.Matrix.toLin' A) = A := fun A => LinearMap.toMatrix'_toLin' A
      have := congrArg f tw
      rw [map_pow, Jones.half_map f] at this
      simp only [hf] at this
      rw [this]
      show LinearMap.toMatrixAlgEquiv' _ = _
      rw [map_smul, map_one]
    rw [length_pairs] at tw2
    rw [halfTwist_eq (by omega), map_pow, Jones.half_map ρ, Jones.half_congr (t := fun s => (LPoly.red p).mapMatrix ((G s).den (dimension n) (dimension n))) (fun i hi => by
      rw [hG i (by omega)]; rfl)]
    have := congrArg ((LPoly.red p).mapMatrix (m := Fin (dimension n))).toMonoidHom tw2
    rw [map_pow, Jones.half_map] at this
    refine this.trans ?_
    show ((t.den ^ 2 * q.den ^ (2 * n)) • (1 : _root_.Matrix (Fin (dimension n)) (Fin (dimension n)) ℤ[T;T⁻¹])).map (LPoly.red p) = _
    funext i j
    simp only [_root_.Matrix.map_apply, _root_.Matrix.smul_apply, smul_eq_mul, map_mul, _root_.Matrix.one_apply]
    split <;> simp
  · have h1 := m3.h1 s hs
    rw [hG s hs]
    have hd : dimension n = (pairs n).length := (length_pairs n).symm
    obtain ⟨b, hb, e⟩ := List.getElem_of_mem ((mem_pairs (n := n) (p := (s, s + 1))).2 ⟨by simp, by dsimp only; omega⟩)
    rw [hd]
    refine ⟨fun a => LPoly.red p (xvec n s (s + 1) a), ⟨⟨b, hb⟩, ?_⟩, ?_⟩
    · simp only [xvec]
      rw [if_pos (show (pairs n)[(⟨b, hb⟩ : Fin (pairs n).length)] = (s, s + 1) from e), map_one]
    · funext a
      have := congrArg (LPoly.red p) (congrFun h1 a)
      rw [_root_.Matrix.toLin'_apply, _root_.Matrix.mulVec, dotProduct, map_sum] at this
      simp only [map_mul, Pi.smul_apply, smul_eq_mul] at this
      simp only [_root_.Matrix.mulVec, dotProduct, _root_.Matrix.map_apply, Pi.smul_apply, smul_eq_mul]
      rw [this]
      simp only [map_mul, map_pow]
      ring

end LKB
end Peyl
