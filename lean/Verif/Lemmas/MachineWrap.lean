import Verif.Lemmas.MachineInt
/-!
# Over the integers the machine computes modulo `2^w`
-/
namespace Peyl
open Polymat Polynomial LaurentPolynomial Jones

/-- Reduction of coefficients from `ZMod 0`. -/
noncomputable def red0 (q : Nat) : (ZMod 0)[T;T⁻¹] →+* (ZMod q)[T;T⁻¹] := AddMonoidAlgebra.mapRingHom ℤ (ZMod.castHom (dvd_zero q) (ZMod q))

theorem coeff_red0 (q : Nat) (f : (ZMod 0)[T;T⁻¹]) (k : ℤ) : (red0 q f).coeff k = ZMod.castHom (dvd_zero q) (ZMod q) (f.coeff k) := by
  rw [red0, AddMonoidAlgebra.coeff_mapRingHom]

theorem red0_red (q : Nat) (f : ℤ[T;T⁻¹]) : red0 q (LPoly.red 0 f) = LPoly.red q f := by
  apply LaurentPolynomial.ext
  intro k
  rw [coeff_red0, LPoly.coeff_red, LPoly.coeff_red, map_intCast]

theorem red0_T (q : Nat) (k : ℤ) : red0 q (T k) = T k := by
  rw [red0, T, AddMonoidAlgebra.mapRingHom_single, map_one]; rfl

/-- The representation modulo `q`. -/
noncomputable def homMod {n d : Nat} (q : Nat) (ρ : Braid n →* LMat 0 d) : Braid n →* LMat q d :=
  ((RingHom.mapMatrix (red0 q) : LMat 0 d →+* LMat q d) : LMat 0 d →* LMat q d).comp ρ

theorem homMod_apply {n d : Nat} (q : Nat) (ρ : Braid n →* LMat 0 d) (b : Braid n) : homMod q ρ b = (ρ b).map (red0 q) := rfl

theorem denMod_red0 {α : Type} {d : Nat} (q : Nat) (A : PArr α d d) (a : α) : Polymat.denMod q A a = (Polymat.denMod 0 A a).map (red0 q) := by
  funext i j
  rw [_root_.Matrix.map_apply, denMod_apply, denMod_apply, red0_red]

theorem upToShift_red0 {α : Type} {n d q : Nat} {ρ : Braid n →* LMat 0 d} {A : PArr α d d} {b : α → Braid n} (h : UpToShift 0 A fun a => ρ (b a)) :
    UpToShift q A fun a => homMod q ρ (b a) := by
  intro a
  obtain ⟨k, hk⟩ := h a
  refine ⟨k, ?_⟩
  rw [denMod_red0, hk]
  dsimp only
  rw [homMod_apply]
  funext i j
  simp only [_root_.Matrix.map_apply, _root_.Matrix.smul_apply, smul_eq_mul, map_mul, red0_T]

/-! ### the cell representations -/

theorem cell_homMod {n r q : Nat} (hn : 2 ≤ n) (h : 2 * r ≤ n) {G I : List Matrix} {ρ : Braid n →* LMat 0 (dimension n r)} (hrep : cellRep n r 0 = .ok ⟨n, 0, G, I⟩)
    (H : Realises (⟨n, 0, G, I⟩ : RepBase (dimension n r)) ρ) (hF : FullTwistScalar ρ) :
    ∃ G' I', cellRep n r q = .ok ⟨n, q, G', I'⟩ ∧ Realises (⟨n, q, G', I'⟩ : RepBase (dimension n r)) (homMod q ρ) ∧ FullTwistScalar (homMod q ρ) := by
  have hcm : cellMatrices n r = .ok (G, I) := by
    rw [cellRep, pyAssert, if_pos (by simp; omega), bind_ok, pyAssert, if_pos (by simpa using h), bind_ok, artinGensInvs] at hrep
    cases hc : cellMatrices n r with
    | error e => rw [hc] at hrep; cases hrep
    | ok gi =>
      rw [hc, bind_ok, if_neg (by simp), bind_ok] at hrep
      injection hrep with hrep; injection hrep with _ _ a b
      rw [← a, ← b]
  have hp : ∀ m : Matrix, m.Shape (dimension n r) (dimension n r) → (m.reduceMod q).denMod q (dimension n r) = (m.denMod 0 (dimension n r)).map (red0 q) := by
    intro m hm
    have e : (m.reduceMod q).denMod q (dimension n r) = m.denMod q (dimension n r) := by
      rw [Matrix.reduceMod]
      split
      · exact Matrix.red_map_modp hm q
      · rfl
    rw [e]
    funext i j
    simp only [Matrix.denMod, _root_.Matrix.map_apply, red0_red]
  have hsh : ∀ m : Matrix, m.Shape (dimension n r) (dimension n r) → (m.reduceMod q).Shape (dimension n r) (dimension n r) := by
    intro m hm
    rw [Matrix.reduceMod]
    split
    · exact Matrix.shape_map hm _ (Entry.ok_modp q)
    · exact hm
  have hlp : ∀ m : Matrix, (∀ x ∈ m.data, ∃ q, x = Entry.lp q) → ∀ x ∈ (m.reduceMod q).data, ∃ q, x = Entry.lp q := by
    intro m hM
    rw [Matrix.reduceMod]
    split
    · intro x hx
      simp only [Matrix.map, List.mem_map] at hx
      obtain ⟨y, hy, rfl⟩ := hx
      obtain ⟨q, rfl⟩ := hM y hy
      exact ⟨_, rfl⟩
    · exact hM
  refine ⟨G.map (Matrix.reduceMod q), I.map (Matrix.reduceMod q), ?_, ⟨by simpa using H.gens_len, by simpa using H.invs_len, fun i hi => ?_, fun i hi => ?_⟩, ?_⟩
  · rw [cellRep, pyAssert, if_pos (by simp; omega), bind_ok, pyAssert, if_pos (by simpa using h), bind_ok, artinGensInvs, hcm, bind_ok, bind_ok]
    by_cases hq : q = 0
    · have : (Matrix.reduceMod q) = fun m => m := by funext m; rw [Matrix.reduceMod, if_neg (by simpa using hq)]
      rw [this, if_neg (by simpa using hq)]; simp
    · have : (Matrix.reduceMod q) = fun m => m.map (Entry.modp q) := by funext m; rw [Matrix.reduceMod, if_pos hq]
      rw [this, if_pos hq]
  · obtain ⟨a1, a2, a3⟩ := H.gens i (by simpa using hi)
    simp only [List.getElem_map]
    refine ⟨hsh _ a1, hlp _ a2, ?_⟩
    show (Matrix.reduceMod q _).denMod q _ = _
    rw [hp _ a1]
    exact congrArg (fun X : LMat 0 (dimension n r) => X.map (red0 q)) a3
  · obtain ⟨a1, a2, a3⟩ := H.invs i (by simpa using hi)
    simp only [List.getElem_map]
    refine ⟨hsh _ a1, hlp _ a2, ?_⟩
    show (Matrix.reduceMod q _).denMod q _ = _
    rw [hp _ a1]
    exact congrArg (fun X : LMat 0 (dimension n r) => X.map (red0 q)) a3
  · obtain ⟨k, hk⟩ := hF
    refine ⟨k, ?_⟩
    rw [homMod_apply, hk]
    funext i j
    simp only [_root_.Matrix.map_apply, _root_.Matrix.smul_apply, smul_eq_mul, map_mul, red0_T, _root_.Matrix.one_apply]
    split <;> simp

/-! ### one multiplication -/

/-- Every entry is a `w`-bit integer. -/
def AllFit (w : Nat) {α : Type} {I J : Nat} (A : PArr α I J) : Prop := ∀ S ∈ A, ∀ a i j, Fits w (S a i j)

theorem fits_wrap {w : Nat} (hw : 1 ≤ w) (x : ℤ) : Fits w (wrap w x) := by
  have h2 : ((2 ^ w : ℕ) : ℤ) = 2 * 2 ^ (w - 1) := by
    obtain ⟨k, rfl⟩ : ∃ k, w = k + 1 := ⟨w - 1, by omega⟩
    push_cast
    rw [pow_succ, mul_comm]
  have h1 := Int.le_bmod (x := x) (m := 2 ^ w) (by positivity)
  have h3 := Int.bmod_lt (x := x) (m := 2 ^ w) (by positivity)
  unfold Fits wrap
  constructor <;> omega

theorem wrap_cast (w : Nat) (x : ℤ) : ((wrap w x : ℤ) : ZMod (2 ^ w)) = ((x : ℤ) : ZMod (2 ^ w)) := by
  rw [ZMod.intCast_eq_intCast_iff, Int.ModEq, wrap, Int.bmod_emod]

theorem AllFit.slice {w : Nat} {α : Type} {I J : Nat} {A : PArr α I J} (h : AllFit w A) (e : Nat) (a : α) (i : Fin I) (j : Fin J) : Fits w (Polymat.slice A e a i j) := by
  by_cases he : e < A.length
  · rw [slice_lt A he]; exact h _ (List.getElem_mem he) a i j
  · rw [slice_ge A (by omega)]
    exact ⟨by simp, by positivity⟩

theorem fits_zero {w : Nat} (hw : 1 ≤ w) {x : ℤ} (h : Fits w x) (h0 : ((x : ℤ) : ZMod (2 ^ w)) = 0) : x = 0 := by
  rw [ZMod.intCast_zmod_eq_zero_iff_dvd] at h0
  obtain ⟨k, hk⟩ := h0
  have h2 : ((2 ^ w : ℕ) : ℤ) = 2 * 2 ^ (w - 1) := by
    obtain ⟨k, rfl⟩ : ∃ k, w = k + 1 := ⟨w - 1, by omega⟩
    push_cast
    rw [pow_succ, mul_comm]
  have hpos : (0 : ℤ) < 2 ^ (w - 1) := by positivity
  rw [h2] at hk
  obtain ⟨f1, f2⟩ := h
  have : k = 0 := by
    rcases lt_trichotomy k 0 with hk' | hk' | hk'
    · nlinarith
    · exact hk'
    · nlinarith
  rw [hk, this, mul_zero]

theorem allFit_projectivise {w : Nat} {α : Type} [Fintype α] [Nonempty α] {I J : Nat} {A P : PArr α I J} (h : projectivise A = .ok P) (hA : AllFit w A) : AllFit w P := by
  intro S hS a i j
  obtain ⟨e, he, rfl⟩ := List.getElem_of_mem hS
  rw [← slice_lt P he]
  obtain ⟨e', he'⟩ := (projectivise_entries h).1 e a i j
  rw [he']
  exact hA.slice e' a i j

theorem mulW_wrap {γ : Type} [Fintype γ] [Nonempty γ] {w d : Nat} (hw : 1 ≤ w) {A B : PArr γ d d} {M N : γ → LMat (2 ^ w) d}
    (hB : B ≠ []) (hA : UpToShift (2 ^ w) A M) (hB' : UpToShift (2 ^ w) B N) (hne : ∀ g, M g * N g ≠ 0) :
    ∃ P, polymatMulW w 0 (fun i : γ => i) (fun i => i) A B = .ok P ∧ AllFit w P ∧ RepBase.Cn P ∧ UpToShift (2 ^ w) P fun g => M g * N g := by
  obtain ⟨C, c1, c2⟩ := Polymat.mul_spec (fun i : γ => i) (fun i => i) A B (.inr hB)
  have hlen : A.length + B.length ≠ 0 := by have := List.length_pos_iff.2 hB; omega
  have c1' := c1
  rw [mul, if_neg hlen] at c1'
  cases c1'
  obtain ⟨C', e1, e2⟩ : ∃ C' : PArr γ d d, mulW w (fun i : γ => i) (fun i => i) A B = .ok C' ∧ C' = (List.range (A.length + B.length - 1)).map (mulSliceW w (fun i : γ => i) (fun i => i) A B) :=
    ⟨_, by rw [mulW, if_neg hlen], rfl⟩
  have hfit : AllFit w C' := by
    rw [e2]
    intro S hS g i k
    obtain ⟨e, -, rfl⟩ := List.mem_map.1 hS
    rw [mulSliceW_eq]; exact fits_wrap hw _
  have hden : ∀ g, Polymat.denMod (2 ^ w) C' g = M g * N g ∨ ∃ k : ℤ, Polymat.denMod (2 ^ w) C' g = (T k : (ZMod (2 ^ w))[T;T⁻¹]) • (M g * N g) := by
    intro g
    right
    obtain ⟨k, hk⟩ := hA g
    obtain ⟨l, hl⟩ := hB' g
    refine ⟨k + l, ?_⟩
    have e3 : Polymat.denMod (2 ^ w) C' g = Polymat.denMod (2 ^ w) ((List.range (A.length + B.length - 1)).map (mulSlice (fun i : γ => i) (fun i => i) A B)) g := by
      funext i j
      apply LaurentPolynomial.ext
      intro x
      rw [coeff_denMod, coeff_denMod, e2]
      split
      · rw [slice_map_range, slice_map_range]
        split
        · rw [mulSliceW_eq, wrap_cast]
        · rfl
      · rfl
    rw [e3, denMod_mul (c2 g), hk, hl, smul_mul_assoc, mul_smul_comm, T_smul_smul]
  have hs : UpToShift (2 ^ w) C' fun g => M g * N g := fun g => by
    rcases hden g with h | h
    · exact ⟨0, by rw [h, T_zero, one_smul]⟩
    · exact h
  obtain ⟨P, p1, p2, p3⟩ := projectivise_spec C' (hs.den_ne hne)
  refine ⟨P, ?_, allFit_projectivise p1 hfit, ⟨p2.1, p2.2⟩, fun g => ?_⟩
  · rw [polymatMulW, e1, bind_ok, if_neg (by simp)]; exact p1
  · obtain ⟨e, he⟩ := hs g
    obtain ⟨f, hf⟩ := p3 g
    rw [denMod_X_pow hf, T_smul_eq_iff, T_smul_smul] at he
    exact ⟨_, he⟩

/-- Signed representatives. -/
theorem image_of_fit {γ : Type} {w d : Nat} (hw : 1 ≤ w) {A : PArr γ d d} {M : γ → LMat (2 ^ w) d} (hA : AllFit w A) (hc : RepBase.Cn A)
    (hs : UpToShift (2 ^ w) A M) : IsProjImage (2 ^ w) (modp (2 ^ w) A) M := by
  have hsl : ∀ e a i j, slice (modp (2 ^ w) A) e a i j = (slice A e a i j).fmod ((2 ^ w : ℕ) : ℤ) := by
    intro e a i j
    by_cases he : e < A.length
    · rw [slice_lt _ (by simpa [modp] using he), slice_lt A he]
      unfold modp
      rw [List.getElem_map]
    · rw [slice_ge _ (by simp [modp]; omega), slice_ge A (by omega)]; simp
  have hnz : ∀ e a, slice A e a ≠ 0 → slice (modp (2 ^ w) A) e a ≠ 0 := by
    intro e a h h0
    refine h ?_
    funext i j
    have h1 := hsl e a i j
    rw [h0] at h1
    refine fits_zero hw (hA.slice e a i j) ?_
    rw [ZMod.intCast_zmod_eq_zero_iff_dvd]
    exact Int.dvd_of_fmod_eq_zero h1.symm
  refine ⟨fun a => hnz 0 a (hc.first a), ?_, fun hq S hS a i j => ?_, fun a => ?_⟩
  · obtain ⟨a, ha⟩ := hc.last
    refine ⟨a, ?_⟩
    rw [show (modp (2 ^ w) A).length = A.length by simp [modp]]
    exact hnz _ a ha
  · obtain ⟨S', -, rfl⟩ := List.mem_map.1 hS
    exact ⟨Int.fmod_nonneg_of_pos _ (by positivity), Int.fmod_lt_of_pos _ (by positivity)⟩
  · obtain ⟨k, hk⟩ := hs a
    exact ⟨k, by rw [denMod_modp, hk]⟩

/-! ### the evaluators -/

variable {lim : Nat} {ω : List Nat → List Nat → Nat → Nat} {n r w : Nat} {G I : List Matrix} {ρ : Braid n →* LMat 0 (dimension n r)}

theorem allFit_of_bd {α : Type} {d b : Nat} (hb : b < 2 ^ (w - 1)) {A : PArr α d d} (h : Bd b A) : AllFit w A := by
  intro S hS a i j
  have h1 := h S hS a i j
  have h2 : (b : ℤ) < 2 ^ (w - 1) := by exact_mod_cast hb
  have h3 : |S a i j| ≤ (b : ℤ) := by first | exact h1 | (rw [Int.abs_eq_natAbs]; exact_mod_cast h1)
  rw [abs_le] at h3
  constructor <;> omega

theorem wrap_step (hn : 2 ≤ n) (h : 2 * r ≤ n) (hrep : cellRep n r 0 = .ok ⟨n, 0, G, I⟩) (H : Realises (⟨n, 0, G, I⟩ : RepBase (dimension n r)) ρ)
    (hd : 0 < dimension n r) {t : NFTable (List Nat)} (R : GReal lim ω n t) (hw : n * (n - 1) / 2 < w - 1)
    {L : Nat} (hL : 0 < L) (factors : List (List Nat)) (hf : factors.length = L) (k : Nat)
    (hk : ∀ fs ∈ factors, k < fs.length ∧ ∀ f ∈ fs, f < t.order)
    {A : PArr (Fin L) (dimension n r) (dimension n r)} {b : Fin L → Braid n} (hA : UpToShift (2 ^ w) A fun i => homMod (2 ^ w) ρ (b i)) :
    ∃ B, (⟨n, 0, G, I⟩ : RepBase (dimension n r)).evalStepW w (GNF.tbl lim ω) L factors A k = .ok B ∧ AllFit w B ∧ RepBase.Cn B ∧
      UpToShift (2 ^ w) B fun i => homMod (2 ^ w) ρ (b i * lift (permAt n ((factors[i.1]'(by omega)).getD k 0))) := by
  set rep : RepBase (dimension n r) := ⟨n, 0, G, I⟩ with hrepd
  have hp : rep.p ≠ 1 := by show (0 : Nat) ≠ 1; decide
  have h2w : (2 : Nat) ^ w ≠ 1 := (Nat.one_lt_two_pow (by omega)).ne'
  have hinv : ∀ f, inv (permAt n f) ≤ n * (n - 1) / 2 := fun f => by
    obtain ⟨u, -, u2, -, u4⟩ := lift_word (permAt n f)
    omega
  obtain ⟨ms, m1, m2, m3⟩ := mapM_spec (fun fs : List Nat => do rep.factorImageW w (GNF.tbl lim ω) (← lookup fs k))
    (fun fs P => IsProjImage rep.p P fun _ => ρ (lift (permAt n (fs.getD k 0)))) factors (by
      intro fs hfs
      obtain ⟨h1, h2⟩ := hk fs hfs
      have h3 := h2 _ (List.getElem_mem h1)
      obtain ⟨P, p1, p2⟩ := RepBase.factorImage_spec (rep := rep) R.1 H hd hp h3
      refine ⟨P, by rw [lookup_lt h1, bind_ok, int_factor hn h hrep H hd R hw h3 (hinv _)]; exact p1, ?_⟩
      simpa [h1] using p2)
  obtain ⟨B, b1, b2, b3, -⟩ := RepBase.packN_image (p := rep.p) hL ms (by omega) (fun i => ρ (lift (permAt n ((factors[i.1]'(by omega)).getD k 0)))) (by
    intro i hi
    have := m3 i (by omega)
    exact ⟨⟨this.first, this.last⟩, this.shift⟩)
  have hBne : B ≠ [] := by
    rintro rfl
    exact b2.1 ⟨0, hL⟩ (by funext i j; rfl)
  haveI : Nonempty (Fin L) := ⟨⟨0, hL⟩⟩
  have b3' : UpToShift (2 ^ w) B fun i => homMod (2 ^ w) ρ (lift (permAt n ((factors[i.1]'(by omega)).getD k 0))) :=
    upToShift_red0 (b := fun i : Fin L => lift (permAt n ((factors[i.1]'(by omega)).getD k 0))) b3
  obtain ⟨P, p1, p2, p3, p4⟩ := mulW_wrap (w := w) (by omega) hBne hA b3' (fun i => by
    rw [← map_mul]; exact RepBase.rho_ne (homMod (2 ^ w) ρ) hd h2w _)
  refine ⟨P, ?_, p2, p3, ?_⟩
  · rw [RepBase.evalStepW, m1, bind_ok, b1, bind_ok]; exact p1
  · simpa only [map_mul] using p4

/-- Over the integers, for any braids: the machine's result is the exact one modulo `2^w`. -/
theorem cell_wrap (hn : 2 ≤ n) (hl : n < lim) (h : 2 * r ≤ n) (hrep : cellRep n r 0 = .ok ⟨n, 0, G, I⟩)
    (H : Realises (⟨n, 0, G, I⟩ : RepBase (dimension n r)) ρ) (hF : FullTwistScalar ρ) (hd : 0 < dimension n r) (hw : n * (n - 1) / 2 < w - 1)
    (xs : List NF) (hne : xs ≠ []) (len : Nat) (hx : ∀ x ∈ xs, IsGNF lim ω n x ∧ x.factors.length = len) :
    ∃ A, (⟨n, 0, G, I⟩ : RepBase (dimension n r)).evalSameW w (GNF.tbl lim ω) xs = .ok A ∧ AllFit w A ∧
      IsProjImage (2 ^ w) (modp (2 ^ w) A) fun i => homMod (2 ^ w) ρ (gnfBraid n xs[i]) := by
  obtain ⟨t, R⟩ := exists_greal lim ω hn hl
  set rep : RepBase (dimension n r) := ⟨n, 0, G, I⟩ with hrepd
  have hp : rep.p ≠ 1 := by show (0 : Nat) ≠ 1; decide
  have hL : 0 < xs.length := List.length_pos_iff.2 hne
  have hpow : (2 : Nat) ^ (n * (n - 1) / 2) < 2 ^ (w - 1) := Nat.pow_lt_pow_right (by norm_num) hw
  have hword : ∀ q : ℤ, ∃ u : List Nat, (∀ s ∈ u, s + 1 < n) ∧ u.length ≤ n * (n - 1) / 2 ∧ halfTwist n ^ (q % 2).toNat = posWord n u := by
    intro q
    obtain ⟨u, u1, u2, u3⟩ := delta_word n q
    refine ⟨u, u1, ?_, u3⟩
    have : (q % 2).toNat = 0 ∨ (q % 2).toNat = 1 := by omega
    rw [u2]
    rcases this with e | e <;> simp [e]
  obtain ⟨ds, d1, d2, d3⟩ := mapM_spec (fun x : NF => do rep.deltaImageW w (GNF.tbl lim ω) (← NF.tauIndex x.power t.tauOrder))
    (fun x P => RepBase.Cn P ∧ UpToShift 0 P (fun _ => ρ (halfTwist n ^ (x.power % 2).toNat))) xs (by
      intro x hxm
      obtain ⟨e1, e2⟩ := R.1.tauIndex_ok x.power
      obtain ⟨P, p1, p2, p3, -⟩ := RepBase.deltaImage_spec (rep := rep) R.1 H hd hp e2
      have p3' : UpToShift 0 P (fun _ => ρ (halfTwist n ^ (x.power % 2).toNat)) := by have := p3; rwa [R.tauOrder] at this
      refine ⟨P, by rw [e1, bind_ok]; exact RepBase.deltaImageW_eq p1 (bd_words (b := fun _ => halfTwist n ^ (x.power % 2).toNat) hn h hrep H p3' fun _ => hword _) hpow,
        p2, p3'⟩)
  obtain ⟨A0, a1, a2, a3, -⟩ := RepBase.packN_image (p := 0) hL ds d2 (fun i => ρ (halfTwist n ^ (xs[i].power % 2).toNat)) (fun i hi => d3 i (by omega))
  have hfit : AllFit w A0 := allFit_of_bd hpow (bd_words (b := fun i : Fin xs.length => halfTwist n ^ (xs[i].power % 2).toNat) hn h hrep H a3 fun i => hword _)
  obtain ⟨A, f1, f2, f3, f4⟩ := foldlM_range (rep.evalStepW w (GNF.tbl lim ω) xs.length (xs.map NF.factors))
    (fun k A => AllFit w A ∧ RepBase.Cn A ∧ UpToShift (2 ^ w) A fun i => homMod (2 ^ w) ρ (halfTwist n ^ (xs[i].power % 2).toNat *
      ((xs[i].factors.take k).map fun f => lift (permAt n f)).prod)) len A0
    ⟨hfit, a2, by simpa using upToShift_red0 (q := 2 ^ w) (b := fun i : Fin xs.length => halfTwist n ^ (xs[i].power % 2).toNat) a3⟩ (by
      rintro k hk A ⟨-, -, c3⟩
      obtain ⟨B, s1, s2, s3, s4⟩ := wrap_step (w := w) hn h hrep H hd R hw hL (xs.map NF.factors) (by simp) k (fun fs hfs => by
        obtain ⟨x, hxm, rfl⟩ := List.mem_map.1 hfs
        exact ⟨by rw [(hx x hxm).2]; exact hk, (R.isGNF_iff.1 (hx x hxm).1).inR⟩) c3
      refine ⟨B, s1, s2, s3, fun i => ?_⟩
      have h1 := s4 i
      have hlen := (hx xs[i] (List.getElem_mem _)).2
      have e : ((xs.map NF.factors)[i.1]'(by simp)) = xs[i].factors := by simp
      dsimp only at h1 ⊢
      rw [e] at h1
      have hlt : k < xs[i].factors.length := by omega
      rw [List.take_succ_eq_append_getElem hlt, List.map_append, List.prod_append, ← mul_assoc]
      rw [List.getD_eq_getElem?_getD, List.getElem?_eq_getElem hlt, Option.getD_some] at h1
      simpa using h1)
  refine ⟨A, ?_, f2, ?_⟩
  · obtain ⟨x0, hx0⟩ : ∃ x0, lookup xs 0 = .ok x0 := ⟨_, lookup_lt hL⟩
    have hx0m : x0 ∈ xs := by rw [lookup_lt hL] at hx0; injection hx0 with hx0; rw [← hx0]; exact List.getElem_mem _
    rw [RepBase.evalSameW, hx0, bind_ok]
    dsimp only
    rw [pyAssert, if_pos, bind_ok, show GNF.tbl lim ω rep.n = .ok t from R.1.ok, bind_ok, d1, bind_ok, a1, bind_ok]
    · rw [show x0.canonicalLength = len from (hx x0 hx0m).2]; exact f1
    · simp only [List.all_eq_true, beq_iff_eq]
      intro x hxm
      exact (hx x hxm).2.trans (hx x0 hx0m).2.symm
  · have key := image_of_fit (w := w) (by omega) f2 f3 f4
    refine key.congr fun i => ?_
    obtain ⟨G', I', -, H', hF'⟩ := cell_homMod (q := 2 ^ w) hn h hrep H hF
    have hlen := (hx xs[i] (List.getElem_mem _)).2
    have := RepBase.power_shift (rep := (⟨n, 2 ^ w, G', I'⟩ : RepBase (dimension n r))) R.1 (ρ := homMod (2 ^ w) ρ) (by
      obtain ⟨k, hk⟩ := hF'
      exact ⟨k, by rw [R.tauOrder]; exact hk⟩) xs[i].power ((xs[i].factors.map fun f => lift (permAt n f)).prod)
    rw [R.tauOrder] at this
    obtain ⟨k, hk⟩ := this
    have e : List.take len xs[i].factors = xs[i].factors := by rw [← hlen, List.take_length]
    rw [e]
    exact ⟨k, hk⟩

end Peyl
