import Verif.Lemmas.RepEval
import Verif.Lemmas.Bucketing
import Verif.Model.RepMisc
/-!
# `polymat_evaluate_artin_word`
-/
namespace Peyl
open LaurentPolynomial Polymat Bucketing Matrix
namespace RepBase
variable {d p : Nat} {rep : RepBase d}

theorem mapM_error {α β : Type} {f : α → Except Err β} {e : Err} : ∀ {l : List α}, (∀ x ∈ l, (∃ y, f x = .ok y) ∨ f x = .error e) →
    (∃ x ∈ l, f x = .error e) → l.mapM f = .error e
  | [], _, h => by simp at h
  | a :: l, h, hx => by
    rw [List.mapM_cons]
    rcases h a (by simp) with ⟨y, hy⟩ | hy
    · rw [hy, bind_ok, mapM_error (fun x hx => h x (by simp [hx]))]
      · rfl
      · obtain ⟨x, hx, he⟩ := hx
        rcases List.mem_cons.1 hx with rfl | hx
        · rw [hy] at he; cases he
        · exact ⟨x, hx, he⟩
    · rw [hy]; rfl

/-- All matrices are polynomial: the packed generators are their projective images. -/
theorem polymatGens_ok {ms : List Matrix} (hne : ms ≠ []) (hs : ∀ m ∈ ms, m.Shape d d ∧ ∀ x ∈ m.data, ∃ q, x = Entry.lp q)
    (hv : ∀ m ∈ ms, ValGE m 0) (h0 : ∀ m ∈ ms, m.denMod rep.p d ≠ 0) :
    ∃ A, rep.polymatGens ms = .ok A ∧ IsProjImage rep.p A fun i => ms[i].denMod rep.p d := by
  obtain ⟨ps, p1, p2, p3⟩ := mapM_spec (fun m => fromMatrix d d m false)
    (fun m A => (den A ()).map (fun f => f.toLaurent) = m.den d d) ms (fun m hm => (fromMatrix_lp (hs m hm).1 (hs m hm).2 false).1 (hv m hm))
  have hL : 0 < ms.length := List.length_pos_iff.2 hne
  obtain ⟨P, q1, q2, -⟩ := packN_spec hL ps (by omega)
  haveI : Nonempty (Fin ms.length) := ⟨⟨0, hL⟩⟩
  have hsft : UpToShift rep.p (redp rep.p P) fun i => ms[i].denMod rep.p d := by
    intro i
    refine ⟨0, ?_⟩
    rw [denMod_redp, denMod_of_den (q2 i), T_zero, one_smul]
    funext a b
    have := congrFun (congrFun (p3 i.1 i.2) a) b
    rw [_root_.Matrix.map_apply] at this
    rw [denMod_apply, this]; rfl
  obtain ⟨A, a1, a2⟩ := project_spec hsft (reduced_redp P) fun i => h0 _ (List.getElem_mem _)
  exact ⟨A, by rw [polymatGens, p1, bind_ok, q1, bind_ok]; exact a1, a2⟩

/-- A matrix with a negative exponent: ValueError. -/
theorem polymatGens_error {ms : List Matrix} (hs : ∀ m ∈ ms, m.Shape d d ∧ ∀ x ∈ m.data, ∃ q, x = Entry.lp q)
    (hv : ∃ m ∈ ms, ¬ ValGE m 0) : rep.polymatGens ms = .error .value := by
  rw [polymatGens, mapM_error (e := .value)]
  · rfl
  · intro m hm
    by_cases h : ValGE m 0
    · obtain ⟨A, h, -⟩ := (fromMatrix_lp (hs m hm).1 (hs m hm).2 false).1 h
      exact .inl ⟨A, h⟩
    · exact .inr ((fromMatrix_lp (hs m hm).1 (hs m hm).2 false).2.1 h rfl)
  · obtain ⟨m, hm, h⟩ := hv
    exact ⟨m, hm, (fromMatrix_lp (hs m hm).1 (hs m hm).2 false).2.1 h rfl⟩

theorem UpToShift.ne_nil {A : Img d} {M : LMat p d} (h : UpToShift p A fun _ => M) (hM : M ≠ 0) : A ≠ [] := by
  rintro rfl
  exact h.den_ne (fun _ => hM) () (by simp [den_eq_zero, slice])

theorem mulTimes_spec {g : Img d} {N : LMat rep.p d} (hg : UpToShift rep.p g fun _ => N) (hN : IsUnit N) : ∀ (k : Nat) (A : Img d) (M : LMat rep.p d),
    M ≠ 0 → UpToShift rep.p A (fun _ => M) → ReducedMod rep.p A →
    ∃ B, rep.mulTimes g k A = .ok B ∧ UpToShift rep.p B (fun _ => M * N ^ k) ∧ ReducedMod rep.p B
  | 0, A, M, _, hA, hr => ⟨A, rfl, by simpa using hA, hr⟩
  | k + 1, A, M, hM, hA, hr => by
    obtain ⟨C, c1, c2⟩ := Polymat.mul_spec (fun u : Unit => u) (fun u => u) A g (.inl (UpToShift.ne_nil hA hM))
    have hs : UpToShift rep.p (redp rep.p C) fun _ => M * N := by
      rintro ⟨⟩
      obtain ⟨a, ha⟩ := hA ()
      obtain ⟨b, hb⟩ := hg ()
      refine ⟨a + b, ?_⟩
      rw [denMod_redp, Peyl.denMod_mul (c2 ()), ha, hb, smul_mul_assoc, mul_smul_comm, T_smul_smul]
    have hMN : M * N ≠ 0 := fun h => hM (by simpa using hN.mul_right_cancel (h.trans (zero_mul N).symm))
    obtain ⟨B, b1, b2, b3⟩ := mulTimes_spec hg hN k (redp rep.p C) (M * N) hMN hs (reduced_redp C)
    refine ⟨B, by rw [mulTimes, c1, bind_ok]; exact b1, ?_, b3⟩
    simpa only [mul_assoc, ← pow_succ'] using b2

theorem reduced_eye (hp : p ≠ 1) : ReducedMod p (eye d) := by
  intro h0 S hS a i j
  simp only [eye, List.mem_singleton] at hS
  subst hS
  dsimp only
  split <;> omega

/-- The word evaluates to the product of the letters, provided all generator matrices are polynomial. -/
theorem polymatWord_spec (hd : 0 < d) (hp : rep.p ≠ 1) {n : Nat} (ρ : Braid n →* LMat rep.p d)
    (hgl : rep.gens ≠ []) (hil : rep.invs ≠ [])
    (hg : ∀ m ∈ rep.gens, m.Shape d d ∧ ∀ x ∈ m.data, ∃ q, x = Entry.lp q) (hi : ∀ m ∈ rep.invs, m.Shape d d ∧ ∀ x ∈ m.data, ∃ q, x = Entry.lp q)
    (hgv : ∀ m ∈ rep.gens, ValGE m 0) (hiv : ∀ m ∈ rep.invs, ValGE m 0) (hg0 : ∀ m ∈ rep.gens, m.denMod rep.p d ≠ 0) (hi0 : ∀ m ∈ rep.invs, m.denMod rep.p d ≠ 0)
    (w : List (Nat × ℤ)) (hw : ∀ ie ∈ w, if ie.2 ≥ 0 then ∃ h : ie.1 < rep.gens.length, rep.gens[ie.1].denMod rep.p d = ρ (sigma n ie.1)
      else ∃ h : ie.1 < rep.invs.length, rep.invs[ie.1].denMod rep.p d = ρ (sigma n ie.1)⁻¹) :
    ∃ A, rep.polymatEvaluateArtinWord w = .ok A ∧ IsProjImage rep.p A fun _ => ρ (wordBraid n w) := by
  obtain ⟨G, g1, g2⟩ := polymatGens_ok (rep := rep) hgl hg hgv hg0
  obtain ⟨I, i1, i2⟩ := polymatGens_ok (rep := rep) hil hi hiv hi0
  have unit : ∀ b : Braid n, IsUnit (ρ b) := fun b => (Group.isUnit b).map ρ
  have at' : ∀ {L : Nat} {B : PArr (Fin L) d d} {M : Fin L → LMat rep.p d}, IsProjImage rep.p B M → ∀ i, UpToShift rep.p (imgAt B i) fun _ => M i := by
    intro L B M h i ⟨⟩
    obtain ⟨k, hk⟩ := h.shift i
    exact ⟨k, by rw [denMod_of_den (den_imgAt B i), hk]⟩
  have fold : ∀ (w : List (Nat × ℤ)), (∀ ie ∈ w, if ie.2 ≥ 0 then ∃ h : ie.1 < rep.gens.length, rep.gens[ie.1].denMod rep.p d = ρ (sigma n ie.1)
      else ∃ h : ie.1 < rep.invs.length, rep.invs[ie.1].denMod rep.p d = ρ (sigma n ie.1)⁻¹) → ∀ (A : Img d) (b : Braid n),
      UpToShift rep.p A (fun _ => ρ b) → ReducedMod rep.p A →
      ∃ B, w.foldlM (init := A) (fun A ie => do
        if ie.2 ≥ 0 then
          if h : ie.1 < rep.gens.length then rep.mulTimes (imgAt G ⟨ie.1, h⟩) ie.2.natAbs A else .error .index
        else
          if h : ie.1 < rep.invs.length then rep.mulTimes (imgAt I ⟨ie.1, h⟩) ie.2.natAbs A else .error .index) = .ok B ∧
        UpToShift rep.p B (fun _ => ρ (b * wordBraid n w)) ∧ ReducedMod rep.p B := by
    intro w
    induction w with
    | nil => intro _ A b hA hr; exact ⟨A, rfl, by simpa [wordBraid] using hA, hr⟩
    | cons ie w ih =>
      intro hw A b hA hr
      obtain ⟨i, e⟩ := ie
      have hie := hw (i, e) (by simp)
      rw [List.foldlM_cons]
      have step : ∃ B, (if e ≥ 0 then
          if h : i < rep.gens.length then rep.mulTimes (imgAt G ⟨i, h⟩) e.natAbs A else .error .index
        else
          if h : i < rep.invs.length then rep.mulTimes (imgAt I ⟨i, h⟩) e.natAbs A else .error .index) = .ok B ∧
          UpToShift rep.p B (fun _ => ρ (b * sigma n i ^ e)) ∧ ReducedMod rep.p B := by
        by_cases he : e ≥ 0
        · rw [if_pos he] at hie ⊢
          obtain ⟨hl, hd'⟩ := hie
          rw [dif_pos hl]
          have hu := at' g2 ⟨i, hl⟩
          simp only [Fin.getElem_fin, hd'] at hu
          obtain ⟨B, b1, b2, b3⟩ := mulTimes_spec hu (unit _) e.natAbs A _ (rho_ne ρ hd hp b) hA hr
          refine ⟨B, b1, ?_, b3⟩
          rw [← map_pow, ← map_mul, ← zpow_natCast, Int.natCast_natAbs, abs_of_nonneg he] at b2
          exact b2
        · rw [if_neg he] at hie ⊢
          obtain ⟨hl, hd'⟩ := hie
          rw [dif_pos hl]
          have hu := at' i2 ⟨i, hl⟩
          simp only [Fin.getElem_fin, hd'] at hu
          obtain ⟨B, b1, b2, b3⟩ := mulTimes_spec hu (unit _) e.natAbs A _ (rho_ne ρ hd hp b) hA hr
          refine ⟨B, b1, ?_, b3⟩
          rw [← map_pow, ← map_mul, ← zpow_natCast, inv_zpow', Int.natCast_natAbs, abs_of_neg (by omega), neg_neg] at b2
          exact b2
      obtain ⟨B, b1, b2, b3⟩ := step
      obtain ⟨C, c1, c2, c3⟩ := ih (fun ie h => hw ie (by simp [h])) B _ b2 b3
      refine ⟨C, ?_, ?_, c3⟩
      · refine Eq.trans (congrArg (fun x => x >>= _) b1) ?_
        exact c1
      · have : b * sigma n i ^ e * wordBraid n w = b * wordBraid n ((i, e) :: w) := by simp [wordBraid, mul_assoc]
        rwa [this] at c2
  obtain ⟨B, b1, b2, b3⟩ := fold w hw (eye d) 1 (by
    rintro ⟨⟩; exact ⟨0, by rw [denMod_eye, map_one, T_zero, one_smul]⟩) (reduced_eye hp)
  rw [one_mul] at b2
  obtain ⟨A, a1, a2⟩ := project_spec b2 b3 fun _ => rho_ne ρ hd hp _
  refine ⟨A, ?_, a2⟩
  rw [polymatEvaluateArtinWord, g1, bind_ok, i1, bind_ok]
  refine Eq.trans (congrArg (fun x => x >>= _) b1) ?_
  exact a1

/-- A negative exponent in a generator or inverse: ValueError, whatever the word. -/
theorem polymatWord_error (hgl : rep.gens ≠ []) 
    (hg : ∀ m ∈ rep.gens, m.Shape d d ∧ ∀ x ∈ m.data, ∃ q, x = Entry.lp q) (hi : ∀ m ∈ rep.invs, m.Shape d d ∧ ∀ x ∈ m.data, ∃ q, x = Entry.lp q)
    (hg0 : ∀ m ∈ rep.gens, m.denMod rep.p d ≠ 0) (hv : ¬ ∀ m ∈ rep.gens ++ rep.invs, ValGE m 0) (w : List (Nat × ℤ)) :
    rep.polymatEvaluateArtinWord w = .error .value := by
  rw [polymatEvaluateArtinWord]
  by_cases hgv : ∀ m ∈ rep.gens, ValGE m 0
  · obtain ⟨G, g1, -⟩ := polymatGens_ok (rep := rep) hgl hg hgv hg0
    rw [g1, bind_ok, polymatGens_error hi]
    · rfl
    · push Not at hv
      obtain ⟨m, hm, h⟩ := hv
      rcases List.mem_append.1 hm with hm | hm
      · exact absurd (hgv m hm) h
      · exact ⟨m, hm, h⟩
  · rw [polymatGens_error hg]
    · rfl
    · push Not at hgv; exact hgv

end RepBase
end Peyl
