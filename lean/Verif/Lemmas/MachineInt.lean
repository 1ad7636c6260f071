import Verif.Lemmas.MachineMain
/-!
# Machine integers in `JonesCellRep` over the integers
-/
namespace Peyl
open Polymat Polynomial LaurentPolynomial Jones

variable {lim : Nat} {ω : List Nat → List Nat → Nat → Nat} {n d w : Nat} {G I : List Matrix} {ρ : Braid n →* LMat 0 d}

theorem foldlM_range_congr {σ : Type} (f g : σ → Nat → Except Err σ) (P : Nat → σ → Prop) (m : Nat) (s0 : σ) (h0 : P 0 s0)
    (hs : ∀ k < m, ∀ s, P k s → f s k = g s k ∧ ∃ s', g s k = .ok s' ∧ P (k + 1) s') : (List.range m).foldlM f s0 = (List.range m).foldlM g s0 := by
  induction m with
  | zero => rfl
  | succ m ih =>
    have ih := ih fun k hk => hs k (by omega)
    obtain ⟨s, h1, h2⟩ := foldlM_range g P m s0 h0 fun k hk s hP => (hs k (by omega) s hP).2
    rw [List.range_succ, List.foldlM_append, List.foldlM_append, ih, h1, bind_ok, bind_ok]
    rw [List.foldlM_cons, List.foldlM_cons, (hs m (by omega) s h2).1]; rfl

theorem prod_word (u : List Nat) (hu : ∀ s ∈ u, s + 1 < n) (πs : List (Equiv.Perm (Fin n))) : ∃ v : List Nat, (∀ s ∈ v, s + 1 < n) ∧
    v.length = u.length + (πs.map inv).sum ∧ posWord n u * (πs.map lift).prod = posWord n v := by
  induction πs generalizing u with
  | nil => exact ⟨u, hu, by simp, by simp⟩
  | cons π πs ih =>
    obtain ⟨y, y1, y2, y3, -⟩ := lift_word π
    obtain ⟨v, v1, v2, v3⟩ := ih (u ++ y) (fun s hs => by
      rcases List.mem_append.1 hs with h | h
      · exact hu s h
      · exact y1 s h)
    refine ⟨v, v1, ?_, ?_⟩
    · rw [v2, List.length_append, y2, List.map_cons, List.sum_cons]; omega
    · rw [← v3, List.map_cons, List.prod_cons, y3, posWord_append, mul_assoc]

/-- Tensors for braids that are positive words with at most `m` letters have coefficients at most `M`. -/
def WordsBd (ρ : Braid n →* LMat 0 d) (m M : Nat) : Prop :=
  ∀ {α : Type} {A : PArr α d d} {b : α → Braid n}, UpToShift 0 A (fun a => ρ (b a)) →
    (∀ a, ∃ u : List Nat, (∀ s ∈ u, s + 1 < n) ∧ u.length ≤ m ∧ b a = posWord n u) → Bd M A

theorem gnf_int_step {m M : Nat} (hW : WordsBd ρ m M) (hM : M < 2 ^ (w - 1)) (H : Realises (⟨n, 0, G, I⟩ : RepBase d) ρ)
    (hd : 0 < d) {t : NFTable (List Nat)} (R : GReal lim ω n t) (hw : 1 ≤ w)
    (hF : ∀ f, f < t.order → inv (permAt n f) ≤ m → (⟨n, 0, G, I⟩ : RepBase d).factorImageW w (GNF.tbl lim ω) f = (⟨n, 0, G, I⟩ : RepBase d).factorImage (GNF.tbl lim ω) f)
    {L : Nat} (hL : 0 < L) (factors : List (List Nat)) (hf : factors.length = L) (k : Nat)
    (hk : ∀ fs ∈ factors, k < fs.length ∧ ∀ f ∈ fs, f < t.order ∧ inv (permAt n f) ≤ m)
    {A : PArr (Fin L) d d} {b : Fin L → Braid n} (hA : UpToShift 0 A fun i => ρ (b i))
    (hb : ∀ i : Fin L, ∃ u : List Nat, (∀ s ∈ u, s + 1 < n) ∧ u.length ≤ m ∧ b i * lift (permAt n ((factors[i.1]'(by omega)).getD k 0)) = posWord n u) :
    (⟨n, 0, G, I⟩ : RepBase d).evalStepW w (GNF.tbl lim ω) L factors A k = (⟨n, 0, G, I⟩ : RepBase d).evalStep (GNF.tbl lim ω) L factors A k ∧
    ∃ B, (⟨n, 0, G, I⟩ : RepBase d).evalStep (GNF.tbl lim ω) L factors A k = .ok B ∧
      UpToShift 0 B fun i => ρ (b i * lift (permAt n ((factors[i.1]'(by omega)).getD k 0))) := by
  set rep : RepBase d := ⟨n, 0, G, I⟩ with hrepd
  have hp : rep.p ≠ 1 := by show (0 : Nat) ≠ 1; decide
  obtain ⟨B', e1, e2⟩ := RepBase.evalStep_spec (rep := rep) R.1 H hd hp hL factors hf k (fun fs hfs => ⟨(hk fs hfs).1, fun f hm => ((hk fs hfs).2 f hm).1⟩) hA
  refine ⟨?_, B', e1, e2.shift⟩
  obtain ⟨ms, m1, m2, m3⟩ := mapM_spec (fun fs : List Nat => do rep.factorImage (GNF.tbl lim ω) (← lookup fs k))
    (fun fs P => IsProjImage rep.p P fun _ => ρ (lift (permAt n (fs.getD k 0)))) factors (by
      intro fs hfs
      obtain ⟨h1, h2⟩ := hk fs hfs
      obtain ⟨P, p1, p2⟩ := RepBase.factorImage_spec (rep := rep) R.1 H hd hp (h2 _ (List.getElem_mem h1)).1
      refine ⟨P, by rw [lookup_lt h1, bind_ok]; exact p1, ?_⟩
      simpa [h1] using p2)
  obtain ⟨B, b1, b2, b3, -⟩ := RepBase.packN_image (p := rep.p) hL ms (by omega) (fun i => ρ (lift (permAt n ((factors[i.1]'(by omega)).getD k 0)))) (by
    intro i hi
    have := m3 i (by omega)
    exact ⟨⟨this.first, this.last⟩, this.shift⟩)
  have hBne : B ≠ [] := by
    rintro rfl
    exact b2.1 ⟨0, hL⟩ (by funext i j; rfl)
  obtain ⟨C, c1, c2⟩ := Polymat.mul_spec (fun i : Fin L => i) (fun i => i) A B (.inr hBne)
  have hC : Bd M C := by
    refine hW (b := fun i => b i * lift (permAt n ((factors[i.1]'(by omega)).getD k 0))) ?_ hb
    intro i
    obtain ⟨k1, hk1⟩ := hA i
    obtain ⟨k2, hk2⟩ := b3 i
    refine ⟨k1 + k2, ?_⟩
    have hk2' : Polymat.denMod 0 B i = _ := hk2
    rw [denMod_mul (c2 i), hk1, hk2']; dsimp only; rw [map_mul, T_add, smul_mul_assoc, mul_smul_comm, smul_smul]
  have hQ : ∀ fs ∈ factors, ∀ f ∈ fs, f < t.order ∧ inv (permAt n f) ≤ m := fun fs hfs => (hk fs hfs).2
  rw [RepBase.evalStepW, RepBase.evalStep, RepBase.stepImages (Q := fun f => f < t.order ∧ inv (permAt n f) ≤ m) (fun f hf => hF f hf.1 hf.2) hQ]
  rw [show (factors.mapM fun fs => (do rep.factorImage (GNF.tbl lim ω) (← lookup fs k) : Except Err (Img d))) = .ok ms from m1]
  rw [bind_ok, bind_ok, b1, bind_ok, bind_ok]
  exact mulW_of_bd hw hM _ c1 hC

theorem gnf_int_factor {m M : Nat} (hW : WordsBd ρ m M) (hM : M < 2 ^ (w - 1)) (H : Realises (⟨n, 0, G, I⟩ : RepBase d) ρ)
    (hd : 0 < d) {t : NFTable (List Nat)} (R : GReal lim ω n t) {f : Nat} (hf : f < t.order) (hi : inv (permAt n f) ≤ m) :
    (⟨n, 0, G, I⟩ : RepBase d).factorImageW w (GNF.tbl lim ω) f = (⟨n, 0, G, I⟩ : RepBase d).factorImage (GNF.tbl lim ω) f := by
  obtain ⟨P, p1, p2⟩ := RepBase.factorImage_spec (rep := (⟨n, 0, G, I⟩ : RepBase d)) R.1 H hd (show (0 : Nat) ≠ 1 by decide) hf
  obtain ⟨u, u1, u2, u3, -⟩ := lift_word (permAt n f)
  rw [RepBase.factorImageW_eq p1 (hW (b := fun _ => lift (permAt n f)) p2.shift fun _ => ⟨u, u1, by omega, u3⟩) hM, p1]

theorem gnf_int_fold {m M : Nat} (hW : WordsBd ρ m M) (hM : M < 2 ^ (w - 1)) (H : Realises (⟨n, 0, G, I⟩ : RepBase d) ρ)
    (hd : 0 < d) {t : NFTable (List Nat)} (R : GReal lim ω n t) (hw : 1 ≤ w) {L : Nat} (hL : 0 < L)
    (factors : List (List Nat)) (hf : factors.length = L) (len : Nat) (hk : ∀ fs ∈ factors, fs.length = len ∧ ∀ f ∈ fs, f < t.order)
    {A : PArr (Fin L) d d} (u : Fin L → List Nat) (hu : ∀ i, ∀ s ∈ u i, s + 1 < n) (hA : UpToShift 0 A fun i => ρ (posWord n (u i)))
    (hb : ∀ i : Fin L, (u i).length + ((factors[i.1]'(by omega)).map fun f => inv (permAt n f)).sum ≤ m) :
    (List.range len).foldlM ((⟨n, 0, G, I⟩ : RepBase d).evalStepW w (GNF.tbl lim ω) L factors) A =
      (List.range len).foldlM ((⟨n, 0, G, I⟩ : RepBase d).evalStep (GNF.tbl lim ω) L factors) A := by
  refine foldlM_range_congr _ _ (fun k A => UpToShift 0 A fun i => ρ (posWord n (u i) * ((((factors[i.1]'(by omega)).take k).map (permAt n)).map lift).prod)) len A
    (by simpa using hA) fun k hkl B hB => ?_
  have hget : ∀ i : Fin L, ((factors[i.1]'(by omega)).take k).map (permAt n) ++ [permAt n ((factors[i.1]'(by omega)).getD k 0)] =
      ((factors[i.1]'(by omega)).take (k + 1)).map (permAt n) := by
    intro i
    have hlen := (hk _ (List.getElem_mem (l := factors) (by omega : i.1 < factors.length))).1
    rw [List.take_succ_eq_append_getElem (by omega), List.map_append]
    simp [List.getElem?_eq_getElem (show k < (factors[i.1]'(by omega)).length by omega)]
  have hprod : ∀ i : Fin L, posWord n (u i) * ((((factors[i.1]'(by omega)).take k).map (permAt n)).map lift).prod * lift (permAt n ((factors[i.1]'(by omega)).getD k 0)) =
      posWord n (u i) * ((((factors[i.1]'(by omega)).take (k + 1)).map (permAt n)).map lift).prod := by
    intro i
    rw [← hget i, List.map_append, List.prod_append, mul_assoc]; simp
  have hle : ∀ (l l' : List Nat), l.Sublist l' → (l.map fun f => inv (permAt n f)).sum ≤ (l'.map fun f => inv (permAt n f)).sum := fun l l' hs =>
    (hs.map _).sum_le_sum (fun _ _ => Nat.zero_le _)
  obtain ⟨s1, C, s2, s3⟩ := gnf_int_step (w := w) hW hM H hd R hw (fun f hf hi => gnf_int_factor hW hM H hd R hf hi) hL factors hf k
    (fun fs hfs => ⟨by rw [(hk fs hfs).1]; exact hkl, fun f hff => ⟨(hk fs hfs).2 f hff, by
      obtain ⟨i, hi, rfl⟩ := List.getElem_of_mem hfs
      have h1 := hb ⟨i, by omega⟩
      have h2 := hle [f] factors[i] (List.singleton_sublist.2 hff)
      simp at h2 h1 ⊢
      omega⟩⟩) hB (fun i => by
      obtain ⟨v, v1, v2, v3⟩ := prod_word (u i) (hu i) (((factors[i.1]'(by omega)).take (k + 1)).map (permAt n))
      refine ⟨v, v1, ?_, by rw [hprod i, v3]⟩
      have h1 := hb i
      have h2 := hle ((factors[i.1]'(by omega)).take (k + 1)) (factors[i.1]'(by omega)) (List.take_sublist _ _)
      rw [v2, List.map_map]
      have : ((List.map (inv ∘ permAt n) (List.take (k + 1) (factors[i.1]'(by omega)))).sum) = ((List.take (k + 1) (factors[i.1]'(by omega))).map fun f => inv (permAt n f)).sum := rfl
      omega)
  refine ⟨s1, C, s2, ?_⟩
  intro i
  have := s3 i
  dsimp only at this ⊢
  rwa [hprod i] at this

/-- The positive word of the part of a braid that is a power of the half twist, up to full twists. -/
theorem delta_word (n : Nat) (q : ℤ) : ∃ u : List Nat, (∀ s ∈ u, s + 1 < n) ∧ u.length = (q % 2).toNat * (n * (n - 1) / 2) ∧ halfTwist n ^ (q % 2).toNat = posWord n u := by
  obtain ⟨u, u1, u2, u3⟩ := halfTwist_word n
  have h : (q % 2).toNat = 0 ∨ (q % 2).toNat = 1 := by omega
  rcases h with h | h
  · exact ⟨[], by simp, by simp [h], by simp [h, posWord]⟩
  · exact ⟨u, u1, by simp [h, u2], by simp [h, u3]⟩

/-- Over the integers the evaluators with machine integers do what they do with exact ones, for braids that are not too long. -/
theorem gnf_int_same {m M : Nat} (hn : 2 ≤ n) (hl : n < lim) (hW : WordsBd ρ m M) (hM : M < 2 ^ (w - 1))
    (H : Realises (⟨n, 0, G, I⟩ : RepBase d) ρ) (hd : 0 < d) (hw : 1 ≤ w)
    (xs : List NF) (hx : ∀ x ∈ xs, IsGNF lim ω n x ∧ (x.power % 2).toNat * (n * (n - 1) / 2) + (x.factors.map fun f => inv (permAt n f)).sum ≤ m) :
    (⟨n, 0, G, I⟩ : RepBase d).evalSameW w (GNF.tbl lim ω) xs = (⟨n, 0, G, I⟩ : RepBase d).evalSame (GNF.tbl lim ω) xs := by
  obtain ⟨t, R⟩ := exists_greal lim ω hn hl
  set rep : RepBase d := ⟨n, 0, G, I⟩ with hrepd
  have hp : rep.p ≠ 1 := by show (0 : Nat) ≠ 1; decide
  have key : ∀ x ∈ xs, ∃ k P, NF.tauIndex x.power t.tauOrder = .ok k ∧ rep.deltaImageW w (GNF.tbl lim ω) k = .ok P ∧ rep.deltaImage (GNF.tbl lim ω) k = .ok P ∧
      RepBase.Cn P ∧ UpToShift 0 P (fun _ => ρ (halfTwist n ^ (x.power % 2).toNat)) := by
    intro x hxm
    obtain ⟨e1, e2⟩ := R.1.tauIndex_ok x.power
    obtain ⟨P, p1, p2, p3, -⟩ := RepBase.deltaImage_spec (rep := rep) R.1 H hd hp e2
    have p3' : UpToShift 0 P (fun _ => ρ (halfTwist n ^ (x.power % 2).toNat)) := by have := p3; rwa [R.tauOrder] at this
    obtain ⟨u, u1, u2, u3⟩ := delta_word n x.power
    refine ⟨_, P, e1, RepBase.deltaImageW_eq p1 (b := M) (hW (b := fun _ => halfTwist n ^ (x.power % 2).toNat) p3' fun _ => ⟨u, u1, ?_, u3⟩)
      hM, p1, p2, p3'⟩
    have := (hx x hxm).2
    omega
  rw [RepBase.evalSameW, RepBase.evalSame]
  refine bind_congr_ok fun x0 hx0 => ?_
  have hL := RepBase.lookup_pos hx0
  dsimp only
  refine bind_congr_ok fun _ hall => bind_congr_ok fun t' ht' => ?_
  obtain rfl : t = t' := by have := R.1.ok; rw [show GNF.tbl lim ω n = .ok t' from ht'] at this; injection this with this; exact this.symm
  have hlen : ∀ x ∈ xs, x.factors.length = x0.canonicalLength := by
    rw [pyAssert] at hall
    split at hall
    · next hh =>
      simp only [List.all_eq_true, beq_iff_eq] at hh
      exact fun x hxm => hh x hxm
    · cases hall
  have hds : (xs.mapM fun x : NF => (do rep.deltaImageW w (GNF.tbl lim ω) (← NF.tauIndex x.power t.tauOrder) : Except Err (Img d))) =
      xs.mapM fun x : NF => (do rep.deltaImage (GNF.tbl lim ω) (← NF.tauIndex x.power t.tauOrder) : Except Err (Img d)) :=
    mapM_congr_fun fun x hxm => by
      obtain ⟨k, P, k1, k2, k3, -⟩ := key x hxm
      rw [k1, bind_ok, bind_ok, k2, k3]
  rw [hds]
  obtain ⟨ds, d1, d2, d3⟩ := mapM_spec (fun x : NF => do rep.deltaImage (GNF.tbl lim ω) (← NF.tauIndex x.power t.tauOrder))
    (fun x P => RepBase.Cn P ∧ UpToShift 0 P (fun _ => ρ (halfTwist n ^ (x.power % 2).toNat))) xs (by
      intro x hxm
      obtain ⟨k, P, k1, -, k3, k4⟩ := key x hxm
      exact ⟨P, by rw [k1, bind_ok, k3], k4⟩)
  obtain ⟨A0, a1, -, a3, -⟩ := RepBase.packN_image (p := 0) hL ds d2 (fun i => ρ (halfTwist n ^ (xs[i].power % 2).toNat)) (fun i hi => d3 i (by omega))
  rw [d1, bind_ok, bind_ok, a1, bind_ok, bind_ok]
  choose u u1 u2 u3 using fun q : ℤ => delta_word n q
  refine gnf_int_fold hW hM H hd R hw hL (xs.map NF.factors) (by simp) _ (fun fs hfs => ?_) (fun i => u xs[i].power) (fun i => u1 _) ?_ fun i => ?_
  · obtain ⟨x, hxm, rfl⟩ := List.mem_map.1 hfs
    exact ⟨hlen x hxm, (R.isGNF_iff.1 (hx x hxm).1).inR⟩
  · simpa only [← u3] using a3
  · have := (hx xs[i] (List.getElem_mem _)).2
    rw [u2, List.getElem_map]
    exact this

theorem gnf_int_integers {m M : Nat} (hn : 2 ≤ n) (hl : n < lim) (hW : WordsBd ρ m M) (hM : M < 2 ^ (w - 1))
    (H : Realises (⟨n, 0, G, I⟩ : RepBase d) ρ) (hd : 0 < d) (hw : 1 ≤ w)
    (seqs : List (List Nat)) (hx : ∀ fs ∈ seqs, (fs.map fun f => inv (permAt n f)).sum ≤ m) :
    (⟨n, 0, G, I⟩ : RepBase d).evalIntegersW w (GNF.tbl lim ω) seqs = (⟨n, 0, G, I⟩ : RepBase d).evalIntegers (GNF.tbl lim ω) seqs := by
  obtain ⟨t, R⟩ := exists_greal lim ω hn hl
  set rep : RepBase d := ⟨n, 0, G, I⟩ with hrepd
  have hp : rep.p ≠ 1 := by show (0 : Nat) ≠ 1; decide
  rw [RepBase.evalIntegersW, RepBase.evalIntegers]
  refine bind_congr_ok fun s0 hs0 => ?_
  have hL := RepBase.lookup_pos hs0
  dsimp only
  refine bind_congr_ok fun _ hlen => bind_congr_ok fun t' ht' => ?_
  obtain rfl : t = t' := by have := R.1.ok; rw [show GNF.tbl lim ω n = .ok t' from ht'] at this; injection this with this; exact this.symm
  refine bind_congr_ok fun _ hall => ?_
  have hlen : ∀ s ∈ seqs, s.length = s0.length := by
    rw [pyAssert] at hlen
    split at hlen
    · next hh => simpa only [List.all_eq_true, beq_iff_eq] using hh
    · cases hlen
  have hall : ∀ s ∈ seqs, ∀ x ∈ s, x < t.order := by
    rw [pyAssert] at hall
    split at hall
    · next hh => simpa only [List.all_eq_true, decide_eq_true_eq] using hh
    · cases hall
  have hid : permAt n t.id = 1 := R.1.spec.v_id
  have hinv : inv (permAt n t.id) ≤ m := by rw [hid, inv_one]; omega
  rw [gnf_int_factor hW hM H hd R R.1.spec.id_lt hinv]
  obtain ⟨P, p1, p2⟩ := RepBase.factorImage_spec (rep := rep) R.1 H hd hp R.1.spec.id_lt
  obtain ⟨A0, a1, -, a3, -⟩ := RepBase.packN_image (p := 0) Nat.one_pos [P] rfl (fun _ => ρ (lift (permAt n t.id))) (fun i hi => by
    obtain rfl : i = 0 := by simp at hi; omega
    exact ⟨⟨p2.first, p2.last⟩, p2.shift⟩)
  rw [p1, bind_ok, bind_ok, a1, bind_ok, bind_ok]
  split
  · rfl
  · rw [gnf_int_fold hW hM H hd R hw hL seqs rfl _ (fun fs hfs => ⟨hlen fs hfs, hall fs hfs⟩) (fun _ => []) (by simp) ?_ fun i => ?_]
    · intro i
      obtain ⟨k, hk⟩ := a3 0
      refine ⟨k, ?_⟩
      have e : Polymat.denMod 0 (A0.map fun S (_ : Fin seqs.length) => S 0) i = Polymat.denMod 0 A0 0 := denMod_of_den (den_eq_iff.2 fun e => ?_)
      · rw [e, hk]; dsimp only; rw [hid, lift_hom.one]; simp [posWord]
      · by_cases he : e < A0.length
        · rw [slice_lt _ (by simpa using he), slice_lt _ he, List.getElem_map]
        · rw [slice_ge _ (by simp; omega), slice_ge _ (by omega)]; rfl
    · simpa using hx _ (List.getElem_mem i.2)


section cell
variable {r : Nat} {ρ : Braid n →* LMat 0 (dimension n r)}

/-- A tensor for braids that are short positive words has small coefficients. -/
theorem bd_words {α : Type} (hn : 2 ≤ n) (h : 2 * r ≤ n) (hrep : cellRep n r 0 = .ok ⟨n, 0, G, I⟩) (H : Realises (⟨n, 0, G, I⟩ : RepBase (dimension n r)) ρ)
    {A : PArr α (dimension n r) (dimension n r)} {b : α → Braid n} {m : Nat} (hA : UpToShift 0 A fun a => ρ (b a))
    (hb : ∀ a, ∃ u : List Nat, (∀ s ∈ u, s + 1 < n) ∧ u.length ≤ m ∧ b a = posWord n u) : Bd (2 ^ m) A := by
  refine bd_of_small fun a => ?_
  obtain ⟨u, u1, u2, u3⟩ := hb a
  obtain ⟨N, n1, n2⟩ := jones_small (by omega) h hrep H u u1
  obtain ⟨k, hk⟩ := hA a
  refine ⟨N, small_mono n1 u2, k, ?_⟩
  rw [hk]; dsimp only; rw [u3, n2]

theorem int_factor (hn : 2 ≤ n) (h : 2 * r ≤ n) (hrep : cellRep n r 0 = .ok ⟨n, 0, G, I⟩) (H : Realises (⟨n, 0, G, I⟩ : RepBase (dimension n r)) ρ)
    (hd : 0 < dimension n r) {t : NFTable (List Nat)} (R : GReal lim ω n t) {m : Nat} (hm : m < w - 1) {f : Nat} (hf : f < t.order) (hi : inv (permAt n f) ≤ m) :
    (⟨n, 0, G, I⟩ : RepBase (dimension n r)).factorImageW w (GNF.tbl lim ω) f = (⟨n, 0, G, I⟩ : RepBase (dimension n r)).factorImage (GNF.tbl lim ω) f :=
  gnf_int_factor (m := m) (M := 2 ^ m) (bd_words hn h hrep H) (Nat.pow_lt_pow_right (by norm_num) hm) H hd R hf hi

/-- Over the integers the evaluators of `JonesCellRep` with machine integers do what they do with exact ones, for braids that are not too long. -/
theorem cell_int_same (hn : 2 ≤ n) (hl : n < lim) (h : 2 * r ≤ n) (hrep : cellRep n r 0 = .ok ⟨n, 0, G, I⟩)
    (H : Realises (⟨n, 0, G, I⟩ : RepBase (dimension n r)) ρ) (hd : 0 < dimension n r) {m : Nat} (hw : 1 ≤ w) (hm : m < w - 1)
    (xs : List NF) (hx : ∀ x ∈ xs, IsGNF lim ω n x ∧ (x.power % 2).toNat * (n * (n - 1) / 2) + (x.factors.map fun f => inv (permAt n f)).sum ≤ m) :
    (⟨n, 0, G, I⟩ : RepBase (dimension n r)).evalSameW w (GNF.tbl lim ω) xs = (⟨n, 0, G, I⟩ : RepBase (dimension n r)).evalSame (GNF.tbl lim ω) xs :=
  gnf_int_same (m := m) (M := 2 ^ m) hn hl (bd_words hn h hrep H) (Nat.pow_lt_pow_right (by norm_num) hm) H hd hw xs hx

theorem cell_int_integers (hn : 2 ≤ n) (hl : n < lim) (h : 2 * r ≤ n) (hrep : cellRep n r 0 = .ok ⟨n, 0, G, I⟩)
    (H : Realises (⟨n, 0, G, I⟩ : RepBase (dimension n r)) ρ) (hd : 0 < dimension n r) {m : Nat} (hw : 1 ≤ w) (hm : m < w - 1)
    (seqs : List (List Nat)) (hx : ∀ fs ∈ seqs, (fs.map fun f => inv (permAt n f)).sum ≤ m) :
    (⟨n, 0, G, I⟩ : RepBase (dimension n r)).evalIntegersW w (GNF.tbl lim ω) seqs = (⟨n, 0, G, I⟩ : RepBase (dimension n r)).evalIntegers (GNF.tbl lim ω) seqs :=
  gnf_int_integers (m := m) (M := 2 ^ m) hn hl (bd_words hn h hrep H) (Nat.pow_lt_pow_right (by norm_num) hm) H hd hw seqs hx

end cell
end Peyl
